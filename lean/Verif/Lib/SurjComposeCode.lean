import Verif.Lib.SurjCompose
import Verif.Lib.SurjConv

/-! # The loops of `compose` and the recursive form -/

set_option linter.unusedSectionVars false

namespace Comch.SurjComp
open Spec Elem SurjElem
open Finsupp (single)

variable {R : Type} [CommRing R] {i s : Nat}

/-! ### degenerate operands -/

theorem pr_hasRep_smul {c : R} {v : List Nat →₀ R} (h : pr hasRep v = 0) : pr hasRep (c • v) = 0 := by
  rw [map_smul, h, smul_zero]

theorem cmp_i_cons_head (t : List Nat) (a : Nat) (w : List Nat) :
    ∃ v, cmp (R := R) i s (i :: t) (a :: w) = consV (up i a) v := by
  rw [cmp_i_cons]
  by_cases h : i ∈ t ∨ w = []
  · rw [if_pos h]; exact ⟨_, by rw [← map_smul, ← map_add]⟩
  · rw [if_neg h]; exact ⟨_, by rw [← map_smul, add_zero]⟩

theorem pr_cmp_left (k1 k2 : List Nat) (h : hasRep k1 = true) : pr hasRep (cmp (R := R) i s k1 k2) = 0 := by
  revert h
  induction k1, k2 using cmp_induction i with
  | hnil k2 => intro h; simp [hasRep] at h
  | hne j t k2 hj ih =>
    intro h
    rw [cmp_ne hj]
    cases t with
    | nil => simp [hasRep] at h
    | cons l t =>
      simp only [hasRep, Bool.or_eq_true, beq_iff_eq] at h
      rcases h with rfl | h
      · rw [cmp_ne hj]; exact pr_hasRep_cc _ _
      · exact pr_hasRep_consV (ih h)
  | hin t => intro _; simp
  | hic t a w ih1 ih2 =>
    intro h
    rw [cmp_i_cons, map_add, pr_hasRep_smul (pr_hasRep_consV (ih1 h)), zero_add]
    split
    · cases t with
      | nil => simp [hasRep] at h
      | cons l t =>
        simp only [hasRep, Bool.or_eq_true, beq_iff_eq] at h
        rcases h with rfl | h
        · obtain ⟨v, hv⟩ := cmp_i_cons_head (R := R) (i := i) (s := s) t a w
          rw [hv]; exact pr_hasRep_cc _ _
        · exact pr_hasRep_consV (ih2 h)
    · simp

theorem pr_cmp_right (k1 k2 : List Nat) (h1 : i ∈ k1) (h : hasRep k2 = true) :
    pr hasRep (cmp (R := R) i s k1 k2) = 0 := by
  revert h1 h
  induction k1, k2 using cmp_induction i with
  | hnil k2 => intro h; simp at h
  | hne j t k2 hj ih =>
    intro h1 h
    rw [cmp_ne hj]
    exact pr_hasRep_consV (ih (by simpa [Ne.symm hj] using h1) h)
  | hin t => intro _ h; simp [hasRep] at h
  | hic t a w ih1 ih2 =>
    intro _ h
    have h1 : pr hasRep (consV (up i a) (cmp (R := R) i s (i :: t) w)) = 0 := by
      cases w with
      | nil => simp [hasRep] at h
      | cons b w =>
        simp only [hasRep, Bool.or_eq_true, beq_iff_eq] at h
        rcases h with rfl | h
        · obtain ⟨v, hv⟩ := cmp_i_cons_head (R := R) (i := i) (s := s) t a w
          rw [hv]; exact pr_hasRep_cc _ _
        · exact pr_hasRep_consV (ih1 (by simp) h)
    rw [cmp_i_cons, map_add, pr_hasRep_smul h1, zero_add]
    split
    · rename_i hc
      by_cases hit : i ∈ t
      · exact pr_hasRep_consV (ih2 hit h)
      · rcases hc with hc | rfl
        · exact absurd hc hit
        · simp [hasRep] at h
    · simp

/-! ### caesuras -/

/-- Number of caesuras at positions `a ≤ e < b`. -/
def cc (k : List Nat) (a b : Nat) : Nat := ((caesuras k).filter fun e => a ≤ e && e < b).length

theorem caesuras_cons (x : Nat) (t : List Nat) :
    caesuras (x :: t) = (if x ∈ t then [0] else []) ++ (caesuras t).map (· + 1) := by
  unfold caesuras
  rw [enumerate_cons, List.filter_cons, List.filter_map, List.map_map]
  simp only [Nat.zero_add, List.drop_succ_cons, List.drop_zero, List.contains_iff_mem]
  by_cases h : x ∈ t
  · simp [h, List.map_map, Function.comp_def]
  · simp [h, List.map_map, Function.comp_def]

theorem cc_self (k : List Nat) (a : Nat) : cc k a a = 0 := by
  unfold cc
  rw [List.length_eq_zero_iff, List.filter_eq_nil_iff]
  intro e _
  simp

theorem cc_succ (x : Nat) (t : List Nat) (a b : Nat) : cc (x :: t) (a + 1) (b + 1) = cc t a b := by
  unfold cc
  rw [caesuras_cons, List.filter_append, List.length_append, List.filter_map, List.length_map]
  have h1 : (List.filter (fun e => decide (a + 1 ≤ e) && decide (e < b + 1)) (if x ∈ t then [0] else [])) = [] := by
    split <;> simp
  rw [h1, List.length_nil, zero_add]
  congr 2
  funext e
  simp

theorem cc_zero_succ (x : Nat) (t : List Nat) (b : Nat) :
    cc (x :: t) 0 (b + 1) = (if x ∈ t then 1 else 0) + cc t 0 b := by
  unfold cc
  rw [caesuras_cons, List.filter_append, List.length_append, List.filter_map, List.length_map]
  congr 1
  · split <;> simp
  · congr 2
    funext e
    simp

theorem cc_add (k : List Nat) {a b c : Nat} (h1 : a ≤ b) (h2 : b ≤ c) : cc k a b + cc k b c = cc k a c := by
  unfold cc
  generalize caesuras k = l
  induction l with
  | nil => rfl
  | cons e l ih =>
    simp only [List.filter_cons]
    by_cases h3 : a ≤ e <;> by_cases h4 : e < b <;> by_cases h5 : b ≤ e <;> by_cases h6 : e < c <;>
      simp [h3, h4, h5, h6] <;> omega

/-- Degrees of the suffixes at the occurrences of `i`. -/
def degs (i : Nat) : List Nat → List Nat
  | [] => []
  | j :: t => if j = i then sdeg (j :: t) :: degs i t else degs i t

theorem cc_length (k : List Nat) (hk : k ≠ []) : cc k 0 (k.length - 1) = sdeg k := by
  induction k with
  | nil => simp at hk
  | cons x t ih =>
    cases t with
    | nil => simp [cc_self, sdeg]
    | cons y t =>
      have ih := ih (by simp)
      simp only [List.length_cons, Nat.add_sub_cancel] at ih ⊢
      rw [cc_zero_succ, ih]; rfl

theorem positions_degs (k : List Nat) : (positions k i).map (fun p => cc k p (k.length - 1)) = degs i k := by
  induction k with
  | nil => rfl
  | cons x t ih =>
    rw [positions_cons, List.map_append, List.map_map]
    have h2 : (positions t i).map ((fun p => cc (x :: t) p ((x :: t).length - 1)) ∘ (· + 1)) = degs i t := by
      rw [← ih]
      apply List.map_congr_left
      intro p hp
      have hl : 0 < t.length := by
        rw [positions_eq] at hp
        have := (List.mem_filter.1 hp).1
        simp at this
        omega
      simp only [Function.comp, List.length_cons]
      rw [show t.length + 1 - 1 = (t.length - 1) + 1 by omega, cc_succ]
    rw [h2, degs]
    split
    · rename_i h
      simp only [List.map_cons, List.map_nil, List.singleton_append]
      rw [cc_length _ (by simp), h]
    · simp

theorem degs_length (k : List Nat) : (degs i k).length = k.count i := by
  rw [← positions_degs, List.length_map, positions_length]

/-- Sum of products. -/
def dot (l m : List Nat) : Nat := (List.zipWith (· * ·) l m).sum

@[simp] theorem dot_cons (a b : Nat) (l m : List Nat) : dot (a :: l) (b :: m) = a * b + dot l m := by
  simp [dot]

@[simp] theorem dot_nil (l : List Nat) : dot l [] = 0 := by simp [dot]

/-- Numbers of caesuras of the pieces. -/
def ccs (k : List Nat) (p : List Nat) : List Nat := (pairwise p).map fun ij => cc k ij.1 ij.2

theorem ccs_cons_cons (k : List Nat) (a b : Nat) (p : List Nat) :
    ccs k (a :: b :: p) = cc k a b :: ccs k (b :: p) := by simp [ccs, pairwise]

theorem ccs_succ (x : Nat) (t : List Nat) (p : List Nat) : ccs (x :: t) (p.map (· + 1)) = ccs t p := by
  induction p with
  | nil => rfl
  | cons a p ih =>
    cases p with
    | nil => rfl
    | cons b p =>
      simp only [List.map_cons, ccs_cons_cons, cc_succ] at ih ⊢
      rw [ih]

/-- Telescoping. -/
theorem ccs_sum (k : List Nat) (p : List Nat) (a N : Nat) (h : (a :: (p ++ [N])).Pairwise (· ≤ ·)) :
    (ccs k (a :: (p ++ [N]))).sum = cc k a N := by
  induction p generalizing a with
  | nil => simp [ccs, pairwise]
  | cons b p ih =>
    rw [List.cons_append, ccs_cons_cons, List.sum_cons, ih b (List.pairwise_cons.1 h).2]
    have h' := List.pairwise_cons.1 h
    have h'' := List.pairwise_cons.1 h'.2
    exact cc_add k (h'.1 b (by simp)) (h''.1 N (by simp))

/-- Insert the parts at the occurrences of `i`. -/
def spl (i s : Nat) : List Nat → List (List Nat) → List Nat
  | [], _ => []
  | j :: t, parts => if j = i then parts.headD [] ++ spl i s t parts.tail else sh i s j :: spl i s t parts

theorem spliceLoop_eq (k1 : List Nat) (parts : List (List Nat)) (h : k1.count i ≤ parts.length) :
    spliceLoop i (some s) k1 parts = .ok (spl i s k1 parts) := by
  induction k1 generalizing parts with
  | nil => rfl
  | cons j t ih =>
    rw [spliceLoop.eq_def, spl]
    simp only
    by_cases h1 : j = i
    · subst h1
      rw [if_neg (by omega), if_pos rfl, if_pos rfl]
      cases parts with
      | nil => simp at h
      | cons p parts =>
        simp only [List.headD_cons, List.tail_cons]
        rw [ih parts (by simpa using h)]
        rfl
    · rw [List.count_cons_of_ne h1] at h
      by_cases h2 : j < i
      · rw [if_pos h2, if_neg h1, ih parts h]
        simp [sh, h2]
        rfl
      · rw [if_neg h2, if_neg h1, if_neg h1, ih parts h]
        simp [sh, h2]
        rfl

theorem spl_not_mem {t : List Nat} (hit : i ∉ t) (parts : List (List Nat)) :
    spl i s t parts = t.map (sh i s) := by
  induction t with
  | nil => rfl
  | cons j t ih =>
    simp only [List.mem_cons, not_or] at hit
    rw [spl, if_neg (Ne.symm hit.1), ih hit.2, List.map_cons]

theorem ite_pow_helper (P : Prop) [Decidable P] (d m x : Nat) :
    (if P then (-1 : R) ^ d else 1) * (-1 : R) ^ (m * d + x) =
      (-1 : R) ^ (((if P then 1 else 0) + m) * d + x) := by
  split
  · rw [← pow_add]; congr 1; ring
  · rw [one_mul]; congr 1; ring

/-- The sum over all splittings. -/
theorem sum_splittings (k1 w : List Nat) (h1 : i ∈ k1) (hw : w ≠ []) :
    ((combinationsWithReplacement (List.range w.length) (k1.count i - 1)).map fun p =>
      (-1 : R) ^ dot (ccs w (0 :: (p ++ [w.length - 1]))) (degs i k1) •
        bv R (spl i s k1 ((cuts w (0 :: (p ++ [w.length - 1]))).map (List.map (up i))))).sum =
      cmp i s k1 w := by
  revert h1 hw
  induction k1, w using cmp_induction i with
  | hnil k2 => intro h; simp at h
  | hne j t k2 hj ih =>
    intro h1 hw
    rw [cmp_ne hj, ← ih (by simpa [Ne.symm hj] using h1) hw, map_list_sum, List.map_map,
      List.count_cons_of_ne hj]
    congr 1
    apply List.map_congr_left
    intro p _
    simp only [Function.comp, map_smul, consV_single, degs, if_neg hj, spl]
  | hin t => intro _ h; simp at h
  | hic t a w ih1 ih2 =>
    intro _ _
    have hdeg : degs i (i :: t) = sdeg (i :: t) :: degs i t := by rw [degs, if_pos rfl]
    rw [cmp_i_cons, List.count_cons_self, Nat.add_sub_cancel, hdeg]
    by_cases hit : i ∈ t
    · have hc := List.count_pos_iff.2 hit
      obtain ⟨c, hc'⟩ : ∃ c, t.count i = c + 1 := ⟨t.count i - 1, by omega⟩
      have ih2 := ih2 hit (by simp)
      rw [hc', Nat.add_sub_cancel] at ih2
      rw [hc', if_pos (Or.inl hit), List.length_cons, List.range_succ_eq_map, cwr_cons, List.map_append,
        List.sum_append, add_comm, ← List.range_succ_eq_map, List.map_map]
      congr 1
      · by_cases hw : w = []
        · subst hw
          simp [cwr_nil]
        · have ih1 := ih1 (by simp) hw
          rw [List.count_cons_self, hc', Nat.add_sub_cancel, hdeg] at ih1
          obtain ⟨n, hn⟩ : ∃ n, w.length = n + 1 :=
            ⟨w.length - 1, by have := List.length_pos_iff.2 hw; omega⟩
          rw [hn, Nat.add_sub_cancel] at ih1
          rw [← ih1, map_list_sum, List.smul_sum, hn, cwr_map, List.map_map, List.map_map, List.map_map,
            Nat.add_sub_cancel]
          congr 1
          apply List.map_congr_left
          intro q hq
          have hl := length_of_mem_cwr hq
          cases q with
          | nil => simp at hl
          | cons q0 q =>
            have e1 : slice (a :: w) 0 (q0 + 1 + 1) = a :: slice w 0 (q0 + 1) := by simp [slice]
            have e2 : cuts (a :: w) ((q0 + 1) :: (q.map Nat.succ ++ [n + 1])) = cuts w (q0 :: (q ++ [n])) := by
              rw [← cuts_succ a w]; simp
            have e3 : ccs (a :: w) ((q0 + 1) :: (q.map Nat.succ ++ [n + 1])) = ccs w (q0 :: (q ++ [n])) := by
              rw [← ccs_succ a w]; simp
            simp only [Function.comp, List.map_cons, List.cons_append, cuts_cons_cons, ccs_cons_cons,
              Nat.succ_eq_add_one, e1, e3, cc_zero_succ, dot_cons, map_smul, spl, if_true,
              List.headD_cons, List.tail_cons, consV_single, smul_smul]
            rw [e2]
            congr 1
            exact (ite_pow_helper _ _ _ _).symm
      · rw [← ih2, map_list_sum, List.map_map]
        congr 1
        apply List.map_congr_left
        intro p _
        simp only [Function.comp, List.cons_append, cuts_cons_cons, ccs_cons_cons, cc_self, dot_cons,
          zero_mul, zero_add, List.map_cons, spl, if_true, List.headD_cons, List.tail_cons, map_smul,
          consV_single]
        simp [slice]
    · rw [List.count_eq_zero.2 hit, cwr_zero]
      have hd0 : degs i t = [] := by
        rw [← List.length_eq_zero_iff, degs_length, List.count_eq_zero.2 hit]
      have hspl := spl_not_mem (s := s) hit
      by_cases hw : w = []
      · subst hw
        simp [cuts, pairwise, ccs, cc_self, dot, spl, slice, hspl, cmp_not_mem hit]
      · have ih1 := ih1 (by simp) hw
        obtain ⟨n, hn⟩ : ∃ n, w.length = n + 1 :=
          ⟨w.length - 1, by have := List.length_pos_iff.2 hw; omega⟩
        rw [List.count_cons_self, List.count_eq_zero.2 hit, hdeg, hn, cwr_zero] at ih1
        rw [if_neg (show ¬ (i ∈ t ∨ w = []) by simp [hit, hw]), add_zero, ← ih1, List.length_cons, hn]
        have e1 : slice (a :: w) 0 (n + 1 + 1) = a :: slice w 0 (n + 1) := by simp [slice]
        simp only [List.map_cons, List.map_nil, List.sum_cons, List.sum_nil, add_zero, List.nil_append,
          Nat.add_sub_cancel, cuts_cons_cons, ccs_cons_cons, e1, cc_zero_succ, spl, if_true, List.headD_cons,
          hspl, map_smul, consV_single, smul_smul, hd0, dot_cons, dot_nil, List.cons_append]
        congr 1
        have := ite_pow_helper (R := R) (a ∈ w) (sdeg (i :: t)) (cc w 0 n) 0
        simpa using this.symm

/-! ### the sign of the code -/

theorem dot_mod (l m : List Nat) (F : Nat → Nat) (h : l.length = m.length)
    (hF : ∀ idx < m.length, F idx % 2 = m.getD idx 0 % 2) :
    (((enumerate l).map fun p => if p.2 % 2 ≠ 0 then F p.1 % 2 else 0).sum) % 2 = dot l m % 2 := by
  induction l generalizing m F with
  | nil => cases m <;> simp_all [enumerate, dot]
  | cons a l ih =>
    cases m with
    | nil => simp at h
    | cons b m =>
      rw [enumerate_cons, List.map_cons, List.sum_cons, List.map_map, dot_cons]
      have ih := ih m (fun idx => F (idx + 1)) (by simpa using h) (fun idx hidx => by
        have := hF (idx + 1) (by simpa using hidx)
        simpa using this)
      have h0 := hF 0 (by simp)
      simp only [List.getD_cons_zero] at h0
      have e : ((fun p : Nat × Nat => if p.2 % 2 ≠ 0 then F p.1 % 2 else 0) ∘ fun p => (p.1 + 1, p.2)) =
          fun p : Nat × Nat => if p.2 % 2 ≠ 0 then F (p.1 + 1) % 2 else 0 := rfl
      rw [e]
      simp only
      rw [Nat.add_mod, ih, Nat.add_mod (a * b)]
      congr 2
      rw [Nat.mul_mod, ← h0]
      rcases Nat.mod_two_eq_zero_or_one a with ha | ha <;> simp [ha]

theorem spliceWeights_eq (k p : List Nat) : spliceWeights (caesuras k) p = (ccs k p).map (· % 2) := by
  simp [spliceWeights, ccs, cc, Function.comp_def]

theorem sum_map_mod (l : List Nat) : (l.map (· % 2)).sum % 2 = l.sum % 2 := by
  induction l with
  | nil => rfl
  | cons a l ih => simp only [List.map_cons, List.sum_cons]; omega

theorem ccs_drop (k : List Nat) (p : List Nat) (n : Nat) : (ccs k p).drop n = ccs k (p.drop n) := by
  unfold ccs pairwise
  rw [← List.map_drop]
  congr 1
  apply List.ext_getElem?
  intro m
  simp [List.getElem?_drop, List.zip, List.getElem?_zipWith, Nat.add_assoc, Nat.add_comm 1 m]

theorem positions_sorted (k : List Nat) : (positions k i ++ [k.length - 1]).Pairwise (· ≤ ·) := by
  rw [List.pairwise_append]
  refine ⟨?_, by simp, ?_⟩
  · rw [positions_eq]
    exact (List.pairwise_lt_range.imp fun h => Nat.le_of_lt h).filter _
  · intro a ha b hb
    rw [positions_eq] at ha
    have := (List.mem_filter.1 ha).1
    simp at this hb
    omega

theorem bfSign_eq (k1 k2 p : List Nat) (hp : p.length = k1.count i + 1) :
    bfSign (positions k1 i) k1 p k2 = (-1) ^ dot (ccs k2 p) (degs i k1) := by
  unfold bfSign
  simp only
  rw [spliceWeights_eq, spliceWeights_eq]
  have hl : (ccs k2 p).length = (degs i k1).length := by
    rw [degs_length]; simp [ccs, pairwise, hp]
  have key := dot_mod (ccs k2 p) (degs i k1)
    (fun idx => (((ccs k1 ([0] ++ positions k1 i ++ [k1.length - 1])).map (· % 2)).drop (idx + 1)).sum) hl
    (fun idx hidx => by
      rw [← List.map_drop, sum_map_mod, ccs_drop, List.singleton_append, List.cons_append, List.drop_succ_cons,
        List.drop_append_of_le_length (by rw [← positions_degs, List.length_map] at hidx; omega)]
      rw [degs_length, ← positions_length] at hidx
      rw [List.drop_eq_getElem_cons hidx, List.cons_append, ccs_sum]
      · rw [← positions_degs, List.getD_eq_getElem _ _ (by simpa using hidx), List.getElem_map]
      · have h := (positions_sorted (i := i) k1).sublist (List.drop_sublist idx _)
        rw [List.drop_append_of_le_length (by omega), List.drop_eq_getElem_cons hidx] at h
        exact h)
  have e : (enumerate ((ccs k2 p).map (· % 2))) = (enumerate (ccs k2 p)).map fun q => (q.1, q.2 % 2) := by
    unfold enumerate
    rw [List.length_map, List.zip_map_right]
    rfl
  rw [e, List.map_map]
  have hmod : ∀ a b : Nat, a % 2 = b % 2 → (-1 : Int) ^ a = (-1) ^ b := by
    intro a b h
    rw [← Nat.div_add_mod a 2, ← Nat.div_add_mod b 2, h]
    simp [pow_add, pow_mul]
  exact hmod _ _ key

end Comch.SurjComp
