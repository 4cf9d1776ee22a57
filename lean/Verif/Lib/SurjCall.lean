import Verif.Lib.SurjSignCode

/-! # The action of a surjection on a simplex -/

set_option linter.unusedSectionVars false

namespace Comch.SurjComp
open Spec Elem SurjElem
open Finsupp (single)

variable {R : Type} [CommRing R]

/-- The word of a list of pieces labelled by the letters of a surjection. -/
def joinW : List Nat → List (List Nat) → LW
  | x :: k, p :: ps => p.map (fun a => (x, a)) ++ joinW k ps
  | _, _ => []

@[simp] theorem joinW_cons (x : Nat) (k p : List Nat) (ps : List (List Nat)) :
    joinW (x :: k) (p :: ps) = p.map (fun a => (x, a)) ++ joinW k ps := rfl
@[simp] theorem joinW_nil_left (ps : List (List Nat)) : joinW [] ps = [] := by cases ps <;> rfl
@[simp] theorem joinW_nil_right (k : List Nat) : joinW k [] = [] := by cases k <;> rfl

/-- The dimensions of the pieces. -/
def dims (ps : List (List Nat)) : List Int := ps.map fun p => (p.length : Int) - 1

/-- The sign exponent of a path. -/
def pathE : List Nat → List (List Nat) → Int
  | x :: k, p :: ps => ((p.length : Int) - 1) * sdeg (x :: k) + pathE k ps
  | _, _ => 0

theorem letters_append (u w : LW) : letters (u ++ w) = letters u ++ letters w := by simp [letters]

theorem letters_joinW_cons (x : Nat) (k p : List Nat) (ps : List (List Nat)) :
    letters (joinW (x :: k) (p :: ps)) = List.replicate p.length x ++ letters (joinW k ps) := by
  rw [joinW_cons, letters_append]
  congr 1
  simp [letters, Function.comp_def, List.map_const']

theorem mem_letters_joinW {k : List Nat} {ps : List (List Nat)} (hl : ps.length = k.length)
    (hne : ∀ p ∈ ps, p ≠ []) (x : Nat) : x ∈ letters (joinW k ps) ↔ x ∈ k := by
  induction k generalizing ps with
  | nil => simp
  | cons y k ih =>
    cases ps with
    | nil => simp at hl
    | cons p ps =>
      rw [letters_joinW_cons, List.mem_append, List.mem_replicate, List.mem_cons,
        ih (by simpa using hl) (fun q hq => hne q (by simp [hq]))]
      have := List.length_pos_iff.2 (hne p (by simp))
      constructor
      · rintro (h | h)
        · exact Or.inl h.2
        · exact Or.inr h
      · rintro (h | h)
        · exact Or.inl ⟨by omega, h⟩
        · exact Or.inr h

theorem smaller_replicate_append (n y : Nat) (W : List Nat) (x : Nat) :
    smaller (List.replicate (n + 1) y ++ W) x =
      smaller W x + if y < x then n + (if y ∈ W then 1 else 0) else 0 := by
  induction n with
  | zero =>
    rw [List.replicate_one, List.singleton_append, smaller_cons]
    by_cases h1 : y ∈ W <;> by_cases h2 : y < x <;> simp [h1, h2]
  | succ n ih =>
    rw [List.replicate_succ, List.cons_append, smaller_cons, ih]
    by_cases h2 : y < x
    · have h3 : y ∈ List.replicate (n + 1) y ++ W ∧ y < x := ⟨by simp, h2⟩
      rw [if_pos h3, if_pos h2, if_pos h2]; omega
    · have h3 : ¬ (y ∈ List.replicate (n + 1) y ++ W ∧ y < x) := fun h => h2 h.2
      rw [if_neg h3, if_neg h2, if_neg h2]

theorem invE_replicate_append (n x : Nat) (W : List Nat) :
    invE (List.replicate (n + 1) x ++ W) = (n + if x ∈ W then 1 else 0) * smaller W x + invE W := by
  induction n with
  | zero =>
    rw [List.replicate_one, List.singleton_append, invE]
    by_cases h1 : x ∈ W <;> simp [h1]
  | succ n ih =>
    rw [List.replicate_succ, List.cons_append, invE, ih, if_pos (by simp),
      smaller_replicate_append, if_neg (Nat.lt_irrefl _)]
    ring

theorem smaller_joinW {k : List Nat} {ps : List (List Nat)} (hl : ps.length = k.length)
    (hne : ∀ p ∈ ps, p ≠ []) (x : Nat) :
    (smaller (letters (joinW k ps)) x : Int) = lowSum x (k.zip (dims ps)) + smaller k x := by
  induction k generalizing ps with
  | nil => simp [lowSum]
  | cons y k ih =>
    cases ps with
    | nil => simp at hl
    | cons p ps =>
      have hl' : ps.length = k.length := by simpa using hl
      have hne' : ∀ q ∈ ps, q ≠ [] := fun q hq => hne q (by simp [hq])
      have hp := List.length_pos_iff.2 (hne p (by simp))
      obtain ⟨n, hn⟩ : ∃ n, p.length = n + 1 := ⟨p.length - 1, by omega⟩
      have ih := ih hl' hne'
      rw [letters_joinW_cons, hn, smaller_replicate_append, smaller_cons]
      have hz : (y :: k).zip (dims (p :: ps)) = (y, (p.length : Int) - 1) :: k.zip (dims ps) := rfl
      rw [hz, lowSum_cons, hn]
      simp only [mem_letters_joinW hl' hne']
      push_cast
      rw [ih]
      by_cases h1 : y ∈ k <;> by_cases h2 : y < x <;> simp [h1, h2] <;> ring

theorem sdeg_filter (t : List Nat) (x : Nat) : sdeg t = smaller t x + sdeg (t.filter (x ≤ ·)) := by
  induction t with
  | nil => simp [sdeg, smaller]
  | cons y t ih =>
    rw [sdeg, smaller_cons, ih, List.filter_cons]
    by_cases h : x ≤ y
    · have hm : y ∈ t.filter (x ≤ ·) ↔ y ∈ t := by simp [h]
      have h3 : ¬ (y ∈ t ∧ y < x) := fun h' => by omega
      have h4 : decide (x ≤ y) = true := by simpa using h
      rw [if_neg h3, if_pos h4, sdeg]
      simp only [hm]
      omega
    · have h4 : ¬ decide (x ≤ y) = true := by simpa using h
      rw [if_neg h4]
      by_cases h2 : y ∈ t
      · have h3 : y ∈ t ∧ y < x := ⟨h2, by omega⟩
        rw [if_pos h2, if_pos h3]; omega
      · have h3 : ¬ (y ∈ t ∧ y < x) := fun h => h2 h.1
        rw [if_neg h2, if_neg h3]; omega

/-- The sign of the code is the sign of the path, up to the change of conventions. -/
theorem cexp_joinW {k : List Nat} {ps : List (List Nat)} (hl : ps.length = k.length)
    (hne : ∀ p ∈ ps, p ≠ []) :
    (cexp (k.zip (dims ps)) : ZMod 2) =
      ((invE (letters (joinW k ps)) + invE k + pathE k ps : Int) : ZMod 2) := by
  induction k generalizing ps with
  | nil => simp [cexp, invE, pathE]
  | cons x t ih =>
    cases ps with
    | nil => simp at hl
    | cons p ps =>
      have hl' : ps.length = t.length := by simpa using hl
      have hne' : ∀ q ∈ ps, q ≠ [] := fun q hq => hne q (by simp [hq])
      have hp := List.length_pos_iff.2 (hne p (by simp))
      obtain ⟨n, hn⟩ : ∃ n, p.length = n + 1 := ⟨p.length - 1, by omega⟩
      have ih := ih hl' hne'
      have hz : (x :: t).zip (dims (p :: ps)) = (x, (p.length : Int) - 1) :: t.zip (dims ps) := rfl
      have hf : (t.zip (dims ps)).map Prod.fst = t := List.map_fst_zip (by simp [dims, hl'])
      have hs := smaller_joinW hl' hne' x
      have hd := sdeg_filter t x
      rw [hz, cexp, hf, letters_joinW_cons, hn, invE_replicate_append, invE, pathE, sdeg, hn]
      simp only [mem_letters_joinW hl' hne']
      push_cast at ih ⊢
      have hs2 : ((smaller (letters (joinW t ps)) x : Nat) : ZMod 2) =
          ((lowSum x (t.zip (dims ps)) : Int) : ZMod 2) + (smaller t x : ZMod 2) := by
        have := congrArg (fun z : Int => (z : ZMod 2)) hs
        push_cast at this
        exact this
      rw [ih, hs2, hd]
      push_cast
      have h2 : (2 : ZMod 2) = 0 := rfl
      by_cases hx : x ∈ t
      · simp only [hx, if_true]
        push_cast
        linear_combination (-(n : ZMod 2) * smaller t x - smaller t x) * h2
      · simp only [hx, if_false]
        push_cast
        linear_combination (-(n : ZMod 2) * smaller t x) * h2

theorem cast_lowSum_mod (x : Nat) (k : List Nat) (w : List Int) :
    ((lowSum x (k.zip (w.map (· % 2))) : Int) : ZMod 2) = (lowSum x (k.zip w) : Int) := by
  induction k generalizing w with
  | nil => rfl
  | cons y k ih =>
    cases w with
    | nil => rfl
    | cons u w =>
      rw [List.map_cons, List.zip_cons_cons, List.zip_cons_cons, lowSum_cons, lowSum_cons]
      push_cast
      rw [ih]
      congr 1
      by_cases h : y < x
      · simp only [h, if_true]
        exact ZMod.intCast_mod u 2
      · simp only [h, if_false]

theorem cast_cexp_mod (k : List Nat) (w : List Int) (hw : w.length = k.length) :
    ((cexp (k.zip (w.map (· % 2))) : Int) : ZMod 2) = (cexp (k.zip w) : Int) := by
  induction k generalizing w with
  | nil => rfl
  | cons y k ih =>
    cases w with
    | nil => rfl
    | cons u w =>
      have hw' : w.length = k.length := by simpa using hw
      have hu : ((u % 2 : Int) : ZMod 2) = u := ZMod.intCast_mod u 2
      rw [List.map_cons, List.zip_cons_cons, List.zip_cons_cons, cexp, cexp,
        List.map_fst_zip (by simp [hw']), List.map_fst_zip (by simp [hw'])]
      push_cast
      rw [ih w hw', cast_lowSum_mod]
      simp only [hu]

theorem sg_computeSign {k : List Nat} {ps : List (List Nat)} (hl : ps.length = k.length)
    (hne : ∀ p ∈ ps, p ≠ []) :
    ((computeSign k (ps.map fun s => Simplex.dimension s % 2) : Int) : R) =
      sg R (invE (letters (joinW k ps))) * sg R (invE k) * sg R (pathE k ps) := by
  have he : (ps.map fun s => Simplex.dimension s % 2) = (dims ps).map (· % 2) := by
    simp [dims, Simplex.dimension, Function.comp_def]
  rw [he, computeSign_eq (by simp [dims, hl]), ← sg_add, ← sg_add]
  apply sg_eq_of_zmod
  rw [← cexp_joinW hl hne, cast_cexp_mod _ _ (by simp [dims, hl])]

/-! ### the cuts as paths -/

/-- Cuts: number of pieces, all of them non-empty; concatenation of pieces. -/
theorem aw_supported (t : Nat) {V : List Nat} (hV : V ≠ []) :
    aw (R := R) t V ∈ Finsupp.supported R R
      {ps : List (List Nat) | ps.length = t + 1 ∧ (∀ p ∈ ps, p ≠ []) ∧
        ∃ q ps', ps = q :: ps' ∧ q.head? = V.head?} := by
  induction t generalizing V with
  | zero =>
    rw [aw_zero]
    apply Finsupp.single_mem_supported
    exact ⟨rfl, by simpa using hV, V, [], rfl, rfl⟩
  | succ t iht =>
    induction V with
    | nil => exact absurd rfl hV
    | cons a V ihV =>
      rw [aw_cons]
      refine Submodule.add_mem _ ?_ ?_
      · refine mapK_supported _ (fun ps hps => ?_) (iht (V := a :: V) (by simp))
        refine ⟨by simp [hps.1], ?_, [a], ps, rfl, rfl⟩
        intro p hp
        rcases List.mem_cons.1 hp with rfl | hp
        · simp
        · exact hps.2.1 p hp
      · by_cases h : V = []
        · subst h
          rw [aw_nil, map_zero]
          exact Submodule.zero_mem _
        · refine lin_supported _ (fun ps hps => ?_) (ihV h)
          obtain ⟨h1, h2, q, ps', rfl, h4⟩ := hps
          apply Finsupp.single_mem_supported
          refine ⟨by simpa using h1, ?_, a :: q, ps', rfl, rfl⟩
          intro p hp
          rcases List.mem_cons.1 hp with rfl | hp
          · simp
          · exact h2 p (by simp [hp])

theorem pth_singleton (x : Nat) {V : List Nat} (hV : V ≠ []) :
    pth (R := R) [x] V = bv R (V.map fun a => (x, a)) := by
  induction V with
  | nil => exact absurd rfl hV
  | cons a V ih =>
    rw [pth_cons]
    by_cases h : V = []
    · subst h; simp
    · rw [if_neg (fun h' => h h'.2), ih h]
      simp [sdeg]

/-- The path sum is the sum over all cuts. -/
theorem pth_eq_aw (x : Nat) (t : List Nat) {V : List Nat} (hV : V ≠ []) :
    lin (fun ps => sg R (pathE (x :: t) ps) • bv R (joinW (x :: t) ps)) (aw t.length V) =
      pth (x :: t) V := by
  induction t generalizing x V with
  | nil =>
    rw [List.length_nil, aw_zero, lin_single, pth_singleton x hV]
    simp [pathE, sdeg]
  | cons y t iht =>
    induction V with
    | nil => exact absurd rfl hV
    | cons a V ihV =>
      rw [List.length_cons, aw_cons, map_add, pth_cons, if_neg (by simp), zero_add, add_comm]
      congr 1
      · by_cases h : V = []
        · subst h; simp [aw_nil]
        · rw [← ihV h, List.length_cons]
          have := BElem.lin_ext_supported (R := R)
            (f := (lin fun ps => sg R (pathE (x :: y :: t) ps) • bv R (joinW (x :: y :: t) ps)).comp (preV a))
            (g := (-1 : R) ^ sdeg (x :: y :: t) • (consV (x, a)).comp
              (lin fun ps => sg R (pathE (x :: y :: t) ps) • bv R (joinW (x :: y :: t) ps)))
            (S := {ps : List (List Nat) | ps.length = t.length + 1 + 1 ∧ (∀ p ∈ ps, p ≠ []) ∧
                ∃ q ps', ps = q :: ps' ∧ q.head? = V.head?})
            (fun ps hps => by
              obtain ⟨_, _, q, ps', rfl, _⟩ := hps
              simp only [LinearMap.comp_apply, LinearMap.smul_apply, preV_single, preK, one_smul, lin_single,
                map_smul, joinW_cons, consV_single, List.map_cons, List.cons_append]
              rw [smul_smul]
              congr 1
              rw [← sg_natCast (R := R), ← sg_add]
              congr 1
              simp only [pathE, List.length_cons]
              push_cast
              ring) (aw_supported (R := R) (t.length + 1) h)
          simpa using this
      · rw [← iht y (V := a :: V) (by simp)]
        generalize aw (R := R) t.length (a :: V) = u
        induction u using Finsupp.induction_linear with
        | zero => simp
        | add f g hf hg => simp only [map_add, hf, hg]
        | single ps c =>
          simp [pathE, smul_smul]

/-! ### the action on a simplex -/

theorem convW_convW (v : LW →₀ R) : convW (convW v) = v := by
  induction v using Finsupp.induction_linear with
  | zero => simp
  | add f g hf hg => simp only [map_add, hf, hg]
  | single k r =>
    rw [convW_single, map_smul, convW_single, smul_smul, one_mul, mul_assoc, sg_mul_self]
    simp

/-- The action of the surjection `k` (arity `r`) on the simplex `V`. -/
noncomputable def sact (r : Nat) (k V : List Nat) : List (List Nat) →₀ R :=
  sg R (invE k) • mapK (tensorOf r) (convW (pth k V))

/-- The summand of the code for one cut. -/
noncomputable def cutTerm (r : Nat) (k : List Nat) (ps : List (List Nat)) : List (List Nat) →₀ R :=
  ((computeSign k (ps.map fun s => Simplex.dimension s % 2) : Int) : R) • bv R (tensorOf r (joinW k ps))

theorem sact_eq (r : Nat) {k : List Nat} (hk : k ≠ []) {V : List Nat} (hV : V ≠ []) :
    lin (cutTerm (R := R) r k) (aw (k.length - 1) V) = sact r k V := by
  obtain ⟨x, t, rfl⟩ := List.exists_cons_of_ne_nil hk
  rw [sact, ← pth_eq_aw x t hV, List.length_cons, Nat.add_sub_cancel]
  have := BElem.lin_ext_supported (R := R) (f := lin (cutTerm (R := R) r (x :: t)))
    (g := sg R (invE (x :: t)) • (mapK (tensorOf r)).comp (convW.comp
      (lin (fun ps => sg R (pathE (x :: t) ps) • bv R (joinW (x :: t) ps)))))
    (S := {ps : List (List Nat) | ps.length = t.length + 1 ∧ (∀ p ∈ ps, p ≠ []) ∧
        ∃ q ps', ps = q :: ps' ∧ q.head? = V.head?})
    (fun ps hps => by
      simp only [LinearMap.comp_apply, LinearMap.smul_apply, lin_single, one_smul, map_smul, convW_single,
        mapK_single, one_mul]
      rw [cutTerm, sg_computeSign (by simpa using hps.1) hps.2.1, smul_smul, smul_smul]
      congr 1
      ring) (aw_supported (R := R) t.length hV)
  simpa using this

/-- Onto `1, …, r`. -/
def OntoR (r : Nat) (k : List Nat) : Prop := ∀ x, x ∈ k ↔ 1 ≤ x ∧ x ≤ r

theorem pth_onto {r : Nat} {k : List Nat} (hk : OntoR r k) (V : List Nat) :
    pth (R := R) k V ∈ Finsupp.supported R R {w : LW | OntoR r (letters w)} :=
  Finsupp.supported_mono (fun m hm => show OntoR r (letters m) from fun x => (hm.1 x).trans (hk x)) (pth_supported k V)

theorem convW_supported {S : Set LW} {v : LW →₀ R} (hv : v ∈ Finsupp.supported R R S) :
    convW v ∈ Finsupp.supported R R S :=
  lin_supported _ (fun k hk => Submodule.smul_mem _ _ (Finsupp.single_mem_supported R _ hk)) hv

/-- The action is compatible with the boundaries, modulo degenerate tensors. -/
theorem pr_ltens_sact {r : Nat} {k : List Nat} (hk : OntoR r k) (V : List Nat) :
    pr lany (ltens (sact (R := R) r k V)) = pr lany (lin (fun m => sact r m V) (sbd .mcClureSmith (bv R k)) +
      (-1 : R) ^ sdeg k • lin (sact r k) (delK V)) := by
  have h1 : pr lany (ltens (mapK (tensorOf r) (convW (pth (R := R) k V)))) =
      pr lany (mapK (tensorOf r) (convW (sdelWL (pth k V)))) := by
    have := BElem.lin_ext_supported (R := R)
      (f := (pr lany).comp (ltens.comp (mapK (tensorOf r))))
      (g := (pr lany).comp ((mapK (tensorOf r)).comp (convW.comp (sdelWL.comp convW))))
      (S := {w : LW | OntoR r (letters w)})
      (fun w hw => by
        simp only [LinearMap.comp_apply]
        rw [mapK_single, pr_ltens_tensorOf hw]) (convW_supported (pth_onto hk V))
    simp only [LinearMap.comp_apply, convW_convW] at this
    exact this
  have h2 : ∀ v : List Nat →₀ R, lin (fun m => sact r m V) (convS .mcClureSmith v) =
      mapK (tensorOf r) (convW (pthA V v)) := by
    intro v
    induction v using Finsupp.induction_linear with
    | zero => simp
    | add f g hf hg => simp only [map_add, hf, hg]
    | single m c =>
      rw [convS_single, map_smul, lin_single, one_smul, sact, smul_smul, convE, mul_assoc, sg_mul_self,
        pthA_single]
      simp
  have h3 : ∀ v : List Nat →₀ R, lin (sact (R := R) r k) v =
      sg R (invE k) • mapK (tensorOf r) (convW (pthB k v)) := by
    intro v
    induction v using Finsupp.induction_linear with
    | zero => simp
    | add f g hf hg => simp only [map_add, hf, hg, smul_add]
    | single m c =>
      rw [lin_single, sact, pthB_single]
      simp only [map_smul]
      rw [smul_comm]
  rw [sbd_single, one_mul, map_smul, h2, h3, sact, map_smul, map_smul, h1, pth_leibniz]
  simp only [map_add, map_smul, smul_add, convE]
  rw [smul_comm]

theorem count_filter_range {l : List Nat} {r : Nat} (hk : OntoR r l) :
    ((List.range' 1 r).map fun x => (l.count x : Int)).sum = l.length := by
  have h : ∀ (n a : Nat) (l : List Nat), (∀ x ∈ l, a ≤ x ∧ x < a + n) →
      ((List.range' a n).map fun x => (l.count x : Int)).sum = l.length := by
    intro n a l
    induction l with
    | nil => intro _; simp
    | cons y l ih =>
      intro hl
      have ih := ih (fun x hx => hl x (by simp [hx]))
      have hy := hl y (by simp)
      have : ∀ x, (((y :: l).count x : Nat) : Int) = (l.count x : Int) + (if x = y then 1 else 0) := by
        intro x
        rw [List.count_cons]
        by_cases e : y = x <;> simp [e, eq_comm (a := x)]
      rw [List.map_congr_left fun x _ => this x, List.sum_map_add, ih]
      have h1 : ((List.range' a n).map fun x => if x = y then (1 : Int) else 0).sum = 1 := by
        rw [List.sum_map_ite_eq, List.count_eq_one_of_mem List.nodup_range' (by
          rw [List.mem_range'_1]; exact hy)]
        simp
      rw [h1]
      simp
  apply h r 1
  intro x hx
  have := (hk x).1 hx
  omega

/-- The total degree of the tensor of a word. -/
theorem totDeg_tensorOf {r : Nat} {w : LW} (hw : OntoR r (letters w)) :
    totDeg ldim (tensorOf r w) = (w.length : Int) - r := by
  rw [totDeg_eq_sum, tensorOf, tensorFrom, List.map_map]
  have : ∀ x ∈ List.range' 1 r, (ldim ∘ labels w) x = ((letters w).count x : Int) + (-1) := by
    intro x _
    simp only [Function.comp, ldim, labels_length]
    ring
  rw [List.map_congr_left this, List.sum_map_add, count_filter_range hw, letters_length]
  simp
  ring

theorem pth_length (k V : List Nat) :
    pth (R := R) k V ∈ Finsupp.supported R R {w : LW | w.length + 1 = k.length + V.length} := by
  refine pth_induction (P := fun k V => pth (R := R) k V ∈ Finsupp.supported R R
      {w : LW | w.length + 1 = k.length + V.length})
    (fun V => by simp) (fun k => by simp) (fun x t a w ih1 ih2 => ?_) k V
  rw [pth_cons]
  refine Submodule.add_mem _ (Submodule.add_mem _ ?_ (Submodule.smul_mem _ _ ?_)) ?_
  · split
    · rename_i h
      apply Finsupp.single_mem_supported
      simp [h.1, h.2]
    · exact Submodule.zero_mem _
  · refine mapK_supported _ (fun m hm => ?_) ih1
    simp only [Set.mem_ofPred_eq, List.length_cons] at hm ⊢
    omega
  · refine mapK_supported _ (fun m hm => ?_) ih2
    simp only [Set.mem_ofPred_eq, List.length_cons] at hm ⊢
    omega

theorem sact_supported {r : Nat} {k : List Nat} (hk : OntoR r k) (V : List Nat) :
    sact (R := R) r k V ∈ Finsupp.supported R R
      {m : List (List Nat) | m.length = r ∧ totDeg ldim m = (k.length : Int) - r + ldim V} := by
  unfold sact
  apply Submodule.smul_mem
  have h1 := convW_supported (pth_onto (R := R) hk V)
  have h2 := convW_supported (pth_length (R := R) k V)
  have h3 : convW (pth (R := R) k V) ∈ Finsupp.supported R R
      ({w : LW | OntoR r (letters w)} ∩ {w : LW | w.length + 1 = k.length + V.length}) := by
    rw [Finsupp.supported_inter]
    exact ⟨h1, h2⟩
  refine mapK_supported _ (fun w hw => ?_) h3
  refine ⟨by simp [tensorOf, tensorFrom], ?_⟩
  rw [totDeg_tensorOf hw.1]
  have : w.length + 1 = k.length + V.length := hw.2
  simp only [ldim]
  omega

theorem sgn_sact {r : Nat} {k : List Nat} (hk : OntoR r k) (V : List Nat) :
    sgn ldim (sact (R := R) r k V) = sg R ((k.length : Int) - r + ldim V) • sact r k V := by
  have := BElem.lin_ext_supported (R := R) (f := sgn ldim)
    (g := sg R ((k.length : Int) - r + ldim V) • LinearMap.id)
    (fun m hm => by
      rw [sgn_single, one_mul, hm.2]
      rfl) (sact_supported (R := R) hk V)
  simpa using this

/-! ### degenerate surjections and simplices -/

/-- Some letter has two equal consecutive labels. -/
def DegW (w : LW) : Prop := ∃ x ∈ letters w, hasRep (labels w x) = true

theorem DegW.cons {w : LW} (h : DegW w) (p : Nat × Nat) : DegW (p :: w) := by
  obtain ⟨x, hx, hr⟩ := h
  obtain ⟨y, a⟩ := p
  refine ⟨x, by simp [hx], ?_⟩
  rw [labels_cons]
  split
  · exact hasRep_cons hr
  · exact hr

theorem pth_head (x : Nat) (t : List Nat) (a : Nat) (V : List Nat) :
    pth (R := R) (x :: t) (a :: V) ∈ Finsupp.supported R R {w : LW | ∃ w', w = (x, a) :: w'} := by
  rw [pth_cons]
  refine Submodule.add_mem _ (Submodule.add_mem _ ?_ (Submodule.smul_mem _ _ ?_)) ?_
  · split
    · apply Finsupp.single_mem_supported
      exact ⟨[], rfl⟩
    · exact Submodule.zero_mem _
  · exact mapK_supported (S := Set.univ) (T := {w : LW | ∃ w', w = (x, a) :: w'}) _ (fun m _ => ⟨m, rfl⟩) (by simp)
  · exact mapK_supported (S := Set.univ) (T := {w : LW | ∃ w', w = (x, a) :: w'}) _ (fun m _ => ⟨m, rfl⟩) (by simp)

theorem degW_head {w : LW} {x a : Nat} (h : ∃ w', w = (x, a) :: w') : DegW ((x, a) :: w) := by
  obtain ⟨w', rfl⟩ := h
  refine ⟨x, by simp, ?_⟩
  rw [labels_cons, if_pos rfl, labels_cons, if_pos rfl]
  simp [hasRep]

theorem pth_degW {k V : List Nat} (h : hasRep k = true ∨ hasRep V = true) :
    pth (R := R) k V ∈ Finsupp.supported R R {w : LW | DegW w} := by
  refine pth_induction (P := fun k V => hasRep k = true ∨ hasRep V = true →
    pth (R := R) k V ∈ Finsupp.supported R R {w : LW | DegW w})
    (fun V _ => by simp) (fun k _ => by simp) (fun x t a w ih1 ih2 h => ?_) k V h
  rw [pth_cons]
  have hc : ∀ v : LW →₀ R, v ∈ Finsupp.supported R R {w : LW | DegW w} →
      consV (x, a) v ∈ Finsupp.supported R R {w : LW | DegW w} := fun v hv =>
    mapK_supported (S := {w : LW | DegW w}) (T := {w : LW | DegW w}) _ (fun m hm => DegW.cons hm _) hv
  have hh : ∀ v : LW →₀ R, v ∈ Finsupp.supported R R {w : LW | ∃ w', w = (x, a) :: w'} →
      consV (x, a) v ∈ Finsupp.supported R R {w : LW | DegW w} := fun v hv =>
    mapK_supported (S := {w : LW | ∃ w', w = (x, a) :: w'}) (T := {w : LW | DegW w}) _ (fun m hm => degW_head hm) hv
  have hne : ¬ (t = [] ∧ w = []) := by
    rintro ⟨rfl, rfl⟩
    simp [hasRep] at h
  rw [if_neg hne, zero_add]
  refine Submodule.add_mem _ (Submodule.smul_mem _ _ ?_) ?_
  · rcases h with h | h
    · exact hc _ (ih1 (Or.inl h))
    · cases w with
      | nil => simp
      | cons b w =>
        simp only [hasRep, Bool.or_eq_true, beq_iff_eq] at h
        rcases h with rfl | h
        · exact hh _ (pth_head _ _ _ _)
        · exact hc _ (ih1 (Or.inr h))
  · rcases h with h | h
    · cases t with
      | nil => simp
      | cons y t =>
        simp only [hasRep, Bool.or_eq_true, beq_iff_eq] at h
        rcases h with rfl | h
        · exact hh _ (pth_head _ _ _ _)
        · exact hc _ (ih2 (Or.inl h))
    · exact hc _ (ih2 (Or.inr h))

theorem pr_sact_degenerate {r : Nat} {k : List Nat} (hk : OntoR r k) {V : List Nat}
    (h : hasRep k = true ∨ ldrop V = true) : pr lany (sact (R := R) r k V) = 0 := by
  by_cases hV : V = []
  · subst hV; simp [sact]
  have h' : hasRep k = true ∨ hasRep V = true := by simpa [ldrop, hV] using h
  rw [sact, map_smul]
  have h3 : convW (pth (R := R) k V) ∈ Finsupp.supported R R
      ({w : LW | OntoR r (letters w)} ∩ {w : LW | DegW w}) := by
    rw [Finsupp.supported_inter]
    exact ⟨convW_supported (pth_onto hk V), convW_supported (pth_degW h')⟩
  have := BElem.lin_ext_supported (R := R) (f := (pr lany).comp (mapK (tensorOf r))) (g := 0)
    (fun w hw => by
      obtain ⟨h1, x, hx, hr⟩ := hw
      rw [LinearMap.comp_apply, mapK_single, pr_single, if_pos]
      · simp
      · unfold lany tensorOf tensorFrom
        rw [List.any_eq_true]
        refine ⟨labels w x, List.mem_map_of_mem ?_, by simp [ldrop, hr]⟩
        rw [List.mem_range'_1]
        have := (h1 x).1 hx
        omega) h3
  simp only [LinearMap.comp_apply, LinearMap.zero_apply] at this
  rw [this, smul_zero]

end Comch.SurjComp
