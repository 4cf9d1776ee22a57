import Verif.Lib.Join
import Verif.Lib.SerreCode
import Verif.Lib.SurjBoundary
import Verif.Props.Simplicial

/-! # The loops of `join` -/

set_option linter.unusedSectionVars false

namespace Comch.Join
open Finsupp (single)
open CElem
open Props (mem_combinations)

variable {R : Type} [CommRing R]

/-- The positions of the intervals allow a join at `i`. -/
def okAt (i : Nat) (x y : Cube) : Prop := (∀ a ∈ x.intervals, a < i) ∧ ∀ a ∈ y.intervals, i < a

instance (i : Nat) (x y : Cube) : Decidable (okAt i x y) := by unfold okAt; infer_instance

/-- The cube made from the front of `x` and the back of `y`. -/
def glue (i : Nat) (x y : Cube) : Cube := x.take i ++ [2] ++ y.drop (i + 1)

/-- The coefficient of the `i`-th join. -/
def jc (i : Nat) (x y : Cube) : Int := (-1) ^ x.dimension * cj (x.getD i 0) (y.getD i 0)

theorem okAt_zero (e f : Nat) (x y : Cube) : okAt 0 (e :: x) (f :: y) ↔ e ≠ 2 ∧ f ≠ 2 ∧ cdim x = 0 := by
  have hx : cdim x = 0 ↔ x.intervals = [] := by
    rw [cdim, ← Cube.length_intervals]; simp
  unfold okAt
  rw [Cube.intervals_cons, Cube.intervals_cons, hx]
  by_cases he : e = 2
  · simp only [he, if_true, ne_eq, not_true, false_and, iff_false]
    intro h
    exact absurd (h.1 0 (by simp)) (by omega)
  · by_cases hf : f = 2 <;> simp [he, hf, List.eq_nil_iff_forall_not_mem]

theorem okAt_succ (i e f : Nat) (x y : Cube) : okAt (i + 1) (e :: x) (f :: y) ↔ f ≠ 2 ∧ okAt i x y := by
  unfold okAt
  rw [Cube.intervals_cons, Cube.intervals_cons]
  by_cases he : e = 2 <;> by_cases hf : f = 2 <;> simp [he, hf]

theorem j2_sum (x y : Cube) (h : x.length = y.length) :
    j2 (R := R) x y = ((List.range x.length).map fun i =>
      if okAt i x y then ((jc i x y : Int) : R) • bv R (glue i x y) else 0).sum := by
  induction x generalizing y with
  | nil => simp [j2]
  | cons e x ih =>
    cases y with
    | nil => simp at h
    | cons f y =>
      rw [j2, ih y (by simpa using h), List.length_cons, List.range_succ_eq_map, List.map_cons, List.sum_cons,
        List.map_map]
      congr 1
      · rw [if_congr (okAt_zero e f x y) rfl rfl]
        by_cases he : e = 2
        · simp [he, cj]
        by_cases hf : f = 2
        · simp [hf, cj]
        by_cases hx : cdim x = 0
        · have : Cube.dimension x = 0 := by simpa [cdim] using hx
          simp [he, hf, hx, jc, Cube.dimension_cons, this, glue]
        · rw [if_neg hx, if_neg (fun h => hx h.2.2)]
      · by_cases hf : f = 2
        · simp only [hf, if_true]
          symm
          apply List.sum_eq_zero
          intro v hv
          obtain ⟨i, -, rfl⟩ := List.mem_map.1 hv
          simp [okAt_succ]
        · rw [if_neg hf, map_list_sum, List.smul_sum, List.map_map, List.map_map]
          congr 1
          apply List.map_congr_left
          intro i _
          have : okAt (i + 1) (e :: x) (f :: y) ↔ okAt i x y := by rw [okAt_succ]; simp [hf]
          simp only [Function.comp_apply, Nat.succ_eq_add_one]
          rw [if_congr this rfl rfl]
          by_cases ho : okAt i x y
          · rw [if_pos ho, if_pos ho, map_smul, smul_smul]
            have : glue (i + 1) (e :: x) (f :: y) = e :: glue i x y := by simp [glue]
            rw [this, consV_bv]
            congr 1
            unfold jc
            rw [Cube.dimension_cons]
            by_cases he : e = 2
            · simp [he, pow_succ]
            · simp [he]
          · rw [if_neg ho, if_neg ho]; simp

/-- The inner loop. -/
noncomputable def jl : List (Nat × Cube) → Cube → (Cube →₀ R)
  | [], c => bv R c
  | (i, d) :: l, c => ((jc i c d : Int) : R) • jl l (glue i c d)

theorem length_glue {i : Nat} {x y : Cube} (hx : i < x.length) (h : x.length = y.length) :
    (glue i x y).length = x.length := by
  simp [glue]; omega

theorem negone_mod (a : Nat) : (-1 : R) ^ (a % 2) = (-1) ^ a := by
  rw [← sg_natCast, ← sg_natCast]
  exact sg_congr (by omega)

theorem joinLoop_ok (l : List (Nat × Cube)) (c : Cube) (s : Nat)
    (h : ∀ p ∈ l, p.1 < c.length ∧ p.2.length = c.length) :
    (joinLoop l c s = .ok none ∧ jl (R := R) l c = 0) ∨
      ∃ c' s', joinLoop l c s = .ok (some (c', s')) ∧ (-1 : R) ^ s • jl l c = (-1 : R) ^ s' • bv R c' := by
  induction l generalizing c s with
  | nil => exact Or.inr ⟨c, s, rfl, rfl⟩
  | cons p l ih =>
    obtain ⟨i, d⟩ := p
    have hi := h (i, d) (by simp)
    have hl : (glue i c d).length = c.length := length_glue hi.1 hi.2.symm
    have hcg : c[i]? = some (c.getD i 0) := by
      rw [List.getD_eq_getElem?_getD, List.getElem?_eq_getElem hi.1]; rfl
    have hdg : d[i]? = some (d.getD i 0) := by
      rw [List.getD_eq_getElem?_getD, List.getElem?_eq_getElem (by rw [hi.2]; exact hi.1)]; rfl
    have hih := fun s => ih (glue i c d) s (fun p hp => by rw [hl]; exact h p (by simp [hp]))
    have hstep : joinStep i c d s =
        if c.getD i 0 = 0 ∧ d.getD i 0 = 1 then .ok (some (glue i c d, (s + c.dimension) % 2))
        else if c.getD i 0 = 1 ∧ d.getD i 0 = 0 then .ok (some (glue i c d, (1 + (s + c.dimension)) % 2))
        else .ok none := by
      unfold joinStep pyGet
      simp only [hcg, hdg]
      rfl
    rw [joinLoop, hstep, jl, jc]
    by_cases h1 : c.getD i 0 = 0 ∧ d.getD i 0 = 1
    · rw [if_pos h1]
      have hc : cj (c.getD i 0) (d.getD i 0) = 1 := by rw [h1.1, h1.2]; rfl
      rw [hc]
      rcases hih ((s + c.dimension) % 2) with h2 | ⟨c', s', h2, h3⟩
      · exact Or.inl ⟨h2.1, by rw [h2.2, smul_zero]⟩
      · refine Or.inr ⟨c', s', h2, ?_⟩
        rw [← h3, smul_smul, negone_mod, pow_add]
        simp
    · rw [if_neg h1]
      by_cases h2 : c.getD i 0 = 1 ∧ d.getD i 0 = 0
      · rw [if_pos h2]
        have hc : cj (c.getD i 0) (d.getD i 0) = -1 := by rw [h2.1, h2.2]; rfl
        rw [hc]
        rcases hih ((1 + (s + c.dimension)) % 2) with h3 | ⟨c', s', h3, h4⟩
        · exact Or.inl ⟨h3.1, by rw [h3.2, smul_zero]⟩
        · refine Or.inr ⟨c', s', h3, ?_⟩
          rw [← h4, smul_smul, negone_mod, pow_add, pow_add]
          simp
      · rw [if_neg h2]
        left
        refine ⟨rfl, ?_⟩
        rw [cj, if_neg h1, if_neg h2]
        simp

/-- One family of indices. -/
def okAll (is : List Nat) (b : Cube) (k : CKey) : Prop :=
  ∀ p ∈ is.zip (pairwise (b :: k)), okAt p.1 p.2.1 p.2.2

theorem pyMin_mem {l : List Nat} (h : l ≠ []) : pyMin l ∈ l := by
  cases l with
  | nil => simp at h
  | cons a l =>
    unfold pyMin
    have : ∀ (b : Nat) (l : List Nat), l.foldr min b = b ∨ l.foldr min b ∈ l := by
      intro b l
      induction l with
      | nil => simp
      | cons c l ih =>
        rw [List.foldr_cons]
        rcases min_choice c (l.foldr min b) with hm | hm <;> rw [hm]
        · simp
        · rcases ih with ih | ih
          · exact Or.inl ih
          · exact Or.inr (by simp [ih])
    rcases this a (a :: l) with h | h
    · rw [List.headD_cons, h]; simp
    · exact h

theorem lt_pyMin_iff {l : List Nat} (h : l ≠ []) {n : Nat} : n < pyMin l ↔ ∀ a ∈ l, n < a := by
  have hle : ∀ (b : Nat) (l : List Nat), ∀ a ∈ l, l.foldr min b ≤ a := by
    intro b l
    induction l with
    | nil => simp
    | cons c l ih =>
      intro a ha
      rw [List.foldr_cons]
      rcases List.mem_cons.1 ha with rfl | ha
      · exact min_le_left _ _
      · exact (min_le_right _ _).trans (ih a ha)
  constructor
  · intro hn a ha
    exact lt_of_lt_of_le hn (hle _ _ a ha)
  · intro hn
    exact hn _ (pyMin_mem h)

theorem not_isZero (i : Nat) (x y : Cube) :
    (isZeroLeft x.intervals i || isZeroRight i y.intervals) = false ↔ okAt i x y := by
  unfold isZeroLeft isZeroRight okAt
  rw [Bool.or_eq_false_iff]
  apply and_congr
  · by_cases h : x.intervals = []
    · simp [h]
    · rw [if_neg h, decide_eq_false_iff_not, not_le]
      constructor
      · intro hm a ha
        exact lt_of_le_of_lt (le_pyMax ha) hm
      · intro hm
        exact hm _ (pyMax_mem h)
  · by_cases h : y.intervals = []
    · simp [h]
    · rw [if_neg h, decide_eq_false_iff_not, ge_iff_le, not_le, lt_pyMin_iff h]

theorem skip_iff (is : List Nat) (b : Cube) (k : CKey) :
    ((is.zip (pairwise (b :: k))).any fun (i, cube1, cube2) =>
        isZeroLeft cube1.intervals i || isZeroRight i cube2.intervals) = false ↔ okAll is b k := by
  rw [List.any_eq_false]
  unfold okAll
  apply forall_congr'
  intro p
  apply imp_congr_right
  intro _
  rw [← not_isZero, Bool.not_eq_true]

instance (is : List Nat) (b : Cube) (k : CKey) : Decidable (okAll is b k) := by unfold okAll; infer_instance

theorem okAll_cons (i : Nat) (is : List Nat) (b c : Cube) (k : CKey) :
    okAll (i :: is) b (c :: k) ↔ okAt i b c ∧ okAll is c k := by
  unfold okAll
  have : pairwise (b :: c :: k) = (b, c) :: pairwise (c :: k) := rfl
  rw [this]
  simp

/-- Combinations by their first entry. -/
theorem comb_sum {M : Type} [AddCommMonoid M] (lo m s : Nat) (F : List Nat → M) :
    ((combinations (List.range' lo m) (s + 1)).map F).sum =
      ((List.range' lo m).map fun i =>
        ((combinations (List.range' (i + 1) (lo + m - (i + 1))) s).map fun is => F (i :: is)).sum).sum := by
  induction m generalizing lo with
  | zero => simp [combinations]
  | succ m ih =>
    rw [List.range'_succ, combinations, List.map_append, List.sum_append, List.map_map, ih, List.map_cons,
      List.sum_cons]
    congr 1
    · rw [show lo + (m + 1) - (lo + 1) = m by omega]
      rfl
    · rw [show lo + 1 + m = lo + (m + 1) by omega]

theorem mem_intervals (c : Cube) (a : Nat) : a ∈ c.intervals ↔ c[a]? = some 2 := by
  unfold Cube.intervals
  rw [List.mem_map]
  constructor
  · rintro ⟨p, hp, rfl⟩
    rw [List.mem_filter, mem_enumerate] at hp
    rw [hp.1, beq_iff_eq.1 hp.2]
  · intro h
    exact ⟨(a, 2), by rw [List.mem_filter, mem_enumerate]; exact ⟨h, rfl⟩, rfl⟩

theorem getElem?_of_drop {x y : Cube} {lo a : Nat} (h : x.drop lo = y.drop lo) (ha : lo ≤ a) : x[a]? = y[a]? := by
  have := congrArg (fun l : Cube => l[a - lo]?) h
  simpa [List.getElem?_drop, Nat.add_sub_cancel' ha] using this

theorem code_sum {n : Nat} (k : CKey) (lo : Nat) (acc b : Cube) (hacc : acc.length = n) (hk : ∀ c ∈ k, c.length = n)
    (hlo : lo ≤ n) (hag : acc.drop lo = b.drop lo) (hbI : ∀ a ∈ b.intervals, lo ≤ a)
    (ha0 : lo = 0 ∨ lo - 1 ∈ acc.intervals) :
    ((combinations (List.range' lo (n - lo)) k.length).map fun is =>
      if okAll is b k then jl (R := R) (is.zip k) acc else 0).sum = jnL k (bv R acc) := by
  induction k generalizing lo acc b with
  | nil =>
    simp [combinations, okAll, pairwise, jl, jnL]
  | cons c k ih =>
    have hc : c.length = n := hk c (by simp)
    rw [List.length_cons, comb_sum, jnL_cons, bil_bv, lin_single, one_smul, j2_sum _ _ (hacc.trans hc.symm), hacc, map_list_sum]
    have hsplit : List.range n = List.range' 0 lo ++ List.range' lo (n - lo) := by
      rw [List.range_eq_range', show List.range' lo (n - lo) = List.range' (0 + 1 * lo) (n - lo) by simp,
        List.range'_append, Nat.add_sub_cancel' hlo]
    rw [hsplit, List.map_append, List.map_append, List.sum_append]
    rw [show (List.map (jnL (R := R) k) (List.map (fun i => if okAt i acc c then ((jc i acc c : Int) : R) •
      bv R (glue i acc c) else 0) (List.range' 0 lo))).sum = 0 from ?_, zero_add, List.map_map]
    · congr 1
      apply List.map_congr_left
      intro i hi
      rw [List.mem_range'_1] at hi
      have hok : okAt i b c ↔ okAt i acc c := by
        unfold okAt
        apply and_congr_left'
        constructor
        · intro h a ha
          by_cases hal : a < lo
          · omega
          · rw [mem_intervals, getElem?_of_drop hag (by omega), ← mem_intervals] at ha
            exact h a ha
        · intro h a ha
          have := hbI a ha
          rw [mem_intervals, ← getElem?_of_drop hag this, ← mem_intervals] at ha
          exact h a ha
      simp only [Function.comp_apply]
      by_cases ho : okAt i acc c
      · rw [if_pos ho, map_smul, Nat.add_sub_cancel' hlo]
        rw [← ih (i + 1) (glue i acc c) c (by rw [length_glue (by omega) (hacc.trans hc.symm), hacc])
          (fun d hd => hk d (by simp [hd])) (by omega) ?_ ?_ ?_, List.smul_sum, List.map_map]
        · congr 1
          apply List.map_congr_left
          intro is _
          have : okAll (i :: is) b (c :: k) ↔ okAll is c k := by
            rw [okAll_cons, hok]; simp [ho]
          rw [if_congr this rfl rfl, List.zip_cons_cons, jl]
          simp only [Function.comp_apply]
          by_cases h2 : okAll is c k
          · rw [if_pos h2, if_pos h2]
          · rw [if_neg h2, if_neg h2, smul_zero]
        · unfold glue
          have : (acc.take i).length = i := by rw [List.length_take]; omega
          rw [List.append_assoc, List.drop_append, this, show i + 1 - i = 1 by omega,
            List.drop_eq_nil_of_le (by rw [this]; omega)]
          rfl
        · intro a ha
          exact ho.2 a ha
        · right
          rw [mem_intervals]
          unfold glue
          have : (acc.take i).length = i := by rw [List.length_take]; omega
          rw [Nat.add_sub_cancel, List.append_assoc, List.getElem?_append_right (by rw [this]), this]
          simp
      · rw [if_neg ho, map_zero]
        apply List.sum_eq_zero
        intro v hv
        obtain ⟨is, -, rfl⟩ := List.mem_map.1 hv
        rw [if_neg]
        rw [okAll_cons, hok]
        exact fun h => ho h.1
    · apply List.sum_eq_zero
      intro v hv
      rw [List.map_map] at hv
      obtain ⟨i, hi, rfl⟩ := List.mem_map.1 hv
      rw [List.mem_range'_1] at hi
      simp only [Function.comp_apply]
      rw [if_neg, map_zero]
      intro h
      rcases ha0 with h0 | h0
      · omega
      · have := h.1 _ h0
        omega

/-- The summands for one key. -/
theorem joinEvents_ok {n : Nat} (k : CKey) (v : Int) (hk : ∀ c ∈ k, c.length = n) (hne : k ≠ []) :
    ∃ l, joinEvents k.length k v = .ok l ∧ den R l = (v : R) • mapK (fun c => [c]) (jn k) := by
  obtain ⟨c, k, rfl⟩ := List.exists_cons_of_ne_nil hne
  have hc : c.length = n := hk c (by simp)
  have hbody : ∀ is ∈ combinations (List.range c.length) k.length, ∃ l : List (CKey × Int),
      (if (is.zip (pairwise (c :: k))).any fun (i, cube1, cube2) =>
          isZeroLeft cube1.intervals i || isZeroRight i cube2.intervals then Except.ok []
        else do
          match ← joinLoop (is.zip k) c 0 with
          | none => .ok []
          | some (cube, signExp) => .ok [([cube], (-1) ^ signExp * v)] : Py (List (CKey × Int))) = .ok l ∧
      den R l = (v : R) • mapK (fun c => [c]) (if okAll is c k then jl (R := R) (is.zip k) c else 0) := by
    intro is his
    by_cases ho : okAll is c k
    · rw [(skip_iff is c k).2 ho, if_pos ho]
      simp only [Bool.false_eq_true, if_false]
      have hall : ∀ p ∈ is.zip k, p.1 < c.length ∧ p.2.length = c.length := by
        intro p hp
        obtain ⟨i, d⟩ := p
        have := List.of_mem_zip hp
        refine ⟨?_, ?_⟩
        · exact List.mem_range.1 ((mem_combinations.1 his).1.subset this.1)
        · rw [hk d (by simp [this.2]), hc]
      rcases joinLoop_ok (R := R) (is.zip k) c 0 hall with ⟨h1, h2⟩ | ⟨c', s', h1, h2⟩
      · refine ⟨[], by rw [h1]; rfl, ?_⟩
        rw [h2]; simp
      · refine ⟨[([c'], (-1) ^ s' * v)], by rw [h1]; rfl, ?_⟩
        rw [pow_zero, one_smul] at h2
        rw [h2]
        simp [mul_comm]
    · have : ((is.zip (pairwise (c :: k))).any fun (i, cube1, cube2) =>
          isZeroLeft cube1.intervals i || isZeroRight i cube2.intervals) = true := by
        rw [← Bool.not_eq_false, skip_iff]; exact ho
      rw [this, if_neg ho]
      exact ⟨[], rfl, by simp⟩
  choose! F hF1 hF2 using hbody
  refine ⟨((combinations (List.range c.length) k.length).map F).flatten, ?_, ?_⟩
  · unfold joinEvents
    have := mapM_ok hF1
    exact congrArg (fun m : Py _ => m >>= fun ls => Except.ok ls.flatten) this
  · rw [den_flatten, List.map_map, jn]
    rw [← code_sum (n := n) k 0 c c hc (fun d hd => hk d (by simp [hd])) (Nat.zero_le _) rfl (fun a _ => Nat.zero_le _)
      (Or.inl rfl), map_list_sum, List.smul_sum, List.map_map, List.map_map, Nat.sub_zero, ← hc,
      ← List.range_eq_range']
    congr 1
    apply List.map_congr_left
    intro is his
    exact hF2 is his

end Comch.Join
