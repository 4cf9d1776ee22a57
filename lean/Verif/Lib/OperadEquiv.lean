import Verif.Lib.SurjCompose
import Verif.Lib.BECompose

/-! # Equivariance of the partial compositions -/

set_option linter.unusedSectionVars false

namespace Comch.OpEquiv
open Spec Elem IsPerm SurjComp
open Finsupp (single)

variable {R : Type} [CommRing R] {r s i : Nat} {σ τ : List Nat}

theorem subst1_ne {q : List Nat} {i a : Nat} (h : a ≠ i) (hs : q.length = s) : subst1 q i a = [sh i s a] := by
  unfold subst1 sh
  split
  · rfl
  · simp [h, hs]

theorem subst1_self (q : List Nat) (i : Nat) : subst1 q i i = q.map (up i) := by
  unfold subst1 up
  simp

theorem flatMap_subst1 {q : List Nat} {i : Nat} (hs : q.length = s) {l : List Nat} (h : i ∉ l) :
    l.flatMap (subst1 q i) = l.map (sh i s) := by
  induction l with
  | nil => rfl
  | cons a l ih =>
    rw [List.mem_cons, not_or] at h
    rw [List.flatMap_cons, subst1_ne (Ne.symm h.1) hs, ih h.2]
    rfl

/-- Decomposition of a permutation at position `i`. -/
theorem split_at (hσ : IsPerm r σ) (hi : 1 ≤ i ∧ i ≤ r) :
    ∃ u v, σ = u ++ value σ i :: v ∧ u.length = i - 1 ∧ value σ i ∉ u ∧ value σ i ∉ v := by
  have hl : i - 1 < σ.length := by rw [hσ.length]; omega
  have hv : value σ i = σ[i - 1] := value_eq_getElem hi.1 (by rw [hσ.length]; omega)
  have e : σ = σ.take (i - 1) ++ value σ i :: σ.drop i := by
    rw [hv]
    conv_lhs => rw [← List.take_append_drop (i - 1) σ]
    rw [List.drop_eq_getElem_cons hl, show i - 1 + 1 = i by omega]
  have hn := hσ.nodup
  rw [e, List.nodup_append] at hn
  refine ⟨_, _, e, by rw [List.length_take]; omega, ?_, (List.nodup_cons.1 hn.2.1).1⟩
  intro h
  exact hn.2.2 _ h _ (by simp) rfl

theorem compL_split (hτ : IsPerm s τ) {u v : List Nat} {c : Nat} (hu : c ∉ u) (hv : c ∉ v) :
    compL (u ++ c :: v) τ c = u.map (sh c s) ++ (τ.map (up c) ++ v.map (sh c s)) := by
  rw [compL, List.flatMap_append, List.flatMap_cons, flatMap_subst1 hτ.length hu, subst1_self,
    flatMap_subst1 hτ.length hv]

theorem value_compL_sh (hσ : IsPerm r σ) (hτ : IsPerm s τ) (hs : 1 ≤ s) (hi : 1 ≤ i ∧ i ≤ r) {j : Nat}
    (hj : 1 ≤ j ∧ j ≤ r) (hne : j ≠ i) :
    value (compL σ τ (value σ i)) (sh i s j) = sh (value σ i) s (value σ j) := by
  obtain ⟨u, v, e, hu, h1, h2⟩ := split_at hσ hi
  have hlen := hσ.length
  generalize value σ i = c at *
  subst e
  have hu' := hu
  rw [compL_split hτ h1 h2]
  simp only [List.length_append, List.length_cons] at hlen
  unfold value sh
  by_cases hlt : j < i
  · rw [if_pos hlt, List.getD_append _ _ _ _ (by rw [List.length_map]; omega),
      List.getD_append _ _ _ _ (by omega), List.getD_eq_getElem _ _ (by rw [List.length_map]; omega),
      List.getD_eq_getElem _ _ (by omega), List.getElem_map]
  · rw [if_neg hlt, List.getD_append_right _ _ _ _ (by rw [List.length_map]; omega),
      List.getD_append_right _ _ _ _ (by rw [List.length_map, List.length_map, hτ.length]; omega),
      List.getD_append_right _ _ _ _ (by omega)]
    simp only [List.length_map, hτ.length, hu]
    rw [show j - 1 - (i - 1) = (j - i - 1) + 1 by omega, List.getD_cons_succ,
      show j + s - 1 - 1 - (i - 1) - s = j - i - 1 by omega,
      List.getD_eq_getElem _ _ (by rw [List.length_map]; omega),
      List.getD_eq_getElem _ _ (by omega), List.getElem_map]

theorem value_compL_up (hσ : IsPerm r σ) (hτ : IsPerm s τ) (hi : 1 ≤ i ∧ i ≤ r) {a : Nat}
    (ha : 1 ≤ a ∧ a ≤ s) :
    value (compL σ τ (value σ i)) (up i a) = up (value σ i) (value τ a) := by
  obtain ⟨u, v, e, hu, h1, h2⟩ := split_at hσ hi
  generalize value σ i = c at *
  subst e
  rw [compL_split hτ h1 h2]
  unfold value up
  have := hτ.length
  rw [List.getD_append_right _ _ _ _ (by rw [List.length_map]; omega),
    List.getD_append _ _ _ _ (by rw [List.length_map, List.length_map]; omega), List.length_map, hu,
    show a + i - 1 - 1 - (i - 1) = a - 1 by omega, List.getD_eq_getElem _ _ (by rw [List.length_map]; omega),
    List.getD_eq_getElem _ _ (by omega), List.getElem_map]

/-- Equivariance of the composition of permutations. -/
theorem compL_mulL (hσ : IsPerm r σ) (hτ : IsPerm s τ) (hs : 1 ≤ s) (hi : 1 ≤ i ∧ i ≤ r) {p q : List Nat}
    (hp : IsPerm r p) (hq : IsPerm s q) :
    compL (mulL σ p) (mulL τ q) (value σ i) = mulL (compL σ τ (value σ i)) (compL p q i) := by
  unfold mulL
  rw [show compL p q i = p.flatMap (subst1 q i) from rfl, List.map_flatMap, compL, List.flatMap_map]
  refine List.flatMap_congr fun a ha => ?_
  have har := hp.range a ha
  by_cases h : a = i
  · subst h
    rw [subst1_self, subst1_self, List.map_map, List.map_map]
    refine List.map_congr_left fun b hb => ?_
    exact (value_compL_up hσ hτ hi (hq.range b hb)).symm
  · have h' : value σ a ≠ value σ i := fun e => h (value_inj hσ har hi e)
    rw [subst1_ne h' (s := s) (by rw [List.length_map]; exact hq.length), subst1_ne h hq.length]
    simp [value_compL_sh hσ hτ hs hi har h]

/-! ### surjections -/

theorem sdeg_map {f : Nat → Nat} {k : List Nat} (hf : ∀ a ∈ k, ∀ b ∈ k, f a = f b → a = b) :
    sdeg (k.map f) = sdeg k := by
  induction k with
  | nil => rfl
  | cons a t ih =>
    have hm : f a ∈ t.map f ↔ a ∈ t := by
      rw [List.mem_map]
      constructor
      · rintro ⟨b, hb, e⟩
        rw [← hf b (by simp [hb]) a (by simp) e]; exact hb
      · intro h; exact ⟨a, h, rfl⟩
    rw [List.map_cons, sdeg, sdeg, ih fun a ha b hb => hf a (by simp [ha]) b (by simp [hb])]
    simp only [hm]

theorem mem_map_value (hσ : IsPerm r σ) {k : List Nat} (hk : Rng r k) {a : Nat} (ha : 1 ≤ a ∧ a ≤ r) :
    value σ a ∈ k.map (value σ) ↔ a ∈ k := by
  rw [List.mem_map]
  constructor
  · rintro ⟨b, hb, e⟩
    rw [← value_inj hσ (hk b hb) ha e]; exact hb
  · intro h; exact ⟨a, h, rfl⟩

theorem sdeg_value (hσ : IsPerm r σ) {k : List Nat} (hk : Rng r k) : sdeg (mulL σ k) = sdeg k :=
  sdeg_map fun _ ha _ hb e => value_inj hσ (hk _ ha) (hk _ hb) e

theorem consV_mapK_map (f : Nat → Nat) (a : Nat) (v : List Nat →₀ R) :
    mapK (List.map f) (consV a v) = consV (f a) (mapK (List.map f) v) := by
  have : (mapK (List.map f)).comp (consV (R := R) a) = (consV (f a)).comp (mapK (List.map f)) := by
    apply lin_ext
    intro k
    simp
  exact LinearMap.congr_fun this v

/-- Equivariance of the composition of surjections. -/
theorem cmp_mulL (hσ : IsPerm r σ) (hτ : IsPerm s τ) (hs : 1 ≤ s) (hi : 1 ≤ i ∧ i ≤ r) (k1 k2 : List Nat)
    (h1 : Rng r k1) (h2 : Rng s k2) :
    cmp (R := R) (value σ i) s (mulL σ k1) (mulL τ k2) =
      mapK (mulL (compL σ τ (value σ i))) (cmp i s k1 k2) := by
  have hm : mulL (compL σ τ (value σ i)) = List.map (value (compL σ τ (value σ i))) := rfl
  revert h1 h2
  induction k1, k2 using cmp_induction i with
  | hnil k2 => intro _ _; simp [mulL]
  | hne j t k2 hj ih =>
    intro h1 h2
    have h' : value σ j ≠ value σ i := fun e => hj (value_inj hσ h1.head hi e)
    rw [cmp_ne hj, hm, consV_mapK_map, ← hm, ← ih h1.tail h2, value_compL_sh hσ hτ hs hi h1.head hj]
    exact cmp_ne h' _ _
  | hin t => intro _ _; simp [mulL]
  | hic t a w ih1 ih2 =>
    intro h1 h2
    have e1 := ih1 h1 h2.tail
    have e2 := ih2 h1.tail h2
    have ha : value τ a ∈ w.map (value τ) ↔ a ∈ w := mem_map_value hτ h2.tail h2.head
    have hb : value σ i ∈ t.map (value σ) ↔ i ∈ t := mem_map_value hσ h1.tail hi
    have hd := sdeg_value hσ h1
    rw [cmp_i_cons, map_add, map_smul, hm, consV_mapK_map, ← hm, ← e1, apply_ite (mapK _), map_zero, hm,
      consV_mapK_map, ← hm, ← e2, value_compL_up hσ hτ hi h2.head]
    simp only [mulL, List.map_cons] at hd ⊢
    rw [cmp_i_cons, hd]
    simp only [ha, hb, List.map_eq_nil_iff]

end Comch.OpEquiv
