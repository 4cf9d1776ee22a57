import Verif.Lib.Common
import Verif.Spec.Perm
import Verif.Model.Symmetric
import Mathlib.Data.List.NodupEquivFin
import Mathlib.Data.List.Range

/-! # Permutations as tuples -/

set_option linter.unusedSectionVars false

namespace Comch
open Spec (IsPerm value)

theorem value_eq_getElem {p : List Nat} {i : Nat} (h1 : 1 ≤ i) (h2 : i ≤ p.length) :
    value p i = p[i - 1]'(by omega) := by
  simp [value, List.getD_eq_getElem?_getD, show i - 1 < p.length by omega]

theorem value_cons_succ (a : Nat) (p : List Nat) (i : Nat) (hi : 1 ≤ i) :
    value (a :: p) (i + 1) = value p i := by
  obtain ⟨i, rfl⟩ : ∃ j, i = j + 1 := ⟨i - 1, by omega⟩
  simp [value]

theorem value_map {f : Nat → Nat} {p : List Nat} {i : Nat} (h1 : 1 ≤ i) (h2 : i ≤ p.length) :
    value (p.map f) i = f (value p i) := by
  rw [value_eq_getElem h1 (by simpa using h2), value_eq_getElem h1 h2]; simp

namespace IsPerm
variable {r : Nat} {p q t : List Nat}

theorem value_mem (hp : IsPerm r p) {i : Nat} (h1 : 1 ≤ i) (h2 : i ≤ r) : value p i ∈ p := by
  have := hp.length
  rw [value_eq_getElem h1 (by omega)]
  exact List.getElem_mem _

theorem value_range (hp : IsPerm r p) {i : Nat} (h1 : 1 ≤ i) (h2 : i ≤ r) :
    1 ≤ value p i ∧ value p i ≤ r := hp.range _ (value_mem hp h1 h2)

theorem value_inj (hp : IsPerm r p) {i j : Nat} (hi : 1 ≤ i ∧ i ≤ r) (hj : 1 ≤ j ∧ j ≤ r)
    (h : value p i = value p j) : i = j := by
  have hl := hp.length
  rw [value_eq_getElem hi.1 (by omega), value_eq_getElem hj.1 (by omega)] at h
  have := (List.Nodup.getElem_inj_iff hp.nodup).1 h
  omega

theorem perm_range (hp : IsPerm r p) : p.Perm (List.range' 1 r) := by
  apply (List.subperm_of_subset hp.nodup _).perm_of_length_le
  · rw [List.length_range', hp.length]
  · intro i hi
    rw [List.mem_range'_1]
    have := hp.range i hi
    omega

theorem of_perm (h : p.Perm (List.range' 1 r)) : IsPerm r p := by
  refine ⟨by rw [h.length_eq, List.length_range'], h.nodup_iff.2 List.nodup_range', ?_⟩
  intro i hi
  have := h.mem_iff.1 hi
  rw [List.mem_range'_1] at this
  omega

theorem mem_iff (hp : IsPerm r p) {i : Nat} : i ∈ p ↔ 1 ≤ i ∧ i ≤ r := by
  rw [(perm_range hp).mem_iff, List.mem_range'_1]; omega

theorem exists_value (hp : IsPerm r p) {j : Nat} (hj : 1 ≤ j ∧ j ≤ r) :
    ∃ i, (1 ≤ i ∧ i ≤ r) ∧ value p i = j := by
  obtain ⟨i, hi, rfl⟩ := List.getElem_of_mem ((mem_iff hp).2 hj)
  have := hp.length
  refine ⟨i + 1, by omega, ?_⟩
  rw [value_eq_getElem (by omega) (by omega)]
  simp

theorem ext' (hp : p.length = r) (hq : q.length = r)
    (h : ∀ i, 1 ≤ i → i ≤ r → value p i = value q i) : p = q := by
  apply List.ext_getElem (by rw [hp, hq])
  intro i h1 h2
  have := h (i + 1) (by omega) (by omega)
  rw [value_eq_getElem (by omega) (by omega), value_eq_getElem (by omega) (by omega)] at this
  simpa using this

theorem ext (hp : IsPerm r p) (hq : IsPerm r q)
    (h : ∀ i, 1 ≤ i → i ≤ r → value p i = value q i) : p = q := ext' hp.length hq.length h

theorem pyMax_eq (hp : IsPerm r p) : pyMax p = r := by
  have h1 : ∀ l : List Nat, (∀ i ∈ l, i ≤ r) → pyMax l ≤ r := by
    intro l hl
    induction l with
    | nil => simp [pyMax]
    | cons a l ih =>
      simp only [List.mem_cons, forall_eq_or_imp] at hl
      simp only [pyMax, List.foldr_cons, sup_le_iff]
      exact ⟨hl.1, ih hl.2⟩
  have h2 : ∀ (l : List Nat) (i : Nat), i ∈ l → i ≤ pyMax l := by
    intro l i hl
    induction l with
    | nil => simp at hl
    | cons a l ih =>
      simp only [pyMax, List.foldr_cons]
      rcases List.mem_cons.1 hl with rfl | hl
      · exact le_sup_left
      · exact (ih hl).trans le_sup_right
  apply le_antisymm (h1 p fun i hi => (hp.range i hi).2)
  cases r with
  | zero => omega
  | succ r => exact h2 p _ ((mem_iff hp).2 ⟨by omega, le_refl _⟩)

theorem arity_eq (hp : IsPerm r p) (hr : 1 ≤ r) : Perm.arity p = .ok r := by
  unfold Perm.arity
  rw [if_neg, pyMax_eq hp]
  rintro rfl
  have := hp.length
  simp at this
  omega

theorem pyGet1_eq (hp : IsPerm r p) {i : Nat} (h1 : 1 ≤ i) (h2 : i ≤ r) :
    pyGet1 p i = .ok (value p i) := by
  have := hp.length
  unfold pyGet1 pyGet
  rw [if_neg (by omega), List.getElem?_eq_getElem (by omega), value_eq_getElem h1 (by omega)]

/-- Composition as tuples. -/
def mulL (p q : List Nat) : List Nat := q.map (value p)

theorem value_mulL (hq : IsPerm r q) {i : Nat} (h1 : 1 ≤ i) (h2 : i ≤ r) :
    value (mulL p q) i = value p (value q i) :=
  value_map h1 (by rw [hq.length]; exact h2)

theorem isPerm_mulL (hp : IsPerm r p) (hq : IsPerm r q) : IsPerm r (mulL p q) := by
  refine ⟨by simp [mulL, hq.length], ?_, ?_⟩
  · unfold mulL
    rw [List.nodup_map_iff_inj_on hq.nodup]
    intro i hi j hj h
    exact value_inj hp (hq.range i hi) (hq.range j hj) h
  · intro i hi
    obtain ⟨j, hj, rfl⟩ := List.mem_map.1 hi
    exact value_range hp (hq.range j hj).1 (hq.range j hj).2

theorem mapM_eq (hp : IsPerm r p) (hq : ∀ i ∈ q, 1 ≤ i ∧ i ≤ r) :
    (q.mapM fun i => pyGet1 p i) = .ok (mulL p q) :=
  mapM_ok fun i hi => pyGet1_eq hp (hq i hi).1 (hq i hi).2

theorem mul_eq (hp : IsPerm r p) (hq : IsPerm r q) (hr : 1 ≤ r) :
    Perm.mul p q = .ok (mulL p q) := by
  unfold Perm.mul
  rw [arity_eq hp hr, arity_eq hq hr]
  simp only [bind, Except.bind, ne_eq, not_true_eq_false, if_false]
  exact mapM_eq hp hq.range

/-- The identity. -/
theorem isPerm_id (r : Nat) : IsPerm r (pyRange 1 (r + 1)) := of_perm (List.Perm.refl _)

theorem value_id {i : Nat} (h1 : 1 ≤ i) (h2 : i ≤ r) : value (pyRange 1 (r + 1)) i = i := by
  rw [value_eq_getElem h1 (by rw [(isPerm_id r).length]; exact h2)]
  simp [pyRange]
  omega

theorem mulL_assoc (hp : IsPerm r p) (hq : IsPerm r q) (ht : IsPerm r t) :
    mulL (mulL p q) t = mulL p (mulL q t) := by
  apply ext (isPerm_mulL (isPerm_mulL hp hq) ht) (isPerm_mulL hp (isPerm_mulL hq ht))
  intro i h1 h2
  have h3 := value_range ht h1 h2
  rw [value_mulL ht h1 h2, value_mulL hq h3.1 h3.2, value_mulL (isPerm_mulL hq ht) h1 h2,
    value_mulL ht h1 h2]

theorem id_mulL (hp : IsPerm r p) : mulL (pyRange 1 (r + 1)) p = p := by
  apply ext (isPerm_mulL (isPerm_id r) hp) hp
  intro i h1 h2
  have h3 := value_range hp h1 h2
  rw [value_mulL hp h1 h2, value_id h3.1 h3.2]

theorem mulL_id (hp : IsPerm r p) : mulL p (pyRange 1 (r + 1)) = p := by
  apply ext (isPerm_mulL hp (isPerm_id r)) hp
  intro i h1 h2
  rw [value_mulL (isPerm_id r) h1 h2, value_id h1 h2]

/-- Inverse as tuples. -/
def invL (r : Nat) (p : List Nat) : List Nat := (List.range r).map fun i => p.idxOf (i + 1) + 1

theorem inverse_eq (hp : IsPerm r p) (hr : 1 ≤ r) : Perm.inverse p = .ok (invL r p) := by
  unfold Perm.inverse
  rw [arity_eq hp hr]
  simp only [bind, Except.bind]
  apply mapM_ok
  intro i hi
  have hi' : i + 1 ∈ p := (mem_iff hp).2 (by rw [List.mem_range] at hi; omega)
  unfold pyIndex
  rw [if_pos (List.idxOf_lt_length_iff.2 hi')]

theorem value_invL {i : Nat} (h1 : 1 ≤ i) (h2 : i ≤ r) : value (invL r p) i = p.idxOf i + 1 := by
  rw [value_eq_getElem h1 (by simp [invL]; exact h2)]
  simp [invL, Nat.sub_add_cancel h1]

theorem value_value_inv (hp : IsPerm r p) {i : Nat} (h1 : 1 ≤ i) (h2 : i ≤ r) :
    value p (value (invL r p) i) = i := by
  have hi : i ∈ p := (mem_iff hp).2 ⟨h1, h2⟩
  have hl := List.idxOf_lt_length_iff.2 hi
  rw [value_invL h1 h2, value_eq_getElem (by omega) (by omega)]
  simp

theorem isPerm_invL (hp : IsPerm r p) : IsPerm r (invL r p) := by
  refine ⟨by simp [invL], ?_, ?_⟩
  · unfold invL
    rw [List.nodup_map_iff_inj_on List.nodup_range]
    intro i hi j hj h
    rw [List.mem_range] at hi hj
    have hi' : i + 1 ∈ p := (mem_iff hp).2 (by omega)
    have hj' : j + 1 ∈ p := (mem_iff hp).2 (by omega)
    have h2 : p.idxOf (i + 1) = p.idxOf (j + 1) := by omega
    have := (List.idxOf_inj hi').1 h2
    omega
  · intro i hi
    simp only [invL, List.mem_map, List.mem_range] at hi
    obtain ⟨j, hj, rfl⟩ := hi
    have hj' : j + 1 ∈ p := (mem_iff hp).2 (by omega)
    have := List.idxOf_lt_length_iff.2 hj'
    rw [hp.length] at this
    omega

theorem mulL_invL (hp : IsPerm r p) : mulL p (invL r p) = pyRange 1 (r + 1) := by
  apply ext (isPerm_mulL hp (isPerm_invL hp)) (isPerm_id r)
  intro i h1 h2
  rw [value_mulL (isPerm_invL hp) h1 h2, value_value_inv hp h1 h2, value_id h1 h2]

theorem invL_mulL (hp : IsPerm r p) : mulL (invL r p) p = pyRange 1 (r + 1) := by
  apply ext (isPerm_mulL (isPerm_invL hp) hp) (isPerm_id r)
  intro i h1 h2
  rw [value_mulL hp h1 h2, value_id h1 h2]
  have h3 := value_range hp h1 h2
  have h4 := value_range (isPerm_invL hp) h3.1 h3.2
  exact value_inj hp h4 ⟨h1, h2⟩ (value_value_inv hp h3.1 h3.2)

end IsPerm
end Comch
