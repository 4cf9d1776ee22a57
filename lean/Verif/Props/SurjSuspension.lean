import Verif.Props.SurjCompose
import Verif.Lib.PermSign

/-! # C55: suspension -/

namespace Comch.SurjElem
open Elem Spec SurjComp
open Finsupp (single)

variable {r : Nat} {x : SurjElem}

/-- The terms added by `suspension`. -/
def suspEvents (r : Nat) (p : Surj × Int) : List (Surj × Int) :=
  if IsPerm r (p.1.take r) then [(p.1.drop (r - 1), p.2 * (-1) ^ inversions (p.1.take r))] else []

theorem le_length_of_onto {k : Surj} (h : ∀ v, v ∈ k ↔ 1 ≤ v ∧ v ≤ r) : r ≤ k.length := by
  have hc := sdeg_card k
  have e : k.toFinset = Finset.Icc 1 r := by
    ext v; rw [List.mem_toFinset, h v, Finset.mem_Icc]
  rw [e, Nat.card_Icc] at hc
  omega

theorem suspension_eq (hx : InSurj r x) (hne : x.data ≠ []) {d : Int} (hd : x.degree = some d)
    (hc : x.attrs.convention = .bergerFresse) :
    suspension x = .ok (accumulate surjection (x.zero surjection) (x.data.flatMap (suspEvents r))) := by
  unfold suspension
  have ht : x.truthy = true := by simpa [truthy, List.isEmpty_iff] using hne
  rw [ht, arity_eq hx hne, hd]
  simp only [Bool.not_true, Bool.false_eq_true, if_false, hc, ne_eq, not_true_eq_false]
  rw [mapM_ok (g := suspEvents r)]
  · rw [List.flatMap_def]
    rfl
  · intro p hp
    have hl := le_length_of_onto (hx.onto p hp)
    unfold suspEvents
    split_ifs with h
    · simp only [IsPerm.sign_eq h]
    · rw [IsPerm.sign_err]
      rintro ⟨r', h'⟩
      have := h'.length
      rw [List.length_take, min_eq_left hl] at this
      exact h (this ▸ h')

end Comch.SurjElem

namespace Comch.Props
open Comch Elem Spec SurjElem SurjComp

variable {r : Nat} {x : SurjElem}

/-- The suspension of a non-zero homogeneous element: the coefficient of a surjection `m` is the signed
sum of the coefficients of those keys of `x` whose first `r` entries are a permutation and which end
in `m`, starting at the `r`-th entry. In particular every key has length `d + 1`, so that it has degree
`d - r + 1` if it has the arity `r` of `x`. -/
theorem C55_suspension (hx : InSurj r x) (hne : x.data ≠ []) {d : Int} (hd : x.degree = some d)
    (hc : x.attrs.convention = .bergerFresse) :
    ∃ z, suspension x = .ok z ∧ z.NF surjection ∧ z.attrs = x.attrs ∧
      (∀ p ∈ z.data, (p.1.length : Int) = d + 1 ∧ ∀ v ∈ p.1, 1 ≤ v ∧ v ≤ r) ∧
      ∀ r' m, 1 ≤ r' → NonDegenerate r' m →
        z.coeff m ≡ (x.data.map fun p => if IsPerm r (p.1.take r) ∧ p.1.drop (r - 1) = m then
          (-1) ^ inversions (p.1.take r) * p.2 else 0).sum [ZMOD x.torsion] := by
  refine ⟨_, suspension_eq hx hne hd hc, nf_accumulate_zero _ _ _, by simp, ?_, ?_⟩
  · intro p hp
    have h := mem_keys_accumulate_zero (List.mem_map_of_mem (f := Prod.fst) hp)
    obtain ⟨q, hq, e⟩ := List.mem_map.1 h
    obtain ⟨y, hy, hq⟩ := List.mem_flatMap.1 hq
    unfold suspEvents at hq
    split_ifs at hq with hper
    · simp only [List.mem_singleton] at hq
      have hl := le_length_of_onto (hx.onto y hy)
      have h1 := one_le_of_mem hx hy
      rw [SurjElem.degree, uniqueValue_eq_some] at hd
      have hd' := hd.2 _ (List.mem_map_of_mem (f := fun p : Surj × Int => keyDegree p.1) hy)
      simp only [keyDegree, pyMax_of_onto (hx.onto _ hy)] at hd'
      rw [← e, hq]
      refine ⟨?_, fun v hv => (hx.onto y hy v).1 (List.mem_of_mem_drop hv)⟩
      simp only [List.length_drop]
      omega
    · simp at hq
  · intro r' m hr' hm
    refine (coeff_accumulate_zero x _ rfl m (surj_kept hr' hm)).trans ?_
    refine congrArg (· % (x.torsion : Int)) ?_
    rw [List.map_flatMap, sum_flatMap]
    congr 1
    apply List.map_congr_left
    intro p hp
    unfold suspEvents
    split_ifs with h1 h2 h2
    · simp [h2.2, mul_comm]
    · have : p.1.drop (r - 1) ≠ m := fun e => h2 ⟨h1, e⟩
      simp [this]
    · exact absurd h2.1 h1
    · rfl

/-- Zero is returned unchanged, elements which are not homogeneous raise `TypeError`, and the
convention of McClure and Smith raises `NotImplementedError`. -/
theorem C55_exceptions (x : SurjElem) :
    (x.data = [] → suspension x = .ok x) ∧
    (x.data ≠ [] → (x.arity = none ∨ x.degree = none) → suspension x = .error .typeError) ∧
    (x.data ≠ [] → ∀ a d, x.arity = some a → x.degree = some d →
      x.attrs.convention = .mcClureSmith → suspension x = .error .notImplementedError) := by
  have ht : ∀ h : x.data ≠ [], x.truthy = true := fun h => by simpa [truthy, List.isEmpty_iff] using h
  refine ⟨?_, ?_, ?_⟩
  · intro h
    unfold suspension
    rw [show x.truthy = false by simp [truthy, h]]
    rfl
  · intro h h'
    unfold suspension
    rw [ht h]
    rcases h' with h' | h'
    · rw [h']; rfl
    · rw [h']
      cases x.arity <;> rfl
  · intro h a d ha hd hc
    unfold suspension
    rw [ht h, ha, hd, hc]
    rfl

/-- (defect) The documented example: the suspension of an element of arity 3 and degree 2 should lie in
arity 3 and degree 0, but a term of arity 2 and degree 1 is returned, and suspension does not commute
with the boundary, up to sign. -/
theorem C55_defect : ∃ x z zb, InSurj 3 x ∧ x.degree = some 2 ∧ x.attrs.convention = .bergerFresse ∧
    suspension x = .ok z ∧ SurjElem.arity z = some 2 ∧ SurjElem.degree z = some 1 ∧
    suspension x.boundary = .ok zb ∧ pyEq zb (SurjElem.boundary z) = false ∧
    pyEq zb (smul surjection (-1) (SurjElem.boundary z)) = false := by
  refine ⟨Elem.new surjection [([1, 3, 2, 1, 2], 1)] none .bergerFresse,
    Elem.new surjection [([2, 1, 2], -1)] none .bergerFresse,
    Elem.new surjection [([1, 2], -1), ([2, 1], -1)] none .bergerFresse, ?_⟩
  refine ⟨SurjElem.inSurj_of_arity (nf_new _ (by decide) _ _) (by decide), ?_⟩
  exact ⟨by decide +kernel, rfl, by rfl, by decide +kernel, by decide +kernel, by rfl, by decide +kernel,
    by decide +kernel⟩

example : InSurj 3 (exSu .bergerFresse) ∧ (exSu .bergerFresse).data ≠ [] ∧ (exSu .bergerFresse).degree = some 2 :=
  ⟨exSu_in _, by decide, by decide⟩

-- both sides of the summation are non-trivial
example : (suspension (Elem.new surjection [([1, 2, 3, 1, 2], 1), ([2, 1, 3, 1, 2], 5), ([1, 2, 1, 3, 1], 7)] none
    .bergerFresse)).toOption.map Elem.data = some [([3, 1, 2], -4)] := by decide +kernel

end Comch.Props
