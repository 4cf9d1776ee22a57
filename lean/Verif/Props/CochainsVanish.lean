import Verif.Lib.OddVanish
import Verif.Props.Connecting

/-! # The operations of the cyclic group at odd primes: C118 -/

namespace Comch.Props
open Comch.Spec Comch.Coch Elem SurjComp SurjElem SurjMay

variable {p q d : Nat} {X : OrderedComplex} {σ : List Nat}

theorem structure_val (hp : 2 ≤ p) (hσ : σ ∈ X.simplices) (α : List Nat → ZMod p) :
    structureValue p d q α σ = .ok (wv p p d (List.replicate p (q, α)) σ) := by
  obtain ⟨x, z, ex, ez, dz⟩ := W_simplex (d := d) hp (by omega : p ≠ 1) (inc_of_mem hσ)
  unfold structureValue
  simp only [ex, ez, bind, Except.bind]
  rw [evalOn_eq, dz]
  rfl

/-- The values are always defined, and are zero on the simplices of other dimensions than `p q - d`. -/
theorem C118_degree (hp : 2 ≤ p) (hσ : σ ∈ X.simplices) (α : List Nat → ZMod p) :
    ∃ v, structureValue p d q α σ = .ok v ∧ (v ≠ 0 → (σ.length : Int) - 1 = p * q - d) := by
  refine ⟨_, structure_val hp hσ α, fun h => ?_⟩
  have := wv_degree hp (inc_of_mem hσ) α h
  linarith

/-- A cocycle has cocycles as values, in every degree `d`, at all primes. -/
theorem C118_cocycle (hp : p.Prime) {α : List Nat → ZMod p} (hα : IsCocycle X q α) (n : Nat) :
    IsCocycle X n (cochain (structureValue p d q α)) := by
  intro σ hσ _
  rw [coboundary_congr hσ fun τ hτ _ => by rw [cochain, structure_val hp.two_le hτ]]
  exact wv_cocycle (d := d) hp.two_le hp.eq_two_or_odd hα hσ

/-- At an odd prime the value of a cocycle of degree `q` is a coboundary, unless `d` or `d + 1` is
`(q - 2 s) (p - 1)` for an integer `s`: the degrees of the package's operations `P^s` and `β P^s` are the only
ones with non-zero operations on cohomology. -/
theorem C118_vanish (hp : p.Prime) (h2 : p ≠ 2) {α : List Nat → ZMod p} (hα : IsCocycle X q α)
    (hd : ∀ s : Int, (d : Int) ≠ (q - 2 * s) * (p - 1) ∧ (d : Int) ≠ (q - 2 * s) * (p - 1) - 1) (n : Nat) :
    Cohomologous X n (cochain (structureValue p d q α)) (fun _ => 0) := by
  obtain ⟨m, hm⟩ : ∃ m, p = 2 * m + 1 := by
    have := hp.eq_two_or_odd
    exact ⟨p / 2, by omega⟩
  obtain ⟨γ, hγ⟩ := OddP.vanish hp hm hα d (fun s h => by
    obtain ⟨h1, h2⟩ := hd s
    have e : (p : Int) - 1 = 2 * m := by omega
    rw [e, show ((q : Int) - 2 * s) * (2 * m) = 2 * ((q - 2 * s) * m) by ring, ← h] at h1 h2
    omega)
  exact ⟨γ, fun σ hσ _ => by rw [cochain, structure_val hp.two_le hσ]; simp [hγ σ hσ]⟩

/-- In the remaining degrees the package's operation is the documented multiple `(-1)^s ν(-q)` of this value, a
unit of the field, and it is zero where that degree would be negative. -/
theorem C118_operation (p : Nat) [hF : Fact p.Prime] (h2 : p ≠ 2) (hq : q % 2 = 0 ∨ p < 47) (s : Int) (b : Bool)
    (α : List Nat → ZMod p) (hσ : σ ∈ X.simplices) :
    (∀ d : Nat, (d : Int) = (q - 2 * s) * (p - 1) - (if b then 1 else 0) →
      cochain (steenrodValue p s q b α) σ = (-1) ^ s * nu p (-(q : Int)) * cochain (structureValue p d q α) σ) ∧
    ((q - 2 * s) * ((p : Int) - 1) - (if b then 1 else 0) < 0 → cochain (steenrodValue p s q b α) σ = 0) ∧
    (-1) ^ s * nu p (-(q : Int)) ≠ 0 := by
  have hp := hF.out
  obtain ⟨c, hc, hcv⟩ : ∃ c, steenrodCoeff p (-s) (-(q : Int)) = .ok c ∧ (c : ZMod p) = (-1) ^ (-s) * nu p (-(q : Int)) := by
    rcases hq with h | h
    · exact C57_coefficient p h2 _ _ (Or.inl (by omega))
    · exact C57_coefficient_small p h2 h _ _
  have hv := fun b => steenrod_val (q := q) (b := b) hp h2 hc α (inc_of_mem hσ)
  have hs : (-1 : ZMod p) ^ (-s) = (-1) ^ s := by
    rw [zpow_neg, ← inv_zpow, inv_neg, inv_one]
  refine ⟨fun d hd => ?_, fun hd => ?_, ?_⟩
  · rw [cochain, hv b, ← hd, if_pos (by omega), Int.toNat_natCast, hcv, hs, cochain, structure_val hp.two_le hσ]
  · rw [cochain, hv b, if_neg (by omega)]
  · obtain ⟨m, hm⟩ : ∃ m, p = 2 * m + 1 := by
      have := hp.eq_two_or_odd
      exact ⟨p / 2, by omega⟩
    have hne := factorial_ne_zero p hm
    have hn1 : (-1 : ZMod p) ≠ 0 := neg_ne_zero.2 one_ne_zero
    rw [nu, show (p - 1) / 2 = m by omega]
    exact mul_ne_zero (zpow_ne_zero _ hn1) (mul_ne_zero (zpow_ne_zero _ hn1) (zpow_ne_zero _ hne))

/-- The hypotheses of `C118_vanish` are met by the degree 0 at `p = 3`, on a cocycle of degree 1 on the complex of all
simplices ... -/
example : (∀ s : Int, ((0 : Nat) : Int) ≠ ((1 : Nat) - 2 * s) * ((3 : Nat) - 1) ∧
      ((0 : Nat) : Int) ≠ ((1 : Nat) - 2 * s) * ((3 : Nat) - 1) - 1) ∧
    IsCocycle (R := ZMod 3) ⟨{σ | σ.Pairwise (· < ·) ∧ σ ≠ []}, fun _ h => h.1, fun _ h => h.2, fun _ h _ h1 h2 => ⟨h.1.sublist h1, h2⟩⟩ 1
      (coboundary fun τ => (τ.sum : ZMod 3)) := by
  refine ⟨fun s => by constructor <;> push_cast <;> omega, fun σ hσ hl => ?_⟩
  match σ, hl with
  | [a, b, c], _ =>
    have e3 : List.range 3 = [0, 1, 2] := rfl
    have e2 : List.range 2 = [0, 1] := rfl
    simp [coboundary, e3, e2]
    ring

/-- ... and its value, the third power of the cocycle, is not the zero cochain -/
example : structureValue 3 0 1 (coboundary fun τ => (τ.sum : ZMod 3)) [0, 1, 2, 3] = .ok 1 := by decide +kernel

end Comch.Props
