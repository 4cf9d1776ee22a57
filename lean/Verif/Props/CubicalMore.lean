import Verif.Props.CubicalBoundary
import Verif.Lib.Product

/-! # C35: basis of the cube -/

namespace Comch.Props
open Comch Elem

/-- `Cubical.basis(n)` consists of elements `{(c,): 1}`, one for each sequence `c` of length `n` with
entries 0, 1, 2. -/
theorem C35_basis (n : Nat) (t : Option Nat) (ht : t ≠ some 1) :
    ∃ l : List Cube, (Cubical.basis n t).map (·.data) = l.map (fun c => [([c], 1)]) ∧ l.Nodup ∧
      ∀ c, c ∈ l ↔ c.length = n ∧ ∀ i ∈ c, i ≤ 2 := by
  refine ⟨productRepeat [0, 1, 2] n, ?_, nodup_productRepeat (by decide) n, ?_⟩
  · unfold Cubical.basis
    rw [List.map_map]
    apply List.map_congr_left
    intro c _
    simp only [Function.comp, Elem.new, preferredRep, zeroDropped, basePreferredRep, cubical, List.map_cons,
      List.map_nil, torsion]
    have h1 : (t.getD 0 : Nat) ≠ 1 := by
      rcases t with _ | t
      · simp
      · simpa using ht
    by_cases h0 : (t.getD 0 : Nat) = 0
    · simp [h0]
    · have : (1 : Int) % ((t.getD 0 : Nat) : Int) = 1 := Int.emod_eq_of_lt (by omega) (by omega)
      simp [h0, this]
  · intro c
    rw [mem_productRepeat]
    refine and_congr_right fun _ => forall₂_congr fun i _ => ?_
    simp
    omega

/-- The attributes: the torsion is the given one. -/
theorem C35_basis_torsion (n : Nat) (t : Option Nat) : ∀ x ∈ Cubical.basis n t, x.torsion = t.getD 0 := by
  intro x hx
  unfold Cubical.basis at hx
  obtain ⟨c, _, rfl⟩ := List.mem_map.1 hx
  rfl

example : (Cubical.basis 3 (some 3)).length = 27 := by decide +kernel

end Comch.Props
