import Verif.Props.CubeCup
import Verif.Props.CochainsRange

/-! # The range of the cup-i products on cubical cochains: C133 -/

set_option linter.unusedSectionVars false

namespace Comch.CubeCup
open Comch.Spec

theorem face_count {f c : Cube} (h : IsFaceOf f c) : f.count 2 ≤ c.count 2 := by
  induction h with
  | nil => rfl
  | cons h _ ih =>
    rw [List.count_cons, List.count_cons]
    obtain ⟨-, h | h⟩ := h
    · subst h
      split <;> simp <;> omega
    · subst h
      omega

end Comch.CubeCup

namespace Comch.Props
open Comch.Spec Comch.CubeCup Elem CElem SurjComp SurjElem

variable {n N : Nat} {c : Cube} {X : CubeComplex N}

/-- The same range on cubical cochains, in both conventions and for all `i`: `α ∪_i β = 0` if `i` exceeds the degree
of one of the factors. -/
theorem C133_cubes (hn : n ≠ 1) (cv : Convention) (hc : c ∈ X.cubes) (i a b : Nat) (α β : Cube → ZMod n) (h : a < i ∨ b < i) :
    signedCubeCup n cv i a α b β c = .ok 0 := by
  rw [CubeCup.cup_eq hn cv]
  congr 1
  by_cases hd : c.count 2 + i = a + b
  · rcases h with h | h
    · rw [wi_congr (β' := fun _ => 0) hn (cube_le hc) (fun _ _ _ => rfl)
        (fun f hf e => by have := face_count hf; omega), wi, evP_zero_right]
    · rw [wi_congr (α' := fun _ => 0) hn (cube_le hc) (fun f hf e => by have := face_count hf; omega)
        (fun _ _ _ => rfl), wi, evP_zero_left]
  · exact wi_degree hn (cube_le hc) hd

example : ([2, 2, 1] : Cube) ∈ (exCubeComplex 3).cubes := ⟨rfl, by decide⟩

/-- At the boundary of the range the product need not vanish. -/
example : signedCubeCup 0 .bergerFresse 1 1 (fun _ => 1) 1 (fun _ => 1) [2, 0, 1] = .ok 1 := by decide +kernel

end Comch.Props
