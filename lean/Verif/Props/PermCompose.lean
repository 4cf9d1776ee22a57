import Verif.Lib.SurjSuspComp
import Verif.Props.Symmetric

/-! # The sign of a composite of permutations: C14 -/

namespace Comch.Props
open Comch.Spec IsPerm SurjComp

/-- The sign of `p.compose(q, i)` for the letter `i` at the position `k = u.length + 1` of `p`: the product of the signs of
`p` and `q`, times `-1` for odd `k - i` and even arity `s` of `q`. -/
theorem C14_compose_sign {r s : Nat} {p q u v : Perm} {i : Nat} (hp : IsPerm r p) (hq : IsPerm s q) (hs : 1 ≤ s)
    (he : p = u ++ i :: v) :
    ∃ t a b, Perm.compose p q i = .ok t ∧ Perm.sign p = .ok a ∧ Perm.sign q = .ok b ∧
      Perm.sign t = .ok ((-1) ^ ((s - 1) * (u.length + 1 + i)) * a * b) := by
  have hi : i ∈ p := by rw [he]; simp
  have hir := hp.range i hi
  have hw := C14_compose_word hp hq he
  obtain ⟨t, et, ht⟩ := C14_compose_perm hp hq hir.1 hir.2
  refine ⟨t, _, _, et, sign_eq hp, sign_eq hq, ?_⟩
  have e := hw.symm.trans et
  have h := inversions_comp (R := Int) (he ▸ hp) hq hs
  have e2 : (u.map (sh i s) ++ q.map (up i) ++ v.map (sh i s)) = t := by
    injection e with e
    rw [← e]
    congr 2
    refine List.map_congr_left fun b _ => ?_
    unfold up
    omega
  rw [e2, ← he] at h
  rw [sign_eq ht, h]
  congr 3
  rw [neg_one_pow_eq_pow_mod_two, neg_one_pow_eq_pow_mod_two (n := (s - 1) * (u.length + 1 + i)), Nat.mul_mod,
    Nat.mul_mod (s - 1) (u.length + 1 + i), show (u.length + (i - 1)) % 2 = (u.length + 1 + i) % 2 by omega]

example : IsPerm 3 [2, 3, 1] ∧ IsPerm 2 [2, 1] ∧ ([2, 3, 1] : Perm) = [2, 3] ++ 1 :: [] ∧
    Perm.compose [2, 3, 1] [2, 1] 1 = .ok [3, 4, 2, 1] ∧ Perm.sign [3, 4, 2, 1] = .ok (-1) := by decide +kernel

end Comch.Props
