import Verif.Lib.LatexCubical
import Verif.Lib.Lin
import Verif.Model.Simplicial
import Verif.Model.Cubical
import Verif.Props.FreeModule

/-! # C76, C77, C78: printing, hashing, LaTeX -/

namespace Comch.Props

open Elem Spec.Printing Printing

/-! ## C76 printing -/

/-- `str(x)` for symmetric ring and surjection elements (keys are tuples of ints). -/
theorem C76_str_text (C : Cls (List Nat)) (x : Elem (List Nat)) (hx : x.NF C) :
    x.str = .ok (strText x.data) := str_eq x hx.coeff_ne

/-- `str(x)` for simplicial, cubical and Barratt–Eccles elements (keys are tuples of tuples). -/
theorem C76_str_text_nested (C : Cls (List (List Nat))) (x : Elem (List (List Nat))) (hx : x.NF C) :
    x.str = .ok (strText x.data) := str_eq x hx.coeff_ne

/-- Elements that print alike are equal, and list their terms in the same order. -/
theorem C76_str_injective (C : Cls (List Nat)) (x y : Elem (List Nat)) (hx : x.NF C) (hy : y.NF C)
    (h : x.str = y.str) : x.data = y.data ∧ pyEq x y = true := by
  rw [str_eq x hx.coeff_ne, str_eq y hy.coeff_ne] at h
  have hd := strText_inj _ _ hx.coeff_ne hy.coeff_ne (Except.ok.inj h)
  exact ⟨hd, (pyEq_iff hx hy).2 fun k => by rw [hd]⟩

/-- The same for the classes whose keys are tuples of tuples. -/
theorem C76_str_injective_nested (C : Cls (List (List Nat))) (x y : Elem (List (List Nat))) (hx : x.NF C)
    (hy : y.NF C) (h : x.str = y.str) : x.data = y.data ∧ pyEq x y = true := by
  rw [str_eq x hx.coeff_ne, str_eq y hy.coeff_ne] at h
  have hd := strText_inj _ _ hx.coeff_ne hy.coeff_ne (Except.ok.inj h)
  exact ⟨hd, (pyEq_iff hx hy).2 fun k => by rw [hd]⟩

/-- Exactly the elements without terms print as `0`. -/
theorem C76_str_zero (C : Cls (List Nat)) (x : Elem (List Nat)) (hx : x.NF C) :
    x.str = .ok "0".toList ↔ x.data = [] := by
  constructor
  · intro h
    rw [str_eq x hx.coeff_ne] at h
    exact strText_inj x.data [] hx.coeff_ne (by simp) (Except.ok.inj h)
  · intro h
    unfold Elem.str baseStr
    rw [h]
    rfl

/-- The same for the classes whose keys are tuples of tuples. -/
theorem C76_str_zero_nested (C : Cls (List (List Nat))) (x : Elem (List (List Nat))) (hx : x.NF C) :
    x.str = .ok "0".toList ↔ x.data = [] := by
  constructor
  · intro h
    rw [str_eq x hx.coeff_ne] at h
    exact strText_inj x.data [] hx.coeff_ne (by simp) (Except.ok.inj h)
  · intro h
    unfold Elem.str baseStr
    rw [h]
    rfl

/-- The converse fails: equal elements may print differently, since terms are printed in the order of
their insertion. -/
theorem C76_defect_order :
    let x := Elem.new (freeModule (List Nat)) [([1, 2], 1), ([2, 1], 1)]
    let y := Elem.new (freeModule (List Nat)) [([2, 1], 1), ([1, 2], 1)]
    pyEq x y = true ∧ x.str ≠ y.str := by
  constructor
  · decide +kernel
  · intro h
    have := congrArg (fun s => s.toOption.map String.ofList) h
    revert this
    decide +kernel

example : (Elem.new (freeModule (List (List Nat))) [([[0], [0, 1, 2]], -1), ([[10, 11]], 12)]).str.toOption.map
    String.ofList = some "- ((0,),(0,1,2)) + 12((10,11),)" := by decide +kernel

/-! ## C77 hashing -/

/-- Equal elements have equal hashes, whatever the hash function of sets. -/
theorem C77_hash_of_eq {K : Type} [DecidableEq K] (C : Cls K) (setHash : Finset K → Int) (x y : Elem K)
    (hx : x.NF C) (hy : y.NF C) (h : pyEq x y = true) : x.pyHash setHash = y.pyHash setHash := by
  unfold pyHash
  congr 1
  ext k
  rw [List.mem_toFinset, List.mem_toFinset]
  rw [pyEq_iff hx hy] at h
  have key : ∀ z : Elem K, z.NF C → (k ∈ z.data.keys ↔ z.data.get k ≠ 0) := by
    intro z hz
    constructor
    · intro hk
      obtain ⟨p, hp, rfl⟩ := List.mem_map.1 hk
      rw [Dict.get_of_mem hz.nodup hp]
      exact hz.coeff_ne p hp
    · intro hk
      by_contra hc
      exact hk (Dict.get_of_not_mem hc)
  rw [key x hx, key y hy, h k]

/-- The hash of an object changes under `x += y` when the hash of sets separates the two sets of
keys: elements are mutable although hashable, so they must not be changed while used as dictionary
keys. -/
theorem C77_defect_mutation :
    let x := Elem.new (freeModule (List Nat)) [([1, 2], 1)]
    let y := Elem.new (freeModule (List Nat)) [([2, 1], 1)]
    ∃ z, Elem.iadd (freeModule (List Nat)) x y = .ok z ∧
      ∀ setHash : Finset (List Nat) → Int, setHash.Injective → x.pyHash setHash ≠ z.pyHash setHash := by
  refine ⟨_, rfl, ?_⟩
  intro setHash hinj h
  have := hinj h
  revert this
  decide +kernel

/-! ## C78 LaTeX -/

open Latex

/-- `_latex_` of a simplicial element prints `[0,1] \otimes [1,2]` for each basis element of arity at
least two, and for the simplices of positive dimension in arity one. -/
theorem C78_simplicial (x : SElem) (hx : x.NF simplicial) (h1 : ∀ k ∈ x.data.keys, k ≠ [] ∧ ∀ σ ∈ k, σ ≠ [])
    (h2 : ∀ k ∈ x.data.keys, ∀ a, k ≠ [[a]]) :
    simplicialLatex x = .ok (sumOf simplicesLatex x.data) := by
  rw [simplicialLatex_eq x hx.coeff_ne fun q hq => h1 q.1 (List.mem_map_of_mem hq)]
  congr 1
  exact sumOf_congr _ fun p hp => k6_eq _ (h1 p.1 (List.mem_map_of_mem hp)).1 (h2 p.1 (List.mem_map_of_mem hp))

/-- A vertex in arity one keeps the comma of its one-entry tuple: `[0,]` instead of `[0]`. -/
theorem C78_defect_vertex (x : SElem) (a : Nat) (hx : x.data = [([[a]], 1)]) :
    simplicialLatex x = .ok ('[' :: (natStr a ++ ",]".toList)) := by
  rw [simplicialLatex_eq x (by rw [hx]; simp) (by rw [hx]; simp), hx]
  simp [sumOf, termOf, k6, mid, body, tr]

/-- `_latex_` of a non-zero cubical element prints `[0][01] \otimes [1][0]` for each basis element,
provided that no coefficient is written with the digits `0` or `1`. -/
theorem C78_cubical (x : CElem) (hx : x.NF cubical) (hne : x.data ≠ [])
    (h1 : ∀ k ∈ x.data.keys, k ≠ [] ∧ ∀ c ∈ k, c ≠ [] ∧ ∀ a ∈ c, a = 0 ∨ a = 1 ∨ a = 2)
    (h2 : ∀ p ∈ x.data, p.2.natAbs = 1 ∨ ∀ c ∈ natStr p.2.natAbs, c ≠ '0' ∧ c ≠ '1') :
    cubicalLatex x = .ok (sumOf cubesLatex x.data) :=
  cubicalLatex_eq x hx.coeff_ne hne (fun q hq => h1 q.1 (List.mem_map_of_mem hq)) h2

/-- The digits `0` and `1` of coefficients are rewritten too: `10` times the interval prints as
`[1][0][01]`, like the cube `(1, 0, 2)`. -/
theorem C78_defect_coefficient :
    cubicalLatex (Elem.new cubical [([[2]], 10)]) = cubicalLatex (Elem.new cubical [([[1, 0, 2]], 1)]) ∧
      pyEq (Elem.new cubical [([[2]], 10)]) (Elem.new cubical [([[1, 0, 2]], 1)]) = false := by
  constructor
  · have h : ∀ a b : Py PyStr, a.toOption.isSome = true → a.toOption = b.toOption → a = b := by
      rintro (a | a) (b | b) h1 h2 <;> simp_all [Except.toOption]
    exact h _ _ (by decide +kernel) (by decide +kernel)
  · decide +kernel

/-- The zero element prints like the vertex `0` of the interval. -/
theorem C78_defect_zero :
    cubicalLatex (Elem.new cubical []) = cubicalLatex (Elem.new cubical [([[0]], 1)]) ∧
      pyEq (Elem.new cubical []) (Elem.new cubical [([[0]], 1)]) = false := by
  constructor
  · have h : ∀ a b : Py PyStr, a.toOption.isSome = true → a.toOption = b.toOption → a = b := by
      rintro (a | a) (b | b) h1 h2 <;> simp_all [Except.toOption]
    exact h _ _ (by decide +kernel) (by decide +kernel)
  · decide +kernel

example : (simplicialLatex (Elem.new simplicial [([[0], [0, 1, 2], [2]], -1), ([[0, 1, 2]], 12)])).toOption.map
    String.ofList = some "- [0] \\otimes [0,1,2] \\otimes [2] + 12[0,1,2]" := by decide +kernel

example : String.ofList (sumOf simplicesLatex [([[0], [0, 1, 2], [2]], -1), ([[0, 1, 2]], 12)]) =
    "- [0] \\otimes [0,1,2] \\otimes [2] + 12[0,1,2]" := by decide +kernel

example : (cubicalLatex (Elem.new cubical [([[2, 2, 1], [0]], 1), ([[0, 1, 2], [2]], -23)])).toOption.map
    String.ofList = some "[01][01][1] \\otimes [0] - 23[0][1][01] \\otimes [01]" := by decide +kernel

end Comch.Props
