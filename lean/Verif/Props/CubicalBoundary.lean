import Verif.Lib.Cubical
import Verif.Spec.Chains

/-! # C28: cubical boundary -/

set_option linter.unusedSectionVars false

namespace Comch.Props
open Comch Elem CElem

theorem den_cboundary {n : Nat} {x y : CElem} (h : x.boundary = .ok y) (hn : x.torsion = n) :
    den (ZMod n) y.data = cubicalD (den _ x.data) := by
  rw [boundary_eq] at h
  cases h
  rw [den_accumulate_zero' _ _ _ rfl hn, den_events _ _ _ fun p _ => den_boundaryEv p.1 p.2]
  exact pr_false _

theorem nf_cboundary {x y : CElem} (h : x.boundary = .ok y) : y.NF cubical := by
  rw [boundary_eq] at h
  cases h
  exact nf_accumulate_zero _ _ _

theorem cboundary_attrs {x y : CElem} (h : x.boundary = .ok y) : y.attrs = x.attrs := by
  rw [boundary_eq] at h
  cases h
  simp

/-- `boundary` never raises. -/
theorem C28_boundary_ok (x : CElem) : ∃ y, x.boundary = .ok y := ⟨_, boundary_eq x⟩

/-- `∂∂ = 0`. -/
theorem C28_boundary_boundary {x y z : CElem} (h : x.boundary = .ok y) (h' : y.boundary = .ok z) :
    z.data = [] := by
  rw [(nf_cboundary h').data_eq_nil_iff]
  have h1 : y.torsion = x.torsion := torsion_congr (cboundary_attrs h)
  have h2 : z.torsion = x.torsion := (torsion_congr (cboundary_attrs h')).trans h1
  rw [h2, den_cboundary h' h1, den_cboundary h rfl, cubicalD_sq]

/-- `∂(x + y) = ∂x + ∂y`. -/
theorem C28_boundary_add {x y z bx by_ bz : CElem} (hx : x.NF cubical) (hy : y.NF cubical)
    (h : add cubical x y = .ok z) (ex : x.boundary = .ok bx) (ey : y.boundary = .ok by_)
    (ez : z.boundary = .ok bz) :
    ∃ w, add cubical bx by_ = .ok w ∧ pyEq bz w = true := by
  have ht := torsion_eq_of_add h
  have tz' : z.torsion = x.torsion := torsion_congr (attrs_add h)
  have tbx : bx.torsion = x.torsion := torsion_congr (cboundary_attrs ex)
  have tby : by_.torsion = x.torsion := (torsion_congr (cboundary_attrs ey)).trans ht.symm
  obtain ⟨w, hw⟩ := add_ok (C := cubical) (x := bx) (y := by_) (by rw [tbx, tby])
  refine ⟨w, hw, pyEq_of_den (n := x.torsion) (nf_cboundary ez) (nf_add hw (nf_cboundary ex))
    ((torsion_congr (cboundary_attrs ez)).trans tz') ((torsion_congr (attrs_add hw)).trans tbx) ?_⟩
  rw [den_cboundary ez tz', den_add h hx hy (by simp [cubical]) (by simp), map_add,
    den_add hw (nf_cboundary ex) (nf_cboundary ey) (by simp [cubical]) (by rw [tbx]; simp),
    den_cboundary ex rfl, den_cboundary ey ht.symm]

theorem intervalPositions_cons (e : Nat) (c : Cube) :
    Spec.intervalPositions (e :: c) = if e = 2 then 0 :: (Spec.intervalPositions c).map (· + 1)
      else (Spec.intervalPositions c).map (· + 1) := by
  unfold Spec.intervalPositions
  rw [List.length_cons, List.range_succ_eq_map, List.filter_cons, List.filter_map]
  by_cases h : e = 2
  · simp [h, Function.comp_def]
  · simp [h, Function.comp_def]

theorem length_intervalPositions (c : Cube) : (Spec.intervalPositions c).length = c.dimension := by
  induction c with
  | nil => rfl
  | cons e c ih =>
    rw [intervalPositions_cons, Cube.dimension_cons]
    split <;> simp [ih]

theorem faceL_eq_set (c : Cube) {i : Nat} (ε : Nat) (hi : i < c.dimension) :
    c.faceL i ε = c.set ((Spec.intervalPositions c).getD i 0) ((ε + 1) % 2) := by
  induction c generalizing i with
  | nil => simp [Cube.dimension] at hi
  | cons e c ih =>
    rw [intervalPositions_cons]
    rw [Cube.dimension_cons] at hi
    have key : ∀ j, j < Cube.dimension c → ((Spec.intervalPositions c).map (· + 1)).getD j 0 =
        (Spec.intervalPositions c).getD j 0 + 1 := by
      intro j hj
      rw [List.getD_eq_getElem?_getD, List.getElem?_map, List.getD_eq_getElem?_getD,
        List.getElem?_eq_getElem (by rw [length_intervalPositions]; exact hj)]
      rfl
    by_cases h : e = 2
    · subst h
      cases i with
      | zero => simp [Cube.faceL]
      | succ i =>
        have hi' : i < Cube.dimension c := by simpa using hi
        rw [if_pos rfl, List.getD_cons_succ, key i hi', List.set_cons_succ, ← ih hi']
        rfl
    · have hi' : i < Cube.dimension c := by simpa [h] using hi
      rw [if_neg h, key i hi', List.set_cons_succ, ← ih hi']
      simp [Cube.faceL, h]

/-- The coefficients of the boundary are given by the incidence numbers. -/
theorem C28_boundary_coeff {x y : CElem} (h : x.boundary = .ok y) (m : CKey) :
    y.coeff m ≡ (x.data.map fun p => p.2 * Spec.cubicalIncidence p.1 m).sum [ZMOD x.torsion] := by
  rw [boundary_eq] at h
  cases h
  refine (coeff_accumulate_zero x _ rfl m rfl).trans ?_
  rw [List.map_flatMap, sum_flatMap]
  refine congrArg (· % (x.torsion : Int)) ?_
  congr 1
  apply List.map_congr_left
  rintro ⟨k, v⟩ hp
  simp only [boundaryEv, cubeEvents, List.map_flatMap, sum_flatMap, Spec.cubicalIncidence,
    Spec.sumTo, List.map_map, pyProduct]
  rw [enumerate_eq_map k [], List.map_map, ← List.sum_map_mul_left]
  congr 1
  apply List.map_congr_left
  intro j hj
  have hj' : j < k.length := by simpa using hj
  simp only [Function.comp]
  rw [← List.sum_map_mul_left, length_intervalPositions]
  congr 1
  apply List.map_congr_left
  intro i hi
  have e1 : ∀ c : Cube, k.take j ++ [c] ++ k.drop (j + 1) = k.set j c := by
    intro c
    rw [List.set_eq_take_append_cons_drop, if_pos hj']
    simp
  have hd : ((k.take j).map fun c => (Spec.intervalPositions c).length) =
      (k.take j).map Cube.dimension := List.map_congr_left fun c _ => length_intervalPositions c
  have hi' : i < Cube.dimension (k.getD j []) := by simpa using hi
  simp only [List.map_cons, List.map_nil, List.sum_cons, List.sum_nil, e1, hd, Function.comp,
    faceL_eq_set _ _ hi', keyDegree]
  generalize ((k.take j).map Cube.dimension).sum = d
  have s1 : pySign (d : Int) * pySign ((i + 0 : Nat) : Int) = (-1) ^ (d + i) := by
    rw [← pySign_add, ← pySign_natCast]; push_cast; rw [add_zero]
  have s2 : pySign (d : Int) * pySign ((i + 1 : Nat) : Int) = - (-1) ^ (d + i) := by
    rw [← pySign_add, ← pySign_natCast, ← pySign_succ]
    push_cast
    rw [add_assoc]
  rw [mul_assoc, s1, mul_assoc, s2]
  simp only [show (0 + 1) % 2 = 1 from rfl, show (1 + 1) % 2 = 0 from rfl]
  split <;> split <;> ring

/-- Keys of a boundary. -/
theorem mem_keys_cboundary {x y : CElem} (h : x.boundary = .ok y) {m : CKey}
    (hm : m ∈ y.data.map Prod.fst) :
    ∃ p ∈ x.data, ∃ j c i ε, p.1[j]? = some c ∧ i < Cube.dimension c ∧
      m = p.1.set j (Cube.faceL c i ε) := by
  rw [boundary_eq] at h
  cases h
  have := mem_keys_accumulate_zero hm
  simp only [List.mem_map, List.mem_flatMap, boundaryEv, cubeEvents] at this
  obtain ⟨e, ⟨p, hp, ⟨j, c⟩, hjs, q, ⟨ie, hie, rfl⟩, rfl⟩, rfl⟩ := this
  rw [mem_enumerate] at hjs
  rw [mem_pyProduct, List.mem_range] at hie
  have hj : j < p.1.length := by
    by_contra hc
    rw [List.getElem?_eq_none (by omega)] at hjs
    cases hjs
  refine ⟨p, hp, j, c, ie.1, ie.2, hjs, hie.1, ?_⟩
  rw [List.set_eq_take_append_cons_drop, if_pos hj]
  simp

theorem dimension_faceL (c : Cube) {i : Nat} (ε : Nat) (hi : i < c.dimension) :
    (c.faceL i ε).dimension + 1 = c.dimension := by
  induction c generalizing i with
  | nil => simp [Cube.dimension] at hi
  | cons e c ih =>
    rw [Cube.dimension_cons] at hi ⊢
    by_cases h : e = 2
    · subst h
      cases i with
      | zero =>
        simp only [Cube.faceL, if_true, Cube.dimension_cons]
        have : (ε + 1) % 2 ≠ 2 := by omega
        rw [if_neg this]
      | succ i =>
        have := ih (i := i) (by simpa using hi)
        simp only [Cube.faceL, if_true, Cube.dimension_cons]
        omega
    · have := ih (i := i) (by simpa [h] using hi)
      simp only [Cube.faceL, h, if_false, Cube.dimension_cons]
      omega

/-- The boundary of a homogeneous element is zero or homogeneous of degree one less. -/
theorem C28_boundary_degree {x y : CElem} (h : x.boundary = .ok y) (d : Nat) (hd : x.degree = some d) :
    y.data = [] ∨ (1 ≤ d ∧ y.degree = some (d - 1)) := by
  rw [or_iff_not_imp_left]
  intro hne
  have key : ∀ q ∈ y.data, keyDegree q.1 + 1 = d := by
    intro q hq
    obtain ⟨p, hp, j, c, i, ε, hs, hi, he⟩ := mem_keys_cboundary h (List.mem_map_of_mem (f := Prod.fst) hq)
    rw [degree, uniqueValue_eq_some] at hd
    have h1 := hd.2 _ (List.mem_map_of_mem hp)
    rw [he, ← h1]
    clear h1 he hq hd
    generalize p.1 = k at hs ⊢
    induction k generalizing j with
    | nil => simp at hs
    | cons a k ih =>
      cases j with
      | zero =>
        simp only [List.getElem?_cons_zero, Option.some.injEq] at hs
        subst hs
        have := dimension_faceL a ε hi
        simp only [List.set_cons_zero, keyDegree, List.map_cons, List.sum_cons]
        omega
      | succ j =>
        have := ih j (by simpa using hs)
        simp only [keyDegree] at this
        simp only [List.set_cons_succ, keyDegree, List.map_cons, List.sum_cons]
        omega
  obtain ⟨q, hq⟩ := List.exists_mem_of_ne_nil _ hne
  refine ⟨by have := key q hq; omega, ?_⟩
  rw [degree, uniqueValue_eq_some]
  refine ⟨by simpa using hne, ?_⟩
  intro b hb
  obtain ⟨q, hq, rfl⟩ := List.mem_map.1 hb
  have := key q hq
  omega

/-- The boundary keeps the arity. -/
theorem C28_boundary_arity {x y : CElem} (h : x.boundary = .ok y) (r : Nat) (hr : x.arity = some r) :
    y.data = [] ∨ y.arity = some r := by
  rw [or_iff_not_imp_left]
  intro hne
  rw [arity, uniqueValue_eq_some] at hr ⊢
  refine ⟨by simpa using hne, ?_⟩
  intro b hb
  obtain ⟨q, hq, rfl⟩ := List.mem_map.1 hb
  obtain ⟨p, hp, j, c, i, ε, hs, hi, he⟩ := mem_keys_cboundary h (List.mem_map_of_mem (f := Prod.fst) hq)
  rw [he, List.length_set]
  exact hr.2 _ (List.mem_map_of_mem hp)

/-- A tensor of cubes modulo 5. -/
abbrev exCub : CElem := Elem.new cubical [([[2, 0, 2], [2, 1]], 2), ([[0, 2], [2, 2]], 1)] (some 5)

theorem exCub_nf : exCub.NF cubical := nf_new _ (by decide) _ _

example : ∃ y, exCub.boundary = .ok y ∧ y.data ≠ [] ∧ exCub.degree = some 3 ∧ exCub.arity = some 2 ∧
    y.coeff [[2, 0, 1], [2, 1]] = 3 := by
  refine ⟨_, rfl, ?_⟩
  decide +kernel

end Comch.Props
