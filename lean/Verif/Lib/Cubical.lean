import Verif.Lib.Simplicial
import Verif.Model.Cubical

/-! # Cubical chains: linear description of the model -/

set_option linter.unusedSectionVars false

namespace Comch
open Finsupp Elem

variable {R : Type} [CommRing R]

namespace Cube

theorem intervals_nil : intervals [] = [] := rfl

theorem intervals_cons (e : Nat) (c : Cube) :
    intervals (e :: c) = if e = 2 then 0 :: (intervals c).map (· + 1) else (intervals c).map (· + 1) := by
  unfold intervals
  rw [enumerate_cons, List.filter_cons]
  have : (((enumerate c).map fun p => (p.1 + 1, p.2)).filter fun p => p.2 == 2).map Prod.fst =
      (((enumerate c).filter fun p => p.2 == 2).map Prod.fst).map (· + 1) := by
    rw [List.filter_map, List.map_map, List.map_map]
    rfl
  by_cases h : e = 2
  · simp only [h, beq_self_eq_true, if_true, List.map_cons, this]
  · have h' : (e == 2) = false := by simpa using h
    simp only [h', if_neg h]
    rw [if_neg (by simp), this]

theorem dimension_cons (e : Nat) (c : Cube) :
    dimension (e :: c) = dimension c + if e = 2 then 1 else 0 := by
  unfold dimension
  rw [List.count_cons]
  simp

theorem length_intervals (c : Cube) : (intervals c).length = dimension c := by
  induction c with
  | nil => rfl
  | cons e c ih =>
    rw [intervals_cons, dimension_cons]
    split <;> simp [ih]

/-- The face of a cube, for admissible indices. -/
def faceL : Cube → Nat → Nat → Cube
  | [], _, _ => []
  | e :: c, i, ε => if e = 2 then (match i with
      | 0 => (ε + 1) % 2 :: c
      | i + 1 => 2 :: faceL c i ε) else e :: faceL c i ε

theorem face_eq (c : Cube) {i : Nat} (ε : Nat) (hi : i < c.dimension) :
    c.face i ε = .ok (faceL c i ε) := by
  induction c generalizing i with
  | nil => simp [dimension] at hi
  | cons e c ih =>
    have key : ∀ j, j < Cube.dimension c → ∀ e, (do
        let idx ← pyGet ((intervals c).map (· + 1)) j
        .ok ((e :: c).take idx ++ [(ε + 1) % 2] ++ (e :: c).drop (idx + 1)) : Py Cube) =
        .ok (e :: faceL c j ε) := by
      intro j hj e
      have h := ih hj
      unfold face at h
      have hj' : j < (intervals c).length := by rw [length_intervals]; exact hj
      have h1 : pyGet (intervals c) j = .ok (intervals c)[j] := by
        unfold pyGet; rw [List.getElem?_eq_getElem hj']
      have h2 : pyGet ((intervals c).map (· + 1)) j = .ok ((intervals c)[j] + 1) := by
        unfold pyGet; rw [List.getElem?_map, List.getElem?_eq_getElem hj']; rfl
      rw [h1] at h
      rw [h2]
      simp only [bind, Except.bind] at h ⊢
      injection h with h
      rw [← h]
      simp
    unfold face
    rw [dimension_cons] at hi
    by_cases he : e = 2
    · subst he
      rw [intervals_cons, if_pos rfl]
      cases i with
      | zero =>
        show Except.ok _ = _
        simp [faceL]
      | succ i =>
        have := key i (by simpa using hi) 2
        simpa [faceL, pyGet] using this
    · rw [intervals_cons, if_neg he]
      have := key i (by simpa [he] using hi) e
      simpa [faceL, he] using this

end Cube

/-- Degree of a cube as an integer. -/
abbrev cdim (c : Cube) : Int := (c.dimension : Int)

/-- Boundary of a cube. -/
noncomputable def cubeD : Cube → (Cube →₀ R)
  | [] => 0
  | e :: c => if e = 2 then bv R (1 :: c) - bv R (0 :: c) - consV 2 (cubeD c) else consV e (cubeD c)

theorem lin_cubeD_consV (e : Nat) (v : Cube →₀ R) :
    lin cubeD (consV e v) = if e = 2 then consV 1 v - consV 0 v - consV 2 (lin cubeD v)
      else consV e (lin cubeD v) := by
  induction v using Finsupp.induction_linear with
  | zero => simp
  | add f g hf hg =>
    simp only [map_add, hf, hg]
    split
    · abel
    · rfl
  | single k a =>
    by_cases h : e = 2
    · simp [cubeD, h, smul_sub]
    · simp [cubeD, h]

theorem lin_cubeD_cubeD (c : Cube) : lin cubeD (cubeD (R := R) c) = 0 := by
  induction c with
  | nil => simp [cubeD]
  | cons e c ih =>
    by_cases h : e = 2
    · rw [cubeD, if_pos h, map_sub, map_sub, lin_cubeD_consV, if_pos rfl, ih]
      simp [cubeD]
    · rw [cubeD, if_neg h, lin_cubeD_consV, if_neg h, ih, map_zero]

theorem sgn1_consV_add (f : Cube → Int) (n : Int) (a : Nat) (hf : ∀ k, f (a :: k) = f k + n)
    (v : Cube →₀ R) : sgn1 f (consV a v) = sg R n • consV a (sgn1 f v) := by
  induction v using Finsupp.induction_linear with
  | zero => simp
  | add f g hf hg => simp only [map_add, hf, hg, smul_add]
  | single k r => simp [sgn1, hf, sg_add]; ring_nf

theorem cdim_cons (e : Nat) (c : Cube) : cdim (e :: c) = cdim c + if e = 2 then 1 else 0 := by
  simp only [cdim, Cube.dimension_cons]
  split <;> simp

theorem sgn1_cubeD (c : Cube) : sgn1 cdim (cubeD (R := R) c) = - (sg R (cdim c) • cubeD c) := by
  induction c with
  | nil => simp [cubeD]
  | cons e c ih =>
    by_cases h : e = 2
    · subst h
      rw [cubeD, if_pos rfl, map_sub, map_sub, sgn1_consV_add cdim 1 2 (fun k => by rw [cdim_cons]; rfl), ih,
        cdim_cons, if_pos rfl, sg_succ]
      simp only [sgn1, lin_single, one_smul, cdim_cons, if_neg (show (1:Nat) ≠ 2 by decide),
        if_neg (show (0:Nat) ≠ 2 by decide), add_zero, sg_one]
      simp only [map_neg, map_smul, smul_sub, neg_smul, one_smul]
      abel
    · rw [cubeD, if_neg h, sgn1_consV_add cdim 0 e (fun k => by rw [cdim_cons, if_neg h]), ih, cdim_cons,
        if_neg h]
      simp

/-- Summands of the boundary of one cube. -/
def cubeEvents (c : Cube) : List (Cube × Int) :=
  (pyProduct (List.range c.dimension) [0, 1]).map fun p =>
    (c.faceL p.1 p.2, pySign ((p.1 + p.2 : Nat) : Int))

theorem den_cubeEvents (c : Cube) : den R (cubeEvents c) = cubeD c := by
  induction c with
  | nil => simp [cubeEvents, cubeD, Cube.dimension, pyProduct]
  | cons e c ih =>
    unfold cubeEvents pyProduct at ih ⊢
    rw [List.map_flatMap, den_flatMap] at ih ⊢
    rw [Cube.dimension_cons]
    by_cases h : e = 2
    · subst h
      rw [if_pos rfl, List.range_succ_eq_map, List.map_cons, List.sum_cons, List.map_map, cubeD,
        if_pos rfl, ← ih, map_list_sum, List.map_map]
      have h0 : ∀ (l : List Nat) (f g : Nat → (Cube →₀ R)), (∀ a, f a = - g a) →
          (l.map f).sum = - (l.map g).sum := by
        intro l f g hfg
        induction l with
        | nil => simp
        | cons a l ih => simp only [List.map_cons, List.sum_cons, ih, hfg]; abel
      rw [sub_eq_add_neg]
      congr 1
      · simp [Cube.faceL, pySign, sub_eq_add_neg]
      · rw [List.map_map]; apply h0
        intro a
        simp only [Function.comp, List.map_cons, List.map_nil, Cube.faceL, if_true, den_cons, den_nil,
          cast_pySign, consV_single, map_add, map_zero]
        push_cast
        have e1 : sg R ((a : Int) + 1 + 0) = - sg R a := by rw [add_zero, sg_succ]
        have e2 : sg R ((a : Int) + 1 + 1) = - sg R ((a : Int) + 1) := by rw [sg_succ]
        rw [e1, e2]
        simp only [add_zero, Finsupp.single_neg]
        abel
    · rw [if_neg h, add_zero, cubeD, if_neg h, ← ih, map_list_sum, List.map_map]
      congr 1
      apply List.map_congr_left
      intro i _
      simp [Cube.faceL, h, Function.comp]

/-- The differential on all tensor powers of cubes. -/
noncomputable abbrev cubicalD : (CKey →₀ R) →ₗ[R] (CKey →₀ R) := tens cubeD cdim

theorem cubicalD_sq (v : CKey →₀ R) : cubicalD (cubicalD v) = 0 :=
  tens_tens lin_cubeD_cubeD sgn1_cubeD v

namespace CElem

/-- Summands of the boundary of one item. -/
def boundaryEv (k : CKey) (v : Int) : List (CKey × Int) :=
  (enumerate k).flatMap fun p => (cubeEvents p.2).map fun q =>
    (k.take p.1 ++ [q.1] ++ k.drop (p.1 + 1), v * pySign (keyDegree (k.take p.1) : Int) * q.2)

theorem boundaryEvents_eq (k : CKey) (v : Int) : boundaryEvents k v = .ok (boundaryEv k v) := by
  unfold boundaryEvents
  have h : (enumerate k).mapM (fun (p : Nat × Cube) =>
      (pyProduct (List.range p.2.dimension) [0, 1]).mapM fun (q : Nat × Nat) => (do
        let newCube ← p.2.face q.1 q.2
        .ok (k.take p.1 ++ [newCube] ++ k.drop (p.1 + 1),
          v * pySign ((keyDegree (k.take p.1) + q.1 + q.2 : Nat) : Int)) : Py (CKey × Int))) =
      .ok ((enumerate k).map fun p => (cubeEvents p.2).map fun q =>
        (k.take p.1 ++ [q.1] ++ k.drop (p.1 + 1), v * pySign (keyDegree (k.take p.1) : Int) * q.2)) := by
    apply mapM_ok
    intro p _
    unfold cubeEvents
    rw [List.map_map]
    apply mapM_ok
    intro q hq
    rw [mem_pyProduct, List.mem_range] at hq
    rw [Cube.face_eq _ _ hq.1]
    simp only [bind, Except.bind, Function.comp]
    congr 2
    rw [mul_assoc, ← pySign_add]
    congr 2
    push_cast
    ring
  simp only [bind] at h ⊢
  rw [h]
  rfl

theorem boundaryEv_cons (a : Cube) (k : CKey) (v : Int) :
    boundaryEv (a :: k) v = ((cubeEvents a).map fun q => (q.1 :: k, v * q.2)) ++
      (boundaryEv k (v * pySign a.dimension)).map fun p => (a :: p.1, p.2) := by
  unfold boundaryEv
  rw [enumerate_cons, List.flatMap_cons, List.flatMap_map]
  congr 1
  · simp [keyDegree, pySign]
  · simp only [List.map_flatMap, List.map_map]
    congr 1
    funext p
    apply List.map_congr_left
    intro i _
    simp [keyDegree, pySign_add, mul_assoc]

theorem den_boundaryEv (k : CKey) (v : Int) : den R (boundaryEv k v) = (v : R) • tensK cubeD cdim k := by
  induction k generalizing v with
  | nil => simp [boundaryEv, enumerate, tensK]
  | cons a k ih =>
    rw [boundaryEv_cons, den_append, ← mapK_den (a :: ·), ih, tensK, smul_add]
    congr 1
    · rw [← den_cubeEvents, cat_one_bv, mapK_den, ← den_scale, List.map_map]
      rfl
    · simp only [Int.cast_mul, cast_pySign, map_smul, smul_smul]
      rfl

theorem boundary_eq (x : CElem) : x.boundary = .ok (Elem.accumulate cubical (x.zero cubical)
    (x.data.flatMap fun p => boundaryEv p.1 p.2)) := by
  unfold boundary
  have h : x.data.mapM (fun (p : CKey × Int) => boundaryEvents p.1 p.2) =
      .ok (x.data.map fun p => boundaryEv p.1 p.2) := mapM_ok fun p _ => boundaryEvents_eq p.1 p.2
  simp only [bind] at h ⊢
  rw [h]
  rfl

end CElem

end Comch
