import Verif.Lib.Simplicial
import Verif.Spec.Chains
import Mathlib.Data.List.Sublists
import Mathlib.Data.List.NodupEquivFin

/-! # Properties of simplicial chains: C20–C27 -/

set_option linter.unusedSectionVars false

namespace Comch.Props
open Comch Elem

/-! ## C20 simplicial and cosimplicial identities -/

theorem degeneracy_zero (a : Nat) (s : Simplex) : Simplex.degeneracy (a :: s) 0 = a :: a :: s := rfl

theorem degeneracy_succ (a : Nat) (s : Simplex) (i : Nat) :
    Simplex.degeneracy (a :: s) (i + 1) = a :: Simplex.degeneracy s i := by
  simp [Simplex.degeneracy]

theorem face_succ (a : Nat) (s : Simplex) (i : Nat) :
    Simplex.face (a :: s) (i + 1) = a :: Simplex.face s i := removeAt_succ a s i

theorem face_zero (a : Nat) (s : Simplex) : Simplex.face (a :: s) 0 = s := removeAt_zero a s

theorem C20_face_face (s : Simplex) {i j : Nat} (h : i < j) :
    (s.face j).face i = (s.face i).face (j - 1) := by
  induction s generalizing i j with
  | nil => simp [Simplex.face, removeAt]
  | cons a s ih =>
    obtain ⟨j, rfl⟩ : ∃ j', j = j' + 1 := ⟨j - 1, by omega⟩
    cases i with
    | zero => simp [face_succ, face_zero]
    | succ i =>
      obtain ⟨j, rfl⟩ : ∃ j', j = j' + 1 := ⟨j - 1, by omega⟩
      simp only [face_succ, Nat.add_sub_cancel]
      rw [ih (by omega)]
      simp

theorem C20_degeneracy_degeneracy (s : Simplex) {i j : Nat} (h : i ≤ j) (hj : j < s.length) :
    (s.degeneracy j).degeneracy i = (s.degeneracy i).degeneracy (j + 1) := by
  induction s generalizing i j with
  | nil => simp at hj
  | cons a s ih =>
    cases i with
    | zero => cases j <;> simp [degeneracy_zero, degeneracy_succ]
    | succ i =>
      obtain ⟨j, rfl⟩ : ∃ j', j = j' + 1 := ⟨j - 1, by omega⟩
      simp only [degeneracy_succ]
      rw [ih (by omega) (by simpa using hj)]

theorem C20_face_degeneracy_lt (s : Simplex) {i j : Nat} (h : i < j) (hj : j < s.length) :
    (s.degeneracy j).face i = (s.face i).degeneracy (j - 1) := by
  induction s generalizing i j with
  | nil => simp at hj
  | cons a s ih =>
    obtain ⟨j, rfl⟩ : ∃ j', j = j' + 1 := ⟨j - 1, by omega⟩
    cases i with
    | zero => simp [degeneracy_succ, face_zero]
    | succ i =>
      obtain ⟨j, rfl⟩ : ∃ j', j = j' + 1 := ⟨j - 1, by omega⟩
      simp only [degeneracy_succ, face_succ, Nat.add_sub_cancel]
      rw [ih (by omega) (by simpa using hj)]
      simp

theorem C20_face_degeneracy_eq (s : Simplex) {i j : Nat} (h : i = j ∨ i = j + 1)
    (hj : j < s.length) : (s.degeneracy j).face i = s := by
  induction s generalizing i j with
  | nil => simp at hj
  | cons a s ih =>
    cases j with
    | zero => rcases h with rfl | rfl <;> simp [degeneracy_zero, face_zero, face_succ]
    | succ j =>
      obtain ⟨i, rfl⟩ : ∃ i', i = i' + 1 := ⟨i - 1, by omega⟩
      simp only [degeneracy_succ, face_succ]
      rw [ih (by omega) (by simpa using hj)]

theorem C20_face_degeneracy_gt (s : Simplex) {i j : Nat} (h : j + 1 < i) (hj : j < s.length) :
    (s.degeneracy j).face i = (s.face (i - 1)).degeneracy j := by
  induction s generalizing i j with
  | nil => simp at hj
  | cons a s ih =>
    obtain ⟨i, rfl⟩ : ∃ i', i = i' + 2 := ⟨i - 2, by omega⟩
    cases j with
    | zero => simp [degeneracy_zero, face_succ]
    | succ j =>
      simp only [degeneracy_succ, face_succ, show i + 2 - 1 = i + 1 by omega]
      rw [ih (by omega) (by simpa using hj)]
      simp

theorem C20_coface_coface (s : Simplex) {i j : Nat} (h : i < j) :
    (s.coface i).coface j = (s.coface (j - 1)).coface i := by
  simp only [Simplex.coface, List.map_map]
  apply List.map_congr_left
  intro a _
  simp only [Function.comp]
  split_ifs <;> omega

theorem C20_codegeneracy_codegeneracy (s : Simplex) {i j : Nat} (h : i ≤ j) :
    (s.codegeneracy i).codegeneracy j = (s.codegeneracy (j + 1)).codegeneracy i := by
  simp only [Simplex.codegeneracy, List.map_map]
  apply List.map_congr_left
  intro a _
  simp only [Function.comp]
  split_ifs <;> omega

theorem C20_codegeneracy_coface_lt (s : Simplex) {i j : Nat} (h : i < j) :
    (s.coface i).codegeneracy j = (s.codegeneracy (j - 1)).coface i := by
  simp only [Simplex.codegeneracy, Simplex.coface, List.map_map]
  apply List.map_congr_left
  intro a _
  simp only [Function.comp]
  split_ifs <;> omega

theorem C20_codegeneracy_coface_eq (s : Simplex) {i j : Nat} (h : i = j ∨ i = j + 1) :
    (s.coface i).codegeneracy j = s := by
  simp only [Simplex.codegeneracy, Simplex.coface, List.map_map]
  conv_rhs => rw [← List.map_id s]
  apply List.map_congr_left
  intro a _
  simp only [Function.comp, id]
  split_ifs <;> omega

theorem C20_codegeneracy_coface_gt (s : Simplex) {i j : Nat} (h : j + 1 < i) :
    (s.coface i).codegeneracy j = (s.codegeneracy j).coface (i - 1) := by
  simp only [Simplex.codegeneracy, Simplex.coface, List.map_map]
  apply List.map_congr_left
  intro a _
  simp only [Function.comp]
  split_ifs <;> omega

/-- The `i`-th face forgets exactly the `i`-th vertex, the `i`-th degeneracy repeats it. -/
theorem C20_vertices (s : Simplex) (i j : Nat) :
    (s.face i)[j]? = s[if j < i then j else j + 1]? ∧
      (i < s.length → (s.degeneracy i)[j]? = s[if j ≤ i then j else j - 1]?) := by
  induction s generalizing i j with
  | nil => simp [Simplex.face, removeAt]
  | cons a s ih =>
    constructor
    · cases i with
      | zero => simp [face_zero]
      | succ i =>
        rw [face_succ]
        cases j with
        | zero => simp
        | succ j =>
          rw [List.getElem?_cons_succ, (ih i j).1]
          split <;> split <;> first | rfl | omega
    · intro hi
      cases i with
      | zero => cases j <;> simp [degeneracy_zero]
      | succ i =>
        rw [degeneracy_succ]
        cases j with
        | zero => simp
        | succ j =>
          rw [List.getElem?_cons_succ, (ih i j).2 (by simpa using hi)]
          split
          · rw [if_pos (by omega)]; simp
          · rw [if_neg (by omega)]
            obtain ⟨j, rfl⟩ : ∃ j', j = j' + 1 := ⟨j - 1, by omega⟩
            simp

example : Simplex.face (Simplex.degeneracy [0, 3, 5] 2) 0 = Simplex.degeneracy (Simplex.face [0, 3, 5] 0) 1 :=
  C20_face_degeneracy_lt [0, 3, 5] (by omega) (by simp)

/-! ## C21 degenerate simplices -/

/-- The degenerate simplices are the images of the degeneracy maps. -/
theorem C21_isDegenerate_iff (s : Simplex) (hs : s ≠ []) :
    s.isDegenerate = true ↔ ∃ (t : Simplex) (i : Nat), i < t.length ∧ s = t.degeneracy i := by
  rw [isDegenerate_eq]
  simp only [hs, decide_false, Bool.false_or]
  constructor
  · intro h
    clear hs
    induction s with
    | nil => simp [hasRep] at h
    | cons a s ih =>
      cases s with
      | nil => simp [hasRep] at h
      | cons b s =>
        simp only [hasRep, Bool.or_eq_true, beq_iff_eq] at h
        rcases h with rfl | h
        · exact ⟨a :: s, 0, by simp, rfl⟩
        · obtain ⟨t, i, hi, ht⟩ := ih h
          exact ⟨a :: t, i + 1, by simpa using hi, by rw [degeneracy_succ, ← ht]⟩
  · rintro ⟨t, i, hi, rfl⟩
    clear hs
    induction t generalizing i with
    | nil => simp at hi
    | cons a t ih =>
      cases i with
      | zero => simp [degeneracy_zero, hasRep]
      | succ i =>
        rw [degeneracy_succ]
        exact hasRep_cons (ih i (by simpa using hi))

theorem C21_isNondegenerate (s : Simplex) : s.isNondegenerate = true ↔ ¬ s.isDegenerate = true := by
  simp [Simplex.isNondegenerate]

/-- In terms of vertices: two equal consecutive vertices. -/
theorem C21_isDegenerate_vertices (s : Simplex) (hs : s ≠ []) :
    s.isDegenerate = true ↔ ∃ i a, s[i]? = some a ∧ s[i + 1]? = some a := by
  rw [isDegenerate_eq]
  simp only [hs, decide_false, Bool.false_or]
  clear hs
  induction s with
  | nil => simp [hasRep]
  | cons a s ih =>
    cases s with
    | nil => simp [hasRep]
    | cons b s =>
      simp only [hasRep, Bool.or_eq_true, beq_iff_eq, ih]
      constructor
      · rintro (rfl | ⟨i, c, h⟩)
        · exact ⟨0, a, by simp⟩
        · exact ⟨i + 1, c, by simpa using h⟩
      · rintro ⟨i, c, h⟩
        cases i with
        | zero => left; simp only [List.getElem?_cons_zero, zero_add, List.getElem?_cons_succ,
            Option.some.injEq] at h; rw [h.1, h.2]
        | succ i => right; exact ⟨i, c, by simpa using h⟩

example : Simplex.isDegenerate [0, 2, 2, 5] = true := by decide
example : Simplex.isDegenerate [0, 2, 0] = false := by decide

/-! ## C22 boundary -/

open SElem

theorem den_boundary {n : Nat} (x : SElem) (hn : x.torsion = n) :
    den (ZMod n) x.boundary.data = pr simplicial.drops (simplicialD (den _ x.data)) := by
  unfold boundary
  rw [den_accumulate_zero' _ _ _ rfl hn, den_events _ _ _ fun p _ => den_boundaryEvents p.1 p.2]
  rfl

theorem nf_boundary (x : SElem) : x.boundary.NF simplicial := nf_accumulate_zero _ _ _

@[simp] theorem boundary_attrs (x : SElem) : x.boundary.attrs = x.attrs := by simp [boundary]

/-- `∂∂ = 0`, for every element (normalised or not), arity and torsion. -/
theorem C22_boundary_boundary (x : SElem) : x.boundary.boundary.data = [] := by
  rw [(nf_boundary _).data_eq_nil_iff]
  have h1 : x.boundary.torsion = x.torsion := torsion_congr (boundary_attrs x)
  have h2 : x.boundary.boundary.torsion = x.torsion := by
    rw [torsion_congr (boundary_attrs x.boundary), h1]
  rw [h2, den_boundary x.boundary h1, den_boundary x rfl,
    pr_lin_pr _ (fun k hk => pr_simplicialD k hk), simplicialD_sq, map_zero]

/-- `∂(x + y) = ∂x + ∂y`. -/
theorem C22_boundary_add {x y z : SElem} (hx : x.NF simplicial) (hy : y.NF simplicial)
    (h : add simplicial x y = .ok z) :
    ∃ w, add simplicial x.boundary y.boundary = .ok w ∧ pyEq z.boundary w = true :=
  additive_of_den boundary (fun _ => (pr simplicial.drops).comp simplicialD)
    (fun x _ => den_boundary x rfl) nf_boundary (fun x => torsion_congr (boundary_attrs x)) rfl rfl
    hx hy h

/-- The coefficients of the boundary are given by the incidence numbers. -/
theorem C22_boundary_coeff (x : SElem) (hx : x.NF simplicial) (m : SKey)
    (hm : ∀ s ∈ m, s.isDegenerate = false) :
    x.boundary.coeff m ≡
      (x.data.map fun p => p.2 * Spec.simplicialIncidence p.1 m).sum [ZMOD x.torsion] := by
  have hm' : simplicial.drops m = false := by
    show (m.any fun s => s.isDegenerate) = false
    simpa using hm
  refine (coeff_accumulate_zero x _ rfl m hm').trans ?_
  rw [List.map_flatMap, sum_flatMap]
  refine congrArg (· % (x.torsion : Int)) ?_
  congr 1
  apply List.map_congr_left
  rintro ⟨k, v⟩ hp
  have hk : ∀ s ∈ k, s ≠ [] := by
    have := hx.kept _ hp
    intro s hs h0
    rw [simplicial_drops] at this
    simp only [List.any_eq_false] at this
    exact this s hs (by simp [h0])
  simp only [boundaryEvents, List.map_flatMap, sum_flatMap, Spec.simplicialIncidence,
    Spec.sumTo, List.map_map]
  rw [enumerate_eq_map k [], List.map_map, ← List.sum_map_mul_left]
  congr 1
  apply List.map_congr_left
  intro j hj
  have hj' : j < k.length := by simpa using hj
  simp only [Function.comp]
  rw [← List.sum_map_mul_left]
  congr 1
  apply List.map_congr_left
  intro i _
  have e1 : k.take j ++ [Simplex.face (k.getD j []) i] ++ k.drop (j + 1) =
      k.set j ((k.getD j []).eraseIdx i) := by
    rw [Simplex.face, removeAt_eq_eraseIdx, List.set_eq_take_append_cons_drop, if_pos hj']
    simp
  simp only [Function.comp, e1]
  split
  · congr 1
    rw [← pySign_natCast]
    congr 1
    push_cast
    congr 1
    rw [keyDegree, List.map_map]
    congr 1
    apply List.map_congr_left
    intro s hs
    have := List.length_pos_iff.2 (hk s (List.mem_of_mem_take hs))
    simp only [Function.comp, Simplex.dimension]
    omega
  · simp

/-- Keys of a boundary: one factor of a key of `x` has lost one vertex. -/
theorem mem_keys_boundary {x : SElem} {m : SKey} (h : m ∈ x.boundary.data.map Prod.fst) :
    ∃ p ∈ x.data, ∃ j i, ∃ s, p.1[j]? = some s ∧ i < s.length ∧ m = p.1.set j (s.eraseIdx i) := by
  have := mem_keys_accumulate_zero h
  simp only [List.mem_map, List.mem_flatMap, boundaryEvents] at this
  obtain ⟨e, ⟨p, hp, ⟨j, s⟩, hjs, i, hi, rfl⟩, rfl⟩ := this
  rw [mem_enumerate] at hjs
  have hj : j < p.1.length := by
    by_contra hc
    rw [List.getElem?_eq_none (by omega)] at hjs
    cases hjs
  refine ⟨p, hp, j, i, s, hjs, by simpa using hi, ?_⟩
  rw [Simplex.face, removeAt_eq_eraseIdx, List.set_eq_take_append_cons_drop, if_pos hj]
  simp

/-- The boundary of a homogeneous element is zero or homogeneous of degree one less. -/
theorem C22_boundary_degree (x : SElem) (d : Int) (hd : x.degree = some d) :
    x.boundary.data = [] ∨ x.boundary.degree = some (d - 1) := by
  rw [or_iff_not_imp_left]
  intro hne
  rw [degree, uniqueValue_eq_some] at hd ⊢
  refine ⟨by simpa using hne, ?_⟩
  intro b hb
  obtain ⟨q, hq, rfl⟩ := List.mem_map.1 hb
  obtain ⟨p, hp, j, i, s, hs, hi, he⟩ := mem_keys_boundary (List.mem_map_of_mem (f := Prod.fst) hq)
  have h1 := hd.2 _ (List.mem_map_of_mem hp)
  rw [he, ← h1]
  clear h1 he hq hd
  generalize p.1 = k at hs ⊢
  induction k generalizing j with
  | nil => simp at hs
  | cons a k ih =>
    cases j with
    | zero =>
      simp only [List.getElem?_cons_zero, Option.some.injEq] at hs
      subst hs
      simp only [List.set_cons_zero, keyDegree, List.map_cons, List.sum_cons, Simplex.dimension,
        List.length_eraseIdx, if_pos hi]
      omega
    | succ j =>
      have := ih j (by simpa using hs)
      simp only [keyDegree] at this
      simp only [List.set_cons_succ, keyDegree, List.map_cons, List.sum_cons, this]
      omega

/-- The boundary keeps the arity. -/
theorem C22_boundary_arity (x : SElem) (r : Nat) (hr : x.arity = some r) :
    x.boundary.data = [] ∨ x.boundary.arity = some r := by
  rw [or_iff_not_imp_left]
  intro hne
  rw [arity, uniqueValue_eq_some] at hr ⊢
  refine ⟨by simpa using hne, ?_⟩
  intro b hb
  obtain ⟨q, hq, rfl⟩ := List.mem_map.1 hb
  obtain ⟨p, hp, j, i, s, hs, hi, he⟩ := mem_keys_boundary (List.mem_map_of_mem (f := Prod.fst) hq)
  rw [he, List.length_set]
  exact hr.2 _ (List.mem_map_of_mem hp)

/-- A tensor of a 2-simplex and an edge, modulo 5. -/
abbrev exS : SElem := Elem.new simplicial [([[0, 1, 2], [0, 3]], 2), ([[0, 1], [0, 3, 4]], 1)] (some 5)

theorem exS_nf : exS.NF simplicial := nf_new _ (by decide) _ _

example : exS.boundary.data ≠ [] ∧ exS.degree = some 3 ∧ exS.arity = some 2 ∧
    exS.boundary.coeff [[0, 2], [0, 3]] = 3 := by decide

/-! ## C26 one_reduced -/

/-- `one_reduced` removes exactly the terms with a 1-dimensional factor. -/
theorem C26_oneReduced_coeff (x : SElem) (hx : x.NF simplicial) (m : SKey) :
    x.oneReduced.coeff m = if ∃ s ∈ m, s.length = 2 then 0 else x.coeff m := by
  have hnf : x.oneReduced.NF simplicial := nf_accumulate_zero _ _ _
  -- `x` without these terms, as an element in normal form
  let y : SElem := { x with data := x.data.filter fun p => p.1.all fun s => s.dimension != 1 }
  have hy : y.NF simplicial := by
    refine ⟨?_, ?_, ?_, ?_⟩
    · exact (List.filter_sublist.map Prod.fst).nodup hx.nodup
    · intro p hp; exact hx.coeff_ne p (List.mem_of_mem_filter hp)
    · intro ht p hp; exact hx.coeff_range ht p (List.mem_of_mem_filter hp)
    · intro p hp; exact hx.kept p (List.mem_of_mem_filter hp)
  have h1 : x.oneReduced.coeff m = y.coeff m := by
    have ht : x.oneReduced.torsion = x.torsion := torsion_congr (by simp [oneReduced])
    refine hnf.get_eq_of_den hy ht ?_ m
    rw [ht]
    unfold oneReduced
    rw [den_accumulate_zero' _ _ _ rfl rfl]
    exact hy.pr_den
  rw [h1]
  have hcond : ∀ k : SKey, (k.all fun s => s.dimension != 1) = false ↔ ∃ s ∈ k, s.length = 2 := by
    intro k
    simp only [List.all_eq_false, bne_iff_ne, ne_eq, Decidable.not_not, Simplex.dimension]
    constructor
    · rintro ⟨s, hs, h⟩; exact ⟨s, hs, by omega⟩
    · rintro ⟨s, hs, h⟩; exact ⟨s, hs, by omega⟩
  split
  · rename_i hm
    apply Dict.get_of_not_mem
    intro hk
    obtain ⟨p, hp, rfl⟩ := List.mem_map.1 hk
    have := (List.mem_filter.1 hp).2
    rw [(hcond _).2 hm] at this
    cases this
  · rename_i hm
    rw [← hcond] at hm
    by_cases hk : m ∈ x.data.map Prod.fst
    · obtain ⟨p, hp, rfl⟩ := List.mem_map.1 hk
      have hp' : p ∈ y.data := List.mem_filter.2 ⟨hp, by simpa using hm⟩
      rw [coeff, coeff, Dict.get_of_mem hy.nodup hp', Dict.get_of_mem hx.nodup hp]
    · rw [coeff, coeff, Dict.get_of_not_mem hk, Dict.get_of_not_mem]
      intro h
      exact hk ((List.filter_sublist.map Prod.fst).subset h)

theorem nf_oneReduced (x : SElem) : x.oneReduced.NF simplicial := nf_accumulate_zero _ _ _

theorem C26_oneReduced_idempotent (x : SElem) (hx : x.NF simplicial) :
    pyEq x.oneReduced.oneReduced x.oneReduced = true := by
  rw [pyEq_iff (nf_oneReduced _) (nf_oneReduced _)]
  intro k
  have h1 := C26_oneReduced_coeff _ (nf_oneReduced x) k
  have h2 := C26_oneReduced_coeff x hx k
  simp only [coeff] at h1 h2
  rw [h1, h2]
  split <;> rfl

theorem C26_oneReduced_add {x y z : SElem} (hx : x.NF simplicial) (hy : y.NF simplicial)
    (h : add simplicial x y = .ok z) :
    ∃ w, add simplicial x.oneReduced y.oneReduced = .ok w ∧ pyEq z.oneReduced w = true := by
  refine additive_of_den oneReduced
    (fun n => (pr simplicial.drops).comp (pr fun k => !(k.all fun s => s.dimension != 1)))
    (fun x _ => ?_) nf_oneReduced (fun x => torsion_congr (by simp [oneReduced])) rfl rfl hx hy h
  unfold oneReduced
  rw [den_accumulate_zero' _ _ _ rfl rfl, LinearMap.comp_apply]
  congr 1
  induction x.data with
  | nil => simp
  | cons p d ih =>
    rw [List.filter_cons]
    by_cases hp : (p.1.all fun s => s.dimension != 1) = true
    · rw [if_pos hp, den_cons, den_cons, ih, map_add, pr_single, hp]
      simp
    · rw [if_neg hp, den_cons, ih, map_add, pr_single, if_pos (by simpa using hp), zero_add]

/-- `one_reduced` is not a chain map: the edge `(0,1)` is sent to `0`, its boundary is not. -/
theorem C26_oneReduced_not_chain_map :
    let x : SElem := Elem.new simplicial [([[0, 1]], 1)] none
    pyEq x.oneReduced.boundary x.boundary.oneReduced = false := by decide

example : exS.oneReduced.data = [] ∧
    (oneReduced (Elem.new simplicial [([[0, 1, 2], [3]], 2), ([[0, 1], [0, 3]], 1)] (some 5))).data =
      [([[0, 1, 2], [3]], 2)] := by decide

/-! ## C27 basis of the standard simplex -/

theorem mem_combinations {α : Type} {l : List α} {r : Nat} {b : List α} :
    b ∈ combinations l r ↔ b.Sublist l ∧ b.length = r := by
  induction l generalizing r b with
  | nil =>
    cases r with
    | zero =>
      simp only [combinations, List.mem_singleton, List.sublist_nil]
      constructor
      · rintro rfl; simp
      · exact fun h => h.1
    | succ r =>
      simp only [combinations, List.not_mem_nil, List.sublist_nil, false_iff, not_and]
      rintro rfl; simp
  | cons x l ih =>
    cases r with
    | zero =>
      simp only [combinations, List.mem_singleton]
      constructor
      · rintro rfl; simp
      · exact fun h => List.length_eq_zero_iff.1 h.2
    | succ r =>
      simp only [combinations, List.mem_append, List.mem_map, ih]
      constructor
      · rintro (⟨c, ⟨h1, h2⟩, rfl⟩ | ⟨h1, h2⟩)
        · exact ⟨h1.cons_cons x, by simp [h2]⟩
        · exact ⟨h1.cons x, h2⟩
      · rintro ⟨h1, h2⟩
        cases h1 with
        | cons _ h => exact Or.inr ⟨h, h2⟩
        | cons_cons _ h => exact Or.inl ⟨_, ⟨h, by simpa using h2⟩, rfl⟩

theorem nodup_combinations {α : Type} {l : List α} (hl : l.Nodup) (r : Nat) :
    (combinations l r).Nodup := by
  induction l generalizing r with
  | nil => cases r <;> simp [combinations]
  | cons x l ih =>
    cases r with
    | zero => simp [combinations]
    | succ r =>
      rw [List.nodup_cons] at hl
      simp only [combinations]
      rw [List.nodup_append]
      refine ⟨(ih hl.2 r).map (by intro a b h; simpa using h), ih hl.2 _, ?_⟩
      intro a ha b hb hab
      subst hab
      obtain ⟨c, _, rfl⟩ := List.mem_map.1 ha
      have := (mem_combinations.1 hb).1.subset (List.mem_cons_self ..)
      exact hl.1 this

/-- The simplices listed by `Simplicial.basis`. -/
def basisSimplices (n : Nat) : List Simplex :=
  (pyRange 1 (n + 2)).flatMap fun m => combinations (List.range (n + 1)) m

theorem mem_basisSimplices {n : Nat} {b : Simplex} :
    b ∈ basisSimplices n ↔ b ≠ [] ∧ b.Pairwise (· < ·) ∧ ∀ i ∈ b, i ≤ n := by
  simp only [basisSimplices, List.mem_flatMap, mem_pyRange, mem_combinations]
  constructor
  · rintro ⟨m, ⟨h1, h2⟩, hs, hl⟩
    refine ⟨?_, List.pairwise_lt_range.sublist hs, ?_⟩
    · rintro rfl; simp at hl; omega
    · intro i hi
      have := List.mem_range.1 (hs.subset hi)
      omega
  · rintro ⟨h1, h2, h3⟩
    have hs : b.Sublist (List.range (n + 1)) := by
      apply List.sublist_of_subperm_of_pairwise (r := (· < ·)) _ h2 List.pairwise_lt_range
      exact List.subperm_of_subset (h2.imp (fun h => Nat.ne_of_lt h)) (by
        intro i hi; rw [List.mem_range]; have := h3 i hi; omega)
    have hl := hs.length_le
    rw [List.length_range] at hl
    have := List.length_pos_iff.2 h1
    exact ⟨b.length, ⟨this, by omega⟩, hs, rfl⟩

theorem nodup_basisSimplices (n : Nat) : (basisSimplices n).Nodup := by
  unfold basisSimplices
  rw [List.nodup_flatMap]
  refine ⟨fun m _ => nodup_combinations List.nodup_range m, ?_⟩
  apply List.Nodup.pairwise_of_forall_ne
  · exact List.nodup_range'
  · intro a _ b _ hab c hc hc'
    exact hab ((mem_combinations.1 hc).2.symm.trans (mem_combinations.1 hc').2)

/-- `Simplicial.basis(n)` consists of elements `{(s,): 1}`, one for each strictly increasing
non-empty `s` with vertices in `0..n`, and lists none twice. -/
theorem C27_basis (n : Nat) (t : Option Nat) (ht : t ≠ some 1) :
    ∃ l : List Simplex, (Simplicial.basis n t).map (·.data) = l.map (fun s => [([s], 1)]) ∧ l.Nodup ∧
      ∀ s, s ∈ l ↔ s ≠ [] ∧ s.Pairwise (· < ·) ∧ ∀ i ∈ s, i ≤ n := by
  refine ⟨basisSimplices n, ?_, nodup_basisSimplices n, fun s => mem_basisSimplices⟩
  unfold Simplicial.basis
  have : (Simplicial.basis n t).map (·.data) =
      (basisSimplices n).map fun s => (Elem.new simplicial [([s], 1)] t).data := by
    simp [Simplicial.basis, basisSimplices, List.flatMap_def, List.map_map,
      Function.comp_def]
  unfold Simplicial.basis at this
  rw [this]
  apply List.map_congr_left
  intro s hs
  rw [mem_basisSimplices] at hs
  have hd : simplicial.drops [s] = false := by
    rw [simplicial_drops]
    simp only [List.any_cons, List.any_nil, Bool.or_false, Bool.or_eq_false_iff,
      decide_eq_false_iff_not]
    refine ⟨hs.1, ?_⟩
    have h2 := hs.2.1
    clear hs
    induction s with
    | nil => rfl
    | cons a s ih =>
      cases s with
      | nil => rfl
      | cons b s =>
        simp only [hasRep, Bool.or_eq_false_iff, beq_eq_false_iff_ne]
        rw [List.pairwise_cons] at h2
        exact ⟨(h2.1 b (by simp)).ne, ih h2.2⟩
  have h1 : ((1 : Int) % ((t.getD 0 : Nat) : Int) ≠ 0) := by
    rcases t with _ | t
    · simp
    · simp only [ne_eq, Option.some.injEq] at ht
      simp only [Option.getD_some]
      intro h
      have := Int.le_of_dvd (by omega) (Int.dvd_of_emod_eq_zero h)
      have h0 : (t : Int) ≠ 0 := by rintro h0; rw [h0] at h; simp at h
      omega
  have h2 : (t.getD 0 : Nat) ≠ 0 → (1 : Int) % ((t.getD 0 : Nat) : Int) = 1 := by
    intro h0
    apply Int.emod_eq_of_lt (by omega)
    rcases t with _ | t
    · simp at h0
    · simp only [ne_eq, Option.some.injEq] at ht
      simp only [Option.getD_some] at h0 ⊢
      omega
  simp only [Elem.new, preferredRep, zeroDropped, basePreferredRep, hd, List.map_cons, List.map_nil,
    torsion, simplicial_defaultTorsion]
  split
  · rename_i h0
    simp [h2 h0]
  · simp

example : (Simplicial.basis 2 (some 3)).length = 7 := by decide

end Comch.Props
