import Verif.Lib.SurjConv

/-! # C47: the boundary of the surjection operad -/

set_option linter.unusedSectionVars false

namespace Comch
open Elem Spec
open Finsupp (single)

theorem hasRep_eq_false {m : List Nat} (hm : ∀ i, i + 1 < m.length → m.getD i 0 ≠ m.getD (i + 1) 0) :
    hasRep m = false := by
  induction m with
  | nil => rfl
  | cons a m ih =>
    cases m with
    | nil => rfl
    | cons b m =>
      rw [hasRep, Bool.or_eq_false_iff]
      refine ⟨?_, ih fun i hi => ?_⟩
      · have := hm 0 (by simp)
        simpa using this
      · have := hm (i + 1) (by simp at hi ⊢; omega)
        simpa using this

theorem noRepeat_of_hasRep {m : List Nat} (h : hasRep m = false) :
    ∀ i, i + 1 < m.length → m.getD i 0 ≠ m.getD (i + 1) 0 := by
  induction m with
  | nil => simp
  | cons a m ih =>
    cases m with
    | nil => simp
    | cons b m =>
      rw [hasRep, Bool.or_eq_false_iff] at h
      intro i hi
      cases i with
      | zero => simpa using h.1
      | succ i =>
        have := ih h.2 i (by simp at hi ⊢; omega)
        simpa using this

theorem pyMax_of_onto {r : Nat} {m : List Nat} (h : ∀ v, v ∈ m ↔ 1 ≤ v ∧ v ≤ r) : pyMax m = r := by
  apply le_antisymm
  · exact pyMax_le_iff.2 fun a ha => ((h a).1 ha).2
  · cases r with
    | zero => simp
    | succ r => exact le_pyMax ((h (r + 1)).2 (by omega))

theorem surj_kept {r : Nat} (hr : 1 ≤ r) {m : List Nat} (h : NonDegenerate r m) :
    surjection.drops m = false := by
  rw [surj_kept_iff, pyMax_of_onto h.onto]
  refine ⟨?_, h.onto, hasRep_eq_false h.noRepeat⟩
  intro hm
  have := (h.onto 1).2 ⟨le_rfl, hr⟩
  rw [hm] at this
  simp at this

theorem nonDegenerate_of_kept {m : List Nat} (h : surjection.drops m = false) :
    1 ≤ pyMax m ∧ NonDegenerate (pyMax m) m := by
  rw [surj_kept_iff] at h
  refine ⟨?_, h.2.1, noRepeat_of_hasRep h.2.2⟩
  have := (h.2.1 _).1 (pyMax_mem h.1)
  exact this.1

namespace SurjElem

theorem arity_eq {r : Nat} {x : SurjElem} (hx : InSurj r x) (hne : x.data ≠ []) : x.arity = some r := by
  unfold arity
  rw [uniqueValue_eq_some]
  refine ⟨by simpa using hne, ?_⟩
  intro b hb
  obtain ⟨p, hp, rfl⟩ := List.mem_map.1 hb
  exact pyMax_of_onto (hx.onto p hp)

theorem arity_none {x : SurjElem} (h : x.data = []) : x.arity = none := by
  unfold arity
  rw [h]
  rfl

theorem inSurj_of_arity {r : Nat} {x : SurjElem} (hx : x.NF surjection) (h : x.arity = some r) :
    InSurj r x := by
  refine ⟨hx, fun p hp => ?_⟩
  rw [arity, uniqueValue_eq_some] at h
  have := h.2 _ (List.mem_map_of_mem (f := fun p : Surj × Int => pyMax p.1) hp)
  rw [← this]
  exact key_onto (hx.kept p hp)

theorem inSurj_boundary {r : Nat} {x : SurjElem} (hx : InSurj r x) : InSurj r x.boundary := by
  refine ⟨nf_boundary x, ?_⟩
  intro p hp v
  obtain ⟨q, hq, i, hi, h2, he⟩ := mem_keys_boundary hx.nf (List.mem_map_of_mem (f := Prod.fst) hp)
  rw [he, sameVals_eraseIdx hi h2 v, hx.onto q hq v]

end SurjElem

end Comch

namespace Comch.Props
open Comch Elem Spec
open Finsupp (single)

/-- `∂∂ = 0`, in both conventions and for every torsion. -/
theorem C47_boundary_boundary {x : SurjElem} (hx : x.NF surjection) : x.boundary.boundary.data = [] := by
  rw [(SurjElem.nf_boundary _).data_eq_nil_iff]
  have h1 : x.boundary.torsion = x.torsion := torsion_congr (SurjElem.boundary_attrs x)
  have h2 : x.boundary.boundary.torsion = x.torsion := by
    rw [torsion_congr (SurjElem.boundary_attrs x.boundary), h1]
  rw [h2, SurjElem.den_boundary (SurjElem.nf_boundary x) h1, SurjElem.den_boundary hx rfl,
    SurjElem.boundary_attrs, pr_lin_pr _ (fun k hk => pr_surj_sbd hk), sbd_sbd, map_zero]

/-- `∂(x + y) = ∂x + ∂y` for elements of the same convention. -/
theorem C47_boundary_add {x y z : SurjElem} (hx : x.NF surjection) (hy : y.NF surjection)
    (hc : y.attrs.convention = x.attrs.convention) (h : add surjection x y = .ok z) :
    ∃ w, add surjection x.boundary y.boundary = .ok w ∧ pyEq z.boundary w = true := by
  have ht := torsion_eq_of_add h
  have h1 : x.boundary.torsion = x.torsion := torsion_congr (SurjElem.boundary_attrs x)
  have h2 : y.boundary.torsion = x.torsion := by rw [torsion_congr (SurjElem.boundary_attrs y), ht]
  obtain ⟨w, ew⟩ := add_ok (C := surjection) (x := x.boundary) (y := y.boundary) (by rw [h1, h2])
  have az := attrs_add h
  have tz' : z.torsion = x.torsion := torsion_congr az
  have tzb : z.boundary.torsion = x.torsion := by rw [torsion_congr (SurjElem.boundary_attrs z), tz']
  refine ⟨w, ew, pyEq_of_den (SurjElem.nf_boundary z) (nf_add ew (SurjElem.nf_boundary x)) tzb
    (by rw [torsion_congr (attrs_add ew), h1]) ?_⟩
  rw [SurjElem.den_boundary (nf_add h hx) tz',
    den_add (R := ZMod x.torsion) ew (SurjElem.nf_boundary x) (SurjElem.nf_boundary y) (by simp)
      (by rw [h1]; simp),
    SurjElem.den_boundary hx rfl, SurjElem.den_boundary hy ht.symm, az, hc,
    den_add (R := ZMod x.torsion) h hx hy (by simp) (by simp), map_add, map_add]

/-- The coefficients of the boundary are given by the incidence numbers of surjections. -/
theorem C47_boundary_coeff {x : SurjElem} (hx : x.NF surjection) {r : Nat} (hr : 1 ≤ r) (m : Surj)
    (hm : NonDegenerate r m) :
    x.boundary.coeff m ≡ (x.data.map fun p =>
      p.2 * surjectionIncidence x.attrs.convention p.1 m).sum [ZMOD x.torsion] := by
  have h := coeff_of_den (C := surjection) (x := x.boundary) (n := x.torsion)
    (ev := x.data.flatMap fun p => (List.range p.1.length).filterMap fun i =>
      if 2 ≤ p.1.count (p.1.getD i 0) then
        some (p.1.eraseIdx i, p.2 * (-1) ^ faceExponent x.attrs.convention p.1 i) else none)
    (SurjElem.nf_boundary x) (by
      rw [SurjElem.den_boundary hx rfl, den_events _ (fun k v => (List.range k.length).filterMap fun i =>
        if 2 ≤ k.count (k.getD i 0) then
          some (k.eraseIdx i, v * (-1) ^ faceExponent x.attrs.convention k i) else none)
        (fun k => sbd x.attrs.convention (bv _ k))]
      · congr 1
        apply DFunLike.congr_fun
        apply lin_ext
        intro k
        simp
      · intro p _
        rw [den_filterMap_ite, sbd_bv_eq_sum, List.smul_sum, List.map_map]
        congr 1
        apply List.map_congr_left
        intro i _
        simp only [Function.comp]
        split
        · rw [sg_natCast]; simp
        · simp) (surj_kept hr hm)
  refine h.trans ?_
  rw [List.map_flatMap, sum_flatMap]
  refine congrArg (· % (x.torsion : Int)) ?_
  congr 1
  apply List.map_congr_left
  rintro ⟨k, v⟩ hp
  simp only [surjectionIncidence, sumTo]
  rw [← List.sum_map_mul_left]
  generalize List.range (List.length k) = l
  induction l with
  | nil => simp
  | cons i l ih =>
    rw [List.filterMap_cons, List.map_cons, List.sum_cons, ← ih]
    by_cases h2 : 2 ≤ List.count (List.getD k i 0) k
    · rw [if_pos h2]
      simp only [h2, true_and, List.map_cons, List.sum_cons]
      split <;> simp
    · rw [if_neg h2, if_neg (fun h => h2 h.1)]
      simp

/-- The boundary stays in the same arity; it is zero, or of degree one less if `x` is homogeneous. -/
theorem C47_boundary_degree {r : Nat} {x : SurjElem} (hx : InSurj r x) (d : Int)
    (hd : x.degree = some d) :
    InSurj r x.boundary ∧ (x.boundary.data = [] ∨
      (x.boundary.degree = some (d - 1) ∧ x.boundary.arity = some r)) := by
  refine ⟨SurjElem.inSurj_boundary hx, ?_⟩
  rw [or_iff_not_imp_left]
  intro hne
  refine ⟨?_, SurjElem.arity_eq (SurjElem.inSurj_boundary hx) hne⟩
  rw [SurjElem.degree, uniqueValue_eq_some] at hd ⊢
  refine ⟨by simpa using hne, ?_⟩
  intro b hb
  obtain ⟨q, hq, rfl⟩ := List.mem_map.1 hb
  obtain ⟨p, hp, i, hi, h2, he⟩ := SurjElem.mem_keys_boundary hx.nf (List.mem_map_of_mem (f := Prod.fst) hq)
  have h1 := hd.2 _ (List.mem_map_of_mem (f := fun p : Surj × Int => SurjElem.keyDegree p.1) hp)
  rw [SurjElem.keyDegree, pyMax_of_onto (hx.onto p hp)] at h1
  have hq' : ∀ v, v ∈ q.1 ↔ 1 ≤ v ∧ v ≤ r := (SurjElem.inSurj_boundary hx).onto q hq
  rw [SurjElem.keyDegree, pyMax_of_onto hq', ← h1, he, List.length_eraseIdx, if_pos hi]
  omega

/-- Attributes are kept. -/
theorem C47_boundary_attrs (x : SurjElem) : x.boundary.attrs = x.attrs := SurjElem.boundary_attrs x

/-- An element of degree 2 in arity 3. -/
abbrev exSu (c : Convention) : SurjElem := Elem.new surjection
  [([1, 2, 1, 3, 1], 2), ([2, 3, 1, 2, 1], -1)] (some 5) c

theorem exSu_in (c : Convention) : InSurj 3 (exSu c) := by
  refine SurjElem.inSurj_of_arity (nf_new _ (by decide) _ _) ?_
  cases c <;> decide

example : (exSu .bergerFresse).degree = some 2 ∧ (exSu .bergerFresse).boundary.data =
      [([2, 1, 3, 1], 2), ([1, 2, 3, 1], 3), ([1, 2, 1, 3], 2), ([3, 1, 2, 1], 4), ([2, 3, 2, 1], 1),
        ([2, 3, 1, 2], 4)] := by decide +kernel

example : (exSu .mcClureSmith).boundary.data =
      [([2, 1, 3, 1], 2), ([1, 2, 3, 1], 3), ([1, 2, 1, 3], 2), ([2, 3, 2, 1], 4), ([2, 3, 1, 2], 1),
        ([3, 1, 2, 1], 1)] := by decide +kernel

example : NonDegenerate 3 [1, 2, 3, 1] :=
  ⟨fun v => by simp; omega, noRepeat_of_hasRep (by decide)⟩

end Comch.Props
