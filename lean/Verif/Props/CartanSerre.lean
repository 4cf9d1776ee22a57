import Verif.Props.CubicalDiagonal
import Verif.Lib.CartanSerre

/-! # Cartan–Serre map: C33, C34 -/

set_option linter.unusedSectionVars false

namespace Comch.Props
open Comch Elem CElem Serre
open Finsupp (single)

variable {R : Type} [CommRing R]

/-! ### the collapse of one cube -/

theorem intervals_eq_positions (c : Cube) : c.intervals = Spec.intervalPositions c := by
  induction c with
  | nil => rfl
  | cons e c ih => rw [Cube.intervals_cons, intervalPositions_cons, ih]

theorem end_eq_firstZero (c : Cube) : (if c.contains 0 then c.idxOf 0 else c.length) = Spec.firstZero c := by
  induction c with
  | nil => rfl
  | cons e c ih =>
    unfold Spec.firstZero at ih ⊢
    by_cases he : e = 0
    · subst he; simp
    · have h1 : ((e :: c).contains 0) = c.contains 0 := by
        simp [List.contains_cons, Ne.symm he]
      have h2 : (e :: c).takeWhile (fun e => decide (e ≠ 0)) = e :: c.takeWhile (fun e => decide (e ≠ 0)) := by
        rw [List.takeWhile_cons, if_pos (by simpa using he)]
      rw [h1, List.idxOf_cons_ne _ he, h2, List.length_cons, List.length_cons, ← ih]
      split <;> rfl

theorem cartanSerre_eq_collapse (c : Cube) : c.cartanSerre = Spec.collapse c := by
  unfold Cube.cartanSerre Spec.collapse
  rw [end_eq_firstZero, intervals_eq_positions]

theorem keepsDim_iff (c : Cube) : Spec.collapseKeepsDim c ↔ cdim c = Simplex.dimension c.cartanSerre := by
  rw [cartanSerre_eq_collapse]
  unfold Spec.collapseKeepsDim Spec.collapse Simplex.dimension
  rw [cdim, ← length_intervalPositions, List.length_append, List.length_singleton]
  have h1 := List.length_filter_eq_length_iff (l := Spec.intervalPositions c)
    (p := fun i => decide (i < Spec.firstZero c))
  simp only [decide_eq_true_eq] at h1
  rw [← h1]
  omega

theorem keepsDim_iff_key (k : CKey) : (∀ c ∈ k, Spec.collapseKeepsDim c) ↔
    (CElem.keyDegree k : Int) = SElem.keyDegree (k.map Cube.cartanSerre) := by
  have hle : ∀ k : CKey, SElem.keyDegree (k.map Cube.cartanSerre) ≤ (CElem.keyDegree k : Int) := by
    intro k
    induction k with
    | nil => simp [SElem.keyDegree, CElem.keyDegree]
    | cons a k ih =>
      have := dim_cartanSerre_le a
      simp only [SElem.keyDegree, CElem.keyDegree, List.map_cons, List.sum_cons, cdim] at ih this ⊢
      rw [Nat.cast_add]
      omega
  induction k with
  | nil => simp [SElem.keyDegree, CElem.keyDegree]
  | cons a k ih =>
    have h1 := hle k
    have h2 := dim_cartanSerre_le a
    rw [List.forall_mem_cons, keepsDim_iff]
    refine (and_congr_right fun _ => ih).trans ?_
    have e1 : (CElem.keyDegree (a :: k) : Int) = cdim a + CElem.keyDegree k := by
      simp [CElem.keyDegree, cdim]
    have e2 : SElem.keyDegree ((a :: k).map Cube.cartanSerre) =
        Simplex.dimension (Cube.cartanSerre a) + SElem.keyDegree (k.map Cube.cartanSerre) := by
      simp [SElem.keyDegree]
    rw [e1, e2]
    omega

theorem pairwise_lt_collapse (c : Cube) : c.cartanSerre.Pairwise (· < ·) := by
  rw [cartanSerre_eq_collapse, Spec.collapse, List.pairwise_append]
  refine ⟨?_, by simp, by simp⟩
  exact ((List.pairwise_lt_range).filter _).filter _

theorem not_dropped_collapse (c : Cube) : c.cartanSerre.isDegenerate = false := by
  rw [isDegenerate_eq]
  simp only [Bool.or_eq_false_iff, decide_eq_false_iff_not]
  refine ⟨cartanSerre_ne_nil c, ?_⟩
  have : ∀ l : List Nat, l.Pairwise (· < ·) → hasRep l = false := by
    intro l h
    induction l with
    | nil => rfl
    | cons a l ih =>
      cases l with
      | nil => rfl
      | cons b l =>
        rw [hasRep, ih (List.pairwise_cons.1 h).2]
        have := (List.pairwise_cons.1 h).1 b (by simp)
        simp; omega
  exact this _ (pairwise_lt_collapse c)

/-! ### elements -/

theorem eq_nil_of_pyEq_zero {x : CElem} (hx : x.NF cubical) (h : Elem.pyEq x (x.zero cubical) = true) : x.data = [] := by
  rw [pyEq_iff hx (nf_zero _ _)] at h
  by_contra hne
  obtain ⟨p, hp⟩ := List.exists_mem_of_ne_nil _ hne
  have h1 := h p.1
  have h2 : (x.zero cubical).data = [] := by simp
  rw [h2] at h1
  have h3 := hx.mem_keys_iff.1 (List.mem_map_of_mem (f := Prod.fst) hp)
  rw [Dict.den_apply hx.nodup, h1] at h3
  exact h3 (by simp [Dict.get])

/-- The summand of one term. -/
def csEv (p : CKey × Int) : Option (SKey × Int) :=
  if (CElem.keyDegree p.1 : Int) = SElem.keyDegree (p.1.map Cube.cartanSerre) then
    some (p.1.map Cube.cartanSerre, p.2) else none

theorem csMap_eq {x : CElem} (hx : x.NF cubical) : cartanSerreMap x =
    Elem.accumulate simplicial (Elem.new simplicial [] (some x.torsion)) (x.data.filterMap csEv) := by
  unfold cartanSerreMap
  split
  · rename_i h
    rw [eq_nil_of_pyEq_zero hx h]
    rfl
  · rfl

theorem den_csEv (d : List (CKey × Int)) : den R (d.filterMap csEv) = tm cs1 (den R d) := by
  induction d with
  | nil => simp
  | cons p d ih =>
    have e : den R (p :: d) = single p.1 ((p.2 : Int) : R) + den R d := rfl
    rw [e, map_add, ← ih, tm_single, tmK_cs1, List.filterMap_cons, csEv]
    split
    · rename_i h
      split at h
      · cases h
      · rename_i h2
        rw [if_neg h2]; simp
    · rename_i q h
      split at h
      · rename_i h2
        cases h
        rw [if_pos h2]
        simp
      · cases h

theorem pr_tm_cs1 (v : CKey →₀ R) : pr simplicial.drops (tm cs1 v) = tm cs1 v := by
  induction v using Finsupp.induction_linear with
  | zero => simp
  | add f g hf hg => simp only [map_add, hf, hg]
  | single k r =>
    rw [tm_single, map_smul, tmK_cs1]
    congr 1
    split
    · rw [pr_single, if_neg]
      show ¬ ((k.map Cube.cartanSerre).any fun s => s.isDegenerate) = true
      simp [not_dropped_collapse]
    · simp

theorem mem_keys_preferredRep_nil (a : Attrs) : (preferredRep simplicial ⟨[], a⟩).data = [] := by
  rw [List.eq_nil_iff_forall_not_mem]
  intro p hp
  have := mem_keys_preferredRep (List.mem_map_of_mem (f := Prod.fst) hp)
  simp at this

theorem elem_ext {K : Type} {x y : Elem K} (h1 : x.data = y.data) (h2 : x.attrs = y.attrs) : x = y := by
  cases x; cases y; simp_all

theorem csMap_ok {x : CElem} (hx : x.NF cubical) :
    (cartanSerreMap x).NF simplicial ∧ (cartanSerreMap x).torsion = x.torsion ∧
    (∀ p ∈ (cartanSerreMap x).data, ∃ q ∈ x.data, p.1 = q.1.map Cube.cartanSerre ∧
      (CElem.keyDegree q.1 : Int) = SElem.keyDegree p.1) ∧
    den (ZMod x.torsion) (cartanSerreMap x).data = tm cs1 (den _ x.data) := by
  rw [csMap_eq hx]
  set z : SElem := ⟨[], { torsion := x.torsion, convention := .bergerFresse }⟩ with hz
  have hzero : Elem.new simplicial [] (some x.torsion) = z.zero simplicial := by
    have h1 : (Elem.new simplicial [] (some x.torsion)).data = (z.zero simplicial).data := by
      rw [zero_data]
      exact mem_keys_preferredRep_nil _
    have h2 : (Elem.new simplicial [] (some x.torsion)).attrs = (z.zero simplicial).attrs := rfl
    exact elem_ext h1 h2
  rw [hzero]
  refine ⟨nf_accumulate_zero _ _ _, ?_, ?_, ?_⟩
  · exact torsion_congr (y := z) (by simp)
  · intro p hp
    obtain ⟨e, he, h⟩ := List.mem_map.1 (mem_keys_accumulate_zero (List.mem_map_of_mem (f := Prod.fst) hp))
    obtain ⟨q, hq, h3⟩ := List.mem_filterMap.1 he
    refine ⟨q, hq, ?_⟩
    simp only [csEv] at h3
    split at h3
    · rename_i h4
      cases h3
      rw [← h]
      exact ⟨rfl, h4⟩
    · cases h3
  · rw [den_accumulate_zero' _ z _ rfl (n := x.torsion) rfl, den_csEv]
    exact pr_tm_cs1 _

/-- The collapse of an element: terms of which a factor loses dimension are left out, the others are
collapsed factor by factor. -/
theorem C33_cartan_serre_coeff {x : CElem} (hx : x.NF cubical) (m : SKey) :
    (cartanSerreMap x).coeff m ≡ (x.data.map fun p =>
      if (∀ c ∈ p.1, Spec.collapseKeepsDim c) ∧ p.1.map Spec.collapse = m then p.2 else 0).sum [ZMOD x.torsion] := by
  obtain ⟨hnf, ht, -, hden⟩ := csMap_ok hx
  rw [← ZMod.intCast_eq_intCast_iff]
  have h2 := DFunLike.congr_fun hden m
  rw [Dict.den_apply hnf.nodup] at h2
  rw [coeff, h2, tm, lin_den]
  induction x.data with
  | nil => simp
  | cons p l ih =>
    rw [List.map_cons, List.sum_cons, Finsupp.add_apply, ih, List.map_cons, List.sum_cons, Int.cast_add]
    congr 1
    have e : p.1.map Spec.collapse = p.1.map Cube.cartanSerre :=
      List.map_congr_left fun c _ => (cartanSerre_eq_collapse c).symm
    rw [Finsupp.smul_apply, tmK_cs1, e]
    simp only [keepsDim_iff_key]
    by_cases h1 : (CElem.keyDegree p.1 : Int) = SElem.keyDegree (p.1.map Cube.cartanSerre)
    · rw [if_pos h1, Finsupp.single_apply]
      by_cases h3 : p.1.map Cube.cartanSerre = m
      · rw [if_pos h3, if_pos ⟨h1, h3⟩]; simp
      · rw [if_neg h3, if_neg (fun h => h3 h.2)]; simp
    · rw [if_neg h1, if_neg (fun h => h1 h.1)]; simp

theorem pr_ldrop_delK_cs1 (c : Cube) :
    pr ldrop (lin delK (cs1 (R := R) c)) = pr ldrop (lin cs1 (cubeD c)) := by
  rw [delK_cs1, map_add]
  split
  · simp [ldrop]
  · simp

theorem drops_eq_any : simplicial.drops = fun k : SKey => k.any ldrop := simplicial_drops_eq

/-- The Cartan–Serre map commutes with boundaries. -/
theorem C33_cartan_serre_chain_map {x bx : CElem} (hx : x.NF cubical) (hb : x.boundary = .ok bx) :
    pyEq (cartanSerreMap bx) (SElem.boundary (cartanSerreMap x)) = true := by
  obtain ⟨hnf, ht, -, hden⟩ := csMap_ok hx
  obtain ⟨hnf', ht', -, hden'⟩ := csMap_ok (nf_cboundary hb)
  have hbt : bx.torsion = x.torsion := torsion_congr (cboundary_attrs hb)
  refine pyEq_of_den (n := x.torsion) hnf' (Props.nf_boundary _) (ht'.trans hbt)
    ((torsion_congr (Props.boundary_attrs _)).trans ht) ?_
  rw [hbt] at hden'
  rw [hden', Props.den_boundary _ ht, hden, den_cboundary hb rfl, drops_eq_any, simplicialD,
    pr_tens_tm (pr_ldrop_delK_cs1) sgn1_cs1, ← drops_eq_any, pr_tm_cs1]

/-- Collapse of `exCub` and of a tensor with degenerate terms. -/
abbrev exCS : CElem := Elem.new cubical [([[2, 1, 2], [2, 2, 0]], 1), ([[2, 0, 2], [2, 2, 1]], 2),
  ([[1, 2, 2], [2, 0, 2]], 3)] (some 7)

theorem exCS_nf : exCS.NF cubical := nf_new _ (by decide) _ _

example : ∃ b, exCS.boundary = .ok b ∧ (cartanSerreMap exCS).data = [([[0, 2, 3], [0, 1, 2]], 1)] ∧
    (cartanSerreMap b).data ≠ [] ∧ Spec.collapse [2, 1, 2] = [0, 2, 3] ∧
    ¬ Spec.collapseKeepsDim [2, 0, 2] := by
  refine ⟨_, rfl, ?_⟩
  decide +kernel

/-- The Cartan–Serre map takes Serre diagonals to Alexander–Whitney diagonals.  (When the image of
`x` is zero, Python cannot take its diagonal; the image of the diagonal is then zero.) -/
theorem C34_cartan_serre_diagonal {x y : CElem} (hx : x.NF cubical) {d r : Nat}
    (hd : x.degree = some d) (hr : x.arity = some r) (t c : Nat) (hc : 1 ≤ c) (hcr : c ≤ r)
    (hy : x.iteratedDiagonal t c = .ok y) :
    ((cartanSerreMap x).data = [] → (cartanSerreMap y).data = []) ∧
    ((cartanSerreMap x).data ≠ [] → ∃ z, (cartanSerreMap x).iteratedDiagonal t c = .ok z ∧
      pyEq (cartanSerreMap y) z = true) := by
  obtain ⟨y', hy', hynf, hya, hyd⟩ := cIteratedDiagonal_ok hd hr t c hc hcr
  obtain rfl : y = y' := by rw [hy] at hy'; cases hy'; rfl
  have hyt : y.torsion = x.torsion := torsion_congr hya
  obtain ⟨hnf, ht, hkeys, hden⟩ := csMap_ok hx
  obtain ⟨hnf', ht', -, hden'⟩ := csMap_ok hynf
  rw [hyt, hyd, tm_atL (fun a => tm_serre t a), ← hden] at hden'
  refine ⟨fun h0 => ?_, fun hne => ?_⟩
  · rw [hnf'.data_eq_nil_iff, ht', hyt, hden', h0]
    simp
  · rw [arity, uniqueValue_eq_some] at hr
    rw [degree, uniqueValue_eq_some] at hd
    have hd' : (cartanSerreMap x).degree = some (d : Int) := by
      rw [SElem.degree, uniqueValue_eq_some]
      refine ⟨by simpa using hne, ?_⟩
      intro e he
      obtain ⟨p, hp, rfl⟩ := List.mem_map.1 he
      obtain ⟨q, hq, -, h2⟩ := hkeys p hp
      rw [← h2, hd.2 _ (List.mem_map_of_mem hq)]
    have hr' : (cartanSerreMap x).arity = some r := by
      rw [SElem.arity, uniqueValue_eq_some]
      refine ⟨by simpa using hne, ?_⟩
      intro e he
      obtain ⟨p, hp, rfl⟩ := List.mem_map.1 he
      obtain ⟨q, hq, h1, -⟩ := hkeys p hp
      rw [h1, List.length_map]
      exact hr.2 _ (List.mem_map_of_mem hq)
    obtain ⟨z, hz, hznf, hza, -, hzd⟩ := iteratedDiagonal_ok hnf hd' hr' t c hc hcr
    refine ⟨z, hz, pyEq_of_den (n := x.torsion) hnf' hznf (ht'.trans hyt) ((torsion_congr hza).trans ht) ?_⟩
    rw [ht] at hzd
    rw [hzd, ← hden', ← simplicial_drops_lany]
    rw [show den (ZMod x.torsion) (cartanSerreMap y).data = tm cs1 (den (ZMod x.torsion) y.data) by
      rw [← hyt]; exact (csMap_ok hynf).2.2.2, pr_tm_cs1]

example : ∃ y z, CElem.iteratedDiagonal exCS 2 2 = .ok y ∧ (cartanSerreMap exCS).iteratedDiagonal 2 2 = .ok z ∧
    pyEq (cartanSerreMap y) z = true ∧ z.data.length = 6 ∧ exCS.degree = some 4 ∧ exCS.arity = some 2 := by
  refine ⟨_, _, rfl, rfl, ?_⟩
  decide +kernel

end Comch.Props
