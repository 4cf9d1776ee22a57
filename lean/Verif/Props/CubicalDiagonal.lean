import Verif.Props.CubicalBoundary
import Verif.Props.Diagonal
import Verif.Lib.SerreCoeff
import Verif.Lib.ActElem

/-! # Serre diagonal: C30, C31 -/

set_option linter.unusedSectionVars false

namespace Comch.Props
open Comch Elem CElem Serre
open Finsupp (single)

/-- The summands of the diagonal for one term, as a list. -/
def serreEv (t c : Nat) (p : CKey × Int) : List (CKey × Int) :=
  (productRepeat (List.range (t + 1)) (((p.1[c - 1]?).getD []).count 2)).map fun q =>
    (p.1.take (c - 1) ++ cubesOf t ((p.1[c - 1]?).getD []) q ++ p.1.drop c, p.2 * reversedPairsSign q)

theorem cdiagonalEvents_eq (t c : Nat) (p : CKey × Int) :
    CElem.diagonalEvents t c p.1 p.2 = .ok (serreEv t c p) := by
  unfold CElem.diagonalEvents serreEv
  apply mapM_ok
  intro q hq
  rw [mem_productRepeat] at hq
  rw [multibase_eq _ _ _ hq.1]
  rfl

theorem den_serreEv {R : Type} [CommRing R] (t c : Nat) (p : CKey × Int) (hc : 1 ≤ c) (hcr : c ≤ p.1.length) :
    den R (serreEv t c p) = (p.2 : R) • atK (serre t) (c - 1) p.1 := by
  have hlt : c - 1 < p.1.length := by omega
  have hg : p.1[c - 1]? = some p.1[c - 1] := List.getElem?_eq_getElem hlt
  rw [atK_eq _ _ _ _ hg, serreEv, den_map, hg, Option.getD_some, ← sum_cubesOf]
  show (List.map _ (productRepeat (List.range (t + 1)) (Cube.dimension p.1[c - 1]))).sum = _
  generalize productRepeat (List.range (t + 1)) (Cube.dimension p.1[c - 1]) = l
  induction l with
  | nil => simp
  | cons q l ih =>
    simp only [List.map_cons, List.sum_cons, ih, map_add, LinearMap.add_apply, smul_add]
    congr 1
    rw [reversedPairsSign_eq, Nat.sub_add_cancel hc]
    push_cast
    rw [cast_pySign]
    simp [mul_comm]

/-- The linear description of `iterated_diagonal`. -/
theorem cIteratedDiagonal_ok {x : CElem} {d r : Nat}
    (hd : x.degree = some d) (hr : x.arity = some r) (t c : Nat) (hc : 1 ≤ c) (hcr : c ≤ r) :
    ∃ y, CElem.iteratedDiagonal x t c = .ok y ∧ y.NF cubical ∧ y.attrs = x.attrs ∧
      den (ZMod x.torsion) y.data = atL (serre t) (c - 1) (den _ x.data) := by
  refine ⟨Elem.accumulate cubical (x.zero cubical) ((x.data.map (serreEv t c)).flatten), ?_,
    nf_accumulate_zero cubical x _, by simp, ?_⟩
  · unfold CElem.iteratedDiagonal
    rw [hd, hr]
    simp only [if_neg (not_lt.2 hcr)]
    have : (x.data.mapM fun (k, v) => CElem.diagonalEvents t c k v) = .ok (x.data.map (serreEv t c)) :=
      mapM_ok fun p _ => cdiagonalEvents_eq t c p
    exact congrArg (fun m : Py _ => m >>= fun events =>
      Except.ok (Elem.accumulate cubical (x.zero cubical) events.flatten)) this
  · rw [den_accumulate_zero' _ _ _ rfl rfl]
    rw [arity, uniqueValue_eq_some] at hr
    rw [den_flatten, List.map_map, atL, lin_den]
    refine Eq.trans (pr_false _) ?_
    congr 1
    apply List.map_congr_left
    intro p hp
    exact den_serreEv t c p hc (by rw [hr.2 _ (List.mem_map_of_mem hp)]; exact hcr)

/-- `iterated_diagonal` does not raise on a homogeneous element and commutes with boundaries.  (When
`x.boundary()` is zero, Python cannot take its diagonal, and the boundary of the diagonal is zero.) -/
theorem C30_diagonal_chain_map {x bx : CElem} {d r : Nat}
    (hd : x.degree = some d) (hr : x.arity = some r) (t c : Nat) (hc : 1 ≤ c) (hcr : c ≤ r)
    (hb : x.boundary = .ok bx) :
    ∃ y by_, x.iteratedDiagonal t c = .ok y ∧ y.boundary = .ok by_ ∧
      (bx.data = [] → by_.data = []) ∧
      (bx.data ≠ [] → ∃ z, bx.iteratedDiagonal t c = .ok z ∧ pyEq by_ z = true) := by
  obtain ⟨y, hy, hynf, hya, hyd⟩ := cIteratedDiagonal_ok hd hr t c hc hcr
  obtain ⟨by_, hby⟩ := C28_boundary_ok y
  have hyt : y.torsion = x.torsion := torsion_congr hya
  have hxb : bx.torsion = x.torsion := torsion_congr (cboundary_attrs hb)
  have hyb : by_.torsion = x.torsion := by rw [torsion_congr (cboundary_attrs hby), hyt]
  have key : den (ZMod x.torsion) by_.data = atL (serre t) (c - 1) (den (ZMod x.torsion) bx.data) := by
    rw [den_cboundary hby hyt, hyd, den_cboundary hb rfl]
    exact tens_atL (cubicalD_serre t) (sgn_serre t) _ _
  refine ⟨y, by_, hy, hby, ?_, ?_⟩
  · intro h0
    rw [(nf_cboundary hby).data_eq_nil_iff, hyb, key, h0]
    simp
  · intro hne
    have hdb := ((C28_boundary_degree hb d hd).resolve_left hne).2
    have hrb := (C28_boundary_arity hb r hr).resolve_left hne
    obtain ⟨z, hz, hznf, hza, hzd⟩ := cIteratedDiagonal_ok hdb hrb t c hc hcr
    refine ⟨z, hz, pyEq_of_den (n := x.torsion) (nf_cboundary hby) hznf hyb ?_ ?_⟩
    · rw [torsion_congr hza, hxb]
    · rw [hxb] at hzd
      rw [key, hzd]

theorem totDeg_cdim (k : CKey) : totDeg cdim k = (CElem.keyDegree k : Int) := by
  rw [totDeg_eq_sum, CElem.keyDegree, Nat.cast_list_sum, List.map_map]
  rfl

theorem atK_serre_supported {R : Type} [CommRing R] (t c : Nat) (k : CKey) (hck : c < k.length) :
    atK (R := R) (serre t) c k ∈ Finsupp.supported R R (ND (k.length + t) (totDeg cdim k)) := by
  induction k generalizing c with
  | nil => simp at hck
  | cons a k ih =>
    cases c with
    | zero =>
      have hm : ∀ v : CKey →₀ R, cat v (bv R k) = mapK (· ++ k) v := by
        intro v
        induction v using Finsupp.induction_linear with
        | zero => simp
        | add f g hf hg => simp only [map_add, LinearMap.add_apply, hf, hg]
        | single a r => simp
      rw [atK, hm]
      refine mapK_supported _ (fun m hm => ?_) (serre_supported t a)
      obtain ⟨h1, h2⟩ := hm
      refine ⟨by simp [h1]; omega, ?_⟩
      rw [totDeg_eq_sum, List.map_append, List.sum_append, ← totDeg_eq_sum, ← totDeg_eq_sum, h2]
      rfl
    | succ c =>
      rw [atK]
      refine mapK_supported _ (fun m hm => ?_) (ih c (by simpa using hck))
      obtain ⟨h1, h2⟩ := hm
      exact ⟨by simp [h1]; omega, by rw [totDeg, totDeg, h2]⟩

/-- The degree is kept and the arity raised by `times`. -/
theorem C30_diagonal_arity_degree {x y : CElem} {d r : Nat}
    (hd : x.degree = some d) (hr : x.arity = some r) (t c : Nat) (hc : 1 ≤ c) (hcr : c ≤ r)
    (hy : x.iteratedDiagonal t c = .ok y) :
    ∀ p ∈ y.data, p.1.length = r + t ∧ CElem.keyDegree p.1 = d := by
  obtain ⟨y', hy', hynf, hya, hyd⟩ := cIteratedDiagonal_ok hd hr t c hc hcr
  have hyt : y'.torsion = x.torsion := torsion_congr hya
  obtain rfl : y = y' := by rw [hy] at hy'; cases hy'; rfl
  rw [arity, uniqueValue_eq_some] at hr
  rw [degree, uniqueValue_eq_some] at hd
  intro p hp
  have hsup := hynf.mem_keys_iff.1 (List.mem_map_of_mem (f := Prod.fst) hp)
  rw [hyt, hyd] at hsup
  have : atL (serre t) (c - 1) (den (ZMod x.torsion) x.data) ∈
      Finsupp.supported _ (ZMod x.torsion) (ND (r + t) (d : Int)) := by
    refine lin_supported (S := {k : CKey | k.length = r ∧ CElem.keyDegree k = d}) _ ?_
      (den_supported fun q hq => ⟨hr.2 _ (List.mem_map_of_mem hq), hd.2 _ (List.mem_map_of_mem hq)⟩)
    rintro k ⟨h1, h2⟩
    have := atK_serre_supported (R := ZMod x.torsion) t (c - 1) k (by omega)
    rwa [h1, totDeg_cdim, h2] at this
  obtain ⟨h1, h2⟩ := this (Finsupp.mem_support_iff.2 hsup)
  rw [totDeg_cdim] at h2
  exact ⟨h1, by exact_mod_cast h2⟩

/-- The coefficients of the diagonal. -/
theorem C30_diagonal_coeff {x y : CElem} {d r : Nat}
    (hd : x.degree = some d) (hr : x.arity = some r) (t c : Nat) (hc : 1 ≤ c) (hcr : c ≤ r)
    (hy : x.iteratedDiagonal t c = .ok y) (m : CKey) :
    y.coeff m ≡ (x.data.map fun p => if Spec.isSerreTermAt p.1 m c t then
      (-1) ^ Spec.inversions (Spec.serrePositions (p.1.getD (c - 1) []) ((m.drop (c - 1)).take (t + 1))) * p.2
      else 0).sum [ZMOD x.torsion] := by
  obtain ⟨y', hy', hynf, hya, hyd⟩ := cIteratedDiagonal_ok hd hr t c hc hcr
  obtain rfl : y = y' := by rw [hy] at hy'; cases hy'; rfl
  rw [← ZMod.intCast_eq_intCast_iff]
  have h2 := DFunLike.congr_fun hyd m
  rw [Dict.den_apply hynf.nodup] at h2
  rw [coeff, h2, atL, lin_den]
  rw [arity, uniqueValue_eq_some] at hr
  have : ∀ l : List (CKey × Int), (∀ p ∈ l, p ∈ x.data) →
      (l.map fun p => ((p.2 : Int) : ZMod x.torsion) • atK (serre t) (c - 1) p.1).sum m =
      (((l.map fun p => if Spec.isSerreTermAt p.1 m c t then
        (-1) ^ Spec.inversions (Spec.serrePositions (p.1.getD (c - 1) []) ((m.drop (c - 1)).take (t + 1))) * p.2
        else 0).sum : Int) : ZMod x.torsion) := by
    intro l hl
    induction l with
    | nil => simp
    | cons p l ih =>
      rw [List.map_cons, List.sum_cons, Finsupp.add_apply, ih (fun q hq => hl q (by simp [hq])),
        List.map_cons, List.sum_cons, Int.cast_add]
      congr 1
      have hp := hl p (by simp)
      have hpl : p.1.length = r := hr.2 _ (List.mem_map_of_mem hp)
      have hlt : c - 1 < p.1.length := by omega
      have hg : p.1[c - 1]? = some p.1[c - 1] := List.getElem?_eq_getElem hlt
      rw [Finsupp.smul_apply, atK_eq _ _ _ _ hg, cat_bv_apply_left, cat_bv_apply_right]
      have hlen : (p.1.take (c - 1)).length = c - 1 := by simp; omega
      have hlen2 : (p.1.drop (c - 1 + 1)).length = r - c := by simp; omega
      have hsub : c - 1 + 1 = c := by omega
      rw [hlen, hlen2, hsub, List.drop_drop, List.length_drop]
      have hgd : p.1.getD (c - 1) [] = p.1[c - 1] := by rw [List.getD_eq_getElem?_getD, hg]; rfl
      have hiff : Spec.isSerreTermAt p.1 m c t ↔ (m.length = r + t ∧ m.take (c - 1) = p.1.take (c - 1) ∧
          m.drop (c + t) = p.1.drop c ∧
          Spec.isSerreTerm t p.1[c - 1] ((m.drop (c - 1)).take (t + 1))) := by
        unfold Spec.isSerreTermAt
        rw [hpl, hgd]
      simp only [hiff, hgd]
      by_cases h1 : m.take (c - 1) = p.1.take (c - 1)
      · rw [if_pos h1, serre_apply]
        by_cases hml : m.length = r + t
        · have e1 : m.length - (c - 1) - (r - c) = t + 1 := by omega
          have e2 : c - 1 + (t + 1) = c + t := by omega
          have e4 : r - c ≤ m.length - (c - 1) := by omega
          rw [e1, e2]
          simp only [hml, h1, e4, true_and]
          have e4 : r - c ≤ r + t - (c - 1) := by omega
          simp only [e4, true_and]
          by_cases h5 : m.drop (c + t) = p.1.drop c
          · simp only [h5, true_and, if_true]
            split
            · rw [sg_natCast]; push_cast; simp [mul_comm]
            · simp
          · simp [h5]
        · simp only [hml, false_and, if_false]
          split
          · rename_i h6
            rw [if_neg]
            · simp
            · rintro ⟨h7, -⟩
              apply hml
              rw [List.length_take, List.length_drop] at h7
              have := h6.1
              omega
          · simp
      · rw [if_neg h1, if_neg (fun h => h1 h.2.1)]
        simp
  exact this x.data (fun p hp => hp)

example : ∃ y b, CElem.iteratedDiagonal exCub 2 2 = .ok y ∧ y.data.length = 12 ∧ y.boundary = .ok b ∧
    b.data ≠ [] ∧ y.coeff [[0, 2], [0, 0], [2, 0], [1, 2]] = 1 ∧
    y.coeff [[0, 2], [0, 2], [2, 1], [1, 1]] = 4 ∧
    Spec.isSerreTermAt [[0, 2], [2, 2]] [[0, 2], [0, 2], [2, 1], [1, 1]] 2 2 := by
  refine ⟨_, _, rfl, ?_, rfl, ?_⟩ <;> decide +kernel

/-- Coassociativity: cutting one of the factors produced by a cut gives the longer cut. -/
theorem C31_diagonal_iterated {x y z : CElem} {d r : Nat}
    (hd : x.degree = some d) (hr : x.arity = some r) (a b c j : Nat) (hc : 1 ≤ c) (hcr : c ≤ r)
    (hj : j ≤ a) (hy : x.iteratedDiagonal a c = .ok y) (hyne : y.data ≠ [])
    (hz : x.iteratedDiagonal (a + b) c = .ok z) :
    ∃ w, y.iteratedDiagonal b (c + j) = .ok w ∧ pyEq w z = true := by
  obtain ⟨y', hy', hynf, hya, hyd⟩ := cIteratedDiagonal_ok hd hr a c hc hcr
  obtain rfl : y = y' := by rw [hy] at hy'; cases hy'; rfl
  obtain ⟨z', hz', hznf, hza, hzd⟩ := cIteratedDiagonal_ok hd hr (a + b) c hc hcr
  obtain rfl : z = z' := by rw [hz] at hz'; cases hz'; rfl
  have had := C30_diagonal_arity_degree hd hr a c hc hcr hy
  have hyt : y.torsion = x.torsion := torsion_congr hya
  have hydeg : CElem.degree y = some d := by
    rw [CElem.degree, uniqueValue_eq_some]
    refine ⟨by simpa using hyne, ?_⟩
    intro e he
    obtain ⟨p, hp, rfl⟩ := List.mem_map.1 he
    exact (had p hp).2
  have hyar : CElem.arity y = some (r + a) := by
    rw [CElem.arity, uniqueValue_eq_some]
    refine ⟨by simpa using hyne, ?_⟩
    intro e he
    obtain ⟨p, hp, rfl⟩ := List.mem_map.1 he
    exact (had p hp).1
  obtain ⟨w, hw, hwnf, hwa, hwd⟩ := cIteratedDiagonal_ok hydeg hyar b (c + j) (by omega) (by omega)
  refine ⟨w, hw, pyEq_of_den (n := x.torsion) hwnf hznf ?_ (torsion_congr hza) ?_⟩
  · rw [torsion_congr hwa, hyt]
  · rw [hyt] at hwd
    rw [hwd, hzd, hyd, show c + j - 1 = (c - 1) + j by omega]
    refine atL_atL_inside _ _ _ j (fun q => ?_) (fun q => atL_serre_serre a b j hj q) (c - 1) _
    refine Finsupp.supported_mono (fun m hm => ?_) (serre_supported a q)
    show j < m.length
    rw [hm.1]
    omega

/-- The term of the diagonal which has all intervals in the first factor. -/
def leftTerm (t : Nat) (q : Cube) : List Cube := q :: List.replicate t (q.map fun e => if e = 2 then 1 else e)

theorem serre_leftTerm {R : Type} [CommRing R] (t : Nat) (q' q : Cube) :
    serre (R := R) t q' (leftTerm t q) = if q' = q then 1 else 0 := by
  have hcol : ∀ i, Spec.column (leftTerm t q) i =
      q.getD i 0 :: List.replicate t (if q.getD i 0 = 2 then 1 else q.getD i 0) := by
    intro i
    simp only [Spec.column, leftTerm, List.map_cons, List.map_replicate]
    congr 2
    simp only [List.getD_eq_getElem?_getD, List.getElem?_map]
    cases q[i]? <;> simp
  rw [serre_apply]
  by_cases h : q' = q
  · subst h
    have ht : Spec.isSerreTerm t q' (leftTerm t q') := by
      refine ⟨by simp [leftTerm], ?_, ?_⟩
      · intro c hc
        rcases List.mem_cons.1 hc with rfl | hc
        · rfl
        · rw [List.eq_of_mem_replicate hc]; simp
      · intro i hi
        rw [hcol]
        split
        · rename_i h2
          exact ⟨0, by simp, by rw [h2]; simp⟩
        · rename_i h2
          rfl
    rw [if_pos ht, if_pos rfl]
    have hz : ∀ l : List Nat, (∀ a ∈ l, a = 0) → Spec.inversions l = 0 := by
      intro l hl
      induction l with
      | nil => rfl
      | cons a l ih =>
        rw [Spec.inversions, ih fun b hb => hl b (List.mem_cons_of_mem _ hb), hl a (by simp)]
        simp
    rw [hz]
    · simp
    · intro a ha
      obtain ⟨i, hi, rfl⟩ := List.mem_map.1 ha
      have hi2 : q'.getD i 0 = 2 := by simpa using (List.mem_filter.1 hi).2
      rw [hcol, hi2]
      simp
  · rw [if_neg h, if_neg]
    rintro ⟨-, h2, h3⟩
    apply h
    have hl : q.length = q'.length := h2 q (by simp [leftTerm])
    apply List.ext_getElem hl.symm
    intro i h4 h5
    have := h3 i (by simpa using h4)
    rw [hcol] at this
    have e1 : q'.getD i 0 = q'[i] := by simp [h4]
    have e2 : q.getD i 0 = q[i] := by simp [h5]
    rw [e1, e2] at this
    split at this
    · rename_i h6
      obtain ⟨f, -, hf⟩ := this
      have hm : 2 ∈ q[i] :: List.replicate t (if q[i] = 2 then 1 else q[i]) := by rw [hf]; simp
      rcases List.mem_cons.1 hm with hm | hm
      · rw [h6, hm]
      · have := List.eq_of_mem_replicate hm
        split at this <;> omega
    · rw [List.replicate_succ] at this
      exact (List.cons.inj this).1.symm

/-- The diagonal of a non-zero element is not zero, so the hypothesis of C31 holds when `x` is in
normal form. -/
theorem C31_diagonal_ne_zero {x y : CElem} (hx : x.NF cubical) {d r : Nat}
    (hd : x.degree = some d) (hr : x.arity = some r) (t c : Nat) (hc : 1 ≤ c) (hcr : c ≤ r)
    (hy : x.iteratedDiagonal t c = .ok y) : y.data ≠ [] := by
  obtain ⟨y', hy', hynf, hya, hyd⟩ := cIteratedDiagonal_ok hd hr t c hc hcr
  obtain rfl : y = y' := by rw [hy] at hy'; cases hy'; rfl
  have hyt : y.torsion = x.torsion := torsion_congr hya
  rw [Ne, hynf.data_eq_nil_iff, hyt, hyd]
  intro h0
  have hr' := hr
  rw [arity, uniqueValue_eq_some] at hr
  obtain ⟨q, hq⟩ := List.exists_mem_of_ne_nil _ (show x.data ≠ [] by simpa using hr.1)
  have hql : q.1.length = r := hr.2 _ (List.mem_map_of_mem hq)
  have hg : q.1[c - 1]? = some q.1[c - 1] := List.getElem?_eq_getElem (by omega)
  have key : ∀ {v : CKey →₀ ZMod x.torsion}, v ∈ Finsupp.supported _ (ZMod x.torsion) {k : CKey | k.length = r} →
      ((Finsupp.lapply (q.1.take (c - 1) ++ (leftTerm t q.1[c - 1] ++ q.1.drop c))).comp
        (atL (serre t) (c - 1))) v = Finsupp.lapply (R := ZMod x.torsion) q.1 v := by
    intro v hv
    refine BElem.lin_ext_supported (R := ZMod x.torsion) (fun k hk => ?_) hv
    have hk : k.length = r := hk
    have hkg : k[c - 1]? = some k[c - 1] := List.getElem?_eq_getElem (by omega)
    rw [LinearMap.comp_apply, atL_single, one_smul, Finsupp.lapply_apply, Finsupp.lapply_apply,
      atK_eq _ _ _ _ hkg, cat_bv_apply_left, cat_bv_apply_right]
    have e1 : (k.take (c - 1)).length = (q.1.take (c - 1)).length := by simp [hk, hql]
    have e2 : c - 1 + 1 = c := by omega
    have e3 : (k.drop c).length = (q.1.drop c).length := by simp [hk, hql]
    rw [e1, e2, e3, List.take_left, List.drop_left, List.length_append, Nat.add_sub_cancel,
      List.take_left, List.drop_left, serre_leftTerm]
    have hsplit : ∀ m : CKey, ∀ h : c - 1 < m.length, m = m.take (c - 1) ++ (m[c - 1] :: m.drop c) := by
      intro m h
      conv_lhs => rw [← List.take_append_drop (c - 1) m, List.drop_eq_getElem_cons h, e2]
    rw [Finsupp.single_apply]
    by_cases hkq : k = q.1
    · subst hkq; simp
    · rw [if_neg hkq]
      by_cases a1 : q.1.take (c - 1) = k.take (c - 1)
      · rw [if_pos a1]
        by_cases a2 : q.1.drop c = k.drop c
        · rw [if_pos ⟨by omega, a2⟩, if_neg]
          intro a3
          apply hkq
          rw [hsplit k (by omega), hsplit q.1 (by omega), a1, a2, a3]
        · rw [if_neg (fun h => a2 h.2)]
      · rw [if_neg a1]
  have h1 := key (den_supported (R := ZMod x.torsion) (d := x.data)
    (S := {k : CKey | k.length = r}) fun p hp => hr.2 _ (List.mem_map_of_mem hp))
  rw [LinearMap.comp_apply, h0, map_zero] at h1
  exact hx.mem_keys_iff.1 (List.mem_map_of_mem (f := Prod.fst) hq) h1.symm

example : ∃ y z w, CElem.iteratedDiagonal exCub 1 2 = .ok y ∧ CElem.iteratedDiagonal exCub 3 2 = .ok z ∧
    CElem.iteratedDiagonal y 2 3 = .ok w ∧ pyEq w z = true ∧ w.data.length = 20 := by
  refine ⟨_, _, _, rfl, rfl, rfl, ?_, ?_⟩ <;> decide +kernel

end Comch.Props
