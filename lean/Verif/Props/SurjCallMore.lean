import Verif.Props.SurjCall
import Verif.Props.SurjAction
import Verif.Lib.SurjCallAct
import Verif.Lib.SurjCallCompose
import Verif.Lib.AtDegMore

/-! # More on surjections acting on simplicial chains: C53, C67, C68 -/

set_option linter.unusedSectionVars false

namespace Comch.SurjElem
open Comch.Spec Elem SurjComp Comch.Props IsPerm
open Finsupp (single)

theorem pr_actK {R : Type} [CommRing R] {r : Nat} {σ : Perm} (hσ : IsPerm r σ) {v : SKey →₀ R}
    (hv : v ∈ Finsupp.supported R R {m : SKey | m.length = r}) :
    pr lany (lin (actK ldim σ) v) = lin (actK ldim σ) (pr lany v) := by
  have := BElem.lin_ext_supported (R := R) (f := (pr lany).comp (lin (actK ldim σ)))
    (g := (lin (actK ldim σ)).comp (pr lany)) (S := {m : SKey | m.length = r}) (fun m hm => by
      have h1 : lany (actL σ m) = lany m := any_actL ldrop hσ hm
      simp only [LinearMap.comp_apply, lin_single, one_smul, actK, map_smul, pr_single, h1]
      split <;> simp [actK]) hv
  simpa using this

theorem callV_one {R : Type} [CommRing R] (r : Nat) (d : Int) (k : Surj) {m : SKey} (hm : m.length = 1) :
    callV R r d 0 (bv R k) (bv R m) = sact r k m.head! := by
  obtain ⟨V, rfl⟩ := List.length_eq_one_iff.1 hm
  rw [callV, bil_bv, lin_single, one_smul, atKd_eq _ _ _ _ V (by simp), cat_bv_cat]
  simp only [List.take_zero, totDeg, zero_mul, sg_zero, one_smul, List.nil_append, Nat.zero_add,
    List.drop_one, List.tail_cons, List.append_nil, List.head!_cons]
  generalize sact (R := R) r k V = v
  induction v using Finsupp.induction_linear with
  | zero => simp
  | add f g hf hg => simp only [map_add, hf, hg]
  | single m c => simp

end Comch.SurjElem

namespace Comch.Props
open Comch.Spec Elem SurjComp SurjElem IsPerm
open Finsupp (single)

variable {s : RingElem} {x : SurjElem} {y : SElem} {r : Nat} {d e : Int}

/-- `(s * x)(c) == s * (x(c))` for `s` in the group ring, `x` homogeneous of arity `r` in the convention
of McClure and Smith, `c` a homogeneous chain of simplices.  (The package cannot multiply a zero tensor
by a ring element, so the case `x(c) = 0` is stated separately.) -/
theorem C53_equivariant (hs : InRing r s) (hsn : s.data ≠ []) (hx : InSurj r x) (hd : x.degree = some d)
    (hcv : x.attrs.convention = .mcClureSmith) (hy : y.NF simplicial) (hyd : y.degree = some e)
    (hya : y.arity = some 1) (ts : s.torsion = x.torsion) (ht : y.torsion = x.torsion) :
    ∃ sx xc z, SurjElem.rmul s x = .ok sx ∧ callSimplicial x y 1 = .ok xc ∧
      callSimplicial sx y 1 = .ok z ∧ (xc.data = [] → z.data = []) ∧
      (xc.data ≠ [] → ∃ w, SElem.rmul s xc = .ok w ∧ pyEq z w = true) := by
  have hk := homogeneous_keys hyd hya
  have hsd : ∀ p ∈ x.data, ((sdeg p.1 : Nat) : Int) = d := fun p hp => sdeg_of_degree hx hd hp
  have hxn : x.data ≠ [] := by
    rw [SurjElem.degree, uniqueValue_eq_some] at hd
    simpa using hd.1
  obtain ⟨p0, hp0⟩ := List.exists_mem_of_ne_nil _ hxn
  have hr : 1 ≤ r := one_le_of_mem hx hp0
  obtain ⟨sx, esx, nsx, asx, osx, dsx⟩ := (SurjElem.actSpec hr).ok s x hs hsn hx.nf hxn hx.onto ts
  have tsx : sx.torsion = x.torsion := torsion_congr asx
  have isx : InSurj r sx := ⟨nsx, osx⟩
  have hsx : ∀ p ∈ sx.data, ((sdeg p.1 : Nat) : Int) = d := by
    intro p hp
    obtain ⟨z, ez, -, -, hdeg, -⟩ := C48_act_coeff hr hs hsn hx hxn ts
    cases esx.symm.trans ez
    exact sdeg_of_degree isx ((hdeg d hd).resolve_left (List.ne_nil_of_mem hp)) hp
  obtain ⟨xc, exc, nxc, axc, dxc⟩ := call_ok hx hsd hcv hy hk rfl ht le_rfl le_rfl
  obtain ⟨z, ez, nz, az, dz⟩ := call_ok isx hsx (by rw [asx, hcv]) hy hk tsx ht le_rfl le_rfl
  have txc : xc.torsion = x.torsion := by rw [torsion_congr axc, ht]
  have tz : z.torsion = x.torsion := by rw [torsion_congr az, ht]
  obtain ⟨xc', exc', -, -, lxc⟩ := C52_arity_degree hx hd hcv hy hyd hya ht le_rfl le_rfl
  cases exc.symm.trans exc'
  have key : den (ZMod x.torsion) z.data = actV ldim (den _ s.data) (den _ xc.data) := by
    rw [dz, dxc, dsx]
    simp only [Nat.sub_self]
    refine den_induction (P := fun u => pr lany (callV (ZMod x.torsion) r d 0
        (bil (actS x.attrs) u (den _ x.data)) (den _ y.data)) =
        actV ldim u (pr lany (callV _ r d 0 (den _ x.data) (den _ y.data)))) s.data (by simp)
      (fun u v hu hv => by simp only [map_add, LinearMap.add_apply, hu, hv]) ?_
    intro q hq
    have hσ := hs.perm q hq
    have h1 : ∀ u : Surj →₀ ZMod x.torsion, bil (actS x.attrs) (single q.1 ((q.2 : Int) : ZMod x.torsion)) u =
        ((q.2 : Int) : ZMod x.torsion) • lin (actS x.attrs q.1) u := fun u => bil_single_left _ _ _ _
    have h2 : ∀ u : SKey →₀ ZMod x.torsion, actV ldim (single q.1 ((q.2 : Int) : ZMod x.torsion)) u =
        ((q.2 : Int) : ZMod x.torsion) • lin (actK ldim q.1) u := fun u => bil_single_left _ _ _ _
    rw [h1, h2, map_smul, LinearMap.smul_apply, map_smul]
    congr 1
    have hb := BElem.bil_ext_supported (R := ZMod x.torsion)
      (f := ((callV (ZMod x.torsion) r d 0).comp (lin (actS x.attrs q.1))))
      (g := (callV (ZMod x.torsion) r d 0).compr₂ (lin (actK ldim q.1)))
      (S := {k : Surj | Onto r k}) (T := {m : SKey | m.length = 1}) (fun k hk m hm => by
        simp only [LinearMap.comp_apply, LinearMap.compr₂_apply, lin_single, one_smul]
        rw [actS, map_smul, LinearMap.smul_apply, callV_one r d _ hm, callV_one r d _ hm, hcv]
        exact sact_mulL hσ hk _)
      (den_supported (R := ZMod x.torsion) hx.onto)
      (den_supported (R := ZMod x.torsion) (S := {m : SKey | m.length = 1}) fun p hp => (hk p hp).2)
    simp only [LinearMap.comp_apply, LinearMap.compr₂_apply] at hb
    rw [hb, pr_actK hσ]
    refine BElem.bil_supported _ (S := {k : Surj | Onto r k}) (T := {m : SKey | m.length = 1}) (fun k hk m hm => ?_)
      (den_supported (R := ZMod x.torsion) hx.onto)
      (den_supported (R := ZMod x.torsion) (S := {m : SKey | m.length = 1}) fun p hp => (hk p hp).2)
    have := callV_one (R := ZMod x.torsion) r d k hm
    rw [callV, bil_bv, lin_single, one_smul] at this
    rw [this]
    exact Finsupp.supported_mono (fun w hw => hw.1) (sact_supported (R := ZMod x.torsion) hk _)
  refine ⟨sx, xc, z, esx, exc, ez, ?_, ?_⟩
  · intro h0
    rw [nz.data_eq_nil_iff, tz, key, h0]
    simp
  · intro hne
    have hxc : HasArity simplicial r xc := ⟨nxc, hne, fun p hp => by have := (lxc p hp).1; omega⟩
    obtain ⟨w, ew, nw, aw, lw, dw⟩ := rmulG_ok (w := Simplex.dimension) rfl simplicial_any hs hsn hxc
      (n := x.torsion) ts txc
    refine ⟨w, ?_, pyEq_of_den nz nw tz ((torsion_congr aw).trans txc) ?_⟩
    · rw [simplicial_rmul_eq, ew]
    · rw [key, dw]
      rfl

/-- A chain on which this surjection of arity 3 does not vanish, and a ring element moving its factors. -/
example : InRing 3 (Elem.new symmetricRing [([2, 3, 1], 1), ([1, 3, 2], 2)] (some 5)) ∧
    InSurj 3 (exSu .mcClureSmith) ∧ (exSu .mcClureSmith).degree = some 2 ∧
    (((exSu .mcClureSmith).callSimplicial (Elem.new simplicial [([[0, 1, 2, 3]], 2)] (some 5)) 1).toOption.map
      fun z => z.data.length) = some 14 := by
  refine ⟨⟨nf_new _ (by decide) _ _, by decide +kernel⟩, exSu_in _, by decide +kernel, by decide +kernel⟩

example : (SurjElem.rmul (Elem.new symmetricRing [([2, 1], 1)])
      (Elem.new surjection [([1, 2, 1], 1)] none .mcClureSmith)).toOption.bind (fun sx =>
        (SurjElem.callSimplicial sx (Simplicial.standardElement 2)).toOption.map Elem.data) =
      some [([[0, 1], [0, 1, 2]], -1), ([[0, 1, 2], [0, 2]], 1), ([[1, 2], [0, 1, 2]], -1)] := by
  decide +kernel

end Comch.Props

namespace Comch.SurjElem
open Comch.Spec Elem SurjComp Comch.Props
open Finsupp (single)

theorem sg_two (a : Int) : sg (ZMod 2) a = 1 := by
  unfold sg
  rcases pySign_eq_one_or a with h | h <;> rw [h] <;> decide

theorem sact_two (r : Nat) (k V : List Nat) :
    sact (R := ZMod 2) r k V = mapK (tensorOf r) (pth k V) := by
  have : ∀ v : LW →₀ ZMod 2, convW v = v := by
    intro v
    induction v using Finsupp.induction_linear with
    | zero => simp
    | add f g hf hg => simp only [map_add, hf, hg]
    | single w c => rw [convW_single, sg_two]; simp
  rw [sact, sg_two, one_smul, this]

/-- Acting with a composite, modulo 2. -/
theorem sact_cmp {r s i : Nat} (hi : 1 ≤ i) (hir : i ≤ r) (hs : 1 ≤ s) {k1 k2 : List Nat} (h1 : OntoR r k1)
    (h2 : OntoR s k2) (d2 : Int) (V : List Nat) :
    lin (fun c => sact (R := ZMod 2) (r + s - 1) c V) (cmp i s k1 k2) =
      atLd ldim d2 (sact s k2) (i - 1) (sact r k1 V) := by
  have hm : (-1 : ZMod 2) = 1 := by decide
  have e1 : ∀ v : List Nat →₀ ZMod 2, lin (fun c => sact (R := ZMod 2) (r + s - 1) c V) v =
      mapK (tensorOf (r + s - 1)) (lin (fun c => pth c V) v) := by
    intro v
    induction v using Finsupp.induction_linear with
    | zero => simp
    | add f g hf hg => simp only [map_add, hf, hg]
    | single w c => simp only [lin_single, map_smul, sact_two]
  rw [e1, pth_cmp hm, sact_two]
  have := BElem.lin_ext_supported (R := ZMod 2)
    (f := (mapK (tensorOf (r + s - 1))).comp (lin fun w => wcmp i s w k2))
    (g := (atLd ldim d2 (sact s k2) (i - 1)).comp (mapK (tensorOf r)))
    (S := {w : LW | OntoR r (letters w)}) (fun w hw => by
      have hw : OntoR r (letters w) := hw
      simp only [LinearMap.comp_apply, lin_single, one_smul, mapK_single, atLd_single]
      have ht : tensorOf (r + s - 1) = fun w => (fun f => (List.range' 1 (r + s - 1)).map f) (labels w) := rfl
      have e2 : ∀ v : LW →₀ ZMod 2, mapK (tensorOf (r + s - 1)) v =
          mapK (fun f : Nat → List Nat => (List.range' 1 (r + s - 1)).map f) (mapK labels v) := by
        intro v
        induction v using Finsupp.induction_linear with
        | zero => simp
        | add f g hf hg => simp only [map_add, hf, hg]
        | single w c => simp [ht]
      have hg : (tensorOf r w)[i - 1]? = some (labels w i) := by
        rw [tensorOf_getElem? _ (by omega), Nat.sub_add_cancel hi]
      rw [e2, mapK_labels_wcmp hm hi hs w k2 ((hw i).2 ⟨hi, hir⟩) (fun a ha => (h2 a).1 ha),
        atKd_eq _ _ _ _ _ hg, sg_two, one_smul, cat_bv_cat, sact_two]
      generalize pth (R := ZMod 2) k2 (labels w i) = v
      induction v using Finsupp.induction_linear with
      | zero => simp
      | add f g hf hg => simp only [map_add, hf, hg]
      | single u c => simp [map_sp hi hir hs]) (pth_onto (R := ZMod 2) h1 V)
  exact this

theorem callV_eq {R : Type} [CommRing R] (r : Nat) (d : Int) (c : Nat) (u : Surj →₀ R) (m : SKey) :
    callV R r d c u (bv R m) = atKd ldim d (fun a => lin (fun k => sact r k a) u) c m := by
  rw [atKd_lin]
  induction u using Finsupp.induction_linear with
  | zero => simp
  | add f g hf hg => simp only [map_add, LinearMap.add_apply, hf, hg]
  | single a b => simp [callV]

theorem callV_bv {R : Type} [CommRing R] (r : Nat) (d : Int) (c : Nat) (k : Surj) (v : SKey →₀ R) :
    callV R r d c (bv R k) v = atLd ldim d (sact r k) c v := by
  rw [callV, bil_bv]; rfl

theorem callV_cmpV {r s i c : Nat} {d1 d2 : Int} (hi : 1 ≤ i) (hir : i ≤ r) (hs : 1 ≤ s)
    {u v : Surj →₀ ZMod 2} (hu : u ∈ Finsupp.supported (ZMod 2) (ZMod 2) (OntoS r))
    (hv : v ∈ Finsupp.supported (ZMod 2) (ZMod 2) (OntoS s)) (w : SKey →₀ ZMod 2) :
    callV (ZMod 2) (r + s - 1) (d1 + d2) c (cmpV _ i s u v) w =
      callV _ s d2 (c + (i - 1)) v (callV _ r d1 c u w) := by
  have step : ∀ k1 ∈ OntoS r, ∀ k2 ∈ OntoS s, callV (ZMod 2) (r + s - 1) (d1 + d2) c (cmp i s k1 k2) w =
      callV _ s d2 (c + (i - 1)) (bv _ k2) (callV _ r d1 c (bv _ k1) w) := by
    intro k1 h1 k2 h2
    have : callV (ZMod 2) (r + s - 1) (d1 + d2) c (cmp i s k1 k2) =
        (callV _ s d2 (c + (i - 1)) (bv _ k2)).comp (callV _ r d1 c (bv _ k1)) := by
      apply lin_ext
      intro m
      rw [LinearMap.comp_apply, callV_eq, callV_eq, callV_bv]
      simp only [lin_single, one_smul]
      rw [atLd_atKd]
      · congr 1
        funext V
        exact sact_cmp hi hir hs h1 h2 d2 V
      · intro V
        refine Finsupp.supported_mono ?_ (sact_supported (R := ZMod 2) h1 V)
        intro m hm
        have := hm.1
        show i - 1 < m.length
        omega
    rw [this]
    rfl
  have := BElem.bil_ext_supported (R := ZMod 2)
    (f := (cmpV (ZMod 2) i s).compr₂ ((callV (ZMod 2) (r + s - 1) (d1 + d2) c).flip w))
    (g := ((callV (ZMod 2) s d2 (c + (i - 1))).flip.comp ((callV (ZMod 2) r d1 c).flip w)))
    (S := OntoS r) (T := OntoS s)
    (fun k1 h1 k2 h2 => by
      simp only [LinearMap.compr₂_apply, LinearMap.flip_apply, LinearMap.comp_apply]
      rw [cmpV, bil_bv, lin_single, one_smul]
      exact step k1 h1 k2 h2) hu hv
  simpa using this

end Comch.SurjElem

namespace Comch.Props
open Comch.Spec Elem SurjComp SurjElem
open Finsupp (single)

variable {x y : SurjElem} {c : SElem} {r s a i j : Nat} {d1 d2 e : Int}

/-- The keys of a value. -/
theorem call_keys (hx : InSurj r x) (hd : x.degree = some d1)
    (hcv : x.attrs.convention = .mcClureSmith) (hc : c.NF simplicial) (hcd : c.degree = some e)
    (hca : c.arity = some a) (ht : c.torsion = x.torsion) (h1 : 1 ≤ j) (h2 : j ≤ a) {z : SElem}
    (hz : callSimplicial x c j = .ok z) :
    ∀ p ∈ z.data, SElem.keyDegree p.1 = e + d1 ∧ p.1.length = a + r - 1 := by
  obtain ⟨z', ez, -, -, hk⟩ := C52_arity_degree hx hd hcv hc hcd hca ht h1 h2
  cases hz.symm.trans ez
  exact fun p hp => ⟨(hk p hp).2, by have := (hk p hp).1; omega⟩

/-- Modulo 2 the surjections act through their operad structure: acting with `x o_i y` on the `j`-th
factor is acting with `x` on it and then with `y` on the `i`-th of the new factors. -/
theorem C67_operad_action (hx : InSurj r x) (hy : InSurj s y) (hdx : x.degree = some d1)
    (hdy : y.degree = some d2) (hcx : x.attrs.convention = .mcClureSmith)
    (hcy : y.attrs.convention = .mcClureSmith) (hc : c.NF simplicial) (hcd : c.degree = some e)
    (hca : c.arity = some a) (tx : x.torsion = 2) (ty : y.torsion = 2) (tc : c.torsion = 2)
    (hi : 1 ≤ i ∧ i ≤ r) (hj : 1 ≤ j ∧ j ≤ a) :
    ∃ xy xc u v, compose x y i = .ok xy ∧ callSimplicial x c j = .ok xc ∧
      callSimplicial xy c j = .ok u ∧ callSimplicial y xc (j + i - 1) = .ok v ∧ pyEq u v = true := by
  have hk := homogeneous_keys hcd hca
  have hsx : ∀ p ∈ x.data, ((sdeg p.1 : Nat) : Int) = d1 := fun p hp => sdeg_of_degree hx hdx hp
  have hsy : ∀ p ∈ y.data, ((sdeg p.1 : Nat) : Int) = d2 := fun p hp => sdeg_of_degree hy hdy hp
  obtain ⟨q, hq⟩ := List.exists_mem_of_ne_nil y.data (by
    rw [SurjElem.degree, uniqueValue_eq_some] at hdy; simpa using hdy.1)
  have hs := one_le_of_mem hy hq
  obtain ⟨xy, e1, i1, a1, dxy⟩ := compose_ok' hx hy hi.1 hi.2 (Or.inl tx) tx
  obtain ⟨xy', e1', -, -, -, hdeg⟩ := C51_arity_degree hx hy hi.1 hi.2 (Or.inl tx)
  cases e1.symm.trans e1'
  have hsxy : ∀ p ∈ xy.data, ((sdeg p.1 : Nat) : Int) = d1 + d2 := fun p hp =>
    sdeg_of_degree i1 (hdeg d1 d2 hdx hdy (List.ne_nil_of_mem hp)) hp
  obtain ⟨xc, e2, n2, a2, dxc⟩ := call_ok hx hsx hcx hc hk tx tc hj.1 hj.2
  have hkx := call_keys hx hdx hcx hc hcd hca (tc.trans tx.symm) hj.1 hj.2 e2
  obtain ⟨u, e3, n3, a3, du⟩ := call_ok i1 hsxy (by rw [a1, hcx]) hc hk ((torsion_congr a1).trans tx) tc hj.1 hj.2
  obtain ⟨v, e4, n4, a4, dv⟩ := call_ok hy hsy hcy n2 hkx ty ((torsion_congr a2).trans tc)
    (coord := j + i - 1) (by omega) (by omega)
  refine ⟨xy, xc, u, v, e1, e2, e3, e4, pyEq_of_den n3 n4 ((torsion_congr a3).trans tc)
    ((torsion_congr a4).trans ((torsion_congr a2).trans tc)) ?_⟩
  have sX := den_supp_onto (R := ZMod 2) hx
  have sY := den_supp_onto (R := ZMod 2) hy
  rw [show j + i - 1 - 1 = j - 1 + (i - 1) by omega] at dv
  rw [du, dv, dxy, dxc, pr_callV_right sY, pr_callV_left (r := r + s - 1) (by omega)
    (cmpV_supp hi.1 hi.2 hs sX sY), callV_cmpV hi.1 hi.2 hs sX sY]

theorem callV_comm {R : Type} [CommRing R] {p q : Nat} (hpq : p < q) {u v : Surj →₀ R}
    (hu : u ∈ Finsupp.supported R R {k : Surj | k ∈ OntoS r ∧ ((sdeg k : Nat) : Int) = d1})
    (w : SKey →₀ R) :
    callV R s d2 (q - 1 + r) v (callV R r d1 p u w) =
      sg R (d1 * d2) • callV R r d1 p u (callV R s d2 q v w) := by
  have := BElem.bil_ext_supported (R := R)
    (f := ((callV R s d2 (q - 1 + r)).flip.comp ((callV R r d1 p).flip w)))
    (g := sg R (d1 * d2) • ((callV R r d1 p).compl₂ ((callV R s d2 q).flip w)))
    (S := {k : Surj | k ∈ OntoS r ∧ ((sdeg k : Nat) : Int) = d1}) (T := Set.univ)
    (fun k1 h1 k2 _ => by
      obtain ⟨h1, h2⟩ := h1
      simp only [LinearMap.comp_apply, LinearMap.flip_apply, LinearMap.smul_apply, LinearMap.compl₂_apply,
        callV_bv]
      have : (atLd ldim d2 (sact (R := R) s k2) (q - 1 + r)).comp (atLd ldim d1 (sact r k1) p) =
          sg R (d1 * d2) • (atLd ldim d1 (sact r k1) p).comp (atLd ldim d2 (sact s k2) q) := by
        apply lin_ext
        intro m
        simp only [LinearMap.comp_apply, LinearMap.smul_apply, atLd_single, one_smul]
        refine atLd_comm (fun V => ?_) p q hpq m
        refine Finsupp.supported_mono ?_ (sact_supported (R := R) h1 V)
        intro m hm
        refine ⟨hm.1, ?_⟩
        have h3 := hm.2
        have := length_of_onto h1
        rw [h3]
        omega
      exact LinearMap.congr_fun this w) hu (v := v) (by simp)
  simpa using this

/-- Acting on different factors commutes up to the Koszul sign: with `x` of arity `r`,
`y(x(c, p), q + r - 1) == (-1)^(deg x deg y) x(y(c, q), p)` for `p < q`. -/
theorem C68_interchange {p q : Nat} (hx : InSurj r x) (hy : InSurj s y) (hdx : x.degree = some d1)
    (hdy : y.degree = some d2) (hcx : x.attrs.convention = .mcClureSmith)
    (hcy : y.attrs.convention = .mcClureSmith) (hc : c.NF simplicial) (hcd : c.degree = some e)
    (hca : c.arity = some a) (tc : c.torsion = x.torsion) (ty : y.torsion = x.torsion)
    (hp : 1 ≤ p) (hpq : p < q) (hq : q ≤ a) :
    ∃ xc yc u v, callSimplicial x c p = .ok xc ∧ callSimplicial y c q = .ok yc ∧
      callSimplicial y xc (q + r - 1) = .ok u ∧ callSimplicial x yc p = .ok v ∧
      pyEq u (smul simplicial (pySign (d1 * d2)) v) = true := by
  have hk := homogeneous_keys hcd hca
  have hsx : ∀ p ∈ x.data, ((sdeg p.1 : Nat) : Int) = d1 := fun p hp => sdeg_of_degree hx hdx hp
  have hsy : ∀ p ∈ y.data, ((sdeg p.1 : Nat) : Int) = d2 := fun p hp => sdeg_of_degree hy hdy hp
  obtain ⟨t, htx⟩ := List.exists_mem_of_ne_nil x.data (by
    rw [SurjElem.degree, uniqueValue_eq_some] at hdx; simpa using hdx.1)
  have hr := one_le_of_mem hx htx
  obtain ⟨t', hty⟩ := List.exists_mem_of_ne_nil y.data (by
    rw [SurjElem.degree, uniqueValue_eq_some] at hdy; simpa using hdy.1)
  have hs := one_le_of_mem hy hty
  obtain ⟨xc, e1, n1, a1, dxc⟩ := call_ok hx hsx hcx hc hk rfl tc hp (by omega)
  have hkx := call_keys hx hdx hcx hc hcd hca tc hp (by omega) e1
  obtain ⟨yc, e2, n2, a2, dyc⟩ := call_ok hy hsy hcy hc hk ty tc (by omega) hq
  have hky := call_keys hy hdy hcy hc hcd hca (tc.trans ty.symm) (by omega) hq e2
  have t1 := (torsion_congr a1).trans tc
  have t2 := (torsion_congr a2).trans tc
  obtain ⟨u, e3, n3, a3, du⟩ := call_ok hy hsy hcy n1 hkx ty t1 (coord := q + r - 1) (by omega) (by omega)
  obtain ⟨v, e4, n4, a4, dv⟩ := call_ok hx hsx hcx n2 hky rfl t2 (coord := p) (by omega) (by omega)
  have t4 := (torsion_congr a4).trans t2
  refine ⟨xc, yc, u, v, e1, e2, e3, e4, pyEq_of_den n3 (nf_smul n4 _) ((torsion_congr a3).trans t1)
    (by rw [smul_torsion, t4]) ?_⟩
  have sX := den_supp_onto (R := ZMod x.torsion) hx
  have sY := den_supp_onto (R := ZMod x.torsion) hy
  rw [show q + r - 1 - 1 = q - 1 - 1 + r by omega] at du
  rw [den_smul n4 _ (by simp) (by rw [t4]; simp), du, dv, dxc, dyc, pr_callV_right sY, pr_callV_right sX,
    cast_pySign, ← map_smul, ← callV_comm (p := p - 1) (q := q - 1) (by omega)
      (den_supported (S := {k : Surj | k ∈ OntoS r ∧ ((sdeg k : Nat) : Int) = d1})
        fun p hp => ⟨hx.onto p hp, hsx p hp⟩)]

abbrev exM (n : Nat) (k : Surj) : SurjElem := Elem.new surjection [(k, 1)] (some n) .mcClureSmith

theorem exM_in : InSurj 2 (exM 2 [1, 2, 1]) ∧ InSurj 2 (exM 2 [2, 1, 2, 1]) ∧ InSurj 2 (exM 0 [1, 2, 1]) ∧
    InSurj 2 (exM 0 [2, 1, 2, 1]) := by
  refine ⟨SurjElem.inSurj_of_arity (nf_new _ (by decide) _ _) (by decide),
    SurjElem.inSurj_of_arity (nf_new _ (by decide) _ _) (by decide),
    SurjElem.inSurj_of_arity (nf_new _ (by decide) _ _) (by decide),
    SurjElem.inSurj_of_arity (nf_new _ (by decide) _ _) (by decide)⟩

abbrev exS2 : SElem := Elem.new simplicial [([[0, 1, 2], [0, 1, 2, 3]], 1)]

/-- The hypotheses of `C67` are met and the composite acts non-trivially. -/
example : (exM 2 [1, 2, 1]).degree = some 1 ∧ (exM 2 [2, 1, 2, 1]).degree = some 2 ∧
    ((SurjElem.compose (exM 2 [1, 2, 1]) (exM 2 [2, 1, 2, 1]) 1).toOption.bind fun xy =>
      (SurjElem.callSimplicial xy (Elem.new simplicial [([[7], [0, 1, 2, 3]], 1)] (some 2)) 2).toOption.map
        fun z => z.data.length) = some 14 := by
  refine ⟨by decide +kernel, by decide +kernel, by decide +kernel⟩

example : ∃ xy xc u v, SurjElem.compose (exM 2 [1, 2, 1]) (exM 2 [2, 1, 2, 1]) 1 = .ok xy ∧
      SurjElem.callSimplicial (exM 2 [1, 2, 1]) (Elem.new simplicial [([[7], [0, 1, 2, 3]], 1)] (some 2)) 2 = .ok xc ∧
      SurjElem.callSimplicial xy (Elem.new simplicial [([[7], [0, 1, 2, 3]], 1)] (some 2)) 2 = .ok u ∧
      SurjElem.callSimplicial (exM 2 [2, 1, 2, 1]) xc (2 + 1 - 1) = .ok v ∧ pyEq u v = true :=
  C67_operad_action (a := 2) (e := 3) (d1 := 1) (d2 := 2) exM_in.1 exM_in.2.1 (by decide +kernel)
    (by decide +kernel) rfl rfl (nf_new _ (by decide) _ _) (by decide +kernel) (by decide +kernel) rfl rfl rfl
    (by decide) (by decide)

example : ∃ xc yc u v, SurjElem.callSimplicial (exM 0 [1, 2, 1]) exS2 1 = .ok xc ∧
      SurjElem.callSimplicial (exM 0 [2, 1, 2, 1]) exS2 2 = .ok yc ∧
      SurjElem.callSimplicial (exM 0 [2, 1, 2, 1]) xc (2 + 2 - 1) = .ok u ∧
      SurjElem.callSimplicial (exM 0 [1, 2, 1]) yc 1 = .ok v ∧
      pyEq u (smul simplicial (pySign (1 * 2)) v) = true :=
  C68_interchange (a := 2) (e := 5) exM_in.2.2.1 exM_in.2.2.2 (by decide +kernel) (by decide +kernel) rfl rfl
    (nf_new _ (by decide) _ _) (by decide +kernel) (by decide +kernel) rfl rfl (by decide) (by decide) (by decide)

end Comch.Props
