import Verif.Props.BEMay
import Verif.Props.BECompose
import Verif.Props.SurjMay
import Verif.Props.SurjCompose
import Verif.Props.SurjAction

/-! # Both operads are acyclic: C82 -/

set_option linter.unusedSectionVars false

namespace Comch
namespace Acyclic
open Comch.Spec Elem BElem SurjElem SurjMay
open Finsupp (single)

variable {R : Type} [CommRing R] {K : Type} {r n : Nat}

/-- The sum of the coefficients. -/
noncomputable def aug : (K →₀ R) →ₗ[R] R := Finsupp.linearCombination R fun _ => (1 : R)

@[simp] theorem aug_single (k : K) (c : R) : aug (single k c) = c := by simp [aug]

theorem aug_den (d : List (K × Int)) : aug (den R d) = (((d.map Prod.snd).sum : Int) : R) := by
  induction d with
  | nil => simp
  | cons p d ih =>
    rw [show (p :: d) = [p] ++ d from rfl, den_append, map_add, ih]
    obtain ⟨k, c⟩ := p
    simp

theorem aug_mapK {K' : Type} (f : K → K') (v : K →₀ R) : aug (mapK f v) = aug v := by
  induction v using Finsupp.induction_linear with
  | zero => simp
  | add f g hf hg => simp only [map_add, hf, hg]
  | single k c => simp

/-- Every vector of kept keys is the denotation of an element. -/
theorem exists_elem [DecidableEq K] (C : Cls K) (n : Nat) (c : Convention) (v : K →₀ ZMod n) :
    ∃ y : Elem K, y.NF C ∧ y.attrs = { torsion := n, convention := c } ∧ den (ZMod n) y.data = pr C.drops v := by
  classical
  let f : K → Int := fun k => (ZMod.intCast_surjective (v k)).choose
  have hf : ∀ k, ((f k : Int) : ZMod n) = v k := fun k => (ZMod.intCast_surjective (v k)).choose_spec
  let d : List (K × Int) := v.support.toList.map fun k => (k, f k)
  have hd : Dict.KeysNodup d := by
    simp only [Dict.KeysNodup, d, List.map_map]
    rw [show (Prod.fst ∘ fun k => (k, f k)) = id from rfl, List.map_id]
    exact Finset.nodup_toList _
  refine ⟨Elem.new C d (some n) c, nf_new C hd _ _, by simp [Elem.new], ?_⟩
  rw [den_new _ _ _ _ (by simp)]
  congr 1
  rw [den_map]
  simp only [hf]
  conv_rhs => rw [← Finsupp.sum_single v]
  rw [Finsupp.sum]
  exact Finset.sum_map_toList _ _

theorem keys_of_den [DecidableEq K] {C : Cls K} {z : Elem K} {S : Set K} (hz : z.NF C) (hn : z.torsion = n)
    (h : den (ZMod n) z.data ∈ Finsupp.supported (ZMod n) (ZMod n) S) : ∀ p ∈ z.data, p.1 ∈ S := by
  intro p hp
  subst hn
  have := hz.mem_keys_iff.1 (List.mem_map_of_mem hp)
  exact (Finsupp.mem_supported _ _).1 h (Finsupp.mem_support_iff.2 this)

theorem intCast_zmod_eq_zero {a : Int} : ((a : Int) : ZMod n) = 0 ↔ (n : Int) ∣ a :=
  ZMod.intCast_zmod_eq_zero_iff_dvd a n

/-! ### Barratt-Eccles -/

theorem hasRep_singleton (a : Perm) : hasRep [a] = false := rfl

theorem pr_be_of_ne {v : BKey →₀ R} (hv : v ∈ Finsupp.supported R R {k : BKey | k ≠ []}) :
    pr barrattEccles.drops v = pr hasRep v := by
  refine lin_ext_supported (f := pr barrattEccles.drops) (g := pr hasRep) (fun k hk => ?_) hv
  rw [pr_single, pr_single, be_drops, decide_eq_false hk]
  rfl

theorem be_prepend {x : BElem} {d : Nat} (hr : 1 ≤ r) (hx : HomBE r d x)
    (h : pr hasRep (consV (pyRange 1 (r + 1)) (del (den (ZMod x.torsion) x.data))) = 0) :
    ∃ y, HomBE r (d + 1) y ∧ y.torsion = x.torsion ∧ pyEq y.boundary x = true := by
  have hxs : den (ZMod x.torsion) x.data ∈ Finsupp.supported (ZMod x.torsion) (ZMod x.torsion) (LKey r (d + 1)) :=
    den_supported fun p hp => ⟨hx.perm p hp, hx.len p hp⟩
  obtain ⟨y, ny, ay, dy⟩ := exists_elem barrattEccles x.torsion .bergerFresse
    (consV (pyRange 1 (r + 1)) (den (ZMod x.torsion) x.data))
  have ty : y.torsion = x.torsion := by show y.attrs.torsion = _; rw [ay]
  have hys : consV (pyRange 1 (r + 1)) (den (ZMod x.torsion) x.data) ∈
      Finsupp.supported (ZMod x.torsion) (ZMod x.torsion) (LKey r (d + 2)) := by
    refine mapK_supported (S := LKey r (d + 1)) (T := LKey r (d + 2)) _ (fun k hk => ⟨?_, ?_⟩) hxs
    · intro σ hσ
      rcases List.mem_cons.1 hσ with rfl | h
      · exact IsPerm.isPerm_id r
      · exact hk.1 σ h
    · rw [List.length_cons, hk.2]
  have hyk := keys_of_den ny ty (by rw [dy]; exact pr_supported hys)
  refine ⟨y, ⟨⟨ny, fun p hp => (hyk p hp).1⟩, fun p hp => (hyk p hp).2⟩, ty, ?_⟩
  refine pyEq_of_den (n := x.torsion) (nf_boundary y) hx.nf ((torsion_congr (boundary_attrs y)).trans ty) rfl ?_
  have hne : ∀ d, LKey r (d + 1) ⊆ {k : BKey | k ≠ []} := by
    rintro d k hk rfl
    simp [LKey] at hk
  have h2 : ∀ v : BKey →₀ ZMod x.torsion, v ∈ Finsupp.supported (ZMod x.torsion) (ZMod x.torsion) (LKey r (d + 2)) →
      del v ∈ Finsupp.supported (ZMod x.torsion) (ZMod x.torsion) {k : BKey | k ≠ []} := by
    intro v hv
    refine lin_supported _ (fun k hk => ?_) hv
    refine Finsupp.supported_mono (s := {m : BKey | m.length = k.length - 1}) ?_ (delK_length k)
    rintro m hm rfl
    have := hk.2
    simp only [Set.mem_setOf_eq, List.length_nil] at hm
    omega
  have h3 : pr hasRep (den (ZMod x.torsion) x.data) = den (ZMod x.torsion) x.data := by
    rw [← pr_be_of_ne (Finsupp.supported_mono (hne _) hxs)]
    exact hx.nf.pr_den
  rw [den_boundary y ty, dy, pr_be_of_ne (Finsupp.supported_mono (hne _) hys),
    pr_be_of_ne (h2 _ (pr_supported hys)), pr_hasRep_del_pr, del_consV, map_sub, h, h3, sub_zero]

theorem del_singletons {x : BElem} (hx : HomBE r 0 x) :
    del (den R x.data) = (aug (den R x.data)) • bv R [] := by
  refine lin_ext_supported (f := del) (g := (aug (R := R)).smulRight (bv R [])) (S := LKey r 1) ?_
    (den_supported fun p hp => ⟨hx.perm p hp, hx.len p hp⟩)
  intro k hk
  obtain ⟨a, rfl⟩ := List.length_eq_one_iff.1 hk.2
  rw [LinearMap.smulRight_apply, aug_single, one_smul, del_single, one_smul, delK, delK, map_zero, sub_zero]

theorem aug_del {v : BKey →₀ R} (hv : v ∈ Finsupp.supported R R (LKey r 2)) : aug (del v) = 0 := by
  refine lin_ext_supported (f := aug.comp del) (g := 0) ?_ hv
  intro k hk
  obtain ⟨a, b, rfl⟩ := List.length_eq_two.1 hk.2
  simp [delK]

/-! ### surjections -/

theorem sdel_nodup {k : List Nat} (h : k.Nodup) : sdel (R := R) k = 0 := by
  induction k with
  | nil => rfl
  | cons x t ih =>
    have := List.nodup_cons.1 h
    rw [sdel, if_neg this.1, ih this.2, List.count_eq_zero_of_not_mem this.1]
    simp

theorem hasRep_of_nodup {k : List Nat} (h : k.Nodup) : hasRep k = false := by
  induction k with
  | nil => rfl
  | cons x t ih =>
    rcases t with _ | ⟨y, t⟩
    · rfl
    · have := List.nodup_cons.1 h
      have hxy : x ≠ y := fun e => this.1 (by simp [e])
      simp [hasRep, hxy, ih this.2]

theorem nodup_of_sdeg {k : List Nat} (h : SurjComp.sdeg k = 0) : k.Nodup := by
  induction k with
  | nil => exact List.nodup_nil
  | cons x t ih =>
    rw [SurjComp.sdeg] at h
    by_cases hx : x ∈ t
    · simp [hx] at h
    · exact List.nodup_cons.2 ⟨hx, ih (by omega)⟩

theorem aug_sdel {k : List Nat} (h : SurjComp.sdeg k = 1) : aug (sdel (R := R) k) = 0 := by
  induction k with
  | nil => simp [sdel]
  | cons x t ih =>
    rw [SurjComp.sdeg] at h
    by_cases hx : x ∈ t
    · rw [if_pos hx] at h
      have hn := nodup_of_sdeg (k := t) (by omega)
      rw [sdel, if_pos hx, sdel_nodup hn, List.count_eq_one_of_mem hn hx]
      simp
    · rw [if_neg hx] at h
      rw [sdel, if_neg hx, List.count_eq_zero_of_not_mem hx]
      simp only [zero_ne_one, if_false, sub_zero]
      rw [show (consV x : (List Nat →₀ R) →ₗ[R] _) = mapK (x :: ·) from rfl, aug_mapK, ih (by omega)]

theorem nodup_of_OL {k : List Nat} (h : k ∈ OL r r) : k.Nodup := by
  refine nodup_of_sdeg ?_
  have h1 := SurjComp.sdeg_card k
  have h2 : k.toFinset = Finset.Icc 1 r := by
    ext v
    rw [List.mem_toFinset, h.1 v, Finset.mem_Icc]
  rw [h2, Nat.card_Icc, h.2] at h1
  omega

theorem sdeg_of_OL {k : List Nat} {m : Nat} (h : k ∈ OL r (r + m)) : SurjComp.sdeg k = m := by
  have h1 := SurjComp.sdeg_card k
  have h2 : k.toFinset = Finset.Icc 1 r := by
    ext v
    rw [List.mem_toFinset, h.1 v, Finset.mem_Icc]
  rw [h2, Nat.card_Icc, h.2] at h1
  omega

theorem convS_perm (c : Convention) {v : Surj →₀ R} (hv : v ∈ Finsupp.supported R R (OL r r)) : convS c v = v := by
  refine lin_ext_supported (f := convS c) (g := LinearMap.id) (fun k hk => ?_) hv
  have : convE c k = 0 := by
    cases c
    · rfl
    · exact invE_nodup (nodup_of_OL hk)
  simp [this]

theorem convS_supp {S : Set Surj} (c : Convention) {v : Surj →₀ R} (hv : v ∈ Finsupp.supported R R S) :
    convS c v ∈ Finsupp.supported R R S := by
  refine lin_supported _ (fun k hk => ?_) hv
  exact Submodule.smul_mem _ _ (Finsupp.single_mem_supported R _ hk)

theorem den_OL {x : SurjElem} {d : Nat} (hx : InSurj r x) (hd : x.degree = some (d : Int)) :
    den R x.data ∈ Finsupp.supported R R (OL r (r + d)) := by
  refine den_supported fun p hp => ⟨hx.onto p hp, ?_⟩
  have h := sdeg_of_degree hx hd hp
  have h1 := SurjComp.sdeg_card p.1
  have h2 : p.1.toFinset = Finset.Icc 1 r := by
    ext v
    rw [List.mem_toFinset, hx.onto p hp v, Finset.mem_Icc]
  rw [h2, Nat.card_Icc] at h1
  omega

theorem surj_contract {x : SurjElem} {d : Nat} (hr : 1 ≤ r) (hx : InSurj r x) (hd : x.degree = some (d : Int))
    (h : pr hasRep (hV (r - 1) (sdelL (convS x.attrs.convention (den (ZMod x.torsion) x.data)))) = 0)
    (he : pr hasRep (eV (r - 1) (convS x.attrs.convention (den (ZMod x.torsion) x.data))) = 0) :
    ∃ y, InSurj r y ∧ y.degree = some ((d : Int) + 1) ∧ y.attrs = x.attrs ∧ pyEq y.boundary x = true := by
  set c := x.attrs.convention with hc
  set v := convS c (den (ZMod x.torsion) x.data) with hv
  have hxs := den_OL (R := ZMod x.torsion) hx hd
  have hvs : v ∈ Finsupp.supported (ZMod x.torsion) (ZMod x.torsion) (OL r (r + d)) := convS_supp c hxs
  have hvO := Finsupp.supported_mono (R := ZMod x.torsion) (M := ZMod x.torsion) OL_sub hvs
  have hws := Finsupp.supported_mono (R := ZMod x.torsion) (M := ZMod x.torsion) O1_sub
    (hV_supp (r - 1) (by omega) hvs)
  have hwO := Finsupp.supported_mono (R := ZMod x.torsion) (M := ZMod x.torsion) OL_sub hws
  obtain ⟨y, ny, ay, dy⟩ := exists_elem surjection x.torsion c (convS c (hV (r - 1) v))
  have ty : y.torsion = x.torsion := by show y.attrs.torsion = _; rw [ay]
  have hyk := keys_of_den ny ty (by rw [dy]; exact pr_supported (convS_supp c hws))
  have iy : InSurj r y := ⟨ny, fun p hp => (hyk p hp).1⟩
  have hyx : pyEq (SurjElem.boundary y) x = true := by
    refine pyEq_of_den (n := x.torsion) (SurjElem.nf_boundary y) hx.nf
      ((torsion_congr (SurjElem.boundary_attrs y)).trans ty) rfl ?_
    have h3 : pr hasRep v = v := by
      rw [← pr_drops_of_OK hr hvO, hv, pr_convS, hx.nf.pr_den]
    have cy : y.attrs.convention = c := by rw [ay]
    rw [SurjElem.den_boundary ny ty, cy, dy, pr_convS, sbd, LinearMap.comp_apply, LinearMap.comp_apply,
      convS_convS, pr_convS, pr_drops_of_OK hr hwO, pr_drops_of_OK hr (SurjMay.sdelL_supp (pr_supported hwO)), pr_sdelL_pr,
      hV_homotopy (r - 1) (by omega) hvO]
    simp only [map_sub, h, he, h3, map_zero, sub_zero]
    rw [hv, convS_convS]
  refine ⟨y, iy, ?_, by rw [ay], hyx⟩
  have hne : y.data ≠ [] := by
    intro h0
    have hb : (SurjElem.boundary y).data = [] := by
      have := SurjElem.den_boundary ny ty
      rw [h0, den_nil] at this
      simp only [map_zero] at this
      rw [(SurjElem.nf_boundary y).data_eq_nil_iff, (torsion_congr (SurjElem.boundary_attrs y)).trans ty, this]
    have := (pyEq_iff_den (SurjElem.nf_boundary y) hx.nf ((torsion_congr (SurjElem.boundary_attrs y)).trans ty)).1 hyx
    rw [hb, den_nil, (torsion_congr (SurjElem.boundary_attrs y)).trans ty] at this
    have hx0 : x.data = [] := by rw [hx.nf.data_eq_nil_iff, this]
    rw [SurjElem.degree, hx0] at hd
    simp [uniqueValue] at hd
  rw [SurjElem.degree, uniqueValue_eq_some]
  refine ⟨by simpa using hne, ?_⟩
  intro b hb
  obtain ⟨p, hp, rfl⟩ := List.mem_map.1 hb
  have := (hyk p hp).2
  rw [keyDegree, pyMax_of_onto (hyk p hp).1, this]
  push_cast
  omega

end Acyclic

namespace Props
open Comch.Spec Elem BElem Acyclic

variable {r d : Nat}

/-- Every cycle of positive degree of the Barratt-Eccles operad is a boundary. -/
theorem C82_be_acyclic {x : BElem} (hr : 1 ≤ r) (hd : 1 ≤ d) (hx : HomBE r d x) (hc : x.boundary.data = []) :
    ∃ y, HomBE r (d + 1) y ∧ y.torsion = x.torsion ∧ pyEq y.boundary x = true := by
  refine be_prepend hr hx ?_
  have hxs : den (ZMod x.torsion) x.data ∈ Finsupp.supported (ZMod x.torsion) (ZMod x.torsion) (LKey r (d + 1)) :=
    den_supported fun p hp => ⟨hx.perm p hp, hx.len p hp⟩
  have h2 : del (den (ZMod x.torsion) x.data) ∈
      Finsupp.supported (ZMod x.torsion) (ZMod x.torsion) {k : BKey | k ≠ []} := by
    refine lin_supported _ (fun k hk => ?_) hxs
    refine Finsupp.supported_mono (s := {m : BKey | m.length = k.length - 1}) ?_ (delK_length k)
    rintro m hm rfl
    have := hk.2
    simp only [Set.mem_setOf_eq, List.length_nil] at hm
    omega
  have h0 := BElem.den_boundary x rfl
  rw [hc, den_nil, pr_be_of_ne h2] at h0
  rw [← pr_hasRep_consV_pr, ← h0]
  simp

/-- In degree zero exactly the elements with coefficients summing to zero are boundaries. -/
theorem C82_be_degree_zero {x : BElem} (hr : 1 ≤ r) (hx : HomBE r 0 x) :
    (∃ y, HomBE r 1 y ∧ y.torsion = x.torsion ∧ pyEq y.boundary x = true) ↔
      (x.torsion : Int) ∣ (x.data.map Prod.snd).sum := by
  rw [← intCast_zmod_eq_zero, ← aug_den]
  constructor
  · rintro ⟨y, hy, ty, h⟩
    have tb : (boundary y).torsion = x.torsion := (torsion_congr (BElem.boundary_attrs y)).trans ty
    have := (pyEq_iff_den (BElem.nf_boundary y) hx.nf tb).1 h
    rw [tb, BElem.den_boundary y ty] at this
    have hys : den (ZMod x.torsion) y.data ∈ Finsupp.supported (ZMod x.torsion) (ZMod x.torsion) (LKey r 2) :=
      den_supported fun p hp => ⟨hy.perm p hp, hy.len p hp⟩
    rw [← this, ← aug_del hys]
    refine lin_ext_supported (f := aug.comp (pr barrattEccles.drops)) (g := aug)
      (S := {k : BKey | k.length = 1}) ?_ ?_
    · intro k hk
      obtain ⟨a, rfl⟩ := List.length_eq_one_iff.1 hk
      have : barrattEccles.drops [a] = false := by rw [be_drops]; rfl
      simp [this]
    · refine lin_supported _ (fun k hk => ?_) hys
      refine Finsupp.supported_mono (s := {m : BKey | m.length = k.length - 1}) ?_ (delK_length k)
      intro m hm
      have := hk.2
      simp only [Set.mem_setOf_eq] at hm ⊢
      omega
  · intro h
    refine be_prepend hr hx ?_
    rw [del_singletons hx, h]
    simp

/-- Every cycle of positive degree of the surjection operad is a boundary, in both conventions. -/
theorem C82_surj_acyclic {x : SurjElem} (hd : 1 ≤ d) (hx : InSurj r x)
    (hxd : x.degree = some (d : Int)) (hc : x.boundary.data = []) :
    ∃ y, InSurj r y ∧ y.degree = some ((d : Int) + 1) ∧ y.attrs = x.attrs ∧ pyEq y.boundary x = true := by
  have hr : 1 ≤ r := by
    have hxn : x.data ≠ [] := by
      rw [SurjElem.degree, uniqueValue_eq_some] at hxd
      simpa using hxd.1
    obtain ⟨p0, hp0⟩ := List.exists_mem_of_ne_nil _ hxn
    exact SurjElem.one_le_of_mem hx hp0
  have hvs := convS_supp x.attrs.convention (den_OL (R := ZMod x.torsion) hx hxd)
  have hvO := Finsupp.supported_mono (R := ZMod x.torsion) (M := ZMod x.torsion) SurjMay.OL_sub hvs
  refine surj_contract hr hx hxd ?_ ?_
  · have h0 := SurjElem.den_boundary hx.nf (rfl : x.torsion = x.torsion)
    rw [hc, den_nil, sbd, LinearMap.comp_apply, LinearMap.comp_apply, pr_convS,
      SurjMay.pr_drops_of_OK hr (SurjMay.sdelL_supp hvO)] at h0
    have h1 := congrArg (convS x.attrs.convention) h0
    rw [convS_convS, map_zero] at h1
    rw [← SurjMay.pr_hV_pr, ← h1]
    simp
  · obtain ⟨m, rfl⟩ : ∃ m, r = m + 1 := ⟨r - 1, by omega⟩
    obtain ⟨e, rfl⟩ : ∃ e, d = e + 1 := ⟨d - 1, by omega⟩
    refine SurjMay.eV_degenerate m (n := e) ?_
    rw [show m + 2 + e = m + 1 + (e + 1) by omega]
    exact hvs

/-- In degree zero exactly the elements with coefficients summing to zero are boundaries. -/
theorem C82_surj_degree_zero {x : SurjElem} (hx : InSurj r x) (hxd : x.degree = some 0) :
    (∃ y, InSurj r y ∧ y.degree = some 1 ∧ y.attrs = x.attrs ∧ pyEq y.boundary x = true) ↔
      (x.torsion : Int) ∣ (x.data.map Prod.snd).sum := by
  have hr : 1 ≤ r := by
    have hxn : x.data ≠ [] := by
      rw [SurjElem.degree, uniqueValue_eq_some] at hxd
      simpa using hxd.1
    obtain ⟨p0, hp0⟩ := List.exists_mem_of_ne_nil _ hxn
    exact SurjElem.one_le_of_mem hx hp0
  have hxs : den (ZMod x.torsion) x.data ∈ Finsupp.supported (ZMod x.torsion) (ZMod x.torsion) (SurjMay.OL r r) :=
    den_OL (d := 0) hx hxd
  rw [← intCast_zmod_eq_zero, ← aug_den]
  constructor
  · rintro ⟨y, hy, hyd, ay, h⟩
    have ty : y.torsion = x.torsion := torsion_congr ay
    have tb : (SurjElem.boundary y).torsion = x.torsion := (torsion_congr (SurjElem.boundary_attrs y)).trans ty
    have h1 := (pyEq_iff_den (SurjElem.nf_boundary y) hx.nf tb).1 h
    have hvs := convS_supp y.attrs.convention (den_OL (R := ZMod x.torsion) (d := 1) hy hyd)
    have hvO := Finsupp.supported_mono (R := ZMod x.torsion) (M := ZMod x.torsion) SurjMay.OL_sub hvs
    have hds : sdelL (convS y.attrs.convention (den (ZMod x.torsion) y.data)) ∈
        Finsupp.supported (ZMod x.torsion) (ZMod x.torsion) (SurjMay.OL r r) := by
      refine lin_supported _ (fun k hk => ?_) hvs
      have h2 := SurjComp.sdel_supported_length (R := ZMod x.torsion) k
      have h3 := sdel_supported (R := ZMod x.torsion) k
      rw [Finsupp.mem_supported] at h2 h3 ⊢
      intro m hm
      have h4 : m.length + 1 = k.length := h2 hm
      exact ⟨fun v => (h3 hm v).trans (hk.1 v), by have := hk.2; omega⟩
    rw [tb, SurjElem.den_boundary hy.nf ty, sbd, LinearMap.comp_apply, LinearMap.comp_apply, convS_perm _ hds,
      SurjMay.pr_drops_of_OK hr (Finsupp.supported_mono (R := ZMod x.torsion) (M := ZMod x.torsion)
        SurjMay.OL_sub hds)] at h1
    have h2 : pr hasRep (sdelL (convS y.attrs.convention (den (ZMod x.torsion) y.data))) =
        sdelL (convS y.attrs.convention (den (ZMod x.torsion) y.data)) := by
      refine lin_ext_supported (f := pr hasRep) (g := LinearMap.id) (fun k hk => ?_) hds
      have : hasRep k = false := hasRep_of_nodup (nodup_of_OL hk)
      simp [this]
    rw [← h1, h2]
    refine lin_ext_supported (f := aug.comp sdelL) (g := 0) (fun k hk => ?_) hvs
    have : SurjComp.sdeg k = 1 := sdeg_of_OL hk
    simpa using aug_sdel this
  · intro h
    refine surj_contract (d := 0) hr hx hxd ?_ ?_
    · have : sdelL (convS x.attrs.convention (den (ZMod x.torsion) x.data)) = 0 := by
        rw [convS_perm _ hxs]
        refine lin_ext_supported (f := sdelL) (g := 0) (fun k hk => ?_) hxs
        simpa using sdel_nodup (nodup_of_OL hk)
      rw [this]
      simp
    · rw [convS_perm _ hxs]
      obtain ⟨m, rfl⟩ : ∃ m, r = m + 1 := ⟨r - 1, by omega⟩
      obtain ⟨u, hu⟩ := SurjMay.eV_perm (R := ZMod x.torsion) m
      have : SurjMay.eV m (den (ZMod x.torsion) x.data) = aug (den (ZMod x.torsion) x.data) • u := by
        refine lin_ext_supported (f := SurjMay.eV m) (g := (aug (R := ZMod x.torsion)).smulRight u) (fun k hk => ?_) hxs
        rw [LinearMap.smulRight_apply, aug_single, one_smul]
        exact hu k hk.1 (nodup_of_OL hk)
      rw [Nat.add_sub_cancel, this, h]
      simp

/-- A cycle of degree one which is not visibly a boundary. -/
example : InSurj 3 (Elem.new surjection [([1, 2, 1, 3], 1), ([2, 1, 2, 3], 1)]) ∧
    (SurjElem.boundary (Elem.new surjection [([1, 2, 1, 3], 1), ([2, 1, 2, 3], 1)])).data = [] ∧
    SurjElem.degree (Elem.new surjection [([1, 2, 1, 3], 1), ([2, 1, 2, 3], 1)]) = some 1 :=
  ⟨SurjElem.inSurj_of_arity (nf_new _ (by decide) _ _) (by decide), by decide +kernel, by decide +kernel⟩

example : HomBE 2 1 (Elem.new barrattEccles [([[1, 2], [2, 1]], 1), ([[2, 1], [1, 2]], 1)]) ∧
    (BElem.boundary (Elem.new barrattEccles [([[1, 2], [2, 1]], 1), ([[2, 1], [1, 2]], 1)])).data = [] :=
  ⟨⟨⟨nf_new _ (by decide) _ _, by decide +kernel⟩, by decide +kernel⟩, by decide +kernel⟩

end Props
end Comch
