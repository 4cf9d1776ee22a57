import Verif.Lib.SurjComposeCode
import Verif.Props.Surjection
import Verif.Lib.BEMay

/-! # C50, C51: operadic composition of surjections -/

set_option linter.unusedSectionVars false

namespace Comch.SurjElem
open Elem Spec SurjComp
open Finsupp (single)

variable {r s i : Nat} {x y : SurjElem}

/-- The signs of `compose` are implemented. -/
def SignsOK (x : SurjElem) : Prop := x.torsion = 2 ∨ x.attrs.convention = .bergerFresse

/-- Composition as a bilinear map. -/
noncomputable def cmpV (R : Type) [CommRing R] (i s : Nat) :
    (Surj →₀ R) →ₗ[R] (Surj →₀ R) →ₗ[R] (Surj →₀ R) := bil (cmp i s)

theorem rng_of_onto {k : Surj} (h : ∀ v, v ∈ k ↔ 1 ≤ v ∧ v ≤ s) : Rng s k := fun v hv => (h v).1 hv

theorem onto_ne_nil {x : SurjElem} (hx : x.NF surjection) {p : Surj × Int} (hp : p ∈ x.data) : p.1 ≠ [] :=
  (surj_kept_iff.1 (hx.kept p hp)).1

theorem one_le_of_mem (hx : InSurj r x) {p : Surj × Int} (hp : p ∈ x.data) : 1 ≤ r := by
  obtain ⟨v, hv⟩ := List.exists_mem_of_ne_nil _ (onto_ne_nil hx.nf hp)
  have := (hx.onto p hp v).1 hv
  omega

/-- The list of events of one pair of items. -/
def splitEvents (i s : Nat) (t : Nat) (k1 : Surj) (v1 : Int) (k2 : Surj) (v2 : Int) : List (Surj × Int) :=
  (combinationsWithReplacement (List.range k2.length) (k1.count i - 1)).map fun p =>
    (spl i s k1 ((cuts k2 (0 :: (p ++ [k2.length - 1]))).map (List.map (up i))),
      v1 * v2 * if t = 2 then 1 else
        (-1) ^ dot (ccs k2 (0 :: (p ++ [k2.length - 1]))) (degs i k1))

theorem composeEvents_eq (hs : SignsOK x) {k1 k2 : Surj} (h1 : i ∈ k1) (v1 v2 : Int) :
    composeEvents x.torsion x.attrs.convention (some s) i k1 v1 k2 v2 =
      .ok (splitEvents i s x.torsion k1 v1 k2 v2) := by
  unfold composeEvents
  have hpos : ((enumerate k1).filter fun p => p.2 == i).map Prod.fst = positions k1 i := rfl
  have hl := positions_length k1 i
  have hc := List.count_pos_iff.2 h1
  simp only [hpos]
  rw [if_neg (by rw [← List.length_eq_zero_iff]; omega), hl]
  apply mapM_ok
  intro p hp
  have hpl := length_of_mem_cwr hp
  have hcut : List.map (fun part => List.map (fun j => j + i - 1) part)
      ((pairwise ([0] ++ p ++ [k2.length - 1])).map fun x => slice k2 x.1 (x.2 + 1)) =
      (cuts k2 (0 :: (p ++ [k2.length - 1]))).map (List.map (up i)) := rfl
  rw [hcut, spliceLoop_eq _ _ (by
    simp only [List.length_map, cuts, pairwise, List.length_zip, List.length_tail, List.length_cons,
      List.length_append]
    simp; omega)]
  have hb := bfSign_eq (i := i) k1 k2 (0 :: (p ++ [k2.length - 1])) (by simp; omega)
  rcases hs with ht | hcv
  · simp only [ht, if_true]
    rfl
  · by_cases ht : x.torsion = 2
    · simp only [ht, if_true]
      rfl
    · simp only [if_neg ht, hcv]
      rw [show ([0] ++ p ++ [k2.length - 1]) = 0 :: (p ++ [k2.length - 1]) from rfl, hb]
      rfl

theorem den_splitEvents {t : Nat} {k1 k2 : Surj} (h1 : i ∈ k1) (h2 : k2 ≠ []) (v1 v2 : Int) :
    den (ZMod t) (splitEvents i s t k1 v1 k2 v2) = ((v1 * v2 : Int) : ZMod t) • cmp i s k1 k2 := by
  unfold splitEvents
  rw [den_map, ← sum_splittings k1 k2 h1 h2, List.smul_sum, List.map_map]
  congr 1
  apply List.map_congr_left
  intro p _
  simp only [Function.comp, smul_smul]
  rw [Finsupp.smul_single, smul_eq_mul, mul_one]
  congr 1
  split
  · rename_i h
    subst h
    have : (-1 : ZMod 2) = 1 := by decide
    simp [this]
  · push_cast; ring

theorem splitEvents_term (hi : 1 ≤ i) (hs : 1 ≤ s) {t : Nat} {k1 k2 : Surj} (h1 : i ∈ k1) (h2 : k2 ≠ [])
    (hk : Rng s k2) : cmp (R := ZMod t) i s k1 k2 ∈ Finsupp.supported (ZMod t) (ZMod t)
      {m | Term i s k1 k2 m} := cmp_supported hi k1 k2 hk hs

theorem term_onto (h1i : 1 ≤ i) (hir : i ≤ r) (hs : 1 ≤ s) {k1 k2 m : Surj}
    (h1 : ∀ v, v ∈ k1 ↔ 1 ≤ v ∧ v ≤ r) (h2 : ∀ v, v ∈ k2 ↔ 1 ≤ v ∧ v ≤ s) (h : Term i s k1 k2 m) :
    ∀ v, v ∈ m ↔ 1 ≤ v ∧ v ≤ r + s - 1 := by
  have hik : i ∈ k1 := (h1 i).2 ⟨h1i, hir⟩
  intro v
  constructor
  · intro hv
    rcases h.vals v hv with ⟨j, hj, hne, rfl⟩ | ⟨_, a, ha, rfl⟩
    · have := (h1 j).1 hj
      unfold sh
      split <;> omega
    · have := (h2 a).1 ha
      unfold up
      omega
  · rintro ⟨hv1, hv2⟩
    by_cases c1 : v < i
    · have := h.outer v (by omega)
      rw [sh, if_pos c1] at this
      have hm := List.count_pos_iff.2 ((h1 v).2 ⟨hv1, by omega⟩)
      exact List.count_pos_iff.1 (by omega)
    · by_cases c2 : v < i + s
      · have := h.inner hik (v + 1 - i) ⟨by omega, by omega⟩
        have e : up i (v + 1 - i) = v := by unfold up; omega
        rw [e] at this
        have hm := List.count_pos_iff.2 ((h2 (v + 1 - i)).2 ⟨by omega, by omega⟩)
        exact List.count_pos_iff.1 (by omega)
      · have := h.outer (v + 1 - s) (by omega)
        have e : sh i s (v + 1 - s) = v := by
          unfold sh; rw [if_neg (by omega)]; omega
        rw [e] at this
        have hm := List.count_pos_iff.2 ((h1 (v + 1 - s)).2 ⟨by omega, by omega⟩)
        exact List.count_pos_iff.1 (by omega)

/-- `compose` does not raise for elements of the operad; its value. -/
theorem compose_ok (hx : InSurj r x) (hy : InSurj s y) (h1 : 1 ≤ i) (h2 : i ≤ r) (hsg : SignsOK x)
    {n : Nat} (hn : x.torsion = n) :
    ∃ z, compose x y i = .ok z ∧ z.NF surjection ∧ z.attrs = x.attrs ∧
      den (ZMod n) z.data = pr surjection.drops (cmpV _ i s (den _ x.data) (den _ y.data)) := by
  have hik : ∀ p ∈ x.data, i ∈ p.1 := fun p hp => (hx.onto p hp i).2 ⟨h1, h2⟩
  have hm : (pyProduct x.data y.data).mapM (fun pq : (Surj × Int) × (Surj × Int) =>
      composeEvents x.torsion x.attrs.convention y.arity i pq.1.1 pq.1.2 pq.2.1 pq.2.2) =
      .ok ((pyProduct x.data y.data).map fun pq =>
        splitEvents i s x.torsion pq.1.1 pq.1.2 pq.2.1 pq.2.2) := by
    apply mapM_ok
    intro pq hpq
    rw [mem_pyProduct] at hpq
    have hyn : y.data ≠ [] := List.ne_nil_of_mem hpq.2
    rw [arity_eq hy hyn]
    exact composeEvents_eq hsg (hik _ hpq.1) _ _
  unfold compose
  simp only [bind] at hm ⊢
  rw [hm]
  refine ⟨_, rfl, nf_accumulate_zero _ _ _, by simp, ?_⟩
  rw [den_accumulate_zero' _ _ _ rfl hn, ← List.flatMap_def]
  congr 1
  apply den_bil_events
  intro p hp q hq
  subst hn
  exact den_splitEvents (hik p hp) (onto_ne_nil hy.nf hq) _ _

theorem den_supp_onto {R : Type} [CommRing R] (hx : InSurj r x) :
    den R x.data ∈ Finsupp.supported R R {k : Surj | ∀ v, v ∈ k ↔ 1 ≤ v ∧ v ≤ r} := by
  refine den_induction (P := fun w => w ∈ Finsupp.supported R R {k : Surj | ∀ v, v ∈ k ↔ 1 ≤ v ∧ v ≤ r})
    x.data (Submodule.zero_mem _) (fun u v => Submodule.add_mem _) ?_
  intro p hp
  exact Finsupp.single_mem_supported R _ (hx.onto p hp)

/-- The boundary as a vector, when signs are those of Berger and Fresse or do not matter. -/
theorem den_boundary_bf (hx : x.NF surjection) (hsg : SignsOK x) {n : Nat} (hn : x.torsion = n) :
    den (ZMod n) x.boundary.data = pr surjection.drops (sdelL (den _ x.data)) := by
  rw [den_boundary hx hn]
  congr 1
  rcases hsg with h | h
  · have h2 : n = 2 := by omega
    subst h2
    have : (sbd x.attrs.convention : (List Nat →₀ ZMod 2) →ₗ[ZMod 2] _) = sbd .bergerFresse := by
      apply lin_ext
      intro k
      rw [sbd_mod_two, sbd_mod_two]
    rw [this]
    simp [sbd, convS_bf]
  · rw [h]
    simp [sbd, convS_bf]

/-- Vectors of surjections onto `1..r`. -/
def OntoS (r : Nat) : Set Surj := {k | ∀ v, v ∈ k ↔ 1 ≤ v ∧ v ≤ r}

section
variable {R : Type} [CommRing R]

theorem hasRep_of_drops (hr : 1 ≤ r) {k : Surj} (hk : k ∈ OntoS r) (h : surjection.drops k = true) :
    hasRep k = true := by
  by_contra h'
  have : surjection.drops k = false := by
    rw [surj_kept_iff]
    have hk : ∀ v, v ∈ k ↔ 1 ≤ v ∧ v ≤ r := hk
    refine ⟨?_, ?_, by simpa using h'⟩
    · rintro rfl
      have := (hk 1).2 ⟨le_rfl, hr⟩
      simp at this
    · rw [pyMax_of_onto hk]; exact hk
  rw [h] at this
  cases this

theorem pr_cmpV_left (hr : 1 ≤ r) {u : Surj →₀ R} (hu : u ∈ Finsupp.supported R R (OntoS r)) (v : Surj →₀ R) :
    pr surjection.drops (cmpV R i s (pr surjection.drops u) v) = pr surjection.drops (cmpV R i s u v) := by
  refine BElem.lin_ext_supported (f := (pr surjection.drops).comp (((cmpV R i s).flip v).comp (pr surjection.drops)))
    (g := (pr surjection.drops).comp ((cmpV R i s).flip v)) (S := OntoS r) ?_ hu
  intro k hk
  simp only [LinearMap.comp_apply, LinearMap.flip_apply, pr_single]
  split
  · rename_i h
    rw [map_zero, LinearMap.zero_apply, map_zero]
    symm
    have h2 := hasRep_of_drops hr hk h
    have := lin_ext (f := (pr surjection.drops).comp (cmpV R i s (bv R k))) (g := 0) (fun k2 => by
      simp only [LinearMap.comp_apply, cmpV, bil_single, one_mul, one_smul, LinearMap.zero_apply]
      rw [pr_surj_eq, pr_cmp_left _ _ h2, map_zero])
    exact DFunLike.congr_fun this v
  · rfl

theorem pr_cmpV_right (h1 : 1 ≤ i) (h2 : i ≤ r) (hs : 1 ≤ s) {u v : Surj →₀ R}
    (hu : u ∈ Finsupp.supported R R (OntoS r)) (hv : v ∈ Finsupp.supported R R (OntoS s)) :
    pr surjection.drops (cmpV R i s u (pr surjection.drops v)) = pr surjection.drops (cmpV R i s u v) := by
  refine BElem.lin_ext_supported (f := (pr surjection.drops).comp ((cmpV R i s).flip (pr surjection.drops v)))
    (g := (pr surjection.drops).comp ((cmpV R i s).flip v)) (S := OntoS r) ?_ hu
  intro k1 hk1
  refine BElem.lin_ext_supported
    (f := (pr surjection.drops).comp ((cmpV R i s (single k1 1)).comp (pr surjection.drops)))
    (g := (pr surjection.drops).comp (cmpV R i s (single k1 1))) (S := OntoS s) ?_ hv
  intro k2 hk2
  simp only [LinearMap.comp_apply, pr_single]
  split
  · rename_i h
    rw [map_zero, map_zero]
    symm
    have h3 := hasRep_of_drops hs hk2 h
    simp only [cmpV, bil_single, one_mul, one_smul]
    rw [pr_surj_eq, pr_cmp_right _ _ ((hk1 i).2 ⟨h1, h2⟩) h3, map_zero]
  · rfl

theorem sdelL_supp {u : Surj →₀ R} (hu : u ∈ Finsupp.supported R R (OntoS r)) :
    sdelL u ∈ Finsupp.supported R R (OntoS r) := by
  refine lin_supported _ (fun k hk => ?_) hu
  exact Finsupp.supported_mono (s := {m | SameVals k m}) (t := OntoS r)
    (fun m (hm : SameVals k m) v => by rw [hm v]; exact hk v) (sdel_supported (R := R) k)

/-- The Leibniz rule for vectors. -/
theorem leibnizV (h1 : 1 ≤ i) (h2 : i ≤ r) (hs : 1 ≤ s) (d : Nat) {u v : Surj →₀ R}
    (hu : u ∈ Finsupp.supported R R {k | k ∈ OntoS r ∧ sdeg k = d})
    (hv : v ∈ Finsupp.supported R R (OntoS s)) :
    sdelL (cmpV R i s u v) = cmpV R i s (sdelL u) v + (-1 : R) ^ d • cmpV R i s u (sdelL v) := by
  refine BElem.lin_ext_supported (f := sdelL.comp ((cmpV R i s).flip v))
    (g := ((cmpV R i s).flip v).comp sdelL + (-1 : R) ^ d • (cmpV R i s).flip (sdelL v))
    (S := {k | k ∈ OntoS r ∧ sdeg k = d}) ?_ hu
  rintro k1 ⟨hk1, hd⟩
  refine BElem.lin_ext_supported (f := sdelL.comp (cmpV R i s (single k1 1)))
    (g := cmpV R i s (sdelL (single k1 1)) + (-1 : R) ^ d • (cmpV R i s (single k1 1)).comp sdelL)
    (S := OntoS s) ?_ hv
  intro k2 hk2
  have hk1 : ∀ v, v ∈ k1 ↔ 1 ≤ v ∧ v ≤ r := hk1
  have hk2 : ∀ v, v ∈ k2 ↔ 1 ≤ v ∧ v ≤ s := hk2
  have hne : k2 ≠ [] := by
    rintro rfl
    have := (hk2 1).2 ⟨le_rfl, hs⟩
    simp at this
  have := leibniz (R := R) h1 hs k1 k2 (rng_of_onto hk2) ((hk1 i).2 ⟨h1, h2⟩) hne
  simp only [LinearMap.add_apply, LinearMap.comp_apply, LinearMap.smul_apply, sdelL_single, one_smul]
  rw [← hd]
  have e1 : ∀ w, cmpV R i s w (bv R k2) = cmpL i s k2 w := fun w => by
    induction w using Finsupp.induction_linear with
    | zero => simp
    | add f g hf hg => simp only [map_add, LinearMap.add_apply, hf, hg]
    | single k c => simp [cmpV]
  have e2 : ∀ w, cmpV R i s (bv R k1) w = cmpR i s k1 w := fun w => by
    rw [cmpV, bil_bv]; rfl
  rw [e1, e1, e2, cmpL_single, one_smul]
  exact this

end

theorem sdeg_of_degree (hx : InSurj r x) {d : Int} (hd : x.degree = some d) {p : Surj × Int}
    (hp : p ∈ x.data) : ((sdeg p.1 : Nat) : Int) = d := by
  rw [SurjElem.degree, uniqueValue_eq_some] at hd
  have h := hd.2 _ (List.mem_map_of_mem (f := fun p : Surj × Int => keyDegree p.1) hp)
  rw [keyDegree, pyMax_of_onto (hx.onto p hp)] at h
  have hc := sdeg_card p.1
  have e : p.1.toFinset = Finset.Icc 1 r := by
    ext v; rw [List.mem_toFinset, hx.onto p hp v, Finset.mem_Icc]
  rw [e, Nat.card_Icc] at hc
  omega

theorem SignsOK.boundary (h : SignsOK x) : SignsOK x.boundary := by
  unfold SignsOK Elem.torsion at *
  rw [boundary_attrs]
  exact h

end Comch.SurjElem

namespace Comch.Props
open Comch Elem Spec SurjElem SurjComp
open Finsupp (single)

variable {r s i : Nat} {x y : SurjElem}

/-- Leibniz rule: `∂(x ∘ᵢ y) = ∂x ∘ᵢ y + (-1)^d x ∘ᵢ ∂y` for `x` homogeneous of degree `d`, in the
convention of Berger and Fresse for every torsion, and for torsion 2 in every convention. None of the
compositions raises. -/
theorem C50_leibniz (hx : InSurj r x) (hy : InSurj s y) (h1 : 1 ≤ i) (h2 : i ≤ r) {d : Int}
    (hd : x.degree = some d) (ht : y.torsion = x.torsion)
    (hc : x.torsion = 2 ∨ (x.attrs.convention = .bergerFresse ∧ y.attrs.convention = .bergerFresse)) :
    ∃ z zx zy w, compose x y i = .ok z ∧ compose x.boundary y i = .ok zx ∧
      compose x y.boundary i = .ok zy ∧
      add surjection zx (smul surjection (pySign d) zy) = .ok w ∧ pyEq (z : SurjElem).boundary w = true := by
  have sx : SignsOK x := hc.imp id fun h => h.1
  have sy : SignsOK y := hc.imp (fun h => by rw [ht, h]) fun h => h.2
  have tb : x.boundary.torsion = x.torsion := torsion_congr (boundary_attrs x)
  have tyb : y.boundary.torsion = x.torsion := by rw [torsion_congr (boundary_attrs y), ht]
  obtain ⟨z, ez, nz, az, dz⟩ := compose_ok hx hy h1 h2 sx rfl
  obtain ⟨zx, ezx, nzx, azx, dzx⟩ := compose_ok (inSurj_boundary hx) hy h1 h2 sx.boundary tb
  obtain ⟨zy, ezy, nzy, azy, dzy⟩ := compose_ok hx (inSurj_boundary hy) h1 h2 sx rfl
  have tz : z.torsion = x.torsion := torsion_congr az
  have tzx : zx.torsion = x.torsion := by rw [torsion_congr azx, tb]
  have tzy : zy.torsion = x.torsion := torsion_congr azy
  have tzb : (SurjElem.boundary z).torsion = x.torsion := by rw [torsion_congr (boundary_attrs z), tz]
  obtain ⟨w, ew⟩ := add_ok (C := surjection) (x := zx) (y := smul surjection (pySign d) zy)
    (by rw [smul_torsion, tzx, tzy])
  have sz : SignsOK z := by unfold SignsOK at *; rw [tz, az]; exact sx
  refine ⟨z, zx, zy, w, ez, ezx, ezy, ew, pyEq_of_den (nf_boundary z) (nf_add ew nzx) tzb
    (by rw [torsion_congr (attrs_add ew), tzx]) ?_⟩
  rw [den_boundary_bf nz sz tz,
    den_add (R := ZMod x.torsion) ew nzx (nf_smul nzy _) (by simp) (by rw [tzx]; simp),
    den_smul nzy _ (by simp) (by rw [tzy]; simp), dz, dzx, dzy,
    den_boundary_bf hx.nf sx rfl, den_boundary_bf hy.nf sy ht]
  by_cases hyd : y.data = []
  · simp [hyd]
  obtain ⟨q, hq⟩ := List.exists_mem_of_ne_nil _ hyd
  have hs : 1 ≤ s := one_le_of_mem hy hq
  have hux := den_supp_onto (R := ZMod x.torsion) hx
  have huy := den_supp_onto (R := ZMod x.torsion) hy
  have hux' : den (ZMod x.torsion) x.data ∈ Finsupp.supported (ZMod x.torsion) (ZMod x.torsion)
      {k | k ∈ OntoS r ∧ sdeg k = d.toNat} := by
    refine den_induction (P := fun w => w ∈ Finsupp.supported (ZMod x.torsion) (ZMod x.torsion)
      {k | k ∈ OntoS r ∧ sdeg k = d.toNat}) x.data (Submodule.zero_mem _) (fun u v => Submodule.add_mem _) ?_
    intro p hp
    refine Finsupp.single_mem_supported _ _ ⟨hx.onto p hp, ?_⟩
    have := sdeg_of_degree hx hd hp
    omega
  have hd0 : d = (d.toNat : Int) := by
    rw [SurjElem.degree, uniqueValue_eq_some] at hd
    obtain ⟨b, hb⟩ := List.exists_mem_of_ne_nil _ hd.1
    obtain ⟨p, hp, _⟩ := List.mem_map.1 hb
    have := sdeg_of_degree (d := d) hx (by rw [SurjElem.degree, uniqueValue_eq_some]; exact hd) hp
    omega
  rw [pr_lin_pr _ (fun k hk => by rw [sdelL_single, one_smul]; exact pr_surj_sdel hk),
    leibnizV h1 h2 hs d.toNat hux' huy, pr_cmpV_left (by omega) (sdelL_supp hux),
    pr_cmpV_right h1 h2 hs hux (sdelL_supp huy), map_add, map_smul]
  congr 2
  conv_rhs => rw [hd0]
  rw [cast_pySign, sg_natCast]


/-! ### C51 -/

theorem mem_data_supported {r n : Nat} {z : SurjElem} {S : Set Surj} (hz : z.NF surjection) (hn : z.torsion = n)
    (h : den (ZMod n) z.data ∈ Finsupp.supported (ZMod n) (ZMod n) S) {p : Surj × Int} (hp : p ∈ z.data) :
    p.1 ∈ S := by
  subst hn
  have := hz.mem_keys_iff.1 (List.mem_map_of_mem hp)
  exact (Finsupp.mem_supported _ _).1 h (Finsupp.mem_support_iff.2 this)

/-- The composition of an element of arity `r` and degree `d` with one of arity `s` and degree `e`
has arity `r + s - 1` and degree `d + e`. -/
theorem C51_arity_degree (hx : InSurj r x) (hy : InSurj s y) (h1 : 1 ≤ i) (h2 : i ≤ r)
    (hc : x.torsion = 2 ∨ x.attrs.convention = .bergerFresse) :
    ∃ z, compose x y i = .ok z ∧ InSurj (r + s - 1) z ∧ z.attrs = x.attrs ∧
      (z.data ≠ [] → SurjElem.arity z = some (r + s - 1)) ∧
      ∀ d e, x.degree = some d → y.degree = some e → z.data ≠ [] → SurjElem.degree z = some (d + e) := by
  obtain ⟨z, ez, nz, az, dz⟩ := compose_ok hx hy h1 h2 hc rfl
  have hkey : ∀ p ∈ z.data, ∃ k1 ∈ x.data, ∃ k2 ∈ y.data, Term i s k1.1 k2.1 p.1 := by
    intro p hp
    refine mem_data_supported (r := r) (S := {m | ∃ k1 ∈ x.data, ∃ k2 ∈ y.data, Term i s k1.1 k2.1 m})
      nz (torsion_congr az) ?_ hp
    rw [dz]
    refine BElem.pr_supported ?_
    unfold cmpV
    refine den_induction (P := fun w => bil (cmp i s) w _ ∈ Finsupp.supported (ZMod x.torsion) (ZMod x.torsion)
      {m | ∃ k1 ∈ x.data, ∃ k2 ∈ y.data, Term i s k1.1 k2.1 m}) x.data (by simp)
      (fun u v hu hv => by rw [map_add, LinearMap.add_apply]; exact Submodule.add_mem _ hu hv) ?_
    intro p hp
    refine den_induction (P := fun w => bil (cmp i s) _ w ∈ Finsupp.supported (ZMod x.torsion) (ZMod x.torsion)
      {m | ∃ k1 ∈ x.data, ∃ k2 ∈ y.data, Term i s k1.1 k2.1 m}) y.data (by simp)
      (fun u v hu hv => by rw [map_add]; exact Submodule.add_mem _ hu hv) ?_
    intro q hq
    rw [bil_single]
    refine Submodule.smul_mem _ _ ?_
    exact Finsupp.supported_mono (s := {m | Term i s p.1 q.1 m}) 
      (t := {m | ∃ k1 ∈ x.data, ∃ k2 ∈ y.data, Term i s k1.1 k2.1 m}) (fun m hm => ⟨p, hp, q, hq, hm⟩)
      (cmp_supported h1 _ _ (rng_of_onto (hy.onto q hq)) (one_le_of_mem hy hq))
  have hon : InSurj (r + s - 1) z := by
    refine ⟨nz, fun p hp => ?_⟩
    obtain ⟨k1, hk1, k2, hk2, hm⟩ := hkey p hp
    exact term_onto h1 h2 (one_le_of_mem hy hk2) (hx.onto _ hk1) (hy.onto _ hk2) hm
  refine ⟨z, ez, hon, az, fun hz => arity_eq hon hz, fun d e hd he hz => ?_⟩
  unfold SurjElem.degree
  rw [uniqueValue_eq_some]
  refine ⟨by simpa using hz, ?_⟩
  intro b hb
  obtain ⟨p, hp, rfl⟩ := List.mem_map.1 hb
  obtain ⟨k1, hk1, k2, hk2, hm⟩ := hkey p hp
  have hl := hm.length ((hx.onto _ hk1 i).2 ⟨h1, h2⟩)
  rw [SurjElem.degree, uniqueValue_eq_some] at hd he
  have hd' := hd.2 _ (List.mem_map_of_mem (f := fun p : Surj × Int => keyDegree p.1) hk1)
  have he' := he.2 _ (List.mem_map_of_mem (f := fun p : Surj × Int => keyDegree p.1) hk2)
  have hs := one_le_of_mem hy hk2
  simp only [keyDegree, pyMax_of_onto (hx.onto _ hk1), pyMax_of_onto (hy.onto _ hk2),
    pyMax_of_onto (hon.onto _ hp)] at hd' he' ⊢
  omega

theorem cmp_unit_right {R : Type} [CommRing R] (h1 : 1 ≤ i) (k : Surj) : cmp (R := R) i 1 k [1] = bv R k := by
  induction k with
  | nil => simp
  | cons j t ih =>
    by_cases h : j = i
    · subst h
      rw [cmp_i_cons, cmp_i_nil, if_pos (Or.inr rfl), ih]
      simp [up, Nat.add_sub_cancel_left]
    · rw [cmp_ne h, ih]
      simp [sh]

theorem cmp_unit_left {R : Type} [CommRing R] {k : Surj} (hk : k ≠ []) : cmp (R := R) 1 s [1] k = bv R k := by
  induction k with
  | nil => exact absurd rfl hk
  | cons a w ih =>
    rw [cmp_i_cons]
    by_cases hw : w = []
    · subst hw
      simp [up]
    · rw [ih hw]
      simp [hw, up, sdeg]

/-- The surjection `(1)` is a right unit at every position. -/
theorem C51_right_unit (hx : InSurj r x) (h1 : 1 ≤ i) (h2 : i ≤ r)
    (hc : x.torsion = 2 ∨ x.attrs.convention = .bergerFresse) {u : SurjElem} (hu : u.NF surjection)
    (hud : u.data = [([1], 1)]) : ∃ z, compose x u i = .ok z ∧ z.attrs = x.attrs ∧ pyEq z x = true := by
  have hi : InSurj 1 u := ⟨hu, fun p hp v => by rw [hud] at hp; simp at hp; subst hp; simp; omega⟩
  obtain ⟨z, ez, nz, az, dz⟩ := compose_ok hx hi h1 h2 hc rfl
  refine ⟨z, ez, az, pyEq_of_den nz hx.nf (torsion_congr az) rfl ?_⟩
  rw [dz, hud]
  conv_rhs => rw [← hx.nf.pr_den]
  congr 1
  refine den_induction (P := fun w => cmpV (ZMod x.torsion) i 1 w (den (ZMod x.torsion) [([1], 1)]) = w)
    x.data (by simp) (fun u v hu hv => by rw [map_add, LinearMap.add_apply, hu, hv]) ?_
  intro p hp
  simp [cmpV, den, cmp_unit_right h1]

/-- The surjection `(1)` is a left unit. -/
theorem C51_left_unit (hy : InSurj s y) {u : SurjElem} (hu : u.NF surjection) (hud : u.data = [([1], 1)])
    (ht : u.torsion = y.torsion) (hc : u.torsion = 2 ∨ u.attrs.convention = .bergerFresse) :
    ∃ z, compose u y 1 = .ok z ∧ z.attrs = u.attrs ∧ pyEq z y = true := by
  have hi : InSurj 1 u := ⟨hu, fun p hp v => by rw [hud] at hp; simp at hp; subst hp; simp; omega⟩
  obtain ⟨z, ez, nz, az, dz⟩ := compose_ok hi hy le_rfl le_rfl hc rfl
  refine ⟨z, ez, az, pyEq_of_den nz hy.nf (torsion_congr az) ht.symm ?_⟩
  rw [dz, hud]
  conv_rhs => rw [← NF.pr_den (R := ZMod u.torsion) hy.nf]
  congr 1
  refine den_induction (P := fun w => cmpV (ZMod u.torsion) 1 s (den (ZMod u.torsion) [([1], 1)]) w = w)
    y.data (by simp) (fun u v hu hv => by rw [map_add, hu, hv]) ?_
  intro p hp
  simp [cmpV, den, cmp_unit_left (onto_ne_nil hy.nf hp)]

theorem mapM_error {α β : Type} {f : α → Py β} {l : List α} {e : PyErr} (hl : l ≠ [])
    (h : ∀ a ∈ l, f a = .error e) : l.mapM f = .error e := by
  obtain ⟨a, l, rfl⟩ := List.exists_cons_of_ne_nil hl
  rw [List.mapM_cons, h a (by simp)]; rfl

theorem compose_error {e : PyErr} (hxn : x.data ≠ []) (hyn : y.data ≠ [])
    (h : ∀ p ∈ x.data, ∀ q ∈ y.data,
      composeEvents x.torsion x.attrs.convention (SurjElem.arity y) i p.1 p.2 q.1 q.2 = .error e) :
    compose x y i = .error e := by
  unfold compose
  rw [mapM_error (e := e)]
  · rfl
  · obtain ⟨p, hp⟩ := List.exists_mem_of_ne_nil _ hxn
    obtain ⟨q, hq⟩ := List.exists_mem_of_ne_nil _ hyn
    exact List.ne_nil_of_mem ((mem_pyProduct (p := (p, q))).2 ⟨hp, hq⟩)
  · rintro ⟨p, q⟩ hpq
    rw [mem_pyProduct] at hpq
    exact h p hpq.1 q hpq.2

/-- Composing at a value which is not taken raises `ValueError`. -/
theorem C51_absent_position (hx : InSurj r x) (hxn : x.data ≠ []) (hyn : y.data ≠ []) (hi : i < 1 ∨ r < i) :
    compose x y i = .error .valueError := by
  refine compose_error hxn hyn fun p hp q hq => ?_
  have hni : i ∉ p.1 := by
    rw [hx.onto p hp i]; omega
  have hpos : ((enumerate p.1).filter fun q => q.2 == i).map Prod.fst = [] := by
    have hl := positions_length p.1 i
    rw [List.count_eq_zero_of_not_mem hni] at hl
    exact List.length_eq_zero_iff.1 hl
  unfold composeEvents
  simp only [hpos]
  rfl

theorem cwr_ne_nil {n m : Nat} (h : n ≠ 0) : combinationsWithReplacement (List.range n) m ≠ [] := by
  obtain ⟨n, rfl⟩ := Nat.exists_eq_succ_of_ne_zero h
  rw [List.range_succ_eq_map]
  induction m with
  | zero => simp [cwr_zero]
  | succ m ih => 
    rw [cwr_cons]
    simp [ih]

/-- Composition with the signs of McClure and Smith is not implemented, except modulo 2. -/
theorem C51_mcclure_smith (hx : InSurj r x) (hy : InSurj s y) (hxn : x.data ≠ []) (hyn : y.data ≠ [])
    (h1 : 1 ≤ i) (h2 : i ≤ r) (ht : x.torsion ≠ 2) (hc : x.attrs.convention = .mcClureSmith) :
    compose x y i = .error .notImplementedError := by
  refine compose_error hxn hyn fun p hp q hq => ?_
  have hip := (hx.onto p hp i).2 ⟨h1, h2⟩
  have hpos : ((enumerate p.1).filter fun q => q.2 == i).map Prod.fst = positions p.1 i := rfl
  have hl := positions_length p.1 i
  have hcn := List.count_pos_iff.2 hip
  unfold composeEvents
  simp only [hpos]
  rw [if_neg (by rw [← List.length_eq_zero_iff]; omega), hl, arity_eq hy hyn]
  refine mapM_error (cwr_ne_nil (by simpa using onto_ne_nil hy.nf hq)) ?_
  intro m hm
  have hml := length_of_mem_cwr hm
  rw [spliceLoop_eq _ _ (by
    simp only [List.length_map, pairwise, List.length_zip, List.length_tail, List.length_cons,
      List.length_append]
    simp; omega)]
  simp only [hc, if_neg ht]
  rfl

/-- Composing with zero gives zero and raises nothing, whatever the position and the convention. -/
theorem C51_zero (h : x.data = [] ∨ y.data = []) :
    ∃ z, compose x y i = .ok z ∧ z.data = [] ∧ z.attrs = x.attrs := by
  have hp : pyProduct x.data y.data = [] := by
    rcases h with h | h <;> simp [pyProduct, h]
  unfold compose
  rw [hp]
  exact ⟨x.zero surjection, rfl, by simp, by simp⟩

theorem surj_compose_bilSpec (r s i : Nat) (h1 : 1 ≤ i) (h2 : i ≤ r) :
    BilSpec surjection (fun x : SurjElem => InSurj r x ∧ SignsOK x) (InSurj s) (fun x y => compose x y i)
      fun n => (cmpV (ZMod n) i s).compr₂ (pr surjection.drops) := by
  rintro x y n ⟨hx, hsg⟩ hy hn _
  obtain ⟨z, ez, nz, az, dz⟩ := compose_ok hx hy h1 h2 hsg hn
  exact ⟨z, ez, nz, (torsion_congr az).trans hn, dz⟩

theorem inSurj_add {x x' t : SurjElem} (hx : InSurj r x) (hx' : InSurj r x') (h : add surjection x x' = .ok t) :
    InSurj r t := by
  refine ⟨nf_add h hx.nf, fun p hp => ?_⟩
  rw [add_eq (torsion_eq_of_add h)] at h
  cases h
  rcases mem_keys_iaddCore (List.mem_map_of_mem (f := Prod.fst) hp) with h | h
  · obtain ⟨q, hq, e⟩ := List.mem_map.1 (mem_keys_create h)
    rw [← e]; exact hx.onto q hq
  · obtain ⟨q, hq, e⟩ := List.mem_map.1 h
    rw [← e]; exact hx'.onto q hq

/-- Composition is additive in its first argument. -/
theorem C51_add_left {x x' t y : SurjElem} (hx : InSurj r x) (hx' : InSurj r x') (hy : InSurj s y)
    (ht : x.torsion = y.torsion) (ha : add surjection x x' = .ok t) (h1 : 1 ≤ i) (h2 : i ≤ r)
    (hc : x.torsion = 2 ∨ (x.attrs.convention = .bergerFresse ∧ x'.attrs.convention = .bergerFresse)) :
    ∃ a b c w, compose x y i = .ok a ∧ compose x' y i = .ok b ∧ compose t y i = .ok c ∧
      add surjection a b = .ok w ∧ pyEq c w = true :=
  (surj_compose_bilSpec r s i h1 h2).add_left rfl rfl hx.nf hx'.nf ⟨hx, hc.imp id And.left⟩
    ⟨hx', hc.imp (fun h => (torsion_eq_of_add ha).symm.trans h) And.right⟩ hy ht ha
    ⟨inSurj_add hx hx' ha, by
      unfold SignsOK
      rw [torsion_congr (attrs_add ha), attrs_add ha]
      exact hc.imp id And.left⟩

/-- Composition is additive in its second argument. -/
theorem C51_add_right {x y y' t : SurjElem} (hx : InSurj r x) (hy : InSurj s y) (hy' : InSurj s y')
    (ht : x.torsion = y.torsion) (ha : add surjection y y' = .ok t) (h1 : 1 ≤ i) (h2 : i ≤ r)
    (hc : x.torsion = 2 ∨ x.attrs.convention = .bergerFresse) :
    ∃ a b c w, compose x y i = .ok a ∧ compose x y' i = .ok b ∧ compose x t i = .ok c ∧
      add surjection a b = .ok w ∧ pyEq c w = true :=
  (surj_compose_bilSpec r s i h1 h2).add_right rfl rfl hy.nf hy'.nf ⟨hx, hc⟩ hy hy' ht ha
    (inSurj_add hy hy' ha)

/-! ### Examples -/

/-- An integral element of arity 2 and degree 1. -/
abbrev exSuB (c : Convention) : SurjElem := Elem.new surjection [([1, 2, 1], 2), ([2, 1, 2], 3)] (some 5) c

theorem exSuB_in (c : Convention) : InSurj 2 (exSuB c) := by
  refine SurjElem.inSurj_of_arity (nf_new _ (by decide) _ _) ?_
  cases c <;> decide

-- the example of the documentation
example : (compose (Elem.new surjection [([1, 2, 1, 3], 1)] none .bergerFresse)
    (Elem.new surjection [([1, 2, 1], 1)] none .bergerFresse) 1).toOption.map Elem.data =
      some [([1, 3, 1, 2, 1, 4], 1), ([1, 2, 3, 2, 1, 4], -1), ([1, 2, 1, 3, 1, 4], -1)] := by decide +kernel

example : InSurj 3 (exSu .bergerFresse) ∧ InSurj 2 (exSuB .bergerFresse) ∧
    (exSu .bergerFresse).degree = some 2 ∧ (exSuB .bergerFresse).torsion = (exSu .bergerFresse).torsion :=
  ⟨exSu_in _, exSuB_in _, by decide, by decide⟩

example : (compose (exSu .bergerFresse) (exSuB .bergerFresse) 1).toOption.map
    (fun z => (SurjElem.arity z, SurjElem.degree z, z.data.length)) = some (some 4, some 3, 18) := by
  decide +kernel

example : (Elem.new surjection [([1], 1)] (some 5) .bergerFresse).data = [([1], 1)] := by decide

example : compose (exSu .bergerFresse) (exSuB .bergerFresse) 4 = .error .valueError :=
  C51_absent_position (exSu_in _) (by decide) (by decide) (by decide)

example : compose (exSu .mcClureSmith) (exSuB .mcClureSmith) 2 = .error .notImplementedError :=
  C51_mcclure_smith (exSu_in _) (exSuB_in _) (by decide) (by decide) (by decide) (by decide) (by decide) rfl

end Comch.Props
