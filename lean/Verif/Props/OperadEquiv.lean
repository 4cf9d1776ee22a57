import Verif.Lib.OperadEquiv
import Verif.Props.BECompose
import Verif.Props.SurjAssoc
import Verif.Props.SurjComplexity
import Verif.Props.SurjCallMore

/-! # C69, C70, C71: the partial compositions are equivariant -/

set_option linter.unusedSectionVars false

namespace Comch
open Spec IsPerm Elem
open Finsupp (single)

variable {K : Type} [DecidableEq K] {r : Nat} {C : Cls K} {Q : K → Prop}
  {op : RingElem → Elem K → Py (Elem K)} {f : (a : Attrs) → Perm → K → (K →₀ ZMod a.torsion)}

/-- The ring element of a permutation. -/
theorem ringPerm {τ : Perm} (hτ : IsPerm r τ) {n : Nat} (h1 : n ≠ 1) :
    InRing r (Elem.new symmetricRing [(τ, 1)] (some n)) ∧
      den (ZMod n) (Elem.new symmetricRing [(τ, 1)] (some n)).data = bv _ τ ∧
      (Elem.new symmetricRing [(τ, 1)] (some n)).data ≠ [] := by
  have hd : den (ZMod n) (Elem.new symmetricRing [(τ, 1)] (some n)).data = bv _ τ := by
    rw [BElem.den_ringSingle]; simp
  refine ⟨Props.inRing_new (by simp [Dict.KeysNodup]) (by simpa using hτ) _, hd, ?_⟩
  intro h0
  rw [h0, den_nil] at hd
  have h3 := DFunLike.congr_fun hd τ
  simp only [Finsupp.coe_zero, Pi.zero_apply, Finsupp.single_eq_same] at h3
  have h4 : ((1 : Nat) : ZMod n) = 0 := by simpa using h3.symm
  rw [ZMod.natCast_eq_zero_iff] at h4
  exact h1 (Nat.dvd_one.1 h4)

theorem mem_of_supported {x : Elem K} (hx : x.NF C) {n : Nat} (hn : x.torsion = n) {S : Set K}
    (h : den (ZMod n) x.data ∈ Finsupp.supported (ZMod n) (ZMod n) S) {p : K × Int} (hp : p ∈ x.data) :
    p.1 ∈ S := by
  subst hn
  have := hx.mem_keys_iff.1 (List.mem_map_of_mem hp)
  exact (Finsupp.mem_supported _ _).1 h (Finsupp.mem_support_iff.2 this)

theorem nil_of_den {x : Elem K} (hx : x.NF C) {n : Nat} (hn : x.torsion = n)
    (h : den (ZMod n) x.data = 0) : x.data = [] := by
  subst hn
  exact hx.data_eq_nil_iff.2 h

theorem mapK_eq_self {R : Type} [CommRing R] {g : K → K} {S : Set K} (h : ∀ a ∈ S, g a = a) {v : K →₀ R}
    (hv : v ∈ Finsupp.supported R R S) : mapK g v = v := by
  refine BElem.lin_ext_supported (f := mapK g) (g := LinearMap.id) (fun k hk => ?_) hv
  simp [h k hk]

/-- Action of one permutation. -/
theorem ActSpec.perm (h : ActSpec C r Q op f) {x : Elem K} (nx : x.NF C) (hxn : x.data ≠ [])
    (hQ : ∀ p ∈ x.data, Q p.1) {σ : Perm} (hσ : IsPerm r σ) :
    ∃ z, op (Elem.new symmetricRing [(σ, 1)] (some x.torsion)) x = .ok z ∧ z.NF C ∧ z.attrs = x.attrs ∧
      (∀ p ∈ z.data, Q p.1) ∧ den (ZMod x.torsion) z.data = lin (f x.attrs σ) (den _ x.data) := by
  obtain ⟨p1, p2, p3⟩ := ringPerm hσ (torsion_ne_one nx hxn)
  obtain ⟨z, ez, nz, az, qz, dz⟩ := h.ok _ x p1 p3 nx hxn hQ rfl
  exact ⟨z, ez, nz, az, qz, by rw [dz, p2, bil_bv]⟩

end Comch

namespace Comch.Props
open Comch Elem Spec IsPerm OpEquiv SurjComp BElem SurjElem
open Finsupp (single)

/-! ## C69 permutations -/

/-- `(σ p) ∘_{σ(i)} (τ q) = (σ ∘_{σ(i)} τ) (p ∘ᵢ q)`. -/
theorem C69_equivariant {r s i : Nat} {σ τ p q : Perm} (hσ : IsPerm r σ) (hτ : IsPerm s τ) (hp : IsPerm r p)
    (hq : IsPerm s q) (hs : 1 ≤ s) (hi : 1 ≤ i ∧ i ≤ r) :
    ∃ σp τq a b c, Perm.mul σ p = .ok σp ∧ Perm.mul τ q = .ok τq ∧
      Perm.compose σp τq (value σ i) = .ok a ∧
      Perm.compose σ τ (value σ i) = .ok b ∧ Perm.compose p q i = .ok c ∧ Perm.mul b c = .ok a := by
  have hr : 1 ≤ r := by omega
  have hv := value_range hσ hi.1 hi.2
  refine ⟨_, _, _, _, _, mul_eq hσ hp hr, mul_eq hτ hq hs,
    compose_eq (isPerm_mulL hσ hp) _ hv.1 hv.2, compose_eq hσ _ hv.1 hv.2, compose_eq hp _ hi.1 hi.2, ?_⟩
  rw [mul_eq (isPerm_compL hσ hτ hv.1 hv.2) (isPerm_compL hp hq hi.1 hi.2) (by omega),
    compL_mulL hσ hτ hs hi hp hq]

example : ∃ σp τq a b c, Perm.mul [2, 3, 1] [1, 3, 2] = .ok σp ∧ Perm.mul [2, 1] [2, 1] = .ok τq ∧
      Perm.compose σp τq 3 = .ok a ∧
      Perm.compose [2, 3, 1] [2, 1] 3 = .ok b ∧ Perm.compose [1, 3, 2] [2, 1] 2 = .ok c ∧ Perm.mul b c = .ok a :=
  C69_equivariant (r := 3) (s := 2) (i := 2) (σ := [2, 3, 1]) (τ := [2, 1]) (p := [1, 3, 2]) (q := [2, 1])
    (by decide) (by decide) (by decide) (by decide) (by decide) (by decide)

/-! ## C70 Barratt-Eccles operad -/

section
variable {r s d e i : Nat} {x y : BElem} {σ τ : Perm}

theorem ecmp_trL {R : Type} [CommRing R] (hσ : IsPerm r σ) (hτ : IsPerm s τ) (hs : 1 ≤ s) (hi : 1 ≤ i ∧ i ≤ r)
    {k1 k2 : BKey} (h1 : k1 ∈ BS r) (h2 : k2 ∈ BS s) :
    ecmp (R := R) (value σ i) (BElem.trL σ k1) (BElem.trL τ k2) =
      mapK (BElem.trL (compL σ τ (value σ i))) (ecmp i k1 k2) := by
  rw [ecmp, ecmp, BElem.trL, BElem.trL, ez_map, SurjMay.mapK_comp', SurjMay.mapK_comp']
  refine mapK_congr_supported (fun m hm => ?_) (ez_supported (R := R) k1 k2)
  obtain ⟨-, hp, -⟩ := hm
  simp only [Function.comp, List.map_map]
  refine List.map_congr_left fun q hq => ?_
  exact compL_mulL hσ hτ hs hi (h1 _ (hp q hq).1) (h2 _ (hp q hq).2)

theorem pr_mapK_trL' {n : Nat} (hσ : IsPerm r σ) {v : BKey →₀ ZMod n}
    (hv : v ∈ Finsupp.supported (ZMod n) (ZMod n) (BS r)) :
    pr barrattEccles.drops (mapK (BElem.trL σ) v) = mapK (BElem.trL σ) (pr barrattEccles.drops v) := by
  refine BElem.lin_ext_supported (f := (pr barrattEccles.drops).comp (mapK (BElem.trL σ)))
    (g := (mapK (BElem.trL σ)).comp (pr barrattEccles.drops)) ?_ hv
  intro m hm
  simp only [LinearMap.comp_apply, mapK_single, pr_single, drops_trL hσ hm]
  split <;> simp

theorem lin_actB (a : Attrs) (σ : Perm) : lin (actB a σ) = mapK (R := ZMod a.torsion) (BElem.trL σ) := by
  apply lin_ext
  intro k
  simp [actB]

theorem rmulPerm_ok (hσ : IsPerm r σ) (hr : 1 ≤ r) (hx : HomBE r d x) (hxn : x.data ≠ []) {n : Nat}
    (hn : x.torsion = n) :
    ∃ z, BElem.rmulPerm σ x = .ok z ∧ HomBE r d z ∧ z.attrs = x.attrs ∧ z.data ≠ [] ∧
      den (ZMod n) z.data = mapK (BElem.trL σ) (den _ x.data) := by
  subst hn
  obtain ⟨z, ez, nz, az, pz, dz⟩ := (BElem.actSpec hr).perm hx.nf hxn hx.perm hσ
  rw [lin_actB] at dz
  have tz : z.torsion = x.torsion := torsion_congr az
  have hs : den (ZMod x.torsion) z.data ∈ Finsupp.supported (ZMod x.torsion) (ZMod x.torsion) (BSd r d) := by
    rw [dz]
    refine mapK_supported (T := BSd r d) _ (fun k hk => ?_) (den_supp_hom hx _)
    refine ⟨by rw [List.length_map]; exact hk.1, ?_⟩
    intro τ hτ
    obtain ⟨ρ, hρ, rfl⟩ := List.mem_map.1 hτ
    exact isPerm_mulL hσ (hk.2 ρ hρ)
  have hk : ∀ p ∈ z.data, p.1 ∈ BSd r d := by
    intro p hp
    exact mem_of_supported nz tz hs hp
  refine ⟨z, ez, ⟨⟨nz, fun p hp => (hk p hp).2⟩, fun p hp => (hk p hp).1⟩, az, ?_, dz⟩
  intro h0
  have hinv : mapK (BElem.trL (invL r σ)) (mapK (BElem.trL σ) (den (ZMod x.torsion) x.data)) =
      den (ZMod x.torsion) x.data := by
    rw [SurjMay.mapK_comp']
    refine mapK_eq_self (fun k hk => ?_) (den_supp_hom hx _)
    simp only [Function.comp, List.map_map]
    conv_rhs => rw [← List.map_id k]
    refine List.map_congr_left fun τ hτ => ?_
    have hk : ∀ σ ∈ k, IsPerm r σ := hk.2
    simp only [Function.comp, id]
    rw [← mulL_assoc (isPerm_invL hσ) hσ (hk τ hτ), invL_mulL hσ, id_mulL (hk τ hτ)]
  rw [← dz, h0, den_nil, map_zero] at hinv
  exact hxn (nil_of_den hx.nf rfl hinv.symm)

/-- `(σ * x) ∘_{σ(i)} (τ * y) = (σ ∘_{σ(i)} τ) * (x ∘ᵢ y)`; if `x ∘ᵢ y` is zero (where the package cannot
form the right hand side), so is the left hand side. -/
theorem C70_equivariant (hσ : IsPerm r σ) (hτ : IsPerm s τ) (hs : 1 ≤ s) (hi : 1 ≤ i ∧ i ≤ r)
    (hx : HomBE r d x) (hy : HomBE s e y) (hxn : x.data ≠ []) (hyn : y.data ≠ []) (ht : x.torsion = y.torsion) :
    ∃ σx τy ρ a c, BElem.rmulPerm σ x = .ok σx ∧ BElem.rmulPerm τ y = .ok τy ∧
      Perm.compose σ τ (value σ i) = .ok ρ ∧ BElem.compose σx τy (value σ i) = .ok a ∧
      BElem.compose x y i = .ok c ∧
      (c.data = [] → a.data = []) ∧
      (c.data ≠ [] → ∃ b, BElem.rmulPerm ρ c = .ok b ∧ pyEq a b = true) := by
  have hr : 1 ≤ r := by omega
  have hv := value_range hσ hi.1 hi.2
  obtain ⟨σx, e1, h1, a1, ne1, d1⟩ := rmulPerm_ok hσ hr hx hxn rfl
  obtain ⟨τy, e2, h2, a2, ne2, d2⟩ := rmulPerm_ok hτ hs hy hyn ht.symm
  have t1 : σx.torsion = x.torsion := torsion_congr a1
  have t2 : τy.torsion = y.torsion := torsion_congr a2
  obtain ⟨a, e3, n3, a3, d3⟩ := BElem.compose_ok h1 h2 ne1 ne2 hv (t1.trans (ht.trans t2.symm)) t1
  obtain ⟨c', e4', h4, a4', d4⟩ := composeOrZero_ok hx hy hi ht rfl
  have e4 : BElem.compose x y i = .ok c' := by
    rw [← e4', composeOrZero, if_neg (by simp [hxn, hyn])]
  have t3 : a.torsion = x.torsion := (torsion_congr a3).trans t1
  have t4 : c'.torsion = x.torsion := torsion_congr a4'
  have hρ := isPerm_compL hσ hτ hv.1 hv.2
  have key : den (ZMod x.torsion) a.data = mapK (BElem.trL (compL σ τ (value σ i))) (den _ c'.data) := by
    have hsup : ecmpV (ZMod x.torsion) i (den _ x.data) (den _ y.data) ∈
        Finsupp.supported (ZMod x.torsion) (ZMod x.torsion) (BS (r + s - 1)) :=
      BElem.bil_supported (ecmp i) (S := BS r) (T := BS s) (fun _ h1 _ h2 => ecmp_supported' h1 h2 hi)
        (den_supp_hom' hx _) (den_supp_hom' hy _)
    rw [d3, d4, d1, d2, ← pr_mapK_trL' hρ hsup]
    congr 1
    refine BElem.bil_ext_supported (S := BS r) (T := BS s)
      (f := ((ecmpV (ZMod x.torsion) (value σ i)).compl₂ (mapK (BElem.trL τ))).comp (mapK (BElem.trL σ)))
      (g := (ecmpV (ZMod x.torsion) i).compr₂ (mapK (BElem.trL (compL σ τ (value σ i))))) ?_
      (den_supp_hom' hx _) (den_supp_hom' hy _)
    intro k1 hk1 k2 hk2
    simp only [LinearMap.comp_apply, LinearMap.compl₂_apply, LinearMap.compr₂_apply, mapK_single, ecmpV,
      bil_single, one_smul, mul_one]
    exact ecmp_trL hσ hτ hs hi hk1 hk2
  refine ⟨σx, τy, _, a, c', e1, e2, compose_eq hσ _ hv.1 hv.2, e3, e4, ?_, ?_⟩
  · intro h0
    rw [h0, den_nil, map_zero] at key
    exact nil_of_den n3 t3 key
  · intro h0
    obtain ⟨b, eb, hb, ab, -, db⟩ := rmulPerm_ok hρ (by omega) h4 h0 t4
    exact ⟨b, eb, pyEq_of_den n3 hb.nf t3 ((torsion_congr ab).trans t4) (by rw [key, db])⟩

example : HomBE 3 2 exBE ∧ HomBE 2 1 exBE2 ∧ exBE.data ≠ [] ∧ exBE2.data ≠ [] ∧ exBE.torsion = exBE2.torsion :=
  ⟨exBE_hom, exBE2_hom, by decide, by decide, rfl⟩

-- both sides of the equation, with a non-trivial block permutation
example : (do
    let a ← BElem.compose (← BElem.rmulPerm [2, 3, 1] exBE) (← BElem.rmulPerm [2, 1] exBE2) 3
    let b ← BElem.rmulPerm (← Perm.compose [2, 3, 1] [2, 1] 3) (← BElem.compose exBE exBE2 2)
    pure (a.truthy, pyEq a b) : Py (Bool × Bool)) = .ok (true, true) := by decide +kernel

end

/-! ## C71 surjection operad -/

section
variable {r s i : Nat} {x y : SurjElem} {σ τ : Perm}

theorem lin_actS_signsOK {a : Attrs} (h : a.torsion = 2 ∨ a.convention = .bergerFresse) (σ : Perm)
    (v : Surj →₀ ZMod a.torsion) : lin (actS a σ) v = mapK (mulL σ) v := by
  rcases h with h | h
  · obtain ⟨t, c⟩ := a
    subst h
    have : lin (actS ⟨2, c⟩ σ) = mapK (R := ZMod 2) (mulL σ) := by
      apply lin_ext
      intro k
      rw [lin_single, one_smul, actS, sg_two, one_smul]
      simp
    exact LinearMap.congr_fun this v
  · rw [lin_actS, h, convS_bf, convS_bf]

theorem srmulPerm_ok (hσ : IsPerm r σ) (hr : 1 ≤ r) (hx : InSurj r x) (hxn : x.data ≠ []) (hsg : SignsOK x)
    {n : Nat} (hn : x.torsion = n) :
    ∃ z, SurjElem.rmulPerm σ x = .ok z ∧ InSurj r z ∧ z.attrs = x.attrs ∧ z.data ≠ [] ∧
      den (ZMod n) z.data = mapK (mulL σ) (den _ x.data) := by
  subst hn
  obtain ⟨z, ez, nz, az, pz, dz⟩ := (SurjElem.actSpec hr).perm hx.nf hxn hx.onto hσ
  rw [lin_actS_signsOK hsg] at dz
  refine ⟨z, ez, ⟨nz, pz⟩, az, ?_, dz⟩
  intro h0
  have hinv : mapK (mulL (invL r σ)) (mapK (mulL σ) (den (ZMod x.torsion) x.data)) =
      den (ZMod x.torsion) x.data := by
    rw [SurjMay.mapK_comp']
    refine mapK_eq_self (fun k hk => ?_) (den_supp_onto hx)
    have hk : ∀ v, v ∈ k ↔ 1 ≤ v ∧ v ≤ r := hk
    simp only [Function.comp, mulL, List.map_map]
    conv_rhs => rw [← List.map_id k]
    refine List.map_congr_left fun v hv => ?_
    have hv' := (hk v).1 hv
    simp only [Function.comp, id]
    have h1 := congrArg (fun l => value l v) (invL_mulL hσ)
    simp only [value_mulL hσ hv'.1 hv'.2, value_id hv'.1 hv'.2] at h1
    exact h1
  rw [← dz, h0, den_nil, map_zero] at hinv
  exact hxn (nil_of_den hx.nf rfl hinv.symm)

theorem pr_mapK_mulL {n : Nat} (hσ : IsPerm r σ) {v : Surj →₀ ZMod n}
    (hv : v ∈ Finsupp.supported (ZMod n) (ZMod n) (OntoS r)) :
    pr surjection.drops (mapK (mulL σ) v) = mapK (mulL σ) (pr surjection.drops v) := by
  refine BElem.lin_ext_supported (f := (pr surjection.drops).comp (mapK (mulL σ)))
    (g := (mapK (mulL σ)).comp (pr surjection.drops)) ?_ hv
  intro m hm
  simp only [LinearMap.comp_apply, mapK_single, pr_single, surj_drops_mulL hσ hm]
  split <;> simp

/-- `(σ * x) ∘_{σ(i)} (τ * y) = (σ ∘_{σ(i)} τ) * (x ∘ᵢ y)`, in the Berger-Fresse convention or modulo 2
(otherwise `compose` raises); if `x ∘ᵢ y` is zero (where the package cannot form the right hand side), so is
the left hand side. -/
theorem C71_equivariant (hσ : IsPerm r σ) (hτ : IsPerm s τ) (hs : 1 ≤ s) (hi : 1 ≤ i ∧ i ≤ r)
    (hx : InSurj r x) (hy : InSurj s y) (hxn : x.data ≠ []) (hyn : y.data ≠ [])
    (hsg : x.torsion = 2 ∨ x.attrs.convention = .bergerFresse) (ht : y.attrs = x.attrs) :
    ∃ σx τy ρ a c, SurjElem.rmulPerm σ x = .ok σx ∧ SurjElem.rmulPerm τ y = .ok τy ∧
      Perm.compose σ τ (value σ i) = .ok ρ ∧ SurjElem.compose σx τy (value σ i) = .ok a ∧
      SurjElem.compose x y i = .ok c ∧
      (c.data = [] → a.data = []) ∧
      (c.data ≠ [] → ∃ b, SurjElem.rmulPerm ρ c = .ok b ∧ pyEq a b = true) := by
  have hr : 1 ≤ r := by omega
  have hv := value_range hσ hi.1 hi.2
  have hsgy : SignsOK y := by unfold SignsOK Elem.torsion; rw [ht]; exact hsg
  obtain ⟨σx, e1, h1, a1, ne1, d1⟩ := srmulPerm_ok hσ hr hx hxn hsg rfl
  obtain ⟨τy, e2, h2, a2, ne2, d2⟩ := srmulPerm_ok hτ hs hy hyn hsgy (torsion_congr ht)
  have t1 : σx.torsion = x.torsion := torsion_congr a1
  have sg1 : SignsOK σx := by unfold SignsOK Elem.torsion; rw [a1]; exact hsg
  obtain ⟨a, e3, h3, a3, d3⟩ := compose_ok' h1 h2 hv.1 hv.2 sg1 t1
  obtain ⟨c, e4, h4, a4, d4⟩ := compose_ok' hx hy hi.1 hi.2 hsg rfl
  have t3 : a.torsion = x.torsion := (torsion_congr a3).trans t1
  have t4 : c.torsion = x.torsion := torsion_congr a4
  have hρ := isPerm_compL hσ hτ hv.1 hv.2
  have key : den (ZMod x.torsion) a.data = mapK (mulL (compL σ τ (value σ i))) (den _ c.data) := by
    rw [d3, d4, d1, d2, ← pr_mapK_mulL hρ (cmpV_supp hi.1 hi.2 hs (den_supp_onto hx) (den_supp_onto hy))]
    congr 1
    refine BElem.bil_ext_supported (S := OntoS r) (T := OntoS s)
      (f := ((cmpV (ZMod x.torsion) (value σ i) s).compl₂ (mapK (mulL τ))).comp (mapK (mulL σ)))
      (g := (cmpV (ZMod x.torsion) i s).compr₂ (mapK (mulL (compL σ τ (value σ i))))) ?_
      (den_supp_onto hx) (den_supp_onto hy)
    intro k1 hk1 k2 hk2
    simp only [LinearMap.comp_apply, LinearMap.compl₂_apply, LinearMap.compr₂_apply, mapK_single, cmpV,
      bil_single, one_smul, mul_one]
    exact cmp_mulL hσ hτ hs hi _ _ (rng_of_onto hk1) (rng_of_onto hk2)
  refine ⟨σx, τy, _, a, c, e1, e2, compose_eq hσ _ hv.1 hv.2, e3, e4, ?_, ?_⟩
  · intro h0
    rw [h0, den_nil, map_zero] at key
    exact nil_of_den h3.nf t3 key
  · intro h0
    have sg4 : SignsOK c := by unfold SignsOK Elem.torsion; rw [a4]; exact hsg
    obtain ⟨b, eb, hb, ab, -, db⟩ := srmulPerm_ok hρ (by omega) h4 h0 sg4 t4
    exact ⟨b, eb, pyEq_of_den h3.nf hb.nf t3 ((torsion_congr ab).trans t4) (by rw [key, db])⟩

example : InSurj 3 (exSu .bergerFresse) ∧ InSurj 2 (exSuB .bergerFresse) ∧ (exSu .bergerFresse).data ≠ [] ∧
    (exSuB .bergerFresse).data ≠ [] ∧ (exSuB .bergerFresse).attrs = (exSu .bergerFresse).attrs :=
  ⟨exSu_in _, exSuB_in _, by decide, by decide, by decide⟩

-- both sides of the equation, with a non-trivial block permutation
example : (do
    let x := exSu .bergerFresse
    let y := exSuB .bergerFresse
    let a ← SurjElem.compose (← SurjElem.rmulPerm [2, 3, 1] x) (← SurjElem.rmulPerm [2, 1] y) 3
    let b ← SurjElem.rmulPerm (← Perm.compose [2, 3, 1] [2, 1] 3) (← SurjElem.compose x y 2)
    pure (a.truthy, pyEq a b) : Py (Bool × Bool)) = .ok (true, true) := by decide +kernel

end

end Comch.Props
