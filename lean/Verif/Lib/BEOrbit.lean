import Verif.Lib.BarrattEccles

/-! # Orbits in the Barratt-Eccles operad -/

set_option linter.unusedSectionVars false

namespace Comch
open Spec IsPerm Elem
open Finsupp (single)

variable {R : Type} [CommRing R] {r : Nat}

theorem repSign_mul_self (rep : Representation) (p : List Nat) : repSign rep p * repSign rep p = 1 := by
  cases rep
  · rfl
  · simp only [repSign, ← pow_add, ← two_mul, pow_mul]
    simp

theorem repSign_mulL (rep : Representation) {p q : List Nat} (hp : IsPerm r p) (hq : IsPerm r q) :
    repSign rep (mulL p q) = repSign rep p * repSign rep q := by
  cases rep
  · rfl
  · exact inversions_mulL hp hq

theorem invL_id : invL r (pyRange 1 (r + 1)) = pyRange 1 (r + 1) := by
  have h := mulL_invL (isPerm_id r)
  rwa [id_mulL (isPerm_invL (isPerm_id r))] at h

theorem repSign_id (rep : Representation) : repSign rep (pyRange 1 (r + 1)) = 1 := by
  have h := repSign_mulL rep (isPerm_id r) (isPerm_id r)
  rw [id_mulL (isPerm_id r)] at h
  have h2 := repSign_mul_self rep (pyRange 1 (r + 1))
  rw [h]; exact h2

theorem mapM_inverse {p : Perm} (hp : IsPerm r p) :
    ((List.range p.length).mapM fun i => (do
        let j ← pyIndex p (i + 1)
        .ok (j + 1) : Py Nat)) = .ok (invL r p) := by
  rw [hp.length]
  apply mapM_ok
  intro i hi
  have hi' : i < r := by simpa using hi
  have : p.idxOf (i + 1) < p.length := List.idxOf_lt_length_of_mem ((IsPerm.mem_iff hp).2 ⟨by omega, by omega⟩)
  simp only [pyIndex, if_pos this]
  rfl

namespace BElem

/-- Orbit representative of a basis element. -/
noncomputable def orbK (R : Type) [CommRing R] (r : Nat) (rep : Representation) (k : BKey) : BKey →₀ R :=
  ((repSign rep (k.headD []) : Int) : R) • bv R (trL (invL r (k.headD [])) k)

theorem headD_mem {k : BKey} (h : k ≠ []) : k.headD [] ∈ k := by
  cases k with
  | nil => exact absurd rfl h
  | cons a k => simp

theorem pyGet_zero {k : BKey} (h : k ≠ []) : pyGet k 0 = .ok (k.headD []) := by
  cases k with
  | nil => exact absurd rfl h
  | cons a k => rfl

theorem new_single_data {K : Type} [DecidableEq K] {C : Cls K} {x : Elem K} (hx : x.NF C) {p : K × Int}
    (hp : p ∈ x.data) : (Elem.new C [p] (some x.torsion)).data = [p] := by
  have hk := hx.kept p hp
  have h0 := hx.coeff_ne p hp
  simp only [Elem.new, preferredRep, zeroDropped, basePreferredRep, List.map_cons, List.map_nil, hk]
  by_cases ht : x.torsion = 0
  · simp [ht, h0]
  · have hr := hx.coeff_range ht p hp
    have : p.2 % (x.torsion : Int) = p.2 := Int.emod_eq_of_lt hr.1 hr.2
    simp [ht, this, h0]

theorem den_ringSingle {n : Nat} (p : Perm) (c : Int) :
    den (ZMod n) (Elem.new symmetricRing [(p, c)] (some n)).data = single p (c : ZMod n) := by
  rw [den_new _ _ _ _ (by simp)]
  simp [symmetricRing, pr_single]

theorem rmul_den (hr : 1 ≤ r) {n : Nat} {s : RingElem} {x : BElem} (hs : InRing r s) (hsn : s.data ≠ [])
    (hx : InBE r x) (hxn : x.data ≠ []) (ts : s.torsion = n) (tx : x.torsion = n) :
    ∃ z, rmul s x = .ok z ∧ InBE r z ∧ z.torsion = n ∧
      den (ZMod n) z.data = bil (fun q k => bv (ZMod n) (trL q k)) (den _ s.data) (den _ x.data) := by
  subst tx
  obtain ⟨z, ez, nz, az, qz, dz⟩ := (actSpec hr).ok s x hs hsn hx.nf hxn hx.perm ts
  exact ⟨z, ez, ⟨nz, qz⟩, torsion_congr az, dz⟩

theorem orbit_ok (hr : 1 ≤ r) {x : BElem} (hx : InBE r x) (rep : Representation) :
    ∃ z, orbit x rep = .ok z ∧ InBE r z ∧ z.torsion = x.torsion ∧
      den (ZMod x.torsion) z.data = lin (orbK _ r rep) (den _ x.data) := by
  unfold orbit
  by_cases hne : x.data = []
  · refine ⟨x, ?_, hx, rfl, ?_⟩
    · simp [truthy, hne]
    · rw [hne]; simp
  have htr : x.truthy = true := truthy_iff.2 hne
  rw [htr]
  have h1 : x.torsion ≠ 1 := torsion_ne_one hx.nf hne
  -- the summand contributed by one term
  have hterm : ∀ p ∈ x.data, ∃ y : BElem, y.NF barrattEccles ∧ y.torsion = x.torsion ∧
      (∀ q ∈ y.data, ∀ σ ∈ q.1, IsPerm r σ) ∧
      den (ZMod x.torsion) y.data = (p.2 : ZMod x.torsion) • orbK _ r rep p.1 ∧
      ∀ a : BElem, (do
        let k0 ← pyGet p.1 0
        let inverse ← (List.range k0.length).mapM fun i => do
          let j ← pyIndex k0 (i + 1)
          .ok (j + 1)
        let permutation := Elem.new symmetricRing [(inverse, 1)] (some x.torsion)
        let permutation ← match rep with
          | .trivial => .ok permutation
          | .sign => do
            let s ← k0.sign
            .ok (permutation.smul symmetricRing s)
        let moved ← rmul permutation (Elem.new barrattEccles [p] (some x.torsion))
        Elem.iadd barrattEccles a moved) = iadd barrattEccles a y := by
    intro p hp
    have hk0 := key_ne_nil hx.nf hp
    have hperm : IsPerm r (p.1.headD []) := hx.perm p hp _ (headD_mem hk0)
    have hinv := isPerm_invL hperm
    let e : BElem := Elem.new barrattEccles [p] (some x.torsion)
    have hed : e.data = [p] := new_single_data hx.nf hp
    have hen : e.NF barrattEccles := nf_new _ (by simp [Dict.KeysNodup]) _ _
    have heQ : ∀ q ∈ e.data, ∀ σ ∈ q.1, IsPerm r σ := by
      rw [hed]; intro q hq; rw [List.mem_singleton.1 hq]; exact hx.perm p hp
    -- the ring element
    let P : RingElem := Elem.new symmetricRing [(invL r (p.1.headD []), 1)] (some x.torsion)
    have hPin : InRing r P := Props.inRing_new (by simp [Dict.KeysNodup]) (by simpa using hinv) _
    have hPd : den (ZMod x.torsion) P.data = bv _ (invL r (p.1.headD [])) := by
      rw [den_ringSingle]; simp
    have hPt : P.torsion = x.torsion := rfl
    obtain ⟨S, hS, hSin, hSt, hSd⟩ : ∃ S : RingElem, ((match rep with
          | .trivial => .ok P
          | .sign => do
            let s ← (p.1.headD []).sign
            .ok (P.smul symmetricRing s) : Py RingElem) = .ok S) ∧ InRing r S ∧ S.torsion = x.torsion ∧
        den (ZMod x.torsion) S.data =
          ((repSign rep (p.1.headD []) : Int) : ZMod x.torsion) • bv _ (invL r (p.1.headD [])) := by
      cases rep with
      | trivial => exact ⟨P, rfl, hPin, hPt, by rw [hPd]; simp [repSign]⟩
      | sign =>
        refine ⟨smul symmetricRing ((-1) ^ inversions (p.1.headD [])) P, ?_, Props.inRing_smul hPin _,
          by rw [smul_torsion, hPt], ?_⟩
        · simp only [sign_eq hperm]; rfl
        · rw [den_smul hPin.nf _ (by simp [symmetricRing]) (by rw [hPt]; simp), hPd]; rfl
    have hSne : S.data ≠ [] := by
      intro h0
      rw [h0, den_nil] at hSd
      have h2 := congrArg (fun v => ((repSign rep (p.1.headD []) : Int) : ZMod x.torsion) • v) hSd
      simp only [smul_smul, smul_zero] at h2
      rw [← Int.cast_mul, repSign_mul_self] at h2
      have h3 := DFunLike.congr_fun h2 (invL r (p.1.headD []))
      simp only [Int.cast_one, one_smul, Finsupp.coe_zero, Pi.zero_apply, Finsupp.single_eq_same] at h3
      have h4 : ((1 : Nat) : ZMod x.torsion) = 0 := by simpa using h3.symm
      rw [ZMod.natCast_eq_zero_iff] at h4
      exact h1 (Nat.dvd_one.1 h4)
    obtain ⟨y, ey, ny, hyt, dy⟩ := rmul_den hr hSin hSne ⟨hen, heQ⟩ (by rw [hed]; simp) hSt
      (rfl : e.torsion = x.torsion)
    refine ⟨y, ny.nf, hyt, ny.perm, ?_, ?_⟩
    · rw [dy, hSd, hed, map_smul, LinearMap.smul_apply, den_cons, den_nil, add_zero, bil_single, one_mul,
        orbK, smul_comm]
    · intro a
      rw [pyGet_zero hk0]
      simp only [bind, Except.bind]
      have hm := mapM_inverse hperm
      simp only [bind, Except.bind] at hm
      rw [hm]
      cases rep with
      | trivial =>
        cases hS
        simp only
        rw [ey]
      | sign =>
        simp only [sign_eq hperm] at hS ⊢
        cases hS
        rw [ey]
  haveI : Nonempty BElem := ⟨x⟩
  choose! y hy1 hy2 hy3 hy4 hy5 using hterm
  obtain ⟨z, hz, nz, az, qz, dz⟩ := foldlM_iadd (C := barrattEccles) (Q := fun k => ∀ σ ∈ k, IsPerm r σ)
    x.torsion x.data (fun answer (p : BKey × Int) => (do
        let k0 ← pyGet p.1 0
        let inverse ← (List.range k0.length).mapM fun i => do
          let j ← pyIndex k0 (i + 1)
          .ok (j + 1)
        let permutation := Elem.new symmetricRing [(inverse, 1)] (some x.torsion)
        let permutation ← match rep with
          | .trivial => .ok permutation
          | .sign => do
            let s ← k0.sign
            .ok (permutation.smul symmetricRing s)
        let moved ← rmul permutation (Elem.new barrattEccles [p] (some x.torsion))
        Elem.iadd barrattEccles answer moved : Py BElem)) y (Elem.new barrattEccles [] (some x.torsion)) rfl
    (fun p hp a _ => hy5 p hp a) (fun p hp => ⟨hy1 p hp, hy2 p hp, hy3 p hp⟩)
    (nf_new _ (by simp [Dict.KeysNodup]) _ _) (by simp [Elem.new, preferredRep, zeroDropped, basePreferredRep])
  refine ⟨z, hz, ⟨nz, qz⟩, by rw [torsion, az]; rfl, ?_⟩
  rw [dz, lin_den]
  have h0 : (Elem.new barrattEccles [] (some x.torsion)).data = [] := by
    simp [Elem.new, preferredRep, zeroDropped, basePreferredRep]
  rw [h0, den_nil, zero_add]
  congr 1
  apply List.map_congr_left
  intro p hp
  exact hy4 p hp

theorem orbK_trL {rep : Representation} {σ : Perm} (hσ : IsPerm r σ) {k : BKey} (hk0 : k ≠ [])
    (hk : ∀ τ ∈ k, IsPerm r τ) :
    orbK R r rep (trL σ k) = ((repSign rep σ : Int) : R) • orbK R r rep k := by
  have hh : (trL σ k).headD [] = mulL σ (k.headD []) := by
    cases k with
    | nil => exact absurd rfl hk0
    | cons a k => rfl
  have hp := hk _ (headD_mem hk0)
  unfold orbK
  rw [hh, repSign_mulL rep hσ hp, smul_smul, Int.cast_mul]
  congr 2
  rw [trL, trL, List.map_map]
  apply List.map_congr_left
  intro t ht
  show mulL (invL r (mulL σ (k.headD []))) (mulL σ t) = mulL (invL r (k.headD [])) t
  have htp := hk t ht
  have hm := isPerm_mulL hσ hp
  have h1 := isPerm_mulL hσ htp
  apply mulL_inj hm (isPerm_mulL (isPerm_invL hm) h1) (isPerm_mulL (isPerm_invL hp) htp)
  rw [← mulL_assoc hm (isPerm_invL hm) h1, mulL_invL hm, id_mulL h1,
    mulL_assoc hσ hp (isPerm_mulL (isPerm_invL hp) htp), ← mulL_assoc hp (isPerm_invL hp) htp,
    mulL_invL hp, id_mulL htp]

theorem orbK_orbK {rep rep' : Representation} {k : BKey} (hk0 : k ≠ []) (hk : ∀ τ ∈ k, IsPerm r τ) :
    lin (orbK R r rep) (orbK R r rep' k) = orbK R r rep' k := by
  have hp := hk _ (headD_mem hk0)
  unfold orbK
  rw [map_smul, lin_single, one_smul]
  congr 1
  have hh : (trL (invL r (k.headD [])) k).headD [] = pyRange 1 (r + 1) := by
    cases k with
    | nil => exact absurd rfl hk0
    | cons a k => exact invL_mulL hp
  rw [hh, invL_id, repSign_id, Int.cast_one, one_smul, trL, List.map_map]
  congr 1
  apply List.map_congr_left
  intro t ht
  exact id_mulL (isPerm_mulL (isPerm_invL hp) (hk t ht))

end BElem
end Comch
