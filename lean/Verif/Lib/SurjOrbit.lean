import Verif.Lib.SurjAct
import Verif.Lib.BEOrbit

/-! # Orbits in the surjection operad -/

set_option linter.unusedSectionVars false

namespace Comch
open Spec IsPerm Elem
open Finsupp (single)

variable {r : Nat} {σ : Perm}

namespace SurjElem

theorem seen_eq (k : Surj) : seen k = k.eraseDups := by
  have h : ∀ (k acc : List Nat), k.foldl (fun seen i => if seen.contains i then seen else seen ++ [i]) acc =
      acc ++ (k.filter fun i => !acc.contains i).eraseDups := by
    intro k
    induction k with
    | nil => intro acc; simp
    | cons a k ih =>
      intro acc
      rw [List.foldl_cons]
      by_cases h : acc.contains a
      · rw [if_pos h, ih, List.filter_cons, if_neg (by simp [h] at *; exact h)]
      · rw [if_neg h, ih, List.filter_cons, if_pos (by simpa using h), List.eraseDups_cons,
          List.append_assoc, List.singleton_append, List.filter_filter]
        congr 3
        apply List.filter_congr
        intro b _
        by_cases e : b = a
        · simp [e]
        · simp [e]
  rw [seen, h]
  simp

theorem eraseDups_spec (k : List Nat) : k.eraseDups.Nodup ∧ ∀ v, v ∈ k.eraseDups ↔ v ∈ k := by
  induction h : k.length using Nat.strong_induction_on generalizing k with
  | _ n ih =>
    cases k with
    | nil => simp
    | cons a k =>
      have hl : (k.filter fun b => !b == a).length < n := by
        have := List.length_filter_le (fun b => !b == a) k
        simp at h
        omega
      obtain ⟨h1, h2⟩ := ih _ hl _ rfl
      rw [List.eraseDups_cons]
      constructor
      · rw [List.nodup_cons]
        refine ⟨?_, h1⟩
        rw [h2]
        simp
      · intro v
        rw [List.mem_cons, h2, List.mem_cons, List.mem_filter]
        by_cases e : v = a <;> simp [e]

theorem isPerm_seen {k : Surj} (hk : Onto r k) : IsPerm r k.eraseDups := by
  obtain ⟨h1, h2⟩ := eraseDups_spec k
  refine ⟨?_, h1, fun v hv => hk.range v ((h2 v).1 hv)⟩
  have h3 : k.eraseDups.Perm (List.range' 1 r) := by
    rw [List.perm_ext_iff_of_nodup h1 List.nodup_range']
    intro v
    rw [h2, hk v, List.mem_range'_1]
    omega
  rw [h3.length_eq, List.length_range']

theorem eraseDups_map {f : Nat → Nat} {k : List Nat} (h : ∀ a ∈ k, ∀ b ∈ k, f a = f b → a = b) :
    (k.map f).eraseDups = k.eraseDups.map f := by
  induction hl : k.length using Nat.strong_induction_on generalizing k with
  | _ n ih =>
    cases k with
    | nil => simp
    | cons a k =>
      have hl' : (k.filter fun b => !b == a).length < n := by
        have := List.length_filter_le (fun b => !b == a) k
        simp at hl
        omega
      rw [List.map_cons, List.eraseDups_cons, List.eraseDups_cons, List.map_cons,
        ← ih _ hl' (fun x hx y hy => h x (by simp at hx; simp [hx]) y (by simp at hy; simp [hy])) rfl,
        List.filter_map]
      congr 3
      apply List.filter_congr
      intro b hb
      by_cases e : b = a
      · simp [e]
      · have : f b ≠ f a := fun h' => e (h b (by simp [hb]) a (by simp) h')
        simp [e, this]

theorem eraseDups_mulL (hσ : IsPerm r σ) {k : Surj} (hk : Onto r k) :
    (mulL σ k).eraseDups = mulL σ k.eraseDups :=
  eraseDups_map fun a ha b hb => value_inj hσ (hk.range a ha) (hk.range b hb)

/-- Orbit representative of a basis element. -/
noncomputable def orbS (a : Attrs) (r : Nat) (rep : Representation) (k : Surj) : Surj →₀ ZMod a.torsion :=
  ((repSign rep k.eraseDups : Int) : ZMod a.torsion) • actS a (invL r k.eraseDups) k

theorem orbS_actS (a : Attrs) (rep : Representation) (hσ : IsPerm r σ) {k : Surj} (hk : Onto r k)
    (hr : 1 ≤ r) :
    lin (orbS a r rep) (actS a σ k) = ((repSign rep σ : Int) : ZMod a.torsion) • orbS a r rep k := by
  have hs := isPerm_seen hk
  have hm := isPerm_mulL hσ hs
  have hi := isPerm_invL hm
  have h1 : lin (orbS a r rep) (actS a σ k) = ((repSign rep (mulL σ k.eraseDups) : Int) : ZMod a.torsion) •
      lin (actS a (invL r (mulL σ k.eraseDups))) (actS a σ k) := by
    rw [actS, map_smul, map_smul, lin_single, lin_single, one_smul, one_smul, orbS, eraseDups_mulL hσ hk,
      smul_comm]
  rw [h1, (actSpec hr).assoc a _ _ k hi hσ hk, orbS, repSign_mulL rep hσ hs, smul_smul, Int.cast_mul]
  congr 2
  apply BElem.mulL_inj hm (isPerm_mulL hi hσ) (isPerm_invL hs)
  rw [← mulL_assoc hm hi hσ, mulL_invL hm, id_mulL hσ, mulL_assoc hσ hs (isPerm_invL hs), mulL_invL hs,
    mulL_id hσ]

theorem orbS_orbS (a : Attrs) {rep rep' : Representation} {k : Surj} (hk : Onto r k) (hr : 1 ≤ r) :
    lin (orbS a r rep) (orbS a r rep' k) = orbS a r rep' k := by
  have hs := isPerm_seen hk
  have hi := isPerm_invL hs
  have hh : (mulL (invL r k.eraseDups) k).eraseDups = pyRange 1 (r + 1) := by
    rw [eraseDups_mulL hi hk, invL_mulL hs]
  unfold orbS
  rw [map_smul]
  congr 1
  rw [actS, map_smul, lin_single, one_smul]
  congr 1
  rw [hh, repSign_id, Int.cast_one, one_smul, invL_id, (actSpec hr).one a _ (Onto.mulL hi hk)]

theorem repSign_inv (rep : Representation) {p : Perm} (hp : IsPerm r p) :
    repSign rep (invL r p) = repSign rep p := by
  have h := repSign_mulL rep hp (isPerm_invL hp)
  rw [mulL_invL hp, repSign_id] at h
  have h2 := repSign_mul_self rep p
  have h3 : repSign rep p * (repSign rep p * repSign rep (invL r p)) = repSign rep p := by rw [← h, mul_one]
  rw [← mul_assoc, h2, one_mul] at h3
  exact h3

theorem create_single {x : SurjElem} (hx : x.NF surjection) {p : Surj × Int} (hp : p ∈ x.data) (e : Int)
    (he : e * e = 1) : den (ZMod x.torsion) (x.create surjection [(p.1, e * p.2)]).data =
      ((e * p.2 : Int) : ZMod x.torsion) • bv _ p.1 ∧ (x.create surjection [(p.1, e * p.2)]).data ≠ [] := by
  have h : den (ZMod x.torsion) (x.create surjection [(p.1, e * p.2)]).data =
      ((e * p.2 : Int) : ZMod x.torsion) • bv _ p.1 := by
    rw [den_create surjection x _ (by simp [surjection]) (by simp), den_cons, den_nil, add_zero, pr_single, hx.kept p hp]
    simp
  refine ⟨h, ?_⟩
  intro h0
  rw [h0, den_nil] at h
  have h2 := DFunLike.congr_fun h p.1
  simp only [Finsupp.coe_zero, Pi.zero_apply, Finsupp.smul_apply, Finsupp.single_eq_same, smul_eq_mul,
    mul_one] at h2
  have h3 : (p.2 : ZMod x.torsion) = 0 := by
    have : ((e * (e * p.2) : Int) : ZMod x.torsion) = 0 := by rw [Int.cast_mul, ← h2, mul_zero]
    rwa [← mul_assoc, he, one_mul] at this
  have h4 := (hx.mem_keys_iff (k := p.1)).1 (List.mem_map_of_mem hp)
  apply h4
  rw [Dict.den_apply hx.nodup, Dict.get_of_mem hx.nodup hp]
  exact h3

theorem orbit_ok (hr : 1 ≤ r) {x : SurjElem} (hx : InSurj r x) (rep : Representation) :
    ∃ z, orbit x rep = .ok z ∧ InSurj r z ∧ z.attrs = x.attrs ∧
      den (ZMod x.torsion) z.data = lin (orbS x.attrs r rep) (den _ x.data) := by
  unfold orbit
  have hterm : ∀ p ∈ x.data, ∃ y : SurjElem, y.NF surjection ∧ y.torsion = x.torsion ∧
      (∀ q ∈ y.data, Onto r q.1) ∧
      den (ZMod x.torsion) y.data = (p.2 : ZMod x.torsion) • orbS x.attrs r rep p.1 ∧
      ∀ a : SurjElem, (do
        let permutation ← Perm.inverse (seen p.1)
        let s ← match rep with
          | .trivial => .ok 1
          | .sign => permutation.sign
        let moved ← rmulPerm permutation (x.create surjection [(p.1, s * p.2)])
        Elem.iadd surjection a moved) = iadd surjection a y := by
    intro p hp
    have h1 : x.torsion ≠ 1 := torsion_ne_one hx.nf (List.ne_nil_of_mem hp)
    have hk : Onto r p.1 := hx.onto p hp
    have hs := isPerm_seen hk
    have hi := isPerm_invL hs
    let P : RingElem := Elem.new symmetricRing [(invL r p.1.eraseDups, 1)] (some x.torsion)
    have hPin : InRing r P := Props.inRing_new (by simp [Dict.KeysNodup]) (by simpa using hi) _
    have hPd : den (ZMod x.torsion) P.data = bv _ (invL r p.1.eraseDups) := by
      rw [BElem.den_ringSingle]; simp
    have hPne : P.data ≠ [] := by
      intro h0
      rw [h0, den_nil] at hPd
      have h3 := DFunLike.congr_fun hPd (invL r p.1.eraseDups)
      simp only [Finsupp.coe_zero, Pi.zero_apply, Finsupp.single_eq_same] at h3
      have h4 : ((1 : Nat) : ZMod x.torsion) = 0 := by simpa using h3.symm
      rw [ZMod.natCast_eq_zero_iff] at h4
      exact h1 (Nat.dvd_one.1 h4)
    let e : SurjElem := x.create surjection [(p.1, repSign rep p.1.eraseDups * p.2)]
    obtain ⟨hed, hene⟩ := create_single hx.nf hp (repSign rep p.1.eraseDups) (repSign_mul_self _ _)
    have hen : e.NF surjection := nf_create _ _ (by simp [Dict.KeysNodup])
    have heQ : ∀ q ∈ e.data, Onto r q.1 := by
      intro q hq
      have := mem_keys_create (List.mem_map_of_mem (f := Prod.fst) hq)
      simp at this
      rw [this]; exact hk
    obtain ⟨y, ey, ny, ay, qy, dy⟩ := (actSpec hr).ok' (a := x.attrs) hPin hPne hen hene heQ rfl rfl
    refine ⟨y, ny, torsion_congr ay, qy, ?_, ?_⟩
    · show den (ZMod x.attrs.torsion) y.data = _
      rw [dy]
      erw [hPd, hed]
      rw [bil_bv, map_smul, lin_single, one_smul, orbS, smul_smul, Int.cast_mul, mul_comm]
    · intro a
      rw [seen_eq, inverse_eq hs hr]
      have hsg : ((match rep with
          | .trivial => .ok 1
          | .sign => Perm.sign (invL r p.1.eraseDups) : Py Int) = .ok (repSign rep p.1.eraseDups)) := by
        cases rep with
        | trivial => rfl
        | sign =>
          have := repSign_inv .sign hs
          simp only [sign_eq hi]
          rw [← this]; rfl
      simp only [bind, Except.bind]
      cases rep with
      | trivial =>
        simp only
        have ey' : rmulPerm (invL r p.1.eraseDups) (x.create surjection [(p.1, 1 * p.2)]) = .ok y := ey
        rw [ey']
      | sign =>
        simp only at hsg ⊢
        rw [hsg]
        have ey' : rmulPerm (invL r p.1.eraseDups)
          (x.create surjection [(p.1, repSign .sign p.1.eraseDups * p.2)]) = .ok y := ey
        simp only [ey']
  haveI : Nonempty SurjElem := ⟨x⟩
  choose! y hy1 hy2 hy3 hy4 hy5 using hterm
  obtain ⟨z, hz, nz, az, qz, dz⟩ := foldlM_iadd (C := surjection) (Q := Onto r)
    x.torsion x.data (fun answer (p : Surj × Int) => (do
        let permutation ← Perm.inverse (seen p.1)
        let s ← match rep with
          | .trivial => .ok 1
          | .sign => permutation.sign
        let moved ← rmulPerm permutation (x.create surjection [(p.1, s * p.2)])
        Elem.iadd surjection answer moved : Py SurjElem)) y (x.zero surjection) rfl
    (fun p hp a _ => hy5 p hp a) (fun p hp => ⟨hy1 p hp, hy2 p hp, hy3 p hp⟩)
    (nf_zero _ _) (by intro q hq; exact absurd hq (by simp))
  refine ⟨z, hz, ⟨nz, qz⟩, by rw [az]; rfl, ?_⟩
  rw [dz, lin_den, zero_data, den_nil, zero_add]
  congr 1
  apply List.map_congr_left
  intro p hp
  exact hy4 p hp

end SurjElem
end Comch
