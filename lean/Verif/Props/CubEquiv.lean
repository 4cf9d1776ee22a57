import Verif.Lib.CubTwistEquiv

/-! # Permutations and the action on cubical chains, over the integers: C126 -/

set_option linter.unusedSectionVars false

namespace Comch.CubTwist
open Finsupp (single)
open Comch.Join Serre SurjComp CubCall CubCS SurjElem Comch.Spec IsPerm Comch.Props Elem CElem

variable {r : Nat} {σ : Perm}

theorem twistExponent_mulL (hσ : IsPerm r σ) {k : Surj} (hk : OntoR r k) : twistExponent (mulL σ k) = twistExponent k := by
  have hd : (mulL σ k).dedup = k.dedup.map (value σ) := by
    rw [mulL]
    have : ∀ t : List Nat, (∀ v ∈ t, v ∈ k) → (t.map (value σ)).dedup = t.dedup.map (value σ) := by
      intro t ht
      induction t with
      | nil => rfl
      | cons x t ih =>
        have ih := ih fun v hv => ht v (by simp [hv])
        have hiff : value σ x ∈ t.map (value σ) ↔ x ∈ t := by
          constructor
          · intro h
            obtain ⟨y, hy, e⟩ := List.mem_map.1 h
            rwa [← value_inj hσ ((hk y).1 (ht y (by simp [hy]))) ((hk x).1 (ht x (by simp))) e]
          · exact fun h => List.mem_map_of_mem h
        by_cases hx : x ∈ t
        · rw [List.map_cons, List.dedup_cons_of_mem (hiff.2 hx), List.dedup_cons_of_mem hx, ih]
        · rw [List.map_cons, List.dedup_cons_of_notMem (fun h => hx (hiff.1 h)), List.dedup_cons_of_notMem hx, ih, List.map_cons]
    exact this k fun _ h => h
  rw [twistExponent, twistExponent, hd, List.map_map]
  congr 1
  refine List.map_congr_left fun i hi => ?_
  have hi := (hk i).1 (List.mem_dedup.1 hi)
  simp only [Function.comp]
  rw [count_mulL hσ (fun v hv => (hk v).1 hv) hi]

theorem callCV_one {n r : Nat} {d : Int} {k : Surj} (hk : k ≠ []) (V : Cube) :
    callCV n r d 0 (bv _ k) (bv _ [V]) = cactS (R := ZMod n) r k V := by
  rw [callCV_bv hk (by simp), atKd_eq _ _ _ _ V (by simp), cat_bv_cat]
  simp only [List.take_zero, totDeg, zero_mul, sg_zero, one_smul, List.nil_append, Nat.zero_add,
    List.drop_one, List.tail_cons, List.append_nil]
  generalize cactS (R := ZMod n) r k V = v
  induction v using Finsupp.induction_linear with
  | zero => simp
  | add f g hf hg => simp only [map_add, hf, hg]
  | single m c => simp

end Comch.CubTwist

namespace Comch.Props
open Comch.Spec Elem CElem SurjComp SurjElem Serre CubCall CubCS CubTwist IsPerm
open Comch.Join (jn JN IsCube)
open Finsupp (single)

variable {x : SurjElem} {y : CElem} {r a coord N e : Nat} {d : Int} {s : RingElem}

/-- Equivariance, when the signs fit. -/
theorem equivariant_of (hs : InRing r s) (hsn : s.data ≠ []) (hx : InSurj r x)
    (hd : x.degree = some d) (hyd : y.degree = some e) (hya : y.arity = some 1)
    (hN : ∀ p ∈ y.data, ∀ c ∈ p.1, c.length = N ∧ ∀ v ∈ c, v ≤ 2) (ts : s.torsion = x.torsion) (ht : y.torsion = x.torsion)
    (hE : ∀ σ, IsPerm r σ → ∀ p ∈ x.data, ∃ T T' : Int, Twists (ZMod x.torsion) r T p.1 ∧ Twists (ZMod x.torsion) r T' (mulL σ p.1) ∧
      (T + T' + invE p.1 + invE (mulL σ p.1)) % 2 = ((convE x.attrs.convention p.1 : Int) + convE x.attrs.convention (mulL σ p.1)) % 2) :
    ∃ sx xc z, SurjElem.rmul s x = .ok sx ∧ callCubical x y 1 = .ok xc ∧
      callCubical sx y 1 = .ok z ∧ (xc.data = [] → z.data = []) ∧
      (xc.data ≠ [] → ∃ w, CElem.rmul s xc = .ok w ∧ pyEq z w = true) := by
  have hk := chomogeneous_keys hyd hya
  have hNl : ∀ p ∈ y.data, ∀ c ∈ p.1, c.length = N := fun p hp c hc => (hN p hp c hc).1
  have hsd : ∀ p ∈ x.data, ((sdeg p.1 : Nat) : Int) = d := fun p hp => sdeg_of_degree hx hd hp
  have hxn : x.data ≠ [] := by
    rw [SurjElem.degree, uniqueValue_eq_some] at hd
    simpa using hd.1
  obtain ⟨p0, hp0⟩ := List.exists_mem_of_ne_nil _ hxn
  have hr : 1 ≤ r := one_le_of_mem hx hp0
  obtain ⟨sx, esx, nsx, asx, osx, dsx⟩ := (SurjElem.actSpec hr).ok s x hs hsn hx.nf hxn hx.onto ts
  have tsx : sx.torsion = x.torsion := torsion_congr asx
  have isx : InSurj r sx := ⟨nsx, osx⟩
  have hsx : ∀ p ∈ sx.data, ((sdeg p.1 : Nat) : Int) = d := by
    intro p hp
    obtain ⟨z, ez, -, -, hdeg, -⟩ := C48_act_coeff hr hs hsn hx hxn ts
    cases esx.symm.trans ez
    exact sdeg_of_degree isx ((hdeg d hd).resolve_left (List.ne_nil_of_mem hp)) hp
  obtain ⟨xc, exc, nxc, axc, dxc⟩ := callCubical_ok hx hsd hk hNl rfl ht le_rfl le_rfl
  obtain ⟨z, ez, nz, az, dz⟩ := callCubical_ok isx hsx hk hNl tsx ht le_rfl le_rfl
  have txc : xc.torsion = x.torsion := by rw [torsion_congr axc, ht]
  have tz : z.torsion = x.torsion := by rw [torsion_congr az, ht]
  obtain ⟨xc', exc', -, -, lxc⟩ := C54_arity_degree hx hd hyd hya hN ht le_rfl le_rfl
  cases exc.symm.trans exc'
  have key : den (ZMod x.torsion) z.data = actV cdim (den _ s.data) (den _ xc.data) := by
    rw [dz, dxc, dsx]
    simp only [Nat.sub_self]
    refine den_induction (P := fun u => callCV x.torsion r d 0
        (bil (actS x.attrs) u (den _ x.data)) (den _ y.data) =
        actV cdim u (callCV _ r d 0 (den _ x.data) (den _ y.data))) s.data (by simp)
      (fun u v hu hv => by simp only [map_add, LinearMap.add_apply, hu, hv]) ?_
    intro q hq
    have hσ := hs.perm q hq
    have h1 : ∀ u : Surj →₀ ZMod x.torsion, bil (actS x.attrs) (single q.1 ((q.2 : Int) : ZMod x.torsion)) u =
        ((q.2 : Int) : ZMod x.torsion) • lin (actS x.attrs q.1) u := fun u => bil_single_left _ _ _ _
    have h2 : ∀ u : CKey →₀ ZMod x.torsion, actV cdim (single q.1 ((q.2 : Int) : ZMod x.torsion)) u =
        ((q.2 : Int) : ZMod x.torsion) • lin (actK cdim q.1) u := fun u => bil_single_left _ _ _ _
    rw [h1, h2, map_smul, LinearMap.smul_apply]
    congr 1
    have hb := BElem.bil_ext_supported (R := ZMod x.torsion)
      (f := ((callCV x.torsion r d 0).comp (lin (actS x.attrs q.1))))
      (g := (callCV x.torsion r d 0).compr₂ (lin (actK cdim q.1)))
      (S := {k : Surj | ∃ p ∈ x.data, p.1 = k}) (T := {m : CKey | m.length = 1 ∧ ∀ c ∈ m, c.length = N ∧ ∀ v ∈ c, v ≤ 2})
      (fun k hk m hm => by
        obtain ⟨p, hp, rfl⟩ := hk
        obtain ⟨T, T', hT, hT', hE⟩ := hE q.1 hσ p hp
        obtain ⟨V, rfl⟩ := List.length_eq_one_iff.1 hm.1
        have hV : IsCube N V := hm.2 V (by simp)
        have hpn := onto_ne_nil hx.nf hp
        have hkn : mulL q.1 p.1 ≠ [] := by
          rw [mulL, ne_eq, List.map_eq_nil_iff]
          exact hpn
        simp only [LinearMap.comp_apply, LinearMap.compr₂_apply, lin_single, one_smul]
        rw [callCV_one hpn, ← cactS_mulL hσ (hx.onto p hp) hpn hV hT hT', actS, map_smul, LinearMap.smul_apply, callCV_one hkn]
        congr 1
        exact sg_congr (by exact hE.symm))
      (den_supported (R := ZMod x.torsion) fun p hp => ⟨p, hp, rfl⟩)
      (den_supported (R := ZMod x.torsion) fun p hp => ⟨(hk p hp).2, hN p hp⟩)
    simpa using hb
  refine ⟨sx, xc, z, esx, exc, ez, ?_, ?_⟩
  · intro h0
    rw [nz.data_eq_nil_iff, tz, key, h0]
    simp
  · intro hne
    have hxc : HasArity cubical r xc := ⟨nxc, hne, fun p hp => by have := (lxc p hp).1; omega⟩
    obtain ⟨w, ew, nw, aw, lw, dw⟩ := rmulG_ok (w := cdim) rfl cubical_any hs hsn hxc
      (n := x.torsion) ts txc
    refine ⟨w, ?_, pyEq_of_den nz nw tz ((torsion_congr aw).trans txc) ?_⟩
    · rw [cubical_rmul_eq, ew]
    · rw [key, dw]

/-- For every torsion, elements of arity at least 3 in the convention of McClure and Smith: `(s * x)(c) == s * (x(c))` for every
`s` in the group ring and every homogeneous chain `c` of faces of one cube.  (The package cannot multiply a zero tensor by a
ring element, so the case `x(c) = 0` is stated separately.) -/
theorem C126_equivariant (hs : InRing r s) (hsn : s.data ≠ []) (hx : InSurj r x) (hr : 3 ≤ r)
    (hd : x.degree = some d) (hcv : x.attrs.convention = .mcClureSmith) (hyd : y.degree = some e) (hya : y.arity = some 1)
    (hN : ∀ p ∈ y.data, ∀ c ∈ p.1, c.length = N ∧ ∀ v ∈ c, v ≤ 2) (ts : s.torsion = x.torsion) (ht : y.torsion = x.torsion) :
    ∃ sx xc z, SurjElem.rmul s x = .ok sx ∧ callCubical x y 1 = .ok xc ∧
      callCubical sx y 1 = .ok z ∧ (xc.data = [] → z.data = []) ∧
      (xc.data ≠ [] → ∃ w, CElem.rmul s xc = .ok w ∧ pyEq z w = true) := by
  refine equivariant_of hs hsn hx hd hyd hya hN ts ht fun σ hσ p hp => ?_
  have hk := hx.onto p hp
  refine ⟨_, _, twists_large hr hk, twists_large hr (Onto.mulL hσ hk), ?_⟩
  rw [twistExponent_mulL hσ hk, hcv, convE, convE]
  omega

/-- For every torsion, elements of arity at most 2 and of degree at most 1, or of degree 2 in the convention of Berger and
Fresse. -/
theorem C126_low_degree_equivariant (hs : InRing r s) (hsn : s.data ≠ []) (hx : InSurj r x) (hr : r ≤ 2)
    (hd : x.degree = some d) (hdl : d ≤ 1 ∨ d = 2 ∧ x.attrs.convention = .bergerFresse)
    (hyd : y.degree = some e) (hya : y.arity = some 1)
    (hN : ∀ p ∈ y.data, ∀ c ∈ p.1, c.length = N ∧ ∀ v ∈ c, v ≤ 2) (ts : s.torsion = x.torsion) (ht : y.torsion = x.torsion) :
    ∃ sx xc z, SurjElem.rmul s x = .ok sx ∧ callCubical x y 1 = .ok xc ∧
      callCubical sx y 1 = .ok z ∧ (xc.data = [] → z.data = []) ∧
      (xc.data ≠ [] → ∃ w, CElem.rmul s xc = .ok w ∧ pyEq z w = true) := by
  refine equivariant_of hs hsn hx hd hyd hya hN ts ht fun σ hσ p hp => ?_
  have hsd : ((sdeg p.1 : Nat) : Int) = d := sdeg_of_degree hx hd hp
  have hr1 : 1 ≤ r := one_le_of_mem hx hp
  have hT : ∀ k, OntoR r k → (sdeg k : Int) = d → hasRep k = false →
      Twists (ZMod x.torsion) r (invE k : Nat) k ∧ convE x.attrs.convention k = 0 := by
    intro k hk hdk hrep
    have h0 : (k, r) ∈ ([([1], 1), ([1, 2], 2), ([2, 1], 2), ([1, 2, 1], 2), ([2, 1, 2], 2), ([1, 2, 1, 2], 2)] : List (Surj × Nat)) →
        invE k = 0 := by
      intro h
      simp only [List.mem_cons, Prod.mk.injEq, List.not_mem_nil, or_false] at h
      rcases h with ⟨rfl, rfl⟩ | ⟨rfl, rfl⟩ | ⟨rfl, rfl⟩ | ⟨rfl, rfl⟩ | ⟨rfl, rfl⟩ | ⟨rfl, rfl⟩ <;> decide
    constructor
    · rcases low_keys_two hk hrep hr hdk (onto_ne hr1 hk) (by omega) with h | ⟨rfl, rfl⟩
      · rw [h0 h]
        exact twists_low h
      · rw [show invE [2, 1, 2, 1] = 1 by decide]
        exact twists_2121
    · rcases hdl with h1 | ⟨-, h2⟩
      · have := h0 (low_keys hk hrep hr hdk (onto_ne hr1 hk) (Or.inl h1))
        cases x.attrs.convention <;> simp [convE, this]
      · rw [h2, convE]
  have hk := hx.onto p hp
  have hrep := (surj_kept_iff.1 (hx.nf.kept p hp)).2.2
  have hrep' : hasRep (mulL σ p.1) = false := by
    have := surj_drops_mulL hσ hk
    have h2 := hx.nf.kept p hp
    rw [← this] at h2
    exact (surj_kept_iff.1 h2).2.2
  have hs' : sdeg (mulL σ p.1) = sdeg p.1 :=
    sdeg_map_inj fun a ha b hb => value_inj hσ ((hk a).1 ha) ((hk b).1 hb)
  obtain ⟨t1, c1⟩ := hT p.1 hk hsd hrep
  obtain ⟨t2, c2⟩ := hT (mulL σ p.1) (Onto.mulL hσ hk) (by rw [hs', hsd]) hrep'
  refine ⟨_, _, t1, t2, ?_⟩
  rw [c1, c2]
  omega

/-! ### Examples and defects -/

abbrev exEqS : RingElem := Elem.new symmetricRing [([2, 3, 1], 1), ([1, 3, 2], -2)]
abbrev exEqX : SurjElem := Elem.new surjection [([1, 2, 1, 2, 3], 1), ([3, 1, 2, 3, 1], -4)] none .mcClureSmith
abbrev exEqY : CElem := Elem.new cubical [([[2, 2, 1]], 1), ([[2, 0, 2]], 3)]

/-- The hypotheses of the first theorem are met, with a value that is not zero. -/
example : InRing 3 exEqS ∧ exEqS.data ≠ [] ∧ InSurj 3 exEqX ∧ exEqX.degree = some 2 ∧ exEqX.attrs.convention = .mcClureSmith ∧
    exEqY.degree = some 2 ∧ exEqY.arity = some 1 ∧ (∀ p ∈ exEqY.data, ∀ c ∈ p.1, c.length = 3 ∧ ∀ v ∈ c, v ≤ 2) ∧
    exEqS.torsion = exEqX.torsion ∧ exEqY.torsion = exEqX.torsion ∧
    ((exEqX.callCubical exEqY 1).toOption.map fun z => z.data.length) = some 24 :=
  ⟨⟨nf_new _ (by decide) _ _, by decide +kernel⟩, by decide, SurjElem.inSurj_of_arity (nf_new _ (by decide) _ _) (by decide), by decide,
    by decide, by decide, by decide, by decide, rfl, rfl, by decide +kernel⟩

example : InRing 2 (Elem.new symmetricRing [([2, 1], 1), ([1, 2], 5)]) ∧ InSurj 2 exTwB ∧ exTwB.degree = some 2 ∧
    exTwB.attrs.convention = .bergerFresse ∧
    ((exTwB.callCubical exEqY 1).toOption.map fun z => z.data.length) = some 2 :=
  ⟨⟨nf_new _ (by decide) _ _, by decide +kernel⟩, SurjElem.inSurj_of_arity (nf_new _ (by decide) _ _) (by decide), by decide, by decide,
    by decide +kernel⟩

/-- One permutation, one surjection and one cube over the integers: whether the action is equivariant. -/
theorem equivariance_fails {σ : Perm} {k : Surj} {cv : Convention} {c : Cube} (h : (do
      let sx ← SurjElem.rmul (Elem.new symmetricRing [(σ, 1)]) (Elem.new surjection [(k, 1)] none cv)
      let xc ← callCubical (Elem.new surjection [(k, 1)] none cv) (Elem.new cubical [([c], 1)]) 1
      let z ← callCubical sx (Elem.new cubical [([c], 1)]) 1
      let w ← CElem.rmul (Elem.new symmetricRing [(σ, 1)]) xc
      .ok (pyEq z w) : Py Bool) = .ok false) :
    ∃ (sx : SurjElem) (xc z w : CElem),
      SurjElem.rmul (Elem.new symmetricRing [(σ, 1)]) (Elem.new surjection [(k, 1)] none cv) = .ok sx ∧
      callCubical (Elem.new surjection [(k, 1)] none cv) (Elem.new cubical [([c], 1)]) 1 = .ok xc ∧
      callCubical sx (Elem.new cubical [([c], 1)]) 1 = .ok z ∧
      CElem.rmul (Elem.new symmetricRing [(σ, 1)]) xc = .ok w ∧ pyEq z w = false := by
  have bind_ok : ∀ {A B : Type} {e : Py A} {f : A → Py B} {z : B}, (e >>= f) = .ok z → ∃ a, e = .ok a ∧ f a = .ok z := by
    intro A B e f z h
    cases e with
    | error t => cases h
    | ok a => exact ⟨a, rfl, h⟩
  obtain ⟨sx, e1, h⟩ := bind_ok h
  obtain ⟨xc, e2, h⟩ := bind_ok h
  obtain ⟨z, e3, h⟩ := bind_ok h
  obtain ⟨w, e4, h⟩ := bind_ok h
  exact ⟨sx, xc, z, w, e1, e2, e3, e4, by injection h⟩

/-- (Defect.)  Over the integers the default convention is not equivariant in arity 3: the transposition of 1 and 2 and
`(1, 2, 1, 2, 3)` on the square. -/
theorem C126_bergerFresse_fails : ∃ (sx : SurjElem) (xc z w : CElem),
    SurjElem.rmul (Elem.new symmetricRing [([2, 1, 3], 1)]) (Elem.new surjection [([1, 2, 1, 2, 3], 1)]) = .ok sx ∧
    callCubical (Elem.new surjection [([1, 2, 1, 2, 3], 1)]) (Elem.new cubical [([[2, 2]], 1)]) 1 = .ok xc ∧
    callCubical sx (Elem.new cubical [([[2, 2]], 1)]) 1 = .ok z ∧
    CElem.rmul (Elem.new symmetricRing [([2, 1, 3], 1)]) xc = .ok w ∧ pyEq z w = false :=
  equivariance_fails (by decide +kernel)

/-- (Defect.)  Nor is the McClure–Smith convention in arity 2 and degree 2: the transposition and `(1, 2, 1, 2)` on the square. -/
theorem C126_mcClureSmith_fails : ∃ (sx : SurjElem) (xc z w : CElem),
    SurjElem.rmul (Elem.new symmetricRing [([2, 1], 1)]) (Elem.new surjection [([1, 2, 1, 2], 1)] none .mcClureSmith) = .ok sx ∧
    callCubical (Elem.new surjection [([1, 2, 1, 2], 1)] none .mcClureSmith) (Elem.new cubical [([[2, 2]], 1)]) 1 = .ok xc ∧
    callCubical sx (Elem.new cubical [([[2, 2]], 1)]) 1 = .ok z ∧
    CElem.rmul (Elem.new symmetricRing [([2, 1], 1)]) xc = .ok w ∧ pyEq z w = false :=
  equivariance_fails (by decide +kernel)

end Comch.Props
