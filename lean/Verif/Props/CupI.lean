import Verif.Props.SurjCallMore
import Verif.Props.CubCall
import Verif.Props.OrbitBoundary

/-! # The cup-`i` coboundary relation on chains: C81

`psi(d)` is `Surjection.may_steenrod_structure(r, d, torsion, convention='McClure-Smith')`; for `r = 2` its
action on chains gives the cup-`i` coproducts of Steenrod. -/

set_option linter.unusedSectionVars false

namespace Comch
namespace Props
open Comch.Spec Elem SurjComp SurjElem IsPerm

/-- `w` is `s * v`; the package cannot multiply a zero tensor by a ring element, zero is taken then. -/
def IsTimesS (s : RingElem) (v w : SElem) : Prop :=
  v.data = [] ∧ w = v ∨ v.data ≠ [] ∧ SElem.rmul s v = .ok w

/-- The same for cubical tensors. -/
def IsTimesC (s : RingElem) (v w : CElem) : Prop :=
  v.data = [] ∧ w = v ∨ v.data ≠ [] ∧ CElem.rmul s v = .ok w

variable {r n : Nat} {c : Convention} {e : Int} {s : RingElem}

theorem add_congr_left {K : Type} [DecidableEq K] {C : Cls K} {x x' y t : Elem K} (hD : C.defaultTorsion = 0)
    (hx : x.NF C) (hx' : x'.NF C) (hy : y.NF C) (hxx : x.torsion = x'.torsion) (hyt : y.torsion = x.torsion) (h : pyEq x x' = true)
    (ht : add C x y = .ok t) : ∃ t', add C x' y = .ok t' ∧ pyEq t t' = true ∧ t'.NF C ∧ t'.torsion = t.torsion := by
  obtain ⟨t', et'⟩ := add_ok (C := C) (x := x') (y := y) (by rw [← hxx, hyt])
  refine ⟨t', et', ?_, nf_add et' hx', ?_⟩
  · refine pyEq_of_den (n := x.torsion) (nf_add ht hx) (nf_add et' hx') (torsion_congr (attrs_add ht))
      ((torsion_congr (attrs_add et')).trans hxx.symm) ?_
    rw [den_add (R := ZMod x.torsion) ht hx hy (by simp [hD]) (by simp),
      den_add (R := ZMod x.torsion) et' hx' hy (by simp [hD]) (by rw [← hxx]; simp),
      (pyEq_iff_den hx hx' hxx).1 h]
  · rw [torsion_congr (attrs_add ht), torsion_congr (attrs_add et'), hxx]

theorem pyEq_trans {K : Type} [DecidableEq K] {C : Cls K} {x y z : Elem K} (hx : x.NF C) (hy : y.NF C) (hz : z.NF C)
    (h1 : x.torsion = y.torsion) (h2 : y.torsion = z.torsion) (a : pyEq x y = true) (b : pyEq y z = true) :
    pyEq x z = true := by
  rw [pyEq_iff_den hx hz (h1.trans h2), (pyEq_iff_den hx hy h1).1 a]
  have := (pyEq_iff_den hy hz h2).1 b
  rw [← h1] at this
  exact this

/-- The relation for any two elements of the operad with `∂x' = s x`. -/
theorem cup_of_boundary {x x' w : SurjElem} {y : SElem} {d : Nat} (hs : InRing r s) (hsn : s.data ≠ [])
    (hx : InSurj r x) (hx' : InSurj r x') (hd : x.degree = some (d : Int)) (hd' : x'.degree = some ((d : Int) + 1))
    (hc : x.attrs.convention = .mcClureSmith) (hc' : x'.attrs.convention = .mcClureSmith)
    (tx : x.torsion = n) (tx' : x'.torsion = n) (ts : s.torsion = n)
    (hw : SurjElem.rmul s x = .ok w) (hb : pyEq x'.boundary w = true)
    (hy : y.NF simplicial) (hyd : y.degree = some e) (hya : y.arity = some 1) (ty : y.torsion = n) :
    ∃ u v ub wv t, callSimplicial x' y = .ok u ∧ callSimplicial x y = .ok v ∧
      callSimplicial x' y.boundary = .ok ub ∧ IsTimesS s v wv ∧
      add simplicial wv (smul simplicial (pySign (d + 1)) ub) = .ok t ∧ pyEq (u : SElem).boundary t = true := by
  have hk := homogeneous_keys hyd hya
  have hkb := homogeneous_keys_boundary hyd hya
  have tyb : y.boundary.torsion = n := by rw [torsion_congr (Props.boundary_attrs y), ty]
  obtain ⟨u, zx, ub, t0, eu, ezx, eub, et0, h0⟩ :=
    C52_chain_map hx' hd' hc' hy hyd hya (by rw [ty, tx']) le_rfl le_rfl
  obtain ⟨sx, v, z, esx, ev, ez, hz0, hz1⟩ :=
    C53_equivariant hs hsn hx hd hc hy hyd hya (by rw [ts, tx]) (by rw [ty, tx])
  cases hw.symm.trans esx
  have hxn : x.data ≠ [] := by
    rw [SurjElem.degree, uniqueValue_eq_some] at hd
    simpa using hd.1
  have hxn' : x'.data ≠ [] := by
    rw [SurjElem.degree, uniqueValue_eq_some] at hd'
    simpa using hd'.1
  obtain ⟨p0, hp0⟩ := List.exists_mem_of_ne_nil _ hxn
  have hr : 1 ≤ r := one_le_of_mem hx hp0
  obtain ⟨sx', esx', nsx, asx, osx, dsx⟩ := (SurjElem.actSpec hr).ok s x hs hsn hx.nf hxn hx.onto (by rw [ts, tx])
  cases esx.symm.trans esx'
  have tsx : w.torsion = n := (torsion_congr asx).trans tx
  have hsx : ∀ p ∈ w.data, ((sdeg p.1 : Nat) : Int) = d := by
    intro p hp
    obtain ⟨z, ez, -, -, hdeg, -⟩ := C48_act_coeff hr hs hsn hx hxn (by rw [ts, tx])
    cases esx.symm.trans ez
    exact sdeg_of_degree ⟨nsx, osx⟩ ((hdeg d hd).resolve_left (List.ne_nil_of_mem hp)) hp
  have tb : x'.boundary.torsion = n := by rw [torsion_congr (SurjElem.boundary_attrs x'), tx']
  -- the two ways of applying `∂x' = s x` to `y`
  obtain ⟨zx', ezx', nzx, azx, dzx⟩ := call_ok (d := (d : Int)) (inSurj_boundary hx')
    (fun p hp => by have := sdeg_boundary hx' hd' p hp; omega)
    (by rw [SurjElem.boundary_attrs, hc']) hy hk tb ty le_rfl le_rfl
  cases ezx.symm.trans ezx'
  obtain ⟨z', ez', nz, az, dz⟩ := call_ok (d := (d : Int)) ⟨nsx, osx⟩ hsx (by rw [asx, hc]) hy hk tsx ty le_rfl le_rfl
  cases ez.symm.trans ez'
  have tzx : zx.torsion = n := (torsion_congr azx).trans ty
  have tz : z.torsion = n := (torsion_congr az).trans ty
  have e1 : pyEq zx z = true := by
    refine pyEq_of_den (n := n) nzx nz tzx tz ?_
    have := (pyEq_iff_den (SurjElem.nf_boundary x') nsx (by rw [tb, tsx])).1 hb
    rw [tb] at this
    rw [dzx, dz, this]
  obtain ⟨v', ev', nv, av, dv⟩ := call_ok hx (fun p hp => sdeg_of_degree hx hd hp) hc hy hk tx ty le_rfl le_rfl
  cases ev.symm.trans ev'
  have tv : v.torsion = n := (torsion_congr av).trans ty
  obtain ⟨ub', eub', nub, aub, dub⟩ := call_ok hx' (fun p hp => sdeg_of_degree hx' hd' hp) hc'
    (Props.nf_boundary y) hkb tx' tyb le_rfl le_rfl
  cases eub.symm.trans eub'
  have tub : ub.torsion = n := (torsion_congr aub).trans tyb
  obtain ⟨u', eu', nu, au, -⟩ := call_ok hx' (fun p hp => sdeg_of_degree hx' hd' hp) hc' hy hk tx' ty le_rfl le_rfl
  cases eu.symm.trans eu'
  have tu : (u : SElem).boundary.torsion = n := by
    rw [torsion_congr (Props.boundary_attrs u), torsion_congr au, ty]
  -- `wv`
  obtain ⟨wv, hwv, nwv, twv, hzw⟩ : ∃ wv, IsTimesS s v wv ∧ wv.NF simplicial ∧ wv.torsion = n ∧
      pyEq z wv = true := by
    by_cases h : v.data = []
    · refine ⟨v, Or.inl ⟨h, rfl⟩, nv, tv, pyEq_of_den (n := n) nz nv tz tv ?_⟩
      rw [h, hz0 h]
    · obtain ⟨wv, ew, hh⟩ := hz1 h
      obtain ⟨xc', exc', -, -, lxc⟩ := C52_arity_degree hx hd hc hy hyd hya (by rw [ty, tx]) le_rfl le_rfl
      cases ev.symm.trans exc'
      have hxc : HasArity simplicial r v := ⟨nv, h, fun p hp => by have := (lxc p hp).1; omega⟩
      obtain ⟨wv', ew', nw, aw, -⟩ := rmulG_ok (w := Simplex.dimension) rfl simplicial_any hs hsn hxc
        (n := n) ts tv
      rw [← simplicial_rmul_eq] at ew'
      cases ew.symm.trans ew'
      exact ⟨wv, Or.inr ⟨h, ew⟩, nw, (torsion_congr aw).trans tv, hh⟩
  have e2 : pyEq zx wv = true := pyEq_trans nzx nz nwv (by rw [tzx, tz]) (by rw [tz, twv]) e1 hzw
  obtain ⟨t, et, h3, nt, tt⟩ := add_congr_left (C := simplicial) rfl nzx nwv (nf_smul nub (pySign ((d : Int) + 1)))
    (by rw [tzx, twv]) (by rw [smul_torsion, tub, tzx]) e2 et0
  refine ⟨u, v, ub, wv, t, eu, ev, eub, hwv, et, ?_⟩
  exact pyEq_trans (Props.nf_boundary u) (nf_add et0 nzx) nt
    (by rw [tu, torsion_congr (attrs_add et0), tzx]) tt.symm h0 h3

/-- `∂(psi(2m+1)(c)) = T * psi(2m)(c) - psi(2m+1)(∂c)` for every homogeneous chain `c` of simplices. -/
theorem C81_odd {y : SElem} (hr : 2 ≤ r) (m : Nat) (hn : n ≠ 1) (hy : y.NF simplicial)
    (hyd : y.degree = some e) (hya : y.arity = some 1) (ty : y.torsion = n) :
    ∃ x' x u v ub wv t, Surjection.maySteenrodStructure r (2 * m + 1) (some n) .mcClureSmith = .ok x' ∧
      Surjection.maySteenrodStructure r (2 * m) (some n) .mcClureSmith = .ok x ∧
      callSimplicial x' y = .ok u ∧ callSimplicial x y = .ok v ∧ callSimplicial x' y.boundary = .ok ub ∧
      IsTimesS (RingElem.transpositionElement r (some n)) v wv ∧
      add simplicial wv (smul simplicial (-1) ub) = .ok t ∧ pyEq (u : SElem).boundary t = true := by
  obtain ⟨z, ez, iz, tz, cz, -, -, dz, -⟩ := C56_psi_ok .mcClureSmith hr (2 * m + 1) n hn
  obtain ⟨x, ex, ix, tx, cx, -, -, dx, -⟩ := C56_psi_ok .mcClureSmith hr (2 * m) n hn
  obtain ⟨z', x', w, ez', ex', hw, hb⟩ := C56_boundary_odd .mcClureSmith hr m n hn
  cases ez.symm.trans ez'
  cases ex.symm.trans ex'
  obtain ⟨u, v, ub, wv, t, h1, h2, h3, h4, h5, h6⟩ := cup_of_boundary (d := 2 * m)
    (inRing_transposition hr (some n)) (transposition_ne hr hn) ix iz dx (by rw [dz]; norm_cast) cx cz tx tz rfl hw hb
    hy hyd hya ty
  have hsg : pySign (((2 * m : Nat) : Int) + 1) = -1 := by
    unfold pySign; rw [if_neg (by omega)]
  rw [hsg] at h5
  exact ⟨z, x, u, v, ub, wv, t, ez, ex, h1, h2, h3, h4, h5, h6⟩

/-- `∂(psi(2m+2)(c)) = N * psi(2m+1)(c) + psi(2m+2)(∂c)` for every homogeneous chain `c` of simplices. -/
theorem C81_even {y : SElem} (hr : 2 ≤ r) (m : Nat) (hn : n ≠ 1) (hy : y.NF simplicial)
    (hyd : y.degree = some e) (hya : y.arity = some 1) (ty : y.torsion = n) :
    ∃ N x' x u v ub wv t, RingElem.normElement r (some n) = .ok N ∧
      Surjection.maySteenrodStructure r (2 * m + 2) (some n) .mcClureSmith = .ok x' ∧
      Surjection.maySteenrodStructure r (2 * m + 1) (some n) .mcClureSmith = .ok x ∧
      callSimplicial x' y = .ok u ∧ callSimplicial x y = .ok v ∧ callSimplicial x' y.boundary = .ok ub ∧
      IsTimesS N v wv ∧ add simplicial wv (smul simplicial 1 ub) = .ok t ∧ pyEq (u : SElem).boundary t = true := by
  obtain ⟨z, ez, iz, tz, cz, -, -, dz, -⟩ := C56_psi_ok .mcClureSmith hr (2 * m + 2) n hn
  obtain ⟨x, ex, ix, tx, cx, -, -, dx, -⟩ := C56_psi_ok .mcClureSmith hr (2 * m + 1) n hn
  obtain ⟨N, z', x', w, hN, ez', ex', hw, hb⟩ := C56_boundary_even .mcClureSmith hr m n hn
  cases ez.symm.trans ez'
  cases ex.symm.trans ex'
  obtain ⟨N', hN', iN, tN, -⟩ := norm_ok (r := r) (n := n) (by omega) hn
  cases hN.symm.trans hN'
  obtain ⟨u, v, ub, wv, t, h1, h2, h3, h4, h5, h6⟩ := cup_of_boundary (d := 2 * m + 1)
    iN (norm_ne hr hn hN) ix iz dx (by rw [dz]; norm_cast) cx cz tx tz tN hw hb hy hyd hya ty
  have hsg : pySign (((2 * m + 1 : Nat) : Int) + 1) = 1 := by
    unfold pySign; rw [if_pos (by omega)]
  rw [hsg] at h5
  exact ⟨N, z, x, u, v, ub, wv, t, hN, ez, ex, h1, h2, h3, h4, h5, h6⟩

/-- The same relation modulo 2 on cubical chains. -/
theorem cup_of_boundary_cubical {x x' w : SurjElem} {y : CElem} {d e N : Nat} (hs : InRing r s) (hsn : s.data ≠ [])
    (hx : InSurj r x) (hx' : InSurj r x') (hd : x.degree = some (d : Int)) (hd' : x'.degree = some ((d : Int) + 1))
    (tx : x.torsion = 2) (tx' : x'.torsion = 2) (ts : s.torsion = 2)
    (hw : SurjElem.rmul s x = .ok w) (hb : pyEq x'.boundary w = true)
    (hyd : y.degree = some e) (hya : y.arity = some 1)
    (hN : ∀ p ∈ y.data, ∀ c ∈ p.1, c.length = N ∧ ∀ v ∈ c, v ≤ 2) (ty : y.torsion = 2) :
    ∃ u du yb v ub wv t, callCubical x' y = .ok u ∧ u.boundary = .ok du ∧ y.boundary = .ok yb ∧
      callCubical x y = .ok v ∧ callCubical x' yb = .ok ub ∧ IsTimesC s v wv ∧
      add cubical wv ub = .ok t ∧ pyEq (du : CElem) t = true := by
  have hk := chomogeneous_keys hyd hya
  have hNl : ∀ p ∈ y.data, ∀ c ∈ p.1, c.length = N := fun p hp c hc => (hN p hp c hc).1
  obtain ⟨u, yb, du, zx, ub, t0, xb, eu, edu, hxb, eyb, ezx, eub, et0, h0⟩ :=
    C54_chain_map_mod_two hx' hd' hyd hya hN tx' ty le_rfl le_rfl
  subst hxb
  obtain ⟨sx, v, z, esx, ev, ez, hz0, hz1⟩ := C54_equivariant_mod_two hs hsn hx hd hyd hya hN tx ts ty
  cases hw.symm.trans esx
  have hxn : x.data ≠ [] := by
    rw [SurjElem.degree, uniqueValue_eq_some] at hd
    simpa using hd.1
  obtain ⟨p0, hp0⟩ := List.exists_mem_of_ne_nil _ hxn
  have hr : 1 ≤ r := one_le_of_mem hx hp0
  obtain ⟨sx', esx', nsx, asx, osx, dsx⟩ := (SurjElem.actSpec hr).ok s x hs hsn hx.nf hxn hx.onto (by rw [ts, tx])
  cases esx.symm.trans esx'
  have tsx : w.torsion = 2 := (torsion_congr asx).trans tx
  have hsx : ∀ p ∈ w.data, ((sdeg p.1 : Nat) : Int) = d := by
    intro p hp
    obtain ⟨z, ez, -, -, hdeg, -⟩ := C48_act_coeff hr hs hsn hx hxn (by rw [ts, tx])
    cases esx.symm.trans ez
    exact sdeg_of_degree ⟨nsx, osx⟩ ((hdeg d hd).resolve_left (List.ne_nil_of_mem hp)) hp
  have tb : x'.boundary.torsion = 2 := by rw [torsion_congr (SurjElem.boundary_attrs x'), tx']
  obtain ⟨zx', ezx', nzx, azx, dzx⟩ := callCubical_ok (d := (d : Int)) (inSurj_boundary hx')
    (fun p hp => by have := sdeg_boundary hx' hd' p hp; omega) hk hNl tb ty le_rfl le_rfl
  cases ezx.symm.trans ezx'
  obtain ⟨z', ez', nz, az, dz⟩ := callCubical_ok (d := (d : Int)) ⟨nsx, osx⟩ hsx hk hNl tsx ty le_rfl le_rfl
  cases ez.symm.trans ez'
  have tzx : zx.torsion = 2 := (torsion_congr azx).trans ty
  have tz : z.torsion = 2 := (torsion_congr az).trans ty
  have e1 : pyEq zx z = true := by
    refine pyEq_of_den (n := 2) nzx nz tzx tz ?_
    have := (pyEq_iff_den (SurjElem.nf_boundary x') nsx (by rw [tb, tsx])).1 hb
    rw [tb] at this
    rw [dzx, dz, this]
  obtain ⟨v', ev', nv, av, lxc⟩ := C54_arity_degree hx hd hyd hya hN (by rw [ty, tx]) le_rfl le_rfl
  cases ev.symm.trans ev'
  have tv : v.torsion = 2 := (torsion_congr av).trans ty
  have tyb : yb.torsion = 2 := (torsion_congr (cboundary_attrs eyb)).trans ty
  have hkb := cboundary_keys eyb hyd hya
  have hNb := cboundary_cubes eyb hN
  obtain ⟨ub', eub', nub, aub, -⟩ := callCubical_ok hx' (fun p hp => sdeg_of_degree hx' hd' hp) hkb
    (fun p hp c hc => (hNb p hp c hc).1) tx' tyb le_rfl le_rfl
  cases eub.symm.trans eub'
  have tub : ub.torsion = 2 := (torsion_congr aub).trans tyb
  obtain ⟨u', eu', nu, au, -⟩ := C54_arity_degree hx' hd' hyd hya hN (by rw [ty, tx']) le_rfl le_rfl
  cases eu.symm.trans eu'
  obtain ⟨wv, hwv, nwv, twv, hzw⟩ : ∃ wv, IsTimesC s v wv ∧ wv.NF cubical ∧ wv.torsion = 2 ∧
      pyEq z wv = true := by
    by_cases h : v.data = []
    · refine ⟨v, Or.inl ⟨h, rfl⟩, nv, tv, pyEq_of_den (n := 2) nz nv tz tv ?_⟩
      rw [h, hz0 h]
    · obtain ⟨wv, ew, hh⟩ := hz1 h
      have hxc : HasArity cubical r v := ⟨nv, h, fun p hp => by have := (lxc p hp).1; omega⟩
      obtain ⟨wv', ew', nw, aw, -⟩ := rmulG_ok (w := cdim) rfl cubical_any hs hsn hxc
        (n := 2) ts tv
      rw [← cubical_rmul_eq] at ew'
      cases ew.symm.trans ew'
      exact ⟨wv, Or.inr ⟨h, ew⟩, nw, (torsion_congr aw).trans tv, hh⟩
  have e2 : pyEq zx wv = true := pyEq_trans nzx nz nwv (by rw [tzx, tz]) (by rw [tz, twv]) e1 hzw
  obtain ⟨t, et, h3, nt, tt⟩ := add_congr_left (C := cubical) rfl nzx nwv nub
    (by rw [tzx, twv]) (by rw [tub, tzx]) e2 et0
  refine ⟨u, du, yb, v, ub, wv, t, eu, edu, eyb, ev, eub, hwv, et, ?_⟩
  exact pyEq_trans (nf_cboundary edu) (nf_add et0 nzx) nt
    (by rw [torsion_congr (cboundary_attrs edu), torsion_congr (attrs_add et0), tzx,
      torsion_congr au, ty]) tt.symm h0 h3

/-- `∂(psi(d+1)(c)) = s * psi(d)(c) + psi(d+1)(∂c)` modulo 2 for every homogeneous chain `c` of faces of one
cube, in both conventions; `s` is `T` when `d` is even and `N` when `d` is odd. -/
theorem C81_cubical {y : CElem} {e M : Nat} (c : Convention) (hr : 2 ≤ r) (d : Nat) (hyd : y.degree = some e)
    (hya : y.arity = some 1) (hN : ∀ p ∈ y.data, ∀ c ∈ p.1, c.length = M ∧ ∀ v ∈ c, v ≤ 2)
    (ty : y.torsion = 2) :
    ∃ s x' x u du yb v ub wv t,
      (d % 2 = 0 → s = RingElem.transpositionElement r (some 2)) ∧
      (d % 2 = 1 → RingElem.normElement r (some 2) = .ok s) ∧
      Surjection.maySteenrodStructure r (d + 1) (some 2) c = .ok x' ∧
      Surjection.maySteenrodStructure r d (some 2) c = .ok x ∧
      callCubical x' y = .ok u ∧ u.boundary = .ok du ∧ y.boundary = .ok yb ∧
      callCubical x y = .ok v ∧ callCubical x' yb = .ok ub ∧ IsTimesC s v wv ∧
      add cubical wv ub = .ok t ∧ pyEq (du : CElem) t = true := by
  have hn : 2 ≠ 1 := by decide
  obtain ⟨z, ez, iz, tz, cz, -, -, dz, -⟩ := C56_psi_ok c hr (d + 1) 2 hn
  obtain ⟨x, ex, ix, tx, cx, -, -, dx, -⟩ := C56_psi_ok c hr d 2 hn
  rcases Nat.mod_two_eq_zero_or_one d with h | h
  · obtain ⟨m, rfl⟩ : ∃ m, d = 2 * m := ⟨d / 2, by omega⟩
    obtain ⟨z', x', w, ez', ex', hw, hb⟩ := C56_boundary_odd c hr m 2 hn
    cases ez.symm.trans ez'
    cases ex.symm.trans ex'
    obtain ⟨u, du, yb, v, ub, wv, t, h1⟩ := cup_of_boundary_cubical (d := 2 * m)
      (inRing_transposition hr (some 2)) (transposition_ne hr hn) ix iz dx (by rw [dz]; norm_cast) tx tz rfl hw hb
      hyd hya hN ty
    exact ⟨_, z, x, u, du, yb, v, ub, wv, t, fun _ => rfl, fun h' => by omega, ez, ex, h1⟩
  · obtain ⟨m, rfl⟩ : ∃ m, d = 2 * m + 1 := ⟨d / 2, by omega⟩
    obtain ⟨N, z', x', w, hN', ez', ex', hw, hb⟩ := C56_boundary_even c hr m 2 hn
    cases ez.symm.trans ez'
    cases ex.symm.trans ex'
    obtain ⟨N', hN'', iN, tN, -⟩ := norm_ok (r := r) (n := 2) (by omega) hn
    cases hN'.symm.trans hN''
    obtain ⟨u, du, yb, v, ub, wv, t, h1⟩ := cup_of_boundary_cubical (d := 2 * m + 1)
      iN (norm_ne hr hn hN') ix iz dx (by rw [dz]; norm_cast) tx tz tN hw hb hyd hya hN ty
    exact ⟨N, z, x, u, du, yb, v, ub, wv, t, fun h' => by omega, fun _ => hN', ez, ex, h1⟩

/-- A chain on which no term of the relation vanishes. -/
example : (((Surjection.maySteenrodStructure 2 1 (some 0) .mcClureSmith).toOption.bind fun x =>
    (SurjElem.callSimplicial x (Simplicial.standardElement 2)).toOption.map fun u =>
      ((u.data.length, u.boundary.data.length)))) = some (3, 9) := by decide +kernel

end Props
end Comch
