import Verif.Props.SurjCall
import Verif.Props.SurjAction
import Verif.Props.BEMore
import Verif.Props.BECompose
import Verif.Props.Steenrod
import Verif.Props.OperadEquiv

/-! # C74, C75: orbits and boundaries; the Steenrod operations are cycles up to the action -/

namespace Comch.Props
open Elem Spec IsPerm BElem
open Finsupp (single)

variable {r : Nat}

/-- `ε` on vectors. -/
noncomputable def eps (R : Type) [CommRing R] (rep : Representation) : (Perm →₀ R) →ₗ[R] R :=
  Finsupp.linearCombination R fun σ => ((repSign rep σ : Int) : R)

theorem eps_single (R : Type) [CommRing R] (rep : Representation) (σ : Perm) (a : R) :
    eps R rep (single σ a) = a * ((repSign rep σ : Int) : R) := by simp [eps]

theorem eps_den (R : Type) [CommRing R] (rep : Representation) (d : List (Perm × Int)) :
    eps R rep (den R d) = (((d.map fun q => repSign rep q.1 * q.2).sum : Int) : R) := by
  induction d with
  | nil => simp
  | cons q d ih =>
    rw [den_cons, map_add, ih, List.map_cons, List.sum_cons, Int.cast_add, eps_single, Int.cast_mul, mul_comm]

theorem repSign_powL (rep : Representation) {p : List Nat} (hp : IsPerm r p) (k : Nat) :
    repSign rep (powL r p k) = repSign rep p ^ k := by
  induction k with
  | zero => rw [powL, repSign_id, pow_zero]
  | succ k ih => rw [powL, repSign_mulL rep (isPerm_powL hp k) hp, ih, pow_succ]

/-- In odd arity the cyclic permutation is even, and modulo 2 there are no signs. -/
theorem repSign_rho (rep : Representation) (hr : 1 ≤ r) (h : rep = .trivial ∨ r % 2 = 1) :
    repSign rep (RingElem.rho r) = 1 := by
  rcases h with rfl | h
  · rfl
  · have h1 := repSign_powL rep (isPerm_rho hr) r
    rw [powL_rho_self hr, repSign_id] at h1
    have h2 := repSign_mul_self rep (RingElem.rho r)
    obtain ⟨m, hm⟩ : ∃ m, r = 2 * m + 1 := ⟨r / 2, by omega⟩
    rw [hm, pow_succ, pow_mul, pow_two, ← hm, h2, one_pow, one_mul] at h1
    exact h1.symm

/-- The cases in which `ε(T) = 0` and `ε(N) = r`. -/
theorem repSign_rho_cast {n : Nat} (rep : Representation) (hr : 1 ≤ r) (h : rep = .trivial ∨ r % 2 = 1 ∨ n = 2) :
    ((repSign rep (RingElem.rho r) : Int) : ZMod n) = 1 := by
  rcases h with h | h | h
  · rw [repSign_rho rep hr (.inl h), Int.cast_one]
  · rw [repSign_rho rep hr (.inr h), Int.cast_one]
  · subst h
    have h2 := repSign_mul_self rep (RingElem.rho r)
    have h3 := congrArg (fun z : Int => (z : ZMod 2)) h2
    simp only [Int.cast_mul, Int.cast_one] at h3
    generalize ((repSign rep (RingElem.rho r) : Int) : ZMod 2) = a at h3
    revert a
    decide

theorem eps_transposition {n : Nat} (rep : Representation) (hr : 2 ≤ r) (h : rep = .trivial ∨ r % 2 = 1 ∨ n = 2) :
    eps (ZMod n) rep (den _ (RingElem.transpositionElement r (some n)).data) = 0 := by
  rw [den_transposition hr, map_sub, eps_single, eps_single, repSign_rho_cast rep (by omega) h, repSign_id]
  simp

theorem eps_norm {n : Nat} {N : RingElem} (rep : Representation) (hr : 1 ≤ r) (hn : n ≠ 1)
    (h : rep = .trivial ∨ r % 2 = 1 ∨ n = 2) (hN : RingElem.normElement r (some n) = .ok N) :
    eps (ZMod n) rep (den _ N.data) = r := by
  obtain ⟨N', h1, h2, h3, h4⟩ := norm_ok (r := r) (n := n) hr hn
  cases hN.symm.trans h1
  rw [h4, map_list_sum, List.map_map]
  have : (List.range r).map (eps (ZMod n) rep ∘ fun k => bv _ (powL r (RingElem.rho r) k)) =
      (List.range r).map fun _ => (1 : ZMod n) := by
    apply List.map_congr_left
    intro k _
    rw [Function.comp, eps_single, repSign_powL rep (isPerm_rho hr), Int.cast_pow, repSign_rho_cast rep hr h]
    simp
  rw [this]
  simp

theorem step_ne {n d : Nat} (hr : 2 ≤ r) (hn : n ≠ 1) {s : RingElem} (ds : den (ZMod n) s.data = stepV _ r (d + 1)) :
    s.data ≠ [] := by
  intro h0
  haveI : Nontrivial (ZMod n) := ZMod.nontrivial_iff.2 hn
  rw [h0, den_nil] at ds
  refine SurjMay.stepV_ne_zero (R := ZMod n) hr (SurjMay.psiS_supp (by omega) d) (SurjMay.psiS_ne_zero hr d) (d + 1) ?_
  rw [← ds]; simp

theorem transposition_ne {n : Nat} (hr : 2 ≤ r) (hn : n ≠ 1) :
    (RingElem.transpositionElement r (some n)).data ≠ [] :=
  step_ne (d := 0) hr hn (by rw [den_transposition hr, stepV, if_neg (by omega)])

theorem norm_ne {n : Nat} {N : RingElem} (hr : 2 ≤ r) (hn : n ≠ 1) (hN : RingElem.normElement r (some n) = .ok N) :
    N.data ≠ [] := by
  obtain ⟨N', h1, h2, h3, h4⟩ := norm_ok (r := r) (n := n) (by omega) hn
  cases hN.symm.trans h1
  exact step_ne (d := 1) hr hn (by rw [h4, stepV, if_pos (by omega)])

/-! ## Surjections -/

section Surj
variable {x : SurjElem}

theorem sorbit_ok (hr : 1 ≤ r) (hx : InSurj r x) (rep : Representation) {a : Attrs} (ha : x.attrs = a) :
    ∃ z, SurjElem.orbit x rep = .ok z ∧ InSurj r z ∧ z.attrs = a ∧
      den (ZMod a.torsion) z.data = lin (SurjElem.orbS a r rep) (den _ x.data) := by
  subst ha
  exact SurjElem.orbit_ok hr hx rep

theorem lin_orbS_actS (a : Attrs) (rep : Representation) {σ : Perm} (hσ : IsPerm r σ) (hr : 1 ≤ r)
    {v : Surj →₀ ZMod a.torsion} (hv : v ∈ Finsupp.supported _ (ZMod a.torsion) {m | Onto r m}) :
    lin (SurjElem.orbS a r rep) (lin (SurjElem.actS a σ) v) =
      ((repSign rep σ : Int) : ZMod a.torsion) • lin (SurjElem.orbS a r rep) v := by
  refine BElem.lin_ext_supported (f := (lin (SurjElem.orbS a r rep)).comp (lin (SurjElem.actS a σ)))
    (g := ((repSign rep σ : Int) : ZMod a.torsion) • lin (SurjElem.orbS a r rep)) ?_ hv
  intro k hk
  rw [LinearMap.comp_apply, LinearMap.smul_apply, lin_single, lin_single, one_smul, one_smul,
    SurjElem.orbS_actS a rep hσ hk hr]

/-- `x.orbit(rep).boundary().orbit(rep) == x.boundary().orbit(rep)`: the boundary is defined on orbits. -/
theorem C74_surjection (hr : 1 ≤ r) (hx : InSurj r x) (rep : Representation) :
    ∃ o z w, SurjElem.orbit x rep = .ok o ∧ SurjElem.orbit o.boundary rep = .ok z ∧
      SurjElem.orbit x.boundary rep = .ok w ∧ pyEq z w = true := by
  obtain ⟨o, eo, ho, ao, do1⟩ := sorbit_ok hr hx rep rfl
  obtain ⟨z, ez, hz, az, dz⟩ := sorbit_ok hr (SurjElem.inSurj_boundary ho) rep
    ((SurjElem.boundary_attrs o).trans ao)
  obtain ⟨w, ew, hw, aw, dw⟩ := sorbit_ok hr (SurjElem.inSurj_boundary hx) rep (SurjElem.boundary_attrs x)
  refine ⟨o, z, w, eo, ez, ew, pyEq_of_den (n := x.torsion) hz.nf hw.nf (torsion_congr az) (torsion_congr aw) ?_⟩
  rw [Elem.torsion, dz, dw, SurjElem.den_boundary ho.nf (torsion_congr ao), SurjElem.den_boundary hx.nf rfl, ao, do1]
  refine den_induction (P := fun u => lin (SurjElem.orbS x.attrs r rep) (pr surjection.drops
    (sbd x.attrs.convention (lin (SurjElem.orbS x.attrs r rep) u))) =
    lin (SurjElem.orbS x.attrs r rep) (pr surjection.drops (sbd x.attrs.convention u))) x.data (by simp)
    (fun u v hu hv => by simp only [map_add, hu, hv]) ?_
  intro p hp
  have hk : Onto r p.1 := hx.onto p hp
  have hq := SurjElem.isPerm_seen hk
  have hi := isPerm_invL hq
  have hb : sbd x.attrs.convention (bv (ZMod x.attrs.torsion) p.1) ∈
      Finsupp.supported _ (ZMod x.attrs.torsion) {m | Onto r m} :=
    SurjElem.sbd_supp (Finsupp.single_mem_supported _ _ hk)
  have e : single p.1 (p.2 : ZMod x.torsion) = (p.2 : ZMod x.attrs.torsion) • bv _ p.1 := by simp
  rw [e]
  simp only [map_smul]
  congr 1
  rw [lin_single, one_smul, SurjElem.orbS]
  simp only [map_smul]
  rw [SurjElem.sbd_actS x.attrs hi hk, SurjElem.pr_actS x.attrs hi hb,
    lin_orbS_actS x.attrs rep hi hr (BElem.pr_supported hb), smul_smul, ← Int.cast_mul]
  have h1 : repSign rep p.1.eraseDups * repSign rep (invL r p.1.eraseDups) = 1 := by
    rw [← repSign_mulL rep hq hi, mulL_invL hq, repSign_id]
  rw [h1, Int.cast_one, one_smul]

/-- Orbits of boundaries which come from the action of a ring element. -/
theorem orbit_of_act (hr : 1 ≤ r) {n : Nat} {s : RingElem} {b w : SurjElem} (hs : InRing r s) (hsn : s.data ≠ [])
    (hx : InSurj r x) (hxn : x.data ≠ []) (ts : s.torsion = n) (tx : x.torsion = n) (hb : InSurj r b)
    (ab : b.attrs = x.attrs) (ew : SurjElem.rmul s x = .ok w) (e : pyEq b w = true) (rep : Representation) :
    ∃ z o, SurjElem.orbit b rep = .ok z ∧ InSurj r z ∧ z.attrs = x.attrs ∧ SurjElem.orbit x rep = .ok o ∧
      InSurj r o ∧ o.attrs = x.attrs ∧
      den (ZMod n) z.data = eps (ZMod n) rep (den _ s.data) • den _ o.data := by
  subst tx
  obtain ⟨w', ew', nw, aw, ow, dw⟩ := (SurjElem.actSpec hr).ok s x hs hsn hx.nf hxn hx.onto ts
  cases ew.symm.trans ew'
  obtain ⟨z, ez, hz, az, dz⟩ := sorbit_ok hr hb rep ab
  obtain ⟨o, eo, ho, ao, do1⟩ := sorbit_ok hr hx rep rfl
  refine ⟨z, o, ez, hz, az, eo, ho, ao, ?_⟩
  have hbw : den (ZMod x.torsion) b.data = den _ w.data := by
    have h := (pyEq_iff_den hb.nf nw (torsion_congr (ab.trans aw.symm))).1 e
    rwa [show b.torsion = x.torsion from torsion_congr ab] at h
  show den (ZMod x.attrs.torsion) z.data = _
  rw [dz]
  show lin (SurjElem.orbS x.attrs r rep) (den (ZMod x.torsion) b.data) = _
  rw [hbw, dw, eps_den]
  show _ = _ • den (ZMod x.attrs.torsion) o.data
  rw [do1]
  have key := C49_orbit_act hr hs hsn hx hxn ts rep
  obtain ⟨sx, z', w', e1, e2, e3, e4⟩ := key
  cases ew.symm.trans e1
  cases eo.symm.trans e3
  obtain ⟨z'', ez'', hz'', az'', dz''⟩ := sorbit_ok hr ⟨nw, ow⟩ rep aw
  cases e2.symm.trans ez''
  have h5 := (pyEq_iff_den hz''.nf (nf_smul ho.nf _) (by rw [smul_torsion]; exact torsion_congr (az''.trans ao.symm))).1 e4
  rw [show z'.torsion = x.torsion from torsion_congr az'', den_smul ho.nf _ (by simp [surjection])
    (by rw [show o.torsion = x.torsion from torsion_congr ao]; simp)] at h5
  rw [← do1, ← dw]
  exact dz''.symm.trans h5

theorem inSurj_smul (hx : InSurj r x) (c : Int) : InSurj r (smul surjection c x) := by
  refine ⟨nf_smul hx.nf c, fun p hp => ?_⟩
  have h := mem_keys_create (List.mem_map_of_mem (f := Prod.fst) hp)
  simp only [List.map_map, List.mem_map, Function.comp] at h
  obtain ⟨q, hq, e⟩ := h
  rw [← e]
  exact hx.onto q hq

/-- Orbits of boundaries of the structure elements of odd and of even degree: `psi(2m+1).boundary().orbit() == 0`
and `psi(2m+2).boundary().orbit() == r * psi(2m+1).orbit()`, for the trivial representation, and for the
sign representation in odd arity or with torsion 2. -/
theorem C75_psi_surjection (c : Convention) (hr : 2 ≤ r) (m n : Nat) (hn : n ≠ 1) (rep : Representation)
    (h : rep = .trivial ∨ r % 2 = 1 ∨ n = 2) :
    (∃ z w, Surjection.maySteenrodStructure r (2 * m + 1) (some n) c = .ok z ∧
      SurjElem.orbit z.boundary rep = .ok w ∧ w.data = []) ∧
    ∃ z x w o, Surjection.maySteenrodStructure r (2 * m + 2) (some n) c = .ok z ∧
      Surjection.maySteenrodStructure r (2 * m + 1) (some n) c = .ok x ∧
      SurjElem.orbit z.boundary rep = .ok w ∧ SurjElem.orbit x rep = .ok o ∧
      pyEq w (smul surjection r o) = true := by
  have attrs : ∀ d z, Surjection.maySteenrodStructure r d (some n) c = .ok z → InSurj r z ∧ z.data ≠ [] ∧
      z.attrs = ⟨n, c⟩ := by
    intro d z ez
    obtain ⟨z1, ez1, hz1, az1, _⟩ := surjMay_ok c hr d n
    obtain ⟨z2, ez2, hz2, _, _, ne2, _⟩ := C56_psi_ok c hr d n hn
    cases ez.symm.trans ez1
    cases ez.symm.trans ez2
    exact ⟨hz1, ne2, az1⟩
  constructor
  · obtain ⟨z, x, w, ez, ex, ew, e⟩ := C56_boundary_odd c hr m n hn
    obtain ⟨hz, _, az⟩ := attrs _ _ ez
    obtain ⟨hx, xne, ax⟩ := attrs _ _ ex
    obtain ⟨o1, o2, e1, h1, a1, e2, h2, a2, d⟩ := orbit_of_act (n := n) (by omega) (inRing_transposition hr (some n))
      (transposition_ne hr hn) hx xne rfl (by rw [Elem.torsion, ax]) (SurjElem.inSurj_boundary hz)
      ((SurjElem.boundary_attrs z).trans (az.trans ax.symm)) ew e rep
    refine ⟨z, o1, ez, e1, ?_⟩
    rw [eps_transposition rep hr h, zero_smul] at d
    exact nil_of_den h1.nf (by rw [torsion_congr a1, Elem.torsion, ax]) d
  · obtain ⟨N, z, x, w, eN, ez, ex, ew, e⟩ := C56_boundary_even c hr m n hn
    obtain ⟨hz, _, az⟩ := attrs _ _ ez
    obtain ⟨hx, xne, ax⟩ := attrs _ _ ex
    obtain ⟨N', eN', hN, tN, _⟩ := norm_ok (r := r) (n := n) (by omega) hn
    cases eN.symm.trans eN'
    obtain ⟨o1, o2, e1, h1, a1, e2, h2, a2, d⟩ := orbit_of_act (n := n) (by omega) hN
      (norm_ne hr hn eN) hx xne tN (by rw [Elem.torsion, ax]) (SurjElem.inSurj_boundary hz)
      ((SurjElem.boundary_attrs z).trans (az.trans ax.symm)) ew e rep
    have tx : x.torsion = n := by rw [Elem.torsion, ax]
    refine ⟨z, x, o1, o2, ez, ex, e1, e2, pyEq_of_den (n := n) h1.nf (nf_smul h2.nf _)
      ((torsion_congr a1).trans tx) ((torsion_congr a2).trans tx) ?_⟩
    rw [eps_norm rep (by omega) hn h eN] at d
    rw [d, den_smul h2.nf _ (by simp [surjection]) (by rw [torsion_congr a2, tx]; simp)]
    simp

/-- The structure elements modulo the arity: the boundary vanishes on orbits. -/
theorem psi_cycle (c : Convention) (hr : 2 ≤ r) (d : Nat) (rep : Representation)
    (h : rep = .trivial ∨ r % 2 = 1 ∨ r = 2) :
    ∃ z w, Surjection.maySteenrodStructure r d (some r) c = .ok z ∧ InSurj r z ∧ z.attrs = ⟨r, c⟩ ∧
      SurjElem.orbit z.boundary rep = .ok w ∧ InSurj r w ∧ w.data = [] := by
  obtain ⟨z, ez, hz, az, _⟩ := surjMay_ok c hr d r
  obtain ⟨w, ew, hw, aw, _⟩ := sorbit_ok (by omega) (SurjElem.inSurj_boundary hz) rep rfl
  refine ⟨z, w, ez, hz, az, ew, hw, ?_⟩
  rcases Nat.eq_zero_or_pos d with rfl | hd
  · have hb : z.boundary.data = [] := by
      by_contra hne
      obtain ⟨p, hp⟩ := List.exists_mem_of_ne_nil _ hne
      obtain ⟨q, hq, i, hi, h2, _⟩ := SurjElem.mem_keys_boundary hz.nf (List.mem_map_of_mem (f := Prod.fst) hp)
      obtain ⟨z2, ez2, _, _, _, _, _, hd2, _⟩ := C56_psi_ok c hr 0 r (by omega)
      cases ez.symm.trans ez2
      have hs := SurjElem.sdeg_of_degree hz hd2 hq
      have hc := SurjComp.sdeg_card q.1
      have hnd : q.1.Nodup := by
        rw [← Multiset.coe_nodup, ← Multiset.toFinset_card_eq_card_iff_nodup]
        simp only [Multiset.coe_card]
        show q.1.toFinset.card = _
        omega
      have := List.nodup_iff_count_le_one.1 hnd (q.1.getD i 0)
      omega
    unfold SurjElem.orbit at ew
    rw [hb] at ew
    cases ew
    exact zero_data _ _
  · rcases Nat.even_or_odd' d with ⟨m, rfl | rfl⟩
    · obtain ⟨_, z', x, w', o, ez', ex, ew', eo, e⟩ := C75_psi_surjection c hr (m - 1) r (by omega) rep h
      rw [show 2 * (m - 1) + 2 = 2 * m by omega] at ez'
      cases ez.symm.trans ez'
      cases ew.symm.trans ew'
      obtain ⟨x2, ex2, hx2, ax2, _⟩ := surjMay_ok c hr (2 * (m - 1) + 1) r
      cases ex.symm.trans ex2
      obtain ⟨o', eo', ho, ao, _⟩ := sorbit_ok (by omega) hx2 rep rfl
      cases eo.symm.trans eo'
      have tb : w.torsion = r := by
        rw [Elem.torsion, aw]; exact (torsion_congr (SurjElem.boundary_attrs z)).trans (by rw [Elem.torsion, az])
      have tor : o.torsion = r := by rw [Elem.torsion, ao, ax2]
      have h3 := (pyEq_iff_den hw.nf (nf_smul ho.nf _) (by rw [smul_torsion, tb, tor])).1 e
      rw [tb, den_smul ho.nf _ (by simp [surjection]) (by rw [tor]; simp)] at h3
      exact nil_of_den hw.nf tb (by rw [h3]; simp)
    · obtain ⟨⟨z', w', ez', ew', e⟩, _⟩ := C75_psi_surjection c hr m r (by omega) rep h
      cases ez.symm.trans ez'
      cases ew.symm.trans ew'
      exact e

/-- Every element returned by `steenrod_operation(p, s, q, bockstein, convention)` at a prime `p` is a cycle up to
the action of the symmetric group: `x.boundary().orbit(rep) == 0`, for both representations. -/
theorem C75_steenrod_surjection (p : Nat) [hp : Fact p.Prime] (s q : Int) (b : Bool) (c : Convention)
    (rep : Representation) {z : SurjElem} (hz : Surjection.steenrodOperation p s q b c = .ok z) :
    ∃ w, SurjElem.orbit z.boundary rep = .ok w ∧ w.data = [] := by
  have hp2 : 2 ≤ p := hp.out.two_le
  have hodd : p % 2 = 1 ∨ p = 2 := by rcases hp.out.eq_two_or_odd with h | h <;> omega
  have zero : ∀ (n : Nat), ∃ w, SurjElem.orbit (SurjElem.boundary (Elem.new surjection [] (some n))) rep = .ok w ∧
      w.data = [] := by
    intro n
    have h00 : (Elem.new surjection [] (some n) : SurjElem).data = [] := by
      simp [Elem.new, preferredRep, zeroDropped, basePreferredRep]
    have h0 : InSurj p (Elem.new surjection [] (some n)) := ⟨nf_new _ (by simp [Dict.KeysNodup]) _ _, by simp [h00]⟩
    obtain ⟨w, ew, hw, aw, dw⟩ := sorbit_ok (by omega) (SurjElem.inSurj_boundary h0) rep rfl
    refine ⟨w, ew, nil_of_den hw.nf (torsion_congr aw) ?_⟩
    refine dw.trans ?_
    rw [SurjElem.den_boundary h0.nf (torsion_congr (SurjElem.boundary_attrs _)).symm, h00, den_nil]
    simp only [map_zero]
  have scaled : ∀ (v : Int) (d : Nat) (m : SurjElem), Surjection.maySteenrodStructure p d (some p) c = .ok m →
      ∃ w, SurjElem.orbit (SurjElem.boundary (smul surjection v m)) rep = .ok w ∧ w.data = [] := by
    intro v d m em
    obtain ⟨m', o, em', hm, am, eo, ho, o0⟩ := psi_cycle c hp2 d rep (.inr hodd)
    cases em.symm.trans em'
    have tm : m.torsion = p := by rw [Elem.torsion, am]
    have hs := inSurj_smul hm v
    obtain ⟨o', eo', _, ao, do1⟩ := sorbit_ok (by omega) (SurjElem.inSurj_boundary hm) rep (a := m.attrs)
      (SurjElem.boundary_attrs m)
    cases eo.symm.trans eo'
    obtain ⟨w, ew, hw, aw, dw⟩ := sorbit_ok (by omega) (SurjElem.inSurj_boundary hs) rep (a := m.attrs)
      (SurjElem.boundary_attrs _)
    refine ⟨w, ew, nil_of_den hw.nf (torsion_congr aw) ?_⟩
    rw [o0, den_nil, SurjElem.den_boundary hm.nf (n := m.attrs.torsion) rfl] at do1
    refine dw.trans ?_
    rw [SurjElem.den_boundary hs.nf (n := m.attrs.torsion) rfl, den_smul hm.nf v (by simp [surjection])
      (by show ((m.attrs.torsion : Nat) : ZMod m.attrs.torsion) = 0; simp)]
    simp only [map_smul, smul_attrs]
    rw [← do1, smul_zero]
  unfold Surjection.steenrodOperation at hz
  split at hz
  · rename_i h
    split at hz
    · cases hz
    · split at hz
      · cases hz; exact zero 2
      · cases em : Surjection.maySteenrodStructure p (s - q).toNat (some p) c with
        | error e => rw [em] at hz; cases hz
        | ok m =>
          rw [em] at hz
          cases hz
          exact scaled 1 _ m em
  · dsimp only at hz
    cases ec : steenrodCoeff p s q with
    | error e => rw [ec] at hz; split at hz <;> cases hz
    | ok v =>
      rw [ec] at hz
      split at hz
      · cases hz; exact zero p
      · cases em : Surjection.maySteenrodStructure p (steenrodDegree p s q b).toNat (some p) c with
        | error e => rw [em] at hz; cases hz
        | ok m =>
          rw [em] at hz
          cases hz
          exact scaled v _ m em

end Surj

/-! ## Barratt–Eccles -/

section BE
variable {x : BElem}

theorem borbit_ok (hr : 1 ≤ r) (hx : InBE r x) (rep : Representation) {n : Nat} (hn : x.torsion = n) :
    ∃ z, BElem.orbit x rep = .ok z ∧ InBE r z ∧ z.torsion = n ∧
      den (ZMod n) z.data = lin (BElem.orbK _ r rep) (den _ x.data) := by
  subst hn
  exact BElem.orbit_ok hr hx rep

theorem lin_orbK_trL {R : Type} [CommRing R] (rep : Representation) {σ : Perm} (hσ : IsPerm r σ) {v : BKey →₀ R}
    (hv : v ∈ Finsupp.supported R R {m : BKey | m ≠ [] ∧ ∀ τ ∈ m, IsPerm r τ}) :
    lin (BElem.orbK R r rep) (mapK (BElem.trL σ) v) =
      ((repSign rep σ : Int) : R) • lin (BElem.orbK R r rep) v := by
  refine BElem.lin_ext_supported (f := (lin (BElem.orbK R r rep)).comp (mapK (BElem.trL σ)))
    (g := ((repSign rep σ : Int) : R) • lin (BElem.orbK R r rep)) ?_ hv
  intro k hk
  rw [LinearMap.comp_apply, LinearMap.smul_apply, mapK_single, lin_single, lin_single, one_smul, one_smul,
    BElem.orbK_trL hσ hk.1 hk.2]

theorem pr_delK_supp {R : Type} [CommRing R] {k : BKey} (hk : ∀ τ ∈ k, IsPerm r τ) :
    pr barrattEccles.drops (delK (R := R) k) ∈ Finsupp.supported R R {m : BKey | m ≠ [] ∧ ∀ τ ∈ m, IsPerm r τ} := by
  refine lin_supported (S := {m : BKey | ∀ τ ∈ m, IsPerm r τ}) _ (fun m hm => ?_) (BElem.delK_supported hk)
  split
  · exact Submodule.zero_mem _
  · rename_i h
    refine Finsupp.single_mem_supported _ _ ⟨?_, hm⟩
    rintro rfl
    exact h (by decide)

/-- `x.orbit(rep).boundary().orbit(rep) == x.boundary().orbit(rep)`: the boundary is defined on orbits. -/
theorem C74_barratt_eccles (hr : 1 ≤ r) (hx : InBE r x) (rep : Representation) :
    ∃ o z w, BElem.orbit x rep = .ok o ∧ BElem.orbit o.boundary rep = .ok z ∧
      BElem.orbit x.boundary rep = .ok w ∧ pyEq z w = true := by
  obtain ⟨o, eo, ho, ao, do1⟩ := borbit_ok hr hx rep rfl
  obtain ⟨z, ez, hz, az, dz⟩ := borbit_ok hr (BElem.inBE_boundary ho) rep
    ((torsion_congr (BElem.boundary_attrs o)).trans ao)
  obtain ⟨w, ew, hw, aw, dw⟩ := borbit_ok hr (BElem.inBE_boundary hx) rep (torsion_congr (BElem.boundary_attrs x))
  refine ⟨o, z, w, eo, ez, ew, pyEq_of_den (n := x.torsion) hz.nf hw.nf az aw ?_⟩
  rw [dz, dw, BElem.den_boundary o ao, BElem.den_boundary x rfl, do1]
  refine den_induction (P := fun u => lin (BElem.orbK _ r rep) (pr barrattEccles.drops
    (del (lin (BElem.orbK _ r rep) u))) =
    lin (BElem.orbK _ r rep) (pr barrattEccles.drops (del u))) x.data (by simp)
    (fun u v hu hv => by simp only [map_add, hu, hv]) ?_
  intro p hp
  have hk := hx.perm p hp
  have hq := hk _ (BElem.headD_mem (BElem.key_ne_nil hx.nf hp))
  have hi := isPerm_invL hq
  have e : single p.1 (p.2 : ZMod x.torsion) = (p.2 : ZMod x.torsion) • bv _ p.1 := by simp
  rw [e]
  simp only [map_smul]
  congr 1
  rw [lin_single, one_smul, BElem.orbK]
  simp only [map_smul, del, lin_single, one_smul]
  have hd : delK (R := ZMod x.torsion) (BElem.trL (invL r (p.1.headD [])) p.1) =
      mapK (BElem.trL (invL r (p.1.headD []))) (delK p.1) := BElem.delK_map _ _
  rw [hd, pr_mapK_trL' hi (BElem.delK_supported hk), lin_orbK_trL rep hi (pr_delK_supp hk), smul_smul, ← Int.cast_mul]
  have h1 : repSign rep (p.1.headD []) * repSign rep (invL r (p.1.headD [])) = 1 := by
    rw [← repSign_mulL rep hq hi, mulL_invL hq, repSign_id]
  rw [h1, Int.cast_one, one_smul]

theorem borbit_of_act (hr : 1 ≤ r) {n : Nat} {s : RingElem} {b w : BElem} (hs : InRing r s) (hsn : s.data ≠ [])
    (hx : InBE r x) (hxn : x.data ≠ []) (ts : s.torsion = n) (tx : x.torsion = n) (hb : InBE r b)
    (tb : b.torsion = n) (ew : BElem.rmul s x = .ok w) (e : pyEq b w = true) (rep : Representation) :
    ∃ z o, BElem.orbit b rep = .ok z ∧ InBE r z ∧ z.torsion = n ∧ BElem.orbit x rep = .ok o ∧
      InBE r o ∧ o.torsion = n ∧
      den (ZMod n) z.data = eps (ZMod n) rep (den _ s.data) • den _ o.data := by
  obtain ⟨w', ew', hw, tw, dw⟩ := BElem.rmul_den hr hs hsn hx hxn ts tx
  cases ew.symm.trans ew'
  obtain ⟨z, ez, hz, tz, dz⟩ := borbit_ok hr hb rep tb
  obtain ⟨o, eo, ho, to', do1⟩ := borbit_ok hr hx rep tx
  refine ⟨z, o, ez, hz, tz, eo, ho, to', ?_⟩
  have hbw : den (ZMod n) b.data = den _ w.data := by
    have h := (pyEq_iff_den hb.nf hw.nf (tb.trans tw.symm)).1 e
    rwa [tb] at h
  obtain ⟨sx, z', w', e1, e2, e3, e4⟩ := C38_orbit_act hr hs hsn hx hxn (ts.trans tx.symm) rep
  cases ew.symm.trans e1
  cases eo.symm.trans e3
  obtain ⟨z'', ez'', hz'', tz'', dz''⟩ := borbit_ok hr hw rep tw
  cases e2.symm.trans ez''
  have h5 := (pyEq_iff_den hz''.nf (nf_smul ho.nf _) (by rw [smul_torsion, tz'', to'])).1 e4
  rw [tz'', den_smul ho.nf _ (by simp) (by rw [to']; simp)] at h5
  rw [dz, hbw, ← dz'', h5, eps_den]

theorem inBE_smul (hx : InBE r x) (c : Int) : InBE r (smul barrattEccles c x) := by
  refine ⟨nf_smul hx.nf c, fun p hp => ?_⟩
  have h := mem_keys_create (List.mem_map_of_mem (f := Prod.fst) hp)
  simp only [List.map_map, List.mem_map, Function.comp] at h
  obtain ⟨q, hq, e⟩ := h
  rw [← e]
  exact hx.perm q hq

/-- `psi(2m+1).boundary().orbit() == 0` and `psi(2m+2).boundary().orbit() == r * psi(2m+1).orbit()`, for the trivial
representation, and for the sign representation in odd arity or with torsion 2. -/
theorem C75_psi_barratt_eccles (hr : 2 ≤ r) (m n : Nat) (hn : n ≠ 1) (rep : Representation)
    (h : rep = .trivial ∨ r % 2 = 1 ∨ n = 2) :
    (∃ z w, BarrattEccles.maySteenrodStructure r (2 * m + 1) (some n) = .ok z ∧
      BElem.orbit z.boundary rep = .ok w ∧ w.data = []) ∧
    ∃ z x w o, BarrattEccles.maySteenrodStructure r (2 * m + 2) (some n) = .ok z ∧
      BarrattEccles.maySteenrodStructure r (2 * m + 1) (some n) = .ok x ∧
      BElem.orbit z.boundary rep = .ok w ∧ BElem.orbit x rep = .ok o ∧
      pyEq w (smul barrattEccles r o) = true := by
  have attrs : ∀ d z, BarrattEccles.maySteenrodStructure r d (some n) = .ok z → InBE r z ∧ z.data ≠ [] ∧
      z.torsion = n := by
    intro d z ez
    obtain ⟨z2, ez2, hz2, t2, ne2, _⟩ := C46_psi_ok hr d n hn
    cases ez.symm.trans ez2
    exact ⟨hz2, ne2, t2⟩
  constructor
  · obtain ⟨z, x, w, ez, ex, ew, e⟩ := C46_boundary_odd hr m n hn
    obtain ⟨hz, _, az⟩ := attrs _ _ ez
    obtain ⟨hx, xne, ax⟩ := attrs _ _ ex
    obtain ⟨o1, o2, e1, h1, a1, e2, h2, a2, d⟩ := borbit_of_act (n := n) (by omega) (inRing_transposition hr (some n))
      (transposition_ne hr hn) hx xne rfl ax (BElem.inBE_boundary hz)
      ((torsion_congr (BElem.boundary_attrs z)).trans az) ew e rep
    refine ⟨z, o1, ez, e1, ?_⟩
    rw [eps_transposition rep hr h, zero_smul] at d
    exact nil_of_den h1.nf a1 d
  · obtain ⟨N, z, x, w, eN, ez, ex, ew, e⟩ := C46_boundary_even hr m n hn
    obtain ⟨hz, _, az⟩ := attrs _ _ ez
    obtain ⟨hx, xne, ax⟩ := attrs _ _ ex
    obtain ⟨N', eN', hN, tN, _⟩ := norm_ok (r := r) (n := n) (by omega) hn
    cases eN.symm.trans eN'
    obtain ⟨o1, o2, e1, h1, a1, e2, h2, a2, d⟩ := borbit_of_act (n := n) (by omega) hN
      (norm_ne hr hn eN) hx xne tN ax (BElem.inBE_boundary hz)
      ((torsion_congr (BElem.boundary_attrs z)).trans az) ew e rep
    refine ⟨z, x, o1, o2, ez, ex, e1, e2, pyEq_of_den (n := n) h1.nf (nf_smul h2.nf _) a1 a2 ?_⟩
    rw [eps_norm rep (by omega) hn h eN] at d
    rw [d, den_smul h2.nf _ (by simp) (by rw [a2]; simp)]
    simp

theorem bpsi_cycle (hr : 2 ≤ r) (d : Nat) (rep : Representation) (h : rep = .trivial ∨ r % 2 = 1 ∨ r = 2) :
    ∃ z w, BarrattEccles.maySteenrodStructure r d (some r) = .ok z ∧ InBE r z ∧ z.torsion = r ∧
      BElem.orbit z.boundary rep = .ok w ∧ InBE r w ∧ w.torsion = r ∧ w.data = [] := by
  obtain ⟨z, ez, hz, tz, _, _, hdeg, _⟩ := C46_psi_ok hr d r (by omega)
  obtain ⟨w, ew, hw, tw, _⟩ := borbit_ok (by omega) (BElem.inBE_boundary hz) rep
    ((torsion_congr (BElem.boundary_attrs z)).trans tz)
  refine ⟨z, w, ez, hz, tz, ew, hw, tw, ?_⟩
  rcases Nat.eq_zero_or_pos d with rfl | hd
  · have hb : z.boundary.data = [] := by
      by_contra hne
      obtain ⟨p, hp⟩ := List.exists_mem_of_ne_nil _ hne
      obtain ⟨q, hq, i, hi, he⟩ := BElem.mem_keys_boundary (List.mem_map_of_mem (f := Prod.fst) hp)
      have hl := (hom_of_degree hz hdeg).len q hq
      have : p.1.length = 0 := by rw [he, List.length_eraseIdx_of_lt hi]; omega
      exact BElem.key_ne_nil (BElem.nf_boundary z) hp (List.length_eq_zero_iff.1 this)
    unfold BElem.orbit at ew
    rw [if_pos (by simp [truthy, hb])] at ew
    cases ew
    exact hb
  · rcases Nat.even_or_odd' d with ⟨m, rfl | rfl⟩
    · obtain ⟨_, z', x, w', o, ez', ex, ew', eo, e⟩ := C75_psi_barratt_eccles hr (m - 1) r (by omega) rep h
      rw [show 2 * (m - 1) + 2 = 2 * m by omega] at ez'
      cases ez.symm.trans ez'
      cases ew.symm.trans ew'
      obtain ⟨x2, ex2, hx2, tx2, _⟩ := C46_psi_ok hr (2 * (m - 1) + 1) r (by omega)
      cases ex.symm.trans ex2
      obtain ⟨o', eo', ho, tor, _⟩ := borbit_ok (by omega) hx2 rep tx2
      cases eo.symm.trans eo'
      have h3 := (pyEq_iff_den hw.nf (nf_smul ho.nf _) (by rw [smul_torsion, tw, tor])).1 e
      rw [tw, den_smul ho.nf _ (by simp) (by rw [tor]; simp)] at h3
      exact nil_of_den hw.nf tw (by rw [h3]; simp)
    · obtain ⟨⟨z', w', ez', ew', e⟩, _⟩ := C75_psi_barratt_eccles hr m r (by omega) rep h
      cases ez.symm.trans ez'
      cases ew.symm.trans ew'
      exact e

/-- Every element returned by `steenrod_operation(p, s, q, bockstein)` of the Barratt–Eccles operad at a prime `p`
is a cycle up to the action: `x.boundary().orbit(rep) == 0`. -/
theorem C75_steenrod_barratt_eccles (p : Nat) [hp : Fact p.Prime] (s q : Int) (b : Bool)
    (rep : Representation) {z : BElem} (hz : BarrattEccles.steenrodOperation p s q b = .ok z) :
    ∃ w, BElem.orbit z.boundary rep = .ok w ∧ w.data = [] := by
  have hp2 : 2 ≤ p := hp.out.two_le
  have hodd : p % 2 = 1 ∨ p = 2 := by rcases hp.out.eq_two_or_odd with h | h <;> omega
  have zero : ∀ (n : Nat), ∃ w, BElem.orbit (BElem.boundary (Elem.new barrattEccles [] (some n))) rep = .ok w ∧
      w.data = [] := by
    intro n
    have h00 : (Elem.new barrattEccles [] (some n) : BElem).data = [] := by
      simp [Elem.new, preferredRep, zeroDropped, basePreferredRep]
    have h0 : InBE p (Elem.new barrattEccles [] (some n)) :=
      ⟨nf_new _ (by simp [Dict.KeysNodup]) _ _, by simp [h00]⟩
    obtain ⟨w, ew, hw, tw, dw⟩ := borbit_ok (by omega) (BElem.inBE_boundary h0) rep rfl
    refine ⟨w, ew, nil_of_den hw.nf tw ?_⟩
    refine dw.trans ?_
    rw [BElem.den_boundary _ (torsion_congr (BElem.boundary_attrs _)).symm, h00, den_nil]
    simp only [map_zero]
  have scaled : ∀ (v : Int) (d : Nat) (m : BElem), BarrattEccles.maySteenrodStructure p d (some p) = .ok m →
      ∃ w, BElem.orbit (BElem.boundary (smul barrattEccles v m)) rep = .ok w ∧ w.data = [] := by
    intro v d m em
    obtain ⟨m', o, em', hm, tm, eo, ho, tor, o0⟩ := bpsi_cycle hp2 d rep (.inr hodd)
    cases em.symm.trans em'
    have hs := inBE_smul hm v
    obtain ⟨o', eo', _, ao, do1⟩ := borbit_ok (by omega) (BElem.inBE_boundary hm) rep (n := p)
      ((torsion_congr (BElem.boundary_attrs m)).trans tm)
    cases eo.symm.trans eo'
    obtain ⟨w, ew, hw, tw, dw⟩ := borbit_ok (by omega) (BElem.inBE_boundary hs) rep (n := p)
      ((torsion_congr (BElem.boundary_attrs _)).trans tm)
    refine ⟨w, ew, nil_of_den hw.nf tw ?_⟩
    rw [o0, den_nil, BElem.den_boundary m tm] at do1
    refine dw.trans ?_
    rw [BElem.den_boundary _ (by rw [smul_torsion]; exact tm), den_smul hm.nf v (by simp) (by rw [tm]; simp)]
    simp only [map_smul]
    rw [← do1, smul_zero]
  unfold BarrattEccles.steenrodOperation at hz
  split at hz
  · rename_i h
    split at hz
    · cases hz
    · split at hz
      · cases hz; exact zero 2
      · cases em : BarrattEccles.maySteenrodStructure p (s - q).toNat (some p) with
        | error e => rw [em] at hz; cases hz
        | ok m =>
          rw [em] at hz
          cases hz
          exact scaled 1 _ m em
  · dsimp only at hz
    cases ec : steenrodCoeff p s q with
    | error e => rw [ec] at hz; split at hz <;> cases hz
    | ok v =>
      rw [ec] at hz
      split at hz
      · cases hz; exact zero p
      · cases em : BarrattEccles.maySteenrodStructure p (steenrodDegree p s q b).toNat (some p) with
        | error e => rw [em] at hz; cases hz
        | ok m =>
          rw [em] at hz
          cases hz
          exact scaled v _ m em

end BE

/-- The operations are not cycles themselves. -/
example : ((Surjection.steenrodOperation 3 1 1 false .mcClureSmith).toOption.map fun z =>
      (z.data.length, z.boundary.data.length)) = some (3, 3) ∧
    ((Surjection.steenrodOperation 3 1 1 false .mcClureSmith >>= fun z =>
      SurjElem.orbit z.boundary .sign).toOption.map fun w => w.data) = some [] := by decide +kernel

example : ((BarrattEccles.steenrodOperation 3 1 1).toOption.map fun z =>
      (z.data.length, z.boundary.data.length)) = some (2, 3) ∧
    ((BarrattEccles.steenrodOperation 3 1 1 >>= fun z =>
      BElem.orbit z.boundary .trivial).toOption.map fun w => w.data) = some [] := by decide +kernel

-- C74 on a non-trivial element: the orbit of the boundary does not vanish
example : InSurj 3 (exSu .mcClureSmith) ∧ InBE 3 exBE ∧
    ((SurjElem.orbit (exSu .mcClureSmith).boundary .sign).toOption.map fun w => w.data.length) = some 3 ∧
    ((BElem.orbit exBE.boundary .sign).toOption.map fun w => w.data.length) = some 3 :=
  ⟨exSu_in _, exBE_in, by decide +kernel, by decide +kernel⟩

end Comch.Props
