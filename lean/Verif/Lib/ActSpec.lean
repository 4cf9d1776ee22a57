import Verif.Lib.ActElem
import Verif.Props.SymmetricRing

/-! # Actions of the group ring, abstractly -/

set_option linter.unusedSectionVars false

namespace Comch
open Spec IsPerm Elem
open Finsupp (single)

variable {K : Type} [DecidableEq K] {r : Nat}

/-- An operation of the package which is an action on well-formed (`Q`) keys, given on basis elements
by `f`. -/
structure ActSpec (C : Cls K) (r : Nat) (Q : K → Prop) (op : RingElem → Elem K → Py (Elem K))
    (f : (a : Attrs) → Perm → K → (K →₀ ZMod a.torsion)) : Prop where
  dt : C.defaultTorsion = 0
  ok : ∀ (s : RingElem) (x : Elem K), InRing r s → s.data ≠ [] → x.NF C → x.data ≠ [] →
    (∀ p ∈ x.data, Q p.1) → s.torsion = x.torsion →
    ∃ z, op s x = .ok z ∧ z.NF C ∧ z.attrs = x.attrs ∧ (∀ p ∈ z.data, Q p.1) ∧
      den (ZMod x.torsion) z.data = bil (f x.attrs) (den _ s.data) (den _ x.data)
  assoc : ∀ a σ τ k, IsPerm r σ → IsPerm r τ → Q k → lin (f a σ) (f a τ k) = f a (mulL σ τ) k
  one : ∀ a k, Q k → f a (pyRange 1 (r + 1)) k = bv _ k

variable {C : Cls K} {Q : K → Prop} {op : RingElem → Elem K → Py (Elem K)}
  {f : (a : Attrs) → Perm → K → (K →₀ ZMod a.torsion)}

/-- The identity of the ring is non-zero unless the torsion is 1. -/
theorem identity_ne' {r n : Nat} (hn : n ≠ 1) : (RingElem.identityElement r (some n)).data ≠ [] := by
  intro h
  have hd := Props.den_identity (n := n) r
  rw [h] at hd
  have := DFunLike.congr_fun hd (pyRange 1 (r + 1))
  simp only [den_nil, Finsupp.coe_zero, Pi.zero_apply, Finsupp.single_eq_same] at this
  have h1 : ((1 : Nat) : ZMod n) = 0 := by simpa using this.symm
  rw [ZMod.natCast_eq_zero_iff] at h1
  exact hn (Nat.dvd_one.1 h1)

theorem torsion_ne_one {C : Cls K} {x : Elem K} (hx : x.NF C) (h : x.data ≠ []) : x.torsion ≠ 1 := by
  intro h1
  obtain ⟨p, hp⟩ := List.exists_mem_of_ne_nil _ h
  have a := hx.coeff_range (by omega) p hp
  have b := hx.coeff_ne p hp
  omega

theorem keysP_add {C : Cls K} {x y z : Elem K} {P : K → Prop}
    (h : add C x y = .ok z) (hx : ∀ p ∈ x.data, P p.1) (hy : ∀ p ∈ y.data, P p.1) :
    ∀ p ∈ z.data, P p.1 := by
  rw [add_eq (torsion_eq_of_add h)] at h
  cases h
  intro p hp
  rcases mem_keys_iaddCore (List.mem_map_of_mem (f := Prod.fst) hp) with hk | hk
  · obtain ⟨q, hq, hqe⟩ := List.mem_map.1 (mem_keys_create hk)
    rw [← hqe]; exact hx q hq
  · obtain ⟨q, hq, hqe⟩ := List.mem_map.1 hk
    rw [← hqe]; exact hy q hq

theorem keysP_smul {C : Cls K} {x : Elem K} {P : K → Prop} (c : Int)
    (hx : ∀ p ∈ x.data, P p.1) : ∀ p ∈ (smul C c x).data, P p.1 := by
  intro p hp
  have hk := mem_keys_create (List.mem_map_of_mem (f := Prod.fst) hp)
  simp only [List.map_map, List.mem_map, Function.comp] at hk
  obtain ⟨q, hq, hqe⟩ := hk
  rw [← hqe]; exact hx q hq

namespace ActSpec

theorem ok' (h : ActSpec C r Q op f) {s : RingElem} {x : Elem K} {a : Attrs} (hs : InRing r s)
    (hsn : s.data ≠ []) (hx : x.NF C) (hxn : x.data ≠ []) (hQ : ∀ p ∈ x.data, Q p.1)
    (ts : s.torsion = a.torsion) (ha : x.attrs = a) :
    ∃ z, op s x = .ok z ∧ z.NF C ∧ z.attrs = a ∧ (∀ p ∈ z.data, Q p.1) ∧
      den (ZMod a.torsion) z.data = bil (f a) (den _ s.data) (den _ x.data) := by
  subst ha
  exact h.ok s x hs hsn hx hxn hQ ts

theorem bil_assoc (h : ActSpec C r Q op f) (a : Attrs) {d e : List (Perm × Int)} {v : List (K × Int)}
    (hd : ∀ p ∈ d, IsPerm r p.1) (he : ∀ p ∈ e, IsPerm r p.1) (hv : ∀ p ∈ v, Q p.1) :
    bil (f a) (mulV (den _ d) (den _ e)) (den _ v) = bil (f a) (den _ d) (bil (f a) (den _ e) (den _ v)) := by
  refine den_induction (P := fun u => bil (f a) (mulV u (den _ e)) (den _ v) =
    bil (f a) u (bil (f a) (den _ e) (den _ v))) d (by simp)
    (fun u v hu hv => by simp only [map_add, LinearMap.add_apply] at *; rw [hu, hv]) ?_
  intro p hp
  refine den_induction (P := fun u => bil (f a) (mulV (single p.1 (p.2 : ZMod a.torsion)) u) (den _ v) =
    bil (f a) (single p.1 (p.2 : ZMod a.torsion)) (bil (f a) u (den _ v))) e (by simp)
    (fun u v hu hv => by simp only [map_add, LinearMap.add_apply] at *; rw [hu, hv]) ?_
  intro q hq
  refine den_induction (P := fun u => bil (f a) (mulV (single p.1 (p.2 : ZMod a.torsion))
      (single q.1 (q.2 : ZMod a.torsion))) u =
    bil (f a) (single p.1 (p.2 : ZMod a.torsion)) (bil (f a) (single q.1 (q.2 : ZMod a.torsion)) u)) v
    (by simp) (fun u v hu hv => by simp only [map_add] at *; rw [hu, hv]) ?_
  intro t ht
  rw [mulV_single, bil_single, bil_single, map_smul, bil_single_left,
    h.assoc a p.1 q.1 t.1 (hd p hp) (he q hq) (hv t ht), smul_smul]
  congr 1
  ring

theorem bil_one (h : ActSpec C r Q op f) (a : Attrs) {v : List (K × Int)} (hv : ∀ p ∈ v, Q p.1) :
    bil (f a) (bv _ (pyRange 1 (r + 1))) (den _ v) = den _ v := by
  refine den_induction (P := fun u => bil (f a) (bv _ (pyRange 1 (r + 1))) u = u) v (by simp)
    (fun u v hu hv => by simp only [map_add] at *; rw [hu, hv]) ?_
  intro p hp
  rw [bil_single, h.one a p.1 (hv p hp)]
  simp

variable {s t : RingElem} {x : Elem K}

theorem act_assoc (h : ActSpec C r Q op f) (hs : InRing r s) (hsn : s.data ≠ []) (ht : InRing r t)
    (htn : t.data ≠ []) (hx : x.NF C) (hxn : x.data ≠ []) (hQ : ∀ p ∈ x.data, Q p.1)
    (ts : s.torsion = x.torsion) (tt : t.torsion = x.torsion) :
    ∃ st tx, RingElem.mul s t = .ok st ∧ op t x = .ok tx ∧
      (st.data ≠ [] → tx.data ≠ [] → ∃ a b, op s tx = .ok a ∧ op st x = .ok b ∧ pyEq a b = true) ∧
      (st.data = [] → tx.data ≠ [] → ∃ a, op s tx = .ok a ∧ a.data = []) ∧
      (st.data ≠ [] → tx.data = [] → ∃ b, op st x = .ok b ∧ b.data = []) := by
  obtain ⟨st, est, ist, ast, dst⟩ := RingElem.mul_ok hs ht (n := x.torsion) ts tt
  obtain ⟨tx, etx, ntx, atx, ltx, dtx⟩ := h.ok t x ht htn hx hxn hQ tt
  have tst : st.torsion = x.torsion := (torsion_congr ast).trans ts
  have ttx : tx.torsion = x.torsion := torsion_congr atx
  have key := h.bil_assoc x.attrs hs.perm ht.perm hQ
  rw [← dst, ← dtx] at key
  refine ⟨st, tx, est, etx, ?_, ?_, ?_⟩
  · intro h1 h2
    obtain ⟨a, ea, na, aa, la, da⟩ := h.ok' hs hsn ntx h2 ltx ts atx
    obtain ⟨b, eb, nb, ab, lb, db⟩ := h.ok st x ist h1 hx hxn hQ tst
    refine ⟨a, b, ea, eb, pyEq_of_den na nb (torsion_congr aa) (torsion_congr ab) ?_⟩
    rw [da, db, key]
  · intro h1 h2
    obtain ⟨a, ea, na, aa, la, da⟩ := h.ok' hs hsn ntx h2 ltx ts atx
    refine ⟨a, ea, ?_⟩
    rw [na.data_eq_nil_iff, Elem.torsion, aa, da, ← key, h1]
    simp
  · intro h1 h2
    obtain ⟨b, eb, nb, ab, lb, db⟩ := h.ok st x ist h1 hx hxn hQ tst
    refine ⟨b, eb, ?_⟩
    rw [nb.data_eq_nil_iff, Elem.torsion, ab, db, key, h2]
    simp

theorem act_one (h : ActSpec C r Q op f) (hx : x.NF C) (hxn : x.data ≠ []) (hQ : ∀ p ∈ x.data, Q p.1) :
    ∃ z, op (RingElem.identityElement r (some x.torsion)) x = .ok z ∧ pyEq z x = true := by
  obtain ⟨z, ez, nz, az, lz, dz⟩ := h.ok _ x (Props.inRing_identity r (some x.torsion))
    (identity_ne' (torsion_ne_one hx hxn)) hx hxn hQ rfl
  refine ⟨z, ez, pyEq_of_den nz hx (torsion_congr az) rfl ?_⟩
  rw [dz, Props.den_identity, h.bil_one x.attrs hQ]

theorem add_act (h : ActSpec C r Q op f) {s' t : RingElem} (hs : InRing r s) (hsn : s.data ≠ [])
    (hs' : InRing r s') (hsn' : s'.data ≠ []) (hx : x.NF C) (hxn : x.data ≠ [])
    (hQ : ∀ p ∈ x.data, Q p.1) (ts : s.torsion = x.torsion) (hadd : add symmetricRing s s' = .ok t) :
    ∃ a b u, op s x = .ok a ∧ op s' x = .ok b ∧ add C a b = .ok u ∧
      (t.data = [] → u.data = []) ∧ (t.data ≠ [] → ∃ c, op t x = .ok c ∧ pyEq c u = true) := by
  have tss := torsion_eq_of_add hadd
  obtain ⟨a, ea, na, aa, la, da⟩ := h.ok s x hs hsn hx hxn hQ ts
  obtain ⟨b, eb, nb, ab, lb, db⟩ := h.ok s' x hs' hsn' hx hxn hQ (tss.symm.trans ts)
  have ta : a.torsion = x.torsion := torsion_congr aa
  obtain ⟨u, eu⟩ := add_ok (C := C) (x := a) (y := b) (by rw [ta, torsion_congr ab])
  have tu : u.torsion = x.torsion := (torsion_congr (attrs_add eu)).trans ta
  have hd := den_add (R := ZMod x.torsion) hadd hs.nf hs'.nf (by simp [symmetricRing]) (by rw [ts]; simp)
  have hu : den (ZMod x.torsion) u.data = bil (f x.attrs) (den _ t.data) (den _ x.data) := by
    rw [den_add eu na nb (by rw [h.dt]; simp) (by rw [ta]; simp), da, db, hd, map_add,
      LinearMap.add_apply]
  refine ⟨a, b, u, ea, eb, eu, ?_, ?_⟩
  · intro h0
    rw [(nf_add eu na).data_eq_nil_iff, tu, hu, h0]
    simp
  · intro h0
    obtain ⟨c, ec, nc, ac, lc, dc⟩ := h.ok t x (Props.inRing_add hs hs' hadd) h0 hx hxn hQ
      ((torsion_congr (attrs_add hadd)).trans ts)
    exact ⟨c, ec, pyEq_of_den nc (nf_add eu na) (torsion_congr ac) tu (by rw [dc, hu])⟩

theorem act_add (h : ActSpec C r Q op f) {x' y : Elem K} (hs : InRing r s) (hsn : s.data ≠ [])
    (hx : x.NF C) (hxn : x.data ≠ []) (hQ : ∀ p ∈ x.data, Q p.1)
    (hx' : x'.NF C) (hxn' : x'.data ≠ []) (hQ' : ∀ p ∈ x'.data, Q p.1) (hattrs : x'.attrs = x.attrs)
    (ts : s.torsion = x.torsion) (hadd : add C x x' = .ok y) :
    ∃ a b u, op s x = .ok a ∧ op s x' = .ok b ∧ add C a b = .ok u ∧
      (y.data = [] → u.data = []) ∧ (y.data ≠ [] → ∃ c, op s y = .ok c ∧ pyEq c u = true) := by
  have txx := torsion_eq_of_add hadd
  obtain ⟨a, ea, na, aa, la, da⟩ := h.ok s x hs hsn hx hxn hQ ts
  obtain ⟨b, eb, nb, ab, lb, db⟩ := h.ok' hs hsn hx' hxn' hQ' ts hattrs
  have ta : a.torsion = x.torsion := torsion_congr aa
  have tb : b.torsion = x.torsion := torsion_congr ab
  obtain ⟨u, eu⟩ := add_ok (C := C) (x := a) (y := b) (by rw [ta, tb])
  have tu : u.torsion = x.torsion := (torsion_congr (attrs_add eu)).trans ta
  have hy := attrs_add hadd
  have hd := den_add (R := ZMod x.torsion) hadd hx hx' (by rw [h.dt]; simp) (by simp)
  have hu : den (ZMod x.torsion) u.data = bil (f x.attrs) (den _ s.data) (den _ y.data) := by
    rw [den_add eu na nb (by rw [h.dt]; simp) (by rw [ta]; simp), da, db, hd, map_add]
  refine ⟨a, b, u, ea, eb, eu, ?_, ?_⟩
  · intro h0
    rw [(nf_add eu na).data_eq_nil_iff, tu, hu, h0]
    simp
  · intro h0
    obtain ⟨c, ec, nc, ac, lc, dc⟩ := h.ok' hs hsn (nf_add hadd hx) h0
      (keysP_add hadd hQ hQ') ts hy
    exact ⟨c, ec, pyEq_of_den nc (nf_add eu na) (torsion_congr ac) tu
      (by rw [dc, hu])⟩

theorem act_smul (h : ActSpec C r Q op f) (hs : InRing r s) (hsn : s.data ≠ [])
    (hx : x.NF C) (hxn : x.data ≠ []) (hQ : ∀ p ∈ x.data, Q p.1) (ts : s.torsion = x.torsion) (c : Int) :
    ∃ a, op s x = .ok a ∧
      ((smul C c x).data ≠ [] → ∃ b, op s (smul C c x) = .ok b ∧ pyEq b (smul C c a) = true) ∧
      ((smul symmetricRing c s).data ≠ [] → ∃ b, op (smul symmetricRing c s) x = .ok b ∧
        pyEq b (smul C c a) = true) := by
  obtain ⟨a, ea, na, aa, la, da⟩ := h.ok s x hs hsn hx hxn hQ ts
  have ta : a.torsion = x.torsion := torsion_congr aa
  have hca : den (ZMod x.torsion) (smul C c a).data = (c : ZMod x.torsion) • den _ a.data :=
    den_smul na c (by rw [h.dt]; simp) (by rw [ta]; simp)
  refine ⟨a, ea, ?_, ?_⟩
  · intro h0
    obtain ⟨b, eb, nb, ab, lb, db⟩ := h.ok s (smul C c x) hs hsn (nf_smul hx c) h0 (keysP_smul c hQ) ts
    refine ⟨b, eb, pyEq_of_den (n := x.torsion) nb (nf_smul na c) (torsion_congr ab) (by rw [smul_torsion, ta]) ?_⟩
    refine Eq.trans db ?_
    have hcx : den (ZMod x.torsion) (smul C c x).data = (c : ZMod x.torsion) • den _ x.data :=
      den_smul hx c (by rw [h.dt]; simp) (by simp)
    show bil (f x.attrs) (den (ZMod x.torsion) s.data) (den (ZMod x.torsion) (smul C c x).data) = _
    rw [hca, da, hcx, map_smul]
  · intro h0
    obtain ⟨b, eb, nb, ab, lb, db⟩ := h.ok _ x (Props.inRing_smul hs c) h0 hx hxn hQ (by rw [smul_torsion, ts])
    refine ⟨b, eb, pyEq_of_den nb (nf_smul na c) (torsion_congr ab) (by rw [smul_torsion, ta]) ?_⟩
    rw [db, hca, da, den_smul hs.nf c (by simp [symmetricRing]) (by rw [ts]; simp), map_smul,
      LinearMap.smul_apply]

/-- Compatibility with a linear operator `D` (boundary). -/
theorem act_boundary (h : ActSpec C r Q op f) {z bx bz : Elem K}
    (D : (K →₀ ZMod x.torsion) →ₗ[ZMod x.torsion] (K →₀ ZMod x.torsion))
    (hD : ∀ σ k, IsPerm r σ → Q k → C.drops k = false →
      D (f x.attrs σ k) = bil (f x.attrs) (bv _ σ) (D (bv _ k)))
    (hs : InRing r s) (hsn : s.data ≠ []) (hx : x.NF C) (hxn : x.data ≠ [])
    (hQ : ∀ p ∈ x.data, Q p.1) (ts : s.torsion = x.torsion) (hz : op s x = .ok z)
    (nbx : bx.NF C) (nbz : bz.NF C) (abx : bx.attrs = x.attrs) (abz : bz.attrs = z.attrs)
    (dbx : den (ZMod x.torsion) bx.data = D (den _ x.data))
    (lbx : ∀ p ∈ bx.data, Q p.1)
    (dbz : den (ZMod x.torsion) bz.data = D (den _ z.data)) :
    (bx.data = [] → bz.data = []) ∧
    (bx.data ≠ [] → ∃ y, op s bx = .ok y ∧ pyEq bz y = true) := by
  obtain ⟨z', ez, nz, az, lz, dz⟩ := h.ok s x hs hsn hx hxn hQ ts
  cases hz.symm.trans ez
  have tbz : bz.torsion = x.torsion := (torsion_congr abz).trans (torsion_congr az)
  have h1 : den (ZMod x.torsion) bz.data =
      bil (f x.attrs) (den _ s.data) (den (ZMod x.torsion) bx.data) := by
    rw [dbz, dz, dbx]
    have hp := hs.perm
    refine den_induction (P := fun u => D (bil (f x.attrs) u (den _ x.data)) =
      bil (f x.attrs) u (D (den _ x.data))) s.data (by simp)
      (fun u v hu hv => by simp only [map_add, LinearMap.add_apply] at *; rw [hu, hv]) ?_
    intro p hp'
    refine den_induction (P := fun u => D (bil (f x.attrs) (single p.1 (p.2 : ZMod x.torsion)) u) =
      bil (f x.attrs) (single p.1 (p.2 : ZMod x.torsion)) (D u)) x.data (by simp)
      (fun u v hu hv => by simp only [map_add] at *; rw [hu, hv]) ?_
    intro q hq
    rw [bil_single, map_smul, hD p.1 q.1 (hp p hp') (hQ q hq) (hx.kept q hq), bil_bv, bil_single_left,
      single_eq_smul_bv q.1, map_smul, map_smul, smul_smul]
  constructor
  · intro h0
    rw [nbz.data_eq_nil_iff, tbz, h1, h0]
    simp
  · intro hne
    have tbx : bx.torsion = x.torsion := torsion_congr abx
    obtain ⟨y, ey, ny, ay, ly, dy⟩ := h.ok' hs hsn nbx hne lbx ts abx
    exact ⟨y, ey, pyEq_of_den nbz ny tbz (torsion_congr ay) (by rw [h1, dy])⟩

end ActSpec

/-- A loop which adds up values. -/
theorem foldlM_iaddR {P : Type} {C : Cls K} {Q : K → Prop} (n : Nat) (d : List P) (step : Elem K → P → Py (Elem K))
    (y : P → Elem K) (ans : Elem K) (ht : ans.torsion = n)
    (hstep : ∀ p ∈ d, ∀ a : Elem K, a.torsion = n → step a p = iadd C a (y p))
    (hy : ∀ p ∈ d, (y p).NF C ∧ (y p).torsion = n ∧ ∀ q ∈ (y p).data, Q q.1)
    (hn : ans.NF C) (hQ : ∀ q ∈ ans.data, Q q.1) :
    ∃ z, d.foldlM step ans = .ok z ∧ z.NF C ∧ z.attrs = ans.attrs ∧ (∀ q ∈ z.data, Q q.1) ∧
      ∀ (R : Type) [CommRing R], (n : R) = 0 → den R z.data = den R ans.data + (d.map fun p => den R (y p).data).sum := by
  induction d generalizing ans with
  | nil => exact ⟨ans, rfl, hn, rfl, hQ, fun R _ _ => by simp⟩
  | cons p d ih =>
    have h1 := hy p (by simp)
    have he : ans.torsion = (y p).torsion := by rw [ht, h1.2.1]
    have h2 : step ans p = .ok (iaddCore C ans (y p)) := by
      rw [hstep p (by simp) ans ht, iadd_eq he]
    have h3 : iadd C ans (y p) = .ok (iaddCore C ans (y p)) := iadd_eq he
    obtain ⟨z, hz, nz, az, qz, dz⟩ := ih (iaddCore C ans (y p)) ht
      (fun q hq => hstep q (List.mem_cons_of_mem _ hq)) (fun q hq => hy q (List.mem_cons_of_mem _ hq))
      (nf_iadd h3 hn) (by
        intro q hq
        rcases mem_keys_iaddCore (List.mem_map_of_mem (f := Prod.fst) hq) with hk | hk
        · obtain ⟨u, hu, e⟩ := List.mem_map.1 hk
          rw [← e]; exact hQ u hu
        · obtain ⟨u, hu, e⟩ := List.mem_map.1 hk
          rw [← e]; exact h1.2.2 u hu)
    refine ⟨z, ?_, nz, az, qz, ?_⟩
    · rw [List.foldlM_cons, h2]
      exact hz
    · intro R _ hR
      rw [dz R hR, den_iadd h3 hn h1.1 (by rw [ht]; exact hR)]
      simp [add_assoc]

theorem foldlM_iadd {P : Type} {C : Cls K} {Q : K → Prop} (n : Nat) (d : List P) (step : Elem K → P → Py (Elem K))
    (y : P → Elem K) (ans : Elem K) (ht : ans.torsion = n)
    (hstep : ∀ p ∈ d, ∀ a : Elem K, a.torsion = n → step a p = iadd C a (y p))
    (hy : ∀ p ∈ d, (y p).NF C ∧ (y p).torsion = n ∧ ∀ q ∈ (y p).data, Q q.1)
    (hn : ans.NF C) (hQ : ∀ q ∈ ans.data, Q q.1) :
    ∃ z, d.foldlM step ans = .ok z ∧ z.NF C ∧ z.attrs = ans.attrs ∧ (∀ q ∈ z.data, Q q.1) ∧
      den (ZMod n) z.data = den _ ans.data + (d.map fun p => den (ZMod n) (y p).data).sum := by
  obtain ⟨z, h1, h2, h3, h4, h5⟩ := foldlM_iaddR n d step y ans ht hstep hy hn hQ
  exact ⟨z, h1, h2, h3, h4, h5 _ (by simp)⟩

end Comch
