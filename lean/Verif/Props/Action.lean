import Verif.Lib.ActElem
import Verif.Props.SymmetricRing
import Verif.Props.Simplicial
import Verif.Props.CubicalBoundary

/-! # C23, C29: the action of the group ring on tensors of simplices and of cubes -/

set_option linter.unusedSectionVars false

namespace Comch.Props
open Comch Elem Spec

theorem hasArity_iff {A : Type} [DecidableEq A] {C : Cls (List A)} {r : Nat} {x : Elem (List A)}
    (hx : x.NF C) (h : uniqueValue (x.data.map fun p => p.1.length) = some r) : HasArity C r x :=
  ⟨hx, (arityG_iff.1 h).1, (arityG_iff.1 h).2⟩

theorem keys_add {K : Type} [DecidableEq K] {C : Cls K} {x y z : Elem K} {P : K → Prop}
    (h : add C x y = .ok z) (hx : ∀ p ∈ x.data, P p.1) (hy : ∀ p ∈ y.data, P p.1) :
    ∀ p ∈ z.data, P p.1 := by
  rw [add_eq (torsion_eq_of_add h)] at h
  cases h
  intro p hp
  rcases mem_keys_iaddCore (List.mem_map_of_mem (f := Prod.fst) hp) with hk | hk
  · obtain ⟨q, hq, hqe⟩ := List.mem_map.1 (mem_keys_create hk)
    rw [← hqe]; exact hx q hq
  · obtain ⟨q, hq, hqe⟩ := List.mem_map.1 hk
    rw [← hqe]; exact hy q hq

theorem keys_smul {K : Type} [DecidableEq K] {C : Cls K} {x : Elem K} {P : K → Prop} (c : Int)
    (hx : ∀ p ∈ x.data, P p.1) : ∀ p ∈ (smul C c x).data, P p.1 := by
  intro p hp
  have hk := mem_keys_create (List.mem_map_of_mem (f := Prod.fst) hp)
  simp only [List.map_map, List.mem_map, Function.comp] at hk
  obtain ⟨q, hq, hqe⟩ := hk
  rw [← hqe]; exact hx q hq

theorem simplicial_rmul_eq : SElem.rmul = rmulG simplicial Simplex.dimension := rfl

theorem cubical_rmul_eq : CElem.rmul = rmulG cubical cdim := rfl

theorem simplicial_any : simplicial.drops = fun k => k.any fun s => s.isDegenerate := rfl

theorem cubical_any : cubical.drops = fun k => k.any fun _ => false := by
  funext k
  simp [cubical]

/-- The identity of the ring is non-zero unless the torsion is 1. -/
theorem identity_ne {r n : Nat} (hn : n ≠ 1) : (RingElem.identityElement r (some n)).data ≠ [] := by
  intro h
  have hd := den_identity (n := n) r
  rw [h] at hd
  have := DFunLike.congr_fun hd (pyRange 1 (r + 1))
  simp only [den_nil, Finsupp.coe_zero, Pi.zero_apply, Finsupp.single_eq_same] at this
  have h1 : ((1 : Nat) : ZMod n) = 0 := by simpa using this.symm
  rw [ZMod.natCast_eq_zero_iff] at h1
  exact hn (Nat.dvd_one.1 h1)

theorem ne_one_of_ne {K : Type} [DecidableEq K] {C : Cls K} {x : Elem K} (hx : x.NF C)
    (h : x.data ≠ []) : x.torsion ≠ 1 := by
  intro h1
  obtain ⟨p, hp⟩ := List.exists_mem_of_ne_nil _ h
  have a := hx.coeff_range (by omega) p hp
  have b := hx.coeff_ne p hp
  omega

section
variable {A : Type} [DecidableEq A] {C : Cls (List A)} {w : A → Int} {dr : A → Bool} {r : Nat}

theorem rmulG_one (hC : C.defaultTorsion = 0) (hdr : C.drops = fun k => k.any dr)
    {x : Elem (List A)} (hx : HasArity C r x) :
    ∃ z, rmulG C w (RingElem.identityElement r (some x.torsion)) x = .ok z ∧ pyEq z x = true := by
  obtain ⟨z, ez, nz, az, lz, dz⟩ := rmulG_ok (w := w) hC hdr (inRing_identity r (some x.torsion))
    (identity_ne (ne_one_of_ne hx.nf hx.ne)) hx (n := x.torsion) rfl rfl
  refine ⟨z, ez, pyEq_of_den nz hx.nf (torsion_congr az) rfl ?_⟩
  rw [dz, den_identity, actV_id hx.len]

/-- Additivity in the ring element. -/
theorem rmulG_add_left (hC : C.defaultTorsion = 0) (hdr : C.drops = fun k => k.any dr)
    {s s' t : RingElem} {x : Elem (List A)} (hs : InRing r s) (hsn : s.data ≠ []) (hs' : InRing r s')
    (hsn' : s'.data ≠ []) (hx : HasArity C r x) (ts : s.torsion = x.torsion)
    (hadd : add symmetricRing s s' = .ok t) :
    ∃ a b u, rmulG C w s x = .ok a ∧ rmulG C w s' x = .ok b ∧ add C a b = .ok u ∧
      (t.data = [] → u.data = []) ∧ (t.data ≠ [] → ∃ c, rmulG C w t x = .ok c ∧ pyEq c u = true) := by
  by_cases h0 : t.data = []
  · obtain ⟨a, b, u, ha, hb, hu, h⟩ := (rmulG_bilSpec (w := w) hC hdr).add_left_zero (C1 := symmetricRing)
      rfl hC hs.nf hs'.nf ⟨hs, hsn⟩ ⟨hs', hsn'⟩ hx ts hadd h0
    exact ⟨a, b, u, ha, hb, hu, fun _ => h, fun h' => absurd h0 h'⟩
  · obtain ⟨a, b, c, u, ha, hb, hc, hu, h⟩ := (rmulG_bilSpec (w := w) hC hdr).add_left
      (C1 := symmetricRing) rfl hC hs.nf hs'.nf ⟨hs, hsn⟩ ⟨hs', hsn'⟩ hx ts hadd
      ⟨inRing_add hs hs' hadd, h0⟩
    exact ⟨a, b, u, ha, hb, hu, fun h' => absurd h' h0, fun _ => ⟨c, hc, h⟩⟩

/-- Additivity in the chain. -/
theorem rmulG_add_right (hC : C.defaultTorsion = 0) (hdr : C.drops = fun k => k.any dr)
    {s : RingElem} {x x' y : Elem (List A)} (hs : InRing r s) (hsn : s.data ≠ [])
    (hx : HasArity C r x) (hx' : HasArity C r x') (ts : s.torsion = x.torsion)
    (hadd : add C x x' = .ok y) :
    ∃ a b u, rmulG C w s x = .ok a ∧ rmulG C w s x' = .ok b ∧ add C a b = .ok u ∧
      (y.data = [] → u.data = []) ∧ (y.data ≠ [] → ∃ c, rmulG C w s y = .ok c ∧ pyEq c u = true) := by
  by_cases h0 : y.data = []
  · obtain ⟨a, b, u, ha, hb, hu, h⟩ := (rmulG_bilSpec (w := w) hC hdr).add_right_zero (C2 := C)
      hC hC hx.nf hx'.nf ⟨hs, hsn⟩ hx hx' ts hadd h0
    exact ⟨a, b, u, ha, hb, hu, fun _ => h, fun h' => absurd h0 h'⟩
  · obtain ⟨a, b, c, u, ha, hb, hc, hu, h⟩ := (rmulG_bilSpec (w := w) hC hdr).add_right
      (C2 := C) hC hC hx.nf hx'.nf ⟨hs, hsn⟩ hx hx' ts hadd
      ⟨nf_add hadd hx.nf, h0, keys_add (P := fun k => k.length = r) hadd hx.len hx'.len⟩
    exact ⟨a, b, u, ha, hb, hu, fun h' => absurd h' h0, fun _ => ⟨c, hc, h⟩⟩

theorem rmulG_smul (hC : C.defaultTorsion = 0) (hdr : C.drops = fun k => k.any dr)
    {s : RingElem} {x : Elem (List A)} (hs : InRing r s) (hsn : s.data ≠ [])
    (hx : HasArity C r x) (ts : s.torsion = x.torsion) (c : Int) :
    ∃ a, rmulG C w s x = .ok a ∧
      ((smul C c x).data ≠ [] → ∃ b, rmulG C w s (smul C c x) = .ok b ∧ pyEq b (smul C c a) = true) ∧
      ((smul symmetricRing c s).data ≠ [] → ∃ b, rmulG C w (smul symmetricRing c s) x = .ok b ∧
        pyEq b (smul C c a) = true) := by
  obtain ⟨a, ha, na, aa, la, da⟩ := rmulG_ok (w := w) hC hdr hs hsn hx ts rfl
  refine ⟨a, ha, ?_, ?_⟩
  · intro h0
    obtain ⟨a', b, ha', hb, h⟩ := (rmulG_bilSpec (w := w) hC hdr).smul_right (C2 := C) hC hC hx.nf
      ⟨hs, hsn⟩ hx ts c ⟨nf_smul hx.nf c, h0, keys_smul (P := fun k : List A => k.length = r) c hx.len⟩
    cases ha.symm.trans ha'
    exact ⟨b, hb, h⟩
  · intro h0
    obtain ⟨a', b, ha', hb, h⟩ := (rmulG_bilSpec (w := w) hC hdr).smul_left (C1 := symmetricRing) rfl hC hs.nf
      ⟨hs, hsn⟩ hx ts c ⟨inRing_smul hs c, h0⟩
    cases ha.symm.trans ha'
    exact ⟨b, hb, h⟩

end

/-! ## C23 simplicial chains -/

section simplicial
variable {r : Nat} {s t : RingElem} {x : SElem}

/-- Coefficients of `s * x`: the `j`-th factor moves to position `σ(j)`, with the Koszul sign of the
factors which change their order. -/
theorem C23_act_coeff (hs : InRing r s) (hsn : s.data ≠ []) (hx : x.NF simplicial)
    (hr : x.arity = some r) (ts : s.torsion = x.torsion) :
    ∃ z, SElem.rmul s x = .ok z ∧ z.NF simplicial ∧ z.torsion = x.torsion ∧
      (z.data = [] ∨ z.arity = some r) ∧
      ∀ m : SKey, (∀ σ ∈ m, σ.isDegenerate = false) →
        z.coeff m ≡ (x.data.map fun p => (s.data.map fun q =>
          if IsMoved q.1 p.1 m then
            (-1) ^ koszulExponent q.1 (p.1.map fun σ => σ.length - 1) * p.2 * q.2
          else 0).sum).sum [ZMOD x.torsion] := by
  have hx' := hasArity_iff hx hr
  obtain ⟨z, ez, nz, az, lz, dz⟩ := rmulG_ok (w := Simplex.dimension) rfl simplicial_any hs hsn hx' ts rfl
  refine ⟨z, ez, nz, torsion_congr az, ?_, ?_⟩
  · rw [or_iff_not_imp_left]
    intro h0
    exact arityG_iff.2 ⟨h0, lz⟩
  · intro m hm
    refine rmulG_coeff rfl hs hsn hx' ts ez (fun σ => σ.length - 1) ?_ m ?_
    · intro p hp a ha
      have h := hx.kept p hp
      rw [simplicial_drops] at h
      simp only [List.any_eq_false] at h
      have h0 : a ≠ [] := by
        intro h0
        exact h a ha (by simp [h0])
      have := List.length_pos_iff.2 h0
      simp only [Simplex.dimension]
      omega
    · show (m.any fun s => s.isDegenerate) = false
      simpa using hm

/-- `s * (t * x) == (s * t) * x`; when one of the intermediate results is zero (the code then raises
`TypeError` on that side) the other side is zero. -/
theorem C23_act_assoc (hs : InRing r s) (hsn : s.data ≠ []) (ht : InRing r t) (htn : t.data ≠ [])
    (hx : x.NF simplicial) (hr : x.arity = some r) (ts : s.torsion = x.torsion)
    (tt : t.torsion = x.torsion) :
    ∃ st tx, RingElem.mul s t = .ok st ∧ SElem.rmul t x = .ok tx ∧
      (st.data ≠ [] → tx.data ≠ [] → ∃ a b, SElem.rmul s tx = .ok a ∧ SElem.rmul st x = .ok b ∧
        pyEq a b = true) ∧
      (st.data = [] → tx.data ≠ [] → ∃ a, SElem.rmul s tx = .ok a ∧ a.data = []) ∧
      (st.data ≠ [] → tx.data = [] → ∃ b, SElem.rmul st x = .ok b ∧ b.data = []) :=
  rmulG_mul rfl simplicial_any hs hsn ht htn (hasArity_iff hx hr) ts tt

/-- `1 * x == x`. -/
theorem C23_act_one (hx : x.NF simplicial) (hr : x.arity = some r) :
    ∃ z, SElem.rmul (RingElem.identityElement r (some x.torsion)) x = .ok z ∧ pyEq z x = true :=
  rmulG_one rfl simplicial_any (hasArity_iff hx hr)

/-- `(s + s') * x == s * x + s' * x`. -/
theorem C23_add_act {s' u : RingElem} (hs : InRing r s) (hsn : s.data ≠ []) (hs' : InRing r s')
    (hsn' : s'.data ≠ []) (hx : x.NF simplicial) (hr : x.arity = some r) (ts : s.torsion = x.torsion)
    (hadd : add symmetricRing s s' = .ok u) :
    ∃ a b v, SElem.rmul s x = .ok a ∧ SElem.rmul s' x = .ok b ∧ add simplicial a b = .ok v ∧
      (u.data = [] → v.data = []) ∧
      (u.data ≠ [] → ∃ c, SElem.rmul u x = .ok c ∧ pyEq c v = true) :=
  rmulG_add_left rfl simplicial_any hs hsn hs' hsn' (hasArity_iff hx hr) ts hadd

/-- `s * (x + x') == s * x + s * x'`. -/
theorem C23_act_add {x' y : SElem} (hs : InRing r s) (hsn : s.data ≠ []) (hx : x.NF simplicial)
    (hr : x.arity = some r) (hx' : x'.NF simplicial) (hr' : x'.arity = some r)
    (ts : s.torsion = x.torsion) (hadd : add simplicial x x' = .ok y) :
    ∃ a b v, SElem.rmul s x = .ok a ∧ SElem.rmul s x' = .ok b ∧ add simplicial a b = .ok v ∧
      (y.data = [] → v.data = []) ∧
      (y.data ≠ [] → ∃ c, SElem.rmul s y = .ok c ∧ pyEq c v = true) :=
  rmulG_add_right rfl simplicial_any hs hsn (hasArity_iff hx hr) (hasArity_iff hx' hr') ts hadd

/-- Integer factors can be moved out of both factors. -/
theorem C23_act_smul (hs : InRing r s) (hsn : s.data ≠ []) (hx : x.NF simplicial)
    (hr : x.arity = some r) (ts : s.torsion = x.torsion) (c : Int) :
    ∃ a, SElem.rmul s x = .ok a ∧
      ((smul simplicial c x).data ≠ [] → ∃ b, SElem.rmul s (smul simplicial c x) = .ok b ∧
        pyEq b (smul simplicial c a) = true) ∧
      ((smul symmetricRing c s).data ≠ [] → ∃ b, SElem.rmul (smul symmetricRing c s) x = .ok b ∧
        pyEq b (smul simplicial c a) = true) :=
  rmulG_smul rfl simplicial_any hs hsn (hasArity_iff hx hr) ts c

theorem boundary_len {x : SElem} (hr : x.arity = some r) : ∀ p ∈ x.boundary.data, p.1.length = r := by
  intro p hp
  obtain ⟨q, hq, j, i, s, _, _, he⟩ := mem_keys_boundary (List.mem_map_of_mem (f := Prod.fst) hp)
  rw [he, List.length_set]
  exact (arityG_iff.1 hr).2 q hq

/-- The action commutes with the boundary: `(s * x).boundary() == s * x.boundary()`. -/
theorem C23_act_boundary {z : SElem} (hs : InRing r s) (hsn : s.data ≠ []) (hx : x.NF simplicial)
    (hr : x.arity = some r) (ts : s.torsion = x.torsion) (hz : SElem.rmul s x = .ok z) :
    (x.boundary.data = [] → z.boundary.data = []) ∧
    (x.boundary.data ≠ [] → ∃ y, SElem.rmul s x.boundary = .ok y ∧ pyEq z.boundary y = true) :=
  rmulG_boundary rfl simplicial_any (fun _ => delK) (fun _ => sgn1_delK _ dim_cons) hs hsn
    (hasArity_iff hx hr) ts hz (nf_boundary x) (nf_boundary z) (by simp) (by simp)
    (den_boundary x rfl) (boundary_len hr) (fun n hn => den_boundary z hn)

/-- Different torsions or arities are rejected; so is a zero operand (its `arity` is `None`). -/
theorem C23_act_mismatch (h : x.torsion ≠ s.torsion ∨ x.arity ≠ s.arity) :
    SElem.rmul s x = .error .typeError := rmulG_mismatch h

end simplicial

/-- Instance: a transposition exchanges two factors of odd degree. -/
example : ∃ z, SElem.rmul (new symmetricRing [([2, 1], 1), ([1, 2], 1)] none)
    (new simplicial [([[0, 1], [0, 2]], 1)] none) = .ok z ∧
    z.coeff [[0, 2], [0, 1]] = -1 ∧ z.coeff [[0, 1], [0, 2]] = 1 := ⟨_, rfl, by decide +kernel⟩

example : InRing 2 (new symmetricRing [([2, 1], 1), ([1, 2], 1)] (some 5)) ∧ exS.NF simplicial ∧
    exS.arity = some 2 ∧ exS.torsion = 5 ∧ exS.boundary.data ≠ [] :=
  ⟨inRing_new (by decide) (by decide) _, exS_nf, by decide +kernel, rfl, by decide +kernel⟩

/-! ## C29 cubical chains -/

section cubical
variable {r : Nat} {s t : RingElem} {x : CElem}

/-- Coefficients of `s * x`: the `j`-th factor moves to position `σ(j)`, with the Koszul sign of the
factors which change their order. -/
theorem C29_act_coeff (hs : InRing r s) (hsn : s.data ≠ []) (hx : x.NF cubical)
    (hr : x.arity = some r) (ts : s.torsion = x.torsion) :
    ∃ z, CElem.rmul s x = .ok z ∧ z.NF cubical ∧ z.torsion = x.torsion ∧
      (z.data = [] ∨ z.arity = some r) ∧
      ∀ m : CKey, z.coeff m ≡ (x.data.map fun p => (s.data.map fun q =>
          if IsMoved q.1 p.1 m then
            (-1) ^ koszulExponent q.1 (p.1.map fun c => (intervalPositions c).length) * p.2 * q.2
          else 0).sum).sum [ZMOD x.torsion] := by
  have hx' := hasArity_iff hx hr
  obtain ⟨z, ez, nz, az, lz, dz⟩ := rmulG_ok (w := cdim) rfl cubical_any hs hsn hx' ts rfl
  refine ⟨z, ez, nz, torsion_congr az, ?_, ?_⟩
  · rw [or_iff_not_imp_left]
    intro h0
    exact arityG_iff.2 ⟨h0, lz⟩
  · intro m
    refine rmulG_coeff rfl hs hsn hx' ts ez (fun c => (intervalPositions c).length) ?_ m rfl
    intro p hp a ha
    rw [length_intervalPositions]

/-- `s * (t * x) == (s * t) * x`; see `C23_act_assoc`. -/
theorem C29_act_assoc (hs : InRing r s) (hsn : s.data ≠ []) (ht : InRing r t) (htn : t.data ≠ [])
    (hx : x.NF cubical) (hr : x.arity = some r) (ts : s.torsion = x.torsion)
    (tt : t.torsion = x.torsion) :
    ∃ st tx, RingElem.mul s t = .ok st ∧ CElem.rmul t x = .ok tx ∧
      (st.data ≠ [] → tx.data ≠ [] → ∃ a b, CElem.rmul s tx = .ok a ∧ CElem.rmul st x = .ok b ∧
        pyEq a b = true) ∧
      (st.data = [] → tx.data ≠ [] → ∃ a, CElem.rmul s tx = .ok a ∧ a.data = []) ∧
      (st.data ≠ [] → tx.data = [] → ∃ b, CElem.rmul st x = .ok b ∧ b.data = []) :=
  rmulG_mul rfl cubical_any hs hsn ht htn (hasArity_iff hx hr) ts tt

/-- `1 * x == x`. -/
theorem C29_act_one (hx : x.NF cubical) (hr : x.arity = some r) :
    ∃ z, CElem.rmul (RingElem.identityElement r (some x.torsion)) x = .ok z ∧ pyEq z x = true :=
  rmulG_one rfl cubical_any (hasArity_iff hx hr)

/-- `(s + s') * x == s * x + s' * x`. -/
theorem C29_add_act {s' u : RingElem} (hs : InRing r s) (hsn : s.data ≠ []) (hs' : InRing r s')
    (hsn' : s'.data ≠ []) (hx : x.NF cubical) (hr : x.arity = some r) (ts : s.torsion = x.torsion)
    (hadd : add symmetricRing s s' = .ok u) :
    ∃ a b v, CElem.rmul s x = .ok a ∧ CElem.rmul s' x = .ok b ∧ add cubical a b = .ok v ∧
      (u.data = [] → v.data = []) ∧
      (u.data ≠ [] → ∃ c, CElem.rmul u x = .ok c ∧ pyEq c v = true) :=
  rmulG_add_left rfl cubical_any hs hsn hs' hsn' (hasArity_iff hx hr) ts hadd

/-- `s * (x + x') == s * x + s * x'`. -/
theorem C29_act_add {x' y : CElem} (hs : InRing r s) (hsn : s.data ≠ []) (hx : x.NF cubical)
    (hr : x.arity = some r) (hx' : x'.NF cubical) (hr' : x'.arity = some r)
    (ts : s.torsion = x.torsion) (hadd : add cubical x x' = .ok y) :
    ∃ a b v, CElem.rmul s x = .ok a ∧ CElem.rmul s x' = .ok b ∧ add cubical a b = .ok v ∧
      (y.data = [] → v.data = []) ∧
      (y.data ≠ [] → ∃ c, CElem.rmul s y = .ok c ∧ pyEq c v = true) :=
  rmulG_add_right rfl cubical_any hs hsn (hasArity_iff hx hr) (hasArity_iff hx' hr') ts hadd

/-- Integer factors can be moved out of both factors. -/
theorem C29_act_smul (hs : InRing r s) (hsn : s.data ≠ []) (hx : x.NF cubical)
    (hr : x.arity = some r) (ts : s.torsion = x.torsion) (c : Int) :
    ∃ a, CElem.rmul s x = .ok a ∧
      ((smul cubical c x).data ≠ [] → ∃ b, CElem.rmul s (smul cubical c x) = .ok b ∧
        pyEq b (smul cubical c a) = true) ∧
      ((smul symmetricRing c s).data ≠ [] → ∃ b, CElem.rmul (smul symmetricRing c s) x = .ok b ∧
        pyEq b (smul cubical c a) = true) :=
  rmulG_smul rfl cubical_any hs hsn (hasArity_iff hx hr) ts c

/-- The action commutes with the boundary: `(s * x).boundary() == s * x.boundary()`. -/
theorem C29_act_boundary {z bx bz : CElem} (hs : InRing r s) (hsn : s.data ≠ []) (hx : x.NF cubical)
    (hr : x.arity = some r) (ts : s.torsion = x.torsion) (hz : CElem.rmul s x = .ok z)
    (hbx : x.boundary = .ok bx) (hbz : z.boundary = .ok bz) :
    (bx.data = [] → bz.data = []) ∧
    (bx.data ≠ [] → ∃ y, CElem.rmul s bx = .ok y ∧ pyEq bz y = true) := by
  refine rmulG_boundary rfl cubical_any (fun _ => cubeD) (fun _ => sgn1_cubeD) hs hsn
    (hasArity_iff hx hr) ts hz (nf_cboundary hbx) (nf_cboundary hbz) (cboundary_attrs hbx)
    (cboundary_attrs hbz) ?_ ?_ ?_
  · rw [den_cboundary hbx rfl]
    exact (pr_false _).symm
  · intro p hp
    obtain ⟨q, hq, j, c, i, ε, _, _, he⟩ := mem_keys_cboundary hbx (List.mem_map_of_mem (f := Prod.fst) hp)
    rw [he, List.length_set]
    exact (arityG_iff.1 hr).2 q hq
  · intro n hn
    rw [den_cboundary hbz hn]
    exact (pr_false _).symm

/-- Different torsions or arities are rejected; so is a zero operand (its `arity` is `None`). -/
theorem C29_act_mismatch (h : x.torsion ≠ s.torsion ∨ x.arity ≠ s.arity) :
    CElem.rmul s x = .error .typeError := rmulG_mismatch h

end cubical

/-- Instance: a transposition exchanges two factors of odd degree. -/
example : ∃ z, CElem.rmul (new symmetricRing [([2, 1], 1), ([1, 2], 1)] none)
    (new cubical [([[0, 2], [2, 1]], 1)] none) = .ok z ∧
    z.coeff [[2, 1], [0, 2]] = -1 ∧ z.coeff [[0, 2], [2, 1]] = 1 := ⟨_, rfl, by decide +kernel⟩

end Comch.Props
