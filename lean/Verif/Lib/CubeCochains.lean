import Verif.Lib.CubeFaces
import Verif.Props.Cochains

/-! # Cochains on cubes, modulo 2 -/

set_option linter.unusedSectionVars false

namespace Comch.CubeCoch
open Comch.Spec Elem CElem SurjComp SurjElem Serre CubCall SurjMay Comch.Props IsPerm
open Comch.Join (jn JN IsCube j2 jnL)
open BElem (stepV)
open Finsupp (single)

abbrev F := ZMod 2

theorem two_self (a : F) : a + a = 0 := CharTwo.add_self_eq_zero a

theorem neg_id {M : Type} [AddCommGroup M] [Module F M] (v : M) : -v = v := neg_char (R := F) v

/-! ### evaluation -/

variable {a b : Nat} {α β : Cube → F} {N : Nat} {c : Cube} {cv : Convention}

/-- Evaluation of a pair of cochains. -/
noncomputable def evC (a : Nat) (α : Cube → F) (b : Nat) (β : Cube → F) : (CKey →₀ F) →ₗ[F] F :=
  Finsupp.linearCombination F (cubeTensorValue a α b β)

@[simp] theorem evC_single (k : CKey) (e : F) : evC a α b β (single k e) = e * cubeTensorValue a α b β k := by simp [evC]

theorem evalOn_eq (u : CElem) : cubeEvalOn a α b β u = evC a α b β (den F u.data) := by
  unfold cubeEvalOn
  induction u.data with
  | nil => simp
  | cons p l ih => rw [List.map_cons, List.sum_cons, ih, den_cons, map_add, evC_single]

/-- Evaluation of one cochain. -/
noncomputable def ev1 (a : Nat) (α : Cube → F) : (Cube →₀ F) →ₗ[F] F :=
  Finsupp.linearCombination F fun f => if f.count 2 = a then α f else 0

@[simp] theorem ev1_single (f : Cube) (e : F) : ev1 a α (single f e) = e * if f.count 2 = a then α f else 0 := by simp [ev1]

/-- Two functionals agreeing on keys. -/
theorem fun_ext {K : Type} {S : Set K} {f g : (K →₀ F) →ₗ[F] F} (h : ∀ m ∈ S, f (bv F m) = g (bv F m))
    {v : K →₀ F} (hv : v ∈ Finsupp.supported F F S) : f v = g v := by
  have := BElem.lin_ext_supported (R := F) (S := S) (f := (Finsupp.lsingle (0 : Nat)).comp f)
    (g := (Finsupp.lsingle (0 : Nat)).comp g) (fun m hm => by
      simp only [LinearMap.comp_apply]
      rw [h m hm]) hv
  simp only [LinearMap.comp_apply, Finsupp.lsingle_apply] at this
  exact Finsupp.single_injective _ this

/-- A functional on the boundary of a cube. -/
theorem fun_cubeD (φ : (Cube →₀ F) →ₗ[F] F) (c : Cube) : φ (cubeD c) =
    ((List.range c.length).map fun i => if c.getD i 0 = 2 then φ (bv F (c.set i 0)) + φ (bv F (c.set i 1)) else 0).sum := by
  induction c generalizing φ with
  | nil => simp [cubeD]
  | cons e c ih =>
    have h := ih (φ.comp (consV e))
    simp only [LinearMap.comp_apply, consV_single] at h
    rw [List.length_cons, List.range_succ_eq_map, List.map_cons, List.sum_cons, List.map_map]
    have e1 : ((List.range c.length).map ((fun i => if (e :: c).getD i 0 = 2 then φ (bv F ((e :: c).set i 0)) + φ (bv F ((e :: c).set i 1)) else 0) ∘ Nat.succ)).sum
        = φ (consV e (cubeD c)) := by
      rw [h]
      rfl
    rw [e1, cubeD]
    by_cases he : e = 2
    · subst he
      rw [if_pos rfl, sub_eq_add_neg, sub_eq_add_neg, neg_id, neg_id, map_add, map_add]
      simp only [List.getD_cons_zero, if_true, List.set_cons_zero]
      ring
    · rw [if_neg he]
      simp [he]

theorem count_set {c : Cube} {i v : Nat} (h : c.getD i 0 = 2) (hv : v ≠ 2) : (c.set i v).count 2 + 1 = c.count 2 := by
  induction c generalizing i with
  | nil => simp at h
  | cons e c ih =>
    cases i with
    | zero =>
      simp only [List.getD_cons_zero] at h
      subst h
      rw [List.set_cons_zero, List.count_cons_of_ne (by exact hv), List.count_cons_self]
    | succ i =>
      rw [List.getD_cons_succ] at h
      rw [List.set_cons_succ, List.count_cons, List.count_cons, ← ih h]
      omega

theorem ev1_cubeD (a : Nat) (α : Cube → F) (c : Cube) :
    ev1 a α (cubeD c) = if c.count 2 = a + 1 then cubeCoboundary α c else 0 := by
  rw [fun_cubeD, cubeCoboundary]
  by_cases h : c.count 2 = a + 1
  · rw [if_pos h]
    congr 1
    refine List.map_congr_left fun i _ => ?_
    by_cases h2 : c.getD i 0 = 2
    · have h0 := count_set (v := 0) h2 (by decide)
      have h1 := count_set (v := 1) h2 (by decide)
      rw [if_pos h2, if_pos h2, ev1_single, ev1_single, if_pos (by omega), if_pos (by omega), one_mul, one_mul]
    · rw [if_neg h2, if_neg h2]
  · rw [if_neg h]
    refine List.sum_eq_zero fun t ht => ?_
    obtain ⟨i, -, rfl⟩ := List.mem_map.1 ht
    split
    · rename_i h2
      have h0 := count_set (v := 0) h2 (by decide)
      have h1 := count_set (v := 1) h2 (by decide)
      rw [ev1_single, ev1_single, if_neg (by omega), if_neg (by omega)]
      simp
    · rfl

theorem evC_cat (u v : Cube →₀ F) : evC a α b β (cat (one u) (one v)) = ev1 a α u * ev1 b β v := by
  induction u using Finsupp.induction_linear with
  | zero => simp
  | add f g hf hg => simp only [map_add, LinearMap.add_apply, hf, hg, add_mul]
  | single f s =>
    induction v using Finsupp.induction_linear with
    | zero => simp
    | add f g hf hg => simp only [map_add, hf, hg, mul_add]
    | single g t =>
      simp only [one, mapK_single, cat_single_single, List.singleton_append, evC_single, ev1_single, cubeTensorValue]
      by_cases h1 : f.count 2 = a <;> by_cases h2 : g.count 2 = b <;> simp [h1, h2]
      ring

/-- Evaluation on a boundary. -/
theorem evC_cubicalD {v : CKey →₀ F} (hv : v ∈ Finsupp.supported F F {m : CKey | m.length = 2}) :
    evC a α b β (cubicalD v) = evC (a + 1) (cubeCoboundary α) b β v + evC a α (b + 1) (cubeCoboundary β) v := by
  refine fun_ext (f := (evC a α b β).comp cubicalD) (g := evC (a + 1) (cubeCoboundary α) b β + evC a α (b + 1) (cubeCoboundary β))
    (fun m hm => ?_) hv
  obtain ⟨f, g, rfl⟩ := List.length_eq_two.1 (show m.length = 2 from hm)
  have e1 : cubicalD (bv F [f, g]) = cat (one (cubeD f)) (one (bv F g)) + cat (one (bv F f)) (one (cubeD g)) := by
    rw [show bv F [f, g] = cat (one (bv F f)) (one (bv F g)) by simp [one], cubicalD_cat]
    congr 2 <;> simp [cubicalD, one, tensK]
  rw [LinearMap.comp_apply, e1, map_add, evC_cat, evC_cat, ev1_cubeD, ev1_cubeD, LinearMap.add_apply, evC_single, evC_single]
  simp only [ev1_single, cubeTensorValue, one_mul]
  congr 1
  · by_cases h1 : f.count 2 = a + 1 <;> by_cases h2 : g.count 2 = b <;> simp [h1, h2]
  · by_cases h1 : f.count 2 = a <;> by_cases h2 : g.count 2 = b + 1 <;> simp [h1, h2]

/-! ### the structure elements -/

/-- The action of the structure elements. -/
noncomputable def WC (cv : Convention) (i : Nat) : (CKey →₀ F) →ₗ[F] (CKey →₀ F) :=
  callCV 2 2 i 0 (convS cv (psiS F 2 i))

theorem cube_ok (c : Cube) : (cubeElement c).NF cubical ∧ (cubeElement c).degree = some (c.count 2) ∧ (cubeElement c).arity = some 1 ∧
    (cubeElement c).torsion = 2 ∧ den F (cubeElement c).data = bv F [c] ∧ (cubeElement c).data = [([c], 1)] := by
  have hd : (cubeElement c).data = [([c], 1)] := by
    simp [cubeElement, Elem.new, preferredRep, zeroDropped, basePreferredRep, cubical]
  refine ⟨nf_new _ (by simp [Dict.KeysNodup]) _ _, ?_, ?_, rfl, ?_, hd⟩
  · rw [CElem.degree, hd]
    simp [uniqueValue, CElem.keyDegree, Cube.dimension]
  · rw [CElem.arity, hd]
    simp [uniqueValue]
  · rw [hd]
    simp

theorem WC_ok (cv : Convention) (i : Nat) {y : CElem} {e : Nat} (hk : ∀ p ∈ y.data, CElem.keyDegree p.1 = e ∧ p.1.length = 1)
    (hN : ∀ p ∈ y.data, ∀ c ∈ p.1, c.length = N) (ty : y.torsion = 2) :
    ∃ x z, Surjection.maySteenrodStructure 2 i (some 2) cv = .ok x ∧ callCubical x y = .ok z ∧
      z.NF cubical ∧ z.attrs = y.attrs ∧ den F z.data = WC cv i (den _ y.data) := by
  obtain ⟨x, ex, ix, tx, cx, -, -, dx, -⟩ := C56_psi_ok (r := 2) cv le_rfl i 2 (by decide)
  obtain ⟨x', ex', ix', ax', dx'⟩ := surjMay_ok (r := 2) cv le_rfl i 2
  cases ex.symm.trans ex'
  obtain ⟨z, ez, nz, az, dz⟩ := callCubical_ok ix (fun p hp => sdeg_of_degree ix dx hp) hk hN tx ty le_rfl le_rfl
  refine ⟨x, z, ex, ez, nz, az, ?_⟩
  rw [dz, dx']
  rfl

theorem psi_supp (cv : Convention) (i : Nat) : convS cv (psiS F 2 i) ∈ Finsupp.supported F F
    {k : Surj | Onto 2 k ∧ ((sdeg k : Nat) : Int) = i ∧ k ≠ []} := by
  obtain ⟨x, ex, ix, tx, cx, -, -, dx, -⟩ := C56_psi_ok (r := 2) cv le_rfl i 2 (by decide)
  obtain ⟨x', ex', ix', ax', dx'⟩ := surjMay_ok (r := 2) cv le_rfl i 2
  cases ex.symm.trans ex'
  rw [← dx']
  exact den_supported (R := F) fun p hp => ⟨ix.onto p hp, sdeg_of_degree ix dx hp, onto_ne_nil ix.nf hp⟩

/-- The tensors of two faces of `c` of total dimension `d`. -/
def Pairs (c : Cube) (d : Nat) : Set CKey := {m | ∃ f g, m = [f, g] ∧ f ∈ FC c ∧ g ∈ FC c ∧ f.count 2 + g.count 2 = d}

theorem WC_supp (hc : ∀ v ∈ c, v ≤ 2) (i : Nat) :
    WC cv i (bv F [c]) ∈ Finsupp.supported F F (Pairs c (c.count 2 + i)) := by
  rw [WC, callCV]
  refine BElem.bil_supported (R := F) _ (S := {k : Surj | Onto 2 k ∧ ((sdeg k : Nat) : Int) = i ∧ k ≠ []}) (T := {[c]}) (fun k hk m hm => ?_)
    (psi_supp cv i) (Finsupp.single_mem_supported F _ rfl)
  cases hm
  have h1 := callCV_faces (n := 2) (r := 2) (d := i) hc hk.2.2
  have h2 := callCV_supported (n := 2) (N := c.length) hk.1 hk.2.1 hk.2.2 (c := 0) (m := [c]) (by simp)
    (fun x hx => by rw [List.mem_singleton.1 hx]; exact ⟨rfl, hc⟩)
  rw [callCV, bil_bv, lin_single, one_smul] at h1 h2
  rw [Finsupp.mem_supported] at h1 h2 ⊢
  intro m hm
  have h3 := h1 hm
  obtain ⟨h4, -, h5⟩ := h2 hm
  obtain ⟨f, g, rfl⟩ := List.length_eq_two.1 (show m.length = 2 by simp at h4; exact h4)
  refine ⟨f, g, rfl, h3 f (by simp), h3 g (by simp), ?_⟩
  simp only [totDeg, cdim, Cube.dimension] at h5
  omega

theorem cubicalD_one (c : Cube) : cubicalD (bv F [c]) = one (cubeD c) := by
  simp [cubicalD, tensK]

/-- Exchange of the two factors. -/
noncomputable def sw : (CKey →₀ F) →ₗ[F] (CKey →₀ F) := mapK List.reverse

theorem stepV_two (d : Nat) {v : CKey →₀ F} (hv : v ∈ Finsupp.supported F F {m : CKey | m.length = 2}) :
    actV cdim (stepV F 2 d) v = sw v + v := by
  have := BElem.lin_ext_supported (R := F) (S := {m : CKey | m.length = 2}) (f := actV cdim (stepV F 2 d)) (g := sw + LinearMap.id)
    (fun m hm => ?_) hv
  · exact this
  obtain ⟨f, g, rfl⟩ := List.length_eq_two.1 (show m.length = 2 from hm)
  have h1 : actV cdim (bv F [2, 1]) (bv F [f, g]) = bv F [g, f] := by
    rw [actV, bil_bv, lin_single, one_smul, actK, sg_char, one_smul]
    rfl
  have h2 : actV cdim (bv F [1, 2]) (bv F [f, g]) = bv F [f, g] := by
    rw [actV, bil_bv, lin_single, one_smul, actK, sg_char, one_smul]
    rfl
  have h3 : stepV F 2 d = bv F [2, 1] + bv F [1, 2] := by
    unfold stepV
    split
    · unfold nV
      rw [show List.range 2 = [0, 1] by rfl]
      simp only [List.map_cons, List.map_nil, List.sum_cons, List.sum_nil, add_zero]
      rw [add_comm]
      rfl
    · rw [show tV F 2 = bv F [2, 1] - bv F [1, 2] by rfl, sub_eq_add_neg, neg_id]
  rw [h3, map_add, LinearMap.add_apply, h1, h2, LinearMap.add_apply]
  simp [sw]

theorem WC_zero (hc : ∀ v ∈ c, v ≤ 2) : cubicalD (WC cv 0 (bv F [c])) = WC cv 0 (one (cubeD c)) := by
  obtain ⟨h1, h2, h3, h4, h5, h6⟩ := cube_ok c
  have hN : ∀ p ∈ (cubeElement c).data, ∀ d ∈ p.1, d.length = c.length ∧ ∀ v ∈ d, v ≤ 2 := by
    rw [h6]
    simpa using hc
  have hk := chomogeneous_keys h2 h3
  obtain ⟨x, ex, ix, tx, cx, -, -, dx, -⟩ := C56_psi_ok (r := 2) cv le_rfl 0 2 (by decide)
  obtain ⟨u, yb, ub, zx, zy, t, xb, eu, eub, hxb, eyb, ezx, ezy, et, h⟩ := C54_chain_map_mod_two ix dx h2 h3 hN tx h4 le_rfl le_rfl
  subst hxb
  have hkb := cboundary_keys eyb h2 h3
  have hNb := cboundary_cubes eyb hN
  have tyb : yb.torsion = 2 := (torsion_congr (cboundary_attrs eyb)).trans h4
  obtain ⟨x', z, ex', ez, nz, az, dz⟩ := WC_ok cv 0 hk (fun p hp d hd => (hN p hp d hd).1) h4
  cases ex.symm.trans ex'
  cases eu.symm.trans ez
  obtain ⟨x', z, ex', ez, nzb, azb, dzb⟩ := WC_ok cv 0 hkb (fun p hp d hd => (hNb p hp d hd).1) tyb
  cases ex.symm.trans ex'
  cases ezy.symm.trans ez
  have hb : x.boundary.data = [] := by
    by_contra hne
    obtain ⟨p, hp⟩ := List.exists_mem_of_ne_nil _ hne
    have := sdeg_boundary ix dx p hp
    simp at this
  obtain ⟨zx', ezx', dzx, azx⟩ := (C54_errors_zero (x := x.boundary) (y := cubeElement c) (coord := 1) (a := 1)).1 (Or.inl hb)
  cases ezx.symm.trans ezx'
  have tz : u.torsion = 2 := (torsion_congr az).trans h4
  have tzx : zx.torsion = 2 := (torsion_congr azx).trans h4
  have tzb : zy.torsion = 2 := (torsion_congr azb).trans tyb
  have nzx : zx.NF cubical := ⟨by rw [dzx]; simp [Dict.KeysNodup], by rw [dzx]; simp, by rw [dzx]; simp, by rw [dzx]; simp⟩
  have tub : ub.torsion = 2 := (torsion_congr (cboundary_attrs eub)).trans tz
  have h7 := (pyEq_iff_den (nf_cboundary eub) (nf_add et nzx) (by rw [tub, torsion_congr (attrs_add et), tzx])).1 h
  rw [tub] at h7
  rw [den_cboundary eub tz, den_add (R := F) et nzx nzb rfl (by rw [tzx]; rfl), dzx, den_nil, zero_add, dz, dzb,
    den_cboundary eyb h4, h5, cubicalD_one] at h7
  exact h7

theorem WC_succ (hc : ∀ v ∈ c, v ≤ 2) (i : Nat) : cubicalD (WC cv (i + 1) (bv F [c])) =
    sw (WC cv i (bv F [c])) + WC cv i (bv F [c]) + WC cv (i + 1) (one (cubeD c)) := by
  obtain ⟨h1, h2, h3, h4, h5, h6⟩ := cube_ok c
  have hN : ∀ p ∈ (cubeElement c).data, ∀ d ∈ p.1, d.length = c.length ∧ ∀ v ∈ d, v ≤ 2 := by
    rw [h6]
    simpa using hc
  have hk := chomogeneous_keys h2 h3
  obtain ⟨s, x', x, u, du, yb, v, ub, wv, t, hs0, hs1, ex', ex, eu, edu, eyb, ev, eub, hwv, et, h⟩ :=
    C81_cubical cv le_rfl i h2 h3 hN h4
  have hkb := cboundary_keys eyb h2 h3
  have hNb := cboundary_cubes eyb hN
  have tyb : yb.torsion = 2 := (torsion_congr (cboundary_attrs eyb)).trans h4
  obtain ⟨x1, z, ex1, ez, nu, au, dzu⟩ := WC_ok cv (i + 1) hk (fun p hp d hd => (hN p hp d hd).1) h4
  cases ex'.symm.trans ex1
  cases eu.symm.trans ez
  obtain ⟨x1, z, ex1, ez, nub, aub, dub⟩ := WC_ok cv (i + 1) hkb (fun p hp d hd => (hNb p hp d hd).1) tyb
  cases ex'.symm.trans ex1
  cases eub.symm.trans ez
  obtain ⟨x1, z, ex1, ez, nv, av, dv⟩ := WC_ok cv i hk (fun p hp d hd => (hN p hp d hd).1) h4
  cases ex.symm.trans ex1
  cases ev.symm.trans ez
  have tu : u.torsion = 2 := (torsion_congr au).trans h4
  have tv : v.torsion = 2 := (torsion_congr av).trans h4
  have tub : ub.torsion = 2 := (torsion_congr aub).trans tyb
  have tdu : du.torsion = 2 := (torsion_congr (cboundary_attrs edu)).trans tu
  have hsupp : den F v.data ∈ Finsupp.supported F F {m : CKey | m.length = 2} := by
    rw [dv, h5]
    refine Finsupp.supported_mono ?_ (WC_supp hc i)
    rintro m ⟨f, g, rfl, -⟩
    rfl
  obtain ⟨is, sne, ts, ds⟩ : InRing 2 s ∧ s.data ≠ [] ∧ s.torsion = 2 ∧ den F s.data = stepV F 2 (i + 1) := by
    rcases Nat.mod_two_eq_zero_or_one i with hi | hi
    · rw [hs0 hi]
      exact ⟨inRing_transposition le_rfl (some 2), transposition_ne le_rfl (by decide), rfl, by
        rw [den_transposition le_rfl, stepV, if_neg (by omega)]⟩
    · obtain ⟨M, e1, e2, e3, e4⟩ := norm_ok (r := 2) (n := 2) (by omega) (by decide)
      cases (hs1 hi).symm.trans e1
      exact ⟨e2, norm_ne le_rfl (by decide) e1, e3, by rw [e4, stepV, if_pos (by omega)]⟩
  obtain ⟨nwv, twv, dwv⟩ : wv.NF cubical ∧ wv.torsion = 2 ∧ den F wv.data = sw (den F v.data) + den F v.data := by
    rw [← stepV_two (i + 1) hsupp]
    rcases hwv with ⟨h0, rfl⟩ | ⟨hne, hw⟩
    · refine ⟨nv, tv, ?_⟩
      rw [h0, den_nil, map_zero]
    · have hxc : HasArity cubical 2 v := ⟨nv, hne, fun p hp => by
        have := nv.mem_keys_iff.1 (List.mem_map_of_mem (f := Prod.fst) hp)
        rw [tv] at this
        exact hsupp (Finsupp.mem_support_iff.2 this)⟩
      obtain ⟨wv', ew', nw, aw, -, dw⟩ := rmulG_ok (w := cdim) rfl cubical_any is sne hxc (n := 2) ts tv
      rw [← cubical_rmul_eq] at ew'
      cases hw.symm.trans ew'
      refine ⟨nw, (torsion_congr aw).trans tv, ?_⟩
      rw [dw, ds]
  have h7 := (pyEq_iff_den (nf_cboundary edu) (nf_add et nwv) (by rw [tdu, torsion_congr (attrs_add et), twv])).1 h
  rw [tdu] at h7
  rw [den_cboundary edu tu, den_add (R := F) et nwv nub rfl (by rw [twv]; rfl), dwv, dub, dv, dzu,
    den_cboundary eyb h4, h5, cubicalD_one] at h7
  exact h7

/-! ### the products -/

/-- The value of `α ∪_i β` at `c`. -/
noncomputable def wc (cv : Convention) (i a : Nat) (α : Cube → F) (b : Nat) (β : Cube → F) (c : Cube) : F :=
  evC a α b β (WC cv i (bv F [c]))

theorem cob_wc (i : Nat) (c : Cube) : cubeCoboundary (wc cv i a α b β) c = evC a α b β (WC cv i (one (cubeD c))) := by
  have := fun_cubeD ((evC a α b β).comp ((WC cv i).comp (mapK (R := F) fun f : Cube => [f]))) c
  simp only [LinearMap.comp_apply, mapK_single] at this
  rw [one, this]
  rfl

theorem WC_two (hc : ∀ v ∈ c, v ≤ 2) (i : Nat) :
    WC cv i (bv F [c]) ∈ Finsupp.supported F F {m : CKey | m.length = 2} := by
  refine Finsupp.supported_mono ?_ (WC_supp hc i)
  rintro m ⟨f, g, rfl, -⟩
  rfl

theorem evC_sw {v : CKey →₀ F} (hv : v ∈ Finsupp.supported F F {m : CKey | m.length = 2}) :
    evC a α b β (sw v) = evC b β a α v := by
  refine fun_ext (f := (evC a α b β).comp sw) (g := evC b β a α) (fun m hm => ?_) hv
  obtain ⟨f, g, rfl⟩ := List.length_eq_two.1 (show m.length = 2 from hm)
  simp only [LinearMap.comp_apply, sw, mapK_single, evC_single]
  simp only [List.reverse_cons, List.reverse_nil, List.nil_append, List.singleton_append, cubeTensorValue]
  by_cases h1 : f.count 2 = b <;> by_cases h2 : g.count 2 = a <;> simp [h1, h2, mul_comm]

theorem wc_zero (hc : ∀ v ∈ c, v ≤ 2) (a b : Nat) (α β : Cube → F) : cubeCoboundary (wc cv 0 a α b β) c =
    wc cv 0 (a + 1) (cubeCoboundary α) b β c + wc cv 0 a α (b + 1) (cubeCoboundary β) c := by
  rw [cob_wc, ← WC_zero hc, evC_cubicalD (WC_two hc 0)]
  rfl

theorem wc_succ (hc : ∀ v ∈ c, v ≤ 2) (i a b : Nat) (α β : Cube → F) : cubeCoboundary (wc cv (i + 1) a α b β) c =
    wc cv (i + 1) (a + 1) (cubeCoboundary α) b β c + wc cv (i + 1) a α (b + 1) (cubeCoboundary β) c +
      (wc cv i b β a α c + wc cv i a α b β c) := by
  have h := congrArg (evC a α b β) (WC_succ (cv := cv) hc i)
  rw [evC_cubicalD (WC_two hc (i + 1)), map_add, map_add, evC_sw (WC_two hc i), ← cob_wc] at h
  have h2 := two_self (evC b β a α (WC cv i (bv F [c])) + evC a α b β (WC cv i (bv F [c])))
  unfold wc at *
  rw [h]
  calc _ = cubeCoboundary (wc cv (i + 1) a α b β) c + 0 := (add_zero _).symm
    _ = _ := by rw [← h2]; unfold wc; ring

theorem wc_congr (hc : ∀ v ∈ c, v ≤ 2) {i : Nat} {α' β' : Cube → F} (h1 : ∀ f ∈ FC c, f.count 2 = a → α f = α' f)
    (h2 : ∀ f ∈ FC c, f.count 2 = b → β f = β' f) : wc cv i a α b β c = wc cv i a α' b β' c := by
  refine fun_ext (f := evC a α b β) (g := evC a α' b β') (fun m hm => ?_) (WC_supp hc i)
  obtain ⟨f, g, rfl, hf, hg, -⟩ := hm
  rw [evC_single, evC_single]
  simp only [cubeTensorValue]
  split
  · rename_i h
    rw [h1 f hf h.1, h2 g hg h.2]
  · rfl

theorem wc_degree (hc : ∀ v ∈ c, v ≤ 2) {i : Nat} (h : c.count 2 + i ≠ a + b) : wc cv i a α b β c = 0 := by
  refine fun_ext (f := evC a α b β) (g := 0) (fun m hm => ?_) (WC_supp hc i)
  obtain ⟨f, g, rfl, hf, hg, hd⟩ := hm
  rw [evC_single, LinearMap.zero_apply]
  simp only [cubeTensorValue]
  rw [if_neg (by omega), mul_zero]

theorem fc_count {f : Cube} (h : f ∈ FC c) : f.count 2 ≤ c.count 2 := by
  change List.Forall₂ (fun v e => v ≤ 2 ∧ (e = 2 ∨ v = e)) f c at h
  induction h with
  | nil => simp
  | cons h1 h2 ih =>
    rename_i v e f c
    rw [List.count_cons, List.count_cons]
    by_cases hv : v = 2
    · have : e = 2 := by omega
      simp [hv, this]; omega
    · simp [hv]; split <;> omega

theorem fc_count_eq {f : Cube} (h : f ∈ FC c) (he : f.count 2 = c.count 2) : f = c := by
  change List.Forall₂ (fun v e => v ≤ 2 ∧ (e = 2 ∨ v = e)) f c at h
  induction h with
  | nil => rfl
  | cons h1 h2 ih =>
    rename_i v e f c
    rw [List.count_cons, List.count_cons] at he
    have := fc_count (c := c) (f := f) h2
    by_cases hv : v = 2
    · have h3 : e = 2 := by omega
      simp [hv, h3] at he
      rw [ih he, hv, h3]
    · by_cases h3 : e = 2
      · simp [hv, h3] at he; omega
      · have h4 : v = e := by omega
        simp [hv, h3] at he
        rw [ih he, h4]

/-- The products vanish when a factor would have larger dimension than the cube. -/
theorem wc_large (hc : ∀ v ∈ c, v ≤ 2) {i : Nat} (h : c.count 2 < a ∨ c.count 2 < b) : wc cv i a α b β c = 0 := by
  refine fun_ext (f := evC a α b β) (g := 0) (fun m hm => ?_) (WC_supp hc i)
  obtain ⟨f, g, rfl, hf, hg, hd⟩ := hm
  have := fc_count hf
  have := fc_count hg
  rw [evC_single, LinearMap.zero_apply]
  simp only [cubeTensorValue]
  rw [if_neg (by omega), mul_zero]

theorem wc_add_left (i a b : Nat) (α α' β : Cube → F) :
    wc cv i a (fun f => α f + α' f) b β c = wc cv i a α b β c + wc cv i a α' b β c := by
  unfold wc
  generalize WC cv i (bv F [c]) = v
  induction v using Finsupp.induction_linear with
  | zero => simp
  | add v w hv hw => simp only [map_add, hv, hw]; ring
  | single k e =>
    simp only [evC_single]
    match k with
    | [] => simp [cubeTensorValue]
    | [f] => simp [cubeTensorValue]
    | [f, g] => simp only [cubeTensorValue]; split <;> ring
    | f :: g :: h :: k => simp [cubeTensorValue]

theorem wc_add_right (i a b : Nat) (α β β' : Cube → F) :
    wc cv i a α b (fun f => β f + β' f) c = wc cv i a α b β c + wc cv i a α b β' c := by
  unfold wc
  generalize WC cv i (bv F [c]) = v
  induction v using Finsupp.induction_linear with
  | zero => simp
  | add v w hv hw => simp only [map_add, hv, hw]; ring
  | single k e =>
    simp only [evC_single]
    match k with
    | [] => simp [cubeTensorValue]
    | [f] => simp [cubeTensorValue]
    | [f, g] => simp only [cubeTensorValue]; split <;> ring
    | f :: g :: h :: k => simp [cubeTensorValue]

theorem wc_zero_left (i a b : Nat) (β : Cube → F) : wc cv i a (fun _ => 0) b β c = 0 := by
  have := wc_add_left (cv := cv) (c := c) i a b (fun _ => 0) (fun _ => 0) β
  simpa using this

theorem wc_zero_right (i a b : Nat) (α : Cube → F) : wc cv i a α b (fun _ => 0) c = 0 := by
  have := wc_add_right (cv := cv) (c := c) i a b α (fun _ => 0) (fun _ => 0)
  simpa using this

theorem cube_cob_add (α β : Cube → F) (c : Cube) :
    cubeCoboundary (fun f => α f + β f) c = cubeCoboundary α c + cubeCoboundary β c := by
  unfold cubeCoboundary
  rw [← List.sum_map_add]
  congr 1
  exact List.map_congr_left fun i _ => by split <;> ring

theorem cube_cob_zero (c : Cube) : cubeCoboundary (fun _ => 0) c = 0 := by
  unfold cubeCoboundary
  refine List.sum_eq_zero fun t ht => ?_
  obtain ⟨i, -, rfl⟩ := List.mem_map.1 ht
  simp

theorem set_fc (hc : ∀ v ∈ c, v ≤ 2) {i v : Nat} (h : c.getD i 0 = 2) (hv : v ≤ 2) : c.set i v ∈ FC c := by
  show List.Forall₂ _ _ _
  induction c generalizing i with
  | nil => simp at h
  | cons e c ih =>
    have hr : List.Forall₂ (fun v e => v ≤ 2 ∧ (e = 2 ∨ v = e)) c c :=
      List.forall₂_same.2 fun x hx => ⟨hc x (by simp [hx]), Or.inr rfl⟩
    cases i with
    | zero =>
      simp only [List.getD_cons_zero] at h
      rw [List.set_cons_zero]
      exact .cons ⟨hv, Or.inl h⟩ hr
    | succ i =>
      rw [List.getD_cons_succ] at h
      rw [List.set_cons_succ]
      exact .cons ⟨hc e (by simp), Or.inr rfl⟩ (ih (fun x hx => hc x (by simp [hx])) h)

theorem cube_cob_congr (hc : ∀ v ∈ c, v ≤ 2) (h : ∀ f ∈ FC c, f.count 2 + 1 = c.count 2 → α f = β f) :
    cubeCoboundary α c = cubeCoboundary β c := by
  unfold cubeCoboundary
  congr 1
  refine List.map_congr_left fun i _ => ?_
  split
  · rename_i h2
    rw [h _ (set_fc hc h2 (by omega)) (count_set h2 (by decide)), h _ (set_fc hc h2 (by omega)) (count_set h2 (by decide))]
  · rfl

theorem cube_cob_vertex (γ : Cube → F) {c : Cube} (h : c.count 2 = 0) : cubeCoboundary γ c = 0 := by
  unfold cubeCoboundary
  refine List.sum_eq_zero fun t ht => ?_
  obtain ⟨i, hi, rfl⟩ := List.mem_map.1 ht
  split
  · rename_i h2
    have := count_set (v := 0) h2 (by decide)
    omega
  · rfl

theorem cube_cob_cob (γ : Cube → F) (c : Cube) : cubeCoboundary (cubeCoboundary γ) c = 0 := by
  by_cases h : ∃ q, c.count 2 = q + 2
  · obtain ⟨q, hq⟩ := h
    have h1 : ∀ v : Cube →₀ F, ev1 (q + 1) (cubeCoboundary γ) v = ev1 q γ (lin cubeD v) := by
      intro v
      induction v using Finsupp.induction_linear with
      | zero => simp
      | add v w hv hw => simp only [map_add, hv, hw]
      | single f e => rw [ev1_single, lin_single, map_smul, ev1_cubeD, smul_eq_mul]
    have h2 := ev1_cubeD (q + 1) (cubeCoboundary γ) c
    rw [if_pos (by omega), h1] at h2
    rw [← h2, lin_cubeD_cubeD, map_zero]
  · unfold cubeCoboundary
    refine List.sum_eq_zero fun t ht => ?_
    obtain ⟨i, hi, rfl⟩ := List.mem_map.1 ht
    split
    · rename_i h2
      have h0 := count_set (v := 0) h2 (by decide)
      have h1 := count_set (v := 1) h2 (by decide)
      have hq : c.count 2 ≠ c.count 2 - 2 + 2 := fun e => h ⟨_, e⟩
      have e0 := cube_cob_vertex γ (c := c.set i 0) (by omega)
      have e1 := cube_cob_vertex γ (c := c.set i 1) (by omega)
      unfold cubeCoboundary at e0 e1
      rw [e0, e1, add_zero]
    · rfl

/-! ### the product `∪_0` -/

theorem sum_pairs_pre {e : Nat} (l : List (Cube × Cube)) :
    pre e ((l.map fun p => bv F [p.1, p.2]).sum) = ((l.map fun p => (e :: p.1, e :: p.2)).map fun p => bv F [p.1, p.2]).sum := by
  rw [map_list_sum, List.map_map, List.map_map]
  congr 1
  exact List.map_congr_left fun p _ => by simp

theorem sum_pairs_tL (l : List (Cube × Cube)) :
    tL ((l.map fun p => bv F [p.1, p.2]).sum) =
      ((l.map (fun p => (2 :: p.1, 1 :: p.2)) ++ l.map (fun p => (0 :: p.1, 2 :: p.2))).map fun p => bv F [p.1, p.2]).sum := by
  induction l with
  | nil => simp
  | cons p l ih =>
    rw [List.map_cons, List.sum_cons, map_add, ih]
    simp only [List.map_append, List.map_cons, List.sum_append, List.sum_cons, tL_single, one_smul, tK, List.map_nil, sg_char,
      map_zero, add_zero, consV_single]
    abel

theorem serre_splits (c : Cube) : serre (R := F) 1 c = ((cubeSplits c).map fun p => bv F [p.1, p.2]).sum := by
  induction c with
  | nil => simp [serre, cubeSplits]
  | cons e c ih =>
    rw [serre, ih, cubeSplits]
    split
    · exact sum_pairs_tL _
    · exact sum_pairs_pre _

theorem WC_serre (c : Cube) : WC cv 0 (bv F [c]) = serre 1 c := by
  unfold WC
  rw [psiS, convS_single, one_mul, map_smul, LinearMap.smul_apply, sg_char, one_smul]
  rw [callCV_two _ (by decide) (by simp)]
  simp only [atK, cat_nil_right]
  rw [show pyRange 1 (2 + 1) = List.range' 1 2 by rfl, cact]
  have := BElem.lin_ext_supported (R := F) (S := {m : CKey | m.length = 2}) (f := lin (ac (R := F) 2 (List.range' 1 2)))
    (g := LinearMap.id) (fun m hm => by rw [lin_single, one_smul, ac_identity hm]; rfl) (v := serre 1 c) ?_
  · exact this
  · refine Finsupp.supported_mono ?_ (serre_supported (R := F) 1 c)
    intro m hm
    exact hm.1

theorem wc_splits (a b : Nat) (α β : Cube → F) (c : Cube) : wc cv 0 a α b β c =
    ((cubeSplits c).map fun p => if p.1.count 2 = a ∧ p.2.count 2 = b then α p.1 * β p.2 else 0).sum := by
  rw [wc, WC_serre, serre_splits, map_list_sum, List.map_map]
  congr 1
  exact List.map_congr_left fun p _ => by simp [cubeTensorValue]

theorem splits_vertex {c : Cube} (h : c.count 2 = 0) : cubeSplits c = [(c, c)] := by
  induction c with
  | nil => rfl
  | cons e c ih =>
    rw [List.count_cons] at h
    have he : e ≠ 2 := by rintro rfl; simp at h
    rw [cubeSplits, if_neg he, ih (by omega)]
    rfl

/-! ### `∪_q` in the top degree -/

theorem exists_interval {c : Cube} (h : 0 < c.count 2) : ∃ i, i < c.length ∧ c.getD i 0 = 2 := by
  obtain ⟨i, hi, e⟩ := List.getElem_of_mem (List.count_pos_iff.1 h)
  exact ⟨i, hi, by rw [List.getD_eq_getElem _ _ hi, e]⟩

/-- On one cube of positive dimension every value is the value of a coboundary. -/
theorem exists_primitive {c : Cube} (h : 0 < c.count 2) (t : F) : ∃ γ : Cube → F, cubeCoboundary γ c = t := by
  obtain ⟨i, hi, h2⟩ := exists_interval h
  refine ⟨fun f => if f = c.set i 0 then t else 0, ?_⟩
  rw [cubeCoboundary, sum_range_single (a := i) _ hi]
  · have : c.set i 1 ≠ c.set i 0 := by
      intro e
      have := congrArg (fun l => l.getD i 0) e
      simp [List.getD_eq_getElem?_getD, hi] at this
    rw [if_pos h2, if_pos rfl, if_neg this, add_zero]
  · intro j hj hne
    have : ∀ v, c.set j v ≠ c.set i 0 := by
      intro v e
      have := congrArg (fun l => l.getD i 0) e
      rw [List.getD_eq_getElem _ _ hi] at h2
      simp only [List.getD_eq_getElem?_getD, List.getElem?_set_ne hne, List.getElem?_set_self hi] at this
      rw [List.getElem?_eq_getElem hi, h2] at this
      simp at this
    rw [if_neg (this 0), if_neg (this 1), add_zero]
    split <;> rfl

theorem fc_trans {f g : Cube} (h1 : f ∈ FC g) (h2 : g ∈ FC c) : f ∈ FC c := by
  change List.Forall₂ _ _ _ at h1 h2 ⊢
  induction h1 generalizing c with
  | nil => cases h2; exact .nil
  | cons a1 a2 ih =>
    cases h2 with
    | cons b1 b2 => exact .cons ⟨a1.1, by omega⟩ (ih b2)

theorem fc_le {f : Cube} (h : f ∈ FC c) : ∀ v ∈ f, v ≤ 2 := (fc_isCube rfl h).2

theorem wc_top (q : Nat) : ∀ {c : Cube} (_ : ∀ v ∈ c, v ≤ 2) (_ : c.count 2 = q) (α : Cube → F),
    wc cv q q α q α c = α c := by
  induction q with
  | zero =>
    intro c hc hq α
    rw [wc_splits, splits_vertex hq]
    simp only [List.map_cons, List.map_nil, List.sum_cons, List.sum_nil, add_zero, hq, and_self, if_true]
    generalize α c = t
    revert t
    decide
  | succ d ih =>
    intro c hc hq α
    obtain ⟨γ, hγ⟩ := exists_primitive (c := c) (by omega) (α c)
    have hal : ∀ f ∈ FC c, f.count 2 = d + 1 → α f = cubeCoboundary γ f := by
      intro f hf h
      rw [fc_count_eq hf (by omega), hγ]
    rw [wc_congr hc hal hal]
    have h1 := wc_succ (cv := cv) hc d d (d + 1) γ (cubeCoboundary γ)
    have h0 : cubeCoboundary (wc cv (d + 1) d γ (d + 1) (cubeCoboundary γ)) c = 0 := by
      rw [cube_cob_congr (β := fun _ => 0) hc (fun f hf h => wc_large (fc_le hf) (by omega)), cube_cob_zero]
    rw [h0, wc_congr (β := cubeCoboundary (cubeCoboundary γ)) (β' := fun _ => 0) hc (fun _ _ _ => rfl)
      (fun f _ _ => cube_cob_cob γ f), wc_zero_right, add_zero] at h1
    have h2 : cubeCoboundary (wc cv d d γ d γ) c =
        wc cv d (d + 1) (cubeCoboundary γ) d γ c + wc cv d d γ (d + 1) (cubeCoboundary γ) c := by
      cases d with
      | zero => exact wc_zero hc _ _ _ _
      | succ d => rw [wc_succ hc, two_self, add_zero]
    rw [cube_cob_congr (β := γ) hc (fun f hf h => ih (fc_le hf) (by omega) γ), hγ] at h2
    rw [← h2] at h1
    have h3 := two_self (α c)
    linear_combination -h1 - h3

end Comch.CubeCoch
