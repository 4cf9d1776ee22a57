import Verif.Spec.CubeCup
import Verif.Props.CubEquiv
import Verif.Props.CubeCochains

/-! # Cup products on the cochains of cubes, with signs -/

set_option linter.unusedSectionVars false

namespace Comch.CubeCup
open Comch.Spec Elem CElem SurjComp SurjElem Serre CubCall SurjMay Comch.Props IsPerm CubTwist
open Comch.Join (jn JN IsCube j2 jnL)
open BElem (stepV)
open Finsupp (single)
open CubeCoch (count_set Pairs)

variable {n a b N : Nat} {α β : Cube → ZMod n} {c : Cube} {cv : Convention}

local notation "F" => ZMod n

/-! ### evaluation -/

noncomputable def evP (a : Nat) (α : Cube → F) (b : Nat) (β : Cube → F) : (CKey →₀ F) →ₗ[F] F :=
  Finsupp.linearCombination F (cubePairValue a α b β)

@[simp] theorem evP_single (k : CKey) (e : F) : evP a α b β (single k e) = e * cubePairValue a α b β k := by simp [evP]

theorem evalOn_eq (u : CElem) : cubePairEval a α b β u = evP a α b β (den F u.data) := by
  unfold cubePairEval
  induction u.data with
  | nil => simp
  | cons p l ih => rw [List.map_cons, List.sum_cons, ih, den_cons, map_add, evP_single]

noncomputable def ev1 (a : Nat) (α : Cube → F) : (Cube →₀ F) →ₗ[F] F :=
  Finsupp.linearCombination F fun f => if f.count 2 = a then α f else 0

@[simp] theorem ev1_single (f : Cube) (e : F) : ev1 a α (single f e) = e * if f.count 2 = a then α f else 0 := by simp [ev1]

theorem fun_ext {K : Type} {S : Set K} {f g : (K →₀ F) →ₗ[F] F} (h : ∀ m ∈ S, f (bv F m) = g (bv F m))
    {v : K →₀ F} (hv : v ∈ Finsupp.supported F F S) : f v = g v := by
  have := BElem.lin_ext_supported (R := F) (S := S) (f := (Finsupp.lsingle (0 : Nat)).comp f)
    (g := (Finsupp.lsingle (0 : Nat)).comp g) (fun m hm => by
      simp only [LinearMap.comp_apply]
      rw [h m hm]) hv
  simp only [LinearMap.comp_apply, Finsupp.lsingle_apply] at this
  exact Finsupp.single_injective _ this

theorem fun_cubeD (φ : (Cube →₀ F) →ₗ[F] F) (c : Cube) : φ (cubeD c) =
    ((List.range c.length).map fun i => if c.getD i 0 = 2 then
      (-1) ^ (c.take i).count 2 * (φ (bv F (c.set i 1)) - φ (bv F (c.set i 0))) else 0).sum := by
  induction c generalizing φ with
  | nil => simp [cubeD]
  | cons e c ih =>
    have h := ih (φ.comp (consV e))
    simp only [LinearMap.comp_apply, consV_single] at h
    rw [List.length_cons, List.range_succ_eq_map, List.map_cons, List.sum_cons, List.map_map, cubeD]
    by_cases he : e = 2
    · subst he
      have e1 : ((List.range c.length).map ((fun i => if (2 :: c).getD i 0 = 2 then
          (-1) ^ ((2 :: c).take i).count 2 * (φ (bv F ((2 :: c).set i 1)) - φ (bv F ((2 :: c).set i 0))) else 0) ∘ Nat.succ)).sum
          = - φ (consV 2 (cubeD c)) := by
        rw [h, neg_eq_neg_one_mul (List.sum _), ← List.sum_map_mul_left]
        congr 1
        refine List.map_congr_left fun i _ => ?_
        simp only [Function.comp, List.getD_cons_succ, List.take_succ_cons, List.count_cons_self, List.set_cons_succ]
        split
        · rw [pow_succ]; ring
        · ring
      rw [e1, if_pos rfl, map_sub, map_sub]
      simp only [List.getD_cons_zero, if_true, List.set_cons_zero, List.take_zero, List.count_nil, pow_zero]
      ring
    · have e1 : ((List.range c.length).map ((fun i => if (e :: c).getD i 0 = 2 then
          (-1) ^ ((e :: c).take i).count 2 * (φ (bv F ((e :: c).set i 1)) - φ (bv F ((e :: c).set i 0))) else 0) ∘ Nat.succ)).sum
          = φ (consV e (cubeD c)) := by
        rw [h]
        congr 1
        refine List.map_congr_left fun i _ => ?_
        simp only [Function.comp, List.getD_cons_succ, List.take_succ_cons, List.count_cons_of_ne he, List.set_cons_succ]
      rw [e1, if_neg he]
      simp [he]

theorem ev1_cubeD (a : Nat) (α : Cube → F) (c : Cube) :
    ev1 a α (cubeD c) = if c.count 2 = a + 1 then signedCubeCoboundary α c else 0 := by
  rw [fun_cubeD, signedCubeCoboundary]
  by_cases h : c.count 2 = a + 1
  · rw [if_pos h]
    congr 1
    refine List.map_congr_left fun i _ => ?_
    by_cases h2 : c.getD i 0 = 2
    · have h0 := count_set (v := 0) h2 (by decide)
      have h1 := count_set (v := 1) h2 (by decide)
      rw [if_pos h2, if_pos h2, ev1_single, ev1_single, if_pos (by omega), if_pos (by omega), one_mul, one_mul]
    · rw [if_neg h2, if_neg h2]
  · rw [if_neg h]
    refine List.sum_eq_zero fun t ht => ?_
    obtain ⟨i, -, rfl⟩ := List.mem_map.1 ht
    split
    · rename_i h2
      have h0 := count_set (v := 0) h2 (by decide)
      have h1 := count_set (v := 1) h2 (by decide)
      rw [ev1_single, ev1_single, if_neg (by omega), if_neg (by omega)]
      simp
    · rfl

theorem evP_cat (u v : Cube →₀ F) : evP a α b β (cat (one u) (one v)) = ev1 a α u * ev1 b β v := by
  induction u using Finsupp.induction_linear with
  | zero => simp
  | add f g hf hg => simp only [map_add, LinearMap.add_apply, hf, hg, add_mul]
  | single f s =>
    induction v using Finsupp.induction_linear with
    | zero => simp
    | add f g hf hg => simp only [map_add, hf, hg, mul_add]
    | single g t =>
      simp only [one, mapK_single, cat_single_single, List.singleton_append, evP_single, ev1_single, cubePairValue]
      by_cases h1 : f.count 2 = a <;> by_cases h2 : g.count 2 = b <;> simp [h1, h2]
      ring

theorem sg_cdim (f : Cube) : sg F (cdim f) = (-1) ^ f.count 2 := by
  rw [cdim, sg_natCast]
  rfl

theorem evP_cubicalD {v : CKey →₀ F} (hv : v ∈ Finsupp.supported F F {m : CKey | m.length = 2}) :
    evP a α b β (cubicalD v) = evP (a + 1) (signedCubeCoboundary α) b β v +
      (-1) ^ a * evP a α (b + 1) (signedCubeCoboundary β) v := by
  refine fun_ext (f := (evP a α b β).comp cubicalD) (g := evP (a + 1) (signedCubeCoboundary α) b β +
      ((-1 : F) ^ a) • evP a α (b + 1) (signedCubeCoboundary β)) (fun m hm => ?_) hv
  obtain ⟨f, g, rfl⟩ := List.length_eq_two.1 (show m.length = 2 from hm)
  have e1 : cubicalD (bv F [f, g]) = cat (one (cubeD f)) (one (bv F g)) +
      sg F (cdim f) • cat (one (bv F f)) (one (cubeD g)) := by
    simp only [cubicalD, tens_single, one_smul, tensK, map_zero, smul_zero, add_zero, one, mapK_single]
    congr 1
    congr 1
    generalize cubeD (R := F) g = w
    induction w using Finsupp.induction_linear with
    | zero => simp
    | add f g hf hg => simp only [map_add, LinearMap.add_apply, hf, hg]
    | single h t => simp
  rw [LinearMap.comp_apply, e1, map_add, map_smul, evP_cat, evP_cat, ev1_cubeD, ev1_cubeD, LinearMap.add_apply, LinearMap.smul_apply,
    evP_single, evP_single, sg_cdim, smul_eq_mul, smul_eq_mul]
  simp only [ev1_single, cubePairValue, one_mul]
  congr 1
  · by_cases h1 : f.count 2 = a + 1 <;> by_cases h2 : g.count 2 = b <;> simp [h1, h2]
  · by_cases h1 : f.count 2 = a <;> by_cases h2 : g.count 2 = b + 1 <;> simp [h1, h2]

/-! ### the structure elements -/

noncomputable def WI (n : Nat) (cv : Convention) (i : Nat) : (CKey →₀ ZMod n) →ₗ[ZMod n] (CKey →₀ ZMod n) :=
  callCV n 2 i 0 (convS cv (psiS (ZMod n) 2 i))

theorem cube_ok (hn : n ≠ 1) (c : Cube) : (cubeElementMod n c).NF cubical ∧ (cubeElementMod n c).degree = some (c.count 2) ∧
    (cubeElementMod n c).arity = some 1 ∧ (cubeElementMod n c).torsion = n ∧ den F (cubeElementMod n c).data = bv F [c] ∧
    ∀ p ∈ (cubeElementMod n c).data, p.1 = [c] := by
  have hd : ∃ v : Int, (cubeElementMod n c).data = [([c], v)] ∧ (v : F) = 1 := by
    rcases Nat.eq_zero_or_pos n with rfl | h0
    · exact ⟨1, by simp [cubeElementMod, Elem.new, preferredRep, zeroDropped, basePreferredRep, cubical], by simp⟩
    · have h2 : (1 : Int) % n = 1 := Int.emod_eq_of_lt (by omega) (by omega)
      refine ⟨1, ?_, by simp⟩
      simp [cubeElementMod, Elem.new, preferredRep, zeroDropped, basePreferredRep, cubical, h2, show n ≠ 0 by omega]
  obtain ⟨v, hd, hv⟩ := hd
  refine ⟨nf_new _ (by simp [Dict.KeysNodup]) _ _, ?_, ?_, rfl, ?_, ?_⟩
  · rw [CElem.degree, hd]
    simp [uniqueValue, CElem.keyDegree, Cube.dimension]
  · rw [CElem.arity, hd]
    simp [uniqueValue]
  · rw [hd]
    simp [hv]
  · rw [hd]
    simp

theorem WI_ok (hn : n ≠ 1) (cv : Convention) (i : Nat) {y : CElem} {e : Nat}
    (hk : ∀ p ∈ y.data, CElem.keyDegree p.1 = e ∧ p.1.length = 1)
    (hN : ∀ p ∈ y.data, ∀ c ∈ p.1, c.length = N) (ty : y.torsion = n) :
    ∃ x z, Surjection.maySteenrodStructure 2 i (some n) cv = .ok x ∧ callCubical x y = .ok z ∧
      z.NF cubical ∧ z.attrs = y.attrs ∧ den F z.data = WI n cv i (den _ y.data) := by
  obtain ⟨x, ex, ix, tx, cx, -, -, dx, -⟩ := C56_psi_ok (r := 2) cv le_rfl i n hn
  obtain ⟨x', ex', ix', ax', dx'⟩ := surjMay_ok (r := 2) cv le_rfl i n
  cases ex.symm.trans ex'
  obtain ⟨z, ez, nz, az, dz⟩ := callCubical_ok ix (fun p hp => sdeg_of_degree ix dx hp) hk hN tx ty le_rfl le_rfl
  refine ⟨x, z, ex, ez, nz, az, ?_⟩
  rw [dz, dx']
  rfl

theorem psi_supp (hn : n ≠ 1) (cv : Convention) (i : Nat) : convS cv (psiS F 2 i) ∈ Finsupp.supported F F
    {k : Surj | Onto 2 k ∧ ((sdeg k : Nat) : Int) = i ∧ k ≠ []} := by
  obtain ⟨x, ex, ix, tx, cx, -, -, dx, -⟩ := C56_psi_ok (r := 2) cv le_rfl i n hn
  obtain ⟨x', ex', ix', ax', dx'⟩ := surjMay_ok (r := 2) cv le_rfl i n
  cases ex.symm.trans ex'
  rw [← dx']
  exact den_supported (R := F) fun p hp => ⟨ix.onto p hp, sdeg_of_degree ix dx hp, onto_ne_nil ix.nf hp⟩

theorem WI_supp (hn : n ≠ 1) (hc : ∀ v ∈ c, v ≤ 2) (i : Nat) :
    WI n cv i (bv F [c]) ∈ Finsupp.supported F F (Pairs c (c.count 2 + i)) := by
  rw [WI, callCV]
  refine BElem.bil_supported (R := F) _ (S := {k : Surj | Onto 2 k ∧ ((sdeg k : Nat) : Int) = i ∧ k ≠ []}) (T := {[c]}) (fun k hk m hm => ?_)
    (psi_supp hn cv i) (Finsupp.single_mem_supported F _ rfl)
  cases hm
  have h1 := callCV_faces (n := n) (r := 2) (d := i) hc hk.2.2
  have h2 := callCV_supported (n := n) (N := c.length) hk.1 hk.2.1 hk.2.2 (c := 0) (m := [c]) (by simp)
    (fun x hx => by rw [List.mem_singleton.1 hx]; exact ⟨rfl, hc⟩)
  rw [callCV, bil_bv, lin_single, one_smul] at h1 h2
  rw [Finsupp.mem_supported] at h1 h2 ⊢
  intro m hm
  have h3 := h1 hm
  obtain ⟨h4, -, h5⟩ := h2 hm
  obtain ⟨f, g, rfl⟩ := List.length_eq_two.1 (show m.length = 2 by simp at h4; exact h4)
  refine ⟨f, g, rfl, h3 f (by simp), h3 g (by simp), ?_⟩
  simp only [totDeg, cdim, Cube.dimension] at h5
  omega

theorem WI_two (hn : n ≠ 1) (hc : ∀ v ∈ c, v ≤ 2) (i : Nat) :
    WI n cv i (bv F [c]) ∈ Finsupp.supported F F {m : CKey | m.length = 2} := by
  refine Finsupp.supported_mono ?_ (WI_supp hn hc i)
  rintro m ⟨f, g, rfl, -⟩
  rfl

theorem cubicalD_one (c : Cube) : cubicalD (bv F [c]) = one (cubeD c) := by
  simp [cubicalD, tensK]

/-- Exchange of the two factors, with the sign. -/
noncomputable def sw : (CKey →₀ F) →ₗ[F] (CKey →₀ F) := lin (actK cdim [2, 1])

theorem stepV_two (d : Nat) {v : CKey →₀ F} (hv : v ∈ Finsupp.supported F F {m : CKey | m.length = 2}) :
    actV cdim (stepV F 2 d) v = sw v + sg F d • v := by
  have := BElem.lin_ext_supported (R := F) (S := {m : CKey | m.length = 2}) (f := actV cdim (stepV F 2 d)) (g := sw + sg F d • LinearMap.id)
    (fun m hm => ?_) hv
  · exact this
  obtain ⟨f, g, rfl⟩ := List.length_eq_two.1 (show m.length = 2 from hm)
  have h1 : actV cdim (bv F [2, 1]) (bv F [f, g]) = sw (bv F [f, g]) := by
    rw [actV, bil_bv]
    rfl
  have h2 : actV cdim (bv F [1, 2]) (bv F [f, g]) = bv F [f, g] := by
    rw [actV, bil_bv, lin_single, one_smul, actK]
    have : kos cdim (List.zip [1, 2] [f, g]) = 0 := by simp [kos]
    rw [this, sg_zero, one_smul]
    rfl
  have h3 : stepV F 2 d = bv F [2, 1] + sg F d • bv F [1, 2] := by
    unfold stepV
    split
    · rename_i h
      rw [show sg F d = 1 by rw [show sg F d = sg F 0 from sg_congr (by omega), sg_zero], one_smul]
      unfold nV
      rw [show List.range 2 = [0, 1] by rfl]
      simp only [List.map_cons, List.map_nil, List.sum_cons, List.sum_nil, add_zero]
      rw [add_comm]
      rfl
    · rename_i h
      rw [show sg F d = -1 by rw [show sg F d = sg F 1 from sg_congr (by omega), sg_one], neg_smul, one_smul, ← sub_eq_add_neg]
      rfl
  rw [h3, map_add, LinearMap.add_apply, h1, map_smul, LinearMap.smul_apply, h2]
  rfl

theorem WI_zero (hn : n ≠ 1) (hc : ∀ v ∈ c, v ≤ 2) : cubicalD (WI n cv 0 (bv F [c])) = WI n cv 0 (one (cubeD c)) := by
  obtain ⟨h1, h2, h3, h4, h5, h6⟩ := cube_ok hn c
  have hN : ∀ p ∈ (cubeElementMod n c).data, ∀ d ∈ p.1, d.length = c.length ∧ ∀ v ∈ d, v ≤ 2 := by
    intro p hp d hd
    rw [h6 p hp, List.mem_singleton] at hd
    subst hd
    exact ⟨rfl, hc⟩
  have hk := chomogeneous_keys h2 h3
  obtain ⟨x, ex, ix, tx, cx, -, -, dx, -⟩ := C56_psi_ok (r := 2) cv le_rfl 0 n hn
  obtain ⟨u, yb, ub, zx, zy, t, eu, eub, eyb, ezx, ezy, et, h⟩ :=
    C125_low_degree_chain_map ix le_rfl dx (Or.inl (by simp)) h2 h3 hN (by rw [tx, h4]) le_rfl le_rfl
  have hkb := cboundary_keys eyb h2 h3
  have hNb := cboundary_cubes eyb hN
  have tyb : yb.torsion = n := (torsion_congr (cboundary_attrs eyb)).trans h4
  obtain ⟨x', z, ex', ez, nz, az, dz⟩ := WI_ok hn cv 0 hk (fun p hp d hd => (hN p hp d hd).1) h4
  cases ex.symm.trans ex'
  cases eu.symm.trans ez
  obtain ⟨x', z, ex', ez, nzb, azb, dzb⟩ := WI_ok hn cv 0 hkb (fun p hp d hd => (hNb p hp d hd).1) tyb
  cases ex.symm.trans ex'
  cases ezy.symm.trans ez
  have hb : x.boundary.data = [] := by
    by_contra hne
    obtain ⟨p, hp⟩ := List.exists_mem_of_ne_nil _ hne
    have := sdeg_boundary ix dx p hp
    simp at this
  obtain ⟨zx', ezx', dzx, azx⟩ := (C54_errors_zero (x := x.boundary) (y := cubeElementMod n c) (coord := 1) (a := 1)).1 (Or.inl hb)
  cases ezx.symm.trans ezx'
  have tz : u.torsion = n := (torsion_congr az).trans h4
  have tzx : zx.torsion = n := (torsion_congr azx).trans h4
  have tzb : zy.torsion = n := (torsion_congr azb).trans tyb
  have nzx : zx.NF cubical := ⟨by rw [dzx]; simp [Dict.KeysNodup], by rw [dzx]; simp, by rw [dzx]; simp, by rw [dzx]; simp⟩
  have tub : ub.torsion = n := (torsion_congr (cboundary_attrs eub)).trans tz
  have nsm : (smul cubical (pySign (0 : Nat)) zy).NF cubical := nf_smul nzb _
  have h7 := (pyEq_iff_den (nf_cboundary eub) (nf_add et nzx) (by rw [tub, torsion_congr (attrs_add et), tzx])).1 h
  rw [tub] at h7
  rw [den_cboundary eub tz, den_add (R := F) et nzx nsm (show ((0 : Nat) : F) = 0 by simp) (by rw [tzx]; simp), dzx, den_nil, zero_add,
    den_smul nzb _ (show ((0 : Nat) : F) = 0 by simp) (by rw [tzb]; simp), cast_pySign, dz, dzb,
    den_cboundary eyb h4, h5, cubicalD_one] at h7
  simpa using h7

theorem WI_succ (hn : n ≠ 1) (hc : ∀ v ∈ c, v ≤ 2) {i : Nat} (hi : i ≤ 1) : cubicalD (WI n cv (i + 1) (bv F [c])) =
    sw (WI n cv i (bv F [c])) + sg F (i + 1) • WI n cv i (bv F [c]) + sg F (i + 1) • WI n cv (i + 1) (one (cubeD c)) := by
  obtain ⟨h1, h2, h3, h4, h5, h6⟩ := cube_ok hn c
  have hN : ∀ p ∈ (cubeElementMod n c).data, ∀ d ∈ p.1, d.length = c.length ∧ ∀ v ∈ d, v ≤ 2 := by
    intro p hp d hd
    rw [h6 p hp, List.mem_singleton] at hd
    subst hd
    exact ⟨rfl, hc⟩
  have hNl : ∀ p ∈ (cubeElementMod n c).data, ∀ d ∈ p.1, d.length = c.length := fun p hp d hd => (hN p hp d hd).1
  have hk := chomogeneous_keys h2 h3
  obtain ⟨x', ex', ix', tx', cx', -, -, dx', hx1⟩ := C56_psi_ok (r := 2) cv le_rfl (i + 1) n hn
  obtain ⟨x, ex, ix, tx, cx, xne, -, dx, -⟩ := C56_psi_ok (r := 2) cv le_rfl i n hn
  obtain ⟨s, is, sne, ts, ds, w, hw, hb⟩ : ∃ s, InRing 2 s ∧ s.data ≠ [] ∧ s.torsion = n ∧ den F s.data = stepV F 2 (i + 1) ∧
      ∃ w, SurjElem.rmul s x = .ok w ∧ pyEq x'.boundary w = true := by
    rcases Nat.mod_two_eq_zero_or_one i with hi | hi
    · obtain ⟨m, rfl⟩ : ∃ m, i = 2 * m := ⟨i / 2, by omega⟩
      obtain ⟨z', y', w, ez', ey', hw, hb⟩ := C56_boundary_odd cv le_rfl m n hn
      cases ex'.symm.trans ez'
      cases ex.symm.trans ey'
      exact ⟨_, inRing_transposition le_rfl (some n), transposition_ne le_rfl hn, rfl, by
        rw [den_transposition le_rfl, stepV, if_neg (by omega)], w, hw, hb⟩
    · obtain ⟨m, rfl⟩ : ∃ m, i = 2 * m + 1 := ⟨i / 2, by omega⟩
      obtain ⟨M, z', y', w, hM, ez', ey', hw, hb⟩ := C56_boundary_even cv le_rfl m n hn
      cases ex'.symm.trans ez'
      cases ex.symm.trans ey'
      obtain ⟨M', e1, e2, e3, e4⟩ := norm_ok (r := 2) (n := n) (by omega) hn
      cases hM.symm.trans e1
      exact ⟨M, e2, norm_ne le_rfl hn e1, e3, by rw [e4, stepV, if_pos (by omega)], w, hw, hb⟩
  obtain ⟨u, yb, ub, zx, zy, t, eu, eub, eyb, ezx, ezy, et, h⟩ :=
    C125_low_degree_chain_map ix' le_rfl dx' (by
      rcases Nat.eq_zero_or_pos i with rfl | h0
      · exact Or.inl (by simp)
      · obtain rfl : i = 1 := by omega
        exact Or.inr ⟨rfl, Or.inr hx1⟩) h2 h3 hN (by rw [tx', h4]) le_rfl le_rfl
  have hkb := cboundary_keys eyb h2 h3
  have hNb := cboundary_cubes eyb hN
  have tyb : yb.torsion = n := (torsion_congr (cboundary_attrs eyb)).trans h4
  obtain ⟨x1, z, ex1, ez, nu, au, dzu⟩ := WI_ok hn cv (i + 1) hk hNl h4
  cases ex'.symm.trans ex1
  cases eu.symm.trans ez
  obtain ⟨x1, z, ex1, ez, nub, aub, dub⟩ := WI_ok hn cv (i + 1) hkb (fun p hp d hd => (hNb p hp d hd).1) tyb
  cases ex'.symm.trans ex1
  cases ezy.symm.trans ez
  obtain ⟨x1, v, ex1, ev, nv, av, dv⟩ := WI_ok hn cv i hk hNl h4
  cases ex.symm.trans ex1
  -- the boundary of the structure element
  obtain ⟨sx, v', z, esx, ev', ez, hz0, hz1⟩ := C126_low_degree_equivariant is sne ix le_rfl dx (Or.inl (by omega)) h2 h3 hN
    (by rw [ts, tx]) (by rw [h4, tx])
  cases hw.symm.trans esx
  cases ev.symm.trans ev'
  obtain ⟨sx', esx', nsx, asx, osx, dsx⟩ := (SurjElem.actSpec (by decide : 1 ≤ 2)).ok s x is sne ix.nf xne ix.onto (by rw [ts, tx])
  cases esx.symm.trans esx'
  have tsx : w.torsion = n := (torsion_congr asx).trans tx
  have hsx : ∀ p ∈ w.data, ((sdeg p.1 : Nat) : Int) = i := by
    intro p hp
    obtain ⟨z, ez, -, -, hdeg, -⟩ := C48_act_coeff (by decide : 1 ≤ 2) is sne ix xne (by rw [ts, tx])
    cases esx.symm.trans ez
    exact sdeg_of_degree ⟨nsx, osx⟩ ((hdeg _ dx).resolve_left (List.ne_nil_of_mem hp)) hp
  have tb : x'.boundary.torsion = n := by rw [torsion_congr (SurjElem.boundary_attrs x'), tx']
  obtain ⟨zx', ezx', nzx, azx, dzx⟩ := callCubical_ok (d := (i : Int)) (inSurj_boundary ix')
    (fun p hp => by have := sdeg_boundary ix' dx' p hp; push_cast at this; omega) hk hNl tb h4 le_rfl le_rfl
  cases ezx.symm.trans ezx'
  obtain ⟨z', ez', nz, az, dz⟩ := callCubical_ok (d := (i : Int)) ⟨nsx, osx⟩ hsx hk hNl tsx h4 le_rfl le_rfl
  cases ez.symm.trans ez'
  have tzx : zx.torsion = n := (torsion_congr azx).trans h4
  have tz : z.torsion = n := (torsion_congr az).trans h4
  have tu : u.torsion = n := (torsion_congr au).trans h4
  have tv : v.torsion = n := (torsion_congr av).trans h4
  have tzy : zy.torsion = n := (torsion_congr aub).trans tyb
  have tub : ub.torsion = n := (torsion_congr (cboundary_attrs eub)).trans tu
  have e1 : den F zx.data = den F z.data := by
    have := (pyEq_iff_den (SurjElem.nf_boundary x') nsx (by rw [tb, tsx])).1 hb
    rw [tb] at this
    rw [dzx, dz, this]
  have hsupp : den F v.data ∈ Finsupp.supported F F {m : CKey | m.length = 2} := by
    rw [dv, h5]
    exact WI_two hn hc i
  have e2 : den F z.data = sw (den F v.data) + sg F (i + 1) • den F v.data := by
    have := stepV_two (n := n) (i + 1) hsupp
    push_cast at this
    rw [← this]
    by_cases h0 : v.data = []
    · rw [h0, hz0 h0, den_nil, map_zero]
    · obtain ⟨wv, ew, hh⟩ := hz1 h0
      have hxc : HasArity cubical 2 v := ⟨nv, h0, fun p hp => by
        have := nv.mem_keys_iff.1 (List.mem_map_of_mem (f := Prod.fst) hp)
        rw [tv] at this
        exact hsupp (Finsupp.mem_support_iff.2 this)⟩
      obtain ⟨wv', ew', nw, aw, -, dw⟩ := rmulG_ok (w := cdim) rfl cubical_any is sne hxc (n := n) ts tv
      rw [← cubical_rmul_eq] at ew'
      cases ew.symm.trans ew'
      have := (pyEq_iff_den nz nw (by rw [tz, torsion_congr aw, tv])).1 hh
      rw [tz] at this
      rw [this, dw, ds]
  have nsm : (smul cubical (pySign ((i + 1 : Nat) : Int)) zy).NF cubical := nf_smul nub _
  have h7 := (pyEq_iff_den (nf_cboundary eub) (nf_add et nzx) (by rw [tub, torsion_congr (attrs_add et), tzx])).1 h
  rw [tub] at h7
  rw [den_cboundary eub tu, den_add (R := F) et nzx nsm (show ((0 : Nat) : F) = 0 by simp) (by rw [tzx]; simp), e1, e2,
    den_smul nub _ (show ((0 : Nat) : F) = 0 by simp) (by rw [tzy]; simp), cast_pySign, dub, dv, dzu, den_cboundary eyb h4, h5, cubicalD_one] at h7
  push_cast at h7
  exact h7

/-! ### the products -/

noncomputable def wi (n : Nat) (cv : Convention) (i a : Nat) (α : Cube → ZMod n) (b : Nat) (β : Cube → ZMod n) (c : Cube) : ZMod n :=
  evP a α b β (WI n cv i (bv (ZMod n) [c]))

theorem cob_wi (i : Nat) (c : Cube) : signedCubeCoboundary (wi n cv i a α b β) c = evP a α b β (WI n cv i (one (cubeD c))) := by
  have := fun_cubeD ((evP a α b β).comp ((WI n cv i).comp (mapK (R := F) fun f : Cube => [f]))) c
  simp only [LinearMap.comp_apply, mapK_single] at this
  rw [one, this]
  rfl

theorem evP_sw {v : CKey →₀ F} (hv : v ∈ Finsupp.supported F F {m : CKey | m.length = 2}) :
    evP a α b β (sw v) = (-1) ^ (a * b) * evP b β a α v := by
  refine fun_ext (f := (evP a α b β).comp sw) (g := ((-1 : F) ^ (a * b)) • evP b β a α) (fun m hm => ?_) hv
  obtain ⟨f, g, rfl⟩ := List.length_eq_two.1 (show m.length = 2 from hm)
  rw [LinearMap.comp_apply, sw, lin_single, one_smul, actK, map_smul, LinearMap.smul_apply, evP_single, evP_single, smul_eq_mul,
    smul_eq_mul, one_mul, one_mul]
  have e1 : actL [2, 1] [f, g] = [g, f] := rfl
  have e2 : kos cdim (List.zip [2, 1] [f, g]) = ((f.count 2 * g.count 2 : Nat) : Int) := by
    simp [kos, cdim, Cube.dimension]
  rw [e1, e2, sg_natCast]
  simp only [cubePairValue]
  by_cases h1 : f.count 2 = b <;> by_cases h2 : g.count 2 = a <;> simp [h1, h2, mul_comm]

theorem wi_zero (hn : n ≠ 1) (hc : ∀ v ∈ c, v ≤ 2) (a b : Nat) (α β : Cube → F) :
    signedCubeCoboundary (wi n cv 0 a α b β) c = wi n cv 0 (a + 1) (signedCubeCoboundary α) b β c +
      (-1) ^ a * wi n cv 0 a α (b + 1) (signedCubeCoboundary β) c := by
  rw [cob_wi, ← WI_zero hn hc, evP_cubicalD (WI_two hn hc 0)]
  rfl

theorem wi_succ (hn : n ≠ 1) (hc : ∀ v ∈ c, v ≤ 2) {i : Nat} (hi : i ≤ 1) (a b : Nat) (α β : Cube → F) :
    (-1) ^ (i + 1) * signedCubeCoboundary (wi n cv (i + 1) a α b β) c =
      wi n cv (i + 1) (a + 1) (signedCubeCoboundary α) b β c +
        (-1) ^ a * wi n cv (i + 1) a α (b + 1) (signedCubeCoboundary β) c -
      (-1) ^ (a * b) * wi n cv i b β a α c - (-1) ^ (i + 1) * wi n cv i a α b β c := by
  have h := congrArg (evP a α b β) (WI_succ (cv := cv) hn hc hi)
  rw [evP_cubicalD (WI_two hn hc (i + 1)), map_add, map_add, evP_sw (WI_two hn hc i), map_smul, map_smul, ← cob_wi,
    smul_eq_mul, smul_eq_mul, show ((i : Int) + 1) = ((i + 1 : Nat) : Int) by push_cast; rfl, sg_natCast] at h
  unfold wi at *
  linear_combination -h

theorem wi_congr (hn : n ≠ 1) (hc : ∀ v ∈ c, v ≤ 2) {i : Nat} {α' β' : Cube → F} (h1 : ∀ f ∈ FC c, f.count 2 = a → α f = α' f)
    (h2 : ∀ f ∈ FC c, f.count 2 = b → β f = β' f) : wi n cv i a α b β c = wi n cv i a α' b β' c := by
  refine fun_ext (f := evP a α b β) (g := evP a α' b β') (fun m hm => ?_) (WI_supp hn hc i)
  obtain ⟨f, g, rfl, hf, hg, -⟩ := hm
  rw [evP_single, evP_single]
  simp only [cubePairValue]
  split
  · rename_i h
    rw [h1 f hf h.1, h2 g hg h.2]
  · rfl

theorem wi_degree (hn : n ≠ 1) (hc : ∀ v ∈ c, v ≤ 2) {i : Nat} (h : c.count 2 + i ≠ a + b) : wi n cv i a α b β c = 0 := by
  refine fun_ext (f := evP a α b β) (g := 0) (fun m hm => ?_) (WI_supp hn hc i)
  obtain ⟨f, g, rfl, hf, hg, hd⟩ := hm
  rw [evP_single, LinearMap.zero_apply]
  simp only [cubePairValue]
  rw [if_neg (by omega), mul_zero]

theorem evP_zero_left (v : CKey →₀ F) : evP a (fun _ => 0) b β v = 0 := by
  induction v using Finsupp.induction_linear with
  | zero => simp
  | add f g hf hg => rw [map_add, hf, hg, add_zero]
  | single k e =>
    rw [evP_single]
    match k with
    | [] => simp [cubePairValue]
    | [f] => simp [cubePairValue]
    | [f, g] => simp [cubePairValue]
    | f :: g :: h :: k => simp [cubePairValue]

theorem evP_zero_right (v : CKey →₀ F) : evP a α b (fun _ => 0) v = 0 := by
  induction v using Finsupp.induction_linear with
  | zero => simp
  | add f g hf hg => rw [map_add, hf, hg, add_zero]
  | single k e =>
    rw [evP_single]
    match k with
    | [] => simp [cubePairValue]
    | [f] => simp [cubePairValue]
    | [f, g] => simp [cubePairValue]
    | f :: g :: h :: k => simp [cubePairValue]

/-! ### the product `∪_0` -/

theorem serre_splits (c : Cube) : serre (R := F) 1 c =
    ((cubeSplits c).map fun p => (-1 : F) ^ splitInversions p.1 p.2 • bv F [p.1, p.2]).sum := by
  induction c with
  | nil => simp [serre, cubeSplits, splitInversions]
  | cons e c ih =>
    rw [serre, ih, cubeSplits]
    split
    · generalize cubeSplits c = l
      induction l with
      | nil => simp
      | cons p l ih =>
        rw [List.map_cons, List.sum_cons, map_add, ih]
        simp only [List.map_append, List.map_cons, List.sum_append, List.sum_cons, map_smul, tL_single, one_smul, tK, List.map_nil,
          map_zero, smul_zero, add_zero, consV_single, sg_cdim, splitInversions, if_true, smul_add, smul_smul, ← pow_add]
        simp only [show ¬ (1 = 2) by decide, if_false, Nat.zero_add]
        rw [one_mul, ← pow_add, add_comm (splitInversions p.1 p.2)]
        abel
    · rename_i he
      rw [map_list_sum, List.map_map, List.map_map]
      congr 1
      exact List.map_congr_left fun p _ => by simp [splitInversions, he]

theorem WI_serre (c : Cube) : WI n cv 0 (bv F [c]) = serre 1 c := by
  have h0 : convS cv (psiS F 2 0) = bv F (List.range' 1 2) := by
    rw [psiS, convS_single, one_mul]
    have : convE cv (pyRange 1 (2 + 1)) = 0 := by cases cv <;> decide
    rw [this, Nat.cast_zero, sg_zero, one_smul]
    rfl
  rw [WI, h0, callCV, bil_single, mul_one, one_smul, List.length_range']
  have hsup := atK_serre_supported (R := F) (2 - 1) 0 [c] (by simp)
  have := BElem.lin_ext_supported (R := F) (f := lin (csummandV n 2 2 0 0 (List.range' 1 2)))
    (g := LinearMap.id) (fun m hm => by
      have hm : m.length = 2 := hm.1
      have hml : ((m.drop 0).take 2).length = 2 := by
        rw [List.length_take, List.length_drop, hm]; omega
      rw [lin_single, one_smul, csummandV, csign_identity (by decide) hml, List.length_range', ac_identity hml, cat_bv_cat']
      simp only [Int.cast_one, one_smul, mapK_single, LinearMap.id_apply]
      rw [← List.drop_drop, List.take_append_drop, List.take_append_drop]) hsup
  rw [LinearMap.id_apply] at this
  refine Eq.trans ?_ (this.trans ?_)
  · rfl
  · simp [atK]

theorem wi_splits (a b : Nat) (α β : Cube → F) (c : Cube) : wi n cv 0 a α b β c =
    ((cubeSplits c).map fun p => if p.1.count 2 = a ∧ p.2.count 2 = b then
      (-1) ^ splitInversions p.1 p.2 * (α p.1 * β p.2) else 0).sum := by
  rw [wi, WI_serre, serre_splits, map_list_sum, List.map_map]
  congr 1
  exact List.map_congr_left fun p _ => by simp [cubePairValue]

end Comch.CubeCup
