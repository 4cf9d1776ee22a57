import Verif.Spec.CubeCupPullback
import Verif.Props.CubeCup
import Verif.Props.CubePullback

/-! # Pull-back of cochains along the Cartan–Serre map, any coefficients: C128 -/

set_option linter.unusedSectionVars false

namespace Comch.CubeCup
open Comch.Spec Elem CElem SurjComp SurjElem Serre CubCall SurjMay Comch.Props CubCS
open Finsupp (single)

variable {n : Nat} {c : Cube} {a b q : Nat} {α β : List Nat → ZMod n}

local notation "F" => ZMod n
local notation "length_kept" => CubeCoch.length_kept
local notation "inc_cs" => CubeCoch.inc_cs

/-- The pull-back of a cochain. -/
noncomputable def pb (α : List Nat → F) (c : Cube) : F := by
  classical exact if Kept c then α (Cube.cartanSerre c) else 0

/-- `α` of degree `a` on the collapse of a cube. -/
theorem ev1_cs1 (f : Cube) : Coch.ev1 a α (cs1 f) = if f.count 2 = a then pb α f else 0 := by
  unfold pb
  by_cases h : Kept f
  · rw [cs1_kept h, Coch.ev1_single, length_kept h, if_pos h, one_mul]
    by_cases h2 : f.count 2 = a
    · rw [if_pos h2, if_pos (by omega)]
    · rw [if_neg h2, if_neg (by omega)]
  · rw [cs1_not h, map_zero, if_neg h]
    simp

theorem evF_cat1 (u v : List Nat →₀ F) : Coch.evF [(a, α), (b, β)] (cat (one u) (one v)) = Coch.ev1 a α u * Coch.ev1 b β v := by
  induction u using Finsupp.induction_linear with
  | zero => simp
  | add f g hf hg => simp only [map_add, LinearMap.add_apply, hf, hg, add_mul]
  | single f s =>
    induction v using Finsupp.induction_linear with
    | zero => simp
    | add f g hf hg => simp only [map_add, hf, hg, mul_add]
    | single g t =>
      simp only [one, mapK_single, cat_single_single, List.singleton_append, Coch.evF_single, Coch.ev1_single, tensorValue]
      ring

theorem evP_pull {v : CKey →₀ F} (hv : v ∈ Finsupp.supported F F {m : CKey | m.length = 2}) :
    evP a (pb α) b (pb β) v = Coch.evF [(a, α), (b, β)] (tm cs1 v) := by
  refine fun_ext (f := evP a (pb α) b (pb β)) (g := (Coch.evF [(a, α), (b, β)]).comp (tm cs1)) (fun m hm => ?_) hv
  obtain ⟨f, g, rfl⟩ := List.length_eq_two.1 (show m.length = 2 from hm)
  have : tm (R := F) cs1 (bv F [f, g]) = cat (one (cs1 f)) (one (cs1 g)) := by
    simp [tm, tmK, cat_nil_right]
  rw [LinearMap.comp_apply, this, evF_cat1, ev1_cs1, ev1_cs1, evP_single, one_mul]
  simp only [cubePairValue]
  by_cases h1 : f.count 2 = a <;> by_cases h2 : g.count 2 = b <;> simp [h1, h2]

theorem den_cs_cube (hn : n ≠ 1) (c : Cube) : den F (cartanSerreMap (cubeElementMod n c)).data = one (cs1 c) := by
  obtain ⟨h1, h2, h3, h4, h5, h6⟩ := cube_ok hn c
  obtain ⟨nc, tc, kc, dc⟩ := csMap_ok h1
  have dc' : den F (cartanSerreMap (cubeElementMod n c)).data = tm cs1 (den F (cubeElementMod n c).data) := dc
  rw [dc', h5]
  simp [tm, tmK, cat_nil_right]

theorem spullback_eq (hn : n ≠ 1) (α : List Nat → F) (c : Cube) : signedCsPullback α c = pb α c := by
  unfold signedCsPullback
  rw [Coch.evalOn_eq, den_cs_cube hn]
  by_cases h : Kept c
  · rw [cs1_kept h, one, mapK_single, Coch.evF_single, pb, if_pos h]
    simp [tensorValue, length_kept h]
  · rw [cs1_not h, pb, if_neg h]
    simp

theorem wi_pull (hn : n ≠ 1) (hc : ∀ v ∈ c, v ≤ 2) {i : Nat} (hi : i ≤ 2) (a b : Nat) (α β : List Nat → F) :
    wi n .mcClureSmith i a (pb α) b (pb β) c = pb (Coch.wv 2 n i [(a, α), (b, β)]) c := by
  obtain ⟨h1, h2, h3, h4, h5, h6⟩ := cube_ok hn c
  have hN : ∀ p ∈ (cubeElementMod n c).data, ∀ d ∈ p.1, d.length = c.length ∧ ∀ v ∈ d, v ≤ 2 := by
    intro p hp d hd
    rw [h6 p hp, List.mem_singleton] at hd
    subst hd
    exact ⟨rfl, hc⟩
  obtain ⟨x, z, ex, ez, nz, az, dz⟩ := WI_ok hn .mcClureSmith i (chomogeneous_keys h2 h3) (fun p hp d hd => (hN p hp d hd).1) h4
  obtain ⟨x', ex', ix, tx, cx, -, -, dx, hx1⟩ := C56_psi_ok (r := 2) .mcClureSmith le_rfl i n hn
  cases ex.symm.trans ex'
  obtain ⟨z', w, ez', ew, hzw⟩ := C93_low_degree ix le_rfl dx (by
    rcases Nat.lt_or_ge i 2 with h | h
    · exact Or.inl (by omega)
    · exact Or.inr ⟨by omega, hx1⟩) cx h1 h2 h3 hN (by rw [tx, h4]) le_rfl le_rfl
  cases ez.symm.trans ez'
  have tz : z.torsion = n := (torsion_congr az).trans h4
  obtain ⟨nc, tc, kc, dc⟩ := csMap_ok h1
  obtain ⟨ncz, tcz, kcz, dcz⟩ := csMap_ok nz
  rw [tz] at tcz dcz
  have hck : ∀ p ∈ (cartanSerreMap (cubeElementMod n c)).data, SElem.keyDegree p.1 = (c.count 2 : Int) ∧ p.1.length = 1 := by
    intro p hp
    obtain ⟨q, hq, e1, e2⟩ := kc p hp
    have := chomogeneous_keys h2 h3 q hq
    exact ⟨by rw [← e2, this.1], by rw [e1, List.length_map, this.2]⟩
  obtain ⟨y, w', ey, ew', nw, aw, dw⟩ := Coch.W_ok (r := 2) (n := n) (d := i) le_rfl hn nc hck (tc.trans h4)
  cases ex.symm.trans ey
  cases ew.symm.trans ew'
  have tw : w.torsion = n := (torsion_congr aw).trans (tc.trans h4)
  have hw := (pyEq_iff_den ncz nw (by rw [tcz, tw])).1 hzw
  rw [tcz] at hw
  have dcz' : den F (cartanSerreMap z).data = tm cs1 (den F z.data) := dcz
  have hw' : den F (cartanSerreMap z).data = den F w.data := hw
  rw [wi, ← h5, ← dz, evP_pull (by rw [dz, h5]; exact WI_two hn hc i), ← dcz', hw', dw, den_cs_cube hn, pb]
  split
  · rename_i h
    rw [cs1_kept h, one, mapK_single]
    rfl
  · rename_i h
    rw [cs1_not h]
    simp

end Comch.CubeCup

namespace Comch.Props
open Comch.Spec Comch.CubeCup Elem CElem SurjComp SurjElem SurjMay CubCall CubCS Serre

variable {n N : Nat} {c : Cube} {X : CubeComplex N}

theorem spb_congr {α β : List Nat → ZMod n} (h : ∀ σ, Coch.Inc σ → α σ = β σ) (c : Cube) :
    CubeCup.pb α c = CubeCup.pb β c := by
  unfold CubeCup.pb
  split
  · exact h _ (CubeCoch.inc_cs c)
  · rfl

theorem spullback_funext (hn : n ≠ 1) (α : List Nat → ZMod n) : signedCsPullback α = CubeCup.pb α :=
  funext (spullback_eq hn α)

/-- The pull-back of a cochain is its value on the collapse of the cube if that has the dimension of the cube, and
zero otherwise. -/
theorem C128_value (hn : n ≠ 1) (α : List Nat → ZMod n) (c : Cube) :
    signedCsPullback α c = if collapseKeepsDim c then α (collapse c) else 0 := by
  rw [spullback_eq hn, CubeCup.pb, ← cartanSerre_eq_collapse]
  by_cases h : Kept c
  · rw [if_pos h, if_pos ((keepsDim_iff c).2 h)]
  · rw [if_neg h, if_neg fun h' => h ((keepsDim_iff c).1 h')]

/-- The pull-back commutes with the coboundaries. -/
theorem C128_coboundary (hn : n ≠ 1) (α : List Nat → ZMod n) (c : Cube) :
    signedCubeCoboundary (signedCsPullback α) c = signedCsPullback (coboundary α) c := by
  rw [spullback_funext hn, spullback_eq hn]
  by_cases h0 : c.count 2 = 0
  · rw [scob_vertex _ h0, CubeCup.pb]
    split
    · rename_i h
      rw [coboundary, if_pos (by rw [CubeCoch.length_kept h]; omega)]
    · rfl
  · obtain ⟨a, ha⟩ : ∃ a, c.count 2 = a + 1 := ⟨c.count 2 - 1, by omega⟩
    have h1 := CubeCup.ev1_cubeD a (CubeCup.pb α) c
    rw [if_pos ha] at h1
    have h2 : ∀ v : Cube →₀ ZMod n, CubeCup.ev1 a (CubeCup.pb α) v = Coch.ev1 a α (lin cs1 v) := by
      intro v
      induction v using Finsupp.induction_linear with
      | zero => simp
      | add v w hv hw => simp only [map_add, hv, hw]
      | single f e => rw [CubeCup.ev1_single, lin_single, map_smul, CubeCup.ev1_cs1, smul_eq_mul]
    have h3 := delK_cs1 (R := ZMod n) c
    rw [if_neg (by simp only [cdim, Cube.dimension]; omega), add_zero] at h3
    rw [← h1, h2, ← h3, CubeCup.pb]
    split
    · rename_i h
      rw [cs1_kept h, lin_single, one_smul, Coch.ev1_delK, if_pos (by rw [CubeCoch.length_kept h]; omega)]
    · rename_i h
      rw [cs1_not h]
      simp

/-- The pull-back of `α ∪_i β` is the product `∪_i` of the pull-backs, for `i ≤ 2`. -/
theorem C128_cup (hn : n ≠ 1) (hc : c ∈ X.cubes) (i : Nat) (hi : i ≤ 2) (a b : Nat) (α β : List Nat → ZMod n) :
    signedCubeCup n .mcClureSmith i a (signedCsPullback α) b (signedCsPullback β) c =
      .ok (signedCsPullback (cochain (cupValue n i a α b β)) c) := by
  rw [CubeCup.cup_eq hn, spullback_funext hn, spullback_funext hn, wi_pull hn (cube_le hc) hi, spullback_eq hn]
  congr 1
  exact spb_congr (fun σ hσ => by rw [cochain, Coch.cup_eq hn hσ]) c

/-! ### a case that meets the hypotheses -/

example : signedCsPullback (n := 0) (fun f => (f.sum : Int)) [2, 0, 1] = 1 := by decide +kernel

example : signedCubeCup 0 .mcClureSmith 1 1 (signedCsPullback fun f => (f.sum : Int)) 1
    (signedCsPullback fun f => (f.length : Int)) [2, 0, 1] = .ok 2 := by decide +kernel

end Comch.Props
