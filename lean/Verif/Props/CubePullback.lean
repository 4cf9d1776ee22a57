import Verif.Props.CubeCochains
import Verif.Props.CubCartan

/-! # Pull-back of cochains along the Cartan–Serre map: C113 -/

set_option linter.unusedSectionVars false

namespace Comch.CubeCoch
open Comch.Spec Elem CElem SurjComp SurjElem Serre CubCall SurjMay Comch.Props CubCS
open Finsupp (single)

variable {c : Cube} {a b q : Nat} {α β : List Nat → F}

/-- The pull-back of a cochain. -/
noncomputable def pb (α : List Nat → F) (c : Cube) : F := by
  classical exact if Kept c then α (Cube.cartanSerre c) else 0

theorem length_kept (h : Kept c) : (Cube.cartanSerre c).length = c.count 2 + 1 := by
  have h1 : cdim c = Simplex.dimension (Cube.cartanSerre c) := h
  have h2 : 0 < (Cube.cartanSerre c).length := List.length_pos_iff.2 (cartanSerre_ne_nil c)
  simp only [cdim, Cube.dimension, Simplex.dimension] at h1
  omega

theorem inc_cs (c : Cube) : Coch.Inc (Cube.cartanSerre c) := ⟨pairwise_lt_collapse c, cartanSerre_ne_nil c⟩

/-- `α` of degree `a` on the collapse of a cube. -/
theorem ev1_cs1 (f : Cube) : Coch.ev1 a α (cs1 f) = if f.count 2 = a then pb α f else 0 := by
  unfold pb
  by_cases h : Kept f
  · rw [cs1_kept h, Coch.ev1_single, length_kept h, if_pos h, one_mul]
    by_cases h2 : f.count 2 = a
    · rw [if_pos h2, if_pos (by omega)]
    · rw [if_neg h2, if_neg (by omega)]
  · rw [cs1_not h, map_zero, if_neg h]
    simp

theorem evF_cat1 (u v : List Nat →₀ F) : Coch.evF [(a, α), (b, β)] (cat (one u) (one v)) = Coch.ev1 a α u * Coch.ev1 b β v := by
  induction u using Finsupp.induction_linear with
  | zero => simp
  | add f g hf hg => simp only [map_add, LinearMap.add_apply, hf, hg, add_mul]
  | single f s =>
    induction v using Finsupp.induction_linear with
    | zero => simp
    | add f g hf hg => simp only [map_add, hf, hg, mul_add]
    | single g t =>
      simp only [one, mapK_single, cat_single_single, List.singleton_append, Coch.evF_single, Coch.ev1_single, tensorValue]
      ring

theorem evC_pull {v : CKey →₀ F} (hv : v ∈ Finsupp.supported F F {m : CKey | m.length = 2}) :
    evC a (pb α) b (pb β) v = Coch.evF [(a, α), (b, β)] (tm cs1 v) := by
  refine fun_ext (f := evC a (pb α) b (pb β)) (g := (Coch.evF [(a, α), (b, β)]).comp (tm cs1)) (fun m hm => ?_) hv
  obtain ⟨f, g, rfl⟩ := List.length_eq_two.1 (show m.length = 2 from hm)
  have : tm (R := F) cs1 (bv F [f, g]) = cat (one (cs1 f)) (one (cs1 g)) := by
    simp [tm, tmK, cat_nil_right]
  rw [LinearMap.comp_apply, this, evF_cat1, ev1_cs1, ev1_cs1, evC_single, one_mul]
  simp only [cubeTensorValue]
  by_cases h1 : f.count 2 = a <;> by_cases h2 : g.count 2 = b <;> simp [h1, h2]

theorem den_cs_cube (c : Cube) : den F (cartanSerreMap (cubeElement c)).data = one (cs1 c) := by
  obtain ⟨h1, h2, h3, h4, h5, h6⟩ := cube_ok c
  obtain ⟨nc, tc, kc, dc⟩ := csMap_ok h1
  have dc' : den F (cartanSerreMap (cubeElement c)).data = tm cs1 (den F (cubeElement c).data) := dc
  rw [dc', h5]
  simp [tm, tmK, cat_nil_right]

theorem pullback_eq (α : List Nat → F) (c : Cube) : csPullback α c = pb α c := by
  unfold csPullback
  rw [Coch.evalOn_eq, den_cs_cube]
  by_cases h : Kept c
  · rw [cs1_kept h, one, mapK_single, Coch.evF_single, pb, if_pos h]
    simp [tensorValue, length_kept h]
  · rw [cs1_not h, pb, if_neg h]
    simp

theorem wc_pull (hc : ∀ v ∈ c, v ≤ 2) (i a b : Nat) (α β : List Nat → F) :
    wc .mcClureSmith i a (pb α) b (pb β) c = pb (Coch.wv 2 2 i [(a, α), (b, β)]) c := by
  obtain ⟨h1, h2, h3, h4, h5, h6⟩ := cube_ok c
  have hN : ∀ p ∈ (cubeElement c).data, ∀ d ∈ p.1, d.length = c.length ∧ ∀ v ∈ d, v ≤ 2 := by
    rw [h6]
    simpa using hc
  obtain ⟨x, z, ex, ez, nz, az, dz⟩ := WC_ok .mcClureSmith i (chomogeneous_keys h2 h3) (fun p hp d hd => (hN p hp d hd).1) h4
  obtain ⟨x', ex', ix, tx, cx, -, -, dx, -⟩ := C56_psi_ok (r := 2) .mcClureSmith le_rfl i 2 (by decide)
  cases ex.symm.trans ex'
  obtain ⟨z', w, ez', ew, hzw⟩ := C93_mod_two ix dx cx h1 h2 h3 hN tx h4 le_rfl le_rfl
  cases ez.symm.trans ez'
  have tz : z.torsion = 2 := (torsion_congr az).trans h4
  obtain ⟨nc, tc, kc, dc⟩ := csMap_ok h1
  obtain ⟨ncz, tcz, kcz, dcz⟩ := csMap_ok nz
  rw [tz] at tcz dcz
  have hck : ∀ p ∈ (cartanSerreMap (cubeElement c)).data, SElem.keyDegree p.1 = (c.count 2 : Int) ∧ p.1.length = 1 := by
    intro p hp
    obtain ⟨q, hq, e1, e2⟩ := kc p hp
    have := chomogeneous_keys h2 h3 q hq
    exact ⟨by rw [← e2, this.1], by rw [e1, List.length_map, this.2]⟩
  obtain ⟨y, w', ey, ew', nw, aw, dw⟩ := Coch.W_ok (r := 2) (n := 2) (d := i) le_rfl (by decide) nc hck (tc.trans h4)
  cases ex.symm.trans ey
  cases ew.symm.trans ew'
  have tw : w.torsion = 2 := (torsion_congr aw).trans (tc.trans h4)
  have hw := (pyEq_iff_den ncz nw (by rw [tcz, tw])).1 hzw
  rw [tcz] at hw
  have dcz' : den F (cartanSerreMap z).data = tm cs1 (den F z.data) := dcz
  have hw' : den F (cartanSerreMap z).data = den F w.data := hw
  rw [wc, ← h5, ← dz, evC_pull (by rw [dz, h5]; exact WC_two hc i), ← dcz', hw', dw, den_cs_cube, pb]
  split
  · rename_i h
    rw [cs1_kept h, one, mapK_single]
    rfl
  · rename_i h
    rw [cs1_not h]
    simp

end Comch.CubeCoch

namespace Comch.Props
open Comch.Spec Comch.CubeCoch Elem CElem SurjComp SurjElem SurjMay CubCall CubCS Serre

variable {N q : Nat} {s : Int} {c : Cube} {X : CubeComplex N}

theorem pb_congr {α β : List Nat → ZMod 2} (h : ∀ σ, Coch.Inc σ → α σ = β σ) (c : Cube) : pb α c = pb β c := by
  unfold pb
  split
  · exact h _ (inc_cs c)
  · rfl

theorem pullback_funext (α : List Nat → ZMod 2) : csPullback α = pb α := funext (pullback_eq α)

/-- The pull-back of a cochain is its value on the collapse of the cube if that has the dimension of the cube, and
zero otherwise. -/
theorem C113_value (α : List Nat → ZMod 2) (c : Cube) :
    csPullback α c = if collapseKeepsDim c then α (collapse c) else 0 := by
  rw [pullback_eq, pb, ← cartanSerre_eq_collapse]
  by_cases h : Kept c
  · rw [if_pos h, if_pos ((keepsDim_iff c).2 h)]
  · rw [if_neg h, if_neg fun h' => h ((keepsDim_iff c).1 h')]

/-- The pull-back commutes with the coboundaries. -/
theorem C113_coboundary (α : List Nat → ZMod 2) (c : Cube) :
    cubeCoboundary (csPullback α) c = csPullback (coboundary α) c := by
  rw [pullback_funext, pullback_eq]
  by_cases h0 : c.count 2 = 0
  · rw [cube_cob_vertex _ h0, pb]
    split
    · rename_i h
      rw [coboundary, if_pos (by rw [length_kept h]; omega)]
    · rfl
  · obtain ⟨a, ha⟩ : ∃ a, c.count 2 = a + 1 := ⟨c.count 2 - 1, by omega⟩
    have h1 := CubeCoch.ev1_cubeD a (pb α) c
    rw [if_pos ha] at h1
    have h2 : ∀ v : Cube →₀ F, CubeCoch.ev1 a (pb α) v = Coch.ev1 a α (lin cs1 v) := by
      intro v
      induction v using Finsupp.induction_linear with
      | zero => simp
      | add v w hv hw => simp only [map_add, hv, hw]
      | single f e => rw [CubeCoch.ev1_single, lin_single, map_smul, ev1_cs1, smul_eq_mul]
    have h3 := delK_cs1 (R := F) c
    rw [if_neg (by simp only [cdim, Cube.dimension]; omega), add_zero] at h3
    rw [← h1, h2, ← h3, pb]
    split
    · rename_i h
      rw [cs1_kept h, lin_single, one_smul, Coch.ev1_delK, if_pos (by rw [length_kept h]; omega)]
    · rename_i h
      rw [cs1_not h]
      simp

/-- The pull-back of `α ∪_i β` is the product `∪_i` of the pull-backs. -/
theorem C113_cup (hc : c ∈ X.cubes) (i a b : Nat) (α β : List Nat → ZMod 2) :
    cubeCupValue .mcClureSmith i a (csPullback α) b (csPullback β) c =
      .ok (csPullback (cochain (cupValue 2 i a α b β)) c) := by
  rw [cube_cup_eq _ (cube_le hc), pullback_funext, pullback_funext, wc_pull (cube_le hc), pullback_eq]
  congr 1
  exact pb_congr (fun σ hσ => by rw [cochain, Coch.cup_eq (by decide) hσ]) c

/-- The pull-back of `Sq^s α` is `Sq^s` of the pull-back. -/
theorem C113_square (hc : c ∈ X.cubes) (s : Int) (q : Nat) (α : List Nat → ZMod 2) :
    cubeSquareValue s q (csPullback α) c = .ok (csPullback (cochain (steenrodValue 2 s q false α)) c) := by
  rw [cube_square_eq (cube_le hc), pullback_funext, pullback_eq]
  congr 1
  by_cases hs : s ≤ q
  · rw [if_pos hs, wc_pull (cube_le hc)]
    exact pb_congr (fun σ hσ => by rw [cochain, Coch.square_eq hσ, if_pos hs]) c
  · rw [if_neg hs, ← pb_congr (α := fun _ => 0) (fun σ hσ => by rw [cochain, Coch.square_eq hσ, if_neg hs]) c, pb]
    split <;> rfl

/-! ### a case that meets the hypotheses -/

example : csPullback (exCochain 2) [2, 0, 1] = 1 := by decide +kernel

example : cubeSquareValue 1 1 (csPullback (exCochain 2)) [2, 2, 0] = .ok 1 := by decide +kernel

end Comch.Props
