import Verif.Props.CubeCochains
import Verif.Props.CubicalNaturality
import Verif.Spec.CubePullback

/-! # Naturality of the operations on the cochains of cubical complexes: C124 -/

set_option linter.unusedSectionVars false

namespace Comch.CubeCoch
open Comch.Spec Elem CElem SurjComp SurjElem Serre CubCall SurjMay Comch.Props CubNat
open Finsupp (single)

variable {cv : Convention} {i a b : Nat} {c : Cube} {α β : Cube → F}

/-- Pull-back along one generating map. -/
noncomputable def pull1 (g : CubeMap) (α : Cube → F) (c : Cube) : F :=
  match g.image c with
  | some c' => α c'
  | none => 0

theorem cdim_count (c : Cube) : c.dimension = c.count 2 := by
  have h := (cube_ok c).2.1
  have := chomogeneous_keys h (cube_ok c).2.2.1
  rw [(cube_ok c).2.2.2.2.2] at this
  have := (this ([c], 1) (by simp)).1
  simpa [CElem.keyDegree] using this

theorem image_count {g : CubeMap} {c c' : Cube} (h : g.image c = some c') : c'.count 2 = c.count 2 := by
  rw [← cdim_count, ← cdim_count, dimension_image h]

theorem value_pull (g : CubeMap) (k : CKey) : cubeTensorValue a (pull1 g α) b (pull1 g β) k =
    evC a α b β (tmK (g1 g) k) := by
  rw [tmK_images]
  rcases k with _ | ⟨f, _ | ⟨h, _ | ⟨e, k⟩⟩⟩
  · simp [CubeMap.images, cubeTensorValue]
  · simp only [CubeMap.images, cubeTensorValue]
    rcases g.image f with _ | f' <;> simp [cubeTensorValue]
  · simp only [CubeMap.images, cubeTensorValue, pull1]
    rcases hf : g.image f with _ | f'
    · simp
    · rcases hh : g.image h with _ | h'
      · simp
      · simp only [evC_single, one_mul, cubeTensorValue, image_count hf, image_count hh]
  · simp only [CubeMap.images, cubeTensorValue]
    rcases g.image f with _ | f'
    · simp
    · rcases g.image h with _ | h'
      · simp
      · rcases g.image e with _ | e'
        · simp
        · rcases g.images k with _ | k' <;> simp [cubeTensorValue]

theorem evC_under (g : CubeMap) (v : CKey →₀ F) : evC a (pull1 g α) b (pull1 g β) v = evC a α b β (tm (g1 g) v) := by
  induction v using Finsupp.induction_linear with
  | zero => simp
  | add v w hv hw => simp only [map_add, hv, hw]
  | single k e => rw [evC_single, value_pull, tm_single, map_smul, smul_eq_mul]

theorem wc_pull1 (g : CubeMap) : wc cv i a (pull1 g α) b (pull1 g β) c = pull1 g (wc cv i a α b β) c := by
  have hu : convS cv (psiS F 2 i) ∈ Finsupp.supported F F {k : Surj | k ≠ [] ∧ ∀ v ∈ k, 1 ≤ v ∧ v ≤ 2} := by
    refine Finsupp.supported_mono ?_ (psi_supp cv i)
    rintro k ⟨h1, -, h2⟩
    exact ⟨h2, fun v hv => (h1 v).1 hv⟩
  have hv : bv F [c] ∈ Finsupp.supported F F {m : CKey | 0 < m.length ∧ ∀ a ∈ m, a.length = c.length} :=
    Finsupp.single_mem_supported _ _ ⟨by simp, by simp⟩
  rw [wc, evC_under, WC, callCV_g1 (N := c.length) g hu hv, tm_single, one_smul, tmK_images, pull1]
  simp only [CubeMap.images]
  rcases g.image c with _ | c'
  · simp
  · rfl

theorem cob_pull1 (g : CubeMap) : cubeCoboundary (pull1 g α) c = pull1 g (cubeCoboundary α) c := by
  have h0 : ∀ (γ : Cube → F) (c : Cube), cubeCoboundary γ c = Finsupp.linearCombination F γ (cubeD c) := by
    intro γ c
    rw [fun_cubeD]
    simp [cubeCoboundary]
  have h1 : ∀ v : Cube →₀ F, Finsupp.linearCombination F (pull1 g α) v =
      Finsupp.linearCombination F α (lin (g1 g) v) := by
    intro v
    induction v using Finsupp.induction_linear with
    | zero => simp
    | add v w hv hw => simp only [map_add, hv, hw]
    | single d e =>
      rw [lin_single, map_smul, g1, Finsupp.linearCombination_single]
      unfold pull1
      rcases g.image d with _ | d' <;> simp
  rw [h0, h1, cubeD_g1, g1, pull1]
  rcases g.image c with _ | c'
  · simp
  · simp only [lin_single, one_smul, h0]

theorem pullback_nil (α : Cube → F) : cubePullback [] α = α := rfl

theorem pullback_cons (g : CubeMap) (f : List CubeMap) (α : Cube → F) :
    cubePullback (g :: f) α = pull1 g (cubePullback f α) := by
  funext c
  unfold cubePullback pull1
  rw [imageUnder]
  rcases g.image c with _ | c' <;> rfl

theorem wc_under (f : List CubeMap) :
    wc cv i a (cubePullback f α) b (cubePullback f β) = cubePullback f (wc cv i a α b β) := by
  induction f with
  | nil => rfl
  | cons g f ih =>
    rw [pullback_cons, pullback_cons, pullback_cons, ← ih]
    funext c
    exact wc_pull1 g

theorem cob_under (f : List CubeMap) : cubeCoboundary (cubePullback f α) = cubePullback f (cubeCoboundary α) := by
  induction f with
  | nil => rfl
  | cons g f ih =>
    rw [pullback_cons, pullback_cons, ← ih]
    funext c
    exact cob_pull1 g

theorem under_count (f : List CubeMap) {c c' : Cube} (h : imageUnder f c = some c') : c'.count 2 = c.count 2 := by
  induction f generalizing c with
  | nil => cases h; rfl
  | cons g f ih =>
    rw [imageUnder, Option.bind_eq_some_iff] at h
    obtain ⟨d, hd, h⟩ := h
    rw [ih h, image_count hd]

end Comch.CubeCoch

namespace Comch.Props
open Comch.Spec Comch.CubeCoch Elem CElem SurjComp SurjElem SurjMay CubCall

variable {N M q : Nat} {c : Cube} {X : CubeComplex N} {Y : CubeComplex M} {f : List CubeMap}

/-- `δ(f^* α) = f^*(δα)`. -/
theorem C124_coboundary (f : List CubeMap) (α : Cube → ZMod 2) (c : Cube) :
    cubeCoboundary (cubePullback f α) c = cubePullback f (cubeCoboundary α) c := by rw [CubeCoch.cob_under]

/-- Pull-back along a map of complexes sends cocycles to cocycles. -/
theorem C124_cocycle (hf : IsCubicalMap f X Y) {α : Cube → ZMod 2} (hα : IsCubeCocycle Y q α) :
    IsCubeCocycle X q (cubePullback f α) := by
  intro c hc hq
  rw [CubeCoch.cob_under, cubePullback]
  rcases h : imageUnder f c with _ | c'
  · rfl
  · exact hα c' (hf c hc c' h) ((under_count f h).trans hq)

/-- Pull-back along a map of complexes sends cohomologous cochains to cohomologous cochains. -/
theorem C124_cohomologous (hf : IsCubicalMap f X Y) {α β : Cube → ZMod 2} (h : CubeCohomologous Y q α β) :
    CubeCohomologous X q (cubePullback f α) (cubePullback f β) := by
  obtain ⟨γ, hγ⟩ := h
  refine ⟨cubePullback f γ, fun c hc hq => ?_⟩
  rw [CubeCoch.cob_under, cubePullback, cubePullback, cubePullback]
  rcases h : imageUnder f c with _ | c'
  · simp
  · exact hγ c' (hf c hc c' h) ((under_count f h).trans hq)

/-- `(f^* α) ∪_i (f^* β) = f^*(α ∪_i β)`, on the level of cochains. -/
theorem C124_cup (hf : IsCubicalMap f X Y) (cv : Convention) (hc : c ∈ X.cubes) (i a b : Nat) (α β : Cube → ZMod 2) :
    cochain (cubeCupValue cv i a (cubePullback f α) b (cubePullback f β)) c =
      cubePullback f (cochain (cubeCupValue cv i a α b β)) c := by
  rw [cochain_cube_cup cv hc, CubeCoch.wc_under]
  unfold cubePullback
  rcases h : imageUnder f c with _ | c'
  · rfl
  · exact (cochain_cube_cup cv (hf c hc c' h) i a b α β).symm

/-- `Sq^s(f^* α) = f^*(Sq^s α)`, on the level of cochains. -/
theorem C124_square (hf : IsCubicalMap f X Y) (hc : c ∈ X.cubes) (s : Int) (q : Nat) (α : Cube → ZMod 2) :
    cochain (cubeSquareValue s q (cubePullback f α)) c = cubePullback f (cochain (cubeSquareValue s q α)) c := by
  rw [cochain_cube_square hc]
  rcases h : imageUnder f c with _ | c'
  · rw [CubeCoch.wc_under]
    simp [cubePullback, h]
  · have : cubePullback f (cochain (cubeSquareValue s q α)) c = cochain (cubeSquareValue s q α) c' := by
      simp [cubePullback, h]
    rw [this, cochain_cube_square (hf c hc c' h), CubeCoch.wc_under]
    simp [cubePullback, h]

/-- All cubes of the standard cube of dimension `N`. -/
def exFullCube (N : Nat) : CubeComplex N where
  cubes := {c | c.length = N ∧ ∀ v ∈ c, v ≤ 2}
  isCube := fun _ h => h
  faces := fun c h f hf => by
    refine ⟨hf.length_eq.trans h.1, fun v hv => ?_⟩
    obtain ⟨i, hi, rfl⟩ := List.getElem_of_mem hv
    exact (hf.get hi (hf.length_eq ▸ hi)).1

/-- A square is mapped to a side of the cube, which is then projected along another direction: `(x, y) ↦ (1, x)`. -/
def exCubeMap : List CubeMap := [.inclusion 0 true, .projection 2]

example : IsCubicalMap exCubeMap (exFullCube 2) (exFullCube 2) := by
  intro c hc c' h
  obtain ⟨h1, h2⟩ := hc
  match c, h1 with
  | [u, v], _ =>
    have hu := h2 u (by simp)
    have hv : v ≤ 2 := h2 v (by simp)
    by_cases hv2 : v = 2
    · subst hv2
      simp [exCubeMap, imageUnder, CubeMap.image] at h
    · simp [exCubeMap, imageUnder, CubeMap.image, hv2] at h
      subst h
      exact ⟨rfl, by simpa using hu⟩

/-- Some cubes are collapsed, others are not. -/
example : imageUnder exCubeMap [2, 0] = some [1, 2] ∧ imageUnder exCubeMap [0, 2] = none ∧
    imageUnder exCubeMap [2, 2] = none := by decide

end Comch.Props
