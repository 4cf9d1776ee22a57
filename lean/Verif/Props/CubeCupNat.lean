import Verif.Spec.CubeCupPullback
import Verif.Props.CubeCup
import Verif.Props.CubeCochainsNat

/-! # Naturality of the signed products of cubical cochains: C129 -/

set_option linter.unusedSectionVars false

namespace Comch.CubeCup
open Comch.Spec Elem CElem SurjComp SurjElem Serre CubCall SurjMay Comch.Props CubNat
open Finsupp (single)

variable {n : Nat} {cv : Convention} {i a b : Nat} {c : Cube} {α β : Cube → ZMod n}

local notation "F" => ZMod n

/-- Pull-back along one generating map. -/
noncomputable def pull1 (g : CubeMap) (α : Cube → ZMod n) (c : Cube) : F :=
  match g.image c with
  | some c' => α c'
  | none => 0

theorem value_pull (g : CubeMap) (k : CKey) : cubePairValue a (pull1 g α) b (pull1 g β) k =
    evP a α b β (tmK (g1 g) k) := by
  rw [tmK_images]
  rcases k with _ | ⟨f, _ | ⟨h, _ | ⟨e, k⟩⟩⟩
  · simp [CubeMap.images, cubePairValue]
  · simp only [CubeMap.images, cubePairValue]
    rcases g.image f with _ | f' <;> simp [cubePairValue]
  · simp only [CubeMap.images, cubePairValue, pull1]
    rcases hf : g.image f with _ | f'
    · simp
    · rcases hh : g.image h with _ | h'
      · simp
      · simp only [evP_single, one_mul, cubePairValue, CubeCoch.image_count hf, CubeCoch.image_count hh]
  · simp only [CubeMap.images, cubePairValue]
    rcases g.image f with _ | f'
    · simp
    · rcases g.image h with _ | h'
      · simp
      · rcases g.image e with _ | e'
        · simp
        · rcases g.images k with _ | k' <;> simp [cubePairValue]

theorem evP_under (g : CubeMap) (v : CKey →₀ F) : evP a (pull1 g α) b (pull1 g β) v = evP a α b β (tm (g1 g) v) := by
  induction v using Finsupp.induction_linear with
  | zero => simp
  | add v w hv hw => simp only [map_add, hv, hw]
  | single k e => rw [evP_single, value_pull, tm_single, map_smul, smul_eq_mul]

theorem wi_pull1 (hn : n ≠ 1) (g : CubeMap) : wi n cv i a (pull1 g α) b (pull1 g β) c = pull1 g (wi n cv i a α b β) c := by
  have hu : convS cv (psiS F 2 i) ∈ Finsupp.supported F F {k : Surj | k ≠ [] ∧ ∀ v ∈ k, 1 ≤ v ∧ v ≤ 2} := by
    refine Finsupp.supported_mono ?_ (psi_supp hn cv i)
    rintro k ⟨h1, -, h2⟩
    exact ⟨h2, fun v hv => (h1 v).1 hv⟩
  have hv : bv F [c] ∈ Finsupp.supported F F {m : CKey | 0 < m.length ∧ ∀ a ∈ m, a.length = c.length} :=
    Finsupp.single_mem_supported _ _ ⟨by simp, by simp⟩
  rw [wi, evP_under, WI, callCV_g1 (N := c.length) g hu hv, tm_single, one_smul, tmK_images, pull1]
  simp only [CubeMap.images]
  rcases g.image c with _ | c'
  · simp
  · rfl

theorem cob_pull1 (g : CubeMap) : signedCubeCoboundary (pull1 g α) c = pull1 g (signedCubeCoboundary α) c := by
  have h0 : ∀ (γ : Cube → ZMod n) (c : Cube), signedCubeCoboundary γ c = Finsupp.linearCombination F γ (cubeD c) := by
    intro γ c
    rw [fun_cubeD]
    simp [signedCubeCoboundary]
  have h1 : ∀ v : Cube →₀ F, Finsupp.linearCombination F (pull1 g α) v =
      Finsupp.linearCombination F α (lin (g1 g) v) := by
    intro v
    induction v using Finsupp.induction_linear with
    | zero => simp
    | add v w hv hw => simp only [map_add, hv, hw]
    | single d e =>
      rw [lin_single, map_smul, g1, Finsupp.linearCombination_single]
      unfold pull1
      rcases g.image d with _ | d' <;> simp
  rw [h0, h1, cubeD_g1, g1, pull1]
  rcases g.image c with _ | c'
  · simp
  · simp only [lin_single, one_smul, h0]

theorem pullback_nil (α : Cube → ZMod n) : cubePullbackMod [] α = α := rfl

theorem pullback_cons (g : CubeMap) (f : List CubeMap) (α : Cube → ZMod n) :
    cubePullbackMod (g :: f) α = pull1 g (cubePullbackMod f α) := by
  funext c
  unfold cubePullbackMod pull1
  rw [imageUnder]
  rcases g.image c with _ | c' <;> rfl

theorem wi_under (hn : n ≠ 1) (f : List CubeMap) :
    wi n cv i a (cubePullbackMod f α) b (cubePullbackMod f β) = cubePullbackMod f (wi n cv i a α b β) := by
  induction f with
  | nil => rfl
  | cons g f ih =>
    rw [pullback_cons, pullback_cons, pullback_cons, ← ih]
    funext c
    exact wi_pull1 hn g

theorem cob_under (f : List CubeMap) : signedCubeCoboundary (cubePullbackMod f α) = cubePullbackMod f (signedCubeCoboundary α) := by
  induction f with
  | nil => rfl
  | cons g f ih =>
    rw [pullback_cons, pullback_cons, ← ih]
    funext c
    exact cob_pull1 g

end Comch.CubeCup

namespace Comch.Props
open Comch.Spec Comch.CubeCup Elem CElem SurjComp SurjElem SurjMay CubCall

variable {n N M q : Nat} {c : Cube} {X : CubeComplex N} {Y : CubeComplex M} {f : List CubeMap}

/-- `δ(f^* α) = f^*(δα)`. -/
theorem C129_coboundary (f : List CubeMap) (α : Cube → ZMod n) (c : Cube) :
    signedCubeCoboundary (cubePullbackMod f α) c = cubePullbackMod f (signedCubeCoboundary α) c := by rw [CubeCup.cob_under]

/-- Pull-back along a map of complexes sends cocycles to cocycles. -/
theorem C129_cocycle (hf : IsCubicalMap f X Y) {α : Cube → ZMod n} (hα : IsSignedCubeCocycle Y q α) :
    IsSignedCubeCocycle X q (cubePullbackMod f α) := by
  intro c hc hq
  rw [CubeCup.cob_under, cubePullbackMod]
  rcases h : imageUnder f c with _ | c'
  · rfl
  · exact hα c' (hf c hc c' h) ((CubeCoch.under_count f h).trans hq)

/-- Pull-back along a map of complexes sends cohomologous cochains to cohomologous cochains. -/
theorem C129_cohomologous (hf : IsCubicalMap f X Y) {α β : Cube → ZMod n} (h : SignedCubeCohomologous Y q α β) :
    SignedCubeCohomologous X q (cubePullbackMod f α) (cubePullbackMod f β) := by
  obtain ⟨γ, hγ⟩ := h
  refine ⟨cubePullbackMod f γ, fun c hc hq => ?_⟩
  rw [CubeCup.cob_under, cubePullbackMod, cubePullbackMod, cubePullbackMod]
  rcases h : imageUnder f c with _ | c'
  · simp
  · exact hγ c' (hf c hc c' h) ((CubeCoch.under_count f h).trans hq)

/-- `(f^* α) ∪_i (f^* β) = f^*(α ∪_i β)`, on the level of cochains. -/
theorem C129_cup (hn : n ≠ 1) (cv : Convention) (i a b : Nat) (α β : Cube → ZMod n) :
    cochain (signedCubeCup n cv i a (cubePullbackMod f α) b (cubePullbackMod f β)) c =
      cubePullbackMod f (cochain (signedCubeCup n cv i a α b β)) c := by
  rw [cochain_signed_cup hn cv, CubeCup.wi_under hn]
  unfold cubePullbackMod
  rcases h : imageUnder f c with _ | c'
  · rfl
  · exact (cochain_signed_cup hn cv i a b α β).symm

/-! ### a case that meets the hypotheses -/

example : cubePullbackMod (n := 0) exCubeMap (fun c => (c.sum : Int)) [2, 0] = 3 := by decide

example : signedCubeCup 0 .bergerFresse 1 1 (cubePullbackMod exCubeMap fun c => (c.sum : Int)) 1
    (cubePullbackMod exCubeMap fun c => (c.length : Int)) [2, 0] = .ok 6 := by decide +kernel

end Comch.Props
