import Verif.Props.Cochains
import Verif.Props.Naturality
import Verif.Spec.Pullback

/-! # Naturality of the operations on cochains: C106 -/

set_option linter.unusedSectionVars false

namespace Comch.Coch
open Comch.Spec Elem SurjComp SurjElem IsPerm SurjMay Comch.Props Natural
open Finsupp (single)

variable {p q r n d : Nat} {σ : List Nat} {f : Nat → Nat}

/-- A weakly increasing tuple is strictly increasing as soon as it has no repetition. -/
theorem strict_iff {l : List Nat} (h : l.Pairwise (· ≤ ·)) : l.Pairwise (· < ·) ↔ hasRep l = false := by
  refine ⟨hasRep_of_increasing, ?_⟩
  induction l with
  | nil => simp
  | cons a l ih =>
    intro hr
    cases l with
    | nil => simp
    | cons b l =>
      rw [hasRep, Bool.or_eq_false_iff] at hr
      rw [List.pairwise_cons] at h
      have ih := ih h.2 hr.2
      refine List.pairwise_cons.2 ⟨fun c hc => ?_, ih⟩
      have hab : a < b := by
        have h1 := h.1 b (by simp)
        have h2 : a ≠ b := by simpa using hr.1
        omega
      rcases List.mem_cons.1 hc with rfl | hc
      · exact hab
      · exact lt_trans hab ((List.pairwise_cons.1 ih).1 c hc)

variable {R : Type} [CommRing R]

theorem fun_ext_supported' {K : Type} {S : Set K} {f g : (K →₀ R) →ₗ[R] R} (h : ∀ m ∈ S, f (bv R m) = g (bv R m))
    {v : K →₀ R} (hv : v ∈ Finsupp.supported R R S) : f v = g v := by
  have := BElem.lin_ext_supported (R := R) (S := S) (f := (Finsupp.lsingle (0 : Nat)).comp f)
    (g := (Finsupp.lsingle (0 : Nat)).comp g) (fun m hm => by
      simp only [LinearMap.comp_apply]
      rw [h m hm]) hv
  simp only [LinearMap.comp_apply, Finsupp.lsingle_apply] at this
  exact Finsupp.single_injective _ this

theorem tensorValue_pull (hσ : (σ.map f).Pairwise (· ≤ ·)) (L : List (Nat × (List Nat → R))) (k : SKey)
    (hk : ∀ g ∈ k, g.Sublist σ ∧ g ≠ []) :
    tensorValue (L.map fun t => (t.1, pullback f t.2)) k =
      if lany (k.map (List.map f)) then 0 else tensorValue L (k.map (List.map f)) := by
  induction k generalizing L with
  | nil => cases L <;> simp [tensorValue, lany]
  | cons g k ih =>
    cases L with
    | nil => simp [tensorValue]
    | cons t L =>
      obtain ⟨q, α⟩ := t
      have hg := hk g (by simp)
      have hm : (g.map f).Pairwise (· ≤ ·) := hσ.sublist (hg.1.map f)
      rw [List.map_cons, tensorValue, ih L fun g hg => hk g (by simp [hg]), List.map_cons, tensorValue, List.length_map]
      have hd : Comch.ldrop (g.map f) = hasRep (g.map f) := by
        simp [Comch.ldrop, hg.2]
      have hl : lany (g.map f :: k.map (List.map f)) = (hasRep (g.map f) || lany (k.map (List.map f))) := by
        rw [← hd]; simp [lany]
      rw [hl]
      unfold pullback
      cases h1 : hasRep (g.map f) with
      | true =>
        have : ¬ (g.map f).Pairwise (· < ·) := fun h => by
          rw [(strict_iff hm).1 h] at h1; cases h1
        simp [this]
      | false =>
        have : (g.map f).Pairwise (· < ·) := (strict_iff hm).2 h1
        rw [if_pos this]
        cases h2 : lany (k.map (List.map f)) <;> simp

theorem evF_pull (hσ : (σ.map f).Pairwise (· ≤ ·)) (L : List (Nat × (List Nat → R))) {v : SKey →₀ R}
    (hv : v ∈ Finsupp.supported R R (Faces r σ)) :
    evF (L.map fun t => (t.1, pullback f t.2)) v = evF L (pr lany (mapK (List.map (List.map f)) v)) := by
  refine fun_ext_supported (f := evF (L.map fun t => (t.1, pullback f t.2)))
    (g := (evF L).comp ((pr lany).comp (mapK (List.map (List.map f))))) (S := Faces r σ) (fun m hm => ?_) hv
  rw [evF_single, tensorValue_pull hσ L m hm.2, LinearMap.comp_apply, LinearMap.comp_apply, mapK_single, pr_single]
  split
  · simp
  · rw [evF_single]

theorem W_map (hr : 2 ≤ r) (hσ : σ ≠ []) :
    pr lany (mapK (List.map (List.map f)) (W r n d (bv (ZMod n) [σ]))) = W r n d (bv (ZMod n) [σ.map f]) := by
  unfold W
  rw [LinearMap.comp_apply, pr_mapK_pr, LinearMap.comp_apply]
  congr 1
  have hsup := psiS_suppO (R := ZMod n) (r := r) (by omega) d
  have h := BElem.lin_ext_supported (R := ZMod n) (S := OK r)
    (f := (mapK (List.map (List.map f))).comp ((callV (ZMod n) r d 0).flip (bv (ZMod n) [σ])))
    (g := (callV (ZMod n) r d 0).flip (bv (ZMod n) [σ.map f])) (fun k hk => by
      have hk0 : k ≠ [] := by
        rintro rfl
        have := (hk 1).2 ⟨le_rfl, by omega⟩
        simp at this
      simp only [LinearMap.comp_apply, LinearMap.flip_apply]
      rw [callV_one _ _ _ rfl, callV_one _ _ _ rfl]
      exact mapK_sact f r hk0 hσ) (convS_supp .mcClureSmith hsup)
  exact h

theorem W_degenerate (hr : 2 ≤ r) (h : hasRep σ = true) : W r n d (bv (ZMod n) [σ]) = 0 := by
  unfold W
  rw [LinearMap.comp_apply, ← pr_callV_right (r := r) (convS_supp .mcClureSmith (psiS_suppO (R := ZMod n) (r := r) (by omega) d)),
    pr_single, if_pos (by simp [lany, Comch.ldrop, h])]
  simp

/-- The values are natural. -/
theorem wv_pull (hr : 2 ≤ r) (hn : n ≠ 1) (hσ : Inc σ) (hf : (σ.map f).Pairwise (· ≤ ·))
    (L : List (Nat × (List Nat → ZMod n))) :
    wv r n d (L.map fun t => (t.1, pullback f t.2)) σ = pullback f (wv r n d L) σ := by
  rw [wv, evF_pull hf L (W_supported hr hn hσ), W_map hr hσ.2]
  unfold pullback
  split
  · rfl
  · rename_i h
    have : hasRep (σ.map f) = true := by
      rw [← Bool.not_eq_false]
      exact fun h' => h ((strict_iff hf).2 h')
    rw [W_degenerate hr this, map_zero]

end Comch.Coch

namespace Comch.Props
open Comch.Spec Elem SurjComp SurjElem SurjMay Coch Natural
open Finsupp (single)

variable {X Y : OrderedComplex} {f : Nat → Nat}

section
variable {R : Type} [CommRing R]

theorem cob_pull {σ : List Nat} (hf : (σ.map f).Pairwise (· ≤ ·)) (α : List Nat → R) :
    coboundary (pullback f α) σ = pullback f (coboundary α) σ := by
  by_cases hl : σ.length ≤ 1
  · unfold pullback coboundary
    simp [hl]
  obtain ⟨q, hq⟩ : ∃ q, σ.length = q + 2 := ⟨σ.length - 2, by omega⟩
  have h1 := ev1_delK q (pullback f α) σ
  rw [if_pos hq] at h1
  have h2 := ev1_delK q α (σ.map f)
  rw [List.length_map, if_pos hq] at h2
  have hsub : delK (R := R) σ ∈ Finsupp.supported R R {g : List Nat | g.Sublist σ} := delK_sub σ
  have key : ev1 q (pullback f α) (delK σ) = ev1 q α (pr hasRep (mapK (List.map f) (delK σ))) := by
    refine fun_ext_supported' (f := ev1 q (pullback f α))
      (g := (ev1 q α).comp ((pr hasRep).comp (mapK (List.map f)))) (fun (g : List Nat) (hg : List.Sublist g σ) => ?_) hsub
    have hm : (g.map f).Pairwise (· ≤ ·) := hf.sublist (List.Sublist.map f hg)
    rw [ev1_single, LinearMap.comp_apply, LinearMap.comp_apply, mapK_single, pr_single]
    unfold pullback
    cases h : hasRep (g.map f) with
    | true =>
      have : ¬ (g.map f).Pairwise (· < ·) := fun h' => by
        rw [(strict_iff hm).1 h'] at h; cases h
      simp [this]
    | false => simp [(strict_iff hm).2 h]
  rw [← h1, key, mapK_delK]
  unfold pullback
  split
  · rename_i h
    rw [← h2]
    refine fun_ext_supported' (f := (ev1 q α).comp (pr hasRep)) (g := ev1 q α)
      (fun (g : List Nat) (hg : List.Sublist g (σ.map f)) => ?_) (delK_sub (R := R) (σ.map f))
    rw [LinearMap.comp_apply, pr_single, hasRep_of_increasing (h.sublist hg)]
    rfl
  · rename_i h
    have hr : hasRep (σ.map f) = true := by
      rw [← Bool.not_eq_false]
      exact fun h' => h ((strict_iff hf).2 h')
    rw [pr_delK_of_hasRep (fun _ h => h) _ hr, map_zero]

theorem image_mem (hf : IsSimplicialMap f X Y) {σ : List Nat} (hσ : σ ∈ X.simplices)
    (h : (σ.map f).Pairwise (· < ·)) : σ.map f ∈ Y.simplices := by
  have := hf.image σ hσ
  rwa [List.dedup_eq_self.2 (h.imp fun h => by omega)] at this

/-- The pullback of cochains commutes with the coboundary. -/
theorem C106_coboundary (hf : IsSimplicialMap f X Y) (α : List Nat → R) {σ : List Nat} (hσ : σ ∈ X.simplices) :
    coboundary (pullback f α) σ = pullback f (coboundary α) σ := cob_pull (hf.monotone σ hσ) α

/-- It preserves cocycles. -/
theorem C106_cocycle (hf : IsSimplicialMap f X Y) {q : Nat} {α : List Nat → R} (hα : IsCocycle Y q α) :
    IsCocycle X q (pullback f α) := by
  intro σ hσ hl
  rw [C106_coboundary hf α hσ]
  unfold pullback
  split
  · rename_i h
    exact hα _ (image_mem hf hσ h) (by simpa using hl)
  · rfl

/-- It is well defined on cohomology. -/
theorem C106_cohomologous (hf : IsSimplicialMap f X Y) {q : Nat} {α β : List Nat → R} (h : Cohomologous Y q α β) :
    Cohomologous X q (pullback f α) (pullback f β) := by
  obtain ⟨γ, hγ⟩ := h
  refine ⟨pullback f γ, fun σ hσ hl => ?_⟩
  rw [C106_coboundary hf γ hσ]
  unfold pullback
  split
  · rename_i h
    exact hγ _ (image_mem hf hσ h) (by simpa using hl)
  · simp

end

/-- The Steenrod operations computed by the package are natural: on every simplex of the source, the operation
on the pullback of a cochain is the pullback of the operation. -/
theorem C106_steenrod (hf : IsSimplicialMap f X Y) {p q : Nat} {s : Int} {b : Bool} {x : SurjElem} (hp : 2 ≤ p)
    (hop : Surjection.steenrodOperation p (-s) (-(q : Int)) b = .ok x) (α : List Nat → ZMod p) {σ : List Nat}
    (hσ : σ ∈ X.simplices) :
    steenrodValue p s q b (pullback f α) σ = .ok (pullback f (cochain (steenrodValue p s q b α)) σ) := by
  obtain ⟨c, d, -, h⟩ := steenrod_eq hp hop
  have hi := inc_of_mem hσ
  rw [h _ _ hi]
  have := wv_pull (d := d) hp (by omega) hi (hf.monotone σ hσ) (List.replicate p (q, α))
  rw [List.map_replicate] at this
  rw [this]
  unfold pullback
  split
  · rename_i hs
    have hi' : Inc (σ.map f) := ⟨hs, by simpa using hi.2⟩
    simp only [cochain, h _ _ hi']
  · simp

/-- The cup-i products computed by the package are natural. -/
theorem C106_cup (hf : IsSimplicialMap f X Y) {n : Nat} (hn : n ≠ 1) (i a c : Nat) (α β : List Nat → ZMod n)
    {σ : List Nat} (hσ : σ ∈ X.simplices) :
    cupValue n i a (pullback f α) c (pullback f β) σ = .ok (pullback f (cochain (cupValue n i a α c β)) σ) := by
  have hi := inc_of_mem hσ
  rw [cup_eq hn hi]
  have := wv_pull (d := i) le_rfl hn hi (hf.monotone σ hσ) [(a, α), (c, β)]
  rw [List.map_cons, List.map_cons, List.map_nil] at this
  rw [this]
  unfold pullback
  split
  · rename_i hs
    have hi' : Inc (σ.map f) := ⟨hs, by simpa using hi.2⟩
    simp only [cochain, cup_eq hn hi']
  · rfl

/-- A collapse of the full complex on five vertices onto that on three. -/
theorem exCollapse : IsSimplicialMap (fun j => (j + 1) / 2) (exComplex 5) (exComplex 3) where
  monotone σ hσ := List.pairwise_map.2 (hσ.1.imp fun h => by omega)
  image σ hσ := by
    have hmem : ∀ v ∈ (σ.map fun j => (j + 1) / 2).dedup, v < 3 := by
      intro v hv
      obtain ⟨j, hj, rfl⟩ := List.mem_map.1 (List.mem_dedup.1 hv)
      have := hσ.2.2 j hj
      omega
    refine ⟨?_, fun h => ?_, hmem⟩
    · have h1 : (σ.map fun j => (j + 1) / 2).Pairwise (· ≤ ·) := List.pairwise_map.2 (hσ.1.imp fun h => by omega)
      exact ((h1.sublist (List.dedup_sublist _)).and (List.nodup_dedup _)).imp fun h => by omega
    · rw [List.dedup_eq_nil, List.map_eq_nil_iff] at h
      exact hσ.2.1 h

example : steenrodValue 2 1 1 false (pullback (fun j => (j + 1) / 2) (exCochain 2)) [0, 1, 3] = .ok 1 ∧
    steenrodValue 2 1 1 false (pullback (fun j => (j + 1) / 2) (exCochain 2)) [0, 1, 2] = .ok 0 ∧
    steenrodValue 2 1 1 false (exCochain 2) [0, 1, 2] = .ok 1 := by decide +kernel

end Comch.Props
