import Verif.Lib.SurjComplexityComp
import Verif.Props.SurjComplexity
import Verif.Props.SurjAssoc

/-! # C72: composition does not raise the complexity -/

namespace Comch.Props
open Elem Spec SurjElem SurjComp

variable {r s i : Nat} {x y : SurjElem}

theorem alternations_le_complexity (hx : InSurj r x) {p : Surj × Int} (hp : p ∈ x.data) {j l : Nat}
    (hj : 1 ≤ j ∧ j ≤ r) (hl : 1 ≤ l ∧ l ≤ r) (h : j ≠ l) : alternations p.1 j l ≤ x.complexity := by
  have key := (C59_complexity_spec hx x.complexity).1 le_rfl p hp
  rcases Nat.lt_or_gt_of_ne h with h | h
  · exact key j l hj.1 h hl.2
  · rw [alternations_comm]
    exact key l j hl.1 h hj.2

/-- The elements of complexity at most `c` are closed under composition (Berger–Fresse, or mod 2). -/
theorem C72_complexity (hx : InSurj r x) (hy : InSurj s y) (hi : 1 ≤ i ∧ i ≤ r)
    (hsg : x.torsion = 2 ∨ x.attrs.convention = .bergerFresse) :
    ∃ z, SurjElem.compose x y i = .ok z ∧ z.complexity ≤ max x.complexity y.complexity := by
  by_cases hy0 : y.data = []
  · obtain ⟨z, ez, z0, _⟩ := C51_zero (x := x) (y := y) (i := i) (.inr hy0)
    refine ⟨z, ez, ?_⟩
    rw [SurjElem.complexity_le_iff]
    simp [z0]
  obtain ⟨q0, hq0⟩ := List.exists_mem_of_ne_nil _ hy0
  have hs := one_le_of_mem hy hq0
  obtain ⟨z, ez, hz, az, dz⟩ := compose_ok' hx hy hi.1 hi.2 hsg rfl
  refine ⟨z, ez, ?_⟩
  rw [C59_complexity_spec hz]
  intro p hp u v hu huv hv
  have hsup : den (ZMod x.torsion) z.data ∈ Finsupp.supported (ZMod x.torsion) (ZMod x.torsion)
      {m | ∃ a ∈ x.data, ∃ b ∈ y.data, Spl i s a.1 b.1 m} := by
    rw [dz]
    apply BElem.pr_supported
    refine BElem.bil_supported _ (S := {k | ∃ a ∈ x.data, a.1 = k}) (T := {k | ∃ b ∈ y.data, b.1 = k}) ?_
      (den_supported fun p hp => ⟨p, hp, rfl⟩) (den_supported fun p hp => ⟨p, hp, rfl⟩)
    rintro _ ⟨a, ha, rfl⟩ _ ⟨b, hb, rfl⟩
    exact Finsupp.supported_mono (s := {m | Spl i s a.1 b.1 m})
      (t := {m | ∃ a ∈ x.data, ∃ b ∈ y.data, Spl i s a.1 b.1 m}) (fun m hm => ⟨a, ha, b, hb, hm⟩)
      (cmp_spl i s a.1 b.1)
  obtain ⟨a, ha, b, hb, hm⟩ := mem_data_supported (r := r) hz.nf (torsion_congr az) hsup hp
  refine hm.alternations_le hi hs (rng_of_onto (hy.onto b hb)) ?_ ?_ (u := u) (v := v) (by omega) (by omega) (by omega)
  · intro j l h1 h2 h3 h4 h5
    exact (alternations_le_complexity hx ha ⟨h1, h2⟩ ⟨h3, h4⟩ h5).trans (le_max_left _ _)
  · intro j l h1 h2 h3 h4 h5
    exact (alternations_le_complexity hy hb ⟨h1, h2⟩ ⟨h3, h4⟩ h5).trans (le_max_right _ _)

/-- The hypotheses are met; the bound is attained. -/
example : ∃ z, SurjElem.compose (exSu .bergerFresse) (exSuB .bergerFresse) 2 = .ok z ∧
    InSurj 3 (exSu .bergerFresse) ∧ InSurj 2 (exSuB .bergerFresse) ∧
    SurjElem.complexity z = 3 ∧
    SurjElem.complexity (exSu .bergerFresse) = 3 ∧ SurjElem.complexity (exSuB .bergerFresse) = 2 :=
  ⟨_, rfl, exSu_in _, exSuB_in _, by decide +kernel, by decide +kernel, by decide +kernel⟩

end Comch.Props
