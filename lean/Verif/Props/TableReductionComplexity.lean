import Verif.Lib.TableRedComplexity
import Verif.Props.SurjComplexity
import Verif.Props.TableReduction
import Verif.Props.SurjCompose

/-! # C73: table reduction and complexity -/

namespace Comch.Props
open Elem Spec BElem

variable {r : Nat} {x : BElem}

/-- If along every term of `x` no pair of letters changes its order more than `c` times, the complexity of
the table reduction is at most `c + 1`. -/
theorem C73_complexity (hr : 1 ≤ r) (hx : InBE r x) {c : Nat}
    (hc : ∀ p ∈ x.data, ∀ i j, 1 ≤ i → i < j → j ≤ r → orderChanges p.1 i j ≤ c) :
    ∃ z, tableReduction x = .ok z ∧ SurjElem.complexity z ≤ c + 1 := by
  obtain ⟨z, ez, hz, tz, _⟩ := C42_no_exception hr hx
  obtain ⟨z', ez', nz, az, dz⟩ := TR.tableReduction_ok hr hx rfl
  cases ez.symm.trans ez'
  refine ⟨z, ez, ?_⟩
  rw [C59_complexity_spec hz]
  intro p hp i j hi hij hj
  have hsup : den (ZMod x.torsion) z.data ∈ Finsupp.supported (ZMod x.torsion) (ZMod x.torsion)
      {m | ∃ a ∈ x.data, TR.TrT a.1 m} := by
    rw [dz]
    apply BElem.pr_supported
    refine lin_supported (S := {k | ∃ a ∈ x.data, a.1 = k}) _ ?_ (den_supported fun p hp => ⟨p, hp, rfl⟩)
    rintro _ ⟨a, ha, rfl⟩
    exact Finsupp.supported_mono (s := {m | TR.TrT a.1 m}) (t := {m | ∃ a ∈ x.data, TR.TrT a.1 m})
      (fun m hm => ⟨a, ha, hm⟩) (TR.tr_trT a.1)
  obtain ⟨a, ha, hm⟩ := mem_data_supported (r := r) nz tz hsup hp
  refine (hm.alternations_le (TR.al_of_perm (hx.perm a ha)) (by omega) ?_ ?_).trans
    (Nat.succ_le_succ (hc a ha i j hi hij hj))
  · simp; omega
  · simp; omega

/-- The bound is attained. -/
example : InBE 3 exBE ∧ (∀ p ∈ exBE.data, ∀ i j, 1 ≤ i → i < j → j ≤ 3 → orderChanges p.1 i j ≤ 2) ∧
    ∃ z, tableReduction exBE = .ok z ∧ SurjElem.complexity z = 3 :=
  ⟨exBE_hom.1, by
    have h : ∀ p ∈ exBE.data, ∀ i ∈ [1, 2], ∀ j ∈ [2, 3], orderChanges p.1 i j ≤ 2 := by decide +kernel
    intro p hp i j h1 h2 h3
    exact h p hp i (by simp; omega) j (by simp; omega), _, rfl, by decide +kernel⟩

end Comch.Props
