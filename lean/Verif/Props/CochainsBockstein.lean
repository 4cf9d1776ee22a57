import Verif.Lib.CochainsBock
import Verif.Spec.Bockstein

/-! # The Bockstein and the operations: C107 -/

set_option linter.unusedSectionVars false

namespace Comch.Props
open Comch.Spec Comch.Coch Elem SurjComp SurjElem SurjMay

variable {p q m : Nat} {s : Int} {b : Bool} {σ : List Nat} {x : SurjElem} {X : OrderedComplex}

theorem face_mem (hσ : σ ∈ X.simplices) (hl : σ.length = m + 2) {i : Nat} (hi : i < σ.length) :
    σ.eraseIdx i ∈ X.simplices ∧ (σ.eraseIdx i).length = m + 1 := by
  have h1 : (σ.eraseIdx i).length = m + 1 := by rw [List.length_eraseIdx_of_lt hi]; omega
  refine ⟨X.faces σ hσ _ (List.eraseIdx_sublist _ _) fun h0 => ?_, h1⟩
  rw [h0] at h1
  simp at h1

theorem cob_congr_deg {R : Type} [CommRing R] {α β : List Nat → R} (hσ : σ ∈ X.simplices) (hl : σ.length = m + 2)
    (h : ∀ τ ∈ X.simplices, τ.length = m + 1 → α τ = β τ) : coboundary α σ = coboundary β σ := by
  unfold coboundary
  split
  · rfl
  · congr 1
    refine List.map_congr_left fun i hi => ?_
    obtain ⟨h1, h2⟩ := face_mem hσ hl (List.mem_range.1 hi)
    rw [h _ h1 h2]

/-- Every cocycle has a Bockstein. -/
theorem C107_exists (hp : p ≠ 0) {α : List Nat → ZMod p} (hα : IsCocycle X m α) : ∃ β, IsBockstein X p m α β := by
  have : NeZero p := ⟨hp⟩
  have hc : ∀ τ, (((α τ).val : Int) : ZMod p) = α τ := fun τ => by simp
  refine ⟨fun σ => ((coboundary (fun τ => ((α τ).val : Int)) σ / p : Int) : ZMod p), fun τ => (α τ).val,
    fun σ => coboundary (fun τ => ((α τ).val : Int)) σ / p, fun σ _ _ => hc σ, fun σ hσ hl => ⟨?_, rfl⟩⟩
  refine (Int.mul_ediv_cancel' ?_).symm
  rw [← ZMod.intCast_zmod_eq_zero_iff_dvd, ← cast_cob]
  rw [show (fun τ => (((α τ).val : Int) : ZMod p)) = α from funext hc]
  exact hα σ hσ hl

/-- The Bockstein of a class is well defined. -/
theorem C107_unique (hp : p ≠ 0) {α α' β β' : List Nat → ZMod p} (h : Cohomologous X m α α') (hb : IsBockstein X p m α β)
    (hb' : IsBockstein X p m α' β') : Cohomologous X (m + 1) β β' := by
  have : NeZero p := ⟨hp⟩
  have hp0 : (p : Int) ≠ 0 := by omega
  obtain ⟨γ, hγ⟩ := h
  obtain ⟨A, B, hA, hB⟩ := hb
  obtain ⟨A', B', hA', hB'⟩ := hb'
  let G : List Nat → Int := fun τ => ((γ τ).val : Int)
  have hG : (fun τ => ((G τ : Int) : ZMod p)) = γ := funext fun τ => by simp [G]
  let D : List Nat → Int := fun τ => (A τ - A' τ - coboundary G τ) / p
  have hD : ∀ τ ∈ X.simplices, τ.length = m + 1 → A τ = A' τ + (coboundary G τ + p * D τ) := by
    intro τ hτ hl
    have hd : (p : Int) ∣ A τ - A' τ - coboundary G τ := by
      rw [← ZMod.intCast_zmod_eq_zero_iff_dvd, Int.cast_sub, Int.cast_sub, hA τ hτ hl, hA' τ hτ hl, ← cast_cob, hG, hγ τ hτ hl]
      ring
    have := Int.mul_ediv_cancel' hd
    simp only [D]
    rw [this]
    ring
  refine ⟨fun τ => ((D τ : Int) : ZMod p), fun σ hσ hl => ?_⟩
  have h1 := cob_congr_deg hσ hl hD
  rw [cob_add, cob_add, coboundary_coboundary, zero_add, cob_mul, (hB σ hσ hl).1, (hB' σ hσ hl).1, ← mul_add] at h1
  rw [← (hB σ hσ hl).2, ← (hB' σ hσ hl).2, cast_cob, mul_left_cancel₀ hp0 h1, Int.cast_add]

/-- The Bockstein of a cochain is a cocycle. -/
theorem C107_cocycle (hp : p ≠ 0) {α β : List Nat → ZMod p} (hb : IsBockstein X p m α β) : IsCocycle X (m + 1) β := by
  have hp0 : (p : Int) ≠ 0 := by omega
  obtain ⟨A, B, -, hB⟩ := hb
  intro σ hσ hl
  rw [cob_congr_deg hσ hl fun τ hτ h => ((hB τ hτ h).2).symm, cast_cob]
  have h1 : coboundary (coboundary A) σ = coboundary (fun τ => (p : Int) * B τ) σ :=
    cob_congr_deg hσ hl fun τ hτ h => (hB τ hτ h).1
  rw [coboundary_coboundary, cob_mul] at h1
  rw [(mul_eq_zero.1 h1.symm).resolve_left hp0, Int.cast_zero]

/-- The operations with and without the Bockstein have the same coefficient. -/
theorem steenrod_coeff (hp : 2 ≤ p) (h2 : p ≠ 2) (h : Surjection.steenrodOperation p (-s) (-(q : Int)) b = .ok x) :
    ∃ c : Int, ∀ (b' : Bool) (α : List Nat → ZMod p) (σ : List Nat), Inc σ →
      cochain (steenrodValue p s q b' α) σ = if steenrodDegree p (-s) (-(q : Int)) b' < 0 then 0 else
        (c : ZMod p) * wv p p (steenrodDegree p (-s) (-(q : Int)) b').toNat (List.replicate p (q, α)) σ := by
  unfold Surjection.steenrodOperation at h
  rw [if_neg h2] at h
  dsimp only at h
  obtain ⟨c, hc⟩ : ∃ c, steenrodCoeff p (-s) (-(q : Int)) = .ok c := by
    cases hc : steenrodCoeff p (-s) (-(q : Int)) with
    | error e => rw [hc] at h; split at h <;> cases h
    | ok c => exact ⟨c, rfl⟩
  refine ⟨c, fun b' α σ hσ => ?_⟩
  rw [cochain, steenrodValue, Surjection.steenrodOperation, if_neg h2]
  dsimp only
  rw [hc]
  by_cases hd : steenrodDegree p (-s) (-(q : Int)) b' < 0
  · rw [if_pos hd, if_pos hd]
    have h0 : (Elem.new surjection [] (some p)).data = [] := by
      simp [Elem.new, preferredRep, zeroDropped, basePreferredRep]
    obtain ⟨z, ez, hz⟩ := call_empty (σ := σ) h0 (List.replicate p (q, α))
    simp only [bind, Except.bind, ez, hz]
  · rw [if_neg hd, if_neg hd]
    obtain ⟨m, em, -⟩ := C56_psi_ok (r := p) .mcClureSmith hp (steenrodDegree p (-s) (-(q : Int)) b').toNat p (by omega)
    obtain ⟨z, ez, dz⟩ := call_smul hp hσ c em
    simp only [bind, Except.bind, em, ez]
    rw [evalOn_eq, dz, map_smul, smul_eq_mul]
    rfl

/-- Integral lifts of cocycles. -/
theorem exists_lift (hp : p ≠ 0) {α : List Nat → ZMod p} (hα : IsCocycle X q α) : ∃ A B : List Nat → Int,
    (fun τ => ((A τ : Int) : ZMod p)) = α ∧ ∀ σ ∈ X.simplices, σ.length = q + 2 → coboundary A σ = p * B σ := by
  have : NeZero p := ⟨hp⟩
  have hc : (fun τ => (((α τ).val : Int) : ZMod p)) = α := funext fun τ => by simp
  refine ⟨fun τ => (α τ).val, fun σ => coboundary (fun τ => ((α τ).val : Int)) σ / p, hc, fun σ hσ hl => ?_⟩
  refine (Int.mul_ediv_cancel' ?_).symm
  rw [← ZMod.intCast_zmod_eq_zero_iff_dvd, ← cast_cob, hc]
  exact hα σ hσ hl

/-- At odd primes the Bockstein of `P^s` is `-βP^s` as the package computes it. -/
theorem C107_odd (hp : p.Prime) (h2 : p ≠ 2) (hop : Surjection.steenrodOperation p (-s) (-(q : Int)) b = .ok x)
    {α : List Nat → ZMod p} (hα : IsCocycle X q α) {β : List Nat → ZMod p}
    (hb : IsBockstein X p m (cochain (steenrodValue p s q false α)) β) :
    Cohomologous X (m + 1) β (fun σ => - cochain (steenrodValue p s q true α) σ) := by
  have hp0 : p ≠ 0 := hp.ne_zero
  have hodd : p % 2 = 1 := hp.eq_two_or_odd.resolve_left h2
  obtain ⟨c, hc⟩ := steenrod_coeff hp.two_le h2 hop
  obtain ⟨A, B, hA, hB⟩ := exists_lift hp0 hα
  set D := steenrodDegree p (-s) (-(q : Int)) false with hD
  have hD1 : steenrodDegree p (-s) (-(q : Int)) true = D - 1 := by simp [hD, steenrodDegree]
  by_cases hneg : D < 0
  · refine C107_unique hp0 ⟨fun _ => 0, fun σ _ _ => by rw [cob_zero, add_zero]⟩ hb
      ⟨fun _ => 0, fun _ => 0, fun σ hσ _ => ?_, fun σ hσ _ => ⟨by rw [cob_zero]; simp, ?_⟩⟩
    · rw [hc false α σ (inc_of_mem hσ), if_pos hneg, Int.cast_zero]
    · beta_reduce
      rw [hc true α σ (inc_of_mem hσ), hD1, if_pos (by omega), Int.cast_zero, neg_zero]
  · have hDe : D.toNat % 2 = 0 := by
      have : D = (2 * -s - -(q : Int)) * ((p : Int) - 1) := by simp [hD, steenrodDegree]
      obtain ⟨k, hk⟩ : ∃ k : Int, (p : Int) - 1 = 2 * k := ⟨(p : Int) / 2, by omega⟩
      rw [hk, show (2 * -s - -(q : Int)) * (2 * k) = 2 * ((2 * -s - -(q : Int)) * k) by ring] at this
      omega
    obtain ⟨C, E, g, hCE⟩ := lift_power (X := X) (q := q) hp hB D.toNat 1 (fun k hk => by
      rw [BElem.stepV, if_pos hDe, rep_norm hodd]
      simp)
    rw [hA] at hCE
    have hE := C107_unique hp0 (α := cochain (steenrodValue p s q false α)) (α' := cochain (steenrodValue p s q false α))
      (β' := fun σ => ((c * E σ : Int) : ZMod p)) ⟨fun _ => 0, fun σ _ _ => by rw [cob_zero, add_zero]⟩ hb
      ⟨fun τ => c * C τ, fun τ => c * E τ, fun σ hσ _ => by
        rw [hc false α σ (inc_of_mem hσ), if_neg hneg, Int.cast_mul, (hCE σ hσ).1], fun σ hσ _ => ⟨by
        rw [cob_mul, (hCE σ hσ).2.1]; ring, rfl⟩⟩
    obtain ⟨γ, hγ⟩ := hE
    refine ⟨fun τ => γ τ + (c : ZMod p) * g τ, fun σ hσ hl => ?_⟩
    rw [hγ σ hσ hl, cob_add, cob_mul]
    beta_reduce
    rw [Int.cast_mul, (hCE σ hσ).2.2, hc true α σ (inc_of_mem hσ), hD1,
      (Nat.even_iff.2 hDe).neg_one_pow]
    by_cases h0 : D.toNat = 0
    · rw [if_pos h0, if_pos (by omega)]
      ring
    · rw [if_neg h0, if_neg (by omega), show (D - 1).toNat = D.toNat - 1 by omega]
      push_cast
      ring

/-- The Bockstein of `Sq^s`. -/
theorem bockstein_square {α : List Nat → ZMod 2} (hα : IsCocycle X q α) {β : List Nat → ZMod 2}
    (hb : IsBockstein X 2 m (cochain (steenrodValue 2 s q false α)) β) :
    Cohomologous X (m + 1) β (fun σ => if s % 2 = 0 then cochain (steenrodValue 2 (s + 1) q false α) σ else 0) := by
  obtain ⟨A, B, hA, hB⟩ := exists_lift (p := 2) (by norm_num) hα
  by_cases hs : s ≤ q
  · set D := (q - s).toNat with hD
    have hpar : ((-1 : Int) ^ q + (-1) ^ D) = 2 * (if s % 2 = 0 then (-1) ^ q else 0) := by
      split
      · have : ((-1 : Int) ^ D) = (-1) ^ q := by
          rw [neg_one_pow_eq_pow_mod_two, neg_one_pow_eq_pow_mod_two (n := q), show D % 2 = q % 2 by omega]
        rw [this]; ring
      · have : ((-1 : Int) ^ D) = - (-1) ^ q := by
          rw [neg_one_pow_eq_pow_mod_two, neg_one_pow_eq_pow_mod_two (n := q)]
          rcases Nat.mod_two_eq_zero_or_one q with h | h
          · rw [h, show D % 2 = 1 by omega]; simp
          · rw [h, show D % 2 = 0 by omega]; simp
        rw [this]; ring
    obtain ⟨C, E, g, hCE⟩ := lift_power (X := X) (q := q) Nat.prime_two hB D (if s % 2 = 0 then (-1) ^ q else 0) (fun k hk => by
      rw [rep_step_two, show (((2 : Nat) : Int)) = 2 from rfl, ← hpar]
      congr 1)
    rw [hA] at hCE
    have hE := C107_unique (by norm_num) (α := cochain (steenrodValue 2 s q false α)) (α' := cochain (steenrodValue 2 s q false α))
      (β' := fun σ => ((E σ : Int) : ZMod 2)) ⟨fun _ => 0, fun σ _ _ => by rw [cob_zero, add_zero]⟩ hb
      ⟨C, E, fun σ hσ _ => by
        rw [cochain_square hσ, if_pos hs, (hCE σ hσ).1]; rfl, fun σ hσ _ => ⟨(hCE σ hσ).2.1, rfl⟩⟩
    obtain ⟨γ, hγ⟩ := hE
    refine ⟨fun τ => γ τ + g τ, fun σ hσ hl => ?_⟩
    have hm1 : (-1 : ZMod 2) = 1 := by decide
    have hneg : ∀ t : ZMod 2, -t = t := by decide
    rw [hγ σ hσ hl, cob_add]
    beta_reduce
    rw [(hCE σ hσ).2.2, hm1, one_pow, one_mul, sub_eq_add_neg, hneg]
    have key : (if D = 0 then (0 : ZMod 2) else (((if s % 2 = 0 then (-1) ^ q else 0 : Int)) : ZMod 2) *
        wv 2 2 (D - 1) (List.replicate 2 (q, α)) σ) = if s % 2 = 0 then cochain (steenrodValue 2 (s + 1) q false α) σ else 0 := by
      rw [cochain_square hσ]
      by_cases h0 : D = 0
      · rw [if_pos h0, if_neg (show ¬ (s + 1 ≤ q) by omega), ite_self]
      · rw [if_neg h0, if_pos (show s + 1 ≤ q by omega), show ((q : Int) - (s + 1)).toNat = D - 1 by omega]
        split
        · push_cast
          rw [hm1, one_pow, one_mul]
        · push_cast
          rw [zero_mul]
    rw [key]
    ring
  · refine C107_unique (by norm_num) ⟨fun _ => 0, fun σ _ _ => by rw [cob_zero, add_zero]⟩ hb
      ⟨fun _ => 0, fun _ => 0, fun σ hσ _ => ?_, fun σ hσ _ => ⟨by rw [cob_zero]; simp, ?_⟩⟩
    · rw [cochain_square hσ, if_neg hs, Int.cast_zero]
    · beta_reduce
      rw [cochain_square hσ, if_neg (show ¬ (s + 1 ≤ q) by omega), ite_self, Int.cast_zero]

/-- The Bockstein of `Sq^s` is `Sq^{s+1}` for even `s`. -/
theorem C107_square_even (hs : s % 2 = 0) {α : List Nat → ZMod 2} (hα : IsCocycle X q α) {β : List Nat → ZMod 2}
    (hb : IsBockstein X 2 m (cochain (steenrodValue 2 s q false α)) β) :
    Cohomologous X (m + 1) β (cochain (steenrodValue 2 (s + 1) q false α)) := by
  have := bockstein_square hα hb
  simpa only [hs, if_true] using this

/-- The Bockstein of `Sq^s` vanishes for odd `s`. -/
theorem C107_square_odd (hs : s % 2 = 1) {α : List Nat → ZMod 2} (hα : IsCocycle X q α) {β : List Nat → ZMod 2}
    (hb : IsBockstein X 2 m (cochain (steenrodValue 2 s q false α)) β) :
    Cohomologous X (m + 1) β (fun _ => 0) := by
  have := bockstein_square hα hb
  rwa [show (fun σ => if s % 2 = 0 then cochain (steenrodValue 2 (s + 1) q false α) σ else (0 : ZMod 2)) = fun _ => 0 from
    funext fun σ => if_neg (by omega)] at this

/-- `Sq^1` is the Bockstein. -/
theorem C107_square_one {α : List Nat → ZMod 2} (hα : IsCocycle X q α) {β : List Nat → ZMod 2}
    (hb : IsBockstein X 2 q α β) : Cohomologous X (q + 1) β (cochain (steenrodValue 2 1 q false α)) := by
  refine C107_square_even (s := 0) rfl hα ?_
  obtain ⟨A, B, h1, h2⟩ := hb
  refine ⟨A, B, fun σ hσ hl => ?_, h2⟩
  rw [h1 σ hσ hl, cochain, C104_zero α hσ hl]

/-! ### cases that meet the hypotheses: the projective plane with six vertices -/

def exTriangles : List (List Nat) :=
  [[0, 1, 2], [0, 2, 3], [0, 3, 4], [0, 4, 5], [0, 1, 5], [1, 2, 4], [2, 3, 5], [1, 3, 4], [2, 4, 5], [1, 3, 5]]

def exPlane : OrderedComplex where
  simplices := {σ | σ ≠ [] ∧ ∃ t ∈ exTriangles, σ.Sublist t}
  increasing := by
    rintro σ ⟨-, t, ht, hs⟩
    have : ∀ t ∈ exTriangles, t.Pairwise (· < ·) := by decide
    exact (this t ht).sublist hs
  nonempty := fun σ h => h.1
  faces := fun σ h τ hτ hne => ⟨hne, h.2.choose, h.2.choose_spec.1, hτ.trans h.2.choose_spec.2⟩

theorem exPlane_top {σ : List Nat} (hσ : σ ∈ exPlane.simplices) (hl : σ.length = 3) : σ ∈ exTriangles := by
  obtain ⟨-, t, ht, hs⟩ := hσ
  have : ∀ t ∈ exTriangles, t.length = 3 := by decide
  rw [hs.eq_of_length (by rw [hl, this t ht])]
  exact ht

/-- An integral cochain whose reduction modulo 2 is the non-trivial class of degree 1. -/
def exLift (σ : List Nat) : Int := if σ ∈ [[0, 2], [0, 3], [1, 2], [1, 4], [3, 4]] then 1 else 0

def exQuotient (σ : List Nat) : Int := if σ = [0, 3, 4] then 1 else 0

example : IsCocycle exPlane 1 (fun σ => ((exLift σ : Int) : ZMod 2)) := by
  intro σ hσ hl
  have : ∀ t ∈ exTriangles, coboundary (fun σ => ((exLift σ : Int) : ZMod 2)) t = 0 := by decide
  exact this σ (exPlane_top hσ hl)

example : IsBockstein exPlane 2 1 (fun σ => ((exLift σ : Int) : ZMod 2)) (fun σ => ((exQuotient σ : Int) : ZMod 2)) := by
  refine ⟨exLift, exQuotient, fun _ _ _ => rfl, fun σ hσ hl => ⟨?_, rfl⟩⟩
  have : ∀ t ∈ exTriangles, coboundary exLift t = 2 * exQuotient t := by decide
  exact this σ (exPlane_top hσ hl)

/-- The sum over all triangles, which vanishes on coboundaries, tells that this Bockstein is not zero. -/
example (γ : List Nat → ZMod 2) : (exTriangles.map fun t => ((exQuotient t : Int) : ZMod 2)).sum ≠
    (exTriangles.map fun t => coboundary γ t).sum := by
  have h : (exTriangles.map fun t => coboundary γ t).sum = 0 := by
    simp only [exTriangles, coboundary, List.map_cons, List.map_nil, List.sum_cons, List.sum_nil, List.length_cons, List.length_nil]
    simp only [show List.range (0 + 1 + 1 + 1) = [0, 1, 2] from rfl, List.map_cons, List.map_nil, List.sum_cons, List.sum_nil,
      List.eraseIdx_cons_zero, List.eraseIdx_cons_succ]
    have h1 : (-1 : ZMod 2) = 1 := by decide
    norm_num [h1]
    have h2 : (2 : ZMod 2) = 0 := by decide
    linear_combination (γ [0, 1] + γ [0, 2] + γ [0, 3] + γ [0, 4] + γ [0, 5] + γ [1, 2] + γ [1, 3] + γ [1, 4] + γ [1, 5] +
      γ [2, 3] + γ [2, 4] + γ [2, 5] + γ [3, 4] + γ [3, 5] + γ [4, 5]) * h2
  rw [h]
  decide

example : ∃ x, Surjection.steenrodOperation 3 (-0) (-((1 : Nat) : Int)) true = .ok x ∧ x.data ≠ [] :=
  ⟨_, rfl, by decide +kernel⟩

end Comch.Props
