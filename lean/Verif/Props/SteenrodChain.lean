import Verif.Props.Steenrod

/-! # C60: `steenrod_chain` -/

set_option linter.unusedSectionVars false

namespace Comch
open Elem

theorem preferredRep_data_of {K : Type} {C : Cls K} {x : Elem K}
    (h1 : ∀ p ∈ x.data, p.2 ≠ 0) (h2 : x.torsion ≠ 0 → ∀ p ∈ x.data, 0 ≤ p.2 ∧ p.2 < x.torsion)
    (h3 : ∀ p ∈ x.data, C.drops p.1 = false) : preferredRep C x = x := by
  have e1 : zeroDropped C.drops x.data = x.data := by
    unfold zeroDropped
    conv_rhs => rw [← List.map_id x.data]
    apply List.map_congr_left
    intro p hp
    simp [h3 p hp]
  unfold preferredRep basePreferredRep
  rw [e1]
  have e2 : (if x.torsion ≠ 0 then x.data.map (fun p => (p.1, p.2 % (x.torsion : Int))) else x.data) = x.data := by
    split
    · rename_i ht
      conv_rhs => rw [← List.map_id x.data]
      apply List.map_congr_left
      intro p hp
      have := h2 ht p hp
      rw [Int.emod_eq_of_lt this.1 this.2]
      rfl
    · rfl
  simp only [e2]
  have e3 : x.data.filter (fun p => decide (p.2 ≠ 0)) = x.data := by
    rw [List.filter_eq_self]
    intro p hp
    simpa using h1 p hp
  rw [e3]

/-- `create` with some of the items of a normalised element. -/
theorem create_filter {K : Type} [DecidableEq K] {C : Cls K} (hD : C.defaultTorsion = 0) {x : Elem K} (hx : x.NF C)
    (P : K × Int → Bool) : x.create C (x.data.filter P) = { x with data := x.data.filter P } := by
  have hm : ∀ p ∈ x.data.filter P, p ∈ x.data := fun p hp => (List.mem_filter.1 hp).1
  have e1 : Elem.new C (x.data.filter P) = ⟨x.data.filter P, { torsion := C.defaultTorsion, convention := .bergerFresse }⟩ := by
    unfold Elem.new
    refine preferredRep_data_of ?_ ?_ ?_
    · exact fun p hp => hx.coeff_ne p (hm p hp)
    · intro h; exact absurd hD h
    · exact fun p hp => hx.kept p (hm p hp)
  unfold Elem.create
  rw [e1]
  exact preferredRep_data_of (fun p hp => hx.coeff_ne p (hm p hp))
    (fun ht p hp => hx.coeff_range ht p (hm p hp)) (fun p hp => hx.kept p (hm p hp))

namespace Spec

/-- All factors of the key have the same dimension. -/
def Homogeneous {A : Type} (dim : A → Int) (k : List A) : Prop := k ≠ [] ∧ ∃ d, ∀ a ∈ k, dim a = d

/-- Degree of the class on which the chain of an operation is evaluated: `s + q` at the prime 2,
`q + 2s(p-1) - b` at odd primes. -/
def outputDegree (p : Nat) (s q : Int) (bockstein : Bool) : Int :=
  if p = 2 then s + q else q + 2 * s * (p - 1) - (if bockstein then 1 else 0)

end Spec

namespace Props
open Spec

theorem homogeneousKey_iff {A : Type} (dim : A → Int) (k : List A) :
    Surjection.homogeneousKey dim k = true ↔ Homogeneous dim k := by
  unfold Surjection.homogeneousKey Homogeneous
  rw [Option.isSome_iff_exists]
  constructor
  · rintro ⟨d, h⟩
    rw [uniqueValue_eq_some] at h
    exact ⟨by simpa using h.1, d, fun a ha => h.2 _ (List.mem_map_of_mem ha)⟩
  · rintro ⟨h1, d, h2⟩
    refine ⟨d, uniqueValue_eq_some.2 ⟨by simpa using h1, ?_⟩⟩
    intro b hb
    obtain ⟨a, ha, rfl⟩ := List.mem_map.1 hb
    exact h2 a ha

theorem chainDegree_eq (p : Nat) (s q : Int) (b : Bool) : Surjection.chainDegree p s q b = outputDegree p s q b := by
  unfold Surjection.chainDegree outputDegree
  split
  · omega
  · rfl

theorem nf_callSimplicial {x : SurjElem} {c : SElem} {coord : Nat} {z : SElem}
    (h : x.callSimplicial c coord = .ok z) : z.NF simplicial := by
  unfold SurjElem.callSimplicial at h
  split at h
  · cases h; exact nf_zero _ _
  · split at h
    · split at h
      · cases h
      · split at h
        · cases h
        · split at h
          · cases h
          · rename_i d a oa _ _ _ _ _ _
            cases hd : c.iteratedDiagonal (a + d - 1).toNat coord with
            | error e => rw [hd] at h; cases h
            | ok y =>
              rw [hd] at h
              cases h
              exact nf_accumulate_zero _ _ _
    · cases h

theorem nf_callCubical {x : SurjElem} {c : CElem} {coord : Nat} {z : CElem}
    (h : x.callCubical c coord = .ok z) : z.NF cubical := by
  unfold SurjElem.callCubical at h
  split at h
  · cases h; exact nf_zero _ _
  · split at h
    · split at h
      · cases h
      · split at h
        · cases h
        · rename_i d a oa _ _ _ _ _
          cases hd : c.iteratedDiagonal (a + d - 1).toNat coord with
          | error e => rw [hd] at h; cases h
          | ok y =>
            rw [hd] at h
            simp only [bind, Except.bind] at h
            split at h
            · cases h
            · cases h
              exact nf_accumulate_zero _ _ _
    · cases h

/-- `steenrod_chain(p, s, q, bockstein)` fails exactly when the operation or its application to the
standard simplex fails, and otherwise consists of exactly those terms of that application all of whose
factors have one common dimension. -/
theorem C60_simplex (p : Nat) (s q : Int) (b : Bool) :
    (∀ e, Surjection.steenrodOperation p s q b = .error e → Surjection.steenrodChainSimplex p s q b = .error e) ∧
    ∀ x, Surjection.steenrodOperation p s q b = .ok x →
      (∀ e, x.callSimplicial (Simplicial.standardElement (-outputDegree p s q b) 1 (some p)) = .error e →
        Surjection.steenrodChainSimplex p s q b = .error e) ∧
      ∀ y, x.callSimplicial (Simplicial.standardElement (-outputDegree p s q b) 1 (some p)) = .ok y →
        ∃ z, Surjection.steenrodChainSimplex p s q b = .ok z ∧ z.attrs = y.attrs ∧
          (∀ t, t ∈ z.data ↔ t ∈ y.data ∧ Homogeneous Simplex.dimension t.1) ∧ z.data.Sublist y.data := by
  unfold Surjection.steenrodChainSimplex
  simp only [chainDegree_eq]
  constructor
  · intro e h; rw [h]; rfl
  · intro x h
    rw [h]
    constructor
    · intro e he
      simp only [bind, Except.bind]
      rw [he]
    · intro y hy
      simp only [bind, Except.bind]
      rw [hy]
      refine ⟨_, rfl, ?_⟩
      rw [create_filter rfl (nf_callSimplicial hy)]
      refine ⟨rfl, ?_, List.filter_sublist⟩
      intro t
      rw [List.mem_filter, homogeneousKey_iff]

/-- The same for `shape='cube'`. -/
theorem C60_cube (p : Nat) (s q : Int) (b : Bool) :
    (∀ e, Surjection.steenrodOperation p s q b = .error e → Surjection.steenrodChainCube p s q b = .error e) ∧
    ∀ x, Surjection.steenrodOperation p s q b = .ok x →
      (∀ e, x.callCubical (Cubical.standardElement (-outputDegree p s q b) 1 (some p)) = .error e →
        Surjection.steenrodChainCube p s q b = .error e) ∧
      ∀ y, x.callCubical (Cubical.standardElement (-outputDegree p s q b) 1 (some p)) = .ok y →
        ∃ z, Surjection.steenrodChainCube p s q b = .ok z ∧ z.attrs = y.attrs ∧
          (∀ t, t ∈ z.data ↔ t ∈ y.data ∧ Homogeneous (fun c : Cube => (Cube.dimension c : Int)) t.1) ∧
          z.data.Sublist y.data := by
  unfold Surjection.steenrodChainCube
  simp only [chainDegree_eq]
  constructor
  · intro e h; rw [h]; rfl
  · intro x h
    rw [h]
    constructor
    · intro e he
      simp only [bind, Except.bind]
      rw [he]
    · intro y hy
      simp only [bind, Except.bind]
      rw [hy]
      refine ⟨_, rfl, ?_⟩
      rw [create_filter rfl (nf_callCubical hy)]
      refine ⟨rfl, ?_, List.filter_sublist⟩
      intro t
      rw [List.mem_filter, homogeneousKey_iff]

/-- The documented example. -/
example : (Surjection.steenrodChainSimplex 2 (-1) (-2)).toOption.map (·.data) =
    some [([[0, 2, 3], [0, 1, 2]], 1), ([[0, 1, 3], [1, 2, 3]], 1)] := by decide +kernel

end Props
end Comch
