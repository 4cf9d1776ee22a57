import Verif.Lib.CubeCochains

/-! # Operations on the cochains of cubical complexes modulo 2: C111, C112 -/

set_option linter.unusedSectionVars false

namespace Comch.CubeCoch
open Comch.Spec Elem CElem SurjComp SurjElem Serre CubCall SurjMay Comch.Props
open Finsupp (single)

variable {c : Cube}

theorem cube_cup_eq (cv : Convention) (hc : ∀ v ∈ c, v ≤ 2) (i a b : Nat) (α β : Cube → F) :
    cubeCupValue cv i a α b β c = .ok (wc cv i a α b β c) := by
  obtain ⟨h1, h2, h3, h4, h5, h6⟩ := cube_ok c
  obtain ⟨x, z, ex, ez, nz, az, dz⟩ := WC_ok cv i (chomogeneous_keys h2 h3) (N := c.length)
    (by rw [h6]; simp) h4
  unfold cubeCupValue
  simp only [ex, bind, Except.bind, ez]
  rw [evalOn_eq, dz, h5]
  rfl

theorem cube_square_eq (hc : ∀ v ∈ c, v ≤ 2) (s : Int) (q : Nat) (α : Cube → F) :
    cubeSquareValue s q α c = .ok (if s ≤ q then wc .mcClureSmith (q - s).toNat q α q α c else 0) := by
  obtain ⟨h1, h2, h3, h4, h5, h6⟩ := cube_ok c
  unfold cubeSquareValue Surjection.steenrodOperation
  rw [if_pos rfl, if_neg (by simp)]
  by_cases h : s ≤ q
  · rw [if_neg (by omega), if_pos h, show (-s - -(q : Int)) = q - s by ring]
    obtain ⟨m, em, im, tm, cm, -, -, dm, -⟩ := C56_psi_ok (r := 2) .mcClureSmith le_rfl ((q : Int) - s).toNat 2 (by norm_num)
    obtain ⟨m', em', -, -, dm'⟩ := surjMay_ok (r := 2) .mcClureSmith le_rfl ((q : Int) - s).toNat 2
    cases em.symm.trans em'
    have hd : ∀ t ∈ (smul surjection 1 m).data, ((sdeg t.1 : Nat) : Int) = ((q : Int) - s).toNat :=
      keysP_smul (P := fun k => ((sdeg k : Nat) : Int) = ((q : Int) - s).toNat) 1 fun t ht => sdeg_of_degree im dm ht
    obtain ⟨z, ez, nz, az, dz⟩ := callCubical_ok (inSurj_smul im 1) hd (chomogeneous_keys h2 h3) (N := c.length)
      (by rw [h6]; simp) tm h4 le_rfl le_rfl
    simp only [em, bind, Except.bind]
    rw [ez]
    simp only []
    rw [evalOn_eq, dz, den_smul im.nf _ (by simp) (by rw [tm]; rfl), dm', h5]
    simp only [Int.cast_one, one_smul]
    rfl
  · rw [if_pos (by omega), if_neg h]
    obtain ⟨z, ez, dz, -⟩ := (C54_errors_zero (x := Elem.new surjection [] (some 2)) (y := cubeElement c) (coord := 1) (a := 1)).1
      (Or.inl (by simp [Elem.new, preferredRep, zeroDropped, basePreferredRep]))
    simp only [bind, Except.bind]
    rw [ez]
    simp only []
    rw [evalOn_eq, dz]
    simp

end Comch.CubeCoch

namespace Comch.Props
open Comch.Spec Comch.CubeCoch Elem CElem SurjComp SurjElem SurjMay CubCall

variable {N q : Nat} {s : Int} {c : Cube} {X : CubeComplex N}

theorem cube_le (h : c ∈ X.cubes) : ∀ v ∈ c, v ≤ 2 := (X.isCube c h).2

theorem cochain_cube_cup (cv : Convention) (hX : c ∈ X.cubes) (i a b : Nat) (α β : Cube → ZMod 2) :
    cochain (cubeCupValue cv i a α b β) c = wc cv i a α b β c := by
  rw [cochain, cube_cup_eq cv (cube_le hX)]

theorem cochain_cube_square (hX : c ∈ X.cubes) (s : Int) (q : Nat) (α : Cube → ZMod 2) :
    cochain (cubeSquareValue s q α) c = if s ≤ q then wc .mcClureSmith (q - s).toNat q α q α c else 0 := by
  rw [cochain, cube_square_eq (cube_le hX)]

theorem cube_cob_on {α β : Cube → ZMod 2} (hX : c ∈ X.cubes)
    (h : ∀ f ∈ X.cubes, f.count 2 + 1 = c.count 2 → α f = β f) : cubeCoboundary α c = cubeCoboundary β c :=
  cube_cob_congr (cube_le hX) fun f hf => h f (X.faces c hX f hf)

theorem wc_on {cv : Convention} {i a b : Nat} {α β α' β' : Cube → ZMod 2} (hX : c ∈ X.cubes)
    (h1 : ∀ f ∈ X.cubes, f.count 2 = a → α f = α' f) (h2 : ∀ f ∈ X.cubes, f.count 2 = b → β f = β' f) :
    wc cv i a α b β c = wc cv i a α' b β' c :=
  wc_congr (cube_le hX) (fun f hf => h1 f (X.faces c hX f hf)) (fun f hf => h2 f (X.faces c hX f hf))

/-- No exception: the products and the squares have a value on every cube. -/
theorem C111_defined (cv : Convention) (hc : c ∈ X.cubes) (i a b : Nat) (α β : Cube → ZMod 2) (s : Int) (q : Nat) :
    (∃ v, cubeCupValue cv i a α b β c = .ok v) ∧ ∃ v, cubeSquareValue s q α c = .ok v :=
  ⟨⟨_, cube_cup_eq cv (cube_le hc) i a b α β⟩, ⟨_, cube_square_eq (cube_le hc) s q α⟩⟩

/-- The degrees: `α ∪_i β` vanishes on all cubes but those of dimension `a + b - i`, `Sq^s α` on all but those of
dimension `q + s`. -/
theorem C111_degree (cv : Convention) (hc : c ∈ X.cubes) (i a b : Nat) (α β : Cube → ZMod 2) (s : Int) (q : Nat) :
    (cubeCupValue cv i a α b β c ≠ .ok 0 → (c.count 2 : Int) = a + b - i) ∧
      (cubeSquareValue s q α c ≠ .ok 0 → (c.count 2 : Int) = q + s) := by
  rw [cube_cup_eq cv (cube_le hc), cube_square_eq (cube_le hc)]
  constructor
  · intro h
    by_contra hne
    exact h (by rw [wc_degree (cube_le hc) (by omega)])
  · intro h
    split at h
    · by_contra hne
      exact h (by rw [wc_degree (cube_le hc) (by omega)])
    · exact absurd rfl h

/-- The values on a cube depend only on the values of the cochains on its faces. -/
theorem C111_local (cv : Convention) (hc : c ∈ X.cubes) (i a b : Nat) {α α' β β' : Cube → ZMod 2}
    (h : ∀ f, IsFaceOf f c → α f = α' f ∧ β f = β' f) :
    cubeCupValue cv i a α b β c = cubeCupValue cv i a α' b β' c := by
  rw [cube_cup_eq cv (cube_le hc), cube_cup_eq cv (cube_le hc),
    wc_congr (cube_le hc) (fun f hf _ => (h f hf).1) (fun f hf _ => (h f hf).2)]

/-- `α ∪_0 β` by Serre's formula. -/
theorem C111_cup (cv : Convention) (hc : c ∈ X.cubes) (a b : Nat) (α β : Cube → ZMod 2) :
    cubeCupValue cv 0 a α b β c =
      .ok ((cubeSplits c).map fun p => if p.1.count 2 = a ∧ p.2.count 2 = b then α p.1 * β p.2 else 0).sum := by
  rw [cube_cup_eq cv (cube_le hc), wc_splits]

/-- `δ(α ∪_0 β) = δα ∪_0 β + α ∪_0 δβ`. -/
theorem C111_coboundary_zero (cv : Convention) (hc : c ∈ X.cubes) (a b : Nat) (α β : Cube → ZMod 2) :
    cubeCoboundary (cochain (cubeCupValue cv 0 a α b β)) c =
      cochain (cubeCupValue cv 0 (a + 1) (cubeCoboundary α) b β) c +
        cochain (cubeCupValue cv 0 a α (b + 1) (cubeCoboundary β)) c := by
  rw [cube_cob_on hc fun f hf _ => cochain_cube_cup cv hf 0 a b α β, cochain_cube_cup cv hc, cochain_cube_cup cv hc]
  exact wc_zero (cube_le hc) a b α β

/-- Steenrod's formula: `δ(α ∪_{i+1} β) = δα ∪_{i+1} β + α ∪_{i+1} δβ + β ∪_i α + α ∪_i β`. -/
theorem C111_coboundary_succ (cv : Convention) (hc : c ∈ X.cubes) (i a b : Nat) (α β : Cube → ZMod 2) :
    cubeCoboundary (cochain (cubeCupValue cv (i + 1) a α b β)) c =
      cochain (cubeCupValue cv (i + 1) (a + 1) (cubeCoboundary α) b β) c +
        cochain (cubeCupValue cv (i + 1) a α (b + 1) (cubeCoboundary β)) c +
      (cochain (cubeCupValue cv i b β a α) c + cochain (cubeCupValue cv i a α b β) c) := by
  rw [cube_cob_on hc fun f hf _ => cochain_cube_cup cv hf (i + 1) a b α β, cochain_cube_cup cv hc, cochain_cube_cup cv hc,
    cochain_cube_cup cv hc, cochain_cube_cup cv hc]
  exact wc_succ (cube_le hc) i a b α β

/-- `Sq^s α` is `α ∪_{q-s} α`. -/
theorem C111_square (hc : c ∈ X.cubes) (s : Int) (q : Nat) (hs : s ≤ q) (α : Cube → ZMod 2) :
    cubeSquareValue s q α c = cubeCupValue .mcClureSmith (q - s).toNat q α q α c := by
  rw [cube_square_eq (cube_le hc), if_pos hs, cube_cup_eq _ (cube_le hc)]

/-! ### cohomology -/

theorem wc_self_cob {cv : Convention} {i : Nat} {α : Cube → ZMod 2} (hα : IsCubeCocycle X q α) (hX : c ∈ X.cubes) :
    cubeCoboundary (wc cv i q α q α) c = 0 := by
  have h1 : ∀ i b β, wc cv i (q + 1) (cubeCoboundary α) b β c = 0 := fun i b β => by
    rw [wc_on hX (α' := fun _ => 0) (β' := β) (fun f hf h => hα f hf h) (fun _ _ _ => rfl), wc_zero_left]
  have h2 : ∀ i b β, wc cv i b β (q + 1) (cubeCoboundary α) c = 0 := fun i b β => by
    rw [wc_on hX (α' := β) (β' := fun _ => 0) (fun _ _ _ => rfl) (fun f hf h => hα f hf h), wc_zero_right]
  cases i with
  | zero => rw [wc_zero (cube_le hX), h1, h2, add_zero]
  | succ i => rw [wc_succ (cube_le hX), h1, h2, add_zero, zero_add, CubeCoch.two_self]

/-- Squares of cocycles are cocycles. -/
theorem C112_cocycle {α : Cube → ZMod 2} (hα : IsCubeCocycle X q α) (s : Int) (m : Nat) :
    IsCubeCocycle X m (cochain (cubeSquareValue s q α)) := by
  intro c hc hm
  by_cases hs : s ≤ q
  · rw [cube_cob_on (β := wc .mcClureSmith (q - s).toNat q α q α) hc fun f hf _ => by rw [cochain_cube_square hf, if_pos hs]]
    exact wc_self_cob hα hc
  · rw [cube_cob_on (β := fun _ => 0) hc fun f hf _ => by rw [cochain_cube_square hf, if_neg hs], cube_cob_zero]

/-- The squares are additive on cohomology classes. -/
theorem C112_additive {α β : Cube → ZMod 2} (hα : IsCubeCocycle X q α) (hβ : IsCubeCocycle X q β) (s : Int) (m : Nat) :
    CubeCohomologous X m (cochain (cubeSquareValue s q fun f => α f + β f))
      (fun c => cochain (cubeSquareValue s q α) c + cochain (cubeSquareValue s q β) c) := by
  by_cases hs : s ≤ q
  · refine ⟨wc .mcClureSmith ((q - s).toNat + 1) q α q β, fun c hc _ => ?_⟩
    beta_reduce
    rw [cochain_cube_square hc, cochain_cube_square hc, cochain_cube_square hc, if_pos hs, if_pos hs, if_pos hs,
      wc_succ (cube_le hc), wc_add_left, wc_add_right, wc_add_right,
      wc_on hc (α := cubeCoboundary α) (α' := fun _ => 0) (β := β) (β' := β) (fun f hf hl => hα f hf hl) (fun _ _ _ => rfl),
      wc_on hc (α := α) (α' := α) (β := cubeCoboundary β) (β' := fun _ => 0) (fun _ _ _ => rfl) (fun f hf hl => hβ f hf hl),
      wc_zero_left, wc_zero_right]
    ring
  · refine ⟨fun _ => 0, fun c hc _ => ?_⟩
    beta_reduce
    rw [cochain_cube_square hc, cochain_cube_square hc, cochain_cube_square hc, if_neg hs, if_neg hs, if_neg hs, cube_cob_zero]
    simp

/-- The square of a coboundary is a coboundary. -/
theorem wc_of_coboundary (cv : Convention) (γ : Cube → ZMod 2) (i q : Nat) : ∃ ε : Cube → ZMod 2, ∀ c ∈ X.cubes,
    wc cv i (q + 1) (cubeCoboundary γ) (q + 1) (cubeCoboundary γ) c = cubeCoboundary ε c := by
  have hz : ∀ j, ∀ c ∈ X.cubes, wc cv j q γ (q + 1 + 1) (cubeCoboundary (cubeCoboundary γ)) c = 0 := by
    intro j c hc
    rw [wc_on hc (α := γ) (α' := γ) (β := cubeCoboundary (cubeCoboundary γ)) (β' := fun _ => 0) (fun _ _ _ => rfl)
      (fun f _ _ => cube_cob_cob γ f), wc_zero_right]
  cases i with
  | zero =>
    refine ⟨wc cv 0 q γ (q + 1) (cubeCoboundary γ), fun c hc => ?_⟩
    rw [wc_zero (cube_le hc), hz 0 c hc, add_zero]
  | succ i =>
    have h1 : ∀ c ∈ X.cubes, cubeCoboundary (wc cv i q γ q γ) c =
        wc cv i (q + 1) (cubeCoboundary γ) q γ c + wc cv i q γ (q + 1) (cubeCoboundary γ) c := by
      intro c hc
      cases i with
      | zero => rw [wc_zero (cube_le hc)]
      | succ i => rw [wc_succ (cube_le hc), CubeCoch.two_self (wc cv i q γ q γ c), add_zero]
    refine ⟨fun f => wc cv (i + 1) q γ (q + 1) (cubeCoboundary γ) f + wc cv i q γ q γ f, fun c hc => ?_⟩
    rw [cube_cob_add, h1 c hc, wc_succ (cube_le hc), hz (i + 1) c hc, add_zero]
    rw [add_assoc, CubeCoch.two_self, add_zero]

theorem cube_cocycle_of {α β : Cube → ZMod 2} (hα : IsCubeCocycle X q α) (h : CubeCohomologous X q α β) :
    IsCubeCocycle X q β := by
  obtain ⟨γ, hγ⟩ := h
  intro c hc hl
  have := hα c hc hl
  rw [cube_cob_on (β := fun f => β f + cubeCoboundary γ f) hc (fun f hf hfl => hγ f hf (by omega)), cube_cob_add,
    cube_cob_cob, add_zero] at this
  exact this

/-- The class of the square depends only on the class of the cocycle. -/
theorem C112_well_defined {α β : Cube → ZMod 2} (hα : IsCubeCocycle X q α) (h : CubeCohomologous X q α β) (s : Int)
    (m : Nat) : CubeCohomologous X m (cochain (cubeSquareValue s q α)) (cochain (cubeSquareValue s q β)) := by
  obtain ⟨γ, hγ⟩ := h
  by_cases hs : s ≤ q
  swap
  · refine ⟨fun _ => 0, fun c hc _ => ?_⟩
    rw [cochain_cube_square hc, cochain_cube_square hc, if_neg hs, if_neg hs, cube_cob_zero, add_zero]
  cases q with
  | zero =>
    refine ⟨fun _ => 0, fun c hc _ => ?_⟩
    have hab : ∀ f ∈ X.cubes, f.count 2 = 0 → α f = β f := by
      intro f hf hl
      rw [hγ f hf hl, cube_cob_vertex γ hl, add_zero]
    rw [cochain_cube_square hc, cochain_cube_square hc, if_pos hs, if_pos hs, cube_cob_zero, add_zero,
      wc_on hc hab hab]
  | succ q =>
    have hβ : IsCubeCocycle X (q + 1) β := cube_cocycle_of hα ⟨γ, hγ⟩
    obtain ⟨ε, hε⟩ := wc_of_coboundary (X := X) .mcClureSmith γ (((q + 1 : Nat) : Int) - s).toNat q
    refine ⟨fun f => wc .mcClureSmith ((((q + 1 : Nat) : Int) - s).toNat + 1) (q + 1) β (q + 1) (cubeCoboundary γ) f + ε f,
      fun c hc _ => ?_⟩
    rw [cochain_cube_square hc, cochain_cube_square hc, if_pos hs, if_pos hs, cube_cob_add, ← hε c hc,
      wc_succ (cube_le hc), wc_on hc hγ hγ, wc_add_left, wc_add_right, wc_add_right,
      wc_on hc (α := cubeCoboundary β) (α' := fun _ => 0) (β := cubeCoboundary γ) (β' := cubeCoboundary γ)
        (fun f hf hl => hβ f hf hl) (fun _ _ _ => rfl),
      wc_on hc (α := β) (α' := β) (β := cubeCoboundary (cubeCoboundary γ)) (β' := fun _ => 0) (fun _ _ _ => rfl)
        (fun f hf hl => cube_cob_cob γ f),
      wc_zero_left, wc_zero_right]
    ring

/-- `Sq^s` on cochains of degree `q` vanishes for `s > q` and for `s < 0`. -/
theorem C112_vanishing (α : Cube → ZMod 2) (hc : c ∈ X.cubes) (h : s < 0 ∨ (q : Int) < s) :
    cubeSquareValue s q α c = .ok 0 := by
  rw [cube_square_eq (cube_le hc)]
  split
  · rename_i hs
    congr 1
    by_contra hne
    have h1 : c.count 2 + (q - s).toNat = q + q := by
      by_contra h; exact hne (wc_degree (cube_le hc) h)
    exact hne (wc_large (cube_le hc) (by omega))
  · rfl

/-- `Sq^0` is the identity, on all cochains. -/
theorem C112_zero (α : Cube → ZMod 2) (hc : c ∈ X.cubes) (hl : c.count 2 = q) :
    cubeSquareValue 0 q α c = .ok (α c) := by
  rw [cube_square_eq (cube_le hc), if_pos (by omega), show ((q : Int) - 0).toNat = q by omega,
    wc_top q (cube_le hc) hl]

/-- `Sq^q` on cochains of degree `q` is the cup square. -/
theorem C112_top (α : Cube → ZMod 2) (hc : c ∈ X.cubes) :
    cubeSquareValue q q α c = .ok
      ((cubeSplits c).map fun p => if p.1.count 2 = q ∧ p.2.count 2 = q then α p.1 * α p.2 else 0).sum := by
  rw [cube_square_eq (cube_le hc), if_pos le_rfl, show ((q : Int) - q).toNat = 0 by omega, wc_splits]

/-- The cup product of cocycles is a cocycle, its class depends only on the classes of the factors, and it is
commutative. -/
theorem C112_cup (cv : Convention) {a b : Nat} {α α' β β' : Cube → ZMod 2} (hα : IsCubeCocycle X a α)
    (hβ : IsCubeCocycle X b β) (h1 : CubeCohomologous X a α α')
    (h2 : CubeCohomologous X b β β') (m : Nat) :
    IsCubeCocycle X m (cochain (cubeCupValue cv 0 a α b β)) ∧
      CubeCohomologous X m (cochain (cubeCupValue cv 0 a α b β)) (cochain (cubeCupValue cv 0 a α' b β')) ∧
      CubeCohomologous X m (cochain (cubeCupValue cv 0 a α b β)) (cochain (cubeCupValue cv 0 b β a α)) := by
  have hα' := cube_cocycle_of hα h1
  have dl : ∀ {i a b : Nat} {α β : Cube → ZMod 2}, IsCubeCocycle X a α → ∀ c ∈ X.cubes,
      wc cv i (a + 1) (cubeCoboundary α) b β c = 0 := fun hα c hX => by
    rw [wc_on hX (α' := fun _ => 0) (β' := _) (fun f hf h => hα f hf h) (fun _ _ _ => rfl), wc_zero_left]
  have dr : ∀ {i a b : Nat} {α β : Cube → ZMod 2}, IsCubeCocycle X b β → ∀ c ∈ X.cubes,
      wc cv i a α (b + 1) (cubeCoboundary β) c = 0 := fun hβ c hX => by
    rw [wc_on hX (α' := _) (β' := fun _ => 0) (fun _ _ _ => rfl) (fun f hf h => hβ f hf h), wc_zero_right]
  refine ⟨fun c hc hm => ?_, ?_, ?_⟩
  · rw [cube_cob_on hc fun f hf _ => cochain_cube_cup cv hf 0 a b α β, wc_zero (cube_le hc), dl hα c hc, dr hβ c hc, add_zero]
  · obtain ⟨γ, hγ⟩ := h1
    obtain ⟨ε, hε⟩ := h2
    -- `(α' + δγ) ∪ (β' + δε) - α' ∪ β' = δγ ∪ β + α' ∪ δε`
    have hg : ∃ ω : Cube → ZMod 2, ∀ c ∈ X.cubes, wc cv 0 a (cubeCoboundary γ) b β c = cubeCoboundary ω c := by
      cases a with
      | zero =>
        refine ⟨fun _ => 0, fun c hc => ?_⟩
        rw [wc_on hc (α' := fun _ => 0) (β' := β) (fun f hf h => cube_cob_vertex γ h) (fun _ _ _ => rfl), wc_zero_left,
          cube_cob_zero]
      | succ a => exact ⟨wc cv 0 a γ b β, fun c hc => by rw [wc_zero (cube_le hc), dr hβ c hc, add_zero]⟩
    have he : ∃ ω : Cube → ZMod 2, ∀ c ∈ X.cubes, wc cv 0 a α' b (cubeCoboundary ε) c = cubeCoboundary ω c := by
      cases b with
      | zero =>
        refine ⟨fun _ => 0, fun c hc => ?_⟩
        rw [wc_on hc (α' := α') (β' := fun _ => 0) (fun _ _ _ => rfl) (fun f hf h => cube_cob_vertex ε h), wc_zero_right,
          cube_cob_zero]
      | succ b => exact ⟨wc cv 0 a α' b ε, fun c hc => by rw [wc_zero (cube_le hc), dl hα' c hc, zero_add]⟩
    obtain ⟨ω1, hω1⟩ := hg
    obtain ⟨ω2, hω2⟩ := he
    refine ⟨fun f => ω1 f + ω2 f, fun c hc _ => ?_⟩
    rw [cochain_cube_cup cv hc, cochain_cube_cup cv hc, cube_cob_add, ← hω1 c hc, ← hω2 c hc,
      wc_on hc hγ (β' := β) (fun _ _ _ => rfl), wc_add_left,
      wc_on hc (α := α') (α' := α') (fun _ _ _ => rfl) hε, wc_add_right]
    ring
  · refine ⟨wc cv 1 a α b β, fun c hc _ => ?_⟩
    rw [cochain_cube_cup cv hc, cochain_cube_cup cv hc, wc_succ (cube_le hc), dl hα c hc, dr hβ c hc, add_zero, zero_add,
      ← add_assoc, CubeCoch.two_self, zero_add]

/-! ### a case that meets the hypotheses -/

/-- The standard cube with its faces. -/
def exCubeComplex (N : Nat) : CubeComplex N where
  cubes := {c | c.length = N ∧ ∀ v ∈ c, v ≤ 2}
  isCube := fun _ h => h
  faces := fun _ h _ hf => fc_isCube h.1 hf

/-- A cochain of degree 1. -/
def exCubeCochain : Cube → ZMod 2 := cubeCoboundary fun c => if c = [0, 1, 1] then 1 else 0

example : IsCubeCocycle (exCubeComplex 3) 1 exCubeCochain := fun c _ _ => cube_cob_cob _ c

example : cubeSquareValue 1 1 exCubeCochain [2, 2, 1] = .ok 1 := by decide +kernel

example : cubeSquareValue 0 2 (fun c => if c.sum % 2 = 0 then 1 else 0) [2, 0, 2] = .ok 1 := by decide +kernel

example : cubeCupValue .bergerFresse 1 1 (fun f => if f = [2, 1, 1] then 1 else 0) 2 (fun _ => 1) [2, 2, 1] = .ok 1 := by decide +kernel

end Comch.Props
