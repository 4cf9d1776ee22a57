import Verif.Lib.CubeCup
import Verif.Lib.CubeCarrier
import Verif.Props.CochainsRing

/-! # Cup products on the cochains of cubical complexes with any coefficients: C127 -/

set_option linter.unusedSectionVars false

namespace Comch.CubeCup
open Comch.Spec Elem CElem SurjComp SurjElem Serre CubCall SurjMay Comch.Props CubTwist
open Finsupp (single)
open CubeCoch (count_set set_fc)

variable {n a b N : Nat} {α β : Cube → ZMod n} {c : Cube} {cv : Convention}

theorem cup_eq (hn : n ≠ 1) (cv : Convention) (i a b : Nat) (α β : Cube → ZMod n) :
    signedCubeCup n cv i a α b β c = .ok (wi n cv i a α b β c) := by
  obtain ⟨h1, h2, h3, h4, h5, h6⟩ := cube_ok hn c
  obtain ⟨x, z, ex, ez, nz, az, dz⟩ := WI_ok hn cv i (chomogeneous_keys h2 h3) (N := c.length)
    (fun p hp d hd => by rw [h6 p hp, List.mem_singleton] at hd; rw [hd]) h4
  unfold signedCubeCup
  simp only [ex, bind, Except.bind, ez]
  rw [evalOn_eq, dz, h5]
  rfl

theorem scob_congr (hc : ∀ v ∈ c, v ≤ 2) (h : ∀ f ∈ FC c, f.count 2 + 1 = c.count 2 → α f = β f) :
    signedCubeCoboundary α c = signedCubeCoboundary β c := by
  unfold signedCubeCoboundary
  congr 1
  refine List.map_congr_left fun i _ => ?_
  split
  · rename_i h2
    rw [h _ (set_fc hc h2 (by omega)) (count_set h2 (by decide)), h _ (set_fc hc h2 (by omega)) (count_set h2 (by decide))]
  · rfl

theorem scob_eq (γ : Cube → ZMod n) (c : Cube) :
    signedCubeCoboundary γ c = Finsupp.linearCombination (ZMod n) γ (cubeD c) := by
  rw [fun_cubeD, signedCubeCoboundary]
  simp

theorem scob_add (α β : Cube → ZMod n) (c : Cube) :
    signedCubeCoboundary (fun f => α f + β f) c = signedCubeCoboundary α c + signedCubeCoboundary β c := by
  unfold signedCubeCoboundary
  rw [← List.sum_map_add]
  congr 1
  exact List.map_congr_left fun i _ => by split <;> ring

theorem scob_mul (t : ZMod n) (α : Cube → ZMod n) (c : Cube) :
    signedCubeCoboundary (fun f => t * α f) c = t * signedCubeCoboundary α c := by
  unfold signedCubeCoboundary
  rw [← List.sum_map_mul_left]
  congr 1
  exact List.map_congr_left fun i _ => by split <;> ring

theorem scob_zero (c : Cube) : signedCubeCoboundary (fun _ => (0 : ZMod n)) c = 0 := by
  unfold signedCubeCoboundary
  refine List.sum_eq_zero fun t ht => ?_
  obtain ⟨i, -, rfl⟩ := List.mem_map.1 ht
  simp

theorem scob_vertex (γ : Cube → ZMod n) {c : Cube} (h : c.count 2 = 0) : signedCubeCoboundary γ c = 0 := by
  unfold signedCubeCoboundary
  refine List.sum_eq_zero fun t ht => ?_
  obtain ⟨i, hi, rfl⟩ := List.mem_map.1 ht
  split
  · rename_i h2
    have := count_set (v := 0) h2 (by decide)
    omega
  · rfl

theorem scob_scob (γ : Cube → ZMod n) (c : Cube) : signedCubeCoboundary (signedCubeCoboundary γ) c = 0 := by
  rw [scob_eq]
  have h : ∀ v : Cube →₀ ZMod n, Finsupp.linearCombination (ZMod n) (signedCubeCoboundary γ) v =
      Finsupp.linearCombination (ZMod n) γ (lin cubeD v) := by
    intro v
    induction v using Finsupp.induction_linear with
    | zero => simp
    | add v w hv hw => simp only [map_add, hv, hw]
    | single f e => rw [lin_single, map_smul, ← scob_eq]; simp
  rw [h, CubeCart.cube_dd, map_zero]

theorem evP_add_left (α' : Cube → ZMod n) (v : CKey →₀ ZMod n) :
    evP a (fun f => α f + α' f) b β v = evP a α b β v + evP a α' b β v := by
  induction v using Finsupp.induction_linear with
  | zero => simp
  | add f g hf hg => rw [map_add, hf, hg, map_add, map_add]; ring
  | single k e =>
    rw [evP_single, evP_single, evP_single]
    match k with
    | [] => simp [cubePairValue]
    | [f] => simp [cubePairValue]
    | [f, g] => simp only [cubePairValue]; split <;> ring
    | f :: g :: h :: k => simp [cubePairValue]

theorem evP_add_right (β' : Cube → ZMod n) (v : CKey →₀ ZMod n) :
    evP a α b (fun f => β f + β' f) v = evP a α b β v + evP a α b β' v := by
  induction v using Finsupp.induction_linear with
  | zero => simp
  | add f g hf hg => rw [map_add, hf, hg, map_add, map_add]; ring
  | single k e =>
    rw [evP_single, evP_single, evP_single]
    match k with
    | [] => simp [cubePairValue]
    | [f] => simp [cubePairValue]
    | [f, g] => simp only [cubePairValue]; split <;> ring
    | f :: g :: h :: k => simp [cubePairValue]

end Comch.CubeCup

namespace Comch.Props
open Comch.Spec Comch.CubeCup Elem CElem SurjComp SurjElem SurjMay CubCall

variable {n N : Nat} {c : Cube} {X : CubeComplex N} {cv : Convention}

theorem cochain_signed_cup (hn : n ≠ 1) (cv : Convention) (i a b : Nat) (α β : Cube → ZMod n) :
    cochain (signedCubeCup n cv i a α b β) c = wi n cv i a α b β c := by
  rw [cochain, cup_eq hn cv]

theorem scob_on {α β : Cube → ZMod n} (hX : c ∈ X.cubes)
    (h : ∀ f ∈ X.cubes, f.count 2 + 1 = c.count 2 → α f = β f) : signedCubeCoboundary α c = signedCubeCoboundary β c :=
  scob_congr (cube_le hX) fun f hf => h f (X.faces c hX f hf)

theorem wi_on {i a b : Nat} {α β α' β' : Cube → ZMod n} (hn : n ≠ 1) (hX : c ∈ X.cubes)
    (h1 : ∀ f ∈ X.cubes, f.count 2 = a → α f = α' f) (h2 : ∀ f ∈ X.cubes, f.count 2 = b → β f = β' f) :
    wi n cv i a α b β c = wi n cv i a α' b β' c :=
  wi_congr hn (cube_le hX) (fun f hf => h1 f (X.faces c hX f hf)) (fun f hf => h2 f (X.faces c hX f hf))

/-- No exception: the products have a value on every cube, with any coefficients. -/
theorem C127_defined (hn : n ≠ 1) (cv : Convention) (i a b : Nat) (α β : Cube → ZMod n) (c : Cube) :
    ∃ v, signedCubeCup n cv i a α b β c = .ok v :=
  ⟨_, cup_eq hn cv i a b α β⟩

/-- The degree: `α ∪_i β` vanishes on all cubes but those of dimension `a + b - i`. -/
theorem C127_degree (hn : n ≠ 1) (cv : Convention) (hc : c ∈ X.cubes) (i a b : Nat) (α β : Cube → ZMod n) :
    signedCubeCup n cv i a α b β c ≠ .ok 0 → (c.count 2 : Int) = a + b - i := by
  rw [cup_eq hn cv]
  intro h
  by_contra hne
  exact h (by rw [wi_degree hn (cube_le hc) (by omega)])

/-- The values on a cube depend only on the values of the cochains on its faces. -/
theorem C127_local (hn : n ≠ 1) (cv : Convention) (hc : c ∈ X.cubes) (i a b : Nat) {α α' β β' : Cube → ZMod n}
    (h : ∀ f, IsFaceOf f c → α f = α' f ∧ β f = β' f) :
    signedCubeCup n cv i a α b β c = signedCubeCup n cv i a α' b β' c := by
  rw [cup_eq hn cv, cup_eq hn cv, wi_congr hn (cube_le hc) (fun f hf _ => (h f hf).1) (fun f hf _ => (h f hf).2)]

/-- `α ∪_0 β` by Serre's formula, with the sign of the shuffle. -/
theorem C127_cup (hn : n ≠ 1) (cv : Convention) (a b : Nat) (α β : Cube → ZMod n) (c : Cube) :
    signedCubeCup n cv 0 a α b β c = .ok ((cubeSplits c).map fun p => if p.1.count 2 = a ∧ p.2.count 2 = b then
      (-1) ^ splitInversions p.1 p.2 * (α p.1 * β p.2) else 0).sum := by
  rw [cup_eq hn cv, wi_splits]

/-- `δ(α ∪_0 β) = δα ∪_0 β + (-1)^a α ∪_0 δβ`. -/
theorem C127_coboundary_zero (hn : n ≠ 1) (cv : Convention) (hc : c ∈ X.cubes) (a b : Nat) (α β : Cube → ZMod n) :
    signedCubeCoboundary (cochain (signedCubeCup n cv 0 a α b β)) c =
      cochain (signedCubeCup n cv 0 (a + 1) (signedCubeCoboundary α) b β) c +
        (-1) ^ a * cochain (signedCubeCup n cv 0 a α (b + 1) (signedCubeCoboundary β)) c := by
  rw [scob_on hc fun f hf _ => cochain_signed_cup hn cv 0 a b α β, cochain_signed_cup hn, cochain_signed_cup hn]
  exact wi_zero hn (cube_le hc) a b α β

/-- Steenrod's formula for `∪_1` and `∪_2`: `(-1)^{i+1} δ(α ∪_{i+1} β) =
δα ∪_{i+1} β + (-1)^a α ∪_{i+1} δβ - (-1)^{ab} β ∪_i α - (-1)^{i+1} α ∪_i β`. -/
theorem C127_coboundary_succ (hn : n ≠ 1) (cv : Convention) (hc : c ∈ X.cubes) (i : Nat) (hi : i ≤ 1) (a b : Nat)
    (α β : Cube → ZMod n) :
    (-1) ^ (i + 1) * signedCubeCoboundary (cochain (signedCubeCup n cv (i + 1) a α b β)) c =
      cochain (signedCubeCup n cv (i + 1) (a + 1) (signedCubeCoboundary α) b β) c +
        (-1) ^ a * cochain (signedCubeCup n cv (i + 1) a α (b + 1) (signedCubeCoboundary β)) c -
      (-1) ^ (a * b) * cochain (signedCubeCup n cv i b β a α) c -
      (-1) ^ (i + 1) * cochain (signedCubeCup n cv i a α b β) c := by
  rw [scob_on hc fun f hf _ => cochain_signed_cup hn cv (i + 1) a b α β, cochain_signed_cup hn, cochain_signed_cup hn,
    cochain_signed_cup hn, cochain_signed_cup hn]
  exact wi_succ hn (cube_le hc) hi a b α β

/-! ### associativity and unit -/

theorem ssplits_assoc (c : Cube) (G : Cube → Cube → Cube → ZMod n) :
    ((cubeSplits c).map fun p => ((cubeSplits p.1).map fun r =>
      (-1) ^ splitInversions p.1 p.2 * ((-1) ^ splitInversions r.1 r.2 * G r.1 r.2 p.2)).sum).sum =
    ((cubeSplits c).map fun p => ((cubeSplits p.2).map fun r =>
      (-1) ^ splitInversions p.1 p.2 * ((-1) ^ splitInversions r.1 r.2 * G p.1 r.1 r.2)).sum).sum := by
  induction c generalizing G with
  | nil => simp [cubeSplits]
  | cons e c ih =>
    rw [cubeSplits]
    split
    · have e1 := ih fun x y z => G (2 :: x) (1 :: y) (1 :: z)
      have e2 := ih fun x y z => (-1) ^ x.count 2 * G (0 :: x) (2 :: y) (1 :: z)
      have e3 := ih fun x y z => (-1) ^ x.count 2 * ((-1) ^ y.count 2 * G (0 :: x) (0 :: y) (2 :: z))
      simp only [List.map_append, List.map_map, List.sum_append, Function.comp_def, cubeSplits, if_pos, if_neg, Nat.reduceEqDiff,
        if_false, List.sum_map_add, splitInversions, Nat.zero_add]
      refine (congrArg₂ (· + ·) (congrArg₂ (· + ·) e1 (Eq.trans ?_ e2)) (Eq.trans ?_ e3)).trans ?_
      · refine congrArg List.sum (List.map_congr_left fun p _ => congrArg List.sum (List.map_congr_left fun r _ => ?_))
        rw [pow_add]; ring
      · refine congrArg List.sum (List.map_congr_left fun p _ => congrArg List.sum (List.map_congr_left fun r hr => ?_))
        rw [← splits_count _ r hr, pow_add, pow_add]; ring
      · rw [add_assoc]
        refine congrArg₂ (· + ·) rfl (congrArg₂ (· + ·) ?_ ?_)
        · refine congrArg List.sum (List.map_congr_left fun p _ => congrArg List.sum (List.map_congr_left fun r _ => ?_))
          rw [pow_add]; ring
        · refine congrArg List.sum (List.map_congr_left fun p _ => congrArg List.sum (List.map_congr_left fun r _ => ?_))
          rw [pow_add, pow_add]; ring
    · rename_i he
      simp only [List.map_map, Function.comp_def, cubeSplits, if_neg he, splitInversions, Nat.zero_add]
      exact ih fun x y z => G (e :: x) (e :: y) (e :: z)

/-- The product is associative, on the nose. -/
theorem C127_associative (hn : n ≠ 1) (cv : Convention) (a b q : Nat) (α β γ : Cube → ZMod n) (e : Cube) :
    signedCubeCup n cv 0 (a + b) (cochain (signedCubeCup n cv 0 a α b β)) q γ e =
      signedCubeCup n cv 0 a α (b + q) (cochain (signedCubeCup n cv 0 b β q γ)) e := by
  set G : Cube → Cube → Cube → ZMod n := fun x y z =>
    if x.count 2 = a ∧ y.count 2 = b ∧ z.count 2 = q then α x * β y * γ z else 0 with hG
  rw [C127_cup hn, C127_cup hn]
  congr 1
  refine Eq.trans (Eq.trans ?_ (ssplits_assoc e G)) ?_
  · refine congrArg List.sum (List.map_congr_left fun p hp => ?_)
    rw [cochain, C127_cup hn]
    simp only [hG]
    rw [List.sum_map_mul_left]
    split
    · rename_i h
      congr 1
      rw [← List.sum_map_mul_right]
      refine congrArg List.sum (List.map_congr_left fun r hr => ?_)
      by_cases hr2 : r.1.count 2 = a ∧ r.2.count 2 = b
      · rw [if_pos hr2, if_pos ⟨hr2.1, hr2.2, h.2⟩, mul_assoc]
      · rw [if_neg hr2, if_neg fun h' => hr2 ⟨h'.1, h'.2.1⟩, zero_mul, mul_zero]
    · rename_i h
      refine (mul_eq_zero_of_right _ (List.sum_eq_zero fun x hx => ?_)).symm
      obtain ⟨r, hr, rfl⟩ := List.mem_map.1 hx
      have := splits_count p.1 r hr
      rw [if_neg fun h' => h ⟨by omega, h'.2.2⟩, mul_zero]
  · refine congrArg List.sum (List.map_congr_left fun p hp => ?_)
    rw [cochain, C127_cup hn]
    simp only [hG]
    rw [List.sum_map_mul_left]
    split
    · rename_i h
      congr 1
      rw [← List.sum_map_mul_left]
      refine congrArg List.sum (List.map_congr_left fun r hr => ?_)
      by_cases hr2 : r.1.count 2 = b ∧ r.2.count 2 = q
      · rw [if_pos hr2, if_pos ⟨h.1, hr2⟩]; ring
      · rw [if_neg hr2, if_neg fun h' => hr2 h'.2, mul_zero, mul_zero]
    · rename_i h
      refine mul_eq_zero_of_right _ (List.sum_eq_zero fun x hx => ?_)
      obtain ⟨r, hr, rfl⟩ := List.mem_map.1 hx
      have := splits_count p.2 r hr
      rw [if_neg fun h' => h ⟨h'.1, by omega⟩, mul_zero]

theorem splitInversions_left {f : Cube} (h : f.count 2 = 0) (g : Cube) : splitInversions f g = 0 := by
  induction f generalizing g with
  | nil => simp [splitInversions]
  | cons x f ih =>
    cases g with
    | nil => simp [splitInversions]
    | cons w g =>
      have h' : f.count 2 = 0 := by rw [List.count_cons] at h; omega
      rw [splitInversions, h', ih h']; simp

theorem splitInversions_right {g : Cube} (h : g.count 2 = 0) (f : Cube) : splitInversions f g = 0 := by
  induction g generalizing f with
  | nil => cases f <;> simp [splitInversions]
  | cons w g ih =>
    cases f with
    | nil => simp [splitInversions]
    | cons x f =>
      rw [List.count_cons] at h
      have hw : w ≠ 2 := by rintro rfl; simp at h
      rw [splitInversions, if_neg hw, ih (by omega)]

/-- The constant cochain 1 is a unit. -/
theorem C127_unit (hn : n ≠ 1) (cv : Convention) (a : Nat) (α : Cube → ZMod n) (e : Cube) (hd : e.count 2 = a) :
    signedCubeCup n cv 0 0 (fun _ => 1) a α e = .ok (α e) ∧ signedCubeCup n cv 0 a α 0 (fun _ => 1) e = .ok (α e) := by
  have key : ∀ e : Cube, ∀ G : Cube → ZMod n,
      ((cubeSplits e).map fun p => if p.1.count 2 = 0 then G p.2 else 0).sum = G e ∧
      ((cubeSplits e).map fun p => if p.2.count 2 = 0 then G p.1 else 0).sum = G e := by
    intro e
    induction e with
    | nil => intro G; simp [cubeSplits]
    | cons x e ih =>
      intro G
      rw [cubeSplits]
      split
      · rename_i hx
        subst hx
        simp only [List.map_append, List.sum_append, List.map_map, Function.comp_def]
        simp [List.count_cons, ih fun y => G (2 :: y)]
      · rename_i hx
        simp only [List.map_map, Function.comp_def]
        simp [List.count_cons, hx, ih fun y => G (x :: y)]
  rw [C127_cup hn, C127_cup hn]
  constructor <;> congr 1
  · rw [← (key e α).1]
    refine congrArg List.sum (List.map_congr_left fun p hp => ?_)
    have := splits_count e p hp
    by_cases h : p.1.count 2 = 0
    · rw [if_pos ⟨h, by omega⟩, if_pos h, one_mul, splitInversions_left h, pow_zero, one_mul]
    · rw [if_neg fun h' => h h'.1, if_neg h]
  · rw [← (key e α).2]
    refine congrArg List.sum (List.map_congr_left fun p hp => ?_)
    have := splits_count e p hp
    by_cases h : p.2.count 2 = 0
    · rw [if_pos ⟨by omega, h⟩, if_pos h, mul_one, splitInversions_right h, pow_zero, one_mul]
    · rw [if_neg fun h' => h h'.2, if_neg h]

/-! ### cohomology -/

theorem scocycle_of {q : Nat} {α β : Cube → ZMod n} (hα : IsSignedCubeCocycle X q α) (h : SignedCubeCohomologous X q α β) :
    IsSignedCubeCocycle X q β := by
  obtain ⟨γ, hγ⟩ := h
  intro c hc hl
  have := hα c hc hl
  rw [scob_on (β := fun f => β f + signedCubeCoboundary γ f) hc (fun f hf hfl => hγ f hf (by omega)), scob_add,
    scob_scob, add_zero] at this
  exact this

theorem wi_cob_left {i a b : Nat} {α β : Cube → ZMod n} (hn : n ≠ 1) (hα : IsSignedCubeCocycle X a α) (hX : c ∈ X.cubes) :
    wi n cv i (a + 1) (signedCubeCoboundary α) b β c = 0 := by
  rw [wi_on hn hX (α' := fun _ => 0) (β' := _) (fun f hf h => hα f hf h) (fun _ _ _ => rfl)]
  exact evP_zero_left _

theorem wi_cob_right {i a b : Nat} {α β : Cube → ZMod n} (hn : n ≠ 1) (hβ : IsSignedCubeCocycle X b β) (hX : c ∈ X.cubes) :
    wi n cv i a α (b + 1) (signedCubeCoboundary β) c = 0 := by
  rw [wi_on hn hX (α' := _) (β' := fun _ => 0) (fun _ _ _ => rfl) (fun f hf h => hβ f hf h)]
  exact evP_zero_right _

/-- The product of cocycles is a cocycle. -/
theorem C127_cocycle (hn : n ≠ 1) (cv : Convention) {a b : Nat} {α β : Cube → ZMod n} (hα : IsSignedCubeCocycle X a α)
    (hβ : IsSignedCubeCocycle X b β) (m : Nat) : IsSignedCubeCocycle X m (cochain (signedCubeCup n cv 0 a α b β)) := by
  intro c hc _
  rw [scob_on hc fun f hf _ => cochain_signed_cup hn cv 0 a b α β, wi_zero hn (cube_le hc), wi_cob_left hn hα hc,
    wi_cob_right hn hβ hc, mul_zero, add_zero]

/-- The class of the product depends only on the classes of the factors. -/
theorem C127_well_defined (hn : n ≠ 1) (cv : Convention) {a b : Nat} {α α' β β' : Cube → ZMod n}
    (hα : IsSignedCubeCocycle X a α) (hβ : IsSignedCubeCocycle X b β) (h1 : SignedCubeCohomologous X a α α')
    (h2 : SignedCubeCohomologous X b β β') (m : Nat) :
    SignedCubeCohomologous X m (cochain (signedCubeCup n cv 0 a α b β)) (cochain (signedCubeCup n cv 0 a α' b β')) := by
  have hα' := scocycle_of hα h1
  obtain ⟨γ, hγ⟩ := h1
  obtain ⟨ε, hε⟩ := h2
  have hg : ∃ ω : Cube → ZMod n, ∀ c ∈ X.cubes, wi n cv 0 a (signedCubeCoboundary γ) b β c = signedCubeCoboundary ω c := by
    cases a with
    | zero =>
      refine ⟨fun _ => 0, fun c hc => ?_⟩
      rw [wi_on hn hc (α' := fun _ => 0) (β' := β) (fun f hf h => scob_vertex γ h) (fun _ _ _ => rfl), scob_zero]
      exact evP_zero_left _
    | succ a => exact ⟨wi n cv 0 a γ b β, fun c hc => by
        rw [wi_zero hn (cube_le hc), wi_cob_right hn hβ hc, mul_zero, add_zero]⟩
  have he : ∃ ω : Cube → ZMod n, ∀ c ∈ X.cubes, wi n cv 0 a α' b (signedCubeCoboundary ε) c = signedCubeCoboundary ω c := by
    cases b with
    | zero =>
      refine ⟨fun _ => 0, fun c hc => ?_⟩
      rw [wi_on hn hc (α' := α') (β' := fun _ => 0) (fun _ _ _ => rfl) (fun f hf h => scob_vertex ε h), scob_zero]
      exact evP_zero_right _
    | succ b =>
      refine ⟨fun f => (-1) ^ a * wi n cv 0 a α' b ε f, fun c hc => ?_⟩
      rw [scob_mul, wi_zero hn (cube_le hc), wi_cob_left hn hα' hc, zero_add, ← mul_assoc, ← pow_add, Even.neg_one_pow ⟨a, rfl⟩,
        one_mul]
  obtain ⟨ω1, hω1⟩ := hg
  obtain ⟨ω2, hω2⟩ := he
  refine ⟨fun f => ω1 f + ω2 f, fun c hc _ => ?_⟩
  rw [cochain_signed_cup hn, cochain_signed_cup hn, scob_add, ← hω1 c hc, ← hω2 c hc,
    wi_on hn hc hγ (β' := β) (fun _ _ _ => rfl)]
  have e1 : wi n cv 0 a (fun f => α' f + signedCubeCoboundary γ f) b β c =
      wi n cv 0 a α' b β c + wi n cv 0 a (signedCubeCoboundary γ) b β c := evP_add_left _ _
  have e2 : wi n cv 0 a α' b (fun f => β' f + signedCubeCoboundary ε f) c =
      wi n cv 0 a α' b β' c + wi n cv 0 a α' b (signedCubeCoboundary ε) c := evP_add_right _ _
  rw [e1, wi_on hn hc (α := α') (α' := α') (fun _ _ _ => rfl) hε, e2]
  ring

/-- The product is graded commutative on cohomology classes. -/
theorem C127_commutative (hn : n ≠ 1) (cv : Convention) {a b : Nat} {α β : Cube → ZMod n}
    (hα : IsSignedCubeCocycle X a α) (hβ : IsSignedCubeCocycle X b β) (m : Nat) :
    SignedCubeCohomologous X m (cochain (signedCubeCup n cv 0 a α b β))
      (fun c => (-1) ^ (a * b) * cochain (signedCubeCup n cv 0 b β a α) c) := by
  refine ⟨fun f => (-1) * wi n cv 1 a α b β f, fun c hc _ => ?_⟩
  beta_reduce
  rw [scob_mul]
  have h := wi_succ (cv := cv) hn (cube_le hc) (i := 0) (by omega) a b α β
  rw [wi_cob_left hn hα hc, wi_cob_right hn hβ hc] at h
  rw [cochain_signed_cup hn, cochain_signed_cup hn]
  linear_combination -h

/-- The cochain that is 1 on one cube and 0 on the others. -/
def cubeDual (f : Cube) : Cube → ZMod 0 := fun g => if g = f then 1 else 0

/-- Steenrod's formula fails for `∪_3` over the integers, in the Berger–Fresse convention. -/
theorem C127_cup_three_fails : ∃ X : CubeComplex 3, ∃ c ∈ X.cubes, ∃ α β : Cube → ZMod 0,
    (-1) ^ 3 * signedCubeCoboundary (cochain (signedCubeCup 0 .bergerFresse 3 3 α 2 β)) c ≠
      cochain (signedCubeCup 0 .bergerFresse 3 4 (signedCubeCoboundary α) 2 β) c +
        (-1) ^ 3 * cochain (signedCubeCup 0 .bergerFresse 3 3 α 3 (signedCubeCoboundary β)) c -
      (-1) ^ (3 * 2) * cochain (signedCubeCup 0 .bergerFresse 2 2 β 3 α) c -
      (-1) ^ 3 * cochain (signedCubeCup 0 .bergerFresse 2 3 α 2 β) c := by
  refine ⟨exCubeComplex 3, [2, 2, 2], ⟨rfl, by decide⟩, cubeDual [2, 2, 2], cubeDual [2, 2, 0], ?_⟩
  decide +kernel

/-! ### a case that meets the hypotheses -/

/-- A cochain of degree 1 with integral values. -/
def exSignedCochain : Cube → ZMod 0 := signedCubeCoboundary fun c => if c = [0, 1, 1] then 3 else 0

example : IsSignedCubeCocycle (exCubeComplex 3) 1 exSignedCochain := fun c _ _ => scob_scob _ c

example : signedCubeCup 0 .bergerFresse 0 1 exSignedCochain 1 exSignedCochain [2, 2, 1] = .ok 9 := by decide +kernel

end Comch.Props
