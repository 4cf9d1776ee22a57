import Verif.Props.CubeCochains
import Verif.Props.CochainsPrimes

/-! # The cohomology ring: C115 -/

set_option linter.unusedSectionVars false

namespace Comch.Props
open Comch.Spec Comch.Coch Elem SurjComp SurjElem SurjMay Comch.CubeCoch

variable {n a b c : Nat} {σ : List Nat} {X : OrderedComplex}

/-- `(α ∪ β) ∪ γ = α ∪ (β ∪ γ)`, on cochains. -/
theorem C115_associative (hn : n ≠ 1) (hσ : σ ∈ X.simplices) (α β γ : List Nat → ZMod n) (hl : σ.length = a + b + c + 1) :
    ∃ v, cupValue n 0 (a + b) (cochain (cupValue n 0 a α b β)) c γ σ = .ok v ∧
      cupValue n 0 a α (b + c) (cochain (cupValue n 0 b β c γ)) σ = .ok v ∧
      v = α (σ.take (a + 1)) * β ((σ.drop a).take (b + 1)) * γ (σ.drop (a + b)) := by
  have h1 : σ.take (a + b + 1) ∈ X.simplices :=
    X.faces σ hσ _ (List.take_sublist _ _) (by intro h; have := congrArg List.length h; rw [List.length_take, List.length_nil] at this; omega)
  have h2 : σ.drop a ∈ X.simplices :=
    X.faces σ hσ _ (List.drop_sublist _ _) (by intro h; have := congrArg List.length h; simp at this; omega)
  refine ⟨_, ?_, ?_, rfl⟩
  · rw [C103_front_back hn hσ _ _ _ _ hl, cochain, C103_front_back hn h1 _ _ _ _ (by rw [List.length_take]; omega)]
    simp only []
    rw [List.take_take, min_eq_left (by omega), List.drop_take, show a + b + 1 - a = b + 1 by omega]
  · rw [C103_front_back hn hσ _ _ _ _ (by omega), cochain, C103_front_back hn h2 _ _ _ _ (by rw [List.length_drop]; omega)]
    simp only []
    rw [List.drop_drop, mul_assoc]

/-- The cochain with value 1 on every vertex is a unit. -/
theorem C115_unit (hn : n ≠ 1) (hσ : σ ∈ X.simplices) (α : List Nat → ZMod n) (hl : σ.length = a + 1) :
    cupValue n 0 0 (fun _ => 1) a α σ = .ok (α σ) ∧ cupValue n 0 a α 0 (fun _ => 1) σ = .ok (α σ) ∧
      IsCocycle X 0 (fun _ => (1 : ZMod n)) := by
  refine ⟨?_, ?_, ?_⟩
  · rw [C103_front_back hn hσ _ _ _ _ (by omega), one_mul, List.drop_zero]
  · rw [C103_front_back hn hσ _ _ _ _ (by omega), mul_one, List.take_of_length_le (by omega)]
  · intro τ hτ ht
    rw [coboundary, if_neg (by omega), ht]
    simp [List.range_succ]

/-- The product is additive in each factor. -/
theorem C115_distributive (hn : n ≠ 1) (hσ : σ ∈ X.simplices) (i : Nat) (α α' β β' : List Nat → ZMod n) :
    cochain (cupValue n i a (fun f => α f + α' f) b β) σ = cochain (cupValue n i a α b β) σ + cochain (cupValue n i a α' b β) σ ∧
      cochain (cupValue n i a α b fun f => β f + β' f) σ = cochain (cupValue n i a α b β) σ + cochain (cupValue n i a α b β') σ := by
  simp only [cochain_cup hn hσ]
  exact ⟨wv_add_left _ _ _ _ _ _, wv_add_right _ _ _ _ _ _⟩

theorem cocycle_left (hn : n ≠ 1) {α β : List Nat → ZMod n} {i : Nat} (hα : IsCocycle X a α) (hσ : σ ∈ X.simplices) :
    wv 2 n i [(a + 1, coboundary α), (b, β)] σ = 0 := by
  rw [wv_congr hn hσ (α := coboundary α) (α' := fun _ => 0) (β := β) (β' := β) (fun f hf hl => hα f hf hl) (fun _ _ _ => rfl), wv_zero_left]

theorem cocycle_right (hn : n ≠ 1) {α β : List Nat → ZMod n} {i : Nat} (hβ : IsCocycle X b β) (hσ : σ ∈ X.simplices) :
    wv 2 n i [(a, α), (b + 1, coboundary β)] σ = 0 := by
  rw [wv_congr hn hσ (α := α) (α' := α) (β := coboundary β) (β' := fun _ => 0) (fun _ _ _ => rfl) (fun f hf hl => hβ f hf hl), wv_zero_right]

/-- The product of cocycles is a cocycle. -/
theorem C115_cocycle (hn : n ≠ 1) {α β : List Nat → ZMod n} (hα : IsCocycle X a α) (hβ : IsCocycle X b β) (m : Nat) :
    IsCocycle X m (cochain (cupValue n 0 a α b β)) := by
  intro σ hσ _
  rw [C103_coboundary_zero hn hσ, cochain_cup hn hσ, cochain_cup hn hσ, cocycle_left hn hα hσ, cocycle_right hn hβ hσ]
  simp

/-- The class of the product depends only on the classes of the factors. -/
theorem C115_well_defined (hn : n ≠ 1) {α α' β β' : List Nat → ZMod n} (hα : IsCocycle X a α') (hβ : IsCocycle X b β)
    (h1 : Cohomologous X a α α') (h2 : Cohomologous X b β β') (m : Nat) :
    Cohomologous X m (cochain (cupValue n 0 a α b β)) (cochain (cupValue n 0 a α' b β')) := by
  obtain ⟨γ, hγ⟩ := h1
  obtain ⟨ε, hε⟩ := h2
  have hg : ∃ ω : List Nat → ZMod n, ∀ σ ∈ X.simplices, wv 2 n 0 [(a, coboundary γ), (b, β)] σ = coboundary ω σ := by
    cases a with
    | zero =>
      refine ⟨fun _ => 0, fun σ hσ => ?_⟩
      rw [wv_congr hn hσ (α := coboundary γ) (α' := fun _ => 0) (β := β) (β' := β) (fun f hf h => by rw [coboundary, if_pos (by omega)])
        (fun _ _ _ => rfl), wv_zero_left, cob_zero]
    | succ a =>
      refine ⟨wv 2 n 0 [(a, γ), (b, β)], fun σ hσ => ?_⟩
      rw [wv_pair_zero hn (inc_of_mem hσ), cocycle_right hn hβ hσ, mul_zero, add_zero]
  have he : ∃ ω : List Nat → ZMod n, ∀ σ ∈ X.simplices, wv 2 n 0 [(a, α'), (b, coboundary ε)] σ = coboundary ω σ := by
    cases b with
    | zero =>
      refine ⟨fun _ => 0, fun σ hσ => ?_⟩
      rw [wv_congr hn hσ (α := α') (α' := α') (β := coboundary ε) (β' := fun _ => 0) (fun _ _ _ => rfl)
        (fun f hf h => by rw [coboundary, if_pos (by omega)]), wv_zero_right, cob_zero]
    | succ b =>
      refine ⟨fun τ => (-1) ^ a * wv 2 n 0 [(a, α'), (b, ε)] τ, fun σ hσ => ?_⟩
      rw [cob_mul, wv_pair_zero hn (inc_of_mem hσ), cocycle_left hn hα hσ, zero_add, ← mul_assoc, ← mul_pow]
      simp
  obtain ⟨ω1, hω1⟩ := hg
  obtain ⟨ω2, hω2⟩ := he
  refine ⟨fun f => ω1 f + ω2 f, fun σ hσ _ => ?_⟩
  rw [cochain_cup hn hσ, cochain_cup hn hσ, cob_add, ← hω1 σ hσ, ← hω2 σ hσ,
    wv_congr hn hσ hγ (β' := β) (fun _ _ _ => rfl), wv_add_left,
    wv_congr hn hσ (α := α') (α' := α') (fun _ _ _ => rfl) hε, wv_add_right]
  ring

/-- On classes the product is commutative up to the sign `(-1)^{|α||β|}`. -/
theorem C115_commutative (hn : n ≠ 1) {α β : List Nat → ZMod n} (hα : IsCocycle X a α) (hβ : IsCocycle X b β) (m : Nat) :
    Cohomologous X m (cochain (cupValue n 0 a α b β)) (fun σ => (-1) ^ (a * b) * cochain (cupValue n 0 b β a α) σ) := by
  refine ⟨fun τ => - 1 * wv 2 n 1 [(a, α), (b, β)] τ, fun σ hσ _ => ?_⟩
  have := wv_pair_succ (d := 0) hn (inc_of_mem hσ) a b α β
  rw [cocycle_left hn hα hσ, cocycle_right hn hβ hσ] at this
  beta_reduce
  rw [cochain_cup hn hσ, cochain_cup hn hσ, cob_mul]
  linear_combination -this

/-! ### cubes -/

theorem splits_assoc (c : Cube) (F : Cube → Cube → Cube → ZMod 2) :
    ((cubeSplits c).map fun p => ((cubeSplits p.1).map fun r => F r.1 r.2 p.2).sum).sum =
      ((cubeSplits c).map fun p => ((cubeSplits p.2).map fun r => F p.1 r.1 r.2).sum).sum := by
  induction c generalizing F with
  | nil => simp [cubeSplits]
  | cons e c ih =>
    rw [cubeSplits]
    split
    · simp only [List.map_append, List.map_map, List.sum_append, Function.comp_def, cubeSplits, if_pos, if_neg, Nat.reduceEqDiff,
        if_false, List.sum_map_add]
      rw [ih fun x y z => F (2 :: x) (1 :: y) (1 :: z), ih fun x y z => F (0 :: x) (2 :: y) (1 :: z),
        ih fun x y z => F (0 :: x) (0 :: y) (2 :: z)]
      ring
    · rename_i he
      simp only [List.map_map, Function.comp_def, cubeSplits, if_neg he]
      exact ih fun x y z => F (e :: x) (e :: y) (e :: z)

theorem splits_count (c : Cube) : ∀ p ∈ cubeSplits c, p.1.count 2 + p.2.count 2 = c.count 2 := by
  induction c with
  | nil => simp [cubeSplits]
  | cons e c ih =>
    intro p hp
    rw [cubeSplits] at hp
    split at hp
    · rename_i he
      rcases List.mem_append.1 hp with h | h <;> obtain ⟨r, hr, rfl⟩ := List.mem_map.1 h <;> have := ih r hr <;> simp [he] <;> omega
    · rename_i he
      obtain ⟨r, hr, rfl⟩ := List.mem_map.1 hp
      have := ih r hr
      simp [List.count_cons, he]; omega

theorem splits_face (c : Cube) (hc : ∀ v ∈ c, v ≤ 2) : ∀ p ∈ cubeSplits c, IsFaceOf p.1 c ∧ IsFaceOf p.2 c := by
  induction c with
  | nil => intro p hp; simp [cubeSplits] at hp; subst hp; exact ⟨.nil, .nil⟩
  | cons e c ih =>
    intro p hp
    have ih := ih fun v hv => hc v (by simp [hv])
    have he2 := hc e (by simp)
    rw [cubeSplits] at hp
    split at hp
    · rename_i he
      rcases List.mem_append.1 hp with h | h <;> obtain ⟨r, hr, rfl⟩ := List.mem_map.1 h <;> obtain ⟨h1, h2⟩ := ih r hr
      · exact ⟨.cons ⟨by omega, Or.inl he⟩ h1, .cons ⟨by omega, Or.inl he⟩ h2⟩
      · exact ⟨.cons ⟨by omega, Or.inl he⟩ h1, .cons ⟨by omega, Or.inl he⟩ h2⟩
    · obtain ⟨r, hr, rfl⟩ := List.mem_map.1 hp
      obtain ⟨h1, h2⟩ := ih r hr
      exact ⟨.cons ⟨he2, Or.inr rfl⟩ h1, .cons ⟨he2, Or.inr rfl⟩ h2⟩

/-- Associativity on cubes. -/
theorem C115_cubical_associative (cv : Convention) {N : Nat} {X : CubeComplex N} {e : Cube} (he : e ∈ X.cubes)
    (α β γ : Cube → ZMod 2) :
    ∃ v, cubeCupValue cv 0 (a + b) (cochain (cubeCupValue cv 0 a α b β)) c γ e = .ok v ∧
      cubeCupValue cv 0 a α (b + c) (cochain (cubeCupValue cv 0 b β c γ)) e = .ok v := by
  set F : Cube → Cube → Cube → ZMod 2 := fun x y z =>
    if x.count 2 = a ∧ y.count 2 = b ∧ z.count 2 = c then α x * β y * γ z else 0 with hF
  refine ⟨_, C111_cup cv he _ _ _ _, ?_⟩
  rw [C111_cup cv he]
  congr 1
  trans ((cubeSplits e).map fun p => ((cubeSplits p.2).map fun r => F p.1 r.1 r.2).sum).sum
  · refine congrArg List.sum (List.map_congr_left fun p hp => ?_)
    have h2 := X.faces e he _ (splits_face e (cube_le he) p hp).2
    rw [cochain, C111_cup cv h2]
    simp only [hF]
    split
    · rename_i h
      rw [← List.sum_map_mul_left]
      refine congrArg List.sum (List.map_congr_left fun r hr => ?_)
      by_cases hr2 : r.1.count 2 = b ∧ r.2.count 2 = c
      · rw [if_pos hr2, if_pos ⟨h.1, hr2⟩, mul_assoc]
      · rw [if_neg hr2, if_neg fun h' => hr2 h'.2, mul_zero]
    · rename_i h
      refine (List.sum_eq_zero fun x hx => ?_).symm
      obtain ⟨r, hr, rfl⟩ := List.mem_map.1 hx
      have := splits_count p.2 r hr
      exact if_neg fun h' => h ⟨h'.1, by omega⟩
  · rw [← splits_assoc]
    refine (congrArg List.sum (List.map_congr_left fun p hp => ?_)).symm
    have h2 := X.faces e he _ (splits_face e (cube_le he) p hp).1
    rw [cochain, C111_cup cv h2]
    simp only [hF]
    split
    · rename_i h
      rw [← List.sum_map_mul_right]
      refine congrArg List.sum (List.map_congr_left fun r hr => ?_)
      by_cases hr2 : r.1.count 2 = a ∧ r.2.count 2 = b
      · rw [if_pos hr2, if_pos ⟨hr2.1, hr2.2, h.2⟩]
      · rw [if_neg hr2, if_neg fun h' => hr2 ⟨h'.1, h'.2.1⟩, zero_mul]
    · rename_i h
      refine (List.sum_eq_zero fun x hx => ?_).symm
      obtain ⟨r, hr, rfl⟩ := List.mem_map.1 hx
      have := splits_count p.1 r hr
      exact if_neg fun h' => h ⟨by omega, h'.2.2⟩

/-- The unit on cubes. -/
theorem C115_cubical_unit (cv : Convention) {N : Nat} {X : CubeComplex N} {e : Cube} (he : e ∈ X.cubes) (α : Cube → ZMod 2)
    (hd : e.count 2 = a) :
    cubeCupValue cv 0 0 (fun _ => 1) a α e = .ok (α e) ∧ cubeCupValue cv 0 a α 0 (fun _ => 1) e = .ok (α e) := by
  have key : ∀ e : Cube, ∀ G : Cube → ZMod 2,
      ((cubeSplits e).map fun p => if p.1.count 2 = 0 then G p.2 else 0).sum = G e ∧
      ((cubeSplits e).map fun p => if p.2.count 2 = 0 then G p.1 else 0).sum = G e := by
    intro e
    induction e with
    | nil => intro G; simp [cubeSplits]
    | cons x e ih =>
      intro G
      rw [cubeSplits]
      split
      · rename_i hx
        subst hx
        simp only [List.map_append, List.sum_append, List.map_map, Function.comp_def]
        simp [List.count_cons, ih fun y => G (2 :: y)]
      · rename_i hx
        simp only [List.map_map, Function.comp_def]
        simp [List.count_cons, hx, ih fun y => G (x :: y)]
  rw [C111_cup cv he, C111_cup cv he]
  constructor <;> congr 1
  · rw [← (key e α).1]
    refine congrArg List.sum (List.map_congr_left fun p hp => ?_)
    have := splits_count e p hp
    by_cases h : p.1.count 2 = 0
    · rw [if_pos ⟨h, by omega⟩, if_pos h, one_mul]
    · rw [if_neg fun h' => h h'.1, if_neg h]
  · rw [← (key e α).2]
    refine congrArg List.sum (List.map_congr_left fun p hp => ?_)
    have := splits_count e p hp
    by_cases h : p.2.count 2 = 0
    · rw [if_pos ⟨by omega, h⟩, if_pos h, mul_one]
    · rw [if_neg fun h' => h h'.2, if_neg h]

/-! ### cases that meet the hypotheses -/

example : cupValue 0 0 2 (cochain (cupValue 0 0 1 (fun f => f.sum) 1 (fun f => f.head!))) 1 (fun f => f.length) [0, 2, 3, 5] =
    .ok (2 * 2 * 2) := by decide +kernel

example : [0, 2, 3] ∈ (exComplex 5).simplices := ⟨by decide, by decide, by decide⟩

example : cubeCupValue .mcClureSmith 0 1 (fun f => f.headD 0) 1 (fun f => f.length) [2, 1, 2] = .ok 0 := by decide +kernel

end Comch.Props
