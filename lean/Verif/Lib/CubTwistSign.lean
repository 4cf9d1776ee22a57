import Verif.Lib.CubTwist

/-! # The signs of the cubical action -/

set_option linter.unusedSectionVars false

namespace Comch.CubTwist
open Finsupp (single)
open Comch.Join Serre SurjComp CubCall

variable {R : Type} [CommRing R]

/-- Labels and dimensions. -/
def Wd (W : List (Nat × Cube)) : List (Nat × Int) := W.map fun p => (p.1, cdim p.2)

theorem Wd_fst (W : List (Nat × Cube)) : (Wd W).map Prod.fst = W.map Prod.fst := by
  simp [Wd, Function.comp_def]

theorem Wd_cons (p : Nat × Cube) (W : List (Nat × Cube)) : Wd (p :: W) = (p.1, cdim p.2) :: Wd W := rfl

/-- How many values in `x + 1, …, r` are missing in `t`. -/
def miss (r : Nat) (t : List Nat) (x : Nat) : Nat := ((List.range' (x + 1) (r - x)).filter fun v => v ∉ t).length

theorem miss_cons (r y : Nat) (t : List Nat) (x : Nat) :
    miss r t x = miss r (y :: t) x + if x < y ∧ y ≤ r ∧ y ∉ t then 1 else 0 := by
  unfold miss
  have h : ∀ l : List Nat, l.Nodup → (l.filter fun v => v ∉ t).length =
      (l.filter fun v => v ∉ y :: t).length + if y ∈ l ∧ y ∉ t then 1 else 0 := by
    intro l
    induction l with
    | nil => simp
    | cons v l ih =>
      intro hn
      rw [List.nodup_cons] at hn
      have ih := ih hn.2
      rw [List.filter_cons, List.filter_cons]
      by_cases hv : v = y
      · subst hv
        have h1 : ¬ (v ∈ l ∧ v ∉ t) := fun h => hn.1 h.1
        rw [if_neg h1] at ih
        by_cases ht : v ∈ t
        · simp [ht] at ih ⊢
          exact ih
        · simp [ht] at ih ⊢
          omega
      · have e1 : (y ∈ v :: l ∧ y ∉ t) ↔ (y ∈ l ∧ y ∉ t) := by
          simp [Ne.symm hv]
        simp only [e1]
        by_cases ht : v ∈ t
        · simp [ht, hv] at ih ⊢
          exact ih
        · simp [ht, hv] at ih ⊢
          omega
  rw [h _ List.nodup_range']
  congr 1
  have : (y ∈ List.range' (x + 1) (r - x) ∧ y ∉ t) ↔ (x < y ∧ y ≤ r ∧ y ∉ t) := by
    rw [List.mem_range'_1]
    constructor
    · rintro ⟨h, h'⟩; exact ⟨by omega, by omega, h'⟩
    · rintro ⟨h, h', h''⟩; exact ⟨by omega, h''⟩
  simp only [this]

/-- Degrees of the part of `t` with values at least `x`. -/
theorem sdeg_miss (r : Nat) (t : List Nat) (x : Nat) (ht : ∀ y ∈ t, y ≤ r) :
    sdeg (t.filter (x ≤ ·)) + (if x ∈ t then 1 else 0) + (r - x) = (t.filter (x ≤ ·)).length + miss r t x := by
  induction t with
  | nil =>
    have : miss r [] x = r - x := by simp [miss]
    simp [sdeg, this]
  | cons y t ih =>
    have ih := ih fun z hz => ht z (by simp [hz])
    have hy := ht y (by simp)
    have hm := miss_cons r y t x
    rw [List.filter_cons]
    by_cases h : x ≤ y
    · have h4 : decide (x ≤ y) = true := by simpa using h
      have hmem : y ∈ t.filter (x ≤ ·) ↔ y ∈ t := by simp [h]
      rw [if_pos h4, sdeg, List.length_cons]
      simp only [hmem]
      by_cases hxy : x = y
      · subst hxy
        rw [if_neg (fun h => Nat.lt_irrefl _ h.1)] at hm
        by_cases hx : x ∈ t
        · simp only [hx, if_true, List.mem_cons, or_true] at ih ⊢
          omega
        · simp only [hx, if_false, List.mem_cons, or_false, if_true] at ih ⊢
          omega
      · have hx' : x ∈ y :: t ↔ x ∈ t := by simp [hxy]
        simp only [hx']
        by_cases hyt : y ∈ t
        · rw [if_neg (fun h => h.2.2 hyt)] at hm
          rw [if_pos hyt]
          omega
        · rw [if_pos ⟨by omega, hy, hyt⟩] at hm
          rw [if_neg hyt]
          omega
    · have h4 : ¬ decide (x ≤ y) = true := by simpa using h
      rw [if_neg h4]
      have hx' : x ∈ y :: t ↔ x ∈ t := by
        have : x ≠ y := by omega
        simp [this]
      rw [if_neg (fun h' => h (by omega))] at hm
      simp only [hx']
      omega

/-- The correction for missing values. -/
def misW (r : Nat) (t : List Nat) (W : List (Nat × Cube)) : Int := (W.map fun p => cdim p.2 * (miss r t p.1 : Int)).sum

theorem misW_cons (r y : Nat) (hy : y ≤ r) (t : List Nat) (W : List (Nat × Cube)) :
    misW r t W = misW r (y :: t) W + if y ∉ t then lowSum y (Wd W) else 0 := by
  induction W with
  | nil => simp [misW, Wd, lowSum]
  | cons p W ih =>
    have hm := miss_cons r y t p.1
    have e1 : ∀ s, misW r s (p :: W) = cdim p.2 * (miss r s p.1 : Int) + misW r s W := fun s => by simp [misW]
    rw [e1, e1, ih, hm, Wd_cons, lowSum_cons]
    by_cases h : y ∈ t
    · have : ¬ (p.1 < y ∧ y ≤ r ∧ y ∉ t) := fun h' => h'.2.2 h
      rw [if_neg this, if_neg (by simpa using h), if_neg (by simpa using h)]
      push_cast; ring
    · rw [if_pos h, if_pos h]
      by_cases h2 : p.1 < y
      · rw [if_pos ⟨h2, hy, h⟩, if_pos h2]
        push_cast; ring
      · rw [if_neg (fun h' => h2 h'.1), if_neg h2]
        push_cast; ring

/-- `Σ_j (entries after j) * w_j`. -/
def tail : CKey → Int
  | [] => 0
  | a :: L => L.length * cdim a + tail L

/-- The part of the sign which depends on the surjection only. -/
def Fk (r : Nat) : List Nat → Int
  | [] => 0
  | x :: t => ((t.filter (· < x)).length : Int) + (r - x) + Fk r t

theorem E2_modify (a : Cube) (G : List CKey) (i : Nat) (hi : i < G.length) :
    E2 (G.modify i (a :: ·)) = E2 G + (G.length - 1 - i) * del a := by
  induction G generalizing i with
  | nil => simp at hi
  | cons g G ih =>
    cases i with
    | zero =>
      rw [List.modify_zero_cons, E2, E2, Dl_cons, List.length_cons]
      push_cast; ring
    | succ i =>
      rw [List.modify_succ_cons, E2, E2, ih i (by simpa using hi), List.length_modify, List.length_cons]
      push_cast; ring

theorem lowW_eq (x : Nat) (W : List (Nat × Cube)) :
    lowW x W = lowSum x (Wd W) + (((W.map Prod.fst).filter (· < x)).length : Int) := by
  induction W with
  | nil => simp [lowW, Wd, lowSum]
  | cons p W ih =>
    rw [lowW_cons, ih, Wd_cons, lowSum_cons, List.map_cons, List.filter_cons]
    by_cases h : p.1 < x
    · simp only [h, if_true, decide_true, List.length_cons, del]
      push_cast; ring
    · simp [h]

theorem filter_length (x : Nat) (t : List Nat) :
    (t.filter (· < x)).length + (t.filter (x ≤ ·)).length = t.length := by
  induction t with
  | nil => rfl
  | cons y t ih =>
    rw [List.filter_cons, List.filter_cons]
    by_cases h : y < x
    · have : ¬ x ≤ y := by omega
      simp [h, this]; omega
    · have : x ≤ y := by omega
      simp [h, this]; omega

/-- All signs together. -/
theorem total_sign (r : Nat) (W : List (Nat × Cube)) (hW : ∀ p ∈ W, 1 ≤ p.1 ∧ p.1 ≤ r) :
    ((cexp (Wd W) + E2 (gam r W) + kosW W : Int) : ZMod 2) =
      ((misW r (W.map Prod.fst) W + tail (W.map Prod.snd) + Fk r (W.map Prod.fst) : Int) : ZMod 2) := by
  induction W with
  | nil =>
    have : ∀ l : List Nat, E2 (l.map fun _ => ([] : CKey)) = 0 := by
      intro l
      induction l with
      | nil => rfl
      | cons x l ih => rw [List.map_cons, E2, ih]; simp
    have h2 : E2 (gam r []) = 0 := this _
    rw [h2]
    simp [cexp, kosW, misW, tail, Fk, Wd]
  | cons p W ih =>
    have hp := hW p (by simp)
    have hW' : ∀ p ∈ W, 1 ≤ p.1 ∧ p.1 ≤ r := fun q hq => hW q (by simp [hq])
    have ih := ih hW'
    obtain ⟨x, a⟩ := p
    have hp : 1 ≤ x ∧ x ≤ r := hp
    have hE : E2 (gam r ((x, a) :: W)) = E2 (gam r W) + ((r : Int) - x) * del a := by
      rw [gam_cons hp.1, E2_modify _ _ _ (by rw [length_gam]; omega), length_gam]
      congr 2
      omega
    have hM := misW_cons r x hp.2 (W.map Prod.fst) W
    have hS := sdeg_miss r (W.map Prod.fst) x (fun y hy => by
      obtain ⟨q, hq, rfl⟩ := List.mem_map.1 hy
      exact (hW' q hq).2)
    have hF := filter_length x (W.map Prod.fst)
    have hmm := miss_cons r x (W.map Prod.fst) x
    rw [if_neg (fun h => Nat.lt_irrefl _ h.1)] at hmm
    have hM2 : misW r (x :: W.map Prod.fst) ((x, a) :: W) = cdim a * (miss r (W.map Prod.fst) x : Int) +
        misW r (x :: W.map Prod.fst) W := by
      rw [hmm]; simp [misW]
    rw [Wd_cons, cexp, kosW, hE, Wd_fst, lowW_eq, List.map_cons, List.map_cons, hM2, tail, Fk, List.length_map, del]
    rw [List.length_map] at hF
    generalize ((W.map Prod.fst).filter (x ≤ ·)) = Fg at *
    generalize ((W.map Prod.fst).filter (· < x)) = Fl at *
    have hr : ((r - x : Nat) : Int) = (r : Int) - x := by omega
    generalize cdim a = w at *
    clear hM2 hE
    have hS' := congrArg (fun z : Nat => ((z : Int) : ZMod 2)) hS
    have hF' := congrArg (fun z : Nat => ((z : Int) : ZMod 2)) hF
    have hM' := congrArg (fun z : Int => (z : ZMod 2)) hM
    have hr' := congrArg (fun z : Int => (z : ZMod 2)) hr
    by_cases hx : x ∈ W.map Prod.fst
    · simp only [hx, if_true, not_true_eq_false, if_false] at *
      push_cast at *
      rw [hr'] at hS'
      rw [hM'] at ih
      linear_combination ih + (w : ZMod 2) * hS' + (w : ZMod 2) * hF' + (((w : ZMod 2) + 1) * lowSum x (Wd W)) * h22
    · simp only [hx, if_true, not_false_eq_true, if_false] at *
      push_cast at *
      rw [hr'] at hS'
      rw [hM'] at ih
      linear_combination ih + (w : ZMod 2) * hS' + (w : ZMod 2) * hF' + (((w : ZMod 2) + 1) * lowSum x (Wd W)) * h22

end Comch.CubTwist
