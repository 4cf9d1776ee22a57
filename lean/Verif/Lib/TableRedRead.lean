import Verif.Lib.TableRedCode
import Verif.Spec.Operads

/-! # The words read off a table -/

set_option linter.unusedSectionVars false

namespace Comch.TR
open Spec
open Finsupp (single)

variable {R : Type} [CommRing R]

/-- The segments `S` are read off the rows `W`. -/
def Tab (W S : List (List Nat)) : Prop :=
  S.length = W.length ∧ ∀ i < W.length,
    S.getD i [] ≠ [] ∧ S.getD i [] <+: tableRow W S i ∧
      (i + 1 = W.length → S.getD i [] = tableRow W S i)

theorem tableRow_succ (w : List Nat) (W : List (List Nat)) (s : List Nat) (S : List (List Nat)) (i : Nat) :
    tableRow (w :: W) (s :: S) (i + 1) = tableRow (W.map (rmL s.dropLast)) S i := by
  unfold tableRow
  have : (W.map (rmL s.dropLast)).getD i [] = rmL s.dropLast (W.getD i []) := by
    simp only [List.getD_eq_getElem?_getD, List.getElem?_map]
    cases W[i]? <;> simp [rmL]
  rw [this]
  simp only [List.getD_cons_succ, List.take_succ_cons, List.map_cons, List.flatten_cons, rmL, List.filter_filter]
  congr 1
  funext v
  rw [Bool.eq_iff_iff]
  simp only [List.mem_append, decide_eq_true_eq, Bool.and_eq_true, Bool.not_eq_true', List.contains_eq_mem,
    decide_eq_false_iff_not, not_or]
  exact and_comm

theorem tab_cons (w : List Nat) (W : List (List Nat)) (s : List Nat) (S : List (List Nat)) :
    Tab (w :: W) (s :: S) ↔ s ≠ [] ∧ s <+: w ∧ (W = [] → s = w) ∧ Tab (W.map (rmL s.dropLast)) S := by
  have h0 : tableRow (w :: W) (s :: S) 0 = w := by simp [tableRow]
  constructor
  · rintro ⟨h1, h2⟩
    have z := h2 0 (by simp)
    rw [h0] at z
    simp only [List.getD_cons_zero, List.length_cons] at z
    refine ⟨z.1, z.2.1, fun h => z.2.2 (by simp [h]), by simpa using h1, ?_⟩
    intro i hi
    rw [List.length_map] at hi
    have y := h2 (i + 1) (by simpa using hi)
    rw [tableRow_succ] at y
    simpa using y
  · rintro ⟨h1, h2, h3, h4, h5⟩
    refine ⟨by simpa using h4, ?_⟩
    intro i hi
    cases i with
    | zero =>
      rw [h0]
      simp only [List.getD_cons_zero, List.length_cons]
      refine ⟨h1, h2, fun h => h3 ?_⟩
      rw [← List.length_eq_zero_iff]; omega
    | succ i =>
      rw [tableRow_succ]
      have := h5 i (by simpa using hi)
      simpa using this

theorem tab_nil_right (W : List (List Nat)) : Tab W [] ↔ W = [] := by
  constructor
  · rintro ⟨h, _⟩; exact List.length_eq_zero_iff.1 h.symm
  · rintro rfl; exact ⟨rfl, by simp⟩

theorem tab_nil_left (S : List (List Nat)) : Tab [] S ↔ S = [] := by
  constructor
  · rintro ⟨h, _⟩; exact List.length_eq_zero_iff.1 h
  · rintro rfl; exact ⟨rfl, by simp⟩

/-- The letters read are the letters of the rows. -/
theorem tab_letters (S : List (List Nat)) : ∀ (W : List (List Nat)) (A : Finset Nat), Al A W → W ≠ [] → Tab W S →
    ∀ v, v ∈ S.flatten ↔ v ∈ A := by
  induction S with
  | nil => intro W A _ h h2; exact absurd ((tab_nil_right W).1 h2) h
  | cons s S ih =>
    intro W A hA hne h v
    obtain ⟨w, W, rfl⟩ := List.exists_cons_of_ne_nil hne
    rw [tab_cons] at h
    obtain ⟨h1, h2, h3, h4⟩ := h
    rw [List.flatten_cons, List.mem_append]
    by_cases hW : W = []
    · subst hW
      rw [h3 rfl]
      rw [List.map_nil, tab_nil_left] at h4
      subst h4
      simp [hA.mem]
    · rw [ih _ _ (hA.tail.rmL s.dropLast) (by simpa using hW) h4]
      rw [Finset.mem_sdiff, List.mem_toFinset, hA.mem]
      constructor
      · rintro (h | ⟨h, _⟩)
        · exact h2.subset h
        · exact h
      · intro h
        by_cases hv : v ∈ s.dropLast
        · exact Or.inl (List.dropLast_subset _ hv)
        · exact Or.inr ⟨h, hv⟩

/-- The rows `W` can be read as `m`. -/
def Rd (W : List (List Nat)) (m : List Nat) : Prop := ∃ S, S.flatten = m ∧ Tab W S

theorem rd_letters {A : Finset Nat} {W : List (List Nat)} {m : List Nat} (hA : Al A W) (hne : W ≠ []) (h : Rd W m)
    (v : Nat) : v ∈ m ↔ v ∈ A := by
  obtain ⟨S, rfl, h⟩ := h
  exact tab_letters S W A hA hne h v

theorem rd_nil_cons (W : List (List Nat)) (m : List Nat) : ¬ Rd ([] :: W) m := by
  rintro ⟨S, rfl, h⟩
  cases S with
  | nil => rw [tab_nil_right] at h; simp at h
  | cons s S =>
    rw [tab_cons] at h
    exact h.1 (List.prefix_nil.1 h.2.1)

theorem rd_nil_right {W : List (List Nat)} (hW : W ≠ []) : ¬ Rd W [] := by
  rintro ⟨S, h0, h⟩
  obtain ⟨w, W, rfl⟩ := List.exists_cons_of_ne_nil hW
  cases S with
  | nil => rw [tab_nil_right] at h; simp at h
  | cons s S =>
    rw [tab_cons] at h
    simp at h0
    exact h.1 h0.1

theorem rd_single (w m : List Nat) : Rd [w] m ↔ m = w ∧ w ≠ [] := by
  constructor
  · rintro ⟨S, rfl, h⟩
    cases S with
    | nil => rw [tab_nil_right] at h; simp at h
    | cons s S =>
      rw [tab_cons, List.map_nil, tab_nil_left] at h
      obtain ⟨h1, h2, h3, rfl⟩ := h
      have := h3 rfl
      subst this
      exact ⟨by simp, h1⟩
  · rintro ⟨rfl, h⟩
    refine ⟨[m], by simp, ?_⟩
    rw [tab_cons, List.map_nil, tab_nil_left]
    exact ⟨h, List.prefix_rfl, fun _ => rfl, rfl⟩

theorem rmL_cons_eq (c : Nat) (l : List Nat) (W : List (List Nat)) :
    W.map (rmL (c :: l)) = (W.map (rm c)).map (rmL l) := by
  rw [List.map_map]
  apply List.map_congr_left
  intro w _
  simp only [Function.comp, rmL, rm, List.filter_filter]
  congr 1
  funext v
  simp [Bool.and_comm]

theorem rmL_nil' (W : List (List Nat)) : W.map (rmL []) = W := by
  rw [List.map_congr_left (g := id) (fun w _ => by simp [rmL])]; simp

theorem rd_cons (c : Nat) (w : List Nat) {W : List (List Nat)} (hW : W ≠ []) (m : List Nat) :
    Rd ((c :: w) :: W) m ↔ ∃ m', m = c :: m' ∧ (Rd W m' ∨ Rd (w :: W.map (rm c)) m') := by
  constructor
  · rintro ⟨S, rfl, h⟩
    cases S with
    | nil => rw [tab_nil_right] at h; simp at h
    | cons s S =>
      rw [tab_cons] at h
      obtain ⟨h1, h2, _, h4⟩ := h
      obtain ⟨a, s, rfl⟩ := List.exists_cons_of_ne_nil h1
      obtain ⟨rfl, h2'⟩ := List.cons_prefix_cons.1 h2
      refine ⟨s ++ S.flatten, by simp, ?_⟩
      cases s with
      | nil =>
        rw [List.dropLast_singleton, rmL_nil'] at h4
        exact Or.inl ⟨S, by simp, h4⟩
      | cons b s =>
        refine Or.inr ⟨(b :: s) :: S, by simp, ?_⟩
        rw [tab_cons]
        rw [List.dropLast_cons_of_ne_nil (by simp), rmL_cons_eq] at h4
        exact ⟨by simp, h2', fun h => absurd h (by simpa using hW), h4⟩
  · rintro ⟨m', rfl, ⟨S, rfl, h⟩ | ⟨S, rfl, h⟩⟩
    · refine ⟨[c] :: S, by simp, ?_⟩
      rw [tab_cons, List.dropLast_singleton, rmL_nil']
      exact ⟨by simp, by simp, fun h => absurd h hW, h⟩
    · cases S with
      | nil => rw [tab_nil_right] at h; simp at h
      | cons s S =>
        rw [tab_cons] at h
        obtain ⟨h1, h2, _, h4⟩ := h
        refine ⟨(c :: s) :: S, by simp, ?_⟩
        rw [tab_cons, List.dropLast_cons_of_ne_nil h1, rmL_cons_eq]
        exact ⟨by simp, List.cons_prefix_cons.2 ⟨rfl, h2⟩, fun h => absurd h hW, h4⟩

theorem tr_one (w : List Nat) : tr (R := R) [w] = bv R w := by
  induction w with
  | nil => simp [tr_nil_cons]
  | cons c w ih => rw [tr_cons, List.map_nil, ih]; simp [tr, bv]

theorem consV_apply_nil (c : Nat) (v : List Nat →₀ R) : consV c v [] = 0 := by
  induction v using Finsupp.induction_linear with
  | zero => simp
  | add f g hf hg => rw [map_add, Finsupp.add_apply, hf, hg, add_zero]
  | single k a => rw [consV_single, Finsupp.single_apply, if_neg (by simp)]

theorem consV_apply_cons (c b : Nat) (m : List Nat) (v : List Nat →₀ R) :
    consV c v (b :: m) = if b = c then v m else 0 := by
  induction v using Finsupp.induction_linear with
  | zero => simp
  | add f g hf hg => rw [map_add, Finsupp.add_apply, hf, hg]; split <;> simp
  | single k a =>
    rw [consV_single, Finsupp.single_apply, Finsupp.single_apply]
    by_cases h : b = c
    · subst h; simp
    · rw [if_neg h, if_neg]
      intro e; exact h (List.cons.inj e).1.symm

open Classical in
theorem tr_apply {A : Finset Nat} {W : List (List Nat)} (hA : Al A W) (hne : W ≠ []) (hc : A ≠ ∅) (m : List Nat) :
    tr (R := R) W m = if Rd W m then 1 else 0 := by
  refine tr_induction (P := fun W => ∀ A : Finset Nat, Al A W → W ≠ [] → A ≠ ∅ → ∀ m,
    tr (R := R) W m = if Rd W m then 1 else 0) (fun A _ h => absurd rfl h) ?_ ?_ W A hA hne hc m
  · intro W A hA _ hc
    exfalso; apply hc
    rw [← (hA [] (by simp)).2]; rfl
  · intro c w W ih1 ih2 A hA _ hc m
    by_cases hW : W = []
    · subst hW
      rw [tr_one, rd_single, bv, Finsupp.single_apply]
      simp [eq_comm]
    · rw [rd_cons c w hW, tr_cons, Finsupp.add_apply]
      cases m with
      | nil => rw [consV_apply_nil, consV_apply_nil, if_neg (by simp), add_zero]
      | cons b m =>
        rw [consV_apply_cons, consV_apply_cons]
        by_cases hb : b = c
        · subst hb
          rw [if_pos rfl, if_pos rfl, ih1 A hA.tail hW hc]
          have e2 : tr (R := R) (w :: W.map (rm b)) m = if Rd (w :: W.map (rm b)) m then 1 else 0 := by
            by_cases hw : w = []
            · subst hw
              rw [if_neg (rd_nil_cons _ _), tr_nil_cons, if_neg (by simpa using hW)]; rfl
            · apply ih2 _ hA.step (by simp)
              obtain ⟨a, w, rfl⟩ := List.exists_cons_of_ne_nil hw
              rw [← (hA.step (a :: w) (by simp)).2]; simp
          rw [e2]
          have hex : ¬ (Rd W m ∧ Rd (w :: W.map (rm b)) m) := by
            rintro ⟨h1, h2⟩
            have i1 := (rd_letters hA.tail hW h1 b).2 (hA.mem.2 (by simp))
            have i2 := (rd_letters hA.step (by simp) h2 b).1 i1
            simp at i2
          by_cases h1 : Rd W m
          · have h2 : ¬ Rd (w :: W.map (rm b)) m := fun h => hex ⟨h1, h⟩
            rw [if_pos h1, if_neg h2, if_pos ⟨m, rfl, Or.inl h1⟩, add_zero]
          · rw [if_neg h1, zero_add]
            apply if_congr _ rfl rfl
            constructor
            · intro h; exact ⟨m, rfl, Or.inr h⟩
            · rintro ⟨m', h, h' | h'⟩
              · cases h; exact absurd h' h1
              · cases h; exact h'
        · rw [if_neg hb, if_neg hb, add_zero, if_neg]
          rintro ⟨m', h, _⟩
          exact hb (List.cons.inj h).1

end Comch.TR
