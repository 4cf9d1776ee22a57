import Verif.Lib.TableRed
import Verif.Lib.SurjComplexity
import Verif.Spec.Operads

/-! # Table reduction and complexity -/

namespace Comch.TR
open Spec Elem

variable {R : Type} [CommRing R]

/-- The terms of the table reduction. -/
inductive TrT : List (List Nat) → List Nat → Prop
  | nil : TrT [[]] []
  | next (c w W m) : TrT W m → TrT ((c :: w) :: W) (c :: m)
  | cross (c w W m) : TrT (w :: W.map (rm c)) m → TrT ((c :: w) :: W) (c :: m)

theorem tr_trT (W : List (List Nat)) : tr (R := R) W ∈ Finsupp.supported R R {m | TrT W m} := by
  refine tr_induction (P := fun W => tr (R := R) W ∈ Finsupp.supported R R {m | TrT W m}) (by simp) ?_ ?_ W
  · intro W
    rw [tr_nil_cons]
    split
    · rename_i h
      subst h
      exact Finsupp.single_mem_supported _ _ TrT.nil
    · exact Submodule.zero_mem _
  · intro c w W h1 h2
    rw [tr_cons]
    refine Submodule.add_mem _ ?_ ?_
    · exact mapK_supported _ (T := {m | TrT ((c :: w) :: W) m}) (fun m hm => TrT.next _ _ _ _ hm) h1
    · exact mapK_supported _ (T := {m | TrT ((c :: w) :: W) m}) (fun m hm => TrT.cross _ _ _ _ hm) h2

theorem TrT.vals {W : List (List Nat)} {m : List Nat} (h : TrT W m) {A : Finset Nat} (hA : Al A W) :
    ∀ v ∈ m, v ∈ A := by
  induction h generalizing A with
  | nil => simp
  | next c w W m h ih =>
    intro v hv
    rcases List.mem_cons.1 hv with rfl | hv
    · exact hA.mem.2 (by simp)
    · exact ih hA.tail v hv
  | cross c w W m h ih =>
    intro v hv
    rcases List.mem_cons.1 hv with rfl | hv
    · exact hA.mem.2 (by simp)
    · exact Finset.mem_of_mem_erase (ih hA.step v hv)

/-- The letters `i` and `j` of a word. -/
def two (i j : Nat) (w : List Nat) : List Nat := w.filter fun x => x = i ∨ x = j

theorem chg_const {l : List Nat} {b : Nat} (h : ∀ v ∈ l, v = b) : chg l = 0 ∧ ∀ c, chg (c :: l) ≤ 1 := by
  induction l with
  | nil => simp [chg]
  | cons a l ih =>
    obtain ⟨h1, h2⟩ := ih fun v hv => h v (List.mem_cons_of_mem _ hv)
    have ha := h a (by simp)
    have e : chg (a :: l) = 0 := by
      cases l with
      | nil => rfl
      | cons d l =>
        have hd := h d (by simp)
        simp only [chg, ha, hd, if_true, Nat.zero_add] at *
        exact h1
    refine ⟨e, fun c => ?_⟩
    simp only [chg, e]
    split <;> omega

theorem orderChanges_cons (i j : Nat) (w w' : List Nat) (W : List (List Nat)) :
    orderChanges (w :: w' :: W) i j = (if two i j w = two i j w' then 0 else 1) + orderChanges (w' :: W) i j := by
  unfold orderChanges
  have : (w :: w' :: W).length - 1 = ((w' :: W).length - 1) + 1 := by simp
  rw [this, List.range_succ_eq_map, List.filter_cons, List.filter_map]
  by_cases e : two i j w = two i j w'
  · rw [if_neg (by rw [decide_eq_true_eq]; exact fun h => h e), if_pos e, List.length_map, Nat.zero_add]; rfl
  · rw [if_pos (by rw [decide_eq_true_eq]; exact e), if_neg e, List.length_cons, List.length_map, Nat.add_comm]; rfl

theorem two_rm {i j c : Nat} (hi : c ≠ i) (hj : c ≠ j) (w : List Nat) : two i j (rm c w) = two i j w := by
  unfold two rm
  rw [List.filter_filter]
  apply List.filter_congr
  intro x _
  by_cases h : x = i ∨ x = j
  · have : x ≠ c := by rcases h with rfl | rfl <;> exact fun e => by simp_all
    simp [h, this]
  · simp [h]

theorem orderChanges_congr {i j : Nat} {W W' : List (List Nat)} (h : W.map (two i j) = W'.map (two i j)) :
    orderChanges W i j = orderChanges W' i j := by
  induction W generalizing W' with
  | nil =>
    cases W' with
    | nil => rfl
    | cons _ _ => simp at h
  | cons w W ih =>
    cases W' with
    | nil => simp at h
    | cons w' W' =>
      simp only [List.map_cons, List.cons.injEq] at h
      cases W with
      | nil =>
        cases W' with
        | nil => rfl
        | cons _ _ => simp at h
      | cons v V =>
        cases W' with
        | nil => simp at h
        | cons v' V' =>
          have e := ih h.2
          simp only [List.map_cons, List.cons.injEq] at h
          rw [orderChanges_cons, orderChanges_cons, e, h.1, h.2.1]

/-- A word containing both letters orders them in one of the two ways. -/
theorem two_cases {A : Finset Nat} {w : List Nat} {W : List (List Nat)} (h : Al A (w :: W)) {i j : Nat}
    (hij : i ≠ j) (hi : i ∈ A) (hj : j ∈ A) : two i j w = [i, j] ∨ two i j w = [j, i] := by
  have hn : (two i j w).Nodup := (h w (by simp)).1.filter _
  have hm : ∀ v, v ∈ two i j w ↔ v = i ∨ v = j := by
    intro v
    simp only [two, List.mem_filter, decide_eq_true_eq]
    constructor
    · exact fun h => h.2
    · rintro (rfl | rfl)
      · exact ⟨h.mem.1 hi, .inl rfl⟩
      · exact ⟨h.mem.1 hj, .inr rfl⟩
  generalize two i j w = l at *
  match l with
  | [] => exact absurd ((hm i).2 (.inl rfl)) (by simp)
  | [a] =>
    have h1 := (hm i).2 (.inl rfl)
    have h2 := (hm j).2 (.inr rfl)
    simp only [List.mem_singleton] at h1 h2
    omega
  | [a, b] =>
    have h1 := (hm a).1 (by simp)
    have h2 := (hm b).1 (by simp)
    have : a ≠ b := by simpa using hn
    rcases h1 with rfl | rfl <;> rcases h2 with rfl | rfl <;> simp_all
  | a :: b :: c :: t =>
    have h1 := (hm a).1 (by simp)
    have h2 := (hm b).1 (by simp)
    have h3 := (hm c).1 (by simp)
    simp only [List.nodup_cons, List.mem_cons, not_or] at hn
    omega

theorem two_head {c i j : Nat} (h : c = i ∨ c = j) (w : List Nat) : two i j (c :: w) = c :: two i j w := by
  simp [two, h]

theorem two_skip {c i j : Nat} (h : ¬ (c = i ∨ c = j)) (w : List Nat) : two i j (c :: w) = two i j w := by
  simp [two, h]

/-- One if a word does not begin with the given letter. -/
def ms (l : List Nat) (d : Nat) : Nat := if l.head? = some d then 0 else 1

theorem ms_cons (c : Nat) (l : List Nat) (d : Nat) : ms (c :: l) d = if d = c then 0 else 1 := by
  simp [ms, eq_comm]

theorem ms_le (l : List Nat) (d : Nat) : ms l d ≤ 1 := by unfold ms; split <;> omega

/-- Key bound. -/
theorem TrT.chg_le {W : List (List Nat)} {m : List Nat} (h : TrT W m) {A : Finset Nat} (hA : Al A W) {i j : Nat}
    (hij : i ≠ j) (hi : i ∈ A) (hj : j ∈ A) (d : Nat) :
    chg (d :: two i j m) ≤ orderChanges W i j + 1 + ms (two i j (W.headD [])) d := by
  induction h generalizing A d with
  | nil =>
    have := hA.mem.1 hi
    simp at this
  | next c w W m h ih =>
    cases W with
    | nil => cases h
    | cons w' W =>
      rw [orderChanges_cons]
      have ihd := fun d => ih hA.tail hi hj d
      simp only [List.headD_cons] at ihd ⊢
      by_cases hc : c = i ∨ c = j
      · rw [two_head hc m, two_head hc w]
        have h1 := ihd c
        have hdc : chg (d :: c :: two i j m) = (if d = c then 0 else 1) + chg (c :: two i j m) := rfl
        rw [hdc]
        rw [ms_cons]
        have e2 : ms (two i j w') c ≤
            (if c :: two i j w = two i j w' then 0 else 1) := by
          have h3 := two_cases hA hij hi hj
          have h4 := two_cases hA.tail hij hi hj
          rw [two_head hc w] at h3
          rcases h3 with h3 | h3 <;> rcases h4 with h4 | h4 <;> rw [h3, h4, ms_cons] <;> simp only [List.cons.injEq] at h3 <;>
            simp [h3.1, hij, Ne.symm hij]
        omega
      · rw [two_skip hc m, two_skip hc w]
        have h1 := ihd d
        by_cases e : two i j w = two i j w'
        · rw [e]; simpa using h1
        · rw [if_neg e]
          have := ms_le (two i j w') d
          omega
  | cross c w W m h ih =>
    by_cases hc : c = i ∨ c = j
    · rw [two_head hc m]
      have hdc : chg (d :: c :: two i j m) = (if d = c then 0 else 1) + chg (c :: two i j m) := rfl
      rw [hdc]
      have hv := h.vals hA.step
      have : chg (c :: two i j m) ≤ 1 := by
        obtain ⟨b, hb⟩ : ∃ b, ∀ v, v = i ∨ v = j → v ≠ c → v = b := by
          rcases hc with rfl | rfl
          · exact ⟨j, by omega⟩
          · exact ⟨i, by omega⟩
        refine (chg_const (b := b) fun v hv' => ?_).2 c
        simp only [two, List.mem_filter, decide_eq_true_eq] at hv'
        exact hb v hv'.2 (Finset.ne_of_mem_erase (hv v hv'.1))
      rw [List.headD_cons, two_head hc w]
      rw [ms_cons]
      omega
    · rw [two_skip hc m]
      rw [not_or] at hc
      have h1 := ih hA.step (Finset.mem_erase.2 ⟨Ne.symm hc.1, hi⟩) (Finset.mem_erase.2 ⟨Ne.symm hc.2, hj⟩) d
      have e : orderChanges (w :: W.map (rm c)) i j = orderChanges ((c :: w) :: W) i j := by
        apply orderChanges_congr
        simp only [List.map_cons, List.map_map, two_skip (not_or.2 hc)]
        congr 1
        apply List.map_congr_left
        intro v _
        exact two_rm hc.1 hc.2 v
      rw [e] at h1
      simpa [two_skip (not_or.2 hc)] using h1

/-- The number of changes of two letters in a table reduction is at most the number of changes of their
order in the table, plus one. -/
theorem TrT.alternations_le {W : List (List Nat)} {m : List Nat} (h : TrT W m) {A : Finset Nat} (hA : Al A W)
    {i j : Nat} (hij : i ≠ j) (hi : i ∈ A) (hj : j ∈ A) : alternations m i j ≤ orderChanges W i j + 1 := by
  rw [alternations_eq]
  have hW : W ≠ [] := by rintro rfl; cases h
  obtain ⟨w, W, rfl⟩ := List.exists_cons_of_ne_nil hW
  rcases two_cases hA hij hi hj with e | e
  · have h1 := h.chg_le hA hij hi hj i
    simp only [List.headD_cons, e, ms_cons, if_true, Nat.add_zero] at h1
    exact ((chg_sublist (List.sublist_cons_self i _)).1).trans h1
  · have h1 := h.chg_le hA hij hi hj j
    simp only [List.headD_cons, e, ms_cons, if_true, Nat.add_zero] at h1
    exact ((chg_sublist (List.sublist_cons_self j _)).1).trans h1

end Comch.TR
