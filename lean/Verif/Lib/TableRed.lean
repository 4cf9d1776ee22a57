import Verif.Lib.SurjBoundary
import Verif.Lib.BarrattEccles
import Mathlib.Tactic.Abel

/-! # Table reduction of a sequence of words -/

set_option linter.unusedSectionVars false

namespace Comch.TR
open Finsupp (single)

variable {R : Type} [CommRing R]

/-- Remove a letter from a word. -/
def rm (c : Nat) (w : List Nat) : List Nat := w.filter fun v => decide (v ≠ c)

theorem length_rm_le (c : Nat) (w : List Nat) : (rm c w).length ≤ w.length := List.length_filter_le _ _

theorem rm_comm (a b : Nat) (w : List Nat) : rm a (rm b w) = rm b (rm a w) := by
  unfold rm
  rw [List.filter_filter, List.filter_filter]
  congr 1
  funext v
  exact Bool.and_comm _ _

theorem mem_rm {c v : Nat} {w : List Nat} : v ∈ rm c w ↔ v ∈ w ∧ v ≠ c := by simp [rm]

theorem rm_cons_self (c : Nat) (w : List Nat) : rm c (c :: w) = rm c w := by simp [rm]

theorem rm_cons_ne {b c : Nat} (h : b ≠ c) (w : List Nat) : rm c (b :: w) = b :: rm c w := by simp [rm, h]

theorem rm_not_mem {c : Nat} {w : List Nat} (h : c ∉ w) : rm c w = w := by
  unfold rm
  rw [List.filter_eq_self]
  intro v hv
  simp only [decide_eq_true_eq]
  rintro rfl
  exact h hv

/-- Size of a table. -/
def size (W : List (List Nat)) : Nat := W.length + (W.map List.length).sum

theorem size_rm_le (c : Nat) (W : List (List Nat)) : size (W.map (rm c)) ≤ size W := by
  unfold size
  rw [List.length_map]
  apply Nat.add_le_add_left
  induction W with
  | nil => simp
  | cons w W ih =>
    simp only [List.map_cons, List.sum_cons]
    exact Nat.add_le_add (length_rm_le c w) ih

/-- Remove a letter from all words. -/
def rmW (c : Nat) (W : List (List Nat)) : List (List Nat) := W.map (rm c)

/-- The table reduction of a sequence of words, degenerate terms included: read the first word; after
each letter either go to the next word, or cross out the letter everywhere. -/
noncomputable def tr : List (List Nat) → (List Nat →₀ R)
  | [] => 0
  | [] :: W => if W = [] then bv R [] else 0
  | (c :: w) :: W => consV c (tr W + tr (w :: rmW c W))
termination_by W => size W
decreasing_by
  · simp [size]; omega
  · have := size_rm_le c W
    simp only [rmW, size, List.length_cons, List.map_cons, List.sum_cons, List.length_map] at *
    omega

@[simp] theorem tr_nil : tr (R := R) [] = 0 := by rw [tr]
theorem tr_nil_cons (W : List (List Nat)) : tr (R := R) ([] :: W) = if W = [] then bv R [] else 0 := by rw [tr]
theorem tr_cons (c : Nat) (w : List Nat) (W : List (List Nat)) :
    tr (R := R) ((c :: w) :: W) = consV c (tr W) + consV c (tr (w :: W.map (rm c))) := by
  rw [tr, map_add]; rfl

theorem tr_induction {P : List (List Nat) → Prop} (h0 : P []) (h1 : ∀ W, P ([] :: W))
    (h2 : ∀ c w W, P W → P (w :: W.map (rm c)) → P ((c :: w) :: W)) (W : List (List Nat)) : P W := by
  have : ∀ n W, size W ≤ n → P W := by
    intro n
    induction n with
    | zero =>
      intro W hW
      cases W with
      | nil => exact h0
      | cons w W => simp [size] at hW
    | succ n ih =>
      intro W hW
      cases W with
      | nil => exact h0
      | cons w W =>
        cases w with
        | nil => exact h1 W
        | cons c w =>
          apply h2
          · apply ih
            simp only [size, List.length_cons, List.map_cons, List.sum_cons] at *
            omega
          · apply ih
            have := size_rm_le c W
            simp only [size, List.length_cons, List.map_cons, List.sum_cons, List.length_map] at *
            omega
  exact this _ W le_rfl

/-- All words list each letter of `A` once. -/
def Al (A : Finset Nat) (W : List (List Nat)) : Prop := ∀ w ∈ W, w.Nodup ∧ w.toFinset = A

theorem Al.tail {A : Finset Nat} {w : List Nat} {W : List (List Nat)} (h : Al A (w :: W)) : Al A W :=
  fun v hv => h v (List.mem_cons_of_mem _ hv)

theorem toFinset_rm (c : Nat) (w : List Nat) : (rm c w).toFinset = w.toFinset.erase c := by
  ext v
  simp [mem_rm, and_comm]

theorem nodup_rm {w : List Nat} (h : w.Nodup) (c : Nat) : (rm c w).Nodup := h.filter _

theorem Al.rm {A : Finset Nat} {W : List (List Nat)} (h : Al A W) (c : Nat) : Al (A.erase c) (W.map (rm c)) := by
  intro v hv
  obtain ⟨w, hw, rfl⟩ := List.mem_map.1 hv
  exact ⟨nodup_rm (h w hw).1 c, by rw [toFinset_rm, (h w hw).2]⟩

theorem Al.step {A : Finset Nat} {c : Nat} {w : List Nat} {W : List (List Nat)} (h : Al A ((c :: w) :: W)) :
    Al (A.erase c) (w :: W.map (TR.rm c)) := by
  have h1 := h (c :: w) (by simp)
  have hc : c ∉ w := (List.nodup_cons.1 h1.1).1
  have h2 := (h.rm c)
  rw [List.map_cons, rm_cons_self, rm_not_mem hc] at h2
  exact h2

theorem Al.mem {A : Finset Nat} {w : List Nat} {W : List (List Nat)} (h : Al A (w :: W)) {v : Nat} :
    v ∈ A ↔ v ∈ w := by
  rw [← (h w (by simp)).2, List.mem_toFinset]

theorem Al.card {A : Finset Nat} {w : List Nat} {W : List (List Nat)} (h : Al A (w :: W)) : A.card = w.length := by
  rw [← (h w (by simp)).2, List.toFinset_card_of_nodup (h w (by simp)).1]

theorem tr_supported {A : Finset Nat} {W : List (List Nat)} (h : Al A W) :
    tr (R := R) W ∈ Finsupp.supported R R {m | (∀ v, v ∈ m ↔ v ∈ A) ∧ m.length + 1 = W.length + A.card} := by
  refine tr_induction (P := fun W => ∀ A, Al A W → tr (R := R) W ∈ Finsupp.supported R R
    {m | (∀ v, v ∈ m ↔ v ∈ A) ∧ m.length + 1 = W.length + A.card}) (fun A _ => by simp) (fun W A h => ?_)
    (fun c w W ih1 ih2 A h => ?_) W A h
  · have hA : A = ∅ := by
      rw [← (h [] (by simp)).2]; rfl
    subst hA
    rw [tr_nil_cons]
    split
    · rename_i hW
      subst hW
      apply Finsupp.single_mem_supported
      simp
    · exact Submodule.zero_mem _
  · rw [tr_cons]
    have hc : c ∈ A := h.mem.2 (by simp)
    refine Submodule.add_mem _ (mapK_supported _ (fun m hm => ?_) (ih1 A h.tail))
      (mapK_supported _ (fun m hm => ?_) (ih2 _ h.step))
    · refine ⟨fun v => ?_, by simp only [List.length_cons]; have := hm.2; omega⟩
      rw [List.mem_cons, hm.1 v]
      constructor
      · rintro (rfl | h) <;> assumption
      · exact Or.inr
    · refine ⟨fun v => ?_, ?_⟩
      · rw [List.mem_cons, hm.1 v, Finset.mem_erase]
        constructor
        · rintro (rfl | h)
          · exact hc
          · exact h.2
        · intro hv
          by_cases e : v = c
          · exact Or.inl e
          · exact Or.inr ⟨e, hv⟩
      · have := hm.2
        rw [Finset.card_erase_of_mem hc] at this
        have := Finset.card_pos.2 ⟨c, hc⟩
        simp only [List.length_cons, List.length_map] at *
        omega

theorem eraseOne_consV_mem {x : Nat} {v : List Nat →₀ R} (hv : v ∈ Finsupp.supported R R {m | x ∈ m}) :
    eraseOne x (consV x v) = 0 := by
  refine BElem.lin_ext_supported (f := (eraseOne x).comp (consV x)) (g := 0) (fun m hm => ?_) hv
  have hm : x ∈ m := hm
  rw [LinearMap.comp_apply, consV_single, eraseOne_single, if_neg]
  · rfl
  · have := List.count_pos_iff.2 hm
    rw [List.count_cons_self]; omega

theorem eraseOne_consV_not_mem {x : Nat} {v : List Nat →₀ R} (hv : v ∈ Finsupp.supported R R {m | x ∉ m}) :
    eraseOne x (consV x v) = v := by
  refine BElem.lin_ext_supported (f := (eraseOne x).comp (consV x)) (g := LinearMap.id) (fun m hm => ?_) hv
  have hm : x ∉ m := hm
  rw [LinearMap.comp_apply, consV_single, eraseOne_single, if_pos]
  · simp
  · rw [List.count_cons_self, List.count_eq_zero_of_not_mem hm]

/-- Crossing out a letter which is used once. -/
theorem eraseOne_tr {A : Finset Nat} {W : List (List Nat)} (h : Al A W) {c : Nat} (hc : c ∈ A) :
    eraseOne c (tr (R := R) W) = tr (W.map (rm c)) := by
  refine tr_induction (P := fun W => ∀ A, Al A W → c ∈ A → eraseOne c (tr (R := R) W) = tr (W.map (rm c)))
    (fun A _ _ => by simp) (fun W A h hc => ?_) (fun b w W ih1 ih2 A h hc => ?_) W A h hc
  · rw [h.mem] at hc; simp at hc
  · rw [tr_cons, map_add]
    by_cases e : b = c
    · subst e
      have hb : b ∉ w := (List.nodup_cons.1 (h (b :: w) (by simp)).1).1
      rw [eraseOne_consV_mem, eraseOne_consV_not_mem, List.map_cons, rm_cons_self, rm_not_mem hb, zero_add]
      · refine Finsupp.supported_mono (fun m hm => ?_) (tr_supported h.step)
        show b ∉ m
        rw [hm.1]; simp
      · refine Finsupp.supported_mono (fun m hm => ?_) (tr_supported h.tail)
        show b ∈ m
        rw [hm.1]; exact hc
    · rw [eraseOne_consV_ne e, eraseOne_consV_ne e, ih1 A h.tail hc,
        ih2 _ h.step (Finset.mem_erase.2 ⟨fun h => e h.symm, hc⟩), List.map_cons, List.map_cons, rm_cons_ne e, tr_cons,
        List.map_map, List.map_map]
      congr 4
      apply List.map_congr_left
      intro v _
      exact rm_comm c b v

/-- Table reduction as a linear map. -/
noncomputable def trL : (List (List Nat) →₀ R) →ₗ[R] (List Nat →₀ R) := lin tr

@[simp] theorem trL_single (W : List (List Nat)) (r : R) : trL (single W r) = r • tr W := by simp [trL]

theorem trL_consV (c : Nat) (w : List Nat) (u : List (List Nat) →₀ R) :
    trL (consV (c :: w) u) = consV c (trL u) + consV c (trL (consV w (mapK (List.map (rm c)) u))) := by
  induction u using Finsupp.induction_linear with
  | zero => simp
  | add f g hf hg => simp only [map_add, hf, hg]; abel
  | single W r => simp [tr_cons]

/-- Table reduction commutes with the boundary. -/
theorem sdelL_tr {A : Finset Nat} {W : List (List Nat)} (h : Al A W) :
    sdelL (tr (R := R) W) = trL (delK W) := by
  refine tr_induction (P := fun W => ∀ A, Al A W → sdelL (tr (R := R) W) = trL (delK W))
    (fun A _ => by simp [delK]) (fun W A h => ?_) (fun c w W ih1 ih2 A h => ?_) W A h
  · rw [tr_nil_cons]
    cases W with
    | nil => simp [delK, sdel]
    | cons V W =>
      have hV : V = [] := by
        apply List.eq_nil_iff_forall_not_mem.2
        intro v hv
        have h1 : v ∈ A := h.tail.mem.2 hv
        rw [h.mem] at h1
        simp at h1
      subst hV
      rw [if_neg (by simp), map_zero, delK, delK, map_sub, map_sub, map_sub, consV_single, trL_single]
      have : ∀ u : List (List Nat) →₀ R, trL (consV [] (consV [] u)) = 0 := by
        intro u
        induction u using Finsupp.induction_linear with
        | zero => simp
        | add f g hf hg => simp only [map_add, hf, hg, add_zero]
        | single W r => simp [tr_nil_cons]
      rw [this]
      simp
  · have hc : c ∈ A := h.mem.2 (by simp)
    rw [tr_cons, map_add, sdelL_consV_mem, sdelL_consV_not_mem, eraseOne_tr h.tail hc, ih1 A h.tail, ih2 _ h.step,
      delK, delK]
    · simp only [trL_single, one_smul, map_sub, trL_consV, BElem.delK_map]
      abel
    · refine Finsupp.supported_mono (fun m hm => ?_) (tr_supported h.step)
      show c ∉ m
      rw [hm.1]; simp
    · refine Finsupp.supported_mono (fun m hm => ?_) (tr_supported h.tail)
      show c ∈ m
      rw [hm.1]; exact hc

/-- Repeated words give degenerate terms. -/
theorem tr_hasRep {A : Finset Nat} {W : List (List Nat)} (hA : Al A W) (h : hasRep W = true) :
    tr (R := R) W ∈ Finsupp.supported R R {m : List Nat | hasRep m = true} := by
  refine tr_induction (P := fun W => ∀ A, Al A W → hasRep W = true →
    tr (R := R) W ∈ Finsupp.supported R R {m : List Nat | hasRep m = true})
    (fun A _ h => by simp [hasRep] at h) (fun W A _ h => ?_) (fun c w W ih1 ih2 A hA h => ?_) W A hA h
  · rw [tr_nil_cons, if_neg]
    · exact Submodule.zero_mem _
    · rintro rfl; simp [hasRep] at h
  · have hcons : ∀ {v : List Nat →₀ R}, v ∈ Finsupp.supported R R {m : List Nat | hasRep m = true} →
        consV c v ∈ Finsupp.supported R R {m : List Nat | hasRep m = true} := by
      intro v hv
      refine mapK_supported (S := {m : List Nat | hasRep m = true}) (T := {m : List Nat | hasRep m = true}) _
        (fun m hm => ?_) hv
      have hm : hasRep m = true := hm
      show hasRep (c :: m) = true
      cases m with
      | nil => simp [hasRep] at hm
      | cons q m => simp [hasRep, hm]
    have hcc : ∀ v : List Nat →₀ R, consV c (consV c v) ∈
        Finsupp.supported R R {m : List Nat | hasRep m = true} := by
      intro v
      induction v using Finsupp.induction_linear with
      | zero => simp
      | add f g hf hg => rw [map_add, map_add]; exact Submodule.add_mem _ hf hg
      | single k r =>
        rw [consV_single, consV_single]
        apply Finsupp.single_mem_supported
        show hasRep (c :: c :: k) = true
        simp [hasRep]
    rw [tr_cons]
    have hmap : ∀ {W : List (List Nat)}, hasRep W = true → hasRep (W.map (rm c)) = true := by
      intro W hW
      induction W with
      | nil => simp [hasRep] at hW
      | cons a W ih =>
        cases W with
        | nil => simp [hasRep] at hW
        | cons b W =>
          simp only [hasRep, Bool.or_eq_true, beq_iff_eq, List.map_cons] at hW ih ⊢
          rcases hW with h | h
          · left; rw [h]
          · right; exact ih h
    cases W with
    | nil => simp [hasRep] at h
    | cons V W =>
      simp only [hasRep, Bool.or_eq_true, beq_iff_eq] at h
      rcases h with h | h
      · subst h
        refine Submodule.add_mem _ ?_ ?_
        · rw [tr_cons, map_add]
          exact Submodule.add_mem _ (hcc _) (hcc _)
        · have hw : c ∉ w := (List.nodup_cons.1 (hA (c :: w) (by simp)).1).1
          refine hcons (ih2 _ hA.step ?_)
          rw [List.map_cons, rm_cons_self, rm_not_mem hw]
          simp [hasRep]
      · refine Submodule.add_mem _ (hcons (ih1 A hA.tail h)) (hcons (ih2 _ hA.step ?_))
        have := hmap h
        rw [List.map_cons] at this ⊢
        simp [hasRep, this]

/-- Relabelling the letters. -/
theorem tr_map {f : Nat → Nat} {A : Finset Nat} {W : List (List Nat)} (hA : Al A W)
    (hf : ∀ a ∈ A, ∀ b ∈ A, f a = f b → a = b) :
    tr (R := R) (W.map (List.map f)) = mapK (List.map f) (tr W) := by
  refine tr_induction (P := fun W => ∀ A, Al A W → (∀ a ∈ A, ∀ b ∈ A, f a = f b → a = b) →
    tr (R := R) (W.map (List.map f)) = mapK (List.map f) (tr W))
    (fun A _ _ => by simp) (fun W A h hf => ?_) (fun c w W ih1 ih2 A h hf => ?_) W A hA hf
  · rw [List.map_cons, List.map_nil, tr_nil_cons, tr_nil_cons]
    by_cases hW : W = []
    · simp [hW]
    · simp [hW]
  · have hc : ∀ v : List Nat →₀ R, mapK (List.map f) (consV c v) = consV (f c) (mapK (List.map f) v) := by
      intro v
      induction v using Finsupp.induction_linear with
      | zero => simp
      | add f g hf hg => simp only [map_add, hf, hg]
      | single k r => simp
    have hcA : c ∈ A := h.mem.2 (by simp)
    have e := ih2 _ h.step (fun a ha b hb => hf a (Finset.mem_of_mem_erase ha) b (Finset.mem_of_mem_erase hb))
    rw [List.map_cons, List.map_cons, tr_cons, tr_cons, map_add, hc, hc, ih1 A h.tail hf, ← e, List.map_cons]
    congr 4
    rw [List.map_map, List.map_map]
    apply List.map_congr_left
    intro V hV
    have hVA : ∀ v ∈ V, v ∈ A := fun v hv => by
      rw [← (h V (List.mem_cons_of_mem _ hV)).2, List.mem_toFinset]; exact hv
    simp only [Function.comp, rm]
    rw [List.filter_map]
    congr 1
    apply List.filter_congr
    intro v hv
    simp only [Function.comp, decide_eq_decide]
    exact not_congr ⟨fun h => hf v (hVA v hv) c hcA h, fun h => by rw [h]⟩

end Comch.TR
