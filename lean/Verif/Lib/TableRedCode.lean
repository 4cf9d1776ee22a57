import Verif.Lib.TableRed
import Verif.Lib.Partitions

/-! # The loops of `table_reduction` -/

set_option linter.unusedSectionVars false

namespace Comch.TR
open Finsupp (single)

variable {R : Type} [CommRing R]

/-- Letters read for given lengths of the segments. -/
def tl : List (List Nat) → List Nat → List Nat
  | w :: W, a :: p => w.take a ++ tl (W.map fun v => v.filter fun j => !(w.take (a - 1)).contains j) p
  | _, _ => []
termination_by W => W.length
decreasing_by simp

theorem tl_nil (p : List Nat) : tl [] p = [] := by rw [tl]; simp
theorem tl_cons (w : List Nat) (W : List (List Nat)) (a : Nat) (p : List Nat) :
    tl (w :: W) (a :: p) = w.take a ++ tl (W.map fun v => v.filter fun j => !(w.take (a - 1)).contains j) p := by
  rw [tl]

/-- Admissible lengths. -/
def Parts (A : Finset Nat) (W : List (List Nat)) (p : List Nat) : Prop :=
  p.length = W.length ∧ p.sum + 1 = W.length + A.card ∧ ∀ v ∈ p, 1 ≤ v

theorem length_le_sum {p : List Nat} (h : ∀ v ∈ p, 1 ≤ v) : p.length ≤ p.sum := by
  induction p with
  | nil => simp
  | cons a p ih =>
    have := ih fun v hv => h v (List.mem_cons_of_mem _ hv)
    have := h a (by simp)
    simp only [List.length_cons, List.sum_cons]; omega

/-- Remove several letters. -/
def rmL (l : List Nat) (w : List Nat) : List Nat := w.filter fun j => !l.contains j

theorem Al.rmL {A : Finset Nat} {W : List (List Nat)} (h : Al A W) (l : List Nat) :
    Al (A \ l.toFinset) (W.map (rmL l)) := by
  intro v hv
  obtain ⟨w, hw, rfl⟩ := List.mem_map.1 hv
  refine ⟨(h w hw).1.filter _, ?_⟩
  ext v
  rw [← (h w hw).2]
  simp [TR.rmL]

theorem rmL_rmL (l m w : List Nat) : rmL m (rmL l w) = rmL (l ++ m) w := by
  unfold rmL
  rw [List.filter_filter]
  congr 1
  funext v
  simp [Bool.and_comm]

theorem hasRep_append_append {l t : List Nat} {a : Nat} : hasRep (l ++ a :: a :: t) = true := by
  induction l with
  | nil => simp [hasRep]
  | cons b l ih =>
    cases l with
    | nil => simp [hasRep]
    | cons c l => simp only [List.cons_append, hasRep, Bool.or_eq_true] at ih ⊢; exact Or.inr ih

theorem Parts.step {A : Finset Nat} {w : List Nat} {W : List (List Nat)} {a : Nat} {p : List Nat}
    (hA : Al A (w :: W)) (h : Parts A (w :: W) (a :: p)) :
    1 ≤ a ∧ a ≤ w.length ∧ (W = [] → a = w.length) ∧
      (W ≠ [] → Parts (A \ (w.take (a - 1)).toFinset) (W.map (rmL (w.take (a - 1)))) p) := by
  obtain ⟨h1, h2, h3⟩ := h
  have ha := h3 a (by simp)
  have hp := length_le_sum fun v hv => h3 v (List.mem_cons_of_mem _ hv)
  have hc := hA.card
  simp only [List.length_cons, List.sum_cons] at h1 h2
  refine ⟨ha, by omega, ?_, ?_⟩
  · rintro rfl
    simp at h1
    subst h1
    simp at h2
    omega
  · intro hW
    have hW' := List.length_pos_iff.2 hW
    refine ⟨by rw [List.length_map]; omega, ?_, fun v hv => h3 v (List.mem_cons_of_mem _ hv)⟩
    have hnd : (w.take (a - 1)).Nodup := (hA w (by simp)).1.sublist (List.take_sublist _ _)
    rw [List.length_map, Finset.card_sdiff_of_subset, List.toFinset_card_of_nodup hnd, List.length_take]
    · omega
    · intro v hv
      rw [List.mem_toFinset] at hv
      exact hA.mem.2 (List.mem_of_mem_take hv)

open BElem in
theorem tableLoop_eq (W : List (List Nat)) : ∀ (A : Finset Nat) (p : List Nat) (first : Bool) (k2 removed : List Nat),
    Al A (W.map (rmL removed)) → Parts A W p → (first = false → k2 ≠ []) →
    ∃ o, tableLoop first (W.zip p) k2 removed = .ok o ∧
      (o = some (k2 ++ tl (W.map (rmL removed)) p) ∨
        (o = none ∧ hasRep (k2 ++ tl (W.map (rmL removed)) p) = true)) := by
  induction W with
  | nil =>
    intro A p first k2 removed hA hp hf
    refine ⟨some k2, ?_, Or.inl ?_⟩
    · simp [tableLoop]
    · rw [List.map_nil, tl_nil, List.append_nil]
  | cons σ W ih =>
    intro A p first k2 removed hA hp hf
    cases p with
    | nil => exact absurd hp.1 (by simp)
    | cons a p =>
      rw [List.map_cons] at hA
      have hp' : Parts A (rmL removed σ :: W.map (rmL removed)) (a :: p) := by
        obtain ⟨h1, h2, h3⟩ := hp
        exact ⟨by simpa using h1, by simpa using h2, h3⟩
      obtain ⟨s1, s2, s3, s4⟩ := hp'.step hA
      rw [List.zip_cons_cons, tableLoop]
      have hfil : (σ.filter fun j => !removed.contains j) = rmL removed σ := rfl
      simp only [hfil]
      rw [List.map_cons, tl_cons]
      set F := rmL removed σ with hF
      have hFne : F ≠ [] := by
        rintro h; rw [h] at s2; simp at s2; omega
      obtain ⟨b, t, hbt⟩ := List.exists_cons_of_ne_nil hFne
      -- the removed letters
      have hrem : (if a > 1 then removed ++ F.take (a - 1) else removed) = removed ++ F.take (a - 1) := by
        split
        · rfl
        · rw [show a - 1 = 0 by omega]; simp
      rw [hrem]
      have hmm : (W.map (rmL removed)).map (fun v => v.filter fun j => !(F.take (a - 1)).contains j) =
          W.map (rmL (removed ++ F.take (a - 1))) := by
        rw [List.map_map]
        apply List.map_congr_left
        intro v _
        exact rmL_rmL _ _ _
      have cont : ∃ o, tableLoop false (W.zip p) (k2 ++ F.take a) (removed ++ F.take (a - 1)) = .ok o ∧
          (o = some (k2 ++ (F.take a ++ tl (W.map (rmL (removed ++ F.take (a - 1)))) p)) ∨
            (o = none ∧ hasRep (k2 ++ (F.take a ++ tl (W.map (rmL (removed ++ F.take (a - 1)))) p)) = true)) := by
        by_cases hW : W = []
        · subst hW
          exact ⟨some (k2 ++ F.take a), by simp [tableLoop], Or.inl (by rw [List.map_nil, tl_nil, List.append_nil])⟩
        · have hq := s4 (by simpa using hW)
          have hAl := hA.tail.rmL (F.take (a - 1))
          have e1 : (W.map (rmL removed)).map (rmL (F.take (a - 1))) = W.map (rmL (removed ++ F.take (a - 1))) := hmm
          rw [e1] at hAl
          have hq' : Parts (A \ (F.take (a - 1)).toFinset) W p := by
            obtain ⟨h1, h2, h3⟩ := hq
            exact ⟨by simpa using h1, by simpa using h2, h3⟩
          obtain ⟨o, ho, hh⟩ := ih _ p false (k2 ++ F.take a) (removed ++ F.take (a - 1)) hAl hq' (fun _ => by
            rw [hbt]
            obtain ⟨a', rfl⟩ : ∃ a', a = a' + 1 := ⟨a - 1, by omega⟩
            simp)
          rw [List.append_assoc] at hh
          exact ⟨o, ho, hh⟩
      rw [hmm]
      by_cases hfirst : first = true
      · subst hfirst
        exact cont
      · have hfirst : first = false := by simpa using hfirst
        subst hfirst
        have hk2 := hf rfl
        obtain ⟨l, z, rfl⟩ : ∃ l z, k2 = l ++ [z] := ⟨k2.dropLast, k2.getLast hk2, (List.dropLast_append_getLast hk2).symm⟩
        have hd1 : (l ++ [z]).getLast? = some z := by simp
        have hd2 : F.head? = some b := by rw [hbt]; rfl
        rw [hd1, hd2]
        show ∃ o, (if (z == b) = true then _ else _) = _ ∧ _
        by_cases hzb : z = b
        · subst hzb
          refine ⟨none, by simp, Or.inr ⟨rfl, ?_⟩⟩
          obtain ⟨a', rfl⟩ : ∃ a', a = a' + 1 := ⟨a - 1, by omega⟩
          rw [hbt, List.take_succ_cons, List.append_assoc, List.cons_append, List.nil_append, List.cons_append]
          exact hasRep_append_append
        · rw [if_neg (by simpa using hzb)]
          exact cont

/-! ### the sum over all lengths -/

theorem tl_one (c : Nat) (w : List Nat) (W : List (List Nat)) (p : List Nat) :
    tl ((c :: w) :: W) (1 :: p) = c :: tl W p := by
  rw [tl_cons]
  simp

theorem tl_succ (c : Nat) (w : List Nat) (W : List (List Nat)) (a : Nat) (p : List Nat) :
    tl ((c :: w) :: W) ((a + 2) :: p) = c :: tl (w :: W.map (rm c)) ((a + 1) :: p) := by
  rw [tl_cons, tl_cons, List.take_succ_cons, List.cons_append, List.map_map]
  congr 3
  apply List.map_congr_left
  intro v _
  simp only [Function.comp, rm, List.filter_filter]
  congr 1
  funext j
  simp only [Nat.add_one_sub_one, show a + 2 - 1 = a + 1 by omega, List.take_succ_cons, List.contains_cons,
    Bool.not_or]
  rw [Bool.and_comm]
  congr 1
  rw [Bool.eq_iff_iff]
  simp

theorem sum_parts (W : List (List Nat)) : ∀ (A : Finset Nat), Al A W → W ≠ [] → 1 ≤ A.card → ∀ L : List (List Nat),
    L.Nodup → (∀ p, p ∈ L ↔ Parts A W p) → (L.map fun p => bv R (tl W p)).sum = tr W := by
  refine tr_induction (P := fun W => ∀ (A : Finset Nat), Al A W → W ≠ [] → 1 ≤ A.card → ∀ L : List (List Nat),
    L.Nodup → (∀ p, p ∈ L ↔ Parts A W p) → (L.map fun p => bv R (tl W p)).sum = tr W) ?_ ?_ ?_ W
  · intro A _ h; exact absurd rfl h
  · intro W A hA _ hc
    rw [hA.card] at hc
    simp at hc
  · intro c w W ih1 ih2 A hA _ hc L hL hm
    by_cases hW : W = []
    · subst hW
      have hLe : L.Perm [[(c :: w).length]] := by
        rw [List.perm_ext_iff_of_nodup hL (by simp)]
        intro p
        rw [hm p, List.mem_singleton, Parts, hA.card]
        constructor
        · rintro ⟨h1, h2, h3⟩
          obtain ⟨a, rfl⟩ : ∃ a, p = [a] := List.length_eq_one_iff.1 h1
          simp at h2
          congr 1
          simp only [List.length_cons]; omega
        · rintro rfl
          refine ⟨by simp, by simp; omega, by simp⟩
      rw [(hLe.map _).sum_eq]
      have : ∀ w : List Nat, tr (R := R) [w] = bv R w := by
        intro w
        induction w with
        | nil => rw [tr_nil_cons]; simp
        | cons c w ih => rw [tr_cons, List.map_nil, ih]; simp
      rw [this]
      simp [tl_cons, tl_nil]
    · -- split according to the first length
      have hW' := List.length_pos_iff.2 hW
      have hcA : c ∈ A := hA.mem.2 (by simp)
      have hcard := hA.card
      set L1 := (L.filter fun p => decide (p.head? = some 1)).map List.tail with hL1
      set L2 := (L.filter fun p => decide (p.head? ≠ some 1)).map (fun p => (p.headD 0 - 1) :: p.tail) with hL2
      have hshape : ∀ p ∈ L, ∃ a q, p = a :: q ∧ 1 ≤ a := by
        intro p hp
        obtain ⟨h1, h2, h3⟩ := (hm p).1 hp
        cases p with
        | nil => simp at h1
        | cons a q => exact ⟨a, q, rfl, h3 a (by simp)⟩
      have s1 : (L.map fun p => bv R (tl ((c :: w) :: W) p)).sum =
          consV c ((L1.map fun p => bv R (tl W p)).sum) +
          consV c ((L2.map fun p => bv R (tl (w :: W.map (rm c)) p)).sum) := by
        have hgen : ∀ M : List (List Nat), (∀ p ∈ M, ∃ a q, p = a :: q ∧ 1 ≤ a) →
            (M.map fun p => bv R (tl ((c :: w) :: W) p)).sum =
            consV c ((((M.filter fun p => decide (p.head? = some 1)).map List.tail).map fun p => bv R (tl W p)).sum) +
            consV c ((((M.filter fun p => decide (p.head? ≠ some 1)).map (fun p => (p.headD 0 - 1) :: p.tail)).map
              fun p => bv R (tl (w :: W.map (rm c)) p)).sum) := by
          intro M hM
          induction M with
          | nil => simp
          | cons p M ih =>
            have ih' := ih fun p hp => hM p (List.mem_cons_of_mem _ hp)
            obtain ⟨a, q, rfl, ha⟩ := hM p (by simp)
            rw [List.map_cons, List.sum_cons, ih']
            by_cases h1 : a = 1
            · subst h1
              rw [List.filter_cons_of_pos (by simp), List.filter_cons_of_neg (by simp)]
              simp only [List.map_cons, List.sum_cons, List.tail_cons, map_add, consV_single, tl_one, add_assoc]
            · obtain ⟨a', rfl⟩ : ∃ a', a = a' + 2 := ⟨a - 2, by omega⟩
              rw [List.filter_cons_of_neg (by simp), List.filter_cons_of_pos (by simp)]
              simp only [List.map_cons, List.sum_cons, List.tail_cons, map_add, consV_single, tl_succ, List.headD_cons,
                show a' + 2 - 1 = a' + 1 by omega]
              abel
        exact hgen L hshape
      have hinj1 : L1.Nodup := by
        refine List.Nodup.map_on ?_ (hL.filter _)
        intro p hp q hq h
        simp only [List.mem_filter, decide_eq_true_eq] at hp hq
        obtain ⟨a, p', rfl, _⟩ := hshape p hp.1
        obtain ⟨b, q', rfl, _⟩ := hshape q hq.1
        have h1 := hp.2
        have h2 := hq.2
        simp at h1 h2 h
        rw [h1, h2, h]
      have hinj2 : L2.Nodup := by
        refine List.Nodup.map_on ?_ (hL.filter _)
        intro p hp q hq h
        simp only [List.mem_filter, decide_eq_true_eq] at hp hq
        obtain ⟨a, p', rfl, ha⟩ := hshape p hp.1
        obtain ⟨b, q', rfl, hb⟩ := hshape q hq.1
        simp only [List.headD_cons, List.tail_cons, List.cons.injEq] at h
        rw [h.2, show a = b by omega]
      rw [s1, tr_cons]
      congr 2
      · apply ih1 A hA.tail hW hc _ hinj1
        intro p
        rw [hL1, List.mem_map]
        constructor
        · rintro ⟨q, hq, rfl⟩
          simp only [List.mem_filter, decide_eq_true_eq] at hq
          obtain ⟨h1, h2, h3⟩ := (hm q).1 hq.1
          obtain ⟨a, q', rfl, ha⟩ := hshape q hq.1
          have := hq.2
          simp at this
          subst this
          simp only [List.length_cons, List.sum_cons] at h1 h2
          exact ⟨by simpa using h1, by simp only [List.tail_cons]; omega,
            fun v hv => h3 v (List.mem_cons_of_mem _ hv)⟩
        · rintro ⟨h1, h2, h3⟩
          refine ⟨1 :: p, ?_, rfl⟩
          simp only [List.mem_filter, List.head?_cons, decide_true, and_true, hm]
          refine ⟨by simp [h1], by simp only [List.sum_cons, List.length_cons]; omega, ?_⟩
          intro v hv
          rcases List.mem_cons.1 hv with rfl | hv
          · exact le_rfl
          · exact h3 v hv
      · have hce : (A.erase c).card = A.card - 1 := Finset.card_erase_of_mem hcA
        have hiff : ∀ p, p ∈ L2 ↔ Parts (A.erase c) (w :: W.map (rm c)) p := by
          intro p
          rw [hL2, List.mem_map]
          constructor
          · rintro ⟨q, hq, rfl⟩
            simp only [List.mem_filter, decide_eq_true_eq] at hq
            obtain ⟨h1, h2, h3⟩ := (hm q).1 hq.1
            obtain ⟨a, q', rfl, ha⟩ := hshape q hq.1
            have hne := hq.2
            simp at hne
            simp only [List.length_cons, List.sum_cons] at h1 h2
            refine ⟨by simpa using h1, ?_, ?_⟩
            · simp only [List.headD_cons, List.tail_cons, List.sum_cons, List.length_cons, List.length_map, hce]; omega
            · intro v hv
              rcases List.mem_cons.1 hv with rfl | hv
              · simp only [List.headD_cons]; omega
              · exact h3 v (List.mem_cons_of_mem _ hv)
          · rintro ⟨h1, h2, h3⟩
            cases p with
            | nil => simp at h1
            | cons a q =>
              have ha := h3 a (by simp)
              refine ⟨(a + 1) :: q, ?_, by simp⟩
              simp only [List.mem_filter, List.head?_cons, hm]
              simp only [List.length_cons, List.sum_cons, List.length_map, hce] at h1 h2
              refine ⟨⟨by simpa using h1, by simp only [List.sum_cons, List.length_cons]; omega, ?_⟩, by simp; omega⟩
              intro v hv
              rcases List.mem_cons.1 hv with rfl | hv
              · omega
              · exact h3 v (List.mem_cons_of_mem _ hv)
        by_cases hA1 : A.card = 1
        · -- no letters are left
          have hw : w = [] := by
            simp only [List.length_cons] at hcard
            exact List.length_eq_zero_iff.1 (by omega)
          have hnil : L2 = [] := by
            rw [List.eq_nil_iff_forall_not_mem]
            intro p hp
            obtain ⟨h1, h2, h3⟩ := (hiff p).1 hp
            have := length_le_sum h3
            omega
          rw [hnil, hw, tr_nil_cons, if_neg (by simpa using hW)]
          rfl
        · exact ih2 _ hA.step (by simp) (by omega) _ hinj2 hiff

end Comch.TR
