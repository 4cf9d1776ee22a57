import Verif.Lib.Common
import Verif.Model.Py
import Mathlib.Data.List.Perm.Basic
import Mathlib.Data.List.Nodup

/-! # `itertools.permutations` -/

namespace Comch

variable {α : Type}

theorem perm_removeAt {l : List α} {i : Nat} {a : α} (h : l[i]? = some a) :
    l.Perm (a :: removeAt l i) := by
  induction l generalizing i with
  | nil => simp at h
  | cons b l ih =>
    cases i with
    | zero =>
      simp only [List.getElem?_cons_zero, Option.some.injEq] at h
      subst h
      simp [removeAt]
    | succ i =>
      rw [List.getElem?_cons_succ] at h
      have : removeAt (b :: l) (i + 1) = b :: removeAt l i := by simp [removeAt]
      rw [this]
      exact ((ih h).cons b).trans (List.Perm.swap a b _)

theorem mem_permutationsAux {n : Nat} {l l' : List α} (hl : l.length = n) :
    l' ∈ permutationsAux n l ↔ l'.Perm l := by
  induction n generalizing l l' with
  | zero =>
    have : l = [] := List.length_eq_zero_iff.1 hl
    subst this
    simp [permutationsAux]
  | succ n ih =>
    simp only [permutationsAux, List.mem_flatMap, List.mem_map, mem_enumerate]
    constructor
    · rintro ⟨⟨i, a⟩, h, t, ht, rfl⟩
      have hp := perm_removeAt h
      have hlen : (removeAt l i).length = n := by
        have := hp.length_eq
        simp only [List.length_cons] at this
        omega
      exact (((ih hlen).1 ht).cons a).trans hp.symm
    · intro h
      cases l' with
      | nil =>
        have := h.length_eq
        simp at this
        omega
      | cons a t =>
        have ha : a ∈ l := h.subset (by simp)
        obtain ⟨i, hi⟩ := List.getElem?_of_mem ha
        have hp := perm_removeAt hi
        have hlen : (removeAt l i).length = n := by
          have := hp.length_eq
          simp only [List.length_cons] at this
          omega
        exact ⟨(i, a), hi, t, (ih hlen).2 ((h.trans hp).cons_inv), rfl⟩

theorem nodup_permutationsAux {n : Nat} {l : List α} (hl : l.length = n) (hn : l.Nodup) :
    (permutationsAux n l).Nodup := by
  induction n generalizing l with
  | zero => simp [permutationsAux]
  | succ n ih =>
    rw [permutationsAux, List.nodup_flatMap]
    constructor
    · rintro ⟨i, a⟩ h
      rw [mem_enumerate] at h
      have hp := perm_removeAt h
      have hlen : (removeAt l i).length = n := by
        have := hp.length_eq
        simp only [List.length_cons] at this
        omega
      apply List.Nodup.map (fun x y h => by simpa using h)
      exact ih hlen (List.nodup_cons.1 (hp.nodup_iff.1 hn)).2
    · have hne : (enumerate l).Pairwise fun p q => p.2 ≠ q.2 := by
        have : ((enumerate l).map Prod.snd).Nodup := by
          unfold enumerate
          rw [List.map_snd_zip (by simp)]
          exact hn
        rw [List.Nodup, List.pairwise_map] at this
        exact this
      refine hne.imp ?_
      intro p q hpq t ht ht'
      obtain ⟨u, _, rfl⟩ := List.mem_map.1 ht
      obtain ⟨v, _, h⟩ := List.mem_map.1 ht'
      simp only [List.cons.injEq] at h
      exact hpq h.1.symm

theorem mem_permutations {l l' : List α} : l' ∈ permutations l ↔ l'.Perm l := mem_permutationsAux rfl

theorem nodup_permutations {l : List α} (hn : l.Nodup) : (permutations l).Nodup :=
  nodup_permutationsAux rfl hn

/-- A test on all consecutive pairs for a transitive relation is a test on all pairs. -/
theorem pairwise_all {l : List Nat} :
    (pairwise l).all (fun xy => decide (xy.1 < xy.2)) = true ↔ l.Pairwise (· < ·) := by
  rw [← List.isChain_iff_pairwise]
  unfold pairwise
  induction l with
  | nil => simp
  | cons a l ih =>
    cases l with
    | nil => simp
    | cons b l =>
      simp only [List.tail_cons, List.zip_cons_cons, List.all_cons, Bool.and_eq_true, decide_eq_true_eq,
        List.isChain_cons_cons] at ih ⊢
      rw [ih]

end Comch
