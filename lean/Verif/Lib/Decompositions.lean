import Verif.Lib.Partitions
import Verif.Lib.Common
import Verif.Spec.Chains

/-! # `decompositions` -/

namespace Comch
open Spec

variable {A : Type}

theorem pairwise_cons_cons' (a b : A) (l : List A) : pairwise (a :: b :: l) = (a, b) :: pairwise (b :: l) := rfl

/-- The pieces of `y` with given lengths, consecutive ones overlapping in one entry. -/
def pieces : List Nat → List A → List (List A)
  | [], _ => []
  | p :: ps, y => y.take p :: pieces ps (y.drop (p - 1))

theorem pairs_cons (a b : Nat) (l : List Nat) :
    pairwise (a :: runningSums a (b :: l)) = (a, a + b) :: pairwise ((a + b) :: runningSums (a + b) l) := rfl

theorem slices_eq_pieces (x : List A) (parts : List Nat) (h : ∀ p ∈ parts, 1 ≤ p) (a : Nat) :
    ((pairwise (a :: runningSums a (parts.map (· - 1)))).map fun ij => slice x ij.1 (ij.2 + 1)) =
      pieces parts (x.drop a) := by
  induction parts generalizing a with
  | nil => rfl
  | cons p ps ih =>
    rw [List.map_cons, pairs_cons, List.map_cons, ih (fun q hq => h q (List.mem_cons_of_mem _ hq))]
    have hp := h p (by simp)
    simp only [pieces, List.drop_drop]
    congr 1
    unfold slice
    rw [List.drop_take]
    congr 1
    omega

theorem decompositions_eq (x : List A) (k : Nat) :
    decompositions x k = (partitions (x.length + k) (k + 1) 1 none true).map fun part => pieces part x := by
  unfold decompositions decompositionsInt
  rw [List.map_map]
  refine List.map_congr_left fun part hp => ?_
  rw [mem_partitions_ordered] at hp
  have := slices_eq_pieces x part (fun p h => (hp.2.2 p h).1) 0
  rw [List.drop_zero] at this
  rw [← this]
  simp only [Function.comp_apply, List.map_map]
  rfl

theorem length_pieces (ps : List Nat) (y : List A) : (pieces ps y).length = ps.length := by
  induction ps generalizing y with
  | nil => rfl
  | cons p ps ih => simp [pieces, ih]

variable [DecidableEq A]

theorem glue_pieces (ps : List Nat) (y : List A) (hps : ps ≠ []) (h : ∀ p ∈ ps, 1 ≤ p)
    (hsum : ps.sum + 1 = y.length + ps.length) :
    glue (pieces ps y) = some y ∧ (pieces ps y).map List.length = ps := by
  induction ps generalizing y with
  | nil => exact absurd rfl hps
  | cons p ps ih =>
    cases ps with
    | nil =>
      simp only [List.sum_cons, List.sum_nil, List.length_cons, List.length_nil] at hsum
      have : y.take p = y := List.take_of_length_le (by omega)
      simp only [pieces, this, glue, List.map_cons, List.map_nil, true_and]
      rw [show y.length = p by omega]
    | cons q ps =>
      have hp := h p (by simp)
      have hs1 : ps.length ≤ ps.sum := by
        have : ∀ (l : List Nat), (∀ p ∈ l, 1 ≤ p) → l.length ≤ l.sum := by
          intro l
          induction l with
          | nil => simp
          | cons a l ihl =>
            intro hl
            have := ihl (fun p hp => hl p (List.mem_cons_of_mem _ hp))
            have := hl a (by simp)
            rw [List.sum_cons, List.length_cons]; omega
        exact this ps fun p hp => h p (by simp [hp])
      have hq := h q (by simp)
      rw [List.sum_cons, List.sum_cons, List.length_cons, List.length_cons] at hsum
      have hpy : p ≤ y.length := by omega
      obtain ⟨h1, h2⟩ := ih (y.drop (p - 1)) (by simp) (fun p hp => h p (List.mem_cons_of_mem _ hp))
        (by rw [List.sum_cons, List.length_cons, List.length_drop]; omega)
      have hlt : p - 1 < y.length := by omega
      have hd : y.drop (p - 1) = y[p - 1] :: y.drop p := by
        rw [List.drop_eq_getElem_cons hlt, Nat.sub_add_cancel hp]
      constructor
      · rw [pieces, pieces]
        rw [pieces] at h1
        rw [show glue (y.take p :: (y.drop (p - 1)).take q :: pieces ps ((y.drop (p - 1)).drop (q - 1))) =
          match glue ((y.drop (p - 1)).take q :: pieces ps ((y.drop (p - 1)).drop (q - 1))) with
          | some (a :: w) => if (y.take p).getLast? = some a then some (y.take p ++ w) else none
          | _ => none from rfl, h1, hd]
        simp only
        rw [if_pos, List.take_append_drop]
        rw [List.getLast?_eq_getElem?, List.length_take, Nat.min_eq_left hpy, List.getElem?_take_of_lt (by omega),
          List.getElem?_eq_getElem hlt]
      · rw [pieces, List.map_cons, h2, List.length_take, Nat.min_eq_left hpy]

theorem pieces_of_glue (m : List (List A)) (y : List A) (hy : y ≠ []) (h : glue m = some y) :
    (∀ p ∈ m, p ≠ []) ∧ m = pieces (m.map List.length) y ∧
      (m.map List.length).sum + 1 = y.length + m.length := by
  induction m generalizing y with
  | nil => simp [glue] at h
  | cons p m ih =>
    cases m with
    | nil =>
      simp only [glue, Option.some.injEq] at h
      subst h
      simp [pieces, hy]
    | cons q m =>
      rw [show glue (p :: q :: m) = match glue (q :: m) with
          | some (a :: w) => if p.getLast? = some a then some (p ++ w) else none
          | _ => none from rfl] at h
      rcases hg : glue (q :: m) with _ | _ | ⟨a, w⟩
      · rw [hg] at h; cases h
      · rw [hg] at h; cases h
      · rw [hg] at h
        simp only [Option.ite_none_right_eq_some, Option.some.injEq] at h
        obtain ⟨hl, rfl⟩ := h
        obtain ⟨h1, h2, h3⟩ := ih (a :: w) (by simp) hg
        have hp : p ≠ [] := by rintro rfl; simp at hl
        obtain ⟨p', rfl⟩ : ∃ p', p = p' ++ [a] := by
          refine ⟨p.dropLast, ?_⟩
          have := List.dropLast_append_getLast? a hl
          exact this.symm
        refine ⟨fun r hr => ?_, ?_, ?_⟩
        · rcases List.mem_cons.1 hr with rfl | hr
          · exact hp
          · exact h1 r hr
        · rw [List.map_cons, pieces]
          congr 1
          · rw [List.take_append_of_le_length (Nat.le_refl _), List.take_length]
          · rw [show ((p' ++ [a] ++ w).drop ((p' ++ [a]).length - 1)) = a :: w by simp]
            exact h2
        · rw [List.map_cons, List.sum_cons, List.length_cons (as := q :: m), List.length_append (bs := w)]
          rw [List.length_cons (as := w)] at h3
          omega

end Comch
