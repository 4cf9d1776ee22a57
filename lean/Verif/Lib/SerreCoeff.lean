import Verif.Lib.SerreCode
import Verif.Spec.Chains
import Verif.Spec.Perm

/-! # Coefficients of the Serre diagonal -/

set_option linter.unusedSectionVars false

namespace Comch.Serre
open Finsupp (single)
open CElem Spec

variable {R : Type} [CommRing R]

theorem rev_eq_inversions (p : List Nat) : rev p = inversions p := by
  induction p with
  | nil => rfl
  | cons f p ih => rw [rev, inversions, ih]

/-- The column of an interval. -/
def colf (t f : Nat) : List Nat := (List.range (t + 1)).map (elementarySummand f)

theorem colf_eq {t f : Nat} (hf : f < t + 1) : colf t f = List.replicate f 0 ++ 2 :: List.replicate (t - f) 1 := by
  apply List.ext_getElem
  · simp [colf]; omega
  · intro i h1 h2
    simp only [colf, List.getElem_map, List.getElem_range, elementarySummand]
    rw [List.getElem_append]
    simp only [List.length_replicate]
    split
    · rw [List.getElem_replicate]
    · rename_i h
      rw [List.getElem_cons]
      by_cases e : i = f
      · subst e; simp
      · rw [if_neg e, dif_neg (by omega), List.getElem_replicate]

theorem idxOf_colf {t f : Nat} (hf : f < t + 1) : (colf t f).idxOf 2 = f := by
  rw [colf_eq hf]
  have : ∀ (f : Nat) (l : List Nat), (List.replicate f 0 ++ 2 :: l).idxOf 2 = f := by
    intro f l
    induction f with
    | zero => simp
    | succ f ih => rw [List.replicate_succ, List.cons_append, List.idxOf_cons_ne _ (by decide), ih]
  exact this _ _

/-- Add a first column. -/
def addCol (h : List Nat) (L : List Cube) : List Cube := List.zipWith (· :: ·) h L

theorem cubesOf_ne {e : Nat} (he : e ≠ 2) (t : Nat) (c : Cube) (p : List Nat) :
    cubesOf t (e :: c) p = addCol (List.replicate (t + 1) e) (cubesOf t c p) := by
  apply List.ext_getElem
  · simp [cubesOf, addCol]
  · intro i h1 h2
    simp [cubesOf, addCol, subst_ne he]

theorem cubesOf_two (t : Nat) (c : Cube) (f : Nat) (p : List Nat) :
    cubesOf t (2 :: c) (f :: p) = addCol (colf t f) (cubesOf t c p) := by
  apply List.ext_getElem
  · simp [cubesOf, addCol, colf]
  · intro i h1 h2
    simp [cubesOf, addCol, colf, subst_two]

theorem column_addCol_zero {h : List Nat} {L : List Cube} (hl : h.length = L.length) : column (addCol h L) 0 = h := by
  apply List.ext_getElem
  · simp [column, addCol, hl]
  · intro i h1 h2
    simp [column, addCol]

theorem column_addCol_succ {h : List Nat} {L : List Cube} (hl : h.length = L.length) (i : Nat) :
    column (addCol h L) (i + 1) = column L i := by
  apply List.ext_getElem
  · simp [column, addCol, hl]
  · intro i h1 h2
    simp [column, addCol]

theorem exists_addCol {L : List Cube} {n : Nat} (h : ∀ c ∈ L, c.length = n + 1) :
    ∃ h L', L = addCol h L' ∧ h.length = L.length ∧ L'.length = L.length ∧ ∀ c ∈ L', c.length = n := by
  induction L with
  | nil => exact ⟨[], [], rfl, rfl, rfl, by simp⟩
  | cons c L ih =>
    obtain ⟨hh, L', e, l1, l2, h3⟩ := ih fun c hc => h c (List.mem_cons_of_mem _ hc)
    obtain ⟨a, c, rfl⟩ := List.exists_cons_of_length_pos (l := c) (by rw [h c (by simp)]; omega)
    refine ⟨a :: hh, c :: L', by simp [addCol, e], by simp [l1], by simp [l2], ?_⟩
    intro d hd
    rcases List.mem_cons.1 hd with rfl | hd
    · simpa using h (a :: d) (by simp)
    · exact h3 d hd

theorem addCol_inj {h h' : List Nat} {L L' : List Cube} (h1 : h.length = L.length) (h2 : h'.length = L'.length)
    (e : addCol h L = addCol h' L') : h = h' ∧ L = L' := by
  induction h generalizing h' L L' with
  | nil =>
    cases L with
    | nil =>
      cases h' with
      | nil => cases L' with
        | nil => exact ⟨rfl, rfl⟩
        | cons => simp at h2
      | cons => cases L' with
        | nil => simp at h2
        | cons => simp [addCol] at e
    | cons => simp at h1
  | cons a h ih =>
    cases L with
    | nil => simp at h1
    | cons b L =>
      cases h' with
      | nil => simp [addCol] at e
      | cons a' h' =>
        cases L' with
        | nil => simp at h2
        | cons b' L' =>
          simp only [addCol, List.zipWith_cons_cons, List.cons.injEq] at e
          obtain ⟨⟨rfl, rfl⟩, e⟩ := e
          obtain ⟨rfl, rfl⟩ := ih (by simpa using h1) (by simpa using h2) e
          exact ⟨rfl, rfl⟩

theorem length_addCol {h : List Nat} {L : List Cube} (hl : h.length = L.length) : (addCol h L).length = L.length := by
  simp [addCol, hl]

theorem isSerreTerm_addCol {t e : Nat} {q : Cube} {h : List Nat} {L : List Cube} (hl : h.length = L.length) :
    isSerreTerm t (e :: q) (addCol h L) ↔ L.length = t + 1 ∧ isSerreTerm t q L ∧
      (if e = 2 then ∃ f < t + 1, h = colf t f else h = List.replicate (t + 1) e) := by
  unfold isSerreTerm
  rw [length_addCol hl]
  have hlen : (∀ c ∈ addCol h L, c.length = (e :: q).length) ↔ ∀ c ∈ L, c.length = q.length := by
    clear * - hl
    induction h generalizing L with
    | nil => cases L with
      | nil => simp [addCol]
      | cons => simp at hl
    | cons a h ih => cases L with
      | nil => simp at hl
      | cons b L =>
        have := ih (L := L) (by simpa using hl)
        simp only [addCol, List.zipWith_cons_cons, List.mem_cons, forall_eq_or_imp, List.length_cons,
          Nat.add_right_cancel_iff] at this ⊢
        rw [this]
  rw [hlen]
  have hcols : (∀ i ∈ List.range (e :: q).length, if (e :: q).getD i 0 = 2 then
      ∃ f ∈ List.range (t + 1), column (addCol h L) i = List.replicate f 0 ++ 2 :: List.replicate (t - f) 1
      else column (addCol h L) i = List.replicate (t + 1) ((e :: q).getD i 0)) ↔
      (if e = 2 then ∃ f < t + 1, h = colf t f else h = List.replicate (t + 1) e) ∧
      ∀ i ∈ List.range q.length, if q.getD i 0 = 2 then
      ∃ f ∈ List.range (t + 1), column L i = List.replicate f 0 ++ 2 :: List.replicate (t - f) 1
      else column L i = List.replicate (t + 1) (q.getD i 0) := by
    rw [List.length_cons, List.range_succ_eq_map, List.forall_mem_cons, List.forall_mem_map]
    simp only [Nat.succ_eq_add_one, column_addCol_zero hl, column_addCol_succ hl, List.getD_cons_zero, List.getD_cons_succ]
    apply and_congr_left'
    by_cases he : e = 2
    · rw [if_pos he, if_pos he]
      constructor
      · rintro ⟨f, hf, h⟩
        rw [List.mem_range] at hf
        exact ⟨f, hf, by rw [colf_eq hf]; exact h⟩
      · rintro ⟨f, hf, h⟩
        exact ⟨f, List.mem_range.2 hf, by rw [← colf_eq hf]; exact h⟩
    · rw [if_neg he, if_neg he]
  rw [hcols]
  tauto

theorem serrePositions_two {q : Cube} {h : List Nat} {L : List Cube} (hl : h.length = L.length) :
    serrePositions (2 :: q) (addCol h L) = h.idxOf 2 :: serrePositions q L := by
  unfold serrePositions intervalPositions
  rw [List.length_cons, List.range_succ_eq_map, List.filter_cons, if_pos (by simp), List.map_cons, column_addCol_zero hl,
    List.filter_map, List.map_map]
  congr 1
  apply List.map_congr_left
  intro i _
  simp [column_addCol_succ hl]

theorem serrePositions_ne {e : Nat} (he : e ≠ 2) {q : Cube} {h : List Nat} {L : List Cube} (hl : h.length = L.length) :
    serrePositions (e :: q) (addCol h L) = serrePositions q L := by
  unfold serrePositions intervalPositions
  rw [List.length_cons, List.range_succ_eq_map, List.filter_cons, if_neg (by simpa using he),
    List.filter_map, List.map_map]
  apply List.map_congr_left
  intro i _
  simp [column_addCol_succ hl]

theorem length_cubesOf (t : Nat) (c : Cube) (p : List Nat) : (cubesOf t c p).length = t + 1 := by simp [cubesOf]

/-- The terms of the diagonal and the positions belonging to them. -/
theorem cubesOf_eq_iff (t : Nat) (q : Cube) : ∀ (p : List Nat) (L : List Cube),
    (p.length = q.dimension ∧ (∀ f ∈ p, f < t + 1) ∧ cubesOf t q p = L) ↔ (isSerreTerm t q L ∧ p = serrePositions q L) := by
  induction q with
  | nil =>
    intro p L
    have e1 : ∀ p, cubesOf t [] p = List.replicate (t + 1) [] := by
      intro p
      apply List.ext_getElem
      · simp [cubesOf]
      · intro i h1 h2; simp [cubesOf, subst]
    rw [e1]
    simp only [Cube.dimension, List.count_nil, List.length_eq_zero_iff, isSerreTerm, List.length_nil, List.range_zero,
      List.not_mem_nil, false_imp_iff, implies_true, and_true, serrePositions, intervalPositions, List.filter_nil,
      List.map_nil]
    constructor
    · rintro ⟨rfl, _, rfl⟩
      simp
    · rintro ⟨⟨h1, h2⟩, rfl⟩
      refine ⟨rfl, by simp, ?_⟩
      symm
      rw [List.eq_replicate_iff]
      exact ⟨h1, h2⟩
  | cons e q ih =>
    intro p L
    have hdec : (isSerreTerm t (e :: q) L → ∃ h L', L = addCol h L' ∧ h.length = L'.length) := by
      rintro ⟨h1, h2, _⟩
      obtain ⟨h, L', e, l1, l2, _⟩ := exists_addCol (n := q.length) (L := L) (by simpa using h2)
      exact ⟨h, L', e, by omega⟩
    by_cases he : e = 2
    · subst he
      constructor
      · rintro ⟨h1, h2, rfl⟩
        rw [Cube.dimension_cons, if_pos rfl] at h1
        cases p with
        | nil => simp at h1
        | cons f p =>
          have hl : (colf t f).length = (cubesOf t q p).length := by simp [colf, cubesOf]
          have hf := h2 f (by simp)
          obtain ⟨i1, i2⟩ := (ih p _).1 ⟨by simpa using h1, fun g hg => h2 g (List.mem_cons_of_mem _ hg), rfl⟩
          rw [cubesOf_two, isSerreTerm_addCol hl, serrePositions_two hl, if_pos rfl, idxOf_colf hf, ← i2]
          exact ⟨⟨length_cubesOf _ _ _, i1, f, hf, rfl⟩, rfl⟩
      · rintro ⟨h1, rfl⟩
        obtain ⟨h, L', rfl, hl⟩ := hdec h1
        rw [isSerreTerm_addCol hl, if_pos rfl] at h1
        obtain ⟨l1, h1, f, hf, rfl⟩ := h1
        obtain ⟨i1, i2, i3⟩ := (ih _ _).2 ⟨h1, rfl⟩
        rw [serrePositions_two hl, idxOf_colf hf, cubesOf_two, i3]
        refine ⟨by rw [Cube.dimension_cons, if_pos rfl, List.length_cons, i1], ?_, rfl⟩
        intro g hg
        rcases List.mem_cons.1 hg with rfl | hg
        · exact hf
        · exact i2 g hg
    · constructor
      · rintro ⟨h1, h2, rfl⟩
        rw [Cube.dimension_cons, if_neg he, add_zero] at h1
        have hl : (List.replicate (t + 1) e).length = (cubesOf t q p).length := by simp [cubesOf]
        obtain ⟨i1, i2⟩ := (ih p _).1 ⟨h1, h2, rfl⟩
        rw [cubesOf_ne he, isSerreTerm_addCol hl, serrePositions_ne he hl, if_neg he]
        exact ⟨⟨length_cubesOf _ _ _, i1, rfl⟩, i2⟩
      · rintro ⟨h1, rfl⟩
        obtain ⟨h, L', rfl, hl⟩ := hdec h1
        rw [isSerreTerm_addCol hl, if_neg he] at h1
        obtain ⟨l1, h1, rfl⟩ := h1
        obtain ⟨i1, i2, i3⟩ := (ih _ _).2 ⟨h1, rfl⟩
        rw [serrePositions_ne he hl, cubesOf_ne he, i3]
        exact ⟨by rw [Cube.dimension_cons, if_neg he, i1, add_zero], i2, rfl⟩

theorem serre_apply (t : Nat) (q : Cube) (L : List Cube) :
    serre (R := R) t q L = if isSerreTerm t q L then sg R (inversions (serrePositions q L)) else 0 := by
  rw [← sum_cubesOf]
  have happ : ∀ l : List (CKey →₀ R), l.sum L = (l.map fun v => v L).sum := by
    intro l
    induction l with
    | nil => rfl
    | cons a l ih => rw [List.sum_cons, Finsupp.add_apply, ih]; simp
  rw [happ, List.map_map]
  have key : ∀ P : List (List Nat), P.Nodup → (∀ p ∈ P, p.length = q.dimension ∧ ∀ f ∈ p, f < t + 1) →
      (P.map ((fun v : CKey →₀ R => v L) ∘ fun p => sg R (rev p) • bv R (cubesOf t q p))).sum =
        if isSerreTerm t q L ∧ serrePositions q L ∈ P then sg R (inversions (serrePositions q L)) else 0 := by
    intro P hP hmem
    induction P with
    | nil => simp
    | cons p P ih =>
      rw [List.nodup_cons] at hP
      rw [List.map_cons, List.sum_cons, ih hP.2 fun p hp => hmem p (List.mem_cons_of_mem _ hp)]
      simp only [Function.comp, Finsupp.smul_apply, smul_eq_mul, Finsupp.single_apply, rev_eq_inversions]
      obtain ⟨m1, m2⟩ := hmem p (by simp)
      have hiff := cubesOf_eq_iff t q p L
      by_cases hc : cubesOf t q p = L
      · obtain ⟨i1, i2⟩ := hiff.1 ⟨m1, m2, hc⟩
        have hn : ¬ (isSerreTerm t q L ∧ serrePositions q L ∈ P) := by
          rintro ⟨_, h⟩
          rw [← i2] at h
          exact hP.1 h
        rw [if_pos hc, if_neg hn, if_pos ⟨i1, by rw [← i2]; simp⟩, i2]
        simp
      · rw [if_neg hc, mul_zero, zero_add]
        apply if_congr _ rfl rfl
        rw [List.mem_cons]
        constructor
        · rintro ⟨h1, h2⟩; exact ⟨h1, Or.inr h2⟩
        · rintro ⟨h1, h2 | h2⟩
          · exact absurd (hiff.2 ⟨h1, h2.symm⟩).2.2 hc
          · exact ⟨h1, h2⟩
  rw [key _ (nodup_productRepeat List.nodup_range _) fun p hp => by
    rw [mem_productRepeat] at hp
    exact ⟨hp.1, fun f hf => List.mem_range.1 (hp.2 f hf)⟩]
  apply if_congr _ rfl rfl
  constructor
  · exact fun h => h.1
  · intro h
    refine ⟨h, ?_⟩
    obtain ⟨i1, i2, _⟩ := (cubesOf_eq_iff t q _ L).2 ⟨h, rfl⟩
    rw [mem_productRepeat]
    exact ⟨i1, fun f hf => List.mem_range.2 (i2 f hf)⟩

end Comch.Serre
