import Verif.Lib.SurjTensor
import Verif.Lib.Act

/-! # The sign of the action on chains, as computed by the code -/

set_option linter.unusedSectionVars false

namespace Comch.SurjComp
open Spec Elem SurjElem

/-! ### `ordering_sign` -/

theorem orderingSign_eq {σ : List Nat} {w : List Int} (hσ : σ.Nodup) (hw : w.length = σ.length) :
    orderingSign σ w = kos id (σ.zip w) % 2 := by
  unfold orderingSign
  congr 1
  rw [kos_eq_sum]
  have hg : ∀ y ∈ σ.zip w, (w[σ.idxOf y.1]?).getD 0 = y.2 := by
    intro y hy
    obtain ⟨i, hi, rfl⟩ := List.getElem_of_mem hy
    rw [List.length_zip, hw, min_self] at hi
    rw [List.getElem_zip, hσ.idxOf_getElem]
    simp [hw, hi]
  rw [enumerate_eq_map σ 0, enumerate_eq_map (σ.zip w) (0, 0), List.length_zip, hw, min_self,
    List.map_map, List.map_map]
  congr 1
  apply List.map_congr_left
  intro i hi
  rw [List.mem_range] at hi
  have hz : (σ.zip w).getD i (0, 0) = (σ.getD i 0, w.getD i 0) := by
    rw [List.getD_eq_getElem _ _ (by simp [hw, hi]), List.getElem_zip, List.getD_eq_getElem _ _ hi,
      List.getD_eq_getElem _ _ (by omega)]
  simp only [Function.comp, hz, id]
  rw [← List.getD_eq_getElem?_getD]
  congr 2
  have hd : σ.drop (i + 1) = ((σ.zip w).drop (i + 1)).map Prod.fst := by
    rw [List.map_drop, List.map_fst_zip (by omega)]
  rw [hd, List.filter_map, List.map_map]
  apply List.map_congr_left
  intro y hy
  exact hg y (List.mem_of_mem_drop (List.mem_filter.1 hy).1)

theorem kos_congr {σ k : List Nat} {w : List Int} (h1 : σ.length = k.length)
    (h : (σ.zip k).Pairwise fun a b => b.1 < a.1 ↔ b.2 < a.2) :
    kos id (σ.zip w) = kos id (k.zip w) := by
  induction σ generalizing k w with
  | nil =>
    cases k with
    | nil => rfl
    | cons => simp at h1
  | cons s σ ih =>
    cases k with
    | nil => simp at h1
    | cons x k =>
      cases w with
      | nil => rfl
      | cons u w =>
        rw [List.zip_cons_cons, List.pairwise_cons] at h
        rw [List.zip_cons_cons, List.zip_cons_cons, kos, kos, ih (by simpa using h1) h.2]
        congr 2
        have hlen : σ.length = k.length := by simpa using h1
        have hh := h.1
        clear h ih h1
        induction σ generalizing k w with
        | nil =>
          cases k with
          | nil => rfl
          | cons => simp at hlen
        | cons t σ ih =>
          cases k with
          | nil => simp at hlen
          | cons y k =>
            cases w with
            | nil => rfl
            | cons v w =>
              have h0 := hh (t, y) (by simp)
              have := ih (w := w) k (by simpa using hlen) (fun b hb => hh b (by simp [hb]))
              simp only [List.zip_cons_cons, List.filter_cons] at this ⊢
              simp only at h0
              by_cases ht : t < s
              · rw [if_pos (by simpa using ht), if_pos (by simpa using h0.1 ht), List.map_cons, List.map_cons,
                  List.sum_cons, List.sum_cons, this]
              · rw [if_neg (by simpa using ht), if_neg (by simpa using fun h => ht (h0.2 h)), this]

/-- The sort is stable. -/
theorem stable_sort (l : List (Nat × Nat)) (hl : l.Pairwise fun a b => a.1 < b.1) :
    (l.insertionSort (fun a b => a.2 ≤ b.2)).Pairwise
      fun a b => a.2 < b.2 ∨ (a.2 = b.2 ∧ a.1 < b.1) := by
  induction l with
  | nil => simp
  | cons p l ih =>
    rw [List.pairwise_cons] at hl
    have ih := ih hl.2
    rw [List.insertionSort_cons]
    have hp : ∀ b ∈ l.insertionSort (fun a b => a.2 ≤ b.2), p.1 < b.1 := fun b hb =>
      hl.1 b ((List.mem_insertionSort _).1 hb)
    generalize l.insertionSort (fun a b => a.2 ≤ b.2) = S at ih hp
    induction S with
    | nil => simp
    | cons b S ihS =>
      rw [List.pairwise_cons] at ih
      rw [List.orderedInsert_cons]
      split
      · rename_i hle
        rw [List.pairwise_cons]
        refine ⟨?_, List.pairwise_cons.2 ih⟩
        intro c hc
        rcases List.mem_cons.1 hc with rfl | hc
        · have := hp c (by simp); omega
        · have h1 := ih.1 c hc
          have := hp b (by simp)
          omega
      · rename_i hle
        rw [List.pairwise_cons]
        refine ⟨?_, ihS ih.2 (fun c hc => hp c (by simp [hc]))⟩
        intro c hc
        rw [List.mem_orderedInsert] at hc
        rcases hc with rfl | hc
        · omega
        · exact ih.1 c hc

theorem enumerate_pairwise (k : List Nat) : (enumerate k).Pairwise fun a b => a.1 < b.1 := by
  rw [enumerate_eq_map _ 0, List.pairwise_map]
  exact List.pairwise_lt_range

theorem inv_perm (k : List Nat) : (invOrderingPermu k).Perm (List.range k.length) := by
  unfold invOrderingPermu
  refine ((List.perm_insertionSort _ _).map _).trans ?_
  rw [enumerate_eq_map _ 0, List.map_map]
  have : (Prod.fst ∘ fun j => (j, k.getD j 0)) = id := by funext j; rfl
  rw [this, List.map_id]

theorem inv_pairwise (k : List Nat) :
    (invOrderingPermu k).Pairwise fun p q => k.getD p 0 < k.getD q 0 ∨ (k.getD p 0 = k.getD q 0 ∧ p < q) := by
  unfold invOrderingPermu
  rw [List.pairwise_map]
  refine List.Pairwise.imp_of_mem (fun {a b} ha hb h => ?_) (stable_sort _ (enumerate_pairwise k))
  have key : ∀ a ∈ (enumerate k).insertionSort (fun a b => a.2 ≤ b.2), k.getD a.1 0 = a.2 := by
    intro a ha
    rw [List.mem_insertionSort, enumerate_eq_map _ 0, List.mem_map] at ha
    obtain ⟨i, _, rfl⟩ := ha
    rfl
  rw [key a ha, key b hb]
  exact h

theorem idxOf_lt_iff {k : List Nat} {p q : Nat} (hp : p < k.length) (hq : q < k.length) (hpq : p < q) :
    (invOrderingPermu k).idxOf q < (invOrderingPermu k).idxOf p ↔ k.getD q 0 < k.getD p 0 := by
  have hperm := inv_perm k
  have hmem : ∀ i, i < k.length → i ∈ invOrderingPermu k := fun i hi =>
    hperm.mem_iff.2 (List.mem_range.2 hi)
  have hpw := inv_pairwise k
  generalize invOrderingPermu k = L at *
  have hqL := List.idxOf_lt_length_iff.2 (hmem q hq)
  have hpL := List.idxOf_lt_length_iff.2 (hmem p hp)
  rw [List.pairwise_iff_getElem] at hpw
  constructor
  · intro h
    have := hpw _ _ hqL hpL h
    rw [List.getElem_idxOf, List.getElem_idxOf] at this
    omega
  · intro h
    by_contra hn
    rcases Nat.lt_or_ge (L.idxOf p) (L.idxOf q) with h' | h'
    · have := hpw _ _ hpL hqL h'
      rw [List.getElem_idxOf, List.getElem_idxOf] at this
      omega
    · have e : L.idxOf p = L.idxOf q := by omega
      have h3 := List.getElem_idxOf hqL
      have h4 := List.getElem_idxOf hpL
      simp only [e] at h4
      rw [h3] at h4
      omega

theorem ordering_eq {k : List Nat} {w : List Int} (hw : w.length = k.length) :
    orderingSign ((List.range (invOrderingPermu k).length).map fun i => (invOrderingPermu k).idxOf i) w =
      kos id (k.zip w) % 2 := by
  have hlen : (invOrderingPermu k).length = k.length := by
    rw [(inv_perm k).length_eq, List.length_range]
  rw [hlen, orderingSign_eq]
  · congr 1
    apply kos_congr (by simp)
    rw [List.pairwise_iff_getElem]
    intro p q hp hq hpq
    simp only [List.length_zip, List.length_map, List.length_range, min_self] at hp hq
    simp only [List.getElem_zip, List.getElem_map, List.getElem_range]
    rw [idxOf_lt_iff hp hq hpq, List.getD_eq_getElem _ _ hp, List.getD_eq_getElem _ _ hq]
  · rw [List.nodup_map_iff_inj_on List.nodup_range]
    intro p hp q hq he
    rw [List.mem_range] at hp hq
    have hmem : ∀ i, i < k.length → i ∈ invOrderingPermu k := fun i hi =>
      (inv_perm k).mem_iff.2 (List.mem_range.2 hi)
    exact (List.idxOf_inj (hmem p hp)).1 he
  · simp [hw]

/-! ### `action_sign` -/

/-- Sum of the prefix sums at the repeated values of a sorted list. -/
def insE (acc : Int) : List (Nat × Int) → Int
  | [] => 0
  | [_] => 0
  | p :: q :: l => (if p.1 = q.1 then acc + p.2 else 0) + insE (acc + p.2) (q :: l)

theorem insertionSign_eq (L : List (Nat × Int)) :
    insertionSign (L.map Prod.fst) (L.map Prod.snd) = insE 0 L % 2 := by
  unfold insertionSign
  congr 1
  have : ∀ (L : List (Nat × Int)) (acc : Int),
      ((enumerate (pairwise (L.map Prod.fst))).map fun (x : Nat × Nat × Nat) =>
        if x.2.1 = x.2.2 then acc + ((L.map Prod.snd).take (x.1 + 1)).sum else 0).sum = insE acc L := by
    intro L
    induction L with
    | nil => intro acc; rfl
    | cons p L ih =>
      intro acc
      cases L with
      | nil => rfl
      | cons q L =>
        have hp : pairwise ((p :: q :: L).map Prod.fst) =
            (p.1, q.1) :: pairwise ((q :: L).map Prod.fst) := by simp [pairwise]
        rw [hp, enumerate_cons, List.map_cons, List.sum_cons, List.map_map, insE, ← ih (acc + p.2)]
        congr 1
        · simp
        · congr 1
          apply List.map_congr_left
          intro x _
          simp only [Function.comp, List.map_cons, List.take_succ_cons, List.sum_cons]
          split
          · ring
          · rfl
  have h0 := this L 0
  simp only [zero_add] at h0
  exact h0

/-- Sum of the second entries with a smaller first entry. -/
def lowSum (x : Nat) (l : List (Nat × Int)) : Int := ((l.filter fun y => y.1 < x).map Prod.snd).sum

theorem lowSum_cons (x : Nat) (p : Nat × Int) (l : List (Nat × Int)) :
    lowSum x (p :: l) = (if p.1 < x then p.2 else 0) + lowSum x l := by
  unfold lowSum
  rw [List.filter_cons]
  by_cases h : p.1 < x <;> simp [h]

theorem lowSum_perm {x : Nat} {l m : List (Nat × Int)} (h : l.Perm m) : lowSum x l = lowSum x m :=
  ((h.filter _).map _).sum_eq

theorem sdeg_perm {k m : List Nat} (h : k.Perm m) : sdeg k = sdeg m := by
  have h1 := sdeg_card k
  have h2 := sdeg_card m
  rw [List.toFinset_eq_of_perm _ _ h, h.length_eq] at h1
  omega

theorem insE_acc (a b : Int) (L : List (Nat × Int)) (h : L.Pairwise fun a b => a.1 ≤ b.1) :
    insE (a + b) L = insE a L + b * sdeg (L.map Prod.fst) := by
  induction L generalizing a with
  | nil => simp [insE, sdeg]
  | cons p L ih =>
    cases L with
    | nil => simp [insE, sdeg]
    | cons q L =>
      have hp := (List.pairwise_cons.1 h).1
      have h2 := (List.pairwise_cons.1 h).2
      have hiff : p.1 ∈ (q :: L).map Prod.fst ↔ p.1 = q.1 := by
        constructor
        · intro hm
          obtain ⟨c, hc, e⟩ := List.mem_map.1 hm
          have h3 := hp q (by simp)
          rcases List.mem_cons.1 hc with rfl | hc
          · exact e.symm
          · have := (List.pairwise_cons.1 h2).1 c hc
            omega
        · intro e
          rw [e]
          simp
      have hs : sdeg ((p :: q :: L).map Prod.fst) = (if p.1 = q.1 then 1 else 0) +
          sdeg ((q :: L).map Prod.fst) := by
        rw [List.map_cons, sdeg, if_congr hiff rfl rfl]
      rw [insE, insE, show a + b + p.2 = a + p.2 + b by ring, ih (a + p.2) h2, hs]
      push_cast
      split <;> ring

theorem insE_insert (acc : Int) (x : Nat) (u : Int) (L : List (Nat × Int))
    (h : L.Pairwise fun a b => a.1 ≤ b.1) :
    insE acc (L.orderedInsert (fun a b => a.1 ≤ b.1) (x, u)) = insE acc L +
      (if x ∈ L.map Prod.fst then acc + lowSum x L + u else 0) +
        u * sdeg ((L.map Prod.fst).filter (x ≤ ·)) := by
  induction L generalizing acc with
  | nil => simp [insE, sdeg]
  | cons p L ih =>
    have hp := (List.pairwise_cons.1 h).1
    have h2 := (List.pairwise_cons.1 h).2
    rw [List.orderedInsert_cons]
    split
    · rename_i hle
      have hle : x ≤ p.1 := hle
      have hall : ∀ c ∈ p :: L, x ≤ c.1 := by
        intro c hc
        rcases List.mem_cons.1 hc with rfl | hc
        · exact hle
        · have := hp c hc; omega
      have hiff : x ∈ (p :: L).map Prod.fst ↔ x = p.1 := by
        constructor
        · intro hm
          obtain ⟨c, hc, e⟩ := List.mem_map.1 hm
          rcases List.mem_cons.1 hc with rfl | hc
          · exact e.symm
          · have := hp c hc
            omega
        · intro e
          rw [e]
          simp
      have hlow : lowSum x (p :: L) = 0 := by
        unfold lowSum
        rw [List.filter_eq_nil_iff.2]
        · rfl
        · intro c hc
          have := hall c hc
          simp; omega
      have hfil : ((p :: L).map Prod.fst).filter (x ≤ ·) = (p :: L).map Prod.fst := by
        rw [List.filter_eq_self]
        intro c hc
        obtain ⟨d, hd, rfl⟩ := List.mem_map.1 hc
        simpa using hall d hd
      rw [insE, insE_acc _ _ _ h, hlow, hfil]
      simp only [hiff]
      split <;> ring
    · rename_i hle
      have hlt : p.1 < x := by simpa using hle
      have ih := ih (acc + p.2) h2
      have hhead : insE acc (p :: L.orderedInsert (fun a b => a.1 ≤ b.1) (x, u)) - insE (acc + p.2)
          (L.orderedInsert (fun a b => a.1 ≤ b.1) (x, u)) = insE acc (p :: L) - insE (acc + p.2) L := by
        cases L with
        | nil => simp [insE]; omega
        | cons q L =>
          rw [List.orderedInsert_cons]
          split
          · rename_i hq
            have hq : x ≤ q.1 := hq
            have e1 : insE acc (p :: (x, u) :: q :: L) = insE (acc + p.2) ((x, u) :: q :: L) := by
              rw [insE, if_neg (by simp; omega), zero_add]
            have e2 : insE acc (p :: q :: L) = insE (acc + p.2) (q :: L) := by
              rw [insE, if_neg (by omega), zero_add]
            rw [e1, e2]
            ring
          · rw [insE, insE]
            ring
      have hmem : x ∈ (p :: L).map Prod.fst ↔ x ∈ L.map Prod.fst := by
        rw [List.map_cons, List.mem_cons]
        constructor
        · rintro (e | e)
          · omega
          · exact e
        · exact Or.inr
      have hfil : ((p :: L).map Prod.fst).filter (x ≤ ·) = (L.map Prod.fst).filter (x ≤ ·) := by
        rw [List.map_cons, List.filter_cons, if_neg (by simpa using hlt)]
      rw [hfil, lowSum_cons, if_pos hlt]
      simp only [hmem]
      have e1 : acc + (p.2 + lowSum x L) + u = acc + p.2 + lowSum x L + u := by ring
      rw [e1]
      linarith

/-! ### both parts -/

/-- Recursive form of the exponent. -/
def cexp : List (Nat × Int) → Int
  | [] => 0
  | p :: l => p.2 * lowSum p.1 l + (if p.1 ∈ l.map Prod.fst then lowSum p.1 l + p.2 else 0) +
      p.2 * sdeg ((l.map Prod.fst).filter (p.1 ≤ ·)) + cexp l

theorem cexp_eq (l : List (Nat × Int)) : cexp l = kos id l + insE 0 (sortl l) := by
  induction l with
  | nil => rfl
  | cons p l ih =>
    obtain ⟨x, u⟩ := p
    rw [cexp, ih, kos]
    have h1 : sortl ((x, u) :: l) = (sortl l).orderedInsert (fun a b => a.1 ≤ b.1) (x, u) := rfl
    rw [h1, insE_insert _ _ _ _ (sortl_pairwise l)]
    have hp := sortl_perm l
    rw [lowSum_perm hp, sdeg_perm ((hp.map Prod.fst).filter _)]
    have hm : x ∈ (sortl l).map Prod.fst ↔ x ∈ l.map Prod.fst := (hp.map Prod.fst).mem_iff
    simp only [hm]
    unfold lowSum
    simp only [id, zero_add]
    ring

theorem computeSign_eq {k : List Nat} {w : List Int} (hw : w.length = k.length) :
    computeSign k w = pySign (cexp (k.zip w)) := by
  unfold computeSign
  simp only
  rw [ordering_eq hw]
  have hS : (enumerate k).map (fun p => (p.2, (w[p.1]?).getD 0)) = k.zip w := by
    rw [enumerate_eq_map _ 0, List.map_map]
    apply List.ext_getElem
    · simp [hw]
    · intro i h1 h2
      simp only [List.length_map, List.length_range] at h1
      simp [h1, hw]
  have hsort : ((enumerate k).insertionSort (fun a b => a.2 ≤ b.2)).map
      (fun p => (p.2, (w[p.1]?).getD 0)) = sortl (k.zip w) := by
    unfold sortl
    rw [← hS]
    apply List.map_insertionSort
    intro a _ b _
    exact Iff.rfl
  have h1 : k.insertionSort (· ≤ ·) = (sortl (k.zip w)).map Prod.fst := by
    unfold sortl
    rw [List.map_insertionSort (fun (a b : Nat × Int) => a.1 ≤ b.1) (· ≤ ·) Prod.fst (k.zip w)
      (fun _ _ _ _ => Iff.rfl), List.map_fst_zip (by omega)]
  have h2 : (invOrderingPermu k).map (fun i => (w[i]?).getD 0) = (sortl (k.zip w)).map Prod.snd := by
    rw [← hsort, List.map_map]
    unfold invOrderingPermu
    rw [List.map_map]
    rfl
  rw [h1, h2, insertionSign_eq, cexp_eq]
  apply pySign_congr
  omega

end Comch.SurjComp
