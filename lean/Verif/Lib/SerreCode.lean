import Verif.Lib.Serre
import Verif.Lib.Product

/-! # The loops of `iterated_diagonal` of cubes -/

set_option linter.unusedSectionVars false

namespace Comch.Serre
open Finsupp (single)
open CElem

variable {R : Type} [CommRing R]

theorem mem_enum {α : Type} {l : List α} {i : Nat} {a : α} : (i, a) ∈ enumerate l ↔ l[i]? = some a := by
  induction l generalizing i with
  | nil => simp [enumerate]
  | cons b l ih =>
    rw [enumerate_cons, List.mem_cons, List.mem_map]
    cases i with
    | zero => simp [eq_comm]
    | succ i =>
      rw [List.getElem?_cons_succ, ← ih]
      constructor
      · rintro (h | ⟨⟨j, c⟩, h, e⟩)
        · simp at h
        · simp only [Prod.mk.injEq, Nat.add_right_cancel_iff] at e
          obtain ⟨rfl, rfl⟩ := e; exact h
      · intro h; exact Or.inr ⟨(i, a), h, rfl⟩

theorem map_snd_enum {α : Type} (l : List α) (P : α → Bool) :
    ((enumerate l).filter fun p => P p.2).map Prod.snd = l.filter P := by
  induction l with
  | nil => rfl
  | cons a l ih =>
    rw [enumerate_cons, List.filter_cons, List.filter_cons, ← ih]
    have : (((enumerate l).map fun p => (p.1 + 1, p.2)).filter fun p => P p.2).map Prod.snd =
        ((enumerate l).filter fun p => P p.2).map Prod.snd := by
      rw [List.filter_map, List.map_map]; rfl
    split <;> simp [this]

theorem base_eq (c : Cube) : base c = c.filter fun e => e != 2 := by
  rw [← map_snd_enum, base]
  congr 1
  apply List.filter_congr
  rintro ⟨i, e⟩ h
  rw [mem_enum] at h
  rw [Bool.eq_iff_iff]
  simp only [Cube.intervals, Bool.not_eq_true', List.contains_eq_mem, decide_eq_false_iff_not, List.mem_map,
    List.mem_filter, bne_iff_ne, ne_eq, not_iff_not]
  constructor
  · rintro ⟨⟨j, f⟩, ⟨h1, h2⟩, rfl⟩
    rw [mem_enum] at h1
    simp only [beq_iff_eq] at h2
    rw [h1] at h; cases h; exact h2
  · rintro rfl
    exact ⟨(i, 2), ⟨mem_enum.2 h, by simp⟩, rfl⟩

/-- Replace the intervals of a cube by the given digits. -/
def subst : Cube → List Nat → Cube
  | [], _ => []
  | e :: c, ds => if e = 2 then (match ds with
      | [] => []
      | d :: ds => d :: subst c ds) else e :: subst c ds

theorem subst_two (c : Cube) (d : Nat) (ds : List Nat) : subst (2 :: c) (d :: ds) = d :: subst c ds := by
  simp [subst]

theorem subst_ne {e : Nat} (he : e ≠ 2) (c : Cube) (ds : List Nat) : subst (e :: c) ds = e :: subst c ds := by
  simp [subst, he]

theorem listInsert_succ (e : Nat) (l : List Nat) (p x : Nat) :
    listInsert (e :: l) (p + 1) x = e :: listInsert l p x := by simp [listInsert]

theorem foldl_insert_succ (e : Nat) (L : List (Nat × Nat)) (l : List Nat) :
    (L.map fun p => (p.1 + 1, p.2)).foldl (fun nb p => listInsert nb p.1 p.2) (e :: l) =
      e :: L.foldl (fun nb p => listInsert nb p.1 p.2) l := by
  induction L generalizing l with
  | nil => rfl
  | cons p L ih => rw [List.map_cons, List.foldl_cons, List.foldl_cons, listInsert_succ, ih]

theorem foldl_insert_zip (c : Cube) (ds : List Nat) (h : ds.length = c.dimension) :
    (c.intervals.zip ds).foldl (fun nb p => listInsert nb p.1 p.2) (base c) = subst c ds := by
  rw [base_eq]
  induction c generalizing ds with
  | nil => rfl
  | cons e c ih =>
    rw [Cube.intervals_cons, List.filter_cons]
    rw [Cube.dimension_cons] at h
    have hz : ∀ ds : List Nat, ((Cube.intervals c).map (· + 1)).zip ds = ((Cube.intervals c).zip ds).map fun p => (p.1 + 1, p.2) := by
      intro ds
      rw [List.zip_map_left]; rfl
    by_cases he : e = 2
    · subst he
      rw [if_pos rfl] at h
      cases ds with
      | nil => simp at h
      | cons d ds =>
        rw [subst_two, if_pos rfl, if_neg (by simp), List.zip_cons_cons, List.foldl_cons, hz]
        rw [show listInsert (List.filter (fun e => e != 2) c) 0 d = d :: List.filter (fun e => e != 2) c by
          simp [listInsert], foldl_insert_succ, ih ds (by simpa using h)]
    · rw [subst_ne he, if_neg he, if_pos (by simpa using he), hz, foldl_insert_succ, ih ds (by simpa [he] using h)]

theorem enumerate_map_eq {α β : Type} (l : List α) (f : Nat → α → β) :
    ((enumerate l).map fun p => f p.1 p.2) = l.mapIdx f := by
  induction l generalizing f with
  | nil => rfl
  | cons a l ih =>
    rw [enumerate_cons, List.map_cons, List.map_map, List.mapIdx_cons, ← ih]
    rfl

theorem foldlM_ok {α β : Type} (f : β → α → Py β) (g : β → α → β) (l : List α) (b : β)
    (h : ∀ a ∈ l, ∀ b, f b a = .ok (g b a)) : l.foldlM f b = .ok (l.foldl g b) := by
  induction l generalizing b with
  | nil => rfl
  | cons a l ih =>
    rw [List.foldlM_cons, h a (by simp), List.foldl_cons]
    exact ih _ fun a' ha => h a' (List.mem_cons_of_mem _ ha)

theorem foldl_mapIdx {α β : Type} (L : List α) (g : Nat → β → α → β) (l : List β) :
    L.foldl (fun mb a => mb.mapIdx fun i b => g i b a) l = l.mapIdx fun i b => L.foldl (g i) b := by
  induction L generalizing l with
  | nil =>
    simp only [List.foldl_nil]
    exact (List.mapIdx_eq_iff.2 fun i => by simp).symm
  | cons a L ih =>
    rw [List.foldl_cons, ih, List.mapIdx_mapIdx]
    rfl

/-- The cubes belonging to a choice of positions. -/
def cubesOf (t : Nat) (c : Cube) (p : List Nat) : List Cube :=
  (List.range (t + 1)).map fun i => subst c (p.map fun f => elementarySummand f i)

theorem multibase_eq (t : Nat) (c : Cube) (p : List Nat) (hp : p.length = c.dimension) :
    multibase t c p = .ok (cubesOf t c p) := by
  unfold multibase
  rw [foldlM_ok _ (fun mb a => mb.mapIdx fun i nb => listInsert nb (c.intervals.getD a.1 0) (elementarySummand a.2 i))]
  · congr 1
    rw [foldl_mapIdx (enumerate p) (fun i nb a => listInsert nb (c.intervals.getD a.1 0) (elementarySummand a.2 i))]
    apply List.ext_getElem
    · simp [cubesOf]
    · intro i h1 h2
      simp only [List.length_mapIdx, List.length_replicate] at h1
      simp only [List.getElem_mapIdx, List.getElem_replicate, cubesOf, List.getElem_map, List.getElem_range]
      rw [← foldl_insert_zip c _ (by simpa using hp)]
      have : c.intervals.zip (p.map fun f => elementarySummand f i) =
          (enumerate p).map fun a => (c.intervals.getD a.1 0, elementarySummand a.2 i) := by
        rw [enumerate_map_eq p fun j f => (c.intervals.getD j 0, elementarySummand f i)]
        apply List.ext_getElem
        · simp [Cube.length_intervals, hp]
        · intro j h3 h4
          simp only [List.length_mapIdx] at h4
          have h5 : j < c.intervals.length := by rw [Cube.length_intervals, ← hp]; exact h4
          simp [List.getD_eq_getElem?_getD, h5]
      rw [this, List.foldl_map]
  · rintro ⟨idx, f⟩ ha mb
    rw [mem_enum] at ha
    have h : idx < c.intervals.length := by
      rw [Cube.length_intervals, ← hp]
      by_contra h
      rw [List.getElem?_eq_none (by omega)] at ha
      cases ha
    have e1 : pyGet c.intervals idx = .ok (c.intervals.getD idx 0) := by
      simp [pyGet, h, List.getD_eq_getElem?_getD]
    simp only [e1]
    exact congrArg Except.ok (enumerate_map_eq mb fun i nb => listInsert nb (c.intervals.getD idx 0) (elementarySummand f i))

/-! ### signs -/

/-- Number of pairs in the wrong order. -/
def rev : List Nat → Nat
  | [] => 0
  | f :: p => (p.filter fun b => decide (b < f)).length + rev p

theorem combinations_one {α : Type} (l : List α) : combinations l 1 = l.map fun a => [a] := by
  induction l with
  | nil => rfl
  | cons a l ih => rw [combinations, ih]; simp [combinations]

theorem reversedPairsSign_eq (p : List Nat) : reversedPairsSign p = pySign (rev p : Int) := by
  unfold reversedPairsSign
  congr 2
  induction p with
  | nil => rfl
  | cons f p ih =>
    rw [combinations, combinations_one, List.filter_append, List.length_append, ih, rev]
    congr 1
    rw [List.map_map, List.filter_map, List.length_map]
    congr 1

theorem count_subst (c : Cube) (ds : List Nat) (h : ds.length = c.dimension) :
    cdim (subst c ds) = (ds.count 2 : Int) := by
  induction c generalizing ds with
  | nil =>
    simp only [Cube.dimension, List.count_nil, List.length_eq_zero_iff] at h
    subst h; rfl
  | cons e c ih =>
    rw [Cube.dimension_cons] at h
    by_cases he : e = 2
    · subst he
      cases ds with
      | nil => simp at h
      | cons d ds =>
        rw [subst_two, cdim_cons, ih ds (by simpa using h), List.count_cons]
        push_cast
        congr 1
        by_cases hd : d = 2 <;> simp [hd]
    · rw [subst_ne he, cdim_cons_ne he, ih ds (by simpa [he] using h)]

theorem elementarySummand_two (f i : Nat) : elementarySummand f i = 2 ↔ f = i := by
  unfold elementarySummand
  split
  · simp; omega
  · split
    · simp; omega
    · simp; omega

theorem count_column (p : List Nat) (i : Nat) : (p.map fun f => elementarySummand f i).count 2 = p.count i := by
  induction p with
  | nil => rfl
  | cons f p ih =>
    rw [List.map_cons, List.count_cons, List.count_cons, ih]
    congr 1
    have := elementarySummand_two f i
    by_cases h : f = i
    · simp [h, this.2 h]
      exact (elementarySummand_two i i).2 rfl
    · have h' : ¬ elementarySummand f i = 2 := fun e => h (this.1 e)
      simp [h, h']

theorem totDeg_take_cubesOf (t : Nat) (c : Cube) (p : List Nat) (hp : p.length = c.dimension) (f : Nat) (hf : f ≤ t + 1) :
    totDeg cdim ((cubesOf t c p).take f) = ((p.filter fun b => decide (b < f)).length : Int) := by
  unfold cubesOf
  rw [← List.map_take, List.take_range, Nat.min_eq_left hf, totDeg_eq_sum, List.map_map]
  clear hf
  induction f with
  | zero => simp
  | succ f ih =>
    rw [List.range_succ, List.map_append, List.sum_append, ih]
    simp only [List.map_cons, List.map_nil, List.sum_cons, List.sum_nil, Function.comp, add_zero]
    rw [count_subst _ _ (by simpa using hp), count_column]
    rw [← Nat.cast_add]
    congr 1
    clear hp ih
    induction p with
    | nil => rfl
    | cons b p ih =>
      rw [List.count_cons, List.filter_cons, List.filter_cons]
      by_cases h : b = f
      · subst h
        simp only [lt_irrefl, decide_false, Bool.false_eq_true, if_false, beq_self_eq_true, if_true, Nat.lt_succ_self,
          decide_true, List.length_cons]
        omega
      · by_cases h2 : b < f
        · have h3 : b < f + 1 := by omega
          simp only [h, h2, h3, decide_true, if_true, List.length_cons, beq_iff_eq, if_false]
          omega
        · have h3 : ¬ b < f + 1 := by omega
          simp only [h, h2, h3, decide_false, Bool.false_eq_true, beq_iff_eq, if_false]
          omega

theorem tK_eq_sum (k : CKey) : tK (R := R) k =
    ((List.range k.length).map fun f => sg R (totDeg cdim (k.take f)) •
      bv R (k.mapIdx fun i a => elementarySummand f i :: a)).sum := by
  induction k with
  | nil => simp [tK]
  | cons a k ih =>
    rw [tK, List.length_cons, List.range_succ_eq_map, List.map_cons, List.sum_cons, List.map_map]
    congr 1
    · have : k.mapIdx (fun i b => elementarySummand 0 (i + 1) :: b) = k.map (1 :: ·) := by
        apply List.ext_getElem
        · simp
        · intro i h1 h2
          simp [elementarySummand]
      rw [List.mapIdx_cons, this]
      simp [totDeg, elementarySummand]
    · rw [ih, map_list_sum, List.smul_sum, List.map_map, List.map_map]
      congr 1
      apply List.map_congr_left
      intro f _
      simp only [Function.comp, map_smul, consV_single, smul_smul, List.take_succ_cons, totDeg, sg_add]
      rw [List.mapIdx_cons]
      congr 3
      · congr 1
        funext i b
        unfold elementarySummand
        congr 1
        simp only [Nat.succ_eq_add_one, Nat.add_lt_add_iff_right, Nat.add_right_cancel_iff]

theorem mapIdx_cubesOf (t : Nat) (c : Cube) (p : List Nat) (f : Nat) :
    ((cubesOf t c p).mapIdx fun i a => elementarySummand f i :: a) = cubesOf t (2 :: c) (f :: p) := by
  apply List.ext_getElem
  · simp [cubesOf]
  · intro i h1 h2
    simp [cubesOf, subst]

/-- The sum over all choices of positions. -/
theorem sum_cubesOf (t : Nat) (c : Cube) :
    ((productRepeat (List.range (t + 1)) c.dimension).map fun p =>
      sg R (rev p) • bv R (cubesOf t c p)).sum = serre t c := by
  induction c with
  | nil =>
    simp [Cube.dimension, productRepeat, rev, serre, cubesOf, subst]
  | cons e c ih =>
    rw [Cube.dimension_cons]
    by_cases he : e = 2
    · subst he
      rw [if_pos rfl, serre, if_pos rfl, ← ih, map_list_sum, List.map_map, productRepeat]
      have h1 : ∀ p ∈ productRepeat (List.range (t + 1)) (Cube.dimension c),
          (tL ∘ fun p => sg R (rev p) • bv R (cubesOf t c p)) p =
            ((List.range (t + 1)).map fun f => sg R (rev (f :: p)) • bv R (cubesOf t (2 :: c) (f :: p))).sum := by
        intro p hp
        rw [mem_productRepeat] at hp
        simp only [Function.comp, map_smul, tL_single, one_smul]
        rw [tK_eq_sum, List.smul_sum, List.map_map]
        have hl : (cubesOf t c p).length = t + 1 := by simp [cubesOf]
        rw [hl]
        congr 1
        apply List.map_congr_left
        intro f hf
        rw [List.mem_range] at hf
        simp only [Function.comp, smul_smul]
        rw [mapIdx_cubesOf, totDeg_take_cubesOf t c p hp.1 f (by omega), ← sg_add, rev]
        congr 2
        push_cast; ring
      rw [List.map_congr_left h1]
      generalize productRepeat (List.range (t + 1)) (Cube.dimension c) = P
      generalize List.range (t + 1) = F
      induction F with
      | nil => simp
      | cons f F ih =>
        rw [List.flatMap_cons, List.map_append, List.sum_append, ih, List.map_map]
        clear ih
        simp only [List.map_cons, List.sum_cons]
        rw [← List.sum_map_add]
        rfl
    · rw [if_neg he, add_zero, serre, if_neg he, ← ih, map_list_sum, List.map_map]
      congr 1
      apply List.map_congr_left
      intro p _
      simp only [Function.comp, map_smul, mapK_single]
      congr 2
      simp [cubesOf, subst, he]

end Comch.Serre
