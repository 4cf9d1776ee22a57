import Verif.Props.Locality
import Verif.Props.ComposeCoeff
import Verif.Props.OrbitBoundary

/-! # The extremal part of the action on simplicial chains: C88 -/

set_option linter.unusedSectionVars false

namespace Comch
namespace SurjComp
open Comch.Spec Elem SurjElem

/-- The concatenation of the pieces with label `v`. -/
def lab (v : Nat) (k : List Nat) (ps : List (List Nat)) : List Nat :=
  (((k.zip ps).filter fun p => p.1 = v).map Prod.snd).flatten

theorem lab_cons (v x : Nat) (k q : List Nat) (ps : List (List Nat)) :
    lab v (x :: k) (q :: ps) = if x = v then q ++ lab v k ps else lab v k ps := by
  unfold lab
  by_cases h : x = v <;> simp [h]

theorem lab_weakSub {n v : Nat} {k V : List Nat} {ps : List (List Nat)} (h : ps ∈ allCuts n V) :
    WeakSub V (lab v k ps) := by
  refine (weakSub_of_cut h).sublist ?_
  have h2 : ((k.zip ps).map Prod.snd).Sublist ps := by
    clear h
    induction k generalizing ps with
    | nil => simp
    | cons a k ih =>
      cases ps with
      | nil => simp
      | cons p ps => simpa using ih
  exact List.Sublist.flatten ((List.filter_sublist.map Prod.snd).trans h2)

/-- All the labels have the wanted value. -/
def Good (r : Nat) (T : Nat → List Nat) (k : List Nat) (ps : List (List Nat)) : Prop :=
  ∀ v ∈ Finset.Icc 1 r, lab v k ps = T v

instance (r : Nat) (T : Nat → List Nat) (k : List Nat) (ps : List (List Nat)) : Decidable (Good r T k ps) := by
  unfold Good; infer_instance

/-- The number of cuts with the wanted labels. -/
def cnt (r : Nat) (T : Nat → List Nat) (k V : List Nat) : Nat :=
  (allCuts k.length V).countP fun ps => Good r T k ps

def target (S : Finset Nat) (a : Nat) (w : List Nat) (v : Nat) : List Nat := if v ∈ S then w else a :: w

variable {r : Nat}

theorem cnt_step {x a : Nat} {k w : List Nat} (hk : k ≠ []) (T : Nat → List Nat) :
    cnt r T (x :: k) (a :: w) = (allCuts k.length (a :: w)).countP (fun ps => Good r T (x :: k) ([a] :: ps)) +
      (allCuts (k.length + 1) w).countP (fun ps => Good r T (x :: k) ((a :: ps.headD []) :: ps.tail)) := by
  obtain ⟨y, k, rfl⟩ := List.exists_cons_of_ne_nil hk
  unfold cnt
  rw [List.length_cons, List.length_cons, allCuts_cons, List.countP_append, List.countP_map, List.countP_map]
  rfl

theorem cnt_mem {S : Finset Nat} {x a : Nat} {k w : List Nat} (hk : k ≠ []) (hx : x ∈ Finset.Icc 1 r) (hxS : x ∈ S)
    (hw : w.head? ≠ some a) : cnt r (target S a w) (x :: k) (a :: w) = 0 := by
  rw [cnt_step hk]
  have h1 : ∀ q qs, ¬ Good r (target S a w) (x :: k) ((a :: q) :: qs) := by
    intro q qs h
    have := h x hx
    rw [lab_cons, if_pos rfl, target, if_pos hxS] at this
    rw [← this] at hw
    exact hw rfl
  rw [List.countP_eq_zero.2 (fun ps _ => by simpa using h1 [] ps),
    List.countP_eq_zero.2 (fun ps _ => by simpa using h1 _ _)]

theorem cnt_not_mem {S : Finset Nat} {x a : Nat} {k w : List Nat} (hk : k ≠ []) (hxS : x ∉ S)
    {v : Nat} (hv : v ∈ Finset.Icc 1 r) (hvS : v ∉ S) (hvx : v ≠ x) (hr : hasRep (a :: w) = false) :
    cnt r (target S a w) (x :: k) (a :: w) = cnt r (target (insert x S) a w) k (a :: w) := by
  rw [cnt_step hk, (List.countP_eq_zero (l := allCuts (k.length + 1) w)).2, add_zero]
  · unfold cnt
    congr 1
    funext ps
    refine decide_eq_decide.2 ?_
    unfold Good
    refine forall₂_congr fun u hu => ?_
    rw [lab_cons]
    by_cases h : x = u
    · subst h
      rw [if_pos rfl, target, target, if_neg hxS, if_pos (by simp)]
      simp
    · rw [if_neg h, target, target]
      have : u ∈ insert x S ↔ u ∈ S := by
        rw [Finset.mem_insert]
        exact ⟨fun h' => h'.resolve_left (Ne.symm h), Or.inr⟩
      simp only [this]
  · intro ps hps
    simp only [decide_eq_true_eq]
    intro h
    have h := h v hv
    rw [lab_cons, if_neg (Ne.symm hvx), target, if_neg hvS] at h
    have hw : w ≠ [] := by
      rintro rfl
      obtain ⟨y, k, rfl⟩ := List.exists_cons_of_ne_nil hk
      rw [List.length_cons, allCuts_nil] at hps
      simp at hps
    obtain ⟨b, q, qs, rfl⟩ := mem_allCuts_head hw hps
    have h2 : lab v (x :: k) ((b :: q) :: qs) = a :: w := by
      rw [lab_cons, if_neg (Ne.symm hvx)]
      exact h
    have := (lab_weakSub (v := v) (k := x :: k) hps)
    rw [h2] at this
    have := (this.toSublist hr).length_le
    simp at this

theorem cnt_last {S : Finset Nat} {x a b : Nat} {k w : List Nat} (hk : k ≠ []) (hxS : x ∉ S)
    (hS : insert x S = Finset.Icc 1 r) (hka : ∀ y ∈ k, y ∈ Finset.Icc 1 r) (hab : a ≠ b) :
    cnt r (target S a (b :: w)) (x :: k) (a :: b :: w) = cnt r (target ∅ b w) (x :: k) (b :: w) := by
  rw [cnt_step hk, (List.countP_eq_zero (l := allCuts k.length (a :: b :: w))).2, zero_add]
  · unfold cnt
    rw [List.length_cons]
    apply List.countP_congr
    intro ps hps
    obtain ⟨b', q, qs, rfl⟩ := mem_allCuts_head (by simp) hps
    simp only [decide_eq_true_eq]
    unfold Good
    refine forall₂_congr fun u hu => ?_
    rw [lab_cons, lab_cons, List.headD_cons, List.tail_cons]
    by_cases h : x = u
    · subst h
      rw [if_pos rfl, if_pos rfl, target, target, if_neg hxS, if_neg (by simp)]
      simp
    · rw [← hS, Finset.mem_insert] at hu
      have hT1 : target S a (b :: w) u = b :: w := if_pos (hu.resolve_left (Ne.symm h))
      have hT2 : target ∅ b w u = b :: w := if_neg (by simp)
      rw [if_neg h, if_neg h, hT1, hT2]
  · intro ps hps
    simp only [decide_eq_true_eq]
    intro h
    obtain ⟨y, k, rfl⟩ := List.exists_cons_of_ne_nil hk
    have hy := hka y (by simp)
    have h := h y hy
    obtain ⟨c, q, qs, rfl⟩ := mem_allCuts_head (by simp) hps
    have hc : c = a := by
      have := (weakSub_of_cut hps)
      rw [List.length_cons] at hps
      clear h this
      cases k with
      | nil => simp [allCuts] at hps; exact hps.1.1
      | cons z k =>
        rw [List.length_cons, allCuts_cons] at hps
        simp at hps
        rcases hps with ⟨h, h'⟩ | ⟨p, -, h, h'⟩
        · exact h'.1.symm
        · exact h.1.symm
    subst hc
    by_cases hxy : x = y
    · subst hxy
      rw [lab_cons, if_pos rfl, lab_cons, if_pos rfl, target, if_neg hxS] at h
      simp at h
      exact hab h.1
    · rw [lab_cons, if_neg hxy, lab_cons, if_pos rfl, target, if_pos] at h
      · simp at h
        exact hab h.1
      · rw [← hS, Finset.mem_insert] at hy
        exact hy.resolve_left (Ne.symm hxy)

/-- The words which can fill all the factors completely. -/
def Win (r : Nat) (S : Finset Nat) (n : Nat) (k : List Nat) : Prop :=
  (k.take (r - S.card)).Nodup ∧ (∀ v ∈ k.take (r - S.card), v ∉ S) ∧
    ∀ j < n, ((k.drop (r - S.card - 1 + j * (r - 1))).take r).Nodup

instance (r : Nat) (S : Finset Nat) (n : Nat) (k : List Nat) : Decidable (Win r S n k) := by
  unfold Win; infer_instance

theorem cnt_eq (hr2 : 2 ≤ r) (w : List Nat) : ∀ (a : Nat), hasRep (a :: w) = false → ∀ (k : List Nat) (S : Finset Nat),
    S ⊆ Finset.Icc 1 r → S.card < r → (∀ y ∈ k, y ∈ Finset.Icc 1 r) →
    k.length = r - S.card + w.length * (r - 1) →
    cnt r (target S a w) k (a :: w) = if Win r S w.length k then 1 else 0 := by
  induction w with
  | nil =>
    intro a hr k
    induction k with
    | nil => intro S hS hc _ hl; simp at hl; omega
    | cons x k ih =>
      intro S hS hc hk hl
      have hx := hk x (by simp)
      by_cases hxS : x ∈ S
      · rw [if_neg]
        · by_cases hk0 : k = []
          · subst hk0
            unfold cnt
            rw [List.countP_eq_zero.2]
            intro ps hps
            simp only [decide_eq_true_eq]
            intro h
            have h := h x hx
            simp [allCuts] at hps
            subst hps
            rw [lab_cons, if_pos rfl, target, if_pos hxS] at h
            simp at h
          · exact cnt_mem hk0 hx hxS (by simp)
        · rintro ⟨-, h, -⟩
          obtain ⟨m, hm⟩ : ∃ m, r - S.card = m + 1 := ⟨r - S.card - 1, by omega⟩
          rw [hm] at h
          exact h x (by simp) hxS
      · have hci : (insert x S).card = S.card + 1 := Finset.card_insert_of_notMem hxS
        by_cases hc' : S.card + 1 = r
        · have hk0 : k = [] := by
            simp at hl
            rw [← List.length_eq_zero_iff]
            omega
          subst hk0
          rw [if_pos]
          · unfold cnt
            simp only [List.length_cons, List.length_nil, allCuts]
            rw [List.countP_singleton, if_pos]
            simp only [decide_eq_true_eq]
            intro v hv
            rw [lab_cons, target]
            have hS' : insert x S = Finset.Icc 1 r := by
              apply Finset.eq_of_subset_of_card_le (Finset.insert_subset hx hS)
              rw [hci]; simp; omega
            rw [← hS', Finset.mem_insert] at hv
            by_cases h : x = v
            · subst h
              rw [if_pos rfl, if_neg hxS]
              simp [lab]
            · rw [if_neg h, if_pos (hv.resolve_left (Ne.symm h))]
              simp [lab]
          · refine ⟨?_, ?_, by simp⟩
            · rw [show r - S.card = 1 by omega]; simp
            · rw [show r - S.card = 1 by omega]; simpa using hxS
        · have hk0 : k ≠ [] := by
            rintro rfl
            simp at hl
            omega
          obtain ⟨v, hv, hvS⟩ : ∃ v ∈ Finset.Icc 1 r, v ∉ insert x S := by
            by_contra hcon
            push Not at hcon
            have := Finset.card_le_card hcon
            rw [hci] at this
            simp at this
            omega
          rw [Finset.mem_insert, not_or] at hvS
          rw [cnt_not_mem hk0 hxS hv hvS.2 hvS.1 hr, ih (insert x S) (Finset.insert_subset hx hS) (by omega)
            (fun y hy => hk y (by simp [hy])) (by simp at hl ⊢; omega)]
          congr 1
          rw [eq_iff_iff]
          unfold Win
          obtain ⟨m, hm⟩ : ∃ m, r - S.card = m + 1 := ⟨r - S.card - 1, by omega⟩
          rw [hm, show r - (insert x S).card = m by omega]
          simp only [List.take_succ_cons, List.nodup_cons, List.mem_cons, forall_eq_or_imp, Finset.mem_insert, not_or,
            List.length_nil, not_lt_zero, false_imp_iff, implies_true, and_true]
          constructor
          · rintro ⟨h1, h2⟩
            exact ⟨⟨fun h => (h2 x h).1 rfl, h1⟩, hxS, fun u hu => (h2 u hu).2⟩
          · rintro ⟨⟨h1, h2⟩, -, h3⟩
            exact ⟨h2, fun u hu => ⟨fun h => h1 (h ▸ hu), h3 u hu⟩⟩
  | cons b w ihw =>
    intro a hr k
    have hr' : a ≠ b ∧ hasRep (b :: w) = false := by
      rw [hasRep] at hr
      simpa using hr
    induction k with
    | nil => intro S hS hc _ hl; simp at hl; omega
    | cons x k ih =>
      intro S hS hc hk hl
      have hx := hk x (by simp)
      have hk0 : k ≠ [] := by
        rintro rfl
        simp at hl
        have : 1 ≤ (w.length + 1) * (r - 1) := Nat.one_le_iff_ne_zero.2 (by simp; omega)
        omega
      by_cases hxS : x ∈ S
      · rw [if_neg]
        · exact cnt_mem hk0 hx hxS (by simpa using Ne.symm hr'.1)
        · rintro ⟨-, h, -⟩
          obtain ⟨m, hm⟩ : ∃ m, r - S.card = m + 1 := ⟨r - S.card - 1, by omega⟩
          rw [hm] at h
          exact h x (by simp) hxS
      · have hci : (insert x S).card = S.card + 1 := Finset.card_insert_of_notMem hxS
        by_cases hc' : S.card + 1 = r
        · have hS' : insert x S = Finset.Icc 1 r := by
            apply Finset.eq_of_subset_of_card_le (Finset.insert_subset hx hS)
            rw [hci]; simp; omega
          rw [cnt_last hk0 hxS hS' (fun y hy => hk y (by simp [hy])) hr'.1, ihw b hr'.2 (x :: k) ∅ (by simp)
            (by simp; omega) hk (by
              simp at hl ⊢
              rw [hl, Nat.add_mul]
              omega)]
          congr 1
          rw [eq_iff_iff]
          unfold Win
          rw [show r - S.card = 1 by omega]
          simp only [Finset.card_empty, Nat.sub_zero, Finset.notMem_empty, not_false_eq_true, implies_true, true_and,
            Nat.sub_self, Nat.zero_add, List.length_cons]
          constructor
          · rintro ⟨h1, h2⟩
            refine ⟨by simp, by simpa using hxS, fun j hj => ?_⟩
            cases j with
            | zero => simpa using h1
            | succ j =>
              have := h2 j (by omega)
              rwa [show (j + 1) * (r - 1) = r - 1 + j * (r - 1) by ring]
          · rintro ⟨-, -, h⟩
            refine ⟨by simpa using h 0 (by omega), fun j hj => ?_⟩
            have := h (j + 1) (by omega)
            rwa [show (j + 1) * (r - 1) = r - 1 + j * (r - 1) by ring] at this
        · obtain ⟨v, hv, hvS⟩ : ∃ v ∈ Finset.Icc 1 r, v ∉ insert x S := by
            by_contra hcon
            push Not at hcon
            have := Finset.card_le_card hcon
            rw [hci] at this
            simp at this
            omega
          rw [Finset.mem_insert, not_or] at hvS
          rw [cnt_not_mem hk0 hxS hv hvS.2 hvS.1 hr, ih (insert x S) (Finset.insert_subset hx hS) (by omega)
            (fun y hy => hk y (by simp [hy])) (by simp at hl ⊢; omega)]
          congr 1
          rw [eq_iff_iff]
          unfold Win
          obtain ⟨m, hm⟩ : ∃ m, r - S.card = m + 1 + 1 := ⟨r - S.card - 2, by omega⟩
          rw [hm, show r - (insert x S).card = m + 1 by omega]
          simp only [List.take_succ_cons, List.nodup_cons, List.mem_cons, forall_eq_or_imp, Finset.mem_insert, not_or]
          have hd : ∀ j, (x :: k).drop (m + 1 + 1 - 1 + j * (r - 1)) = k.drop (m + 1 - 1 + j * (r - 1)) := by
            intro j
            rw [show m + 1 + 1 - 1 + j * (r - 1) = (m + 1 - 1 + j * (r - 1)) + 1 by omega, List.drop_succ_cons]
          simp only [hd]
          constructor
          · rintro ⟨h1, h2, h3⟩
            exact ⟨⟨fun h => (h2 x h).1 rfl, h1⟩, ⟨hxS, fun u hu => (h2 u hu).2⟩, h3⟩
          · rintro ⟨⟨h1, h2⟩, ⟨-, h3⟩, h4⟩
            exact ⟨h2, fun u hu => ⟨fun h => h1 (h ▸ hu), h3 u hu⟩, h4⟩

theorem assemble_eq_iff {k V : List Nat} {ps : List (List Nat)} :
    assemble r k ps = List.replicate r V ↔ Good r (fun _ => V) k ps := by
  unfold assemble Good
  rw [List.eq_replicate_iff]
  simp only [List.length_map, List.length_range, true_and, List.mem_map, List.mem_range, Finset.mem_Icc]
  constructor
  · rintro h v ⟨h1, h2⟩
    refine h _ ⟨v - 1, by omega, ?_⟩
    rw [Nat.sub_add_cancel h1]
    rfl
  · rintro h _ ⟨v, hv, rfl⟩
    exact h (v + 1) ⟨by omega, by omega⟩

theorem sum_of_count {A : Type} {l : List A} {p : A → Prop} [DecidablePred p] {f : A → Int} {c : Nat}
    (hf : ∀ a, f a = 1 ∨ f a = -1) (hc : l.countP (fun a => p a) = c) :
    (c = 0 → (l.map fun a => if p a then f a else 0).sum = 0) ∧
    (c = 1 → (l.map fun a => if p a then f a else 0).sum = 1 ∨ (l.map fun a => if p a then f a else 0).sum = -1) := by
  induction l generalizing c with
  | nil => simp at hc; subst hc; simp
  | cons a l ih =>
    rw [List.countP_cons] at hc
    by_cases hp : p a
    · simp only [hp, decide_true, if_true] at hc
      subst hc
      refine ⟨by omega, fun h => ?_⟩
      have := (ih rfl).1 (by omega)
      rw [List.map_cons, List.sum_cons, this, if_pos hp, add_zero]
      exact hf a
    · simp only [hp, decide_false, Bool.false_eq_true, if_false, add_zero] at hc
      subst hc
      rw [List.map_cons, List.sum_cons, if_neg hp, zero_add]
      exact ih rfl

theorem pySign_cases (e : Int) : pySign e = 1 ∨ pySign e = -1 := by
  unfold pySign; split <;> simp

/-- The extremal coefficient of one surjection on one simplex. -/
theorem actionCoeff_extremal (hr2 : 2 ≤ r) {d : Int} {n : Nat} {k V : List Nat} (hk : ∀ y ∈ k, y ∈ Finset.Icc 1 r)
    (hl : k.length = r + n * (r - 1)) (hV : V.length = n + 1) (hrep : hasRep V = false) :
    (FillsUp r n k → actionCoeff r d 1 k [V] (List.replicate r V) = 1 ∨
      actionCoeff r d 1 k [V] (List.replicate r V) = -1) ∧
    (¬ FillsUp r n k → actionCoeff r d 1 k [V] (List.replicate r V) = 0) := by
  obtain ⟨a, w, rfl⟩ := List.exists_cons_of_ne_nil (l := V) (by rintro rfl; simp at hV)
  have hw : w.length = n := by simpa using hV
  have hc := cnt_eq hr2 w a hrep k ∅ (by simp) (by simp; omega) hk (by simp [hl, hw])
  have hW : Win r ∅ w.length k ↔ FillsUp r n k := by
    unfold Win FillsUp
    rw [hw]
    simp only [Finset.card_empty, Nat.sub_zero, Finset.notMem_empty, not_false_eq_true, implies_true, true_and]
    constructor
    · rintro ⟨h1, h2⟩ j hj
      cases j with
      | zero => simpa using h1
      | succ j =>
        have := h2 j (by omega)
        rwa [show (j + 1) * (r - 1) = r - 1 + j * (r - 1) by ring]
    · intro h
      refine ⟨by simpa using h 0 (by omega), fun j hj => ?_⟩
      have := h (j + 1) (by omega)
      rwa [show (j + 1) * (r - 1) = r - 1 + j * (r - 1) by ring] at this
  have ht : target ∅ a w = fun _ => a :: w := by
    funext v; rw [target, if_neg (by simp)]
  rw [ht] at hc
  simp only [hW] at hc
  have key := sum_of_count (l := allCuts k.length (a :: w)) (p := fun ps => Good r (fun _ => a :: w) k ps)
    (f := fun ps => pySign (sortingExponent k ps + concatenationExponent k ps +
      ((([a :: w] : List (List Nat)).take (1 - 1)).map dimOf).sum * d)) (fun _ => pySign_cases _) hc
  have hA : actionCoeff r d 1 k [a :: w] (List.replicate r (a :: w)) =
      ((allCuts k.length (a :: w)).map fun ps => if Good r (fun _ => a :: w) k ps then
        pySign (sortingExponent k ps + concatenationExponent k ps +
          ((([a :: w] : List (List Nat)).take (1 - 1)).map dimOf).sum * d) else 0).sum := by
    unfold actionCoeff
    congr 1
    apply List.map_congr_left
    intro ps _
    have : ([a :: w] : List (List Nat)).take (1 - 1) ++ assemble r k ps ++ ([a :: w] : List (List Nat)).drop 1
        = List.replicate r (a :: w) ↔ Good r (fun _ => a :: w) k ps := by
      rw [← assemble_eq_iff]
      simp
    simp only [this]
  rw [hA]
  exact ⟨fun h => key.2 (if_pos h), fun h => key.1 (if_neg h)⟩

theorem actionCoeff_other {d : Int} {k V W : List Nat} (hr2 : 2 ≤ r) (hlen : V.length = W.length)
    (hrep : hasRep V = false) (hne : W ≠ V) : actionCoeff r d 1 k [W] (List.replicate r V) = 0 := by
  unfold actionCoeff
  apply List.sum_eq_zero
  intro z hz
  obtain ⟨ps, hps, rfl⟩ := List.mem_map.1 hz
  rw [if_neg]
  intro h
  have h : assemble r k ps = List.replicate r V := by simpa using h
  have hm : V ∈ assemble r k ps := by rw [h]; simp; omega
  have := (weakSub_assemble hps hm).toSublist hrep
  exact hne (this.eq_of_length hlen).symm

end SurjComp

namespace Props
open Comch.Spec Elem SurjComp SurjElem

variable {x : SurjElem} {y z : SElem} {r n : Nat} {d : Int}

theorem sum_ite_coeff {K : Type} [DecidableEq K] {D : Dict K} (hd : D.KeysNodup) (k : K) :
    (D.map fun q => if q.1 = k then q.2 else 0).sum = D.get k := by
  have := Dict.den_apply (R := Int) hd k
  rw [Int.cast_id] at this
  rw [← this, den, ← Finsupp.applyAddHom_apply, map_list_sum, List.map_map]
  congr 1
  apply List.map_congr_left
  intro q _
  simp [Finsupp.single_apply]

theorem sum_pyProduct {A B : Type} (l : List A) (m : List B) (f : A × B → Int) :
    ((pyProduct l m).map f).sum = (l.map fun a => (m.map fun b => f (a, b)).sum).sum := by
  unfold pyProduct
  induction l with
  | nil => simp
  | cons a l ih => simp [List.flatMap_cons, List.map_append, List.sum_append, ih, Function.comp_def]

/-- The extremal coefficients: in degree `(r - 1) n` the coefficient of the `r`-th tensor power of a simplex
`V` of dimension `n` is the signed number of those terms of `x` which fill up all the windows, times the
coefficient of `V`. -/
theorem C88_extremal (hr2 : 2 ≤ r) (hx : InSurj r x) (hd : x.degree = some ((r - 1) * (n : Int)))
    (hcv : x.attrs.convention = .mcClureSmith) (hy : y.NF simplicial) (hyd : y.degree = some (n : Int))
    (hya : y.arity = some 1) (ht : y.torsion = x.torsion) (hz : callSimplicial x y 1 = .ok z)
    (V : Simplex) (hV : V.length = n + 1) (hnd : V.isDegenerate = false) :
    ∃ ε : Surj → Int, (∀ k, ε k = 1 ∨ ε k = -1) ∧
      z.coeff (List.replicate r V) ≡ y.coeff [V] *
        (x.data.map fun p => if FillsUp r n p.1 then ε p.1 * p.2 else 0).sum [ZMOD x.torsion] := by
  have hrep : hasRep V = false := by
    rw [isDegenerate_eq] at hnd
    simpa using (Bool.or_eq_false_iff.1 hnd).2
  have hc := C84_action_coeff hx hd hcv hy hyd hya ht le_rfl le_rfl hz (List.replicate r V)
    (fun s hs => by rw [(List.mem_replicate.1 hs).2]; exact hnd)
  have hkl : ∀ p ∈ x.data, (∀ y ∈ p.1, y ∈ Finset.Icc 1 r) ∧ p.1.length = r + n * (r - 1) := by
    intro p hp
    refine ⟨fun v hv => Finset.mem_Icc.2 ((hx.onto p hp v).1 hv), ?_⟩
    have h1 := sdeg_of_degree hx hd hp
    rw [length_of_onto (hx.onto p hp)]
    obtain ⟨m, rfl⟩ : ∃ m, r = m + 1 := ⟨r - 1, by omega⟩
    push_cast at h1
    simp only [add_sub_cancel_right] at h1
    have : sdeg p.1 = m * n := by exact_mod_cast h1
    rw [this, Nat.add_sub_cancel]
    ring
  refine ⟨fun k => if k.length = r + n * (r - 1) ∧ (∀ y ∈ k, y ∈ Finset.Icc 1 r) ∧ FillsUp r n k then
    actionCoeff r ((r - 1) * n) 1 k [V] (List.replicate r V) else 1, fun k => ?_, ?_⟩
  · dsimp only
    split
    · rename_i h
      exact (actionCoeff_extremal hr2 h.2.1 h.1 hV hrep).1 h.2.2
    · exact Or.inl rfl
  · refine hc.trans ?_
    show _ % _ = _ % _
    congr 1
    rw [sum_pyProduct, coeff, ← sum_ite_coeff hy.nodup, ← List.sum_map_mul_left]
    congr 1
    apply List.map_congr_left
    intro p hp
    rw [← List.sum_map_mul_right]
    congr 1
    apply List.map_congr_left
    intro q hq
    obtain ⟨W, hW⟩ := List.length_eq_one_iff.1 ((homogeneous_keys hyd hya) q hq).2
    have hWl : W.length = n + 1 := by
      have := ((homogeneous_keys hyd hya) q hq).1
      rw [hW] at this
      simp [SElem.keyDegree, Simplex.dimension] at this
      omega
    rw [hW]
    by_cases h : W = V
    · subst h
      rw [if_pos rfl]
      by_cases hF : FillsUp r n p.1
      · dsimp only
        rw [if_pos hF, if_pos ⟨(hkl p hp).2, (hkl p hp).1, hF⟩]
        ring
      · rw [if_neg hF, (actionCoeff_extremal hr2 (hkl p hp).1 (hkl p hp).2 hV hrep).2 hF]
        ring
    · rw [actionCoeff_other hr2 (by rw [hV, hWl]) hrep h, if_neg (by simpa using h)]
      ring

theorem pairwise_of_nondegenerate {k : List Nat} (h : hasRep k = false) (n : Nat) : FillsUp 2 n k := by
  intro j _
  rw [show j * (2 - 1) = j by omega]
  clear * -h
  induction k generalizing j with
  | nil => simp
  | cons a k ih =>
    cases k with
    | nil => cases j <;> simp
    | cons b k =>
      rw [hasRep] at h
      simp only [Bool.or_eq_false_iff, beq_eq_false_iff_ne] at h
      cases j with
      | zero => simpa using h.1
      | succ j => simpa using ih h.2 j

theorem alternating_unique {k l : List Nat} (hk : hasRep k = false) (hl : hasRep l = false)
    (hk2 : ∀ v ∈ k, v = 1 ∨ v = 2) (hl2 : ∀ v ∈ l, v = 1 ∨ v = 2) (hh : k.head? = l.head?)
    (hlen : k.length = l.length) : k = l := by
  induction k generalizing l with
  | nil => symm; simpa using hlen.symm
  | cons a k ih =>
    cases l with
    | nil => simp at hlen
    | cons b l =>
      obtain rfl : a = b := by simpa using hh
      congr 1
      cases k with
      | nil => symm; simpa using hlen.symm
      | cons c k =>
        cases l with
        | nil => simp at hlen
        | cons e l =>
          rw [hasRep] at hk hl
          simp only [Bool.or_eq_false_iff, beq_eq_false_iff_ne] at hk hl
          refine ih hk.2 hl.2 (fun v hv => hk2 v (by simp [hv])) (fun v hv => hl2 v (by simp [hv])) ?_ (by simpa using hlen)
          have h1 := hk2 a (by simp)
          have h2 := hk2 c (by simp)
          have h3 := hl2 e (by simp)
          have h4 := hk.1
          have h5 := hl.1
          simp only [List.head?_cons, Option.some.injEq]
          omega

/-- The operation as an element of the surjection operad. -/
theorem operation_ok {p : Nat} {s q : Int} {b : Bool} (hp : 2 ≤ p)
    (h : Surjection.steenrodOperation p s q b = .ok x) :
    InSurj p x ∧ x.torsion = p ∧
      (x.data ≠ [] → x.attrs.convention = .mcClureSmith ∧ x.degree = some (if p = 2 then s - q else (2 * s - q) * (p - 1) - (if b then 1 else 0))) := by
  have hs : ∀ (c : Int) (D : Int) (m : SurjElem), 0 ≤ D → 
      Surjection.maySteenrodStructure p D.toNat (some p) .mcClureSmith = .ok m →
      InSurj p (smul surjection c m) ∧ (smul surjection c m).torsion = p ∧
        ((smul surjection c m).data ≠ [] → (smul surjection c m).attrs.convention = .mcClureSmith ∧
          SurjElem.degree (smul surjection c m) = some D) := by
    intro c D m hD hm
    obtain ⟨m', em, hm', tm, cm, hmn, am, dm, hh⟩ := C56_psi_ok (r := p) .mcClureSmith hp D.toNat p (by omega)
    obtain rfl : m = m' := by rw [hm] at em; cases em; rfl
    refine ⟨inSurj_smul hm' c, tm, fun hne => ⟨cm, ?_⟩⟩
    rw [Int.toNat_of_nonneg hD] at dm
    rw [SurjElem.degree, uniqueValue_eq_some] at dm ⊢
    refine ⟨by simpa using hne, ?_⟩
    intro v hv
    obtain ⟨t, ht, rfl⟩ := List.mem_map.1 hv
    refine keysP_smul (P := fun k => SurjElem.keyDegree k = D) c ?_ t ht
    intro t ht
    exact dm.2 _ (List.mem_map_of_mem (f := fun t : Surj × Int => SurjElem.keyDegree t.1) ht)
  have h00 : ∀ n, (Elem.new surjection [] (some n)).data = [] := fun n => by
    simp [Elem.new, preferredRep, zeroDropped, basePreferredRep]
  have h0 : ∀ n, InSurj p (Elem.new surjection [] (some n)) := fun n =>
    ⟨nf_new _ (by simp [Dict.KeysNodup]) _ _, by intro p hp; rw [h00] at hp; simp at hp⟩
  unfold Surjection.steenrodOperation at h
  split at h
  · rename_i h2
    split at h
    · cases h
    · split at h
      · cases h
        subst h2
        exact ⟨h0 2, rfl, fun hne => absurd (h00 2) hne⟩
      · cases hm : Surjection.maySteenrodStructure p (s - q).toNat (some p) .mcClureSmith with
        | error e => rw [hm] at h; cases h
        | ok m =>
          rw [hm] at h
          cases h
          rw [if_pos h2]
          exact hs 1 (s - q) m (by omega) hm
  · rename_i h2
    dsimp only at h
    split at h
    · cases hc : steenrodCoeff p s q with
      | error e => rw [hc] at h; cases h
      | ok c =>
        rw [hc] at h
        cases h
        exact ⟨h0 p, rfl, fun hne => absurd (h00 p) hne⟩
    · cases hc : steenrodCoeff p s q with
      | error e => rw [hc] at h; cases h
      | ok c =>
        rw [hc] at h
        simp only [bind, Except.bind] at h
        split at h
        · cases h
        · rename_i m hm
          cases h
          rw [if_neg h2]
          have hsd : steenrodDegree p s q b = (2 * s - q) * (p - 1) - (if b then 1 else 0) := by
            unfold steenrodDegree; rfl
          rw [← hsd]
          exact hs c _ m (by omega) hm

theorem hasRep_range' (a m : Nat) : hasRep (List.range' a m) = false := by
  induction m generalizing a with
  | zero => rfl
  | succ m ih =>
    cases m with
    | zero => rfl
    | succ m =>
      have := ih (a + 1)
      rw [List.range'_succ, List.range'_succ, hasRep, ← List.range'_succ, this]
      simp

theorem standard_ok {p : Nat} (hp : 2 ≤ p) (M : Nat) :
    (Simplicial.standardElement M 1 (some p)).NF simplicial ∧ (Simplicial.standardElement M 1 (some p)).degree = some (M : Int) ∧
    (Simplicial.standardElement M 1 (some p)).arity = some 1 ∧ (Simplicial.standardElement M 1 (some p)).torsion = p ∧
    (Simplicial.standardElement M 1 (some p)).data = [([List.range (M + 1)], 1)] ∧
    Simplex.isDegenerate (List.range (M + 1)) = false := by
  have hnd : Simplex.isDegenerate (List.range (M + 1)) = false := by
    rw [Comch.isDegenerate_eq, List.range_eq_range', hasRep_range']
    simp
  have hdata : (Simplicial.standardElement M 1 (some p)).data = [([List.range (M + 1)], 1)] := by
    unfold Simplicial.standardElement
    rw [show ((M : Int) + 1).toNat = M + 1 by omega]
    have h1 : (1 : Int) % p = 1 := Int.emod_eq_of_lt (by omega) (by exact_mod_cast hp)
    simp [Elem.new, preferredRep, zeroDropped, basePreferredRep, simplicial, hnd, h1]
  refine ⟨nf_new _ (by simp [Dict.KeysNodup]) _ _, ?_, ?_, rfl, hdata, hnd⟩
  · rw [SElem.degree, hdata]
    simp [uniqueValue, SElem.keyDegree, Simplex.dimension]
  · rw [SElem.arity, hdata]
    simp [uniqueValue]

/-- The operations of positive index `s` (which lower the cohomological degree) vanish on the chain level. -/
theorem C88_negative_operations {p : Nat} {s q : Int} {b : Bool} (hp : 2 ≤ p) (hs : 1 ≤ s)
    (h : Surjection.steenrodChainSimplex p s q b = .ok z) : z.data = [] := by
  obtain ⟨he, hx⟩ := C60_simplex p s q b
  cases hop : Surjection.steenrodOperation p s q b with
  | error e => rw [he e hop] at h; cases h
  | ok x =>
    obtain ⟨he', hy⟩ := hx x hop
    cases hcall : x.callSimplicial (Simplicial.standardElement (-outputDegree p s q b) 1 (some p)) with
    | error e => rw [he' e hcall] at h; cases h
    | ok y =>
      obtain ⟨z', ez, -, -, hsub⟩ := hy y hcall
      obtain rfl : z = z' := by rw [h] at ez; cases ez; rfl
      suffices hy0 : y.data = [] by
        rw [hy0] at hsub
        exact List.sublist_nil.1 hsub
      obtain ⟨ix, tx, dx⟩ := operation_ok hp hop
      by_cases hx0 : x.data = []
      · unfold SurjElem.callSimplicial at hcall
        rw [if_pos (by simp [Elem.truthy, hx0])] at hcall
        cases hcall
        exact zero_data _ _
      · set N := -outputDegree p s q b with hN
        by_cases hneg : N < 0
        · have : (Simplicial.standardElement N 1 (some p)).data = [] := by
            unfold Simplicial.standardElement
            rw [show (N + 1).toNat = 0 by omega]
            have : Simplex.isDegenerate [] = true := by decide
            simp [Elem.new, preferredRep, zeroDropped, basePreferredRep, simplicial, this, Elem.torsion]
          unfold SurjElem.callSimplicial at hcall
          rw [if_pos (by simp [Elem.truthy, this])] at hcall
          cases hcall
          exact zero_data _ _
        · obtain ⟨M, hM⟩ := Int.eq_ofNat_of_zero_le (not_lt.1 hneg)
          rw [hM] at hcall
          obtain ⟨hy1, hyd, hya, hyt, -⟩ := standard_ok hp M
          obtain ⟨cx, dx⟩ := dx hx0
          obtain ⟨y', ey, h1, -⟩ := C87_instability ix dx cx hy1 hyd hya (by rw [hyt, tx])
          obtain rfl : y = y' := by rw [hcall] at ey; cases ey; rfl
          apply h1
          rw [← hM, hN, outputDegree]
          split
          · rename_i h2
            subst h2
            push_cast
            omega
          · have hp' : (2 : Int) ≤ p := by exact_mod_cast hp
            have hb : (0 : Int) ≤ (if b = true then 1 else 0) ∧ (if b = true then 1 else 0) ≤ (1 : Int) := by
              split <;> simp
            generalize (if b = true then (1 : Int) else 0) = β at *
            nlinarith [mul_nonneg (mul_nonneg (sub_nonneg.2 hs) (by linarith : (0 : Int) ≤ p - 1)) (by linarith : (0 : Int) ≤ p)]

/-- In arity two and extremal degree every homogeneous element acts on a simplex by a multiple of its square;
an element with a single term `c * k` by plus or minus `c`. -/
theorem C88_arity_two {k : Surj} {c : Int} (hx : InSurj 2 x) (hdata : x.data = [(k, c)]) (hd : x.degree = some (n : Int))
    (hcv : x.attrs.convention = .mcClureSmith) (hy : y.NF simplicial) (hyd : y.degree = some (n : Int))
    (hya : y.arity = some 1) (ht : y.torsion = x.torsion) :
    ∃ z, callSimplicial x y 1 = .ok z ∧ (∀ q ∈ z.data, ∃ p ∈ y.data, q.1 = p.1 ++ p.1) ∧
      ∀ V : Simplex, V.length = n + 1 → V.isDegenerate = false →
        ∃ ε : Int, (ε = 1 ∨ ε = -1) ∧ z.coeff [V, V] ≡ ε * c * y.coeff [V] [ZMOD x.torsion] := by
  have hd' : x.degree = some (((2 : Nat) - 1) * (n : Int)) := by rw [hd]; norm_num
  obtain ⟨z, ez, -, h2⟩ := C87_instability hx hd hcv hy hyd hya ht
  refine ⟨z, ez, fun q hq => ?_, fun V hV hnd => ?_⟩
  · obtain ⟨p, hp, e⟩ := h2 (by norm_num) q hq
    refine ⟨p, hp, ?_⟩
    obtain ⟨V, hV⟩ := List.length_eq_one_iff.1 ((homogeneous_keys hyd hya) p hp).2
    rw [e, hV]
    rfl
  · obtain ⟨ε, hε, h⟩ := C88_extremal le_rfl hx hd' hcv hy hyd hya ht ez V hV hnd
    refine ⟨ε k, hε k, h.trans ?_⟩
    have hk : hasRep k = false := by
      have := (surj_kept_iff.1 (hx.nf.kept (k, c) (by rw [hdata]; simp))).2.2
      exact this
    rw [hdata]
    simp only [List.map_cons, List.map_nil, List.sum_cons, List.sum_nil, add_zero]
    rw [if_pos (pairwise_of_nondegenerate hk n), mul_comm]

/-- `Sq^0` is the identity on the chain level: the chain of the operation of index 0 at the prime 2 is the
square of the standard simplex. -/
theorem C88_square_zero (n : Nat) :
    ∃ z, Surjection.steenrodChainSimplex 2 0 (-n) = .ok z ∧
      z.data = [([List.range (n + 1), List.range (n + 1)], 1)] := by
  obtain ⟨m, em, hm, tm, cm, hmn, am, dm, hh⟩ := C56_psi_ok (r := 2) .mcClureSmith le_rfl n 2 (by norm_num)
  have hop : Surjection.steenrodOperation 2 0 (-n) false = .ok (smul surjection 1 m) := by
    unfold Surjection.steenrodOperation
    rw [if_pos rfl, if_neg (by simp), if_neg (by omega), show (0 - -(n : Int)).toNat = n by omega, em]
    rfl
  set x := smul surjection 1 m with hxdef
  have hx : InSurj 2 x := inSurj_smul hm 1
  have tx : x.torsion = 2 := tm
  have hdx : den (ZMod 2) x.data = den (ZMod 2) m.data := by
    rw [hxdef, den_smul hm.nf 1 (by simp) (by rw [tm]; exact CharP.cast_eq_zero (ZMod 2) 2)]
    simp
  have hkeys : ∀ p ∈ x.data, p.1.head? = some 1 ∧ SurjElem.keyDegree p.1 = n := by
    refine keysP_smul (P := fun k : Surj => k.head? = some 1 ∧ SurjElem.keyDegree k = n) 1 fun p hp => ⟨hh p hp, ?_⟩
    rw [SurjElem.degree, uniqueValue_eq_some] at dm
    exact dm.2 _ (List.mem_map_of_mem (f := fun t : Surj × Int => SurjElem.keyDegree t.1) hp)
  have hxne : x.data ≠ [] := by
    intro h0
    rw [h0, den_nil] at hdx
    have : pyEq m (Elem.zero surjection m) = true := by
      refine pyEq_of_den (n := 2) hm.nf (nf_zero _ _) tm tm ?_
      rw [zero_data, den_nil, ← hdx]
    have := (pyEq_iff_den hm.nf (nf_zero _ _) rfl).1 this
    rw [zero_data, den_nil] at this
    obtain ⟨p, hp⟩ := List.exists_mem_of_ne_nil _ hmn
    have h3 := hm.nf.mem_keys_iff.1 (List.mem_map_of_mem hp)
    rw [this] at h3
    exact h3 rfl
  have hrepk : ∀ p ∈ x.data, hasRep p.1 = false := fun p hp => (surj_kept_iff.1 (hx.nf.kept p hp)).2.2
  have hlen : ∀ p ∈ x.data, p.1.length = n + 2 := by
    intro p hp
    have := (hkeys p hp).2
    rw [SurjElem.keyDegree, pyMax_of_onto (hx.onto p hp)] at this
    omega
  have huniq : ∀ p ∈ x.data, ∀ q ∈ x.data, p.1 = q.1 := by
    intro p hp q hq
    refine alternating_unique (hrepk p hp) (hrepk q hq) (fun v hv => ?_) (fun v hv => ?_)
      (by rw [(hkeys p hp).1, (hkeys q hq).1]) (by rw [hlen p hp, hlen q hq])
    · have := (hx.onto p hp v).1 hv; omega
    · have := (hx.onto q hq v).1 hv; omega
  have hone : ∀ {K : Type} [DecidableEq K] {C : Cls K} {w : Elem K} {k : K}, w.NF C → w.torsion = 2 → w.data ≠ [] →
      (∀ p ∈ w.data, p.1 = k) → w.data = [(k, 1)] := by
    intro K _ C w k hw tw hne hk
    obtain ⟨p, l, hl⟩ := List.exists_cons_of_ne_nil hne
    have hp : p ∈ w.data := by rw [hl]; simp
    have hl0 : l = [] := by
      cases l with
      | nil => rfl
      | cons q l =>
        exfalso
        have hn := hw.nodup
        rw [hl, Dict.KeysNodup] at hn
        simp only [List.map_cons, List.nodup_cons, List.mem_cons, not_or] at hn
        exact hn.1.1 ((hk p hp).trans (hk q (by rw [hl]; simp)).symm)
    have h1 := hw.coeff_ne p hp
    have h2 := hw.coeff_range (by rw [tw]; norm_num) p hp
    rw [tw] at h2
    rw [hl, hl0]
    congr 1
    refine Prod.ext (hk p hp) ?_
    show p.2 = 1
    push_cast at h2
    omega
  obtain ⟨p0, hp0⟩ := List.exists_mem_of_ne_nil _ hxne
  have hxdata : x.data = [(p0.1, 1)] := hone hx.nf tx hxne fun p hp => huniq p hp p0 hp0
  have hxd : SurjElem.degree x = some (n : Int) := by
    rw [SurjElem.degree, uniqueValue_eq_some]
    refine ⟨by simpa using hxne, fun b hb => ?_⟩
    obtain ⟨p, hp, rfl⟩ := List.mem_map.1 hb
    exact (hkeys p hp).2
  obtain ⟨hy1, hyd, hya, hyt, hydata, hnd⟩ := standard_ok (p := 2) le_rfl n
  obtain ⟨y, ey, hk, hcoef⟩ := C88_arity_two hx hxdata hxd (show x.attrs.convention = _ from cm) hy1 hyd hya (by rw [hyt, tx])
  obtain ⟨ε, hε, hco⟩ := hcoef _ (by simp) hnd
  have hN : -outputDegree 2 0 (-(n : Int)) false = n := by rw [outputDegree, if_pos rfl]; omega
  obtain ⟨z, ez, az, hz, hsub⟩ := ((C60_simplex 2 0 (-n) false).2 x hop).2 y (by rw [hN]; exact ey)
  have ny : y.NF simplicial := nf_callSimplicial ey
  obtain ⟨y', ey', -, ay, -⟩ := C52_arity_degree hx hxd (show x.attrs.convention = _ from cm) hy1 hyd hya (by rw [hyt, tx]) le_rfl le_rfl
  obtain rfl : y = y' := by rw [ey] at ey'; cases ey'; rfl
  have ty : y.torsion = 2 := by rw [torsion_congr ay, hyt]
  have hyk : ∀ q ∈ y.data, q.1 = [List.range (n + 1), List.range (n + 1)] := by
    intro q hq
    obtain ⟨p, hp, e⟩ := hk q hq
    rw [hydata] at hp
    simp at hp
    rw [e, hp]
    rfl
  have hyne : y.data ≠ [] := by
    intro h0
    rw [tx] at hco
    have h1 : (Simplicial.standardElement n 1 (some 2)).coeff [List.range (n + 1)] = 1 := by
      rw [coeff, hydata]; simp [Dict.get]
    rw [h1, coeff, h0] at hco
    rcases hε with rfl | rfl
    · exact absurd (show (0 : Int) ≡ _ [ZMOD (2 : Nat)] from hco) (by decide)
    · exact absurd (show (0 : Int) ≡ _ [ZMOD (2 : Nat)] from hco) (by decide)
  have hydata' := hone ny ty hyne hyk
  refine ⟨z, ez, ?_⟩
  have hm1 : ([List.range (n + 1), List.range (n + 1)], (1 : Int)) ∈ z.data := by
    rw [hz, hydata']
    refine ⟨by simp, by simp, Simplex.dimension (List.range (n + 1)), by simp⟩
  rw [hydata'] at hsub
  exact (hsub.eq_of_length_le (Nat.succ_le_of_lt (List.length_pos_of_mem hm1)))

/-- An element of arity 3 and degree 2; of its three terms two fill up the windows for `n = 1`. -/
def exExt : SurjElem := Elem.new surjection [([1, 2, 3, 1, 2], 1), ([1, 3, 1, 2, 3], 5), ([1, 2, 3, 2, 1], 3)] none .mcClureSmith

theorem exExt_in : InSurj 3 exExt :=
  SurjElem.inSurj_of_arity (nf_new _ (by decide) _ _) (by decide)

example : exExt.degree = some (((3 : Nat) - 1) * ((1 : Nat) : Int)) ∧ exExt.attrs.convention = .mcClureSmith ∧
    (exExt.data.map fun p => decide (FillsUp 3 1 p.1)) = [true, false, true] := by decide

example : (callSimplicial exExt (Elem.new simplicial [([[2, 7]], 10), ([[4, 9]], 1)])).toOption.map (·.data) =
    some [([[2, 7], [2, 7], [2, 7]], 40), ([[4, 9], [4, 9], [4, 9]], 4)] := by decide +kernel

example : (Elem.new simplicial [([[2, 7]], 10), ([[4, 9]], 1)]).NF simplicial := nf_new _ (by decide) _ _

example : (Surjection.steenrodChainSimplex 3 1 (-1)).toOption.map (·.data) = some [] := by decide +kernel
example : (Surjection.steenrodChainSimplex 2 0 (-2)).toOption.map (·.data) = some [([[0, 1, 2], [0, 1, 2]], 1)] := by
  decide +kernel

end Props
end Comch
