import Verif.Lib.SurjSigns

/-! # The McClure-Smith convention is conjugate to the Berger-Fresse convention -/

set_option linter.unusedSectionVars false

namespace Comch
open Spec Elem
open Finsupp (single)

variable {R : Type} [CommRing R]

/-- Caesuras with value less than `y`. -/
def smaller (t : List Nat) (y : Nat) : Nat := ((List.range y).map fun l => t.count l - 1).sum

theorem sum_range_update {g g' : Nat → Nat} {a c : Nat} (h : ∀ l, l ≠ a → g l = g' l)
    (ha : g a = g' a + c) (y : Nat) :
    ((List.range y).map g).sum = ((List.range y).map g').sum + if a < y then c else 0 := by
  induction y with
  | zero => simp
  | succ y ih =>
    rw [List.range_succ]
    simp only [List.map_append, List.sum_append, List.map_cons, List.map_nil, List.sum_cons,
      List.sum_nil, ih]
    by_cases e : y = a
    · subst e
      rw [ha, if_neg (by omega), if_pos (by omega)]
      omega
    · rw [h y e]
      by_cases h1 : a < y
      · rw [if_pos h1, if_pos (by omega)]; omega
      · rw [if_neg h1, if_neg (by omega)]; omega

theorem smaller_cons (x : Nat) (t : List Nat) (y : Nat) :
    smaller (x :: t) y = smaller t y + if x ∈ t ∧ x < y then 1 else 0 := by
  unfold smaller
  rw [sum_range_update (g := fun l => (x :: t).count l - 1) (g' := fun l => t.count l - 1) (a := x)
    (c := if x ∈ t then 1 else 0)]
  · by_cases h : x ∈ t <;> simp [h]
  · intro l hl
    rw [List.count_cons_of_ne (Ne.symm hl)]
  · rw [List.count_cons_self]
    split
    · rename_i h
      have := List.count_pos_iff.2 h
      omega
    · rename_i h
      rw [List.count_eq_zero.2 h]

theorem count_eraseIdx {t : List Nat} {i : Nat} (hi : i < t.length) (l : Nat) :
    (t.eraseIdx i).count l = t.count l - if l = t.getD i 0 then 1 else 0 := by
  rw [List.getD_eq_getElem _ _ hi, List.eraseIdx_eq_take_drop_succ, List.count_append]
  generalize he : t[i] = a
  conv_rhs => rw [← List.take_append_drop i t]
  rw [List.count_append, List.drop_eq_getElem_cons hi, he, List.count_cons]
  by_cases e : l = a
  · simp [e]
  · simp [e, Ne.symm e]

theorem smaller_eraseIdx {t : List Nat} {i : Nat} (hi : i < t.length) (y : Nat) :
    smaller t y = smaller (t.eraseIdx i) y +
      if 2 ≤ t.count (t.getD i 0) ∧ t.getD i 0 < y then 1 else 0 := by
  unfold smaller
  rw [sum_range_update (g := fun l => t.count l - 1) (g' := fun l => (t.eraseIdx i).count l - 1)
    (a := t.getD i 0) (c := if 2 ≤ t.count (t.getD i 0) then 1 else 0)]
  · by_cases h : 2 ≤ t.count (t.getD i 0)
    · simp only [h, true_and, if_true]
    · simp only [h, false_and, if_false, ite_self]
  · intro l hl
    rw [count_eraseIdx hi, if_neg hl, Nat.sub_zero]
  · have := count_getD_pos hi
    rw [count_eraseIdx hi, if_pos rfl]
    split <;> omega

/-- Number of pairs of caesuras whose values are not in order. -/
def invE : List Nat → Nat
  | [] => 0
  | x :: t => (if x ∈ t then smaller t x else 0) + invE t

theorem mem_eraseIdx_iff {t : List Nat} {i : Nat} (hi : i < t.length) (x : Nat) :
    x ∈ t.eraseIdx i ↔ x ∈ t ∧ (x = t.getD i 0 → 2 ≤ t.count (t.getD i 0)) := by
  rw [← List.count_pos_iff, count_eraseIdx hi, ← List.count_pos_iff]
  by_cases e : x = t.getD i 0
  · subst e
    simp only [if_true, true_imp_iff]
    omega
  · simp only [e, if_false, false_imp_iff, and_true, Nat.sub_zero]

theorem invE_eraseIdx_one {t : List Nat} {i : Nat} (hi : i < t.length)
    (h : ¬ 2 ≤ t.count (t.getD i 0)) : invE (t.eraseIdx i) = invE t := by
  induction t generalizing i with
  | nil => simp at hi
  | cons x t ih =>
    cases i with
    | zero =>
      rw [List.getD_cons_zero, List.count_cons_self] at h
      have hx : x ∉ t := fun hm => by
        have := List.count_pos_iff.2 hm
        omega
      rw [List.eraseIdx_cons_zero, invE, if_neg hx]
      omega
    | succ i =>
      have hi' : i < t.length := by simpa using hi
      rw [List.getD_cons_succ] at h
      have hpos := count_getD_pos hi'
      have hne : x ≠ t.getD i 0 := by
        intro e
        rw [← e, List.count_cons_self] at h
        rw [← e] at hpos
        omega
      rw [List.count_cons_of_ne hne] at h
      have hs := smaller_eraseIdx hi' x
      rw [if_neg (fun h' => h h'.1)] at hs
      have hm : x ∈ t.eraseIdx i ↔ x ∈ t := by
        rw [mem_eraseIdx_iff hi']
        exact ⟨fun h => h.1, fun h => ⟨h, fun e => absurd e hne⟩⟩
      rw [List.eraseIdx_cons_succ, invE, invE, ih hi' h]
      by_cases hx : x ∈ t
      · rw [if_pos hx, if_pos (hm.2 hx)]; omega
      · rw [if_neg hx, if_neg (fun h => hx (hm.1 h))]

theorem msExponent_cons_succ (x : Nat) (t : List Nat) (i : Nat) :
    msExponent (x :: t) (i + 1) = msExponent t i + (if x ∈ t ∧ x < t.getD i 0 then 1 else 0) +
      if x = t.getD i 0 then 1 else 0 := by
  have h := smaller_cons x t (t.getD i 0)
  unfold smaller at h
  unfold msExponent
  rw [List.getD_cons_succ, h, List.take_succ_cons, List.count_cons]
  by_cases e : x = t.getD i 0 <;> simp [e] <;> omega

theorem ms_bf {k : List Nat} {i : Nat} (hi : i < k.length) (h : 2 ≤ k.count (k.getD i 0)) :
    (msExponent k i + bfE k i + invE k + invE (k.eraseIdx i)) % 2 = 0 := by
  induction k generalizing i with
  | nil => simp at hi
  | cons x t ih =>
    cases i with
    | zero =>
      rw [List.getD_cons_zero, List.count_cons_self] at h
      have hx : x ∈ t := List.count_pos_iff.1 (by omega)
      have h1 : msExponent (x :: t) 0 = smaller t x := by
        have := smaller_cons x t x
        simp only [Nat.lt_irrefl, and_false, if_false] at this
        unfold smaller at this
        simp [msExponent, this, smaller]
      rw [h1, bfE, invE, if_pos hx, List.eraseIdx_cons_zero]
      omega
    | succ i =>
      have hi' : i < t.length := by simpa using hi
      rw [List.getD_cons_succ] at h
      have hpos := count_getD_pos hi'
      rw [List.eraseIdx_cons_succ, invE, invE, bfE, msExponent_cons_succ]
      have hs := smaller_eraseIdx hi' x
      by_cases h2 : 2 ≤ t.count (t.getD i 0)
      · have ih := ih hi' h2
        rw [if_pos h2]
        have hm : x ∈ t.eraseIdx i ↔ x ∈ t := by
          rw [mem_eraseIdx_iff hi']
          exact ⟨fun h => h.1, fun h => ⟨h, fun _ => h2⟩⟩
        have hxe : x = t.getD i 0 → x ∈ t := by
          intro e; rw [e]; exact List.count_pos_iff.1 hpos
        by_cases hx : x ∈ t
        · rw [if_pos hx, if_pos hx, if_pos (hm.2 hx)]
          simp only [hx, h2, true_and] at hs ⊢
          rcases lt_trichotomy x (t.getD i 0) with hlt | heq | hgt
          · rw [if_pos hlt, if_neg (by omega)]
            rw [if_neg (by omega)] at hs
            omega
          · rw [if_neg (by omega), if_pos heq]
            rw [if_neg (by omega)] at hs
            omega
          · rw [if_neg (by omega), if_neg (by omega)]
            rw [if_pos (by omega)] at hs
            omega
        · rw [if_neg hx, if_neg hx, if_neg (fun h => hx (hm.1 h)), if_neg (fun h => hx h.1),
            if_neg (fun e => hx (hxe e))]
          omega
      · rw [if_neg h2]
        have hxe : x = t.getD i 0 := by
          by_contra hne
          rw [List.count_cons_of_ne hne] at h
          exact h2 h
        have hx : x ∈ t := by rw [hxe]; exact List.count_pos_iff.1 hpos
        have hm : x ∉ t.eraseIdx i := by
          rw [mem_eraseIdx_iff hi']
          exact fun h => h2 (h.2 hxe)
        rw [if_pos hx, if_neg hm, if_neg (by omega), if_pos hxe, invE_eraseIdx_one hi' h2]
        have : msExponent t i = smaller t x := by
          unfold msExponent smaller
          rw [← hxe]
          have hc := count_eq_take_drop hi'
          rw [← hxe] at hc h2
          omega
        rw [this]
        omega

/-! ### the code -/

namespace SurjElem

/-- Positions with value `w`. -/
def positions (k : List Nat) (w : Nat) : List Nat :=
  ((enumerate k).filter fun p => p.2 == w).map Prod.fst

theorem positions_eq (k : List Nat) (w : Nat) :
    positions k w = (List.range k.length).filter fun i => k.getD i 0 == w := by
  unfold positions
  rw [enumerate_eq_map _ 0, List.filter_map, List.map_map]
  have : (Prod.fst ∘ fun j => (j, k.getD j 0)) = id := by funext j; rfl
  rw [this, List.map_id]
  rfl

theorem positions_cons (x : Nat) (k : List Nat) (w : Nat) :
    positions (x :: k) w = (if x = w then [0] else []) ++ (positions k w).map (· + 1) := by
  rw [positions_eq, positions_eq, List.length_cons, List.range_succ_eq_map, List.filter_cons,
    List.filter_map]
  have : ((fun i => (x :: k).getD i 0 == w) ∘ Nat.succ) = fun i => k.getD i 0 == w := by
    funext i; simp
  rw [this]
  by_cases e : x = w <;> simp [e]

theorem positions_count (k : List Nat) (w : Nat) :
    (positions k w).map (fun i => (k.take i).count w) = List.range (positions k w).length := by
  induction k with
  | nil => rfl
  | cons x k ih =>
    rw [positions_cons, List.map_append, List.map_map]
    have h2 : ∀ i, ((fun i => ((x :: k).take i).count w) ∘ (· + 1)) i =
        (k.take i).count w + if x = w then 1 else 0 := by
      intro i
      simp only [Function.comp, List.take_succ_cons, List.count_cons, beq_iff_eq]
    rw [List.map_congr_left fun i _ => h2 i]
    by_cases e : x = w
    · simp only [e, if_true]
      rw [show (fun i => (k.take i).count w + 1) = Nat.succ ∘ fun i => (k.take i).count w from rfl,
        ← List.map_map, ih]
      simp [List.range_succ_eq_map]
    · simp only [e, if_false]
      simpa using ih

theorem positions_length (k : List Nat) (w : Nat) : (positions k w).length = k.count w := by
  induction k with
  | nil => rfl
  | cons x k ih =>
    rw [positions_cons, List.length_append, List.length_map, ih, List.count_cons]
    by_cases e : x = w <;> simp [e, Nat.add_comm]

/-- The summands of the boundary for one value. -/
theorem msInner_eq (k : Surj) (v : Int) (w : Nat) (occ : List Nat) (c : Nat) (e : Nat)
    (hocc : occ.map (fun i => (k.take i).count w) = List.range' c occ.length)
    (hw : ∀ i ∈ occ, i < k.length ∧ k.getD i 0 = w) :
    msInner k v occ ((-1) ^ (e + c)) = (occ.filterMap fun i =>
      if 2 ≤ k.count (k.getD i 0) then
        some (k.eraseIdx i, v * (-1) ^ (e + (k.take i).count (k.getD i 0))) else none,
      (-1) ^ (e + c + occ.length)) := by
  induction occ generalizing c with
  | nil => simp [msInner]
  | cons i occ ih =>
    rw [List.map_cons, List.length_cons, List.range'_succ, List.cons.injEq] at hocc
    have hi := hw i (by simp)
    have ih := ih (c + 1) hocc.2 fun j hj => hw j (List.mem_cons_of_mem _ hj)
    have hget : (k[i]?).getD 0 = k.getD i 0 := by rw [List.getD_eq_getElem?_getD]
    rw [msInner]
    simp only [removeAt_eq_eraseIdx, hget]
    rw [mul_neg_one, show -((-1 : Int) ^ (e + c)) = (-1) ^ (e + (c + 1)) by
      rw [← Nat.add_assoc, pow_succ, mul_neg_one], ih, List.filterMap_cons]
    by_cases h : 2 ≤ k.count (k.getD i 0)
    · rw [if_pos ((contains_eraseIdx hi.1).2 h), if_pos h, hi.2, hocc.1]
      simp only [List.length_cons, Prod.mk.injEq, true_and]
      congr 1
      omega
    · rw [if_neg (fun h' => h ((contains_eraseIdx hi.1).1 h')), if_neg h]
      simp only [List.length_cons, Prod.mk.injEq, true_and]
      congr 1
      omega

theorem msOuter_eq (k : Surj) (v : Int) (w n : Nat) (e : Nat)
    (h : ∀ l, w ≤ l → l < w + n → 1 ≤ k.count l)
    (he : e = ((List.range w).map fun l => k.count l - 1).sum) :
    ∀ sign : Int, sign = (-1) ^ e → msOuter k v (List.range' w n) sign =
      (List.range' w n).flatMap fun l => (positions k l).filterMap fun i =>
        if 2 ≤ k.count (k.getD i 0) then some (k.eraseIdx i, v * (-1) ^ msExponent k i) else none := by
  induction n generalizing w e with
  | zero => intros; simp [msOuter]
  | succ n ih =>
    intro sign hs
    rw [List.range'_succ, msOuter]
    have hw : ∀ i ∈ positions k w, i < k.length ∧ k.getD i 0 = w := by
      intro i hi
      rw [positions_eq] at hi
      simpa using hi
    have h1 := msInner_eq k v w (positions k w) 0 e (by
      rw [positions_count, List.range_eq_range']) hw
    rw [Nat.add_zero] at h1
    have hpos : ((enumerate k).filter fun p => p.2 == w).map Prod.fst = positions k w := rfl
    rw [hpos, hs, h1]
    simp only
    rw [List.flatMap_cons]
    congr 1
    · apply List.filterMap_congr
      intro i hi
      rw [msExponent, (hw i hi).2, ← he]
    · rw [positions_length]
      have hc := h w (by omega) (by omega)
      apply ih (w + 1) (e + (k.count w - 1)) (fun l h1 h2 => h l (by omega) (by omega))
      · rw [he, List.range_succ]
        simp
      · have : e + k.count w = e + (k.count w - 1) + 1 := by omega
        rw [this, pow_succ]
        ring

theorem perm_flatMap_positions (k : List Nat) (L : List Nat) (hL : L.Nodup) (hk : ∀ a ∈ k, a ∈ L) :
    (L.flatMap (positions k)).Perm (List.range k.length) := by
  have hn : (L.flatMap (positions k)).Nodup := by
    rw [List.nodup_flatMap]
    constructor
    · intro w _
      rw [positions_eq]
      exact List.Nodup.filter _ List.nodup_range
    · refine List.Pairwise.imp (fun {a b} hab => ?_) hL
      intro i hi hj
      rw [positions_eq] at hi hj
      simp only [List.mem_filter, beq_iff_eq] at hi hj
      exact hab (hi.2.symm.trans hj.2)
  rw [List.perm_ext_iff_of_nodup hn List.nodup_range]
  intro i
  simp only [List.mem_flatMap, positions_eq, List.mem_filter, List.mem_range, beq_iff_eq]
  constructor
  · rintro ⟨_, _, h, _⟩; exact h
  · intro hi
    refine ⟨k.getD i 0, ?_, hi, rfl⟩
    rw [List.getD_eq_getElem _ _ hi]
    exact hk _ (List.getElem_mem hi)

/-- The summands of the boundary, McClure-Smith convention (up to order). -/
theorem msBoundaryEvents_perm {k : Surj} (hk : ∀ v, v ∈ k ↔ 1 ≤ v ∧ v ≤ pyMax k) (v : Int) :
    (msBoundaryEvents k v).Perm ((List.range k.length).filterMap fun i =>
      if 2 ≤ k.count (k.getD i 0) then some (k.eraseIdx i, v * (-1) ^ msExponent k i) else none) := by
  unfold msBoundaryEvents pyRange
  rw [msOuter_eq k v 1 _ 0 (fun l h1 h2 => by
      have := List.count_pos_iff.2 ((hk l).2 ⟨h1, by omega⟩)
      omega) (by
      have : k.count 0 = 0 := List.count_eq_zero.2 fun h => by
        have := (hk 0).1 h
        omega
      simp [this]) 1 (by simp)]
  rw [← List.filterMap_flatMap]
  apply List.Perm.filterMap
  apply perm_flatMap_positions _ _ List.nodup_range'
  intro a ha
  rw [List.mem_range'_1]
  have := (hk a).1 ha
  omega

end SurjElem

/-! ### denotations -/

/-- Exponent of the isomorphism between the two conventions. -/
def convE : Convention → List Nat → Nat
  | .bergerFresse, _ => 0
  | .mcClureSmith, k => invE k

/-- The sign operator of a convention. -/
noncomputable def convS (c : Convention) : (List Nat →₀ R) →ₗ[R] (List Nat →₀ R) :=
  lin fun k => sg R (convE c k) • bv R k

@[simp] theorem convS_single (c : Convention) (k : List Nat) (r : R) :
    convS c (single k r) = (r * sg R (convE c k)) • bv R k := by
  simp [convS]

theorem convS_convS (c : Convention) (v : List Nat →₀ R) : convS c (convS c v) = v := by
  induction v using Finsupp.induction_linear with
  | zero => simp
  | add f g hf hg => simp only [map_add, hf, hg]
  | single k r =>
    rw [convS_single, map_smul, convS_single, smul_smul, one_mul, mul_assoc, sg_mul_self]
    simp

theorem convS_bf (v : List Nat →₀ R) : convS .bergerFresse v = v := by
  induction v using Finsupp.induction_linear with
  | zero => simp
  | add f g hf hg => simp only [map_add, hf, hg]
  | single k r => simp [convE]

theorem pr_convS (drops : List Nat → Bool) (c : Convention) (v : List Nat →₀ R) :
    pr drops (convS c v) = convS c (pr drops v) := by
  induction v using Finsupp.induction_linear with
  | zero => simp
  | add f g hf hg => simp only [map_add, hf, hg]
  | single k r =>
    rw [convS_single, map_smul, pr_single, pr_single]
    split <;> simp

/-- The boundary of the surjection operad, in each convention. -/
noncomputable def sbd (c : Convention) : (List Nat →₀ R) →ₗ[R] (List Nat →₀ R) :=
  (convS c).comp (sdelL.comp (convS c))

theorem sbd_single (c : Convention) (k : List Nat) (r : R) :
    sbd c (single k r) = (r * sg R (convE c k)) • convS c (sdel k) := by
  simp [sbd]

theorem sbd_sbd (c : Convention) (v : List Nat →₀ R) : sbd c (sbd c v) = 0 := by
  simp only [sbd, LinearMap.comp_apply, convS_convS, sdelL_sdelL, map_zero]

theorem sbd_bv_eq_sum (c : Convention) (k : List Nat) :
    sbd c (bv R k) = ((List.range k.length).map fun i =>
      if 2 ≤ k.count (k.getD i 0) then sg R (faceExponent c k i) • bv R (k.eraseIdx i) else 0).sum := by
  rw [sbd_single, one_mul, sdel_eq_sum]
  rw [map_list_sum, List.map_map, List.smul_sum, List.map_map]
  congr 1
  apply List.map_congr_left
  intro i hi
  rw [List.mem_range] at hi
  simp only [Function.comp]
  by_cases h : 2 ≤ k.count (k.getD i 0)
  · rw [if_pos h, if_pos h, map_smul, convS_single, one_mul, smul_smul, smul_smul]
    congr 1
    rw [← sg_add, ← sg_add]
    apply sg_congr
    cases c with
    | bergerFresse => rw [faceExponent, bfExponent_eq hi h]; simp [convE]
    | mcClureSmith =>
      have := ms_bf hi h
      simp only [faceExponent, convE]
      omega
  · rw [if_neg h, if_neg h, map_zero, smul_zero]

theorem sbd_mod_two [CharP R 2] (c : Convention) (k : List Nat) :
    sbd c (bv R k) = ((List.range k.length).map fun i =>
      if 2 ≤ k.count (k.getD i 0) then bv R (k.eraseIdx i) else 0).sum := by
  rw [sbd_bv_eq_sum]
  congr 1
  apply List.map_congr_left
  intro i _
  split
  · rw [sg_natCast]
    have : (-1 : R) = 1 := CharTwo.neg_eq 1
    rw [this]
    simp
  · rfl

theorem den_filterMap_ite {α K : Type} (l : List α) (P : α → Prop) [DecidablePred P] (f : α → K × Int) :
    den R (l.filterMap fun i => if P i then some (f i) else none) =
      (l.map fun i => if P i then single (f i).1 ((f i).2 : R) else 0).sum := by
  induction l with
  | nil => simp
  | cons a l ih =>
    rw [List.filterMap_cons, List.map_cons, List.sum_cons, ← ih]
    by_cases h : P a <;> simp [h]

theorem den_perm {K : Type} {d e : List (K × Int)} (h : d.Perm e) : den R d = den R e := by
  unfold den
  exact (h.map _).sum_eq

namespace SurjElem

/-- The summands which the code adds up for one item. -/
def faceEvents (x : SurjElem) (k : Surj) (v : Int) : List (Surj × Int) :=
  if x.torsion = 2 then mod2BoundaryEvents k
  else match x.attrs.convention with
    | .bergerFresse => bfBoundaryEvents k v
    | .mcClureSmith => msBoundaryEvents k v

theorem boundary_eq (x : SurjElem) : x.boundary = Elem.accumulate surjection (x.zero surjection)
    (x.data.flatMap fun p => faceEvents x p.1 p.2) := by
  unfold boundary faceEvents
  congr 1
  by_cases h : x.torsion = 2
  · simp only [if_pos h]
  · simp only [if_neg h]
    cases x.attrs.convention <;> rfl

theorem key_onto {k : Surj} (h : surjection.drops k = false) : ∀ v, v ∈ k ↔ 1 ≤ v ∧ v ≤ pyMax k :=
  (surj_kept_iff.1 h).2.1

theorem den_faceEvents {x : SurjElem} (hx : x.NF surjection) {n : Nat} (hn : x.torsion = n)
    {p : Surj × Int} (hp : p ∈ x.data) :
    den (ZMod n) (faceEvents x p.1 p.2) = (p.2 : ZMod n) • sbd x.attrs.convention (bv _ p.1) := by
  unfold faceEvents
  by_cases h2 : x.torsion = 2
  · have hn2 : n = 2 := by omega
    subst hn2
    rw [if_pos h2, mod2BoundaryEvents_eq, den_filterMap_ite, sbd_mod_two]
    have hr := hx.coeff_range (by omega) p hp
    have hne := hx.coeff_ne p hp
    have h1 : p.2 = 1 := by omega
    rw [h1]
    simp
  · rw [if_neg h2, sbd_bv_eq_sum]
    cases hc : x.attrs.convention with
    | bergerFresse =>
      simp only
      rw [bfBoundaryEvents_eq, den_filterMap_ite, List.smul_sum, List.map_map]
      congr 1
      apply List.map_congr_left
      intro i _
      simp only [Function.comp, faceExponent]
      split
      · rw [sg_natCast]; simp [mul_comm]
      · simp
    | mcClureSmith =>
      simp only
      rw [den_perm (msBoundaryEvents_perm (key_onto (hx.kept p hp)) p.2), den_filterMap_ite, List.smul_sum,
        List.map_map]
      congr 1
      apply List.map_congr_left
      intro i _
      simp only [Function.comp, faceExponent]
      split
      · rw [sg_natCast]; simp [mul_comm]
      · simp

theorem den_boundary {x : SurjElem} (hx : x.NF surjection) {n : Nat} (hn : x.torsion = n) :
    den (ZMod n) x.boundary.data = pr surjection.drops (sbd x.attrs.convention (den _ x.data)) := by
  rw [boundary_eq, den_accumulate_zero' _ _ _ rfl hn]
  congr 1
  rw [den_events _ _ (fun k => sbd x.attrs.convention (bv _ k)) fun p hp => den_faceEvents hx hn hp]
  congr 1
  apply lin_ext
  intro k
  simp

theorem nf_boundary (x : SurjElem) : x.boundary.NF surjection := nf_accumulate_zero _ _ _

@[simp] theorem boundary_attrs (x : SurjElem) : x.boundary.attrs = x.attrs := by
  rw [boundary_eq]; simp

theorem mem_faceEvents {x : SurjElem} {k m : Surj} {v : Int} (hk : ∀ v, v ∈ k ↔ 1 ≤ v ∧ v ≤ pyMax k)
    (h : m ∈ (faceEvents x k v).map Prod.fst) :
    ∃ i, i < k.length ∧ 2 ≤ k.count (k.getD i 0) ∧ m = k.eraseIdx i := by
  obtain ⟨e, he, rfl⟩ := List.mem_map.1 h
  have key : ∀ f : Nat → Int, e ∈ (List.range k.length).filterMap (fun i =>
      if 2 ≤ k.count (k.getD i 0) then some (k.eraseIdx i, f i) else none) →
      ∃ i, i < k.length ∧ 2 ≤ k.count (k.getD i 0) ∧ e.1 = k.eraseIdx i := by
    intro f he
    rw [List.mem_filterMap] at he
    obtain ⟨i, hi, he⟩ := he
    rw [List.mem_range] at hi
    split at he
    · rename_i h2
      cases he
      exact ⟨i, hi, h2, rfl⟩
    · cases he
  unfold faceEvents at he
  split at he
  · rw [mod2BoundaryEvents_eq] at he
    exact key _ he
  · split at he
    · rw [bfBoundaryEvents_eq] at he
      exact key _ he
    · rw [(msBoundaryEvents_perm hk v).mem_iff] at he
      exact key _ he

theorem mem_keys_boundary {x : SurjElem} (hx : x.NF surjection) {m : Surj}
    (h : m ∈ x.boundary.data.map Prod.fst) :
    ∃ p ∈ x.data, ∃ i, i < p.1.length ∧ 2 ≤ p.1.count (p.1.getD i 0) ∧ m = p.1.eraseIdx i := by
  rw [boundary_eq] at h
  have := mem_keys_accumulate_zero h
  rw [List.map_flatMap, List.mem_flatMap] at this
  obtain ⟨p, hp, hm⟩ := this
  obtain ⟨i, h⟩ := mem_faceEvents (key_onto (hx.kept p hp)) hm
  exact ⟨p, hp, i, h⟩

end SurjElem

theorem sameVals_eraseIdx {k : List Nat} {i : Nat} (hi : i < k.length) (h : 2 ≤ k.count (k.getD i 0)) :
    SameVals k (k.eraseIdx i) := by
  intro v
  rw [mem_eraseIdx_iff hi]
  exact ⟨fun h => h.1, fun h' => ⟨h', fun _ => h⟩⟩

theorem pr_surj_sbd {c : Convention} {k : Surj} (h : surjection.drops k = true) :
    pr surjection.drops (sbd c (bv R k)) = 0 := by
  rw [sbd_single, map_smul, pr_convS, pr_surj_sdel h, map_zero, smul_zero]

end Comch
