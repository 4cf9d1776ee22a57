import Verif.Props.BEMay
import Verif.Props.Counting
import Verif.Spec.Rotations

/-! # Closed formula for the structure elements of the Barratt-Eccles operad: C132 -/

set_option linter.unusedSectionVars false

namespace Comch.BElem
open Spec IsPerm Elem
open Finsupp (single)

variable {R : Type} [CommRing R] {r : Nat}

theorem rotation_zero (r : Nat) : rotation r 0 = pyRange 1 (r + 1) := by
  unfold rotation pyRange
  rw [List.range'_eq_map_range, Nat.add_sub_cancel]
  refine List.map_congr_left fun i hi => ?_
  rw [show (i + 0) % r = i from Nat.mod_eq_of_lt (List.mem_range.1 hi), Nat.add_comm]

theorem rotation_one (hr : 1 ≤ r) : rotation r 1 = RingElem.rho r := by
  obtain ⟨r, rfl⟩ : ∃ t, r = t + 1 := ⟨r - 1, by omega⟩
  unfold rotation RingElem.rho pyRange
  rw [List.range_succ, List.map_append, List.range'_eq_map_range, show r + 1 + 1 - 2 = r by omega]
  congr 1
  · refine List.map_congr_left fun i hi => ?_
    rw [Nat.mod_eq_of_lt (by have := List.mem_range.1 hi; omega)]
    omega
  · simp

theorem mulL_rotation (hr : 1 ≤ r) (a b : Nat) : mulL (rotation r a) (rotation r b) = rotation r (b + a) := by
  unfold mulL rotation
  rw [List.map_map]
  refine List.map_congr_left fun i hi => ?_
  have h : (i + b) % r < r := Nat.mod_lt _ (by omega)
  simp only [Function.comp, value, Nat.add_sub_cancel]
  rw [List.getD_eq_getElem _ _ (by simpa using h), List.getElem_map, List.getElem_range, Nat.mod_add_mod, Nat.add_assoc]

theorem powL_rotation (hr : 1 ≤ r) (k : Nat) : powL r (RingElem.rho r) k = rotation r k := by
  induction k with
  | zero => rw [powL, rotation_zero]
  | succ k ih => rw [powL, ih, ← rotation_one hr, mulL_rotation hr, Nat.add_comm]

theorem map_rotations (hr : 1 ≤ r) (a : Nat) (l : List Nat) (e : Nat) :
    (rotations r e l).map (mulL (rotation r a)) = rotations r (e + a) l := by
  induction l generalizing e with
  | nil => simp [rotations, mulL_rotation hr]
  | cons k l ih =>
    rw [rotations, List.map_cons, ih, mulL_rotation hr, rotations, show e + k + a = e + a + k by ring]

theorem rotation_inj (hr : 1 ≤ r) {a b : Nat} (h : rotation r a = rotation r b) : a % r = b % r := by
  have h0 : (rotation r a).getD 0 0 = (rotation r b).getD 0 0 := by rw [h]
  unfold rotation at h0
  rw [List.getD_eq_getElem _ _ (by simp; omega), List.getD_eq_getElem _ _ (by simp; omega)] at h0
  simpa using h0

theorem rotations_cons (r e : Nat) (l : List Nat) : ∃ t, rotations r e l = rotation r e :: t := by
  cases l with
  | nil => exact ⟨[], rfl⟩
  | cons k l => exact ⟨_, rfl⟩

theorem increments_range (hr : 2 ≤ r) (d : Nat) : ∀ l ∈ increments r d, l.length = d ∧ ∀ k ∈ l, 1 ≤ k ∧ k < r := by
  induction d with
  | zero => intro l hl; simp [increments] at hl; subst hl; simp
  | succ d ih =>
    intro l hl
    rw [increments] at hl
    split at hl
    · obtain ⟨m, hm, rfl⟩ := List.mem_map.1 hl
      obtain ⟨h1, h2⟩ := ih m hm
      refine ⟨by simp [h1], fun k hk => ?_⟩
      rcases List.mem_cons.1 hk with rfl | hk
      · omega
      · exact h2 k hk
    · obtain ⟨j, hj, hl⟩ := List.mem_flatMap.1 hl
      obtain ⟨m, hm, rfl⟩ := List.mem_map.1 hl
      obtain ⟨h1, h2⟩ := ih m hm
      refine ⟨by simp [h1], fun k hk => ?_⟩
      rcases List.mem_cons.1 hk with rfl | hk
      · rw [List.mem_range'_1] at hj; omega
      · exact h2 k hk

theorem mod_add_ne {e k : Nat} (h1 : 1 ≤ k) (h2 : k < r) : e % r ≠ (e + k) % r := by
  intro h
  have h3 : e ≡ e + k [MOD r] := h
  have h4 : 0 ≡ k [MOD r] := Nat.ModEq.add_left_cancel' e (by simpa using h3)
  have : r ∣ k := (Nat.modEq_zero_iff_dvd).1 h4.symm
  exact absurd (Nat.le_of_dvd (by omega) this) (by omega)

theorem hasRep_rotations (hr : 1 ≤ r) (l : List Nat) (hl : ∀ k ∈ l, 1 ≤ k ∧ k < r) (e : Nat) :
    hasRep (rotations r e l) = false := by
  induction l generalizing e with
  | nil => rfl
  | cons k l ih =>
    obtain ⟨t, ht⟩ := rotations_cons r (e + k) l
    have h := ih (fun j hj => hl j (by simp [hj])) (e + k)
    rw [rotations, ht] at *
    have hk := hl k (by simp)
    have : rotation r e ≠ rotation r (e + k) := fun h => mod_add_ne hk.1 hk.2 (rotation_inj hr h)
    simp [hasRep, this, h]

theorem actV_rotations (hr : 1 ≤ r) (a : Nat) (l : List Nat) :
    actV (R := R) (bv R (rotation r a)) (bv R (rotations r 0 l)) = bv R (rotations r a l) := by
  rw [bil_single]
  simp [trL, map_rotations hr]

theorem actV_sum (x : Perm →₀ R) (L : List (List Nat)) (f : List Nat → BKey) :
    actV x (L.map fun l => bv R (f l)).sum = (L.map fun l => actV x (bv R (f l))).sum := by
  rw [map_list_sum, List.map_map]; rfl

/-- The structure element is the sum of all the sequences of rotations. -/
theorem psiV_rotations (hr : 2 ≤ r) (d : Nat) :
    psiV R r d = ((increments r d).map fun l => bv R (rotations r 0 l)).sum := by
  induction d with
  | zero => simp [psiV, increments, rotations, rotation_zero]
  | succ d ih =>
    have hlen := increments_range hr d
    have key : ∀ k, 1 ≤ k → k < r → ∀ l ∈ increments r d,
        pr hasRep (consV (pyRange 1 (r + 1)) (bv R (rotations r k l))) = bv R (rotations r 0 (k :: l)) := by
      intro k h1 h2 l hl
      rw [consV_single, pr_single, rotations, ← rotation_zero, Nat.zero_add]
      have := hasRep_rotations (r := r) (by omega) (k :: l) (fun j hj => by
        rcases List.mem_cons.1 hj with rfl | hj
        · exact ⟨h1, h2⟩
        · exact (hlen l hl).2 j hj) 0
      rw [rotations, Nat.zero_add] at this
      rw [this]; simp
    have key0 : ∀ l, pr hasRep (consV (pyRange 1 (r + 1)) (bv R (rotations r 0 l))) = 0 := by
      intro l
      obtain ⟨t, ht⟩ := rotations_cons r 0 l
      rw [consV_single, pr_single, ht, ← rotation_zero]
      simp [hasRep]
    rw [psiV, ih, actV_sum, map_list_sum, map_list_sum, List.map_map, List.map_map, increments]
    by_cases hd : d % 2 = 0
    · rw [if_pos hd, List.map_map]
      congr 1
      refine List.map_congr_left fun l hl => ?_
      simp only [Function.comp, stepV]
      rw [if_neg (by omega), tV, map_sub, LinearMap.sub_apply, ← rotation_one (by omega), ← rotation_zero,
        actV_rotations (by omega), actV_rotations (by omega), map_sub, map_sub, rotation_zero, key 1 le_rfl (by omega) l hl, key0, sub_zero]
    · rw [if_neg hd]
      have e1 : ∀ l ∈ increments r d, pr hasRep (consV (pyRange 1 (r + 1)) (actV (stepV R r (d + 1)) (bv R (rotations r 0 l)))) =
          ((List.range' 1 (r - 1)).map fun k => bv R (rotations r 0 (k :: l))).sum := by
        intro l hl
        obtain ⟨t, rfl⟩ : ∃ t, r = t + 1 := ⟨r - 1, by omega⟩
        rw [stepV, if_pos (by omega), nV, List.range_succ_eq_map, List.map_cons, List.sum_cons, List.map_map, map_add, LinearMap.add_apply,
          map_add, map_add, powL_rotation (by omega), actV_rotations (by omega), key0, zero_add, Nat.add_sub_cancel,
          List.range'_eq_map_range, List.map_map]
        rw [map_list_sum, List.map_map]
        have : ∀ (L : List Nat) (g : Nat → (BKey →₀ R) →ₗ[R] (BKey →₀ R)) (v : BKey →₀ R),
            (L.map g).sum v = (L.map fun k => g k v).sum := by
          intro L g v
          induction L with
          | nil => simp
          | cons a L ih => simp [ih]
        rw [this, map_list_sum, map_list_sum, List.map_map, List.map_map]
        congr 1
        refine List.map_congr_left fun k hk => ?_
        have hk := List.mem_range.1 hk
        simp only [Function.comp]
        rw [powL_rotation (by omega), actV_rotations (by omega), key _ (by omega) (by omega) l hl, Nat.add_comm 1 k]
      rw [List.map_flatMap, List.flatMap_def, List.sum_flatten, List.map_map]
      have e2 : ∀ (A B : List Nat) (C : List (List Nat)) (g : Nat → List Nat → (BKey →₀ R)),
          (C.map fun l => (A.map fun k => g k l).sum).sum = (A.map fun k => (C.map fun l => g k l).sum).sum := by
        intro A _ C g
        induction C with
        | nil => simp
        | cons c C ih => simp [ih, List.sum_map_add]
      refine (congrArg List.sum (List.map_congr_left fun l hl => e1 l hl)).trans ?_
      rw [e2 _ []]
      congr 1
      refine List.map_congr_left fun k _ => ?_
      simp only [Function.comp, List.map_map]
      rfl

end Comch.BElem

namespace Comch.BElem
open Spec IsPerm Elem
variable {r : Nat}

theorem rotations_inj (hr : 1 ≤ r) : ∀ (l l' : List Nat) (e : Nat), (∀ k ∈ l, 1 ≤ k ∧ k < r) → (∀ k ∈ l', 1 ≤ k ∧ k < r) →
    rotations r e l = rotations r e l' → l = l'
  | [], [], _, _, _, _ => rfl
  | [], k :: l, e, _, _, h => by
    obtain ⟨t, ht⟩ := rotations_cons r (e + k) l
    simp [rotations, ht] at h
  | k :: l, [], e, _, _, h => by
    obtain ⟨t, ht⟩ := rotations_cons r (e + k) l
    simp [rotations, ht] at h
  | k :: l, k' :: l', e, h1, h2, h => by
    rw [rotations, rotations] at h
    have h := (List.cons.inj h).2
    have hk : k = k' := by
      obtain ⟨t, ht⟩ := rotations_cons r (e + k) l
      obtain ⟨t', ht'⟩ := rotations_cons r (e + k') l'
      have h3 : rotation r (e + k) = rotation r (e + k') := by
        rw [ht, ht'] at h
        exact (List.cons.inj h).1
      have h4 : e + k ≡ e + k' [MOD r] := rotation_inj hr h3
      have h5 : k ≡ k' [MOD r] := Nat.ModEq.add_left_cancel' e h4
      exact Nat.ModEq.eq_of_lt_of_lt h5 (h1 k (by simp)).2 (h2 k' (by simp)).2
    subst hk
    rw [rotations_inj hr l l' (e + k) (fun j hj => h1 j (by simp [hj])) (fun j hj => h2 j (by simp [hj])) h]

theorem nodup_increments (r d : Nat) : (increments r d).Nodup := by
  induction d with
  | zero => simp [increments]
  | succ d ih =>
    rw [increments]
    split
    · exact ih.map (fun a b h => (List.cons.inj h).2)
    · rw [List.nodup_flatMap]
      refine ⟨fun k _ => ih.map (fun a b h => (List.cons.inj h).2), ?_⟩
      refine List.Pairwise.imp ?_ (List.nodup_range' (s := 1) (n := r - 1))
      intro a b hab l h1 h2
      obtain ⟨m, -, rfl⟩ := List.mem_map.1 h1
      obtain ⟨m', -, h⟩ := List.mem_map.1 h2
      exact hab (List.cons.inj h).1.symm

theorem length_increments (r d : Nat) : (increments r d).length = (r - 1) ^ (d / 2) := by
  induction d with
  | zero => rfl
  | succ d ih =>
    rw [increments]
    split
    · rw [List.length_map, ih, show (d + 1) / 2 = d / 2 by omega]
    · rw [List.length_flatMap]
      simp only [List.length_map, ih, List.map_const', List.sum_replicate, List.length_range', smul_eq_mul]
      rw [show (d + 1) / 2 = d / 2 + 1 by omega, pow_succ, Nat.mul_comm]

theorem rotations_injOn (hr : 2 ≤ r) (d : Nat) : ∀ l ∈ increments r d, ∀ l' ∈ increments r d,
    rotations r 0 l = rotations r 0 l' → l = l' := fun l hl l' hl' h =>
  rotations_inj (by omega) l l' 0 (increments_range hr d l hl).2 (increments_range hr d l' hl').2 h

end Comch.BElem

namespace Comch.Props
open Comch Elem Spec IsPerm BElem

/-- The structure element of arity `r` and degree `d` is the sum of all sequences of `d + 1` rotations that start at
the identity and in which the steps are, alternately, the generator and an arbitrary non-trivial rotation, the last
step being the generator; all coefficients are 1. -/
theorem C132_structure {r : Nat} (hr : 2 ≤ r) (d n : Nat) :
    ∃ x, BarrattEccles.maySteenrodStructure r d (some n) = .ok x ∧ x.torsion = n ∧
      pyEq x (Elem.new barrattEccles ((increments r d).map fun l => (rotations r 0 l, 1)) (some n)) = true := by
  obtain ⟨x, ex, hx, tx, -, dx⟩ := may_ok hr d n
  refine ⟨x, ex, tx, ?_⟩
  have hk : Dict.KeysNodup ((increments r d).map fun l => (rotations r 0 l, (1 : Int))) := by
    unfold Dict.KeysNodup
    rw [List.map_map]
    exact (nodup_increments r d).map_on fun a ha b hb h => rotations_injOn hr d a ha b hb h
  subst tx
  refine (pyEq_iff_den hx.nf (nf_new barrattEccles hk (some x.torsion) _) rfl).2 ?_
  rw [dx, den_new _ _ _ _ (by simp)]
  have hd : ∀ L : List (List Nat), (∀ l ∈ L, l ∈ increments r d) →
      pr barrattEccles.drops (den (ZMod x.torsion) (L.map fun l => (rotations r 0 l, (1 : Int)))) =
        (L.map fun l => bv (ZMod x.torsion) (rotations r 0 l)).sum := by
    intro L hL
    induction L with
    | nil => simp
    | cons l L ih =>
      rw [List.map_cons, den_cons, map_add, ih fun m hm => hL m (by simp [hm]), pr_single, be_drops,
        hasRep_rotations (by omega) l (increments_range hr d l (hL l (by simp))).2]
      obtain ⟨t, ht⟩ := rotations_cons r 0 l
      simp [ht]
  rw [hd _ fun _ h => h, psiV_rotations hr]

/-- Their number is `(r - 1)^⌊d/2⌋`. -/
theorem C132_count {r : Nat} (hr : 2 ≤ r) (d n : Nat) (hn : n ≠ 1) :
    ∃ x, BarrattEccles.maySteenrodStructure r d (some n) = .ok x ∧ x.data.length = (r - 1) ^ (d / 2) := by
  obtain ⟨x, ex, hx, tx, -, dx⟩ := may_ok hr d n
  refine ⟨x, ex, ?_⟩
  subst tx
  rw [← length_increments r d]
  refine data_length hx.nf hn (f := fun l => rotations r 0 l) (s := fun _ => 1)
    ((nodup_increments r d).map_on fun a ha b hb h => rotations_injOn hr d a ha b hb h) (fun _ => Or.inl rfl) ?_
  rw [dx, psiV_rotations hr]
  simp only [one_smul]

example : increments 3 3 = [[1, 1, 1], [1, 2, 1]] ∧
    (increments 3 3).map (rotations 3 0) = [[[1, 2, 3], [2, 3, 1], [3, 1, 2], [1, 2, 3]], [[1, 2, 3], [2, 3, 1], [1, 2, 3], [2, 3, 1]]] := by
  decide

/-- The closed form is what the package computes. -/
example : (BarrattEccles.maySteenrodStructure 3 3).toOption.map (fun x => x.data.map Prod.snd) = some [1, 1] := by decide +kernel

end Comch.Props
