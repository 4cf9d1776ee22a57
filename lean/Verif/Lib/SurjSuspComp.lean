import Verif.Lib.SurjSusp

/-! # Suspension of surjections: composition -/

set_option linter.unusedSectionVars false

namespace Comch.SurjComp
open Spec Elem
open Finsupp (single)

variable {R : Type} [CommRing R] {r i s : Nat}

/-- Inversions between two words. -/
def cross (X Y : List Nat) : Nat := (X.map fun x => (Y.filter fun y => y < x).length).sum

theorem inversions_append (X Y : List Nat) : inversions (X ++ Y) = inversions X + cross X Y + inversions Y := by
  induction X with
  | nil => simp [inversions, cross]
  | cons x X ih =>
    simp only [List.cons_append, inversions, ih, cross, List.map_cons, List.sum_cons, List.filter_append,
      List.length_append]
    omega

theorem cross_append_left (X X' Y : List Nat) : cross (X ++ X') Y = cross X Y + cross X' Y := by
  simp [cross]

theorem cross_append_right (X Y Y' : List Nat) : cross X (Y ++ Y') = cross X Y + cross X Y' := by
  induction X with
  | nil => simp [cross]
  | cons x X ih =>
    simp only [cross, List.map_cons, List.sum_cons, List.filter_append, List.length_append] at *
    omega

theorem inversions_map {f : Nat → Nat} {X : List Nat} (hf : ∀ a ∈ X, ∀ b ∈ X, f a < f b ↔ a < b) :
    inversions (X.map f) = inversions X := by
  induction X with
  | nil => rfl
  | cons x X ih =>
    simp only [List.map_cons, inversions]
    rw [ih (fun a ha b hb => hf a (by simp [ha]) b (by simp [hb])), List.filter_map, List.length_map]
    congr 2
    apply List.filter_congr
    intro b hb
    simp [hf b (by simp [hb]) x (by simp)]

theorem cross_map {f g : Nat → Nat} {X Y : List Nat} (hf : ∀ a ∈ Y, ∀ b ∈ X, g a < f b ↔ a < b) :
    cross (X.map f) (Y.map g) = cross X Y := by
  unfold cross
  rw [List.map_map]
  congr 1
  apply List.map_congr_left
  intro x hx
  simp only [Function.comp, List.filter_map, List.length_map]
  congr 1
  apply List.filter_congr
  intro b hb
  simp [hf b hb x hx]

theorem sh_lt {a b : Nat} (ha : a ≠ i) (hb : b ≠ i) (hs : 1 ≤ s) : sh i s a < sh i s b ↔ a < b := by
  unfold sh; split <;> split <;> omega

theorem up_lt {a b : Nat} (ha : 1 ≤ a) (hb : 1 ≤ b) (hi : 1 ≤ i) : up i a < up i b ↔ a < b := by
  unfold up; omega

theorem cross_sh_up {A q : List Nat} (hA : i ∉ A) (hq : Rng s q) (hi : 1 ≤ i) :
    cross (A.map (sh i s)) (q.map (up i)) = q.length * cross A [i] := by
  induction A with
  | nil => simp [cross]
  | cons x A ih =>
    have hx : x ≠ i := fun e => hA (by simp [e])
    have ih := ih fun h => hA (by simp [h])
    simp only [cross, List.map_cons, List.sum_cons, List.filter_map, List.length_map] at *
    rw [ih, Nat.mul_add]
    congr 1
    by_cases h : i < x
    · rw [List.filter_cons_of_pos (by simpa using h)]
      rw [List.filter_eq_self.2]
      · simp
      · intro a ha
        have := hq a ha
        have hlt : up i a < sh i s x := by
          unfold up sh
          rw [if_neg (by omega)]
          omega
        simp [Function.comp, hlt]
    · rw [List.filter_cons_of_neg (by simpa using h), List.filter_eq_nil_iff.2]
      · simp
      · intro a ha
        have := hq a ha
        have hlt : ¬ up i a < sh i s x := by
          unfold up sh
          rw [if_pos (by omega)]
          omega
        simp only [Function.comp, hlt, decide_false, Bool.false_eq_true, not_false_iff]

theorem cross_up_sh {B q : List Nat} (hB : i ∉ B) (hq : Rng s q) (hi : 1 ≤ i) :
    cross (q.map (up i)) (B.map (sh i s)) = q.length * cross [i] B := by
  have e : ∀ a ∈ q, ((B.map (sh i s)).filter fun y => decide (y < up i a)).length = cross [i] B := by
    intro a ha
    have := hq a ha
    simp only [cross, List.map_cons, List.map_nil, List.sum_cons, List.sum_nil, List.filter_map, List.length_map]
    rw [add_zero]
    congr 1
    apply List.filter_congr
    intro b hb
    have : b ≠ i := fun h => hB (h ▸ hb)
    have hlt : sh i s b < up i a ↔ b < i := by
      unfold sh up
      split <;> omega
    simp only [Function.comp, hlt]
  unfold cross at e ⊢
  rw [List.map_map, List.map_congr_left (g := fun _ => ([i].map fun x => (B.filter fun y => decide (y < x)).length).sum)
    (fun a ha => by simpa using e a ha)]
  simp

theorem IsPerm.mem {p : List Nat} (h : IsPerm r p) {v : Nat} (h1 : 1 ≤ v) (h2 : v ≤ r) : v ∈ p := by
  have hs : p.toFinset = Finset.Icc 1 r := by
    apply Finset.eq_of_subset_of_card_le
    · intro a ha
      rw [List.mem_toFinset] at ha
      exact Finset.mem_Icc.2 (h.range a ha)
    · rw [List.toFinset_card_of_nodup h.nodup, h.length]
      simp
  rw [← List.mem_toFinset, hs]
  exact Finset.mem_Icc.2 ⟨h1, h2⟩

theorem count_below {A B : List Nat} (h : IsPerm r (A ++ i :: B)) :
    (A.filter fun y => y < i).length + (B.filter fun y => y < i).length = i - 1 := by
  have hp := (List.perm_of_nodup_nodup_toFinset_eq h.nodup (List.nodup_range' (s := 1) (n := r)) (by
    ext v
    simp only [List.mem_toFinset, List.mem_range'_1]
    constructor
    · intro hv; have := h.range v hv; omega
    · intro hv; exact IsPerm.mem h (by omega) (by omega))).filter (fun y => y < i)
  have hl := hp.length_eq
  have hi := h.range i (by simp)
  have e : (List.range' 1 r).filter (fun y => decide (y < i)) = List.range' 1 (i - 1) := by
    obtain ⟨k, hk⟩ : ∃ k, r = (i - 1) + k := ⟨r - (i - 1), by omega⟩
    rw [hk, ← List.range'_append_1, List.filter_append, List.filter_eq_self.2, List.filter_eq_nil_iff.2]
    · simp
    · intro a ha; simp at ha ⊢; omega
    · intro a ha; simp at ha ⊢; omega
  rw [e, List.length_range', List.filter_append, List.length_append,
    List.filter_cons_of_neg (by simp)] at hl
  exact hl

theorem cross_total {A : List Nat} (hA : i ∉ A) :
    cross A [i] + (A.filter fun y => y < i).length = A.length := by
  induction A with
  | nil => simp [cross]
  | cons x A ih =>
    have hx : x ≠ i := fun e => hA (by simp [e])
    have ih := ih fun h => hA (by simp [h])
    simp only [cross, List.map_cons, List.sum_cons, List.filter_cons, List.length_cons, List.filter_nil] at *
    rcases lt_or_gt_of_ne hx with h | h
    · simp [h, Nat.lt_asymm h] at *; omega
    · simp [h, Nat.lt_asymm h] at *; omega

theorem inversions_comp {A B q : List Nat} (h : IsPerm r (A ++ i :: B)) (hq : IsPerm s q) (hs : 1 ≤ s) :
    (-1 : R) ^ inversions (A.map (sh i s) ++ q.map (up i) ++ B.map (sh i s)) =
      (-1) ^ ((s - 1) * (A.length + (i - 1))) * (-1) ^ inversions (A ++ i :: B) * (-1) ^ inversions q := by
  have hi := (h.range i (by simp)).1
  have hn := h.nodup
  rw [List.nodup_append] at hn
  have hA : i ∉ A := fun hm => hn.2.2 i hm i (by simp) rfl
  have hB : i ∉ B := (List.nodup_cons.1 hn.2.1).1
  have c := count_below h
  have ct := cross_total hA
  have e1 : inversions (A.map (sh i s) ++ q.map (up i) ++ B.map (sh i s)) =
      inversions A + s * cross A [i] + inversions q + cross A B + s * cross [i] B + inversions B := by
    rw [inversions_append, inversions_append, cross_append_left, cross_sh_up hA hq.range hi,
      cross_up_sh hB hq.range hi, hq.length,
      inversions_map (f := up i) (fun a ha b hb => up_lt (hq.range a ha).1 (hq.range b hb).1 hi),
      inversions_map (f := sh i s) (fun a ha b hb => sh_lt (fun e => hA (e ▸ ha)) (fun e => hA (e ▸ hb)) hs),
      inversions_map (f := sh i s) (fun a ha b hb => sh_lt (fun e => hB (e ▸ ha)) (fun e => hB (e ▸ hb)) hs),
      cross_map (f := sh i s) (g := sh i s)
        (fun a ha b hb => sh_lt (fun e => hB (e ▸ ha)) (fun e => hA (e ▸ hb)) hs)]
    omega
  have e2 : inversions (A ++ i :: B) = inversions A + cross A [i] + cross A B + cross [i] B + inversions B := by
    rw [show i :: B = [i] ++ B from rfl, inversions_append, inversions_append, cross_append_right]
    simp [inversions]
    omega
  have e3 : cross [i] B = (B.filter fun y => y < i).length := by simp [cross]
  obtain ⟨n, rfl⟩ : ∃ n, s = n + 1 := ⟨s - 1, by omega⟩
  have e4 : A.length + (i - 1) = cross A [i] + cross [i] B + 2 * (A.filter fun y => y < i).length := by omega
  rw [e1, e2, e4, Nat.add_sub_cancel, ← pow_add, ← pow_add]
  generalize (A.filter fun y => decide (y < i)).length = f
  generalize cross A [i] = α
  generalize cross [i] B = β
  generalize inversions A = a1
  generalize inversions B = a2
  generalize inversions q = a3
  generalize cross A B = a4
  rw [show n * (α + β + 2 * f) + (a1 + α + a4 + β + a2) + a3 =
    (a1 + (n + 1) * α + a3 + a4 + (n + 1) * β + a2) + 2 * (n * f) by ring, pow_add _ _ (2 * (n * f)), pow_mul]
  simp

theorem isPerm_comp {A B q : List Nat} (hi : 1 ≤ i) (hir : i ≤ r) (hs : 1 ≤ s)
    (hA : Rng r A) (hB : Rng r B) (hq : Rng s q) (hiA : i ∉ A) (hiB : i ∉ B)
    (hl : A.length + 1 + B.length ≤ r) (hql : q.length ≤ s) :
    IsPerm (r + s - 1) (A.map (sh i s) ++ q.map (up i) ++ B.map (sh i s)) ↔
      IsPerm r (A ++ i :: B) ∧ IsPerm s q := by
  constructor
  · intro h
    have h1 := h.length
    have h2 := h.nodup
    simp only [List.length_append, List.length_map] at h1
    rw [List.append_assoc, List.nodup_append, List.nodup_append] at h2
    obtain ⟨n1, ⟨n2, n3, n4⟩, n5⟩ := h2
    refine ⟨⟨by simp; omega, ?_, ?_⟩, ⟨by omega, List.Nodup.of_map _ n2, hq⟩⟩
    · rw [List.nodup_append]
      refine ⟨List.Nodup.of_map _ n1, List.nodup_cons.2 ⟨hiB, List.Nodup.of_map _ n3⟩, ?_⟩
      intro a ha b hb e
      subst e
      rcases List.mem_cons.1 hb with h | h
      · exact hiA (h ▸ ha)
      · exact n5 _ (List.mem_map_of_mem ha) _ (List.mem_append_right _ (List.mem_map_of_mem h)) rfl
    · intro a ha
      rcases List.mem_append.1 ha with h | h
      · exact hA a h
      · rcases List.mem_cons.1 h with h | h
        · subst h; exact ⟨hi, hir⟩
        · exact hB a h
  · rintro ⟨h, k⟩
    have h1 := h.length
    have k1 := k.length
    simp only [List.length_append, List.length_cons] at h1
    have h2 := h.nodup
    rw [List.nodup_append, List.nodup_cons] at h2
    obtain ⟨n1, ⟨n2, n3⟩, n4⟩ := h2
    have neA : ∀ a ∈ A, a ≠ i := fun a ha e => hiA (e ▸ ha)
    have neB : ∀ a ∈ B, a ≠ i := fun a ha e => hiB (e ▸ ha)
    refine ⟨by simp; omega, ?_, ?_⟩
    · rw [List.append_assoc, List.nodup_append, List.nodup_append]
      refine ⟨List.Nodup.map_on (fun a ha b hb e => sh_inj (neA a ha) (neA b hb) hs e) n1,
        ⟨List.Nodup.map_on (fun a ha b hb e => up_inj (hq a ha).1 (hq b hb).1 hi e) k.nodup,
         List.Nodup.map_on (fun a ha b hb e => sh_inj (neB a ha) (neB b hb) hs e) n3, ?_⟩, ?_⟩
      · intro u hu v hv e
        obtain ⟨a, ha, rfl⟩ := List.mem_map.1 hu
        obtain ⟨b, hb, rfl⟩ := List.mem_map.1 hv
        exact sh_ne_up (neB b hb) (hq a ha) hi e.symm
      · intro u hu v hv e
        obtain ⟨a, ha, rfl⟩ := List.mem_map.1 hu
        rcases List.mem_append.1 hv with hv | hv
        · obtain ⟨b, hb, rfl⟩ := List.mem_map.1 hv
          exact sh_ne_up (neA a ha) (hq b hb) hi e
        · obtain ⟨b, hb, rfl⟩ := List.mem_map.1 hv
          have := sh_inj (neA a ha) (neB b hb) hs e
          exact n4 a ha b (by simp [hb]) this
    · intro u hu
      rw [List.append_assoc] at hu
      rcases List.mem_append.1 hu with hu | hu
      · obtain ⟨a, ha, rfl⟩ := List.mem_map.1 hu
        have := hA a ha
        have := neA a ha
        unfold sh; split <;> omega
      · rcases List.mem_append.1 hu with hu | hu
        · obtain ⟨a, ha, rfl⟩ := List.mem_map.1 hu
          have := hq a ha
          unfold up; omega
        · obtain ⟨a, ha, rfl⟩ := List.mem_map.1 hu
          have := hB a ha
          have := neB a ha
          unfold sh; split <;> omega

theorem full_of_nodup {q : List Nat} (hq : Rng s q) (hl : q.length = s) (hn : q.Nodup) {b : Nat} (h1 : 1 ≤ b)
    (h2 : b ≤ s) : b ∈ q := IsPerm.mem ⟨hl, hn, hq⟩ h1 h2

/-- The sign of the composite of two permutations. -/
theorem eps_comp {A B q : List Nat} (hi : 1 ≤ i) (hir : i ≤ r) (hs : 1 ≤ s)
    (hA : Rng r A) (hB : Rng r B) (hq : Rng s q) (hiA : i ∉ A)
    (hl : A.length + 1 + B.length ≤ r) (hql : q.length ≤ s) :
    eps R (r + s - 1) (A.map (sh i s) ++ q.map (up i) ++ B.map (sh i s)) =
      (-1) ^ ((s - 1) * (A.length + (i - 1))) * (eps R r (A ++ i :: B) * eps R s q) := by
  by_cases hiB : i ∈ B
  · rw [eps_not, eps_not (q := A ++ i :: B)]
    · simp
    · intro h
      have := h.nodup
      simp [List.nodup_append, hiB] at this
    · intro h
      have h1 := h.length
      have h2 := h.nodup
      simp only [List.length_append, List.length_map] at h1
      rw [List.append_assoc, List.nodup_append, List.nodup_append] at h2
      obtain ⟨n1, ⟨n2, n3, n4⟩, n5⟩ := h2
      have := full_of_nodup hq (by omega) (List.Nodup.of_map _ n2) hs le_rfl
      refine n4 _ (List.mem_map_of_mem this) _ (List.mem_map_of_mem hiB) ?_
      simp [up, sh]
      omega
  · have e := isPerm_comp hi hir hs hA hB hq hiA hiB hl hql
    by_cases h : IsPerm (r + s - 1) (A.map (sh i s) ++ q.map (up i) ++ B.map (sh i s))
    · obtain ⟨h1, h2⟩ := e.1 h
      unfold eps
      rw [if_pos h, if_pos h1, if_pos h2, inversions_comp h1 h2 hs]
      ring
    · rw [eps_not h]
      by_cases h1 : IsPerm r (A ++ i :: B)
      · rw [eps_not (r := s) (fun h2 => h (e.2 ⟨h1, h2⟩))]
        simp
      · rw [eps_not h1]
        simp

/-! ## Reading a composite -/

theorem susT_dup {N : Nat} {P : List Nat} {x : Nat} (h : ¬ (P ++ [x]).Nodup) (v : List Nat →₀ R)
    (hP : P.length < N) : susT R N P (consV x v) = 0 := by
  have := lin_ext (R := R) (f := (susT R N P).comp (consV x)) (g := 0) (fun t => by
    simp only [LinearMap.comp_apply, consV_single, LinearMap.zero_apply]
    change susT R N P (bv R (x :: t)) = 0
    rw [susT_bv, eps_not, zero_smul]
    intro hp
    apply h
    obtain ⟨n, hn⟩ : ∃ n, N - P.length = n + 1 := ⟨N - P.length - 1, by omega⟩
    have := hp.nodup
    rw [hn, List.take_succ_cons] at this
    refine this.sublist ?_
    apply List.Sublist.append_left
    simp)
  exact LinearMap.congr_fun this v

/-- Moving on before the inner permutation is complete. -/
theorem susT_early {N : Nat} {P : List Nat} (hN : P.length < N) (hi : 1 ≤ i)
    {a : Nat} (ha : up i a ∈ P) {b : Nat} (hb : 1 ≤ b ∧ b ≤ s) (hbN : up i b ≤ N) (hbP : up i b ∉ P)
    (t w : List Nat) : susT R N P (cmp i s t (a :: w)) = 0 := by
  induction t generalizing P with
  | nil => rw [cmp_nil, susT_nil hN]
  | cons j t ih =>
    by_cases hj : j = i
    · subst hj
      rw [cmp_i_cons, map_add, map_smul, susT_dup (by simp [List.nodup_append, ha]) _ hN, smul_zero, zero_add]
      split
      · rw [susT_dup (by simp [List.nodup_append, ha]) _ hN]
      · simp
    · rw [cmp_ne hj]
      have hne := sh_ne_up (s := s) hj hb hi
      by_cases hl : P.length + 2 ≤ N
      · rw [susT_cons hl]
        exact ih (by simp; omega) (by simp [ha]) (by simp [hbP, Ne.symm hne])
      · rw [susT_last (by omega), eps_not, zero_smul]
        intro h
        have := IsPerm.mem h (v := up i b) (by unfold up; omega) hbN
        simp [hbP, Ne.symm hne] at this

/-- Reading the outer letters after the inner permutation is complete. -/
theorem susT_rest {N : Nat} {P : List Nat} (hN : P.length < N) (hi : 1 ≤ i) (hs : 1 ≤ s)
    {a : Nat} (ha : up i a ∈ P) (hP : P.Nodup → up i s ∈ P) (t w : List Nat) :
    susT R N P (cmp i s t (a :: w)) =
      eps R N (P ++ (t.take (N - P.length)).map (sh i s)) • cmp i s (t.drop (N - P.length - 1)) (a :: w) := by
  have hsi : sh i s i = up i s := by simp [sh, up]; omega
  induction t generalizing P with
  | nil =>
    rw [cmp_nil, susT_nil hN, eps_not, zero_smul]
    intro h
    have := h.length
    simp at this
    omega
  | cons j t ih =>
    obtain ⟨n, hn⟩ : ∃ n, N - P.length = n + 1 := ⟨N - P.length - 1, by omega⟩
    rw [hn]
    by_cases hj : j = i
    · subst hj
      rw [eps_not (q := P ++ ((j :: t).take (n + 1)).map (sh j s)), zero_smul]
      · rw [cmp_i_cons, map_add, map_smul, susT_dup (by simp [List.nodup_append, ha]) _ hN, smul_zero, zero_add]
        split
        · rw [susT_dup (by simp [List.nodup_append, ha]) _ hN]
        · simp
      · intro h
        have h2 := h.nodup
        rw [List.nodup_append] at h2
        have := hP h2.1
        exact h2.2.2 _ this (up j s) (by simp [hsi]) rfl
    · rw [cmp_ne hj]
      by_cases hl : P.length + 2 ≤ N
      · have hn' : N - (P ++ [sh i s j]).length = n := by simp; omega
        obtain ⟨k, rfl⟩ : ∃ k, n = k + 1 := ⟨n - 1, by omega⟩
        rw [susT_cons hl, ih (by simp; omega) (by simp [ha])
          (fun h => List.mem_append_left _ (hP (List.nodup_append.1 h).1)), hn']
        simp
      · obtain rfl : n = 0 := by omega
        rw [susT_last (by omega)]
        simp [cmp_ne hj]

/-- A word without `i` gives no inner letters. -/
theorem cmp_no_i {t k2 m : List Nat} (hk : Rng s k2) (hi : 1 ≤ i) (hs : 1 ≤ s) (h : i ∉ t) {b : Nat}
    (hb : 1 ≤ b ∧ b ≤ s) (hm : up i b ∈ m) : cmp (R := R) i s t k2 m = 0 := by
  have := cmp_supported (R := R) hi t k2 hk hs
  rw [Finsupp.mem_supported'] at this
  apply this
  intro (ht : Term i s t k2 m)
  rcases ht.vals _ hm with ⟨j, _, hj, e⟩ | ⟨h', _⟩
  · exact sh_ne_up hj hb hi e.symm
  · exact h h'

theorem cmp_miss_inner {t k2 m : List Nat} (hk : Rng s k2) (hi : 1 ≤ i) (hs : 1 ≤ s) {b : Nat} (h : b ∉ k2)
    (hb : 1 ≤ b ∧ b ≤ s) (hm : up i b ∈ m) : cmp (R := R) i s t k2 m = 0 := by
  have := cmp_supported (R := R) hi t k2 hk hs
  rw [Finsupp.mem_supported'] at this
  apply this
  intro (ht : Term i s t k2 m)
  exact ht.absent b hb h hm

theorem cmp_miss_outer {t k2 m : List Nat} (hk : Rng s k2) (hi : 1 ≤ i) (hs : 1 ≤ s) {j : Nat} (h : j ∉ t)
    (hj : j ≠ i) (hm : sh i s j ∈ m) : cmp (R := R) i s t k2 m = 0 := by
  have := cmp_supported (R := R) hi t k2 hk hs
  rw [Finsupp.mem_supported'] at this
  apply this
  intro (ht : Term i s t k2 m)
  have := ht.outer j hj
  rw [List.count_eq_zero.2 h] at this
  exact List.count_eq_zero.1 this hm

theorem not_nodup_of_long {q : List Nat} (hq : Rng s q) (h : s < q.length) : ¬ q.Nodup := by
  intro hn
  have : q.toFinset ⊆ Finset.Icc 1 s := fun a ha => Finset.mem_Icc.2 (hq a (List.mem_toFinset.1 ha))
  have := Finset.card_le_card this
  rw [List.toFinset_card_of_nodup hn] at this
  simp at this
  omega

theorem exists_missing {q : List Nat} (h : q.length < s) : ∃ b, (1 ≤ b ∧ b ≤ s) ∧ b ∉ q := by
  by_contra hc
  push Not at hc
  have : Finset.Icc 1 s ⊆ q.toFinset := fun a ha => List.mem_toFinset.2 (hc a (Finset.mem_Icc.1 ha))
  have := Finset.card_le_card this
  have := q.toFinset_card_le
  simp at *
  omega

theorem up_mem_prefix {p q : List Nat} (hp : i ∉ p) (hi : 1 ≤ i) (hq : Rng s q) {b : Nat} (hb : 1 ≤ b ∧ b ≤ s)
    (h : up i b ∈ p.map (sh i s) ++ q.map (up i)) : b ∈ q := by
  rcases List.mem_append.1 h with h | h
  · obtain ⟨j, hj, e⟩ := List.mem_map.1 h
    exact absurd e (sh_ne_up (fun e => hp (e ▸ hj)) hb hi)
  · obtain ⟨a, ha, e⟩ := List.mem_map.1 h
    exact (up_inj (hq a ha).1 hb.1 hi e) ▸ ha

/-- Reading the inner permutation. -/
theorem susT_inner (hi : 1 ≤ i) (hir : i ≤ r) {p : List Nat} (hp : p.length < r) (hip : i ∉ p) (t : List Nat)
    {m : List Nat} (hm : ∀ v, 1 ≤ v → v ≤ r + s - 1 → v ∈ m) {q : List Nat} (hq : q.length < s) (hqr : Rng s q)
    (w : List Nat) (hw : Rng s w) :
    susT R (r + s - 1) (p.map (sh i s) ++ q.map (up i)) (cmp i s (i :: t) w) m =
      (-1) ^ ((s - 1 - q.length) * sdeg (i :: t)) *
        (eps R (r + s - 1) (p.map (sh i s) ++ (q ++ w.take (s - q.length)).map (up i) ++
          (t.take (r - 1 - p.length)).map (sh i s)) *
        cmp i s ((i :: t).drop (r - p.length - 1)) (w.drop (s - q.length - 1)) m) := by
  have hs : 1 ≤ s := by omega
  have hup : ∀ b, 1 ≤ b ∧ b ≤ s → up i b ∈ m := fun b hb => hm _ (by unfold up; omega) (by unfold up; omega)
  induction w generalizing q with
  | nil =>
    rw [cmp_i_nil, map_zero, Finsupp.zero_apply, eps_not, zero_mul, mul_zero]
    intro h
    have := h.length
    simp at this
    omega
  | cons a w ih =>
    have ha := hw.head
    have hP : (p.map (sh i s) ++ q.map (up i)).length = p.length + q.length := by simp
    have hqa : Rng s (q ++ [a]) := fun b hb => by
      rcases List.mem_append.1 hb with h | h
      · exact hqr b h
      · simp at h; exact h ▸ ha
    have eP : p.map (sh i s) ++ q.map (up i) ++ [up i a] = p.map (sh i s) ++ (q ++ [a]).map (up i) := by simp
    have haP : up i a ∈ p.map (sh i s) ++ (q ++ [a]).map (up i) := by simp
    by_cases hl : q.length + 1 < s
    · obtain ⟨n, hn⟩ : ∃ n, s - q.length = n + 2 := ⟨s - q.length - 2, by omega⟩
      have hn' : s - (q ++ [a]).length = n + 1 := by simp; omega
      have ih := ih (q := q ++ [a]) (by simp; omega) hqa hw.tail
      rw [show s - 1 - (q ++ [a]).length = n by simp; omega, hn'] at ih
      rw [show s - 1 - q.length = n + 1 by omega, hn, cmp_i_cons, map_add, map_smul, susT_cons (by rw [hP]; omega),
        Finsupp.add_apply, Finsupp.smul_apply, eP, ih]
      have hmove : susT R (r + s - 1) (p.map (sh i s) ++ q.map (up i))
          (if i ∈ t ∨ w = [] then consV (up i a) (cmp i s t (a :: w)) else 0) = 0 := by
        split
        · rw [susT_cons (by rw [hP]; omega), eP]
          obtain ⟨b, hb, hbq⟩ := exists_missing (q := q ++ [a]) (s := s) (by simp; omega)
          exact susT_early (by simp; omega) hi haP hb (by unfold up; omega)
            (fun h => hbq (up_mem_prefix hip hi hqa hb h)) t w
        · simp
      rw [hmove, Finsupp.zero_apply, add_zero]
      by_cases haw : a ∈ w
      · rw [if_pos haw]
        simp only [smul_eq_mul, List.append_assoc, List.singleton_append, List.take_succ_cons,
          show n + 2 - 1 = n + 1 from rfl, List.drop_succ_cons, Nat.add_sub_cancel]
        ring
      · have z : cmp (R := R) i s ((i :: t).drop (r - p.length - 1)) (w.drop n) m = 0 :=
          cmp_miss_inner (fun b hb => hw.tail b (List.mem_of_mem_drop hb)) hi hs
            (fun h => haw (List.mem_of_mem_drop h)) ha (hup a ha)
        simp only [show n + 2 - 1 = n + 1 from rfl, List.drop_succ_cons, Nat.add_sub_cancel, z]
        simp
    · have hql : q.length + 1 = s := by omega
      rw [show s - 1 - q.length = 0 by omega, show s - q.length = 1 by omega]
      simp only [zero_mul, pow_zero, one_mul, Nat.sub_self, List.drop_zero, List.take_succ_cons, List.take_zero]
      by_cases hpr : p.length + 1 = r
      · rw [show r - p.length - 1 = 0 by omega, show r - 1 - p.length = 0 by omega]
        simp only [List.drop_zero, List.take_zero, List.map_nil, List.append_nil]
        have key : susT R (r + s - 1) (p.map (sh i s) ++ q.map (up i)) (cmp i s (i :: t) (a :: w)) =
            eps R (r + s - 1) (p.map (sh i s) ++ q.map (up i) ++ [up i a]) • cmp i s (i :: t) (a :: w) := by
          have hN : (p.map (sh i s) ++ q.map (up i)).length + 1 = r + s - 1 := by rw [hP]; omega
          rw [cmp_i_cons, map_add, map_smul, susT_last hN]
          split
          · split
            · rw [susT_last hN]; module
            · rw [map_zero]; module
          · split
            · rw [susT_last hN]; module
            · rw [map_zero]; module
        rw [key, eP, Finsupp.smul_apply, smul_eq_mul]
      · obtain ⟨n, hn⟩ : ∃ n, r - p.length = n + 2 := ⟨r - p.length - 2, by omega⟩
        rw [hn, show r - 1 - p.length = n + 1 by omega, cmp_i_cons, map_add, map_smul,
          susT_cons (by rw [hP]; omega), eP]
        have hstay : susT R (r + s - 1) (p.map (sh i s) ++ (q ++ [a]).map (up i)) (cmp i s (i :: t) w) = 0 := by
          cases w with
          | nil => simp
          | cons b w =>
            have hb := hw.tail.head
            have hd : ¬ (p.map (sh i s) ++ (q ++ [a]).map (up i) ++ [up i b]).Nodup := by
              intro h
              have h : (p.map (sh i s) ++ (q ++ [a, b]).map (up i)).Nodup := by simpa using h
              refine not_nodup_of_long (s := s) (q := q ++ [a, b]) ?_ (by simp; omega)
                (List.Nodup.of_map _ (List.nodup_append.1 h).2.1)
              intro c hc
              rcases List.mem_append.1 hc with h | h
              · exact hqr c h
              · simp at h; rcases h with rfl | rfl <;> assumption
            have hlen : (p.map (sh i s) ++ (q ++ [a]).map (up i)).length < r + s - 1 := by simp; omega
            rw [cmp_i_cons, map_add, map_smul, susT_dup hd _ hlen, smul_zero, zero_add]
            split
            · rw [susT_dup hd _ hlen]
            · simp
        rw [hstay, smul_zero, zero_add, show n + 2 - 1 = n + 1 from rfl, List.drop_succ_cons]
        split
        · rw [susT_cons (by rw [hP]; omega), eP, susT_rest (by simp; omega) hi hs haP ?_ t w]
          · rw [show r + s - 1 - (p.map (sh i s) ++ (q ++ [a]).map (up i)).length = n + 1 by simp; omega]
            rw [Finsupp.smul_apply, smul_eq_mul, Nat.add_sub_cancel]
          · intro h
            apply List.mem_append_right
            apply List.mem_map_of_mem
            exact full_of_nodup hqa (by simp; omega) (List.Nodup.of_map _ (List.nodup_append.1 h).2.1) hs le_rfl
        · rename_i hc
          rw [map_zero, Finsupp.zero_apply, cmp_no_i hw hi hs (b := 1) (fun h => hc (Or.inl (List.mem_of_mem_drop h)))
            ⟨le_rfl, hs⟩ (hup 1 ⟨le_rfl, hs⟩), mul_zero]

/-- Reading the outer letters in front of the first `i`. -/
theorem susT_cmp (hi : 1 ≤ i) (hir : i ≤ r) (hs : 1 ≤ s) {m : List Nat} (hm : ∀ v, 1 ≤ v → v ≤ r + s - 1 → v ∈ m)
    {k2 : List Nat} (hk : Rng s k2) {p : List Nat} (hp : p.length < r) (hpr : Rng r p) (hip : i ∉ p) (t : List Nat)
    (ht : Rng r t) :
    susT R (r + s - 1) (p.map (sh i s)) (cmp i s t k2) m =
      (-1) ^ ((s - 1) * (p.length + (i - 1) + sdeg t)) *
        (eps R r (p ++ t.take (r - p.length)) * eps R s (k2.take s) *
        cmp i s (t.drop (r - p.length - 1)) (k2.drop (s - 1)) m) := by
  induction t generalizing p with
  | nil =>
    rw [cmp_nil, susT_nil (by simp; omega), eps_not]
    · simp
    · intro h
      have := h.length
      simp at this
      omega
  | cons j t ih =>
    obtain ⟨n, hn⟩ : ∃ n, r - p.length = n + 1 := ⟨r - p.length - 1, by omega⟩
    by_cases hj : j = i
    · subst hj
      have := susT_inner (R := R) (s := s) hi hir hp hip t hm (q := []) (by simp; omega) (by simp [Rng]) k2 hk
      simp only [List.map_nil, List.append_nil, List.length_nil, Nat.sub_zero, List.nil_append] at this
      rw [this, eps_comp hi hir hs hpr (fun a ha => ht.tail a (List.mem_of_mem_take ha))
        (fun a ha => hk a (List.mem_of_mem_take ha)) hip (by simp; omega) (by simp)]
      rw [hn, List.take_succ_cons, show r - 1 - p.length = n by omega, Nat.mul_add (s - 1) (p.length + (j - 1)), pow_add]
      ring
    · have hsub : Rng r (p ++ [j]) := fun a ha => by
        rcases List.mem_append.1 ha with h | h
        · exact hpr a h
        · simp at h; exact h ▸ ht.head
      have hij : i ∉ p ++ [j] := by simp [hip, Ne.symm hj]
      rw [cmp_ne hj, hn, List.take_succ_cons, Nat.add_sub_cancel]
      by_cases hl : p.length + 1 < r
      · obtain ⟨k, rfl⟩ : ∃ k, n = k + 1 := ⟨n - 1, by omega⟩
        rw [susT_cons (by simp; omega), show p.map (sh i s) ++ [sh i s j] = (p ++ [j]).map (sh i s) by simp,
          ih (by simp; omega) hsub hij ht.tail,
          show r - (p ++ [j]).length = k + 1 by simp; omega]
        simp only [List.append_assoc, List.singleton_append, Nat.add_sub_cancel, List.drop_succ_cons,
          List.length_append, List.length_singleton, sdeg]
        by_cases hjt : j ∈ t
        · rw [if_pos hjt, show p.length + 1 + (i - 1) + sdeg t = p.length + (i - 1) + (1 + sdeg t) by omega]
        · rw [cmp_miss_outer (fun a ha => hk a (List.mem_of_mem_drop ha)) hi hs
            (fun h => hjt (List.mem_of_mem_drop h)) hj]
          · simp
          · have := ht.head
            apply hm
            · unfold sh; split <;> omega
            · unfold sh; split <;> omega
      · obtain rfl : n = 0 := by omega
        have hnd : ¬ (p ++ [j]).Nodup := by
          intro h
          exact hij (full_of_nodup hsub (by simp; omega) h hi hir)
        rw [susT_dup _ _ (by simp; omega), eps_not (r := r)]
        · simp
        · intro h
          exact hnd (by simpa using h.nodup)
        · intro h
          have h : ((p ++ [j]).map (sh i s)).Nodup := by simpa using h
          exact hnd (List.Nodup.of_map _ h)

/-- Suspension of a composite. -/
theorem sus_cmp (hi : 1 ≤ i) (hir : i ≤ r) (hs : 1 ≤ s) {m : List Nat} (hm : ∀ v, 1 ≤ v → v ≤ r + s - 1 → v ∈ m)
    {k1 k2 : List Nat} (hk1 : Rng r k1) (hk : Rng s k2) :
    susT R (r + s - 1) [] (cmp i s k1 k2) m =
      (-1) ^ ((s - 1) * (sdeg k1 + (i - 1))) *
        (eps R r (k1.take r) * eps R s (k2.take s) * cmp i s (k1.drop (r - 1)) (k2.drop (s - 1)) m) := by
  have := susT_cmp (R := R) hi hir hs hm hk (p := []) (by simp; omega) (by simp [Rng]) (by simp) k1 hk1
  simpa [Nat.add_comm] using this

end Comch.SurjComp
