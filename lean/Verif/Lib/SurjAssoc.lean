import Verif.Lib.SurjCompose
import Mathlib.Tactic.LinearCombination
import Mathlib.Tactic.Module

/-! # Associativity of the composition of surjections, for the recursive form -/

namespace Comch.SurjComp
open Elem Spec
open Finsupp (single)

variable {R : Type} [CommRing R] {i j k s u : Nat}

/-- The degree of a term. -/
theorem Term.sdeg_eq {k1 k2 m : List Nat} (hi : 1 ≤ i) (hs : 1 ≤ s) (hk : Rng s k2) (h : Term i s k1 k2 m) :
    sdeg m = sdeg k1 + if i ∈ k1 then sdeg k2 else 0 := by
  have c1 := sdeg_card k1
  have c2 := sdeg_card k2
  have c3 := sdeg_card m
  by_cases h1 : i ∈ k1
  · have e : m.toFinset = (k1.toFinset.erase i).image (sh i s) ∪ k2.toFinset.image (up i) := by
      ext v
      simp only [List.mem_toFinset, Finset.mem_union, Finset.mem_image, Finset.mem_erase]
      constructor
      · intro hv
        rcases h.vals v hv with ⟨l, hl, hne, rfl⟩ | ⟨_, a, ha, rfl⟩
        · exact Or.inl ⟨l, ⟨hne, hl⟩, rfl⟩
        · exact Or.inr ⟨a, ha, rfl⟩
      · rintro (⟨l, ⟨hne, hl⟩, rfl⟩ | ⟨a, ha, rfl⟩)
        · have := h.outer l hne
          have := List.count_pos_iff.2 hl
          exact List.count_pos_iff.1 (by omega)
        · have := h.inner h1 a (hk a ha)
          have := List.count_pos_iff.2 ha
          exact List.count_pos_iff.1 (by omega)
    have hd : Disjoint ((k1.toFinset.erase i).image (sh i s)) (k2.toFinset.image (up i)) := by
      rw [Finset.disjoint_left]
      intro v hv hv'
      simp only [Finset.mem_image, List.mem_toFinset, Finset.mem_erase] at hv hv'
      obtain ⟨l, ⟨hne, hl⟩, rfl⟩ := hv
      obtain ⟨a, ha, e⟩ := hv'
      exact sh_ne_up hne (hk a ha) hi e.symm
    have n1 : ((k1.toFinset.erase i).image (sh i s)).card = (k1.toFinset.erase i).card := by
      apply Finset.card_image_of_injOn
      intro a ha b hb hab
      simp only [Finset.mem_coe, Finset.mem_erase] at ha hb
      exact sh_inj ha.1 hb.1 hs hab
    have n2 : (k2.toFinset.image (up i)).card = k2.toFinset.card := by
      apply Finset.card_image_of_injOn
      intro a ha b hb hab
      simp only [Finset.mem_coe, List.mem_toFinset] at ha hb
      exact up_inj (hk a ha).1 (hk b hb).1 hi hab
    rw [e, Finset.card_union_of_disjoint hd, n1, n2, Finset.card_erase_of_mem (by simpa using h1)] at c3
    have hl := h.length h1
    have := Finset.card_pos.2 ⟨i, List.mem_toFinset.2 h1⟩
    rw [if_pos h1]
    omega
  · have e : m.toFinset = k1.toFinset.image (sh i s) := by
      ext v
      simp only [List.mem_toFinset, Finset.mem_image]
      constructor
      · intro hv
        rcases h.vals v hv with ⟨l, hl, hne, rfl⟩ | ⟨h', _⟩
        · exact ⟨l, hl, rfl⟩
        · exact absurd h' h1
      · rintro ⟨l, hl, rfl⟩
        have := h.outer l (fun e => h1 (e ▸ hl))
        have := List.count_pos_iff.2 hl
        exact List.count_pos_iff.1 (by omega)
    have n1 : (k1.toFinset.image (sh i s)).card = k1.toFinset.card := by
      apply Finset.card_image_of_injOn
      intro a ha b hb hab
      simp only [Finset.mem_coe, List.mem_toFinset] at ha hb
      exact sh_inj (i := i) (fun e => h1 (e ▸ ha)) (fun e => h1 (e ▸ hb)) hs hab
    rw [e, n1] at c3
    have hl := h.length0 h1
    rw [if_neg h1]
    omega

theorem Term.sh_mem {k1 k2 m : List Nat} (h : Term i s k1 k2 m) {l : Nat} (hl : l ≠ i) :
    sh i s l ∈ m ↔ l ∈ k1 := by
  rw [← List.count_pos_iff, h.outer l hl, List.count_pos_iff]

theorem Term.up_mem {k1 k2 m : List Nat} (hi : 1 ≤ i) (hk : Rng s k2) (h : Term i s k1 k2 m) {a : Nat}
    (ha : 1 ≤ a ∧ a ≤ s) : up i a ∈ m ↔ i ∈ k1 ∧ a ∈ k2 := by
  constructor
  · intro hm
    rcases h.vals _ hm with ⟨l, hl, hne, e⟩ | ⟨h1, b, hb, e⟩
    · exact absurd e.symm (sh_ne_up hne ha hi)
    · rw [up_inj ha.1 (hk b hb).1 hi e]
      exact ⟨h1, hb⟩
  · rintro ⟨h1, h2⟩
    have := h.inner h1 a ha
    have := List.count_pos_iff.2 h2
    exact List.count_pos_iff.1 (by omega)

theorem consV_supported_head (x : Nat) (v : List Nat →₀ R) :
    consV x v ∈ Finsupp.supported R R {m : List Nat | x ∈ m} := by
  induction v using Finsupp.induction_linear with
  | zero => simp
  | add f g hf hg => rw [map_add]; exact Submodule.add_mem _ hf hg
  | single k c => rw [consV_single]; exact Finsupp.single_mem_supported _ _ (by simp)

theorem supported_and {S T : Set (List Nat)} {v : List Nat →₀ R} (h1 : v ∈ Finsupp.supported R R S)
    (h2 : v ∈ Finsupp.supported R R T) : v ∈ Finsupp.supported R R {m | m ∈ S ∧ m ∈ T} :=
  fun _ hm => ⟨h1 hm, h2 hm⟩

theorem cmp_cons_supported_ne_nil (l : Nat) (t k2 : List Nat) :
    cmp (R := R) i s (l :: t) k2 ∈ Finsupp.supported R R {m : List Nat | m ≠ []} := by
  have hc : ∀ (x : Nat) (v : List Nat →₀ R), consV x v ∈ Finsupp.supported R R {m : List Nat | m ≠ []} := by
    intro x v
    induction v using Finsupp.induction_linear with
    | zero => simp
    | add f g hf hg => rw [map_add]; exact Submodule.add_mem _ hf hg
    | single k c => rw [consV_single]; exact Finsupp.single_mem_supported _ _ (by simp)
  by_cases h : l = i
  · subst h
    cases k2 with
    | nil => simp
    | cons a w =>
      rw [cmp_i_cons]
      refine Submodule.add_mem _ (Submodule.smul_mem _ _ (hc _ _)) ?_
      split
      · exact hc _ _
      · simp
  · rw [cmp_ne h]
    exact hc _ _

theorem cmp_nil_iff (t k2 : List Nat) :
    cmp (R := R) i s t k2 ∈ Finsupp.supported R R {m : List Nat | m = [] ↔ t = []} := by
  cases t with
  | nil => rw [cmp_nil]; exact Finsupp.single_mem_supported _ _ (by simp)
  | cons l t =>
    exact Finsupp.supported_mono (s := {m : List Nat | m ≠ []}) (t := {m : List Nat | m = [] ↔ l :: t = []})
      (fun m (hm : m ≠ []) => by simpa using hm) (cmp_cons_supported_ne_nil _ _ _)

theorem cmp_mem_nil {t : List Nat} (h : i ∈ t) : cmp (R := R) i s t [] = 0 := by
  induction t with
  | nil => simp at h
  | cons l t ih =>
    by_cases hl : l = i
    · subst hl; simp
    · rw [cmp_ne hl, ih (by simpa [Ne.symm hl] using h), map_zero]

theorem cmpL_nil_eq_zero {v : List Nat →₀ R} (hv : v ∈ Finsupp.supported R R {m : List Nat | i ∈ m}) :
    cmpL i s [] v = 0 := by
  refine BElem.lin_ext_supported (f := cmpL i s []) (g := 0) (S := {m : List Nat | i ∈ m}) ?_ hv
  intro m hm
  rw [cmpL_single, cmp_mem_nil hm]; simp

/-- Composition of a vector starting with the letter `i`. -/
theorem cmpL_consV_self (a : Nat) (w : List Nat) (P : Prop) [Decidable P] (e : Nat) {v : List Nat →₀ R}
    (hv : v ∈ Finsupp.supported R R {m : List Nat | (i ∈ m ↔ P) ∧ sdeg (i :: m) = e}) :
    cmpL i s (a :: w) (consV i v) =
      (if a ∈ w then (-1 : R) ^ e else 1) • consV (up i a) (cmpL i s w (consV i v)) +
        (if P ∨ w = [] then consV (up i a) (cmpL i s (a :: w) v) else 0) := by
  have := BElem.lin_ext_supported (R := R) (f := (cmpL i s (a :: w)).comp (consV i))
    (g := (if a ∈ w then (-1 : R) ^ e else 1) •
        (consV (up i a)).comp ((cmpL i s w).comp (consV i)) +
        (if P ∨ w = [] then (consV (up i a)).comp (cmpL i s (a :: w)) else 0))
    (S := {m : List Nat | (i ∈ m ↔ P) ∧ sdeg (i :: m) = e})
    (fun m (hm : (i ∈ m ↔ P) ∧ sdeg (i :: m) = e) => by
      have hi' : (i ∈ m) = P := propext hm.1
      simp only [LinearMap.comp_apply, LinearMap.add_apply, LinearMap.smul_apply, consV_single, cmpL_single,
        one_smul, cmp_i_cons, hm.2, hi']
      congr 1
      split <;> simp) hv
  simp only [LinearMap.comp_apply, LinearMap.add_apply, LinearMap.smul_apply] at this
  rw [this]
  congr 1
  split <;> simp

theorem cmpR_consV_self (t : List Nat) (a : Nat) (P Q : Prop) [Decidable P] [Decidable Q]
    {v : List Nat →₀ R}
    (hv : v ∈ Finsupp.supported R R {m : List Nat | (a ∈ m ↔ P) ∧ (m = [] ↔ Q)}) :
    cmpR i s (i :: t) (consV a v) =
      (if P then (-1 : R) ^ sdeg (i :: t) else 1) • consV (up i a) (cmpR i s (i :: t) v) +
        (if i ∈ t ∨ Q then consV (up i a) (cmpR i s t (consV a v)) else 0) := by
  have := BElem.lin_ext_supported (R := R) (f := (cmpR i s (i :: t)).comp (consV a))
    (g := (if P then (-1 : R) ^ sdeg (i :: t) else 1) •
        (consV (up i a)).comp (cmpR i s (i :: t)) +
        (if i ∈ t ∨ Q then (consV (up i a)).comp ((cmpR i s t).comp (consV a)) else 0))
    (S := {m : List Nat | (a ∈ m ↔ P) ∧ (m = [] ↔ Q)})
    (fun m (hm : (a ∈ m ↔ P) ∧ (m = [] ↔ Q)) => by
      have ha' : (a ∈ m) = P := propext hm.1
      have hw' : (m = []) = Q := propext hm.2
      simp only [LinearMap.comp_apply, LinearMap.add_apply, LinearMap.smul_apply, consV_single, cmpR_single,
        one_smul, cmp_i_cons, ha', hw']
      congr 1
      split <;> simp) hv
  simp only [LinearMap.comp_apply, LinearMap.add_apply, LinearMap.smul_apply] at this
  rw [this]
  congr 1
  split <;> simp

/-! ### the parallel axiom -/

theorem sign_aux (A B C : Nat) : (-1 : R) ^ A * (-1) ^ (B * C) = (-1) ^ ((1 + B) * C) * (-1) ^ (A + C) := by
  rw [← pow_add, ← pow_add, show (1 + B) * C + (A + C) = A + B * C + 2 * C by ring, pow_add _ (A + B * C),
    pow_mul]
  simp

theorem parallel (hi : 1 ≤ i) (hik : i < k) (hs : 1 ≤ s) (hu : 1 ≤ u) (k1 k2 k3 : List Nat)
    (h2 : Rng s k2) (h3 : Rng u k3) :
    cmpL (R := R) (k + s - 1) u k3 (cmp i s k1 k2) =
      (if i ∈ k1 ∧ k ∈ k1 then (-1 : R) ^ (sdeg k2 * sdeg k3) else 1) • cmpL i s k2 (cmp k u k1 k3) := by
  have hk' : 1 ≤ k + s - 1 := by omega
  have hk0 : 1 ≤ k := by omega
  induction k1 generalizing k2 k3 with
  | nil => simp
  | cons l t ih =>
    by_cases hli : l = i
    · subst hli
      induction k2 with
      | nil =>
        rw [cmp_i_nil, map_zero, cmpL_nil_eq_zero, smul_zero]
        refine Finsupp.supported_mono (s := {m | Term k u (l :: t) k3 m}) (fun m hm => ?_)
          (cmp_supported hk0 _ _ h3 hu)
        have := (Term.sh_mem hm (l := l) (by omega)).2 (by simp)
        simpa [sh, hik] using this
      | cons a w ih2 =>
        have ha := h2.head
        have e1 : sh (k + s - 1) u (up l a) = up l a := by
          unfold sh up
          rw [if_pos (by omega)]
        have e2 : sh k u l = l := by unfold sh; rw [if_pos hik]
        have n1 : up l a ≠ k + s - 1 := by unfold up; omega
        have hkl : k ≠ l := by omega
        have hmem : (k ∈ l :: t) = (k ∈ t) := by simp [hkl]
        have ih' := ih (a :: w) k3 h2 h3
        have ih2' := ih2 h2.tail
        rw [cmp_ne (Ne.symm hkl), e2] at ih2'
        rw [cmp_i_cons, map_add, map_smul, cmpL_consV_ne n1, e1, ih2', cmp_ne (Ne.symm hkl), e2,
          cmpL_consV_self a w (l ∈ t) (sdeg (l :: t) + if k ∈ t then sdeg k3 else 0)]
        · rw [smul_add]
          simp only [List.mem_cons, true_or, true_and, hkl, false_or]
          congr 1
          · rw [map_smul, smul_smul, smul_smul]
            congr 1
            by_cases haw : a ∈ w <;> by_cases hkt : k ∈ t <;> simp only [sdeg, haw, hkt, if_true, if_false,
              one_mul, mul_one, add_zero, zero_add]
            exact sign_aux _ _ _
          · split
            · rename_i hor
              rw [cmpL_consV_ne n1, e1, ih', map_smul]
              congr 1
              rcases hor with hor | hor
              · simp [hor]
              · subst hor; simp [sdeg]
            · simp
        · refine Finsupp.supported_mono (s := {m | Term k u t k3 m}) (fun m hm => ?_)
            (cmp_supported hk0 _ _ h3 hu)
          have hm1 := Term.sh_mem hm (l := l) (Ne.symm hkl)
          rw [e2] at hm1
          have hm2 := Term.sdeg_eq hk0 hu h3 hm
          exact ⟨hm1, by simp only [sdeg, hm1, hm2, add_assoc]⟩
    · by_cases hlk : l = k
      · subst hlk
        have e2 : sh i s l = l + s - 1 := by unfold sh; rw [if_neg (by omega)]
        have hil : i ≠ l := Ne.symm hli
        induction k3 with
        | nil =>
          rw [cmp_i_nil, map_zero, smul_zero, cmp_ne hli, e2]
          rw [← cmpL_nil_eq_zero (R := R) (i := l + s - 1) (s := u) (v := consV (l + s - 1) (cmp i s t k2))]
          exact consV_supported_head _ _
        | cons c v ih3 =>
          have hc := h3.head
          have e1 : sh i s (up l c) = up (l + s - 1) c := by
            unfold sh up
            rw [if_neg (by omega)]; omega
          have n1 : up l c ≠ i := by unfold up; omega
          have ih' := ih k2 (c :: v) h2 h3
          have ih3' := ih3 h3.tail
          rw [cmp_ne hli, e2] at ih3'
          rw [cmp_ne hli, e2, cmp_i_cons, map_add, map_smul, cmpL_consV_ne n1, e1,
            cmpL_consV_self c v (l ∈ t) (sdeg (l :: t) + if i ∈ t then sdeg k2 else 0), ih3']
          · rw [smul_add]
            simp only [List.mem_cons, true_or, and_true, hil, false_or]
            congr 1
            · rw [map_smul, smul_smul, smul_smul]
              congr 1
              by_cases hcv : c ∈ v <;> by_cases hit : i ∈ t <;> simp only [sdeg, hcv, hit, if_true, if_false,
                one_mul, mul_one, add_zero, zero_add]
              rw [mul_comm (sdeg k2), mul_comm (sdeg k2), mul_comm ((-1 : R) ^ ((1 + sdeg v) * sdeg k2))]
              rw [← pow_add, ← pow_add]
              congr 1
              ring
            · split
              · rename_i hor
                rw [cmpL_consV_ne n1, e1, ih', map_smul]
                congr 1
                rcases hor with hor | hor
                · simp [hor]
                · subst hor; simp [sdeg]
              · simp
          · refine Finsupp.supported_mono (s := {m | Term i s t k2 m}) (fun m hm => ?_)
              (cmp_supported hi _ _ h2 hs)
            have hm1 := Term.sh_mem hm (l := l) hli
            rw [e2] at hm1
            have hm2 := Term.sdeg_eq hi hs h2 hm
            exact ⟨hm1, by simp only [sdeg, hm1, hm2, add_assoc]⟩
      · have n1 : sh i s l ≠ k + s - 1 := by unfold sh; split <;> omega
        have n2 : sh k u l ≠ i := by unfold sh; split <;> omega
        have e : sh (k + s - 1) u (sh i s l) = sh i s (sh k u l) := by
          unfold sh
          rcases Nat.lt_or_ge l i with h | h
          · simp only [h, if_true, show l < k + s - 1 by omega, show l < k by omega]
          · rcases Nat.lt_or_ge l k with h' | h'
            · simp only [h', if_true, if_neg (show ¬ l < i by omega), show l + s - 1 < k + s - 1 by omega]
            · simp only [if_neg (show ¬ l < i by omega), if_neg (show ¬ l < k by omega),
                if_neg (show ¬ l + s - 1 < k + s - 1 by omega), if_neg (show ¬ l + u - 1 < i by omega)]
              omega
        rw [cmp_ne hli, cmp_ne hlk, cmpL_consV_ne n1, cmpL_consV_ne n2, e, ih k2 k3 h2 h3, map_smul]
        simp [Ne.symm hli, Ne.symm hlk]

/-! ### the sequential axiom -/

theorem seq_not_mem (hi : 1 ≤ i) (hj : 1 ≤ j) (hjs : j ≤ s) (hu : 1 ≤ u) {k1 k2 k3 m : List Nat}
    (h : i ∉ k1) (hm : cmp (R := R) j u k2 k3 = bv R m) :
    cmpL (R := R) (up i j) u k3 (cmp i s k1 k2) = cmpR i (s + u - 1) k1 (cmp j u k2 k3) := by
  rw [hm, cmpR_single, one_smul, cmp_not_mem h, cmp_not_mem h, cmpL_single, one_smul, cmp_not_mem]
  · rw [List.map_map]
    congr 1
    apply List.map_congr_left
    intro l hl
    have hli : l ≠ i := fun e => h (e ▸ hl)
    simp only [Function.comp, sh, up]
    split <;> split <;> omega
  · intro h'
    obtain ⟨l, hl, e⟩ := List.mem_map.1 h'
    exact sh_ne_up (i := i) (fun e' => h (e' ▸ hl)) ⟨hj, hjs⟩ hi e

theorem sequential (hi : 1 ≤ i) (hj : 1 ≤ j) (hjs : j ≤ s) (hu : 1 ≤ u) (k1 k2 k3 : List Nat)
    (h2 : Rng s k2) (h3 : Rng u k3) (h1 : i ∈ k1) :
    cmpL (R := R) (up i j) u k3 (cmp i s k1 k2) = cmpR i (s + u - 1) k1 (cmp j u k2 k3) := by
  have hs : 1 ≤ s := by omega
  have hj' : 1 ≤ up i j := by unfold up; omega
  induction k1 generalizing k2 k3 with
  | nil => simp at h1
  | cons l t ih =>
    by_cases hli : l = i
    · subst hli
      clear h1
      induction k2 generalizing k3 with
      | nil => simp
      | cons a w ih2 =>
        have ha := h2.head
        by_cases haj : a = j
        · subst haj
          induction k3 with
          | nil =>
            rw [cmp_i_nil, map_zero, cmpL_nil_eq_zero]
            refine Finsupp.supported_mono (s := {m | Term l s (l :: t) (a :: w) m}) (fun m hm => ?_)
              (cmp_supported hi _ _ h2 hs)
            exact (Term.up_mem hi h2 hm ha).2 (by simp)
          | cons c v ih3 =>
            have hc := h3.head
            have ih3' := ih3 h3.tail
            have ih2' := ih2 (c :: v) h2.tail h3
            have e1 : up (up l a) c = up l (up a c) := by unfold up; omega
            have f1 := cmpL_consV_self (R := R) (i := up l a) (s := u) c v (a ∈ w) (sdeg (l :: t) + sdeg (a :: w))
              (v := cmp l s (l :: t) w) (by
                refine Finsupp.supported_mono (s := {m | Term l s (l :: t) w m}) (fun m hm => ?_)
                  (cmp_supported hi _ _ h2.tail hs)
                have hm1 := Term.up_mem hi h2.tail hm ha
                have hm2 := Term.sdeg_eq hi hs h2.tail hm
                rw [if_pos (by simp)] at hm2
                refine ⟨by rw [hm1]; simp, ?_⟩
                simp only [sdeg] at hm2 ⊢
                rw [hm2]
                simp only [hm1, List.mem_cons, true_or, true_and]
                omega)
            have f2 : l ∈ t ∨ w = [] → _ := fun hor => cmpL_consV_self (R := R) (i := up l a) (s := u) c v (l ∈ t)
              (sdeg (l :: t) + sdeg (a :: w)) (v := cmp l s t (a :: w)) (by
                refine Finsupp.supported_mono (s := {m | Term l s t (a :: w) m}) (fun m hm => ?_)
                  (cmp_supported hi _ _ h2 hs)
                have hm1 := Term.up_mem hi h2 hm ha
                have hm2 := Term.sdeg_eq hi hs h2 hm
                refine ⟨by rw [hm1]; simp, ?_⟩
                simp only [sdeg] at hm2 ⊢
                rw [hm2]
                simp only [hm1, List.mem_cons, true_or, and_true]
                rcases hor with hor | hor
                · simp only [hor, if_true]; omega
                · subst hor; simp [sdeg])
            have g1 := cmpR_consV_self (R := R) (i := l) (s := s + u - 1) t (up a c) (c ∈ v) False
              (v := cmp a u (a :: w) v) (by
                refine Finsupp.supported_mono (s := {m | Term a u (a :: w) v m ∧ m ≠ []}) (fun m hm => ?_)
                  (supported_and (cmp_supported hj _ _ h3.tail hu) (cmp_cons_supported_ne_nil _ _ _))
                refine ⟨?_, by simpa using hm.2⟩
                rw [Term.up_mem hj h3.tail hm.1 hc]; simp)
            have g2 := cmpR_consV_self (R := R) (i := l) (s := s + u - 1) t (up a c) (a ∈ w) (w = [])
              (v := cmp a u w (c :: v)) (by
                refine Finsupp.supported_mono (s := {m | Term a u w (c :: v) m ∧ (m = [] ↔ w = [])})
                  (fun m hm => ?_) (supported_and (cmp_supported hj _ _ h3 hu) (cmp_nil_iff _ _))
                refine ⟨?_, hm.2⟩
                rw [Term.up_mem hj h3 hm.1 hc]; simp)
            have ih' : l ∈ t ∨ (w = [] ∧ v = []) →
                cmpL (R := R) (up l a) u (c :: v) (cmp l s t (a :: w)) =
                  cmpR l (s + u - 1) t (cmp a u (a :: w) (c :: v)) := by
              intro hor
              by_cases hlt : l ∈ t
              · exact ih (a :: w) (c :: v) h2 h3 hlt
              · obtain ⟨rfl, rfl⟩ := hor.resolve_left hlt
                exact seq_not_mem hi hj hjs hu hlt (m := [up a c]) (by rw [cmp_i_cons]; simp)
            have hz : ∀ (P : Prop) [Decidable P] (X : List Nat →₀ R),
                (if P then X else 0) = (if P then (1 : R) else 0) • X := by
              intro P _ X; split <;> simp
            have hp : (if c ∈ v then (-1 : R) ^ (sdeg (l :: t) + sdeg (a :: w)) else 1) =
                (if c ∈ v then (-1 : R) ^ sdeg (l :: t) else 1) * (if c ∈ v then (-1 : R) ^ sdeg (a :: w) else 1) := by
              split <;> simp [pow_add]
            have E3 := congrArg (consV (up l (up a c))) ih3'
            have E2 := congrArg (consV (up l (up a c))) ih2'
            rw [e1] at f1 f2
            rw [hp] at f1 f2
            rw [cmp_i_cons (i := l)] at E3 ⊢
            rw [cmp_i_cons (i := a) (s := u)] at ih' ⊢
            simp only [hz, map_add, map_smul] at ih' f1 f2 g1 g2 E3 E2 ⊢
            rw [f1, g1, g2]
            generalize (if c ∈ v then (-1 : R) ^ sdeg (l :: t) else 1) = d0 at *
            generalize (if c ∈ v then (-1 : R) ^ sdeg (a :: w) else 1) = d1 at *
            generalize (if a ∈ w then (-1 : R) ^ sdeg (l :: t) else 1) = e0 at *
            by_cases hlt : l ∈ t
            · have E1 := congrArg (consV (up l (up a c))) (ih' (Or.inl hlt))
              rw [f2 (Or.inl hlt)]
              simp only [hlt, true_or, or_false, if_true, one_smul, map_add, map_smul] at E1 E3 ⊢
              generalize (if a ∈ w ∨ v = [] then (1 : R) else 0) = q at *
              linear_combination (norm := module) (d0 * d1) • E3 + E1 + (q * e0) • E2
            · by_cases hw : w = []
              · rw [f2 (Or.inr hw)]
                subst hw
                by_cases hv : v = []
                · have E1 := congrArg (consV (up l (up a c))) (ih' (Or.inr ⟨rfl, hv⟩))
                  subst hv
                  simp only [hlt, or_true, or_false, if_true, if_false, one_smul, zero_smul, map_add, map_smul,
                    add_zero, cmp_i_nil, map_zero, smul_zero, zero_add] at E1 E2 E3 ⊢
                  linear_combination (norm := module) (d0 * d1) • E3 + E1 + e0 • E2
                · simp only [hlt, hv, List.not_mem_nil, or_true, or_false, if_true, if_false, one_smul, zero_smul,
                    map_add, map_smul, add_zero, smul_zero] at E3 ⊢
                  linear_combination (norm := module) (d0 * d1) • E3
              · simp only [hlt, hw, or_false, if_false, zero_smul, add_zero, smul_zero] at E3 ⊢
                linear_combination (norm := module) (d0 * d1) • E3 + ((if a ∈ w ∨ v = [] then (1 : R) else 0) * e0) • E2
        · have e1 : sh (up l j) u (up l a) = up l (sh j u a) := by
            unfold sh up
            split <;> split <;> omega
          have n1 : up l a ≠ up l j := by unfold up; omega
          have ih' : l ∈ t ∨ w = [] → cmpL (R := R) (up l j) u k3 (cmp l s t (a :: w)) =
              cmpR l (s + u - 1) t (cmp j u (a :: w) k3) := by
            intro hor
            by_cases hlt : l ∈ t
            · exact ih (a :: w) k3 h2 h3 hlt
            · have hw : w = [] := hor.resolve_left hlt
              subst hw
              exact seq_not_mem hi hj hjs hu hlt (m := [sh j u a]) (by rw [cmp_ne haj]; simp)
          rw [cmp_ne haj] at ih' ⊢
          rw [cmp_i_cons, map_add, map_smul, cmpL_consV_ne n1, e1, ih2 k3 h2.tail h3,
            cmpR_consV_self t (sh j u a) (a ∈ w) (w = [])]
          · congr 1
            split
            · rename_i hor
              rw [cmpL_consV_ne n1, e1, ih' hor]
            · simp
          · refine Finsupp.supported_mono (s := {m | Term j u w k3 m ∧ (m = [] ↔ w = [])})
              (fun m hm => ?_) (supported_and (cmp_supported hj _ _ h3 hu) (cmp_nil_iff _ _))
            exact ⟨Term.sh_mem hm.1 haj, hm.2⟩
    · have n1 : sh i s l ≠ up i j := sh_ne_up hli ⟨hj, hjs⟩ hi
      have e : sh (up i j) u (sh i s l) = sh i (s + u - 1) l := by
        unfold sh up
        split <;> split <;> omega
      rw [cmp_ne hli, cmpL_consV_ne n1, e, ih k2 k3 h2 h3 (by simpa [Ne.symm hli] using h1), cmpR_cons_ne hli]

end Comch.SurjComp
