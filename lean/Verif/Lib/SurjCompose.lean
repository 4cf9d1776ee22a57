import Verif.Lib.SurjAct
import Verif.Lib.AW

/-! # Partial composition of surjections: recursive vector form and the Leibniz rule -/

set_option linter.unusedSectionVars false

namespace Comch.SurjComp
open Spec Elem
open Finsupp (single)

variable {R : Type} [CommRing R]

/-- Number of caesuras: the degree of a surjection. -/
def sdeg : List Nat → Nat
  | [] => 0
  | x :: t => (if x ∈ t then 1 else 0) + sdeg t

theorem sdeg_card (k : List Nat) : sdeg k + k.toFinset.card = k.length := by
  induction k with
  | nil => simp [sdeg]
  | cons x t ih =>
    rw [sdeg, List.toFinset_cons, List.length_cons]
    split
    · rename_i h
      rw [Finset.insert_eq_of_mem (by simpa using h)]
      omega
    · rename_i h
      rw [Finset.card_insert_of_notMem (by simpa using h)]
      omega

theorem sdel_supported_length (k : List Nat) :
    sdel (R := R) k ∈ Finsupp.supported R R {m | m.length + 1 = k.length} := by
  induction k with
  | nil => simp [sdel]
  | cons x t ih =>
    have h1 : consV x (sdel (R := R) t) ∈ Finsupp.supported R R {m | m.length + 1 = (x :: t).length} := by
      refine mapK_supported _ (fun m hm => ?_) ih
      simp only [Set.mem_ofPred_eq, List.length_cons] at hm ⊢
      omega
    rw [sdel]
    apply Submodule.sub_mem
    · split
      · apply Submodule.sub_mem _ _ h1
        apply Finsupp.single_mem_supported
        simp
      · exact h1
    · split
      · rename_i h
        apply Finsupp.single_mem_supported
        have hm : x ∈ t := List.count_pos_iff.1 (by omega)
        have := List.length_pos_of_mem hm
        simp only [Set.mem_ofPred_eq, List.length_cons, List.length_erase_of_mem hm]
        omega
      · exact Submodule.zero_mem _

/-- Faces: same values, degree one less. -/
def Face (k m : List Nat) : Prop := SameVals k m ∧ sdeg m + 1 = sdeg k

theorem sdel_face (k : List Nat) : sdel (R := R) k ∈ Finsupp.supported R R {m | Face k m} := by
  have h1 := sdel_supported (R := R) k
  have h2 := sdel_supported_length (R := R) k
  rw [Finsupp.mem_supported] at *
  intro m hm
  have a := h1 hm
  have b : m.length + 1 = k.length := h2 hm
  refine ⟨a, ?_⟩
  have e : m.toFinset = k.toFinset := by ext v; simpa using a v
  have := sdeg_card k
  have := sdeg_card m
  rw [e] at this
  omega

theorem sdeg_erase {t : List Nat} {x : Nat} (h : t.count x = 1) : sdeg (t.erase x) = sdeg t := by
  have hm : x ∈ t := List.count_pos_iff.1 (by omega)
  have h1 := sdeg_card t
  have h2 := sdeg_card (t.erase x)
  have e : (t.erase x).toFinset = t.toFinset.erase x := by
    ext v
    by_cases hv : v = x
    · subst hv
      have : v ∉ t.erase v := by rw [← List.count_eq_zero, List.count_erase_self]; omega
      simp [this]
    · simp [hv, List.mem_erase_of_ne hv]
  rw [e, Finset.card_erase_of_mem (by simpa using hm), List.length_erase_of_mem hm] at h2
  have := Finset.card_pos.2 ⟨x, List.mem_toFinset.2 hm⟩
  have := List.length_pos_of_mem hm
  omega

variable (i s : Nat)

/-- Values of the outer surjection, shifted. -/
def sh (j : Nat) : Nat := if j < i then j else j + s - 1

/-- Values of the inner surjection, shifted. -/
def up (a : Nat) : Nat := a + i - 1

/-- Recursive form of the composition: read the outer surjection; at an occurrence of `i` copy a letter
of the inner one, then either stay at this occurrence or move on to the next one, repeating the
letter. -/
noncomputable def cmp : List Nat → List Nat → (List Nat →₀ R)
  | [], _ => bv R []
  | j :: t, [] => if j = i then 0 else consV (sh i s j) (cmp t [])
  | j :: t, a :: w =>
    if j = i then
      (if a ∈ w then (-1 : R) ^ sdeg (j :: t) else 1) • consV (up i a) (cmp (j :: t) w) +
        (if i ∈ t ∨ w = [] then consV (up i a) (cmp t (a :: w)) else 0)
    else consV (sh i s j) (cmp t (a :: w))
termination_by k1 k2 => k1.length + k2.length

@[simp] theorem cmp_nil (k2 : List Nat) : cmp (R := R) i s [] k2 = bv R [] := by rw [cmp]

theorem cmp_ne {i s j : Nat} (h : j ≠ i) (t k2 : List Nat) :
    cmp (R := R) i s (j :: t) k2 = consV (sh i s j) (cmp i s t k2) := by
  cases k2 with
  | nil => rw [cmp, if_neg h]
  | cons a w => rw [cmp, if_neg h]

@[simp] theorem cmp_i_nil (t : List Nat) : cmp (R := R) i s (i :: t) [] = 0 := by
  rw [cmp, if_pos rfl]

theorem cmp_i_cons (t : List Nat) (a : Nat) (w : List Nat) :
    cmp (R := R) i s (i :: t) (a :: w) =
      (if a ∈ w then (-1 : R) ^ sdeg (i :: t) else 1) • consV (up i a) (cmp i s (i :: t) w) +
        (if i ∈ t ∨ w = [] then consV (up i a) (cmp i s t (a :: w)) else 0) := by
  rw [cmp, if_pos rfl]

theorem cmp_not_mem {i s : Nat} {t : List Nat} (h : i ∉ t) (k2 : List Nat) :
    cmp (R := R) i s t k2 = bv R (t.map (sh i s)) := by
  induction t with
  | nil => simp
  | cons j t ih =>
    rw [List.mem_cons, not_or] at h
    rw [cmp_ne (Ne.symm h.1), ih h.2]
    simp

/-- Induction along the recursion. -/
theorem cmp_induction {P : List Nat → List Nat → Prop} (i : Nat)
    (hnil : ∀ k2, P [] k2)
    (hne : ∀ j t k2, j ≠ i → P t k2 → P (j :: t) k2)
    (hin : ∀ t, P (i :: t) [])
    (hic : ∀ t a w, P (i :: t) w → P t (a :: w) → P (i :: t) (a :: w)) (k1 k2 : List Nat) : P k1 k2 := by
  induction k1 generalizing k2 with
  | nil => exact hnil k2
  | cons j t ih =>
    by_cases h : j = i
    · subst h
      induction k2 with
      | nil => exact hin t
      | cons a w ih2 => exact hic t a w ih2 (ih _)
    · exact hne j t k2 h (ih k2)

/-- The letters are in range. -/
def Rng (s : Nat) (k2 : List Nat) : Prop := ∀ a ∈ k2, 1 ≤ a ∧ a ≤ s

variable {i s}

theorem Rng.tail {a : Nat} {w : List Nat} (h : Rng s (a :: w)) : Rng s w :=
  fun b hb => h b (List.mem_cons_of_mem _ hb)

theorem Rng.head {a : Nat} {w : List Nat} (h : Rng s (a :: w)) : 1 ≤ a ∧ a ≤ s := h a (by simp)

theorem sh_inj {j l : Nat} (hj : j ≠ i) (hl : l ≠ i) (hs : 1 ≤ s) (h : sh i s j = sh i s l) : j = l := by
  unfold sh at h
  split at h <;> split at h <;> omega

theorem sh_ne_up {j a : Nat} (hj : j ≠ i) (ha : 1 ≤ a ∧ a ≤ s) (hi : 1 ≤ i) : sh i s j ≠ up i a := by
  unfold sh up
  split <;> omega

theorem up_inj {a b : Nat} (ha : 1 ≤ a) (hb : 1 ≤ b) (hi : 1 ≤ i) (h : up i a = up i b) : a = b := by
  unfold up at h; omega

/-- What is known of the terms of `cmp k1 k2`. -/
structure Term (i s : Nat) (k1 k2 m : List Nat) : Prop where
  outer : ∀ j, j ≠ i → m.count (sh i s j) = k1.count j
  inner : i ∈ k1 → ∀ a, 1 ≤ a ∧ a ≤ s → k2.count a ≤ m.count (up i a)
  absent : ∀ a, 1 ≤ a ∧ a ≤ s → a ∉ k2 → up i a ∉ m
  vals : ∀ v ∈ m, (∃ j ∈ k1, j ≠ i ∧ v = sh i s j) ∨ (i ∈ k1 ∧ ∃ a ∈ k2, v = up i a)
  length : i ∈ k1 → m.length + 1 = k1.length + k2.length
  length0 : i ∉ k1 → m.length = k1.length

theorem cmp_supported (hi : 1 ≤ i) (k1 k2 : List Nat) (hk : Rng s k2) (hs : 1 ≤ s) :
    cmp (R := R) i s k1 k2 ∈ Finsupp.supported R R {m | Term i s k1 k2 m} := by
  revert hk
  induction k1, k2 using cmp_induction i with
  | hnil k2 =>
    intro hk
    rw [cmp_nil]
    apply Finsupp.single_mem_supported
    exact ⟨by simp, by simp, by simp, by simp, by simp, by simp⟩
  | hne j t k2 hj ih =>
    intro hk
    rw [cmp_ne hj]
    refine mapK_supported _ (fun m hm => ?_) (ih hk)
    have hm : Term i s t k2 m := hm
    refine ⟨fun l hl => ?_, fun hmem a ha => ?_, fun a ha hn => ?_, fun v hv => ?_, fun hmem => ?_, fun hmem => ?_⟩
    · by_cases e : j = l
      · subst e
        simp [hm.outer j hj]
      · have : sh i s j ≠ sh i s l := fun h => e (sh_inj hj hl hs h)
        rw [List.count_cons_of_ne this, List.count_cons_of_ne e, hm.outer l hl]
    · rw [List.count_cons_of_ne (sh_ne_up hj ha hi)]
      exact hm.inner (by simpa [Ne.symm hj] using hmem) a ha
    · rw [List.mem_cons, not_or]
      exact ⟨(sh_ne_up hj ha hi).symm, hm.absent a ha hn⟩
    · rcases List.mem_cons.1 hv with rfl | hv
      · exact Or.inl ⟨j, by simp, hj, rfl⟩
      · rcases hm.vals v hv with ⟨l, hl, h⟩ | ⟨h, h'⟩
        · exact Or.inl ⟨l, List.mem_cons_of_mem _ hl, h⟩
        · exact Or.inr ⟨List.mem_cons_of_mem _ h, h'⟩
    · have := hm.length (by simpa [Ne.symm hj] using hmem)
      simp only [List.length_cons]
      omega
    · have := hm.length0 (fun h => hmem (List.mem_cons_of_mem _ h))
      simp [this]
  | hin t => intro hk; simp
  | hic t a w ih1 ih2 =>
    intro hk
    have ha := hk.head
    rw [cmp_i_cons]
    refine Submodule.add_mem _ (Submodule.smul_mem _ _ ?_) ?_
    · refine mapK_supported _ (fun m hm => ?_) (ih1 hk.tail)
      have hm : Term i s (i :: t) w m := hm
      refine ⟨fun l hl => ?_, fun hmem b hb => ?_, fun b hb hn => ?_, fun v hv => ?_, fun hmem => ?_, fun hmem => ?_⟩
      · rw [List.count_cons_of_ne (sh_ne_up hl ha hi).symm, hm.outer l hl]
      · have := hm.inner hmem b hb
        by_cases e : a = b
        · subst e; simpa using this
        · have e' : up i a ≠ up i b := fun h => e (up_inj ha.1 hb.1 hi h)
          rw [List.count_cons_of_ne e, List.count_cons_of_ne e']
          exact this
      · simp only [List.mem_cons, not_or] at hn ⊢
        exact ⟨fun h => hn.1 (up_inj hb.1 ha.1 hi h), hm.absent b hb hn.2⟩
      · rcases List.mem_cons.1 hv with rfl | hv
        · exact Or.inr ⟨by simp, a, by simp, rfl⟩
        · rcases hm.vals v hv with h | ⟨h, b, hb, h'⟩
          · exact Or.inl h
          · exact Or.inr ⟨h, b, List.mem_cons_of_mem _ hb, h'⟩
      · have := hm.length hmem
        simp only [List.length_cons] at this ⊢
        omega
      · simp at hmem
    · split
      · rename_i hc
        refine mapK_supported _ (fun m hm => ?_) (ih2 hk)
        have hm : Term i s t (a :: w) m := hm
        refine ⟨fun l hl => ?_, fun hmem b hb => ?_, fun b hb hn => ?_, fun v hv => ?_, fun hmem => ?_, fun hmem => ?_⟩
        · rw [List.count_cons_of_ne (sh_ne_up hl ha hi).symm, hm.outer l hl,
            List.count_cons_of_ne (Ne.symm hl)]
        · by_cases hit : i ∈ t
          · have := hm.inner hit b hb
            rw [List.count_cons (b := up i a)]
            omega
          · have hw : w = [] := hc.resolve_left hit
            subst hw
            by_cases e : a = b
            · subst e; simp
            · simp [List.count_cons_of_ne e]
        · simp only [List.mem_cons, not_or]
          refine ⟨fun h => hn ?_, hm.absent b hb hn⟩
          rw [up_inj hb.1 ha.1 hi h]; simp
        · rcases List.mem_cons.1 hv with rfl | hv
          · exact Or.inr ⟨by simp, a, by simp, rfl⟩
          · rcases hm.vals v hv with ⟨l, hl, h⟩ | ⟨h, h'⟩
            · exact Or.inl ⟨l, List.mem_cons_of_mem _ hl, h⟩
            · exact Or.inr ⟨by simp, h'⟩
        · by_cases hit : i ∈ t
          · have := hm.length hit
            simp only [List.length_cons] at this ⊢
            omega
          · have hw : w = [] := hc.resolve_left hit
            subst hw
            have := hm.length0 hit
            simp [this]
        · simp at hmem
      · exact Submodule.zero_mem _


/-! ### erasing letters -/

theorem cmp_support_mono {S : Set (List Nat)} (hi : 1 ≤ i) (hs : 1 ≤ s) {k1 k2 : List Nat} (hk : Rng s k2)
    (h : ∀ m, Term i s k1 k2 m → m ∈ S) : cmp (R := R) i s k1 k2 ∈ Finsupp.supported R R S :=
  Finsupp.supported_mono h (cmp_supported hi k1 k2 hk hs)

theorem eraseOne_eq_zero {x : Nat} {v : List Nat →₀ R}
    (hv : v ∈ Finsupp.supported R R {m | m.count x ≠ 1}) : eraseOne x v = 0 := by
  have := BElem.lin_ext_supported (R := R) (f := eraseOne x) (g := 0) (S := {m : List Nat | m.count x ≠ 1})
    (fun m (hm : m.count x ≠ 1) => by simp [hm]) hv
  simpa using this

theorem eraseOne_consV_self {x : Nat} {v : List Nat →₀ R}
    (hv : v ∈ Finsupp.supported R R {m | x ∉ m}) : eraseOne x (consV x v) = v := by
  have := BElem.lin_ext_supported (R := R) (f := (eraseOne x).comp (consV x)) (g := LinearMap.id)
    (S := {m | x ∉ m}) (fun m (hm : x ∉ m) => by
      simp [List.count_eq_zero.2 hm]) hv
  simpa using this

theorem eraseOne_consV_self_mem {x : Nat} {v : List Nat →₀ R}
    (hv : v ∈ Finsupp.supported R R {m | x ∈ m}) : eraseOne x (consV x v) = 0 := by
  apply eraseOne_eq_zero
  refine mapK_supported _ (fun m (hm : x ∈ m) => ?_) hv
  have := List.count_pos_iff.2 hm
  simp only [Set.mem_ofPred_eq, List.count_cons_self]
  omega

theorem eraseOne_sh (hi : 1 ≤ i) (hs : 1 ≤ s) {j : Nat} (hj : j ≠ i) (t k2 : List Nat) (hk : Rng s k2) :
    eraseOne (sh i s j) (cmp (R := R) i s t k2) =
      if t.count j = 1 then cmp i s (t.erase j) k2 else 0 := by
  by_cases hc : t.count j = 1
  swap
  · rw [if_neg hc]
    exact eraseOne_eq_zero (cmp_support_mono hi hs hk fun m hm => by
      show m.count (sh i s j) ≠ 1
      rw [hm.outer j hj]; exact hc)
  rw [if_pos hc]
  revert hk hc
  induction t, k2 using cmp_induction i with
  | hnil k2 => simp
  | hne l t k2 hl ih =>
    intro hk hc
    rw [cmp_ne hl]
    by_cases e : l = j
    · subst e
      have hn : l ∉ t := by
        rw [← List.count_eq_zero]; simpa using hc
      rw [List.erase_cons_head, eraseOne_consV_self]
      refine cmp_support_mono hi hs hk fun m hm => ?_
      show sh i s l ∉ m
      rw [← List.count_eq_zero, hm.outer l hl, List.count_eq_zero]; exact hn
    · rw [List.count_cons_of_ne e] at hc
      rw [List.erase_cons_tail (by simpa using e), cmp_ne hl,
        eraseOne_consV_ne (fun h => e (sh_inj hl hj hs h)), ih hk hc]
  | hin t =>
    intro hk hc
    rw [List.erase_cons_tail (by simpa using (Ne.symm hj))]
    simp
  | hic t a w ih1 ih2 =>
    intro hk hc
    have hne : up i a ≠ sh i s j := (sh_ne_up hj hk.head hi).symm
    have hc' : t.count j = 1 := by rwa [List.count_cons_of_ne (Ne.symm hj)] at hc
    have ih1 := ih1 hk.tail hc
    have ih2 := ih2 hk hc'
    have hd := sdeg_erase hc
    have he : (i :: t).erase j = i :: t.erase j := List.erase_cons_tail (by simpa using (Ne.symm hj))
    rw [he] at ih1 hd ⊢
    rw [cmp_i_cons, cmp_i_cons, map_add, map_smul, eraseOne_consV_ne hne, ih1, hd]
    simp only [List.mem_erase_of_ne (Ne.symm hj)]
    congr 1
    split
    · rw [eraseOne_consV_ne hne, ih2]
    · simp

theorem eraseOne_up_two (hi : 1 ≤ i) (hs : 1 ≤ s) {a : Nat} {k1 k2 : List Nat} (hk : Rng s k2)
    (ha : 1 ≤ a ∧ a ≤ s) (h1 : i ∈ k1) (h2 : 2 ≤ k2.count a) :
    eraseOne (up i a) (cmp (R := R) i s k1 k2) = 0 :=
  eraseOne_eq_zero (cmp_support_mono hi hs hk fun m hm => by
    have := hm.inner h1 a ha
    show m.count (up i a) ≠ 1
    omega)

theorem eraseOne_up_single (hi : 1 ≤ i) (hs : 1 ≤ s) {a : Nat} (ha : 1 ≤ a ∧ a ≤ s) (k1 : List Nat)
    (h1 : i ∈ k1) :
    eraseOne (up i a) (cmp (R := R) i s k1 [a]) =
      if k1.count i = 1 then bv R ((k1.erase i).map (sh i s)) else 0 := by
  have hk : Rng s [a] := by intro b hb; simp at hb; rw [hb]; exact ha
  induction k1 with
  | nil => simp at h1
  | cons j t ih =>
    by_cases e : j = i
    · subst e
      rw [cmp_i_cons]
      simp only [List.not_mem_nil, if_false, cmp_i_nil, map_zero, smul_zero, zero_add, or_true, if_true]
      by_cases hit : j ∈ t
      · rw [eraseOne_consV_self_mem, if_neg]
        · have := List.count_pos_iff.2 hit
          simp only [List.count_cons_self]
          omega
        · refine cmp_support_mono hi hs hk fun m hm => ?_
          have := hm.inner hit a ha
          simp only [List.count_cons_self, List.count_nil] at this
          exact List.count_pos_iff.1 (by omega)
      · rw [cmp_not_mem hit, eraseOne_consV_self]
        · simp [List.count_eq_zero.2 hit]
        · rw [← cmp_not_mem (s := s) hit []]
          refine cmp_support_mono hi hs (by intro b hb; simp at hb) fun m hm => hm.absent a ha (by simp)
    · have h1 : i ∈ t := by simpa [Ne.symm e] using h1
      rw [cmp_ne e, eraseOne_consV_ne (sh_ne_up e ha hi), ih h1, List.count_cons_of_ne e,
        List.erase_cons_tail (by simpa using e)]
      split <;> simp

theorem eraseOne_up (hi : 1 ≤ i) (hs : 1 ≤ s) {a : Nat} (ha : 1 ≤ a ∧ a ≤ s) (k1 k2 : List Nat)
    (hk : Rng s k2) (h1 : i ∈ k1) (hc : k2.count a = 1) (hne : k2 ≠ [a]) :
    eraseOne (up i a) (cmp (R := R) i s k1 k2) = cmp i s k1 (k2.erase a) := by
  revert hk h1 hc hne
  induction k1, k2 using cmp_induction i with
  | hnil k2 => intro _ h; simp at h
  | hne l t k2 hl ih =>
    intro hk h1 hc hne
    rw [cmp_ne hl, eraseOne_consV_ne (sh_ne_up hl ha hi),
      ih hk (by simpa [Ne.symm hl] using h1) hc hne, cmp_ne hl]
  | hin t => intro _ _ h; simp at h
  | hic t b w ih1 ih2 =>
    intro hk h1 hc hne
    by_cases e : b = a
    · subst e
      have hn : b ∉ w := by rw [← List.count_eq_zero]; simpa using hc
      have hw : w ≠ [] := by simpa using hne
      rw [List.erase_cons_head, cmp_i_cons, if_neg hn, one_smul, map_add, eraseOne_consV_self]
      · have : eraseOne (up i b) (if i ∈ t ∨ w = [] then consV (up i b) (cmp (R := R) i s t (b :: w)) else 0)
            = 0 := by
          split
          · rename_i h
            apply eraseOne_consV_self_mem
            refine cmp_support_mono hi hs hk fun m hm => ?_
            have := hm.inner (h.resolve_right hw) b ha
            simp only [List.count_cons_self] at this
            exact List.count_pos_iff.1 (by omega)
          · simp
        rw [this, add_zero]
      · exact cmp_support_mono hi hs hk.tail fun m hm => hm.absent b ha hn
    · have hc' : w.count a = 1 := by rwa [List.count_cons_of_ne e] at hc
      have hu : up i b ≠ up i a := fun h => e (up_inj hk.head.1 ha.1 hi h)
      rw [List.erase_cons_tail (by simpa using e), cmp_i_cons, cmp_i_cons, map_add, map_smul,
        eraseOne_consV_ne hu]
      simp only [List.mem_erase_of_ne e]
      by_cases hwa : w = [a]
      · subst hwa
        rw [eraseOne_up_single hi hs ha _ (by simp)]
        simp only [List.mem_singleton, e, if_false, one_smul, List.erase_cons_head, cmp_i_nil, map_zero,
          zero_add, or_true, if_true]
        by_cases hit : i ∈ t
        · have := List.count_pos_iff.2 hit
          rw [List.count_cons_self, if_neg (by omega), if_pos (Or.inl hit), eraseOne_consV_ne hu,
            ih2 hk hit hc (by simp), List.erase_cons_tail (by simpa using e)]
          simp
        · rw [List.count_cons_self, List.count_eq_zero.2 hit]
          simp [hit, cmp_not_mem hit]
      · rw [ih1 hk.tail (by simp) hc' hwa]
        have hwe : w.erase a ≠ [] := by
          intro h
          have hm : a ∈ w := List.count_pos_iff.1 (by omega)
          have h1 := List.length_erase_of_mem hm
          rw [h] at h1
          match w, hm, h1, hwa with
          | [c], hm, _, hwa => simp at hm; exact hwa (by rw [hm])
        have hwn : w ≠ [] := by rintro rfl; simp at hc'
        congr 1
        by_cases hit : i ∈ t
        · rw [if_pos (Or.inl hit), if_pos (Or.inl hit), eraseOne_consV_ne hu, ih2 hk hit hc hne,
            List.erase_cons_tail (by simpa using e)]
        · rw [if_neg (by simp [hit, hwn]), if_neg (by simp [hit, hwe]), map_zero]


/-! ### the Leibniz rule -/

/-- Composition, linear in the outer argument. -/
noncomputable def cmpL (i s : Nat) (k2 : List Nat) : (List Nat →₀ R) →ₗ[R] (List Nat →₀ R) :=
  lin fun k1 => cmp i s k1 k2

/-- Composition, linear in the inner argument. -/
noncomputable def cmpR (i s : Nat) (k1 : List Nat) : (List Nat →₀ R) →ₗ[R] (List Nat →₀ R) :=
  lin fun k2 => cmp i s k1 k2

@[simp] theorem cmpL_single (k2 k1 : List Nat) (r : R) :
    cmpL i s k2 (single k1 r) = r • cmp i s k1 k2 := by simp [cmpL]

@[simp] theorem cmpR_single (k2 k1 : List Nat) (r : R) :
    cmpR i s k1 (single k2 r) = r • cmp i s k1 k2 := by simp [cmpR]

theorem cmpL_consV_ne {j : Nat} (hj : j ≠ i) (k2 : List Nat) (v : List Nat →₀ R) :
    cmpL i s k2 (consV j v) = consV (sh i s j) (cmpL i s k2 v) := by
  induction v using Finsupp.induction_linear with
  | zero => simp
  | add f g hf hg => simp only [map_add, hf, hg]
  | single k c => simp [cmp_ne hj]

theorem cmpR_cons_ne {j : Nat} (hj : j ≠ i) (t : List Nat) (v : List Nat →₀ R) :
    cmpR i s (j :: t) v = consV (sh i s j) (cmpR i s t v) := by
  induction v using Finsupp.induction_linear with
  | zero => simp
  | add f g hf hg => simp only [map_add, hf, hg]
  | single k c => simp [cmp_ne hj]

theorem cmpL_consV_i (t : List Nat) (a : Nat) (w : List Nat) {v : List Nat →₀ R}
    (hv : v ∈ Finsupp.supported R R {m | Face t m}) :
    cmpL i s (a :: w) (consV i v) =
      (if a ∈ w then -((-1 : R) ^ sdeg (i :: t)) else 1) • consV (up i a) (cmpL i s w (consV i v)) +
        (if i ∈ t ∨ w = [] then consV (up i a) (cmpL i s (a :: w) v) else 0) := by
  have := BElem.lin_ext_supported (R := R) (f := (cmpL i s (a :: w)).comp (consV i))
    (g := (if a ∈ w then -((-1 : R) ^ sdeg (i :: t)) else 1) •
        (consV (up i a)).comp ((cmpL i s w).comp (consV i)) +
        (if i ∈ t ∨ w = [] then (consV (up i a)).comp (cmpL i s (a :: w)) else 0)) (S := {m | Face t m})
    (fun m (hm : Face t m) => by
      have hd : (if a ∈ w then -((-1 : R) ^ sdeg (i :: t)) else 1) =
          (if a ∈ w then (-1 : R) ^ sdeg (i :: m) else 1) := by
        have : sdeg (i :: t) = sdeg (i :: m) + 1 := by
          have := hm.2
          have := hm.1 i
          simp only [sdeg]
          split <;> split <;> first | omega | (exfalso; tauto)
        rw [this, pow_succ]; simp
      have hi' : (i ∈ m) = (i ∈ t) := propext (hm.1 i)
      rw [hd]
      simp only [LinearMap.comp_apply, LinearMap.add_apply, LinearMap.smul_apply, consV_single, cmpL_single,
        one_smul, cmp_i_cons, hi']
      congr 1
      split <;> simp) hv
  simp only [LinearMap.comp_apply, LinearMap.add_apply, LinearMap.smul_apply] at this
  rw [this]
  congr 1
  split <;> simp

theorem cmpR_consV_i (t : List Nat) (a : Nat) (w : List Nat) {v : List Nat →₀ R}
    (hv : v ∈ Finsupp.supported R R {m | Face w m}) :
    cmpR i s (i :: t) (consV a v) =
      (if a ∈ w then (-1 : R) ^ sdeg (i :: t) else 1) • consV (up i a) (cmpR i s (i :: t) v) +
        (if i ∈ t ∨ w = [] then consV (up i a) (cmpR i s t (consV a v)) else 0) := by
  have := BElem.lin_ext_supported (R := R) (f := (cmpR i s (i :: t)).comp (consV a))
    (g := (if a ∈ w then (-1 : R) ^ sdeg (i :: t) else 1) •
        (consV (up i a)).comp (cmpR i s (i :: t)) +
        (if i ∈ t ∨ w = [] then (consV (up i a)).comp ((cmpR i s t).comp (consV a)) else 0))
    (S := {m | Face w m})
    (fun m (hm : Face w m) => by
      have ha' : (a ∈ m) = (a ∈ w) := propext (hm.1 a)
      have hw' : (m = []) = (w = []) := by
        have := hm.1.isEmpty
        rw [Bool.eq_iff_iff] at this
        simpa using this
      simp only [LinearMap.comp_apply, LinearMap.add_apply, LinearMap.smul_apply, consV_single, cmpR_single,
        one_smul, cmp_i_cons, ha', hw']
      congr 1
      split <;> simp) hv
  simp only [LinearMap.comp_apply, LinearMap.add_apply, LinearMap.smul_apply] at this
  rw [this]
  congr 1
  split <;> simp

theorem sdelL_cmp_not_mem (hs : 1 ≤ s) {t : List Nat} (h : i ∉ t) (k2 : List Nat) :
    sdelL (cmp (R := R) i s t k2) = cmpL i s k2 (sdel t) := by
  rw [cmp_not_mem h, sdelL_single, one_smul, sdel_map]
  · have := BElem.lin_ext_supported (R := R) (f := mapK (List.map (sh i s))) (g := cmpL i s k2)
      (S := {m | SameVals t m}) (fun m (hm : SameVals t m) => by
        rw [mapK_single, cmpL_single, one_smul, cmp_not_mem (fun h' => h ((hm i).1 h'))])
      (sdel_supported (R := R) t)
    exact this
  · intro a ha b hb hab
    exact sh_inj (i := i) (fun e => h (e ▸ ha)) (fun e => h (e ▸ hb)) hs hab

set_option maxHeartbeats 800000 in
theorem leibniz (hi : 1 ≤ i) (hs : 1 ≤ s) (k1 k2 : List Nat) (hk : Rng s k2) (h1 : i ∈ k1)
    (h2 : k2 ≠ []) :
    sdelL (cmp (R := R) i s k1 k2) =
      cmpL i s k2 (sdel k1) + (-1 : R) ^ sdeg k1 • cmpR i s k1 (sdel k2) := by
  revert hk h1 h2
  induction k1, k2 using cmp_induction i with
  | hnil k2 => intro _ h; simp at h
  | hne j t k2 hj ih =>
    intro hk h1 h2
    have h1 : i ∈ t := by simpa [Ne.symm hj] using h1
    have ih := ih hk h1 h2
    rw [cmp_ne hj, cmpR_cons_ne hj, sdel]
    by_cases hjt : j ∈ t
    · rw [sdelL_consV_mem (cmp_support_mono hi hs hk fun m hm => by
        show sh i s j ∈ m
        rw [← List.count_pos_iff, hm.outer j hj]; exact List.count_pos_iff.2 hjt), ih,
        eraseOne_sh hi hs hj _ _ hk, if_pos hjt]
      simp only [map_sub, cmpL_consV_ne hj, cmpL_single, one_smul, sdeg, if_pos hjt, pow_add, pow_one,
        map_add, map_smul]
      have : cmpL i s k2 (if t.count j = 1 then bv R (j :: t.erase j) else 0) =
          consV (sh i s j) (if t.count j = 1 then cmp i s (t.erase j) k2 else 0) := by
        split
        · rw [cmpL_single, one_smul, cmp_ne hj]
        · simp
      rw [this]
      simp only [neg_mul, one_mul, neg_smul]
      abel
    · rw [sdelL_consV_not_mem (cmp_support_mono hi hs hk fun m hm => by
        show sh i s j ∉ m
        rw [← List.count_eq_zero, hm.outer j hj, List.count_eq_zero]; exact hjt), ih, if_neg hjt]
      simp only [map_sub, cmpL_consV_ne hj, sdeg, if_neg hjt, zero_add, List.count_eq_zero.2 hjt, map_add,
        map_smul, zero_ne_one, if_false, sub_zero]
  | hin t => intro _ _ h; simp at h
  | hic t a w ih1 ih2 =>
    intro hk _ _
    have ha := hk.head
    have hFt := sdel_face (R := R) t
    have hFw := sdel_face (R := R) w
    by_cases hw : w = []
    · subst hw
      have e1 : cmp (R := R) i s (i :: t) [a] = consV (up i a) (cmp i s t [a]) := by
        rw [cmp_i_cons]; simp
      have e2 : sdel (R := R) [a] = 0 := by simp [sdel]
      have e3 := cmpL_consV_i (i := i) (s := s) t a [] hFt
      have e4 : cmpL i s [] (consV i (sdel (R := R) t)) = 0 := by
        have : ∀ v : List Nat →₀ R, cmpL i s [] (consV i v) = 0 := fun v => by
          induction v using Finsupp.induction_linear with
          | zero => simp
          | add f g hf hg => simp only [map_add, hf, hg, add_zero]
          | single k c => simp
        exact this _
      simp only [e4, map_zero, smul_zero, zero_add, or_true, if_true] at e3
      rw [e1, e2, map_zero, smul_zero, add_zero]
      by_cases hit : i ∈ t
      · rw [sdelL_consV_mem (cmp_support_mono hi hs hk fun m hm => by
          have := hm.inner hit a ha
          simp only [List.count_cons_self, List.count_nil] at this
          exact List.count_pos_iff.1 (by omega)), ih2 hk hit (by simp), e2,
          eraseOne_up_single hi hs ha t hit, sdel, if_pos hit, map_sub, map_sub, e3]
        simp only [map_zero, smul_zero, add_zero, cmpL_single, one_smul]
        congr 1
        split
        · rename_i hc
          have : i ∉ t.erase i := by rw [← List.count_eq_zero, List.count_erase_self]; omega
          rw [cmpL_single, one_smul, cmp_i_cons, cmp_not_mem this]
          simp
        · simp
      · have hn : cmp (R := R) i s t [a] ∈ Finsupp.supported R R {m | up i a ∉ m} := by
          rw [cmp_not_mem hit, ← cmp_not_mem (s := s) hit []]
          exact cmp_support_mono hi hs (by intro b hb; simp at hb) fun m hm => hm.absent a ha (by simp)
        rw [sdelL_consV_not_mem hn, sdelL_cmp_not_mem hs hit, sdel, if_neg hit, List.count_eq_zero.2 hit]
        simp [e3]
    · have ih1 := ih1 hk.tail (by simp) hw
      have hL := cmpL_consV_i (i := i) (s := s) t a w hFt
      have hR := cmpR_consV_i (i := i) (s := s) t a w hFw
      have hF := cmp_i_cons (R := R) i s t a w
      have hG : a ∈ w → cmp (R := R) i s (i :: t) w ∈ Finsupp.supported R R {m | up i a ∈ m} := fun haw =>
        cmp_support_mono hi hs hk.tail fun m hm => by
          have := hm.inner (by simp) a ha
          have := List.count_pos_iff.2 haw
          exact List.count_pos_iff.1 (by omega)
      have hG' : a ∉ w → cmp (R := R) i s (i :: t) w ∈ Finsupp.supported R R {m | up i a ∉ m} := fun haw =>
        cmp_support_mono hi hs hk.tail fun m hm => hm.absent a ha haw
      -- the last summand of the boundary of the inner surjection
      have hE1 : ∀ haw : a ∈ w, eraseOne (up i a) (cmp (R := R) i s (i :: t) w) =
          if w.count a = 1 then (if w = [a] then (if i ∈ t then 0 else bv R (t.map (sh i s)))
            else cmp i s (i :: t) (w.erase a)) else 0 := fun haw => by
        by_cases hc : w.count a = 1
        · rw [if_pos hc]
          by_cases hwa : w = [a]
          · rw [if_pos hwa, hwa, eraseOne_up_single hi hs ha _ (by simp), List.count_cons_self]
            by_cases hit : i ∈ t
            · have := List.count_pos_iff.2 hit
              rw [if_pos hit, if_neg (by omega)]
            · rw [if_neg hit, if_pos (by rw [List.count_eq_zero.2 hit]), List.erase_cons_head]
          · rw [if_neg hwa, eraseOne_up hi hs ha _ _ hk.tail (by simp) hc hwa]
        · rw [if_neg hc, eraseOne_up_two hi hs hk.tail ha (by simp)]
          have := List.count_pos_iff.2 haw
          omega
      by_cases hit : i ∈ t
      · have ih2 := ih2 hk hit (by simp)
        have hH : cmp (R := R) i s t (a :: w) ∈ Finsupp.supported R R {m | up i a ∈ m} :=
          cmp_support_mono hi hs hk fun m hm => by
            have := hm.inner hit a ha
            simp only [List.count_cons_self] at this
            exact List.count_pos_iff.1 (by omega)
        have hc0 : cmpL i s (a :: w) (if t.count i = 1 then bv R (i :: t.erase i) else 0) =
            (if a ∈ w then (-1 : R) ^ sdeg t else 1) •
              consV (up i a) (cmpL i s w (if t.count i = 1 then bv R (i :: t.erase i) else 0)) := by
          split
          · rename_i hc
            have : i ∉ t.erase i := by rw [← List.count_eq_zero, List.count_erase_self]; omega
            rw [cmpL_single, cmpL_single, one_smul, one_smul, cmp_i_cons, sdeg, if_neg this, zero_add,
              sdeg_erase hc]
            simp [this, hw]
          · simp
        have hsd : sdeg (i :: t) = sdeg t + 1 := by rw [sdeg, if_pos hit, add_comm]
        rw [hsd] at hL hR hF ih1 ⊢
        simp only [if_pos (Or.inl hit : i ∈ t ∨ w = [])] at hL hR hF
        have h4 : sdel (R := R) (i :: t) = bv R t - consV i (sdel t) -
            (if t.count i = 1 then bv R (i :: t.erase i) else 0) := by rw [sdel, if_pos hit]
        rw [hF, map_add, map_smul, sdelL_consV_mem hH, ih2, h4]
        by_cases haw : a ∈ w
        · rw [sdelL_consV_mem (hG haw), ih1, h4, hE1 haw,
            eraseOne_up_two (R := R) hi hs hk ha hit (by
              have := List.count_pos_iff.2 haw
              simp only [List.count_cons_self]; omega)]
          have h5 : sdel (R := R) (a :: w) = bv R w - consV a (sdel w) -
            (if w.count a = 1 then bv R (a :: w.erase a) else 0) := by rw [sdel, if_pos haw]
          have h6 : cmpR i s (i :: t) (if w.count a = 1 then bv R (a :: w.erase a) else 0) =
              consV (up i a) (if w.count a = 1 then (if w = [a] then (if i ∈ t then 0 else bv R (t.map (sh i s)))
                else cmp i s (i :: t) (w.erase a)) else 0) +
              consV (up i a) (cmpR i s t (if w.count a = 1 then bv R (a :: w.erase a) else 0)) := by
            split
            · rename_i hc
              have : a ∉ w.erase a := by rw [← List.count_eq_zero, List.count_erase_self]; omega
              rw [cmpR_single, cmpR_single, one_smul, one_smul, cmp_i_cons, if_neg this, one_smul,
                if_pos (Or.inl hit)]
              congr 1
              split
              · rename_i hwa
                subst hwa
                simp [hit]
              · rfl
            · simp
          rw [h5]
          simp only [map_sub, map_add, map_smul, hL, hR, hc0, h6, if_pos haw, cmpL_single, cmpR_single, one_smul,
            map_zero, sub_zero]
          generalize cmp (R := R) i s (i :: t) w = X1
          generalize cmp (R := R) i s t (a :: w) = X2
          generalize consV (R := R) (up i a) (cmpL i s w (consV i (sdel t))) = X3
          generalize consV (R := R) (up i a) (cmpR i s (i :: t) (sdel w)) = X4
          generalize consV (R := R) (up i a) (cmpL i s (a :: w) (sdel t)) = X5
          generalize consV (R := R) (up i a) (cmpR i s t (consV a (sdel w))) = X6
          generalize consV (R := R) (up i a) (cmp i s t w) = X7
          generalize consV (R := R) (up i a) (cmpL i s w (if t.count i = 1 then bv R (i :: t.erase i) else 0)) = X8
          generalize consV (R := R) (up i a) (cmpR i s t (if w.count a = 1 then bv R (a :: w.erase a) else 0)) = X9
          generalize consV (R := R) (up i a) (if w.count a = 1 then (if w = [a] then (if i ∈ t then 0
                else bv R (t.map (sh i s))) else cmp i s (i :: t) (w.erase a)) else 0) = X10
          rcases neg_one_pow_eq_or R (sdeg t) with e | e <;>
            simp only [e, pow_succ, one_mul, mul_neg, mul_one, neg_neg, neg_smul, one_smul] <;> abel
        · rw [sdelL_consV_not_mem (hG' haw), ih1, h4,
            eraseOne_up (R := R) hi hs ha _ _ hk hit (by simp [List.count_eq_zero.2 haw]) (by simp [hw])]
          have h5 : sdel (R := R) (a :: w) = consV a (sdel w) := by
            rw [sdel, if_neg haw, List.count_eq_zero.2 haw]; simp
          rw [h5, List.erase_cons_head]
          simp only [map_sub, map_add, map_smul, hL, hR, hc0, if_neg haw, cmpL_single, cmpR_single, one_smul]
          generalize cmp (R := R) i s (i :: t) w = X1
          generalize cmp (R := R) i s t (a :: w) = X2
          generalize consV (R := R) (up i a) (cmpL i s w (consV i (sdel t))) = X3
          generalize consV (R := R) (up i a) (cmpR i s (i :: t) (sdel w)) = X4
          generalize consV (R := R) (up i a) (cmpL i s (a :: w) (sdel t)) = X5
          generalize consV (R := R) (up i a) (cmpR i s t (consV a (sdel w))) = X6
          generalize consV (R := R) (up i a) (cmp i s t w) = X7
          generalize consV (R := R) (up i a) (cmpL i s w (if t.count i = 1 then bv R (i :: t.erase i) else 0)) = X8
          rcases neg_one_pow_eq_or R (sdeg t) with e | e <;>
            simp only [e, pow_succ, one_mul, mul_neg, mul_one, neg_neg, neg_smul, one_smul] <;> abel
      · have hsd : sdeg (i :: t) = sdeg t := by rw [sdeg, if_neg hit, zero_add]
        rw [hsd] at hL hR hF ih1 ⊢
        have hnot : ¬ (i ∈ t ∨ w = []) := by simp [hit, hw]
        simp only [if_neg hnot, add_zero] at hL hR hF
        have h4 : sdel (R := R) (i :: t) = consV i (sdel t) := by
          rw [sdel, if_neg hit, List.count_eq_zero.2 hit]; simp
        rw [hF, map_smul, h4]
        by_cases haw : a ∈ w
        · rw [sdelL_consV_mem (hG haw), ih1, h4, hE1 haw]
          have h5 : sdel (R := R) (a :: w) = bv R w - consV a (sdel w) -
            (if w.count a = 1 then bv R (a :: w.erase a) else 0) := by rw [sdel, if_pos haw]
          have h6 : cmpR i s (i :: t) (if w.count a = 1 then bv R (a :: w.erase a) else 0) =
              consV (up i a) (if w.count a = 1 then (if w = [a] then (if i ∈ t then 0 else bv R (t.map (sh i s)))
                else cmp i s (i :: t) (w.erase a)) else 0) := by
            split
            · rename_i hc
              have : a ∉ w.erase a := by rw [← List.count_eq_zero, List.count_erase_self]; omega
              rw [cmpR_single, one_smul, cmp_i_cons, if_neg this, one_smul]
              by_cases hwa : w = [a]
              · subst hwa
                simp [hit, cmp_not_mem hit]
              · have hwe : w.erase a ≠ [] := by
                  intro h
                  have h1 := List.length_erase_of_mem haw
                  rw [h] at h1
                  match w, haw, h1, hwa with
                  | [c], hm, _, hwa => simp at hm; exact hwa (by rw [hm])
                rw [if_neg (by simp [hit, hwe]), if_neg hwa, add_zero]
            · simp
          rw [h5]
          simp only [map_sub, map_add, map_smul, hL, hR, h6, if_pos haw, cmpR_single, one_smul]
          rcases neg_one_pow_eq_or R (sdeg t) with e | e <;>
            simp only [e, neg_neg, neg_smul, one_smul] <;> abel
        · rw [sdelL_consV_not_mem (hG' haw), ih1, h4]
          have h5 : sdel (R := R) (a :: w) = consV a (sdel w) := by
            rw [sdel, if_neg haw, List.count_eq_zero.2 haw]; simp
          rw [h5]
          simp only [map_add, map_smul, hL, hR, if_neg haw, one_smul]

end Comch.SurjComp
