import Verif.Lib.SurjCall
import Verif.Lib.AtDeg

/-! # Composing surjections and acting on simplices, modulo 2 -/

set_option linter.unusedSectionVars false

namespace Comch.SurjComp
open Spec Elem
open Finsupp (single)

variable {R : Type} [CommRing R] (i s : Nat)

/-- Insert the letters of `k2` at the occurrences of `i` in a labelled word. -/
noncomputable def wcmp : LW → List Nat → (LW →₀ R)
  | [], _ => bv R []
  | p :: t, [] => if p.1 = i then 0 else consV (sh i s p.1, p.2) (wcmp t [])
  | p :: t, a :: w =>
    if p.1 = i then
      consV (up i a, p.2) (wcmp (p :: t) w) +
        (if i ∈ letters t ∨ w = [] then consV (up i a, p.2) (wcmp t (a :: w)) else 0)
    else consV (sh i s p.1, p.2) (wcmp t (a :: w))
termination_by k1 k2 => k1.length + k2.length

@[simp] theorem wcmp_nil (k2 : List Nat) : wcmp (R := R) i s [] k2 = bv R [] := by rw [wcmp]

theorem wcmp_ne {i s : Nat} {p : Nat × Nat} (h : p.1 ≠ i) (t : LW) (k2 : List Nat) :
    wcmp (R := R) i s (p :: t) k2 = consV (sh i s p.1, p.2) (wcmp i s t k2) := by
  cases k2 with
  | nil => rw [wcmp, if_neg h]
  | cons a w => rw [wcmp, if_neg h]

@[simp] theorem wcmp_i_nil (b : Nat) (t : LW) : wcmp (R := R) i s ((i, b) :: t) [] = 0 := by
  rw [wcmp, if_pos rfl]

theorem wcmp_i_cons (b : Nat) (t : LW) (a : Nat) (w : List Nat) :
    wcmp (R := R) i s ((i, b) :: t) (a :: w) = consV (up i a, b) (wcmp i s ((i, b) :: t) w) +
        (if i ∈ letters t ∨ w = [] then consV (up i a, b) (wcmp i s t (a :: w)) else 0) := by
  rw [wcmp, if_pos rfl]

variable {i s}

/-- Shift the letters of a word without the letter `i`. -/
def shW (i s : Nat) (w : LW) : LW := w.map fun p => (sh i s p.1, p.2)

theorem wcmp_not_mem {t : LW} (h : i ∉ letters t) (k2 : List Nat) :
    wcmp (R := R) i s t k2 = bv R (shW i s t) := by
  induction t with
  | nil => simp [shW]
  | cons p t ih =>
    rw [show letters (p :: t) = p.1 :: letters t by simp [letters], List.mem_cons, not_or] at h
    rw [wcmp_ne (Ne.symm h.1), ih h.2]
    simp [shW]

theorem wcmp_mem_nil {t : LW} (h : i ∈ letters t) : wcmp (R := R) i s t [] = 0 := by
  induction t with
  | nil => simp at h
  | cons p t ih =>
    obtain ⟨j, b⟩ := p
    by_cases e : j = i
    · subst e; simp
    · rw [wcmp_ne e, ih (by simpa [Ne.symm e] using h), map_zero]

theorem consV_nil {A : Type} (x : A) (v : List A →₀ R) : consV x v [] = 0 := by
  induction v using Finsupp.induction_linear with
  | zero => simp
  | add f g hf hg => simp only [map_add, Finsupp.coe_add, Pi.add_apply, hf, hg, add_zero]
  | single k r => simp

theorem cmp_apply_nil (k1 k2 : List Nat) :
    cmp (R := R) i s k1 k2 [] = if k1 = [] then 1 else 0 := by
  cases k1 with
  | nil => simp
  | cons j t =>
    rw [if_neg (by simp)]
    by_cases e : j = i
    · subst e
      cases k2 with
      | nil => simp
      | cons a w =>
        rw [cmp_i_cons]
        split
        all_goals
          rename_i h
        · split <;> simp [consV_nil]
        · split <;> simp [consV_nil]
    · rw [cmp_ne e, consV_nil]

section two
variable (h2 : (-1 : R) = 1)
include h2

theorem neg_one_pow_two (n : Nat) : (-1 : R) ^ n = 1 := by rw [h2, one_pow]

theorem pth_cons_two (x : Nat) (t : List Nat) (a : Nat) (w : List Nat) :
    pth (R := R) (x :: t) (a :: w) = (if t = [] ∧ w = [] then bv R [(x, a)] else 0) +
      consV (x, a) (pth (x :: t) w) + consV (x, a) (pth t (a :: w)) := by
  rw [pth_cons, neg_one_pow_two h2, one_smul]

theorem cmp_i_cons_two (t : List Nat) (a : Nat) (w : List Nat) :
    cmp (R := R) i s (i :: t) (a :: w) = consV (up i a) (cmp i s (i :: t) w) +
        (if i ∈ t ∨ w = [] then consV (up i a) (cmp i s t (a :: w)) else 0) := by
  rw [cmp_i_cons, neg_one_pow_two h2, ite_self, one_smul]

theorem lin_pth_consV (x a : Nat) (V : List Nat) (v : List Nat →₀ R) :
    lin (fun c => pth (R := R) c (a :: V)) (consV x v) = (if V = [] then v [] • bv R [(x, a)] else 0) +
      consV (x, a) (lin (fun c => pth c V) (consV x v)) + consV (x, a) (lin (fun c => pth c (a :: V)) v) := by
  induction v using Finsupp.induction_linear with
  | zero => simp
  | add f g hf hg =>
    simp only [map_add, hf, hg, Finsupp.coe_add, Pi.add_apply, add_smul]
    split <;> abel
  | single k r =>
    simp only [consV_single, lin_single, map_smul]
    rw [pth_cons_two h2, smul_add, smul_add]
    congr 2
    by_cases hV : V = []
    · by_cases hk : k = []
      · simp [hV, hk]
      · simp [hV, hk]
    · simp [hV]

theorem lin_wcmp_consV {j : Nat} (hj : j ≠ i) (b : Nat) (k2 : List Nat) (v : LW →₀ R) :
    lin (fun w => wcmp (R := R) i s w k2) (consV (j, b) v) =
      consV (sh i s j, b) (lin (fun w => wcmp i s w k2) v) := by
  induction v using Finsupp.induction_linear with
  | zero => simp
  | add f g hf hg => simp only [map_add, hf, hg]
  | single k r => simp only [consV_single, lin_single, map_smul]; rw [wcmp_ne hj]

theorem lin_wcmp_consV_i (b a : Nat) (u : List Nat) {v : LW →₀ R} {m : Prop} [Decidable m]
    (hv : v ∈ Finsupp.supported R R {w : LW | i ∈ letters w ↔ m}) :
    lin (fun w => wcmp (R := R) i s w (a :: u)) (consV (i, b) v) =
      consV (up i a, b) (lin (fun w => wcmp i s w u) (consV (i, b) v)) +
        (if m ∨ u = [] then consV (up i a, b) (lin (fun w => wcmp i s w (a :: u)) v) else 0) := by
  have := BElem.lin_ext_supported (R := R)
    (f := (lin (fun w => wcmp (R := R) i s w (a :: u))).comp (consV (i, b)))
    (g := (consV (up i a, b)).comp ((lin (fun w => wcmp i s w u)).comp (consV (i, b))) +
      (if m ∨ u = [] then (consV (up i a, b)).comp (lin (fun w => wcmp i s w (a :: u))) else 0))
    (S := {w : LW | i ∈ letters w ↔ m}) (fun w hw => by
      have hw : i ∈ letters w ↔ m := hw
      simp only [LinearMap.comp_apply, LinearMap.add_apply, consV_single, lin_single, one_smul]
      rw [wcmp_i_cons]
      congr 1
      simp only [hw]
      split <;> simp) hv
  rw [LinearMap.comp_apply] at this
  rw [this]
  simp only [LinearMap.comp_apply, LinearMap.add_apply]
  congr 1
  split <;> simp

/-- Cutting a composite is composing the cuts. -/
theorem pth_cmp (k1 k2 V : List Nat) :
    lin (fun c => pth (R := R) c V) (cmp i s k1 k2) = lin (fun w => wcmp i s w k2) (pth k1 V) := by
  induction V generalizing k1 k2 with
  | nil =>
    have h : ∀ v : List Nat →₀ R, lin (fun c => pth (R := R) c []) v = 0 := by
      intro v
      induction v using Finsupp.induction_linear with
      | zero => simp
      | add f g hf hg => rw [map_add, hf, hg, add_zero]
      | single k r => simp
    rw [h]
    simp
  | cons a V ihV =>
    induction k1, k2 using cmp_induction i with
    | hnil k2 => simp
    | hne j t k2 hj ih =>
      rw [cmp_ne hj, lin_pth_consV h2, ← cmp_ne hj, ihV, ih, pth_cons_two h2, map_add, map_add,
        lin_wcmp_consV h2 hj, lin_wcmp_consV h2 hj, cmp_apply_nil]
      congr 2
      by_cases ht : t = []
      · by_cases hV : V = []
        · subst ht hV
          simp only [if_true, one_smul, and_self, lin_single]
          rw [wcmp_ne hj]
          simp
        · simp [hV]
      · simp [ht]
    | hin t =>
      rw [cmp_i_nil, map_zero]
      have := BElem.lin_ext_supported (R := R) (f := lin (fun w => wcmp (R := R) i s w [])) (g := 0)
        (S := {w : LW | i ∈ letters w}) (fun w hw => by
          simp only [lin_single, one_smul, LinearMap.zero_apply]
          exact wcmp_mem_nil hw) (pth_mem (k := i :: t) (V := a :: V) (by simp))
      simpa using this.symm
    | hic t y u ih1 ih2 =>
      -- left-hand side
      have hL : lin (fun c => pth (R := R) c (a :: V)) (cmp i s (i :: t) (y :: u)) =
          (if t = [] ∧ u = [] ∧ V = [] then bv R [(up i y, a)] else 0) +
          consV (up i y, a) (lin (fun c => pth c V) (cmp i s (i :: t) (y :: u))) +
          consV (up i y, a) (lin (fun c => pth c (a :: V)) (cmp i s (i :: t) u)) +
          (if i ∈ t ∨ u = [] then consV (up i y, a) (lin (fun c => pth c (a :: V)) (cmp i s t (y :: u))) else 0) := by
        rw [cmp_i_cons_two h2, map_add, lin_pth_consV h2, cmp_apply_nil]
        by_cases hcond : i ∈ t ∨ u = []
        · rw [if_pos hcond, if_pos hcond, lin_pth_consV h2, cmp_apply_nil]
          have e : (if V = [] then (if t = [] then (1 : R) else 0) • bv R [(up i y, a)] else 0) =
              (if t = [] ∧ u = [] ∧ V = [] then bv R [(up i y, a)] else 0) := by
            by_cases ht : t = []
            · subst ht
              have hu : u = [] := by simpa using hcond
              simp [hu]
            · simp [ht]
          rw [e]
          simp only [reduceCtorEq, if_false, zero_smul, ite_self, map_add]
          abel
        · rw [if_neg hcond, if_neg hcond]
          have hu : u ≠ [] := fun h => hcond (Or.inr h)
          simp [hu]
      rw [hL, ihV, ih1, ih2]
      have s1 : pth (R := R) (i :: t) V ∈ Finsupp.supported R R {w : LW | i ∈ letters w ↔ True} :=
        Finsupp.supported_mono (fun w hw => by simpa using hw) (pth_mem (R := R) (k := i :: t) (V := V) (by simp))
      have s2 : pth (R := R) t (a :: V) ∈ Finsupp.supported R R {w : LW | i ∈ letters w ↔ i ∈ t} :=
        Finsupp.supported_mono (fun w hw => hw.1 i) (pth_supported (R := R) t (a :: V))
      conv_rhs => rw [pth_cons_two h2, map_add, map_add, lin_wcmp_consV_i h2 a y u s1,
        lin_wcmp_consV_i h2 a y u s2]
      have hp := pth_cons_two h2 i t a V
      rw [hp, map_add, map_add, map_add, map_add, if_pos (Or.inl trivial)]
      have e : lin (fun w => wcmp (R := R) i s w (y :: u)) (if t = [] ∧ V = [] then bv R [(i, a)] else 0) =
          consV (up i y, a) (lin (fun w => wcmp (R := R) i s w u) (if t = [] ∧ V = [] then bv R [(i, a)] else 0)) +
          if t = [] ∧ u = [] ∧ V = [] then bv R [(up i y, a)] else 0 := by
        by_cases h1 : t = [] ∧ V = []
        · rw [if_pos h1, lin_single, one_smul, lin_single, one_smul, wcmp_i_cons]
          congr 1
          by_cases hu : u = []
          · simp [h1.1, h1.2, hu]
          · simp [hu]
        · rw [if_neg h1, map_zero, map_zero, map_zero, if_neg (fun h => h1 ⟨h.1, h.2.2⟩), add_zero]
      rw [e]
      abel

end two

/-! ### reading off the factors -/

/-- Put a label in front of a factor. -/
def pushL (l b : Nat) (f : Nat → List Nat) : Nat → List Nat := fun x => if l = x then b :: f x else f x

theorem labels_cons' (l b : Nat) (w : LW) : labels ((l, b) :: w) = pushL l b (labels w) := by
  funext x
  rw [labels_cons, pushL]

/-- The factors of `w` with those of `u` in place of the `i`-th. -/
def sp (i s : Nat) (w u : LW) : Nat → List Nat := fun l =>
  if l < i then labels w l else if l < i + s then labels u (l + 1 - i) else labels w (l + 1 - s)

theorem sp_i (b : Nat) (w u : LW) : sp i s ((i, b) :: w) u = sp i s w u := by
  funext l
  unfold sp
  rw [labels_cons, labels_cons]
  by_cases h1 : l < i
  · rw [if_pos h1, if_pos h1, if_neg (by omega)]
  · rw [if_neg h1, if_neg h1]
    by_cases h2 : l < i + s
    · rw [if_pos h2, if_pos h2]
    · rw [if_neg h2, if_neg h2, if_neg (by omega)]

theorem sp_ne (hs : 1 ≤ s) {j : Nat} (hj : j ≠ i) (b : Nat) (w u : LW) :
    sp i s ((j, b) :: w) u = pushL (sh i s j) b (sp i s w u) := by
  funext l
  unfold sp pushL sh
  rw [labels_cons, labels_cons]
  by_cases h1 : l < i
  · simp only [if_pos h1]
    by_cases h2 : j < i
    · simp only [if_pos h2]
    · simp only [if_neg h2]
      rw [if_neg (by omega), if_neg (by omega)]
  · simp only [if_neg h1]
    by_cases h2 : l < i + s
    · simp only [if_pos h2]
      rw [if_neg]
      split <;> omega
    · simp only [if_neg h2]
      by_cases h3 : j < i
      · simp only [if_pos h3]
        rw [if_neg (by omega), if_neg (by omega)]
      · simp only [if_neg h3]
        by_cases h4 : j = l + 1 - s
        · rw [if_pos h4, if_pos (by omega)]
        · rw [if_neg h4, if_neg (by omega)]

theorem sp_up (hi : 1 ≤ i) {a : Nat} (ha : 1 ≤ a ∧ a ≤ s) (b : Nat) (w u : LW) :
    sp i s w ((a, b) :: u) = pushL (up i a) b (sp i s w u) := by
  funext l
  unfold sp pushL up
  rw [labels_cons]
  by_cases h1 : l < i
  · simp only [if_pos h1]
    rw [if_neg (by omega)]
  · simp only [if_neg h1]
    by_cases h2 : l < i + s
    · simp only [if_pos h2]
      by_cases h4 : a = l + 1 - i
      · rw [if_pos h4, if_pos (by omega)]
      · rw [if_neg h4, if_neg (by omega)]
    · simp only [if_neg h2]
      rw [if_neg (by omega)]

theorem labels_shW (hs : 1 ≤ s) {t : LW} (h : i ∉ letters t) : labels (shW i s t) = sp i s t [] := by
  induction t with
  | nil => funext l; simp [sp, shW]
  | cons p t ih =>
    obtain ⟨j, b⟩ := p
    rw [letters_cons, List.mem_cons, not_or] at h
    rw [sp_ne hs (Ne.symm h.1), ← ih h.2, ← labels_cons']
    rfl

theorem mapK_labels_consV (l b : Nat) (v : LW →₀ R) :
    mapK labels (consV (l, b) v) = mapK (pushL l b) (mapK labels v) := by
  induction v using Finsupp.induction_linear with
  | zero => simp
  | add f g hf hg => simp only [map_add, hf, hg]
  | single k r => simp [labels_cons']

theorem mapK_sp_consV (hi : 1 ≤ i) {a : Nat} (ha : 1 ≤ a ∧ a ≤ s) (b : Nat) (w : LW) (v : LW →₀ R) :
    mapK (sp i s w) (consV (a, b) v) = mapK (pushL (up i a) b) (mapK (sp i s w) v) := by
  induction v using Finsupp.induction_linear with
  | zero => simp
  | add f g hf hg => simp only [map_add, hf, hg]
  | single k r => simp [sp_up hi ha]

theorem labels_eq_nil {w : LW} {x : Nat} (h : x ∉ letters w) : labels w x = [] := by
  rw [← List.length_eq_zero_iff, labels_length, List.count_eq_zero.2 h]

theorem labels_ne_nil {w : LW} {x : Nat} (h : x ∈ letters w) : labels w x ≠ [] := by
  intro h'
  have := labels_length w x
  rw [h'] at this
  have h3 := List.count_pos_iff.2 h
  rw [List.length_nil] at this
  omega

/-- The factors of the words in `wcmp`. -/
theorem mapK_labels_wcmp (h2 : (-1 : R) = 1) (hi : 1 ≤ i) (hs : 1 ≤ s) (w : LW) (k2 : List Nat)
    (hw : i ∈ letters w) (hk : Rng s k2) :
    mapK labels (wcmp (R := R) i s w k2) = mapK (sp i s w) (pth k2 (labels w i)) := by
  induction w generalizing k2 with
  | nil => simp at hw
  | cons p t ih =>
    obtain ⟨j, b⟩ := p
    by_cases hj : j = i
    · subst hj
      induction k2 with
      | nil => simp
      | cons a u ihu =>
        have ihu := ihu hk.tail
        have hl : labels ((j, b) :: t) j = b :: labels t j := by rw [labels_cons, if_pos rfl]
        rw [hl] at ihu ⊢
        rw [wcmp_i_cons, map_add, mapK_labels_consV, ihu, pth_cons_two h2, map_add, map_add,
          mapK_sp_consV hi hk.head, mapK_sp_consV hi hk.head, add_comm]
        congr 1
        have hsp : sp j s ((j, b) :: t) = sp j s t := by funext u; exact sp_i b t u
        by_cases ht : j ∈ letters t
        · rw [if_pos (Or.inl ht), if_neg (fun h => labels_ne_nil ht h.2), map_zero, zero_add,
            mapK_labels_consV, ih (a :: u) ht hk, hsp]
        · rw [labels_eq_nil ht, pth_nil_right, map_zero, map_zero, add_zero]
          by_cases hu : u = []
          · rw [if_pos (Or.inr hu), if_pos ⟨hu, rfl⟩, wcmp_not_mem ht, mapK_labels_consV, mapK_single,
              mapK_single, mapK_single, labels_shW hs ht, hsp, sp_up hi hk.head]
          · rw [if_neg (by simp [ht, hu]), if_neg (fun h => hu h.1)]
            simp
    · rw [wcmp_ne hj, mapK_labels_consV, ih k2 (by simpa [Ne.symm hj] using hw) hk, labels_cons, if_neg hj]
      simp only
      generalize pth (R := R) k2 (labels t i) = v
      induction v using Finsupp.induction_linear with
      | zero => simp
      | add f g hf hg => simp only [map_add, hf, hg]
      | single k r => simp [sp_ne hs hj]

theorem map_sp {r : Nat} (hi : 1 ≤ i) (hir : i ≤ r) (hs : 1 ≤ s) (w u : LW) :
    (List.range' 1 (r + s - 1)).map (sp i s w u) =
      (tensorOf r w).take (i - 1) ++ (tensorOf s u ++ (tensorOf r w).drop (i - 1 + 1)) := by
  apply List.ext_getElem
  · simp [tensorOf, tensorFrom]
    omega
  · intro n h1 h3
    simp only [List.length_map, List.length_range'] at h1
    simp only [tensorOf, tensorFrom, List.getElem_map, List.getElem_range', List.getElem_append,
      List.getElem_take, List.getElem_drop, List.length_take, List.length_map, List.length_range', sp]
    split_ifs <;> first | omega | rfl | (congr 1; omega)

end Comch.SurjComp
