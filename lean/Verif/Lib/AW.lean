import Verif.Lib.Common

/-!
# The Alexander–Whitney diagonal on lists
-/

set_option linter.unusedSectionVars false

namespace Comch
open Finsupp

variable {R : Type} [CommRing R] {α : Type}

/-- Dimension of a tuple. -/
abbrev ldim (s : List α) : Int := (s.length : Int) - 1

/-- Put a vertex in front of the first factor. -/
noncomputable def preK (a : α) : List (List α) → (List (List α) →₀ R)
  | [] => 0
  | x :: k => bv R ((a :: x) :: k)

noncomputable def preV (a : α) : (List (List α) →₀ R) →ₗ[R] (List (List α) →₀ R) := lin (preK a)

@[simp] theorem preV_single (a : α) (k : List (List α)) (r : R) :
    preV a (single k r) = r • preK a k := by simp [preV]

/-- `t` cuts. -/
noncomputable def aw : Nat → List α → (List (List α) →₀ R)
  | 0, s => bv R [s]
  | _ + 1, [] => 0
  | t + 1, a :: s => consV [a] (aw t (a :: s)) + preV a (aw (t + 1) s)
termination_by t s => s.length + t

theorem aw_zero (s : List α) : aw (R := R) 0 s = bv R [s] := by rw [aw]
theorem aw_nil (t : Nat) : aw (R := R) (t + 1) ([] : List α) = 0 := by rw [aw]
theorem aw_cons (t : Nat) (a : α) (s : List α) :
    aw (R := R) (t + 1) (a :: s) = consV [a] (aw t (a :: s)) + preV a (aw (t + 1) s) := by rw [aw]

/-- Remove the empty tensor. -/
noncomputable def neV : (List (List α) →₀ R) →ₗ[R] (List (List α) →₀ R) := pr fun k => k.isEmpty

theorem neV_consV (x : List α) (v : List (List α) →₀ R) : neV (consV x v) = consV x v := by
  induction v using Finsupp.induction_linear with
  | zero => simp
  | add f g hf hg => simp only [map_add, hf, hg]
  | single k r => simp [neV]

theorem neV_preV (a : α) (v : List (List α) →₀ R) : neV (preV a v) = preV a v := by
  induction v using Finsupp.induction_linear with
  | zero => simp
  | add f g hf hg => simp only [map_add, hf, hg]
  | single k r => cases k <;> simp [neV, preK]

theorem neV_aw (t : Nat) (s : List α) : neV (aw (R := R) t s) = aw t s := by
  cases t with
  | zero => simp [aw_zero, neV]
  | succ t =>
    cases s with
    | nil => simp [aw_nil]
    | cons a s => rw [aw_cons, map_add, neV_consV, neV_preV]

/-- The differential of tensors of tuples. -/
noncomputable abbrev ltens : (List (List α) →₀ R) →ₗ[R] (List (List α) →₀ R) := tens delK ldim

theorem preV_consV (a : α) (x : List α) (v : List (List α) →₀ R) :
    preV a (consV x v) = consV (a :: x) v := by
  induction v using Finsupp.induction_linear with
  | zero => simp
  | add f g hf hg => simp only [map_add, hf, hg]
  | single k r => simp [preK]

theorem preV_cat_one (a : α) (u : List α →₀ R) (v : List (List α) →₀ R) :
    preV a (cat (one u) v) = cat (one (consV a u)) v := by
  induction u using Finsupp.induction_linear with
  | zero => simp
  | add f g hf hg => simp only [map_add, LinearMap.add_apply, hf, hg]
  | single x r =>
    rw [single_eq_smul_bv]
    simp only [map_smul, LinearMap.smul_apply, one_single, ← consV_eq_cat, consV_single, preV_consV]

theorem ltens_preV (a : α) (v : List (List α) →₀ R) :
    ltens (preV a v) = neV v - preV a (ltens v) := by
  induction v using Finsupp.induction_linear with
  | zero => simp
  | add f g hf hg => simp only [map_add, hf, hg]; abel
  | single k r =>
    rw [single_eq_smul_bv]
    simp only [map_smul, ← smul_sub]
    congr 1
    cases k with
    | nil => simp [preK, neV, tensK]
    | cons x k =>
      have h1 : preV a (bv R (x :: k)) = consV (a :: x) (bv R k) := by simp [preK]
      have h2 : neV (bv R (x :: k)) = consV x (bv R k) := by simp [neV]
      have h3 : bv R (x :: k) = consV x (bv R k) := by simp
      rw [h1, h2, h3]
      simp only [ltens, tens_consV, delK, map_add, map_smul, preV_cat_one, preV_consV, map_sub,
        LinearMap.sub_apply, one_single, ← consV_eq_cat, ldim, List.length_cons]
      have h4 : ((x.length + 1 : Nat) : Int) - 1 = ((x.length : Int) - 1) + 1 := by push_cast; ring
      rw [h4, sg_succ]
      simp only [neg_smul]
      abel

theorem lin_aw_consV (t : Nat) (a : α) (v : List α →₀ R) :
    lin (aw (t + 1)) (consV a v) =
      consV [a] (lin (aw t) (consV a v)) + preV a (lin (aw (t + 1)) v) := by
  induction v using Finsupp.induction_linear with
  | zero => simp
  | add f g hf hg => simp only [map_add, hf, hg]; abel
  | single k r => simp [aw_cons, smul_add]

theorem lin_aw_zero (v : List α →₀ R) : lin (aw 0) v = one v := by
  induction v using Finsupp.induction_linear with
  | zero => simp
  | add f g hf hg => simp only [map_add, hf, hg]
  | single k r => simp [aw_zero]

/-- One cut: chain map up to terms with an empty factor. -/
theorem ltens_aw_one (s : List α) (hs : s ≠ []) :
    ltens (aw (R := R) 1 s) =
      lin (aw 1) (delK s) + bv R [[], s] + sg R (ldim s) • bv R [s, []] := by
  induction s with
  | nil => exact absurd rfl hs
  | cons a s ih =>
    rw [aw_cons, map_add, ltens_preV, neV_aw]
    simp only [ltens, tens_consV, aw_zero, delK, map_sub, lin_aw_consV, lin_aw_zero]
    simp only [one_single, map_sub, tens_single, one_smul, tensK, map_zero, smul_zero, add_zero,
      delK, lin_single, ldim, List.length_cons, List.length_nil, LinearMap.sub_apply,
      cat_single_single, cat_nil_right, consV_single, List.cons_append, List.nil_append, mul_one,
      zero_add, Nat.cast_one, sub_self, sg_zero]
    cases s with
    | nil => simp [aw_nil, delK]
    | cons b s =>
      have ih' := ih (by simp)
      simp only [ltens] at ih'
      rw [ih']
      simp only [map_add, map_smul, preV_single, preK, one_smul, ldim, List.length_cons]
      have h4 : ((s.length + 1 + 1 : Nat) : Int) - 1 = (((s.length + 1 : Nat) : Int) - 1) + 1 := by
        push_cast; ring
      rw [h4, sg_succ]
      simp
      abel

/-- Two cuts in a row: coassociativity. -/
theorem atL_aw_zero (s : List α) (a b : Nat) :
    atL (aw b) 0 (aw (R := R) a s) = aw (a + b) s := by
  induction a generalizing s b with
  | zero => simp [aw_zero, atK]
  | succ a iha =>
    -- prepending
    have hpre : ∀ (b : Nat) (x : α) (w : List (List α) →₀ R),
        atL (aw (b + 1)) 0 (preV x w) =
          consV [x] (atL (aw b) 0 (preV x w)) + preV x (atL (aw (b + 1)) 0 w) := by
      intro b x w
      induction w using Finsupp.induction_linear with
      | zero => simp
      | add f g hf hg => simp only [map_add, hf, hg]; abel
      | single k r =>
        cases k with
        | nil => simp [preK, atK]
        | cons y k =>
          have hh : ∀ u v : List (List α) →₀ R, preV x (cat (neV u) v) = cat (preV x u) v := by
            intro u v
            induction u using Finsupp.induction_linear with
            | zero => simp
            | add f g hf hg => simp only [map_add, LinearMap.add_apply, hf, hg]
            | single k r =>
              induction v using Finsupp.induction_linear with
              | zero => simp
              | add f g hf hg => simp only [map_add, hf, hg]
              | single l s => cases k <;> simp [neV, preK]
          simp only [preV_single, preK, map_smul, atL_single, atK, one_smul, aw_cons, map_add,
            LinearMap.add_apply, smul_add]
          rw [← hh, neV_aw]
          simp only [consV_eq_cat, cat_assoc]
    induction s generalizing b with
    | nil => simp [aw_nil, Nat.add_right_comm a 1 b]
    | cons x s ihs =>
      induction b with
      | zero =>
        have : ∀ v : List (List α) →₀ R, atL (aw 0) 0 v = neV v := by
          intro v
          induction v using Finsupp.induction_linear with
          | zero => simp
          | add f g hf hg => simp only [map_add, hf, hg]
          | single k r => cases k <;> simp [atK, aw_zero, neV]
        rw [this, neV_aw]
      | succ b ihb =>
        have hx : ∀ (b : Nat) (v : List (List α) →₀ R), atL (aw (b + 1)) 0 (consV [x] v) =
            consV [x] (atL (aw b) 0 (consV [x] v)) := by
          intro b v
          induction v using Finsupp.induction_linear with
          | zero => simp
          | add f g hf hg => simp only [map_add, hf, hg]
          | single k r =>
            simp only [consV_single, atL_single, atK, aw_cons, aw_nil, map_zero, add_zero, map_smul]
            simp only [consV_eq_cat, cat_assoc]
        rw [show a + 1 + (b + 1) = (a + 1 + b) + 1 by ring, aw_cons, aw_cons, ← ihb]
        conv_rhs => rw [aw_cons]
        rw [map_add, hx, hpre, ihs (b + 1)]
        simp only [map_add]
        rw [show a + 1 + (b + 1) = (a + 1 + b) + 1 by ring]
        abel

theorem atL_aw (s : List α) (a b j : Nat) (hj : j ≤ a) :
    atL (aw b) j (aw (R := R) a s) = aw (a + b) s := by
  induction a generalizing s j with
  | zero =>
    obtain rfl : j = 0 := by omega
    exact atL_aw_zero s 0 b
  | succ a iha =>
    cases j with
    | zero => exact atL_aw_zero s (a + 1) b
    | succ j =>
      have hpre : ∀ (x : α) (w : List (List α) →₀ R),
          atL (aw b) (j + 1) (preV x w) = preV x (atL (aw b) (j + 1) w) := by
        intro x w
        induction w using Finsupp.induction_linear with
        | zero => simp
        | add f g hf hg => simp only [map_add, hf, hg]
        | single k r =>
          cases k with
          | nil => simp [preK, atK]
          | cons y k => simp only [preV_single, preK, map_smul, atL_single, atK, one_smul, preV_consV]
      induction s with
      | nil => simp [aw_nil, Nat.add_right_comm a 1 b]
      | cons x s ihs =>
        rw [show a + 1 + b = (a + b) + 1 by ring, aw_cons, aw_cons, map_add, atL_consV, hpre, ihs,
          iha _ _ (by omega), show a + 1 + b = (a + b) + 1 by ring]

/-! ### degenerate tuples -/

/-- Degenerate or empty tuples. -/
def ldrop [DecidableEq α] (s : List α) : Bool := decide (s = []) || hasRep s

/-- Tensors with a degenerate or empty factor. -/
def lany [DecidableEq α] (k : List (List α)) : Bool := k.any ldrop

variable [DecidableEq α]

theorem pr_lany_consV {x : List α} {v : List (List α) →₀ R} :
    pr lany v = 0 → pr lany (consV x v) = 0 :=
  pr_consV fun k hk => by simp only [lany, List.any_cons, Bool.or_eq_true] at hk ⊢; exact Or.inr hk

theorem hasRep_aw_aux (t : Nat) (s : List α) (h : hasRep s = true) :
    pr (fun k => k.any hasRep) (aw (R := R) t s) = 0 := by
  have hcons : ∀ (x : List α) (v : List (List α) →₀ R), pr (fun k => k.any hasRep) v = 0 →
      pr (fun k => k.any hasRep) (consV x v) = 0 := fun x v =>
    pr_consV fun k hk => by simp only [List.any_cons, Bool.or_eq_true] at hk ⊢; exact Or.inr hk
  have hpre : ∀ (x : α) (v : List (List α) →₀ R), pr (fun k => k.any hasRep) v = 0 →
      pr (fun k => k.any hasRep) (preV x v) = 0 := by
    intro x v hv
    have := pr_lin_pr (drops := fun k : List (List α) => k.any hasRep)
      (drops' := fun k : List (List α) => k.any hasRep) (preV (R := R) x) ?_ v
    · rw [← this, hv]; simp
    · intro k hk
      cases k with
      | nil => simp at hk
      | cons y k =>
        simp only [List.any_cons, Bool.or_eq_true] at hk
        simp only [preV_single, preK, one_smul]
        rw [pr_single, if_pos]
        rw [List.any_cons]
        rcases hk with hk | hk
        · simp [hasRep_cons hk]
        · simp only [List.any_eq_true] at hk; simp [hk]
  induction t generalizing s with
  | zero => simp [aw_zero, h]
  | succ t iht =>
    induction s with
    | nil => simp [hasRep] at h
    | cons a s ihs =>
      rw [aw_cons, map_add, hcons _ _ (iht _ h), zero_add]
      by_cases h2 : hasRep s = true
      · exact hpre _ _ (ihs h2)
      · cases s with
        | nil => simp [hasRep] at h
        | cons b s =>
          simp only [hasRep, Bool.or_eq_true, beq_iff_eq] at h h2
          have hab : a = b := by tauto
          subst hab
          -- every term of the cut has `a :: a` in front
          have : ∀ v : List (List α) →₀ R, pr (fun k => k.any hasRep) (preV a (preV a v)) = 0 := by
            intro v
            induction v using Finsupp.induction_linear with
            | zero => simp
            | add f g hf hg => simp only [map_add, hf, hg, add_zero]
            | single k r => cases k <;> simp [preK, hasRep]
          rw [aw_cons, map_add, map_add, this, add_zero, preV_consV]
          have : ∀ v : List (List α) →₀ R, pr (fun k => k.any hasRep) (consV [a, a] v) = 0 := by
            intro v
            induction v using Finsupp.induction_linear with
            | zero => simp
            | add f g hf hg => simp only [map_add, hf, hg, add_zero]
            | single k r => simp [hasRep]
          exact this _

theorem pr_of_pr_le {K : Type} {p q : K → Bool} (h : ∀ k, p k = true → q k = true) {v w : K →₀ R}
    (hv : pr p v = pr p w) : pr q v = pr q w := by
  have key : ∀ u : K →₀ R, pr q (pr p u) = pr q u := by
    intro u
    have : (pr q).comp (pr p) = (pr q : (K →₀ R) →ₗ[R] _) := by
      apply lin_ext
      intro k
      simp only [LinearMap.comp_apply, pr_single]
      by_cases hk : p k = true
      · simp [hk, h k hk]
      · simp [hk]
    exact LinearMap.congr_fun this u
  rw [← key v, hv, key w]

theorem pr_aw_of_drop (t : Nat) (s : List α) (h : ldrop s = true) :
    pr lany (aw (R := R) t s) = 0 := by
  simp only [ldrop, Bool.or_eq_true, decide_eq_true_eq] at h
  rcases h with rfl | h
  · cases t with
    | zero => simp [aw_zero, lany, ldrop]
    | succ t => simp [aw_nil]
  · have := hasRep_aw_aux (R := R) t s h
    rw [show (0 : List (List α) →₀ R) = pr lany 0 by simp]
    refine pr_of_pr_le (p := fun k => k.any hasRep) ?_ (by simpa using this)
    intro k hk
    simp only [lany, List.any_eq_true] at hk ⊢
    obtain ⟨x, hx, h1⟩ := hk
    exact ⟨x, hx, by simp [ldrop, h1]⟩

theorem sgn_consV_zero (x : List α) (hx : ldim x = 0) (v : List (List α) →₀ R) :
    sgn ldim (consV x v) = consV x (sgn ldim v) := by
  induction v using Finsupp.induction_linear with
  | zero => simp
  | add f g hf hg => simp only [map_add, hf, hg]
  | single k r => simp [totDeg, hx]

theorem sgn_preV (a : α) (v : List (List α) →₀ R) :
    sgn ldim (preV a v) = - preV a (sgn ldim v) := by
  induction v using Finsupp.induction_linear with
  | zero => simp
  | add f g hf hg => simp only [map_add, hf, hg]; abel
  | single k r =>
    cases k with
    | nil => simp [preK]
    | cons x k =>
      have : (((x.length + 1 : Nat) : Int) - 1 + totDeg ldim k) =
          ((x.length : Int) - 1 + totDeg ldim k) + 1 := by push_cast; ring
      simp only [preV_single, preK, map_smul, sgn_single, totDeg, ldim, List.length_cons, this,
        sg_succ, smul_smul, one_mul, mul_neg, neg_smul, smul_neg, mul_one]

theorem sgn_aw (t : Nat) (s : List α) : sgn ldim (aw (R := R) t s) = sg R (ldim s) • aw t s := by
  induction t generalizing s with
  | zero => simp [aw_zero, totDeg]
  | succ t iht =>
    induction s with
    | nil => simp [aw_nil]
    | cons a s ihs =>
      have : ldim (a :: s) = ldim s + 1 := by simp only [ldim, List.length_cons]; push_cast; ring
      rw [aw_cons, map_add, sgn_consV_zero _ (by simp [ldim]), iht, sgn_preV, ihs, this, sg_succ]
      simp

/-- `t` cuts: chain map modulo degenerate tensors. -/
theorem pr_ltens_aw (t : Nat) (s : List α) :
    pr lany (ltens (aw (R := R) t s)) = pr lany (lin (aw t) (delK s)) := by
  have h1 : ∀ s : List α, pr lany (ltens (aw (R := R) 1 s)) = pr lany (lin (aw 1) (delK s)) := by
    intro s
    by_cases hs : s = []
    · subst hs; simp [aw_nil, delK]
    · rw [ltens_aw_one s hs]
      simp [lany, ldrop]
  have hlin : ∀ (t : Nat) (v : List α →₀ R), lin (aw (t + 1)) v = atL (aw 1) 0 (lin (aw t) v) := by
    intro t v
    induction v using Finsupp.induction_linear with
    | zero => simp
    | add f g hf hg => simp only [map_add, hf, hg]
    | single s r => simp [atL_aw_zero]
  have hd := fun k => pr_lin_pr (drops := lany) (drops' := lany) (atL (aw (R := R) (α := α) 1) 0)
    (pr_atL (fun a ha => pr_aw_of_drop 1 a ha) 0) k
  induction t generalizing s with
  | zero => simp [aw_zero, lin_aw_zero, tensK]
  | succ t ih =>
    rw [hlin, ← hd, ← ih, hd, ← atL_aw_zero]
    exact pr_tens_atL h1 (sgn_aw 1) 0 (aw t s)

theorem pr_ltens_atL_aw (t c : Nat) (v : List (List α) →₀ R) :
    pr lany (ltens (atL (aw t) c v)) = pr lany (atL (aw t) c (ltens v)) :=
  pr_tens_atL (pr_ltens_aw t) (sgn_aw t) c v

/-! ### cuts given by positions -/

/-- The pieces of `s` between consecutive positions. -/
def cuts (s : List α) (p : List Nat) : List (List α) :=
  (pairwise p).map fun ij => slice s ij.1 (ij.2 + 1)

theorem cwr_zero {β : Type} (l : List β) : combinationsWithReplacement l 0 = [[]] := rfl

theorem cwr_nil {β : Type} (r : Nat) : combinationsWithReplacement ([] : List β) (r + 1) = [] := rfl

theorem cwr_cons {β : Type} (x : β) (l : List β) (r : Nat) :
    combinationsWithReplacement (x :: l) (r + 1) =
      (combinationsWithReplacement (x :: l) r).map (x :: ·) ++
        combinationsWithReplacement l (r + 1) := rfl

theorem cwr_map {β γ : Type} (f : β → γ) (l : List β) (r : Nat) :
    combinationsWithReplacement (l.map f) r = (combinationsWithReplacement l r).map (List.map f) := by
  induction r generalizing l with
  | zero => simp [cwr_zero]
  | succ r ihr =>
    induction l with
    | nil => simp [cwr_nil]
    | cons x l ihl =>
      rw [List.map_cons, cwr_cons, cwr_cons, ihl, ← List.map_cons, ihr]
      simp [Function.comp_def]

theorem length_of_mem_cwr {β : Type} {l : List β} {r : Nat} {q : List β}
    (h : q ∈ combinationsWithReplacement l r) : q.length = r := by
  induction r generalizing l q with
  | zero => rw [cwr_zero] at h; simp_all
  | succ r ihr =>
    induction l with
    | nil => simp [cwr_nil] at h
    | cons x l ihl =>
      rw [cwr_cons, List.mem_append, List.mem_map] at h
      rcases h with ⟨q', hq, rfl⟩ | h
      · simp [ihr hq]
      · exact ihl h

theorem cuts_cons_cons (s : List α) (i j : Nat) (p : List Nat) :
    cuts s (i :: j :: p) = slice s i (j + 1) :: cuts s (j :: p) := by
  simp [cuts, pairwise]

theorem slice_cons_succ (a : α) (s : List α) (i j : Nat) :
    slice (a :: s) (i + 1) (j + 1) = slice s i j := by
  simp [slice]

theorem cuts_succ (a : α) (s : List α) (p : List Nat) :
    cuts (a :: s) (p.map (· + 1)) = cuts s p := by
  induction p with
  | nil => rfl
  | cons i p ih =>
    cases p with
    | nil => rfl
    | cons j p =>
      rw [List.map_cons, List.map_cons, cuts_cons_cons, cuts_cons_cons, slice_cons_succ, ← ih]
      rfl

/-- At least two factors, the last one empty. -/
def lastE (k : List (List α)) : Bool := decide (2 ≤ k.length) && decide (k.getLast? = some [])

theorem lastE_cons (x : List α) {k : List (List α)} (h : lastE k = true) :
    lastE (x :: k) = true := by
  simp only [lastE, Bool.and_eq_true, decide_eq_true_eq] at h ⊢
  refine ⟨by simp; omega, ?_⟩
  rw [List.getLast?_cons, h.2]; rfl

theorem pr_lastE_consV (x : List α) {v w : List (List α) →₀ R} (h : pr lastE v = pr lastE w) :
    pr lastE (consV x v) = pr lastE (consV x w) := by
  rw [← sub_eq_zero, ← map_sub, ← map_sub] at *
  exact pr_consV (fun k hk => lastE_cons x hk) h

theorem pr_lastE_preV (a : α) {v w : List (List α) →₀ R} (h : pr lastE v = pr lastE w) :
    pr lastE (preV a v) = pr lastE (preV a w) := by
  have key := pr_lin_pr (drops := lastE) (drops' := lastE) (preV (R := R) a) (by
    intro k hk
    cases k with
    | nil => simp [preK]
    | cons x k =>
      simp only [preV_single, preK, one_smul]
      rw [pr_single, if_pos]
      cases k with
      | nil => simp [lastE] at hk
      | cons y k =>
        simp only [lastE, Bool.and_eq_true, decide_eq_true_eq] at hk ⊢
        exact ⟨by simp, by simpa using hk.2⟩)
  rw [← key v, h, key w]

theorem pr_lastE_cuts (t : Nat) (s : List α) (N : Nat) (hN : s.length ≤ N + 1) :
    pr lastE ((combinationsWithReplacement (List.range (N + 1)) t).map
        fun p => bv R (cuts s (0 :: (p ++ [N])))).sum = pr lastE (aw t s) := by
  induction t generalizing s N with
  | zero =>
    have : slice s 0 (N + 1) = s := by simp [slice, List.take_of_length_le hN]
    simp [cwr_zero, aw_zero, cuts, pairwise, this]
  | succ t iht =>
    induction s generalizing N with
    | nil =>
      rw [aw_nil, map_zero, map_list_sum, List.map_map]
      apply List.sum_eq_zero
      intro x hx
      obtain ⟨p, hp, rfl⟩ := List.mem_map.1 hx
      have hl := length_of_mem_cwr hp
      simp only [Function.comp]
      rw [pr_single, if_pos]
      simp only [lastE, Bool.and_eq_true, decide_eq_true_eq]
      constructor
      · simp [cuts, pairwise, hl]
      · have h0 : ∀ x ∈ cuts ([] : List α) (0 :: (p ++ [N])), x = [] := by
          intro x hx
          simp only [cuts, List.mem_map] at hx
          obtain ⟨ij, _, rfl⟩ := hx
          simp [slice]
        have hne : cuts ([] : List α) (0 :: (p ++ [N])) ≠ [] := by
          rw [← List.length_pos_iff]; simp [cuts, pairwise]
        rw [List.getLast?_eq_some_getLast hne]
        rw [h0 _ (List.getLast_mem hne)]
    | cons a s ihs =>
      rw [aw_cons, List.range_succ_eq_map, cwr_cons, List.map_append, List.sum_append, map_add,
        map_add, ← List.range_succ_eq_map, List.map_map]
      congr 1
      · rw [← pr_lastE_consV [a] (iht (a :: s) N hN), map_list_sum (consV [a]), List.map_map]
        congr 3
        funext p
        simp [cuts_cons_cons, slice]
      · cases N with
        | zero =>
          have : s = [] := by
            simpa using hN
          subst this
          simp [cwr_nil, aw_nil]
        | succ M =>
          rw [← pr_lastE_preV a (ihs M (by simpa using hN)), map_list_sum (preV a), cwr_map, List.map_map,
            List.map_map]
          congr 2
          apply List.map_congr_left
          intro q hq
          have hl := length_of_mem_cwr hq
          cases q with
          | nil => simp at hl
          | cons q0 q =>
            simp only [Function.comp, List.map_cons, List.cons_append, cuts_cons_cons, preV_single,
              preK, one_smul]
            have e1 : slice (a :: s) 0 (q0.succ + 1) = a :: slice s 0 (q0 + 1) := by simp [slice]
            have e2 : cuts (a :: s) (q0.succ :: (q.map Nat.succ ++ [M + 1])) =
                cuts s (q0 :: (q ++ [M])) := by
              rw [← cuts_succ a s]; simp
            rw [e1, e2]

theorem pr_lany_cuts (t : Nat) (s : List α) (N : Nat) (hN : s.length ≤ N + 1) :
    pr lany ((combinationsWithReplacement (List.range (N + 1)) t).map
        fun p => bv R (cuts s (0 :: (p ++ [N])))).sum = pr lany (aw t s) := by
  refine pr_of_pr_le (p := lastE) ?_ (pr_lastE_cuts t s N hN)
  intro k hk
  simp only [lastE, Bool.and_eq_true, decide_eq_true_eq] at hk
  simp only [lany, List.any_eq_true]
  exact ⟨[], List.mem_of_getLast? hk.2, by simp [ldrop]⟩

theorem pr_lany_atL_aw (t c : Nat) (v : List (List α) →₀ R) :
    pr lany (atL (aw t) c (pr lany v)) = pr lany (atL (aw t) c v) :=
  pr_lin_pr (drops := lany) (drops' := lany) _ (pr_atL (fun a ha => pr_aw_of_drop t a ha) c) v

end Comch
