import Verif.Lib.SurjCompose
import Verif.Lib.SurjComplexity

/-! # Numbers of changes in composites of surjections -/

namespace Comch.SurjComp
open Spec Elem

variable {R : Type} [CommRing R]

/-- The terms of a composite: read the outer surjection; at an occurrence of `i` copy a letter of the
inner one and either stay at this occurrence or move on, repeating the letter. -/
inductive Spl (i s : Nat) : List Nat → List Nat → List Nat → Prop
  | nil (k2) : Spl i s [] k2 []
  | ne (j t k2 m) : j ≠ i → Spl i s t k2 m → Spl i s (j :: t) k2 (sh i s j :: m)
  | stay (t a w m) : Spl i s (i :: t) w m → Spl i s (i :: t) (a :: w) (up i a :: m)
  | move (t a w m) : Spl i s t (a :: w) m → Spl i s (i :: t) (a :: w) (up i a :: m)

theorem cmp_spl (i s : Nat) (k1 k2 : List Nat) :
    cmp (R := R) i s k1 k2 ∈ Finsupp.supported R R {m | Spl i s k1 k2 m} := by
  induction k1, k2 using cmp_induction i with
  | hnil k2 => rw [cmp_nil]; exact Finsupp.single_mem_supported _ _ (Spl.nil _)
  | hne j t k2 h ih =>
    rw [cmp_ne h]
    exact mapK_supported _ (T := {m | Spl i s (j :: t) k2 m}) (fun m hm => Spl.ne _ _ _ _ h hm) ih
  | hin t => rw [cmp_i_nil]; exact Submodule.zero_mem _
  | hic t a w ih1 ih2 =>
    rw [cmp_i_cons]
    refine Submodule.add_mem _ (Submodule.smul_mem _ _ ?_) ?_
    · exact mapK_supported _ (T := {m | Spl i s (i :: t) (a :: w) m}) (fun m hm => Spl.stay _ _ _ _ hm) ih1
    · split
      · exact mapK_supported _ (T := {m | Spl i s (i :: t) (a :: w) m}) (fun m hm => Spl.move _ _ _ _ hm) ih2
      · exact Submodule.zero_mem _

/-- `l` has at most as many changes as `m`, also after a letter is put in front of both. -/
def LeC (l m : List Nat) : Prop := chg l ≤ chg m ∧ ∀ c, chg (c :: l) ≤ chg (c :: m)

theorem LeC.of_sublist {l m : List Nat} (h : l.Sublist m) : LeC l m := chg_sublist h

theorem LeC.trans {l m n : List Nat} (h : LeC l m) (h' : LeC m n) : LeC l n :=
  ⟨h.1.trans h'.1, fun c => (h.2 c).trans (h'.2 c)⟩

theorem LeC.cons {l m : List Nat} (h : LeC l m) (a : Nat) : LeC (a :: l) (a :: m) :=
  ⟨h.2 a, fun c => by simp only [chg]; exact Nat.add_le_add_left (h.2 a) _⟩

theorem LeC.dup {l m : List Nat} {a : Nat} (h : LeC l (a :: m)) : LeC (a :: l) (a :: m) := by
  have e : chg (a :: l) ≤ chg (a :: m) := by
    have := h.2 a
    simpa [chg] using this
  exact ⟨e, fun c => by simp only [chg]; exact Nat.add_le_add_left e _⟩

theorem LeC.drop {l m : List Nat} (h : LeC l m) (a : Nat) : LeC l (a :: m) :=
  h.trans (.of_sublist (List.sublist_cons_self _ _))

variable {i s : Nat} {k1 k2 m : List Nat}

theorem sh_eq_iff {j l : Nat} (hj : j ≠ i) (hl : l ≠ i) (hs : 1 ≤ s) : sh i s j = sh i s l ↔ j = l := by
  unfold sh; split <;> split <;> omega

theorem up_eq_iff {a b : Nat} (ha : 1 ≤ a) (hb : 1 ≤ b) : up i a = up i b ↔ a = b := by
  unfold up; omega

theorem up_ne_sh {a l : Nat} (hi : 1 ≤ i) (ha : 1 ≤ a ∧ a ≤ s) (hl : l ≠ i) : up i a ≠ sh i s l := by
  unfold up sh; split <;> omega

theorem Spl.outer (h : Spl i s k1 k2 m) (hi : 1 ≤ i) (hs : 1 ≤ s) (hk : Rng s k2) {j l : Nat} (hj : j ≠ i)
    (hl : l ≠ i) : (m.filter fun x => x = sh i s j ∨ x = sh i s l) =
      (k1.filter fun x => x = j ∨ x = l).map (sh i s) := by
  induction h with
  | nil => rfl
  | ne c t k2 m hc h ih =>
    have e : (sh i s c = sh i s j ∨ sh i s c = sh i s l) ↔ (c = j ∨ c = l) := by
      rw [sh_eq_iff hc hj hs, sh_eq_iff hc hl hs]
    simp only [List.filter_cons, e, ih hk]
    split <;> rfl
  | stay t a w m h ih =>
    have n1 := up_ne_sh hi hk.head hj
    have n2 := up_ne_sh hi hk.head hl
    simp only [List.filter_cons, n1, n2, or_self, decide_false, Bool.false_eq_true, if_false]
    rw [ih hk.tail]
    simp [Ne.symm hj, Ne.symm hl]
  | move t a w m h ih =>
    have n1 := up_ne_sh hi hk.head hj
    have n2 := up_ne_sh hi hk.head hl
    simp only [List.filter_cons, n1, n2, or_self, decide_false, Bool.false_eq_true, if_false]
    rw [ih hk]
    simp [Ne.symm hj, Ne.symm hl]

theorem Spl.inner (h : Spl i s k1 k2 m) (hi : 1 ≤ i) (hk : Rng s k2) {a b : Nat}
    (ha : 1 ≤ a ∧ a ≤ s) (hb : 1 ≤ b ∧ b ≤ s) : LeC (m.filter fun x => x = up i a ∨ x = up i b)
      ((k2.filter fun x => x = a ∨ x = b).map (up i)) := by
  induction h with
  | nil => exact .of_sublist (List.nil_sublist _)
  | ne c t k2 m hc h ih =>
    have n1 := (up_ne_sh hi ha hc).symm
    have n2 := (up_ne_sh hi hb hc).symm
    simp only [List.filter_cons, n1, n2, or_self, decide_false, Bool.false_eq_true, if_false]
    exact ih hk
  | stay t c w m h ih =>
    have := ih hk.tail
    have e : (up i c = up i a ∨ up i c = up i b) ↔ (c = a ∨ c = b) := by
      rw [up_eq_iff hk.head.1 ha.1, up_eq_iff hk.head.1 hb.1]
    simp only [List.filter_cons, e]
    split
    · exact this.cons _
    · exact this
  | move t c w m h ih =>
    have := ih hk
    have e : (up i c = up i a ∨ up i c = up i b) ↔ (c = a ∨ c = b) := by
      rw [up_eq_iff hk.head.1 ha.1, up_eq_iff hk.head.1 hb.1]
    simp only [List.filter_cons, e] at this ⊢
    split
    · rename_i hc
      rw [if_pos hc] at this
      exact LeC.dup this
    · rename_i hc
      rwa [if_neg hc] at this

theorem Spl.mixed (h : Spl i s k1 k2 m) (hi : 1 ≤ i) (hs : 1 ≤ s) (hk : Rng s k2) {a l : Nat}
    (ha : 1 ≤ a ∧ a ≤ s) (hl : l ≠ i) : LeC (m.filter fun x => x = up i a ∨ x = sh i s l)
      ((k1.filter fun x => x = i ∨ x = l).map fun x => if x = i then up i a else sh i s x) := by
  induction h with
  | nil => exact .of_sublist (List.nil_sublist _)
  | ne c t k2 m hc h ih =>
    have n1 := (up_ne_sh hi ha hc).symm
    simp only [List.filter_cons, n1, hc, false_or, sh_eq_iff hc hl hs]
    split
    · simpa [hc] using (ih hk).cons (sh i s c)
    · exact ih hk
  | stay t c w m h ih =>
    have := ih hk.tail
    have n := up_ne_sh hi hk.head hl
    simp only [List.filter_cons, true_or, decide_true, if_true, n, or_false, up_eq_iff hk.head.1 ha.1,
      List.map_cons] at this ⊢
    split
    · rename_i hc
      rw [decide_eq_true_iff] at hc
      subst hc
      exact this.dup
    · exact this
  | move t c w m h ih =>
    have := ih hk
    have n := up_ne_sh hi hk.head hl
    simp only [List.filter_cons, true_or, decide_true, if_true, n, or_false, up_eq_iff hk.head.1 ha.1,
      List.map_cons]
    split
    · rename_i hc
      rw [decide_eq_true_iff] at hc
      subst hc
      exact this.cons _
    · exact this.drop _

variable {r : Nat}

/-- Every number of changes in a term of a composite is bounded by one in a factor. -/
theorem Spl.alternations_le (h : Spl i s k1 k2 m) (hi : 1 ≤ i ∧ i ≤ r) (hs : 1 ≤ s) (h2 : Rng s k2)
    {c : Nat} (b1 : ∀ j l, 1 ≤ j → j ≤ r → 1 ≤ l → l ≤ r → j ≠ l → alternations k1 j l ≤ c)
    (b2 : ∀ a b, 1 ≤ a → a ≤ s → 1 ≤ b → b ≤ s → a ≠ b → alternations k2 a b ≤ c)
    {u v : Nat} (hu : 1 ≤ u ∧ u ≤ r + s - 1) (hv : 1 ≤ v ∧ v ≤ r + s - 1) (huv : u ≠ v) :
    alternations m u v ≤ c := by
  have cases : ∀ u, 1 ≤ u ∧ u ≤ r + s - 1 → (∃ j, 1 ≤ j ∧ j ≤ r ∧ j ≠ i ∧ u = sh i s j) ∨
      (∃ a, 1 ≤ a ∧ a ≤ s ∧ u = up i a) := by
    intro u hu
    by_cases h1 : u < i
    · exact .inl ⟨u, by omega, by omega, by omega, by simp [sh, h1]⟩
    · by_cases h2 : u < i + s
      · exact .inr ⟨u + 1 - i, by omega, by omega, by unfold up; omega⟩
      · exact .inl ⟨u + 1 - s, by omega, by omega, by omega, by
          unfold sh; rw [if_neg (by omega)]; omega⟩
  have mixed : ∀ a l, 1 ≤ a → a ≤ s → 1 ≤ l → l ≤ r → l ≠ i → alternations m (up i a) (sh i s l) ≤ c := by
    intro a l ha ha' hl1 hl2 hl
    refine le_trans ?_ (b1 i l hi.1 hi.2 hl1 hl2 (Ne.symm hl))
    rw [alternations_eq, alternations_eq]
    refine (h.mixed hi.1 hs h2 ⟨ha, ha'⟩ hl).1.trans (le_of_eq (chg_map ?_))
    intro x hx y hy
    simp only [List.mem_filter, decide_eq_true_eq] at hx hy
    have n := up_ne_sh (s := s) hi.1 ⟨ha, ha'⟩ hl
    rcases hx.2 with rfl | rfl <;> rcases hy.2 with rfl | rfl <;> simp_all [Ne.symm]
  rcases cases u hu with ⟨j, hj1, hj2, hj, rfl⟩ | ⟨a, ha, ha', rfl⟩ <;>
    rcases cases v hv with ⟨l, hl1, hl2, hl, rfl⟩ | ⟨b, hb, hb', rfl⟩
  · refine le_trans ?_ (b1 j l hj1 hj2 hl1 hl2 (fun e => huv (by rw [e])))
    rw [alternations_eq, alternations_eq, h.outer hi.1 hs h2 hj hl]
    refine le_of_eq (chg_map ?_)
    intro x hx y hy
    simp only [List.mem_filter, decide_eq_true_eq] at hx hy
    have hx' : x ≠ i := by rcases hx.2 with rfl | rfl <;> assumption
    have hy' : y ≠ i := by rcases hy.2 with rfl | rfl <;> assumption
    exact (sh_eq_iff hx' hy' hs).1
  · rw [alternations_comm]
    exact mixed b j hb hb' hj1 hj2 hj
  · exact mixed a l ha ha' hl1 hl2 hl
  · refine le_trans ?_ (b2 a b ha ha' hb hb' (fun e => huv (by rw [e])))
    rw [alternations_eq, alternations_eq]
    refine (h.inner hi.1 h2 ⟨ha, ha'⟩ ⟨hb, hb'⟩).1.trans (le_of_eq (chg_map ?_))
    intro x hx y hy
    simp only [List.mem_filter, decide_eq_true_eq] at hx hy
    exact (up_eq_iff (by rcases hx.2 with rfl | rfl <;> assumption)
      (by rcases hy.2 with rfl | rfl <;> assumption)).1

end Comch.SurjComp
