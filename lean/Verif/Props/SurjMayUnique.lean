import Verif.Props.SurjMayCoeff
import Verif.Props.CochainsSteenrod

/-! # The coefficients of the structure elements of the surjection operad are 0 and 1: C136 -/

set_option linter.unusedSectionVars false

namespace Comch.RotRead
open Comch Spec Comch.Coch

variable {r : Nat}

/-! ### rotations -/

theorem rotation_nodup (hr : 1 ≤ r) (e : Nat) : (rotation r e).Nodup := by
  unfold rotation
  refine List.nodup_range.map_on fun a ha b hb h => ?_
  rw [List.mem_range] at ha hb
  have h1 : a + e ≡ b + e [MOD r] := Nat.add_right_cancel h
  have h2 := Nat.ModEq.add_right_cancel' e h1
  rwa [Nat.ModEq, Nat.mod_eq_of_lt ha, Nat.mod_eq_of_lt hb] at h2

theorem mem_rotation (hr : 1 ≤ r) (e v : Nat) : v ∈ rotation r e ↔ 1 ≤ v ∧ v ≤ r := by
  unfold rotation
  simp only [List.mem_map, List.mem_range]
  constructor
  · rintro ⟨i, -, rfl⟩
    have := Nat.mod_lt (i + e) (show r > 0 by omega)
    omega
  · rintro ⟨h1, h2⟩
    refine ⟨(v - 1 + (r - e % r)) % r, Nat.mod_lt _ (by omega), ?_⟩
    rw [Nat.mod_add_mod]
    have h3 := Nat.mod_lt e (show r > 0 by omega)
    have h4 : v - 1 + (r - e % r) + e = v - 1 + r * (e / r + 1) := by
      have := Nat.div_add_mod e r
      rw [mul_add, mul_one]
      omega
    rw [h4, Nat.add_mul_mod_self_left, Nat.mod_eq_of_lt (by omega)]
    omega

/-- One step of rotation moves the first letter to the end. -/
theorem rotation_step (hr : 1 ≤ r) (e : Nat) : ∃ t, rotation r e = (e % r + 1) :: t ∧ rotation r (e + 1) = t ++ [e % r + 1] := by
  obtain ⟨m, rfl⟩ : ∃ m, r = m + 1 := ⟨r - 1, by omega⟩
  refine ⟨(List.range m).map fun i => (i + (e + 1)) % (m + 1) + 1, ?_, ?_⟩
  · unfold rotation
    rw [List.range_succ_eq_map, List.map_cons, List.map_map, Nat.zero_add]
    congr 1
    refine List.map_congr_left fun i _ => ?_
    simp only [Function.comp]
    rw [show i.succ + e = i + (e + 1) by omega]
  · unfold rotation
    rw [List.range_succ, List.map_append, List.map_singleton, show m + (e + 1) = e + (m + 1) by omega, Nat.add_mod_right]

/-! ### readings -/

/-- Readings of a table, with the letters in `C` crossed out, row by row. -/
def Rec : List Nat → List (List Nat) → List Nat → Prop
  | _, [], _ => False
  | C, [row], m => m = row.filter (fun v => decide (v ∉ C)) ∧ m ≠ []
  | C, row :: row' :: k, m => ∃ S m', S ≠ [] ∧ S <+: row.filter (fun v => decide (v ∉ C)) ∧ m = S ++ m' ∧
      Rec (C ++ S.dropLast) (row' :: k) m'

theorem rec_of (k : List (List Nat)) : ∀ (C : List Nat) (S : List (List Nat)), k ≠ [] → S.length = k.length →
    (∀ i < k.length, S.getD i [] ≠ [] ∧
      S.getD i [] <+: (k.getD i []).filter (fun v => decide (v ∉ C ++ ((S.take i).map List.dropLast).flatten)) ∧
      (i + 1 = k.length → S.getD i [] =
        (k.getD i []).filter (fun v => decide (v ∉ C ++ ((S.take i).map List.dropLast).flatten)))) → Rec C k S.flatten := by
  induction k with
  | nil => intro C S h; exact absurd rfl h
  | cons row k ih =>
    intro C S _ hl h
    cases S with
    | nil => simp at hl
    | cons s S =>
      obtain ⟨h1, h2, h3⟩ := h 0 (by simp)
      simp only [List.getD_cons_zero, List.take_zero, List.map_nil, List.flatten_nil, List.append_nil] at h1 h2 h3
      cases k with
      | nil =>
        obtain rfl : S = [] := by simpa using hl
        rw [Rec, List.flatten_cons, List.flatten_nil, List.append_nil]
        exact ⟨h3 (by simp), h1⟩
      | cons row' k =>
        rw [Rec, List.flatten_cons]
        refine ⟨s, S.flatten, h1, h2, rfl, ih _ S (by simp) (by simpa using hl) fun i hi => ?_⟩
        have := h (i + 1) (by simpa using hi)
        simp only [List.getD_cons_succ, List.take_succ_cons, List.map_cons, List.flatten_cons] at this
        rw [List.append_assoc]
        exact ⟨this.1, this.2.1, fun h => this.2.2 (by simpa using h)⟩

theorem rec_of_reading {k : List (List Nat)} {m : List Nat} (hk : k ≠ []) (h : IsTableReading k m) : Rec [] k m := by
  obtain ⟨S, rfl, hl, h⟩ := h
  refine rec_of k [] S hk hl fun i hi => ?_
  obtain ⟨h1, h2, h3⟩ := h i hi
  simp only [List.nil_append]
  exact ⟨h1, h2, h3⟩

/-- Letters which are not crossed out are read. -/
theorem rec_mem {x : Nat} (k : List (List Nat)) : ∀ (C m : List Nat), Rec C k m → (∀ row ∈ k, x ∈ row) → x ∉ C → x ∈ m := by
  induction k with
  | nil => intro C m h; exact h.elim
  | cons row k ih =>
    intro C m h hx hC
    cases k with
    | nil =>
      rw [h.1, List.mem_filter]
      exact ⟨hx row (by simp), by simpa using hC⟩
    | cons row' k =>
      obtain ⟨S, m', -, -, rfl, h'⟩ := h
      by_cases hS : x ∈ S
      · simp [hS]
      · have := ih _ _ h' (fun w hw => hx w (List.mem_cons_of_mem _ hw)) (by
          rw [List.mem_append, not_or]
          exact ⟨hC, fun h => hS (List.dropLast_subset _ h)⟩)
        simp [this]

/-- Letters which are crossed out are not read. -/
theorem rec_not_mem {x : Nat} (k : List (List Nat)) : ∀ (C m : List Nat), Rec C k m → x ∈ C → x ∉ m := by
  induction k with
  | nil => intro C m h; exact h.elim
  | cons row k ih =>
    intro C m h hC hm
    cases k with
    | nil =>
      rw [h.1, List.mem_filter] at hm
      simp [hC] at hm
    | cons row' k =>
      obtain ⟨S, m', -, hS, rfl, h'⟩ := h
      rcases List.mem_append.1 hm with h | h
      · have := hS.subset h
        rw [List.mem_filter] at this
        simp [hC] at this
      · exact ih _ _ h' (by simp [hC]) h

theorem rec_ne {C : List Nat} {k : List (List Nat)} {m : List Nat} (h : Rec C k m) : m ≠ [] := by
  match k, h with
  | [_], h => exact h.2
  | _ :: _ :: _, ⟨S, m', hS, _, e, _⟩ => rw [e]; simp [hS]

/-- The first segment is determined: it cannot be shorter in another reading. -/
theorem first_le {C row S S' m' m'' : List Nat} {k k' : List (List Nat)} (hS : S ≠ [])
    (p' : S' <+: row.filter (fun v => decide (v ∉ C))) (hn : row.Nodup)
    (hk : ∀ w ∈ k, ∀ x ∈ row, x ∈ w) (e : S ++ m' = S' ++ m'') (h : Rec (C ++ S.dropLast) k m') (h' : Rec (C ++ S'.dropLast) k' m'') :
    S'.length ≤ S.length := by
  by_contra hlt
  obtain ⟨T, hT⟩ : S <+: S' := List.prefix_of_prefix_length_le (List.prefix_append S m') (e ▸ List.prefix_append S' m'') (by omega)
  subst hT
  have hm : m' = T ++ m'' := by rw [List.append_assoc] at e; exact List.append_cancel_left e
  have hT : T ≠ [] := fun h => hlt (by rw [h]; simp)
  obtain ⟨P, x, rfl⟩ : ∃ P x, S = P ++ [x] := ⟨S.dropLast, S.getLast hS, (List.dropLast_append_getLast hS).symm⟩
  have nd : (P ++ [x] ++ T).Nodup := (hn.filter _).sublist p'.sublist
  have hx : x ∈ row.filter (fun v => decide (v ∉ C)) := p'.subset (by simp)
  rw [List.mem_filter, decide_eq_true_eq] at hx
  have hxP : x ∉ P := fun h => by
    have := List.nodup_append.1 (List.nodup_append.1 nd).1
    exact this.2.2 x h x (by simp) rfl
  have hxT : x ∉ T := fun h => (List.nodup_append.1 nd).2.2 x (by simp) x h rfl
  have h1 : x ∈ m' := rec_mem k _ _ h (fun w hw => hk w hw x hx.1) (by
    rw [List.dropLast_concat, List.mem_append, not_or]
    exact ⟨hx.2, hxP⟩)
  have h2 : x ∉ m'' := rec_not_mem k' _ _ h' (by
    rw [List.dropLast_append_of_ne_nil hT]
    simp)
  rw [hm, List.mem_append] at h1
  exact h1.elim hxT h2

theorem mem_rows (hr : 1 ≤ r) (e : Nat) (l : List Nat) : ∀ w ∈ rotations r e l, ∀ x, x ∈ w ↔ 1 ≤ x ∧ x ≤ r := by
  induction l generalizing e with
  | nil => intro w hw x; simp only [rotations, List.mem_singleton] at hw; subst hw; exact mem_rotation hr e x
  | cons k l ih =>
    intro w hw x
    simp only [rotations, List.mem_cons] at hw
    rcases hw with rfl | hw
    · exact mem_rotation hr e x
    · exact ih _ w hw x

theorem rotations_eq (r e : Nat) (l : List Nat) : ∃ t, rotations r e l = rotation r e :: t := by
  cases l with
  | nil => exact ⟨[], rfl⟩
  | cons k l => exact ⟨_, rfl⟩

theorem rec_rotations {C m : List Nat} {e k : Nat} {l : List Nat} : Rec C (rotations r e (k :: l)) m ↔
    ∃ S m', S ≠ [] ∧ S <+: (rotation r e).filter (fun v => decide (v ∉ C)) ∧ m = S ++ m' ∧
      Rec (C ++ S.dropLast) (rotations r (e + k) l) m' := by
  rw [rotations]
  obtain ⟨t, ht⟩ := rotations_eq r (e + k) l
  rw [ht, Rec]

/-- A row that is followed by its rotation by one step must begin with a letter that is not crossed out. -/
theorem head_eq (hr : 1 ≤ r) {C m : List Nat} {f : Nat} {l : List Nat} (hm : hasRep m = false)
    (h : Rec C (rotations r f (1 :: l)) m) : ∃ u, m = (f % r + 1) :: u := by
  rw [rec_rotations] at h
  obtain ⟨S, m', hS, hp, rfl, h'⟩ := h
  obtain ⟨t, h1, h2⟩ := rotation_step hr f
  by_cases hv : f % r + 1 ∈ C
  · exfalso
    rw [h1, List.filter_cons_of_neg (by simpa using hv)] at hp
    obtain ⟨P, x, rfl⟩ : ∃ P x, S = P ++ [x] := ⟨S.dropLast, S.getLast hS, (List.dropLast_append_getLast hS).symm⟩
    obtain ⟨Q, hQ⟩ := hp
    have nd : (P ++ [x] ++ Q).Nodup := by
      rw [hQ]
      have := rotation_nodup hr f
      rw [h1] at this
      exact (List.nodup_cons.1 this).2.filter _
    have hF : (rotation r (f + 1)).filter (fun v => decide (v ∉ C ++ P)) = x :: Q := by
      have e1 : (rotation r (f + 1)).filter (fun v => decide (v ∉ C ++ P)) =
          ((rotation r (f + 1)).filter (fun v => decide (v ∉ C))).filter (fun v => decide (v ∉ P)) := by
        rw [List.filter_filter]
        refine List.filter_congr fun v _ => ?_
        simp [List.mem_append, not_or, Bool.and_comm]
      have e2 : (rotation r (f + 1)).filter (fun v => decide (v ∉ C)) = P ++ [x] ++ Q := by
        rw [hQ, h2, List.filter_append, List.filter_singleton]
        simp [hv]
      rw [e1, e2, List.append_assoc, List.filter_append, List.filter_eq_nil_iff.2 (by simp), List.nil_append, List.singleton_append]
      refine List.filter_eq_self.2 fun v hv => ?_
      rw [decide_eq_true_eq]
      intro hvP
      rw [List.append_assoc] at nd
      exact (List.nodup_append.1 nd).2.2 v hvP v (by simpa using hv) rfl
    have hx : ∃ u, m' = x :: u := by
      rw [List.dropLast_concat] at h'
      cases l with
      | nil =>
        rw [rotations, Rec, hF] at h'
        exact ⟨_, h'.1⟩
      | cons k l =>
        rw [rec_rotations, hF] at h'
        obtain ⟨S', m'', hS', ⟨Q', hQ'⟩, rfl, -⟩ := h'
        obtain ⟨y, u, rfl⟩ := List.exists_cons_of_ne_nil hS'
        rw [List.cons_append, List.cons.injEq] at hQ'
        obtain ⟨rfl, -⟩ := hQ'
        exact ⟨_, rfl⟩
    obtain ⟨u, rfl⟩ := hx
    rw [hasRep_overlap] at hm
    cases hm
  · rw [h1, List.filter_cons_of_pos (by simpa using hv)] at hp
    obtain ⟨y, u, rfl⟩ := List.exists_cons_of_ne_nil hS
    obtain ⟨Q, hQ⟩ := hp
    rw [List.cons_append, List.cons.injEq] at hQ
    obtain ⟨rfl, -⟩ := hQ
    exact ⟨_, rfl⟩

theorem hasRep_tail {p k : List Nat} (h : hasRep (p ++ k) = false) : hasRep k = false := by
  cases hk : hasRep k with
  | false => rfl
  | true => rw [hasRep_append_right p hk] at h; cases h

theorem same_first (hr : 1 ≤ r) {C m : List Nat} {e k k' : Nat} {l l' : List Nat} (h : Rec C (rotations r e (k :: l)) m)
    (h' : Rec C (rotations r e (k' :: l')) m) : ∃ D p m', m = p ++ m' ∧ Rec D (rotations r (e + k) l) m' ∧
      Rec D (rotations r (e + k') l') m' := by
  rw [rec_rotations] at h h'
  obtain ⟨S, m1, hS, hp, e1, h1⟩ := h
  obtain ⟨S', m2, hS', hp', e2, h2⟩ := h'
  have hrow : ∀ (f : Nat) (l : List Nat), ∀ w ∈ rotations r f l, ∀ x ∈ rotation r e, x ∈ w := fun f l w hw x hx =>
    (mem_rows hr f l w hw x).2 ((mem_rotation hr e x).1 hx)
  have a := first_le hS hp' (rotation_nodup hr e) (hrow _ _) (e1.symm.trans e2) h1 h2
  have b := first_le hS' hp (rotation_nodup hr e) (hrow _ _) (e2.symm.trans e1) h2 h1
  obtain ⟨rfl, rfl⟩ := List.append_inj (e1.symm.trans e2) (by omega)
  exact ⟨_, S, m1, e1, h1, h2⟩

theorem unique (hr : 2 ≤ r) (d : Nat) : ∀ l ∈ increments r d, ∀ l' ∈ increments r d, ∀ (e : Nat) (C m : List Nat),
    hasRep m = false → Rec C (rotations r e l) m → Rec C (rotations r e l') m → l = l' := by
  induction d with
  | zero =>
    intro l hl l' hl'
    simp only [increments, List.mem_singleton] at hl hl'
    intros
    rw [hl, hl']
  | succ d ih =>
    intro l hl l' hl' e C m hm h h'
    rw [increments] at hl hl'
    by_cases hd : d % 2 = 0
    · rw [if_pos hd] at hl hl'
      obtain ⟨l1, m1, rfl⟩ := List.mem_map.1 hl
      obtain ⟨l2, m2, rfl⟩ := List.mem_map.1 hl'
      obtain ⟨D, p, m', rfl, a, b⟩ := same_first (by omega) h h'
      rw [ih l1 m1 l2 m2 _ D m' (hasRep_tail hm) a b]
    · rw [if_neg hd] at hl hl'
      simp only [List.mem_flatMap, List.mem_range'_1, List.mem_map] at hl hl'
      obtain ⟨k1, hk1, l1, m1, rfl⟩ := hl
      obtain ⟨k2, hk2, l2, m2, rfl⟩ := hl'
      obtain ⟨D, p, m', rfl, a, b⟩ := same_first (by omega) h h'
      have hm' := hasRep_tail hm
      obtain ⟨c, rfl⟩ : ∃ c, d = c + 1 := ⟨d - 1, by omega⟩
      have hc : ∀ l ∈ increments r (c + 1), ∃ t, l = 1 :: t := fun l hl => by
        rw [increments, if_pos (by omega)] at hl
        obtain ⟨t, -, rfl⟩ := List.mem_map.1 hl
        exact ⟨t, rfl⟩
      obtain ⟨t1, rfl⟩ := hc l1 m1
      obtain ⟨t2, rfl⟩ := hc l2 m2
      obtain ⟨u1, e1⟩ := head_eq (by omega) hm' a
      obtain ⟨u2, e2⟩ := head_eq (by omega) hm' b
      rw [e1, List.cons.injEq] at e2
      have hk : k1 = k2 := by
        have h1 : e + k1 ≡ e + k2 [MOD r] := Nat.add_right_cancel e2.1
        have h2 := Nat.ModEq.add_left_cancel' e h1
        rwa [Nat.ModEq, Nat.mod_eq_of_lt (by omega), Nat.mod_eq_of_lt (by omega)] at h2
      subst hk
      rw [ih _ m1 _ m2 _ D m' hm' a b]

end Comch.RotRead

namespace Comch.Props
open Comch Elem Spec IsPerm BElem

/-- A non-degenerate surjection can be read off at most one of the sequences of rotations of C132. -/
theorem C136_unique {r : Nat} (hr : 2 ≤ r) (d : Nat) {m : Surj} (hm : NonDegenerate r m) {l l' : List Nat}
    (hl : l ∈ increments r d) (hl' : l' ∈ increments r d) (h : IsTableReading (rotations r 0 l) m)
    (h' : IsTableReading (rotations r 0 l') m) : l = l' := by
  have hne : ∀ l, rotations r 0 l ≠ [] := fun l => by
    obtain ⟨t, ht⟩ := rotations_cons r 0 l
    rw [ht]; simp
  exact RotRead.unique hr d l hl l' hl' 0 [] m (Comch.surj_kept_iff.1 (surj_kept (by omega) hm)).2.2
    (RotRead.rec_of_reading (hne l) h) (RotRead.rec_of_reading (hne l') h')

open Classical in
/-- All coefficients of the structure elements are 0 or 1 in the Berger-Fresse convention: 1 for the surjections that
can be read off one of the sequences of rotations, 0 for the others. -/
theorem C136_zero_or_one {r : Nat} (hr : 2 ≤ r) (d n : Nat) :
    ∃ w, Surjection.maySteenrodStructure r d (some n) .bergerFresse = .ok w ∧ w.torsion = n ∧
      ∀ m : Surj, NonDegenerate r m →
        w.coeff m ≡ (if ∃ l ∈ increments r d, IsTableReading (rotations r 0 l) m then 1 else 0) [ZMOD n] := by
  obtain ⟨w, ew, tw, h⟩ := C135_coefficient hr d n
  refine ⟨w, ew, tw, fun m hm => ?_⟩
  have key : (increments r d).countP (fun l => decide (IsTableReading (rotations r 0 l) m)) =
      if ∃ l ∈ increments r d, IsTableReading (rotations r 0 l) m then 1 else 0 := by
    split
    · rename_i hex
      obtain ⟨l, hl, hr1⟩ := hex
      have : (increments r d).countP (fun l => decide (IsTableReading (rotations r 0 l) m)) = (increments r d).count l := by
        rw [List.count]
        refine List.countP_congr fun l' hl' => ?_
        rw [decide_eq_true_eq, beq_iff_eq]
        exact ⟨fun h' => C136_unique hr d hm hl' hl h' hr1, fun e => e ▸ hr1⟩
      rw [this, List.count_eq_one_of_mem (nodup_increments r d) hl]
    · rename_i hex
      rw [List.countP_eq_zero]
      intro l hl h'
      exact hex ⟨l, hl, by simpa using h'⟩
  have := h m hm
  rw [key] at this
  push_cast at this
  exact this

open Classical in
/-- In the McClure-Smith convention: 1 or -1 for the same surjections, 0 for the others. -/
theorem C136_mcclure_smith {r : Nat} (hr : 2 ≤ r) (d n : Nat) :
    ∃ w, Surjection.maySteenrodStructure r d (some n) .mcClureSmith = .ok w ∧ w.torsion = n ∧
      ∀ m : Surj, NonDegenerate r m →
        ((∃ l ∈ increments r d, IsTableReading (rotations r 0 l) m) → w.coeff m ≡ 1 [ZMOD n] ∨ w.coeff m ≡ -1 [ZMOD n]) ∧
        ((¬ ∃ l ∈ increments r d, IsTableReading (rotations r 0 l) m) → w.coeff m ≡ 0 [ZMOD n]) := by
  obtain ⟨v, w, ev, ew, tw, h⟩ := C135_mcclure_smith hr d n
  obtain ⟨v', ev', -, h'⟩ := C136_zero_or_one hr d n
  obtain rfl : v = v' := by rw [ev] at ev'; exact Except.ok.inj ev'
  refine ⟨w, ew, tw, fun m hm => ⟨fun he => ?_, fun he => ?_⟩⟩
  · have h1 := h' m hm
    rw [if_pos he] at h1
    rcases h m with h2 | h2
    · exact Or.inl (h2.trans h1)
    · exact Or.inr (h2.trans h1.neg)
  · have h1 := h' m hm
    rw [if_neg he] at h1
    rcases h m with h2 | h2
    · exact h2.trans h1
    · simpa using h2.trans h1.neg

/-- The hypotheses are met: a non-degenerate surjection read off the second sequence of arity 3 and degree 2, whose
coefficient is 1, and one which cannot be read off and has the coefficient 0. -/
example : NonDegenerate 3 [1, 3, 1, 2, 3] ∧ [2, 1] ∈ increments 3 2 ∧ IsTableReading (rotations 3 0 [2, 1]) [1, 3, 1, 2, 3] ∧
    (Surjection.maySteenrodStructure 3 2 (some 0) .bergerFresse).toOption.map
      (fun w => (w.coeff [1, 3, 1, 2, 3], w.coeff [1, 2, 1, 3, 1])) = some (1, 0) := by
  refine ⟨⟨fun v => ?_, ?_⟩, by decide, ⟨[[1], [3], [1, 2, 3]], by decide, by decide, by decide⟩, by decide +kernel⟩
  · simp only [List.mem_cons, List.not_mem_nil, or_false]; omega
  · intro i hi
    simp only [List.length_cons, List.length_nil] at hi
    have : i = 0 ∨ i = 1 ∨ i = 2 ∨ i = 3 := by omega
    rcases this with rfl | rfl | rfl | rfl <;> decide

end Comch.Props
