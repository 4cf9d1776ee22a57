import Verif.Lib.Latex

/-! # The chain of replacements of `CubicalElement._latex_` -/

namespace Comch.Latex

open Spec.Printing Printing

variable {old new : PyStr}

theorem go_single (a : Char) (s : PyStr) :
    replaceGo [a] new 0 s = s.flatMap fun c => if c = a then new else [c] := by
  induction s with
  | nil => rfl
  | cons c s ih =>
    rw [replaceGo, List.flatMap_cons, ← ih]
    by_cases h : c = a
    · subst h; simp [List.isPrefixOf]
    · simp [List.isPrefixOf, h, Ne.symm h]

/-- Bodies with separators. -/
def midB (bod sep : List Nat → PyStr) : List Nat → List (List Nat) → PyStr
  | σ, [] => bod σ
  | σ, τ :: l => bod σ ++ (sep σ ++ midB bod sep τ l)

theorem go_midB {bod bod' sep sep' : List Nat → PyStr} (P : List Nat → Prop) {s : PyStr}
    (h1 : ∀ σ s, P σ → replaceGo old new 0 (bod σ ++ (sep σ ++ s)) = bod' σ ++ (sep' σ ++ replaceGo old new 0 s))
    (h2 : ∀ σ, P σ → replaceGo old new 0 (bod σ ++ s) = bod' σ ++ replaceGo old new 0 s) (σ : List Nat)
    (l : List (List Nat)) (h : ∀ τ ∈ σ :: l, P τ) :
    replaceGo old new 0 (midB bod sep σ l ++ s) = midB bod' sep' σ l ++ replaceGo old new 0 s := by
  induction l generalizing σ with
  | nil => exact h2 σ (h σ (by simp))
  | cons τ l ih =>
    rw [midB, midB, List.append_assoc, List.append_assoc, h1 σ _ (h σ (by simp)),
      ih τ fun ρ hρ => h ρ (by simp only [List.mem_cons] at hρ ⊢; tauto)]
    simp

theorem midB_tr (bod : List Nat → PyStr) (sep : PyStr) (σ : List Nat) (l : List (List Nat)) (s : PyStr) :
    midB (fun σ => bod σ ++ tr σ) (fun _ => sep) σ l ++ s =
      midB bod (fun σ => tr σ ++ sep) σ l ++ (tr (lastOf σ l) ++ s) := by
  induction l generalizing σ with
  | nil => simp [midB, lastOf]
  | cons τ l ih => simp only [midB, lastOf, List.append_assoc]; rw [ih]

theorem mid_eq (sep : List Nat → PyStr) (σ : List Nat) (l : List (List Nat)) : mid sep σ l = midB body sep σ l := by
  induction l generalizing σ with
  | nil => rfl
  | cons τ l ih => rw [mid, midB, ih]

/-- Entries joined by commas. -/
def bd (e : Nat → PyStr) (σ : List Nat) : PyStr := [','].intercalate (σ.map e)

theorem bd_cons (e : Nat → PyStr) (a b : Nat) (l : List Nat) : bd e (a :: b :: l) = e a ++ ',' :: bd e (b :: l) := by
  unfold bd
  rw [List.map_cons, List.map_cons, List.intercalate_cons_cons]
  simp

theorem bd_singleton (e : Nat → PyStr) (a : Nat) : bd e [a] = e a := by simp [bd]

/-- The cubes of the standard bases: not empty, entries `0`, `1`, `2`. -/
def Good (σ : List Nat) : Prop := σ ≠ [] ∧ ∀ a ∈ σ, a = 0 ∨ a = 1 ∨ a = 2

/-! The entries after the replacements. -/

/-- `1` printed as `[1]`. -/
def e1 (a : Nat) : PyStr := if a = 1 then "[1]".toList else if a = 0 then ['0'] else ['2']

/-- `0` and `1` printed as intervals. -/
def e2 (a : Nat) : PyStr := if a = 1 then "[1]".toList else if a = 0 then "[0]".toList else ['2']

/-- All entries printed as intervals. -/
def e3 (a : Nat) : PyStr := if a = 0 then "[0]".toList else if a = 1 then "[1]".toList else "[01]".toList

/-- The text of a key with given blocks. -/
def kB (bod : List Nat → PyStr) : List (List Nat) → PyStr
  | [] => "()".toList
  | σ :: l => '(' :: '(' :: (midB bod (fun _ => "),(".toList) σ l ++ (if l = [] then "),)".toList else "))".toList))

theorem text_kB (k : List (List Nat)) (hk : k ≠ []) (h : ∀ σ ∈ k, Good σ) :
    KeyText.text k = kB (fun σ => bd natStr σ ++ tr σ) k := by
  match k, hk with
  | σ :: l, _ =>
    rw [keyText_eq σ l fun τ hτ => (h τ hτ).1, kB, midB_tr, mid_eq]
    rfl

theorem flatMap_kB (bod : List Nat → PyStr) (a : Char) (h : a ≠ '(' ∧ a ≠ ')' ∧ a ≠ ',') (k : List (List Nat)) :
    (kB bod k).flatMap (fun c => if c = a then new else [c]) =
      kB (fun σ => (bod σ).flatMap fun c => if c = a then new else [c]) k := by
  have hm : ∀ σ l, (midB bod (fun _ => "),(".toList) σ l).flatMap (fun c => if c = a then new else [c]) =
      midB (fun σ => (bod σ).flatMap fun c => if c = a then new else [c]) (fun _ => "),(".toList) σ l := by
    intro σ l
    induction l generalizing σ with
    | nil => rfl
    | cons τ l ih =>
      rw [midB, midB, List.flatMap_append, List.flatMap_append, ih]
      simp [h.1.symm, h.2.1.symm, h.2.2.symm]
  match k with
  | [] => simp [kB, h.1.symm, h.2.1.symm]
  | σ :: l =>
    rw [kB, kB, List.flatMap_cons, List.flatMap_cons, List.flatMap_append, hm]
    by_cases hl : l = [] <;> simp [hl, h.1.symm, h.2.1.symm, h.2.2.symm]

theorem flatMap_bd (e : Nat → PyStr) (a : Char) (h : a ≠ ',') (σ : List Nat) :
    (bd e σ ++ tr σ).flatMap (fun c => if c = a then new else [c]) =
      bd (fun n => (e n).flatMap fun c => if c = a then new else [c]) σ ++ tr σ := by
  rw [List.flatMap_append]
  congr 1
  · induction σ with
    | nil => simp [bd]
    | cons b l ih =>
      cases l with
      | nil => rw [bd_singleton, bd_singleton]
      | cons c l => rw [bd_cons, bd_cons, List.flatMap_append, List.flatMap_cons, ih]; simp [h.symm]
  · unfold tr
    split <;> simp [h.symm]

theorem bd_congr {e e' : Nat → PyStr} {σ : List Nat} (h : ∀ a ∈ σ, e a = e' a) : bd e σ = bd e' σ := by
  unfold bd
  rw [List.map_congr_left h]

theorem midB_congr {bod bod' sep : List Nat → PyStr} {σ : List Nat} {l : List (List Nat)}
    (h : ∀ τ ∈ σ :: l, bod τ = bod' τ) : midB bod sep σ l = midB bod' sep σ l := by
  induction l generalizing σ with
  | nil => exact h σ (by simp)
  | cons τ l ih =>
    rw [midB, midB, h σ (by simp), ih fun ρ hρ => h ρ (by simp only [List.mem_cons] at hρ ⊢; tauto)]

theorem kB_congr {bod bod' : List Nat → PyStr} {k : List (List Nat)} (h : ∀ τ ∈ k, bod τ = bod' τ) :
    kB bod k = kB bod' k := by
  cases k with
  | nil => rfl
  | cons σ l => rw [kB, kB, midB_congr h]

theorem cstep1 (k : List (List Nat)) (h : ∀ σ ∈ k, Good σ) (s : PyStr) :
    replaceGo ['1'] "[1]".toList 0 (kB (fun σ => bd natStr σ ++ tr σ) k ++ s) =
      kB (fun σ => bd e1 σ ++ tr σ) k ++ replaceGo ['1'] "[1]".toList 0 s := by
  rw [go_single, List.flatMap_append, ← go_single _ s, flatMap_kB _ _ (by decide)]
  congr 1
  refine kB_congr fun σ hσ => ?_
  rw [flatMap_bd _ _ (by decide)]
  congr 1
  refine bd_congr fun a ha => ?_
  rcases (h σ hσ).2 a ha with rfl | rfl | rfl <;> rfl

theorem cstep2 (k : List (List Nat)) (h : ∀ σ ∈ k, Good σ) (s : PyStr) :
    replaceGo ['0'] "[0]".toList 0 (kB (fun σ => bd e1 σ ++ tr σ) k ++ s) =
      kB (fun σ => bd e2 σ ++ tr σ) k ++ replaceGo ['0'] "[0]".toList 0 s := by
  rw [go_single, List.flatMap_append, ← go_single _ s, flatMap_kB _ _ (by decide)]
  congr 1
  refine kB_congr fun σ hσ => ?_
  rw [flatMap_bd _ _ (by decide)]
  congr 1
  refine bd_congr fun a ha => ?_
  rcases (h σ hσ).2 a ha with rfl | rfl | rfl <;> rfl

/-- A cube after `2,` was replaced: the last entry of a longer tuple is left. -/
def r3 : List Nat → PyStr
  | [] => []
  | [a] => e2 a
  | a :: b :: l => e3 a ++ ',' :: r3 (b :: l)

@[inherit_doc r3]
def b3 (σ : List Nat) : PyStr := if σ.length = 1 then bd e3 σ ++ [','] else r3 σ

theorem go3_entry {a : Nat} (h : a = 0 ∨ a = 1 ∨ a = 2) (s : PyStr) :
    replaceGo ['2', ','] "[01],".toList 0 (e2 a ++ ',' :: s) =
      e3 a ++ ',' :: replaceGo ['2', ','] "[01],".toList 0 s := by
  rcases h with rfl | rfl | rfl <;> simp [e2, e3, replaceGo, List.isPrefixOf]

theorem go3_last {a : Nat} (h : a = 0 ∨ a = 1 ∨ a = 2) (s : PyStr) :
    replaceGo ['2', ','] "[01],".toList 0 (e2 a ++ ')' :: s) =
      e2 a ++ replaceGo ['2', ','] "[01],".toList 0 (')' :: s) := by
  rcases h with rfl | rfl | rfl <;> simp [e2, replaceGo, List.isPrefixOf]

theorem go3 {σ : List Nat} (h : Good σ) (s : PyStr) :
    replaceGo ['2', ','] "[01],".toList 0 ((bd e2 σ ++ tr σ) ++ ')' :: s) =
      b3 σ ++ replaceGo ['2', ','] "[01],".toList 0 (')' :: s) := by
  by_cases h1 : σ.length = 1
  · obtain ⟨a, rfl⟩ := List.length_eq_one_iff.1 h1
    simp only [bd_singleton, tr, b3, List.length_singleton, if_true, List.append_assoc, List.cons_append,
      List.nil_append]
    rw [go3_entry (h.2 a (by simp))]
  · unfold tr b3
    rw [if_neg h1, if_neg h1, List.append_nil]
    clear h1
    induction σ with
    | nil => exact absurd rfl h.1
    | cons a l ih =>
      cases l with
      | nil => rw [bd_singleton, r3]; exact go3_last (h.2 a (by simp)) s
      | cons b l =>
        rw [bd_cons, r3, List.append_assoc, List.cons_append, go3_entry (h.2 a (by simp)),
          ih ⟨by simp, fun c hc => h.2 c (by simp only [List.mem_cons] at hc ⊢; tauto)⟩]
        simp

theorem cstep3 (k : List (List Nat)) (h : ∀ σ ∈ k, Good σ) (s : PyStr) (hs : Tail s) :
    replaceGo ['2', ','] "[01],".toList 0 (kB (fun σ => bd e2 σ ++ tr σ) k ++ s) =
      kB b3 k ++ replaceGo ['2', ','] "[01],".toList 0 s := by
  cases k with
  | nil => rcases hs with rfl | ⟨t, rfl⟩ <;> simp [kB, replaceGo, List.isPrefixOf]
  | cons σ l =>
    rw [kB, kB, List.cons_append, List.cons_append, List.append_assoc, go_ne (by decide), go_ne (by decide),
      go_midB Good (bod' := b3) (sep' := fun _ => "),(".toList) ?_ ?_ σ l h]
    · simp only [List.cons_append, List.append_assoc]
      congr 3
      split <;> simp [replaceGo, List.isPrefixOf]
    · intro σ s hσ
      have := go3 hσ (',' :: '(' :: s)
      rw [show "),(".toList ++ s = ')' :: ',' :: '(' :: s from rfl, this]
      simp [replaceGo, List.isPrefixOf]
    · intro σ hσ
      split
      · rw [show "),)".toList ++ s = ')' :: ',' :: ')' :: s from rfl, go3 hσ]
      · rw [show "))".toList ++ s = ')' :: ')' :: s from rfl, go3 hσ]

theorem go4_entry {a : Nat} (s : PyStr) :
    replaceGo [',', '2'] ",[01]".toList 0 (e3 a ++ s) = e3 a ++ replaceGo [',', '2'] ",[01]".toList 0 s := by
  refine go_list s ?_
  unfold e3
  split_ifs <;> decide

theorem e3_start (a : Nat) (s : PyStr) : ∃ u, e3 a ++ s = '[' :: u := by
  unfold e3
  split_ifs <;> exact ⟨_, rfl⟩

theorem go4 {σ : List Nat} (h : Good σ) (s : PyStr) :
    replaceGo [',', '2'] ",[01]".toList 0 (b3 σ ++ ')' :: s) =
      (bd e3 σ ++ tr σ) ++ replaceGo [',', '2'] ",[01]".toList 0 (')' :: s) := by
  by_cases h1 : σ.length = 1
  · obtain ⟨a, rfl⟩ := List.length_eq_one_iff.1 h1
    simp only [bd_singleton, tr, b3, List.length_singleton, if_true, List.append_assoc, List.cons_append,
      List.nil_append]
    rw [go4_entry]
    simp [replaceGo, List.isPrefixOf]
  · unfold tr b3
    rw [if_neg h1, if_neg h1, List.append_nil]
    match σ, h1 with
    | [], _ => exact absurd rfl h.1
    | [a], h1 => exact absurd rfl h1
    | a :: b :: l, _ =>
      clear h1
      rw [r3, bd_cons, List.append_assoc, List.append_assoc, go4_entry]
      congr 1
      have hb : ∀ c ∈ b :: l, c = 0 ∨ c = 1 ∨ c = 2 := fun c hc => h.2 c (by simp only [List.mem_cons] at hc ⊢; tauto)
      clear h
      induction l generalizing b with
      | nil =>
        rw [r3, bd_singleton]
        rcases hb b (by simp) with rfl | rfl | rfl <;> simp [e2, e3, replaceGo, List.isPrefixOf]
      | cons c l ih =>
        rw [r3, bd_cons]
        simp only [List.cons_append, List.append_assoc]
        obtain ⟨u, hu⟩ := e3_start b (',' :: (r3 (c :: l) ++ ')' :: s))
        have hih := ih c (by simp) fun d hd => hb d (by simp only [List.mem_cons] at hd ⊢; tauto)
        rw [List.cons_append] at hih
        rw [go_skip, go4_entry, hih]
        · simp
        · rw [hu]; simp [List.isPrefixOf]

theorem cstep4 (k : List (List Nat)) (h : ∀ σ ∈ k, Good σ) (s : PyStr) (hs : Tail s) :
    replaceGo [',', '2'] ",[01]".toList 0 (kB b3 k ++ s) =
      kB (fun σ => bd e3 σ ++ tr σ) k ++ replaceGo [',', '2'] ",[01]".toList 0 s := by
  cases k with
  | nil => rcases hs with rfl | ⟨t, rfl⟩ <;> simp [kB, replaceGo, List.isPrefixOf]
  | cons σ l =>
    rw [kB, kB, List.cons_append, List.cons_append, List.append_assoc, go_ne (by decide), go_ne (by decide),
      go_midB Good (bod' := fun σ => bd e3 σ ++ tr σ) (sep' := fun _ => "),(".toList) ?_ ?_ σ l h]
    · simp only [List.cons_append, List.append_assoc]
      congr 3
      rcases hs with rfl | ⟨t, rfl⟩ <;> split <;> simp [replaceGo, List.isPrefixOf]
    · intro σ s hσ
      have := go4 hσ (',' :: '(' :: s)
      rw [show "),(".toList ++ s = ')' :: ',' :: '(' :: s from rfl, this]
      simp [replaceGo, List.isPrefixOf]
    · intro σ hσ
      split
      · rw [show "),)".toList ++ s = ')' :: ',' :: ')' :: s from rfl, go4 hσ]
      · rw [show "))".toList ++ s = ')' :: ')' :: s from rfl, go4 hσ]

theorem go5_entry {a c : Char} {o : PyStr} (ha : a = '(' ∨ a = ')' ∨ a = ',') (hc : o.head? = some c) (hc' : c ≠ '[')
    {σ : List Nat} (hσ : σ ≠ []) (s : PyStr) :
    replaceGo (a :: o) new 0 (bd e3 σ ++ s) = bd e3 σ ++ replaceGo (a :: o) new 0 s := by
  have he : ∀ n s, replaceGo (a :: o) new 0 (e3 n ++ s) = e3 n ++ replaceGo (a :: o) new 0 s := by
    intro n s
    refine go_list s ?_
    have : ∀ c ∈ e3 n, c ≠ '(' ∧ c ≠ ')' ∧ c ≠ ',' := by unfold e3; split_ifs <;> decide
    intro c hc
    rcases ha with rfl | rfl | rfl
    · exact (this c hc).1.symm
    · exact (this c hc).2.1.symm
    · exact (this c hc).2.2.symm
  induction σ with
  | nil => exact absurd rfl hσ
  | cons b l ih =>
    cases l with
    | nil => rw [bd_singleton, he]
    | cons d l =>
      rw [bd_cons, List.append_assoc, he, List.cons_append, go_skip, ih (by simp)]
      · simp
      · obtain ⟨u, hu⟩ : ∃ u, bd e3 (d :: l) ++ s = '[' :: u := by
          cases l with
          | nil => rw [bd_singleton]; exact e3_start d s
          | cons e l => rw [bd_cons, List.append_assoc]; exact e3_start d _
        rw [hu]
        cases o with
        | nil => cases hc
        | cons o1 o =>
          simp only [List.head?_cons, Option.some.injEq] at hc
          subst hc
          simp [List.isPrefixOf, hc']

/-- After `,),(` was replaced. -/
def q5 : List (List Nat) → PyStr
  | [] => "()".toList
  | σ :: l => '(' :: '(' :: (midB (bd e3) (fun σ => if σ.length = 1 then osym else "),(".toList) σ l ++
      (tr (lastOf σ l) ++ (if l = [] then "),)".toList else "))".toList)))

/-- After `),(` was replaced. -/
def q6 : List (List Nat) → PyStr
  | [] => "()".toList
  | σ :: l => '(' :: '(' :: (midB (bd e3) (fun _ => osym) σ l ++
      (tr (lastOf σ l) ++ (if l = [] then "),)".toList else "))".toList)))

theorem go_osym {a : Char} {o s : PyStr} (h : a = '(' ∨ a = ')' ∨ a = ',') :
    replaceGo (a :: o) new 0 (osym ++ s) = osym ++ replaceGo (a :: o) new 0 s := by
  refine go_list s ?_
  have : ∀ c ∈ osym, c ≠ '(' ∧ c ≠ ')' ∧ c ≠ ',' := by decide
  intro c hc
  rcases h with rfl | rfl | rfl
  · exact (this c hc).1.symm
  · exact (this c hc).2.1.symm
  · exact (this c hc).2.2.symm

theorem cstep5 (k : List (List Nat)) (h : ∀ σ ∈ k, Good σ) (s : PyStr) (hs : Tail s) :
    replaceGo [',', ')', ',', '('] osym 0 (kB (fun σ => bd e3 σ ++ tr σ) k ++ s) =
      q5 k ++ replaceGo [',', ')', ',', '('] osym 0 s := by
  cases k with
  | nil => rcases hs with rfl | ⟨t, rfl⟩ <;> simp [kB, q5, replaceGo, List.isPrefixOf]
  | cons σ l =>
    rw [kB, q5, midB_tr, List.cons_append, List.cons_append, List.append_assoc, go_ne (by decide), go_ne (by decide),
      go_midB Good (bod' := bd e3) (sep' := fun σ => if σ.length = 1 then osym else "),(".toList) ?_ ?_ σ l h]
    · simp only [List.cons_append, List.append_assoc]
      congr 3
      unfold tr
      rcases hs with rfl | ⟨t, rfl⟩ <;> split <;> split <;> simp [replaceGo, List.isPrefixOf]
    · intro σ s hσ
      rw [go5_entry (c := ')') (by simp) rfl (by decide) hσ.1]
      congr 1
      unfold tr
      split <;> simp [replaceGo, List.isPrefixOf]
    · intro σ hσ
      rw [go5_entry (c := ')') (by simp) rfl (by decide) hσ.1]

theorem cstep6 (k : List (List Nat)) (h : ∀ σ ∈ k, Good σ) (s : PyStr) (hs : Tail s) :
    replaceGo [')', ',', '('] osym 0 (q5 k ++ s) = q6 k ++ replaceGo [')', ',', '('] osym 0 s := by
  cases k with
  | nil => rcases hs with rfl | ⟨t, rfl⟩ <;> simp [q5, q6, replaceGo, List.isPrefixOf]
  | cons σ l =>
    rw [q5, q6, List.cons_append, List.cons_append, List.append_assoc, go_ne (by decide), go_ne (by decide),
      go_midB Good (bod' := bd e3) (sep' := fun _ => osym) ?_ ?_ σ l h]
    · simp only [List.cons_append, List.append_assoc]
      congr 3
      unfold tr
      rcases hs with rfl | ⟨t, rfl⟩ <;> split <;> split <;> simp [replaceGo, List.isPrefixOf]
    · intro σ s hσ
      rw [go5_entry (c := ',') (by simp) rfl (by decide) hσ.1]
      congr 1
      split
      · exact go_osym (by simp)
      · simp [replaceGo, List.isPrefixOf]
    · intro σ hσ
      rw [go5_entry (c := ',') (by simp) rfl (by decide) hσ.1]

/-- After the closing brackets were removed. -/
def q7 : List (List Nat) → PyStr
  | [] => ['(']
  | σ :: l => '(' :: '(' :: (midB (bd e3) (fun _ => osym) σ l ++
      (tr (lastOf σ l) ++ (if l = [] then [','] else [])))

/-- After the opening brackets were removed. -/
def q8 : List (List Nat) → PyStr
  | [] => ['(']
  | σ :: l => midB (bd e3) (fun _ => osym) σ l ++ (tr (lastOf σ l) ++ (if l = [] then [','] else []))

theorem flatMap_id {a : Char} {A : PyStr} (h : ∀ c ∈ A, c ≠ a) :
    A.flatMap (fun c => if c = a then new else [c]) = A := by
  induction A with
  | nil => rfl
  | cons c A ih =>
    rw [List.flatMap_cons, if_neg (h c (by simp)), ih fun d hd => h d (by simp [hd])]
    rfl

theorem bd_chars (σ : List Nat) : ∀ c ∈ bd e3 σ, c = ',' ∨ c = '[' ∨ c = ']' ∨ c = '0' ∨ c = '1' := by
  have he : ∀ n, ∀ c ∈ e3 n, c = ',' ∨ c = '[' ∨ c = ']' ∨ c = '0' ∨ c = '1' := by
    intro n; unfold e3; split_ifs <;> decide
  induction σ with
  | nil => simp [bd]
  | cons a l ih =>
    cases l with
    | nil => rw [bd_singleton]; exact he a
    | cons b l =>
      rw [bd_cons]
      intro c hc
      rcases List.mem_append.1 hc with hc | hc
      · exact he a c hc
      · rcases List.mem_cons.1 hc with rfl | hc
        · exact Or.inl rfl
        · exact ih c hc

theorem mid_chars (σ : List Nat) (l : List (List Nat)) :
    ∀ c ∈ midB (bd e3) (fun _ => osym) σ l, c ≠ '(' ∧ c ≠ ')' := by
  have ho : ∀ c ∈ osym, c ≠ '(' ∧ c ≠ ')' := by decide
  have hb : ∀ σ, ∀ c ∈ bd e3 σ, c ≠ '(' ∧ c ≠ ')' := by
    intro σ c hc
    rcases bd_chars σ c hc with rfl | rfl | rfl | rfl | rfl <;> decide
  induction l generalizing σ with
  | nil => exact hb σ
  | cons τ l ih =>
    intro c hc
    rw [midB, List.mem_append, List.mem_append] at hc
    rcases hc with hc | hc | hc
    · exact hb σ c hc
    · exact ho c hc
    · exact ih τ c hc

theorem cstep7 (k : List (List Nat)) (s : PyStr) :
    replaceGo [')'] [] 0 (q6 k ++ s) = q7 k ++ replaceGo [')'] [] 0 s := by
  rw [go_single, List.flatMap_append, ← go_single _ s]
  congr 1
  cases k with
  | nil => rfl
  | cons σ l =>
    rw [q6, q7, List.flatMap_cons, List.flatMap_cons, List.flatMap_append, flatMap_id fun c hc => (mid_chars σ l c hc).2]
    unfold tr
    generalize lastOf σ l = L
    by_cases hl : l = [] <;> by_cases ht : L.length = 1 <;> simp [hl, ht]

theorem cstep8 (k : List (List Nat)) (s : PyStr) (hs : Tail s) :
    replaceGo ['(', '('] [] 0 (q7 k ++ s) = q8 k ++ replaceGo ['(', '('] [] 0 s := by
  cases k with
  | nil => rcases hs with rfl | ⟨t, rfl⟩ <;> simp [q7, q8, replaceGo, List.isPrefixOf]
  | cons σ l =>
    rw [q7, q8, List.cons_append, List.cons_append, replaceGo, if_pos (by simp [List.isPrefixOf])]
    simp only [List.length_cons, List.length_nil, Nat.zero_add, Nat.add_sub_cancel, List.nil_append]
    rw [replaceGo, List.append_assoc, go_list _ fun c hc => (mid_chars σ l c hc).1.symm]
    simp only [List.append_assoc]
    congr 1
    unfold tr
    split <;> split <;> simp [replaceGo, List.isPrefixOf]

theorem q8_chars (k : List (List Nat)) (hk : k ≠ []) : ∀ c ∈ q8 k, ')' ≠ c := by
  match k, hk with
  | σ :: l, _ =>
    intro c hc
    rw [q8, List.mem_append, List.mem_append] at hc
    rcases hc with hc | hc | hc
    · exact (mid_chars σ l c hc).2.symm
    · unfold tr at hc
      split at hc
      · obtain rfl : c = ',' := by simpa using hc
        decide
      · cases hc
    · split at hc
      · obtain rfl : c = ',' := by simpa using hc
        decide
      · cases hc

theorem bd_nocomma (σ : List Nat) : (bd e3 σ).flatMap (fun c => if c = ',' then [] else [c]) = cubeLatex σ := by
  have he : ∀ n, (e3 n).flatMap (fun c => if c = ',' then [] else [c]) = e3 n := fun n =>
    flatMap_id fun c hc => by revert c; unfold e3; split_ifs <;> decide
  have hl : ∀ l : List Nat, cubeLatex l = (l.map e3).flatten := fun l => rfl
  rw [hl]
  induction σ with
  | nil => simp [bd]
  | cons a l ih =>
    cases l with
    | nil => rw [bd_singleton, he]; simp
    | cons b l => rw [bd_cons, List.flatMap_append, List.flatMap_cons, ih, he]; simp

theorem cstep11 (k : List (List Nat)) (hk : k ≠ []) (s : PyStr) :
    replaceGo [','] [] 0 (q8 k ++ s) = cubesLatex k ++ replaceGo [','] [] 0 s := by
  rw [go_single, List.flatMap_append, ← go_single _ s]
  congr 1
  have ho : osym.flatMap (fun c => if c = ',' then [] else [c]) = osym := flatMap_id (by decide)
  have hm : ∀ σ l, (midB (bd e3) (fun _ => osym) σ l).flatMap (fun c => if c = ',' then [] else [c]) =
      cubesLatex (σ :: l) := by
    intro σ l
    unfold cubesLatex
    show _ = osym.intercalate _
    generalize osym = O at ho
    induction l generalizing σ with
    | nil => simp only [midB, bd_nocomma]; simp
    | cons τ l ih =>
      rw [midB, List.flatMap_append, List.flatMap_append, ho, ih, bd_nocomma]
      simp only [List.map_cons]
      rw [List.intercalate_cons_cons]
      simp
  match k, hk with
  | σ :: l, _ =>
    rw [q8, List.flatMap_append, hm]
    unfold tr
    split <;> split <;> simp

/-- `_latex_` of a non-zero element whose coefficients are written without the digits 0 and 1. -/
theorem cubicalLatex_eq (x : Elem (List (List Nat))) (h0 : ∀ q ∈ x.data, q.2 ≠ 0) (hne : x.data ≠ [])
    (h : ∀ q ∈ x.data, q.1 ≠ [] ∧ ∀ τ ∈ q.1, Good τ)
    (hc : ∀ q ∈ x.data, q.2.natAbs = 1 ∨ ∀ c ∈ natStr q.2.natAbs, c ≠ '0' ∧ c ≠ '1') :
    cubicalLatex x = .ok (sumOf cubesLatex x.data) := by
  unfold cubicalLatex
  rw [str_eq x h0]
  show Except.ok (replaceGo [','] [] 0 (replaceGo [')', ')'] [] 0 (replaceGo [')'] [] 0 (replaceGo ['(', '('] [] 0
    (replaceGo [')'] [] 0 (replaceGo [')', ',', '('] osym 0 (replaceGo [',', ')', ',', '('] osym 0
    (replaceGo [',', '2'] ",[01]".toList 0 (replaceGo ['2', ','] "[01],".toList 0 (replaceGo ['0'] "[0]".toList 0
    (replaceGo ['1'] "[1]".toList 0 (sumOf KeyText.text x.data)))))))))))) = _
  have hd1 : ∀ p ∈ x.data, p.2.natAbs ≠ 1 → ∀ c ∈ natStr p.2.natAbs, '1' ≠ c := fun p hp h1 c hcc =>
    (((hc p hp).resolve_left h1 c hcc).2).symm
  have hd0 : ∀ p ∈ x.data, p.2.natAbs ≠ 1 → ∀ c ∈ natStr p.2.natAbs, '0' ≠ c := fun p hp h1 c hcc =>
    (((hc p hp).resolve_left h1 c hcc).1).symm
  rw [sumOf_congr x.data (f := KeyText.text) (g := kB (fun σ => bd natStr σ ++ tr σ))
    fun p hp => text_kB p.1 (h p hp).1 (h p hp).2]
  rw [sum_step (g := kB (fun σ => bd e1 σ ++ tr σ)) (by decide) (by decide) (by decide) _ hne fun p hp =>
    term_step p (hd1 p hp) fun s _ => cstep1 p.1 (h p hp).2 s]
  rw [sum_step (g := kB (fun σ => bd e2 σ ++ tr σ)) (by decide) (by decide) (by decide) _ hne fun p hp =>
    term_step p (hd0 p hp) fun s _ => cstep2 p.1 (h p hp).2 s]
  rw [sum_step (g := kB b3) (by decide) (by decide) (by decide) _ hne fun p hp s hs => by
    unfold termOf
    split
    · exact cstep3 p.1 (h p hp).2 s hs
    · rw [List.append_assoc, List.append_assoc, ← cstep3 p.1 (h p hp).2 s hs]
      obtain ⟨u, hu⟩ : ∃ u, kB (fun σ => bd e2 σ ++ tr σ) p.1 ++ s = '(' :: u := by
        cases p.1 with
        | nil => exact ⟨_, rfl⟩
        | cons σ l => exact ⟨_, rfl⟩
      rw [hu]
      have : ∀ A : PyStr, (∀ c ∈ A, c.isDigit = true) → replaceGo ['2', ','] "[01],".toList 0 (A ++ '(' :: u) =
          A ++ replaceGo ['2', ','] "[01],".toList 0 ('(' :: u) := by
        intro A hA
        induction A with
        | nil => rfl
        | cons c A ih =>
          rw [List.cons_append, go_skip, ih fun d hd => hA d (by simp [hd]), List.cons_append]
          cases A with
          | nil => simp [List.isPrefixOf]
          | cons d A =>
            have : ',' ≠ d := (digit_ne (hA d (by simp)) rfl).symm
            simp [List.isPrefixOf, this]
      exact this _ fun c hcc => natStr_digit hcc]
  rw [sum_step (g := kB (fun σ => bd e3 σ ++ tr σ)) (by decide) (by decide) (by decide) _ hne fun p hp =>
    term_step p (fun _ => coeff_step rfl _) fun s hs => cstep4 p.1 (h p hp).2 s hs]
  rw [sum_step (g := q5) (by decide) (by decide) (by decide) _ hne fun p hp =>
    term_step p (fun _ => coeff_step rfl _) fun s hs => cstep5 p.1 (h p hp).2 s hs]
  rw [sum_step (g := q6) (by decide) (by decide) (by decide) _ hne fun p hp =>
    term_step p (fun _ => coeff_step rfl _) fun s hs => cstep6 p.1 (h p hp).2 s hs]
  rw [sum_step (g := q7) (by decide) (by decide) (by decide) _ hne fun p hp =>
    term_step p (fun _ => coeff_step rfl _) fun s _ => cstep7 p.1 s]
  rw [sum_step (g := q8) (by decide) (by decide) (by decide) _ hne fun p hp =>
    term_step p (fun _ => coeff_step rfl _) fun s hs => cstep8 p.1 s hs]
  rw [sum_step (g := q8) (by decide) (by decide) (by decide) _ hne fun p hp =>
    term_step p (fun _ => coeff_step rfl _) fun s _ => go_list s (q8_chars p.1 (h p hp).1)]
  rw [sum_step (g := q8) (by decide) (by decide) (by decide) _ hne fun p hp =>
    term_step p (fun _ => coeff_step rfl _) fun s _ => go_list s (q8_chars p.1 (h p hp).1)]
  rw [sum_step (g := cubesLatex) (by decide) (by decide) (by decide) _ hne fun p hp =>
    term_step p (fun _ => coeff_step rfl _) fun s _ => cstep11 p.1 (h p hp).1 s]

end Comch.Latex
