import Verif.Lib.Printing

/-! # The chains of replacements of `_latex_` -/

namespace Comch.Latex

open Spec.Printing Printing

variable {old new : PyStr}

theorem go_skip {c : Char} {s : PyStr} (h : old.isPrefixOf (c :: s) = false) :
    replaceGo old new 0 (c :: s) = c :: replaceGo old new 0 s := by
  rw [replaceGo, h]
  rfl

theorem go_ne {a c : Char} {o s : PyStr} (h : a ≠ c) :
    replaceGo (a :: o) new 0 (c :: s) = c :: replaceGo (a :: o) new 0 s :=
  go_skip (by simp [List.isPrefixOf, h])

theorem go_list {a : Char} {o A : PyStr} (s : PyStr) (h : ∀ c ∈ A, a ≠ c) :
    replaceGo (a :: o) new 0 (A ++ s) = A ++ replaceGo (a :: o) new 0 s := by
  induction A with
  | nil => rfl
  | cons c A ih =>
    rw [List.cons_append, go_ne (h c (by simp)), ih fun d hd => h d (by simp [hd]), List.cons_append]

/-- What may follow a term. -/
def Tail (s : PyStr) : Prop := s = [] ∨ ∃ t, s = ' ' :: t

section
variable {K : Type} {f g : K → PyStr}

theorem sum_step {a : Char} {o : PyStr} (h1 : a ≠ ' ') (h2 : a ≠ '+') (h3 : a ≠ '-') (d : Dict K) (hd : d ≠ [])
    (hk : ∀ p ∈ d, ∀ s, Tail s → replaceGo (a :: o) new 0 (termOf f p ++ s) =
      termOf g p ++ replaceGo (a :: o) new 0 s) :
    replaceGo (a :: o) new 0 (sumOf f d) = sumOf g d := by
  have hsep : ∀ z : Int, ∀ c ∈ (if z < 0 then " - ".toList else " + ".toList), a ≠ c := by
    intro z c hc
    split at hc
    · have : c = ' ' ∨ c = '-' ∨ c = ' ' := by simpa using hc
      rcases this with rfl | rfl | rfl <;> assumption
    · have : c = ' ' ∨ c = '+' ∨ c = ' ' := by simpa using hc
      rcases this with rfl | rfl | rfl <;> assumption
  have htail : ∀ l : Dict K,
      Tail (l.map fun q => (if q.2 < 0 then " - ".toList else " + ".toList) ++ termOf f q).flatten := by
    intro l
    cases l with
    | nil => exact Or.inl rfl
    | cons q l =>
      right
      rw [List.map_cons, List.flatten_cons]
      split
      · exact ⟨_, rfl⟩
      · exact ⟨_, rfl⟩
  have hrest : ∀ l : Dict K, (∀ q ∈ l, q ∈ d) → replaceGo (a :: o) new 0
      (l.map fun q => (if q.2 < 0 then " - ".toList else " + ".toList) ++ termOf f q).flatten =
      (l.map fun q => (if q.2 < 0 then " - ".toList else " + ".toList) ++ termOf g q).flatten := by
    intro l hl
    induction l with
    | nil => rfl
    | cons q l ih =>
      rw [List.map_cons, List.flatten_cons, List.append_assoc, go_list _ (hsep q.2),
        hk q (hl q (by simp)) _ (htail l), ih fun r hr => hl r (by simp [hr])]
      simp
  match d, hd with
  | p :: l, _ =>
    simp only [sumOf]
    rw [List.append_assoc, go_list, hk p (by simp) _ (htail l), hrest l fun q hq => by simp [hq]]
    · rw [List.append_assoc]
    · intro c hc
      split at hc
      · have : c = '-' ∨ c = ' ' := by simpa using hc
        rcases this with rfl | rfl <;> assumption
      · cases hc

theorem term_step {a : Char} {o : PyStr} (p : K × Int)
    (hd : p.2.natAbs ≠ 1 → ∀ c ∈ natStr p.2.natAbs, a ≠ c)
    (hk : ∀ s, Tail s → replaceGo (a :: o) new 0 (f p.1 ++ s) = g p.1 ++ replaceGo (a :: o) new 0 s) (s : PyStr)
    (hs : Tail s) :
    replaceGo (a :: o) new 0 (termOf f p ++ s) = termOf g p ++ replaceGo (a :: o) new 0 s := by
  unfold termOf
  split
  · exact hk s hs
  · rename_i h
    rw [List.append_assoc, go_list _ (hd h), hk s hs, List.append_assoc]

theorem sumOf_congr (d : Dict K) (h : ∀ p ∈ d, f p.1 = g p.1) : sumOf f d = sumOf g d := by
  cases d with
  | nil => rfl
  | cons p l =>
    have ht : ∀ q ∈ p :: l, termOf f q = termOf g q := fun q hq => by unfold termOf; rw [h q hq]
    simp only [sumOf]
    rw [ht p (by simp), List.map_congr_left fun q hq => by rw [ht q (by simp [hq])]]

end

/-! ### Bodies -/

/-- The entries of a simplex. -/
def body (σ : List Nat) : PyStr := [','].intercalate (σ.map natStr)

theorem body_cons (a b : Nat) (l : List Nat) : body (a :: b :: l) = natStr a ++ ',' :: body (b :: l) := by
  unfold body
  rw [List.map_cons, List.map_cons, List.intercalate_cons_cons]
  simp

theorem body_singleton (a : Nat) : body [a] = natStr a := by simp [body]

/-- The comma of a one-entry tuple. -/
def tr (σ : List Nat) : PyStr := if σ.length = 1 then [','] else []

theorem tailText_eq (l : List Nat) : tailText (l.map natStr) = (if l = [] then [] else ',' :: body l) ++ [')'] := by
  induction l with
  | nil => rfl
  | cons a l ih =>
    rw [List.map_cons, tailText, ih]
    cases l with
    | nil => simp [body_singleton]
    | cons b l => rw [body_cons]; simp

theorem text_eq {σ : List Nat} (h : σ ≠ []) : KeyText.text σ = '(' :: (body σ ++ tr σ ++ [')']) := by
  show tupleText (σ.map natStr) = _
  match σ, h with
  | [a], _ => simp [tupleText, body_singleton, tr]
  | a :: b :: l, _ =>
    rw [List.map_cons, List.map_cons, tupleText, ← List.map_cons, tailText_eq, if_neg (by simp), body_cons]
    simp [tr]

/-- Replacements that do not touch the bodies. -/
structure Out (old : PyStr) : Prop where
  digit : ∀ c s, c.isDigit = true → old.isPrefixOf (c :: s) = false
  comma : ∀ c s, c.isDigit = true → old.isPrefixOf (',' :: c :: s) = false

theorem go_digits (h : Out old) (A s : PyStr) (hA : ∀ c ∈ A, c.isDigit = true) :
    replaceGo old new 0 (A ++ s) = A ++ replaceGo old new 0 s := by
  induction A with
  | nil => rfl
  | cons c A ih =>
    rw [List.cons_append, go_skip (h.digit _ _ (hA c (by simp))), ih fun d hd => hA d (by simp [hd]),
      List.cons_append]

theorem body_start {σ : List Nat} (h : σ ≠ []) : ∃ c u, body σ = c :: u ∧ c.isDigit = true := by
  match σ, h with
  | a :: l, _ =>
    obtain ⟨c, u, hu⟩ := List.exists_cons_of_ne_nil (natStr_ne a)
    have hc : c.isDigit = true := natStr_digit (n := a) (by rw [hu]; simp)
    cases l with
    | nil => exact ⟨c, u, by rw [body_singleton, hu], hc⟩
    | cons b l => exact ⟨c, _, by rw [body_cons, hu, List.cons_append], hc⟩

theorem go_body (h : Out old) (σ : List Nat) (s : PyStr) :
    replaceGo old new 0 (body σ ++ s) = body σ ++ replaceGo old new 0 s := by
  induction σ with
  | nil => simp [body]
  | cons a l ih =>
    cases l with
    | nil => rw [body_singleton, go_digits h _ _ fun c hc => natStr_digit hc]
    | cons b l =>
      obtain ⟨c, u, hu, hc⟩ := body_start (σ := b :: l) (by simp)
      rw [body_cons, List.append_assoc, go_digits h _ _ fun c hc => natStr_digit hc, List.cons_append, go_skip, ih]
      · simp
      · rw [hu, List.cons_append]
        exact h.comma _ _ hc

/-- Bodies with separators. -/
def mid (sep : List Nat → PyStr) : List Nat → List (List Nat) → PyStr
  | σ, [] => body σ
  | σ, τ :: l => body σ ++ (sep σ ++ mid sep τ l)

theorem go_mid (h : Out old) {sep sep' : List Nat → PyStr}
    (hs : ∀ σ s, replaceGo old new 0 (sep σ ++ s) = sep' σ ++ replaceGo old new 0 s) (σ : List Nat)
    (l : List (List Nat)) (s : PyStr) :
    replaceGo old new 0 (mid sep σ l ++ s) = mid sep' σ l ++ replaceGo old new 0 s := by
  induction l generalizing σ with
  | nil => exact go_body h σ s
  | cons τ l ih =>
    rw [mid, mid, List.append_assoc, go_body h, List.append_assoc, hs, ih]
    simp

/-- The last simplex. -/
def lastOf : List Nat → List (List Nat) → List Nat
  | σ, [] => σ
  | _, τ :: l => lastOf τ l

theorem keyText_eq (σ : List Nat) (l : List (List Nat)) (h : ∀ τ ∈ σ :: l, τ ≠ []) :
    KeyText.text (σ :: l) = '(' :: '(' :: (mid (fun σ => tr σ ++ "),(".toList) σ l ++ (tr (lastOf σ l) ++
      (if l = [] then "),)".toList else "))".toList))) := by
  have htail : ∀ (σ : List Nat) (l : List (List Nat)), (∀ τ ∈ σ :: l, τ ≠ []) →
      KeyText.text σ ++ tailText (l.map KeyText.text) =
        '(' :: (mid (fun σ => tr σ ++ "),(".toList) σ l ++ (tr (lastOf σ l) ++ "))".toList)) := by
    intro σ l
    induction l generalizing σ with
    | nil =>
      intro h
      rw [text_eq (h σ (by simp))]
      simp [mid, lastOf, tailText]
    | cons τ l ih =>
      intro h
      rw [List.map_cons, tailText, ih τ fun ρ hρ => h ρ (by simp only [List.mem_cons] at hρ ⊢; tauto),
        text_eq (h σ (by simp))]
      simp [mid, lastOf]
  show tupleText ((σ :: l).map KeyText.text) = _
  cases l with
  | nil =>
    rw [List.map_cons, List.map_nil, tupleText, text_eq (h σ (by simp))]
    simp [mid, lastOf]
  | cons τ l =>
    rw [List.map_cons, List.map_cons, tupleText, ← List.map_cons, htail σ (τ :: l) h]
    rw [if_neg (by simp)]

/-! ### Simplices -/

/-- The separator of the factors. -/
def osym : PyStr := " \\otimes ".toList

/-- `] \otimes [` -/
def osep : PyStr := ']' :: (osym ++ ['['])

theorem osep_eq : osep = "] \\otimes [".toList := rfl

theorem latex_eq (σ : List Nat) (l : List (List Nat)) :
    simplicesLatex (σ :: l) = '[' :: (mid (fun _ => osep) σ l ++ [']']) := by
  unfold simplicesLatex
  show osym.intercalate _ = _
  unfold osep
  generalize osym = O
  induction l generalizing σ with
  | nil => simp [mid, simplexLatex, body]
  | cons τ l ih =>
    rw [List.map_cons, List.map_cons, List.intercalate_cons_cons, ← List.map_cons, ih τ, mid]
    simp [simplexLatex, body]

theorem go_osep {a : Char} {o s : PyStr} (h : a = '(' ∨ a = ')' ∨ a = ',') :
    replaceGo (a :: o) new 0 (osep ++ s) = osep ++ replaceGo (a :: o) new 0 s := by
  refine go_list s ?_
  have : ∀ c ∈ osep, c ≠ '(' ∧ c ≠ ')' ∧ c ≠ ',' := by decide
  intro c hc
  rcases h with rfl | rfl | rfl
  · exact (this c hc).1.symm
  · exact (this c hc).2.1.symm
  · exact (this c hc).2.2.symm

theorem out1 : Out [',', ')', ',', '('] where
  digit c s hc := by
    have : ',' ≠ c := (digit_ne hc rfl).symm
    simp [List.isPrefixOf, this]
  comma c s hc := by
    have : ')' ≠ c := (digit_ne hc rfl).symm
    simp [List.isPrefixOf, this]

theorem out4 : Out [',', ')', ')'] where
  digit c s hc := by
    have : ',' ≠ c := (digit_ne hc rfl).symm
    simp [List.isPrefixOf, this]
  comma c s hc := by
    have : ')' ≠ c := (digit_ne hc rfl).symm
    simp [List.isPrefixOf, this]

theorem out_paren {a : Char} {o : PyStr} (h : a.isDigit = false) (h' : a ≠ ',') : Out (a :: o) where
  digit c s hc := by
    have : a ≠ c := (digit_ne hc h).symm
    simp [List.isPrefixOf, this]
  comma c s hc := by
    simp [List.isPrefixOf, h']

/-- The texts of a key after each replacement. -/
def k1 : List (List Nat) → PyStr
  | [] => "()".toList
  | σ :: l => '(' :: '(' :: (mid (fun σ => if σ.length = 1 then osep else "),(".toList) σ l ++ (tr (lastOf σ l) ++
      (if l = [] then "),)".toList else "))".toList)))

@[inherit_doc k1]
def k2 : List (List Nat) → PyStr
  | [] => "()".toList
  | σ :: l => '(' :: '(' :: (mid (fun _ => osep) σ l ++ (tr (lastOf σ l) ++
      (if l = [] then "),)".toList else "))".toList)))

@[inherit_doc k1]
def k3 : List (List Nat) → PyStr
  | [] => "()".toList
  | σ :: l => '[' :: (mid (fun _ => osep) σ l ++ (tr (lastOf σ l) ++
      (if l = [] then "),)".toList else "))".toList)))

@[inherit_doc k1]
def k4 : List (List Nat) → PyStr
  | [] => "()".toList
  | σ :: l => '[' :: (mid (fun _ => osep) σ l ++
      (if l = [] then tr σ ++ "),)".toList else if (lastOf σ l).length = 1 then [']'] else "))".toList))

@[inherit_doc k1]
def k5 : List (List Nat) → PyStr
  | [] => "()".toList
  | σ :: l => '[' :: (mid (fun _ => osep) σ l ++
      (if l = [] then tr σ ++ [']'] else if (lastOf σ l).length = 1 then [']'] else "))".toList))

@[inherit_doc k1]
def k6 : List (List Nat) → PyStr
  | [] => "()".toList
  | σ :: l => '[' :: (mid (fun _ => osep) σ l ++ (if l = [] then tr σ ++ [']'] else [']']))

theorem step1 (σ : List Nat) (l : List (List Nat)) (h : ∀ τ ∈ σ :: l, τ ≠ []) (s : PyStr) (hs : Tail s) :
    replaceGo [',', ')', ',', '('] osep 0 (KeyText.text (σ :: l) ++ s) =
      k1 (σ :: l) ++ replaceGo [',', ')', ',', '('] osep 0 s := by
  rw [keyText_eq σ l h, k1]
  have hsep : ∀ σ s, replaceGo [',', ')', ',', '('] osep 0 ((tr σ ++ "),(".toList) ++ s) =
      (if σ.length = 1 then osep else "),(".toList) ++ replaceGo [',', ')', ',', '('] osep 0 s := by
    intro σ s
    unfold tr
    split <;> simp [replaceGo, List.isPrefixOf]
  simp only [List.cons_append, List.append_assoc]
  rw [go_ne (by decide), go_ne (by decide), go_mid out1 hsep]
  congr 3
  unfold tr
  rcases hs with rfl | ⟨t, rfl⟩ <;> split <;> split <;> simp [replaceGo, List.isPrefixOf]

theorem step2 (σ : List Nat) (l : List (List Nat)) (s : PyStr) (hs : Tail s) :
    replaceGo [')', ',', '('] osep 0 (k1 (σ :: l) ++ s) = k2 (σ :: l) ++ replaceGo [')', ',', '('] osep 0 s := by
  rw [k1, k2]
  have hsep : ∀ (σ : List Nat) s, replaceGo [')', ',', '('] osep 0 ((if σ.length = 1 then osep else "),(".toList) ++ s) =
      osep ++ replaceGo [')', ',', '('] osep 0 s := by
    intro σ s
    split
    · exact go_osep (by simp)
    · simp [replaceGo, List.isPrefixOf]
  simp only [List.cons_append, List.append_assoc]
  rw [go_ne (by decide), go_ne (by decide), go_mid (out_paren rfl (by decide)) hsep]
  congr 3
  unfold tr
  rcases hs with rfl | ⟨t, rfl⟩ <;> split <;> split <;> simp [replaceGo, List.isPrefixOf]

theorem step3 (σ : List Nat) (l : List (List Nat)) (s : PyStr) (hs : Tail s) :
    replaceGo ['(', '('] ['['] 0 (k2 (σ :: l) ++ s) = k3 (σ :: l) ++ replaceGo ['(', '('] ['['] 0 s := by
  rw [k2, k3]
  simp only [List.cons_append, List.append_assoc]
  rw [replaceGo, if_pos (by simp [List.isPrefixOf])]
  simp only [List.length_cons, List.length_nil, Nat.zero_add, Nat.add_sub_cancel, List.cons_append, List.nil_append]
  rw [replaceGo, go_mid (out_paren rfl (by decide)) fun _ _ => go_osep (by simp)]
  congr 2
  unfold tr
  rcases hs with rfl | ⟨t, rfl⟩ <;> split <;> split <;> simp [replaceGo, List.isPrefixOf]

theorem step4 (σ : List Nat) (l : List (List Nat)) (s : PyStr) (hs : Tail s) :
    replaceGo [',', ')', ')'] [']'] 0 (k3 (σ :: l) ++ s) = k4 (σ :: l) ++ replaceGo [',', ')', ')'] [']'] 0 s := by
  rw [k3, k4]
  simp only [List.cons_append, List.append_assoc]
  rw [go_ne (by decide), go_mid out4 fun _ _ => go_osep (by simp)]
  congr 2
  unfold tr
  by_cases hl : l = []
  · subst hl
    simp only [if_true, lastOf]
    rcases hs with rfl | ⟨t, rfl⟩ <;> split <;> rename_i hq <;> simp [replaceGo, List.isPrefixOf, hq]
  · simp only [if_neg hl]
    rcases hs with rfl | ⟨t, rfl⟩ <;> split <;> rename_i hq <;> simp [replaceGo, List.isPrefixOf, hq]

theorem step5 (σ : List Nat) (l : List (List Nat)) (s : PyStr) (hs : Tail s) :
    replaceGo [')', ',', ')'] [']'] 0 (k4 (σ :: l) ++ s) = k5 (σ :: l) ++ replaceGo [')', ',', ')'] [']'] 0 s := by
  rw [k4, k5]
  simp only [List.cons_append, List.append_assoc]
  rw [go_ne (by decide), go_mid (out_paren rfl (by decide)) fun _ _ => go_osep (by simp)]
  congr 2
  unfold tr
  by_cases hl : l = []
  · subst hl
    simp only [if_true]
    rcases hs with rfl | ⟨t, rfl⟩ <;> split <;> simp [replaceGo, List.isPrefixOf]
  · simp only [if_neg hl]
    rcases hs with rfl | ⟨t, rfl⟩ <;> split <;> simp [replaceGo, List.isPrefixOf]

theorem step6 (σ : List Nat) (l : List (List Nat)) (s : PyStr) (hs : Tail s) :
    replaceGo [')', ')'] [']'] 0 (k5 (σ :: l) ++ s) = k6 (σ :: l) ++ replaceGo [')', ')'] [']'] 0 s := by
  rw [k5, k6]
  simp only [List.cons_append, List.append_assoc]
  rw [go_ne (by decide), go_mid (out_paren rfl (by decide)) fun _ _ => go_osep (by simp)]
  congr 2
  unfold tr
  by_cases hl : l = []
  · subst hl
    simp only [if_true]
    rcases hs with rfl | ⟨t, rfl⟩ <;> split <;> simp [replaceGo, List.isPrefixOf]
  · simp only [if_neg hl]
    rcases hs with rfl | ⟨t, rfl⟩ <;> split <;> simp [replaceGo, List.isPrefixOf]

theorem coeff_step {a : Char} (h : a.isDigit = false) (n : Nat) : ∀ c ∈ natStr n, a ≠ c :=
  fun _ hc => (digit_ne (natStr_digit hc) h).symm

/-- `_latex_` of an element whose keys have non-empty factors only. -/
theorem simplicialLatex_eq (x : Elem (List (List Nat))) (h0 : ∀ q ∈ x.data, q.2 ≠ 0)
    (h : ∀ q ∈ x.data, q.1 ≠ [] ∧ ∀ τ ∈ q.1, τ ≠ []) : simplicialLatex x = .ok (sumOf k6 x.data) := by
  unfold simplicialLatex
  rw [str_eq x h0]
  show Except.ok (replaceGo [')', ')'] [']'] 0 (replaceGo [')', ',', ')'] [']'] 0 (replaceGo [',', ')', ')'] [']'] 0
    (replaceGo ['(', '('] ['['] 0 (replaceGo [')', ',', '('] osep 0 (replaceGo [',', ')', ',', '('] osep 0
      (sumOf KeyText.text x.data))))))) = _
  by_cases hd : x.data = []
  · rw [hd]; rfl
  have hk : ∀ p ∈ x.data, ∃ σ l, p.1 = σ :: l ∧ ∀ τ ∈ σ :: l, τ ≠ [] := by
    intro p hp
    obtain ⟨σ, l, hl⟩ := List.exists_cons_of_ne_nil (h p hp).1
    exact ⟨σ, l, hl, hl ▸ (h p hp).2⟩
  rw [sum_step (g := k1) (by decide) (by decide) (by decide) _ hd fun p hp => term_step p
      (fun _ => coeff_step rfl _) fun s hs => by
        obtain ⟨σ, l, hl, hne⟩ := hk p hp
        rw [hl]; exact step1 σ l hne s hs,
    sum_step (g := k2) (by decide) (by decide) (by decide) _ hd fun p hp => term_step p
      (fun _ => coeff_step rfl _) fun s hs => by
        obtain ⟨σ, l, hl, hne⟩ := hk p hp
        rw [hl]; exact step2 σ l s hs,
    sum_step (g := k3) (by decide) (by decide) (by decide) _ hd fun p hp => term_step p
      (fun _ => coeff_step rfl _) fun s hs => by
        obtain ⟨σ, l, hl, hne⟩ := hk p hp
        rw [hl]; exact step3 σ l s hs,
    sum_step (g := k4) (by decide) (by decide) (by decide) _ hd fun p hp => term_step p
      (fun _ => coeff_step rfl _) fun s hs => by
        obtain ⟨σ, l, hl, hne⟩ := hk p hp
        rw [hl]; exact step4 σ l s hs,
    sum_step (g := k5) (by decide) (by decide) (by decide) _ hd fun p hp => term_step p
      (fun _ => coeff_step rfl _) fun s hs => by
        obtain ⟨σ, l, hl, hne⟩ := hk p hp
        rw [hl]; exact step5 σ l s hs,
    sum_step (g := k6) (by decide) (by decide) (by decide) _ hd fun p hp => term_step p
      (fun _ => coeff_step rfl _) fun s hs => by
        obtain ⟨σ, l, hl, hne⟩ := hk p hp
        rw [hl]; exact step6 σ l s hs]

/-- The text expected, except for a vertex alone. -/
theorem k6_eq (k : List (List Nat)) (hk : k ≠ []) (h : ∀ a, k ≠ [[a]]) : k6 k = simplicesLatex k := by
  match k, hk with
  | σ :: l, _ =>
    rw [latex_eq, k6]
    by_cases hl : l = []
    · subst hl
      have : σ.length ≠ 1 := by
        intro h1
        obtain ⟨a, rfl⟩ := List.length_eq_one_iff.1 h1
        exact h a rfl
      simp [tr, this]
    · rw [if_neg hl]

end Comch.Latex
