import Verif.Model.Printing
import Verif.Spec.Printing

/-! # Printing: the printed text determines the terms -/

namespace Comch.Printing

/-! ### Removing the space after a comma -/

/-- `s.replace(', ', ',')`: a space is dropped when the character before it is a comma (`p` says
whether the character before the string is a comma that has not yet swallowed a space). -/
def rm : Bool → PyStr → PyStr
  | _, [] => []
  | p, c :: s => if c = ',' then ',' :: rm true s else if p && c = ' ' then rm false s else c :: rm false s

theorem rm_true {c : Char} (s : PyStr) (hc : c ≠ ' ') : rm true (c :: s) = rm false (c :: s) := by
  rw [rm, rm.eq_2 false c]
  simp [hc]

theorem replaceGo_eq : ∀ s : PyStr, replaceGo [',', ' '] [','] 0 s = rm false s
  | [] => rfl
  | [c] => by
    unfold replaceGo rm
    by_cases h : c = ','
    · subst h; simp [replaceGo, rm]
    · simp [replaceGo, rm, h]
  | c :: d :: s => by
    have ih1 := replaceGo_eq s
    have ih2 := replaceGo_eq (d :: s)
    unfold replaceGo
    by_cases h : c = ','
    · subst h
      by_cases h2 : d = ' '
      · subst h2
        rw [if_pos (by simp [List.isPrefixOf])]
        simp [replaceGo, ih1, rm]
      · rw [if_neg (by simpa [List.isPrefixOf] using fun h => h2 h.symm), ih2]
        rw [rm.eq_2 false ',', if_pos rfl, rm_true s h2]
    · rw [if_neg (by simpa [List.isPrefixOf] using fun h' _ => h h'.symm), ih2]
      rw [rm.eq_2 false c, if_neg h]
      simp

theorem pyReplace_comma (s : PyStr) : pyReplace s ", " "," = rm false s := replaceGo_eq s

/-- A block which prints as `A'`: it does not start with a space nor end with a comma. -/
def Blk (A A' : PyStr) : Prop := ∀ p s, rm p (A ++ s) = A' ++ rm false s

theorem Blk.append {A A' B B' : PyStr} (h : Blk A A') (h' : Blk B B') : Blk (A ++ B) (A' ++ B') := by
  intro p s
  rw [List.append_assoc, h, h', List.append_assoc]

theorem blk_char {c : Char} (h1 : c ≠ ',') (h2 : c ≠ ' ') : Blk [c] [c] := by
  intro p s
  rw [List.cons_append, rm]
  simp [h1, h2]

theorem blk_list {A : PyStr} (hne : A ≠ []) (h : ∀ c ∈ A, c ≠ ',' ∧ c ≠ ' ') : Blk A A := by
  induction A with
  | nil => exact absurd rfl hne
  | cons c A ih =>
    by_cases hA : A = []
    · subst hA; exact blk_char (h c (by simp)).1 (h c (by simp)).2
    · exact (blk_char (h c (by simp)).1 (h c (by simp)).2).append (ih hA fun d hd => h d (by simp [hd]))

theorem rm_comma (p : Bool) (s : PyStr) : rm p (',' :: ' ' :: s) = ',' :: rm false s := by
  simp [rm]

theorem rm_close (p : Bool) (s : PyStr) : rm p (',' :: ')' :: s) = ',' :: ')' :: rm false s := by
  simp [rm]

theorem rm_space (s : PyStr) : rm false (' ' :: s) = ' ' :: rm false s := by
  simp [rm]

/-! ### Texts -/

open Spec.Printing

theorem blk_tail (l : List (PyStr × PyStr)) (h : ∀ q ∈ l, Blk q.1 q.2) (s : PyStr) (a a' : PyStr)
    (ha : Blk a a') : rm false ((", ".toList).intercalate (a :: l.map (·.1)) ++ ')' :: s) =
      a' ++ tailText (l.map (·.2)) ++ rm false s := by
  induction l generalizing a a' with
  | nil => simp [ha false, tailText, rm]
  | cons q l ih =>
    rw [List.map_cons, List.map_cons, List.intercalate_cons_cons]
    have e : ", ".toList = [',', ' '] := rfl
    rw [List.append_assoc, List.append_assoc, ha, e, List.cons_append, List.cons_append, List.nil_append, rm_comma]
    rw [← e, ih (fun r hr => h r (by simp [hr])) q.1 q.2 (h q (by simp))]
    simp [tailText]

theorem blk_tuple (l : List (PyStr × PyStr)) (h : ∀ q ∈ l, Blk q.1 q.2) :
    Blk (tupleRepr (l.map (·.1))) (tupleText (l.map (·.2))) := by
  intro p s
  have hop : Blk ['('] ['('] := blk_char (by decide) (by decide)
  match l with
  | [] => exact (hop.append (blk_char (c := ')') (by decide) (by decide))) p s
  | [q] =>
    have hq := h q (by simp)
    show rm p (['('] ++ q.1 ++ [',', ')'] ++ s) = '(' :: (q.2 ++ [',', ')']) ++ rm false s
    rw [List.append_assoc, List.append_assoc, hop, hq]
    simp [rm]
  | q :: r :: l =>
    have hq := h q (by simp)
    show rm p (['('] ++ _ ++ [')'] ++ s) = _
    rw [List.append_assoc, List.append_assoc, hop]
    have := blk_tail (r :: l) (fun t ht => h t (by simp only [List.mem_cons] at ht ⊢; tauto)) s q.1 q.2 hq
    simp only [List.map_cons, List.singleton_append] at this ⊢
    rw [this]
    simp [tupleText]

/-- Keys whose `repr` loses its spaces. -/
class Text (K : Type) extends PyRepr K, KeyText K where
  blk : ∀ k, Blk (repr k) (text k)

theorem natStr_ne (n : Nat) : natStr n ≠ [] := Nat.toDigits_ne_nil

theorem natStr_digit {n : Nat} {c : Char} (h : c ∈ natStr n) : c.isDigit = true :=
  Nat.isDigit_of_mem_toDigits (by decide) (by decide) h

theorem natStr_inj {m n : Nat} (h : natStr m = natStr n) : m = n := by
  rw [← Nat.ofDigitChars_ten_toDigits (n := m), ← Nat.ofDigitChars_ten_toDigits (n := n)]
  unfold natStr at h
  rw [h]

theorem digit_ne {c d : Char} (h : c.isDigit = true) (hd : d.isDigit = false) : c ≠ d := by
  rintro rfl; rw [h] at hd; cases hd

theorem blk_nat (n : Nat) : Blk (natStr n) (natStr n) :=
  blk_list (natStr_ne n) fun _ hc => ⟨digit_ne (natStr_digit hc) rfl, digit_ne (natStr_digit hc) rfl⟩

instance : Text (List Nat) where
  blk k := by
    have := blk_tuple (k.map fun n => (natStr n, natStr n)) (by
      intro q hq
      obtain ⟨n, -, rfl⟩ := List.mem_map.1 hq
      exact blk_nat n)
    rw [List.map_map, List.map_map] at this
    exact this

instance : Text (List (List Nat)) where
  blk k := by
    have := blk_tuple (k.map fun n => (PyRepr.repr n, KeyText.text n)) (by
      intro q hq
      obtain ⟨n, -, rfl⟩ := List.mem_map.1 hq
      exact Text.blk n)
    rw [List.map_map, List.map_map] at this
    exact this

/-! ### Decoding -/

/-- A text delimited by what follows it. -/
structure Enc {A : Type} (e : A → PyStr) : Prop where
  head : ∀ a, ∃ c s, e a = c :: s ∧ c ≠ ')' ∧ c ≠ ',' ∧ c ≠ '+' ∧ c ≠ '-'
  inj : ∀ a b c d s t, c.isDigit = false → d.isDigit = false → e a ++ c :: s = e b ++ d :: t →
    a = b ∧ c :: s = d :: t

/-- A text which delimits itself. -/
def Sd {A : Type} (e : A → PyStr) : Prop := ∀ a b s t, e a ++ s = e b ++ t → a = b ∧ s = t

theorem enc_of_digits {A : Type} (e : A → PyStr) (hd : ∀ a, ∀ c ∈ e a, c.isDigit = true)
    (hinj : ∀ a b, e a = e b → a = b) (a b : A) (c d : Char) (s t : PyStr) (hc : c.isDigit = false)
    (hd' : d.isDigit = false) (h : e a ++ c :: s = e b ++ d :: t) : a = b ∧ c :: s = d :: t := by
  have key : ∀ a (c : Char) s, c.isDigit = false → (e a ++ c :: s).takeWhile Char.isDigit = e a := by
    intro a c s hc
    rw [List.takeWhile_append_of_pos (hd a), List.takeWhile_cons_of_neg (by simp [hc]), List.append_nil]
  have h1 : e a = e b := by rw [← key a c s hc, ← key b d t hd', h]
  refine ⟨hinj _ _ h1, ?_⟩
  rw [h1] at h
  exact List.append_cancel_left h

theorem enc_nat : Enc natStr where
  head n := by
    obtain ⟨c, s, hs⟩ := List.exists_cons_of_ne_nil (natStr_ne n)
    have hc : c.isDigit = true := natStr_digit (n := n) (by rw [hs]; simp)
    exact ⟨c, s, hs, digit_ne hc rfl, digit_ne hc rfl, digit_ne hc rfl, digit_ne hc rfl⟩
  inj := enc_of_digits natStr (fun _ _ h => natStr_digit h) fun _ _ => natStr_inj

theorem tailText_head (l : List PyStr) (s : PyStr) :
    ∃ c u, tailText l ++ s = c :: u ∧ c.isDigit = false := by
  cases l with
  | nil => exact ⟨')', s, rfl, rfl⟩
  | cons a l => exact ⟨',', _, rfl, rfl⟩

variable {A : Type} {e : A → PyStr}

theorem sd_tail (he : Enc e) (l m : List A) (s t : PyStr)
    (h : tailText (l.map e) ++ s = tailText (m.map e) ++ t) : l = m ∧ s = t := by
  induction l generalizing m with
  | nil =>
    cases m with
    | nil => exact ⟨rfl, by simpa [tailText] using h⟩
    | cons b m => simp [tailText] at h
  | cons a l ih =>
    cases m with
    | nil => simp [tailText] at h
    | cons b m =>
      simp only [List.map_cons, tailText, List.cons_append, List.append_assoc, List.cons.injEq, true_and] at h
      obtain ⟨c, u, hu, hc⟩ := tailText_head (l.map e) s
      obtain ⟨d, v, hv, hd⟩ := tailText_head (m.map e) t
      rw [hu, hv] at h
      obtain ⟨rfl, h2⟩ := he.inj _ _ _ _ _ _ hc hd h
      rw [← hu, ← hv] at h2
      obtain ⟨rfl, h3⟩ := ih m h2
      exact ⟨rfl, h3⟩

/-- A singleton or longer tuple after its bracket. -/
theorem tupleText_cons (a : PyStr) (l : List PyStr) (s : PyStr) :
    ∃ u, tupleText (a :: l) ++ s = '(' :: (a ++ ',' :: u) := by
  cases l with
  | nil => exact ⟨')' :: s, by simp [tupleText]⟩
  | cons b l => exact ⟨b ++ tailText l ++ s, by simp [tupleText, tailText]⟩

theorem sd_tuple (he : Enc e) : Sd fun k : List A => tupleText (k.map e) := by
  intro k m s t h
  simp only at h
  match k, m with
  | [], [] => exact ⟨rfl, by simpa [tupleText] using h⟩
  | [], b :: m =>
    obtain ⟨c, u, hu, h1, -⟩ := he.head b
    obtain ⟨v, hv⟩ := tupleText_cons (e b) (m.map e) t
    rw [List.map_cons, hv, hu] at h
    simp [tupleText] at h
    exact absurd h.1.symm h1
  | a :: l, [] =>
    obtain ⟨c, u, hu, h1, -⟩ := he.head a
    obtain ⟨v, hv⟩ := tupleText_cons (e a) (l.map e) s
    rw [List.map_cons, hv, hu] at h
    simp [tupleText] at h
    exact absurd h.1 h1
  | [a], [b] =>
    simp only [List.map_cons, List.map_nil, tupleText, List.cons_append, List.append_assoc, List.cons.injEq,
      true_and] at h
    obtain ⟨rfl, h2⟩ := he.inj _ _ _ _ _ _ (by decide) (by decide) h
    exact ⟨rfl, by simpa using h2⟩
  | [a], b :: b' :: m =>
    simp only [List.map_cons, List.map_nil, tupleText, tailText, List.cons_append, List.append_assoc,
      List.cons.injEq, true_and] at h
    obtain ⟨rfl, h2⟩ := he.inj _ _ _ _ _ _ (by decide) (by decide) h
    obtain ⟨c, u, hu, h1, -⟩ := he.head b'
    rw [hu] at h2
    simp at h2
    exact absurd h2.1.symm h1
  | a :: a' :: l, [b] =>
    simp only [List.map_cons, List.map_nil, tupleText, tailText, List.cons_append, List.append_assoc,
      List.cons.injEq, true_and] at h
    obtain ⟨rfl, h2⟩ := he.inj _ _ _ _ _ _ (by decide) (by decide) h
    obtain ⟨c, u, hu, h1, -⟩ := he.head a'
    rw [hu] at h2
    simp at h2
    exact absurd h2.1 h1
  | a :: a' :: l, b :: b' :: m =>
    simp only [List.map_cons, tupleText, List.cons_append, List.append_assoc,
      List.cons.injEq, true_and] at h
    rw [tailText, tailText] at h
    simp only [List.cons_append] at h
    obtain ⟨rfl, h2⟩ := he.inj _ _ _ _ _ _ (by decide) (by decide) h
    obtain ⟨h3, h4⟩ := sd_tail he (a' :: l) (b' :: m) s t (by simpa [tailText] using h2)
    exact ⟨by rw [h3], h4⟩

theorem enc_tuple (he : Enc e) : Enc fun k : List A => tupleText (k.map e) where
  head k := by
    refine ⟨'(', (tupleText (k.map e)).tail, ?_, by decide, by decide, by decide, by decide⟩
    rcases k with _ | ⟨a, _ | ⟨b, l⟩⟩ <;> simp [tupleText]
  inj a b c d s t _ _ h := sd_tuple he a b _ _ h

/-- The keys of the element classes. -/
class Key (K : Type) extends Text K where
  sd : Sd text
  start : ∀ k, ∃ s, text k = '(' :: s

theorem tupleText_start (l : List PyStr) : ∃ s, tupleText l = '(' :: s := by
  rcases l with _ | ⟨a, _ | ⟨b, l⟩⟩ <;> exact ⟨_, rfl⟩

instance : Key (List Nat) where
  sd := sd_tuple enc_nat
  start k := tupleText_start _

instance : Key (List (List Nat)) where
  sd := sd_tuple (e := fun k : List Nat => tupleText (k.map natStr)) (enc_tuple enc_nat)
  start k := tupleText_start _

/-! ### Elements -/

/-- One item with its sign and without the trailing space. -/
def piece {K : Type} [PyRepr K] (p : K × Int) : PyStr :=
  (if p.2 < 0 then ['-', ' '] else ['+', ' ']) ++ (if p.2.natAbs = 1 then [] else natStr p.2.natAbs) ++ PyRepr.repr p.1

theorem itemStr_eq {K : Type} [PyRepr K] (p : K × Int) (h : p.2 ≠ 0) : itemStr p = piece p ++ [' '] := by
  unfold itemStr piece
  split_ifs <;> first | omega | simp

theorem flatten_items {K : Type} [PyRepr K] (p : K × Int) (l : Dict K) (h : ∀ q ∈ p :: l, q.2 ≠ 0) :
    ((p :: l).map itemStr).flatten = (piece p ++ (l.map fun q => ' ' :: piece q).flatten) ++ [' '] := by
  induction l generalizing p with
  | nil => simp [itemStr_eq p (h p (by simp))]
  | cons q l ih =>
    rw [List.map_cons, List.flatten_cons, ih q fun r hr => h r (by simp only [List.mem_cons] at hr ⊢; tauto),
      itemStr_eq p (h p (by simp))]
    simp

theorem blk_coeff (n : Nat) {A A' : PyStr} (h : Blk A A') :
    Blk ((if n = 1 then [] else natStr n) ++ A) ((if n = 1 then [] else natStr n) ++ A') := by
  split
  · exact h
  · exact (blk_nat n).append h

theorem blk_sign (c : Char) (h1 : c ≠ ',') (h2 : c ≠ ' ') {A A' : PyStr} (h : Blk A A') :
    Blk (c :: ' ' :: A) (c :: ' ' :: A') := by
  intro p s
  have := blk_char h1 h2 p (' ' :: A ++ s)
  rw [List.singleton_append] at this
  rw [List.cons_append, List.cons_append]
  rw [List.cons_append] at this
  rw [this, rm_space, h]
  simp

theorem blk_rest {K : Type} [Text K] (l : Dict K) (s : PyStr) :
    rm false ((l.map fun q => ' ' :: piece q).flatten ++ s) =
      (l.map fun q => (if q.2 < 0 then " - ".toList else " + ".toList) ++ termText q).flatten ++ rm false s := by
  induction l with
  | nil => simp
  | cons q l ih =>
    rw [List.map_cons, List.map_cons, List.flatten_cons, List.flatten_cons, List.append_assoc, List.cons_append,
      rm_space]
    have : Blk (piece q) ((if q.2 < 0 then ['-', ' '] else ['+', ' ']) ++ termText q) := by
      unfold piece termText
      rw [List.append_assoc]
      split
      · exact blk_sign _ (by decide) (by decide) (blk_coeff _ (Text.blk _))
      · exact blk_sign _ (by decide) (by decide) (blk_coeff _ (Text.blk _))
    rw [this, ih]
    split <;> simp

theorem str_eq {K : Type} [Text K] (x : Elem K) (h : ∀ q ∈ x.data, q.2 ≠ 0) : x.str = .ok (strText x.data) := by
  unfold Elem.str baseStr
  match hx : x.data, h with
  | [], _ => rfl
  | p :: l, h =>
    simp only [List.isEmpty_cons, Bool.false_eq_true, if_false]
    rw [flatten_items p l h]
    have hb : Blk ((if p.2.natAbs = 1 then [] else natStr p.2.natAbs) ++ PyRepr.repr p.1) (termText p) :=
      blk_coeff _ (Text.blk _)
    have hr := blk_rest l []
    rw [List.append_nil, show rm false [] = [] from rfl, List.append_nil] at hr
    by_cases hp : p.2 < 0
    · have e : piece p = '-' :: ' ' :: ((if p.2.natAbs = 1 then [] else natStr p.2.natAbs) ++ PyRepr.repr p.1) := by
        unfold piece; rw [if_pos hp]; simp
      rw [e]
      simp only [List.cons_append]
      show Except.ok (pyReplace (List.dropLast (if '-' = '+' then _ else _)) _ _) = _
      rw [if_neg (by decide)]
      rw [← List.cons_append, ← List.cons_append, List.dropLast_concat, pyReplace_comma]
      rw [← List.cons_append, ← List.cons_append, blk_sign _ (by decide) (by decide) hb, hr]
      simp [strText, sumOf, hp]
    · have e : piece p = '+' :: ' ' :: ((if p.2.natAbs = 1 then [] else natStr p.2.natAbs) ++ PyRepr.repr p.1) := by
        unfold piece; rw [if_neg hp]; simp
      rw [e]
      simp only [List.cons_append]
      show Except.ok (pyReplace (List.dropLast (List.drop 2 ('+' :: ' ' :: (_ : List Char)))) _ _) = _
      simp only [List.drop_succ_cons, List.drop_zero]
      rw [List.dropLast_concat, pyReplace_comma, hb, hr]
      simp [strText, sumOf, hp]

/-! ### Injectivity -/

section
variable {K : Type} [Key K]

theorem termText_start (p : K × Int) : ∃ c s, termText p = c :: s ∧ (c.isDigit = true ∨ c = '(') := by
  obtain ⟨s, hs⟩ := Key.start p.1
  unfold termText termOf
  rw [hs]
  split
  · exact ⟨_, _, rfl, Or.inr rfl⟩
  · obtain ⟨c, u, hu⟩ := List.exists_cons_of_ne_nil (natStr_ne p.2.natAbs)
    exact ⟨c, u ++ '(' :: s, by rw [hu]; rfl, Or.inl (natStr_digit (n := p.2.natAbs) (by rw [hu]; simp))⟩

theorem termText_inj (p q : K × Int) (s t : PyStr) (h : termText p ++ s = termText q ++ t) :
    p.1 = q.1 ∧ p.2.natAbs = q.2.natAbs ∧ s = t := by
  obtain ⟨u, hu⟩ := Key.start p.1
  obtain ⟨v, hv⟩ := Key.start q.1
  unfold termText termOf at h
  have key : ∀ (n : Nat) (w : PyStr), ∃ c r, natStr n ++ w = c :: r ∧ c.isDigit = true := by
    intro n w
    obtain ⟨c, u, hu⟩ := List.exists_cons_of_ne_nil (natStr_ne n)
    exact ⟨c, u ++ w, by rw [hu]; rfl, natStr_digit (n := n) (by rw [hu]; simp)⟩
  have hd : Char.isDigit '(' = false := rfl
  split_ifs at h with h1 h2 h2
  · obtain ⟨h3, h4⟩ := Key.sd _ _ _ _ h
    exact ⟨h3, by omega, h4⟩
  · exfalso
    rw [hu] at h
    simp only [List.append_assoc] at h
    obtain ⟨c, r, hc, hcd⟩ := key q.2.natAbs (KeyText.text q.1 ++ t)
    rw [hc] at h
    simp only [List.nil_append, List.cons_append, List.cons.injEq] at h
    rw [← h.1, hd] at hcd
    cases hcd
  · exfalso
    rw [hv] at h
    simp only [List.append_assoc] at h
    obtain ⟨c, r, hc, hcd⟩ := key p.2.natAbs (KeyText.text p.1 ++ s)
    rw [hc] at h
    simp only [List.nil_append, List.cons_append, List.cons.injEq] at h
    rw [h.1, hd] at hcd
    cases hcd
  · rw [List.append_assoc, List.append_assoc, hu, hv, List.cons_append, List.cons_append] at h
    obtain ⟨h3, h4⟩ := enc_nat.inj _ _ _ _ _ _ hd hd h
    rw [← List.cons_append, ← List.cons_append, ← hu, ← hv] at h4
    obtain ⟨h5, h6⟩ := Key.sd _ _ _ _ h4
    exact ⟨h5, h3, h6⟩

theorem rest_inj (l m : Dict K) (hl : ∀ q ∈ l, q.2 ≠ 0) (hm : ∀ q ∈ m, q.2 ≠ 0)
    (h : (l.map fun q => (if q.2 < 0 then " - ".toList else " + ".toList) ++ termText q).flatten =
      (m.map fun q => (if q.2 < 0 then " - ".toList else " + ".toList) ++ termText q).flatten) : l = m := by
  have hs : ∀ z : Int, (if z < 0 then " - ".toList else " + ".toList) = [' ', if z < 0 then '-' else '+', ' '] := by
    intro z; split <;> rfl
  induction l generalizing m with
  | nil =>
    cases m with
    | nil => rfl
    | cons q m => rw [List.map_cons, List.flatten_cons, hs] at h; simp at h
  | cons p l ih =>
    cases m with
    | nil => rw [List.map_cons, List.flatten_cons, hs] at h; simp at h
    | cons q m =>
      rw [List.map_cons, List.flatten_cons, List.map_cons, List.flatten_cons, hs, hs] at h
      simp only [List.cons_append, List.nil_append, List.cons.injEq, true_and] at h
      obtain ⟨h1, h2⟩ := h
      obtain ⟨h3, h4, h5⟩ := termText_inj _ _ _ _ h2
      have hp := hl p (by simp)
      have hq := hm q (by simp)
      have : p.2 = q.2 := by
        by_cases a : p.2 < 0 <;> by_cases b : q.2 < 0
        · omega
        · rw [if_pos a, if_neg b] at h1; exact absurd h1 (by decide)
        · rw [if_neg a, if_pos b] at h1; exact absurd h1 (by decide)
        · omega
      rw [Prod.ext h3 this, ih m (fun r hr => hl r (by simp [hr])) (fun r hr => hm r (by simp [hr])) h5]

theorem strText_inj (l m : Dict K) (hl : ∀ q ∈ l, q.2 ≠ 0) (hm : ∀ q ∈ m, q.2 ≠ 0)
    (h : strText l = strText m) : l = m := by
  have z0 : ∀ (q : K × Int) (w : PyStr), '0' :: [] ≠ termText q ++ w := by
    intro q w hq
    have := congrArg (fun s => decide ('(' ∈ s)) hq
    obtain ⟨s, hs⟩ := Key.start q.1
    simp [termText, termOf, hs] at this
  have hcons : ∀ p (l : Dict K), strText (p :: l) = (if p.2 < 0 then "- ".toList else []) ++ termText p ++
      (l.map fun q => (if q.2 < 0 then " - ".toList else " + ".toList) ++ termText q).flatten := fun _ _ => rfl
  have hm' : ∀ (q : K × Int) (w u : PyStr), '-' :: u ≠ termText q ++ w := by
    intro q w u hq
    obtain ⟨c, s, hs, hc⟩ := termText_start q
    rw [hs, List.cons_append, List.cons.injEq] at hq
    rw [← hq.1] at hc
    revert hc
    decide
  match l, m with
  | [], [] => rfl
  | [], q :: m =>
    rw [hcons, show strText ([] : Dict K) = ['0'] from rfl] at h
    split at h
    · exact absurd h (by simp)
    · exact absurd (by simpa using h) (z0 q _)
  | p :: l, [] =>
    rw [hcons, show strText ([] : Dict K) = ['0'] from rfl] at h
    split at h
    · exact absurd h (by simp)
    · exact absurd (by simpa using h.symm) (z0 p _)
  | p :: l, q :: m =>
    rw [hcons, hcons] at h
    have hp := hl p (by simp)
    have hq := hm q (by simp)
    have fin : termText p ++ (l.map fun q => (if q.2 < 0 then " - ".toList else " + ".toList) ++ termText q).flatten =
        termText q ++ (m.map fun q => (if q.2 < 0 then " - ".toList else " + ".toList) ++ termText q).flatten →
        (p.2 < 0 ↔ q.2 < 0) → p :: l = q :: m := by
      intro h1 h2
      obtain ⟨h3, h4, h5⟩ := termText_inj _ _ _ _ h1
      rw [Prod.ext h3 (by omega : p.2 = q.2), rest_inj l m (fun r hr => hl r (by simp [hr]))
        (fun r hr => hm r (by simp [hr])) h5]
    have e : "- ".toList = ['-', ' '] := rfl
    rw [e] at h
    split_ifs at h with h1 h2 h2
    · refine fin (by simpa [List.append_assoc] using h) (by tauto)
    · exact absurd (by simpa [List.append_assoc] using h) (hm' q _ _)
    · exact absurd (by simpa [List.append_assoc] using h.symm) (hm' p _ _)
    · refine fin (by simpa [List.append_assoc] using h) (by tauto)

end

end Comch.Printing
