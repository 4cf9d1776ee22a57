import Verif.Lib.Tensor

/-!
# Facts used by all chain classes
-/

set_option linter.unusedSectionVars false

namespace Comch
open Finsupp

theorem uniqueValue_eq_some {α : Type} [DecidableEq α] {l : List α} {a : α} :
    uniqueValue l = some a ↔ l ≠ [] ∧ ∀ b ∈ l, b = a := by
  cases l with
  | nil => simp [uniqueValue]
  | cons c t =>
    simp only [uniqueValue, List.all_eq_true, beq_iff_eq]
    constructor
    · intro h
      split at h
      · rename_i hc
        cases h
        simpa using hc
      · cases h
    · rintro ⟨-, h⟩
      have hc : c = a := h c (by simp)
      subst hc
      rw [if_pos]
      intro b hb
      exact h b (List.mem_cons_of_mem _ hb)

theorem uniqueValue_eq_none {α : Type} [DecidableEq α] {l : List α} :
    uniqueValue l = none ↔ l = [] ∨ ∃ a ∈ l, ∃ b ∈ l, a ≠ b := by
  cases l with
  | nil => simp [uniqueValue]
  | cons c t =>
    simp only [uniqueValue]
    constructor
    · intro h
      right
      split at h
      · cases h
      · rename_i hc
        simp only [List.all_eq_true, beq_iff_eq, not_forall] at hc
        obtain ⟨b, hb, hne⟩ := hc
        exact ⟨b, List.mem_cons_of_mem _ hb, c, by simp, hne⟩
    · rintro (h | ⟨a, ha, b, hb, hne⟩)
      · cases h
      · rw [if_neg]
        intro hc
        simp only [List.all_eq_true, beq_iff_eq] at hc
        have h1 : ∀ x ∈ c :: t, x = c := by simpa using hc
        exact hne ((h1 a ha).trans (h1 b hb).symm)

theorem sum_flatMap {α M : Type} [AddMonoid M] (l : List α) (f : α → List M) :
    (l.flatMap f).sum = (l.map fun a => (f a).sum).sum := by
  induction l with
  | nil => rfl
  | cons a l ih => simp [List.flatMap_cons, ih]

theorem enumerate_nil {α : Type} : enumerate ([] : List α) = [] := rfl

theorem enumerate_cons {α : Type} (a : α) (l : List α) :
    enumerate (a :: l) = (0, a) :: (enumerate l).map fun p => (p.1 + 1, p.2) := by
  unfold enumerate
  rw [List.length_cons, List.range_succ_eq_map, List.zip_cons_cons, List.zip_map_left]
  rfl

theorem enumerate_eq_map {α : Type} (l : List α) (d : α) :
    enumerate l = (List.range l.length).map fun i => (i, l.getD i d) := by
  induction l with
  | nil => rfl
  | cons a l ih =>
    rw [enumerate_cons, List.length_cons, List.range_succ_eq_map, ih]
    simp

theorem mem_enumerate {α : Type} {l : List α} {p : Nat × α} :
    p ∈ enumerate l ↔ l[p.1]? = some p.2 := by
  obtain ⟨i, a⟩ := p
  induction l generalizing i with
  | nil => simp [enumerate]
  | cons b l ih =>
    rw [enumerate_cons]
    cases i with
    | zero =>
      simp only [List.mem_cons, Prod.mk.injEq, true_and, List.mem_map, Nat.add_eq_zero_iff,
        one_ne_zero, and_false, false_and, exists_false, or_false, List.getElem?_cons_zero,
        Option.some.injEq]
      exact eq_comm
    | succ i =>
      simp only [List.mem_cons, Prod.mk.injEq, Nat.add_eq_zero_iff, one_ne_zero, and_false,
        false_and, List.mem_map, Nat.add_right_cancel_iff, false_or, List.getElem?_cons_succ]
      rw [← ih]
      constructor
      · rintro ⟨⟨j, c⟩, hm, rfl, rfl⟩; exact hm
      · intro h; exact ⟨(i, a), h, rfl, rfl⟩

namespace Elem
variable {K : Type} [DecidableEq K]

theorem mem_keys_update {d e : Dict K} {k : K} (h : k ∈ (d.update e).map Prod.fst) :
    k ∈ d.map Prod.fst ∨ k ∈ e.map Prod.fst := by
  unfold Dict.update at h
  induction e generalizing d with
  | nil => exact Or.inl h
  | cons p e ih =>
    rcases ih h with h | h
    · rw [Dict.mem_keys_set] at h
      rcases h with h | h
      · exact Or.inl h
      · right; simp [h]
    · right; simp only [List.map_cons, List.mem_cons]; exact Or.inr h

theorem mem_keys_subtract {d e : Dict K} {k : K} (h : k ∈ (d.subtract e).map Prod.fst) :
    k ∈ d.map Prod.fst ∨ k ∈ e.map Prod.fst := by
  unfold Dict.subtract at h
  induction e generalizing d with
  | nil => exact Or.inl h
  | cons p e ih =>
    rcases ih h with h | h
    · rw [Dict.mem_keys_set] at h
      rcases h with h | h
      · exact Or.inl h
      · right; simp [h]
    · right; simp only [List.map_cons, List.mem_cons]; exact Or.inr h

theorem mem_keys_preferredRep {C : Cls K} {x : Elem K} {k : K}
    (h : k ∈ (preferredRep C x).data.map Prod.fst) : k ∈ x.data.map Prod.fst := by
  have := (basePreferredRep_sublist_keys x.torsion (zeroDropped C.drops x.data)).subset h
  rwa [zeroDropped_keys] at this

theorem mem_keys_create {C : Cls K} {x : Elem K} {d : Dict K} {k : K}
    (h : k ∈ (create C x d).data.map Prod.fst) : k ∈ d.map Prod.fst := by
  have h1 := mem_keys_preferredRep (C := C) (x := { new C d with attrs := x.attrs }) h
  exact mem_keys_preferredRep (C := C)
    (x := ⟨d, { torsion := (none : Option Nat).getD C.defaultTorsion }⟩) h1

theorem mem_keys_new {C : Cls K} {d : Dict K} {t : Option Nat} {c : Convention} {k : K}
    (h : k ∈ (new C d t c).data.map Prod.fst) : k ∈ d.map Prod.fst :=
  mem_keys_preferredRep (C := C)
    (x := ⟨d, { torsion := t.getD C.defaultTorsion, convention := c }⟩) h

theorem mem_keys_iaddCore {C : Cls K} {x y : Elem K} {k : K}
    (h : k ∈ (iaddCore C x y).data.map Prod.fst) :
    k ∈ x.data.map Prod.fst ∨ k ∈ y.data.map Prod.fst :=
  mem_keys_update (mem_keys_preferredRep (C := C) (x := { x with data := x.data.update y.data }) h)

theorem mem_keys_accumulate {C : Cls K} {x : Elem K} {ev : List (K × Int)} {k : K}
    (h : k ∈ (accumulate C x ev).data.map Prod.fst) :
    k ∈ x.data.map Prod.fst ∨ k ∈ ev.map Prod.fst := by
  unfold accumulate at h
  induction ev generalizing x with
  | nil => exact Or.inl h
  | cons e ev ih =>
    rcases ih h with h | h
    · rcases mem_keys_iaddCore h with h | h
      · exact Or.inl h
      · have := mem_keys_create h
        right
        simp only [List.map_cons, List.map_nil, List.mem_singleton] at this
        simp [this]
    · right
      simp only [List.map_cons, List.mem_cons]
      exact Or.inr h

theorem mem_keys_accumulate_zero {C : Cls K} {x : Elem K} {ev : List (K × Int)} {k : K}
    (h : k ∈ (accumulate C (x.zero C) ev).data.map Prod.fst) : k ∈ ev.map Prod.fst := by
  rcases mem_keys_accumulate h with h | h
  · simp at h
  · exact h

/-- The keys of a normal form are its support. -/
theorem NF.mem_keys_iff {C : Cls K} {x : Elem K} (hx : x.NF C) {k : K} :
    k ∈ x.data.map Prod.fst ↔ den (ZMod x.torsion) x.data k ≠ 0 := by
  rw [Dict.den_apply hx.nodup]
  constructor
  · intro h
    obtain ⟨p, hp, rfl⟩ := List.mem_map.1 h
    rw [Dict.get_of_mem hx.nodup hp, Ne, ZMod.intCast_zmod_eq_zero_iff_dvd]
    intro hd
    by_cases h0 : x.torsion = 0
    · rw [h0] at hd
      exact hx.coeff_ne p hp (by simpa using hd)
    · have h1 := hx.coeff_range h0 p hp
      have h2 := hx.coeff_ne p hp
      have := Int.le_of_dvd (by omega) hd
      omega
  · intro h
    by_contra hn
    rw [Dict.get_of_not_mem hn] at h
    simp at h

theorem den_accumulate_zero' (C : Cls K) (x : Elem K) (ev : List (K × Int))
    (hD : C.defaultTorsion = 0) {n : Nat} (hn : x.torsion = n) :
    den (ZMod n) (accumulate C (x.zero C) ev).data = pr C.drops (den (ZMod n) ev) :=
  den_accumulate_zero C x ev (by rw [hD]; simp) (tz hn)

theorem nf_accumulate_zero (C : Cls K) (x : Elem K) (ev : List (K × Int)) :
    (accumulate C (x.zero C) ev).NF C := nf_accumulate (nf_zero C x) ev

end Elem

/-- `mapM` in `Py` succeeds when every call does. -/
theorem mapM_ok {α β : Type} {f : α → Py β} {g : α → β} {l : List α}
    (h : ∀ a ∈ l, f a = .ok (g a)) : l.mapM f = .ok (l.map g) := by
  induction l with
  | nil => rfl
  | cons a l ih =>
    rw [List.mapM_cons, h a (by simp), ih fun b hb => h b (List.mem_cons_of_mem _ hb)]
    rfl

theorem mapM_ok_iff {α β : Type} {f : α → Py β} {l : List α} {m : List β} :
    l.mapM f = .ok m ↔ List.Forall₂ (fun a b => f a = .ok b) l m := by
  induction l generalizing m with
  | nil =>
    constructor
    · intro h; cases h; exact .nil
    · intro h; cases h; rfl
  | cons a l ih =>
    rw [List.mapM_cons]
    constructor
    · intro h
      cases ha : f a with
      | error e => rw [ha] at h; cases h
      | ok b =>
        rw [ha] at h
        cases hl : l.mapM f with
        | error e => rw [hl] at h; cases h
        | ok m' =>
          rw [hl] at h
          cases h
          exact .cons ha (ih.1 hl)
    · intro h
      cases h with
      | cons h1 h2 => rw [h1, ih.2 h2]; rfl

theorem mem_pyProduct {α β : Type} {l : List α} {m : List β} {p : α × β} :
    p ∈ pyProduct l m ↔ p.1 ∈ l ∧ p.2 ∈ m := by
  obtain ⟨a, b⟩ := p
  simp [pyProduct]

theorem mem_pyRange {a b i : Nat} : i ∈ pyRange a b ↔ a ≤ i ∧ i < b := by
  unfold pyRange
  rw [List.mem_range'_1]
  omega

end Comch

namespace Comch
open Finsupp Elem

section
variable {K K' : Type} [DecidableEq K] [DecidableEq K']

/-- An operation described by a linear map (for the module of its argument) is additive. -/
theorem additive_of_den {C : Cls K} {C' : Cls K'} (op : Elem K → Elem K')
    (D : (n : Nat) → (K →₀ ZMod n) →ₗ[ZMod n] (K' →₀ ZMod n))
    (hden : ∀ x, x.NF C → den (ZMod x.torsion) (op x).data = D x.torsion (den _ x.data))
    (hnf : ∀ x, (op x).NF C') (ht : ∀ x, (op x).torsion = x.torsion)
    (hC : C.defaultTorsion = 0) (hC' : C'.defaultTorsion = 0)
    {x y z : Elem K} (hx : x.NF C) (hy : y.NF C) (h : add C x y = .ok z) :
    ∃ w, add C' (op x) (op y) = .ok w ∧ pyEq (op z) w = true := by
  have hxy := torsion_eq_of_add h
  have hz := torsion_congr (attrs_add h)
  obtain ⟨w, hw⟩ := add_ok (C := C') (x := op x) (y := op y) (by rw [ht, ht, hxy])
  have hwt := torsion_congr (attrs_add hw)
  refine ⟨w, hw, pyEq_of_den (n := x.torsion) (hnf z) (nf_add hw (hnf x)) ?_ ?_ ?_⟩
  · rw [ht, hz]
  · rw [hwt, ht]
  · have hzn := nf_add h hx
    have h1 := hden z hzn
    rw [hz] at h1
    have h2 := hden y hy
    rw [← hxy] at h2
    rw [h1, den_add hw (hnf x) (hnf y) (by rw [hC']; simp) (by rw [ht]; simp), hden x hx, h2, ← map_add,
      den_add h hx hy (by rw [hC]; simp) (by simp)]

/-- The stored coefficients of an accumulated sum. -/
theorem coeff_accumulate_zero {C : Cls K} (x : Elem K) (ev : List (K × Int))
    (hD : C.defaultTorsion = 0) (m : K) (hm : C.drops m = false) :
    (accumulate C (x.zero C) ev).coeff m ≡
      (ev.map fun e => if e.1 = m then e.2 else 0).sum [ZMOD x.torsion] := by
  rw [← ZMod.intCast_eq_intCast_iff]
  have h := den_accumulate_zero' C x ev hD (n := x.torsion) rfl
  have h2 := DFunLike.congr_fun h m
  rw [Dict.den_apply (nf_accumulate_zero C x ev).nodup, pr_apply, hm] at h2
  simp only [Bool.false_eq_true, if_false] at h2
  rw [coeff, h2]
  clear h h2
  induction ev with
  | nil => simp
  | cons e ev ih =>
    rw [den_cons, Finsupp.add_apply, ih, List.map_cons, List.sum_cons, Int.cast_add]
    congr 1
    rw [Finsupp.single_apply]
    split <;> simp

end
end Comch

namespace Comch
open Elem

theorem sum_pyProduct {α β M : Type} [AddMonoid M] (d : List α) (e : List β) (f : α × β → M) :
    ((pyProduct d e).map f).sum = (d.map fun p => (e.map fun q => f (p, q)).sum).sum := by
  unfold pyProduct
  rw [List.map_flatMap, sum_flatMap]
  simp [List.map_map, Function.comp_def]

/-- Coefficients from the vector. -/
theorem coeff_of_den {K : Type} [DecidableEq K] {C : Cls K} {x : Elem K} {n : Nat} {ev : List (K × Int)}
    (hx : x.NF C) (h : den (ZMod n) x.data = pr C.drops (den _ ev)) {m : K}
    (hm : C.drops m = false) :
    x.coeff m ≡ (ev.map fun e => if e.1 = m then e.2 else 0).sum [ZMOD n] := by
  rw [← ZMod.intCast_eq_intCast_iff]
  have h2 := DFunLike.congr_fun h m
  rw [Dict.den_apply hx.nodup, pr_apply, hm] at h2
  simp only [Bool.false_eq_true, if_false] at h2
  rw [coeff, h2]
  clear h h2
  induction ev with
  | nil => simp
  | cons e ev ih =>
    rw [den_cons, Finsupp.add_apply, ih, List.map_cons, List.sum_cons, Int.cast_add]
    congr 1
    rw [Finsupp.single_apply]
    split <;> simp

end Comch
