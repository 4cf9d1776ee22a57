import Verif.Lib.BarrattEccles
import Verif.Spec.Chains
import Verif.Props.Diagonal

/-! # The diagonal of the Barratt-Eccles operad -/

set_option linter.unusedSectionVars false

namespace Comch
open Spec Elem
open Finsupp (single)

section
variable {A : Type} [DecidableEq A]

theorem glue_singleton (s : List A) : glue [s] = some s := rfl

theorem glue_snoc (c : List (List A)) (hc : c ≠ []) (q a : List A) :
    glue (c ++ [q]) = some a ↔
      ∃ u x w, glue c = some u ∧ u.getLast? = some x ∧ q = x :: w ∧ a = u ++ w := by
  induction c generalizing a with
  | nil => exact absurd rfl hc
  | cons p c ih =>
    cases c with
    | nil =>
      rw [List.singleton_append, Props.glue_cons, glue_singleton, glue_singleton]
      cases q with
      | nil => simp
      | cons x w =>
        simp only [Option.ite_none_right_eq_some, Option.some.injEq]
        constructor
        · rintro ⟨h1, h2⟩
          exact ⟨p, x, w, rfl, h1, rfl, h2.symm⟩
        · rintro ⟨u, x', w', rfl, h1, h2, h3⟩
          obtain ⟨rfl, rfl⟩ := List.cons.inj h2
          exact ⟨h1, h3.symm⟩
    | cons p' c =>
      rw [List.cons_append, List.cons_append, Props.glue_cons, Props.glue_cons]
      have ih' := ih (by simp)
      rw [List.cons_append] at ih'
      constructor
      · intro h
        rcases hg : glue (p' :: (c ++ [q])) with _ | _ | ⟨y, v⟩
        · rw [hg] at h; cases h
        · rw [hg] at h; cases h
        · rw [hg] at h
          simp only [Option.ite_none_right_eq_some, Option.some.injEq] at h
          obtain ⟨u, x, w, h1, h2, h3, h4⟩ := (ih' _).1 hg
          cases u with
          | nil => simp at h2
          | cons y' u =>
            obtain ⟨rfl, rfl⟩ := List.cons.inj h4
            refine ⟨p ++ u, x, w, ?_, ?_, h3, ?_⟩
            · rw [h1]; simp [h.1]
            · cases u with
              | nil =>
                simp only [List.getLast?_singleton, Option.some.injEq] at h2
                rw [List.append_nil, h.1, h2]
              | cons b u =>
                rw [List.getLast?_append_of_ne_nil _ (by simp)]
                simpa [List.getLast?_cons] using h2
            · rw [← h.2]; simp
      · rintro ⟨u, x, w, h1, h2, h3, h4⟩
        rcases hg : glue (p' :: c) with _ | _ | ⟨y, v⟩
        · rw [hg] at h1; cases h1
        · rw [hg] at h1; cases h1
        · rw [hg] at h1
          simp only [Option.ite_none_right_eq_some, Option.some.injEq] at h1
          obtain ⟨h1, rfl⟩ := h1
          have h5 := (ih' (y :: v ++ w)).2 ⟨y :: v, x, w, hg, ?_, h3, rfl⟩
          · rw [h5]
            simp [h1, h4]
          · cases v with
            | nil =>
              rw [List.append_nil, h1] at h2
              simpa using h2
            | cons b v =>
              rw [List.getLast?_append_of_ne_nil _ (by simp)] at h2
              simpa [List.getLast?_cons] using h2

theorem glue_ne_nil {c : List (List A)} (h : 2 ≤ c.length) {a : List A} (hg : glue c = some a) : a ≠ [] := by
  rcases c with _ | ⟨p, _ | ⟨q, c⟩⟩
  · simp at h
  · simp at h
  · rw [Props.glue_cons] at hg
    rcases hg' : glue (q :: c) with _ | _ | ⟨y, v⟩
    · rw [hg'] at hg; cases hg
    · rw [hg'] at hg; cases hg
    · rw [hg'] at hg
      simp only [Option.ite_none_right_eq_some, Option.some.injEq] at hg
      rintro rfl
      have := (List.append_eq_nil_iff.1 hg.2).1
      rw [this] at hg
      simp at hg

end

namespace BElem

theorem mem_splits {r : Nat} {L : List DKey} {m : DKey} :
    m ∈ splits r L ↔ (r = 0 ∧ m ∈ L) ∨
      (r ≠ 0 ∧ ∃ a b c, a :: b ∈ L ∧ c.length = r + 1 ∧ glue c = some a ∧ m = c ++ b) := by
  induction r generalizing L with
  | zero => simp [splits]
  | succ r ih =>
    rw [splits, ih]
    have hne : r + 1 ≠ 0 := by omega
    simp only [hne, false_and, ne_eq, not_false_eq_true, true_and, false_or, List.mem_dedup,
      List.mem_flatMap]
    have hsplit : ∀ (l : DKey) (m : DKey), m ∈ split l ↔
        ∃ a b i, l = a :: b ∧ i < a.length ∧ m = a.take (i + 1) :: a.drop i :: b := by
      intro l m
      cases l with
      | nil => simp [split]
      | cons a b =>
        simp only [split, List.mem_map, List.mem_range, List.cons_append, List.nil_append]
        constructor
        · rintro ⟨i, hi, rfl⟩; exact ⟨a, b, i, rfl, hi, rfl⟩
        · rintro ⟨a', b', i, h, hi, rfl⟩
          obtain ⟨rfl, rfl⟩ := List.cons.inj h
          exact ⟨i, hi, rfl⟩
    have htd : ∀ (a : BKey) (i : Nat) (hi : i < a.length), ∃ x w, a.drop i = x :: w ∧
        (a.take (i + 1)).getLast? = some x ∧ a = a.take (i + 1) ++ w := by
      intro a i hi
      refine ⟨a[i], a.drop (i + 1), List.drop_eq_getElem_cons hi, ?_, (List.take_append_drop _ _).symm⟩
      rw [List.take_succ_eq_append_getElem hi, List.getLast?_append_of_ne_nil _ (by simp)]
      rfl
    constructor
    · rintro (⟨rfl, l, hl, hm⟩ | ⟨h0, a, b, c, ⟨l, hl, hm⟩, h1, h2, h3⟩)
      · obtain ⟨a, b, i, rfl, hi, rfl⟩ := (hsplit _ _).1 hm
        obtain ⟨x, w, e1, e2, e3⟩ := htd a i hi
        refine ⟨a, b, [a.take (i + 1), a.drop i], hl, rfl, ?_, rfl⟩
        exact (glue_snoc [a.take (i + 1)] (by simp) _ _).2 ⟨_, x, w, rfl, e2, e1, e3⟩
      · obtain ⟨a', b', i, rfl, hi, he⟩ := (hsplit _ _).1 hm
        obtain ⟨rfl, rfl⟩ := List.cons.inj he
        obtain ⟨x, w, e1, e2, e3⟩ := htd a' i hi
        refine ⟨a', b', c ++ [a'.drop i], hl, by simp [h1], ?_, by simp [h3]⟩
        exact (glue_snoc c (by rintro rfl; simp at h1) _ _).2 ⟨_, x, w, h2, e2, e1, e3⟩
    · rintro ⟨a, b, c, hl, h1, h2, rfl⟩
      have hc : c ≠ [] := by rintro rfl; simp at h1
      obtain ⟨c', q, rfl⟩ : ∃ c' q, c = c' ++ [q] := ⟨_, _, (List.dropLast_append_getLast hc).symm⟩
      have hc' : c' ≠ [] := by rintro rfl; simp at h1
      obtain ⟨u, x, w, g1, g2, rfl, rfl⟩ := (glue_snoc c' hc' _ _).1 h2
      have hu : u ≠ [] := by rintro rfl; simp at g2
      have hul : 0 < u.length := List.length_pos_iff.2 hu
      have hi : u.length - 1 < (u ++ w).length := by simp; omega
      have e1 : (u ++ w).take (u.length - 1 + 1) = u := by
        rw [Nat.sub_add_cancel hul]; simp
      have e2 : (u ++ w).drop (u.length - 1) = x :: w := by
        have hd := List.dropLast_append_getLast hu
        have hx : u.getLast hu = x := by
          rw [List.getLast?_eq_some_getLast hu] at g2; simpa using g2
        rw [hx] at hd
        have hl : u.dropLast.length = u.length - 1 := by simp
        conv_lhs => rw [← hl, ← hd]
        simp
      have hmem : u :: (x :: w) :: b ∈ split ((u ++ w) :: b) :=
        (hsplit _ _).2 ⟨_, _, _, rfl, hi, by rw [e1, e2]⟩
      by_cases h0 : r = 0
      · refine Or.inl ⟨h0, _, hl, ?_⟩
        subst h0
        have : c'.length = 1 := by simpa using h1
        obtain ⟨p, rfl⟩ := List.length_eq_one_iff.1 this
        simp only [glue_singleton, Option.some.injEq] at g1
        subst g1
        simpa using hmem
      · exact Or.inr ⟨h0, u, (x :: w) :: b, c', ⟨_, hl, hmem⟩, by simpa using h1, g1, by simp⟩

theorem nodup_splits {r : Nat} {L : List DKey} (h : L.Nodup) : (splits r L).Nodup := by
  induction r generalizing L with
  | zero => exact h
  | succ r ih => exact ih (List.nodup_dedup _)

theorem mem_splits_single {r : Nat} {k : BKey} {m : DKey} :
    m ∈ splits r [[k]] ↔ m.length = r + 1 ∧ glue m = some k := by
  rw [mem_splits]
  constructor
  · rintro (⟨rfl, h⟩ | ⟨_, a, b, c, h, h1, h2, rfl⟩)
    · rw [List.mem_singleton.1 h]; exact ⟨rfl, rfl⟩
    · obtain ⟨rfl, rfl⟩ := List.cons.inj (List.mem_singleton.1 h)
      simpa using ⟨h1, h2⟩
  · rintro ⟨h1, h2⟩
    by_cases h0 : r = 0
    · subst h0
      obtain ⟨p, rfl⟩ := List.length_eq_one_iff.1 h1
      simp only [glue_singleton, Option.some.injEq] at h2
      subst h2
      exact Or.inl ⟨rfl, by simp⟩
    · exact Or.inr ⟨h0, k, [], m, by simp, h1, h2, by simp⟩

/-- Linear form of the diagonal. -/
noncomputable def diagK (R : Type) [CommRing R] (r : Nat) (k : BKey) : DKey →₀ R :=
  ((splits r [[k]]).map fun m => bv R m).sum

theorem diagonal_spec (x : BElem) (r : Nat) {n : Nat} (hn : x.torsion = n) :
    (x.diagonal r).NF (freeModule DKey) ∧ (x.diagonal r).torsion = n ∧
      den (ZMod n) (x.diagonal r).data = lin (diagK _ r) (den _ x.data) := by
  unfold diagonal
  have key : ∀ (d : Dict BKey) (ans : Elem DKey), ans.NF (freeModule DKey) → ans.torsion = n →
      ∀ z, z = d.foldl (fun answer (p : BKey × Int) =>
        Elem.iaddCore (freeModule DKey) answer
          (answer.create (freeModule DKey) ((splits r [[p.1]]).map fun m => (m, p.2)))) ans →
      z.NF (freeModule DKey) ∧ z.torsion = n ∧
        den (ZMod n) z.data = den _ ans.data + lin (diagK _ r) (den _ d) := by
    intro d
    induction d with
    | nil => rintro ans h1 h2 z rfl; exact ⟨h1, h2, by simp⟩
    | cons p d ih =>
      intro ans h1 h2 z hz
      have hz' := ih (iaddCore (freeModule DKey) ans
        (ans.create (freeModule DKey) ((splits r [[p.1]]).map fun m => (m, p.2))))
        (nf_iaddCore h1.nodup _) h2 z hz
      refine ⟨hz'.1, hz'.2.1, ?_⟩
      rw [hz'.2.2, den_iaddCore _ _ _ (tz h2), den_create _ _ _ (by simp [freeModule]) (tz h2), den_cons,
        map_add, map_add, lin_single, ← add_assoc]
      have hpr : ∀ v : DKey →₀ ZMod n, pr (freeModule DKey).drops v = v := fun v =>
        pr_eq_self fun k hk => by simp [freeModule] at hk
      rw [hpr, hpr, hpr]
      congr 2
      rw [den_map, diagK, List.smul_sum, List.map_map]
      congr 1
      apply List.map_congr_left
      intro m _
      simp
  have := key x.data (Elem.new (freeModule DKey) [] (some x.torsion)) (nf_new _ (by simp [Dict.KeysNodup]) _ _)
    hn _ rfl
  refine ⟨this.1, this.2.1, ?_⟩
  rw [this.2.2]
  simp [Elem.new, preferredRep, zeroDropped, basePreferredRep]

theorem diagK_apply {R : Type} [CommRing R] (r : Nat) (k : BKey) (m : DKey) :
    diagK R r k m = if m.length = r + 1 ∧ glue m = some k then 1 else 0 := by
  have h := nodup_splits (r := r) (L := [[k]]) (by simp)
  have : diagK R r k m = if m ∈ splits r [[k]] then 1 else 0 := by
    unfold diagK
    generalize splits r [[k]] = l at h
    induction l with
    | nil => simp
    | cons a l ih =>
      rw [List.nodup_cons] at h
      rw [List.map_cons, List.sum_cons, Finsupp.add_apply, ih h.2, Finsupp.single_apply]
      by_cases hm : a = m
      · subst hm; simp [h.1]
      · have hm' : m ≠ a := fun h => hm h.symm
        simp [hm, hm']
  rw [this]
  exact if_congr mem_splits_single rfl rfl

end BElem
end Comch
