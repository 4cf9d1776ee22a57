import Verif.Lib.EZ
import Verif.Lib.BarrattEccles
import Verif.Lib.Decompositions
import Verif.Lib.SurjMay

/-! # The lattice paths of `BarrattEcclesElement.compose` -/

set_option linter.unusedSectionVars false

namespace Comch.BElem
open Finsupp (single)

variable {R : Type} [CommRing R]

/-- Steps of a path. -/
def steps (path : List (Nat × Nat)) : List (Int × Int) :=
  (pairwise path).map fun pq => ((pq.2.1 : Int) - pq.1.1, (pq.2.2 : Int) - pq.1.2)

/-- Number of pairs: vertical step before horizontal step. -/
def vinv : List (Int × Int) → Nat
  | [] => 0
  | v :: W => (if v = (0, 1) then W.count (1, 0) else 0) + vinv W

theorem vinv_eq (W : List (Int × Int)) :
    ((enumerate W).map fun iv : Nat × (Int × Int) =>
      if iv.2 = (0, 1) then ((W.drop (iv.1 + 1)).filter fun v => v = (1, 0)).length else 0).sum = vinv W := by
  induction W with
  | nil => rfl
  | cons v W ih =>
    rw [enumerate_cons, List.map_cons, List.sum_cons, vinv, ← ih, List.map_map]
    congr 1
    simp only [Nat.zero_add, List.drop_succ_cons, List.drop_zero]
    congr 1
    rw [List.count_eq_length_filter]
    congr 2
    funext x
    rw [Bool.eq_iff_iff]
    simp

theorem signOfPath_eq (path : List (Nat × Nat)) : signOfPath path = (-1) ^ vinv (steps path) := by
  rw [← vinv_eq]
  rfl

theorem vinv_snoc (W : List (Int × Int)) (h : Int × Int) :
    vinv (W ++ [h]) = vinv W + if h = (1, 0) then W.count (0, 1) else 0 := by
  induction W with
  | nil => simp [vinv]
  | cons v W ih =>
    rw [List.cons_append, vinv, ih, vinv, List.count_cons, List.count_append]
    by_cases h1 : h = (1, 0)
    · subst h1
      by_cases h2 : v = (0, 1)
      · subst h2; simp; omega
      · simp [h2]
    · by_cases h2 : v = (0, 1) <;> simp [h1, h2]

theorem steps_snoc {path : List (Nat × Nat)} {e : Nat × Nat} (h : path.getLast? = some e) (f : Nat × Nat) :
    steps (path ++ [f]) = steps path ++ [((f.1 : Int) - e.1, (f.2 : Int) - e.2)] := by
  induction path with
  | nil => simp at h
  | cons a path ih =>
    cases path with
    | nil =>
      simp at h; subst h
      rfl
    | cons b path =>
      have h' : (b :: path).getLast? = some e := by rw [← h]; simp
      have := ih h'
      unfold steps at this ⊢
      rw [List.cons_append, List.cons_append, pairwise_cons_cons', pairwise_cons_cons', List.map_cons,
        ← List.cons_append, this, List.map_cons]
      rfl

theorem paths_spec : ∀ (p q : Nat) {path : List (Nat × Nat)}, path ∈ paths p q →
    path.getLast? = some (p, q) ∧ (steps path).count (0, 1) = q ∧ (∀ e ∈ path, e.1 ≤ p ∧ e.2 ≤ q) := by
  intro p q
  induction p, q using paths.induct with
  | case1 =>
    intro path h
    simp [paths] at h
    subst h
    exact ⟨rfl, rfl, by simp⟩
  | case2 p ih =>
    intro path h
    simp only [paths, List.mem_map] at h
    obtain ⟨m, hm, rfl⟩ := h
    obtain ⟨h1, h2, h3⟩ := ih hm
    refine ⟨by simp, ?_, ?_⟩
    · rw [steps_snoc h1, List.count_append, h2]; simp
    · intro e he
      rw [List.mem_append, List.mem_singleton] at he
      rcases he with he | rfl
      · have := h3 e he; omega
      · simp
  | case3 q ih =>
    intro path h
    simp only [paths, List.mem_map] at h
    obtain ⟨m, hm, rfl⟩ := h
    obtain ⟨h1, h2, h3⟩ := ih hm
    refine ⟨by simp, ?_, ?_⟩
    · rw [steps_snoc h1, List.count_append, h2]; simp
    · intro e he
      rw [List.mem_append, List.mem_singleton] at he
      rcases he with he | rfl
      · have := h3 e he; omega
      · simp
  | case4 p q ih1 ih2 =>
    intro path h
    simp only [paths, List.mem_append, List.mem_map] at h
    rcases h with ⟨m, hm, rfl⟩ | ⟨m, hm, rfl⟩
    · obtain ⟨h1, h2, h3⟩ := ih1 hm
      refine ⟨by simp, ?_, ?_⟩
      · rw [steps_snoc h1, List.count_append, h2]; simp
      · intro e he
        rw [List.mem_append, List.mem_singleton] at he
        rcases he with he | rfl
        · have := h3 e he; omega
        · simp
    · obtain ⟨h1, h2, h3⟩ := ih2 hm
      refine ⟨by simp, ?_, ?_⟩
      · rw [steps_snoc h1, List.count_append, h2]; simp
      · intro e he
        rw [List.mem_append, List.mem_singleton] at he
        rcases he with he | rfl
        · have := h3 e he; omega
        · simp

/-- The sum of all paths with their signs. -/
noncomputable def pathSum (R : Type) [CommRing R] (p q : Nat) : List (Nat × Nat) →₀ R :=
  ((paths p q).map fun path => ((signOfPath path : Int) : R) • bv R path).sum

theorem sum_right {p q : Nat} :
    ((paths p q).map fun path => ((signOfPath (path ++ [(p + 1, q)]) : Int) : R) • bv R (path ++ [(p + 1, q)])).sum =
      (-1 : R) ^ q • snocV (p + 1, q) (pathSum R p q) := by
  unfold pathSum
  rw [map_list_sum, List.smul_sum, List.map_map, List.map_map]
  congr 1
  apply List.map_congr_left
  intro path hp
  obtain ⟨h1, h2, -⟩ := paths_spec p q hp
  simp only [Function.comp]
  rw [signOfPath_eq, signOfPath_eq, steps_snoc h1, vinv_snoc, h2]
  simp [snocV_single, pow_add, mul_comm]

theorem sum_up {p q : Nat} :
    ((paths p q).map fun path => ((signOfPath (path ++ [(p, q + 1)]) : Int) : R) • bv R (path ++ [(p, q + 1)])).sum =
      snocV (p, q + 1) (pathSum R p q) := by
  unfold pathSum
  rw [map_list_sum, List.map_map]
  congr 1
  apply List.map_congr_left
  intro path hp
  obtain ⟨h1, h2, -⟩ := paths_spec p q hp
  simp only [Function.comp]
  rw [signOfPath_eq, signOfPath_eq, steps_snoc h1, vinv_snoc]
  simp [snocV_single]

theorem pathSum_eq (p q : Nat) : pathSum R p q = ez (List.range (p + 1)) (List.range (q + 1)) := by
  induction p, q using paths.induct with
  | case1 => 
    rw [show List.range (0 + 1) = [0] from rfl, ez_cons]
    simp [pathSum, paths, signOfPath, pairwise, enumerate]
  | case2 p ih =>
    have e : pathSum R (p + 1) 0 = (-1 : R) ^ 0 • snocV (p + 1, 0) (pathSum R p 0) := by
      rw [← sum_right]
      simp only [pathSum, paths, List.map_map, Function.comp_def]
    rw [e, ih, List.range_succ (n := p + 1), List.range_succ (n := 0), ez_snoc]
    simp
  | case3 q ih =>
    have e : pathSum R 0 (q + 1) = snocV (0, q + 1) (pathSum R 0 q) := by
      rw [← sum_up]
      simp only [pathSum, paths, List.map_map, Function.comp_def]
    rw [e, ih, List.range_succ (n := q + 1), List.range_succ (n := 0), ez_snoc]
    simp
  | case4 p q ih1 ih2 =>
    have e : pathSum R (p + 1) (q + 1) = (-1 : R) ^ (q + 1) • snocV (p + 1, q + 1) (pathSum R p (q + 1)) +
        snocV (p + 1, q + 1) (pathSum R (p + 1) q) := by
      rw [← sum_right, ← sum_up]
      simp only [pathSum, paths, List.map_map, Function.comp_def, List.map_append, List.sum_append]
    rw [e, ih1, ih2, List.range_succ (n := p + 1), List.range_succ (n := q + 1), ez_snoc]
    simp

end Comch.BElem
