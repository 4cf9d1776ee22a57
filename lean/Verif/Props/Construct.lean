import Verif.Model.Construct
import Verif.Props.FreeModule

/-! # C97: construction of elements -/

set_option linter.unusedSectionVars false

namespace Comch.Props
open Comch Elem

variable {R K : Type} [DecidableEq K]

/-- The coefficient given in the argument to the key `k`: that of the last entry which is converted to `k`. -/
def lastGiven (conv : R → K) (data : List (R × Int)) (k : K) : Int :=
  match data.reverse.find? fun p => conv p.1 = k with
  | some p => p.2
  | none => 0

theorem get_set_eq (d : Dict K) (k k' : K) (v : Int) : (d.set k v).get k' = if k = k' then v else d.get k' := by
  induction d with
  | nil => simp [Dict.set, Dict.get]
  | cons p d ih =>
    obtain ⟨a, b⟩ := p
    simp only [Dict.set]
    split_ifs with h1 h2 h2
    · subst h1; subst h2; simp [Dict.get]
    · subst h1; simp [Dict.get, h2]
    · subst h2; simp [Dict.get, h1, ih]
    · simp only [Dict.get, ih, if_neg h2]

theorem get_ofPairs (l : List (K × Int)) (k : K) :
    (Dict.ofPairs l).get k = match l.reverse.find? fun p => p.1 = k with
      | some p => p.2
      | none => 0 := by
  induction l using List.reverseRecOn with
  | nil => rfl
  | append_singleton l a ih =>
    rw [Dict.ofPairs, List.foldl_append, List.foldl_cons, List.foldl_nil]
    change (Dict.set (Dict.ofPairs l) a.1 a.2).get k = _
    rw [get_set_eq, List.reverse_append, List.reverse_singleton, List.singleton_append, List.find?_cons]
    by_cases h : a.1 = k
    · simp [h]
    · simp [h, ih]

/-- The element built from a dict: its torsion and, for every key, its coefficient — 0 for the degenerate keys,
otherwise the one given last for that key, modulo the torsion (coefficients of keys that become equal are *not*
added up). -/
theorem C97_coefficients (C : Cls K) (conv : R → K) (data : List (R × Int)) (t : Option Nat) (k : K) :
    (newRaw C conv data t).NF C ∧ (newRaw C conv data t).torsion = t.getD C.defaultTorsion ∧
    (newRaw C conv data t).coeff k ≡ (if C.drops k then 0 else lastGiven conv data k)
      [ZMOD t.getD C.defaultTorsion] := by
  have hd := Dict.keysNodup_ofPairs (data.map fun p => (conv p.1, p.2))
  have hn : (newRaw C conv data t).NF C := nf_new C hd t _
  refine ⟨hn, rfl, ?_⟩
  have h0 : ((t.getD C.defaultTorsion : Nat) : ZMod (t.getD C.defaultTorsion)) = 0 := by simp
  have h1 := DFunLike.congr_fun (den_new (R := ZMod (t.getD C.defaultTorsion)) C
    (Dict.ofPairs (data.map fun p => (conv p.1, p.2))) t .bergerFresse h0) k
  rw [← ZMod.intCast_eq_intCast_iff, coeff, ← Dict.den_apply hn.nodup]
  have hl : (Dict.ofPairs (data.map fun p => (conv p.1, p.2))).get k = lastGiven conv data k := by
    rw [get_ofPairs, lastGiven, ← List.map_reverse, List.find?_map]
    have : ((fun p : K × Int => decide (p.1 = k)) ∘ fun p : R × Int => (conv p.1, p.2)) =
        fun p => decide (conv p.1 = k) := rfl
    rw [this]
    cases data.reverse.find? fun p => decide (conv p.1 = k) <;> rfl
  refine h1.trans ?_
  rw [pr_apply, Dict.den_apply hd, hl]
  split_ifs <;> simp

/-- If the conversion keeps the keys distinct, every given coefficient is kept. -/
theorem C97_injective (C : Cls K) (conv : R → K) (data : List (R × Int)) (t : Option Nat)
    (h : (data.map fun p => conv p.1).Nodup) {p : R × Int} (hp : p ∈ data) (hk : C.drops (conv p.1) = false) :
    (newRaw C conv data t).coeff (conv p.1) ≡ p.2 [ZMOD t.getD C.defaultTorsion] := by
  have h1 := (C97_coefficients C conv data t (conv p.1)).2.2
  rw [hk] at h1
  have h2 : lastGiven conv data (conv p.1) = p.2 := by
    unfold lastGiven
    have hf : ∃ q, data.reverse.find? (fun q => decide (conv q.1 = conv p.1)) = some q := by
      rw [← Option.isSome_iff_exists, List.find?_isSome]
      exact ⟨p, by simpa using hp, by simp⟩
    obtain ⟨q, hq⟩ := hf
    have hq1 := List.find?_some hq
    have hq2 := List.mem_of_find?_eq_some hq
    rw [hq]
    simp only [decide_eq_true_eq] at hq1
    have : q = p := List.inj_on_of_nodup_map h (by simpa using hq2) hp hq1
    rw [this]
  rw [h2] at h1
  simpa using h1

/-- The attribute `dimension` of a simplicial element: a given non-zero value is kept; otherwise it is the largest
vertex of the keys in the argument (of degenerate keys and keys with coefficient 0 as well), `-1` if they have
no vertices, and `None` for an empty argument. -/
theorem C97_dimension (data : Dict SKey) (t : Option Nat) (d : Int) (hd : d ≠ 0) :
    (DimSElem.new data (some d) t).dimension = some d ∧
    (DimSElem.new [] none t).dimension = none ∧
    (data ≠ [] → (DimSElem.new data (some 0) t).dimension = (DimSElem.new data none t).dimension) ∧
    (data ≠ [] → (∀ p ∈ data, ∀ s ∈ p.1, s = []) → (DimSElem.new data none t).dimension = some (-1)) ∧
    (∀ p ∈ data, ∀ s ∈ p.1, ∀ i ∈ s, ∃ m : Nat, (DimSElem.new data none t).dimension = some (m : Int) ∧ i ≤ m ∧
      ∃ p ∈ data, ∃ s ∈ p.1, m ∈ s) := by
  refine ⟨?_, rfl, fun h => ?_, fun h h0 => ?_, fun p hp s hs i hi => ?_⟩
  · simp [DimSElem.new, SElem.initDimension, hd]
  · simp [DimSElem.new, SElem.initDimension, h]
  · have : (data.flatMap fun p => p.1.flatten) = [] := by
      rw [List.flatMap_eq_nil_iff]
      intro p hp
      rw [List.flatten_eq_nil_iff]
      exact h0 p hp
    simp [DimSElem.new, SElem.initDimension, h, this]
  · have hne : data ≠ [] := by rintro rfl; simp at hp
    have hmem : i ∈ data.flatMap fun p => p.1.flatten :=
      List.mem_flatMap.2 ⟨p, hp, List.mem_flatten.2 ⟨s, hs, hi⟩⟩
    have hv : (data.flatMap fun p => p.1.flatten) ≠ [] := List.ne_nil_of_mem hmem
    refine ⟨pyMax (data.flatMap fun p => p.1.flatten), ?_, ?_, ?_⟩
    · simp only [DimSElem.new, SElem.initDimension, if_neg hne, if_neg hv]
    · have : ∀ (l : List Nat), i ∈ l → i ≤ pyMax l := by
        intro l hl
        induction l with
        | nil => simp at hl
        | cons a l ih =>
          simp only [pyMax, List.foldr_cons]
          rcases List.mem_cons.1 hl with rfl | hl
          · exact le_sup_left
          · exact (ih hl).trans le_sup_right
      exact this _ hmem
    · have : ∀ (l : List Nat), l ≠ [] → pyMax l ∈ l := by
        intro l hl
        induction l with
        | nil => exact absurd rfl hl
        | cons a l ih =>
          simp only [pyMax, List.foldr_cons]
          by_cases h : l = []
          · subst h; simp
          · rcases le_total a (l.foldr max 0) with h1 | h1
            · rw [max_eq_right h1]; exact List.mem_cons_of_mem _ (ih h)
            · rw [max_eq_left h1]; simp
      obtain ⟨q, hq, hm⟩ := List.mem_flatMap.1 (this _ hv)
      obtain ⟨s', hs', hm'⟩ := List.mem_flatten.1 hm
      exact ⟨q, hq, s', hs', hm'⟩

/-- Derived elements inherit `dimension`; it is not recomputed from their content. -/
theorem C97_dimension_inherited (x y z : DimSElem) (d : Dict SKey) (h : x.add y = .ok z) :
    (x.create d).dimension = x.dimension ∧ z.dimension = x.dimension ∧ x.boundary.dimension = x.dimension := by
  refine ⟨rfl, ?_, rfl⟩
  simp only [DimSElem.add, bind, Except.bind] at h
  split at h <;> cases h
  rfl

/-- Instance: two keys of the argument (a tuple and a range, say) with the same entries. -/
example : (newRaw symmetricRing (fun k : Bool × List Nat => k.2) [((true, [1, 2]), 5), ((false, [1, 2]), 2)]).data =
    [([1, 2], 2)] := by decide
/-- Instance: the sum of a vertex and an edge remembers the vertex only. -/
example : ∃ z, (DimSElem.new [([[0]], 1)]).add (DimSElem.new [([[0, 7]], 1)]) = .ok z ∧
    z.dimension = some 0 ∧ z.el.data = [([[0]], 1), ([[0, 7]], 1)] := ⟨_, rfl, by decide, by decide⟩

end Comch.Props
