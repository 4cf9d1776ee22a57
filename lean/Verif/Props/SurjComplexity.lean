import Verif.Lib.SurjComplexity
import Verif.Lib.Product
import Verif.Props.SurjAction

/-! # C58, C59: basis, complexity and filtration of surjections -/

set_option linter.unusedSectionVars false

namespace Comch.Props
open Comch Elem Spec IsPerm
open Finsupp (single)

/-! ## C59 complexity and filtration -/

section
variable {r : Nat} {x : SurjElem}

/-- `complexity` is the largest number of changes in a subsequence formed by two values (0 for the zero
element and in arity 1). -/
theorem C59_complexity_spec (hx : InSurj r x) (c : Nat) : x.complexity ≤ c ↔
    ∀ p ∈ x.data, ∀ i j, 1 ≤ i → i < j → j ≤ r → alternations p.1 i j ≤ c := by
  rw [SurjElem.complexity_le_iff]
  constructor
  · intro h p hp i j h1 h2 h3
    exact h p hp i j h1 h2 (by rw [pyMax_of_onto (hx.onto p hp)]; exact h3)
  · intro h p hp i j h1 h2 h3
    rw [pyMax_of_onto (hx.onto p hp)] at h3
    exact h p hp i j h1 h2 h3

/-- `filtration` is the largest total number of changes. -/
theorem C59_filtration_spec (hx : InSurj r x) (c : Nat) : x.filtration ≤ c ↔
    ∀ p ∈ x.data, totalAlternations r p.1 ≤ c := by
  rw [SurjElem.filtration_le_iff]
  constructor
  · intro h p hp
    have := h p hp
    rwa [pyMax_of_onto (hx.onto p hp)] at this
  · intro h p hp
    rw [pyMax_of_onto (hx.onto p hp)]
    exact h p hp

/-- The boundary does not increase complexity or filtration. -/
theorem C59_boundary (hx : x.NF surjection) :
    x.boundary.complexity ≤ x.complexity ∧ x.boundary.filtration ≤ x.filtration := by
  have key : ∀ p ∈ x.boundary.data, ∃ q ∈ x.data, p.1.Sublist q.1 ∧ pyMax p.1 = pyMax q.1 := by
    intro p hp
    obtain ⟨q, hq, i, hi, h2, he⟩ := SurjElem.mem_keys_boundary hx (List.mem_map_of_mem (f := Prod.fst) hp)
    have hon := SurjElem.key_onto (hx.kept q hq)
    refine ⟨q, hq, ?_, ?_⟩
    · rw [he]; exact List.eraseIdx_sublist _ _
    · apply pyMax_of_onto
      intro v
      rw [he, sameVals_eraseIdx hi h2 v]
      exact hon v
  constructor
  · rw [SurjElem.complexity_le_iff]
    intro p hp i j h1 h2 h3
    obtain ⟨q, hq, hs, hm⟩ := key p hp
    rw [hm] at h3
    exact (alternations_sublist hs i j).trans ((SurjElem.complexity_spec x).1 q hq i j h1 h2 h3)
  · rw [SurjElem.filtration_le_iff]
    intro p hp
    obtain ⟨q, hq, hs, hm⟩ := key p hp
    rw [hm]
    exact (totalAlternations_sublist hs _).trans ((SurjElem.filtration_spec x).1 q hq)

/-- Neither does the action of a ring element. -/
theorem C59_act (hr : 1 ≤ r) {s : RingElem} {z : SurjElem} (hs : InRing r s) (hsn : s.data ≠ [])
    (hx : InSurj r x) (hxn : x.data ≠ []) (ts : s.torsion = x.torsion) (hz : SurjElem.rmul s x = .ok z) :
    z.complexity ≤ x.complexity ∧ z.filtration ≤ x.filtration := by
  have hz' := Except.ok.inj (hz.symm.trans (SurjElem.rmul_eq hr hs hsn hx hxn ts))
  have key : ∀ p ∈ z.data, ∃ q ∈ x.data, ∃ σ, IsPerm r σ ∧ p.1 = mulL σ q.1 := by
    intro p hp
    rw [hz'] at hp
    have h := mem_keys_accumulate_zero (List.mem_map_of_mem (f := Prod.fst) hp)
    simp only [List.map_map, List.mem_map, mem_pyProduct, Function.comp] at h
    obtain ⟨pq, hpq, h⟩ := h
    exact ⟨pq.1, hpq.1, pq.2.1, hs.perm _ hpq.2, h.symm⟩
  constructor
  · rw [SurjElem.complexity_le_iff]
    intro p hp i j h1 h2 h3
    obtain ⟨q, hq, σ, hσ, he⟩ := key p hp
    have hon : Onto r q.1 := hx.onto q hq
    rw [he] at h3 ⊢
    rw [pyMax_of_onto (Onto.mulL hσ hon)] at h3
    obtain ⟨i', hi', rfl⟩ := exists_value hσ (j := i) ⟨h1, by omega⟩
    obtain ⟨j', hj', rfl⟩ := exists_value hσ (j := j) ⟨by omega, h3⟩
    rw [alternations_mulL hσ hon.range hi' hj']
    have hne : i' ≠ j' := by rintro rfl; omega
    rcases Nat.lt_or_gt_of_ne hne with h | h
    · exact (SurjElem.complexity_spec x).1 q hq i' j' hi'.1 h (by rw [pyMax_of_onto hon]; exact hj'.2)
    · rw [alternations_comm]
      exact (SurjElem.complexity_spec x).1 q hq j' i' hj'.1 h (by rw [pyMax_of_onto hon]; exact hi'.2)
  · rw [SurjElem.filtration_le_iff]
    intro p hp
    obtain ⟨q, hq, σ, hσ, he⟩ := key p hp
    have hon : Onto r q.1 := hx.onto q hq
    rw [he, pyMax_of_onto (Onto.mulL hσ hon), totalAlternations_mulL hσ hon.range, ← pyMax_of_onto hon]
    exact (SurjElem.filtration_spec x).1 q hq

/-- Permutations keep complexity and filtration. -/
theorem C59_act_perm (hr : 1 ≤ r) {σ : Perm} (hσ : IsPerm r σ) (hx : InSurj r x) (hxn : x.data ≠ []) :
    ∃ z, SurjElem.rmulPerm σ x = .ok z ∧ z.complexity = x.complexity ∧ z.filtration = x.filtration := by
  have h1 : x.torsion ≠ 1 := torsion_ne_one hx.nf hxn
  have hP : ∀ τ : Perm, IsPerm r τ → InRing r (Elem.new symmetricRing [(τ, 1)] (some x.torsion)) ∧
      den (ZMod x.torsion) (Elem.new symmetricRing [(τ, 1)] (some x.torsion)).data = bv _ τ ∧
      (Elem.new symmetricRing [(τ, 1)] (some x.torsion)).data ≠ [] := by
    intro τ hτ
    have hd : den (ZMod x.torsion) (Elem.new symmetricRing [(τ, 1)] (some x.torsion)).data = bv _ τ := by
      rw [BElem.den_ringSingle]; simp
    refine ⟨inRing_new (by simp [Dict.KeysNodup]) (by simpa using hτ) _, hd, ?_⟩
    intro h0
    rw [h0, den_nil] at hd
    have h3 := DFunLike.congr_fun hd τ
    simp only [Finsupp.coe_zero, Pi.zero_apply, Finsupp.single_eq_same] at h3
    have h4 : ((1 : Nat) : ZMod x.torsion) = 0 := by simpa using h3.symm
    rw [ZMod.natCast_eq_zero_iff] at h4
    exact h1 (Nat.dvd_one.1 h4)
  obtain ⟨p1, p2, p3⟩ := hP σ hσ
  obtain ⟨q1, q2, q3⟩ := hP _ (isPerm_invL hσ)
  obtain ⟨z, ez, nz, az, oz, dz⟩ := (SurjElem.actSpec hr).ok _ x p1 p3 hx.nf hxn hx.onto rfl
  have hback : bil (SurjElem.actS x.attrs) (bv _ (invL r σ)) (den (ZMod x.torsion) z.data) =
      den (ZMod x.torsion) x.data := by
    rw [dz, p2]
    refine den_induction (P := fun u => bil (SurjElem.actS x.attrs) (bv _ (invL r σ))
      (bil (SurjElem.actS x.attrs) (bv _ σ) u) = u) x.data (by simp)
      (fun u v hu hv => by simp only [map_add] at *; rw [hu, hv]) ?_
    intro p hp
    have hon : Onto r p.1 := hx.onto p hp
    rw [bil_bv, bil_bv, lin_single, map_smul, (SurjElem.actSpec hr).assoc _ _ _ _ (isPerm_invL hσ) hσ hon,
      invL_mulL hσ, (SurjElem.actSpec hr).one _ _ hon]
    simp
  have hzn : z.data ≠ [] := by
    intro h0
    rw [h0, den_nil, map_zero] at hback
    exact hxn ((hx.nf.data_eq_nil_iff).2 hback.symm)
  obtain ⟨w, ew, nw, aw, ow, dw⟩ := (SurjElem.actSpec hr).ok' (a := x.attrs) q1 q3 nz hzn oz rfl az
  have hw : den (ZMod x.torsion) w.data = den (ZMod x.torsion) x.data := by
    refine dw.trans ?_
    erw [q2]
    exact hback
  have hkeys : ∀ k, k ∈ w.data.map Prod.fst ↔ k ∈ x.data.map Prod.fst := by
    intro k
    rw [nw.mem_keys_iff, hx.nf.mem_keys_iff]
    have tw : w.torsion = x.torsion := torsion_congr aw
    rw [tw, hw]
  have a := C59_act hr p1 p3 hx hxn rfl ez
  have tz' : z.torsion = x.torsion := torsion_congr az
  have b := C59_act hr q1 q3 ⟨nz, oz⟩ hzn tz'.symm ew
  have c1 : x.complexity ≤ SurjElem.complexity w := by
    rw [SurjElem.complexity_le_iff]
    intro p hp i j h1 h2 h3
    obtain ⟨q, hq, e⟩ := List.mem_map.1 ((hkeys p.1).2 (List.mem_map_of_mem hp))
    rw [← e] at h3 ⊢
    exact (SurjElem.complexity_spec w).1 q hq i j h1 h2 h3
  have c2 : x.filtration ≤ SurjElem.filtration w := by
    rw [SurjElem.filtration_le_iff]
    intro p hp
    obtain ⟨q, hq, e⟩ := List.mem_map.1 ((hkeys p.1).2 (List.mem_map_of_mem hp))
    rw [← e]
    exact (SurjElem.filtration_spec w).1 q hq
  refine ⟨z, ez, ?_, ?_⟩ <;> omega

/-- The complexity is at most the degree plus one. -/
theorem C59_complexity_degree (hx : x.NF surjection) (d : Int) (hd : x.degree = some d) :
    (x.complexity : Int) ≤ d + 1 := by
  rw [SurjElem.degree, uniqueValue_eq_some] at hd
  have hd' : ∀ p ∈ x.data, (p.1.length : Int) - pyMax p.1 = d := fun p hp =>
    hd.2 _ (List.mem_map_of_mem (f := fun p : Surj × Int => SurjElem.keyDegree p.1) hp)
  have hlen : ∀ p ∈ x.data, pyMax p.1 ≤ p.1.length := by
    intro p hp
    have hon := SurjElem.key_onto (hx.kept p hp)
    have hsub : List.range' 1 (pyMax p.1) ⊆ p.1 := by
      intro v hv
      rw [List.mem_range'_1] at hv
      exact (hon v).2 ⟨by omega, by omega⟩
    have := ((List.nodup_range' (s := 1) (n := pyMax p.1)).subperm hsub).length_le
    simpa using this
  rcases (SurjElem.complexity_spec x).2 with h | ⟨p, hp, i, j, h1, h2, h3, h⟩
  · obtain ⟨p, hp⟩ := List.exists_mem_of_ne_nil x.data (by intro h0; rw [h0] at hd; simp at hd)
    have := hd' p hp
    have := hlen p hp
    omega
  · have := alternations_le (SurjElem.key_onto (hx.kept p hp)) h1 h2 h3
    have := hd' p hp
    omega

end

example : (exSu .mcClureSmith).complexity = 3 ∧ (exSu .mcClureSmith).filtration = 6 ∧
    alternations [2, 3, 1, 2, 1] 1 2 = 3 := by decide +kernel

/-! ## C58 basis -/

theorem basis_eq (arity degree : Nat) (h : 1 ≤ arity + degree) (c : Option Nat) :
    Surjection.basis arity degree c = .ok ((productRepeat (pyRange 1 (arity + 1)) (arity + degree)).filter
      fun s => !surjection.drops s && decide (pyMax s = arity) &&
        decide (SurjElem.complexity (Elem.new surjection [(s, 1)]) ≤ c.getD (degree + 1))) := by
  unfold Surjection.basis
  have hm : ∀ l : List Surj, (∀ s ∈ l, s ≠ []) → ∃ ls, (l.mapM fun s => (do
      let surj ← SurjElem.new? [(s, 1)]
      if surj.truthy && surj.complexity ≤ c.getD (degree + 1) && surj.arity == some arity then .ok [s]
      else .ok [] : Py (List Surj))) = .ok ls ∧ ls.flatten = l.filter
        fun s => !surjection.drops s && decide (pyMax s = arity) &&
          decide (SurjElem.complexity (Elem.new surjection [(s, 1)]) ≤ c.getD (degree + 1)) := by
    intro l hl
    induction l with
    | nil => exact ⟨[], rfl, rfl⟩
    | cons s l ih =>
      obtain ⟨ls, h1, h2⟩ := ih fun t ht => hl t (List.mem_cons_of_mem _ ht)
      have hs := hl s (by simp)
      have hnew : SurjElem.new? [(s, 1)] = .ok (Elem.new surjection [(s, 1)]) := by
        unfold SurjElem.new?
        rw [if_neg]
        simpa using hs
      have hdata : (Elem.new surjection [(s, 1)]).data = if surjection.drops s then [] else [(s, 1)] := by
        cases hd : surjection.drops s <;>
          simp [Elem.new, preferredRep, zeroDropped, basePreferredRep, hd, torsion, show surjection.defaultTorsion = 0 from rfl]
      rw [List.mapM_cons]
      simp only [bind, Except.bind] at h1 ⊢
      rw [hnew, h1]
      simp only [pure, Except.pure]
      rw [List.filter_cons]
      have hcond : ((Elem.new surjection [(s, 1)]).truthy &&
          decide (SurjElem.complexity (Elem.new surjection [(s, 1)]) ≤ c.getD (degree + 1)) &&
          SurjElem.arity (Elem.new surjection [(s, 1)]) == some arity) =
          (!surjection.drops s && decide (pyMax s = arity) &&
          decide (SurjElem.complexity (Elem.new surjection [(s, 1)]) ≤ c.getD (degree + 1))) := by
        rw [truthy, SurjElem.arity, hdata]
        cases hd : surjection.drops s
        · simp only [Bool.false_eq_true, if_false, List.map_cons, List.map_nil]
          rw [Bool.eq_iff_iff]
          simp [uniqueValue, and_comm]
        · simp
      rw [hcond]
      cases hb : (!surjection.drops s && decide (pyMax s = arity) &&
          decide (SurjElem.complexity (Elem.new surjection [(s, 1)]) ≤ c.getD (degree + 1)))
      · exact ⟨[] :: ls, rfl, by rw [List.flatten_cons, h2]; rfl⟩
      · exact ⟨[s] :: ls, rfl, by rw [List.flatten_cons, h2]; rfl⟩
  obtain ⟨ls, h1, h2⟩ := hm (productRepeat (pyRange 1 (arity + 1)) (arity + degree)) (by
    intro s hs h0
    rw [mem_productRepeat, h0] at hs
    simp at hs
    omega)
  simp only [bind, Except.bind] at h1 ⊢
  rw [h1, ← h2]

/-- `Surjection.basis(arity, degree, complexity)` lists, each once, the nondegenerate surjections of
this arity and degree with at most `complexity` changes for any two values. -/
theorem C58_basis (arity degree c : Nat) (h : 1 ≤ arity + degree) :
    ∃ l, Surjection.basis arity degree (some c) = .ok l ∧ l.Nodup ∧
      ∀ k, k ∈ l ↔ NonDegenerate arity k ∧ k.length = arity + degree ∧
        ∀ i j, 1 ≤ i → i < j → j ≤ arity → alternations k i j ≤ c := by
  refine ⟨_, basis_eq arity degree h _, (nodup_productRepeat (by unfold pyRange; exact List.nodup_range') _).filter _, ?_⟩
  intro k
  rw [List.mem_filter, mem_productRepeat]
  simp only [Bool.and_eq_true, Bool.not_eq_true', decide_eq_true_eq, Option.getD_some]
  have hdata : surjection.drops k = false → (Elem.new surjection [(k, 1)]).data = [(k, 1)] := by
    intro hd
    simp [Elem.new, preferredRep, zeroDropped, basePreferredRep, hd, torsion, show surjection.defaultTorsion = 0 from rfl]
  constructor
  · rintro ⟨⟨h1, _⟩, ⟨h2, h3⟩, h4⟩
    have hn := (nonDegenerate_of_kept h2).2
    rw [h3] at hn
    refine ⟨hn, h1, ?_⟩
    rw [SurjElem.complexity_le_iff, hdata h2] at h4
    intro i j a b d
    exact h4 (k, 1) (by simp) i j a b (by rw [h3]; exact d)
  · rintro ⟨h1, h2, h3⟩
    have hmax := pyMax_of_onto h1.onto
    have hr : 1 ≤ arity := by
      rcases Nat.eq_zero_or_pos arity with h0 | h0
      · exfalso
        cases k with
        | nil => simp at h2; omega
        | cons a k => have := (h1.onto a).1 (by simp); omega
      · exact h0
    have hk := surj_kept hr h1
    refine ⟨⟨h2, ?_⟩, ⟨hk, hmax⟩, ?_⟩
    · intro a ha
      rw [mem_pyRange]
      have := (h1.onto a).1 ha
      omega
    · rw [SurjElem.complexity_le_iff, hdata hk]
      intro p hp i j a b d
      rw [List.mem_singleton] at hp
      subst hp
      simp only at d ⊢
      rw [hmax] at d
      exact h3 i j a b d

/-- Without a bound `basis` lists, each once, all nondegenerate surjections of this arity and degree. -/
theorem C58_basis_all (arity degree : Nat) (h : 1 ≤ arity + degree) :
    ∃ l, Surjection.basis arity degree = .ok l ∧ l.Nodup ∧
      ∀ k, k ∈ l ↔ NonDegenerate arity k ∧ k.length = arity + degree := by
  obtain ⟨l, e, hn, hl⟩ := C58_basis arity degree (degree + 1) h
  refine ⟨l, e, hn, ?_⟩
  intro k
  rw [hl]
  constructor
  · exact fun h => ⟨h.1, h.2.1⟩
  · rintro ⟨h1, h2⟩
    refine ⟨h1, h2, ?_⟩
    intro i j a b d
    have := alternations_le h1.onto a b d
    omega

/-- `Surjection.basis(0, 0)` raises `ValueError`. -/
theorem C58_basis_zero (c : Option Nat) : Surjection.basis 0 0 c = .error .valueError := by
  cases c <;> rfl

example : Surjection.basis 2 2 = .ok [[1, 2, 1, 2], [2, 1, 2, 1]] := by decide +kernel
example : (Surjection.basis 3 1 (some 1)).toOption.map List.length = some 0 := by decide +kernel

end Comch.Props
