import Verif.Props.CallCoeff
import Verif.Props.BECompose

/-! # Closed formulas for the operadic compositions: C85, C86 -/

set_option linter.unusedSectionVars false

namespace Comch
open Comch.Spec Elem
open Finsupp (single)

section
variable {R : Type} [CommRing R]

theorem visited_right (w : List Bool) (i j : Nat) :
    visited w (i + 1) j = (visited w i j).map fun ab => (ab.1 + 1, ab.2) := by
  induction w generalizing i j with
  | nil => rfl
  | cons b w ih => cases b <;> simp [visited, ih]

theorem visited_up (w : List Bool) (i j : Nat) :
    visited w i (j + 1) = (visited w i j).map fun ab => (ab.1, ab.2 + 1) := by
  induction w generalizing i j with
  | nil => rfl
  | cons b w ih => cases b <;> simp [visited, ih]

theorem count_stepWords {p q : Nat} {w : List Bool} (h : w ∈ stepWords p q) : w.count true = p := by
  fun_induction stepWords p q generalizing w with
  | case1 => simp at h; subst h; rfl
  | case2 p ih =>
    obtain ⟨v, hv, rfl⟩ := List.mem_map.1 h
    simp [ih hv]
  | case3 q ih =>
    obtain ⟨v, hv, rfl⟩ := List.mem_map.1 h
    simp [ih hv]
  | case4 p q ih1 ih2 =>
    rcases List.mem_append.1 h with h | h
    · obtain ⟨v, hv, rfl⟩ := List.mem_map.1 h
      simp [ih1 hv]
    · obtain ⟨v, hv, rfl⟩ := List.mem_map.1 h
      simp [ih2 hv]

/-- The pairs met along a path. -/
def met {α β : Type} (x0 : α) (y0 : β) (X : List α) (Y : List β) (w : List Bool) : List (α × β) :=
  (visited w 0 0).map fun ab => (X.getD ab.1 x0, Y.getD ab.2 y0)

theorem met_true {α β : Type} (x0 : α) (y0 : β) (a : α) (X : List α) (b : β) (Y : List β) (w : List Bool) :
    met x0 y0 (a :: X) (b :: Y) (true :: w) = (a, b) :: met x0 y0 X (b :: Y) w := by
  simp [met, visited, visited_right, Function.comp_def]

theorem met_false {α β : Type} (x0 : α) (y0 : β) (a : α) (X : List α) (b : β) (Y : List β) (w : List Bool) :
    met x0 y0 (a :: X) (b :: Y) (false :: w) = (a, b) :: met x0 y0 (a :: X) Y w := by
  simp [met, visited, visited_up, Function.comp_def]

/-- The shuffle map is the sum over the lattice paths. -/
theorem ez_eq_sum {α β : Type} (x0 : α) (y0 : β) (X : List α) (Y : List β) (hX : X ≠ []) (hY : Y ≠ []) :
    ez (R := R) X Y = ((stepWords (X.length - 1) (Y.length - 1)).map fun w =>
      (-1 : R) ^ shuffleExponent w • bv R (met x0 y0 X Y w)).sum := by
  induction X, Y using ez_induction with
  | h1 Y => exact absurd rfl hX
  | h2 X => exact absurd rfl hY
  | h3 a X b Y ih1 ih2 =>
    rw [ez_cons]
    have hcons : ∀ l : List (List (α × β) →₀ R), consV (a, b) l.sum = (l.map (consV (a, b))).sum :=
      fun l => map_list_sum _ _
    have e1 : X ≠ [] → consV (a, b) (ez (R := R) X (b :: Y)) =
        ((stepWords (X.length - 1) Y.length).map fun w =>
          (-1 : R) ^ shuffleExponent (true :: w) • bv R (met x0 y0 (a :: X) (b :: Y) (true :: w))).sum := by
      intro h
      rw [ih2 h (by simp), hcons, List.map_map]
      congr 1
      apply List.map_congr_left
      intro w _
      simp [met_true, shuffleExponent]
    have e2 : Y ≠ [] → (-1 : R) ^ X.length • consV (a, b) (ez (R := R) (a :: X) Y) =
        ((stepWords X.length (Y.length - 1)).map fun w =>
          (-1 : R) ^ shuffleExponent (false :: w) • bv R (met x0 y0 (a :: X) (b :: Y) (false :: w))).sum := by
      intro h
      rw [ih1 (by simp) h, hcons, List.map_map, List.smul_sum, List.map_map]
      congr 1
      apply List.map_congr_left
      intro w hw
      have := count_stepWords hw
      simp only [List.length_cons, Nat.add_sub_cancel] at this
      simp [met_false, shuffleExponent, this, pow_add]
    rcases X with _ | ⟨a', X⟩ <;> rcases Y with _ | ⟨b', Y⟩
    · simp [stepWords, met, visited, shuffleExponent]
    · rw [e2 (by simp)]
      simp [stepWords, Function.comp_def]
    · rw [e1 (by simp)]
      simp [stepWords, Function.comp_def]
    · rw [e1 (by simp), e2 (by simp)]
      simp [stepWords, Function.comp_def, add_comm]

end

namespace Props
open BElem

variable {x y z : BElem} {r s d e i : Nat}

/-- The coefficients of the operadic composition of two homogeneous elements: each pair of terms and each
lattice path contributes, with the sign of the shuffle, the sequence of the compositions of the permutations
met along the path. -/
theorem C85_compose_coeff (hx : HomBE r d x) (hy : HomBE s e y) (hxn : x.data ≠ []) (hyn : y.data ≠ [])
    (hi : 1 ≤ i ∧ i ≤ r) (ht : x.torsion = y.torsion) (hz : compose x y i = .ok z) (m : BKey) (h0 : m ≠ [])
    (hm : ∀ j, j + 1 < m.length → m.getD j [] ≠ m.getD (j + 1) []) :
    z.coeff m ≡ ((pyProduct x.data y.data).map fun pq =>
      pq.1.2 * pq.2.2 * barrattEcclesCoeff i pq.1.1 pq.2.1 m).sum [ZMOD x.torsion] := by
  obtain ⟨z', ez', nz, az, dz⟩ := compose_ok hx hy hxn hyn hi ht rfl
  obtain rfl : z = z' := by rw [hz] at ez'; cases ez'; rfl
  rw [← ZMod.intCast_eq_intCast_iff]
  have hc := DFunLike.congr_fun dz m
  rw [Dict.den_apply nz.nodup, pr_apply, be_kept h0 hm] at hc
  simp only [Bool.false_eq_true, if_false] at hc
  rw [coeff, hc, ecmpV, bil_den]
  rw [← Finsupp.applyAddHom_apply, map_list_sum, List.map_map, Int.cast_list_sum, List.map_map]
  congr 1
  apply List.map_congr_left
  intro pq hpq
  obtain ⟨hp, hq⟩ := mem_pyProduct.1 hpq
  simp only [Function.comp, Finsupp.applyAddHom_apply, Finsupp.smul_apply, smul_eq_mul]
  rw [Int.cast_mul (_ * _)]
  congr 1
  have n1 : pq.1.1 ≠ [] := by
    intro h
    have := hx.len _ hp
    simp [h] at this
  have n2 : pq.2.1 ≠ [] := by
    intro h
    have := hy.len _ hq
    simp [h] at this
  rw [ecmp, ez_eq_sum [] [] _ _ n1 n2, barrattEcclesCoeff, map_list_sum, ← Finsupp.applyAddHom_apply, map_list_sum,
    List.map_map, List.map_map, Int.cast_list_sum, List.map_map]
  congr 1
  apply List.map_congr_left
  intro w _
  have hmet : List.map (cp i) (met [] [] pq.1.1 pq.2.1 w) =
      (visited w 0 0).map fun ab => substitutePerm i (pq.1.1.getD ab.1 []) (pq.2.1.getD ab.2 []) := by
    unfold met
    rw [List.map_map]
    rfl
  simp only [Function.comp, map_smul, mapK_single, Finsupp.applyAddHom_apply, Finsupp.smul_apply,
    Finsupp.single_apply, hmet]
  split <;> simp

example : HomBE 3 2 exBE ∧ HomBE 2 1 exBE2 ∧
    (compose exBE exBE2 2).toOption.map (fun z => z.coeff [[1, 2, 3, 4], [1, 3, 2, 4], [3, 2, 1, 4], [4, 1, 3, 2]]) =
      some 4 ∧
    barrattEcclesCoeff 2 [[1, 2, 3], [2, 1, 3], [3, 1, 2]] [[1, 2], [2, 1]]
      [[1, 2, 3, 4], [1, 3, 2, 4], [3, 2, 1, 4], [4, 1, 3, 2]] = 1 ∧
    barrattEcclesCoeff 2 [[1, 2, 3], [2, 1, 3], [3, 1, 2]] [[1, 2], [2, 1]]
      [[1, 2, 3, 4], [2, 3, 1, 4], [3, 2, 1, 4], [4, 1, 3, 2]] = -1 :=
  ⟨exBE_hom, exBE2_hom, by decide +kernel, by simp [barrattEcclesCoeff, stepWords, visited, substitutePerm, shuffleExponent],
    by simp [barrattEcclesCoeff, stepWords, visited, substitutePerm, shuffleExponent]⟩

end Props

namespace SurjComp
open Comch.Spec Elem SurjElem

variable {R : Type} [CommRing R] {i s : Nat}

/-- Caesuras of the pieces, recursively. -/
def pcs : List Nat → List (List Nat) → List Nat
  | _, [] => []
  | w, p :: ps => cc w 0 (p.length - 1) :: pcs (w.drop (p.length - 1)) ps

theorem allCuts_nil (n : Nat) : allCuts (n + 2) ([] : List Nat) = [] := by simp [allCuts]

theorem allCuts_cons {A : Type} (n : Nat) (a : A) (w : List A) : allCuts (n + 2) (a :: w) =
    (allCuts (n + 1) (a :: w)).map ([a] :: ·) ++
      (allCuts (n + 2) w).map (fun ps => (a :: ps.headD []) :: ps.tail) := by
  rw [allCuts, List.length_cons, List.range_succ_eq_map, List.flatMap_cons, List.flatMap_map, allCuts,
    List.map_flatMap]
  congr 1
  apply List.flatMap_congr
  intro i _
  rw [List.map_map]
  rfl

theorem mem_allCuts_head {A : Type} {n : Nat} {w : List A} (hw : w ≠ []) {ps : List (List A)}
    (h : ps ∈ allCuts n w) : ∃ b q qs, ps = (b :: q) :: qs := by
  match n, h with
  | 0, h => simp [allCuts] at h
  | 1, h =>
    simp only [allCuts, List.mem_singleton] at h
    obtain ⟨b, q, rfl⟩ := List.exists_cons_of_ne_nil hw
    exact ⟨b, q, [], h⟩
  | n + 2, h =>
    obtain ⟨b, q, rfl⟩ := List.exists_cons_of_ne_nil hw
    simp only [allCuts, List.mem_flatMap, List.mem_map] at h
    obtain ⟨i, _, qs, _, rfl⟩ := h
    exact ⟨b, q.take i, qs, rfl⟩

theorem fillIn_eq_spl (k : List Nat) (ps : List (List Nat)) :
    fillIn i s k ps = spl i s k (ps.map (List.map (up i))) := by
  induction k generalizing ps with
  | nil => rfl
  | cons j k ih =>
    rw [fillIn, spl, ih, ih]
    by_cases h : j = i
    · rw [if_pos h, if_pos h]
      cases ps <;> rfl
    · rw [if_neg h, if_neg h]
      rfl

/-- The composition is the sum over all the cuts of the inner surjection. -/
theorem cmp_eq_sum (k1 w : List Nat) (h1 : i ∈ k1) (hw : w ≠ []) :
    cmp (R := R) i s k1 w = ((allCuts (k1.count i) w).map fun ps =>
      (-1 : R) ^ dot (pcs w ps) (degs i k1) • bv R (fillIn i s k1 ps)).sum := by
  revert h1 hw
  induction k1, w using cmp_induction i with
  | hnil k2 => intro h; simp at h
  | hne j t k2 hj ih =>
    intro h1 hw
    rw [cmp_ne hj, ih (by simpa [Ne.symm hj] using h1) hw, map_list_sum, List.map_map,
      List.count_cons_of_ne hj]
    congr 1
    apply List.map_congr_left
    intro p _
    simp only [Function.comp, map_smul, consV_single, degs, if_neg hj, fillIn]
    rfl
  | hin t => intro _ h; simp at h
  | hic t a w ih1 ih2 =>
    intro _ _
    have hdeg : degs i (i :: t) = sdeg (i :: t) :: degs i t := by rw [degs, if_pos rfl]
    rw [cmp_i_cons, List.count_cons_self, hdeg]
    have hstay : ∀ (c : Nat), w ≠ [] → ∀ ps ∈ allCuts c w,
        (if a ∈ w then (-1 : R) ^ sdeg (i :: t) else 1) •
          consV (up i a) ((-1 : R) ^ dot (pcs w ps) (sdeg (i :: t) :: degs i t) • bv R (fillIn i s (i :: t) ps)) =
        (-1 : R) ^ dot (pcs (a :: w) ((a :: ps.headD []) :: ps.tail)) (sdeg (i :: t) :: degs i t) •
          bv R (fillIn i s (i :: t) ((a :: ps.headD []) :: ps.tail)) := by
      intro c hw ps hps
      obtain ⟨b, q, qs, rfl⟩ := mem_allCuts_head hw hps
      simp only [pcs, List.headD_cons, List.tail_cons, List.length_cons, Nat.add_sub_cancel, cc_zero_succ,
        List.drop_succ_cons, dot_cons, fillIn, if_true, List.map_cons, List.cons_append, map_smul, consV_single,
        smul_smul]
      rw [ite_pow_helper]
      rfl
    by_cases hit : i ∈ t
    · have hc := List.count_pos_iff.2 hit
      obtain ⟨c, hc'⟩ : ∃ c, t.count i = c + 1 := ⟨t.count i - 1, by omega⟩
      have ih2 := ih2 hit (by simp)
      rw [hc'] at ih2
      rw [hc', if_pos (Or.inl hit), ih2, allCuts_cons, List.map_append, List.sum_append, add_comm]
      congr 1
      · rw [map_list_sum, List.map_map, List.map_map]
        congr 1
        apply List.map_congr_left
        intro ps _
        simp [pcs, cc_self, fillIn, up]
      · by_cases hw : w = []
        · subst hw
          simp [allCuts_nil]
        · have ih1 := ih1 (by simp) hw
          rw [List.count_cons_self, hc', hdeg] at ih1
          rw [ih1, map_list_sum, List.smul_sum, List.map_map, List.map_map, List.map_map]
          congr 1
          apply List.map_congr_left
          intro ps hps
          exact hstay _ hw ps hps
    · rw [List.count_eq_zero.2 hit]
      by_cases hw : w = []
      · subst hw
        have hspl := spl_not_mem (s := s) hit
        simp [allCuts, pcs, fillIn, cc_self, fillIn_eq_spl, hspl, cmp_not_mem hit, up, dot]
      · have ih1 := ih1 (by simp) hw
        rw [List.count_cons_self, List.count_eq_zero.2 hit, hdeg] at ih1
        rw [if_neg (show ¬ (i ∈ t ∨ w = []) by simp [hit, hw]), add_zero, ih1, map_list_sum, List.smul_sum,
          List.map_map, List.map_map]
        simp only [allCuts, List.map_cons, List.map_nil, List.sum_cons, List.sum_nil, add_zero]
        have := hstay 1 hw [w] (by simp [allCuts])
        simpa using this

/-! ### the exponent -/

theorem caesurasIn_eq (k : List Nat) (u v : Nat) : caesurasIn k u v = cc k u v := by
  unfold caesurasIn cc caesuras
  rw [enumerate_eq_map _ 0, List.filter_map, List.length_map, List.filter_map, List.filter_map, List.length_map,
    List.filter_filter]
  congr 1
  apply List.filter_congr
  intro e _
  simp only [Function.comp, isCaesura]
  rw [Bool.eq_iff_iff]
  simp [and_assoc]

theorem cc_drop (w : List Nat) (n u v : Nat) : cc (w.drop n) u v = cc w (n + u) (n + v) := by
  induction n generalizing w with
  | zero => simp
  | succ n ih =>
    cases w with
    | nil => simp [cc, caesuras, enumerate]
    | cons a w => rw [List.drop_succ_cons, ih, Nat.add_right_comm n 1 u, Nat.add_right_comm n 1 v, cc_succ]

theorem pcs_eq (w : List Nat) (ps : List (List Nat)) :
    pcs w ps = (List.range ps.length).map fun a => cc w (startOf ps a) (startOf ps (a + 1)) := by
  induction ps generalizing w with
  | nil => rfl
  | cons p ps ih =>
    rw [pcs, ih, List.length_cons, List.range_succ_eq_map, List.map_cons, List.map_map]
    have hs : ∀ a, startOf (p :: ps) (a + 1) = p.length - 1 + startOf ps a := fun a => by simp [startOf]
    congr 1
    apply List.map_congr_left
    intro a _
    rw [cc_drop, Function.comp, Nat.succ_eq_add_one, hs, hs]

theorem cc_last (k : List Nat) (u : Nat) : cc k u k.length = cc k u (k.length - 1) := by
  rw [← caesurasIn_eq, ← caesurasIn_eq]
  unfold caesurasIn
  congr 1
  apply List.filter_congr
  intro e _
  rw [decide_eq_decide]
  constructor
  · rintro ⟨h1, h2, h3⟩
    refine ⟨h1, ?_, h3⟩
    unfold isCaesura at h3
    have : (k.drop (e + 1)).length ≠ 0 := fun h => by
      rw [List.length_eq_zero_iff] at h
      rw [h] at h3
      simp at h3
    rw [List.length_drop] at this
    omega
  · rintro ⟨h1, h2, h3⟩
    exact ⟨h1, by omega, h3⟩

theorem insertionExponent_eq (k1 k2 : List Nat) (ps : List (List Nat)) (h : ps.length = k1.count i) :
    insertionExponent i k1 k2 ps = dot (pcs k2 ps) (degs i k1) := by
  unfold insertionExponent dot
  rw [pcs_eq, ← positions_degs]
  congr 1
  have hl : (positions k1 i).length = ps.length := by rw [positions_length, h]
  apply List.ext_getElem
  · simp [hl]
  · intro a h1 h2
    simp only [List.length_map, List.length_range] at h1
    rw [List.getElem_map, List.getElem_range, List.getElem_zipWith, List.getElem_map, List.getElem_range,
      List.getElem_map, caesurasIn_eq, caesurasIn_eq, cc_last]
    congr 2
    unfold occurrence
    have he : ((List.range k1.length).filter fun p => k1.getD p 0 = i) = positions k1 i := by
      rw [positions_eq]
      rfl
    rw [he, List.getD_eq_getElem _ _ (by omega)]

end SurjComp

namespace Props
open Comch.Spec Elem SurjComp SurjElem

variable {x y z : SurjElem} {r s i : Nat}

/-- The coefficients of the operadic composition in the surjection operad: each pair of terms and each way
of cutting the inner surjection into as many overlapping pieces as the outer one has occurrences of `i`
contributes, with the sign of Berger and Fresse, the surjection obtained by inserting the pieces. -/
theorem C86_compose_coeff (hx : InSurj r x) (hy : InSurj s y) (h1 : 1 ≤ i) (h2 : i ≤ r)
    (hc : x.torsion = 2 ∨ x.attrs.convention = .bergerFresse) (hz : compose x y i = .ok z) {m : Surj}
    (hm : NonDegenerate (r + s - 1) m) (hs : 1 ≤ s) :
    z.coeff m ≡ ((pyProduct x.data y.data).map fun pq =>
      pq.1.2 * pq.2.2 * surjectionCompositionCoeff i s pq.1.1 pq.2.1 m).sum [ZMOD x.torsion] := by
  obtain ⟨z', ez', nz, az, dz⟩ := compose_ok hx hy h1 h2 hc rfl
  obtain rfl : z = z' := by rw [hz] at ez'; cases ez'; rfl
  rw [← ZMod.intCast_eq_intCast_iff]
  have hc := DFunLike.congr_fun dz m
  rw [Dict.den_apply nz.nodup, pr_apply, surj_kept (by omega) hm] at hc
  simp only [Bool.false_eq_true, if_false] at hc
  rw [coeff, hc, cmpV, bil_den]
  rw [← Finsupp.applyAddHom_apply, map_list_sum, List.map_map, Int.cast_list_sum, List.map_map]
  congr 1
  apply List.map_congr_left
  intro pq hpq
  obtain ⟨hp, hq⟩ := mem_pyProduct.1 hpq
  simp only [Function.comp, Finsupp.applyAddHom_apply, Finsupp.smul_apply, smul_eq_mul]
  rw [Int.cast_mul (_ * _)]
  congr 1
  rw [cmp_eq_sum _ _ ((hx.onto _ hp i).2 ⟨h1, h2⟩) (onto_ne_nil hy.nf hq), surjectionCompositionCoeff,
    ← Finsupp.applyAddHom_apply, map_list_sum, List.map_map, Int.cast_list_sum, List.map_map]
  congr 1
  apply List.map_congr_left
  intro ps hps
  rw [Function.comp, Function.comp, insertionExponent_eq _ _ _ (length_of_mem_allCuts hps)]
  simp only [Finsupp.applyAddHom_apply, Finsupp.smul_apply, Finsupp.single_apply]
  split <;> simp

example : InSurj 3 (Elem.new surjection [([1, 2, 1, 3, 1], 2)] none) ∧
    InSurj 2 (Elem.new surjection [([1, 2, 1], 5)] none) ∧
    (compose (Elem.new surjection [([1, 2, 1, 3, 1], 2)] none) (Elem.new surjection [([1, 2, 1], 5)] none) 1).toOption.map
      (fun z => (z.coeff [1, 3, 1, 2, 4, 2, 1], z.coeff [1, 2, 3, 2, 1, 4, 1])) = some (-10, 10) ∧
    surjectionCompositionCoeff 1 2 [1, 2, 1, 3, 1] [1, 2, 1] [1, 3, 1, 2, 4, 2, 1] = -1 ∧
    surjectionCompositionCoeff 1 2 [1, 2, 1, 3, 1] [1, 2, 1] [1, 2, 3, 2, 1, 4, 1] = 1 ∧
    NonDegenerate 4 [1, 3, 1, 2, 4, 2, 1] :=
  ⟨inSurj_of_arity (nf_new _ (by decide) _ _) (by decide), inSurj_of_arity (nf_new _ (by decide) _ _) (by decide),
    by decide +kernel, by decide +kernel, by decide +kernel,
    ⟨fun v => by simp; omega, noRepeat_of_hasRep (by decide)⟩⟩

end Props
end Comch
