import Verif.Lib.Bilin
import Verif.Lib.PermOps
import Verif.Spec.Ring

/-! # The group ring of the symmetric group -/

set_option linter.unusedSectionVars false

namespace Comch
open Spec IsPerm Elem
open Finsupp (single)

theorem foldl_set_eq_update {K : Type} [DecidableEq K] (d e : Dict K) :
    e.foldl (fun d t => Dict.set d t.1 (d.get t.1 + t.2)) d = d.update e := by
  unfold Dict.update
  congr 1
  funext d t
  rw [add_comm]

/-- Product of vectors in the group ring. -/
noncomputable def mulV {R : Type} [CommRing R] :
    (Perm →₀ R) →ₗ[R] (Perm →₀ R) →ₗ[R] (Perm →₀ R) := bil fun p q => bv R (mulL p q)

/-- Composition of vectors in the group rings. -/
noncomputable def compV {R : Type} [CommRing R] (i : Nat) :
    (Perm →₀ R) →ₗ[R] (Perm →₀ R) →ₗ[R] (Perm →₀ R) := bil fun p q => bv R (compL p q i)

namespace RingElem
variable {r s : Nat} {x y : RingElem}

theorem inRing_of_keys {z : RingElem} (hz : z.NF symmetricRing)
    (h : ∀ k ∈ z.data.map Prod.fst, IsPerm r k) : InRing r z :=
  ⟨hz, fun p hp => h p.1 (List.mem_map_of_mem hp)⟩

theorem mul_ok (hx : InRing r x) (hy : InRing r y) {n : Nat} (tx : x.torsion = n)
    (ty : y.torsion = n) :
    ∃ z, mul x y = .ok z ∧ InRing r z ∧ z.attrs = x.attrs ∧
      den (ZMod n) z.data = mulV (den _ x.data) (den _ y.data) := by
  have hm : (pyProduct x.data y.data).mapM (fun (pq : (Perm × Int) × (Perm × Int)) => (do
      let k ← pq.2.1.mapM fun i => pyGet1 pq.1.1 i
      .ok (k, pq.1.2 * pq.2.2) : Py (Perm × Int))) =
      .ok ((pyProduct x.data y.data).map fun pq => (mulL pq.1.1 pq.2.1, pq.1.2 * pq.2.2)) := by
    apply mapM_ok
    intro pq hpq
    rw [mem_pyProduct] at hpq
    rw [mapM_eq (hx.perm _ hpq.1) (hy.perm _ hpq.2).range]
    rfl
  have he : mul x y = .ok (preferredRep symmetricRing ⟨List.foldl
      (fun d t => Dict.set d t.1 (d.get t.1 + t.2)) (x.zero symmetricRing).data
      ((pyProduct x.data y.data).map fun pq => (mulL pq.1.1 pq.2.1, pq.1.2 * pq.2.2)), x.attrs⟩) := by
    unfold mul
    rw [if_neg (by rw [tx, ty]; simp)]
    simp only [bind] at hm ⊢
    rw [hm]
    rfl
  refine ⟨_, he, ?_, ?_, ?_⟩
  · apply inRing_of_keys
    · apply nf_preferredRep
      show Dict.KeysNodup (List.foldl _ _ _)
      rw [foldl_set_eq_update]
      exact Dict.KeysNodup.update (nf_zero _ _).nodup _
    · intro k hk
      have := mem_keys_preferredRep hk
      simp only [foldl_set_eq_update] at this
      rcases mem_keys_update this with h | h
      · simp at h
      · simp only [List.map_map, List.mem_map, mem_pyProduct, Function.comp] at h
        obtain ⟨pq, hpq, rfl⟩ := h
        exact isPerm_mulL (hx.perm _ hpq.1) (hy.perm _ hpq.2)
  · rfl
  · refine (den_preferredRep _ _ (by exact tz tx)).trans ?_
    show pr (fun _ => false) (den _ (List.foldl _ _ _)) = _
    rw [pr_false, foldl_set_eq_update, Dict.den_update, den_bil_map mulL]
    simp [mulV]

theorem mul_err (h : x.torsion ≠ y.torsion) : mul x y = .error .typeError := by
  unfold mul
  rw [if_pos h]

theorem compose_ok (hx : InRing r x) (hy : InRing s y) {n : Nat} (tx : x.torsion = n)
    (ty : y.torsion = n) {i : Nat} (h1 : 1 ≤ i) (h2 : i ≤ r) :
    ∃ z, compose x y i = .ok z ∧ InRing (r + s - 1) z ∧ z.attrs = x.attrs ∧
      den (ZMod n) z.data = compV i (den _ x.data) (den _ y.data) := by
  unfold compose
  by_cases hz : x.truthy = true
  · rw [if_neg (by simp [hz]), if_neg (by rw [tx, ty]; simp)]
    have hm : (pyProduct x.data y.data).mapM (fun (pq : (Perm × Int) × (Perm × Int)) => (do
        let k ← pq.1.1.compose pq.2.1 i
        .ok (k, pq.1.2 * pq.2.2) : Py (Perm × Int))) =
        .ok ((pyProduct x.data y.data).map fun pq => (compL pq.1.1 pq.2.1 i, pq.1.2 * pq.2.2)) := by
      apply mapM_ok
      intro pq hpq
      rw [mem_pyProduct] at hpq
      rw [compose_eq (hx.perm _ hpq.1) _ h1 h2]
      rfl
    simp only [bind] at hm ⊢
    rw [hm]
    refine ⟨_, rfl, ?_, ?_, ?_⟩
    · apply inRing_of_keys (nf_accumulate_zero _ _ _)
      intro k hk
      have h := mem_keys_accumulate_zero hk
      simp only [List.map_map, List.mem_map, mem_pyProduct, Function.comp] at h
      obtain ⟨pq, hpq, rfl⟩ := h
      exact isPerm_compL (hx.perm _ hpq.1) (hy.perm _ hpq.2) h1 h2
    · simp
    · rw [den_accumulate_zero' _ _ _ rfl tx, den_bil_map (fun a b => compL a b i)]
      exact pr_false _
  · rw [if_pos (by simpa using hz)]
    have hx0 : x.data = [] := by
      by_contra h
      exact hz (truthy_iff.2 h)
    refine ⟨_, rfl, inRing_of_keys (nf_zero _ _) (by simp), rfl, ?_⟩
    rw [hx0]
    simp

end RingElem

section vectors
variable {R : Type} [CommRing R] {r s u : Nat}

@[simp] theorem mulV_single (p q : Perm) (a b : R) :
    mulV (single p a) (single q b) = single (mulL p q) (a * b) := by simp [mulV]

@[simp] theorem compV_single (i : Nat) (p q : Perm) (a b : R) :
    compV i (single p a) (single q b) = single (compL p q i) (a * b) := by simp [compV]

theorem mulV_assoc {d e f : List (Perm × Int)} (hd : ∀ p ∈ d, IsPerm r p.1)
    (he : ∀ p ∈ e, IsPerm r p.1) (hf : ∀ p ∈ f, IsPerm r p.1) :
    mulV (mulV (den R d) (den R e)) (den R f) = mulV (den R d) (mulV (den R e) (den R f)) := by
  refine den_induction (P := fun w => mulV (mulV w (den R e)) (den R f) = mulV w (mulV (den R e) (den R f))) d (by simp) (fun u v hu hv => by simp only [map_add, LinearMap.add_apply, hu, hv]) ?_
  intro p hp
  refine den_induction (P := fun w => mulV (mulV (single p.1 (p.2 : R)) w) (den R f) = mulV (single p.1 (p.2 : R)) (mulV w (den R f))) e (by simp) (fun u v hu hv => by simp only [map_add, LinearMap.add_apply, hu, hv]) ?_
  intro q hq
  refine den_induction (P := fun w => mulV (mulV (single p.1 (p.2 : R)) (single q.1 (q.2 : R))) w = mulV (single p.1 (p.2 : R)) (mulV (single q.1 (q.2 : R)) w)) f (by simp) (fun u v hu hv => by simp only [map_add, hu, hv]) ?_
  intro t ht
  simp only [mulV_single]
  rw [mulL_assoc (hd p hp) (he q hq) (hf t ht), mul_assoc]

theorem id_mulV {d : List (Perm × Int)} (hd : ∀ p ∈ d, IsPerm r p.1) :
    mulV (bv R (pyRange 1 (r + 1))) (den R d) = den R d := by
  refine den_induction (P := fun w => mulV (bv R (pyRange 1 (r + 1))) w = w) d (by simp) (fun u v hu hv => by simp only [map_add, hu, hv]) ?_
  intro p hp
  rw [mulV_single, id_mulL (hd p hp), one_mul]

theorem mulV_id {d : List (Perm × Int)} (hd : ∀ p ∈ d, IsPerm r p.1) :
    mulV (den R d) (bv R (pyRange 1 (r + 1))) = den R d := by
  refine den_induction (P := fun w => mulV w (bv R (pyRange 1 (r + 1))) = w) d (by simp) (fun u v hu hv => by simp only [map_add, LinearMap.add_apply, hu, hv]) ?_
  intro p hp
  rw [mulV_single, mulL_id (hd p hp), mul_one]

theorem compV_seq {d e f : List (Perm × Int)} (hd : ∀ p ∈ d, IsPerm r p.1)
    (he : ∀ p ∈ e, IsPerm s p.1) (hf : ∀ p ∈ f, IsPerm u p.1) {i j : Nat}
    (hi : 1 ≤ i ∧ i ≤ r) (hj : 1 ≤ j ∧ j ≤ s) :
    compV (i + j - 1) (compV i (den R d) (den R e)) (den R f) =
      compV i (den R d) (compV j (den R e) (den R f)) := by
  refine den_induction (P := fun w => compV (i + j - 1) (compV i w (den R e)) (den R f) = compV i w (compV j (den R e) (den R f))) d (by simp) (fun u v hu hv => by simp only [map_add, LinearMap.add_apply, hu, hv]) ?_
  intro p hp
  refine den_induction (P := fun w => compV (i + j - 1) (compV i (single p.1 (p.2 : R)) w) (den R f) = compV i (single p.1 (p.2 : R)) (compV j w (den R f))) e (by simp) (fun u v hu hv => by simp only [map_add, LinearMap.add_apply, hu, hv]) ?_
  intro q hq
  refine den_induction (P := fun w => compV (i + j - 1) (compV i (single p.1 (p.2 : R)) (single q.1 (q.2 : R))) w = compV i (single p.1 (p.2 : R)) (compV j (single q.1 (q.2 : R)) w)) f (by simp) (fun u v hu hv => by simp only [map_add, hu, hv]) ?_
  intro t ht
  simp only [compV_single]
  rw [compL_seq (hd p hp) (he q hq) (fun b hb => ((hf t ht).range b hb).1) hi hj
    (by rw [length_compL (he q hq) (hf t ht) hj.1 hj.2, (hf t ht).length]), mul_assoc]

theorem compV_par {d e f : List (Perm × Int)} (hd : ∀ p ∈ d, IsPerm r p.1)
    (he : ∀ p ∈ e, IsPerm s p.1) (hf : ∀ p ∈ f, IsPerm u p.1) {i k : Nat}
    (hi : 1 ≤ i) (hik : i < k) :
    compV (k + s - 1) (compV i (den R d) (den R e)) (den R f) =
      compV i (compV k (den R d) (den R f)) (den R e) := by
  refine den_induction (P := fun w => compV (k + s - 1) (compV i w (den R e)) (den R f) = compV i (compV k w (den R f)) (den R e)) d (by simp) (fun u v hu hv => by simp only [map_add, LinearMap.add_apply, hu, hv]) ?_
  intro p hp
  refine den_induction (P := fun w => compV (k + s - 1) (compV i (single p.1 (p.2 : R)) w) (den R f) = compV i (compV k (single p.1 (p.2 : R)) (den R f)) w) e (by simp) (fun u v hu hv => by simp only [map_add, LinearMap.add_apply, hu, hv]) ?_
  intro q hq
  refine den_induction (P := fun w => compV (k + s - 1) (compV i (single p.1 (p.2 : R)) (single q.1 (q.2 : R))) w = compV i (compV k (single p.1 (p.2 : R)) w) (single q.1 (q.2 : R))) f (by simp) (fun u v hu hv => by simp only [map_add, LinearMap.add_apply, hu, hv]) ?_
  intro t ht
  simp only [compV_single]
  rw [compL_par (hd p hp) (he q hq) (fun b hb => ((hf t ht).range b hb).1) hi hik, mul_right_comm]

theorem compV_unit {d : List (Perm × Int)} (hd : ∀ p ∈ d, IsPerm r p.1) {i : Nat} (hi : 1 ≤ i) :
    compV i (den R d) (bv R [1]) = den R d := by
  refine den_induction (P := fun w => compV i w (bv R [1]) = w) d (by simp) (fun u v hu hv => by simp only [map_add, LinearMap.add_apply, hu, hv]) ?_
  intro p hp
  rw [compV_single, compL_one (hd p hp) hi, mul_one]

theorem unit_compV (v : Perm →₀ R) : compV 1 (bv R [1]) v = v := by
  induction v using Finsupp.induction_linear with
  | zero => simp
  | add f g hf hg => simp only [map_add, hf, hg]
  | single k a => rw [compV_single, one_compL, one_mul]

end vectors

end Comch
