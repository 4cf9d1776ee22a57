import Verif.Lib.Cochains
import Verif.Props.Extremal
import Verif.Props.Locality

/-! # The structure elements evaluated on cochains -/

set_option linter.unusedSectionVars false

namespace Comch.Coch
open Comch.Spec Elem SurjComp SurjElem IsPerm SurjMay Comch.Props
open BElem (stepV stepV_supported)
open Finsupp (single)

variable {r n d : Nat} {σ : List Nat}

/-- A simplex with increasing vertices. -/
def Inc (σ : List Nat) : Prop := σ.Pairwise (· < ·) ∧ σ ≠ []

theorem hasRep_of_increasing {l : List Nat} (h : l.Pairwise (· < ·)) : hasRep l = false := by
  induction l with
  | nil => rfl
  | cons a l ih =>
    cases l with
    | nil => rfl
    | cons b l =>
      rw [List.pairwise_cons] at h
      have := h.1 b (by simp)
      rw [hasRep, ih h.2]
      simp
      omega

theorem Inc.ldrop (h : Inc σ) : ldrop σ = false := by
  unfold Comch.ldrop
  rw [hasRep_of_increasing h.1]
  simpa using h.2

theorem simplex_ok (hσ : Inc σ) (hn : n ≠ 1) :
    (simplexElement n σ).NF simplicial ∧ (simplexElement n σ).degree = some ((σ.length : Int) - 1) ∧
    (simplexElement n σ).arity = some 1 ∧ (simplexElement n σ).torsion = n ∧
    (simplexElement n σ).data = [([σ], 1)] := by
  have hnd : Simplex.isDegenerate σ = false := by
    rw [SurjElem.isDegenerate_eq]; exact hσ.ldrop
  have hdata : (simplexElement n σ).data = [([σ], 1)] := by
    unfold simplexElement
    by_cases h0 : n = 0
    · subst h0
      simp [Elem.new, preferredRep, zeroDropped, basePreferredRep, simplicial, hnd]
    · have h1 : (1 : Int) % n = 1 := Int.emod_eq_of_lt (by omega) (by omega)
      simp [Elem.new, preferredRep, zeroDropped, basePreferredRep, simplicial, hnd, h1]
  refine ⟨nf_new _ (by simp [Dict.KeysNodup]) _ _, ?_, ?_, rfl, hdata⟩
  · rw [SElem.degree, hdata]
    simp [uniqueValue, SElem.keyDegree, Simplex.dimension]
  · rw [SElem.arity, hdata]
    simp [uniqueValue]

theorem den_simplex (hσ : Inc σ) (hn : n ≠ 1) : den (ZMod n) (simplexElement n σ).data = bv (ZMod n) [σ] := by
  rw [(simplex_ok hσ hn).2.2.2.2]
  simp

/-- Tensors of faces. -/
def Faces (r : Nat) (σ : List Nat) : Set SKey := {m | m.length = r ∧ ∀ f ∈ m, f.Sublist σ ∧ f ≠ []}

theorem W_simplex (hr : 2 ≤ r) (hn : n ≠ 1) (hσ : Inc σ) :
    ∃ x z, Surjection.maySteenrodStructure r d (some n) .mcClureSmith = .ok x ∧
      callSimplicial x (simplexElement n σ) = .ok z ∧
      den (ZMod n) z.data = W r n d (bv (ZMod n) [σ]) := by
  obtain ⟨h1, h2, h3, h4, h5⟩ := simplex_ok hσ hn
  obtain ⟨x, z, ex, ez, -, -, dz⟩ := W_ok (d := d) hr hn h1 (homogeneous_keys h2 h3) h4
  exact ⟨x, z, ex, ez, by rw [dz, den_simplex hσ hn]⟩

theorem W_supported (hr : 2 ≤ r) (hn : n ≠ 1) (hσ : Inc σ) :
    W r n d (bv (ZMod n) [σ]) ∈ Finsupp.supported (ZMod n) (ZMod n) (Faces r σ) := by
  obtain ⟨h1, h2, h3, h4, h5⟩ := simplex_ok hσ hn
  obtain ⟨x, z, ex, ez, dz⟩ := W_simplex (d := d) hr hn hσ
  obtain ⟨x', ex', ix, tx, cx, -, -, dx, -⟩ := C56_psi_ok .mcClureSmith hr d n hn
  cases ex.symm.trans ex'
  obtain ⟨z', ez', hz⟩ := C87_locality ix dx cx h1 h2 h3 (by rw [h4, tx]) le_rfl le_rfl
  cases ez.symm.trans ez'
  rw [← dz]
  refine den_supported (R := ZMod n) (S := Faces r σ) fun q hq => ?_
  obtain ⟨p, hp, new, e1, e2, e3⟩ := hz q hq
  rw [h5] at hp
  simp only [List.mem_singleton] at hp
  subst hp
  simp only [Nat.sub_self, List.take_zero, List.drop_one, List.tail_cons, List.append_nil, List.nil_append] at e1
  have hk := (nf_callSimplicial ez).kept q hq
  rw [simplicial_drops_lany] at hk
  have hk' : ∀ s ∈ q.1, Comch.ldrop s = false := by
    simpa [lany] using hk
  refine ⟨by rw [e1, e2], fun f hf => ⟨by simpa using e3 f (by rw [← e1]; exact hf), fun h0 => ?_⟩⟩
  have := hk' f hf
  rw [h0] at this
  simp [Comch.ldrop] at this

variable {R : Type} [CommRing R]

theorem tensorValue_nil {L : List (Nat × (List Nat → R))} {k : SKey} (h : [] ∈ k) : tensorValue L k = 0 := by
  induction k generalizing L with
  | nil => simp at h
  | cons f k ih =>
    cases L with
    | nil => rfl
    | cons p L =>
      obtain ⟨q, α⟩ := p
      rw [tensorValue]
      rcases List.mem_cons.1 h with h | h
      · rw [← h]; simp
      · rw [ih h, mul_zero]

/-- Tensors of possibly empty faces. -/
def Faces0 (σ : List Nat) : Set SKey := {m | ∀ f ∈ m, f.Sublist σ}

theorem delK_sub (f : List Nat) : delK (R := R) f ∈ Finsupp.supported R R {g : List Nat | g.Sublist f} := by
  rw [delK_eq_sum]
  refine list_sum_mem fun x hx => ?_
  obtain ⟨i, -, rfl⟩ := List.mem_map.1 hx
  exact Finsupp.single_mem_supported R _ (List.eraseIdx_sublist _ _)

theorem tensK_sub {k : SKey} (hk : k ∈ Faces0 σ) :
    tensK (R := R) delK ldim k ∈ Finsupp.supported R R (Faces0 σ) := by
  induction k with
  | nil => simp [tensK]
  | cons f k ih =>
    rw [tensK, cat_one_bv]
    apply Submodule.add_mem
    · refine mapK_supported (S := {g : List Nat | g.Sublist f}) (T := Faces0 σ) _ (fun b hb => ?_) (delK_sub f)
      intro g hg
      rcases List.mem_cons.1 hg with rfl | hg
      · exact List.Sublist.trans hb (hk f (by simp))
      · exact hk g (by simp [hg])
    · apply Submodule.smul_mem
      refine mapK_supported (T := Faces0 σ) _ (fun m hm => ?_) (ih fun g hg => hk g (by simp [hg]))
      intro g hg
      rcases List.mem_cons.1 hg with rfl | hg
      · exact hk g (by simp)
      · exact hm g hg

/-- Evaluating ignores the keys which the class drops. -/
theorem evF_pr (hσ : Inc σ) (L : List (Nat × (List Nat → R))) {v : SKey →₀ R}
    (hv : v ∈ Finsupp.supported R R (Faces0 σ)) : evF L (pr lany v) = evF L v := by
  refine fun_ext_supported (f := (evF L).comp (pr lany)) (g := evF L) (S := Faces0 σ) (fun m hm => ?_) hv
  rw [LinearMap.comp_apply, pr_single]
  split
  · rename_i h
    obtain ⟨f, hf, hd⟩ := List.any_eq_true.1 h
    have : f = [] := by
      by_contra hne
      have : Inc f := ⟨hσ.1.sublist (hm f hf), hne⟩
      rw [this.ldrop] at hd
      cases hd
    subst this
    rw [map_zero, evF_single, tensorValue_nil hf, mul_zero]
  · rfl

theorem faces_sub : Faces r σ ⊆ Faces0 σ := fun _ hm f hf => (hm.2 f hf).1

theorem evF_bd (hσ : Inc σ) (L : List (Nat × (List Nat → R))) {v : SKey →₀ R}
    (hv : v ∈ Finsupp.supported R R (Faces r σ)) :
    evF L (pr lany (simplicialD v)) = evF L (simplicialD v) := by
  refine evF_pr hσ L ?_
  exact lin_supported (S := Faces0 σ) _ (fun m hm => tensK_sub hm) (Finsupp.supported_mono faces_sub hv)

/-- The value at a simplex, as a cochain. -/
noncomputable def wv (r n d : Nat) (L : List (Nat × (List Nat → ZMod n))) (σ : List Nat) : ZMod n :=
  evF L (W r n d (bv (ZMod n) [σ]))

theorem simplicialD_one (σ : List Nat) : simplicialD (bv R [σ]) =
    ((List.range σ.length).map fun i => single [σ.eraseIdx i] ((-1 : R) ^ i)).sum := by
  simp only [simplicialD, tens_single, one_smul, tensK, map_zero, smul_zero, add_zero]
  rw [delK_eq_sum, cat_one_bv, map_list_sum, List.map_map]
  congr 1
  exact List.map_congr_left fun i _ => by simp

theorem eraseIdx_inc (hσ : Inc σ) {i : Nat} (hi : i < σ.length) (h2 : 2 ≤ σ.length) : Inc (σ.eraseIdx i) := by
  refine ⟨hσ.1.sublist (List.eraseIdx_sublist _ _), fun h => ?_⟩
  have := congrArg List.length h
  rw [List.length_eraseIdx_of_lt hi] at this
  simp at this
  omega

theorem coboundary_wv (hσ : Inc σ) (L : List (Nat × (List Nat → ZMod n))) :
    coboundary (wv r n d L) σ = evF L (W r n d (pr lany (simplicialD (bv (ZMod n) [σ])))) := by
  rw [simplicialD_one, map_list_sum, List.map_map]
  unfold coboundary
  split
  · rename_i h
    have h1 : σ.length = 1 := by
      have := List.length_pos_iff.2 hσ.2
      omega
    rw [h1]
    obtain ⟨a, rfl⟩ := List.length_eq_one_iff.1 h1
    simp [lany, Comch.ldrop]
  · rename_i h
    rw [map_list_sum, List.map_map, map_list_sum, List.map_map]
    congr 1
    refine List.map_congr_left fun i hi => ?_
    have hi := List.mem_range.1 hi
    have hd := (eraseIdx_inc hσ hi (by omega)).ldrop
    simp only [Function.comp, pr_single, lany, List.any_cons, hd, List.any_nil, Bool.or_false,
      Bool.false_eq_true, if_false]
    rw [wv, ← smul_eq_mul, ← map_smul, ← map_smul]
    simp

theorem wv_zero_bd (hr : 2 ≤ r) (hn : n ≠ 1) (hσ : Inc σ) (L : List (Nat × (List Nat → ZMod n))) :
    coboundary (wv r n 0 L) σ = evF L (simplicialD (W r n 0 (bv (ZMod n) [σ]))) := by
  obtain ⟨h1, h2, h3, h4, h5⟩ := simplex_ok hσ hn
  have := W_zero hr hn h1 h2 h3 h4
  rw [den_simplex hσ hn] at this
  rw [coboundary_wv hσ, ← this, evF_bd hσ L (W_supported hr hn hσ)]

theorem wv_succ_bd (hr : 2 ≤ r) (hn : n ≠ 1) (hσ : Inc σ) (L : List (Nat × (List Nat → ZMod n))) :
    (-1) ^ (d + 1) * coboundary (wv r n (d + 1) L) σ =
      evF L (simplicialD (W r n (d + 1) (bv (ZMod n) [σ]))) -
        evF L (actV ldim (stepV (ZMod n) r (d + 1)) (W r n d (bv (ZMod n) [σ]))) := by
  obtain ⟨h1, h2, h3, h4, h5⟩ := simplex_ok hσ hn
  have := W_succ (d := d) hr hn h1 h2 h3 h4
  rw [den_simplex hσ hn] at this
  rw [coboundary_wv hσ, ← evF_bd hσ L (W_supported hr hn hσ), this, map_add, map_smul, smul_eq_mul,
    show ((d : Int) + 1) = ((d + 1 : Nat) : Int) by push_cast; ring, sg_nat]
  ring

/-- Cocycles go to cocycles. -/
theorem wv_cocycle {p q : Nat} {X : OrderedComplex} (hp : 2 ≤ p) (hp2 : p = 2 ∨ p % 2 = 1) {α : List Nat → ZMod p}
    (hα : IsCocycle X q α) (hX : σ ∈ X.simplices) : coboundary (wv p p d (List.replicate p (q, α))) σ = 0 := by
  have hσ : Inc σ := ⟨X.increasing σ hX, X.nonempty σ hX⟩
  have hn : p ≠ 1 := by omega
  have key : ∀ d, evF (List.replicate p (q, α)) (simplicialD (W p p d (bv (ZMod p) [σ]))) = 0 := by
    intro d
    have := fun_ext_supported (R := ZMod p) (S := Faces p σ)
      (f := (evF (List.replicate p (q, α))).comp simplicialD) (g := 0) (fun m hm => by
        simp only [LinearMap.comp_apply, LinearMap.zero_apply, simplicialD, tens_single, one_smul]
        refine evF_tensK_cocycle (X := X) _ (fun x hx => ?_) m (fun f hf => ?_)
        · rw [List.eq_of_mem_replicate hx]; exact hα
        · exact X.faces σ hX f (hm.2 f hf).1 (hm.2 f hf).2) (W_supported (d := d) hp hn hσ)
    simpa using this
  cases d with
  | zero => rw [wv_zero_bd hp hn hσ, key]
  | succ d =>
    have h := wv_succ_bd (d := d) hp hn hσ (List.replicate p (q, α))
    rw [key, evF_step p q α (by omega) hp2 _ (Finsupp.supported_mono (fun m hm => hm.1) (W_supported hp hn hσ)),
      sub_zero] at h
    have h2 : ((-1 : ZMod p) ^ (d + 1)) * (-1) ^ (d + 1) = 1 := by
      rw [← mul_pow]; simp
    calc _ = ((-1 : ZMod p) ^ (d + 1)) * ((-1) ^ (d + 1) * coboundary (wv p p (d + 1) (List.replicate p (q, α))) σ) := by
          rw [← mul_assoc, h2, one_mul]
      _ = 0 := by rw [h, mul_zero]

theorem evF_pair_bd (hn : n ≠ 1) (hσ : Inc σ) (a b : Nat) (α β : List Nat → ZMod n) :
    evF [(a, α), (b, β)] (simplicialD (W 2 n d (bv (ZMod n) [σ]))) =
      wv 2 n d [(a + 1, coboundary α), (b, β)] σ + (-1) ^ a * wv 2 n d [(a, α), (b + 1, coboundary β)] σ := by
  have := fun_ext_supported (R := ZMod n) (S := Faces 2 σ)
    (f := (evF [(a, α), (b, β)]).comp simplicialD)
    (g := evF [(a + 1, coboundary α), (b, β)] + ((-1) ^ a : ZMod n) • evF [(a, α), (b + 1, coboundary β)])
    (fun m hm => by
      simp only [LinearMap.comp_apply, LinearMap.add_apply, LinearMap.smul_apply, simplicialD, tens_single, one_smul,
        evF_single, one_mul, smul_eq_mul]
      exact evF_tensK_pair a b α β m hm.1) (W_supported (d := d) le_rfl hn hσ)
  simpa [wv] using this

/-- The coboundary formula, degree 0. -/
theorem wv_pair_zero (hn : n ≠ 1) (hσ : Inc σ) (a b : Nat) (α β : List Nat → ZMod n) :
    coboundary (wv 2 n 0 [(a, α), (b, β)]) σ =
      wv 2 n 0 [(a + 1, coboundary α), (b, β)] σ + (-1) ^ a * wv 2 n 0 [(a, α), (b + 1, coboundary β)] σ := by
  rw [wv_zero_bd le_rfl hn hσ, evF_pair_bd hn hσ]

/-- The coboundary formula, positive degree. -/
theorem wv_pair_succ (hn : n ≠ 1) (hσ : Inc σ) (a b : Nat) (α β : List Nat → ZMod n) :
    (-1) ^ (d + 1) * coboundary (wv 2 n (d + 1) [(a, α), (b, β)]) σ =
      wv 2 n (d + 1) [(a + 1, coboundary α), (b, β)] σ + (-1) ^ a * wv 2 n (d + 1) [(a, α), (b + 1, coboundary β)] σ -
        ((-1) ^ (a * b) * wv 2 n d [(b, β), (a, α)] σ + (-1) ^ (d + 1) * wv 2 n d [(a, α), (b, β)] σ) := by
  rw [wv_succ_bd le_rfl hn hσ, evF_pair_bd hn hσ,
    evF_step_pair _ _ _ _ _ (Finsupp.supported_mono (fun m hm => hm.1) (W_supported le_rfl hn hσ))]
  rfl

end Comch.Coch
