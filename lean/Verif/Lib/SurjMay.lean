import Verif.Lib.SurjOrbit
import Verif.Lib.BEMay

/-! # The May-Steenrod structure on the surjection operad: contraction and recursion -/

set_option linter.unusedSectionVars false

namespace Comch
open Spec IsPerm Elem
open Finsupp (single)

variable {R : Type} [CommRing R] {r : Nat}

namespace SurjMay
open BElem (lin_ext_supported pr_supported bil_supported bil_ext_supported bil_comm_supported PermSet stepV stepV_supported stepV_mul)

/-- Keys onto `1..r`. -/
def OK (r : Nat) : Set Surj := {k | Onto r k}

/-- Keys onto `1..r` of length `n`. -/
def OL (r n : Nat) : Set Surj := {k | Onto r k ∧ k.length = n}

/-- Keys onto `1..r` of length `n` starting with 1. -/
def O1 (r n : Nat) : Set Surj := {k | Onto r k ∧ k.length = n ∧ k.head? = some 1}

theorem OL_sub {n : Nat} : OL r n ⊆ OK r := fun _ h => h.1
theorem O1_sub {n : Nat} : O1 r n ⊆ OL r n := fun _ h => ⟨h.1, h.2.1⟩

/-- `i` on vectors. -/
noncomputable abbrev iV : (Surj →₀ R) →ₗ[R] (Surj →₀ R) := mapK fun k => 1 :: k.map (· + 1)

/-- `p` on vectors. -/
noncomputable def pV : (Surj →₀ R) →ₗ[R] (Surj →₀ R) := (mapK (List.map (· - 1))).comp (eraseOne 1)

/-- `s` on vectors. -/
noncomputable abbrev sV : (Surj →₀ R) →ₗ[R] (Surj →₀ R) := consV 1

theorem onto_cons {k : Surj} (hr : 1 ≤ r) (h : Onto r k) : Onto r (1 :: k) := by
  intro v
  rw [List.mem_cons, h v]
  omega

theorem onto_incl {k : Surj} (h : Onto r k) : Onto (r + 1) (1 :: k.map (· + 1)) := by
  intro v
  rw [List.mem_cons, List.mem_map]
  constructor
  · rintro (rfl | ⟨a, ha, rfl⟩)
    · omega
    · have := (h a).1 ha; omega
  · intro hv
    by_cases e : v = 1
    · exact Or.inl e
    · exact Or.inr ⟨v - 1, (h _).2 (by omega), by omega⟩

theorem onto_proj {k : Surj} (h : Onto (r + 1) k) (h1 : k.count 1 = 1) :
    Onto r ((k.erase 1).map (· - 1)) := by
  have hn : 1 ∉ k.erase 1 := by
    rw [← List.count_eq_zero, List.count_erase_self]; omega
  intro v
  rw [List.mem_map]
  constructor
  · rintro ⟨a, ha, rfl⟩
    have := (h a).1 (List.mem_of_mem_erase ha)
    have : a ≠ 1 := fun e => hn (e ▸ ha)
    omega
  · intro hv
    refine ⟨v + 1, ?_, by omega⟩
    rw [List.mem_erase_of_ne (by omega)]
    exact (h _).2 (by omega)

theorem pV_bv (k : Surj) : pV (bv R k) = if k.count 1 = 1 then bv R ((k.erase 1).map (· - 1)) else 0 := by
  rw [pV, LinearMap.comp_apply, eraseOne_single]
  split <;> simp

theorem mem_supp_of {K K' : Type} {S : Set K} {T : Set K'} (f : (K →₀ R) →ₗ[R] (K' →₀ R))
    (hf : ∀ k ∈ S, f (bv R k) ∈ Finsupp.supported R R T) {v : K →₀ R}
    (hv : v ∈ Finsupp.supported R R S) : f v ∈ Finsupp.supported R R T := by
  have : f = lin fun k => f (bv R k) := by
    apply lin_ext; intro k; simp
  rw [this]
  exact lin_supported _ hf hv

theorem sV_supp (hr : 1 ≤ r) {n : Nat} {v : Surj →₀ R} (hv : v ∈ Finsupp.supported R R (OL r n)) :
    sV v ∈ Finsupp.supported R R (O1 r (n + 1)) :=
  mapK_supported (S := OL r n) (T := O1 r (n + 1)) _ (fun _ hk => ⟨onto_cons hr hk.1, by simpa using hk.2, rfl⟩) hv

theorem iV_supp {n : Nat} {v : Surj →₀ R} (hv : v ∈ Finsupp.supported R R (OL r n)) :
    iV v ∈ Finsupp.supported R R (O1 (r + 1) (n + 1)) :=
  mapK_supported (S := OL r n) (T := O1 (r + 1) (n + 1)) _ (fun _ hk => ⟨onto_incl hk.1, by simpa using hk.2, rfl⟩) hv

theorem pV_supp {n : Nat} {v : Surj →₀ R} (hv : v ∈ Finsupp.supported R R (OL (r + 1) (n + 1))) :
    pV v ∈ Finsupp.supported R R (OL r n) := by
  refine mem_supp_of pV ?_ hv
  intro k hk
  rw [pV_bv]
  split
  · rename_i h1
    refine Finsupp.single_mem_supported R _ ⟨onto_proj hk.1 h1, ?_⟩
    rw [List.length_map, List.length_erase_of_mem (List.count_pos_iff.1 (by omega)), hk.2]
    rfl
  · exact Submodule.zero_mem _

theorem sdelL_supp {v : Surj →₀ R} (hv : v ∈ Finsupp.supported R R (OK r)) :
    sdelL v ∈ Finsupp.supported R R (OK r) :=
  lin_supported _ (fun k hk => Finsupp.supported_mono (s := {m | SameVals k m}) (fun _ hm => SurjElem.SameVals.onto (r := r) hm hk) (sdel_supported k)) hv

/-! ### the contraction -/

theorem mapK_comp' {K K' K'' : Type} (f : K → K') (g : K' → K'') (v : K →₀ R) :
    mapK g (mapK f v) = mapK (g ∘ f) v := by
  induction v using Finsupp.induction_linear with
  | zero => simp
  | add f g hf hg => simp only [map_add, hf, hg]
  | single k c => simp

theorem sdelL_iV {v : Surj →₀ R} (hv : v ∈ Finsupp.supported R R (OK r)) :
    sdelL (iV v) = iV (sdelL v) := by
  refine lin_ext_supported (f := sdelL.comp iV) (g := iV.comp sdelL) ?_ hv
  intro k hk
  simp only [LinearMap.comp_apply, mapK_single, sdelL_single, one_smul]
  have hn : 1 ∉ k.map (· + 1) := by
    rw [List.mem_map]
    rintro ⟨a, ha, e⟩
    have := (hk a).1 ha
    omega
  rw [sdel, if_neg hn, List.count_eq_zero.2 hn, sdel_map (f := (· + 1)) (fun a _ b _ h => by simpa using h)]
  simp only [zero_ne_one, if_false, sub_zero, consV, mapK_comp']
  rfl

theorem sdelL_pV {v : Surj →₀ R} (hv : v ∈ Finsupp.supported R R (OK (r + 1))) :
    sdelL (pV v) = pV (sdelL v) := by
  refine lin_ext_supported (f := sdelL.comp pV) (g := pV.comp sdelL) ?_ hv
  intro k hk
  have hpos : 1 ≤ k.count 1 := List.count_pos_iff.2 ((hk 1).2 (by omega))
  rw [LinearMap.comp_apply, LinearMap.comp_apply, pV_bv, sdelL_single, one_smul]
  split
  · rename_i h1
    have hn : 1 ∉ k.erase 1 := by
      rw [← List.count_eq_zero, List.count_erase_self]; omega
    rw [sdelL_single, one_smul, pV, LinearMap.comp_apply, eraseOne_sdel h1]
    refine sdel_map ?_
    intro a ha b hb h
    have := (hk a).1 (List.mem_of_mem_erase ha)
    have := (hk b).1 (List.mem_of_mem_erase hb)
    omega
  · rw [pV, LinearMap.comp_apply, eraseOne_sdel_two (by omega)]
    simp

theorem iV_pV {v : Surj →₀ R} (hv : v ∈ Finsupp.supported R R (OK (r + 1))) :
    iV (pV v) = consV 1 (eraseOne 1 v) := by
  refine lin_ext_supported (f := iV.comp pV) (g := (consV 1).comp (eraseOne 1)) ?_ hv
  intro k hk
  rw [LinearMap.comp_apply, LinearMap.comp_apply, pV_bv, eraseOne_single]
  split
  · rename_i h1
    rw [mapK_single, consV_single, List.map_map]
    congr 2
    conv_rhs => rw [← List.map_id (k.erase 1)]
    apply List.map_congr_left
    intro a ha
    have := (hk a).1 (List.mem_of_mem_erase ha)
    simp only [Function.comp, id]
    omega
  · simp

theorem sdelL_sV {v : Surj →₀ R} (hv : v ∈ Finsupp.supported R R (OK (r + 1))) :
    sdelL (sV v) = v - sV (sdelL v) - iV (pV v) := by
  rw [iV_pV hv]
  exact sdelL_consV_mem (Finsupp.supported_mono (fun k hk => (hk 1).2 (by omega)) hv)

theorem pV_suppO {v : Surj →₀ R} (hv : v ∈ Finsupp.supported R R (OK (r + 1))) :
    pV v ∈ Finsupp.supported R R (OK r) := by
  refine mem_supp_of pV ?_ hv
  intro k hk
  rw [pV_bv]
  split
  · rename_i h1
    exact Finsupp.single_mem_supported R _ (onto_proj hk h1)
  · exact Submodule.zero_mem _

theorem iV_suppO {v : Surj →₀ R} (hv : v ∈ Finsupp.supported R R (OK r)) :
    iV v ∈ Finsupp.supported R R (OK (r + 1)) :=
  mapK_supported _ (fun _ hk => onto_incl hk) hv

theorem sV_suppO {v : Surj →₀ R} (hv : v ∈ Finsupp.supported R R (OK (r + 1))) :
    sV v ∈ Finsupp.supported R R (OK (r + 1)) :=
  mapK_supported _ (fun _ hk => onto_cons (by omega) hk) hv

/-- `h` on vectors, with `m` summands. -/
noncomputable def hV : Nat → (Surj →₀ R) →ₗ[R] (Surj →₀ R)
  | 0 => 0
  | m + 1 => sV + iV.comp ((hV m).comp pV)

/-- `i^m p^m`. -/
noncomputable def eV : Nat → (Surj →₀ R) →ₗ[R] (Surj →₀ R)
  | 0 => LinearMap.id
  | m + 1 => iV.comp ((eV m).comp pV)

theorem hV_suppO (m : Nat) (hm : m ≤ r) {v : Surj →₀ R} (hv : v ∈ Finsupp.supported R R (OK r)) :
    hV m v ∈ Finsupp.supported R R (OK r) := by
  induction m generalizing r v with
  | zero => exact Submodule.zero_mem _
  | succ m ih =>
    obtain ⟨r, rfl⟩ : ∃ r', r = r' + 1 := ⟨r - 1, by omega⟩
    rw [hV]
    exact Submodule.add_mem _ (sV_suppO hv) (iV_suppO (ih (by omega) (pV_suppO hv)))

theorem hV_supp (m : Nat) (hm : m ≤ r) {n : Nat} {v : Surj →₀ R} (hv : v ∈ Finsupp.supported R R (OL r n)) :
    hV m v ∈ Finsupp.supported R R (O1 r (n + 1)) := by
  induction m generalizing r n v with
  | zero => exact Submodule.zero_mem _
  | succ m ih =>
    obtain ⟨r, rfl⟩ : ∃ r', r = r' + 1 := ⟨r - 1, by omega⟩
    rw [hV]
    refine Submodule.add_mem _ (sV_supp (by omega) hv) ?_
    cases n with
    | zero =>
      have : v = 0 := by
        have he : OL (r + 1) 0 = ∅ := by
          ext k
          constructor
          · rintro ⟨h1, h2⟩
            have := (h1 1).2 (by omega)
            rw [List.length_eq_zero_iff] at h2
            rw [h2] at this
            simp at this
          · intro h; exact h.elim
        rw [he, Finsupp.supported_empty] at hv
        simpa using hv
      rw [this]
      simp
    | succ n =>
      exact iV_supp (Finsupp.supported_mono O1_sub (ih (by omega) (pV_supp hv)))

/-- The homotopy relation. -/
theorem hV_homotopy (m : Nat) (hm : m ≤ r) {v : Surj →₀ R} (hv : v ∈ Finsupp.supported R R (OK r)) :
    sdelL (hV m v) = v - hV m (sdelL v) - eV m v := by
  induction m generalizing r v with
  | zero => simp [hV, eV]
  | succ m ih =>
    obtain ⟨r, rfl⟩ : ∃ r', r = r' + 1 := ⟨r - 1, by omega⟩
    have h1 := pV_suppO hv
    have h2 := ih (by omega) h1
    simp only [hV, eV, LinearMap.add_apply, LinearMap.comp_apply, map_add] at h2 ⊢
    have h3 := sdelL_iV (hV_suppO m (by omega) h1)
    have h4 := sdelL_pV hv
    rw [h3, h2, sdelL_sV hv, ← h4]
    simp only [map_sub]
    abel

/-! ### degenerate keys -/

theorem hasRep_map' {f : Nat → Nat} {k : List Nat} (h : hasRep k = true) : hasRep (k.map f) = true := by
  induction k with
  | nil => simp [hasRep] at h
  | cons a t ih =>
    cases t with
    | nil => simp [hasRep] at h
    | cons b t =>
      simp only [hasRep, Bool.or_eq_true, beq_iff_eq, List.map_cons] at h ⊢
      rcases h with rfl | h
      · exact Or.inl rfl
      · exact Or.inr (by simpa using ih h)

theorem pr_sV_pr (v : Surj →₀ R) : pr hasRep (sV (pr hasRep v)) = pr hasRep (sV v) := by
  refine pr_lin_pr _ (fun k hk => ?_) _
  simp [hasRep_cons hk]

theorem pr_iV_pr (v : Surj →₀ R) : pr hasRep (iV (pr hasRep v)) = pr hasRep (iV v) := by
  refine pr_lin_pr _ (fun k hk => ?_) _
  simp [hasRep_cons (hasRep_map' hk)]

theorem pr_pV_pr (v : Surj →₀ R) : pr hasRep (pV (pr hasRep v)) = pr hasRep (pV v) := by
  refine pr_lin_pr _ (fun k hk => ?_) _
  rw [pV_bv]
  split
  · rename_i h1
    simp [hasRep_map' (hasRep_erase hk h1)]
  · simp

theorem pr_hV_pr (m : Nat) (v : Surj →₀ R) : pr hasRep (hV m (pr hasRep v)) = pr hasRep (hV m v) := by
  induction m generalizing v with
  | zero => simp [hV]
  | succ m ih =>
    simp only [hV, LinearMap.add_apply, LinearMap.comp_apply, map_add, pr_sV_pr]
    rw [← pr_iV_pr, ← ih, pr_pV_pr, ih, pr_iV_pr]

theorem pr_sdelL_pr (v : Surj →₀ R) : pr hasRep (sdelL (pr hasRep v)) = pr hasRep (sdelL v) := by
  refine pr_lin_pr _ (fun k hk => ?_) _
  rw [sdelL_single, one_smul, pr_hasRep_sdel hk]

theorem hasRep_of_onto_one {k : Surj} (h : Onto 1 k) (h2 : 2 ≤ k.length) : hasRep k = true := by
  rcases k with _ | ⟨a, _ | ⟨b, k⟩⟩
  · simp at h2
  · simp at h2
  · have ha := (h a).1 (by simp)
    have hb := (h b).1 (by simp)
    have : a = b := by omega
    simp [hasRep, this]

theorem eV_degenerate (m : Nat) {n : Nat} {v : Surj →₀ R}
    (hv : v ∈ Finsupp.supported R R (OL (m + 1) (m + 2 + n))) : pr hasRep (eV m v) = 0 := by
  induction m generalizing v with
  | zero =>
    have e : 0 + 2 + n = 2 + n := by omega
    rw [e] at hv
    refine lin_ext_supported (f := (pr hasRep).comp (eV 0)) (g := 0) (S := OL 1 (2 + n)) ?_ hv
    intro k hk
    have : hasRep k = true := hasRep_of_onto_one hk.1 (by rw [hk.2]; omega)
    simp [eV, this]
  | succ m ih =>
    have e : m + 1 + 2 + n = m + 2 + n + 1 := by omega
    rw [e] at hv
    rw [eV, LinearMap.comp_apply, LinearMap.comp_apply, ← pr_iV_pr, ih (pV_supp hv)]
    simp

/-- All permutations have the same image under `i^m p^m`. -/
theorem eV_perm (m : Nat) : ∃ u : Surj →₀ R, ∀ k, Onto (m + 1) k → k.Nodup → eV m (bv R k) = u := by
  induction m with
  | zero =>
    refine ⟨bv R [1], fun k h1 h2 => ?_⟩
    have hk : k = [1] := by
      rcases k with _ | ⟨a, _ | ⟨b, k⟩⟩
      · have := (h1 1).2 (by omega); simp at this
      · have := (h1 a).1 (by simp)
        have : a = 1 := by omega
        rw [this]
      · have ha := (h1 a).1 (by simp)
        have hb := (h1 b).1 (by simp)
        have : a = b := by omega
        simp [this] at h2
    rw [hk]; rfl
  | succ m ih =>
    obtain ⟨u, hu⟩ := ih
    refine ⟨iV u, fun k h1 h2 => ?_⟩
    have hc : k.count 1 = 1 := List.count_eq_one_of_mem h2 ((h1 1).2 (by omega))
    rw [eV, LinearMap.comp_apply, LinearMap.comp_apply, pV_bv, if_pos hc, hu _ (onto_proj h1 hc)]
    refine (h2.erase 1).map_on ?_
    intro a ha b hb h
    have := (h1 a).1 (List.mem_of_mem_erase ha)
    have := (h1 b).1 (List.mem_of_mem_erase hb)
    omega

/-! ### the action and the recursion, convention of Berger and Fresse -/

/-- The action without signs. -/
noncomputable abbrev aV : (Perm →₀ R) →ₗ[R] (Surj →₀ R) →ₗ[R] (Surj →₀ R) :=
  bil fun σ k => bv R (mulL σ k)

theorem aV_supp {s : Perm →₀ R} (hs : s ∈ Finsupp.supported R R (PermSet r)) {n : Nat} {v : Surj →₀ R}
    (hv : v ∈ Finsupp.supported R R (OL r n)) : aV s v ∈ Finsupp.supported R R (OL r n) := by
  refine bil_supported (S := PermSet r) (T := OL r n) (U := OL r n) _
    (fun a ha b hb => Finsupp.single_mem_supported R _ ⟨Onto.mulL ha hb.1, ?_⟩) hs hv
  rw [← hb.2]; simp [mulL]

theorem aV_suppO {s : Perm →₀ R} (hs : s ∈ Finsupp.supported R R (PermSet r)) {v : Surj →₀ R}
    (hv : v ∈ Finsupp.supported R R (OK r)) : aV s v ∈ Finsupp.supported R R (OK r) :=
  bil_supported (S := PermSet r) (T := OK r) (U := OK r) _
    (fun _ ha _ hb => Finsupp.single_mem_supported R _ (Onto.mulL ha hb)) hs hv

theorem pr_aV {s : Perm →₀ R} (hs : s ∈ Finsupp.supported R R (PermSet r)) {v : Surj →₀ R}
    (hv : v ∈ Finsupp.supported R R (OK r)) : pr hasRep (aV s v) = aV s (pr hasRep v) := by
  refine bil_comm_supported (S := PermSet r) (T := OK r) (pr hasRep) (pr hasRep) ?_ hs hv
  intro a ha b hb
  have h : hasRep (mulL a b) = hasRep b :=
    BElem.hasRep_map fun c hc d hd => value_inj ha (hb.range c hc) (hb.range d hd)
  simp only [bil_single, one_mul, one_smul, pr_single, h]
  split
  · simp
  · simp

theorem sdelL_aV {s : Perm →₀ R} (hs : s ∈ Finsupp.supported R R (PermSet r)) {v : Surj →₀ R}
    (hv : v ∈ Finsupp.supported R R (OK r)) : sdelL (aV s v) = aV s (sdelL v) := by
  refine bil_comm_supported (S := PermSet r) (T := OK r) sdelL sdelL ?_ hs hv
  intro a ha b hb
  simp only [bil_single, one_mul, one_smul, bil_bv, sdelL_single]
  exact sdel_map fun x hx y hy => value_inj ha (hb.range x hx) (hb.range y hy)

theorem aV_mulV {s t : Perm →₀ R} (hs : s ∈ Finsupp.supported R R (PermSet r))
    (ht : t ∈ Finsupp.supported R R (PermSet r)) {v : Surj →₀ R}
    (hv : v ∈ Finsupp.supported R R (OK r)) : aV s (aV t v) = aV (mulV s t) v := by
  refine lin_ext_supported (f := (aV s).comp (aV t)) (g := aV (mulV s t)) ?_ hv
  intro k hk
  refine bil_ext_supported (f := (aV.flip.comp (aV.flip (bv R k))).flip)
    (g := mulV.compr₂ (aV.flip (bv R k))) ?_ hs ht
  intro a ha b hb
  simp only [LinearMap.flip_apply, LinearMap.comp_apply, LinearMap.compr₂_apply, bil_single, one_mul, one_smul,
    mulV_single]
  congr 1
  unfold mulL
  rw [List.map_map]
  apply List.map_congr_left
  intro v hv
  have := Onto.range hk v hv
  exact (value_mulL hb this.1 this.2).symm

/-- `psi` as a vector. -/
noncomputable def psiS (R : Type) [CommRing R] (r : Nat) : Nat → (Surj →₀ R)
  | 0 => bv R (pyRange 1 (r + 1))
  | d + 1 => pr hasRep (hV (r - 1) (aV (stepV R r (d + 1)) (psiS R r d)))

theorem onto_id : Onto r (pyRange 1 (r + 1)) := by
  intro v; rw [mem_pyRange]; omega

theorem psiS_supp (hr : 1 ≤ r) (d : Nat) : psiS R r d ∈ Finsupp.supported R R (O1 r (r + d)) := by
  induction d with
  | zero =>
    refine Finsupp.single_mem_supported R _ ⟨onto_id, by simp [pyRange], ?_⟩
    obtain ⟨r, rfl⟩ : ∃ r', r = r' + 1 := ⟨r - 1, by omega⟩
    simp [pyRange, List.range'_succ]
  | succ d ih =>
    exact pr_supported (hV_supp (r - 1) (by omega) (aV_supp (stepV_supported hr (d + 1))
      (Finsupp.supported_mono O1_sub ih)))

theorem psiS_suppL (hr : 1 ≤ r) (d : Nat) : psiS R r d ∈ Finsupp.supported R R (OL r (r + d)) :=
  Finsupp.supported_mono O1_sub (psiS_supp hr d)

theorem psiS_suppO (hr : 1 ≤ r) (d : Nat) : psiS R r d ∈ Finsupp.supported R R (OK r) :=
  Finsupp.supported_mono OL_sub (psiS_suppL hr d)

theorem pr_psiS (d : Nat) : pr hasRep (psiS R r d) = psiS R r d := by
  cases d with
  | zero =>
    have : hasRep (pyRange 1 (r + 1)) = false := by
      rw [← Bool.not_eq_true]
      intro h
      have hnd : (pyRange 1 (r + 1)).Nodup := by simp [pyRange, List.nodup_range']
      revert h hnd
      generalize pyRange 1 (r + 1) = l
      intro h hnd
      induction l with
      | nil => simp [hasRep] at h
      | cons a t ih =>
        cases t with
        | nil => simp [hasRep] at h
        | cons b t =>
          simp only [hasRep, Bool.or_eq_true, beq_iff_eq] at h
          rcases h with rfl | h
          · simp at hnd
          · exact ih h (List.nodup_cons.1 hnd).2
    simp [psiS, pr_single, this]
  | succ d => rw [psiS, pr_pr]

/-- The relation `∂ psi(d+1) = step * psi(d)`. -/
theorem sdelL_psiS (hr : 1 ≤ r) (d : Nat) :
    pr hasRep (sdelL (psiS R r (d + 1))) = aV (stepV R r (d + 1)) (psiS R r d) := by
  have hst := fun d => stepV_supported (R := R) hr d
  have h1 : ∀ d, pr hasRep (aV (stepV R r (d + 1)) (psiS R r d)) = aV (stepV R r (d + 1)) (psiS R r d) := by
    intro d
    rw [pr_aV (hst _) (psiS_suppO hr d), pr_psiS]
  have hO : ∀ d, aV (stepV R r (d + 1)) (psiS R r d) ∈ Finsupp.supported R R (OL r (r + d)) :=
    fun d => aV_supp (hst _) (psiS_suppL hr d)
  induction d with
  | zero =>
    have e : psiS R r (0 + 1) = pr hasRep (hV (r - 1) (aV (stepV R r (0 + 1)) (psiS R r 0))) := rfl
    rw [e, pr_sdelL_pr, hV_homotopy (r - 1) (by omega) (Finsupp.supported_mono OL_sub (hO 0)), map_sub, map_sub,
      h1 0]
    have h2 : sdelL (aV (stepV R r 1) (psiS R r 0)) = 0 := by
      rw [sdelL_aV (hst _) (psiS_suppO hr 0), psiS, sdelL_single, one_smul]
      have : sdel (R := R) (pyRange 1 (r + 1)) = 0 := by
        have hnd : (pyRange 1 (r + 1)).Nodup := by simp [pyRange, List.nodup_range']
        revert hnd
        generalize pyRange 1 (r + 1) = l
        intro hnd
        induction l with
        | nil => rfl
        | cons a t ih =>
          have := List.nodup_cons.1 hnd
          rw [sdel, if_neg this.1, List.count_eq_zero.2 this.1, ih this.2]
          simp
      rw [this, map_zero]
    have h3 : eV (r - 1) (aV (stepV R r 1) (psiS R r 0)) = 0 := by
      obtain ⟨u, hu⟩ := eV_perm (R := R) (r - 1)
      have er : r - 1 + 1 = r := by omega
      have hn : (pyRange 1 (r + 1)).Nodup := by simp [pyRange, List.nodup_range']
      have hp : ∀ σ, IsPerm r σ → eV (r - 1) (bv R (mulL σ (pyRange 1 (r + 1)))) = u := by
        intro σ hσ
        apply hu
        · rw [er]; exact Onto.mulL hσ onto_id
        · rw [mulL_id hσ]
          exact hσ.nodup
      unfold stepV
      rw [if_neg (by omega), psiS, map_sub, LinearMap.sub_apply, bil_single, bil_single, map_sub]
      simp only [one_mul, one_smul]
      rw [hp _ (Props.isPerm_rho hr), hp _ (isPerm_id r), sub_self]
    rw [h2, h3]
    simp
  | succ d ih =>
    have e : psiS R r (d + 1 + 1) = pr hasRep (hV (r - 1) (aV (stepV R r (d + 1 + 1)) (psiS R r (d + 1)))) := rfl
    rw [e, pr_sdelL_pr, hV_homotopy (r - 1) (by omega) (Finsupp.supported_mono OL_sub (hO (d + 1))), map_sub, map_sub,
      h1 (d + 1), ← pr_hV_pr]
    have h2 : pr hasRep (sdelL (aV (stepV R r (d + 2)) (psiS R r (d + 1)))) = 0 := by
      rw [sdelL_aV (hst _) (psiS_suppO hr _), pr_aV (hst _) (sdelL_supp (psiS_suppO hr _)), ih,
        aV_mulV (hst _) (hst _) (psiS_suppO hr d), stepV_mul hr]
      simp
    have h3 : pr hasRep (eV (r - 1) (aV (stepV R r (d + 2)) (psiS R r (d + 1)))) = 0 := by
      refine eV_degenerate (r - 1) (n := d) ?_
      have e1 : r - 1 + 1 = r := by omega
      have e2 : r - 1 + 2 + d = r + (d + 1) := by omega
      rw [e1, e2]
      exact hO (d + 1)
    rw [h2, h3]
    simp

/-! ### the structure elements are not zero -/

theorem value_rho_pow_one (hr : 1 ≤ r) {k : Nat} (h2 : k < r) : value (powL r (RingElem.rho r) k) 1 = k + 1 := by
  have hv := Props.value_powL_rho hr k (i := 1) (le_refl 1) hr
  rw [hv]
  simp
  rw [Nat.mod_eq_of_lt h2]

theorem aV_apply_one {v : Surj →₀ R} {n : Nat} (hv : v ∈ Finsupp.supported R R (O1 r n)) {σ : Perm}
    (hne : value σ 1 ≠ 1) {k : Surj} (hk : k ∈ O1 r n) : aV (bv R σ) v k = 0 := by
  have : aV (bv R σ) v ∈ Finsupp.supported R R {m : Surj | m.head? = some (value σ 1)} := by
    rw [bil_bv]
    refine lin_supported _ (fun m hm => Finsupp.single_mem_supported R _ ?_) hv
    obtain ⟨_, _, h3⟩ := hm
    rcases m with _ | ⟨a, m⟩
    · simp at h3
    · simp only [List.head?_cons, Option.some.injEq] at h3
      subst h3
      rfl
  rw [Finsupp.mem_supported'] at this
  apply this
  intro h
  rw [Set.mem_ofPred_eq, hk.2.2] at h
  exact hne (Option.some.inj h).symm

theorem aV_one {v : Surj →₀ R} (hv : v ∈ Finsupp.supported R R (OK r)) :
    aV (bv R (pyRange 1 (r + 1))) v = v := by
  refine lin_ext_supported (f := aV (bv R (pyRange 1 (r + 1)))) (g := LinearMap.id) ?_ hv
  intro k hk
  rw [bil_single, one_mul, one_smul, LinearMap.id_apply]
  congr 1
  conv_rhs => rw [← List.map_id k]
  apply List.map_congr_left
  intro t ht
  exact value_id (Onto.range hk t ht).1 (Onto.range hk t ht).2

theorem stepV_ne_zero (hr : 2 ≤ r) {v : Surj →₀ R} {n : Nat} (hv : v ∈ Finsupp.supported R R (O1 r n))
    (h0 : v ≠ 0) (e : Nat) : aV (stepV R r e) v ≠ 0 := by
  intro h
  obtain ⟨k, hk⟩ := Finsupp.ne_iff.1 h0
  have hvO : v ∈ Finsupp.supported R R (OK r) := Finsupp.supported_mono (O1_sub.trans OL_sub) hv
  have hkS : k ∈ O1 r n := by
    by_contra hc
    rw [Finsupp.mem_supported'] at hv
    exact hk (hv k hc)
  have hk2 := DFunLike.congr_fun h k
  apply hk
  unfold stepV at hk2
  split at hk2
  · obtain ⟨r, rfl⟩ : ∃ r', r = r' + 1 := ⟨r - 1, by omega⟩
    rw [nV, List.range_succ_eq_map, List.map_cons, List.sum_cons, map_add, LinearMap.add_apply,
      Finsupp.add_apply, powL, aV_one hvO] at hk2
    have hz : aV (((List.range r).map Nat.succ).map fun k => bv R (powL (r + 1) (RingElem.rho (r + 1)) k)).sum v k = 0 := by
      rw [List.map_map, map_list_sum, List.map_map]
      have : ∀ l : List (Surj →₀ R), l.sum k = (l.map fun u => u k).sum := by
        intro l
        induction l with
        | nil => rfl
        | cons a l ih => rw [List.sum_cons, Finsupp.add_apply, ih]; rfl
      have hev : ∀ l : List ((Surj →₀ R) →ₗ[R] (Surj →₀ R)), l.sum v = (l.map fun f => f v).sum := by
        intro l
        induction l with
        | nil => rfl
        | cons a l ih => rw [List.sum_cons, LinearMap.add_apply, ih]; rfl
      rw [hev, this]
      apply List.sum_eq_zero
      intro c hc
      simp only [List.map_map, List.mem_map, Function.comp, List.mem_range] at hc
      obtain ⟨i, hi, rfl⟩ := hc
      exact aV_apply_one hv (by rw [value_rho_pow_one (by omega) (by omega)]; omega) hkS
    rw [hz, add_zero] at hk2
    exact hk2
  · have h1 := value_rho_pow_one (r := r) (by omega) (k := 1) (by omega)
    have h2 : powL r (RingElem.rho r) 1 = RingElem.rho r := by
      show mulL _ _ = _
      first | exact mulL_id (Props.isPerm_rho (by omega)) | exact id_mulL (Props.isPerm_rho (by omega))
    rw [h2] at h1
    rw [tV, map_sub, LinearMap.sub_apply, Finsupp.sub_apply, aV_one hvO,
      aV_apply_one hv (by rw [h1]; omega) hkS] at hk2
    simpa using hk2

theorem psiS_ne_zero [Nontrivial R] (hr : 2 ≤ r) (d : Nat) : psiS R r d ≠ 0 := by
  induction d with
  | zero =>
    rw [psiS]
    exact Finsupp.single_ne_zero.2 one_ne_zero
  | succ d ih =>
    intro h
    have h2 := sdelL_psiS (R := R) (r := r) (by omega) d
    rw [h, map_zero, map_zero] at h2
    exact stepV_ne_zero hr (psiS_supp (by omega) d) ih (d + 1) h2.symm

/-! ### the convention of McClure and Smith -/

theorem smaller_one {t : List Nat} (h : 0 ∉ t) : smaller t 1 = 0 := by
  simp [smaller, List.count_eq_zero.2 h]

theorem smaller_succ {t : List Nat} (y : Nat) : smaller (t.map (· + 1)) (y + 1) = smaller t y := by
  unfold smaller
  rw [List.range_succ_eq_map, List.map_cons, List.sum_cons, List.map_map]
  have h0 : (t.map (· + 1)).count 0 = 0 := by
    rw [List.count_eq_zero]; simp
  rw [h0]
  simp only [Nat.zero_sub, zero_add]
  congr 1
  apply List.map_congr_left
  intro l _
  simp only [Function.comp]
  congr 1
  exact List.count_map_of_injective t (· + 1) (fun a b h => by simpa using h) l

theorem invE_succ (t : List Nat) : invE (t.map (· + 1)) = invE t := by
  induction t with
  | nil => rfl
  | cons a t ih =>
    rw [List.map_cons, invE, invE, ih, smaller_succ]
    simp

theorem invE_cons_one {k : List Nat} (h : 0 ∉ k) : invE (1 :: k) = invE k := by
  rw [invE, smaller_one h]; simp

theorem smaller_erase {t : List Nat} {x : Nat} (h : t.count x = 1) (y : Nat) : smaller (t.erase x) y = smaller t y := by
  unfold smaller
  congr 1
  apply List.map_congr_left
  intro l _
  by_cases e : l = x
  · subst e; rw [List.count_erase_self]; omega
  · rw [List.count_erase_of_ne e]

theorem invE_erase {t : List Nat} {x : Nat} (h : t.count x = 1) : invE (t.erase x) = invE t := by
  induction t with
  | nil => rfl
  | cons a t ih =>
    by_cases e : a = x
    · subst e
      have : a ∉ t := by rw [← List.count_eq_zero]; simpa using h
      rw [List.erase_cons_head, invE, if_neg this, zero_add]
    · rw [List.count_cons_of_ne e] at h
      rw [List.erase_cons_tail (by simpa using e), invE, invE, ih h, smaller_erase h]
      simp only [List.mem_erase_of_ne e]

theorem convS_comm {S : Set Surj} (c : Convention) (f : (Surj →₀ R) →ₗ[R] (Surj →₀ R))
    (hf : ∀ k ∈ S, f (bv R k) ∈ Finsupp.supported R R {m : Surj | invE m = invE k}) {v : Surj →₀ R}
    (hv : v ∈ Finsupp.supported R R S) : convS c (f v) = f (convS c v) := by
  refine lin_ext_supported (f := (convS c).comp f) (g := f.comp (convS c)) ?_ hv
  intro k hk
  rw [LinearMap.comp_apply, LinearMap.comp_apply, convS_single, map_smul, one_mul]
  refine lin_ext_supported (f := convS c) (g := sg R (convE c k) • LinearMap.id) ?_ (hf k hk)
  intro m hm
  have : convE c m = convE c k := by
    cases c
    · rfl
    · exact hm
  rw [convS_single, this, one_mul]
  rfl

theorem convS_sV (c : Convention) {v : Surj →₀ R} (hv : v ∈ Finsupp.supported R R (OK r)) :
    convS c (sV v) = sV (convS c v) := by
  refine convS_comm c sV (fun k hk => ?_) hv
  rw [consV_single]
  exact Finsupp.single_mem_supported R _ (invE_cons_one fun h => by have := (hk 0).1 h; omega)

theorem convS_iV (c : Convention) (v : Surj →₀ R) : convS c (iV v) = iV (convS c v) := by
  refine convS_comm (S := Set.univ) c iV (fun k _ => ?_) (by simp)
  rw [mapK_single]
  refine Finsupp.single_mem_supported R _ ?_
  show invE _ = invE _
  rw [invE_cons_one (by simp), invE_succ]

theorem convS_pV (c : Convention) {v : Surj →₀ R} (hv : v ∈ Finsupp.supported R R (OK (r + 1))) :
    convS c (pV v) = pV (convS c v) := by
  refine convS_comm c pV (fun k hk => ?_) hv
  rw [pV_bv]
  split
  · rename_i h1
    refine Finsupp.single_mem_supported R _ ?_
    show invE _ = invE _
    rw [← invE_erase h1, ← invE_succ, List.map_map]
    congr 1
    conv_rhs => rw [← List.map_id (k.erase 1)]
    apply List.map_congr_left
    intro a ha
    have := (hk a).1 (List.mem_of_mem_erase ha)
    simp only [Function.comp, id]
    omega
  · exact Submodule.zero_mem _

theorem convS_hV (c : Convention) (m : Nat) (hm : m ≤ r) {v : Surj →₀ R}
    (hv : v ∈ Finsupp.supported R R (OK r)) : convS c (hV m v) = hV m (convS c v) := by
  induction m generalizing r v with
  | zero => simp [hV]
  | succ m ih =>
    obtain ⟨r, rfl⟩ : ∃ r', r = r' + 1 := ⟨r - 1, by omega⟩
    simp only [hV, LinearMap.add_apply, LinearMap.comp_apply, map_add]
    rw [convS_sV c hv, convS_iV, ih (by omega) (pV_suppO hv), convS_pV c hv]

theorem convS_supp (c : Convention) {S : Set Surj} {v : Surj →₀ R} (hv : v ∈ Finsupp.supported R R S) :
    convS c v ∈ Finsupp.supported R R S :=
  lin_supported _ (fun _ hk => Submodule.smul_mem _ _ (Finsupp.single_mem_supported R _ hk)) hv

theorem invE_nodup {t : List Nat} (h : t.Nodup) : invE t = 0 := by
  induction t with
  | nil => rfl
  | cons a t ih =>
    have := List.nodup_cons.1 h
    rw [invE, if_neg this.1, ih this.2]

theorem convS_psiS_zero (c : Convention) : convS c (psiS R r 0) = psiS R r 0 := by
  rw [psiS, convS_single]
  have : convE c (pyRange 1 (r + 1)) = 0 := by
    cases c
    · rfl
    · exact invE_nodup (by simp [pyRange, List.nodup_range'])
  rw [this]
  simp

end SurjMay
end Comch
