import Verif.Props.ChainAcyclic
import Verif.Lib.CochainsAct

/-! # Acyclic carriers: maps supported on faces are homotopic -/

set_option linter.unusedSectionVars false

namespace Comch
namespace Contract
open Finsupp (single)
open Acyclic BElem Elem Comch.Spec Join Coch

variable {R : Type} [CommRing R]

/-- The faces of a simplex. -/
def Gs (σ : List Nat) : Set (List Nat) := {f | f ≠ [] ∧ f.Sublist σ}

/-- Tensors of `r` faces of total dimension `m`. -/
abbrev TS (r : Nat) (m : Int) (σ : List Nat) : Set SKey := T ldim (Gs σ) r m

/-- The boundary on tensors of faces. -/
noncomputable abbrev bd : (SKey →₀ R) →ₗ[R] (SKey →₀ R) := tens delE ldim

theorem Gs_mono {σ τ : List Nat} (h : σ.Sublist τ) : Gs σ ⊆ Gs τ := fun _ hf => ⟨hf.1, hf.2.trans h⟩

theorem TS_mono {r : Nat} {m : Int} {σ τ : List Nat} (h : σ.Sublist τ) : TS r m σ ⊆ TS r m τ :=
  fun _ hk => ⟨fun f hf => Gs_mono h (hk.1 f hf), hk.2⟩

theorem Gs_inc {σ f : List Nat} (hσ : Inc σ) (hf : f ∈ Gs σ) : Inc f := ⟨hσ.1.sublist hf.2, hf.1⟩

/-- The cone operator which leaves simplices containing the cone point alone. -/
noncomputable def coneN (v : Nat) (s : List Nat) : List Nat →₀ R :=
  if s = [] ∨ s.head? = some v then 0 else bv R (v :: s)

theorem delE_supp (s : List Nat) : delE (R := R) s ∈
    Finsupp.supported R R {f : List Nat | f ∈ Gs s ∧ f.length = s.length - 1} := by
  rcases s with _ | ⟨a, _ | ⟨b, s⟩⟩
  · simp [delE, delK]
  · rw [delE_singleton]; exact Submodule.zero_mem _
  · rw [delE_of_two (by simp)]
    rw [Coch.delK_eq_sum]
    refine list_sum_mem fun x hx => ?_
    obtain ⟨i, hi, rfl⟩ := List.mem_map.1 hx
    have hi := List.mem_range.1 hi
    have hl := List.length_eraseIdx_of_lt hi
    refine Finsupp.single_mem_supported R _ ⟨⟨fun h0 => ?_, List.eraseIdx_sublist _ _⟩, hl⟩
    rw [h0] at hl
    simp at hl

theorem delE_delE (s : List Nat) : lin (delE (R := R)) (delE s) = 0 := by
  have h := pr_lin_pr (drops := fun s : List Nat => decide (s = [])) (drops' := fun s : List Nat => decide (s = []))
    (lin (delK (R := R) (α := Nat))) (fun k hk => by
      have : k = [] := by simpa using hk
      subst this
      simp [delK]) (delK s)
  have hd : lin (delK (R := R)) (delK s) = 0 := by
    have := del_del (R := R) (bv R s)
    simpa [del] using this
  rw [hd, map_zero] at h
  have : ∀ v : List Nat →₀ R, lin (delE (R := R)) v = pr (fun s : List Nat => decide (s = [])) (lin delK v) := by
    intro v
    refine LinearMap.congr_fun (f := lin (delE (R := R)))
      (g := (pr fun s : List Nat => decide (s = [])).comp (lin delK)) (lin_ext fun k => ?_) v
    simp [delE]
  rw [this]
  exact h

theorem contr_faces {v : Nat} {t : List Nat} (hσ : Inc (v :: t)) :
    Contr (R := R) delE (coneN v) ldim [v] (Gs (v :: t)) where
  base := ⟨⟨by simp, by simp⟩, by simp [ldim], delE_singleton v⟩
  nonneg := by
    intro s hs
    have := List.length_pos_iff.2 hs.1
    simp only [ldim]
    omega
  homotopy := by
    intro s hs
    have hi := Gs_inc hσ hs
    rcases s with _ | ⟨a, s⟩
    · exact absurd rfl hs.1
    by_cases ha : a = v
    · subst ha
      have hc : ∀ w : List Nat →₀ R, lin (coneN a) (consV a w) = 0 := by
        intro w
        refine LinearMap.congr_fun (f := (lin (coneN (R := R) a)).comp (consV a)) (g := 0) (lin_ext fun k => ?_) w
        simp [coneN]
      rw [coneN, if_pos (by simp), map_zero, zero_add]
      cases s with
      | nil => rw [delE_singleton]; simp [ldim]
      | cons b s =>
        have hab : a < b := (List.pairwise_cons.1 hi.1).1 b (by simp)
        rw [delE_of_two (by simp), delK, map_sub, hc, lin_single, coneN, if_neg (by simp; omega),
          if_neg (by simp only [ldim, List.length_cons]; push_cast; omega)]
        simp
    · have hs' : (a :: s).Sublist t := by
        have := hs.2
        rw [List.sublist_cons_iff] at this
        rcases this with h | ⟨r, hr, -⟩
        · exact h
        · simp at hr; exact absurd hr.1 ha
      have hv : ∀ x ∈ a :: s, v ≠ x := fun x hx => by
        have := (List.pairwise_cons.1 hσ.1).1 x (hs'.subset hx)
        omega
      have hc : lin (coneN v) (delE (R := R) (a :: s)) = consV v (delE (a :: s)) := by
        refine lin_ext_supported (f := lin (coneN v)) (g := consV v) (fun k hk => ?_) (delE_supp (a :: s))
        have h0 : ¬ (k = [] ∨ k.head? = some v) := by
          rintro (h0 | h0)
          · exact hk.1.1 h0
          · have : v ∈ k := List.mem_of_mem_head? h0
            exact hv v (hk.1.2.subset this) rfl
        simp [coneN, h0]
      rw [hc, coneN, if_neg (by simp; omega), lin_single, one_smul, delE_of_two (by simp), delK]
      cases s with
      | nil =>
        rw [delE_singleton]
        simp [delK, ldim]
      | cons b s =>
        rw [delE_of_two (by simp), if_neg (by simp only [ldim, List.length_cons]; push_cast; omega)]
        simp
  hdeg := by
    intro s hs
    rw [coneN]
    split
    · exact Submodule.zero_mem _
    · rename_i h
      push Not at h
      rcases s with _ | ⟨a, s⟩
      · exact absurd rfl hs.1
      have ha : a ≠ v := by simpa using h.2
      refine Finsupp.single_mem_supported R _ ⟨⟨by simp, ?_⟩, by simp [ldim]⟩
      have := hs.2
      rw [List.sublist_cons_iff] at this
      rcases this with h | ⟨r, hr, -⟩
      · exact h.cons₂ v
      · simp at hr; exact absurd hr.1 ha
  ddeg := by
    intro s hs
    refine Finsupp.supported_mono ?_ (delE_supp s)
    rintro f ⟨hf, hl⟩
    refine ⟨Gs_mono hs.2 hf, ?_⟩
    have := List.length_pos_iff.2 hf.1
    simp only [ldim]
    omega
  aug := by
    intro s hs h1
    simp only [ldim] at h1
    obtain ⟨a, c, rfl⟩ := List.length_eq_two.1 (show s.length = 2 by omega)
    rw [delE_of_two (by simp)]
    simp [delK]

variable {r m : Nat}

/-- Stages of the homotopy. -/
noncomputable def HN (m : Nat) (Z : List Nat → (SKey →₀ R)) : Nat → List Nat → (SKey →₀ R)
  | 0, _ => 0
  | _ + 1, [] => 0
  | N + 1, v :: t => lin (S (coneN v) ldim [v])
      (Z (v :: t) + sg R (m + 1) • lin (HN m Z N) (delE (v :: t)))

/-- A family supported on faces which is a cycle in the complex of such families is a boundary. -/
theorem acyclic_carrier (Z : List Nat → (SKey →₀ R))
    (hs : ∀ σ, Inc σ → Z σ ∈ Finsupp.supported R R (TS r (m + ldim σ) σ))
    (hz : ∀ σ, Inc σ → bd (Z σ) = sg R m • lin Z (delE σ))
    (ha : m = 0 → ∀ v, aug (Z [v]) = 0) :
    ∃ H : List Nat → (SKey →₀ R), (∀ σ, Inc σ → H σ ∈ Finsupp.supported R R (TS r ((m + 1 : Nat) + ldim σ) σ)) ∧
      ∀ σ, Inc σ → bd (H σ) = Z σ + sg R (m + 1) • lin H (delE σ) := by
  set H : List Nat → (SKey →₀ R) := fun σ => HN m Z σ.length σ with hH
  have hstep : ∀ v t, H (v :: t) = lin (S (coneN v) ldim [v]) (Z (v :: t) + sg R (m + 1) • lin H (delE (v :: t))) := by
    intro v t
    show HN m Z (t.length + 1) (v :: t) = _
    rw [HN]
    congr 3
    refine lin_ext_supported (f := lin (HN m Z t.length)) (g := lin H) (fun k hk => ?_) (delE_supp (v :: t))
    have : k.length = t.length := by rw [hk.2]; simp
    simp [hH, this]
  have hsq : sg R ((m : Int) + 1) * sg R (m + 1) = 1 := by
    rw [← sg_add, show (m : Int) + 1 + (m + 1) = ((2 * (m + 1) : Nat) : Int) by push_cast; ring, sg_nat, pow_mul]
    simp
  have key : ∀ N σ, Inc σ → σ.length = N + 1 → H σ ∈ Finsupp.supported R R (TS r ((m + 1 : Nat) + ldim σ) σ) ∧
      bd (H σ) = Z σ + sg R (m + 1) • lin H (delE σ) := by
    intro N
    induction N with
    | zero =>
      intro σ hσ hl
      obtain ⟨v, rfl⟩ := List.length_eq_one_iff.1 hl
      have hC := contr_faces (R := R) hσ
      have e : H [v] = lin (S (coneN v) ldim [v]) (Z [v]) := by
        rw [hstep, delE_singleton, map_zero, smul_zero, add_zero]
      have hZ := hs [v] hσ
      refine ⟨?_, ?_⟩
      · rw [e]
        refine lin_supported _ (fun k hk => ?_) hZ
        have := S_supp hC hk
        rw [show ((m + 1 : Nat) : Int) + ldim [v] = (m : Int) + ldim [v] + 1 by push_cast; ring]
        exact this
      · rw [e, delE_singleton, map_zero, smul_zero, add_zero]
        by_cases hm : m = 0
        · have := contract_zero hC (v := Z [v]) (r := r) (by simpa [hm, ldim] using hZ)
          rw [ha hm, zero_smul, sub_zero] at this
          exact this
        · have := contract_pos hC (m := (m : Int) + ldim [v]) (by simp [ldim]; omega) hZ
          have hb := hz [v] hσ
          rw [delE_singleton, map_zero, smul_zero] at hb
          rw [this]
          show Z [v] - lin (S (coneN v) ldim [v]) (bd (Z [v])) = _
          rw [hb, map_zero, sub_zero]
    | succ N ih =>
      intro σ hσ hl
      obtain ⟨v, t, rfl⟩ : ∃ v t, σ = v :: t := by
        cases σ with
        | nil => exact absurd rfl hσ.2
        | cons v t => exact ⟨v, t, rfl⟩
      have hC := contr_faces (R := R) hσ
      have hf : ∀ f, f ∈ {f : List Nat | f ∈ Gs (v :: t) ∧ f.length = (v :: t).length - 1} →
          Inc f ∧ f.length = N + 1 ∧ f.Sublist (v :: t) := fun f hf =>
        ⟨Gs_inc hσ hf.1, by rw [hf.2, hl]; rfl, hf.1.2⟩
      have hsup : lin H (delE (v :: t)) ∈ Finsupp.supported R R (TS r (m + ldim (v :: t)) (v :: t)) := by
        refine lin_supported _ (fun f hfm => ?_) (delE_supp (v :: t))
        obtain ⟨h1, h2, h3⟩ := hf f hfm
        have := (ih f h1 h2).1
        refine Finsupp.supported_mono (fun k hk => ?_) this
        have hk' := TS_mono h3 hk
        have e : ((m + 1 : Nat) : Int) + ldim f = m + ldim (v :: t) := by
          simp only [ldim, h2, hl]; push_cast; ring
        rw [e] at hk'
        exact hk'
      have hY : Z (v :: t) + sg R (m + 1) • lin H (delE (v :: t)) ∈
          Finsupp.supported R R (TS r (m + ldim (v :: t)) (v :: t)) :=
        Submodule.add_mem _ (hs _ hσ) (Submodule.smul_mem _ _ hsup)
      have hbd : bd (lin H (delE (v :: t))) = lin Z (delE (v :: t)) := by
        have : bd (lin H (delE (v :: t))) =
            (lin Z + sg R (m + 1) • (lin H).comp (lin delE)) (delE (v :: t)) := by
          refine lin_ext_supported (f := bd.comp (lin H))
            (g := lin Z + sg R (m + 1) • (lin H).comp (lin delE)) (fun f hfm => ?_) (delE_supp (v :: t))
          obtain ⟨h1, h2, h3⟩ := hf f hfm
          have := (ih f h1 h2).2
          simp only [LinearMap.comp_apply, lin_single, one_smul, LinearMap.add_apply, LinearMap.smul_apply]
          exact this
        rw [this]
        simp only [LinearMap.comp_apply, LinearMap.add_apply, LinearMap.smul_apply, delE_delE, map_zero, smul_zero,
          add_zero]
      refine ⟨?_, ?_⟩
      · rw [hstep]
        refine lin_supported _ (fun k hk => ?_) hY
        have := S_supp hC hk
        rw [show ((m + 1 : Nat) : Int) + ldim (v :: t) = (m : Int) + ldim (v :: t) + 1 by push_cast; ring]
        exact this
      · rw [hstep, show ∀ w, bd (R := R) w = tens delE ldim w from fun _ => rfl,
          contract_pos hC (m := (m : Int) + ldim (v :: t)) (by simp only [ldim, hl]; push_cast; omega) hY]
        have : tens delE ldim (Z (v :: t) + sg R (m + 1) • lin H (delE (v :: t))) = 0 := by
          rw [map_add, map_smul, show tens delE ldim (Z (v :: t)) = _ from hz _ hσ,
            show tens delE ldim (lin H (delE (v :: t))) = _ from hbd, sg_succ, ← add_smul]
          simp
        rw [this, map_zero, sub_zero]
  refine ⟨H, fun σ hσ => ?_, fun σ hσ => ?_⟩
  · exact (key (σ.length - 1) σ hσ (by have := List.length_pos_iff.2 hσ.2; omega)).1
  · exact (key (σ.length - 1) σ hσ (by have := List.length_pos_iff.2 hσ.2; omega)).2

end Contract
end Comch
