import Verif.Props.ChainAcyclic
import Verif.Lib.CubeCochains

/-! # Acyclic carriers on cubes: maps supported on faces are homotopic -/

set_option linter.unusedSectionVars false

namespace Comch
namespace CubeCart
open Finsupp (single)
open Acyclic BElem Elem CElem Comch.Spec Join CubCall CubeCoch Contract

variable {R : Type} [CommRing R]

/-- The cubes. -/
def Cu (c : Cube) : Prop := ∀ v ∈ c, v ≤ 2

/-- Tensors of `r` faces of total dimension `m`. -/
abbrev TC (r : Nat) (m : Int) (c : Cube) : Set CKey := T cdim (FC c) r m

/-- The boundary on tensors of faces. -/
noncomputable abbrev cbd : (CKey →₀ R) →ₗ[R] (CKey →₀ R) := tens cubeD cdim

theorem FC_mono {c d : Cube} (h : c ∈ FC d) : FC c ⊆ FC d := fun _ hf => fc_trans hf h

theorem TC_mono {r : Nat} {m : Int} {c d : Cube} (h : c ∈ FC d) : TC r m c ⊆ TC r m d :=
  fun _ hk => ⟨fun f hf => FC_mono h (hk.1 f hf), hk.2⟩

theorem FC_cu {c f : Cube} (hf : f ∈ FC c) : Cu f := fc_le hf

/-- The corner of a cube. -/
def corner (c : Cube) : Cube := c.map fun a => if a = 2 then 0 else a

/-- Contraction of a cube to its corner. -/
noncomputable def hF : Cube → Cube → (Cube →₀ R)
  | a :: c, e :: f => if a = 2 then (if e = 1 then bv R (2 :: f) else 0) + (if e = 2 then 0 else consV 0 (hF c f))
      else consV a (hF c f)
  | _, _ => 0

theorem lin_hF_consV (a e : Nat) (c : Cube) (w : Cube →₀ R) : lin (hF (a :: c)) (consV e w) =
    if a = 2 then (if e = 1 then consV 2 w else 0) + (if e = 2 then 0 else consV 0 (lin (hF c) w))
      else consV a (lin (hF c) w) := by
  induction w using Finsupp.induction_linear with
  | zero => simp
  | add f g hf hg =>
    simp only [map_add, hf, hg]
    split
    · split <;> split <;> abel
    · rfl
  | single k r =>
    rw [single_eq_smul_bv]
    simp only [map_smul, consV_single, lin_single, one_smul, hF]
    split
    · rw [smul_add]
      congr 1 <;> split <;> simp
    · rfl

theorem cubeD_FC (c : Cube) (hc : Cu c) : cubeD (R := R) c ∈
    Finsupp.supported R R {f : Cube | f ∈ FC c ∧ cdim f = cdim c - 1} := by
  induction c with
  | nil => exact Submodule.zero_mem _
  | cons e c ih =>
    have hc' : Cu c := fun v hv => hc v (by simp [hv])
    have he : e ≤ 2 := hc e (by simp)
    have ih := ih hc'
    rw [cubeD]
    split
    · rename_i h
      subst h
      refine Submodule.sub_mem _ (Submodule.sub_mem _ ?_ ?_) ?_
      · refine Finsupp.single_mem_supported R _ ⟨fc_cons.2 ⟨by simp, fc_self hc'⟩, ?_⟩
        simp [cdim, Cube.dimension_cons]
      · refine Finsupp.single_mem_supported R _ ⟨fc_cons.2 ⟨by simp, fc_self hc'⟩, ?_⟩
        simp [cdim, Cube.dimension_cons]
      · refine mapK_supported _ (fun z hz => ?_) ih
        refine ⟨fc_cons.2 ⟨by simp, hz.1⟩, ?_⟩
        rw [cdim_cons, cdim_cons, hz.2]
        simp
    · rename_i h
      refine mapK_supported _ (fun z hz => ?_) ih
      refine ⟨fc_cons.2 ⟨⟨he, Or.inr rfl⟩, hz.1⟩, ?_⟩
      rw [cdim_cons, cdim_cons, hz.2]
      simp [h]

theorem corner_FC {c : Cube} (hc : Cu c) : corner c ∈ FC c := by
  induction c with
  | nil => exact fc_self (by simp)
  | cons e c ih =>
    refine fc_cons.2 ⟨?_, ih fun v hv => hc v (by simp [hv])⟩
    have he : e ≤ 2 := hc e (by simp)
    by_cases h : e = 2
    · simp [h]
    · simp [h, he]

theorem corner_dim (c : Cube) : cdim (corner c) = 0 := by
  induction c with
  | nil => rfl
  | cons e c ih =>
    rw [corner, List.map_cons, cdim_cons, show c.map _ = corner c from rfl, ih]
    by_cases h : e = 2 <;> simp [h]

theorem cubeD_vertex {c : Cube} (h : cdim c = 0) : cubeD (R := R) c = 0 := by
  induction c with
  | nil => rfl
  | cons e c ih =>
    rw [cdim_cons] at h
    have hn : 0 ≤ cdim c := by simp [cdim]
    have he : e ≠ 2 := by rintro rfl; simp at h; omega
    rw [if_neg he] at h
    rw [cubeD, if_neg he, ih (by omega), map_zero]

theorem fc_dim_le {c f : Cube} (h : f ∈ FC c) : cdim f ≤ cdim c := by
  have := fc_count h
  simp only [cdim, Cube.dimension]
  omega

theorem contr_FC {c : Cube} (hc : Cu c) : Contr (R := R) cubeD (hF c) cdim (corner c) (FC c) where
  base := ⟨corner_FC hc, corner_dim c, cubeD_vertex (corner_dim c)⟩
  nonneg := fun c _ => by simp [cdim]
  homotopy := by
    induction c with
    | nil =>
      intro f hf
      cases hf
      simp [hF, cubeD, cdim, Cube.dimension, corner]
    | cons a c ih =>
      intro f hf
      rcases f with _ | ⟨e, f⟩
      · cases hf
      obtain ⟨⟨he, hae⟩, hf⟩ := fc_cons.1 hf
      have ih := ih (fun v hv => hc v (by simp [hv])) f hf
      have key : ∀ x : Nat, consV x (lin cubeD (hF (R := R) c f)) + consV x (lin (hF c) (cubeD f)) =
          bv R (x :: f) - if cdim f = 0 then bv R (x :: corner c) else 0 := by
        intro x
        rw [← map_add, ih, map_sub]
        split <;> simp
      rw [cdim_cons]
      by_cases ha : a = 2
      · subst ha
        have hco : corner (2 :: c) = 0 :: corner c := rfl
        rw [hco]
        rcases (show e = 0 ∨ e = 1 ∨ e = 2 by omega) with rfl | rfl | rfl
        · simp only [hF, cubeD]
          simp only [show (0:Nat) ≠ 1 by decide, show (0:Nat) ≠ 2 by decide, if_false, zero_add, lin_cubeD_consV,
            lin_hF_consV, add_zero, if_true]
          exact key 0
        · simp only [hF, cubeD]
          simp only [show (1:Nat) ≠ 2 by decide, show (0:Nat) ≠ 2 by decide, if_false, if_true, map_add, lin_cubeD_consV,
            lin_hF_consV, add_zero, lin_single, one_smul, cubeD]
          rw [show ∀ (a b c d e : Cube →₀ R), a - b - c + d + (c + e) = a - b + (d + e) by intros; abel, key 0]
          abel
        · simp only [hF, cubeD]
          have hz : ¬ (cdim f + 1 = 0) := by
            simp only [cdim]; omega
          simp only [show (2:Nat) ≠ 1 by decide, show (0:Nat) ≠ 1 by decide, show (1:Nat) ≠ 2 by decide,
            show (0:Nat) ≠ 2 by decide, if_false, if_true, map_sub, lin_single, one_smul, hF,
            lin_hF_consV, add_zero, zero_add, map_zero, sub_zero, hz]
          abel
      · obtain rfl : e = a := by tauto
        have hco : corner (e :: c) = e :: corner c := by simp [corner, ha]
        rw [hco]
        simp only [hF, cubeD]
        simp only [ha, if_false, lin_cubeD_consV, lin_hF_consV, add_zero]
        exact key e
  hdeg := by
    induction c with
    | nil =>
      intro f hf
      cases hf
      exact Submodule.zero_mem _
    | cons a c ih =>
      intro f hf
      rcases f with _ | ⟨e, f⟩
      · cases hf
      obtain ⟨⟨he, hae⟩, hf'⟩ := fc_cons.1 hf
      have ih := ih (fun v hv => hc v (by simp [hv])) f hf'
      rw [hF]
      split
      · rename_i ha
        subst ha
        refine Submodule.add_mem _ ?_ ?_
        · split
          · rename_i h1
            subst h1
            refine Finsupp.single_mem_supported R _ ⟨fc_cons.2 ⟨by simp, hf'⟩, ?_⟩
            rw [cdim_cons, cdim_cons]
            simp
          · exact Submodule.zero_mem _
        · split
          · exact Submodule.zero_mem _
          · rename_i h2
            refine mapK_supported (T := {z | z ∈ FC (2 :: c) ∧ cdim z = cdim (e :: f) + 1}) _
              (fun z hz => ⟨fc_cons.2 ⟨by simp, hz.1⟩, ?_⟩) ih
            rw [cdim_cons, cdim_cons, hz.2, if_neg h2]
            simp
      · rename_i ha
        obtain rfl : e = a := by tauto
        refine mapK_supported (T := {z | z ∈ FC (e :: c) ∧ cdim z = cdim (e :: f) + 1}) _
          (fun z hz => ⟨fc_cons.2 ⟨⟨he, Or.inr rfl⟩, hz.1⟩, ?_⟩) ih
        rw [cdim_cons, cdim_cons, hz.2, if_neg ha]
        simp
  ddeg := by
    intro f hf
    refine Finsupp.supported_mono ?_ (cubeD_FC f (fc_le hf))
    rintro z ⟨h1, h2⟩
    exact ⟨fc_trans h1 hf, h2⟩
  aug := fun c _ h1 => aug_cubeD (by omega)

variable {r m : Nat}

/-- Stages of the homotopy. -/
noncomputable def HC (m : Nat) (Z : Cube → (CKey →₀ R)) : Nat → Cube → (CKey →₀ R)
  | 0, c => lin (S (hF c) cdim (corner c)) (Z c)
  | N + 1, c => lin (S (hF c) cdim (corner c)) (Z c + sg R (m + 1) • lin (HC m Z N) (cubeD c))

theorem cube_dd (c : Cube) : lin (cubeD (R := R)) (cubeD c) = 0 := by
  exact lin_cubeD_cubeD c

/-- A family supported on faces which is a cycle in the complex of such families is a boundary. -/
theorem carrier (Z : Cube → (CKey →₀ R))
    (hs : ∀ c, Cu c → Z c ∈ Finsupp.supported R R (TC r (m + cdim c) c))
    (hz : ∀ c, Cu c → cbd (Z c) = sg R m • lin Z (cubeD c))
    (ha : m = 0 → ∀ c, Cu c → cdim c = 0 → aug (Z c) = 0) :
    ∃ H : Cube → (CKey →₀ R), (∀ c, Cu c → H c ∈ Finsupp.supported R R (TC r ((m + 1 : Nat) + cdim c) c)) ∧
      ∀ c, Cu c → cbd (H c) = Z c + sg R (m + 1) • lin H (cubeD c) := by
  set H : Cube → (CKey →₀ R) := fun c => HC m Z (c.count 2) c with hH
  have hcd : ∀ c : Cube, cdim c = (c.count 2 : Nat) := fun c => rfl
  have hstep : ∀ c, Cu c → H c = lin (S (hF c) cdim (corner c)) (Z c + sg R (m + 1) • lin H (cubeD c)) := by
    intro c hc
    show HC m Z (c.count 2) c = _
    cases hn : c.count 2 with
    | zero => rw [HC, cubeD_vertex (by rw [hcd, hn]; rfl), map_zero, smul_zero, add_zero]
    | succ N =>
      rw [HC]
      congr 3
      refine lin_ext_supported (f := lin (HC m Z N)) (g := lin H) (fun k hk => ?_) (cubeD_FC c hc)
      have : k.count 2 = N := by
        have := hk.2
        rw [hcd, hcd, hn] at this
        omega
      simp [hH, this]
  have key : ∀ N c, Cu c → c.count 2 = N → H c ∈ Finsupp.supported R R (TC r ((m + 1 : Nat) + cdim c) c) ∧
      cbd (H c) = Z c + sg R (m + 1) • lin H (cubeD c) := by
    intro N
    induction N with
    | zero =>
      intro c hc hl
      have hC := contr_FC (R := R) hc
      have h0 : cdim c = 0 := by rw [hcd, hl]; rfl
      have e : H c = lin (S (hF c) cdim (corner c)) (Z c) := by
        rw [hstep c hc, cubeD_vertex h0, map_zero, smul_zero, add_zero]
      have hZ := hs c hc
      refine ⟨?_, ?_⟩
      · rw [e]
        refine lin_supported _ (fun k hk => ?_) hZ
        have := S_supp hC hk
        rw [show ((m + 1 : Nat) : Int) + cdim c = (m : Int) + cdim c + 1 by push_cast; ring]
        exact this
      · rw [e, cubeD_vertex h0, map_zero, smul_zero, add_zero]
        by_cases hm : m = 0
        · have := contract_zero hC (v := Z c) (r := r) (by simpa [hm, h0] using hZ)
          rw [ha hm c hc h0, zero_smul, sub_zero] at this
          exact this
        · have := contract_pos hC (m := (m : Int) + cdim c) (by rw [h0]; omega) hZ
          have hb := hz c hc
          rw [cubeD_vertex h0, map_zero, smul_zero] at hb
          rw [this]
          show Z c - lin (S (hF c) cdim (corner c)) (cbd (Z c)) = _
          rw [hb, map_zero, sub_zero]
    | succ N ih =>
      intro c hc hl
      have hC := contr_FC (R := R) hc
      have hf : ∀ f, f ∈ {f : Cube | f ∈ FC c ∧ cdim f = cdim c - 1} →
          Cu f ∧ f.count 2 = N ∧ f ∈ FC c := fun f hf =>
        ⟨FC_cu hf.1, by have := hf.2; rw [hcd, hcd, hl] at this; omega, hf.1⟩
      have hsup : lin H (cubeD c) ∈ Finsupp.supported R R (TC r (m + cdim c) c) := by
        refine lin_supported _ (fun f hfm => ?_) (cubeD_FC c hc)
        obtain ⟨h1, h2, h3⟩ := hf f hfm
        have := (ih f h1 h2).1
        refine Finsupp.supported_mono (fun k hk => ?_) this
        have hk' := TC_mono h3 hk
        have e : ((m + 1 : Nat) : Int) + cdim f = m + cdim c := by
          simp only [hcd, h2, hl]; push_cast; ring
        rw [e] at hk'
        exact hk'
      have hY : Z c + sg R (m + 1) • lin H (cubeD c) ∈
          Finsupp.supported R R (TC r (m + cdim c) c) :=
        Submodule.add_mem _ (hs _ hc) (Submodule.smul_mem _ _ hsup)
      have hbd : cbd (lin H (cubeD c)) = lin Z (cubeD c) := by
        have : cbd (lin H (cubeD c)) =
            (lin Z + sg R (m + 1) • (lin H).comp (lin cubeD)) (cubeD c) := by
          refine lin_ext_supported (f := cbd.comp (lin H))
            (g := lin Z + sg R (m + 1) • (lin H).comp (lin cubeD)) (fun f hfm => ?_) (cubeD_FC c hc)
          obtain ⟨h1, h2, h3⟩ := hf f hfm
          have := (ih f h1 h2).2
          simp only [LinearMap.comp_apply, lin_single, one_smul, LinearMap.add_apply, LinearMap.smul_apply]
          exact this
        rw [this]
        simp only [LinearMap.comp_apply, LinearMap.add_apply, LinearMap.smul_apply, cube_dd, map_zero, smul_zero,
          add_zero]
      refine ⟨?_, ?_⟩
      · rw [hstep c hc]
        refine lin_supported _ (fun k hk => ?_) hY
        have := S_supp hC hk
        rw [show ((m + 1 : Nat) : Int) + cdim c = (m : Int) + cdim c + 1 by push_cast; ring]
        exact this
      · rw [hstep c hc, show ∀ w, cbd (R := R) w = tens cubeD cdim w from fun _ => rfl,
          contract_pos hC (m := (m : Int) + cdim c) (by rw [hcd, hl]; push_cast; omega) hY]
        have : tens cubeD cdim (Z c + sg R (m + 1) • lin H (cubeD c)) = 0 := by
          rw [map_add, map_smul, show tens cubeD cdim (Z c) = _ from hz _ hc,
            show tens cubeD cdim (lin H (cubeD c)) = _ from hbd, sg_succ, ← add_smul]
          simp
        rw [this, map_zero, sub_zero]
  exact ⟨H, fun c hc => (key _ c hc rfl).1, fun c hc => (key _ c hc rfl).2⟩

end CubeCart
end Comch
