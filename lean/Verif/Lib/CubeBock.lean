import Verif.Lib.CubeCartan
import Verif.Lib.CartanSerre

/-! # Integral cup-i products on cubes -/

set_option linter.unusedSectionVars false

namespace Comch
namespace CubeBock
open Finsupp (single)
open Acyclic BElem Elem CElem Comch.Spec Join CubCall CubeCoch CubeCart SurjComp SurjElem IsPerm SurjMay Comch.Props
open Contract (Contr T S S_supp contract_pos contract_zero tensK_supp aug_cat)
open Serre (serre)

section
variable {R : Type} [CommRing R] {σ : Cube}

/-- Exchange of two factors, with its sign. -/
noncomputable def tau : (CKey →₀ R) →ₗ[R] (CKey →₀ R) := lin (actK cdim CubeCart.sw)

theorem actK_sw (f g : Cube) : actK (R := R) cdim CubeCart.sw [f, g] = sg R (cdim f * cdim g) • bv R [g, f] := by
  rw [actK, actL_sw]
  simp [kos, List.zip]

@[simp] theorem tau_two (f g : Cube) : tau (bv R [f, g]) = sg R (cdim f * cdim g) • bv R [g, f] := by
  rw [tau, lin_single, one_smul, actK_sw]

theorem bd_tau {v : CKey →₀ R} (hv : v ∈ Finsupp.supported R R (Len 2)) : cbd (tau v) = tau (cbd v) := by
  refine lin_ext_supported (f := cbd.comp tau) (g := tau.comp cbd) (fun k hk => ?_) hv
  have := tens_actK (R := R) (d := cubeD) (deg := cdim) sgn1_cubeD isPerm_sw hk
  simp only [LinearMap.comp_apply, tens_single, one_smul, tau, lin_single]
  exact this

theorem tau_supp {m : Int} {v : CKey →₀ R} (hv : v ∈ Finsupp.supported R R (TC 2 m σ)) :
    tau v ∈ Finsupp.supported R R (TC 2 m σ) := by
  refine lin_supported _ (fun k hk => ?_) hv
  obtain ⟨f, g, rfl⟩ := List.length_eq_two.1 hk.2.1
  rw [actK_sw]
  refine Submodule.smul_mem _ _ (Finsupp.single_mem_supported R _ ⟨fun x hx => hk.1 x (by simpa [or_comm] using hx), rfl, ?_⟩)
  have := hk.2.2
  simp only [totDeg] at this ⊢
  omega

theorem TC_len {r : Nat} {m : Int} {v : CKey →₀ R}
    (hv : v ∈ Finsupp.supported R R (TC r m σ)) : v ∈ Finsupp.supported R R (Len r) :=
  Finsupp.supported_mono (fun _ hk => hk.2.1) hv

theorem tau_tau {v : CKey →₀ R} (hv : v ∈ Finsupp.supported R R (Len 2)) : tau (tau v) = v := by
  refine lin_ext_supported (f := tau.comp tau) (g := LinearMap.id) (fun k hk => ?_) hv
  obtain ⟨f, g, rfl⟩ := List.length_eq_two.1 hk
  rw [LinearMap.comp_apply, tau_two, map_smul, tau_two, smul_smul, LinearMap.id_apply,
    mul_comm (cdim g), sg_mul_self, one_smul]

theorem lin_comp (b : Cube → (CKey →₀ R)) (φ : (CKey →₀ R) →ₗ[R] (CKey →₀ R)) (u : Cube →₀ R) :
    φ (lin b u) = lin (fun x => φ (b x)) u := by
  refine LinearMap.congr_fun (f := φ.comp (lin b)) (g := lin fun x => φ (b x)) (lin_ext fun k => ?_) u
  simp

theorem lin_add (b c : Cube → (CKey →₀ R)) (u : Cube →₀ R) :
    lin (fun x => b x + c x) u = lin b u + lin c u := by
  refine LinearMap.congr_fun (f := lin fun x => b x + c x) (g := lin b + lin c) (lin_ext fun k => ?_) u
  simp

theorem lin_smul (t : R) (b : Cube → (CKey →₀ R)) (u : Cube →₀ R) :
    lin (fun x => t • b x) u = t • lin b u := by
  refine LinearMap.congr_fun (f := lin fun x => t • b x) (g := t • lin b) (lin_ext fun k => ?_) u
  simp

/-- Families of cup-i coproducts. -/
structure Fam2 (W : Nat → Cube → (CKey →₀ R)) : Prop where
  supp : ∀ (d : Nat) c, Cu c → W d c ∈ Finsupp.supported R R (TC 2 (d + cdim c) c)
  zero : ∀ c, Cu c → cbd (W 0 c) = lin (W 0) (cubeD c)
  succ : ∀ (d : Nat) c, Cu c → cbd (W (d + 1) c) =
    W d c + sg R (d + 1) • tau (W d c) + sg R (d + 1) • lin (W (d + 1)) (cubeD c)
  vertex : ∀ c, Cu c → cdim c = 0 → aug (W 0 c) = 1

/-- The next boundary. -/
noncomputable def Zf (d : Nat) (w : Cube → (CKey →₀ R)) (c : Cube) : CKey →₀ R := w c + sg R (d + 1) • tau (w c)

structure Good (d : Nat) (w : Cube → (CKey →₀ R)) : Prop where
  supp : ∀ c, Cu c → w c ∈ Finsupp.supported R R (TC 2 (d + cdim c) c)
  cycle : ∀ c, Cu c → cbd (Zf d w c) = sg R d • lin (Zf d w) (cubeD c)
  vertex : d = 0 → ∀ c, Cu c → cdim c = 0 → aug (Zf d w c) = 0

theorem good_step {d : Nat} {w : Cube → (CKey →₀ R)} (h : Good d w) : ∃ w' : Cube → (CKey →₀ R), Good (d + 1) w' ∧
    ∀ c, Cu c → cbd (w' c) = w c + sg R (d + 1) • tau (w c) + sg R (d + 1) • lin w' (cubeD c) := by
  obtain ⟨H, hs, hb⟩ := carrier (R := R) (r := 2) (m := d) (Zf d w)
    (fun c hc => Submodule.add_mem _ (h.supp c hc) (Submodule.smul_mem _ _ (tau_supp (h.supp c hc)))) h.cycle h.vertex
  refine ⟨H, ⟨hs, fun c hc => ?_, fun h0 => by omega⟩, hb⟩
  have e : Zf (d + 1) H = fun c => H c + sg R (((d + 1 : Nat) : Int) + 1) • tau (H c) := rfl
  rw [e]
  simp only [map_add, map_smul]
  rw [bd_tau (TC_len (hs c hc)), hb c hc, lin_add, lin_smul, ← lin_comp]
  have h2 := tau_tau (TC_len (h.supp c hc))
  simp only [Zf, map_add, map_smul, h2, smul_add, smul_smul]
  push_cast
  rw [show sg R ((d : Int) + 1 + 1) = - sg R ((d : Int) + 1) from sg_succ _]
  have h3 : sg R ((d : Int) + 1) * sg R ((d : Int) + 1) = 1 := sg_mul_self _
  simp only [neg_mul, h3, mul_neg]
  module

theorem good_zero : Good 0 (serre (R := R) 1) := by
  have hs : ∀ c, Cu c → serre (R := R) 1 c ∈ Finsupp.supported R R (TC 2 ((0 : Nat) + cdim c) c) := by
    intro c hc
    have h1 := Serre.serre_supported (R := R) 1 c
    have h2 := serre_faces (R := R) 1 hc
    rw [Finsupp.mem_supported] at *
    intro k hk
    exact ⟨h2 hk, (h1 hk).1, by rw [(h1 hk).2]; simp⟩
  refine ⟨hs, fun c hc => ?_, fun _ c hc hd => ?_⟩
  · have e : Zf 0 (serre (R := R) 1) = fun c => serre 1 c + sg R (((0 : Nat) : Int) + 1) • tau (serre 1 c) := rfl
    rw [e]
    simp only [map_add, map_smul]
    rw [bd_tau (TC_len (hs c hc)), show cbd (serre (R := R) 1 c) = _ from Serre.cubicalD_serre 1 c, lin_add, lin_smul, ← lin_comp]
    simp
  · rw [Zf, Serre.serre_dim_zero 1 c hd]
    simp [hd, sg_succ]

/-- Such families exist over every ring. -/
theorem exists_fam : ∃ W : Nat → Cube → (CKey →₀ R), Fam2 W ∧ W 0 = serre 1 := by
  choose f hf1 hf2 using fun (d : Nat) (w : {w : Cube → (CKey →₀ R) // Good d w}) => good_step w.2
  let s : (d : Nat) → {w : Cube → (CKey →₀ R) // Good d w} := fun d =>
    Nat.rec ⟨serre 1, good_zero⟩ (fun d w => ⟨f d w, hf1 d w⟩) d
  refine ⟨fun d => (s d).1, ⟨fun d c hc => (s d).2.supp c hc, fun c _ => Serre.cubicalD_serre 1 c,
    fun d c hc => hf2 d (s d) c hc, fun c _ hd => ?_⟩, rfl⟩
  show aug (serre 1 c) = 1
  rw [Serre.serre_dim_zero 1 c hd]
  simp

end

/-! ### reduction modulo 2 -/

section
variable {R : Type} [CommRing R]

theorem castV_smul {K : Type} (t : Int) (v : K →₀ Int) : castV R (t • v) = (t : R) • castV R v := by
  induction v using Finsupp.induction_linear with
  | zero => simp
  | add f g hf hg => simp only [smul_add, map_add, hf, hg]
  | single k c => simp

theorem castV_lin {K L : Type} (f : K → (L →₀ Int)) (v : K →₀ Int) :
    castV R (lin f v) = lin (fun k => castV R (f k)) (castV R v) := by
  induction v using Finsupp.induction_linear with
  | zero => simp
  | add f g hf hg => simp only [map_add, hf, hg]
  | single k c => rw [lin_single, castV_smul, castV_single, lin_single]

theorem castV_mapK {K L : Type} (f : K → L) (v : K →₀ Int) : castV R (mapK f v) = mapK f (castV R v) := by
  induction v using Finsupp.induction_linear with
  | zero => simp
  | add f g hf hg => simp only [map_add, hf, hg]
  | single k c => simp

theorem castV_cat {A : Type} (u v : List A →₀ Int) : castV R (cat u v) = cat (castV R u) (castV R v) := by
  induction u using Finsupp.induction_linear with
  | zero => simp
  | add f g hf hg => simp only [map_add, LinearMap.add_apply, hf, hg]
  | single k c =>
    induction v using Finsupp.induction_linear with
    | zero => simp
    | add f g hf hg => simp only [map_add, hf, hg]
    | single l e => simp

theorem cast_sg (n : Int) : ((sg Int n : Int) : R) = sg R n := by
  unfold sg
  simp

theorem castV_cubeD (c : Cube) : castV R (cubeD (R := Int) c) = cubeD c := by
  induction c with
  | nil => simp [cubeD]
  | cons e c ih =>
    rw [cubeD, cubeD]
    split
    · rw [map_sub, map_sub, consV, castV_mapK, ih]
      simp [consV]
    · rw [consV, castV_mapK, ih]; rfl

theorem castV_tensK (k : CKey) : castV R (tensK (R := Int) cubeD cdim k) = tensK cubeD cdim k := by
  induction k with
  | nil => simp [tensK]
  | cons a k ih =>
    rw [tensK, tensK, map_add, castV_cat, castV_smul, cast_sg, consV, castV_mapK, ih, one, castV_mapK, castV_cubeD, castV_single]
    simp [consV, one]

theorem castV_bd (v : CKey →₀ Int) : castV R (cbd v) = cbd (castV R v) := by
  rw [show cbd v = lin (tensK cubeD cdim) v from rfl, castV_lin]
  simp only [castV_tensK]
  rfl

theorem castV_tau (v : CKey →₀ Int) : castV R (tau v) = tau (castV R v) := by
  rw [tau, castV_lin]
  have : (fun k => castV R (actK (R := Int) cdim CubeCart.sw k)) = actK cdim CubeCart.sw := by
    funext k
    rw [actK, castV_smul, cast_sg, castV_single, actK, Int.cast_one]
  rw [this]
  rfl

theorem castV_supp {K : Type} {S : Set K} {v : K →₀ Int} (hv : v ∈ Finsupp.supported Int Int S) :
    castV R v ∈ Finsupp.supported R R S := by
  rw [Finsupp.mem_supported] at *
  intro k hk
  refine hv ?_
  simp only [Finset.mem_coe, Finsupp.mem_support_iff] at *
  intro h
  exact hk (by simp [castV, h])

theorem castV_aug (v : CKey →₀ Int) : aug (castV R v) = ((aug v : Int) : R) := by
  induction v using Finsupp.induction_linear with
  | zero => simp
  | add f g hf hg => simp only [map_add, hf, hg, Int.cast_add]
  | single k c => simp

theorem fam_cast {W : Nat → Cube → (CKey →₀ Int)} (h : Fam2 W) : Fam2 (R := R) fun d c => castV R (W d c) where
  supp d c hc := castV_supp (h.supp d c hc)
  zero c hc := by rw [← castV_bd, h.zero c hc, castV_lin, castV_cubeD]
  succ d c hc := by
    rw [← castV_bd, h.succ d c hc, map_add, map_add, castV_smul, castV_smul, cast_sg, castV_tau, castV_lin, castV_cubeD]
  vertex c hc hd := by rw [castV_aug, h.vertex c hc hd, Int.cast_one]

end

/-! ### uniqueness modulo 2 -/

abbrev F := ZMod 2

theorem tau_pm (v : CKey →₀ F) : tau v = pm CubeCart.sw v := rfl

theorem fam_cw : Fam2 (R := F) fun d c => cw d c where
  supp _ _ hc := w2_supp hc
  zero _ hc := w2_zero hc
  succ d c hc := by rw [w2_succ hc, sg_two, one_smul, one_smul]; rfl
  vertex _ _ hd := aug_w2 hd

theorem fam_homotopy {V W : Nat → Cube → (CKey →₀ F)} (hV : Fam2 V) (hW : Fam2 W) (d : Nat) :
    ∃ K H : Cube → (CKey →₀ F),
    (∀ σ, Cu σ → K σ ∈ Finsupp.supported F F (TC 2 (d + cdim σ) σ)) ∧
    (∀ σ, Cu σ → H σ ∈ Finsupp.supported F F (TC 2 ((d + 1 : Nat) + cdim σ) σ)) ∧
    ∀ σ, Cu σ → cbd (H σ) = V d σ + W d σ + (K σ + tau (K σ)) + lin H (cubeD σ) := by
  induction d with
  | zero =>
    obtain ⟨H, hH, hb⟩ := carrier (R := F) (r := 2) (m := 0) (fun σ => V 0 σ + W 0 σ)
      (fun σ hσ => Submodule.add_mem _ (hV.supp 0 σ hσ) (hW.supp 0 σ hσ))
      (fun σ hσ => by
        rw [map_add, hV.zero σ hσ, hW.zero σ hσ, sg_two, one_smul, lin_add_fun])
      (fun _ c hc hd => by rw [map_add, hV.vertex c hc hd, hW.vertex c hc hd]; decide)
    refine ⟨fun _ => 0, H, fun _ _ => Submodule.zero_mem _, hH, fun σ hσ => ?_⟩
    rw [hb σ hσ, sg_two, one_smul, map_zero, add_zero, add_zero]
  | succ d ih =>
    obtain ⟨K, H, hK, hH, hb⟩ := ih
    obtain ⟨H', hH', hb'⟩ := carrier (R := F) (r := 2) (m := d + 1)
      (fun σ => V (d + 1) σ + W (d + 1) σ + (H σ + tau (H σ)))
      (fun σ hσ => Submodule.add_mem _ (Submodule.add_mem _ (hV.supp _ σ hσ) (hW.supp _ σ hσ))
        (Submodule.add_mem _ (hH σ hσ) (tau_supp (hH σ hσ))))
      (fun σ hσ => by
        rw [map_add, map_add, map_add, bd_tau (TC_len (hH σ hσ)), hV.succ d σ hσ, hW.succ d σ hσ, sg_two, one_smul,
          lin_add_fun (fun σ => V (d + 1) σ + W (d + 1) σ), lin_add_fun (V (d + 1)), lin_add_fun H, hb σ hσ]
        simp only [map_add, tau_tau (TC_len (hK σ hσ)), sg_two, one_smul]
        rw [← lin_comp H tau]
        rw [show ∀ a a' x b b' y c c' z z' : CKey →₀ F,
          a + a' + x + (b + b' + y) + (a + b + (c + c') + z + (a' + b' + (c' + c) + z')) =
            x + y + (z + z') + (a + a) + (a' + a') + (b + b) + (b' + b') + (c + c) + (c' + c') by intros; abel]
        simp only [CubeCart.add_self', add_zero])
      (fun h => by omega)
    refine ⟨H, H', fun σ hσ => hH σ hσ, hH', fun σ hσ => ?_⟩
    rw [hb' σ hσ, sg_two, one_smul]

end CubeBock
end Comch
