import Verif.Props.CubTwistChain
import Verif.Lib.SurjCallAct
import Verif.Lib.CubCallAct

/-! # Permutations and the action on cubes with the twisted signs -/

set_option linter.unusedSectionVars false

namespace Comch.CubTwist
open Finsupp (single)
open Comch.Join Serre SurjComp CubCall CubCS SurjElem Comch.Spec IsPerm

variable {R : Type} [CommRing R] {r : Nat} {σ : Perm}

/-! ### the sign of the code under relabelling -/

theorem pathE_map {f : Nat → Nat} {k : List Nat} (ps : List (List Nat)) (h : ∀ a ∈ k, ∀ b ∈ k, f a = f b → a = b) :
    pathE (k.map f) ps = pathE k ps := by
  induction k generalizing ps with
  | nil => rfl
  | cons x k ih =>
    cases ps with
    | nil => rfl
    | cons p ps =>
      have h' : ∀ a ∈ k, ∀ b ∈ k, f a = f b → a = b := fun a ha b hb => h a (by simp [ha]) b (by simp [hb])
      rw [List.map_cons, pathE, pathE, ih ps h', ← List.map_cons, sdeg_map_inj h]

theorem letters_joinW_map (f : Nat → Nat) (k : List Nat) (ps : List (List Nat)) :
    letters (joinW (k.map f) ps) = (letters (joinW k ps)).map f := by
  induction k generalizing ps with
  | nil => simp
  | cons x k ih =>
    cases ps with
    | nil => simp
    | cons p ps => rw [List.map_cons, letters_joinW_cons, letters_joinW_cons, ih]; simp

/-- Pieces of the dimensions of the cubes. -/
def pcs (L : CKey) : List (List Nat) := L.map fun a => List.replicate (Cube.dimension a + 1) 0

theorem dims_pcs (L : CKey) : dims (pcs L) = L.map cdim := by
  simp [dims, pcs, Function.comp_def, cdim]

theorem pcs_ne (L : CKey) : ∀ p ∈ pcs L, p ≠ [] := by
  intro p hp
  obtain ⟨a, -, rfl⟩ := List.mem_map.1 hp
  simp

theorem count_pcs {k : List Nat} {L : CKey} (i : Nat) :
    ((letters (joinW k (pcs L))).count i : Int) = Dl (((k.zip L).filter fun p => p.1 == i).map Prod.snd) := by
  induction k generalizing L with
  | nil => simp
  | cons x k ih =>
    cases L with
    | nil => simp [pcs]
    | cons a L =>
      have ih := ih (L := L)
      have e : pcs (a :: L) = List.replicate (Cube.dimension a + 1) 0 :: pcs L := rfl
      rw [e, letters_joinW_cons, List.count_append, List.count_replicate, List.length_replicate, List.zip_cons_cons, List.filter_cons]
      by_cases h : x = i
      · subst h
        simp only [beq_self_eq_true, if_true, List.map_cons, Dl_cons, del, cdim]
        push_cast
        rw [ih]
      · simp [h, ih]

theorem Wd_zip (k : List Nat) (L : CKey) : Wd (k.zip L) = k.zip (L.map cdim) := by
  rw [Wd, List.zip_map_right]
  rfl

theorem cexp_mulL (hσ : IsPerm r σ) {k : List Nat} (hk : OntoR r k) {L : CKey} (hl : L.length = k.length) :
    ((cexp (Wd ((mulL σ k).zip L)) : Int) : ZMod 2) = ((cexp (Wd (k.zip L)) + invE k + invE (mulL σ k) +
      kos (fun g => Dl g - 1) (σ.zip (gam r (k.zip L))) : Int) : ZMod 2) := by
  have hinj : ∀ a ∈ k, ∀ b ∈ k, value σ a = value σ b → a = b :=
    fun a ha b hb => value_inj hσ ((hk a).1 ha) ((hk b).1 hb)
  have hl1 : (pcs L).length = k.length := by simpa [pcs] using hl
  have hl2 : (pcs L).length = (mulL σ k).length := by simpa [pcs, mulL] using hl
  have h1 := cexp_joinW hl1 (pcs_ne L)
  have h2 := cexp_joinW hl2 (pcs_ne L)
  rw [dims_pcs, ← Wd_zip] at h1 h2
  have hw : OntoR r (letters (joinW k (pcs L))) := fun v => (mem_letters_joinW hl1 (pcs_ne L) v).trans (hk v)
  have h3 := invE_mulL hσ (t := letters (joinW k (pcs L))) fun v hv => (hw v).1 hv
  have h4 : letters (joinW (mulL σ k) (pcs L)) = mulL σ (letters (joinW k (pcs L))) := letters_joinW_map _ _ _
  have h5 : pathE (mulL σ k) (pcs L) = pathE k (pcs L) := pathE_map _ hinj
  have h6 : kosF (value σ) (wt (letters (joinW k (pcs L)))) (List.range' 1 r) =
      kos (fun g => Dl g - 1) (σ.zip (gam r (k.zip L))) := by
    rw [kosF_value hσ, gam]
    have e3 := kos_map (fun i => ((k.zip L).filter fun p => p.1 == i).map Prod.snd) (fun g => Dl g - 1) σ (List.range' 1 r)
    have e1 := kos_map (wt (letters (joinW k (pcs L)))) id σ (List.range' 1 r)
    have e2 := kos_map (fun i => Dl (((k.zip L).filter fun p => p.1 == i).map Prod.snd) - 1) id σ (List.range' 1 r)
    simp only [id] at e1 e2 ⊢
    rw [e3, ← e2]
    have : (List.range' 1 r).map (wt (letters (joinW k (pcs L)))) =
        (List.range' 1 r).map (fun i => Dl (((k.zip L).filter fun p => p.1 == i).map Prod.snd) - 1) := by
      refine List.map_congr_left fun i hi => ?_
      rw [List.mem_range'_1] at hi
      have h7 := List.count_pos_iff.2 ((hw i).2 (by omega))
      have h8 := count_pcs (k := k) (L := L) i
      rw [wt, ← h8]
      omega
    rw [← this]
  rw [h4, h5] at h2
  rw [h6] at h3
  have h9 := (ZMod.intCast_zmod_eq_zero_iff_dvd _ 2).2 (Int.dvd_of_emod_eq_zero h3)
  push_cast at h1 h2 h9 ⊢
  rw [h2, h1]
  linear_combination h9 - ((invE (letters (joinW k (pcs L))) : Nat) : ZMod 2) * h22 - (invE k : ZMod 2) * h22 -
    (((kos (fun g => Dl g - 1) (σ.zip (gam r (k.zip L))) : Int)) : ZMod 2) * h22

/-! ### the values -/

theorem tmK_jt_degrees {N : Nat} (G : List CKey) (hG : ∀ g ∈ G, ∀ c ∈ g, IsCube N c) :
    tmK (jt (R := R)) G ∈ Finsupp.supported R R {m : CKey | m.map cdim = G.map fun g => Dl g - 1} := by
  induction G with
  | nil => exact Finsupp.single_mem_supported R _ (by simp)
  | cons g G ih =>
    have ih := ih (fun g hg => hG g (by simp [hg]))
    have hg := jt_degree (R := R) g (hG g (by simp))
    rw [tmK, cat_one_eq]
    refine lin_supported _ (fun a ha => ?_) hg
    have ha : cdim a = Dl g - 1 := ha
    refine mapK_supported (T := {m : CKey | m.map cdim = (g :: G).map fun g => Dl g - 1}) _ (fun m hm => ?_) ih
    have hm : m.map cdim = G.map fun g => Dl g - 1 := hm
    show (a :: m).map cdim = _
    rw [List.map_cons, ha, hm, List.map_cons]

theorem act_tmK {N : Nat} (G : List CKey) (hG : ∀ g ∈ G, ∀ c ∈ g, IsCube N c) :
    lin (actK cdim σ) (tmK (jt (R := R)) G) =
      sg R (kos (fun g => Dl g - 1) (σ.zip G)) • mapK (actL σ) (tmK jt G) := by
  have := BElem.lin_ext_supported (R := R) (f := lin (actK cdim σ))
    (g := sg R (kos (fun g => Dl g - 1) (σ.zip G)) • mapK (actL σ)) (fun m hm => by
      have hm : m.map cdim = G.map fun g => Dl g - 1 := hm
      rw [lin_single, one_smul, LinearMap.smul_apply, mapK_single, actK]
      congr 2
      have e1 := kos_map cdim id σ m
      have e2 := kos_map (fun g => Dl g - 1) id σ G
      simp only [id] at e1 e2
      rw [← e1, ← e2, hm]) (tmK_jt_degrees (R := R) (N := N) G hG)
  simpa using this

theorem ct_mulL {N : Nat} (hσ : IsPerm r σ) {k : List Nat} (hk : OntoR r k) {L : CKey} (hl : L.length = k.length)
    (hL : ∀ c ∈ L, IsCube N c) :
    sg R ((invE k : Int) + invE (mulL σ k)) • ct r (mulL σ k) L = lin (actK cdim σ) (ct (R := R) r k L) := by
  have hs : sdeg (mulL σ k) = sdeg k :=
    sdeg_map_inj fun a ha b hb => value_inj hσ ((hk a).1 ha) ((hk b).1 hb)
  rw [ct, ct, map_smul, act_tmK (N := N) _ (fun g hg c hc => ?_), gam_mulL hσ fun v hv => (hk v).1 hv,
    tmK_actL _ _ _ (by rw [length_gam, hσ.length]), smul_smul, smul_smul, hs]
  · congr 1
    rw [← sg_add, ← sg_add]
    apply sg_eq_of_zmod
    have := cexp_mulL hσ hk hl
    push_cast at this ⊢
    rw [this]
    linear_combination ((invE k : ZMod 2) + invE (mulL σ k)) * h22
  · obtain ⟨i, -, rfl⟩ := List.mem_map.1 hg
    obtain ⟨p, hp, rfl⟩ := List.mem_map.1 hc
    exact hL _ (List.of_mem_zip (List.mem_filter.1 hp).1).2

/-- Relabelling a surjection (with the sign of McClure and Smith) permutes the factors of the value. -/
theorem cactT_mulL {N : Nat} (hσ : IsPerm r σ) {k : List Nat} (hk : OntoR r k) (hne : k ≠ []) {a : Cube} (ha : IsCube N a) :
    sg R ((invE k : Int) + invE (mulL σ k)) • cactT r (mulL σ k) a = lin (actK cdim σ) (cactT (R := R) r k a) := by
  have hkl := List.length_pos_iff.2 hne
  have hl : (mulL σ k).length = k.length := by simp [mulL]
  have := BElem.lin_ext_supported (R := R)
    (S := ND (k.length - 1 + 1) (cdim a) ∩ {L : CKey | ∀ c ∈ L, IsCube N c})
    (f := sg R ((invE k : Int) + invE (mulL σ k)) • lin (ct (R := R) r (mulL σ k)))
    (g := (lin (actK cdim σ)).comp (lin (ct (R := R) r k)))
    (fun L hL => by
      rw [LinearMap.smul_apply, LinearMap.comp_apply, lin_single, lin_single, one_smul, one_smul]
      exact ct_mulL hσ hk (by have := hL.1.1; omega) hL.2)
    (v := serre (k.length - 1) a) (by
      have h4 := serre_isCube (R := R) (k.length - 1) a ha
      have h5 := serre_supported (R := R) (k.length - 1) a
      rw [Finsupp.mem_supported] at h4 h5 ⊢
      exact Set.subset_inter h5 h4)
  rw [cactT, cactT, hl]
  simpa using this

/-- The same for the signs of the code. -/
theorem cactS_mulL {N : Nat} (hσ : IsPerm r σ) {k : List Nat} (hk : OntoR r k) (hne : k ≠ []) {a : Cube} (ha : IsCube N a)
    {T T' : Int} (hT : Twists R r T k) (hT' : Twists R r T' (mulL σ k)) :
    sg R (T + T' + invE k + invE (mulL σ k)) • cactS r (mulL σ k) a = lin (actK cdim σ) (cactS (R := R) r k a) := by
  have hne' : mulL σ k ≠ [] := by rw [mulL, ne_eq, List.map_eq_nil_iff]; exact hne
  have hk' : OntoR r (mulL σ k) := Onto.mulL hσ hk
  rw [cactS_eq hk hne hT, cactS_eq hk' hne' hT', map_smul, ← cactT_mulL hσ hk hne ha, smul_smul, smul_smul]
  congr 1
  simp only [← sg_add]
  exact sg_congr (by omega)

end Comch.CubTwist
