import Verif.Lib.CubeCarrier
import Verif.Lib.Adem

/-! # The two chain maps of the Cartan formula on cubes modulo 2 -/

set_option linter.unusedSectionVars false

namespace Comch
namespace CubeCart
open Finsupp (single)
open Acyclic BElem Elem CElem Comch.Spec Join CubCall CubeCoch SurjComp SurjElem IsPerm SurjMay Comch.Props
open Contract (Contr T S S_supp contract_pos contract_zero tensK_supp aug_cat)

abbrev F := ZMod 2

/-- Permute the factors; modulo 2 there is no sign. -/
noncomputable def pm (p : Perm) : (CKey →₀ F) →ₗ[F] (CKey →₀ F) := lin (actK cdim p)

theorem actK_two (p : Perm) (k : CKey) : actK (R := F) cdim p k = bv F (actL p k) := by
  rw [actK, sg_two, one_smul]

@[simp] theorem pm_bv (p : Perm) (k : CKey) : pm p (bv F k) = bv F (actL p k) := by
  rw [pm, lin_single, one_smul, actK_two]

theorem add_self' (v : CKey →₀ F) : v + v = 0 := by
  rw [← two_smul F v, show (2 : F) = 0 by decide, zero_smul]

theorem sgn_two (v : CKey →₀ F) : sgn cdim v = v := by
  refine LinearMap.congr_fun (f := sgn cdim) (g := LinearMap.id) (lin_ext fun k => ?_) v
  simp [sg_two]

theorem bd_pm {r : Nat} {p : Perm} (hp : IsPerm r p) {v : CKey →₀ F}
    (hv : v ∈ Finsupp.supported F F {k : CKey | k.length = r}) : cbd (pm p v) = pm p (cbd v) := by
  refine lin_ext_supported (f := cbd.comp (pm p)) (g := (pm p).comp cbd) (fun k hk => ?_) hv
  have := tens_actK (R := F) (d := cubeD) (deg := cdim) (fun a => by
    rw [sg_two, one_smul]
    have h1 : ∀ u : Cube →₀ F, -u = u := fun u => by
      rw [neg_eq_iff_add_eq_zero, ← two_smul F u, show (2 : F) = 0 by decide, zero_smul]
    rw [h1]
    refine LinearMap.congr_fun (f := sgn1 cdim) (g := LinearMap.id) (lin_ext fun k => ?_) _
    simp [sgn1, sg_two]) hp hk
  simp only [LinearMap.comp_apply, tens_single, one_smul, pm, lin_single]
  exact this

theorem pm_supp {r : Nat} {p : Perm} (hp : IsPerm r p) {m : Int} {σ : Cube} {v : CKey →₀ F}
    (hv : v ∈ Finsupp.supported F F (TC r m σ)) : pm p v ∈ Finsupp.supported F F (TC r m σ) := by
  refine lin_supported _ (fun k hk => ?_) hv
  rw [actK_two]
  have hpm := perm_actL hp hk.2.1
  refine Finsupp.single_mem_supported F _ ⟨fun f hf => hk.1 f (hpm.mem_iff.1 hf), length_actL hp hk.2.1, ?_⟩
  rw [← hk.2.2, totDeg_eq_sum, totDeg_eq_sum]
  exact (hpm.map _).sum_eq

theorem pm_pm {r : Nat} {p q : Perm} (hp : IsPerm r p) (hq : IsPerm r q) {v : CKey →₀ F}
    (hv : v ∈ Finsupp.supported F F {k : CKey | k.length = r}) : pm p (pm q v) = pm (mulL p q) v := by
  refine lin_ext_supported (f := (pm p).comp (pm q)) (g := pm (mulL p q)) (fun k hk => ?_) hv
  have := actK_actK (R := F) cdim hp hq (k := k) hk
  simp only [LinearMap.comp_apply, pm, lin_single, one_smul]
  exact this

theorem pm_id {r : Nat} {v : CKey →₀ F} (hv : v ∈ Finsupp.supported F F {k : CKey | k.length = r}) :
    pm (pyRange 1 (r + 1)) v = v := by
  refine lin_ext_supported (f := pm (pyRange 1 (r + 1))) (g := LinearMap.id) (fun k hk => ?_) hv
  rw [pm, lin_single, one_smul, actK_id cdim hk, LinearMap.id_apply]

theorem TS_length {r : Nat} {m : Int} {σ : Cube} {v : CKey →₀ F}
    (hv : v ∈ Finsupp.supported F F (TC r m σ)) : v ∈ Finsupp.supported F F {k : CKey | k.length = r} :=
  Finsupp.supported_mono (fun _ hk => hk.2.1) hv

theorem cat_TS {r s : Nat} {i j : Int} {σ : Cube} {u v : CKey →₀ F}
    (hu : u ∈ Finsupp.supported F F (TC r i σ)) (hv : v ∈ Finsupp.supported F F (TC s j σ)) :
    cat u v ∈ Finsupp.supported F F (TC (r + s) (i + j) σ) := by
  have : cat u v = bil (fun a k => bv F (a ++ k)) u v := by
    refine bil_ext_supported (S := Set.univ) (T := Set.univ)
      (f := cat) (g := bil fun a k => bv F (a ++ k)) ?_ (by simp) (by simp)
    intro a _ k _
    rw [bil_bv]
    simp
  rw [this]
  refine bil_supported (S := TC r i σ) (T := TC s j σ) _ (fun a ha k hk => ?_) hu hv
  refine Finsupp.single_mem_supported F _ ⟨?_, ?_, ?_⟩
  · intro x hx
    rcases List.mem_append.1 hx with hx | hx
    · exact ha.1 x hx
    · exact hk.1 x hx
  · rw [List.length_append, ha.2.1, hk.2.1]
  · rw [totDeg_append, ha.2.2, hk.2.2]

theorem bd_cat (u v : CKey →₀ F) : cbd (cat u v) = cat (cbd u) v + cat u (cbd v) := by
  have := tens_cat (d := cubeD (R := F)) (deg := cdim) u v
  rw [sgn_two] at this
  exact this

/-- The swap. -/
abbrev sw : Perm := [2, 1]
/-- The swap of two pairs. -/
abbrev sw4 : Perm := [3, 4, 1, 2]
/-- The exchange of the inner factors. -/
abbrev sh4 : Perm := [1, 3, 2, 4]

theorem isPerm_sw : IsPerm 2 sw := by decide
theorem isPerm_sw4 : IsPerm 4 sw4 := by decide
theorem isPerm_sh4 : IsPerm 4 sh4 := by decide

theorem actL_sw (a b : Cube) : actL sw [a, b] = [b, a] := by
  simp [actL, sortl, List.insertionSort, List.orderedInsert]
theorem actL_sw4 (a b c e : Cube) : actL sw4 [a, b, c, e] = [c, e, a, b] := by
  simp [actL, sortl, List.insertionSort, List.orderedInsert]
theorem actL_sh4 (a b c e : Cube) : actL sh4 [a, b, c, e] = [a, c, b, e] := by
  simp [actL, sortl, List.insertionSort, List.orderedInsert]

abbrev Len (r : Nat) : Set CKey := {k | k.length = r}

theorem pm_sw_cat {u v : CKey →₀ F} (hu : u ∈ Finsupp.supported F F (Len 2))
    (hv : v ∈ Finsupp.supported F F (Len 2)) : pm sw4 (cat u v) = cat v u := by
  have := bil_ext_supported (R := F) (M := CKey →₀ F) (S := Len 2) (T := Len 2)
    (f := (cat (R := F) (A := Cube)).compr₂ (pm sw4)) (g := (cat (R := F) (A := Cube)).flip) (fun a ha b hb => by
      obtain ⟨a1, a2, rfl⟩ := List.length_eq_two.1 ha
      obtain ⟨b1, b2, rfl⟩ := List.length_eq_two.1 hb
      simp [actL_sw4, pm, actK_two]) hu hv
  rw [LinearMap.compr₂_apply, LinearMap.flip_apply] at this
  exact this

theorem pm_sh_cat {u v : CKey →₀ F} (hu : u ∈ Finsupp.supported F F (Len 2))
    (hv : v ∈ Finsupp.supported F F (Len 2)) :
    pm sh4 (cat (pm sw u) (pm sw v)) = pm sw4 (pm sh4 (cat u v)) := by
  have := bil_ext_supported (R := F) (M := CKey →₀ F) (S := Len 2) (T := Len 2)
    (f := ((cat (R := F) (A := Cube)).compl₁₂ (pm sw) (pm sw)).compr₂ (pm sh4))
    (g := (cat (R := F) (A := Cube)).compr₂ ((pm sw4).comp (pm sh4))) (fun a ha b hb => by
      obtain ⟨a1, a2, rfl⟩ := List.length_eq_two.1 ha
      obtain ⟨b1, b2, rfl⟩ := List.length_eq_two.1 hb
      simp [actL_sw4, actL_sw, actL_sh4, pm, actK_two]) hu hv
  rw [LinearMap.compr₂_apply, LinearMap.compr₂_apply, LinearMap.compl₁₂_apply, LinearMap.comp_apply] at this
  exact this

theorem pm_sw_sw {v : CKey →₀ F} (hv : v ∈ Finsupp.supported F F (Len 2)) : pm sw (pm sw v) = v := by
  rw [pm_pm isPerm_sw isPerm_sw hv]; exact pm_id (r := 2) hv

theorem pm_sw4_sw4 {v : CKey →₀ F} (hv : v ∈ Finsupp.supported F F (Len 4)) : pm sw4 (pm sw4 v) = v := by
  rw [pm_pm isPerm_sw4 isPerm_sw4 hv]; exact pm_id (r := 4) hv

/-- The action on a cube modulo 2. -/
noncomputable abbrev cw (d : Nat) (σ : Cube) : CKey →₀ F := WC .mcClureSmith d (bv F [σ])

variable {d : Nat} {σ : Cube}

theorem w2_supp (hσ : Cu σ) : cw d σ ∈ Finsupp.supported F F (TC 2 (d + cdim σ) σ) := by
  refine Finsupp.supported_mono ?_ (WC_supp hσ d)
  rintro m ⟨f, g, rfl, hf, hg, h⟩
  refine ⟨?_, rfl, ?_⟩
  · intro x hx
    simp only [List.mem_cons, List.not_mem_nil, or_false] at hx
    rcases hx with rfl | rfl
    · exact hf
    · exact hg
  · simp only [totDeg, cdim, Cube.dimension]
    omega

theorem w2_len (hσ : Cu σ) : cw d σ ∈ Finsupp.supported F F (Len 2) := TS_length (w2_supp hσ)

theorem lin_w2 (v : Cube →₀ F) : WC .mcClureSmith d (one v) = lin (cw d) v := by
  refine LinearMap.congr_fun (f := (WC .mcClureSmith d).comp one) (g := lin (cw d)) (lin_ext fun k => ?_) v
  simp

theorem w2_zero (hσ : Cu σ) : cbd (cw 0 σ) = lin (cw 0) (cubeD σ) := by
  rw [← lin_w2]; exact WC_zero hσ

theorem pm_sw_eq {v : CKey →₀ F} (hv : v ∈ Finsupp.supported F F (Len 2)) : CubeCoch.sw v = pm sw v := by
  refine lin_ext_supported (f := CubeCoch.sw) (g := pm sw) (fun k hk => ?_) hv
  obtain ⟨f, g, rfl⟩ := List.length_eq_two.1 hk
  rw [pm_bv, actL_sw]
  simp [CubeCoch.sw]

theorem w2_succ (hσ : Cu σ) :
    cbd (cw (d + 1) σ) = cw d σ + pm sw (cw d σ) + lin (cw (d + 1)) (cubeD σ) := by
  rw [← lin_w2, ← pm_sw_eq (w2_len hσ), add_comm (cw d σ)]
  exact WC_succ hσ d

/-! ### maps on pairs of faces -/

/-- Extend a function of two simplices to tensors. -/
noncomputable def lift2 (B : Cube → Cube → (CKey →₀ F)) : CKey → (CKey →₀ F)
  | [f, g] => B f g
  | _ => 0

theorem lift2_bd (B : Cube → Cube → (CKey →₀ F)) (f g : Cube) :
    lin (lift2 B) (tensK cubeD cdim [f, g]) = lin (fun x => B x g) (cubeD f) + lin (fun y => B f y) (cubeD g) := by
  have h1 : ∀ u : Cube →₀ F, lin (lift2 B) (cat (one u) (bv F [g])) = lin (fun x => B x g) u := by
    intro u
    refine LinearMap.congr_fun (f := (lin (lift2 B)).comp ((cat.flip (bv F [g])).comp one))
      (g := lin fun x => B x g) (lin_ext fun k => ?_) u
    simp [lift2]
  have h2 : ∀ u : Cube →₀ F, lin (lift2 B) (consV f (one u)) = lin (fun y => B f y) u := by
    intro u
    refine LinearMap.congr_fun (f := (lin (lift2 B)).comp ((consV f).comp one))
      (g := lin fun x => B f x) (lin_ext fun k => ?_) u
    simp [lift2]
  simp only [tensK, map_zero, smul_zero, add_zero, sg_two, one_smul, map_add, h1]
  rw [← h2]
  simp

/-- A bilinear family that is a chain map up to an error term. -/
theorem lift2_chain {B E : Cube → Cube → (CKey →₀ F)}
    (hB : ∀ f g, Cu f → Cu g →
      cbd (B f g) = E f g + lin (fun x => B x g) (cubeD f) + lin (fun y => B f y) (cubeD g))
    (hσ : Cu σ) {m : Int} {v : CKey →₀ F} (hv : v ∈ Finsupp.supported F F (TC 2 m σ)) :
    cbd (lin (lift2 B) v) = lin (lift2 E) v + lin (lift2 B) (cbd v) := by
  refine lin_ext_supported (f := cbd.comp (lin (lift2 B))) (g := lin (lift2 E) + (lin (lift2 B)).comp cbd)
    (fun k hk => ?_) hv
  obtain ⟨f, g, rfl⟩ := List.length_eq_two.1 hk.2.1
  have hf := FC_cu (hk.1 f (by simp))
  have hg := FC_cu (hk.1 g (by simp))
  simp only [LinearMap.comp_apply, LinearMap.add_apply, lin_single, one_smul, tens_single]
  rw [lift2_bd, ← add_assoc]
  exact hB f g hf hg

theorem lift2_supp {B : Cube → Cube → (CKey →₀ F)} {c : Int}
    (hB : ∀ f g, Cu f → Cu g → f ∈ FC σ → g ∈ FC σ →
      B f g ∈ Finsupp.supported F F (TC 4 (c + cdim f + cdim g) σ))
    (hσ : Cu σ) {m : Int} {v : CKey →₀ F} (hv : v ∈ Finsupp.supported F F (TC 2 m σ)) :
    lin (lift2 B) v ∈ Finsupp.supported F F (TC 4 (c + m) σ) := by
  refine lin_supported _ (fun k hk => ?_) hv
  obtain ⟨f, g, rfl⟩ := List.length_eq_two.1 hk.2.1
  have := hB f g (FC_cu (hk.1 f (by simp))) (FC_cu (hk.1 g (by simp))) (hk.1 f (by simp)) (hk.1 g (by simp))
  have e : c + m = c + cdim f + cdim g := by
    have := hk.2.2
    simp only [totDeg, add_zero] at this
    omega
  rw [e]
  exact this

theorem lin_supp_cat_left {f : Cube} (b : Cube → (CKey →₀ F)) (c : CKey →₀ F) (u : Cube →₀ F) :
    lin (fun x => cat (b x) c) u = cat (lin b u) c := by
  refine LinearMap.congr_fun (f := lin fun x => cat (b x) c) (g := (cat.flip c).comp (lin b)) (lin_ext fun k => ?_) u
  simp

theorem lin_supp_cat_right (b : Cube → (CKey →₀ F)) (c : CKey →₀ F) (u : Cube →₀ F) :
    lin (fun x => cat c (b x)) u = cat c (lin b u) := by
  refine LinearMap.congr_fun (f := lin fun x => cat c (b x)) (g := (cat c).comp (lin b)) (lin_ext fun k => ?_) u
  simp

/-! ### the left-hand side: square of a cup product -/

noncomputable def B0 (f g : Cube) : CKey →₀ F := cat (cw 0 f) (cw 0 g)

noncomputable def Lh (d : Nat) (σ : Cube) : CKey →₀ F := lin (lift2 B0) (cw d σ)

theorem B0_bd (f g : Cube) (hf : Cu f) (hg : Cu g) :
    cbd (B0 f g) = (fun _ _ => 0) f g + lin (fun x => B0 x g) (cubeD f) + lin (fun y => B0 f y) (cubeD g) := by
  unfold B0
  rw [bd_cat, w2_zero hf, w2_zero hg, lin_supp_cat_left (f := f), lin_supp_cat_right, zero_add]

theorem lift2_zero : lin (lift2 fun _ _ => 0) = 0 := by
  refine lin_ext fun k => ?_
  rw [lin_single, one_smul, LinearMap.zero_apply]
  unfold lift2
  split <;> rfl

theorem Lh_supp (hσ : Cu σ) : Lh d σ ∈ Finsupp.supported F F (TC 4 (d + cdim σ) σ) := by
  have := lift2_supp (c := 0) (B := B0) (fun f g hf hg h1 h2 => by
    have := cat_TS (Finsupp.supported_mono (TC_mono h1) (w2_supp (d := 0) hf))
      (Finsupp.supported_mono (TC_mono h2) (w2_supp (d := 0) hg))
    rw [show (0 : Int) + cdim f + cdim g = ((0 : Nat) : Int) + cdim f + (((0 : Nat) : Int) + cdim g) by push_cast; ring]
    exact this) hσ (w2_supp (d := d) hσ)
  rw [zero_add] at this
  exact this

theorem lift2_B0_sw {v : CKey →₀ F} {m : Int} (hσ : Cu σ) (hv : v ∈ Finsupp.supported F F (TC 2 m σ)) :
    lin (lift2 B0) (pm sw v) = pm sw4 (lin (lift2 B0) v) := by
  refine lin_ext_supported (f := (lin (lift2 B0)).comp (pm sw)) (g := (pm sw4).comp (lin (lift2 B0)))
    (fun k hk => ?_) hv
  obtain ⟨f, g, rfl⟩ := List.length_eq_two.1 hk.2.1
  have hf := FC_cu (hk.1 f (by simp))
  have hg := FC_cu (hk.1 g (by simp))
  simp only [LinearMap.comp_apply, pm_bv, actL_sw, lin_single, one_smul, lift2]
  exact (pm_sw_cat (w2_len hf) (w2_len hg)).symm

theorem lin_comp_fun (b : Cube → (CKey →₀ F)) (φ : (CKey →₀ F) →ₗ[F] (CKey →₀ F)) (u : Cube →₀ F) :
    φ (lin b u) = lin (fun x => φ (b x)) u := by
  refine LinearMap.congr_fun (f := φ.comp (lin b)) (g := lin fun x => φ (b x)) (lin_ext fun k => ?_) u
  simp

theorem Lh_zero (hσ : Cu σ) : cbd (Lh 0 σ) = lin (Lh 0) (cubeD σ) := by
  rw [Lh, lift2_chain B0_bd hσ (w2_supp hσ), lift2_zero, LinearMap.zero_apply, zero_add, w2_zero hσ, lin_comp_fun]
  rfl

theorem Lh_succ (hσ : Cu σ) : cbd (Lh (d + 1) σ) = Lh d σ + pm sw4 (Lh d σ) + lin (Lh (d + 1)) (cubeD σ) := by
  rw [Lh, lift2_chain B0_bd hσ (w2_supp hσ), lift2_zero, LinearMap.zero_apply, zero_add, w2_succ hσ, map_add, map_add,
    lift2_B0_sw hσ (w2_supp hσ), lin_comp_fun]
  rfl

/-! ### the right-hand side: sum of products of squares -/

/-- Powers of the swap. -/
noncomputable def swp : Nat → (CKey →₀ F) → (CKey →₀ F)
  | 0, v => v
  | i + 1, v => pm sw (swp i v)

theorem swp_supp (i : Nat) {m : Int} {v : CKey →₀ F} (hv : v ∈ Finsupp.supported F F (TC 2 m σ)) :
    swp i v ∈ Finsupp.supported F F (TC 2 m σ) := by
  induction i with
  | zero => exact hv
  | succ i ih => exact pm_supp isPerm_sw ih

theorem swp_add (i : Nat) (u v : CKey →₀ F) : swp i (u + v) = swp i u + swp i v := by
  induction i with
  | zero => rfl
  | succ i ih => rw [swp, ih, map_add]; rfl

theorem swp_comm (i : Nat) (v : CKey →₀ F) : swp i (pm sw v) = pm sw (swp i v) := by
  induction i with
  | zero => rfl
  | succ i ih => rw [swp, ih]; rfl

theorem swp_bd (i : Nat) (hσ : Cu σ) {m : Int} {v : CKey →₀ F} (hv : v ∈ Finsupp.supported F F (TC 2 m σ)) :
    cbd (swp i v) = swp i (cbd v) := by
  induction i with
  | zero => rfl
  | succ i ih => rw [swp, bd_pm isPerm_sw (TS_length (swp_supp i hv)), ih]; rfl

theorem swp_lin (i : Nat) (b : Cube → (CKey →₀ F)) (u : Cube →₀ F) :
    swp i (lin b u) = lin (fun x => swp i (b x)) u := by
  induction i with
  | zero => rfl
  | succ i ih => rw [swp, ih, lin_comp_fun]; rfl

noncomputable def term (d i : Nat) (f g : Cube) : CKey →₀ F := cat (swp i (cw (d - i) f)) (cw i g)

noncomputable def Bd (d : Nat) (f g : Cube) : CKey →₀ F := ∑ i ∈ Finset.range (d + 1), term d i f g

theorem term_bd {d i : Nat} (hi : i ≤ d) {f g : Cube} (hf : Cu f) (hg : Cu g) :
    cbd (term d i f g) = (if i < d then term (d - 1) i f g + cat (swp (i + 1) (cw (d - 1 - i) f)) (cw i g) else 0) +
      (if 0 < i then cat (swp i (cw (d - i) f)) (cw (i - 1) g + pm sw (cw (i - 1) g)) else 0) +
      lin (fun x => term d i x g) (cubeD f) + lin (fun y => term d i f y) (cubeD g) := by
  unfold term
  rw [bd_cat, swp_bd i hf (w2_supp hf), lin_supp_cat_left (f := f), lin_supp_cat_right, ← swp_lin]
  have h1 : swp i (cbd (cw (d - i) f)) = (if i < d then swp i (cw (d - 1 - i) f) + swp (i + 1) (cw (d - 1 - i) f) else 0) +
      swp i (lin (cw (d - i)) (cubeD f)) := by
    split
    · rename_i h
      obtain ⟨e, he⟩ : ∃ e, d - i = e + 1 := ⟨d - i - 1, by omega⟩
      rw [show d - 1 - i = e by omega, he, w2_succ hf, swp_add, swp_add, swp_comm]
      rfl
    · have : d - i = 0 := by omega
      rw [this, w2_zero hf, zero_add]
  have h2 : cbd (cw i g) = (if 0 < i then cw (i - 1) g + pm sw (cw (i - 1) g) else 0) + lin (cw i) (cubeD g) := by
    split
    · obtain ⟨e, rfl⟩ : ∃ e, i = e + 1 := ⟨i - 1, by omega⟩
      rw [w2_succ hg]; rfl
    · have : i = 0 := by omega
      subst this
      rw [w2_zero hg, zero_add]
  rw [h1, h2]
  split <;> split <;> simp only [map_add, LinearMap.add_apply, map_zero, LinearMap.zero_apply, zero_add, add_zero] <;>
    abel

/-- The error term: the sum of two copies exchanged by the simultaneous swap. -/
noncomputable def Ed : Nat → Cube → Cube → (CKey →₀ F)
  | 0, _, _ => 0
  | d + 1, f, g => Bd d f g + ∑ i ∈ Finset.range (d + 1), cat (swp (i + 1) (cw (d - i) f)) (pm sw (cw i g))

theorem Bd_bd (d : Nat) (f g : Cube) (hf : Cu f) (hg : Cu g) :
    cbd (Bd d f g) = Ed d f g + lin (fun x => Bd d x g) (cubeD f) + lin (fun y => Bd d f y) (cubeD g) := by
  have hl : ∀ (t : Nat → Cube → (CKey →₀ F)) (s : Finset Nat) (u : Cube →₀ F),
      lin (fun x => ∑ i ∈ s, t i x) u = ∑ i ∈ s, lin (t i) u := by
    intro t s u
    refine (LinearMap.congr_fun (f := lin fun x => ∑ i ∈ s, t i x) (g := ∑ i ∈ s, lin (t i)) (lin_ext fun k => ?_) u).trans
      (by rw [LinearMap.sum_apply])
    simp [LinearMap.sum_apply]
  unfold Bd
  rw [map_sum, hl, hl, Finset.sum_congr rfl fun i hi =>
    term_bd (by have := Finset.mem_range.1 hi; omega) hf hg, Finset.sum_add_distrib, Finset.sum_add_distrib]
  congr 2
  cases d with
  | zero => simp [Ed]
  | succ d =>
    rw [Finset.sum_add_distrib, Finset.sum_range_succ, Finset.sum_range_succ' (fun i => if 0 < i then _ else _)]
    rw [if_neg (by omega), if_neg (by omega), add_zero, add_zero, ← Finset.sum_add_distrib, Ed, Bd, ← Finset.sum_add_distrib]
    refine Finset.sum_congr rfl fun i hi => ?_
    have hi := Finset.mem_range.1 hi
    rw [if_pos (by omega), if_pos (by omega), Nat.add_sub_cancel, Nat.add_sub_cancel,
      show d + 1 - (i + 1) = d - i by omega, map_add]
    rw [show ∀ a b c : CKey →₀ F, a + b + (b + c) = a + c + (b + b) by intros; abel, add_self', add_zero]

theorem lift2_add (B E : Cube → Cube → (CKey →₀ F)) (v : CKey →₀ F) :
    lin (lift2 fun f g => B f g + E f g) v = lin (lift2 B) v + lin (lift2 E) v := by
  refine LinearMap.congr_fun (f := lin (lift2 fun f g => B f g + E f g)) (g := lin (lift2 B) + lin (lift2 E))
    (lin_ext fun k => ?_) v
  simp only [LinearMap.add_apply, lin_single, one_smul]
  unfold lift2
  split <;> simp

noncomputable def Rh (d : Nat) (σ : Cube) : CKey →₀ F := pm sh4 (lin (lift2 (Bd d)) (cw 0 σ))

theorem Bd_supp {f g : Cube} (hf : Cu f) (hg : Cu g) (h1 : f ∈ FC σ) (h2 : g ∈ FC σ) :
    Bd d f g ∈ Finsupp.supported F F (TC 4 (d + cdim f + cdim g) σ) := by
  refine Submodule.sum_mem _ fun i hi => ?_
  have hi := Finset.mem_range.1 hi
  have := cat_TS (swp_supp i (Finsupp.supported_mono (TC_mono h1) (w2_supp (d := d - i) hf)))
      (Finsupp.supported_mono (TC_mono h2) (w2_supp (d := i) hg))
  rw [show (d : Int) + cdim f + cdim g = ((d - i : Nat) : Int) + cdim f + ((i : Int) + cdim g) by
    have : ((d - i : Nat) : Int) = d - i := by omega
    rw [this]; ring]
  exact this

theorem lift2_Bd_supp (hσ : Cu σ) {m : Int} {v : CKey →₀ F} (hv : v ∈ Finsupp.supported F F (TC 2 m σ)) :
    lin (lift2 (Bd d)) v ∈ Finsupp.supported F F (TC 4 (d + m) σ) :=
  lift2_supp (fun _ _ hf hg h1 h2 => Bd_supp hf hg h1 h2) hσ hv

theorem Rh_supp (hσ : Cu σ) : Rh d σ ∈ Finsupp.supported F F (TC 4 (d + cdim σ) σ) := by
  have := lift2_Bd_supp (d := d) hσ (w2_supp (d := 0) hσ)
  rw [Nat.cast_zero, zero_add] at this
  exact pm_supp isPerm_sh4 this

theorem Rh_zero (hσ : Cu σ) : cbd (Rh 0 σ) = lin (Rh 0) (cubeD σ) := by
  rw [Rh, bd_pm isPerm_sh4 (TS_length (lift2_Bd_supp hσ (w2_supp hσ))), lift2_chain (Bd_bd 0) hσ (w2_supp hσ),
    show Ed 0 = fun _ _ => 0 from rfl, lift2_zero, LinearMap.zero_apply, zero_add, w2_zero hσ, lin_comp_fun, lin_comp_fun]
  rfl

theorem Rh_succ (hσ : Cu σ) : cbd (Rh (d + 1) σ) = Rh d σ + pm sw4 (Rh d σ) + lin (Rh (d + 1)) (cubeD σ) := by
  rw [Rh, bd_pm isPerm_sh4 (TS_length (lift2_Bd_supp hσ (w2_supp hσ))), lift2_chain (Bd_bd (d + 1)) hσ (w2_supp hσ),
    w2_zero hσ, map_add, show Ed (d + 1) = fun f g => Bd d f g +
      ∑ i ∈ Finset.range (d + 1), cat (swp (i + 1) (cw (d - i) f)) (pm sw (cw i g)) from rfl, lift2_add, map_add,
    lin_comp_fun, lin_comp_fun]
  congr 2
  have := lin_ext_supported (R := F) (M := CKey →₀ F) (f := (pm sh4).comp (lin (lift2 fun f g =>
      ∑ i ∈ Finset.range (d + 1), cat (swp (i + 1) (cw (d - i) f)) (pm sw (cw i g)))))
    (g := (pm sw4).comp ((pm sh4).comp (lin (lift2 (Bd d)))))
    (fun k hk => by
      obtain ⟨f, g, rfl⟩ := List.length_eq_two.1 hk.2.1
      have hf := FC_cu (hk.1 f (by simp))
      have hg := FC_cu (hk.1 g (by simp))
      simp only [LinearMap.comp_apply, lin_single, one_smul, lift2]
      unfold Bd
      rw [map_sum, map_sum, map_sum]
      refine Finset.sum_congr rfl fun i _ => ?_
      exact pm_sh_cat (TS_length (swp_supp i (w2_supp hf))) (w2_len hg)) (w2_supp (d := 0) hσ)
  exact this

/-! ### the homotopy -/

theorem w2_vertex {c : Cube} (hd : cdim c = 0) : cw 0 c = bv F [c, c] := by
  have h : c.count 2 = 0 := by simp only [cdim, Cube.dimension] at hd; omega
  rw [cw, WC_serre, serre_splits, splits_vertex h]
  simp

theorem aug_w2 {c : Cube} (hd : cdim c = 0) : aug (cw 0 c) = 1 := by
  rw [w2_vertex hd]; simp

theorem aug_pm (p : Perm) (v : CKey →₀ F) : aug (pm p v) = aug v := by
  induction v using Finsupp.induction_linear with
  | zero => simp
  | add f g hf hg => simp only [map_add, hf, hg]
  | single k c => rw [pm, lin_single, actK_two, map_smul]; simp

theorem aug_base {c : Cube} (hd : cdim c = 0) : aug (Lh 0 c + Rh 0 c) = 0 := by
  have hw := w2_vertex hd
  have hL : Lh 0 c = cat (cw 0 c) (cw 0 c) := by
    rw [Lh, hw]; simp only [lin_single, one_smul, lift2]; unfold B0; rw [hw]
  have hR : Rh 0 c = pm sh4 (cat (cw 0 c) (cw 0 c)) := by
    rw [Rh, hw]; simp only [lin_single, one_smul, lift2]; unfold Bd term; rw [Finset.sum_range_one]; simp [swp, hw]
  rw [map_add, hL, hR, aug_pm, aug_cat, aug_w2 hd, ← two_mul, show (2 : F) = 0 by decide, zero_mul]

theorem lin_add_fun (b c : Cube → (CKey →₀ F)) (u : Cube →₀ F) :
    lin (fun x => b x + c x) u = lin b u + lin c u := by
  refine LinearMap.congr_fun (f := lin fun x => b x + c x) (g := lin b + lin c) (lin_ext fun k => ?_) u
  simp

/-- The two families are homotopic up to the image of the norm. -/
theorem cartan_homotopy (d : Nat) : ∃ K H : Cube → (CKey →₀ F),
    (∀ σ, Cu σ → K σ ∈ Finsupp.supported F F (TC 4 (d + cdim σ) σ)) ∧
    (∀ σ, Cu σ → H σ ∈ Finsupp.supported F F (TC 4 ((d + 1 : Nat) + cdim σ) σ)) ∧
    ∀ σ, Cu σ → cbd (H σ) = Lh d σ + Rh d σ + (K σ + pm sw4 (K σ)) + lin H (cubeD σ) := by
  induction d with
  | zero =>
    obtain ⟨H, hH, hb⟩ := carrier (R := F) (r := 4) (m := 0) (fun σ => Lh 0 σ + Rh 0 σ)
      (fun σ hσ => Submodule.add_mem _ (Lh_supp hσ) (Rh_supp hσ))
      (fun σ hσ => by
        rw [map_add, Lh_zero hσ, Rh_zero hσ, sg_two, one_smul, lin_add_fun])
      (fun _ c _ hd => aug_base hd)
    refine ⟨fun _ => 0, H, fun _ _ => Submodule.zero_mem _, hH, fun σ hσ => ?_⟩
    rw [hb σ hσ, sg_two, one_smul, map_zero, add_zero, add_zero]
  | succ d ih =>
    obtain ⟨K, H, hK, hH, hb⟩ := ih
    have hlen : ∀ σ, Cu σ → H σ ∈ Finsupp.supported F F (Len 4) := fun σ hσ => TS_length (hH σ hσ)
    obtain ⟨H', hH', hb'⟩ := carrier (R := F) (r := 4) (m := d + 1)
      (fun σ => Lh (d + 1) σ + Rh (d + 1) σ + (H σ + pm sw4 (H σ)))
      (fun σ hσ => Submodule.add_mem _ (Submodule.add_mem _ (Lh_supp hσ) (Rh_supp hσ))
        (Submodule.add_mem _ (hH σ hσ) (pm_supp isPerm_sw4 (hH σ hσ))))
      (fun σ hσ => by
        rw [map_add, map_add, map_add, bd_pm isPerm_sw4 (hlen σ hσ), Lh_succ hσ, Rh_succ hσ, sg_two, one_smul,
          lin_add_fun (fun σ => Lh (d + 1) σ + Rh (d + 1) σ), lin_add_fun (Lh (d + 1)), lin_add_fun H, hb σ hσ]
        simp only [map_add, pm_sw4_sw4 (TS_length (hK σ hσ))]
        rw [← lin_comp_fun H (pm sw4)]
        rw [show ∀ a a' x b b' y c c' z z' : CKey →₀ F,
          a + a' + x + (b + b' + y) + (a + b + (c + c') + z + (a' + b' + (c' + c) + z')) =
            x + y + (z + z') + (a + a) + (a' + a') + (b + b) + (b' + b') + (c + c) + (c' + c') by intros; abel]
        simp only [add_self', add_zero])
      (fun h => by omega)
    refine ⟨H, H', fun σ hσ => ?_, hH', fun σ hσ => ?_⟩
    · exact hH σ hσ
    · rw [hb' σ hσ, sg_two, one_smul]

end CubeCart
end Comch
