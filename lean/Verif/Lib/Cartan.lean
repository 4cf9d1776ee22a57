import Verif.Lib.Carrier
import Verif.Props.CochainsPrimes

/-! # The two chain maps of the Cartan formula modulo 2 -/

set_option linter.unusedSectionVars false

namespace Comch
namespace Contract
open Finsupp (single)
open Acyclic BElem Elem Comch.Spec Join Coch SurjComp SurjElem IsPerm SurjMay Comch.Props

/-! ### the structure maps on simplices -/

section
variable {r n d : Nat} {σ : List Nat}

/-- The action of the structure element of degree `d` on a simplex. -/
noncomputable def w (r n d : Nat) (σ : List Nat) : SKey →₀ ZMod n := W r n d (bv (ZMod n) [σ])

theorem w_supp (hr : 2 ≤ r) (hn : n ≠ 1) (hσ : Inc σ) :
    w r n d σ ∈ Finsupp.supported (ZMod n) (ZMod n) (TS r (d + ldim σ) σ) := by
  obtain ⟨h1, h2, h3, h4, h5⟩ := simplex_ok hσ hn
  obtain ⟨x, z, ex, ez, dz⟩ := W_simplex (d := d) hr hn hσ
  obtain ⟨x', ex', ix, tx, cx, -, -, dx, -⟩ := C56_psi_ok .mcClureSmith hr d n hn
  cases ex.symm.trans ex'
  obtain ⟨z', ez', -, az, hz⟩ := C52_arity_degree ix dx cx h1 h2 h3 (by rw [h4, tx]) le_rfl le_rfl
  cases ez.symm.trans ez'
  have tz : z.torsion = n := (torsion_congr az).trans h4
  have hW := W_supported (d := d) hr hn hσ
  rw [← dz] at hW
  have hk := keys_of_den (nf_callSimplicial ez) tz hW
  rw [w, ← dz]
  refine den_supported (R := ZMod n) fun p hp => ⟨fun f hf => ?_, (hk p hp).1, ?_⟩
  · exact ⟨((hk p hp).2 f hf).2, ((hk p hp).2 f hf).1⟩
  · rw [totDeg_ldim, (hz p hp).2]
    simp only [ldim]
    ring

variable {R : Type} [CommRing R]

theorem pr_lany_TS (hσ : Inc σ) {m : Int} {v : SKey →₀ R} (hv : v ∈ Finsupp.supported R R (TS r m σ)) :
    pr lany v = v := by
  refine lin_ext_supported (f := pr lany) (g := LinearMap.id) (fun k hk => ?_) hv
  have : lany k = false := by
    rw [lany, List.any_eq_false]
    intro f hf
    rw [(Gs_inc hσ (hk.1 f hf)).ldrop]
    decide
  simp [this]

theorem bd_supp (hσ : Inc σ) {m : Int} {v : SKey →₀ R} (hv : v ∈ Finsupp.supported R R (TS r m σ)) :
    bd v ∈ Finsupp.supported R R (TS r (m - 1) σ) := by
  obtain ⟨a, t, rfl⟩ : ∃ a t, σ = a :: t := by
    cases σ with
    | nil => exact absurd rfl hσ.2
    | cons a t => exact ⟨a, t, rfl⟩
  exact lin_supported _ (fun k hk => tensK_supp (contr_faces (R := R) hσ) hk) hv

theorem bd_eq (hσ : Inc σ) {m : Int} {v : SKey →₀ R} (hv : v ∈ Finsupp.supported R R (TS r m σ)) :
    bd v = pr lany (simplicialD v) := by
  rw [← simplicial_drops_lany, ← pr_tens_delE, simplicial_drops_lany]
  exact (pr_lany_TS hσ (bd_supp hσ hv)).symm

theorem lin_one_W (v : List Nat →₀ ZMod n) : W r n d (one v) = lin (w r n d) v := by
  refine LinearMap.congr_fun (f := (W r n d).comp one) (g := lin (w r n d)) (lin_ext fun k => ?_) v
  simp [w]

theorem bd_simplex (hσ : Inc σ) : pr lany (simplicialD (bv R [σ])) = one (delE σ) := by
  rw [← bd_eq hσ (r := 1) (m := ldim σ) (Finsupp.single_mem_supported R _ ⟨?_, rfl, by simp [totDeg]⟩)]
  · simp [tensK]
  · intro f hf
    rw [List.mem_singleton] at hf
    subst hf
    exact ⟨hσ.2, List.Sublist.refl _⟩

theorem w_zero (hr : 2 ≤ r) (hn : n ≠ 1) (hσ : Inc σ) : bd (w r n 0 σ) = lin (w r n 0) (delE σ) := by
  obtain ⟨h1, h2, h3, h4, h5⟩ := simplex_ok hσ hn
  have := W_zero hr hn h1 h2 h3 h4
  rw [den_simplex hσ hn] at this
  rw [bd_eq hσ (w_supp hr hn hσ), ← lin_one_W, ← bd_simplex hσ]
  exact this

theorem w_succ (hr : 2 ≤ r) (hn : n ≠ 1) (hσ : Inc σ) :
    bd (w r n (d + 1) σ) = actV ldim (stepV (ZMod n) r (d + 1)) (w r n d σ) +
      sg (ZMod n) (d + 1) • lin (w r n (d + 1)) (delE σ) := by
  obtain ⟨h1, h2, h3, h4, h5⟩ := simplex_ok hσ hn
  have := W_succ (d := d) hr hn h1 h2 h3 h4
  rw [den_simplex hσ hn] at this
  rw [bd_eq hσ (w_supp hr hn hσ), ← lin_one_W, ← bd_simplex hσ]
  exact this

theorem w_bottom (hr : 2 ≤ r) (hσ : Inc σ) : w r n 0 σ = pr lany (aw (r - 1) σ) := W_bottom hr hσ

end

/-! ### modulo 2 -/

abbrev F := ZMod 2

/-- Permute the factors; modulo 2 there is no sign. -/
noncomputable def pm (p : Perm) : (SKey →₀ F) →ₗ[F] (SKey →₀ F) := lin (actK ldim p)

theorem actK_two (p : Perm) (k : SKey) : actK (R := F) ldim p k = bv F (actL p k) := by
  rw [actK, sg_two, one_smul]

@[simp] theorem pm_bv (p : Perm) (k : SKey) : pm p (bv F k) = bv F (actL p k) := by
  rw [pm, lin_single, one_smul, actK_two]

theorem add_self' (v : SKey →₀ F) : v + v = 0 := by
  rw [← two_smul F v, show (2 : F) = 0 by decide, zero_smul]

theorem sgn_two (v : SKey →₀ F) : sgn ldim v = v := by
  refine LinearMap.congr_fun (f := sgn ldim) (g := LinearMap.id) (lin_ext fun k => ?_) v
  simp [sg_two]

theorem bd_pm {r : Nat} {p : Perm} (hp : IsPerm r p) {v : SKey →₀ F}
    (hv : v ∈ Finsupp.supported F F {k : SKey | k.length = r}) : bd (pm p v) = pm p (bd v) := by
  refine lin_ext_supported (f := bd.comp (pm p)) (g := (pm p).comp bd) (fun k hk => ?_) hv
  have := tens_actK (R := F) (d := delE) (deg := ldim) (fun a => by
    rw [sg_two, one_smul]
    have h1 : ∀ u : List Nat →₀ F, -u = u := fun u => by
      rw [neg_eq_iff_add_eq_zero, ← two_smul F u, show (2 : F) = 0 by decide, zero_smul]
    rw [h1]
    refine LinearMap.congr_fun (f := sgn1 ldim) (g := LinearMap.id) (lin_ext fun k => ?_) _
    simp [sgn1, sg_two]) hp hk
  simp only [LinearMap.comp_apply, tens_single, one_smul, pm, lin_single]
  exact this

theorem pm_supp {r : Nat} {p : Perm} (hp : IsPerm r p) {m : Int} {σ : List Nat} {v : SKey →₀ F}
    (hv : v ∈ Finsupp.supported F F (TS r m σ)) : pm p v ∈ Finsupp.supported F F (TS r m σ) := by
  refine lin_supported _ (fun k hk => ?_) hv
  rw [actK_two]
  have hpm := perm_actL hp hk.2.1
  refine Finsupp.single_mem_supported F _ ⟨fun f hf => hk.1 f (hpm.mem_iff.1 hf), length_actL hp hk.2.1, ?_⟩
  rw [← hk.2.2, totDeg_eq_sum, totDeg_eq_sum]
  exact (hpm.map _).sum_eq

theorem pm_pm {r : Nat} {p q : Perm} (hp : IsPerm r p) (hq : IsPerm r q) {v : SKey →₀ F}
    (hv : v ∈ Finsupp.supported F F {k : SKey | k.length = r}) : pm p (pm q v) = pm (mulL p q) v := by
  refine lin_ext_supported (f := (pm p).comp (pm q)) (g := pm (mulL p q)) (fun k hk => ?_) hv
  have := actK_actK (R := F) ldim hp hq (k := k) hk
  simp only [LinearMap.comp_apply, pm, lin_single, one_smul]
  exact this

theorem pm_id {r : Nat} {v : SKey →₀ F} (hv : v ∈ Finsupp.supported F F {k : SKey | k.length = r}) :
    pm (pyRange 1 (r + 1)) v = v := by
  refine lin_ext_supported (f := pm (pyRange 1 (r + 1))) (g := LinearMap.id) (fun k hk => ?_) hv
  rw [pm, lin_single, one_smul, actK_id ldim hk, LinearMap.id_apply]

theorem TS_length {r : Nat} {m : Int} {σ : List Nat} {v : SKey →₀ F}
    (hv : v ∈ Finsupp.supported F F (TS r m σ)) : v ∈ Finsupp.supported F F {k : SKey | k.length = r} :=
  Finsupp.supported_mono (fun _ hk => hk.2.1) hv

theorem cat_TS {r s : Nat} {i j : Int} {σ : List Nat} {u v : SKey →₀ F}
    (hu : u ∈ Finsupp.supported F F (TS r i σ)) (hv : v ∈ Finsupp.supported F F (TS s j σ)) :
    cat u v ∈ Finsupp.supported F F (TS (r + s) (i + j) σ) := by
  have : cat u v = bil (fun a k => bv F (a ++ k)) u v := by
    refine bil_ext_supported (S := Set.univ) (T := Set.univ)
      (f := cat) (g := bil fun a k => bv F (a ++ k)) ?_ (by simp) (by simp)
    intro a _ k _
    rw [bil_bv]
    simp
  rw [this]
  refine bil_supported (S := TS r i σ) (T := TS s j σ) _ (fun a ha k hk => ?_) hu hv
  refine Finsupp.single_mem_supported F _ ⟨?_, ?_, ?_⟩
  · intro x hx
    rcases List.mem_append.1 hx with hx | hx
    · exact ha.1 x hx
    · exact hk.1 x hx
  · rw [List.length_append, ha.2.1, hk.2.1]
  · rw [totDeg_append, ha.2.2, hk.2.2]

theorem bd_cat (u v : SKey →₀ F) : bd (cat u v) = cat (bd u) v + cat u (bd v) := by
  have := tens_cat (d := delE (R := F)) (deg := ldim) u v
  rw [sgn_two] at this
  exact this

/-- The swap. -/
abbrev sw : Perm := [2, 1]
/-- The swap of two pairs. -/
abbrev sw4 : Perm := [3, 4, 1, 2]
/-- The exchange of the inner factors. -/
abbrev sh4 : Perm := [1, 3, 2, 4]

theorem isPerm_sw : IsPerm 2 sw := by decide
theorem isPerm_sw4 : IsPerm 4 sw4 := by decide
theorem isPerm_sh4 : IsPerm 4 sh4 := by decide

theorem actL_sw (a b : List Nat) : actL sw [a, b] = [b, a] := by
  simp [actL, sortl, List.insertionSort, List.orderedInsert]
theorem actL_sw4 (a b c e : List Nat) : actL sw4 [a, b, c, e] = [c, e, a, b] := by
  simp [actL, sortl, List.insertionSort, List.orderedInsert]
theorem actL_sh4 (a b c e : List Nat) : actL sh4 [a, b, c, e] = [a, c, b, e] := by
  simp [actL, sortl, List.insertionSort, List.orderedInsert]

abbrev Len (r : Nat) : Set SKey := {k | k.length = r}

theorem pm_sw_cat {u v : SKey →₀ F} (hu : u ∈ Finsupp.supported F F (Len 2))
    (hv : v ∈ Finsupp.supported F F (Len 2)) : pm sw4 (cat u v) = cat v u := by
  have := bil_ext_supported (R := F) (M := SKey →₀ F) (S := Len 2) (T := Len 2)
    (f := (cat (R := F) (A := List Nat)).compr₂ (pm sw4)) (g := (cat (R := F) (A := List Nat)).flip) (fun a ha b hb => by
      obtain ⟨a1, a2, rfl⟩ := List.length_eq_two.1 ha
      obtain ⟨b1, b2, rfl⟩ := List.length_eq_two.1 hb
      simp [actL_sw4, pm, actK_two]) hu hv
  rw [LinearMap.compr₂_apply, LinearMap.flip_apply] at this
  exact this

theorem pm_sh_cat {u v : SKey →₀ F} (hu : u ∈ Finsupp.supported F F (Len 2))
    (hv : v ∈ Finsupp.supported F F (Len 2)) :
    pm sh4 (cat (pm sw u) (pm sw v)) = pm sw4 (pm sh4 (cat u v)) := by
  have := bil_ext_supported (R := F) (M := SKey →₀ F) (S := Len 2) (T := Len 2)
    (f := ((cat (R := F) (A := List Nat)).compl₁₂ (pm sw) (pm sw)).compr₂ (pm sh4))
    (g := (cat (R := F) (A := List Nat)).compr₂ ((pm sw4).comp (pm sh4))) (fun a ha b hb => by
      obtain ⟨a1, a2, rfl⟩ := List.length_eq_two.1 ha
      obtain ⟨b1, b2, rfl⟩ := List.length_eq_two.1 hb
      simp [actL_sw4, actL_sw, actL_sh4, pm, actK_two]) hu hv
  rw [LinearMap.compr₂_apply, LinearMap.compr₂_apply, LinearMap.compl₁₂_apply, LinearMap.comp_apply] at this
  exact this

theorem pm_sw_sw {v : SKey →₀ F} (hv : v ∈ Finsupp.supported F F (Len 2)) : pm sw (pm sw v) = v := by
  rw [pm_pm isPerm_sw isPerm_sw hv]; exact pm_id (r := 2) hv

theorem pm_sw4_sw4 {v : SKey →₀ F} (hv : v ∈ Finsupp.supported F F (Len 4)) : pm sw4 (pm sw4 v) = v := by
  rw [pm_pm isPerm_sw4 isPerm_sw4 hv]; exact pm_id (r := 4) hv

/-- The action on a simplex modulo 2. -/
noncomputable abbrev w2 (d : Nat) (σ : List Nat) : SKey →₀ F := w 2 2 d σ

variable {d : Nat} {σ : List Nat}

theorem w2_supp (hσ : Inc σ) : w2 d σ ∈ Finsupp.supported F F (TS 2 (d + ldim σ) σ) :=
  w_supp le_rfl (by norm_num) hσ

theorem w2_len (hσ : Inc σ) : w2 d σ ∈ Finsupp.supported F F (Len 2) := TS_length (w2_supp hσ)

theorem w2_zero (hσ : Inc σ) : bd (w2 0 σ) = lin (w2 0) (delE σ) := w_zero le_rfl (by norm_num) hσ

theorem stepV_two (d : Nat) (v : SKey →₀ F) (hv : v ∈ Finsupp.supported F F (Len 2)) :
    actV ldim (stepV F 2 d) v = v + pm sw v := by
  have h1 : stepV F 2 d = bv F [1, 2] + bv F sw := by
    unfold stepV
    split
    · unfold nV
      rw [show List.range 2 = [0, 1] by rfl]
      simp only [List.map_cons, List.map_nil, List.sum_cons, List.sum_nil, add_zero]
      rfl
    · rw [show tV F 2 = bv F [2, 1] - bv F [1, 2] by rfl, sub_eq_add_neg, add_comm]
      congr 1
      rw [← Finsupp.single_neg]
      rfl
  rw [h1, map_add, LinearMap.add_apply]
  congr 1
  · refine lin_ext_supported (f := actV ldim (bv F [1, 2])) (g := LinearMap.id) (fun k hk => ?_) hv
    rw [bil_bv, lin_single, one_smul]
    exact actK_id (r := 2) ldim hk
  · refine lin_ext_supported (f := actV ldim (bv F sw)) (g := pm sw) (fun k hk => ?_) hv
    rw [bil_bv]
    rfl

theorem w2_succ (hσ : Inc σ) :
    bd (w2 (d + 1) σ) = w2 d σ + pm sw (w2 d σ) + lin (w2 (d + 1)) (delE σ) := by
  have := w_succ (d := d) (r := 2) (n := 2) le_rfl (by norm_num) hσ
  rw [stepV_two _ _ (w2_len hσ), sg_two, one_smul] at this
  exact this

/-! ### maps on pairs of faces -/

/-- Extend a function of two simplices to tensors. -/
noncomputable def lift2 (B : List Nat → List Nat → (SKey →₀ F)) : SKey → (SKey →₀ F)
  | [f, g] => B f g
  | _ => 0

theorem lift2_bd (B : List Nat → List Nat → (SKey →₀ F)) (f g : List Nat) :
    lin (lift2 B) (tensK delE ldim [f, g]) = lin (fun x => B x g) (delE f) + lin (fun y => B f y) (delE g) := by
  have h1 : ∀ u : List Nat →₀ F, lin (lift2 B) (cat (one u) (bv F [g])) = lin (fun x => B x g) u := by
    intro u
    refine LinearMap.congr_fun (f := (lin (lift2 B)).comp ((cat.flip (bv F [g])).comp one))
      (g := lin fun x => B x g) (lin_ext fun k => ?_) u
    simp [lift2]
  have h2 : ∀ u : List Nat →₀ F, lin (lift2 B) (consV f (one u)) = lin (fun y => B f y) u := by
    intro u
    refine LinearMap.congr_fun (f := (lin (lift2 B)).comp ((consV f).comp one))
      (g := lin fun x => B f x) (lin_ext fun k => ?_) u
    simp [lift2]
  simp only [tensK, map_zero, smul_zero, add_zero, sg_two, one_smul, map_add, h1]
  rw [← h2]
  simp

/-- A bilinear family that is a chain map up to an error term. -/
theorem lift2_chain {B E : List Nat → List Nat → (SKey →₀ F)}
    (hB : ∀ f g, Inc f → Inc g →
      bd (B f g) = E f g + lin (fun x => B x g) (delE f) + lin (fun y => B f y) (delE g))
    (hσ : Inc σ) {m : Int} {v : SKey →₀ F} (hv : v ∈ Finsupp.supported F F (TS 2 m σ)) :
    bd (lin (lift2 B) v) = lin (lift2 E) v + lin (lift2 B) (bd v) := by
  refine lin_ext_supported (f := bd.comp (lin (lift2 B))) (g := lin (lift2 E) + (lin (lift2 B)).comp bd)
    (fun k hk => ?_) hv
  obtain ⟨f, g, rfl⟩ := List.length_eq_two.1 hk.2.1
  have hf := Gs_inc hσ (hk.1 f (by simp))
  have hg := Gs_inc hσ (hk.1 g (by simp))
  simp only [LinearMap.comp_apply, LinearMap.add_apply, lin_single, one_smul, tens_single]
  rw [lift2_bd, ← add_assoc]
  exact hB f g hf hg

theorem lift2_supp {B : List Nat → List Nat → (SKey →₀ F)} {c : Int}
    (hB : ∀ f g, Inc f → Inc g → f.Sublist σ → g.Sublist σ →
      B f g ∈ Finsupp.supported F F (TS 4 (c + ldim f + ldim g) σ))
    (hσ : Inc σ) {m : Int} {v : SKey →₀ F} (hv : v ∈ Finsupp.supported F F (TS 2 m σ)) :
    lin (lift2 B) v ∈ Finsupp.supported F F (TS 4 (c + m) σ) := by
  refine lin_supported _ (fun k hk => ?_) hv
  obtain ⟨f, g, rfl⟩ := List.length_eq_two.1 hk.2.1
  have := hB f g (Gs_inc hσ (hk.1 f (by simp))) (Gs_inc hσ (hk.1 g (by simp))) (hk.1 f (by simp)).2 (hk.1 g (by simp)).2
  have e : c + m = c + ldim f + ldim g := by
    have := hk.2.2
    simp only [totDeg, add_zero] at this
    omega
  rw [e]
  exact this

theorem lin_supp_cat_left {f : List Nat} (b : List Nat → (SKey →₀ F)) (c : SKey →₀ F) (u : List Nat →₀ F) :
    lin (fun x => cat (b x) c) u = cat (lin b u) c := by
  refine LinearMap.congr_fun (f := lin fun x => cat (b x) c) (g := (cat.flip c).comp (lin b)) (lin_ext fun k => ?_) u
  simp

theorem lin_supp_cat_right (b : List Nat → (SKey →₀ F)) (c : SKey →₀ F) (u : List Nat →₀ F) :
    lin (fun x => cat c (b x)) u = cat c (lin b u) := by
  refine LinearMap.congr_fun (f := lin fun x => cat c (b x)) (g := (cat c).comp (lin b)) (lin_ext fun k => ?_) u
  simp

/-! ### the left-hand side: square of a cup product -/

noncomputable def B0 (f g : List Nat) : SKey →₀ F := cat (w2 0 f) (w2 0 g)

noncomputable def Lh (d : Nat) (σ : List Nat) : SKey →₀ F := lin (lift2 B0) (w2 d σ)

theorem B0_bd (f g : List Nat) (hf : Inc f) (hg : Inc g) :
    bd (B0 f g) = (fun _ _ => 0) f g + lin (fun x => B0 x g) (delE f) + lin (fun y => B0 f y) (delE g) := by
  unfold B0
  rw [bd_cat, w2_zero hf, w2_zero hg, lin_supp_cat_left (f := f), lin_supp_cat_right, zero_add]

theorem lift2_zero : lin (lift2 fun _ _ => 0) = 0 := by
  refine lin_ext fun k => ?_
  rw [lin_single, one_smul, LinearMap.zero_apply]
  unfold lift2
  split <;> rfl

theorem Lh_supp (hσ : Inc σ) : Lh d σ ∈ Finsupp.supported F F (TS 4 (d + ldim σ) σ) := by
  have := lift2_supp (c := 0) (B := B0) (fun f g hf hg h1 h2 => by
    have := cat_TS (Finsupp.supported_mono (TS_mono h1) (w2_supp (d := 0) hf))
      (Finsupp.supported_mono (TS_mono h2) (w2_supp (d := 0) hg))
    rw [show (0 : Int) + ldim f + ldim g = ((0 : Nat) : Int) + ldim f + (((0 : Nat) : Int) + ldim g) by push_cast; ring]
    exact this) hσ (w2_supp (d := d) hσ)
  rw [zero_add] at this
  exact this

theorem lift2_B0_sw {v : SKey →₀ F} {m : Int} (hσ : Inc σ) (hv : v ∈ Finsupp.supported F F (TS 2 m σ)) :
    lin (lift2 B0) (pm sw v) = pm sw4 (lin (lift2 B0) v) := by
  refine lin_ext_supported (f := (lin (lift2 B0)).comp (pm sw)) (g := (pm sw4).comp (lin (lift2 B0)))
    (fun k hk => ?_) hv
  obtain ⟨f, g, rfl⟩ := List.length_eq_two.1 hk.2.1
  have hf := Gs_inc hσ (hk.1 f (by simp))
  have hg := Gs_inc hσ (hk.1 g (by simp))
  simp only [LinearMap.comp_apply, pm_bv, actL_sw, lin_single, one_smul, lift2]
  exact (pm_sw_cat (w2_len hf) (w2_len hg)).symm

theorem lin_comp_fun (b : List Nat → (SKey →₀ F)) (φ : (SKey →₀ F) →ₗ[F] (SKey →₀ F)) (u : List Nat →₀ F) :
    φ (lin b u) = lin (fun x => φ (b x)) u := by
  refine LinearMap.congr_fun (f := φ.comp (lin b)) (g := lin fun x => φ (b x)) (lin_ext fun k => ?_) u
  simp

theorem Lh_zero (hσ : Inc σ) : bd (Lh 0 σ) = lin (Lh 0) (delE σ) := by
  rw [Lh, lift2_chain B0_bd hσ (w2_supp hσ), lift2_zero, LinearMap.zero_apply, zero_add, w2_zero hσ, lin_comp_fun]
  rfl

theorem Lh_succ (hσ : Inc σ) : bd (Lh (d + 1) σ) = Lh d σ + pm sw4 (Lh d σ) + lin (Lh (d + 1)) (delE σ) := by
  rw [Lh, lift2_chain B0_bd hσ (w2_supp hσ), lift2_zero, LinearMap.zero_apply, zero_add, w2_succ hσ, map_add, map_add,
    lift2_B0_sw hσ (w2_supp hσ), lin_comp_fun]
  rfl

/-! ### the right-hand side: sum of products of squares -/

/-- Powers of the swap. -/
noncomputable def swp : Nat → (SKey →₀ F) → (SKey →₀ F)
  | 0, v => v
  | i + 1, v => pm sw (swp i v)

theorem swp_supp (i : Nat) {m : Int} {v : SKey →₀ F} (hv : v ∈ Finsupp.supported F F (TS 2 m σ)) :
    swp i v ∈ Finsupp.supported F F (TS 2 m σ) := by
  induction i with
  | zero => exact hv
  | succ i ih => exact pm_supp isPerm_sw ih

theorem swp_add (i : Nat) (u v : SKey →₀ F) : swp i (u + v) = swp i u + swp i v := by
  induction i with
  | zero => rfl
  | succ i ih => rw [swp, ih, map_add]; rfl

theorem swp_comm (i : Nat) (v : SKey →₀ F) : swp i (pm sw v) = pm sw (swp i v) := by
  induction i with
  | zero => rfl
  | succ i ih => rw [swp, ih]; rfl

theorem swp_bd (i : Nat) (hσ : Inc σ) {m : Int} {v : SKey →₀ F} (hv : v ∈ Finsupp.supported F F (TS 2 m σ)) :
    bd (swp i v) = swp i (bd v) := by
  induction i with
  | zero => rfl
  | succ i ih => rw [swp, bd_pm isPerm_sw (TS_length (swp_supp i hv)), ih]; rfl

theorem swp_lin (i : Nat) (b : List Nat → (SKey →₀ F)) (u : List Nat →₀ F) :
    swp i (lin b u) = lin (fun x => swp i (b x)) u := by
  induction i with
  | zero => rfl
  | succ i ih => rw [swp, ih, lin_comp_fun]; rfl

noncomputable def term (d i : Nat) (f g : List Nat) : SKey →₀ F := cat (swp i (w2 (d - i) f)) (w2 i g)

noncomputable def Bd (d : Nat) (f g : List Nat) : SKey →₀ F := ∑ i ∈ Finset.range (d + 1), term d i f g

theorem term_bd {d i : Nat} (hi : i ≤ d) {f g : List Nat} (hf : Inc f) (hg : Inc g) :
    bd (term d i f g) = (if i < d then term (d - 1) i f g + cat (swp (i + 1) (w2 (d - 1 - i) f)) (w2 i g) else 0) +
      (if 0 < i then cat (swp i (w2 (d - i) f)) (w2 (i - 1) g + pm sw (w2 (i - 1) g)) else 0) +
      lin (fun x => term d i x g) (delE f) + lin (fun y => term d i f y) (delE g) := by
  unfold term
  rw [bd_cat, swp_bd i hf (w2_supp hf), lin_supp_cat_left (f := f), lin_supp_cat_right, ← swp_lin]
  have h1 : swp i (bd (w2 (d - i) f)) = (if i < d then swp i (w2 (d - 1 - i) f) + swp (i + 1) (w2 (d - 1 - i) f) else 0) +
      swp i (lin (w2 (d - i)) (delE f)) := by
    split
    · rename_i h
      obtain ⟨e, he⟩ : ∃ e, d - i = e + 1 := ⟨d - i - 1, by omega⟩
      rw [show d - 1 - i = e by omega, he, w2_succ hf, swp_add, swp_add, swp_comm]
      rfl
    · have : d - i = 0 := by omega
      rw [this, w2_zero hf, zero_add]
  have h2 : bd (w2 i g) = (if 0 < i then w2 (i - 1) g + pm sw (w2 (i - 1) g) else 0) + lin (w2 i) (delE g) := by
    split
    · obtain ⟨e, rfl⟩ : ∃ e, i = e + 1 := ⟨i - 1, by omega⟩
      rw [w2_succ hg]; rfl
    · have : i = 0 := by omega
      subst this
      rw [w2_zero hg, zero_add]
  rw [h1, h2]
  split <;> split <;> simp only [map_add, LinearMap.add_apply, map_zero, LinearMap.zero_apply, zero_add, add_zero] <;>
    abel

/-- The error term: the sum of two copies exchanged by the simultaneous swap. -/
noncomputable def Ed : Nat → List Nat → List Nat → (SKey →₀ F)
  | 0, _, _ => 0
  | d + 1, f, g => Bd d f g + ∑ i ∈ Finset.range (d + 1), cat (swp (i + 1) (w2 (d - i) f)) (pm sw (w2 i g))

theorem Bd_bd (d : Nat) (f g : List Nat) (hf : Inc f) (hg : Inc g) :
    bd (Bd d f g) = Ed d f g + lin (fun x => Bd d x g) (delE f) + lin (fun y => Bd d f y) (delE g) := by
  have hl : ∀ (t : Nat → List Nat → (SKey →₀ F)) (s : Finset Nat) (u : List Nat →₀ F),
      lin (fun x => ∑ i ∈ s, t i x) u = ∑ i ∈ s, lin (t i) u := by
    intro t s u
    refine (LinearMap.congr_fun (f := lin fun x => ∑ i ∈ s, t i x) (g := ∑ i ∈ s, lin (t i)) (lin_ext fun k => ?_) u).trans
      (by rw [LinearMap.sum_apply])
    simp [LinearMap.sum_apply]
  unfold Bd
  rw [map_sum, hl, hl, Finset.sum_congr rfl fun i hi =>
    term_bd (by have := Finset.mem_range.1 hi; omega) hf hg, Finset.sum_add_distrib, Finset.sum_add_distrib]
  congr 2
  cases d with
  | zero => simp [Ed]
  | succ d =>
    rw [Finset.sum_add_distrib, Finset.sum_range_succ, Finset.sum_range_succ' (fun i => if 0 < i then _ else _)]
    rw [if_neg (by omega), if_neg (by omega), add_zero, add_zero, ← Finset.sum_add_distrib, Ed, Bd, ← Finset.sum_add_distrib]
    refine Finset.sum_congr rfl fun i hi => ?_
    have hi := Finset.mem_range.1 hi
    rw [if_pos (by omega), if_pos (by omega), Nat.add_sub_cancel, Nat.add_sub_cancel,
      show d + 1 - (i + 1) = d - i by omega, map_add]
    rw [show ∀ a b c : SKey →₀ F, a + b + (b + c) = a + c + (b + b) by intros; abel, add_self', add_zero]

theorem lift2_add (B E : List Nat → List Nat → (SKey →₀ F)) (v : SKey →₀ F) :
    lin (lift2 fun f g => B f g + E f g) v = lin (lift2 B) v + lin (lift2 E) v := by
  refine LinearMap.congr_fun (f := lin (lift2 fun f g => B f g + E f g)) (g := lin (lift2 B) + lin (lift2 E))
    (lin_ext fun k => ?_) v
  simp only [LinearMap.add_apply, lin_single, one_smul]
  unfold lift2
  split <;> simp

noncomputable def Rh (d : Nat) (σ : List Nat) : SKey →₀ F := pm sh4 (lin (lift2 (Bd d)) (w2 0 σ))

theorem Bd_supp {f g : List Nat} (hf : Inc f) (hg : Inc g) (h1 : f.Sublist σ) (h2 : g.Sublist σ) :
    Bd d f g ∈ Finsupp.supported F F (TS 4 (d + ldim f + ldim g) σ) := by
  refine Submodule.sum_mem _ fun i hi => ?_
  have hi := Finset.mem_range.1 hi
  have := cat_TS (swp_supp i (Finsupp.supported_mono (TS_mono h1) (w2_supp (d := d - i) hf)))
      (Finsupp.supported_mono (TS_mono h2) (w2_supp (d := i) hg))
  rw [show (d : Int) + ldim f + ldim g = ((d - i : Nat) : Int) + ldim f + ((i : Int) + ldim g) by
    have : ((d - i : Nat) : Int) = d - i := by omega
    rw [this]; ring]
  exact this

theorem lift2_Bd_supp (hσ : Inc σ) {m : Int} {v : SKey →₀ F} (hv : v ∈ Finsupp.supported F F (TS 2 m σ)) :
    lin (lift2 (Bd d)) v ∈ Finsupp.supported F F (TS 4 (d + m) σ) :=
  lift2_supp (fun _ _ hf hg h1 h2 => Bd_supp hf hg h1 h2) hσ hv

theorem Rh_supp (hσ : Inc σ) : Rh d σ ∈ Finsupp.supported F F (TS 4 (d + ldim σ) σ) := by
  have := lift2_Bd_supp (d := d) hσ (w2_supp (d := 0) hσ)
  rw [Nat.cast_zero, zero_add] at this
  exact pm_supp isPerm_sh4 this

theorem Rh_zero (hσ : Inc σ) : bd (Rh 0 σ) = lin (Rh 0) (delE σ) := by
  rw [Rh, bd_pm isPerm_sh4 (TS_length (lift2_Bd_supp hσ (w2_supp hσ))), lift2_chain (Bd_bd 0) hσ (w2_supp hσ),
    show Ed 0 = fun _ _ => 0 from rfl, lift2_zero, LinearMap.zero_apply, zero_add, w2_zero hσ, lin_comp_fun, lin_comp_fun]
  rfl

theorem Rh_succ (hσ : Inc σ) : bd (Rh (d + 1) σ) = Rh d σ + pm sw4 (Rh d σ) + lin (Rh (d + 1)) (delE σ) := by
  rw [Rh, bd_pm isPerm_sh4 (TS_length (lift2_Bd_supp hσ (w2_supp hσ))), lift2_chain (Bd_bd (d + 1)) hσ (w2_supp hσ),
    w2_zero hσ, map_add, show Ed (d + 1) = fun f g => Bd d f g +
      ∑ i ∈ Finset.range (d + 1), cat (swp (i + 1) (w2 (d - i) f)) (pm sw (w2 i g)) from rfl, lift2_add, map_add,
    lin_comp_fun, lin_comp_fun]
  congr 2
  have := lin_ext_supported (R := F) (M := SKey →₀ F) (f := (pm sh4).comp (lin (lift2 fun f g =>
      ∑ i ∈ Finset.range (d + 1), cat (swp (i + 1) (w2 (d - i) f)) (pm sw (w2 i g)))))
    (g := (pm sw4).comp ((pm sh4).comp (lin (lift2 (Bd d)))))
    (fun k hk => by
      obtain ⟨f, g, rfl⟩ := List.length_eq_two.1 hk.2.1
      have hf := Gs_inc hσ (hk.1 f (by simp))
      have hg := Gs_inc hσ (hk.1 g (by simp))
      simp only [LinearMap.comp_apply, lin_single, one_smul, lift2]
      unfold Bd
      rw [map_sum, map_sum, map_sum]
      refine Finset.sum_congr rfl fun i _ => ?_
      exact pm_sh_cat (TS_length (swp_supp i (w2_supp hf))) (w2_len hg)) (w2_supp (d := 0) hσ)
  exact this

/-! ### the homotopy -/

theorem aug_w2 (v : Nat) : aug (w2 0 [v]) = 1 := by
  have hσ : Inc [v] := ⟨by simp, by simp⟩
  rw [w2, w_bottom le_rfl hσ, aw_cons, aw_zero, aw_nil]
  simp [lany, Comch.ldrop, hasRep]

theorem aug_pm (p : Perm) (v : SKey →₀ F) : aug (pm p v) = aug v := by
  induction v using Finsupp.induction_linear with
  | zero => simp
  | add f g hf hg => simp only [map_add, hf, hg]
  | single k c => rw [pm, lin_single, actK_two, map_smul]; simp

theorem aug_base (v : Nat) : aug (Lh 0 [v] + Rh 0 [v]) = 0 := by
  have hσ : Inc [v] := ⟨by simp, by simp⟩
  have hw : w2 0 [v] = bv F [[v], [v]] := by
    rw [w2, w_bottom le_rfl hσ, aw_cons, aw_zero, aw_nil]
    simp [lany, Comch.ldrop, hasRep]
  have hL : Lh 0 [v] = cat (w2 0 [v]) (w2 0 [v]) := by
    rw [Lh, hw]; simp only [lin_single, one_smul, lift2]; unfold B0; rw [hw]
  have hR : Rh 0 [v] = pm sh4 (cat (w2 0 [v]) (w2 0 [v])) := by
    rw [Rh, hw]; simp only [lin_single, one_smul, lift2]; unfold Bd term; rw [Finset.sum_range_one]; simp [swp, hw]
  rw [map_add, hL, hR, aug_pm, aug_cat, aug_w2, ← two_mul, show (2 : F) = 0 by decide, zero_mul]

theorem lin_add_fun (b c : List Nat → (SKey →₀ F)) (u : List Nat →₀ F) :
    lin (fun x => b x + c x) u = lin b u + lin c u := by
  refine LinearMap.congr_fun (f := lin fun x => b x + c x) (g := lin b + lin c) (lin_ext fun k => ?_) u
  simp

/-- The two families are homotopic up to the image of the norm. -/
theorem cartan_homotopy (d : Nat) : ∃ K H : List Nat → (SKey →₀ F),
    (∀ σ, Inc σ → K σ ∈ Finsupp.supported F F (TS 4 (d + ldim σ) σ)) ∧
    (∀ σ, Inc σ → H σ ∈ Finsupp.supported F F (TS 4 ((d + 1 : Nat) + ldim σ) σ)) ∧
    ∀ σ, Inc σ → bd (H σ) = Lh d σ + Rh d σ + (K σ + pm sw4 (K σ)) + lin H (delE σ) := by
  induction d with
  | zero =>
    obtain ⟨H, hH, hb⟩ := acyclic_carrier (R := F) (r := 4) (m := 0) (fun σ => Lh 0 σ + Rh 0 σ)
      (fun σ hσ => Submodule.add_mem _ (Lh_supp hσ) (Rh_supp hσ))
      (fun σ hσ => by
        rw [map_add, Lh_zero hσ, Rh_zero hσ, sg_two, one_smul, lin_add_fun])
      (fun _ v => aug_base v)
    refine ⟨fun _ => 0, H, fun _ _ => Submodule.zero_mem _, hH, fun σ hσ => ?_⟩
    rw [hb σ hσ, sg_two, one_smul, map_zero, add_zero, add_zero]
  | succ d ih =>
    obtain ⟨K, H, hK, hH, hb⟩ := ih
    have hlen : ∀ σ, Inc σ → H σ ∈ Finsupp.supported F F (Len 4) := fun σ hσ => TS_length (hH σ hσ)
    obtain ⟨H', hH', hb'⟩ := acyclic_carrier (R := F) (r := 4) (m := d + 1)
      (fun σ => Lh (d + 1) σ + Rh (d + 1) σ + (H σ + pm sw4 (H σ)))
      (fun σ hσ => Submodule.add_mem _ (Submodule.add_mem _ (Lh_supp hσ) (Rh_supp hσ))
        (Submodule.add_mem _ (hH σ hσ) (pm_supp isPerm_sw4 (hH σ hσ))))
      (fun σ hσ => by
        rw [map_add, map_add, map_add, bd_pm isPerm_sw4 (hlen σ hσ), Lh_succ hσ, Rh_succ hσ, sg_two, one_smul,
          lin_add_fun (fun σ => Lh (d + 1) σ + Rh (d + 1) σ), lin_add_fun (Lh (d + 1)), lin_add_fun H, hb σ hσ]
        simp only [map_add, pm_sw4_sw4 (TS_length (hK σ hσ))]
        rw [← lin_comp_fun H (pm sw4)]
        rw [show ∀ a a' x b b' y c c' z z' : SKey →₀ F,
          a + a' + x + (b + b' + y) + (a + b + (c + c') + z + (a' + b' + (c' + c) + z')) =
            x + y + (z + z') + (a + a) + (a' + a') + (b + b) + (b' + b') + (c + c) + (c' + c') by intros; abel]
        simp only [add_self', add_zero])
      (fun h => by omega)
    refine ⟨H, H', fun σ hσ => ?_, hH', fun σ hσ => ?_⟩
    · exact hH σ hσ
    · rw [hb' σ hσ, sg_two, one_smul]

end Contract
end Comch
