import Verif.Lib.OddShuffle
import Verif.Lib.OddSums

/-! # The two families of the Cartan formula at an odd prime -/

set_option linter.unusedSectionVars false

namespace Comch
namespace OddP
open Finsupp (single)
open Acyclic BElem Elem Comch.Spec Join Coch SurjComp SurjElem IsPerm SurjMay Comch.Props Contract

/-! ### functions of two simplices -/
section
variable {R : Type} [CommRing R] {σ : List Nat}

abbrev Two (R : Type) [CommRing R] := List Nat → List Nat → (SKey →₀ R)

/-- Extend a function of two simplices to tensors. -/
noncomputable def lf (B : Two R) : SKey → (SKey →₀ R)
  | [f, g] => B f g
  | _ => 0

/-- The function on the boundary. -/
noncomputable def DB (f g : List Nat) : Two R →+ (SKey →₀ R) :=
  AddMonoidHom.mk' (fun B => lin (fun x => B x g) (delE f) + sg R (ldim f) • lin (fun y => B f y) (delE g)) (fun B C => by
    have h1 := lin_add_fun' (R := R) (fun x => B x g) (fun x => C x g) (delE f)
    have h2 := lin_add_fun' (R := R) (fun x => B f x) (fun x => C f x) (delE g)
    simp only [Pi.add_apply]
    rw [h1, h2, smul_add]
    abel)

theorem DB_apply (f g : List Nat) (B : Two R) :
    DB f g B = lin (fun x => B x g) (delE f) + sg R (ldim f) • lin (fun y => B f y) (delE g) := rfl

theorem lf_bd (B : Two R) (f g : List Nat) : lin (lf B) (tensK delE ldim [f, g]) = DB f g B := by
  have h1 : ∀ u : List Nat →₀ R, lin (lf B) (cat (one u) (bv R [g])) = lin (fun x => B x g) u := by
    intro u
    refine LinearMap.congr_fun (f := (lin (lf B)).comp ((cat.flip (bv R [g])).comp one))
      (g := lin fun x => B x g) (lin_ext fun k => ?_) u
    simp [lf]
  have h2 : ∀ u : List Nat →₀ R, lin (lf B) (consV f (one u)) = lin (fun y => B f y) u := by
    intro u
    refine LinearMap.congr_fun (f := (lin (lf B)).comp ((consV f).comp one))
      (g := lin fun x => B f x) (lin_ext fun k => ?_) u
    simp [lf]
  rw [DB_apply]
  simp only [tensK, map_zero, smul_zero, add_zero, map_add, map_smul, h1]
  rw [← h2]
  simp

theorem lf_chain {B E : Two R} {c : R}
    (hB : ∀ f g, Inc f → Inc g → bd (B f g) = E f g + c • DB f g B)
    (hσ : Inc σ) {m : Int} {v : SKey →₀ R} (hv : v ∈ Finsupp.supported R R (TS 2 m σ)) :
    bd (lin (lf B) v) = lin (lf E) v + c • lin (lf B) (bd v) := by
  refine lin_ext_supported (f := bd.comp (lin (lf B))) (g := lin (lf E) + c • (lin (lf B)).comp bd)
    (fun k hk => ?_) hv
  obtain ⟨f, g, rfl⟩ := List.length_eq_two.1 hk.2.1
  have hf := Gs_inc hσ (hk.1 f (by simp))
  have hg := Gs_inc hσ (hk.1 g (by simp))
  simp only [LinearMap.comp_apply, LinearMap.add_apply, LinearMap.smul_apply, lin_single, one_smul, tens_single]
  rw [lf_bd]
  exact hB f g hf hg

theorem lf_supp {B : Two R} {c : Int} {l : Nat}
    (hB : ∀ f g, Inc f → Inc g → f.Sublist σ → g.Sublist σ →
      B f g ∈ Finsupp.supported R R (TS l (c + ldim f + ldim g) σ))
    (hσ : Inc σ) {m : Int} {v : SKey →₀ R} (hv : v ∈ Finsupp.supported R R (TS 2 m σ)) :
    lin (lf B) v ∈ Finsupp.supported R R (TS l (c + m) σ) := by
  refine lin_supported _ (fun k hk => ?_) hv
  obtain ⟨f, g, rfl⟩ := List.length_eq_two.1 hk.2.1
  have := hB f g (Gs_inc hσ (hk.1 f (by simp))) (Gs_inc hσ (hk.1 g (by simp))) (hk.1 f (by simp)).2 (hk.1 g (by simp)).2
  have e : c + m = c + ldim f + ldim g := by
    have := hk.2.2
    simp only [totDeg, add_zero] at this
    omega
  rw [e]
  exact this

theorem lf_map {B E : Two R} (φ : Module.End R (SKey →₀ R)) (h : ∀ f g, Inc f → Inc g → E f g = φ (B f g))
    (hσ : Inc σ) {m : Int} {v : SKey →₀ R} (hv : v ∈ Finsupp.supported R R (TS 2 m σ)) :
    lin (lf E) v = φ (lin (lf B) v) := by
  refine lin_ext_supported (f := lin (lf E)) (g := φ.comp (lin (lf B))) (fun k hk => ?_) hv
  obtain ⟨f, g, rfl⟩ := List.length_eq_two.1 hk.2.1
  simp only [LinearMap.comp_apply, lin_single, one_smul]
  exact h f g (Gs_inc hσ (hk.1 f (by simp))) (Gs_inc hσ (hk.1 g (by simp)))

theorem cat_TS' {r s : Nat} {i j : Int} {u v : SKey →₀ R}
    (hu : u ∈ Finsupp.supported R R (TS r i σ)) (hv : v ∈ Finsupp.supported R R (TS s j σ)) :
    cat u v ∈ Finsupp.supported R R (TS (r + s) (i + j) σ) := by
  have : cat u v = bil (fun a k => bv R (a ++ k)) u v := by
    refine bil_ext_supported (S := Set.univ) (T := Set.univ)
      (f := cat) (g := bil fun a k => bv R (a ++ k)) ?_ (by simp) (by simp)
    intro a _ k _
    rw [bil_bv]
    simp
  rw [this]
  refine bil_supported (S := TS r i σ) (T := TS s j σ) _ (fun a ha k hk => ?_) hu hv
  refine Finsupp.single_mem_supported R _ ⟨?_, ?_, ?_⟩
  · intro x hx
    rcases List.mem_append.1 hx with hx | hx
    · exact ha.1 x hx
    · exact hk.1 x hx
  · rw [List.length_append, ha.2.1, hk.2.1]
  · rw [totDeg_append, ha.2.2, hk.2.2]

theorem sgn_deg {m : Int} {v : SKey →₀ R} (hv : v ∈ Finsupp.supported R R {k : SKey | totDeg ldim k = m}) :
    sgn ldim v = sg R m • v := by
  refine lin_ext_supported (R := R) (f := sgn ldim) (g := sg R m • LinearMap.id) (fun k hk => ?_) hv
  have hk : totDeg ldim k = m := hk
  simp [hk]

theorem TS_deg {r : Nat} {m : Int} {v : SKey →₀ R} (hv : v ∈ Finsupp.supported R R (TS r m σ)) :
    v ∈ Finsupp.supported R R {k : SKey | totDeg ldim k = m} := Finsupp.supported_mono (fun _ hk => hk.2.2) hv

/-- Rotation by two places moves a pair to the front. -/
theorem rot2_cat {m n : Int} {u y : SKey →₀ R} (hu : u ∈ Finsupp.supported R R {k : SKey | totDeg ldim k = m})
    (hy : y ∈ Finsupp.supported R R {k : SKey | k.length = 2 ∧ totDeg ldim k = n}) :
    (rot ^ 2) (cat u y) = sg R (n * m) • cat y u := by
  have := bil_ext_supported (R := R) (M := SKey →₀ R) (S := {k : SKey | totDeg ldim k = m}) (T := {k : SKey | k.length = 2 ∧ totDeg ldim k = n})
    (f := (cat (R := R) (A := List Nat)).compr₂ (rot ^ 2)) (g := sg R (n * m) • (cat (R := R) (A := List Nat)).flip) (fun s hs t ht => by
      have hs : totDeg ldim s = m := hs
      obtain ⟨f, g, rfl⟩ := List.length_eq_two.1 ht.1
      have hd : ldim f + ldim g = n := by have := ht.2; simpa [totDeg] using this
      have e := rot2_snoc (R := R) s f g
      rw [LinearMap.compr₂_apply, LinearMap.smul_apply, LinearMap.smul_apply, LinearMap.flip_apply, cat_single_single, cat_single_single, one_mul, e, hs, hd]
      rfl) hu hy
  rw [LinearMap.compr₂_apply, LinearMap.smul_apply, LinearMap.smul_apply, LinearMap.flip_apply] at this
  exact this

end

/-! ### the left-hand side -/
section
variable {p : Nat} {σ : List Nat}

/-- Replace every factor by the diagonal of that factor. -/
noncomputable def liftP (p : Nat) : SKey → (SKey →₀ ZMod p)
  | [] => bv _ []
  | a :: k => cat (w 2 p 0 a) (liftP p k)

theorem w2_TS (hp : p ≠ 1) {a : List Nat} (ha : Inc a) : w 2 p 0 a ∈ Finsupp.supported (ZMod p) (ZMod p) (TS 2 (ldim a) a) := by
  have := w_supp (r := 2) (d := 0) le_rfl hp ha
  simpa using this

theorem liftP_supp (hp : p ≠ 1) (hσ : Inc σ) : ∀ k : SKey, (∀ f ∈ k, f ∈ Gs σ) →
    liftP p k ∈ Finsupp.supported (ZMod p) (ZMod p) (TS (2 * k.length) (totDeg ldim k) σ)
  | [], _ => Finsupp.single_mem_supported _ _ ⟨by simp, rfl, rfl⟩
  | a :: k, h => by
    have ha := h a (by simp)
    have := cat_TS' (Finsupp.supported_mono (TS_mono ha.2) (w2_TS hp (Gs_inc hσ ha))) (liftP_supp hp hσ k fun f hf => h f (by simp [hf]))
    rw [liftP, List.length_cons, totDeg, show 2 * (k.length + 1) = 2 + 2 * k.length by ring]
    exact this

theorem liftP_append (k : SKey) (l : SKey) : liftP p (k ++ l) = cat (liftP p k) (liftP p l) := by
  induction k with
  | nil => simp [liftP]
  | cons a k ih => rw [List.cons_append, liftP, ih, liftP, cat_assoc]

theorem liftP_bd (hp : p ≠ 1) (hσ : Inc σ) : ∀ k : SKey, (∀ f ∈ k, f ∈ Gs σ) →
    bd (liftP p k) = lin (liftP p) (tensK delE ldim k)
  | [], _ => by simp [liftP, tensK]
  | a :: k, h => by
    have ha := Gs_inc hσ (h a (by simp))
    have h1 : ∀ u : List Nat →₀ ZMod p, lin (liftP p) (cat (one u) (bv _ k)) = cat (lin (w 2 p 0) u) (liftP p k) := by
      intro u
      refine LinearMap.congr_fun (f := (lin (liftP p)).comp ((cat.flip (bv _ k)).comp one))
        (g := (cat.flip (liftP p k)).comp (lin (w 2 p 0))) (lin_ext fun b => ?_) u
      simp [liftP]
    have h2 : ∀ u : SKey →₀ ZMod p, lin (liftP p) (consV a u) = cat (w 2 p 0 a) (lin (liftP p) u) := by
      intro u
      refine LinearMap.congr_fun (f := (lin (liftP p)).comp (consV a))
        (g := (cat (w 2 p 0 a)).comp (lin (liftP p))) (lin_ext fun b => ?_) u
      simp [liftP]
    have hc := tens_cat (d := delE) (deg := ldim) (w 2 p 0 a) (liftP p k)
    rw [liftP, hc, w_zero le_rfl hp ha, sgn_deg (TS_deg (w2_TS hp ha)), liftP_bd hp hσ k fun f hf => h f (by simp [hf]), tensK, map_add, map_smul,
      map_smul, h1, h2, LinearMap.smul_apply]

theorem liftP_rot (hp : p ≠ 1) (hσ : Inc σ) {r : Nat} {m : Int} {v : SKey →₀ ZMod p}
    (hv : v ∈ Finsupp.supported (ZMod p) (ZMod p) (TS r m σ)) :
    lin (liftP p) (rot v) = (rot ^ 2) (lin (liftP p) v) := by
  refine lin_ext_supported (R := ZMod p) (f := (lin (liftP p)).comp rot) (g := (rot ^ 2 : Module.End _ _).comp (lin (liftP p))) (fun k hk => ?_) hv
  rw [LinearMap.comp_apply, LinearMap.comp_apply, lin_single, one_smul]
  rcases k.eq_nil_or_concat with rfl | ⟨t, a, rfl⟩
  · have e : rot (bv (ZMod p) ([] : SKey)) = bv _ [] := by
      rw [rot, lin_single, one_smul, actK]; simp [kos, actL, sortl]
    rw [e, lin_single, one_smul, liftP, pow_two, Module.End.mul_apply, e, e]
  · rw [List.concat_eq_append] at hk ⊢
    have ha := Gs_inc hσ (hk.1 a (by simp))
    have ht := liftP_supp hp hσ t fun f hf => hk.1 f (by simp [hf])
    rw [rot_snoc, map_smul, lin_single, one_smul, liftP_append, liftP, liftP, liftP, cat_nil_right]
    rw [rot2_cat (TS_deg ht) (Finsupp.supported_mono (fun _ h => h.2) (w2_TS hp ha))]

theorem liftP_op (hp : p ≠ 1) (hσ : Inc σ) {r : Nat} (hr : 1 ≤ r) (d : Nat) {m : Int} {v : SKey →₀ ZMod p}
    (hv : v ∈ Finsupp.supported (ZMod p) (ZMod p) (TS r m σ)) :
    lin (liftP p) (op rot r d v) = op (rot ^ 2) r d (lin (liftP p) v) := by
  have hpow : ∀ j, lin (liftP p) ((rot ^ j) v) = ((rot ^ 2) ^ j) (lin (liftP p) v) := by
    intro j
    induction j with
    | zero => rfl
    | succ j ih => rw [pow_succ', Module.End.mul_apply, liftP_rot hp hσ (pow_supp (cyc_rot hr) j hv), ih, pow_succ' (rot ^ 2), Module.End.mul_apply]
  unfold op
  split
  · rw [LinearMap.sum_apply, LinearMap.sum_apply, map_sum]
    exact Finset.sum_congr rfl fun j _ => hpow j
  · rw [LinearMap.sub_apply, LinearMap.sub_apply, map_sub, liftP_rot hp hσ hv]; rfl

theorem lin_liftP_bd (hp : p ≠ 1) (hσ : Inc σ) {r : Nat} {m : Int} {v : SKey →₀ ZMod p}
    (hv : v ∈ Finsupp.supported (ZMod p) (ZMod p) (TS r m σ)) : bd (lin (liftP p) v) = lin (liftP p) (bd v) := by
  refine lin_ext_supported (R := ZMod p) (f := bd.comp (lin (liftP p))) (g := (lin (liftP p)).comp bd) (fun k hk => ?_) hv
  rw [LinearMap.comp_apply, LinearMap.comp_apply, lin_single, one_smul, tens_single, one_smul]
  exact liftP_bd hp hσ k hk.1

/-- The family of the cup product. -/
noncomputable def Lf (p d : Nat) (σ : List Nat) : SKey →₀ ZMod p := lin (liftP p) (w p p d σ)

theorem fam_L (hp : 2 ≤ p) : Fam (ZMod p) (rot ^ 2) p (2 * p) (Lf p) := by
  have h1 : p ≠ 1 := by omega
  have hF := fam_w (r := p) (n := p) hp h1
  refine ⟨fun d σ hσ => ?_, fun σ hσ => ?_, fun d σ hσ => ?_⟩
  · refine lin_supported _ (fun k hk => ?_) (hF.supp d σ hσ)
    have := liftP_supp h1 hσ k hk.1
    rwa [hk.2.1, hk.2.2] at this
  · rw [Lf, lin_liftP_bd h1 hσ (hF.supp 0 σ hσ), hF.zero σ hσ]
    exact (lin_map_fun (M := ZMod p) (N := ZMod p) (w p p 0) (lin (liftP p)) (delE σ)).symm
  · rw [Lf, lin_liftP_bd h1 hσ (hF.supp _ σ hσ), hF.succ d σ hσ, map_add, map_smul, liftP_op h1 hσ (by omega) _ (hF.supp _ σ hσ)]
    congr 2
    exact (lin_map_fun (M := ZMod p) (N := ZMod p) (w p p (d + 1)) (lin (liftP p)) (delE σ)).symm

theorem cyc_two (hp : 1 ≤ p) : Cyc (ZMod p) (rot ^ 2) p (2 * p) := by
  refine ⟨fun v => pow_comm (cyc_rot (r := 1) le_rfl) 2 v, fun m σ v hv => pow_supp (cyc_rot (by omega)) 2 hv, fun v hv => ?_⟩
  rw [← pow_mul]
  exact rot_full (by omega) hv

/-! ### the right-hand side -/

/-- The product of two values, with the factors rotated. -/
noncomputable def xx (p : Nat) : Fam4 (Two (ZMod p)) := fun j k a b f g =>
  sg (ZMod p) (k * ldim f) • shV ((rot ^ a) (w p p j f)) ((rot ^ b) (w p p k g))

/-- The first term of the boundary of the value. -/
noncomputable def wp (p : Nat) : Nat → List Nat → (SKey →₀ ZMod p)
  | 0, _ => 0
  | j + 1, f => op rot p (j + 1) (w p p j f)

theorem bd_w (hp : 2 ≤ p) (j : Nat) {f : List Nat} (hf : Inc f) :
    bd (w p p j f) = wp p j f + sg (ZMod p) j • lin (w p p j) (delE f) := by
  have hF := fam_w (r := p) (n := p) hp (by omega)
  cases j with
  | zero => rw [hF.zero f hf, wp]; simp
  | succ j => rw [hF.succ j f hf, wp]; simp

theorem rot_pow_TS {r : Nat} (hr : 1 ≤ r) (a : Nat) {m : Int} {v : SKey →₀ ZMod p} (hv : v ∈ Finsupp.supported (ZMod p) (ZMod p) (TS r m σ)) :
    (rot ^ a) v ∈ Finsupp.supported (ZMod p) (ZMod p) (TS r m σ) := pow_supp (cyc_rot hr) a hv

theorem rot_bd (a : Nat) (v : SKey →₀ ZMod p) : bd ((rot ^ a) v) = (rot ^ a) (bd v) := pow_comm (cyc_rot (r := 1) le_rfl) a v

theorem lin_smul_fun {c : ZMod p} (S : Set (List Nat)) {B C : List Nat → (SKey →₀ ZMod p)} (φ : Module.End (ZMod p) (SKey →₀ ZMod p))
    (h : ∀ x ∈ S, B x = c • φ (C x)) {u : List Nat →₀ ZMod p} (hu : u ∈ Finsupp.supported (ZMod p) (ZMod p) S) :
    lin B u = c • φ (lin C u) := by
  refine lin_ext_supported (R := ZMod p) (f := lin B) (g := c • φ.comp (lin C)) (fun k hk => ?_) hu
  rw [lin_single, one_smul, h k hk]; simp

/-- The boundary of a product of two values, before the symmetry is used. -/
theorem bd_xx_aux (hp : 2 ≤ p) (j k a b : Nat) {f g : List Nat} (hf : Inc f) (hg : Inc g) :
    bd (xx p j k a b f g) = sg (ZMod p) (k * ldim f) • shV ((rot ^ a) (wp p j f)) ((rot ^ b) (w p p k g)) +
      sg (ZMod p) (j + (k * ldim f + ldim f)) • shV ((rot ^ a) (w p p j f)) ((rot ^ b) (wp p k g)) +
      sg (ZMod p) ((j + k : Nat) : Int) • DB f g (xx p j k a b) := by
  have hF := fam_w (r := p) (n := p) hp (by omega)
  have h1 : lin (fun x => xx p j k a b x g) (delE f) = sg (ZMod p) (k * (ldim f - 1)) • shV ((rot ^ a) (lin (w p p j) (delE f))) ((rot ^ b) (w p p k g)) :=
    lin_smul_fun _ ((shV.flip ((rot ^ b) (w p p k g))).comp (rot ^ a)) (fun x hx => by
      have hx : ldim x = ldim f - 1 := hx
      rw [← hx]; rfl) (delE_deg f)
  have h2 : lin (fun y => xx p j k a b f y) (delE g) = sg (ZMod p) (k * ldim f) • shV ((rot ^ a) (w p p j f)) ((rot ^ b) (lin (w p p k) (delE g))) :=
    lin_smul_fun _ ((shV ((rot ^ a) (w p p j f))).comp (rot ^ b)) (fun y _ => rfl) (delE_deg g)
  have h22 : (2 : ZMod 2) = 0 := by decide
  rw [DB_apply, h1, h2, xx, map_smul, bd_sh (TS_deg (rot_pow_TS (by omega) a (hF.supp j f hf))), rot_bd, rot_bd, bd_w hp j hf, bd_w hp k hg]
  simp only [map_add, map_smul, LinearMap.add_apply, LinearMap.smul_apply, smul_add, smul_smul, ← sg_add]
  have e1 : sg (ZMod p) (k * ldim f + j) = sg (ZMod p) (((j + k : Nat) : Int) + k * (ldim f - 1)) := by
    refine sg_par ?_
    generalize ldim f = y
    push_cast
    ring
  have e2 : sg (ZMod p) (k * ldim f + (j + ldim f + k)) = sg (ZMod p) (((j + k : Nat) : Int) + (ldim f + k * ldim f)) := by
    congr 1
    push_cast
    ring
  have e3 : sg (ZMod p) (k * ldim f + (j + ldim f)) = sg (ZMod p) (j + (k * ldim f + ldim f)) := by
    congr 1
    ring
  rw [e1, e2, e3]
  abel

theorem rot_op (a d : Nat) (v : SKey →₀ ZMod p) : (rot ^ a) (op rot p d v) = st p d (fun a => (rot ^ a) v) a := by
  unfold op st
  split
  · rw [LinearMap.sum_apply, map_sum]
    refine Finset.sum_congr rfl fun t _ => ?_
    beta_reduce
    rw [pow_add]; rfl
  · beta_reduce
    rw [LinearMap.sub_apply, map_sub, Module.End.one_apply, pow_succ]; rfl

theorem st_map {M N : Type} [AddCommGroup M] [AddCommGroup N] (φ : M →+ N) (d : Nat) (F : Nat → M) (a : Nat) :
    φ (st p d F a) = st p d (fun a => φ (F a)) a := by
  unfold st
  split
  · rw [map_sum]
  · rw [map_sub]

/-- The boundary of a product of two values. -/
theorem bd_xx (hp : 2 ≤ p) (j k a b : Nat) {f g : List Nat} (hf : Inc f) (hg : Inc g) :
    bd (xx p j k a b f g) = dlr p (fun j k a b => xx p j k a b f g) j k a b + sg (ZMod p) ((j + k : Nat) : Int) • DB f g (xx p j k a b) := by
  rw [bd_xx_aux hp j k a b hf hg, dlr]
  congr 1
  have e1 : sg (ZMod p) (k * ldim f) • shV ((rot ^ a) (wp p j f)) ((rot ^ b) (w p p k g)) = dl p (fun j k a b => xx p j k a b f g) j k a b := by
    cases j with
    | zero => rw [wp, dl_zero]; simp
    | succ j =>
      rw [wp, dl_succ, rot_op]
      exact st_map (p := p) ((sg (ZMod p) (k * ldim f)) • (shV.flip ((rot ^ b) (w p p k g))) : Module.End (ZMod p) (SKey →₀ ZMod p)).toAddMonoidHom (j + 1)
        (fun a => (rot ^ a) (w p p j f)) a
  have e2 : sg (ZMod p) (k * ldim f + ldim f) • shV ((rot ^ a) (w p p j f)) ((rot ^ b) (wp p k g)) = dr p (fun j k a b => xx p j k a b f g) j k a b := by
    cases k with
    | zero => rw [wp, dr_zero]; simp
    | succ k =>
      have hs : sg (ZMod p) (((k + 1 : Nat) : Int) * ldim f + ldim f) = sg (ZMod p) (k * ldim f) := by
        have h22 : (2 : ZMod 2) = 0 := by decide
        refine sg_par ?_
        generalize ldim f = y
        push_cast
        linear_combination (y : ZMod 2) * h22
      rw [wp, dr_succ, rot_op, hs]
      exact st_map (p := p) ((sg (ZMod p) (k * ldim f)) • (shV ((rot ^ a) (w p p j f))) : Module.End (ZMod p) (SKey →₀ ZMod p)).toAddMonoidHom (k + 1)
        (fun b => (rot ^ b) (w p p k g)) b
  rw [e1, sg_add, mul_smul, e2]
  congr 1
  split
  · rename_i h
    rw [sg_congr (R := ZMod p) (a := (j : Int)) (b := 0) (by omega), sg_zero, one_smul]
  · rename_i h
    rw [sg_congr (R := ZMod p) (a := (j : Int)) (b := 1) (by omega)]
    simp

/-- The family of the product, on pairs of simplices and on simplices. -/
noncomputable def EE (p d : Nat) : Two (ZMod p) := Dg p (xx p) d

noncomputable def Mf (p d : Nat) (σ : List Nat) : SKey →₀ ZMod p := lin (lf (EE p d)) (w 2 p 0 σ)

theorem EE_apply (d : Nat) (f g : List Nat) : EE p d f g = Dg p (fun j k a b => xx p j k a b f g) d :=
  Dg_map (((Pi.evalAddMonoidHom (fun _ : List Nat => SKey →₀ ZMod p) g)).comp (Pi.evalAddMonoidHom (fun _ : List Nat => List Nat → (SKey →₀ ZMod p)) f)) (xx p) d

theorem bd_EE (d : Nat) (hp : 2 ≤ p) {f g : List Nat} (hf : Inc f) (hg : Inc g) :
    bd (EE p d f g) = Dg p (dlr p fun j k a b => xx p j k a b f g) d + sg (ZMod p) d • DB f g (EE p d) := by
  have h1 := Dg_map (p := p) (bd (R := ZMod p)).toAddMonoidHom (fun j k a b => xx p j k a b f g) d
  have h2 := Dg_map (p := p) (sg (ZMod p) d • (LinearMap.id : Module.End (ZMod p) (SKey →₀ ZMod p))).toAddMonoidHom (fun j k a b => DB f g (xx p j k a b)) d
  have h3 : DB f g (EE p d) = _ := Dg_map (p := p) (DB f g) (xx p) d
  rw [EE_apply, h3]
  refine h1.trans ?_
  refine Eq.trans ?_ (congrArg (Dg p (dlr p fun j k a b => xx p j k a b f g) d + ·) h2.symm)
  rw [← Dg_add]
  refine Dg_congr fun j k a b hjk => ?_
  rw [← hjk]
  exact bd_xx hp j k a b hf hg

theorem xx_period (hp : 1 ≤ p) (j k a : Nat) {f g : List Nat} (hp1 : p ≠ 1) (hg : Inc g) : xx p j k a p f g = xx p j k a 0 f g := by
  rw [xx, xx, rot_full hp (TS_Ln (w_supp (r := p) (d := k) (by omega) hp1 hg))]; rfl

theorem xx_shift (hp : 1 ≤ p) (t j k a b : Nat) {f g : List Nat} (hp1 : p ≠ 1) (hf : Inc f) (hg : Inc g) :
    ((rot ^ 2) ^ t) (xx p j k a b f g) = xx p j k (a + t) (b + t) f g := by
  have h1 := rot_pow_TS hp a (w_supp (r := p) (d := j) (by omega) hp1 hf)
  have h2 := rot_pow_TS hp b (w_supp (r := p) (d := k) (by omega) hp1 hg)
  rw [xx, xx, map_smul, ← sh_rot_pow t (TS_Ln h1) (TS_Ln h2), add_comm a t, add_comm b t, pow_add, pow_add]
  rfl

theorem op_EE (hp : 2 ≤ p) (d : Nat) {f g : List Nat} (hf : Inc f) (hg : Inc g) :
    Dg p (dlr p fun j k a b => xx p j k a b f g) (d + 1) = op (rot ^ 2) p (d + 1) (EE p d f g) := by
  have hs : ∀ t, ((rot ^ 2) ^ t) (EE p d f g) = Dg p (shf t fun j k a b => xx p j k a b f g) d := by
    intro t
    rw [EE_apply]
    refine (Dg_map (p := p) (((rot ^ 2) ^ t : Module.End (ZMod p) (SKey →₀ ZMod p))).toAddMonoidHom _ d).trans ?_
    exact Dg_congr fun j k a b _ => xx_shift (by omega) t j k a b (by omega) hf hg
  rw [Dg_dlr _ (fun j k a => xx_period (by omega) j k a (by omega) hg)]
  unfold op
  split
  · rw [LinearMap.sum_apply]
    exact Finset.sum_congr rfl fun t _ => (hs t).symm
  · rw [LinearMap.sub_apply, Module.End.one_apply, EE_apply, ← EE_apply]
    have := hs 1
    rw [pow_one] at this
    rw [this]

theorem EE_supp (hp : 2 ≤ p) (d : Nat) {f g : List Nat} (hf : Inc f) (hg : Inc g) (h1 : f.Sublist σ) (h2 : g.Sublist σ) :
    EE p d f g ∈ Finsupp.supported (ZMod p) (ZMod p) (TS (2 * p) (d + ldim f + ldim g) σ) := by
  rw [EE_apply]
  refine Dg_mem (Finsupp.supported (ZMod p) (ZMod p) (TS (2 * p) (d + ldim f + ldim g) σ)).toAddSubgroup fun j k a b hjk => ?_
  have w1 := rot_pow_TS (by omega) a (Finsupp.supported_mono (TS_mono h1) (w_supp (r := p) (n := p) (d := j) hp (by omega) hf))
  have w2 := rot_pow_TS (by omega) b (Finsupp.supported_mono (TS_mono h2) (w_supp (r := p) (n := p) (d := k) hp (by omega) hg))
  have := sh_supp w1 w2
  rw [show (d : Int) + ldim f + ldim g = j + ldim f + (k + ldim g) by rw [← hjk]; push_cast; ring]
  exact Submodule.smul_mem _ _ this

theorem fam_M (hp : 2 ≤ p) : Fam (ZMod p) (rot ^ 2) p (2 * p) (Mf p) := by
  have h1 : p ≠ 1 := by omega
  refine ⟨fun d σ hσ => ?_, fun σ hσ => ?_, fun d σ hσ => ?_⟩
  · exact lf_supp (fun f g hf hg h1 h2 => EE_supp hp d hf hg h1 h2) hσ (w2_TS h1 hσ)
  · have := lf_chain (R := ZMod p) (B := EE p 0) (E := fun _ _ => 0) (c := 1) (fun f g hf hg => by
      rw [bd_EE 0 hp hf hg, Dg_zero]; simp) hσ (w2_TS h1 hσ)
    have hz : lin (lf (R := ZMod p) fun _ _ => 0) (w 2 p 0 σ) = 0 := by
      have : lf (R := ZMod p) (fun _ _ => 0) = fun _ => 0 := by funext k; unfold lf; split <;> rfl
      rw [this]
      exact LinearMap.congr_fun (f := lin fun _ => (0 : SKey →₀ ZMod p)) (g := 0) (lin_ext fun k => by simp) _
    rw [Mf, this, hz, one_smul, zero_add, w_zero le_rfl h1 hσ]
    exact (lin_map_fun (M := ZMod p) (N := ZMod p) (w 2 p 0) (lin (lf (EE p 0))) (delE σ)).symm
  · have := lf_chain (R := ZMod p) (B := EE p (d + 1)) (E := fun f g => op (rot ^ 2) p (d + 1) (EE p d f g)) (c := sg (ZMod p) (d + 1)) (fun f g hf hg => by
      rw [bd_EE _ hp hf hg, op_EE hp d hf hg]; simp) hσ (w2_TS h1 hσ)
    rw [Mf, this, w_zero le_rfl h1 hσ, lf_map (B := EE p d) (op (rot ^ 2) p (d + 1)) (fun _ _ _ _ => rfl) hσ (w2_TS h1 hσ)]
    congr 2
    exact (lin_map_fun (M := ZMod p) (N := ZMod p) (w 2 p 0) (lin (lf (EE p (d + 1)))) (delE σ)).symm

end
end OddP
end Comch
