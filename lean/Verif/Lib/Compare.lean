import Verif.Lib.Cartan

/-! # Comparison of families of maps with the symmetry of a resolution of a cyclic group -/

set_option linter.unusedSectionVars false

namespace Comch
namespace OddP
open Finsupp (single)
open Acyclic BElem Elem Comch.Spec Join Coch SurjComp SurjElem IsPerm SurjMay Comch.Props Contract

section
variable {R : Type} [CommRing R]

/-- Tensors with `r` factors. -/
abbrev Ln (r : Nat) : Set SKey := {k : SKey | k.length = r}

theorem TS_Ln {r : Nat} {m : Int} {σ : List Nat} {v : SKey →₀ R}
    (hv : v ∈ Finsupp.supported R R (TS r m σ)) : v ∈ Finsupp.supported R R (Ln r) :=
  Finsupp.supported_mono (fun _ hk => hk.2.1) hv

/-- The cyclic rotation of the factors, the last one becoming the first. -/
noncomputable def rot : Module.End R (SKey →₀ R) := lin fun k => actK ldim (RingElem.rho k.length) k

theorem rot_snoc (k : SKey) (a : List Nat) : rot (bv R (k ++ [a])) = sg R (ldim a * totDeg ldim k) • bv R (a :: k) := by
  rw [rot, lin_single, one_smul, actK, List.length_append, List.length_singleton, actL_rho, RingElem.rho, pyRange,
    show k.length + 1 + 1 - 2 = k.length by omega, kos_rho ldim a _ 2 k le_rfl rfl, totDeg_eq_sum]

theorem rot_Ln {r : Nat} {v : SKey →₀ R} (hv : v ∈ Finsupp.supported R R (Ln r)) :
    rot v = lin (actK ldim (RingElem.rho r)) v := by
  refine lin_ext_supported (f := rot) (g := lin (actK ldim (RingElem.rho r))) (fun k hk => ?_) hv
  have hk : k.length = r := hk
  rw [rot, lin_single, lin_single, hk]

theorem rot_supp {r : Nat} {m : Int} {σ : List Nat} {v : SKey →₀ R} (hv : v ∈ Finsupp.supported R R (TS r m σ)) :
    rot v ∈ Finsupp.supported R R (TS r m σ) := by
  refine lin_supported _ (fun k hk => ?_) hv
  rcases k.eq_nil_or_concat with rfl | ⟨t, a, rfl⟩
  · have e : actK (R := R) ldim (RingElem.rho ([] : SKey).length) ([] : SKey) = bv R ([] : SKey) := by
      rw [actK]; simp [kos, actL, sortl]
    rw [e]
    exact Finsupp.single_mem_supported R _ hk
  · have := rot_snoc (R := R) t a
    rw [rot, lin_single, one_smul] at this
    rw [List.concat_eq_append] at hk ⊢
    rw [this]
    refine Submodule.smul_mem _ _ (Finsupp.single_mem_supported R _ ⟨fun f hf => hk.1 f ?_, ?_, ?_⟩)
    · simp only [List.mem_cons, List.mem_append, List.not_mem_nil, or_false] at hf ⊢; tauto
    · have := hk.2.1; simp at this ⊢; exact this
    · rw [← hk.2.2, totDeg_append, totDeg, totDeg]; simp [totDeg]; ring

theorem rot_len {r : Nat} {v : SKey →₀ R} (hv : v ∈ Finsupp.supported R R (Ln r)) :
    rot v ∈ Finsupp.supported R R (Ln r) := by
  refine lin_supported _ (fun k hk => ?_) hv
  have hk : k.length = r := hk
  rw [actK]
  rcases Nat.eq_zero_or_pos r with h0 | h0
  · have : k = [] := List.length_eq_zero_iff.1 (by omega)
    subst this
    exact Submodule.smul_mem _ _ (Finsupp.single_mem_supported R _ (by simpa [actL, sortl] using hk))
  · exact Submodule.smul_mem _ _ (Finsupp.single_mem_supported R _ (length_actL (by rw [hk]; exact isPerm_rho h0) hk))

theorem bd_len {r : Nat} {v : SKey →₀ R} (hv : v ∈ Finsupp.supported R R (Ln r)) :
    bd v ∈ Finsupp.supported R R (Ln r) := by
  refine lin_supported _ (fun k hk => ?_) hv
  have hk : k.length = r := hk
  subst hk
  clear hv v
  induction k with
  | nil => simp [tensK]
  | cons f k ih =>
    rw [tensK, cat_one_bv]
    refine Submodule.add_mem _ (mapK_supported (S := Set.univ) (T := Ln _) _ (fun b _ => by simp) (by simp))
      (Submodule.smul_mem _ _ (mapK_supported (T := Ln _) _ (fun m hm => ?_) (ih rfl)))
    have hm : m.length = k.length := hm
    simp [hm]

theorem sgn1_delE (a : List Nat) : sgn1 ldim (delE (R := R) a) = - (sg R (ldim a) • delE a) := by
  have : sgn1 ldim (delE (R := R) a) = (- sg R (ldim a)) • delE a := by
    refine lin_ext_supported (R := R) (f := sgn1 ldim) (g := (- sg R (ldim a)) • LinearMap.id) (fun k hk => ?_) (delE_supp a)
    rw [sgn1, lin_single, one_smul, LinearMap.smul_apply, LinearMap.id_apply]
    congr 1
    have hl := List.length_pos_iff.2 hk.1.1
    rw [ldim, ldim, hk.2, ← sg_succ]
    rw [hk.2] at hl
    refine sg_eq_of_zmod ?_
    have e : ((a.length - 1 : Nat) : Int) = (a.length : Int) - 1 := by omega
    rw [e]
    push_cast
    ring_nf
    rw [show (-2 : ZMod 2) = 0 by decide]
    ring
  rw [this, neg_smul]

theorem bd_rot (v : SKey →₀ R) : bd (rot v) = rot (bd v) := by
  refine LinearMap.congr_fun (f := bd.comp rot) (g := rot.comp bd) (lin_ext fun k => ?_) v
  have hb := rot_Ln (r := k.length) (bd_len (R := R) (v := bv R k) (Finsupp.single_mem_supported R _ rfl))
  rcases Nat.eq_zero_or_pos k.length with h0 | h0
  · have : k = [] := List.length_eq_zero_iff.1 (by omega)
    subst this
    rw [LinearMap.comp_apply, LinearMap.comp_apply, rot, lin_single, one_smul, actK]
    simp [actL, sortl, tensK]
  · have := tens_actK (R := R) (d := delE) (deg := ldim) sgn1_delE (isPerm_rho h0) (k := k) rfl
    rw [LinearMap.comp_apply, LinearMap.comp_apply, hb, rot, lin_single, one_smul, tens_single, one_smul]
    exact this

theorem rot_pow {r : Nat} (hr : 1 ≤ r) (j : Nat) {v : SKey →₀ R} (hv : v ∈ Finsupp.supported R R (Ln r)) :
    (rot ^ j) v = lin (actK ldim (powL r (RingElem.rho r) j)) v := by
  induction j generalizing v with
  | zero =>
    rw [pow_zero, Module.End.one_apply, powL]
    refine (lin_ext_supported (f := lin (actK ldim (pyRange 1 (r + 1)))) (g := LinearMap.id) (fun k hk => ?_) hv).symm
    rw [lin_single, one_smul, actK_id ldim hk, LinearMap.id_apply]
  | succ j ih =>
    rw [pow_succ, Module.End.mul_apply, ih (rot_len hv), rot_Ln hv, powL]
    have := lin_ext_supported (R := R) (f := (lin (actK ldim (powL r (RingElem.rho r) j))).comp (lin (actK ldim (RingElem.rho r))))
      (g := lin (actK ldim (mulL (powL r (RingElem.rho r) j) (RingElem.rho r)))) (fun k hk => by
        simp only [LinearMap.comp_apply, lin_single, one_smul]
        exact actK_actK ldim (isPerm_powL (isPerm_rho hr) j) (isPerm_rho hr) hk) hv
    exact this

theorem rot_full {r : Nat} (hr : 1 ≤ r) {v : SKey →₀ R} (hv : v ∈ Finsupp.supported R R (Ln r)) : (rot ^ r) v = v := by
  rw [rot_pow hr r hv, powL_rho_self hr]
  refine lin_ext_supported (f := lin (actK ldim (pyRange 1 (r + 1)))) (g := LinearMap.id) (fun k hk => ?_) hv
  rw [lin_single, one_smul, actK_id ldim hk, LinearMap.id_apply]

/-! ### the two operators of the resolution -/

/-- `1 + ρ + ⋯ + ρ^{r-1}` in even degrees, `ρ - 1` in odd degrees. -/
noncomputable def op (ρ : Module.End R (SKey →₀ R)) (r d : Nat) : Module.End R (SKey →₀ R) :=
  if d % 2 = 0 then ∑ j ∈ Finset.range r, ρ ^ j else ρ - 1

theorem actV_step {r : Nat} (hr : 1 ≤ r) (d : Nat) {v : SKey →₀ R} (hv : v ∈ Finsupp.supported R R (Ln r)) :
    actV ldim (stepV R r d) v = op rot r d v := by
  unfold stepV op
  split
  · unfold nV
    rw [map_list_sum, List.map_map, LinearMap.sum_apply, Finset.sum_range]
    rw [← List.sum_ofFn]
    have : ∀ l : List Nat, (List.map ((actV (R := R) ldim) ∘ fun k => bv R (powL r (RingElem.rho r) k)) l).sum v =
        (l.map fun j => (rot ^ j) v).sum := by
      intro l
      induction l with
      | nil => simp
      | cons j l ih =>
        rw [List.map_cons, List.sum_cons, LinearMap.add_apply, ih, List.map_cons, List.sum_cons, rot_pow hr j hv]
        congr 1
        exact LinearMap.congr_fun (f := actV ldim (bv R (powL r (RingElem.rho r) j))) (g := lin (actK ldim (powL r (RingElem.rho r) j)))
          (lin_ext fun k => by rw [bil_bv, lin_single, one_smul]) v
    rw [this, List.ofFn_eq_map, ← List.map_coe_finRange_eq_range, List.map_map]
    rfl
  · unfold tV
    rw [map_sub, LinearMap.sub_apply, LinearMap.sub_apply, Module.End.one_apply, rot_Ln hv]
    congr 1
    · exact LinearMap.congr_fun (f := actV ldim (bv R (RingElem.rho r))) (g := lin (actK ldim (RingElem.rho r)))
          (lin_ext fun k => by rw [bil_bv, lin_single, one_smul]) v
    · refine lin_ext_supported (f := actV ldim (bv R (pyRange 1 (r + 1)))) (g := LinearMap.id) (fun k hk => ?_) hv
      rw [bil_bv, lin_single, one_smul, actK_id ldim hk, LinearMap.id_apply]

end

section
variable {R : Type} [CommRing R] {ρ : Module.End R (SKey →₀ R)} {r l : Nat}

/-- What is needed of the rotation. -/
structure Cyc (R : Type) [CommRing R] (ρ : Module.End R (SKey →₀ R)) (r l : Nat) : Prop where
  comm : ∀ v, bd (ρ v) = ρ (bd v)
  supp : ∀ (m : Int) (σ : List Nat) (v : SKey →₀ R), v ∈ Finsupp.supported R R (TS l m σ) → ρ v ∈ Finsupp.supported R R (TS l m σ)
  per : ∀ v : SKey →₀ R, v ∈ Finsupp.supported R R (Ln l) → (ρ ^ r) v = v

theorem pow_supp (h : Cyc R ρ r l) (j : Nat) {m : Int} {σ : List Nat} {v : SKey →₀ R} (hv : v ∈ Finsupp.supported R R (TS l m σ)) :
    (ρ ^ j) v ∈ Finsupp.supported R R (TS l m σ) := by
  induction j with
  | zero => exact hv
  | succ j ih => rw [pow_succ', Module.End.mul_apply]; exact h.supp _ _ _ ih

theorem pow_comm (h : Cyc R ρ r l) (j : Nat) (v : SKey →₀ R) : bd ((ρ ^ j) v) = (ρ ^ j) (bd v) := by
  induction j with
  | zero => rfl
  | succ j ih => rw [pow_succ', Module.End.mul_apply, h.comm, ih]; rfl

theorem op_supp (h : Cyc R ρ r l) (d : Nat) {m : Int} {σ : List Nat} {v : SKey →₀ R} (hv : v ∈ Finsupp.supported R R (TS l m σ)) :
    op ρ r d v ∈ Finsupp.supported R R (TS l m σ) := by
  unfold op
  split
  · rw [LinearMap.sum_apply]; exact Submodule.sum_mem _ fun j _ => pow_supp h j hv
  · exact Submodule.sub_mem _ (h.supp _ _ _ hv) hv

theorem op_comm (h : Cyc R ρ r l) (d : Nat) (v : SKey →₀ R) : bd (op ρ r d v) = op ρ r d (bd v) := by
  unfold op
  split
  · rw [LinearMap.sum_apply, LinearMap.sum_apply, map_sum]; exact Finset.sum_congr rfl fun j _ => pow_comm h j v
  · rw [LinearMap.sub_apply, LinearMap.sub_apply, map_sub, h.comm]; rfl

theorem op_op (h : Cyc R ρ r l) (d : Nat) {v : SKey →₀ R} (hv : v ∈ Finsupp.supported R R (Ln l)) :
    op ρ r (d + 1) (op ρ r d v) = 0 := by
  have key : (ρ ^ r - 1) v = 0 := by rw [LinearMap.sub_apply, h.per v hv, Module.End.one_apply, sub_self]
  unfold op
  by_cases hd : d % 2 = 0
  · have e : (ρ - 1) * ∑ j ∈ Finset.range r, ρ ^ j = ρ ^ r - 1 := mul_geom_sum ρ r
    rw [if_neg (by omega), if_pos hd, ← Module.End.mul_apply]
    exact (LinearMap.congr_fun e v).trans key
  · have e : (∑ j ∈ Finset.range r, ρ ^ j) * (ρ - 1) = ρ ^ r - 1 := geom_sum_mul ρ r
    rw [if_pos (by omega), if_neg hd, ← Module.End.mul_apply]
    exact (LinearMap.congr_fun e v).trans key

theorem lin_add_fun' (b c : List Nat → (SKey →₀ R)) (u : List Nat →₀ R) :
    lin (fun x => b x + c x) u = lin b u + lin c u := by
  refine LinearMap.congr_fun (f := lin fun x => b x + c x) (g := lin b + lin c) (lin_ext fun k => ?_) u
  simp

theorem lin_sub_fun (b c : List Nat → (SKey →₀ R)) (u : List Nat →₀ R) :
    lin (fun x => b x - c x) u = lin b u - lin c u := by
  refine LinearMap.congr_fun (f := lin fun x => b x - c x) (g := lin b - lin c) (lin_ext fun k => ?_) u
  simp

theorem lin_map_fun {M N : Type} [AddCommGroup M] [Module R M] [AddCommGroup N] [Module R N] (b : List Nat → (SKey →₀ R)) (φ : (SKey →₀ R) →ₗ[R] (SKey →₀ R)) (u : List Nat →₀ R) :
    lin (fun x => φ (b x)) u = φ (lin b u) := by
  refine LinearMap.congr_fun (f := lin fun x => φ (b x)) (g := φ.comp (lin b)) (lin_ext fun k => ?_) u
  simp

/-- A family of maps with the symmetry of the resolution. -/
structure Fam (R : Type) [CommRing R] (ρ : Module.End R (SKey →₀ R)) (r l : Nat) (L : Nat → List Nat → (SKey →₀ R)) : Prop where
  supp : ∀ (d : Nat) σ, Inc σ → L d σ ∈ Finsupp.supported R R (TS l (d + ldim σ) σ)
  zero : ∀ σ, Inc σ → bd (L 0 σ) = lin (L 0) (delE σ)
  succ : ∀ (d : Nat) σ, Inc σ → bd (L (d + 1) σ) = op ρ r (d + 1) (L d σ) + sg R (d + 1) • lin (L (d + 1)) (delE σ)

theorem compare (h : Cyc R ρ r l) {L M : Nat → List Nat → (SKey →₀ R)} (hL : Fam R ρ r l L) (hM : Fam R ρ r l M)
    (ha : ∀ v, aug (L 0 [v]) = aug (M 0 [v])) (d : Nat) :
    ∃ K H : List Nat → (SKey →₀ R),
      (∀ σ, Inc σ → K σ ∈ Finsupp.supported R R (TS l (d + ldim σ) σ)) ∧
      (∀ σ, Inc σ → H σ ∈ Finsupp.supported R R (TS l ((d + 1 : Nat) + ldim σ) σ)) ∧
      ∀ σ, Inc σ → bd (H σ) = L d σ - M d σ - op ρ r d (K σ) + sg R (d + 1) • lin H (delE σ) := by
  induction d with
  | zero =>
    obtain ⟨H, hH, hb⟩ := acyclic_carrier (R := R) (r := l) (m := 0) (fun σ => L 0 σ - M 0 σ)
      (fun σ hσ => Submodule.sub_mem _ (hL.supp 0 σ hσ) (hM.supp 0 σ hσ))
      (fun σ hσ => by
        rw [map_sub, hL.zero σ hσ, hM.zero σ hσ, Nat.cast_zero, sg_zero, one_smul, lin_sub_fun])
      (fun _ v => by rw [map_sub, ha, sub_self])
    refine ⟨fun _ => 0, H, fun _ _ => Submodule.zero_mem _, hH, fun σ hσ => ?_⟩
    rw [hb σ hσ, map_zero, sub_zero]
  | succ d ih =>
    obtain ⟨K, H, hK, hH, hb⟩ := ih
    obtain ⟨H', hH', hb'⟩ := acyclic_carrier (R := R) (r := l) (m := d + 1)
      (fun σ => L (d + 1) σ - M (d + 1) σ - op ρ r (d + 1) (H σ))
      (fun σ hσ => Submodule.sub_mem _ (Submodule.sub_mem _ (hL.supp _ σ hσ) (hM.supp _ σ hσ)) (op_supp h _ (hH σ hσ)))
      (fun σ hσ => by
        rw [map_sub, map_sub, hL.succ d σ hσ, hM.succ d σ hσ, op_comm h, hb σ hσ, map_add, map_sub, map_sub, op_op h d (TS_Ln (hK σ hσ)),
          map_smul, lin_sub_fun (fun σ => L (d + 1) σ - M (d + 1) σ), lin_sub_fun (L (d + 1)), lin_map_fun (M := R) (N := R) H (op ρ r (d + 1)),
          show (((d + 1 : Nat) : Int)) = (d : Int) + 1 by push_cast; ring]
        simp only [smul_sub]
        abel)
      (fun h => by omega)
    exact ⟨H, H', hH, hH', fun σ hσ => hb' σ hσ⟩

theorem cob_lin' (φ : (SKey →₀ R) →ₗ[R] R) (H : List Nat → (SKey →₀ R)) {σ : List Nat} (hσ : Inc σ) :
    φ (lin H (delE σ)) = coboundary (fun f => φ (H f)) σ := by
  unfold coboundary
  split
  · rename_i h
    have : σ.length = 1 := by have := List.length_pos_iff.2 hσ.2; omega
    obtain ⟨v, rfl⟩ := List.length_eq_one_iff.1 this
    rw [delE_singleton]; simp
  · rename_i h
    rw [delE_of_two (by omega), Coch.delK_eq_sum, map_list_sum, map_list_sum, List.map_map, List.map_map]
    congr 1
    refine List.map_congr_left fun i _ => ?_
    simp

theorem cob_smul' (c : R) (f : List Nat → R) (σ : List Nat) : coboundary (fun τ => c * f τ) σ = c * coboundary f σ := by
  unfold coboundary
  split
  · simp
  · rw [← List.sum_map_mul_left]
    congr 1
    exact List.map_congr_left fun i _ => by ring

/-- An invariant functional which vanishes on boundaries cannot tell the families apart. -/
theorem compare_value (h : Cyc R ρ r l) (hr : (r : R) = 0) {L M : Nat → List Nat → (SKey →₀ R)} (hL : Fam R ρ r l L) (hM : Fam R ρ r l M)
    (ha : ∀ v, aug (L 0 [v]) = aug (M 0 [v])) (d : Nat) {X : OrderedComplex} (φ : (SKey →₀ R) →ₗ[R] R)
    (hb : ∀ σ ∈ X.simplices, ∀ (m : Int) (v : SKey →₀ R), v ∈ Finsupp.supported R R (TS l m σ) → φ (bd v) = 0)
    (hi : ∀ v : SKey →₀ R, v ∈ Finsupp.supported R R (Ln l) → φ (ρ v) = φ v) :
    ∃ γ : List Nat → R, ∀ σ ∈ X.simplices, φ (L d σ) = φ (M d σ) + coboundary γ σ := by
  obtain ⟨K, H, hK, hH, he⟩ := compare h hL hM ha d
  have hop : ∀ σ, ∀ m, ∀ v : SKey →₀ R, v ∈ Finsupp.supported R R (TS l m σ) → φ (op ρ r d v) = 0 := by
    intro σ m v hv
    have hpow : ∀ j, φ ((ρ ^ j) v) = φ v := by
      intro j
      induction j with
      | zero => rfl
      | succ j ih => rw [pow_succ', Module.End.mul_apply, hi _ (TS_Ln (pow_supp h j hv)), ih]
    unfold op
    split
    · rw [LinearMap.sum_apply, map_sum, Finset.sum_congr rfl fun j _ => hpow j, Finset.sum_const, Finset.card_range, nsmul_eq_mul, hr, zero_mul]
    · rw [LinearMap.sub_apply, map_sub, hi _ (TS_Ln hv), Module.End.one_apply, sub_self]
  refine ⟨fun τ => (- sg R (d + 1)) * φ (H τ), fun σ hσ => ?_⟩
  have hσi : Inc σ := inc_of_mem hσ
  have e := congrArg φ (he σ hσi)
  rw [hb σ hσ _ _ (hH σ hσi), map_add, map_sub, map_sub, hop σ _ _ (hK σ hσi), map_smul, smul_eq_mul, cob_lin' φ H hσi] at e
  rw [cob_smul']
  linear_combination -e

end
end OddP
end Comch
