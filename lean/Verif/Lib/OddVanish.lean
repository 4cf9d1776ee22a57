import Verif.Lib.Compare
import Verif.Props.CochainsPZero
import Mathlib.RingTheory.IntegralDomain
import Mathlib.Data.Nat.Prime.Factorial

/-! # The operations of the cyclic group: only few are not zero -/

set_option linter.unusedSectionVars false

namespace Comch
namespace OddP
open Finsupp (single)
open Acyclic BElem Elem Comch.Spec Join Coch SurjComp SurjElem IsPerm SurjMay Comch.Props Contract

section
variable {R : Type} [CommRing R]

theorem cyc_rot {r : Nat} (hr : 1 ≤ r) : Cyc R rot r r := ⟨bd_rot, fun _ _ _ hv => rot_supp hv, fun _ hv => rot_full hr hv⟩

theorem cyc_pow {ρ : Module.End R (SKey →₀ R)} {r l : Nat} (h : Cyc R ρ r l) (k : Nat) : Cyc R (ρ ^ k) r l := by
  refine ⟨pow_comm h k, fun _ _ _ hv => pow_supp h k hv, fun v hv => ?_⟩
  rw [← pow_mul, mul_comm, pow_mul]
  induction k with
  | zero => rfl
  | succ k ih => rw [pow_succ', Module.End.mul_apply, ih, h.per v hv]

end

theorem fam_w {r n : Nat} (hr : 2 ≤ r) (hn : n ≠ 1) : Fam (ZMod n) rot r r (w r n) where
  supp := fun _ _ hσ => w_supp hr hn hσ
  zero := fun _ hσ => w_zero hr hn hσ
  succ := fun d σ hσ => by rw [w_succ hr hn hσ, actV_step (by omega) _ (TS_Ln (w_supp hr hn hσ))]

section
variable {R : Type} [CommRing R] {p k : Nat}

/-- Multiplication by `k` modulo `p`. -/
def mulP (p k : Nat) : Perm := (List.range p).map fun i => (k * i) % p + 1

theorem isPerm_mulP (hp : 1 ≤ p) (hk : Nat.Coprime k p) : IsPerm p (mulP p k) := by
  refine ⟨by simp [mulP], ?_, ?_⟩
  · refine List.Nodup.map_on (fun i hi j hj h => ?_) List.nodup_range
    have h : (k * i) % p = (k * j) % p := by omega
    have h : k * i ≡ k * j [MOD p] := h
    have := Nat.ModEq.cancel_left_of_coprime (by rwa [Nat.gcd_comm]) h
    exact Nat.ModEq.eq_of_lt_of_lt this (List.mem_range.1 hi) (List.mem_range.1 hj)
  · intro i hi
    obtain ⟨j, -, rfl⟩ := List.mem_map.1 hi
    have := Nat.mod_lt (k * j) (show p > 0 by omega)
    omega

theorem value_mulP {i : Nat} (h1 : 1 ≤ i) (h2 : i ≤ p) : value (mulP p k) i = (k * (i - 1)) % p + 1 := by
  rw [value_eq_getElem h1 (by simp [mulP]; omega)]
  simp [mulP]

theorem mulP_rho (hp : 1 ≤ p) (hk : Nat.Coprime k p) :
    mulL (mulP p k) (RingElem.rho p) = mulL (powL p (RingElem.rho p) k) (mulP p k) := by
  have hρ := isPerm_rho hp
  have hπ := isPerm_mulP hp hk
  apply IsPerm.ext (isPerm_mulL hπ hρ) (isPerm_mulL (isPerm_powL hρ k) hπ)
  intro i h1 h2
  rw [value_mulL hρ h1 h2, value_mulL hπ h1 h2, value_rho h1 h2, value_mulP h1 h2]
  have hlt := Nat.mod_lt i (show p > 0 by omega)
  have hlt2 := Nat.mod_lt (k * (i - 1)) (show p > 0 by omega)
  rw [value_mulP (by omega) (by omega), value_powL_rho hp k (by omega) (by omega), Nat.add_sub_cancel, Nat.add_sub_cancel,
    Nat.mod_add_mod]
  congr 1
  obtain ⟨j, rfl⟩ : ∃ j, i = j + 1 := ⟨i - 1, by omega⟩
  rw [Nat.add_sub_cancel, Nat.mul_mod, Nat.mod_mod, ← Nat.mul_mod, Nat.mul_succ]

/-- The action of the multiplication. -/
noncomputable def Pm (R : Type) [CommRing R] (p k : Nat) : Module.End R (SKey →₀ R) := lin (actK ldim (mulP p k))

theorem Pm_rot (hp : 1 ≤ p) (hk : Nat.Coprime k p) {v : SKey →₀ R} (hv : v ∈ Finsupp.supported R R (Ln p)) :
    Pm R p k (rot v) = (rot ^ k) (Pm R p k v) := by
  have hρ := isPerm_rho hp
  have hπ := isPerm_mulP hp hk
  have hl : Pm R p k v ∈ Finsupp.supported R R (Ln p) := by
    refine lin_supported _ (fun m hm => Submodule.smul_mem _ _ (Finsupp.single_mem_supported R _ ?_)) hv
    exact length_actL hπ hm
  rw [rot_Ln hv, rot_pow hp k hl]
  have := lin_ext_supported (R := R) (f := (Pm R p k).comp (lin (actK ldim (RingElem.rho p))))
    (g := (lin (actK ldim (powL p (RingElem.rho p) k))).comp (Pm R p k)) (fun m hm => by
      have e1 := actK_actK (R := R) ldim hπ hρ (k := m) hm
      have e2 := actK_actK (R := R) ldim (isPerm_powL hρ k) hπ (k := m) hm
      simp only [LinearMap.comp_apply, Pm, lin_single, one_smul]
      rw [e1, e2, mulP_rho hp hk]) hv
  exact this

theorem Pm_supp (hp : 1 ≤ p) (hk : Nat.Coprime k p) {m : Int} {σ : List Nat} {v : SKey →₀ R}
    (hv : v ∈ Finsupp.supported R R (TS p m σ)) : Pm R p k v ∈ Finsupp.supported R R (TS p m σ) := by
  refine lin_supported _ (fun k hk' => ?_) hv
  have hpm := perm_actL (isPerm_mulP hp hk) hk'.2.1
  refine Submodule.smul_mem _ _ (Finsupp.single_mem_supported R _
    ⟨fun f hf => hk'.1 f (hpm.mem_iff.1 hf), length_actL (isPerm_mulP hp hk) hk'.2.1, ?_⟩)
  rw [← hk'.2.2, totDeg_eq_sum, totDeg_eq_sum]
  exact (hpm.map _).sum_eq

theorem Pm_bd (hp : 1 ≤ p) (hk : Nat.Coprime k p) {v : SKey →₀ R} (hv : v ∈ Finsupp.supported R R (Ln p)) :
    bd (Pm R p k v) = Pm R p k (bd v) := by
  refine lin_ext_supported (R := R) (f := bd.comp (Pm R p k)) (g := (Pm R p k).comp bd) (fun m hm => ?_) hv
  have := tens_actK (R := R) (d := delE) (deg := ldim) sgn1_delE (isPerm_mulP hp hk) (k := m) hm
  simp only [LinearMap.comp_apply, Pm, lin_single, one_smul, tens_single]
  exact this

theorem Pm_pow (hp : 1 ≤ p) (hk : Nat.Coprime k p) (j : Nat) {v : SKey →₀ R} (hv : v ∈ Finsupp.supported R R (Ln p)) :
    Pm R p k ((rot ^ j) v) = ((rot ^ k) ^ j) (Pm R p k v) := by
  induction j with
  | zero => rfl
  | succ j ih =>
    have hl : ∀ j, (rot ^ j) v ∈ Finsupp.supported R R (Ln p) := by
      intro j
      induction j with
      | zero => exact hv
      | succ j ih => rw [pow_succ', Module.End.mul_apply]; exact rot_len ih
    rw [pow_succ', Module.End.mul_apply, Pm_rot hp hk (hl j), ih, pow_succ', Module.End.mul_apply]

theorem Pm_op (hp : 1 ≤ p) (hk : Nat.Coprime k p) (d : Nat) {v : SKey →₀ R} (hv : v ∈ Finsupp.supported R R (Ln p)) :
    Pm R p k (op rot p d v) = op (rot ^ k) p d (Pm R p k v) := by
  unfold op
  split
  · rw [LinearMap.sum_apply, LinearMap.sum_apply, map_sum]; exact Finset.sum_congr rfl fun j _ => Pm_pow hp hk j hv
  · rw [LinearMap.sub_apply, LinearMap.sub_apply, map_sub, Pm_rot hp hk hv]; rfl

end

section
variable {p k : Nat}

theorem fam_Pm (hp : 2 ≤ p) (hk : Nat.Coprime k p) : Fam (ZMod p) (rot ^ k) p p (fun d σ => Pm (ZMod p) p k (w p p d σ)) := by
  have hF := fam_w (r := p) (n := p) hp (by omega)
  refine ⟨fun d σ hσ => Pm_supp (by omega) hk (hF.supp d σ hσ), fun σ hσ => ?_, fun d σ hσ => ?_⟩
  · rw [Pm_bd (by omega) hk (TS_Ln (hF.supp 0 σ hσ)), hF.zero σ hσ]
    exact (lin_map_fun (M := ZMod p) (N := ZMod p) (w p p 0) (Pm (ZMod p) p k) (delE σ)).symm
  · rw [Pm_bd (by omega) hk (TS_Ln (hF.supp _ σ hσ)), hF.succ d σ hσ, map_add, map_smul, Pm_op (by omega) hk _ (TS_Ln (hF.supp _ σ hσ))]
    congr 2
    exact (lin_map_fun (M := ZMod p) (N := ZMod p) (w p p (d + 1)) (Pm (ZMod p) p k) (delE σ)).symm

/-- The map of resolutions induced by the `k`-th power. -/
noncomputable def gam (R : Type) [CommRing R] (k d : Nat) : Module.End R (SKey →₀ R) :=
  ((k : R) ^ (d / 2)) • (if d % 2 = 0 then 1 else ∑ j ∈ Finset.range k, rot ^ j)

variable {R : Type} [CommRing R]

theorem gam_bd (d : Nat) (v : SKey →₀ R) : bd (gam R k d v) = gam R k d (bd v) := by
  have hc := cyc_rot (R := R) (r := 1) le_rfl
  unfold gam
  rw [LinearMap.smul_apply, map_smul, LinearMap.smul_apply]
  congr 1
  split
  · rfl
  · rw [LinearMap.sum_apply, map_sum, LinearMap.sum_apply]
    exact Finset.sum_congr rfl fun j _ => pow_comm hc j v

theorem gam_supp (hp : 1 ≤ p) (d : Nat) {m : Int} {σ : List Nat} {v : SKey →₀ R} (hv : v ∈ Finsupp.supported R R (TS p m σ)) :
    gam R k d v ∈ Finsupp.supported R R (TS p m σ) := by
  have hc := cyc_rot (R := R) hp
  unfold gam
  rw [LinearMap.smul_apply]
  refine Submodule.smul_mem _ _ ?_
  split
  · exact hv
  · rw [LinearMap.sum_apply]
    exact Submodule.sum_mem _ fun j _ => pow_supp hc j hv

theorem sum_range_blocks {M : Type} [AddCommMonoid M] (f : Nat → M) (k J : Nat) :
    ∑ j ∈ Finset.range J, ∑ i ∈ Finset.range k, f (k * j + i) = ∑ n ∈ Finset.range (k * J), f n := by
  induction J with
  | zero => simp
  | succ J ih => rw [Finset.sum_range_succ, ih, Nat.mul_succ, Finset.sum_range_add]

theorem gam_op (hp : 1 ≤ p) (d : Nat) {v : SKey →₀ R} (hv : v ∈ Finsupp.supported R R (Ln p)) :
    gam R k (d + 1) (op rot p (d + 1) v) = op (rot ^ k) p (d + 1) (gam R k d v) := by
  unfold gam op
  by_cases hd : d % 2 = 0
  · rw [if_neg (by omega), if_neg (by omega), if_neg (by omega), if_pos hd, show (d + 1) / 2 = d / 2 by omega,
      LinearMap.smul_apply, LinearMap.smul_apply, map_smul, ← Module.End.mul_apply]
    congr 1
    exact LinearMap.congr_fun (geom_sum_mul (rot (R := R)) k) v
  · rw [if_pos (by omega), if_pos (by omega), if_pos (by omega), if_neg hd, show (d + 1) / 2 = d / 2 + 1 by omega,
      LinearMap.smul_apply, LinearMap.smul_apply, map_smul, pow_succ, mul_smul, Module.End.one_apply]
    congr 1
    rw [LinearMap.sum_apply, LinearMap.sum_apply, LinearMap.sum_apply]
    have e : ∀ j, ((rot ^ k) ^ j) (∑ i ∈ Finset.range k, (rot ^ i) v) = ∑ i ∈ Finset.range k, (rot ^ (k * j + i)) v := by
      intro j
      rw [map_sum]
      refine Finset.sum_congr rfl fun i _ => ?_
      rw [← pow_mul, pow_add]; rfl
    rw [Finset.sum_congr rfl fun j _ => e j, sum_range_blocks (fun n => (rot ^ n) v), mul_comm k p]
    rw [← sum_range_blocks (fun n => (rot ^ n) v)]
    have e2 : ∀ j i, (rot ^ (p * j + i)) v = (rot ^ i) v := by
      intro j i
      rw [add_comm, pow_add, Module.End.mul_apply]
      congr 1
      induction j with
      | zero => rfl
      | succ j ih => rw [Nat.mul_succ, pow_add, Module.End.mul_apply, rot_full hp hv, ih]
    simp only [e2]
    rw [Finset.sum_const, Finset.card_range, Nat.cast_smul_eq_nsmul]

theorem fam_gam (hp : 2 ≤ p) : Fam (ZMod p) (rot ^ k) p p (fun d σ => gam (ZMod p) k d (w p p d σ)) := by
  have hF := fam_w (r := p) (n := p) hp (by omega)
  refine ⟨fun d σ hσ => gam_supp (by omega) d (hF.supp d σ hσ), fun σ hσ => ?_, fun d σ hσ => ?_⟩
  · rw [gam_bd, hF.zero σ hσ]
    exact (lin_map_fun (M := ZMod p) (N := ZMod p) (w p p 0) (gam (ZMod p) k 0) (delE σ)).symm
  · rw [gam_bd, hF.succ d σ hσ, map_add, map_smul, gam_op (by omega) _ (TS_Ln (hF.supp _ σ hσ))]
    congr 2
    exact (lin_map_fun (M := ZMod p) (N := ZMod p) (w p p (d + 1)) (gam (ZMod p) k (d + 1)) (delE σ)).symm

/-! ### evaluation -/

theorem kos_const {A B : Type} (deg : A → Int) (q : Int) : ∀ (π : List Nat) (m : List A) (u : List B), (∀ f ∈ m, deg f = q) → m.length = u.length →
    kos deg (π.zip m) = q * q * kos (fun _ => 1) (π.zip u)
  | [], m, u, _, _ => by simp [kos]
  | a :: π, [], [], _, _ => by simp [kos]
  | a :: π, [], b :: u, _, h => by simp at h
  | a :: π, f :: m, [], _, h => by simp at h
  | a :: π, f :: m, b :: u, hq, h => by
    have hl : m.length = u.length := by simpa using h
    rw [List.zip_cons_cons, List.zip_cons_cons, kos, kos, kos_const deg q π m u (fun g hg => hq g (by simp [hg])) hl, hq f (by simp)]
    have e : ∀ (π : List Nat) (m : List A) (u : List B), (∀ f ∈ m, deg f = q) → m.length = u.length →
        (((π.zip m).filter fun y => y.1 < a).map fun y => deg y.2).sum =
          q * (((π.zip u).filter fun y => y.1 < a).map fun _ => (1 : Int)).sum := by
      intro π
      induction π with
      | nil => intros; simp
      | cons c π ih =>
        intro m u hm hl
        match m, u, hl with
        | [], [], _ => simp
        | g :: m, b :: u, hl =>
          have := ih m u (fun g hg => hm g (by simp [hg])) (by simpa using hl)
          rw [List.zip_cons_cons, List.zip_cons_cons, List.filter_cons, List.filter_cons]
          split
          · rw [List.map_cons, List.sum_cons, this, List.map_cons, List.sum_cons, hm g (by simp)]; ring
          · exact this
    rw [e π m u (fun g hg => hq g (by simp [hg])) hl]
    ring

/-- The number of inversions of the multiplication. -/
def invP (p k : Nat) : Int := kos (fun _ : Unit => 1) ((mulP p k).zip (List.replicate p ()))

theorem evF_Pm (hp : 1 ≤ p) (hk : Nat.Coprime k p) (q : Nat) (α : List Nat → R) {v : SKey →₀ R} (hv : v ∈ Finsupp.supported R R (Ln p)) :
    evF (List.replicate p (q, α)) (Pm R p k v) = sg R (q * q * invP p k) * evF (List.replicate p (q, α)) v := by
  have h := fun_ext_supported (f := (evF (List.replicate p (q, α))).comp (Pm R p k)) (g := sg R (q * q * invP p k) • evF (List.replicate p (q, α)))
    (fun m hm => ?_) hv
  · rw [LinearMap.comp_apply, LinearMap.smul_apply, smul_eq_mul] at h
    exact h
  have hm : m.length = p := hm
  have hπ := isPerm_mulP hp hk
  rw [LinearMap.comp_apply, LinearMap.smul_apply, smul_eq_mul, Pm, lin_single, one_smul, actK, map_smul, evF_single, evF_single, one_mul, one_mul,
    smul_eq_mul, tensorValue_replicate q α p _ (length_actL hπ hm), tensorValue_replicate q α p m hm, ((perm_actL hπ hm).map _).prod_eq]
  by_cases hq : ∀ f ∈ m, f.length = q + 1
  · congr 2
    refine kos_const ldim q _ m _ (fun f hf => ?_) (by simp [hm])
    rw [ldim, hq f hf]; push_cast; ring
  · push Not at hq
    obtain ⟨f, hf, hne⟩ := hq
    rw [List.prod_eq_zero (List.mem_map.2 ⟨f, hf, if_neg hne⟩), mul_zero, mul_zero]

theorem evF_rot (q : Nat) (hp : 1 ≤ p) (hp2 : p = 2 ∨ p % 2 = 1) (α : List Nat → ZMod p) {v : SKey →₀ ZMod p}
    (hv : v ∈ Finsupp.supported (ZMod p) (ZMod p) (Ln p)) :
    evF (List.replicate p (q, α)) (rot v) = evF (List.replicate p (q, α)) v := by
  rw [rot_Ln hv]
  refine fun_ext_supported (f := (evF (List.replicate p (q, α))).comp (lin (actK ldim (RingElem.rho p)))) (g := evF (List.replicate p (q, α)))
    (fun m hm => ?_) hv
  rw [LinearMap.comp_apply, lin_single, one_smul, evF_actK_rho p q α hp hp2 hm, evF_single, one_mul]

theorem evF_rot_pow (q : Nat) (hp : 1 ≤ p) (hp2 : p = 2 ∨ p % 2 = 1) (α : List Nat → ZMod p) (j : Nat) {v : SKey →₀ ZMod p}
    (hv : v ∈ Finsupp.supported (ZMod p) (ZMod p) (Ln p)) :
    evF (List.replicate p (q, α)) ((rot ^ j) v) = evF (List.replicate p (q, α)) v := by
  induction j generalizing v with
  | zero => rfl
  | succ j ih => rw [pow_succ, Module.End.mul_apply, ih (rot_len hv), evF_rot q hp hp2 α hv]

theorem evF_gam (q : Nat) (hp : 1 ≤ p) (hp2 : p = 2 ∨ p % 2 = 1) (α : List Nat → ZMod p) (d : Nat) {v : SKey →₀ ZMod p}
    (hv : v ∈ Finsupp.supported (ZMod p) (ZMod p) (Ln p)) :
    evF (List.replicate p (q, α)) (gam (ZMod p) k d v) = (k : ZMod p) ^ ((d + 1) / 2) * evF (List.replicate p (q, α)) v := by
  unfold gam
  rw [LinearMap.smul_apply, map_smul, smul_eq_mul]
  split
  · rw [show (d + 1) / 2 = d / 2 by omega]; rfl
  · rw [LinearMap.sum_apply, map_sum, Finset.sum_congr rfl fun j _ => evF_rot_pow q hp hp2 α j hv, Finset.sum_const, Finset.card_range,
      nsmul_eq_mul, show (d + 1) / 2 = d / 2 + 1 by omega, pow_succ, mul_assoc]

/-- The tensor product of cocycles vanishes on boundaries. -/
theorem evF_cocycles {X : OrderedComplex} {L : List (Nat × (List Nat → R))} (hL : ∀ x ∈ L, IsCocycle X x.1 x.2) {l : Nat} {σ : List Nat}
    (hσ : σ ∈ X.simplices) {m : Int} {v : SKey →₀ R} (hv : v ∈ Finsupp.supported R R (TS l m σ)) : evF L (bd v) = 0 := by
  have hi := inc_of_mem hσ
  have hF : v ∈ Finsupp.supported R R (Faces l σ) := 
    Finsupp.supported_mono (show TS l m σ ⊆ Faces l σ from fun k hk => ⟨hk.2.1, fun f hf =>
      ⟨(hk.1 f hf).2, (hk.1 f hf).1⟩⟩) hv
  rw [bd_eq hi hv, evF_bd (r := l) hi _ hF]
  refine fun_ext_supported (f := (evF L).comp simplicialD) (g := 0) (fun k hk => ?_) hv
  simp only [LinearMap.comp_apply, LinearMap.zero_apply, simplicialD, tens_single, one_smul]
  exact evF_tensK_cocycle (X := X) _ hL k (fun f hf => X.faces σ hσ f (hk.1 f hf).2 (hk.1 f hf).1)

theorem aug_Pm {v : Nat} {u : SKey →₀ R} (hu : u ∈ Finsupp.supported R R (TS p 0 [v])) : aug (Pm R p k u) = aug u := by
  have h := fun_ext_supported (f := aug.comp (Pm R p k)) (g := aug) (fun m hm => ?_) hu
  · exact h
  rw [LinearMap.comp_apply, Pm, lin_single, one_smul, actK, map_smul]
  have e : kos ldim ((mulP p k).zip m) = 0 := by
    rw [kos_const ldim 0 _ m m (fun f hf => ?_) rfl, zero_mul, zero_mul]
    have h1 := (hm.1 f hf).2.length_le
    have h2 := List.length_pos_iff.2 (hm.1 f hf).1
    simp only [List.length_singleton] at h1
    simp only [ldim]
    omega
  rw [e, sg_zero, one_smul]
  simp

/-- The value of the operation of degree `d` changes by a power of `k`. -/
theorem scale {X : OrderedComplex} {q : Nat} (hp : p.Prime) (hk : Nat.Coprime k p) {α : List Nat → ZMod p} (hα : IsCocycle X q α) (d : Nat) :
    ∃ γ : List Nat → ZMod p, ∀ σ ∈ X.simplices,
      sg (ZMod p) (q * q * invP p k) * wv p p d (List.replicate p (q, α)) σ =
        (k : ZMod p) ^ ((d + 1) / 2) * wv p p d (List.replicate p (q, α)) σ + coboundary γ σ := by
  have h2 := hp.two_le
  have hp2 := hp.eq_two_or_odd
  have hF := fam_w (r := p) (n := p) h2 hp.ne_one
  obtain ⟨γ, hγ⟩ := compare_value (cyc_pow (cyc_rot (R := ZMod p) hp.one_le) k) (by simp) (fam_Pm h2 hk) (fam_gam (k := k) h2)
    (fun v => by
      have hs := hF.supp 0 [v] ⟨by simp, by simp⟩
      rw [show ((0 : Nat) : Int) + ldim [v] = 0 by simp [ldim]] at hs
      rw [aug_Pm hs]
      simp [gam]) d (X := X) (evF (List.replicate p (q, α)))
    (fun σ hσ m v hv => evF_cocycles (fun x hx => by rw [List.eq_of_mem_replicate hx]; exact hα) hσ hv)
    (fun v hv => evF_rot_pow q hp.one_le hp2 α k hv)
  refine ⟨γ, fun σ hσ => ?_⟩
  have hs := TS_Ln (hF.supp d σ (inc_of_mem hσ))
  have := hγ σ hσ
  rw [evF_Pm hp.one_le hk q α hs, evF_gam q hp.one_le hp2 α d hs] at this
  exact this

/-! ### the sign, from the circle -/

/-- The boundary of a triangle. -/
def circle : OrderedComplex where
  simplices := {σ | σ.Sublist [0, 1, 2] ∧ σ ≠ [] ∧ σ.length ≤ 2}
  increasing := fun _ h => List.Pairwise.sublist h.1 (by decide)
  nonempty := fun _ h => h.2.1
  faces := fun _ h _ h1 h2 => ⟨h1.trans h.1, h2, h1.length_le.trans h.2.2⟩

theorem sign_circle (hp : p.Prime) {m : Nat} (hm : p = 2 * m + 1) (hk : Nat.Coprime k p) : sg (ZMod p) (invP p k) = (k : ZMod p) ^ m := by
  have : Fact p.Prime := ⟨hp⟩
  set α : List Nat → ZMod p := fun σ => if σ = [0, 1] then 1 else 0 with hαd
  have hα : IsCocycle circle 1 α := fun σ hσ hl => by have := hσ.2.2; omega
  obtain ⟨γ, hγ⟩ := scale hp hk hα (p - 1)
  have hv : ∀ σ ∈ circle.simplices, σ.length = 2 → wv p p (p - 1) (List.replicate p (1, α)) σ = (m.factorial : ZMod p) * α σ := by
    intro σ hσ hl
    have h := wv_full hp (inc_of_mem hσ) (1 * (p - 1)) hl α
    rw [cf_eq hp hm (inc_of_mem hσ) hl, ZMod.pow_card, one_mul] at h
    rw [h]
    simp
  have e : ∀ σ ∈ circle.simplices, σ.length = 2 → (sg (ZMod p) (invP p k) - (k : ZMod p) ^ m) * (m.factorial : ZMod p) * α σ = coboundary γ σ := by
    intro σ hσ hl
    have := hγ σ hσ
    rw [hv σ hσ hl, show (p - 1 + 1) / 2 = m by omega, Nat.cast_one, one_mul, one_mul] at this
    linear_combination this
  have h1 := e [0, 1] ⟨by decide, by decide, by decide⟩ rfl
  have h2 := e [0, 2] ⟨by decide, by decide, by decide⟩ rfl
  have h3 := e [1, 2] ⟨by decide, by decide, by decide⟩ rfl
  have c : coboundary γ [0, 1] - coboundary γ [0, 2] + coboundary γ [1, 2] = 0 := by
    have : List.range 2 = [0, 1] := rfl
    simp [coboundary, this]
    ring
  rw [← h1, ← h2, ← h3] at c
  simp [hαd] at c
  have hf : (m.factorial : ZMod p) ≠ 0 := by
    rw [Ne, ZMod.natCast_eq_zero_iff, hp.dvd_factorial]
    omega
  rcases c with c | c
  · exact sub_eq_zero.1 c
  · exact absurd c hf

/-- The operations of degree `d` are zero unless `d` or `d + 1` is `(q - 2 s)(p - 1)`. -/
theorem vanish {X : OrderedComplex} {q : Nat} (hp : p.Prime) {m : Nat} (hm : p = 2 * m + 1) {α : List Nat → ZMod p} (hα : IsCocycle X q α) (d : Nat)
    (hd : ∀ s : Int, (((d + 1) / 2 : Nat) : Int) ≠ (q - 2 * s) * m) :
    ∃ γ : List Nat → ZMod p, ∀ σ ∈ X.simplices, wv p p d (List.replicate p (q, α)) σ = coboundary γ σ := by
  have : Fact p.Prime := ⟨hp⟩
  obtain ⟨g, hg⟩ := IsCyclic.exists_generator (α := (ZMod p)ˣ)
  have ho : orderOf g = p - 1 := by
    rw [orderOf_eq_card_of_forall_mem_zpowers hg, Nat.card_eq_fintype_card, ZMod.card_units]
  set k := (g : ZMod p).val with hkd
  have hkg : (k : ZMod p) = g := by rw [hkd, ZMod.natCast_val, ZMod.cast_id', id]
  have hk : Nat.Coprime k p := ZMod.val_coe_unit_coprime g
  obtain ⟨γ, hγ⟩ := scale hp hk hα d
  have hs := sign_circle hp hm hk
  have hsq : sg (ZMod p) (q * q * invP p k) = (k : ZMod p) ^ (q * m) := by
    have hsg : sg (ZMod p) (invP p k) ^ 2 = 1 := by rw [pow_two, sg_mul_self]
    rw [mul_comm q m, pow_mul, ← hs]
    rcases Nat.even_or_odd' q with ⟨t, rfl | rfl⟩
    · rw [pow_mul, hsg, one_pow, ← sg_zero]
      exact sg_congr (by push_cast; rw [show (2 * (t : Int)) * (2 * t) * invP p k = 2 * (t * (2 * t) * invP p k) by ring]; omega)
    · rw [pow_succ, pow_mul, hsg, one_pow, one_mul]
      exact sg_congr (by
        push_cast
        rw [show (2 * (t : Int) + 1) * (2 * t + 1) * invP p k = 2 * ((2 * t * t + 2 * t) * invP p k) + invP p k by ring]; omega)
  have hne : (k : ZMod p) ^ (q * m) - (k : ZMod p) ^ ((d + 1) / 2) ≠ 0 := by
    intro h0
    rw [hkg, sub_eq_zero, ← Units.val_pow_eq_pow_val, ← Units.val_pow_eq_pow_val] at h0
    have h1 : g ^ (q * m) = g ^ ((d + 1) / 2) := Units.ext h0
    rw [pow_eq_pow_iff_modEq, ho] at h1
    have h2 := (Nat.modEq_iff_dvd.1 h1)
    obtain ⟨s, hs⟩ := h2
    refine hd (-s) ?_
    have : ((p - 1 : Nat) : Int) = 2 * m := by omega
    rw [this] at hs
    push_cast at hs ⊢
    linear_combination hs
  refine ⟨fun τ => ((k : ZMod p) ^ (q * m) - (k : ZMod p) ^ ((d + 1) / 2))⁻¹ * γ τ, fun σ hσ => ?_⟩
  have h := hγ σ hσ
  rw [hsq] at h
  rw [cob_smul']
  field_simp
  linear_combination h

end
end OddP
end Comch
