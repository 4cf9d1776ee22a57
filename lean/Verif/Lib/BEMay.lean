import Verif.Lib.BEOrbit
import Mathlib.LinearAlgebra.BilinearMap

/-! # The May-Steenrod structure on the Barratt-Eccles operad -/

set_option linter.unusedSectionVars false

namespace Comch
open Spec IsPerm Elem
open Finsupp (single)

variable {R : Type} [CommRing R] {r : Nat}

/-- Change of coefficients. -/
noncomputable def castV (R : Type) [CommRing R] {K : Type} : (K →₀ Int) →+ (K →₀ R) :=
  Finsupp.mapRange.addMonoidHom (Int.castAddHom R)

@[simp] theorem castV_single {K : Type} (k : K) (c : Int) : castV R (single k c) = single k (c : R) := by
  simp [castV]

theorem den_eq_castV {K : Type} (d : List (K × Int)) : den R d = castV R (den Int d) := by
  induction d with
  | nil => simp
  | cons p d ih => rw [den_cons, den_cons, map_add, ih]; simp

/-- `T` as a vector. -/
noncomputable abbrev tV (R : Type) [CommRing R] (r : Nat) : Perm →₀ R :=
  bv R (RingElem.rho r) - bv R (pyRange 1 (r + 1))

/-- `N` as a vector. -/
noncomputable abbrev nV (R : Type) [CommRing R] (r : Nat) : Perm →₀ R :=
  ((List.range r).map fun k => bv R (powL r (RingElem.rho r) k)).sum

theorem norm_ok' (hr : 1 ≤ r) : ∃ z, RingElem.normElement r = .ok z ∧ InRing r z ∧ z.torsion = 0 ∧
    den R z.data = nV R r := by
  obtain ⟨z, h1, h2, h3, h4⟩ := Props.norm_ok (r := r) (n := 0) hr (by omega)
  refine ⟨z, h1, h2, h3, ?_⟩
  have h4' : den Int z.data = nV Int r := h4
  rw [den_eq_castV, h4', nV, nV, map_list_sum, List.map_map]
  congr 1
  apply List.map_congr_left
  intro k _
  simp

theorem transposition_ok' (hr : 2 ≤ r) : InRing r (RingElem.transpositionElement r) ∧
    (RingElem.transpositionElement r).torsion = 0 ∧
    den R (RingElem.transpositionElement r).data = tV R r := by
  refine ⟨Props.inRing_transposition hr none, rfl, ?_⟩
  have h : den Int (RingElem.transpositionElement r).data = tV Int r := Props.den_transposition (n := 0) hr
  rw [den_eq_castV, h, tV, tV, map_sub]
  simp

theorem powL_rho_ne_id (hr : 1 ≤ r) {k : Nat} (h1 : 1 ≤ k) (h2 : k < r) :
    powL r (RingElem.rho r) k ≠ pyRange 1 (r + 1) := by
  intro h
  have hv := Props.value_powL_rho hr k (i := 1) (le_refl 1) hr
  rw [h, value_id (le_refl 1) hr] at hv
  have : (1 - 1 + k) % r = k := by rw [Nat.zero_add]; exact Nat.mod_eq_of_lt h2
  simp at hv
  rw [Nat.mod_eq_of_lt h2] at hv
  omega

namespace BElem

/-- The action as a bilinear map. -/
noncomputable abbrev actV : (Perm →₀ R) →ₗ[R] (BKey →₀ R) →ₗ[R] (BKey →₀ R) :=
  bil fun q k => bv R (trL q k)

theorem rmul_denR (hr : 1 ≤ r) {s : RingElem} {x : BElem} (hs : InRing r s) (hsn : s.data ≠ [])
    (hx : InBE r x) (hxn : x.data ≠ []) (ts : s.torsion = x.torsion) (hn : (x.torsion : R) = 0) :
    ∃ z, rmul s x = .ok z ∧ InBE r z ∧ z.attrs = x.attrs ∧
      den R z.data = actV (den R s.data) (den R x.data) := by
  refine ⟨_, rmul_eq hr hs hsn hx hxn ts, ⟨nf_accumulate_zero _ _ _, ?_⟩, by simp, ?_⟩
  · intro p hp σ hσ
    have h := mem_keys_accumulate_zero (List.mem_map_of_mem (f := Prod.fst) hp)
    simp only [List.map_map, List.mem_map, mem_pyProduct, Function.comp] at h
    obtain ⟨pq, hpq, h⟩ := h
    rw [← h] at hσ
    obtain ⟨τ, hτ, rfl⟩ := List.mem_map.1 hσ
    exact isPerm_mulL (hs.perm _ hpq.2) (hx.perm _ hpq.1 τ hτ)
  · rw [den_accumulate_zero _ _ _ (by simp) hn, den_bil_map (fun k q => trL q k)]
    have hswap : bil (fun k q => bv R (trL q k)) (den _ x.data) (den _ s.data) =
        actV (den _ s.data) (den R x.data) := by
      refine den_induction (P := fun u => bil (fun k q => bv R (trL q k)) (den _ x.data) u =
        actV u (den R x.data)) s.data (by simp)
        (fun u v hu hv => by simp only [map_add, LinearMap.add_apply] at *; rw [hu, hv]) ?_
      intro q _
      refine den_induction (P := fun u => bil (fun k q => bv R (trL q k)) u (single q.1 (q.2 : R)) =
        actV (single q.1 (q.2 : R)) u) x.data (by simp)
        (fun u v hu hv => by simp only [map_add, LinearMap.add_apply] at *; rw [hu, hv]) ?_
      intro p _
      rw [bil_single, bil_single, mul_comm]
    rw [hswap]
    refine den_induction (P := fun u => pr barrattEccles.drops (actV u (den R x.data)) =
      actV u (den R x.data)) s.data (by simp)
      (fun u v hu hv => by simp only [map_add, LinearMap.add_apply] at *; rw [hu, hv]) ?_
    intro p hp
    refine den_induction (P := fun u => pr barrattEccles.drops
      (actV (single p.1 (p.2 : R)) u) = actV (single p.1 (p.2 : R)) u) x.data (by simp)
      (fun u v hu hv => by simp only [map_add] at *; rw [hu, hv]) ?_
    intro q hq
    rw [bil_single, map_smul, pr_single, drops_trL (hs.perm p hp) (hx.perm q hq), hx.nf.kept q hq]
    rfl

/-- Keys of length `d` with entries permutations, starting with the identity. -/
def IdKey (r d : Nat) : Set BKey :=
  {k | (∀ σ ∈ k, IsPerm r σ) ∧ k.length = d ∧ k.head? = some (pyRange 1 (r + 1))}

/-- Keys of length `d` with entries permutations. -/
def LKey (r d : Nat) : Set BKey := {k | (∀ σ ∈ k, IsPerm r σ) ∧ k.length = d}

/-- The ring element used in step `d + 1`. -/
noncomputable def stepV (R : Type) [CommRing R] (r d : Nat) : Perm →₀ R := if d % 2 = 0 then nV R r else tV R r

/-- `psi` as a vector. -/
noncomputable def psiV (R : Type) [CommRing R] (r : Nat) : Nat → (BKey →₀ R)
  | 0 => bv R [pyRange 1 (r + 1)]
  | d + 1 => pr hasRep (consV (pyRange 1 (r + 1)) (actV (stepV R r (d + 1)) (psiV R r d)))

/-- Vectors in the group ring of `Σ_r`. -/
def PermSet (r : Nat) : Set Perm := {σ | IsPerm r σ}

theorem tV_supported (hr : 1 ≤ r) : tV R r ∈ Finsupp.supported R R (PermSet r) :=
  Submodule.sub_mem _ (Finsupp.single_mem_supported R _ (Props.isPerm_rho hr))
    (Finsupp.single_mem_supported R _ (isPerm_id r))

theorem nV_supported (hr : 1 ≤ r) : nV R r ∈ Finsupp.supported R R (PermSet r) := by
  apply list_sum_mem
  intro v hv
  obtain ⟨k, _, rfl⟩ := List.mem_map.1 hv
  exact Finsupp.single_mem_supported R _ (isPerm_powL (Props.isPerm_rho hr) k)

theorem stepV_supported (hr : 1 ≤ r) (d : Nat) : stepV R r d ∈ Finsupp.supported R R (PermSet r) := by
  unfold stepV
  split
  · exact nV_supported hr
  · exact tV_supported hr

theorem bil_supported {K1 K2 K3 : Type} {S : Set K1} {T : Set K2} {U : Set K3}
    (f : K1 → K2 → (K3 →₀ R)) (hf : ∀ a ∈ S, ∀ b ∈ T, f a b ∈ Finsupp.supported R R U)
    {u : K1 →₀ R} {v : K2 →₀ R} (hu : u ∈ Finsupp.supported R R S) (hv : v ∈ Finsupp.supported R R T) :
    bil f u v ∈ Finsupp.supported R R U := by
  rw [bil, Finsupp.linearCombination_apply, Finsupp.sum, LinearMap.sum_apply]
  apply Submodule.sum_mem
  intro k hk
  rw [LinearMap.smul_apply]
  exact Submodule.smul_mem _ _ (lin_supported _ (hf k (hu (by simpa using hk))) hv)

theorem actV_supported {s : Perm →₀ R} (hs : s ∈ Finsupp.supported R R (PermSet r)) {d : Nat}
    {v : BKey →₀ R} (hv : v ∈ Finsupp.supported R R (LKey r d)) :
    actV s v ∈ Finsupp.supported R R (LKey r d) := by
  refine bil_supported _ (fun a ha b hb => Finsupp.single_mem_supported R _ ?_) hs hv
  refine ⟨?_, by simpa using hb.2⟩
  intro σ hσ
  obtain ⟨τ, hτ, rfl⟩ := List.mem_map.1 hσ
  exact isPerm_mulL ha (hb.1 τ hτ)

theorem pr_supported {K : Type} {S : Set K} {drops : K → Bool} {v : K →₀ R}
    (hv : v ∈ Finsupp.supported R R S) : pr drops v ∈ Finsupp.supported R R S := by
  refine lin_supported _ (fun k hk => ?_) hv
  split
  · exact Submodule.zero_mem _
  · exact Finsupp.single_mem_supported R _ hk

theorem psiV_supported (hr : 1 ≤ r) (d : Nat) : psiV R r d ∈ Finsupp.supported R R (IdKey r (d + 1)) := by
  have hsub : ∀ d, IdKey r d ⊆ LKey r d := fun d k hk => ⟨hk.1, hk.2.1⟩
  induction d with
  | zero =>
    refine Finsupp.single_mem_supported R _ ⟨?_, rfl, rfl⟩
    intro σ hσ
    rw [List.mem_singleton.1 hσ]
    exact isPerm_id r
  | succ d ih =>
    refine pr_supported (mapK_supported _ (fun k hk => ?_)
      (actV_supported (stepV_supported hr (d + 1)) (Finsupp.supported_mono (hsub _) ih)))
    refine ⟨?_, by simpa using hk.2, rfl⟩
    intro σ hσ
    rcases List.mem_cons.1 hσ with rfl | h
    · exact isPerm_id r
    · exact hk.1 σ h

theorem psiV_supported' (hr : 1 ≤ r) (d : Nat) : psiV R r d ∈ Finsupp.supported R R (LKey r (d + 1)) :=
  Finsupp.supported_mono (s := IdKey r (d + 1)) (t := LKey r (d + 1)) (fun _ hk => ⟨hk.1, hk.2.1⟩)
    (psiV_supported hr d)

theorem pr_hasRep_psiV (d : Nat) : pr hasRep (psiV R r d) = psiV R r d := by
  cases d with
  | zero => simp [psiV, pr_single, hasRep]
  | succ d => rw [psiV, pr_pr]

theorem bil_ext_supported {K1 K2 M : Type} [AddCommMonoid M] [Module R M] {S : Set K1} {T : Set K2}
    {f g : (K1 →₀ R) →ₗ[R] (K2 →₀ R) →ₗ[R] M}
    (h : ∀ a ∈ S, ∀ b ∈ T, f (bv R a) (bv R b) = g (bv R a) (bv R b))
    {u : K1 →₀ R} {v : K2 →₀ R} (hu : u ∈ Finsupp.supported R R S) (hv : v ∈ Finsupp.supported R R T) :
    f u v = g u v := by
  have h1 : ∀ a ∈ S, f (bv R a) v = g (bv R a) v := fun a ha => lin_ext_supported (h a ha) hv
  exact lin_ext_supported (f := f.flip v) (g := g.flip v) h1 hu

theorem bil_comm_supported {K1 K2 K3 : Type} {S : Set K1} {T : Set K2}
    {f : (K1 →₀ R) →ₗ[R] (K2 →₀ R) →ₗ[R] (K3 →₀ R)} (D : (K2 →₀ R) →ₗ[R] (K2 →₀ R))
    (D' : (K3 →₀ R) →ₗ[R] (K3 →₀ R))
    (h : ∀ a ∈ S, ∀ b ∈ T, D' (f (bv R a) (bv R b)) = f (bv R a) (D (bv R b)))
    {u : K1 →₀ R} {v : K2 →₀ R} (hu : u ∈ Finsupp.supported R R S) (hv : v ∈ Finsupp.supported R R T) :
    D' (f u v) = f u (D v) := by
  have h1 : ∀ a ∈ S, D' (f (bv R a) v) = f (bv R a) (D v) := fun a ha =>
    lin_ext_supported (f := D'.comp (f (bv R a))) (g := (f (bv R a)).comp D) (h a ha) hv
  exact lin_ext_supported (f := D'.comp (f.flip v)) (g := f.flip (D v)) h1 hu

/-- The action commutes with the projection onto non-degenerate keys. -/
theorem pr_actV {s : Perm →₀ R} (hs : s ∈ Finsupp.supported R R (PermSet r)) {v : BKey →₀ R}
    (hv : v ∈ Finsupp.supported R R {k : BKey | ∀ σ ∈ k, IsPerm r σ}) :
    pr hasRep (actV s v) = actV s (pr hasRep v) := by
  refine bil_comm_supported (pr hasRep) (pr hasRep) ?_ hs hv
  intro a ha b hb
  have h : hasRep (trL a b) = hasRep b := hasRep_map fun c hc d hd => mulL_inj ha (hb c hc) (hb d hd)
  simp only [bil_single, one_mul, one_smul, pr_single, h]
  split
  · simp
  · simp

theorem del_actV (s : Perm →₀ R) (v : BKey →₀ R) : del (actV s v) = actV s (del v) := by
  refine bil_comm_supported (S := Set.univ) (T := Set.univ) del del ?_ (by simp) (by simp)
  intro a _ b _
  simp only [bil_single, one_mul, one_smul, bil_bv]
  rw [del, lin_single, one_smul, lin_single, one_smul, delK_map]
  rfl

theorem actV_mulV {s t : Perm →₀ R} (hs : s ∈ Finsupp.supported R R (PermSet r))
    (ht : t ∈ Finsupp.supported R R (PermSet r)) {v : BKey →₀ R}
    (hv : v ∈ Finsupp.supported R R {k : BKey | ∀ σ ∈ k, IsPerm r σ}) :
    actV s (actV t v) = actV (mulV s t) v := by
  refine lin_ext_supported (f := (actV s).comp (actV t)) (g := actV (mulV s t)) ?_ hv
  intro k hk
  refine bil_ext_supported (f := (actV.flip.comp (actV.flip (bv R k))).flip)
    (g := mulV.compr₂ (actV.flip (bv R k))) ?_ hs ht
  intro a ha b hb
  simp only [LinearMap.flip_apply, LinearMap.comp_apply, LinearMap.compr₂_apply, bil_single, one_mul, one_smul,
    mulV_single, trL, List.map_map]
  congr 1
  apply List.map_congr_left
  intro t ht
  exact (mulL_assoc ha hb (hk t ht)).symm

theorem stepV_mul (hr : 1 ≤ r) (d : Nat) : mulV (stepV R r (d + 1)) (stepV R r d) = 0 := by
  unfold stepV
  by_cases h : d % 2 = 0
  · rw [if_neg (by omega), if_pos h]; exact Props.mulV_T_N hr
  · rw [if_pos (by omega), if_neg h]; exact Props.mulV_N_T hr

theorem pr_hasRep_del_pr (v : BKey →₀ R) : pr hasRep (del (pr hasRep v)) = pr hasRep (del v) := by
  refine pr_lin_pr _ (fun k hk => ?_) _
  rw [del, lin_single, one_smul]
  exact pr_delK_of_hasRep (fun _ h => h) k hk

theorem pr_hasRep_consV_pr (a : Perm) (v : BKey →₀ R) :
    pr hasRep (consV a (pr hasRep v)) = pr hasRep (consV a v) := by
  refine pr_lin_pr (consV a) (fun k hk => ?_) _
  rw [consV_single, pr_single, hasRep_cons hk]
  rfl

/-- The relation `∂ psi(d+1) = step * psi(d)`. -/
theorem del_psiV (hr : 1 ≤ r) (d : Nat) :
    pr hasRep (del (psiV R r (d + 1))) = actV (stepV R r (d + 1)) (psiV R r d) := by
  have hsupp : ∀ d, LKey r d ⊆ {k : BKey | ∀ σ ∈ k, IsPerm r σ} := fun d k hk => hk.1
  have h1 : ∀ d, pr hasRep (actV (stepV R r (d + 1)) (psiV R r d)) =
      actV (stepV R r (d + 1)) (psiV R r d) := by
    intro d
    rw [pr_actV (stepV_supported hr _) (Finsupp.supported_mono (hsupp _) (psiV_supported' hr d)),
      pr_hasRep_psiV]
  induction d with
  | zero =>
    have e : psiV R r (0 + 1) = pr hasRep (consV (pyRange 1 (r + 1)) (actV (stepV R r (0 + 1)) (psiV R r 0))) := rfl
    rw [e, pr_hasRep_del_pr, del_consV, map_sub, h1 0]
    have : del (actV (stepV R r 1) (psiV R r 0)) = 0 := by
      rw [del_actV, psiV, del, lin_single, one_smul, delK, delK, map_zero, sub_zero]
      unfold stepV
      rw [if_neg (by omega), map_sub, LinearMap.sub_apply, bil_single, bil_single]
      simp [trL]
    rw [this]
    simp
  | succ d ih =>
    have e : psiV R r (d + 1 + 1) =
      pr hasRep (consV (pyRange 1 (r + 1)) (actV (stepV R r (d + 1 + 1)) (psiV R r (d + 1)))) := rfl
    rw [e, pr_hasRep_del_pr, del_consV, map_sub, h1 (d + 1), ← pr_hasRep_consV_pr]
    have hd : del (psiV R r (d + 1)) ∈ Finsupp.supported R R {k : BKey | ∀ σ ∈ k, IsPerm r σ} :=
      lin_supported _ (fun k hk => delK_supported hk.1) (psiV_supported' hr (d + 1))
    have : pr hasRep (del (actV (stepV R r (d + 2)) (psiV R r (d + 1)))) = 0 := by
      rw [del_actV, pr_actV (stepV_supported hr _) hd, ih,
        actV_mulV (stepV_supported hr _) (stepV_supported hr _)
          (Finsupp.supported_mono (hsupp _) (psiV_supported' hr d)), stepV_mul hr]
      simp
    rw [this]
    simp

theorem actV_apply_id {v : BKey →₀ R} {d : Nat} (hv : v ∈ Finsupp.supported R R (IdKey r d)) {σ : Perm}
    (hσ : IsPerm r σ) (hne : σ ≠ pyRange 1 (r + 1)) {k : BKey} (hk : k ∈ IdKey r d) :
    actV (bv R σ) v k = 0 := by
  have : actV (bv R σ) v ∈ Finsupp.supported R R {m : BKey | m.head? = some σ} := by
    rw [bil_bv]
    refine lin_supported _ (fun m hm => Finsupp.single_mem_supported R _ ?_) hv
    obtain ⟨_, _, h3⟩ := hm
    rcases m with _ | ⟨a, m⟩
    · simp at h3
    · simp only [List.head?_cons, Option.some.injEq] at h3
      subst h3
      show some (mulL σ _) = some σ
      rw [mulL_id hσ]
  rw [Finsupp.mem_supported'] at this
  apply this
  intro h
  rw [Set.mem_ofPred_eq, hk.2.2] at h
  exact hne (Option.some.inj h).symm

theorem actV_one {v : BKey →₀ R} {d : Nat} (hv : v ∈ Finsupp.supported R R (IdKey r d)) :
    actV (bv R (pyRange 1 (r + 1))) v = v := by
  refine lin_ext_supported (f := actV (bv R (pyRange 1 (r + 1)))) (g := LinearMap.id) ?_ hv
  intro k hk
  rw [bil_single, one_mul, one_smul, LinearMap.id_apply]
  congr 1
  conv_rhs => rw [← List.map_id k]
  apply List.map_congr_left
  intro t ht
  exact id_mulL (hk.1 t ht)

/-- The step does not kill vectors supported on keys which start with the identity. -/
theorem stepV_ne_zero (hr : 2 ≤ r) {v : BKey →₀ R} {d : Nat} (hv : v ∈ Finsupp.supported R R (IdKey r d))
    (h0 : v ≠ 0) (e : Nat) : actV (stepV R r e) v ≠ 0 := by
  intro h
  obtain ⟨k, hk⟩ := Finsupp.ne_iff.1 h0
  have hkS : k ∈ IdKey r d := by
    by_contra hc
    rw [Finsupp.mem_supported'] at hv
    exact hk (hv k hc)
  have hk2 := DFunLike.congr_fun h k
  apply hk
  unfold stepV at hk2
  split at hk2
  · obtain ⟨r, rfl⟩ : ∃ r', r = r' + 1 := ⟨r - 1, by omega⟩
    rw [nV, List.range_succ_eq_map, List.map_cons, List.sum_cons, map_add, LinearMap.add_apply,
      Finsupp.add_apply, powL, actV_one hv] at hk2
    have hz : actV (((List.range r).map Nat.succ).map fun k => bv R (powL (r + 1) (RingElem.rho (r + 1)) k)).sum v k = 0 := by
      rw [List.map_map, map_list_sum, List.map_map]
      have : ∀ l : List (BKey →₀ R), l.sum k = (l.map fun u => u k).sum := by
        intro l
        induction l with
        | nil => rfl
        | cons a l ih => rw [List.sum_cons, Finsupp.add_apply, ih]; rfl
      have hev : ∀ l : List ((BKey →₀ R) →ₗ[R] (BKey →₀ R)), l.sum v = (l.map fun f => f v).sum := by
        intro l
        induction l with
        | nil => rfl
        | cons a l ih => rw [List.sum_cons, LinearMap.add_apply, ih]; rfl
      rw [hev, this]
      apply List.sum_eq_zero
      intro c hc
      simp only [List.map_map, List.mem_map, Function.comp, List.mem_range] at hc
      obtain ⟨i, hi, rfl⟩ := hc
      exact actV_apply_id hv (isPerm_powL (Props.isPerm_rho (by omega)) _)
        (powL_rho_ne_id (by omega) (by omega) (by omega)) hkS
    rw [hz, add_zero] at hk2
    exact hk2
  · rw [tV, map_sub, LinearMap.sub_apply, Finsupp.sub_apply, actV_one hv,
      actV_apply_id hv (Props.isPerm_rho (by omega)) (Props.rho_ne_id hr) hkS] at hk2
    simpa using hk2

theorem psiV_ne_zero [Nontrivial R] (hr : 2 ≤ r) (d : Nat) : psiV R r d ≠ 0 := by
  induction d with
  | zero =>
    rw [psiV]
    exact Finsupp.single_ne_zero.2 one_ne_zero
  | succ d ih =>
    intro h
    have h2 := del_psiV (R := R) (r := r) (by omega) d
    rw [h, map_zero, map_zero] at h2
    exact stepV_ne_zero hr (psiV_supported (by omega) d) ih (d + 1) h2.symm

end BElem
end Comch
