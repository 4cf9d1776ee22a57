import Verif.Lib.BEMay
import Verif.Props.BarrattEccles

/-! # C46: the May-Steenrod structure on the Barratt-Eccles operad -/

set_option linter.unusedSectionVars false

namespace Comch.Props
open Comch Elem Spec IsPerm BElem
open Finsupp (single)

theorem pr_pr_of_imp {R K : Type} [CommRing R] {a b : K → Bool} (h : ∀ k, b k = true → a k = true) (v : K →₀ R) :
    pr a (pr b v) = pr a v := by
  refine pr_lin_pr LinearMap.id (fun k hk => ?_) v
  rw [LinearMap.id_apply, pr_single, h k hk]
  rfl

theorem pr_drops_of_LKey {R : Type} [CommRing R] {r d : Nat} {v : BKey →₀ R}
    (hv : v ∈ Finsupp.supported R R (LKey r (d + 1))) : pr barrattEccles.drops v = pr hasRep v := by
  refine lin_ext_supported (f := pr barrattEccles.drops) (g := pr hasRep) (fun k hk => ?_) hv
  have h0 : k ≠ [] := by rintro rfl; simpa using hk.2
  rw [pr_single, pr_single, be_drops]
  simp [h0]

/-- The part of the construction over the integers. -/
theorem psi_ok {r : Nat} (hr : 2 ≤ r) {N : RingElem} (hN : RingElem.normElement r = .ok N) (d : Nat) :
    ∃ z, BarrattEccles.psi N (RingElem.transpositionElement r) r d = .ok z ∧ InBE r z ∧ z.torsion = 0 ∧
      z.data ≠ [] ∧ (∀ p ∈ z.data, p.1 ∈ IdKey r (d + 1)) ∧
      ∀ (R : Type) [CommRing R], den R z.data = psiV R r d := by
  have hNR : ∀ (R : Type) [CommRing R], InRing r N ∧ N.torsion = 0 ∧ den R N.data = nV R r := by
    intro R _
    obtain ⟨N', h1, h2, h3, h4⟩ := norm_ok' (R := R) (r := r) (by omega)
    cases hN.symm.trans h1
    exact ⟨h2, h3, h4⟩
  -- the remaining assertions follow from the description of the vector
  have fin : ∀ (d : Nat) (z : BElem), z.NF barrattEccles → z.torsion = 0 →
      (∀ (R : Type) [CommRing R], den R z.data = psiV R r d) →
      InBE r z ∧ z.torsion = 0 ∧ z.data ≠ [] ∧ (∀ p ∈ z.data, p.1 ∈ IdKey r (d + 1)) ∧
      ∀ (R : Type) [CommRing R], den R z.data = psiV R r d := by
    intro d z nz tz hden
    have hkeys : ∀ p ∈ z.data, p.1 ∈ IdKey r (d + 1) := by
      intro p hp
      have h := (nz.mem_keys_iff (k := p.1)).1 (List.mem_map_of_mem hp)
      rw [hden] at h
      by_contra hc
      have hs := psiV_supported (R := ZMod z.torsion) (r := r) (by omega) d
      rw [Finsupp.mem_supported'] at hs
      exact h (hs _ hc)
    refine ⟨⟨nz, fun p hp => (hkeys p hp).1⟩, tz, ?_, hkeys, hden⟩
    intro h0
    have := hden Int
    rw [h0, den_nil] at this
    exact psiV_ne_zero hr d this.symm
  induction d with
  | zero =>
    refine ⟨_, rfl, ?_⟩
    apply fin 0
    · exact nf_new _ (by simp [Dict.KeysNodup]) _ _
    · rfl
    · intro R _
      rw [den_new _ _ _ _ (by simp), den_cons, den_nil, add_zero, pr_single, be_drops]
      simp [hasRep, psiV]
  | succ d ih =>
    obtain ⟨x, ex, hx, tx, nx, kx, dx⟩ := ih
    -- the ring element of this step
    obtain ⟨s, hs, hsr, hst, hsd⟩ : ∃ s : RingElem,
        (if (d + 1) % 2 = 0 then N else RingElem.transpositionElement r) = s ∧ InRing r s ∧ s.torsion = 0 ∧
        ∀ (R : Type) [CommRing R], den R s.data = stepV R r (d + 1) := by
      by_cases h : (d + 1) % 2 = 0
      · refine ⟨N, if_pos h, (hNR Int).1, (hNR Int).2.1, fun R _ => ?_⟩
        rw [stepV, if_pos h, (hNR R).2.2]
      · refine ⟨_, if_neg h, (transposition_ok' (R := Int) hr).1, rfl, fun R _ => ?_⟩
        rw [stepV, if_neg h, (transposition_ok' (R := R) hr).2.2]
    have hsn : s.data ≠ [] := by
      intro h0
      have h1 := hsd Int
      rw [h0, den_nil] at h1
      refine stepV_ne_zero (R := Int) hr (psiV_supported (by omega) d) (psiV_ne_zero hr d) (d + 1) ?_
      rw [← h1]; simp
    obtain ⟨w, ew, hw, aw, _⟩ := rmul_denR (R := Int) (by omega) hsr hsn hx nx (by rw [hst, tx]) (by rw [tx]; simp)
    have dw : ∀ (R : Type) [CommRing R], den R w.data = BElem.actV (stepV R r (d + 1)) (psiV R r d) := by
      intro R _
      obtain ⟨w', ew', _, _, dw'⟩ := rmul_denR (R := R) (by omega) hsr hsn hx nx (by rw [hst, tx])
        (by rw [tx]; simp)
      cases ew.symm.trans ew'
      rw [dw', hsd, dx]
    have hnd : ((w.data.map fun (p : BKey × Int) => (pyRange 1 (r + 1) :: p.1, p.2)).map Prod.fst).Nodup := by
      have := hw.nf.nodup
      rw [List.map_map]
      have h2 : (Prod.fst ∘ fun (p : BKey × Int) => (pyRange 1 (r + 1) :: p.1, p.2)) =
        (fun k : BKey => pyRange 1 (r + 1) :: k) ∘ Prod.fst := rfl
      rw [h2, ← List.map_map]
      exact this.map fun a b h => (List.cons.inj h).2
    refine ⟨Elem.new barrattEccles (w.data.map fun (p : BKey × Int) => (pyRange 1 (r + 1) :: p.1, p.2)), ?_, ?_⟩
    · rw [BarrattEccles.psi, ex]
      simp only [bind, Except.bind]
      rw [hs, ew]
      simp only
      rw [Dict.ofPairs_eq hnd]
    · apply fin (d + 1)
      · exact nf_new _ hnd _ _
      · rfl
      · intro R _
        rw [den_new _ _ _ _ (by simp)]
        have h1 : den R (w.data.map fun (p : BKey × Int) => (pyRange 1 (r + 1) :: p.1, p.2)) =
            consV (pyRange 1 (r + 1)) (den R w.data) := by
          rw [consV, mapK_den]
        rw [h1, dw, psiV]
        refine pr_drops_of_LKey (r := r) (d := d + 1) ?_
        refine mapK_supported (S := LKey r (d + 1)) _ (fun k hk => ?_)
          (actV_supported (stepV_supported (by omega) (d + 1)) (psiV_supported' (by omega) d))
        refine ⟨?_, by simpa using hk.2⟩
        intro σ hσ
        rcases List.mem_cons.1 hσ with rfl | h
        · exact isPerm_id r
        · exact hk.1 σ h

/-- `may_steenrod_structure` with its description as a vector. -/
theorem may_ok {r : Nat} (hr : 2 ≤ r) (d n : Nat) :
    ∃ z, BarrattEccles.maySteenrodStructure r d (some n) = .ok z ∧ InBE r z ∧ z.torsion = n ∧
      (∀ p ∈ z.data, p.1 ∈ IdKey r (d + 1)) ∧ den (ZMod n) z.data = psiV _ r d := by
  obtain ⟨N, hN, _⟩ := norm_ok' (R := Int) (r := r) (by omega)
  obtain ⟨x, ex, hx, tx, nx, kx, dx⟩ := psi_ok hr hN d
  unfold BarrattEccles.maySteenrodStructure
  rw [hN]
  simp only [bind, Except.bind]
  rw [ex]
  by_cases hn : n = 0
  · subst hn
    exact ⟨x, rfl, hx, tx, kx, dx _⟩
  · have hkeys : ∀ p ∈ (setTorsion barrattEccles x n).data, p.1 ∈ IdKey r (d + 1) := by
      intro p hp
      obtain ⟨q, hq, he⟩ := List.mem_map.1 (mem_keys_preferredRep (List.mem_map_of_mem (f := Prod.fst) hp))
      rw [← he]; exact kx q hq
    refine ⟨setTorsion barrattEccles x n, if_neg hn, ⟨nf_setTorsion hx.nf n, fun p hp => (hkeys p hp).1⟩,
      rfl, hkeys, ?_⟩
    rw [den_setTorsion hx.nf n (by simp), dx]

/-- `psi(0)` is the identity permutation. -/
theorem C46_psi_zero {r : Nat} (hr : 2 ≤ r) :
    ∃ z, BarrattEccles.maySteenrodStructure r 0 = .ok z ∧ z.data = [([pyRange 1 (r + 1)], 1)] ∧ z.torsion = 0 := by
  obtain ⟨N, hN, _⟩ := norm_ok' (R := Int) (r := r) (by omega)
  unfold BarrattEccles.maySteenrodStructure
  rw [hN]
  refine ⟨_, rfl, ?_, rfl⟩
  simp [Elem.new, preferredRep, zeroDropped, basePreferredRep, be_drops, hasRep]

/-- No exception is raised: for every arity `r ≥ 2`, degree and torsion (other than 1) the structure
element exists, is non-zero, of the right arity and degree, and its terms start with the identity. -/
theorem C46_psi_ok {r : Nat} (hr : 2 ≤ r) (d n : Nat) (hn : n ≠ 1) :
    ∃ z, BarrattEccles.maySteenrodStructure r d (some n) = .ok z ∧ InBE r z ∧ z.torsion = n ∧
      z.data ≠ [] ∧ z.arity = some r ∧ z.degree = some (d : Int) ∧
      ∀ p ∈ z.data, p.1.head? = some (pyRange 1 (r + 1)) := by
  obtain ⟨z, ez, hz, tz, kz, dz⟩ := may_ok hr d n
  haveI : Nontrivial (ZMod n) := ZMod.nontrivial_iff.2 hn
  have hne : z.data ≠ [] := by
    intro h0
    rw [h0, den_nil] at dz
    exact psiV_ne_zero hr d dz.symm
  refine ⟨z, ez, hz, tz, hne, BElem.arity_eq hz hne, ?_, fun p hp => (kz p hp).2.2⟩
  rw [BElem.degree, uniqueValue_eq_some]
  refine ⟨by simpa using hne, ?_⟩
  intro b hb
  obtain ⟨p, hp, rfl⟩ := List.mem_map.1 hb
  rw [(kz p hp).2.1]
  push_cast
  ring

theorem boundary_psi {r : Nat} (hr : 2 ≤ r) (d n : Nat) (hn : n ≠ 1) (s : RingElem) (hs : InRing r s)
    (ts : s.torsion = n) (ds : den (ZMod n) s.data = stepV _ r (d + 1)) :
    ∃ z x w, BarrattEccles.maySteenrodStructure r (d + 1) (some n) = .ok z ∧
      BarrattEccles.maySteenrodStructure r d (some n) = .ok x ∧
      BElem.rmul s x = .ok w ∧ pyEq z.boundary w = true := by
  obtain ⟨z, ez, hz, tz, kz, dz⟩ := may_ok hr (d + 1) n
  obtain ⟨x, ex, hx, tx, kx, dx⟩ := may_ok hr d n
  haveI : Nontrivial (ZMod n) := ZMod.nontrivial_iff.2 hn
  have hxne : x.data ≠ [] := by
    intro h0
    rw [h0, den_nil] at dx
    exact psiV_ne_zero hr d dx.symm
  have hsne : s.data ≠ [] := by
    intro h0
    rw [h0, den_nil] at ds
    refine stepV_ne_zero (R := ZMod n) hr (psiV_supported (by omega) d) (psiV_ne_zero hr d) (d + 1) ?_
    rw [← ds]; simp
  obtain ⟨w, ew, hw, tw, dw⟩ := BElem.rmul_den (by omega) hs hsne hx hxne ts tx
  refine ⟨z, x, w, ez, ex, ew, pyEq_of_den (n := n) (BElem.nf_boundary z) hw.nf
    ((torsion_congr (BElem.boundary_attrs z)).trans tz) tw ?_⟩
  have hv := actV_supported (stepV_supported (R := ZMod n) (r := r) (by omega) (d + 1))
    (psiV_supported' (by omega) d)
  rw [BElem.den_boundary z tz, dz, dw, ds, dx,
    ← pr_pr_of_imp (a := barrattEccles.drops) (b := hasRep) (fun k hk => by rw [be_drops, hk, Bool.or_true]),
    del_psiV (by omega), pr_drops_of_LKey hv,
    BElem.pr_actV (stepV_supported (by omega) (d + 1)) (Finsupp.supported_mono (s := LKey r (d + 1)) (fun k hk => hk.1)
      (psiV_supported' (by omega) d)), pr_hasRep_psiV]

/-- `boundary psi(2m+1) == T * psi(2m)`. -/
theorem C46_boundary_odd {r : Nat} (hr : 2 ≤ r) (m n : Nat) (hn : n ≠ 1) :
    ∃ z x w, BarrattEccles.maySteenrodStructure r (2 * m + 1) (some n) = .ok z ∧
      BarrattEccles.maySteenrodStructure r (2 * m) (some n) = .ok x ∧
      BElem.rmul (RingElem.transpositionElement r (some n)) x = .ok w ∧ pyEq z.boundary w = true := by
  refine boundary_psi hr (2 * m) n hn _ (inRing_transposition hr _) rfl ?_
  rw [den_transposition hr, stepV, if_neg (by omega)]

/-- `boundary psi(2m+2) == N * psi(2m+1)`. -/
theorem C46_boundary_even {r : Nat} (hr : 2 ≤ r) (m n : Nat) (hn : n ≠ 1) :
    ∃ N z x w, RingElem.normElement r (some n) = .ok N ∧
      BarrattEccles.maySteenrodStructure r (2 * m + 2) (some n) = .ok z ∧
      BarrattEccles.maySteenrodStructure r (2 * m + 1) (some n) = .ok x ∧
      BElem.rmul N x = .ok w ∧ pyEq z.boundary w = true := by
  obtain ⟨N, h1, h2, h3, h4⟩ := norm_ok (r := r) (n := n) (by omega) hn
  obtain ⟨z, x, w, h⟩ := boundary_psi hr (2 * m + 1) n hn N h2 h3 (by
    rw [h4, stepV, if_pos (by omega)])
  exact ⟨N, z, x, w, h1, h⟩

/-- The default torsion is 0. -/
theorem C46_default_torsion (r d : Nat) :
    BarrattEccles.maySteenrodStructure r d = BarrattEccles.maySteenrodStructure r d (some 0) := rfl

example : (BarrattEccles.maySteenrodStructure 3 2).toOption.map (·.data) =
    some [([[1, 2, 3], [2, 3, 1], [3, 1, 2]], 1), ([[1, 2, 3], [3, 1, 2], [1, 2, 3]], 1)] := by decide +kernel

end Comch.Props
