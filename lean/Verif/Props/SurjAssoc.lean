import Verif.Lib.SurjAssoc
import Verif.Props.SurjCompose

/-! # C66: the composition of surjections is associative -/

namespace Comch.SurjElem
open Elem Spec SurjComp
open Finsupp (single)

variable {R : Type} [CommRing R] {r s u i j k : Nat}

theorem cmpV_supp (h1 : 1 ≤ i) (h2 : i ≤ r) (hs : 1 ≤ s) {a b : Surj →₀ R}
    (ha : a ∈ Finsupp.supported R R (OntoS r)) (hb : b ∈ Finsupp.supported R R (OntoS s)) :
    cmpV R i s a b ∈ Finsupp.supported R R (OntoS (r + s - 1)) := by
  refine BElem.bil_supported (cmp i s) (S := OntoS r) (T := OntoS s) ?_ ha hb
  intro k1 hk1 k2 hk2
  exact Finsupp.supported_mono (s := {m | Term i s k1 k2 m}) (t := OntoS (r + s - 1))
    (fun m hm => term_onto h1 h2 hs hk1 hk2 hm) (cmp_supported h1 _ _ (rng_of_onto hk2) hs)

theorem cmpV_single_right (a : Surj →₀ R) (k2 : Surj) : cmpV R i s a (single k2 1) = cmpL i s k2 a := by
  induction a using Finsupp.induction_linear with
  | zero => simp
  | add f g hf hg => simp only [map_add, LinearMap.add_apply, hf, hg]
  | single k c => simp [cmpV]

theorem cmpV_single_left (b : Surj →₀ R) (k1 : Surj) : cmpV R i s (single k1 1) b = cmpR i s k1 b := by
  rw [cmpV, bil_bv]; rfl

theorem sequentialV (h1 : 1 ≤ i) (h2 : i ≤ r) (h3 : 1 ≤ j) (h4 : j ≤ s) (hu : 1 ≤ u) {a b c : Surj →₀ R}
    (ha : a ∈ Finsupp.supported R R (OntoS r)) (hb : b ∈ Finsupp.supported R R (OntoS s))
    (hc : c ∈ Finsupp.supported R R (OntoS u)) :
    cmpV R (i + j - 1) u (cmpV R i s a b) c = cmpV R i (s + u - 1) a (cmpV R j u b c) := by
  refine BElem.lin_ext_supported (f := ((cmpV R (i + j - 1) u).flip c).comp ((cmpV R i s).flip b))
    (g := (cmpV R i (s + u - 1)).flip (cmpV R j u b c)) (S := OntoS r) ?_ ha
  intro k1 hk1
  refine BElem.lin_ext_supported (f := ((cmpV R (i + j - 1) u).flip c).comp (cmpV R i s (single k1 1)))
    (g := (cmpV R i (s + u - 1) (single k1 1)).comp ((cmpV R j u).flip c)) (S := OntoS s) ?_ hb
  intro k2 hk2
  refine BElem.lin_ext_supported (f := cmpV R (i + j - 1) u (cmpV R i s (single k1 1) (single k2 1)))
    (g := (cmpV R i (s + u - 1) (single k1 1)).comp (cmpV R j u (single k2 1))) (S := OntoS u) ?_ hc
  intro k3 hk3
  have := sequential (R := R) h1 h3 h4 hu k1 k2 k3 (rng_of_onto hk2) (rng_of_onto hk3) ((hk1 i).2 ⟨h1, h2⟩)
  rw [show up i j = i + j - 1 by unfold up; omega] at this
  rw [LinearMap.comp_apply, cmpV_single_right, cmpV_single_right, cmpV_single_right, cmpV_single_left,
    cmpL_single, cmpL_single, one_smul, one_smul, this]

theorem parallelV (h1 : 1 ≤ i) (h2 : i < k) (h3 : k ≤ r) (hs : 1 ≤ s) (hu : 1 ≤ u) (d e : Nat)
    {a b c : Surj →₀ R} (ha : a ∈ Finsupp.supported R R (OntoS r))
    (hb : b ∈ Finsupp.supported R R {m | m ∈ OntoS s ∧ sdeg m = d})
    (hc : c ∈ Finsupp.supported R R {m | m ∈ OntoS u ∧ sdeg m = e}) :
    cmpV R (k + s - 1) u (cmpV R i s a b) c = (-1 : R) ^ (d * e) • cmpV R i s (cmpV R k u a c) b := by
  refine BElem.lin_ext_supported (f := ((cmpV R (k + s - 1) u).flip c).comp ((cmpV R i s).flip b))
    (g := (-1 : R) ^ (d * e) • ((cmpV R i s).flip b).comp ((cmpV R k u).flip c)) (S := OntoS r) ?_ ha
  intro k1 hk1
  refine BElem.lin_ext_supported (f := ((cmpV R (k + s - 1) u).flip c).comp (cmpV R i s (single k1 1)))
    (g := (-1 : R) ^ (d * e) • (cmpV R i s (cmpV R k u (single k1 1) c)))
    (S := {m | m ∈ OntoS s ∧ sdeg m = d}) ?_ hb
  rintro k2 ⟨hk2, hd⟩
  refine BElem.lin_ext_supported (f := cmpV R (k + s - 1) u (cmpV R i s (single k1 1) (single k2 1)))
    (g := (-1 : R) ^ (d * e) • ((cmpV R i s).flip (single k2 1)).comp (cmpV R k u (single k1 1)))
    (S := {m | m ∈ OntoS u ∧ sdeg m = e}) ?_ hc
  rintro k3 ⟨hk3, he⟩
  have := parallel (R := R) h1 h2 hs hu k1 k2 k3 (rng_of_onto hk2) (rng_of_onto hk3)
  rw [if_pos ⟨(hk1 i).2 ⟨h1, by omega⟩, (hk1 k).2 ⟨by omega, h3⟩⟩, hd, he] at this
  rw [LinearMap.smul_apply, LinearMap.comp_apply, LinearMap.flip_apply, cmpV_single_right, cmpV_single_right,
    cmpV_single_right, cmpV_single_right, cmpL_single, cmpL_single, one_smul, one_smul, this]

end Comch.SurjElem

namespace Comch.Props
open Comch Elem Spec SurjElem SurjComp
open Finsupp (single)

variable {r s u i j k : Nat} {x y z : SurjElem}

theorem SignsOK.congr {x x' : SurjElem} (h : SignsOK x) (ha : x'.attrs = x.attrs) : SignsOK x' := by
  unfold SignsOK at *
  rw [torsion_congr ha, ha]; exact h

/-- `compose_ok` with the arity of the result. -/
theorem compose_ok' (hx : InSurj r x) (hy : InSurj s y) (h1 : 1 ≤ i) (h2 : i ≤ r) (hsg : SignsOK x)
    {n : Nat} (hn : x.torsion = n) :
    ∃ z, compose x y i = .ok z ∧ InSurj (r + s - 1) z ∧ z.attrs = x.attrs ∧
      den (ZMod n) z.data = pr surjection.drops (cmpV _ i s (den _ x.data) (den _ y.data)) := by
  obtain ⟨z, ez, _, az, dz⟩ := compose_ok hx hy h1 h2 hsg hn
  obtain ⟨z', ez', hz', _⟩ := C51_arity_degree hx hy h1 h2 hsg
  rw [ez] at ez'
  cases ez'
  exact ⟨z, ez, hz', az, dz⟩

theorem den_supp_degree (hx : InSurj r x) {d : Int} (hd : x.degree = some d) (n : Nat) :
    den (ZMod n) x.data ∈ Finsupp.supported (ZMod n) (ZMod n) {k | k ∈ OntoS r ∧ sdeg k = d.toNat} := by
  refine den_induction (P := fun w => w ∈ Finsupp.supported (ZMod n) (ZMod n)
    {k | k ∈ OntoS r ∧ sdeg k = d.toNat}) x.data (Submodule.zero_mem _) (fun u v => Submodule.add_mem _) ?_
  intro p hp
  refine Finsupp.single_mem_supported _ _ ⟨hx.onto p hp, ?_⟩
  have := sdeg_of_degree hx hd hp
  omega

/-- Sequential associativity: `(x ∘ᵢ y) ∘_{i+j-1} z = x ∘ᵢ (y ∘ⱼ z)`. -/
theorem C66_sequential (hx : InSurj r x) (hy : InSurj s y) (hz : InSurj u z) (hi : 1 ≤ i ∧ i ≤ r)
    (hj : 1 ≤ j ∧ j ≤ s) (ht : x.torsion = y.torsion)
    (hc : x.torsion = 2 ∨ (x.attrs.convention = .bergerFresse ∧ y.attrs.convention = .bergerFresse)) :
    ∃ xy yz a b, compose x y i = .ok xy ∧ compose y z j = .ok yz ∧ compose xy z (i + j - 1) = .ok a ∧
      compose x yz i = .ok b ∧ pyEq a b = true := by
  have sx : SignsOK x := hc.imp id And.left
  have sy : SignsOK y := hc.imp (fun h => ht.symm.trans h) And.right
  obtain ⟨xy, e1, i1, a1, d1⟩ := compose_ok' hx hy hi.1 hi.2 sx rfl
  obtain ⟨yz, e2, i2, a2, d2⟩ := compose_ok' hy hz hj.1 hj.2 sy ht.symm
  obtain ⟨a, e3, i3, a3, d3⟩ := compose_ok' i1 hz (i := i + j - 1) (by omega) (by omega) (SignsOK.congr sx a1)
    (torsion_congr a1)
  obtain ⟨b, e4, i4, a4, d4⟩ := compose_ok' hx i2 hi.1 hi.2 sx rfl
  refine ⟨xy, yz, a, b, e1, e2, e3, e4, pyEq_of_den i3.nf i4.nf
    ((torsion_congr a3).trans (torsion_congr a1)) (torsion_congr a4) ?_⟩
  rw [d3, d4, d1, d2]
  by_cases hzd : z.data = []
  · simp [hzd]
  obtain ⟨q, hq⟩ := List.exists_mem_of_ne_nil _ hzd
  have hu := one_le_of_mem hz hq
  have sX := den_supp_onto (R := ZMod x.torsion) hx
  have sY := den_supp_onto (R := ZMod x.torsion) hy
  have sZ := den_supp_onto (R := ZMod x.torsion) hz
  rw [pr_cmpV_left (r := r + s - 1) (by omega) (cmpV_supp hi.1 hi.2 (by omega) sX sY),
    pr_cmpV_right hi.1 hi.2 (by omega) sX (cmpV_supp hj.1 hj.2 hu sY sZ),
    sequentialV hi.1 hi.2 hj.1 hj.2 hu sX sY sZ]

/-- Parallel associativity: `(x ∘ᵢ y) ∘_{k+s-1} z = (-1)^(|y||z|) (x ∘ₖ z) ∘ᵢ y` for `i < k`. -/
theorem C66_parallel (hx : InSurj r x) (hy : InSurj s y) (hz : InSurj u z) (hi : 1 ≤ i) (hik : i < k)
    (hk : k ≤ r) {d e : Int} (hd : y.degree = some d) (he : z.degree = some e)
    (hc : x.torsion = 2 ∨ x.attrs.convention = .bergerFresse) :
    ∃ xy xz a b, compose x y i = .ok xy ∧ compose x z k = .ok xz ∧ compose xy z (k + s - 1) = .ok a ∧
      compose xz y i = .ok b ∧ pyEq a (smul surjection (pySign (d * e)) b) = true := by
  have hyd : y.data ≠ [] := by
    rintro h; rw [SurjElem.degree, uniqueValue_eq_some] at hd; exact hd.1 (by simp [h])
  have hzd : z.data ≠ [] := by
    rintro h; rw [SurjElem.degree, uniqueValue_eq_some] at he; exact he.1 (by simp [h])
  obtain ⟨p, hp⟩ := List.exists_mem_of_ne_nil _ hyd
  obtain ⟨q, hq⟩ := List.exists_mem_of_ne_nil _ hzd
  have hs := one_le_of_mem hy hp
  have hu := one_le_of_mem hz hq
  obtain ⟨xy, e1, i1, a1, d1⟩ := compose_ok' hx hy hi (by omega) hc rfl
  obtain ⟨xz, e2, i2, a2, d2⟩ := compose_ok' hx hz (by omega) hk hc rfl
  obtain ⟨a, e3, i3, a3, d3⟩ := compose_ok' i1 hz (i := k + s - 1) (by omega) (by omega)
    (SignsOK.congr hc a1) (torsion_congr a1)
  obtain ⟨b, e4, i4, a4, d4⟩ := compose_ok' i2 hy hi (by omega) (SignsOK.congr hc a2) (torsion_congr a2)
  refine ⟨xy, xz, a, b, e1, e2, e3, e4, pyEq_of_den i3.nf (nf_smul i4.nf _)
    ((torsion_congr a3).trans (torsion_congr a1))
    (by rw [smul_torsion]; exact (torsion_congr a4).trans (torsion_congr a2)) ?_⟩
  rw [den_smul i4.nf _ (by simp) (by rw [torsion_congr a4, torsion_congr a2]; simp), d3, d4, d1, d2]
  have sX := den_supp_onto (R := ZMod x.torsion) hx
  have sY := den_supp_onto (R := ZMod x.torsion) hy
  have sZ := den_supp_onto (R := ZMod x.torsion) hz
  have hd0 : d = (d.toNat : Int) := by have := sdeg_of_degree hy hd hp; omega
  have he0 : e = (e.toNat : Int) := by have := sdeg_of_degree hz he hq; omega
  rw [pr_cmpV_left (r := r + s - 1) (by omega) (cmpV_supp hi (by omega) hs sX sY),
    pr_cmpV_left (r := r + u - 1) (by omega) (cmpV_supp (by omega) hk hu sX sZ),
    parallelV hi hik hk hs hu d.toNat e.toNat sX (den_supp_degree hy hd _) (den_supp_degree hz he _), map_smul]
  congr 1
  conv_rhs => rw [hd0, he0]
  rw [cast_pySign, ← Nat.cast_mul, sg_natCast]

/-! ### Examples -/

example : InSurj 3 (exSu .bergerFresse) ∧ InSurj 2 (exSuB .bergerFresse) ∧
    (exSu .bergerFresse).torsion = (exSuB .bergerFresse).torsion ∧ (exSuB .bergerFresse).degree = some 1 ∧
    (exSu .bergerFresse).attrs.convention = .bergerFresse :=
  ⟨exSu_in _, exSuB_in _, by decide, by decide, rfl⟩

-- the sign in the parallel axiom does occur
example : (do
    let a ← compose (← compose (exSuB .bergerFresse) (exSuB .bergerFresse) 1) (exSuB .bergerFresse) 3
    let b ← compose (← compose (exSuB .bergerFresse) (exSuB .bergerFresse) 2) (exSuB .bergerFresse) 1
    pure (a.data.length, pyEq a (smul surjection (-1) b), pyEq a b) : Py (Nat × Bool × Bool)).toOption.map Prod.snd =
      some (true, false) := by decide +kernel

end Comch.Props
