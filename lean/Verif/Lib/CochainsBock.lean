import Verif.Lib.CochainsIntegral

/-! # The coboundary of an integral lift of a power -/

set_option linter.unusedSectionVars false

namespace Comch.Coch
open Comch.Spec Elem SurjComp SurjElem IsPerm SurjMay Comch.Props
open BElem (stepV stepV_supported PermSet stepV_mul)
open Finsupp (single)

variable {p q m r d : Nat} {X : OrderedComplex} {σ : List Nat} {R : Type} [CommRing R]

/-- Degrees of a cochain and of its coboundary divided by `p`. -/
def kdeg (q : Nat) : Bool → Nat
  | false => q
  | true => q + 1

def kval (α β : List Nat → R) : Bool → List Nat → R
  | false => α
  | true => β

/-- The word with one letter `true`, with its sign. -/
noncomputable def tw (R : Type) [CommRing R] (q n j : Nat) : List Bool →₀ R :=
  sg R ((j : Int) * q) • bv R (List.replicate j false ++ true :: List.replicate (n - 1 - j) false)

theorem tensK_tw (c : R) (n : Nat) :
    tensK (fun b => if b then 0 else c • bv R true) (wd (kdeg q)) (List.replicate n false) =
      c • ∑ j ∈ Finset.range n, tw R q n j := by
  induction n with
  | zero => simp [tensK]
  | succ n ih =>
    rw [List.replicate_succ, tensK, ih, Finset.sum_range_succ', smul_add, add_comm]
    congr 1
    · rw [map_smul, smul_comm]
      congr 1
      rw [map_sum, Finset.smul_sum]
      refine Finset.sum_congr rfl fun j hj => ?_
      rw [tw, tw, map_smul, consV_single, smul_smul, ← sg_add]
      congr 2
      · simp only [wd, kdeg]
        push_cast
        ring
      · rw [List.replicate_succ, show n + 1 - 1 - (j + 1) = n - 1 - j by omega]
        rfl
    · simp [tw, one_single]

theorem tw_rho (hp2 : p = 2 ∨ p % 2 = 1) {j : Nat} (hj : j + 1 < p) :
    lin (actK (R := ZMod p) (wd (kdeg q)) (RingElem.rho p)) (tw (ZMod p) q p j) = tw (ZMod p) q p (j + 1) := by
  have e : List.replicate j false ++ true :: List.replicate (p - 1 - j) false =
      (List.replicate j false ++ true :: List.replicate (p - 1 - (j + 1)) false) ++ [false] := by
    rw [show p - 1 - j = p - 1 - (j + 1) + 1 by omega, List.replicate_succ']
    simp
  set w := List.replicate j false ++ true :: List.replicate (p - 1 - (j + 1)) false with hw
  have hl : w.length + 1 = p := by simp [hw]; omega
  rw [tw, tw, map_smul, lin_single, one_smul, e, List.replicate_succ, List.cons_append, ← hw, actK]
  have e2 : actL (RingElem.rho p) (w ++ [false]) = false :: w := by
    have := actL_rho false w
    rwa [hl] at this
  rw [e2, smul_smul]
  congr 1
  rcases hp2 with h2 | hodd
  · subst h2; rw [sg_two, sg_two, sg_two, one_mul]
  · rw [← sg_add, RingElem.rho, pyRange, show p + 1 - 2 = w.length by omega,
      kos_rho (wd (kdeg q)) false w.length 2 w le_rfl rfl]
    have : (w.map (wd (kdeg q))).sum = (p - 1) * q + 1 := by
      rw [hw]
      simp only [List.map_append, List.map_replicate, List.map_cons, List.sum_append, List.sum_replicate, List.sum_cons,
        wd, kdeg, nsmul_eq_mul]
      have : ((p - 1 - (j + 1) : Nat) : Int) = p - 1 - (j + 1) := by omega
      rw [this]
      push_cast
      ring
    rw [this]
    obtain ⟨k, hk⟩ : ∃ k : Int, (p : Int) - 1 = 2 * k := ⟨(p : Int) / 2, by omega⟩
    rw [hk]
    refine sg_congr ?_
    simp only [wd, kdeg]
    push_cast
    rw [show (j : Int) * q + q * (2 * k * q + 1) = (j + 1) * q + 2 * (q * (k * q)) by ring]
    omega

theorem length_tw {j : Nat} (hj : j < p) : tw R q p j ∈ Finsupp.supported R R {w : List Bool | w.length = p} :=
  Submodule.smul_mem _ _ (Finsupp.single_mem_supported R _ (by simp; omega))

theorem lin_actK_comp {A : Type} {w : A → Int} {s t : Perm} (hs : IsPerm p s) (ht : IsPerm p t) {u : List A →₀ R}
    (hu : u ∈ Finsupp.supported R R {k : List A | k.length = p}) :
    lin (actK (R := R) w s) (lin (actK w t) u) = lin (actK w (mulL s t)) u := by
  refine BElem.lin_ext_supported (f := (lin (actK (R := R) w s)).comp (lin (actK w t))) (fun k hk => ?_) hu
  rw [LinearMap.comp_apply, lin_single, lin_single, one_smul, one_smul, actK_actK w hs ht hk]

theorem lin_actK_id {A : Type} {w : A → Int} {u : List A →₀ R}
    (hu : u ∈ Finsupp.supported R R {k : List A | k.length = p}) :
    lin (actK (R := R) w (pyRange 1 (p + 1))) u = u := by
  refine BElem.lin_ext_supported (g := LinearMap.id) (fun k hk => ?_) hu
  rw [lin_single, one_smul, actK_id _ hk]; rfl

theorem tw_pow (hp : 1 ≤ p) (hp2 : p = 2 ∨ p % 2 = 1) (j : Nat) : ∀ {i : Nat}, i + j < p →
    lin (actK (R := ZMod p) (wd (kdeg q)) (powL p (RingElem.rho p) j)) (tw (ZMod p) q p i) = tw (ZMod p) q p (i + j) := by
  have hρ := isPerm_rho hp
  induction j with
  | zero => intro i hi; rw [powL, lin_actK_id (length_tw (by omega))]; rfl
  | succ j ih =>
    intro i hi
    rw [powL, ← lin_actK_comp (isPerm_powL hρ j) hρ (length_tw (by omega)), tw_rho hp2 (by omega), ih (by omega),
      show i + 1 + j = i + (j + 1) by omega]

theorem actD_list_sum {A : Type} {deg : A → Nat} (l : List Nat) (f : Nat → (Perm →₀ R)) (u : List A →₀ R) :
    actD deg r (l.map f).sum u = (l.map fun j => actD deg r (f j) u).sum := by
  induction l with
  | nil => simp [actD]
  | cons j l ih => rw [List.map_cons, List.sum_cons, actD_add, ih, List.map_cons, List.sum_cons]

theorem list_sum_range {M : Type} [AddCommMonoid M] (n : Nat) (f : Nat → M) :
    ((List.range n).map f).sum = ∑ j ∈ Finset.range n, f j := by
  induction n with
  | zero => simp
  | succ n ih => rw [List.range_succ, List.map_append, List.sum_append, ih, Finset.sum_range_succ]; simp

/-- The sum of the words with one letter `true` is a norm. -/
theorem tw_norm (hp : 1 ≤ p) (hp2 : p = 2 ∨ p % 2 = 1) :
    actD (kdeg q) p (nV (ZMod p) p) (tw (ZMod p) q p (p - 1)) = ∑ j ∈ Finset.range p, tw (ZMod p) q p j := by
  have hρ := isPerm_rho hp
  unfold nV
  rw [actD_list_sum, list_sum_range, ← Finset.sum_range_reflect]
  refine Finset.sum_congr rfl fun j hj => ?_
  have hj := Finset.mem_range.1 hj
  rw [actD_single, one_smul]
  have h1 := tw_pow (q := q) hp hp2 (p - 1 - j) (i := j) (by omega)
  rw [show j + (p - 1 - j) = p - 1 by omega] at h1
  rw [← h1, lin_actK_comp (isPerm_invL (isPerm_powL hρ _)) (isPerm_powL hρ _) (length_tw hj), invL_mulL (isPerm_powL hρ _),
    lin_actK_id (length_tw hj)]

/-! ### the power of one letter -/

theorem rep_rho (hp : 1 ≤ p) : lin (actK (R := R) (wd (kdeg q)) (RingElem.rho p)) (bv R (List.replicate p false)) =
    sg R ((q : Int) * (((p : Int) - 1) * q)) • bv R (List.replicate p false) := by
  obtain ⟨n, rfl⟩ : ∃ n, p = n + 1 := ⟨p - 1, by omega⟩
  have e2 := actL_rho false (List.replicate n false)
  rw [List.length_replicate] at e2
  rw [lin_single, one_smul]
  conv_lhs => rw [List.replicate_succ']
  rw [actK, e2, ← List.replicate_succ, RingElem.rho, pyRange, show n + 1 + 1 - 2 = n by omega,
    kos_rho (wd (kdeg q)) false n 2 _ le_rfl (by simp)]
  congr 2
  simp [wd, kdeg]

theorem actD_inv {A : Type} {deg : A → Nat} {s : Perm} (hs : IsPerm p s) {u v : List A →₀ R}
    (hu : u ∈ Finsupp.supported R R {k : List A | k.length = p}) (h : lin (actK (R := R) (wd deg) s) u = v) :
    actD deg p (bv R s) v = u := by
  rw [actD_single, one_smul, ← h, lin_actK_comp (isPerm_invL hs) hs hu, invL_mulL hs, lin_actK_id hu]

theorem rep_supported : bv R (List.replicate p false) ∈ Finsupp.supported R R {k : List Bool | k.length = p} :=
  Finsupp.single_mem_supported R _ (by simp)

theorem rep_norm (hp : p % 2 = 1) :
    actD (kdeg q) p (nV R p) (bv R (List.replicate p false)) = (p : R) • bv R (List.replicate p false) := by
  have hp1 : 1 ≤ p := by omega
  have hρ := isPerm_rho hp1
  have h1 : lin (actK (R := R) (wd (kdeg q)) (RingElem.rho p)) (bv R (List.replicate p false)) = bv R (List.replicate p false) := by
    rw [rep_rho hp1, sg_congr (b := 0)]
    · simp
    · obtain ⟨k, hk⟩ : ∃ k : Int, (p : Int) - 1 = 2 * k := ⟨(p : Int) / 2, by omega⟩
      rw [hk, show (q : Int) * (2 * k * q) = 2 * (q * (k * q)) by ring]
      omega
  have h2 : ∀ j, lin (actK (R := R) (wd (kdeg q)) (powL p (RingElem.rho p) j)) (bv R (List.replicate p false)) =
      bv R (List.replicate p false) := by
    intro j
    induction j with
    | zero => exact lin_actK_id rep_supported
    | succ j ih => rw [powL, ← lin_actK_comp (isPerm_powL hρ j) hρ rep_supported, h1, ih]
  unfold nV
  rw [actD_list_sum, List.map_congr_left (g := fun _ => bv R (List.replicate p false))
    (fun j _ => actD_inv (isPerm_powL hρ j) rep_supported (h2 j))]
  simp

theorem rep_step_two (m : Nat) : actD (kdeg q) 2 (stepV R 2 m) (bv R (List.replicate 2 false)) =
    ((-1) ^ q + (-1) ^ m : R) • bv R (List.replicate 2 false) := by
  have hq : sg R ((q : Int) * (((2 : Nat) : Int) - 1) * q) = (-1) ^ q := by
    rw [← sg_natCast]
    refine sg_congr ?_
    have : ((q : Int) * (((2 : Nat) : Int) - 1) * q - q) = q * (q - 1) := by push_cast; ring
    have h2 : (q : Int) * (q - 1) % 2 = 0 := by
      rcases Nat.even_or_odd q with ⟨k, hk⟩ | ⟨k, hk⟩ <;> subst hk <;> push_cast
      · rw [show ((k : Int) + k) * (k + k - 1) = 2 * (k * (2 * k - 1)) by ring]; omega
      · rw [show (2 * (k : Int) + 1) * (2 * k + 1 - 1) = 2 * (k * (2 * k + 1)) by ring]; omega
    omega
  have hρ := isPerm_rho (r := 2) (by omega)
  have h1 : lin (actK (R := R) (wd (kdeg q)) (RingElem.rho 2)) ((-1 : R) ^ q • bv R (List.replicate 2 false)) =
      bv R (List.replicate 2 false) := by
    rw [map_smul, rep_rho (by omega), ← mul_assoc, hq, smul_smul, ← mul_pow]
    simp
  have h2 := actD_inv (deg := kdeg q) hρ (Submodule.smul_mem _ _ rep_supported) h1
  have h3 := actD_inv (R := R) (deg := kdeg q) (isPerm_id 2) (rep_supported (p := 2)) (lin_actK_id rep_supported)
  unfold stepV
  split
  · rename_i h
    have : nV R 2 = bv R (pyRange 1 (2 + 1)) + bv R (RingElem.rho 2) := by
      unfold nV
      rw [show List.range 2 = [0, 1] by rfl]
      simp only [List.map_cons, List.map_nil, List.sum_cons, List.sum_nil, add_zero]
      rfl
    rw [this, actD_add, h2, h3, (Nat.even_iff.2 h).neg_one_pow, add_smul, one_smul, add_comm]
  · rename_i h
    rw [tV, sub_eq_add_neg, ← neg_one_smul R, actD_add, h2, (Nat.odd_iff.2 (Nat.mod_two_ne_zero.1 h)).neg_one_pow, add_smul]
    congr 1
    rw [Finsupp.smul_single, actD_single]
    rw [actD_single, one_smul] at h3
    rw [h3]
    simp

/-! ### the coboundary of the lift -/

theorem int_of_zmod {a b : Int} (h : Int.cast (R := ZMod 0) a = Int.cast (R := ZMod 0) b) : a = b := by
  rw [ZMod.intCast_eq_intCast_iff] at h
  exact Int.modEq_zero_iff.1 (by exact_mod_cast h)

theorem kval_d {n : Nat} {A B : List Nat → ZMod n} {c : ZMod n}
    (hA : ∀ σ ∈ X.simplices, σ.length = q + 2 → coboundary A σ = c * B σ)
    (hB : ∀ σ ∈ X.simplices, σ.length = q + 3 → coboundary B σ = 0) (b : Bool) (σ : List Nat) (hσ : σ ∈ X.simplices) :
    Finsupp.linearCombination (ZMod n) (fun y => v2 (kdeg q) (kval A B) (y, σ))
      ((fun b => if b then 0 else c • bv (ZMod n) true : Bool → (Bool →₀ ZMod n)) b) =
      if σ.length = kdeg q b + 2 then coboundary (kval A B b) σ else 0 := by
  cases b with
  | false =>
    have e : Finsupp.linearCombination (ZMod n) (fun y => v2 (kdeg q) (kval A B) (y, σ)) (c • bv (ZMod n) true) =
        c * if σ.length = q + 2 then B σ else 0 := by
      rw [map_smul, Finsupp.linearCombination_single, one_smul, smul_eq_mul]
      rfl
    refine e.trans ?_
    show _ = if σ.length = q + 2 then coboundary A σ else 0
    by_cases h : σ.length = q + 2
    · rw [if_pos h, if_pos h, hA σ hσ h]
    · rw [if_neg h, if_neg h, mul_zero]
  | true =>
    refine (map_zero _).trans ?_
    show _ = if σ.length = q + 3 then coboundary B σ else 0
    by_cases h : σ.length = q + 3
    · rw [if_pos h, hB σ hσ h]
    · rw [if_neg h]

theorem wu_tw {n : Nat} (val : Bool → List Nat → ZMod n) (σ : List Nat) :
    wu r n m (kdeg q) val (∑ j ∈ Finset.range p, tw (ZMod n) q p j) σ = ∑ j ∈ Finset.range p, sg (ZMod n) ((j : Int) * q) *
      wv r n m ((List.replicate j false ++ true :: List.replicate (p - 1 - j) false).map fun a => (kdeg q a, val a)) σ := by
  rw [wu, map_sum, LinearMap.sum_apply]
  refine Finset.sum_congr rfl fun j _ => ?_
  rw [tw, map_smul, LinearMap.smul_apply, EW_single, one_mul]
  rfl

theorem cast_words {n : Nat} (A B : List Nat → Int) (w : List Bool) :
    (w.map fun a => (kdeg q a, kval (fun τ => ((A τ : Int) : ZMod n)) (fun τ => ((B τ : Int) : ZMod n)) a)) =
      (w.map fun a => (kdeg q a, kval A B a)).map fun x => (x.1, fun τ => ((x.2 τ : Int) : ZMod n)) := by
  rw [List.map_map]
  refine List.map_congr_left fun a _ => ?_
  cases a <;> rfl

theorem cast_cob (n : Nat) (A : List Nat → Int) (σ : List Nat) :
    coboundary (fun τ => ((A τ : Int) : ZMod n)) σ = ((coboundary A σ : Int) : ZMod n) :=
  cob_cast (Int.castRingHom (ZMod n)) A σ

/-- The integral lift of a power, its coboundary divided by `p`, and the class of the quotient. -/
theorem lift_power (hp : p.Prime) {A B : List Nat → Int}
    (hA : ∀ σ ∈ X.simplices, σ.length = q + 2 → coboundary A σ = p * B σ) (m : Nat) (e : Int)
    (he : ∀ k, m = k + 1 → actD (kdeg q) p (stepV (ZMod 0) p m) (bv (ZMod 0) (List.replicate p false)) =
      (Int.cast (R := ZMod 0) ((p : Int) * e)) • bv (ZMod 0) (List.replicate p false)) :
    ∃ (C E : List Nat → Int) (g : List Nat → ZMod p), ∀ σ ∈ X.simplices,
      ((C σ : Int) : ZMod p) = wv p p m (List.replicate p (q, fun τ => ((A τ : Int) : ZMod p))) σ ∧
      coboundary C σ = p * E σ ∧
      ((E σ : Int) : ZMod p) = coboundary g σ - (if m = 0 then 0 else
        (-1) ^ m * (e : ZMod p) * wv p p (m - 1) (List.replicate p (q, fun τ => ((A τ : Int) : ZMod p))) σ) := by
  have h2 := hp.two_le
  have hp0 : (p : Int) ≠ 0 := by have := hp.pos; omega
  have hB : ∀ σ ∈ X.simplices, σ.length = q + 3 → coboundary B σ = 0 := by
    intro σ hσ hl
    have h1 : coboundary (coboundary A) σ = 0 := coboundary_coboundary A σ
    have h3 : coboundary (coboundary A) σ = coboundary (fun τ => (p : Int) * B τ) σ := by
      rw [coboundary]
      conv_rhs => rw [coboundary]
      split
      · rfl
      · congr 1
        refine List.map_congr_left fun i hi => ?_
        have hi := List.mem_range.1 hi
        rw [hA (σ.eraseIdx i) (X.faces σ hσ _ (List.eraseIdx_sublist _ _) ?_) (by rw [List.length_eraseIdx_of_lt hi]; omega)]
        intro h0
        have := congrArg List.length h0
        rw [List.length_eraseIdx_of_lt hi] at this
        simp at this
        omega
    rw [h1, cob_mul] at h3
    exact (mul_eq_zero.1 h3.symm).resolve_left hp0
  obtain ⟨wz, hwz⟩ := exists_wz h2 m
  obtain ⟨wz', hwz'⟩ := exists_wz h2 (m - 1)
  have hrep : ∀ n : Nat, ((List.replicate p (q, A)).map fun x => (x.1, fun τ => ((x.2 τ : Int) : ZMod n))) =
      List.replicate p (q, fun τ => ((A τ : Int) : ZMod n)) := fun n => by rw [List.map_replicate]
  have hrep' : ∀ n : Nat, ((List.replicate p false).map fun a => (kdeg q a, kval (fun τ => ((A τ : Int) : ZMod n))
      (fun τ => ((B τ : Int) : ZMod n)) a)) = List.replicate p (q, fun τ => ((A τ : Int) : ZMod n)) := fun n => by
    rw [List.map_replicate]; rfl
  -- the sum over the words with one letter `true`
  let T : List Nat → Int := fun σ => ∑ j ∈ Finset.range p, pySign ((j : Int) * q) *
    wz ((List.replicate j false ++ true :: List.replicate (p - 1 - j) false).map fun a => (kdeg q a, kval A B a)) σ
  have hT : ∀ n : Nat, ∀ σ, σ ≠ [] → wu p n m (kdeg q) (kval (fun τ => ((A τ : Int) : ZMod n))
      (fun τ => ((B τ : Int) : ZMod n))) (∑ j ∈ Finset.range p, tw (ZMod n) q p j) σ = ((T σ : Int) : ZMod n) := by
    intro n σ hσ
    rw [wu_tw, Int.cast_sum]
    refine Finset.sum_congr rfl fun j _ => ?_
    rw [cast_words, hwz n _ σ hσ, Int.cast_mul]
    rfl
  have hd0 := kval_d (n := 0) (X := X) (q := q) (A := fun τ => Int.cast (R := ZMod 0) (A τ)) (B := fun τ => Int.cast (R := ZMod 0) (B τ)) (c := (Int.cast (R := ZMod 0) (p : Int)))
    (fun σ hσ hl => by rw [cast_cob, hA σ hσ hl, Int.cast_mul])
    (fun σ hσ hl => by rw [cast_cob, hB σ hσ hl, Int.cast_zero])
  have hdp := kval_d (n := p) (X := X) (q := q) (A := fun τ => ((A τ : Int) : ZMod p)) (B := fun τ => ((B τ : Int) : ZMod p)) (c := 0)
    (fun σ hσ hl => by rw [cast_cob, hA σ hσ hl, Int.cast_mul]; simp)
    (fun σ hσ hl => by rw [cast_cob, hB σ hσ hl, Int.cast_zero])
  have hdp' : ∀ a (σ : List Nat), σ ∈ X.simplices →
      Finsupp.linearCombination (ZMod p) (fun y => v2 (kdeg q) (kval (fun τ => ((A τ : Int) : ZMod p)) (fun τ => ((B τ : Int) : ZMod p))) (y, σ))
        ((fun _ => 0 : Bool → (Bool →₀ ZMod p)) a) =
      if σ.length = kdeg q a + 2 then coboundary (kval (fun τ => ((A τ : Int) : ZMod p)) (fun τ => ((B τ : Int) : ZMod p)) a) σ else 0 := by
    intro a σ hσ
    rw [← hdp a σ hσ]
    cases a <;> simp
  obtain ⟨g, hg⟩ := wu_norm hp hdp' m (length_tw (R := ZMod p) (q := q) (j := p - 1) (by omega))
  rw [tw_norm hp.one_le hp.eq_two_or_odd] at hg
  have htens : tens (fun b => if b then 0 else (Int.cast (R := ZMod 0) (p : Int)) • bv (ZMod 0) true) (wd (kdeg q)) (bv (ZMod 0) (List.replicate p false)) =
      (Int.cast (R := ZMod 0) (p : Int)) • ∑ j ∈ Finset.range p, tw (ZMod 0) q p j := by
    rw [tens_single, one_smul, tensK_tw]
  have hpw : ∀ σ, wu p 0 m (kdeg q) (kval (fun τ => Int.cast (R := ZMod 0) (A τ)) (fun τ => Int.cast (R := ZMod 0) (B τ)))
      (bv (ZMod 0) (List.replicate p false)) σ = wv p 0 m (List.replicate p (q, fun τ => Int.cast (R := ZMod 0) (A τ))) σ := by
    intro σ; rw [wu_single, hrep', one_mul]
  refine ⟨fun σ => wz (List.replicate p (q, A)) σ,
    fun σ => (-1) ^ m * (T σ - if m = 0 then 0 else e * wz' (List.replicate p (q, A)) σ),
    fun σ => (-1) ^ m * g σ, fun σ hσ => ?_⟩
  have hne := X.nonempty σ hσ
  refine ⟨by rw [← hwz p _ σ hne, hrep], int_of_zmod ?_, ?_⟩
  · rw [← cast_cob]
    have hcob : coboundary (fun τ => Int.cast (R := ZMod 0) (wz (List.replicate p (q, A)) τ)) σ =
        coboundary (wu p 0 m (kdeg q) (kval (fun τ => Int.cast (R := ZMod 0) (A τ)) (fun τ => Int.cast (R := ZMod 0) (B τ)))
          (bv (ZMod 0) (List.replicate p false))) σ := by
      unfold coboundary
      split
      · rfl
      · rename_i hl
        congr 1
        refine List.map_congr_left fun i hi => ?_
        have hi := List.mem_range.1 hi
        rw [hpw, ← hrep, hwz 0 _ _ (eraseIdx_inc (inc_of_mem hσ) hi (by omega)).2]
    rw [hcob]
    cases m with
    | zero =>
      rw [wu_zero_bd h2 (by omega) hσ hd0, htens, wu_smul, hT 0 σ hne]
      push_cast
      simp
    | succ m =>
      have h := wu_succ_bd (m := m) h2 (by omega) hσ hd0 (rep_supported (R := ZMod 0) (p := p))
      rw [htens, wu_smul, hT 0 σ hne, he m rfl, wu_smul, wu_single, hrep', one_mul, ← hrep] at h
      have h' := hwz' 0 (List.replicate p (q, A)) σ hne
      rw [Nat.add_sub_cancel] at h'
      rw [h'] at h
      have h5 : ((-1 : ZMod 0) ^ (m + 1)) * (-1) ^ (m + 1) = 1 := by rw [← mul_pow]; simp
      rw [← one_mul (coboundary _ σ), ← h5, mul_assoc, h]
      beta_reduce
      rw [if_neg (by omega)]
      push_cast
      ring
  · push_cast
    rw [← hT p σ hne, hg σ hσ, cob_mul]
    split
    · simp
    · rw [← hrep, hwz' p _ σ hne]
      push_cast
      ring

end Comch.Coch
