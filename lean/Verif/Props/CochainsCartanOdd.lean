import Verif.Lib.OddCartanEval
import Verif.Props.CochainsVanish
import Verif.Props.CochainsRing

/-! # The Cartan formula at odd primes: C119 -/

set_option linter.unusedSectionVars false

namespace Comch.OddP
open Comch.Spec Comch.Coch Elem SurjComp SurjElem SurjMay Contract Comch.Props
open Finsupp (single)

variable {p m a b n : Nat} {X : OrderedComplex} {σ : List Nat} {α β : List Nat → ZMod p}

/-- Zero in cohomology, in degree `n`. -/
def NullAt (X : OrderedComplex) (n : Nat) (f : List Nat → ZMod p) : Prop :=
  ∃ γ : List Nat → ZMod p, ∀ σ ∈ X.simplices, σ.length = n + 1 → f σ = coboundary γ σ

theorem NullAt.zero : NullAt (p := p) X n (fun _ => 0) := ⟨fun _ => 0, fun σ _ _ => (cob_zero σ).symm⟩

theorem NullAt.add {f g : List Nat → ZMod p} (hf : NullAt X n f) (hg : NullAt X n g) : NullAt X n (fun σ => f σ + g σ) := by
  obtain ⟨γ, h⟩ := hf
  obtain ⟨ε, h'⟩ := hg
  exact ⟨fun τ => γ τ + ε τ, fun σ hσ hl => by beta_reduce; rw [coboundary_add, h σ hσ hl, h' σ hσ hl]⟩

theorem NullAt.mul {f : List Nat → ZMod p} (c : ZMod p) (hf : NullAt X n f) : NullAt X n (fun σ => c * f σ) := by
  obtain ⟨γ, h⟩ := hf
  exact ⟨fun τ => c * γ τ, fun σ hσ hl => by beta_reduce; rw [cob_mul, h σ hσ hl]⟩

theorem NullAt.sum {ι : Type} {s : Finset ι} {f : ι → List Nat → ZMod p} (h : ∀ i ∈ s, NullAt X n (f i)) :
    NullAt X n (fun σ => ∑ i ∈ s, f i σ) := by
  classical
  induction s using Finset.induction_on with
  | empty => simpa using NullAt.zero
  | insert i s hi ih =>
    simp only [Finset.sum_insert hi]
    exact (h i (by simp)).add (ih fun j hj => h j (by simp [hj]))

theorem NullAt.congr {f g : List Nat → ZMod p} (hf : NullAt X n f) (h : ∀ σ ∈ X.simplices, f σ = g σ) : NullAt X n g := by
  obtain ⟨γ, h'⟩ := hf
  exact ⟨γ, fun σ hσ hl => by rw [← h σ hσ, h' σ hσ hl]⟩

/-! ### products -/

theorem Dv_len (hp : 2 ≤ p) {u : Nat} (hσ : σ ∈ X.simplices) (h : Dv p u a α σ ≠ 0) : (σ.length : Int) = p * a - u + 1 := by
  have := Dv_deg hp (inc_of_mem hσ) h
  rw [ldim] at this
  omega

theorem faces_mem (hσ : σ ∈ X.simplices) {f : List Nat} (hf : f ∈ Gs σ) : f ∈ X.simplices := X.faces σ hσ f hf.2 hf.1

theorem pair_eq (hp : 2 ≤ p) (hσ : σ ∈ X.simplices) {u v A B : Nat} (hA : (A : Int) = p * a - u) (hB : (B : Int) = p * b - v) :
    wv 2 p 0 [(A, Dv p u a α), (B, Dv p v b β)] σ = pairV (Dv p u a α) (Dv p v b β) (w 2 p 0 σ) :=
  evF_pairV (fun f hf h => by have := Dv_len hp (faces_mem hσ hf) h; omega) (fun f hf h => by have := Dv_len hp (faces_mem hσ hf) h; omega)
    (w2_TS (p := p) (by omega) (inc_of_mem hσ))

theorem pair_zero (hp : 2 ≤ p) (hσ : σ ∈ X.simplices) {φ ψ : List Nat → ZMod p}
    (h : (∀ f ∈ X.simplices, φ f = 0) ∨ ∀ f ∈ X.simplices, ψ f = 0) : pairV φ ψ (w 2 p 0 σ) = 0 := by
  refine fun_ext_supported (f := pairV φ ψ) (g := 0) (fun k hk => ?_) (w2_TS (p := p) (by omega) (inc_of_mem hσ))
  obtain ⟨f, g, rfl⟩ := List.length_eq_two.1 hk.2.1
  rw [pairV_single, LinearMap.zero_apply, one_mul]
  rcases h with h | h
  · rw [h f (faces_mem hσ (hk.1 f (by simp))), zero_mul]
  · rw [h g (faces_mem hσ (hk.1 g (by simp))), mul_zero]

theorem pair_smul (hp : 2 ≤ p) (hσ : σ ∈ X.simplices) {φ ψ : List Nat → ZMod p} (c c' : ZMod p) :
    pairV (fun f => c * φ f) (fun f => c' * ψ f) (w 2 p 0 σ) = c * c' * pairV φ ψ (w 2 p 0 σ) := by
  refine fun_ext_supported (f := pairV (fun f => c * φ f) (fun f => c' * ψ f)) (g := (c * c') • pairV φ ψ) (fun k hk => ?_)
    (w2_TS (p := p) (by omega) (inc_of_mem hσ))
  obtain ⟨f, g, rfl⟩ := List.length_eq_two.1 hk.2.1
  rw [LinearMap.smul_apply, pairV_single, pairV_single, smul_eq_mul]
  ring

theorem Dv_cocycle (hp : 2 ≤ p) (hp2 : p % 2 = 1) (hα : IsCocycle X a α) (u A : Nat) : IsCocycle X A (Dv p u a α) :=
  fun _ hσ _ => wv_cocycle hp (Or.inr hp2) hα hσ

theorem pair_null (hp : 2 ≤ p) (hp2 : p % 2 = 1) (hβ : IsCocycle X b β) {u v : Nat}
    (h : ∃ γ : List Nat → ZMod p, ∀ σ ∈ X.simplices, Dv p u a α σ = coboundary γ σ) :
    NullAt X n (fun σ => pairV (Dv p u a α) (Dv p v b β) (w 2 p 0 σ)) := by
  by_cases h1 : (u : Int) ≤ p * a
  swap
  · exact NullAt.zero.congr fun σ hσ => (pair_zero hp hσ (Or.inl fun f hf => by
      by_contra hne
      have := Dv_len hp hf hne
      have := List.length_pos_iff.2 (inc_of_mem hf).2
      omega)).symm
  by_cases h2 : (v : Int) ≤ p * b
  swap
  · exact NullAt.zero.congr fun σ hσ => (pair_zero hp hσ (Or.inr fun f hf => by
      by_contra hne
      have := Dv_len hp hf hne
      have := List.length_pos_iff.2 (inc_of_mem hf).2
      omega)).symm
  obtain ⟨A, hA⟩ := Int.eq_ofNat_of_zero_le (show (0 : Int) ≤ p * a - u by omega)
  obtain ⟨B, hB⟩ := Int.eq_ofNat_of_zero_le (show (0 : Int) ≤ p * b - v by omega)
  obtain ⟨γ, hγ⟩ := h
  have hp1 : p ≠ 1 := by omega
  obtain ⟨ω, hω⟩ := C115_well_defined (X := X) (a := A) (b := B) (α := Dv p u a α) (α' := fun _ => 0) (β := Dv p v b β) (β' := Dv p v b β) hp1
    (fun σ _ _ => cob_zero σ) (Dv_cocycle hp hp2 hβ v B) ⟨γ, fun σ hσ _ => by rw [hγ σ hσ, zero_add]⟩ ⟨fun _ => 0, fun σ _ _ => by rw [cob_zero, add_zero]⟩ n
  refine ⟨ω, fun σ hσ hl => ?_⟩
  have := hω σ hσ hl
  rw [cochain_cup hp1 hσ, cochain_cup hp1 hσ, wv_zero_left, zero_add, pair_eq hp hσ hA.symm hB.symm] at this
  exact this

theorem Dv_low (hp : 2 ≤ p) (hσ : σ ∈ X.simplices) {u : Nat} (h : (p * a - u : Int) < a) : Dv p u a α σ = 0 := by
  by_contra hne
  exact hne (wv_small hp (by omega) (inc_of_mem hσ) α (by have := Dv_len hp hσ hne; omega))

/-! ### the sums -/

/-- The indices of the term number `k`. -/
def idx (m a b s e1 e2 k : Nat) : Nat × Nat :=
  ((((a : Int) - 2 * k) * m - e1).toNat, (((b : Int) - 2 * (s - k : Nat)) * m - e2).toNat)

/-- The numbers of the terms with indices. -/
def inRange (m a b s e1 e2 : Nat) : Finset Nat :=
  (Finset.range (s + 1)).filter fun k => (e1 : Int) ≤ ((a : Int) - 2 * k) * m ∧ (e2 : Int) ≤ ((b : Int) - 2 * (s - k : Nat)) * m

theorem group (hp : p.Prime) (hm : p = 2 * m + 1) (hα : IsCocycle X a α) (hβ : IsCocycle X b β) (s : Nat) {e1 e2 D : Nat}
    (h1 : e1 ≤ 1) (h2 : e2 ≤ 1) (hD : (D : Int) + e1 + e2 = (a + b - 2 * s) * m) (n : Nat) :
    NullAt X n (fun σ => ∑ z ∈ Finset.antidiagonal D, pairV (Dv p (2 * z.1 + e1) a α) (Dv p (2 * z.2 + e2) b β) (w 2 p 0 σ) -
      ∑ k ∈ inRange m a b s e1 e2,
        pairV (Dv p (2 * (idx m a b s e1 e2 k).1 + e1) a α) (Dv p (2 * (idx m a b s e1 e2 k).2 + e2) b β) (w 2 p 0 σ)) := by
  have hm0 : 0 < m := by have := hp.two_le; omega
  have hp2 : p % 2 = 1 := by omega
  have hinj : Set.InjOn (idx m a b s e1 e2) (inRange m a b s e1 e2 : Set Nat) := by
    intro k hk l hl h
    simp only [inRange, Finset.coe_filter, Set.mem_setOf_eq, Finset.mem_range] at hk hl
    have := congrArg Prod.fst h
    simp only [idx] at this
    have e : ((a : Int) - 2 * k) * m = ((a : Int) - 2 * l) * m := by omega
    have := mul_right_cancel₀ (by exact_mod_cast hm0.ne') e
    omega
  have hsub : (inRange m a b s e1 e2).image (idx m a b s e1 e2) ⊆ Finset.antidiagonal D := by
    intro z hz
    obtain ⟨k, hk, rfl⟩ := Finset.mem_image.1 hz
    simp only [inRange, Finset.mem_filter, Finset.mem_range] at hk
    rw [Finset.mem_antidiagonal]
    simp only [idx]
    have e : ((a : Int) + b - 2 * s) * m = ((a : Int) - 2 * k) * m + ((b : Int) - 2 * (s - k : Nat)) * m := by
      rw [Nat.cast_sub (by omega)]; ring
    omega
  refine (NullAt.sum (p := p) (s := Finset.antidiagonal D \ (inRange m a b s e1 e2).image (idx m a b s e1 e2))
    (f := fun z σ => pairV (Dv p (2 * z.1 + e1) a α) (Dv p (2 * z.2 + e2) b β) (w 2 p 0 σ)) (fun z hz => ?_)).congr fun σ hσ => ?_
  · obtain ⟨hz1, hz2⟩ := Finset.mem_sdiff.1 hz
    rw [Finset.mem_antidiagonal] at hz1
    by_cases hs : ∃ t : Int, ((z.1 : Int) + e1) = (a - 2 * t) * m
    swap
    · refine pair_null hp.two_le hp2 hβ (vanish hp hm hα _ fun t ht => hs ⟨t, ?_⟩)
      rw [← ht]
      omega
    obtain ⟨t, ht⟩ := hs
    have ht' : ((z.2 : Int) + e2) = (b - 2 * (s - t)) * m := by
      have e : ((a : Int) + b - 2 * s) * m = ((a : Int) - 2 * t) * m + ((b : Int) - 2 * (s - t)) * m := by ring
      omega
    have hpe : (p : Int) = 2 * m + 1 := by exact_mod_cast hm
    have hmi : (1 : Int) ≤ m := by exact_mod_cast hm0
    by_cases t0 : 0 ≤ t
    swap
    · refine NullAt.zero.congr fun σ hσ => (pair_zero hp.two_le hσ (Or.inl fun f hf => Dv_low hp.two_le hf ?_)).symm
      have e : (p : Int) * a - ((2 * z.1 + e1 : Nat) : Int) = a + 4 * (t * m) + e1 := by
        push_cast
        linear_combination (a : Int) * hpe - 2 * ht
      rw [e]
      have : t * m ≤ (-1) * m := mul_le_mul_of_nonneg_right (by omega) (by omega)
      omega
    by_cases t1 : t ≤ s
    swap
    · refine NullAt.zero.congr fun σ hσ => (pair_zero hp.two_le hσ (Or.inr fun f hf => Dv_low hp.two_le hf ?_)).symm
      have e : (p : Int) * b - ((2 * z.2 + e2 : Nat) : Int) = b + 4 * ((s - t) * m) + e2 := by
        push_cast
        linear_combination (b : Int) * hpe - 2 * ht'
      rw [e]
      have : ((s : Int) - t) * m ≤ (-1) * m := mul_le_mul_of_nonneg_right (by omega) (by omega)
      omega
    · exfalso
      apply hz2
      obtain ⟨k, rfl⟩ := Int.eq_ofNat_of_zero_le t0
      have hk : k ≤ s := by exact_mod_cast t1
      refine Finset.mem_image.2 ⟨k, ?_, ?_⟩
      · rw [inRange, Finset.mem_filter, Finset.mem_range, Nat.cast_sub hk]
        omega
      · rw [idx, Nat.cast_sub hk]
        ext
        · simp only; omega
        · simp only; omega
  · beta_reduce
    rw [← Finset.sum_sdiff hsub, Finset.sum_image hinj]
    ring

theorem steenrod_term [hF : Fact p.Prime] (h2 : p ≠ 2) (hm : p = 2 * m + 1) {q : Nat} (hq : q % 2 = 0 ∨ p < 47) (s : Nat) (e : Bool)
    (γ : List Nat → ZMod p) (hσ : σ ∈ X.simplices) :
    cochain (steenrodValue p s q e γ) σ = if (e.toNat : Int) ≤ ((q : Int) - 2 * s) * m then
      ((-1) ^ s * nu p (-(q : Int))) * Dv p (2 * (((q : Int) - 2 * s) * m - e.toNat).toNat + e.toNat) q γ σ else 0 := by
  have hp := hF.out
  have h := C118_operation (q := q) p h2 hq s e γ hσ
  have he : (if e then (1 : Int) else 0) = e.toNat := by cases e <;> rfl
  have hE : e.toNat ≤ 1 := by cases e <;> decide
  have hx : ((q : Int) - 2 * s) * ((p : Int) - 1) = 2 * (((q : Int) - 2 * s) * m) := by rw [hm]; push_cast; ring
  rw [he, hx] at h
  split
  · rename_i hle
    rw [h.1 (2 * (((q : Int) - 2 * s) * m - e.toNat).toNat + e.toNat) (by push_cast; omega), zpow_natCast, cochain, structure_val hp.two_le hσ]
  · exact h.2.1 (by omega)

theorem steenrod_len [hF : Fact p.Prime] (h2 : p ≠ 2) (hm : p = 2 * m + 1) {q : Nat} (hq : q % 2 = 0 ∨ p < 47) (s : Nat) (e : Bool)
    (γ : List Nat → ZMod p) (hσ : σ ∈ X.simplices) (hne : cochain (steenrodValue p s q e γ) σ ≠ 0) :
    σ.length = q + 2 * s * (p - 1) + e.toNat + 1 := by
  rw [steenrod_term h2 hm hq s e γ hσ] at hne
  split at hne
  · rename_i hle
    have := Dv_len hF.out.two_le hσ (right_ne_zero_of_mul hne)
    have hpe : (p : Int) = 2 * m + 1 := by exact_mod_cast hm
    have e1 : (p : Int) * q = 2 * (((q : Int) - 2 * s) * m) + 2 * (2 * (s * m)) + q := by linear_combination (q : Int) * hpe
    have e2 : 2 * s * (p - 1) = 2 * (2 * (s * m)) := by rw [hm, Nat.add_sub_cancel]; ring
    rw [e2]
    have e3 : ((s * m : Nat) : Int) = s * m := by push_cast; rfl
    push_cast at this
    omega
  · exact absurd rfl hne

/-- One term of the formula. -/
theorem cup_term [hF : Fact p.Prime] (h2 : p ≠ 2) (hm : p = 2 * m + 1) (ha : a % 2 = 0 ∨ p < 47) (hb : b % 2 = 0 ∨ p < 47) {s k : Nat}
    (hk : k ∈ Finset.range (s + 1)) (e1 e2 : Bool) {A B : Nat} (hA : A = a + 2 * k * (p - 1) + e1.toNat) (hB : B = b + 2 * (s - k) * (p - 1) + e2.toNat)
    (hσ : σ ∈ X.simplices) :
    cochain (cupValue p 0 A (cochain (steenrodValue p k a e1 α)) B (cochain (steenrodValue p ((s - k : Nat) : Int) b e2 β))) σ =
    if k ∈ inRange m a b s e1.toNat e2.toNat then (-1) ^ s * (nu p (-(a : Int)) * nu p (-(b : Int))) *
      pairV (Dv p (2 * (idx m a b s e1.toNat e2.toNat k).1 + e1.toNat) a α) (Dv p (2 * (idx m a b s e1.toNat e2.toNat k).2 + e2.toNat) b β) (w 2 p 0 σ)
    else 0 := by
  have hp := hF.out
  have hp1 : p ≠ 1 := hp.ne_one
  rw [cochain_cup hp1 hσ]
  have h := evF_pairV (σ := σ) (p := A) (q := B) (φ := cochain (steenrodValue p k a e1 α)) (ψ := cochain (steenrodValue p ((s - k : Nat) : Int) b e2 β))
    (fun f hf hne => by rw [steenrod_len h2 hm ha k e1 α (faces_mem hσ hf) hne, hA])
    (fun f hf hne => by rw [steenrod_len h2 hm hb (s - k) e2 β (faces_mem hσ hf) hne, hB]) (w2_TS (p := p) hp1 (inc_of_mem hσ))
  refine h.trans ?_
  have hk' : k ≤ s := by have := Finset.mem_range.1 hk; omega
  split
  · rename_i hr
    have hr := (Finset.mem_filter.1 hr).2
    rw [pairV_congr (fun f hf => (steenrod_term h2 hm ha k e1 α (faces_mem hσ hf)).trans (if_pos hr.1))
      (fun f hf => (steenrod_term h2 hm hb (s - k) e2 β (faces_mem hσ hf)).trans (if_pos hr.2)) (w2_TS (p := p) hp1 (inc_of_mem hσ)), pair_smul hp.two_le hσ]
    congr 1
    rw [show (-1 : ZMod p) ^ s = (-1) ^ k * (-1) ^ (s - k) by rw [← pow_add]; congr 1; omega]
    ring
  · rename_i hr
    refine pair_zero hp.two_le hσ ?_
    by_cases c1 : (e1.toNat : Int) ≤ ((a : Int) - 2 * k) * m
    · refine Or.inr fun f hf => (steenrod_term h2 hm hb (s - k) e2 β hf).trans (if_neg fun c2 => hr ?_)
      exact Finset.mem_filter.2 ⟨hk, c1, c2⟩
    · exact Or.inl fun f hf => (steenrod_term h2 hm ha k e1 α hf).trans (if_neg c1)

theorem nu_add (p : Nat) [Fact p.Prime] {m : Nat} (hm : p = 2 * m + 1) (a b : Nat) :
    nu p (-((a + b : Nat) : Int)) * sg (ZMod p) (a * b * m) = nu p (-(a : Int)) * nu p (-(b : Int)) := by
  have hm2 : (p - 1) / 2 = m := by omega
  have hne := factorial_ne_zero p hm
  have hn1 : (-1 : ZMod p) ≠ 0 := neg_ne_zero.2 one_ne_zero
  have hsg : sg (ZMod p) (a * b * m) = (-1) ^ ((a * b * m : Nat) : Int) := by
    rw [zpow_natCast, ← sg_nat]; push_cast; rfl
  rw [nu, nu, nu, hm2, hsg, mul_mul_mul_comm, ← zpow_add₀ hn1, ← zpow_add₀ hne, mul_right_comm, ← zpow_add₀ hn1,
    show -((a + b : Nat) : Int) = -(a : Int) + -(b : Int) by push_cast; ring]
  congr 1
  rw [neg_one_zpow_eq, neg_one_zpow_eq]
  congr 1
  apply pySign_eq_of_zmod
  have e1 : (-(a : Int) + -(b : Int)) * (-(a : Int) + -(b : Int) - 1) / 2 = -(a : Int) * (-(a : Int) - 1) / 2 + -(b : Int) * (-(b : Int) - 1) / 2 + a * b := by
    obtain ⟨x, hx⟩ := Int.even_mul_pred_self (-(a : Int))
    obtain ⟨y, hy⟩ := Int.even_mul_pred_self (-(b : Int))
    have : (-(a : Int) + -(b : Int)) * (-(a : Int) + -(b : Int) - 1) = (x + y + a * b) * 2 := by linear_combination hx + hy
    rw [this, hx, hy]
    omega
  rw [e1]
  have h22 : (2 : ZMod 2) = 0 := by decide
  simp only [Int.cast_mul, Int.cast_add, Int.cast_natCast, Nat.cast_mul, Int.cast_one]
  linear_combination ((a : ZMod 2) * b * m) * h22

theorem sum_terms [hF : Fact p.Prime] (h2 : p ≠ 2) (hm : p = 2 * m + 1) (ha : a % 2 = 0 ∨ p < 47) (hb : b % 2 = 0 ∨ p < 47) (s : Nat)
    (e1 e2 : Bool) (hσ : σ ∈ X.simplices) :
    ∑ k ∈ Finset.range (s + 1), cochain (cupValue p 0 (a + 2 * k * (p - 1) + e1.toNat) (cochain (steenrodValue p k a e1 α))
        (b + 2 * (s - k) * (p - 1) + e2.toNat) (cochain (steenrodValue p ((s - k : Nat) : Int) b e2 β))) σ =
    (-1) ^ s * (nu p (-(a : Int)) * nu p (-(b : Int))) * ∑ k ∈ inRange m a b s e1.toNat e2.toNat,
      pairV (Dv p (2 * (idx m a b s e1.toNat e2.toNat k).1 + e1.toNat) a α) (Dv p (2 * (idx m a b s e1.toNat e2.toNat k).2 + e2.toNat) b β) (w 2 p 0 σ) := by
  rw [Finset.sum_congr rfl fun k hk => cup_term h2 hm ha hb hk e1 e2 rfl rfl hσ, Finset.sum_ite_mem, Finset.inter_eq_right.2 (show inRange m a b s e1.toNat e2.toNat ⊆ _ from Finset.filter_subset _ _),
    Finset.mul_sum]

theorem inRange_empty {s e1 e2 : Nat} (h : ((a : Int) + b - 2 * s) * m < e1 + e2) : inRange m a b s e1 e2 = ∅ := by
  refine Finset.eq_empty_of_forall_notMem fun k hk => ?_
  simp only [inRange, Finset.mem_filter, Finset.mem_range] at hk
  have e : ((a : Int) + b - 2 * s) * m = ((a : Int) - 2 * k) * m + ((b : Int) - 2 * (s - k : Nat)) * m := by
    rw [Nat.cast_sub (by omega)]; ring
  omega

theorem left_term [hF : Fact p.Prime] (h2 : p ≠ 2) (hm : p = 2 * m + 1) (hq : (a + b) % 2 = 0 ∨ p < 47) (s : Nat) (e : Bool) (hσ : σ ∈ X.simplices) :
    cochain (steenrodValue p s (a + b) e (cochain (cupValue p 0 a α b β))) σ = if (e.toNat : Int) ≤ ((a : Int) + b - 2 * s) * m then
      ((-1) ^ s * nu p (-((a + b : Nat) : Int))) *
        Dv p (2 * (((a : Int) + b - 2 * s) * m - e.toNat).toNat + e.toNat) (a + b) (wv 2 p 0 [(a, α), (b, β)]) σ else 0 := by
  rw [steenrod_term h2 hm hq s e _ hσ, Nat.cast_add]
  split
  · congr 1
    exact wv_congr_all hF.out.two_le hF.out.ne_one hσ fun f hf _ => cochain_cup hF.out.ne_one hf 0 a b α β
  · rfl

end Comch.OddP

namespace Comch.Props
open Comch.Spec Comch.Coch Elem SurjComp SurjElem SurjMay Contract OddP

variable {a b : Nat} {X : OrderedComplex}

/-- The Cartan formula at an odd prime: `P^s(α ∪ β) = Σ_{k ≤ s} P^k α ∪ P^{s-k} β` on cohomology classes. -/
theorem C119_cartan (p : Nat) [hF : Fact p.Prime] (h2 : p ≠ 2) (hpq : p < 47 ∨ (a % 2 = 0 ∧ b % 2 = 0)) {α β : List Nat → ZMod p}
    (hα : IsCocycle X a α) (hβ : IsCocycle X b β) (s n : Nat) :
    Cohomologous X n (cochain (steenrodValue p s (a + b) false (cochain (cupValue p 0 a α b β))))
      (fun σ => ∑ k ∈ Finset.range (s + 1),
        cochain (cupValue p 0 (a + 2 * k * (p - 1)) (cochain (steenrodValue p k a false α))
          (b + 2 * (s - k) * (p - 1)) (cochain (steenrodValue p ((s - k : Nat) : Int) b false β))) σ) := by
  have hp := hF.out
  obtain ⟨m, hm⟩ : ∃ m, p = 2 * m + 1 := by
    have := hp.eq_two_or_odd
    exact ⟨p / 2, by omega⟩
  have ha : a % 2 = 0 ∨ p < 47 := by tauto
  have hb : b % 2 = 0 ∨ p < 47 := by tauto
  have hab : (a + b) % 2 = 0 ∨ p < 47 := by omega
  by_cases h : (0 : Int) ≤ ((a : Int) + b - 2 * s) * m
  · obtain ⟨D, hD⟩ := Int.eq_ofNat_of_zero_le h
    obtain ⟨γ, hγ⟩ := cartan_odd hp.two_le hm hα hβ (2 * D)
    obtain ⟨ε, hε⟩ := group hp hm hα hβ s (e1 := 0) (e2 := 0) (D := D) (by omega) (by omega) (by push_cast; omega) n
    refine ⟨fun τ => (-1) ^ s * nu p (-((a + b : Nat) : Int)) * γ τ + (-1) ^ s * (nu p (-(a : Int)) * nu p (-(b : Int))) * ε τ, fun σ hσ hl => ?_⟩
    have h1 := sum_terms (α := α) (β := β) h2 hm ha hb s false false hσ
    have h3 := left_term (α := α) (β := β) h2 hm hab s false hσ
    simp only [Bool.toNat_false, add_zero, Nat.cast_zero, sub_zero, hD, Int.toNat_natCast] at h1 h3
    have h4 := hγ σ hσ
    have h5 := hε σ hσ hl
    simp only [add_zero] at h5
    beta_reduce
    rw [h1, h3, if_pos (by omega), h4, coboundary_add, cob_mul, cob_mul, ← h5, rhs, if_pos (by omega), show 2 * D / 2 = D by omega]
    linear_combination ((-1) ^ s * ∑ z ∈ Finset.antidiagonal D, pairV (Dv p (2 * z.1) a α) (Dv p (2 * z.2) b β) (w 2 p 0 σ)) * nu_add p hm a b
  · refine ⟨fun _ => 0, fun σ hσ _ => ?_⟩
    have h1 := sum_terms (α := α) (β := β) h2 hm ha hb s false false hσ
    have h3 := left_term (α := α) (β := β) h2 hm hab s false hσ
    rw [inRange_empty (by simp only [Bool.toNat_false]; omega), Finset.sum_empty, mul_zero] at h1
    simp only [Bool.toNat_false, add_zero] at h1
    beta_reduce
    rw [h1, h3, if_neg (by simp only [Bool.toNat_false]; omega), cob_zero, add_zero]

/-- The Cartan formula for the operations with Bockstein:
`β P^s(α ∪ β) = Σ_{k ≤ s} β P^k α ∪ P^{s-k} β + (-1)^{|α|} P^k α ∪ β P^{s-k} β` on cohomology classes. -/
theorem C119_cartan_bockstein (p : Nat) [hF : Fact p.Prime] (h2 : p ≠ 2) (hpq : p < 47 ∨ (a % 2 = 0 ∧ b % 2 = 0)) {α β : List Nat → ZMod p}
    (hα : IsCocycle X a α) (hβ : IsCocycle X b β) (s n : Nat) :
    Cohomologous X n (cochain (steenrodValue p s (a + b) true (cochain (cupValue p 0 a α b β))))
      (fun σ => ∑ k ∈ Finset.range (s + 1),
        (cochain (cupValue p 0 (a + 2 * k * (p - 1) + 1) (cochain (steenrodValue p k a true α))
          (b + 2 * (s - k) * (p - 1)) (cochain (steenrodValue p ((s - k : Nat) : Int) b false β))) σ +
        (-1) ^ a * cochain (cupValue p 0 (a + 2 * k * (p - 1)) (cochain (steenrodValue p k a false α))
          (b + 2 * (s - k) * (p - 1) + 1) (cochain (steenrodValue p ((s - k : Nat) : Int) b true β))) σ)) := by
  have hp := hF.out
  obtain ⟨m, hm⟩ : ∃ m, p = 2 * m + 1 := by
    have := hp.eq_two_or_odd
    exact ⟨p / 2, by omega⟩
  have ha : a % 2 = 0 ∨ p < 47 := by tauto
  have hb : b % 2 = 0 ∨ p < 47 := by tauto
  have hab : (a + b) % 2 = 0 ∨ p < 47 := by omega
  by_cases h : (1 : Int) ≤ ((a : Int) + b - 2 * s) * m
  · obtain ⟨D, hD⟩ := Int.eq_ofNat_of_zero_le (show (0 : Int) ≤ ((a : Int) + b - 2 * s) * m - 1 by omega)
    obtain ⟨γ, hγ⟩ := cartan_odd hp.two_le hm hα hβ (2 * D + 1)
    obtain ⟨ε, hε⟩ := group hp hm hα hβ s (e1 := 1) (e2 := 0) (D := D) (by omega) (by omega) (by push_cast; omega) n
    obtain ⟨δ, hδ⟩ := group hp hm hα hβ s (e1 := 0) (e2 := 1) (D := D) (by omega) (by omega) (by push_cast; omega) n
    refine ⟨fun τ => (-1) ^ s * nu p (-((a + b : Nat) : Int)) * γ τ + (-1) ^ s * (nu p (-(a : Int)) * nu p (-(b : Int))) * (ε τ + (-1) ^ a * δ τ),
      fun σ hσ hl => ?_⟩
    have h1 := sum_terms (α := α) (β := β) h2 hm ha hb s true false hσ
    have h1' := sum_terms (α := α) (β := β) h2 hm ha hb s false true hσ
    have h3 := left_term (α := α) (β := β) h2 hm hab s true hσ
    simp only [Bool.toNat_true, Bool.toNat_false, add_zero, Nat.cast_one, hD, Int.toNat_natCast] at h1 h1' h3
    have h4 := hγ σ hσ
    have h5 := hε σ hσ hl
    have h6 := hδ σ hσ hl
    simp only [add_zero] at h5 h6
    beta_reduce
    rw [Finset.sum_add_distrib, ← Finset.mul_sum, h1, h1', h3, if_pos (by omega), h4, coboundary_add, cob_mul, cob_mul, coboundary_add, cob_mul, ← h5, ← h6, rhs,
      if_neg (by omega), show (2 * D + 1) / 2 = D by omega, Finset.sum_add_distrib, ← Finset.mul_sum]
    linear_combination ((-1) ^ s * ((-1) ^ a * ∑ z ∈ Finset.antidiagonal D, pairV (Dv p (2 * z.1) a α) (Dv p (2 * z.2 + 1) b β) (w 2 p 0 σ) +
      ∑ z ∈ Finset.antidiagonal D, pairV (Dv p (2 * z.1 + 1) a α) (Dv p (2 * z.2) b β) (w 2 p 0 σ))) * nu_add p hm a b
  · refine ⟨fun _ => 0, fun σ hσ _ => ?_⟩
    have h1 := sum_terms (α := α) (β := β) h2 hm ha hb s true false hσ
    have h1' := sum_terms (α := α) (β := β) h2 hm ha hb s false true hσ
    have h3 := left_term (α := α) (β := β) h2 hm hab s true hσ
    rw [inRange_empty (by simp only [Bool.toNat_false, Bool.toNat_true]; omega), Finset.sum_empty, mul_zero] at h1 h1'
    simp only [Bool.toNat_false, Bool.toNat_true, add_zero] at h1 h1'
    beta_reduce
    rw [Finset.sum_add_distrib, ← Finset.mul_sum, h1, h1', h3, if_neg (by simp only [Bool.toNat_true]; omega), cob_zero]
    ring

/-- A cocycle of degree 1, and its square. -/
def exStep : List Nat → ZMod 3 := coboundary fun τ => ((τ.sum : Nat) : ZMod 3)
/-- The square of `exStep`. -/
def exStepSq : List Nat → ZMod 3 := cochain (cupValue 3 0 1 exStep 1 exStep)

/-- All simplices with vertices in the natural numbers. -/
def exAll : OrderedComplex :=
  ⟨{σ | σ.Pairwise (· < ·) ∧ σ ≠ []}, fun _ h => h.1, fun _ h => h.2, fun _ h _ h1 h2 => ⟨h.1.sublist h1, h2⟩⟩

theorem exStep_cocycle : IsCocycle exAll 1 exStep := by
  intro σ hσ hl
  match σ, hl with
  | [a, b, c], _ =>
    have e3 : List.range 3 = [0, 1, 2] := rfl
    have e2 : List.range 2 = [0, 1] := rfl
    simp [exStep, coboundary, e3, e2]
    ring

/-- The formulas hold for the squares of `exStep` and for `exStep` itself ... -/
example : Cohomologous exAll 6 (cochain (steenrodValue 3 1 2 false (cochain (cupValue 3 0 2 exStepSq 0 fun _ => 1))))
      (fun σ => cochain (cupValue 3 0 2 (cochain (steenrodValue 3 0 2 false exStepSq)) 4 (cochain (steenrodValue 3 1 0 false fun _ => 1))) σ +
        cochain (cupValue 3 0 6 (cochain (steenrodValue 3 1 2 false exStepSq)) 0 (cochain (steenrodValue 3 0 0 false fun _ => 1))) σ) ∧
    Cohomologous exAll 2 (cochain (steenrodValue 3 0 1 true (cochain (cupValue 3 0 1 exStep 0 fun _ => 1))))
      (fun σ => cochain (cupValue 3 0 2 (cochain (steenrodValue 3 0 1 true exStep)) 0 (cochain (steenrodValue 3 0 0 false fun _ => 1))) σ +
        (-1) ^ 1 * cochain (cupValue 3 0 1 (cochain (steenrodValue 3 0 1 false exStep)) 1 (cochain (steenrodValue 3 0 0 true fun _ => 1))) σ) := by
  haveI : Fact (Nat.Prime 3) := ⟨Nat.prime_three⟩
  have h1 : IsCocycle exAll 0 (fun _ => (1 : ZMod 3)) := by
    intro σ hσ hl
    rw [coboundary, if_neg (by omega), hl]
    simp [List.range_succ]
  have hS : IsCocycle exAll 2 exStepSq := C115_cocycle (by norm_num) exStep_cocycle exStep_cocycle 2
  have h := C119_cartan 3 (by norm_num) (Or.inl (by norm_num)) hS h1 1 6
  have h' := C119_cartan_bockstein 3 (by norm_num) (Or.inl (by norm_num)) exStep_cocycle h1 0 2
  simp [Finset.sum_range_succ] at h h'
  exact ⟨by simpa using h, by simpa using h'⟩

/-- ... and the terms are not zero. -/
example : (cupValue 3 0 6 (cochain (steenrodValue 3 1 2 false exStepSq)) 0 (cochain (steenrodValue 3 0 0 false fun _ => 1))
      [0, 1, 2, 3, 4, 5, 6]).toOption = some 1 ∧
    (cupValue 3 0 2 (cochain (steenrodValue 3 0 1 true exStep)) 0 (cochain (steenrodValue 3 0 0 false fun _ => 1)) [0, 2, 4]).toOption = some 2 := by
  decide +kernel

end Comch.Props
