import Verif.Lib.CochainsPZero

/-! # `P^0` at odd primes: C109 -/

set_option linter.unusedSectionVars false

namespace Comch.Coch
open Comch.Spec Elem SurjComp SurjElem IsPerm SurjMay Comch.Props
open BElem (stepV stepV_supported PermSet stepV_mul)
open Finsupp (single)

variable {p q : Nat} {σ : List Nat}

/-- The faces of one simplex. -/
def faceComplex (hσ : Inc σ) : OrderedComplex where
  simplices := {τ | τ.Sublist σ ∧ τ ≠ []}
  increasing := fun _ h => hσ.1.sublist h.1
  nonempty := fun _ h => h.2
  faces := fun _ h _ h1 h2 => ⟨h1.trans h.1, h2⟩

theorem mem_faceComplex (hσ : Inc σ) : σ ∈ (faceComplex hσ).simplices := ⟨List.Sublist.refl _, hσ.2⟩

/-! ### only the power of the simplex itself counts -/

/-- The coefficient of `σ ⊗ ⋯ ⊗ σ`. -/
noncomputable def cf (p d : Nat) (σ : List Nat) : ZMod p := W p p d (bv (ZMod p) [σ]) (List.replicate p σ)

theorem wv_full (hp : p.Prime) (hσ : Inc σ) (d : Nat) (hl : σ.length = q + 1) (α : List Nat → ZMod p) :
    wv p p d (List.replicate p (q, α)) σ = cf p d σ * α σ ^ p := by
  have h := fun_ext_supported (f := evF (List.replicate p (q, α)))
    (g := (α σ ^ p) • (Finsupp.lapply (R := ZMod p) (M := ZMod p) (List.replicate p σ))) (fun k hk => ?_)
    (W_supported (d := d) hp.two_le hp.ne_one hσ)
  · rw [wv, h, LinearMap.smul_apply, Finsupp.lapply_apply, smul_eq_mul, mul_comm]
    rfl
  · rw [evF_single, one_mul, tensorValue_replicate q α p k hk.1, LinearMap.smul_apply, Finsupp.lapply_apply, smul_eq_mul]
    by_cases he : k = List.replicate p σ
    · subst he
      rw [Finsupp.single_eq_same, mul_one, List.map_replicate, List.prod_replicate, if_pos hl]
    · rw [Finsupp.single_eq_of_ne (Ne.symm he), mul_zero]
      have : ∃ f ∈ k, f ≠ σ := by
        by_contra hc
        push Not at hc
        exact he (List.eq_replicate_iff.2 ⟨hk.1, hc⟩)
      obtain ⟨f, hf, hne⟩ := this
      refine List.prod_eq_zero (List.mem_map.2 ⟨f, hf, ?_⟩)
      rw [if_neg]
      intro hlf
      exact hne ((hk.2 f hf).1.eq_of_length (by rw [hlf, hl]))

/-! ### words with the coboundary vanish on small simplices -/

theorem tensorValue_small {γ : List Nat → ZMod p} : ∀ (w : List Bool) (k : SKey), true ∈ w → (∀ f ∈ k, f.length ≤ q + 1) →
    tensorValue (w.map fun a => (zdeg q a, zval γ a)) k = 0
  | [], _, h, _ => by simp at h
  | x :: w, [], _, _ => by simp [tensorValue]
  | x :: w, f :: k, h, hk => by
    rw [List.map_cons, tensorValue]
    cases x with
    | true =>
      rw [if_neg, zero_mul]
      have := hk f (by simp)
      simp only [zdeg, if_true]
      omega
    | false => rw [tensorValue_small w k (by simpa using h) fun g hg => hk g (by simp [hg]), mul_zero]

theorem wu_small (hp : p.Prime) (hσ : Inc σ) (hl : σ.length ≤ q + 1) (m : Nat) {γ : List Nat → ZMod p} {j : Nat} (hj : 1 ≤ j)
    {v : List Bool →₀ ZMod p} (hv : v ∈ Finsupp.supported (ZMod p) (ZMod p) (Cnt p j)) :
    wu p p m (zdeg q) (zval γ) v σ = 0 := by
  refine supp_ind (P := fun v => wu p p m (zdeg q) (zval γ) v σ = 0) (wu_zero σ)
    (fun u v hu hv => by rw [wu_add, hu, hv, add_zero]) (fun w hw c => ?_) hv
  rw [wu_single, wv]
  have : evF (w.map fun a => (zdeg q a, zval γ a)) (W p p m (bv (ZMod p) [σ])) = 0 := by
    refine fun_ext_supported (g := 0) (fun k hk => ?_) (W_supported (d := m) hp.two_le hp.ne_one hσ)
    rw [evF_single, tensorValue_small w k (List.count_pos_iff.1 (by rw [hw.2]; omega)) fun f hf =>
      ((hk.2 f hf).1.length_le).trans hl]
    simp
  rw [this, mul_zero]

theorem cob_small (hp : p.Prime) (hσ : Inc σ) (hl : σ.length = q + 2) (m : Nat) {γ : List Nat → ZMod p} {j : Nat} (hj : 1 ≤ j)
    {v : List Bool →₀ ZMod p} (hv : v ∈ Finsupp.supported (ZMod p) (ZMod p) (Cnt p j)) :
    coboundary (wu p p m (zdeg q) (zval γ) v) σ = 0 := by
  rw [coboundary, if_neg (by omega)]
  refine List.sum_eq_zero fun x hx => ?_
  obtain ⟨i, hi, rfl⟩ := List.mem_map.1 hx
  have hi := List.mem_range.1 hi
  rw [wu_small hp (eraseIdx_inc hσ hi (by omega)) (by rw [List.length_eraseIdx_of_lt hi]; omega) m hj hv, mul_zero]

/-! ### the numbers of letters -/

theorem Lop_cnt {j : Nat} (i : Nat) {v : WV p} (hv : (v : List Bool →₀ ZMod p) ∈ Finsupp.supported (ZMod p) (ZMod p) (Cnt p j)) :
    ((Lop q i v : WV p) : List Bool →₀ ZMod p) ∈ Finsupp.supported (ZMod p) (ZMod p) (Cnt p (j - 1)) := by
  refine lin_supported (S := Cnt p j) (T := Cnt p (j - 1)) (LK q (i % p)) (fun w hw => ?_) hv
  have := LK_supp (R := ZMod p) q (i % p) w
  rwa [hw.1, hw.2] at this

theorem Top_cnt {j : Nat} (hp : 1 ≤ p) {v : WV p} (hv : (v : List Bool →₀ ZMod p) ∈ Finsupp.supported (ZMod p) (ZMod p) (Cnt p j)) :
    ((Top q hp v : WV p) : List Bool →₀ ZMod p) ∈ Finsupp.supported (ZMod p) (ZMod p) (Cnt p j) := by
  show rotZ q p (v : List Bool →₀ ZMod p) ∈ _
  rw [← actD_rho]
  refine actD_supported (S := Cnt p j) _ (fun w hw => hw.1) (fun σ hσ w hw => ⟨length_actL hσ hw.1, ?_⟩)
    (Finsupp.single_mem_supported _ _ (isPerm_rho hp)) hv
  rw [(perm_actL hσ hw.1).count_eq, hw.2]

theorem T_cnt {j : Nat} (hp : 1 ≤ p) (n : Nat) {v : WV p} (hv : (v : List Bool →₀ ZMod p) ∈ Finsupp.supported (ZMod p) (ZMod p) (Cnt p j)) :
    ((((Top q hp - 1) ^ n) v : WV p) : List Bool →₀ ZMod p) ∈ Finsupp.supported (ZMod p) (ZMod p) (Cnt p j) := by
  induction n with
  | zero => exact hv
  | succ n ih =>
    rw [pow_succ', Module.End.mul_apply, LinearMap.sub_apply]
    exact Submodule.sub_mem _ (Top_cnt hp ih) ih

theorem omega_cnt {j : Nat} {v : WV p} (hv : (v : List Bool →₀ ZMod p) ∈ Finsupp.supported (ZMod p) (ZMod p) (Cnt p j)) :
    ((ZigZag.omega p (Lop q) v : WV p) : List Bool →₀ ZMod p) ∈ Finsupp.supported (ZMod p) (ZMod p) (Cnt p (j - 2)) := by
  unfold ZigZag.omega
  rw [LinearMap.sum_apply, AddSubmonoidClass.coe_finsetSum]
  refine Submodule.sum_mem _ fun i _ => ?_
  rw [Module.End.mul_apply]
  exact Lop_cnt (i + 1) (Lop_cnt i hv)

/-- The power of the coboundary. -/
noncomputable def Bw (p : Nat) : WV p := ⟨bv (ZMod p) (List.replicate p true), Finsupp.single_mem_supported _ _ (by simp)⟩

theorem Bw_cnt : ((Bw p : WV p) : List Bool →₀ ZMod p) ∈ Finsupp.supported (ZMod p) (ZMod p) (Cnt p p) :=
  Finsupp.single_mem_supported _ _ ⟨by simp, by simp⟩

theorem omega_pow_cnt (k : Nat) : (((ZigZag.omega p (Lop q) ^ k) (Bw p) : WV p) : List Bool →₀ ZMod p) ∈
    Finsupp.supported (ZMod p) (ZMod p) (Cnt p (p - 2 * k)) := by
  induction k with
  | zero => exact Bw_cnt
  | succ k ih =>
    rw [pow_succ', Module.End.mul_apply, show p - 2 * (k + 1) = p - 2 * k - 2 by omega]
    exact omega_cnt ih

theorem Bw_d : Dop q (Bw p) = 0 := by
  apply Subtype.ext
  show tens zd (wd (zdeg q)) (bv (ZMod p) (List.replicate p true)) = 0
  rw [← pw_bv]
  exact tens_pw (by rw [lin_single, zd, smul_zero]) p

theorem Bw_t (hp : p.Prime) : Top q hp.one_le (Bw p) = Bw p := by
  apply Subtype.ext
  show rotZ q p (bv (ZMod p) (List.replicate p true)) = bv (ZMod p) (List.replicate p true)
  rw [← actD_rho]
  refine actD_inv (isPerm_rho hp.one_le) (Finsupp.single_mem_supported _ _ (by simp)) ?_
  have := rho_pw (deg := zdeg q) (e := q + 1) hp.one_le hp.eq_two_or_odd (V := bv (ZMod p) true)
    (Finsupp.single_mem_supported _ _ (by simp [zdeg]))
  rwa [pw_bv] at this

/-! ### the zig-zag of values -/

theorem wu_double (hp : p.Prime) (hσ : Inc σ) (hl : σ.length = q + 2) {γ : List Nat → ZMod p} (k M : Nat) (hM : M % 2 = 0)
    (hk : 2 * k + 2 < p) :
    wu p p (M + 2) (zdeg q) (zval γ) (((ZigZag.omega p (Lop q) ^ k) (Bw p) : WV p)) σ =
      wu p p M (zdeg q) (zval γ) (((ZigZag.omega p (Lop q) ^ (k + 1)) (Bw p) : WV p)) σ := by
  obtain ⟨h1, h2, h3⟩ := ZigZag.double_step (Lop_hom (q := q) hp.one_le) Lop_per (Lop_rot hp.one_le) Bw_d (Bw_t hp) hp
    (Dop_comm hp.one_le) k
  set y := Lop q 0 ((ZigZag.omega p (Lop q) ^ k) (Bw p)) with hy
  set z := ((Top q hp.one_le - 1) ^ (p - 2)) (Lop q 0 (Lop q (p - 1) ((ZigZag.omega p (Lop q) ^ k) (Bw p)))) with hz
  have cy : (y : List Bool →₀ ZMod p) ∈ Finsupp.supported (ZMod p) (ZMod p) (Cnt p (p - 2 * k - 1)) := Lop_cnt 0 (omega_pow_cnt k)
  have cz : (z : List Bool →₀ ZMod p) ∈ Finsupp.supported (ZMod p) (ZMod p) (Cnt p (p - 2 * k - 1 - 1)) :=
    T_cnt _ _ (Lop_cnt 0 (Lop_cnt _ (omega_pow_cnt k)))
  have e1 := wu_succ_bd (m := M + 1) hp.two_le hp.ne_one (mem_faceComplex hσ) (zval_d q (γ := γ)) y.2
  have e2 := wu_succ_bd (m := M) hp.two_le hp.ne_one (mem_faceComplex hσ) (zval_d q (γ := γ)) z.2
  rw [cob_small hp hσ hl _ (by omega) cy, mul_zero, stepV, if_pos (by omega), ← Top_norm hp.one_le] at e1
  rw [cob_small hp hσ hl _ (by omega) cz, mul_zero, stepV, if_neg (by omega), ← Top_sub hp.one_le, h3] at e2
  have f1 : tens zd (wd (zdeg q)) (y : List Bool →₀ ZMod p) = ((ZigZag.omega p (Lop q) ^ k) (Bw p) : WV p) := congrArg Subtype.val h1
  have f2 : tens zd (wd (zdeg q)) (z : List Bool →₀ ZMod p) = ((∑ j ∈ Finset.range p, Top q hp.one_le ^ j) y : WV p) :=
    (congrArg Subtype.val h2).symm
  rw [f1] at e1
  rw [f2] at e2
  exact (sub_eq_zero.1 e1.symm).trans (sub_eq_zero.1 e2.symm)

theorem wu_chain (hp : p.Prime) (hσ : Inc σ) (hl : σ.length = q + 2) {γ : List Nat → ZMod p} (k M : Nat) (hM : M % 2 = 0)
    (hk : 2 * k < p) :
    wu p p (M + 2 * k) (zdeg q) (zval γ) (bv (ZMod p) (List.replicate p true)) σ =
      wu p p M (zdeg q) (zval γ) (((ZigZag.omega p (Lop q) ^ k) (Bw p) : WV p)) σ := by
  induction k generalizing M with
  | zero => rfl
  | succ k ih =>
    rw [show M + 2 * (k + 1) = M + 2 + 2 * k by ring, ih (M + 2) (by omega) (by omega), wu_double hp hσ hl k M hM (by omega)]

/-- The last element of the zig-zag. -/
theorem last_word {m : Nat} (hm : p = 2 * m + 1) :
    ((Lop q 0 ((ZigZag.omega p (Lop q) ^ m) (Bw p)) : WV p) : List Bool →₀ ZMod p) =
      ((-1) ^ (q * m) * (m.factorial : ZMod p)) • bv (ZMod p) (List.replicate p false) := by
  have h := ZigZag.zero_omega_pow (p := p) (L := Lop (p := p) q) Lop_anti Lop_sq Lop_per hm
  have h1 := congrArg (fun f : Module.End (ZMod p) (WV p) => ((f (Bw p) : WV p) : List Bool →₀ ZMod p)) h
  simp only [Module.End.mul_apply] at h1
  rw [h1]
  have hprod : ∀ n, n ≤ p → ∀ v : WV p, ((ZigZag.prod (Lop q) n v : WV p) : List Bool →₀ ZMod p) =
      (List.range n).foldr (fun i u => lin (LK q i) u) v := by
    intro n hn
    induction n with
    | zero => intro v; rfl
    | succ n ih =>
      intro v
      rw [ZigZag.prod, Module.End.mul_apply, ih (by omega), List.range_succ, List.foldr_append]
      congr 1
      show lin (LK q (n % p)) (v : List Bool →₀ ZMod p) = _
      rw [Nat.mod_eq_of_lt (by omega)]
      rfl
  obtain ⟨f, hf, hf'⟩ := LK_all (R := ZMod p) q p
  have e1 : ((ZigZag.prod (Lop q) p (Bw p) : WV p) : List Bool →₀ ZMod p) = f := by
    rw [hprod p le_rfl, ← hf']; rfl
  have e2 : ((-1 : Module.End (ZMod p) (WV p)) ^ m) = ((-1 : ZMod p) ^ m) • 1 := by
    rw [← neg_one_smul (ZMod p) (1 : Module.End (ZMod p) (WV p)), smul_pow, one_pow]
  have e3 : (m.factorial : Module.End (ZMod p) (WV p)) = (m.factorial : ZMod p) • 1 := by
    rw [Nat.cast_smul_eq_nsmul, nsmul_one]
  rw [e2, e3, LinearMap.smul_apply, LinearMap.smul_apply, Submodule.coe_smul, Module.End.one_apply, Submodule.coe_smul, Module.End.one_apply, e1,
    hf, smul_smul, smul_smul]
  congr 1
  have : sg (ZMod p) ((q + 1) * (p * (p - 1) / 2 : Nat)) = (-1) ^ ((q + 1) * m) := by
    rw [← sg_nat]
    apply sg_congr
    have : p * (p - 1) / 2 = p * m := by
      rw [hm, show (2 * m + 1) * (2 * m + 1 - 1) = ((2 * m + 1) * m) * 2 by rw [Nat.add_sub_cancel]; ring]
      simp
    rw [this, hm]
    push_cast
    rw [show ((q : Int) + 1) * ((2 * m + 1) * m) = (q + 1) * m + 2 * ((q + 1) * m * m) by ring]
    omega
  rw [this, mul_right_comm, ← pow_add]
  congr 1
  rw [show m + (q + 1) * m = q * m + 2 * m by ring, pow_add, pow_mul (-1) 2 m]
  simp

/-- The recursion for the coefficient of the power. -/
theorem cf_succ (hp : p.Prime) {m : Nat} (hm : p = 2 * m + 1) (hσ : Inc σ) (hl : σ.length = q + 2) :
    cf p ((q + 1) * (p - 1)) σ = (-1) ^ (q * m) * (m.factorial : ZMod p) * cf p (q * (p - 1)) σ.tail := by
  set γ : List Nat → ZMod p := fun τ => if τ = σ.tail then 1 else 0 with hγ
  obtain ⟨a, l, rfl⟩ : ∃ a l, σ = a :: l := by
    cases σ with
    | nil => simp at hl
    | cons a l => exact ⟨a, l, rfl⟩
  have hll : l.length = q + 1 := by simpa using hl
  have hcob : ∀ f : List Nat → ZMod p, (∀ i, 0 < i → i < (a :: l).length → f ((a :: l).eraseIdx i) = 0) →
      coboundary f (a :: l) = f l := by
    intro f hf
    rw [coboundary, if_neg (by omega), hl, List.range_succ_eq_map, List.map_cons, List.sum_cons, List.map_map]
    rw [List.sum_eq_zero]
    · simp
    · intro x hx
      obtain ⟨i, hi, rfl⟩ := List.mem_map.1 hx
      have := List.mem_range.1 hi
      rw [Function.comp, hf _ (by omega) (by omega), mul_zero]
  have hne : ∀ i, 0 < i → i < (a :: l).length → (a :: l).eraseIdx i ≠ l := by
    intro i h0 hi he
    obtain ⟨j, rfl⟩ : ∃ j, i = j + 1 := ⟨i - 1, by omega⟩
    rw [List.eraseIdx_cons_succ] at he
    have : a ∈ l := by rw [← he]; simp
    exact absurd ((List.pairwise_cons.1 hσ.1).1 a this) (lt_irrefl _)
  have hg : coboundary γ (a :: l) = 1 := by
    rw [hcob γ fun i h0 hi => if_neg (hne i h0 hi)]
    simp [hγ]
  have h1 : wu p p ((q + 1) * (p - 1)) (zdeg q) (zval γ) (bv (ZMod p) (List.replicate p true)) (a :: l) =
      cf p ((q + 1) * (p - 1)) (a :: l) := by
    have e : (List.replicate p true).map (fun x => (zdeg q x, zval γ x)) = List.replicate p (q + 1, coboundary γ) := by
      rw [List.map_replicate]; rfl
    rw [wu_single, one_mul, e, wv_full hp hσ _ hl, hg, one_pow, mul_one]
  have hlast : wu p p (q * (p - 1)) (zdeg q) (zval γ) (((ZigZag.omega p (Lop q) ^ m) (Bw p) : WV p)) (a :: l) =
      (-1) ^ (q * m) * (m.factorial : ZMod p) *
        coboundary (wu p p (q * (p - 1)) (zdeg q) (zval γ) (bv (ZMod p) (List.replicate p false))) (a :: l) := by
    have hd := ZigZag.d_odd (Lop_hom (q := q) hp.one_le) Lop_per Bw_d m
    have hd' := congrArg (fun v : WV p => (v : List Bool →₀ ZMod p)) hd
    have hd'' : tens zd (wd (zdeg q)) ((Lop q 0 ((ZigZag.omega p (Lop q) ^ m) (Bw p)) : WV p) : List Bool →₀ ZMod p) =
      ((ZigZag.omega p (Lop q) ^ m) (Bw p) : WV p) := hd'
    rw [← hd'', last_word hm, map_smul, wu_smul]
    congr 1
    rcases Nat.eq_zero_or_pos q with h0 | hpos
    · rw [show q * (p - 1) = 0 by rw [h0, zero_mul]]
      exact (wu_zero_bd hp.two_le hp.ne_one (mem_faceComplex hσ) (zval_d q (γ := γ)) _).symm
    · obtain ⟨M, hM⟩ : ∃ M, q * (p - 1) = M + 1 := ⟨q * (p - 1) - 1, by
        have : 0 < q * (p - 1) := Nat.mul_pos hpos (by have := hp.two_le; omega)
        omega⟩
      have heven : (-1 : ZMod p) ^ (M + 1) = 1 := by
        rw [← hM, show q * (p - 1) = 2 * (q * m) by rw [hm, Nat.add_sub_cancel]; ring, pow_mul]; simp
      have hs : bv (ZMod p) (List.replicate p false) ∈ Finsupp.supported (ZMod p) (ZMod p) {w : List Bool | w.length = p} :=
        Finsupp.single_mem_supported _ _ (by simp)
      have hr := rho_pw (deg := zdeg q) (e := q) hp.one_le hp.eq_two_or_odd (V := bv (ZMod p) false)
        (Finsupp.single_mem_supported _ _ (by simp [zdeg]))
      rw [pw_bv] at hr
      have e := wu_succ_bd (m := M) hp.two_le hp.ne_one (mem_faceComplex hσ) (zval_d q (γ := γ)) hs
      rw [heven, one_mul, actD_step_inv hp.one_le hs hr, wu_zero, sub_zero] at e
      rw [hM, e]
  rw [← h1, show (q + 1) * (p - 1) = q * (p - 1) + 2 * m by rw [hm, Nat.add_sub_cancel]; ring,
    wu_chain hp hσ hl m _ (by rw [hm, Nat.add_sub_cancel, show q * (2 * m) = 2 * (q * m) by ring]; omega) (by omega), hlast]
  congr 1
  have hv : ∀ τ, wu p p (q * (p - 1)) (zdeg q) (zval γ) (bv (ZMod p) (List.replicate p false)) τ =
      wv p p (q * (p - 1)) (List.replicate p (q, γ)) τ := by
    intro τ
    rw [wu_single, one_mul, List.map_replicate]
    rfl
  have hil : Inc l := ⟨(List.pairwise_cons.1 hσ.1).2, by rintro rfl; simp at hll⟩
  rw [hcob, hv, wv_full hp hil _ hll]
  · simp [hγ]
  · intro i h0 hi
    rw [hv, wv_full hp (eraseIdx_inc hσ hi (by omega)) _ (by rw [List.length_eraseIdx_of_lt hi]; omega)]
    simp only [hγ]
    rw [if_neg (show (a :: l).eraseIdx i ≠ (a :: l).tail from hne i h0 hi), zero_pow hp.ne_zero, mul_zero]

/-- The coefficient of the power of a simplex. -/
theorem cf_eq (hp : p.Prime) {m : Nat} (hm : p = 2 * m + 1) (hσ : Inc σ) (hl : σ.length = q + 1) :
    cf p (q * (p - 1)) σ = (-1) ^ (m * (q * (q - 1) / 2)) * (m.factorial : ZMod p) ^ q := by
  induction q generalizing σ with
  | zero =>
    have h := wv_full hp hσ 0 hl (fun _ => 1)
    rw [wv_bottom hp.two_le hσ _ (by simpa using hl)] at h
    simp at h
    simp [← h]
  | succ q ih =>
    have hl' : σ.tail.length = q + 1 := by rw [List.length_tail, hl]; rfl
    have hi : Inc σ.tail := ⟨hσ.1.sublist (List.tail_sublist _), by intro h; rw [h] at hl'; simp at hl'⟩
    rw [cf_succ hp hm hσ hl, ih hi hl']
    have : (q + 1) * (q + 1 - 1) / 2 = q * (q - 1) / 2 + q := by
      rw [← Nat.choose_two_right, ← Nat.choose_two_right, Nat.choose_succ_succ' q 1]; simp [add_comm]
    rw [this, mul_add, pow_add, pow_succ _ q, mul_comm q m]
    ring

end Comch.Coch

namespace Comch.Props
open Comch.Spec Comch.Coch Elem SurjComp SurjElem SurjMay

variable {p q : Nat} {σ : List Nat} {X : OrderedComplex}

theorem pzero_eq (hp : p.Prime) {m : Nat} (hm : p = 2 * m + 1) {c : Int} (hc : steenrodCoeff p 0 (-(q : Int)) = .ok c)
    (α : List Nat → ZMod p) (hi : Inc σ) (hl : σ.length = q + 1) :
    steenrodValue p 0 q false α σ =
      .ok ((c : ZMod p) * ((-1) ^ (m * (q * (q - 1) / 2)) * (m.factorial : ZMod p) ^ q) * α σ) := by
  have : Fact p.Prime := ⟨hp⟩
  have h2 : p ≠ 2 := by omega
  have hd : steenrodDegree p 0 (-(q : Int)) false = ((q * (p - 1) : Nat) : Int) := by
    unfold steenrodDegree
    push_cast [hp.one_le]
    simp
  obtain ⟨y, ey, -⟩ := C56_psi_ok (r := p) .mcClureSmith hp.two_le (q * (p - 1)) p hp.ne_one
  obtain ⟨z, ez, dz⟩ := call_smul hp.two_le hi c ey
  unfold steenrodValue Surjection.steenrodOperation
  rw [if_neg h2, neg_zero]
  dsimp only
  rw [hd, if_neg (by omega), hc]
  simp only [bind, Except.bind, Int.toNat_natCast, ey]
  rw [ez]
  simp only []
  rw [evalOn_eq, dz, map_smul, smul_eq_mul]
  have h := wv_full hp hi (q * (p - 1)) hl α
  rw [wv, ZMod.pow_card, cf_eq hp hm hi hl] at h
  rw [h]
  congr 1
  ring

/-- `P^0` is the identity up to the sign `(-1)^{q (p - 1) / 2}`, on cochains. -/
theorem C109_identity (hp : p.Prime) (h2 : p ≠ 2) (hq : q % 2 = 0 ∨ p < 47) (α : List Nat → ZMod p) (hσ : σ ∈ X.simplices)
    (hl : σ.length = q + 1) : steenrodValue p 0 q false α σ = .ok ((-1) ^ (q * ((p - 1) / 2)) * α σ) := by
  have hF : Fact p.Prime := ⟨hp⟩
  obtain ⟨m, hm⟩ : ∃ m, p = 2 * m + 1 := by
    rcases hp.eq_two_or_odd with h | h
    · exact absurd h h2
    · exact ⟨p / 2, by omega⟩
  have hm2 : (p - 1) / 2 = m := by omega
  obtain ⟨c, hc, hcv⟩ : ∃ c, steenrodCoeff p 0 (-(q : Int)) = .ok c ∧ (c : ZMod p) = (-1) ^ (0 : Int) * nu p (-(q : Int)) := by
    rcases hq with h | h
    · exact C57_coefficient p h2 0 _ (Or.inl (by omega))
    · exact C57_coefficient_small p h2 h 0 _
  rw [pzero_eq hp hm hc α (inc_of_mem hσ) hl]
  congr 2
  have hne := factorial_ne_zero p hm
  have hn1 : (-1 : ZMod p) ≠ 0 := neg_ne_zero.2 one_ne_zero
  rw [hcv, zpow_zero, one_mul, nu, hm2, ← zpow_natCast (-1 : ZMod p) (m * _), ← zpow_natCast _ q, mul_mul_mul_comm, ← zpow_add₀ hne,
    ← zpow_add₀ hn1]
  rw [neg_add_cancel, zpow_zero, mul_one, ← zpow_natCast (-1 : ZMod p) (q * m), neg_one_zpow_eq, neg_one_zpow_eq]
  congr 1
  apply pySign_eq_of_zmod
  have e1 : -(q : Int) * (-(q : Int) - 1) / 2 = q * (q - 1) / 2 + q := by
    rw [show -(q : Int) * (-(q : Int) - 1) = q * (q - 1) + q * 2 by ring, Int.add_mul_ediv_right _ _ (by norm_num)]
  have e2 : ((q * (q - 1) / 2 : Nat) : Int) = (q : Int) * (q - 1) / 2 := by
    rcases Nat.eq_zero_or_pos q with h | h
    · simp [h]
    · push_cast [h]; rfl
  rw [e1]
  rw [← e2]
  simp only [Nat.cast_mul, Int.cast_mul, Int.cast_add, Int.cast_natCast]
  generalize ((q * (q - 1) / 2 : Nat) : ZMod 2) = t
  have h22 : (2 : ZMod 2) = 0 := by decide
  linear_combination (t * m) * h22

/-- So a class is never killed by `P^0`, and twice `P^0` is the identity. -/
theorem C109_involution (hp : p.Prime) (h2 : p ≠ 2) (hq : q % 2 = 0 ∨ p < 47) (α : List Nat → ZMod p) (hσ : σ ∈ X.simplices)
    (hl : σ.length = q + 1) :
    steenrodValue p 0 q false (cochain (steenrodValue p 0 q false α)) σ = .ok (α σ) := by
  rw [C109_identity hp h2 hq _ hσ hl, cochain, C109_identity hp h2 hq _ hσ hl]
  simp only []
  rw [← mul_assoc, ← mul_pow]
  simp

/-- (defect) At `p = 47` the coefficient is rounded, and `P^0` of a cochain of degree 1 is not even a sign. -/
theorem C109_inexact :
    ∃ v, steenrodValue 47 0 1 false (fun _ => 1) [0, 1] = .ok v ∧ v ≠ 1 ∧ v ≠ -1 := by
  have hc : steenrodCoeff 47 0 (-((1 : Nat) : Int)) = .ok (-25852016738884978212864) := by decide +kernel
  refine ⟨_, pzero_eq (m := 23) (by decide +kernel) (by norm_num) hc _ ⟨by decide, by decide⟩ (by decide), ?_, ?_⟩
  · intro h
    have h' : ((-25852016738884978212864 * Nat.factorial 23 : Int) : ZMod 47) = ((1 : Int) : ZMod 47) := by
      rw [← Int.cast_one] at h
      rw [← h]
      push_cast
      simp
    rw [ZMod.intCast_eq_intCast_iff, Int.ModEq] at h'
    exact absurd h' (by decide +kernel)
  · intro h
    have h' : ((-25852016738884978212864 * Nat.factorial 23 : Int) : ZMod 47) = ((-1 : Int) : ZMod 47) := by
      rw [Int.cast_neg, Int.cast_one, ← h]
      push_cast
      simp
    rw [ZMod.intCast_eq_intCast_iff, Int.ModEq] at h'
    exact absurd h' (by decide +kernel)

/-! ### cases that meet the hypotheses -/

example : steenrodValue 3 0 1 false (fun _ => 2) [4, 7] = .ok ((-1) ^ 1 * 2) := by decide +kernel

example : steenrodValue 3 0 2 false (fun _ => 2) [1, 4, 7] = .ok 2 := by decide +kernel

example : [0, 1] ∈ (exComplex 5).simplices ∧ (5 : Nat).Prime ∧ (5 : Nat) ≠ 2 ∧ [0, 1].length = 1 + 1 :=
  ⟨⟨by decide, by decide, by decide⟩, by decide, by decide, rfl⟩

end Comch.Props
