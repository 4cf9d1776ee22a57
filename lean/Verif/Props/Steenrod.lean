import Verif.Spec.Steenrod
import Verif.Props.SurjMay
import Mathlib.Tactic.IntervalCases
import Mathlib.Algebra.Ring.NegOnePow
import Mathlib.Tactic.FieldSimp

/-! # C57: the coefficients and degrees of `steenrod_operation` -/

set_option linter.unusedSectionVars false
set_option exponentiation.threshold 2000

namespace Comch.Props
open Comch Elem Spec

theorem pyFactorial_eq (n : Nat) : pyFactorial n = n.factorial := by
  induction n with
  | zero => rfl
  | succ n ih => rw [pyFactorial, ih, Nat.factorial_succ]

/-- `(m!)² = (-1)^(m+1)` modulo `p = 2m+1`. -/
theorem factorial_sq (p : Nat) [hp : Fact p.Prime] {m : Nat} (hm : p = 2 * m + 1) :
    ((m.factorial : Nat) : ZMod p) ^ 2 = (-1) ^ (m + 1) := by
  have key : ∀ j, j ≤ m → (((m + j).factorial : Nat) : ZMod p) * (((m - j).factorial : Nat) : ZMod p) =
      (-1) ^ j * ((m.factorial : Nat) : ZMod p) ^ 2 := by
    intro j
    induction j with
    | zero => intro _; simp [pow_two]
    | succ j ih =>
      intro hj
      have e1 : m - j = (m - (j + 1)) + 1 := by omega
      have h := ih (by omega)
      rw [e1, Nat.factorial_succ] at h
      have e2 : m + (j + 1) = (m + j) + 1 := by omega
      rw [e2, Nat.factorial_succ]
      have e3 : (((m + j + 1 : Nat)) : ZMod p) = -(((m - (j + 1) + 1 : Nat)) : ZMod p) := by
        rw [eq_neg_iff_add_eq_zero, ← Nat.cast_add]
        have : m + j + 1 + (m - (j + 1) + 1) = p := by omega
        rw [this]
        simp
      push_cast at h e3 ⊢
      rw [e3, pow_succ]
      linear_combination (-1 : ZMod p) * h
  have h := key m le_rfl
  have e : m + m = p - 1 := by omega
  rw [e, ZMod.wilsons_lemma, Nat.sub_self] at h
  simp only [Nat.factorial_zero, Nat.cast_one, mul_one] at h
  have h2 : ((-1 : ZMod p)) ^ m * (-1) ^ m = 1 := by rw [← mul_pow]; simp
  rw [pow_succ]
  linear_combination (-(-1 : ZMod p) ^ m) * h + ((m.factorial : Nat) : ZMod p) ^ 2 * (-h2)

theorem neg_one_zpow_eq (p : Nat) [Fact p.Prime] (e : Int) : ((-1 : ZMod p)) ^ e = ((pySign e : Int) : ZMod p) := by
  unfold pySign
  split
  · rename_i h
    rw [Even.neg_one_zpow (Int.even_iff.2 h)]; simp
  · rename_i h
    rw [Odd.neg_one_zpow (Int.odd_iff.2 (by omega))]; simp

theorem factorial_ne_zero (p : Nat) [hp : Fact p.Prime] {m : Nat} (hm : p = 2 * m + 1) :
    ((m.factorial : Nat) : ZMod p) ≠ 0 := by
  intro h
  have := factorial_sq p hm
  rw [h, zero_pow (by norm_num)] at this
  exact pow_ne_zero (m + 1) (neg_ne_zero.2 one_ne_zero) this.symm

/-- `ν(q)` is `(-1)^⌊q/2⌋`, times `m!` when `q` is odd. -/
theorem nu_eq (p : Nat) [hp : Fact p.Prime] (h2 : p ≠ 2) (q : Int) :
    nu p q = ((pySign (q / 2) : Int) : ZMod p) *
      (if q % 2 = 0 then 1 else ((((p - 1) / 2).factorial : Nat) : ZMod p)) := by
  obtain ⟨m, hm⟩ : ∃ m, p = 2 * m + 1 := by
    rcases hp.out.eq_two_or_odd with h | h
    · exact absurd h h2
    · exact ⟨p / 2, by omega⟩
  have hm2 : (p - 1) / 2 = m := by omega
  have hne := factorial_ne_zero p hm
  have hsq := factorial_sq p hm
  unfold nu
  rw [hm2, neg_one_zpow_eq]
  have hz : ∀ j : Int, ((m.factorial : Nat) : ZMod p) ^ (2 * j) = ((pySign ((m + 1 : Int) * j) : Int) : ZMod p) := by
    intro j
    rw [zpow_mul, zpow_ofNat, hsq, ← neg_one_zpow_eq, ← zpow_natCast, ← zpow_mul]
    congr 1
  have hcase : q % 2 = 0 ∨ q % 2 = 1 := by omega
  rcases hcase with h | h
  · obtain ⟨j, rfl⟩ : ∃ j, q = 2 * j := ⟨q / 2, by omega⟩
    rw [if_pos h, hz, mul_one]
    have e1 : 2 * j * (2 * j - 1) / 2 = j * (2 * j - 1) := by
      rw [mul_assoc, Int.mul_ediv_cancel_left _ (by norm_num)]
    have e2 : 2 * j / 2 = j := by omega
    rw [e1, e2, ← Int.cast_mul, ← pySign_add]
    congr 1
    apply pySign_eq_of_zmod
    push_cast
    have h2 : (2 : ZMod 2) = 0 := by decide
    rw [h2]
    ring
  · obtain ⟨j, rfl⟩ : ∃ j, q = 2 * j + 1 := ⟨q / 2, by omega⟩
    rw [if_neg (by omega), zpow_add₀ hne, zpow_one, hz, ← mul_assoc, ← Int.cast_mul, ← pySign_add]
    congr 2
    have e1 : (2 * j + 1) * (2 * j + 1 - 1) / 2 = (2 * j + 1) * j := by
      have : (2 * j + 1) * (2 * j + 1 - 1) = 2 * ((2 * j + 1) * j) := by ring
      rw [this, Int.mul_ediv_cancel_left _ (by norm_num)]
    have e2 : (2 * j + 1) / 2 = j := by omega
    rw [e1, e2]
    apply pySign_eq_of_zmod
    push_cast
    have h2 : (2 : ZMod 2) = 0 := by decide
    linear_combination ((j : ZMod 2) * j * m + j * m) * h2

/-- The coefficient of the code is the documented one, whenever no inexact float arithmetic happens. -/
theorem coeff_eq (p : Nat) [hp : Fact p.Prime] (h2 : p ≠ 2) (s q : Int)
    (h : q % 2 = 0 ∨ 0 ≤ q / 2 + s ∨ intToDouble (((p - 1) / 2).factorial) = .ok (((p - 1) / 2).factorial)) :
    ∃ c, steenrodCoeff p s q = .ok c ∧ (c : ZMod p) = (-1) ^ s * nu p q := by
  have key : ((-1 : ZMod p)) ^ s * nu p q = ((pySign (q / 2 + s) : Int) : ZMod p) *
      (if q % 2 = 0 then 1 else ((((p - 1) / 2).factorial : Nat) : ZMod p)) := by
    rw [nu_eq p h2, neg_one_zpow_eq, pySign_add]
    push_cast
    ring
  unfold steenrodCoeff
  rw [key]
  dsimp only
  by_cases hq : q % 2 = 0
  · rw [if_pos hq, if_pos hq]
    exact ⟨_, rfl, by simp⟩
  · rw [if_neg hq, if_neg hq, pyFactorial_eq]
    by_cases he : 0 ≤ q / 2 + s
    · rw [if_pos he]
      exact ⟨_, rfl, by push_cast; rfl⟩
    · rw [if_neg he]
      rcases h with h | h | h
      · exact absurd h hq
      · exact absurd h he
      · rw [h]
        exact ⟨_, rfl, by push_cast; rfl⟩

/-- The coefficient of the operation is congruent to the documented `(-1)^s ν(q)` for every odd prime
`p` and all `s`, `q`, when `q` is even or `⌊q/2⌋ + s ≥ 0`. -/
theorem C57_coefficient (p : Nat) [Fact p.Prime] (h2 : p ≠ 2) (s q : Int)
    (h : q % 2 = 0 ∨ 0 ≤ q / 2 + s) :
    ∃ c, steenrodCoeff p s q = .ok c ∧ (c : ZMod p) = (-1) ^ s * nu p q :=
  coeff_eq p h2 s q (h.elim Or.inl fun h => Or.inr (Or.inl h))

theorem intToDouble_small {m : Nat} (h : m ≤ 22) : intToDouble m.factorial = .ok m.factorial := by
  interval_cases m <;> decide +kernel

/-- For the odd primes `p < 47` the restriction on `s` and `q` is not needed. -/
theorem C57_coefficient_small (p : Nat) [Fact p.Prime] (h2 : p ≠ 2) (hp : p < 47) (s q : Int) :
    ∃ c, steenrodCoeff p s q = .ok c ∧ (c : ZMod p) = (-1) ^ s * nu p q :=
  coeff_eq p h2 s q (Or.inr (Or.inr (intToDouble_small (by omega))))

/-- (defect) With odd `q` and `⌊q/2⌋ + s < 0` the power of `-1` is a float, and the product with `m!`
is rounded: at `p = 47`, `s = -1`, `q = -3` the coefficient is not the documented one. -/
theorem C57_coefficient_inexact [Fact (Nat.Prime 47)] :
    ∃ c, steenrodCoeff 47 (-1) (-3) = .ok c ∧ (c : ZMod 47) ≠ (-1) ^ (-1 : Int) * nu 47 (-3) ∧
      0 ≤ steenrodDegree 47 (-1) (-3) false := by
  refine ⟨-25852016738884978212864, by decide +kernel, ?_, by decide⟩
  rw [nu_eq 47 (by norm_num), neg_one_zpow_eq]
  intro h
  have h' : ((-25852016738884978212864 : Int) : ZMod 47) =
      ((pySign (-1) * (pySign (-3 / 2) * (((47 - 1) / 2).factorial : Nat)) : Int) : ZMod 47) := by
    rw [h, if_neg (by decide)]
    push_cast
    rfl
  rw [ZMod.intCast_eq_intCast_iff, Int.ModEq] at h'
  exact absurd h' (by decide +kernel)

/-- (defect) For `p ≥ 343`, odd `q` and `⌊q/2⌋ + s < 0` the conversion of `m!` to a float raises
`OverflowError`. -/
theorem C57_coefficient_overflow (p : Nat) (hp : 343 ≤ p) (s q : Int) (hq : q % 2 = 1) (h : q / 2 + s < 0) :
    steenrodCoeff p s q = .error .overflowError := by
  unfold steenrodCoeff
  dsimp only
  rw [if_neg (by omega), if_neg (by omega), pyFactorial_eq]
  have hm : 171 ≤ (p - 1) / 2 := by omega
  have hf : 2 ^ 1024 ≤ ((p - 1) / 2).factorial :=
    le_trans (by decide +kernel) (Nat.factorial_le hm)
  generalize ((p - 1) / 2).factorial = n at hf
  have hn : intToDouble n = .error .overflowError := by
    unfold intToDouble
    rw [if_neg (by
      have : (2 : Nat) ^ 53 ≤ 2 ^ 1024 := Nat.pow_le_pow_right (by norm_num) (by norm_num)
      omega)]
    dsimp only
    have h0 : n ≠ 0 := by
      rintro rfl
      have : 0 < (2 : Nat) ^ 1024 := Nat.pow_pos (by norm_num)
      omega
    have hl : 1024 ≤ Nat.log2 n := (Nat.le_log2 h0).2 hf
    have hpow : 2 ^ Nat.log2 n ≤ n := Nat.log2_self_le h0
    have he : 2 ^ 52 * 2 ^ (Nat.log2 n - 52) = 2 ^ Nat.log2 n := by
      rw [← pow_add]; congr 1; omega
    have hq1 : 2 ^ 52 ≤ n / 2 ^ (Nat.log2 n - 52) := by
      rw [Nat.le_div_iff_mul_le (Nat.pow_pos (by norm_num)), he]
      exact hpow
    have hbig : 2 ^ 1024 ≤ n / 2 ^ (Nat.log2 n - 52) * 2 ^ (Nat.log2 n - 52) := by
      calc 2 ^ 1024 ≤ 2 ^ Nat.log2 n := Nat.pow_le_pow_right (by norm_num) hl
        _ = 2 ^ 52 * 2 ^ (Nat.log2 n - 52) := he.symm
        _ ≤ _ := Nat.mul_le_mul_right _ hq1
    have hmono : ∀ a, n / 2 ^ (Nat.log2 n - 52) ≤ a → 2 ^ 1024 ≤ a * 2 ^ (Nat.log2 n - 52) :=
      fun a ha => le_trans hbig (Nat.mul_le_mul_right _ ha)
    rw [if_pos]
    apply hmono
    split
    · exact le_rfl
    · split
      · omega
      · split <;> omega
  rw [hn]
  rfl

/-- `p = 2` with a Bockstein raises `TypeError`, in both operads. -/
theorem C57_bockstein_two (s q : Int) (c : Convention) :
    Surjection.steenrodOperation 2 s q true c = .error .typeError ∧
    BarrattEccles.steenrodOperation 2 s q true = .error .typeError := ⟨rfl, rfl⟩

theorem smul_pyEq {K : Type} [DecidableEq K] {C : Cls K} {x : Elem K} (hx : x.NF C) {a b : Int} {n : Nat}
    (tx : x.torsion = n) (hD : C.defaultTorsion = 0) (h : (a : ZMod n) = b) : pyEq (smul C a x) (smul C b x) = true := by
  refine pyEq_of_den (n := n) (nf_smul hx a) (nf_smul hx b) ((smul_torsion C a x).trans tx)
    ((smul_torsion C b x).trans tx) ?_
  rw [den_smul hx a (by simp [hD]) (by rw [tx]; simp), den_smul hx b (by simp [hD]) (by rw [tx]; simp), h]

/-- At `p = 2` the operation is the structure element of degree `s - q`, or zero when `s < q`. -/
theorem C57_operation_two (s q : Int) (c : Convention) :
    (s < q → ∃ z, Surjection.steenrodOperation 2 s q false c = .ok z ∧ z.data = [] ∧ z.torsion = 2) ∧
    (q ≤ s → ∃ z m, Surjection.steenrodOperation 2 s q false c = .ok z ∧
      Surjection.maySteenrodStructure 2 (s - q).toNat (some 2) c = .ok m ∧ pyEq z m = true) ∧
    (s < q → ∃ z, BarrattEccles.steenrodOperation 2 s q = .ok z ∧ z.data = [] ∧ z.torsion = 2) ∧
    (q ≤ s → ∃ z m, BarrattEccles.steenrodOperation 2 s q = .ok z ∧
      BarrattEccles.maySteenrodStructure 2 (s - q).toNat (some 2) = .ok m ∧ pyEq z m = true) := by
  refine ⟨fun h => ⟨Elem.new surjection [] (some 2), ?_, rfl, rfl⟩, fun h => ?_,
    fun h => ⟨Elem.new barrattEccles [] (some 2), ?_, rfl, rfl⟩, fun h => ?_⟩
  · unfold Surjection.steenrodOperation
    rw [if_pos rfl, if_neg (by simp), if_pos (by omega)]
  · obtain ⟨m, em, hm, tm, _⟩ := C56_psi_ok (r := 2) c le_rfl (s - q).toNat 2 (by norm_num)
    refine ⟨smul surjection 1 m, m, ?_, em, ?_⟩
    · unfold Surjection.steenrodOperation
      rw [if_pos rfl, if_neg (by simp), if_neg (by omega), em]
      rfl
    · refine pyEq_of_den (n := 2) (nf_smul hm.nf 1) hm.nf ((smul_torsion _ 1 m).trans tm) tm ?_
      rw [den_smul hm.nf 1 (by simp) (by rw [tm]; exact CharP.cast_eq_zero (ZMod 2) 2)]
      simp
  · unfold BarrattEccles.steenrodOperation
    rw [if_pos rfl, if_neg (by simp), if_pos (by omega)]
  · obtain ⟨m, em, hm, tm, _⟩ := C46_psi_ok (r := 2) le_rfl (s - q).toNat 2 (by norm_num)
    refine ⟨smul barrattEccles 1 m, m, ?_, em, ?_⟩
    · unfold BarrattEccles.steenrodOperation
      rw [if_pos rfl, if_neg (by simp), if_neg (by omega), em]
      rfl
    · refine pyEq_of_den (n := 2) (nf_smul hm.nf 1) hm.nf ((smul_torsion _ 1 m).trans tm) tm ?_
      rw [den_smul hm.nf 1 (by simp) (by rw [tm]; exact CharP.cast_eq_zero (ZMod 2) 2)]
      simp

/-- At odd primes the operation of the surjection operad is the documented multiple of the structure
element of degree `d = (2s - q)(p - 1) - b`, or zero if `d < 0`; here the coefficient is exact (see
`C57_coefficient`, `C57_coefficient_small` for when it is). -/
theorem C57_operation_surjection (p : Nat) [hp : Fact p.Prime] (h2 : p ≠ 2) (s q : Int) (b : Bool) (c : Convention)
    (h : q % 2 = 0 ∨ 0 ≤ q / 2 + s ∨ p < 47) :
    ((2 * s - q) * (p - 1) - (if b then 1 else 0) < 0 →
      ∃ z, Surjection.steenrodOperation p s q b c = .ok z ∧ z.data = [] ∧ z.torsion = p) ∧
    (∀ d : Nat, (d : Int) = (2 * s - q) * (p - 1) - (if b then 1 else 0) →
      ∃ z m, Surjection.steenrodOperation p s q b c = .ok z ∧
        Surjection.maySteenrodStructure p d (some p) c = .ok m ∧
        ∀ v : Int, (v : ZMod p) = (-1) ^ s * nu p q → pyEq z (smul surjection v m) = true) := by
  have hc : ∃ e, steenrodCoeff p s q = .ok e ∧ (e : ZMod p) = (-1) ^ s * nu p q := by
    refine coeff_eq p h2 s q ?_
    rcases h with h | h | h
    · exact Or.inl h
    · exact Or.inr (Or.inl h)
    · exact Or.inr (Or.inr (intToDouble_small (by omega)))
  obtain ⟨e, he, hv⟩ := hc
  constructor
  · intro hd
    refine ⟨Elem.new surjection [] (some p), ?_, by simp [Elem.new, preferredRep, zeroDropped, basePreferredRep], rfl⟩
    unfold Surjection.steenrodOperation
    rw [if_neg h2]
    dsimp only
    rw [if_pos (show steenrodDegree p s q b < 0 from hd), he]
    rfl
  · intro d hd
    obtain ⟨m, em, hm, tm, _⟩ := C56_psi_ok (r := p) c hp.out.two_le d p hp.out.ne_one
    refine ⟨smul surjection e m, m, ?_, em, ?_⟩
    · unfold Surjection.steenrodOperation
      rw [if_neg h2]
      dsimp only
      have hd' : steenrodDegree p s q b = d := hd.symm
      rw [hd', if_neg (by omega), he]
      simp only [bind, Except.bind, Int.toNat_natCast]
      rw [em]
    · intro v hv'
      exact smul_pyEq hm.nf tm rfl (hv.trans hv'.symm)

/-- The same for the Barratt-Eccles operad. -/
theorem C57_operation_barratt_eccles (p : Nat) [hp : Fact p.Prime] (h2 : p ≠ 2) (s q : Int) (b : Bool)
    (h : q % 2 = 0 ∨ 0 ≤ q / 2 + s ∨ p < 47) :
    ((2 * s - q) * (p - 1) - (if b then 1 else 0) < 0 →
      ∃ z, BarrattEccles.steenrodOperation p s q b = .ok z ∧ z.data = [] ∧ z.torsion = p) ∧
    (∀ d : Nat, (d : Int) = (2 * s - q) * (p - 1) - (if b then 1 else 0) →
      ∃ z m, BarrattEccles.steenrodOperation p s q b = .ok z ∧
        BarrattEccles.maySteenrodStructure p d (some p) = .ok m ∧
        ∀ v : Int, (v : ZMod p) = (-1) ^ s * nu p q → pyEq z (smul barrattEccles v m) = true) := by
  have hc : ∃ e, steenrodCoeff p s q = .ok e ∧ (e : ZMod p) = (-1) ^ s * nu p q := by
    refine coeff_eq p h2 s q ?_
    rcases h with h | h | h
    · exact Or.inl h
    · exact Or.inr (Or.inl h)
    · exact Or.inr (Or.inr (intToDouble_small (by omega)))
  obtain ⟨e, he, hv⟩ := hc
  constructor
  · intro hd
    refine ⟨Elem.new barrattEccles [] (some p), ?_, by simp [Elem.new, preferredRep, zeroDropped, basePreferredRep], rfl⟩
    unfold BarrattEccles.steenrodOperation
    rw [if_neg h2]
    dsimp only
    rw [if_pos (show steenrodDegree p s q b < 0 from hd), he]
    rfl
  · intro d hd
    obtain ⟨m, em, hm, tm, _⟩ := C46_psi_ok (r := p) hp.out.two_le d p hp.out.ne_one
    refine ⟨smul barrattEccles e m, m, ?_, em, ?_⟩
    · unfold BarrattEccles.steenrodOperation
      rw [if_neg h2]
      dsimp only
      have hd' : steenrodDegree p s q b = d := hd.symm
      rw [hd', if_neg (by omega), he]
      simp only [bind, Except.bind, Int.toNat_natCast]
      rw [em]
    · intro v hv'
      exact smul_pyEq hm.nf tm rfl (hv.trans hv'.symm)

/-- (defect) Consequently the operation `P_{-1}` on classes of degree `-3` at `p = 47` is not the
documented multiple of the structure element. -/
theorem C57_operation_inexact [hp : Fact (Nat.Prime 47)] (c : Convention) :
    ∃ z m, Surjection.steenrodOperation 47 (-1) (-3) false c = .ok z ∧
      Surjection.maySteenrodStructure 47 46 (some 47) c = .ok m ∧
      ∀ v : Int, (v : ZMod 47) = (-1) ^ (-1 : Int) * nu 47 (-3) → pyEq z (smul surjection v m) = false := by
  obtain ⟨e, he, hne, _⟩ := C57_coefficient_inexact
  obtain ⟨m, em, hm, tm, _, hmn, _⟩ := C56_psi_ok (r := 47) c (by norm_num) 46 47 (by norm_num)
  refine ⟨smul surjection e m, m, ?_, em, ?_⟩
  · unfold Surjection.steenrodOperation
    rw [if_neg (by norm_num)]
    dsimp only
    have hd : steenrodDegree 47 (-1) (-3) false = 46 := by decide
    rw [hd, if_neg (by norm_num), he]
    simp only [bind, Except.bind]
    have h46 : (46 : Int).toNat = 46 := rfl
    rw [h46, em]
  · intro v hv
    rw [← Bool.not_eq_true]
    intro heq
    have t1 : (smul surjection e m).torsion = 47 := (smul_torsion _ e m).trans tm
    have t2 : (smul surjection v m).torsion = 47 := (smul_torsion _ v m).trans tm
    have h1 := ((pyEq_iff_den (nf_smul hm.nf e) (nf_smul hm.nf v) (t1.trans t2.symm)).1 heq)
    rw [t1] at h1
    have z47 : ((47 : Nat) : ZMod 47) = 0 := CharP.cast_eq_zero (ZMod 47) 47
    rw [den_smul hm.nf e (by simp) (by rw [tm]; exact z47),
      den_smul hm.nf v (by simp) (by rw [tm]; exact z47)] at h1
    have h2 : ((e : ZMod 47) - v) • den (ZMod 47) m.data = 0 := by rw [sub_smul, h1, sub_self]
    have h3 : den (ZMod 47) m.data ≠ 0 := by
      intro h0
      apply hmn
      rw [hm.nf.data_eq_nil_iff, tm]
      exact h0
    rcases smul_eq_zero.1 h2 with h | h
    · exact hne ((sub_eq_zero.1 h).trans hv)
    · exact h3 h

/-- A case with all hypotheses: `P_{-1}` on classes of degree `-3` at `p = 3`. -/
example : ∃ z m, Surjection.steenrodOperation 3 (-1) (-3) false .mcClureSmith = .ok z ∧
    Surjection.maySteenrodStructure 3 2 (some 3) .mcClureSmith = .ok m ∧
    pyEq z (smul surjection (-1) m) = true := by
  have : Fact (Nat.Prime 3) := ⟨Nat.prime_three⟩
  obtain ⟨z, m, h1, h3, h4⟩ := (C57_operation_surjection 3 (by norm_num) (-1) (-3) false .mcClureSmith
    (Or.inr (Or.inr (by norm_num)))).2 2 (by norm_num)
  refine ⟨z, m, h1, h3, h4 _ ?_⟩
  rw [nu_eq 3 (by norm_num), neg_one_zpow_eq, if_neg (by decide)]
  have e : (((3 - 1) / 2).factorial : Nat) = 1 := rfl
  rw [e]
  simp [pySign]

end Comch.Props
