import Verif.Lib.Cartan

/-! # The double complex of the Adem relations modulo 2 -/

set_option linter.unusedSectionVars false

namespace Comch
namespace Contract
open Finsupp (single)
open Acyclic BElem Elem Comch.Spec Join Coch SurjComp SurjElem IsPerm SurjMay Comch.Props

/-- Shift of a sequence. -/
def pre {M : Type} [Zero M] (f : Nat → M) : Nat → M
  | 0 => 0
  | n + 1 => f n

/-! ### the coefficients of the higher diagonals -/

/-- Coefficient of `e_A ⊗ e_B`. -/
def cP (k A B : Nat) : F := ((A + 1).choose (k + 1) : F) * (B.choose k : F)
/-- Coefficient of `e_A ⊗ y e_B`. -/
def cQ (k A B : Nat) : F := (A.choose (k + 1) : F) * (B.choose k : F)

theorem two_zero : (2 : F) = 0 := by decide

theorem cPQ (k A B : Nat) : cP k A B + cQ k A B = (A.choose k : F) * (B.choose k : F) := by
  unfold cP cQ
  rw [Nat.choose_succ_succ]
  push_cast
  linear_combination (A.choose (k + 1) : F) * (B.choose k : F) * two_zero

theorem c_ab (k A B : Nat) : cP k (A + 1) B + (cP k A (B + 1) + cQ k A (B + 1)) =
    cP k A B + pre (fun k => cP k A B + cP k B A) k := by
  rw [cPQ]
  unfold cP
  cases k with
  | zero =>
    simp only [pre, zero_add, Nat.choose_one_right, Nat.choose_zero_right]
    push_cast
    linear_combination two_zero
  | succ k =>
    simp only [pre]
    simp only [Nat.choose_succ_succ' (A + 1) (k + 1), Nat.choose_succ_succ' B k, Nat.choose_succ_succ' A k,
      Nat.choose_succ_succ' A (k + 1)]
    push_cast
    generalize (A.choose k : F) = a
    generalize (A.choose (k + 1) : F) = b
    generalize (A.choose (k + 1 + 1) : F) = c
    generalize (B.choose k : F) = x
    generalize (B.choose (k + 1) : F) = y
    revert a b c x y
    decide

theorem c_ab' (k A B : Nat) : cQ k (A + 1) B + (cP k A (B + 1) + cQ k A (B + 1)) =
    cQ k A B + pre (fun k => cQ k A B) k := by
  rw [cPQ]
  unfold cQ
  cases k with
  | zero =>
    simp only [pre, zero_add, Nat.choose_one_right, Nat.choose_zero_right]
    push_cast
    linear_combination two_zero
  | succ k =>
    simp only [pre]
    rw [Nat.choose_succ_succ A (k + 1), Nat.choose_succ_succ B k]
    push_cast
    generalize (A.choose (k + 1) : F) = b
    generalize (A.choose (k + 1 + 1) : F) = c
    generalize (B.choose k : F) = x
    generalize (B.choose (k + 1) : F) = y
    revert b c x y
    decide

theorem c_a'b (k A B : Nat) : cP k (A + 1) B = cQ k A B + pre (fun k => cQ k B A) k := by
  unfold cP cQ
  cases k with
  | zero =>
    simp only [pre, zero_add, Nat.choose_one_right, Nat.choose_zero_right]
    push_cast
    linear_combination two_zero
  | succ k =>
    simp only [pre]
    rw [Nat.choose_succ_succ (A + 1) (k + 1), Nat.choose_succ_succ A k, Nat.choose_succ_succ A (k + 1)]
    push_cast
    generalize (A.choose k : F) = a
    generalize (A.choose (k + 1) : F) = b
    generalize (A.choose (k + 1 + 1) : F) = c
    generalize (B.choose (k + 1) : F) = y
    revert a b c y
    decide

theorem c_a'b' (k A B : Nat) : cQ k (A + 1) B = cP k A B := rfl

theorem c_small {k A B : Nat} (h : A + B < 2 * k) : cP k A B = 0 ∧ cQ k A B = 0 := by
  unfold cP cQ
  rcases Nat.lt_or_ge B k with hB | hB
  · rw [Nat.choose_eq_zero_of_lt hB]; simp
  · rw [Nat.choose_eq_zero_of_lt (show A < k + 1 by omega), Nat.choose_eq_zero_of_lt (show A + 1 < k + 1 by omega)]
    simp

/-! ### the higher diagonals on pairs of simplices -/

/-- The swap inside both pairs. -/
abbrev yy4 : Perm := [2, 1, 4, 3]
theorem isPerm_yy4 : IsPerm 4 yy4 := by decide
theorem actL_yy4 (a b c e : List Nat) : actL yy4 [a, b, c, e] = [b, a, e, c] := by
  simp [actL, sortl, List.insertionSort, List.orderedInsert]

theorem pm_yy_cat {u v : SKey →₀ F} (hu : u ∈ Finsupp.supported F F (Len 2))
    (hv : v ∈ Finsupp.supported F F (Len 2)) : pm yy4 (cat u v) = cat (pm sw u) (pm sw v) := by
  have := bil_ext_supported (R := F) (M := SKey →₀ F) (S := Len 2) (T := Len 2)
    (f := (cat (R := F) (A := List Nat)).compr₂ (pm yy4))
    (g := (cat (R := F) (A := List Nat)).compl₁₂ (pm sw) (pm sw)) (fun a ha b hb => by
      obtain ⟨a1, a2, rfl⟩ := List.length_eq_two.1 ha
      obtain ⟨b1, b2, rfl⟩ := List.length_eq_two.1 hb
      simp [actL_yy4, actL_sw, pm, actK_two]) hu hv
  rw [LinearMap.compr₂_apply, LinearMap.compl₁₂_apply] at this
  exact this

theorem len_four {k : SKey} (hk : k ∈ Len 4) : ∃ a b c e, k = [a, b, c, e] := by
  match k, hk with
  | [f, g, f', g'], _ => exact ⟨f, g, f', g', rfl⟩

theorem pm_ext4 {p q p' q' : Perm} (h : ∀ a b c e : List Nat,
    actL p (actL q [a, b, c, e]) = actL p' (actL q' [a, b, c, e])) {v : SKey →₀ F}
    (hv : v ∈ Finsupp.supported F F (Len 4)) : pm p (pm q v) = pm p' (pm q' v) := by
  refine lin_ext_supported (f := (pm p).comp (pm q)) (g := (pm p').comp (pm q')) (fun k hk => ?_) hv
  obtain ⟨a, b, c, e, rfl⟩ := len_four hk
  simp only [LinearMap.comp_apply, pm_bv, h]

theorem yy_yy {v : SKey →₀ F} (hv : v ∈ Finsupp.supported F F (Len 4)) : pm yy4 (pm yy4 v) = v := by
  rw [pm_pm isPerm_yy4 isPerm_yy4 hv]; exact pm_id (r := 4) hv

theorem sw_yy {v : SKey →₀ F} (hv : v ∈ Finsupp.supported F F (Len 4)) : pm sw4 (pm yy4 v) = pm yy4 (pm sw4 v) :=
  pm_ext4 (fun a b c e => by rw [actL_yy4, actL_sw4, actL_sw4, actL_yy4]) hv

theorem sh_sw {v : SKey →₀ F} (hv : v ∈ Finsupp.supported F F (Len 4)) : pm sh4 (pm sw4 v) = pm yy4 (pm sh4 v) :=
  pm_ext4 (fun a b c e => by rw [actL_sw4, actL_sh4, actL_sh4, actL_yy4]) hv

theorem sh_yy {v : SKey →₀ F} (hv : v ∈ Finsupp.supported F F (Len 4)) : pm sh4 (pm yy4 v) = pm sw4 (pm sh4 v) :=
  pm_ext4 (fun a b c e => by rw [actL_yy4, actL_sh4, actL_sh4, actL_sw4]) hv

variable {d : Nat} {σ : List Nat}

noncomputable def tP (k A B : Nat) (f g : List Nat) : SKey →₀ F :=
  cP k A B • cat (w2 A f) (w2 B g) + cQ k A B • cat (w2 A f) (pm sw (w2 B g))

/-- The diagonal of order `k`, in total degree `n`. -/
noncomputable def Dn (k n : Nat) (f g : List Nat) : SKey →₀ F :=
  ∑ p ∈ Finset.antidiagonal n, tP k p.1 p.2 f g

theorem Dn_small {k n : Nat} (h : n < 2 * k) (f g : List Nat) : Dn k n f g = 0 := by
  refine Finset.sum_eq_zero fun p hp => ?_
  have hp := Finset.mem_antidiagonal.1 hp
  obtain ⟨h1, h2⟩ := c_small (k := k) (A := p.1) (B := p.2) (by omega)
  rw [tP, h1, h2, zero_smul, zero_smul, add_zero]

theorem w2_bd (hσ : Inc σ) (d : Nat) :
    bd (w2 d σ) = pre (fun d => w2 d σ + pm sw (w2 d σ)) d + lin (w2 d) (delE σ) := by
  cases d with
  | zero => rw [w2_zero hσ, pre, zero_add]
  | succ d => rw [w2_succ hσ, pre]

theorem tP_lin_left (k A B : Nat) (g : List Nat) (u : List Nat →₀ F) :
    lin (fun x => tP k A B x g) u = cP k A B • cat (lin (w2 A) u) (w2 B g) +
      cQ k A B • cat (lin (w2 A) u) (pm sw (w2 B g)) := by
  refine LinearMap.congr_fun (f := lin fun x => tP k A B x g) (g := cP k A B • ((cat.flip (w2 B g)).comp (lin (w2 A))) +
    cQ k A B • ((cat.flip (pm sw (w2 B g))).comp (lin (w2 A)))) (lin_ext fun k => ?_) u
  simp [tP]

theorem tP_lin_right (k A B : Nat) (f : List Nat) (u : List Nat →₀ F) :
    lin (fun y => tP k A B f y) u = cP k A B • cat (w2 A f) (lin (w2 B) u) +
      cQ k A B • cat (w2 A f) (pm sw (lin (w2 B) u)) := by
  refine LinearMap.congr_fun (f := lin fun y => tP k A B f y) (g := cP k A B • ((cat (w2 A f)).comp (lin (w2 B))) +
    cQ k A B • ((cat (w2 A f)).comp ((pm sw).comp (lin (w2 B))))) (lin_ext fun k => ?_) u
  simp [tP]

theorem pm_sw_pre {g : List Nat} (hg : Inc g) (d : Nat) :
    pm sw (pre (fun d => w2 d g + pm sw (w2 d g)) d) = pre (fun d => w2 d g + pm sw (w2 d g)) d := by
  cases d with
  | zero => simp [pre]
  | succ d => rw [pre, map_add, pm_sw_sw (w2_len hg), add_comm]

theorem tP_bd (k A B : Nat) {f g : List Nat} (hf : Inc f) (hg : Inc g) :
    bd (tP k A B f g) = cat (pre (fun d => w2 d f + pm sw (w2 d f)) A) (cP k A B • w2 B g + cQ k A B • pm sw (w2 B g)) +
      (cP k A B + cQ k A B) • cat (w2 A f) (pre (fun d => w2 d g + pm sw (w2 d g)) B) +
      lin (fun x => tP k A B x g) (delE f) + lin (fun y => tP k A B f y) (delE g) := by
  rw [tP_lin_left, tP_lin_right, tP, map_add, map_smul, map_smul, bd_cat, bd_cat, bd_pm isPerm_sw (w2_len hg),
    w2_bd hf, w2_bd hg, map_add (pm sw), pm_sw_pre hg]
  simp only [map_add, LinearMap.add_apply, smul_add, map_smul, add_smul]
  abel

/-- The part of the boundary that does not come from the boundary of the simplices. -/
noncomputable def En (k : Nat) : Nat → List Nat → List Nat → (SKey →₀ F)
  | 0, _, _ => 0
  | n + 1, f, g => Dn k n f g + pm yy4 (Dn k n f g) + pre (fun k => Dn k n f g + pm sw4 (Dn k n g f)) k

theorem lin_sum_fun {ι : Type} (t : ι → List Nat → (SKey →₀ F)) (s : Finset ι) (u : List Nat →₀ F) :
    lin (fun x => ∑ i ∈ s, t i x) u = ∑ i ∈ s, lin (t i) u := by
  refine (LinearMap.congr_fun (f := lin fun x => ∑ i ∈ s, t i x) (g := ∑ i ∈ s, lin (t i)) (lin_ext fun k => ?_) u).trans
    (by rw [LinearMap.sum_apply])
  simp [LinearMap.sum_apply]

theorem Dn_yy (k n : Nat) {f g : List Nat} (hf : Inc f) (hg : Inc g) : pm yy4 (Dn k n f g) =
    ∑ p ∈ Finset.antidiagonal n, (cP k p.1 p.2 • cat (pm sw (w2 p.1 f)) (pm sw (w2 p.2 g)) +
      cQ k p.1 p.2 • cat (pm sw (w2 p.1 f)) (w2 p.2 g)) := by
  rw [Dn, map_sum]
  refine Finset.sum_congr rfl fun p _ => ?_
  rw [tP, map_add, map_smul, map_smul, pm_yy_cat (w2_len hf) (w2_len hg),
    pm_yy_cat (w2_len hf) (TS_length (pm_supp isPerm_sw (w2_supp hg))), pm_sw_sw (w2_len hg)]

theorem Dn_sw (k n : Nat) {f g : List Nat} (hf : Inc f) (hg : Inc g) : pm sw4 (Dn k n g f) =
    ∑ p ∈ Finset.antidiagonal n, (cP k p.2 p.1 • cat (w2 p.1 f) (w2 p.2 g) +
      cQ k p.2 p.1 • cat (pm sw (w2 p.1 f)) (w2 p.2 g)) := by
  rw [Dn, map_sum, ← Finset.Nat.sum_antidiagonal_swap]
  refine Finset.sum_congr rfl fun p _ => ?_
  rw [tP, map_add, map_smul, map_smul, pm_sw_cat (w2_len hg) (w2_len hf),
    pm_sw_cat (w2_len hg) (TS_length (pm_supp isPerm_sw (w2_supp hf)))]
  rfl

theorem En_eq (k n : Nat) {f g : List Nat} (hf : Inc f) (hg : Inc g) : En k (n + 1) f g =
    ∑ p ∈ Finset.antidiagonal n,
      ((cP k (p.1 + 1) p.2 + (cP k p.1 (p.2 + 1) + cQ k p.1 (p.2 + 1))) • cat (w2 p.1 f) (w2 p.2 g) +
       (cQ k (p.1 + 1) p.2 + (cP k p.1 (p.2 + 1) + cQ k p.1 (p.2 + 1))) • cat (w2 p.1 f) (pm sw (w2 p.2 g)) +
       cP k (p.1 + 1) p.2 • cat (pm sw (w2 p.1 f)) (w2 p.2 g) +
       cQ k (p.1 + 1) p.2 • cat (pm sw (w2 p.1 f)) (pm sw (w2 p.2 g))) := by
  rw [Finset.sum_congr rfl fun p _ => by rw [c_ab, c_ab', c_a'b, c_a'b'], En, Dn_yy k n hf hg]
  cases k with
  | zero =>
    simp only [pre, add_zero]
    rw [Dn, ← Finset.sum_add_distrib]
    refine Finset.sum_congr rfl fun p _ => ?_
    rw [tP]
    abel
  | succ k =>
    simp only [pre]
    rw [Dn_sw k n hf hg, Dn, Dn, ← Finset.sum_add_distrib, ← Finset.sum_add_distrib, ← Finset.sum_add_distrib]
    refine Finset.sum_congr rfl fun p _ => ?_
    simp only [tP, add_smul]
    abel

theorem Dn_bd (k n : Nat) (f g : List Nat) (hf : Inc f) (hg : Inc g) :
    bd (Dn k n f g) = En k n f g + lin (fun x => Dn k n x g) (delE f) + lin (fun y => Dn k n f y) (delE g) := by
  unfold Dn
  rw [map_sum, lin_sum_fun, lin_sum_fun, Finset.sum_congr rfl fun p _ => tP_bd k p.1 p.2 hf hg, Finset.sum_add_distrib,
    Finset.sum_add_distrib, Finset.sum_add_distrib]
  congr 2
  cases n with
  | zero => simp [pre, En]
  | succ n =>
    rw [En_eq k n hf hg, Finset.Nat.sum_antidiagonal_succ, Finset.Nat.sum_antidiagonal_succ']
    simp only [pre, map_zero, LinearMap.zero_apply, smul_zero, zero_add, add_zero]
    rw [← Finset.sum_add_distrib]
    refine Finset.sum_congr rfl fun p _ => ?_
    simp only [map_add, LinearMap.add_apply, smul_add, map_smul, add_smul]
    abel

/-! ### the diagonals on the tensor square -/

noncomputable def La (k j : Nat) : (SKey →₀ F) →ₗ[F] (SKey →₀ F) := lin (lift2 (Dn k (j + k)))

theorem Dn_supp {k n : Nat} {f g : List Nat} (hf : Inc f) (hg : Inc g) (h1 : f.Sublist σ) (h2 : g.Sublist σ) :
    Dn k n f g ∈ Finsupp.supported F F (TS 4 (n + ldim f + ldim g) σ) := by
  refine Submodule.sum_mem _ fun p hp => ?_
  have hp := Finset.mem_antidiagonal.1 hp
  have h1 := Finsupp.supported_mono (TS_mono h1) (w2_supp (d := p.1) hf)
  have h2 := Finsupp.supported_mono (TS_mono h2) (w2_supp (d := p.2) hg)
  rw [show (n : Int) + ldim f + ldim g = ((p.1 : Int) + ldim f) + ((p.2 : Int) + ldim g) by
    rw [← hp]; push_cast; ring]
  exact Submodule.add_mem _ (Submodule.smul_mem _ _ (cat_TS h1 h2))
    (Submodule.smul_mem _ _ (cat_TS h1 (pm_supp isPerm_sw h2)))

theorem La_supp (k j : Nat) (hσ : Inc σ) {m : Int} {v : SKey →₀ F} (hv : v ∈ Finsupp.supported F F (TS 2 m σ)) :
    La k j v ∈ Finsupp.supported F F (TS 4 ((j + k : Nat) + m) σ) :=
  lift2_supp (fun _ _ hf hg h1 h2 => Dn_supp hf hg h1 h2) hσ hv

theorem lift2_pm (B : List Nat → List Nat → (SKey →₀ F)) (p : Perm) (v : SKey →₀ F) :
    lin (lift2 fun f g => pm p (B f g)) v = pm p (lin (lift2 B) v) := by
  refine LinearMap.congr_fun (f := lin (lift2 fun f g => pm p (B f g))) (g := (pm p).comp (lin (lift2 B)))
    (lin_ext fun k => ?_) v
  simp only [LinearMap.comp_apply, lin_single, one_smul]
  unfold lift2
  split <;> simp

theorem lift2_sw (B : List Nat → List Nat → (SKey →₀ F)) {v : SKey →₀ F} (hv : v ∈ Finsupp.supported F F (Len 2)) :
    lin (lift2 fun f g => B g f) v = lin (lift2 B) (pm sw v) := by
  refine lin_ext_supported (f := lin (lift2 fun f g => B g f)) (g := (lin (lift2 B)).comp (pm sw)) (fun k hk => ?_) hv
  obtain ⟨f, g, rfl⟩ := List.length_eq_two.1 hk
  simp only [LinearMap.comp_apply, pm_bv, actL_sw, lin_single, one_smul, lift2]

theorem lift2_En (k n : Nat) {v : SKey →₀ F} (hv : v ∈ Finsupp.supported F F (Len 2)) :
    lin (lift2 (En k (n + 1))) v = lin (lift2 (Dn k n)) v + pm yy4 (lin (lift2 (Dn k n)) v) +
      pre (fun k => lin (lift2 (Dn k n)) v + pm sw4 (lin (lift2 (Dn k n)) (pm sw v))) k := by
  rw [show En k (n + 1) = fun f g => (Dn k n f g + pm yy4 (Dn k n f g)) +
    pre (fun k => Dn k n f g + pm sw4 (Dn k n g f)) k from rfl, lift2_add, lift2_add, lift2_pm]
  congr 1
  cases k with
  | zero => simp only [pre]; rw [lift2_zero]; rfl
  | succ k =>
    simp only [pre]
    rw [lift2_add, lift2_pm (fun f g => Dn k n g f), lift2_sw (Dn k n) hv]

theorem La_bd (k j : Nat) (hσ : Inc σ) {m : Int} {v : SKey →₀ F} (hv : v ∈ Finsupp.supported F F (TS 2 m σ)) :
    bd (La k j v) = pre (fun j => La k j v + pm yy4 (La k j v)) j +
      pre (fun k => La k j v + pm sw4 (La k j (pm sw v))) k + La k j (bd v) := by
  unfold La
  rw [lift2_chain (Dn_bd k (j + k)) hσ hv]
  congr 1
  have hl := TS_length hv
  cases j with
  | zero =>
    cases k with
    | zero =>
      simp only [pre]
      rw [show En 0 (0 + 0) = fun _ _ => 0 from rfl, lift2_zero]
      rfl
    | succ k =>
      have h0 : Dn (k + 1) (0 + k) = fun _ _ => 0 := by
        funext f g; exact Dn_small (by omega) f g
      rw [show 0 + (k + 1) = (0 + k) + 1 by omega, lift2_En _ _ hl, h0, lift2_zero]
      simp only [pre]
      simp
  | succ j =>
    have e : j + 1 + k = (j + k) + 1 := by omega
    rw [e, lift2_En _ _ hl]
    cases k with
    | zero => simp only [pre]
    | succ k =>
      simp only [pre]
      have e' : j + (k + 1) = j + 1 + k := by omega
      rw [e']

/-! ### the double family -/

/-- Powers of the swap of the pairs. -/
noncomputable def xp : Nat → (SKey →₀ F) → (SKey →₀ F)
  | 0, v => v
  | i + 1, v => pm sw4 (xp i v)

theorem xp_supp (i : Nat) {m : Int} {v : SKey →₀ F} (hv : v ∈ Finsupp.supported F F (TS 4 m σ)) :
    xp i v ∈ Finsupp.supported F F (TS 4 m σ) := by
  induction i with
  | zero => exact hv
  | succ i ih => exact pm_supp isPerm_sw4 ih

theorem xp_add (i : Nat) (u v : SKey →₀ F) : xp i (u + v) = xp i u + xp i v := by
  induction i with
  | zero => rfl
  | succ i ih => rw [xp, ih, map_add]; rfl

theorem xp_zero (i : Nat) : xp i 0 = 0 := by
  induction i with
  | zero => rfl
  | succ i ih => rw [xp, ih, map_zero]

theorem xp_comm (i : Nat) (v : SKey →₀ F) : xp i (pm sw4 v) = pm sw4 (xp i v) := by
  induction i with
  | zero => rfl
  | succ i ih => rw [xp, ih]; rfl

theorem xp_bd (i : Nat) {m : Int} {v : SKey →₀ F} (hv : v ∈ Finsupp.supported F F (TS 4 m σ)) :
    bd (xp i v) = xp i (bd v) := by
  induction i with
  | zero => rfl
  | succ i ih => rw [xp, bd_pm isPerm_sw4 (TS_length (xp_supp i hv)), ih]; rfl

theorem xp_lin (i : Nat) (b : List Nat → (SKey →₀ F)) (u : List Nat →₀ F) :
    xp i (lin b u) = lin (fun x => xp i (b x)) u := by
  induction i with
  | zero => rfl
  | succ i ih => rw [xp, ih, lin_comp_fun]; rfl

theorem xp_yy (i : Nat) {m : Int} {v : SKey →₀ F} (hv : v ∈ Finsupp.supported F F (TS 4 m σ)) :
    xp i (pm yy4 v) = pm yy4 (xp i v) := by
  induction i with
  | zero => rfl
  | succ i ih => rw [xp, ih, sw_yy (TS_length (xp_supp i hv))]; rfl

theorem xp_pre (i : Nat) (f : Nat → (SKey →₀ F)) (n : Nat) : xp i (pre f n) = pre (fun n => xp i (f n)) n := by
  cases n with
  | zero => exact xp_zero i
  | succ n => rfl

/-- One term. -/
noncomputable def tm (k m j : Nat) (σ : List Nat) : SKey →₀ F := xp m (La k j (swp m (w2 m σ)))

theorem tm_supp (k m j : Nat) (hσ : Inc σ) : tm k m j σ ∈ Finsupp.supported F F (TS 4 ((k + m + j : Nat) + ldim σ) σ) := by
  have := xp_supp m (La_supp k j hσ (swp_supp m (w2_supp (d := m) hσ)))
  rw [show ((k + m + j : Nat) : Int) + ldim σ = (j + k : Nat) + (m + ldim σ) by push_cast; ring]
  exact this

theorem tm_lin (k m j : Nat) (u : List Nat →₀ F) :
    lin (tm k m j) u = xp m (La k j (swp m (lin (w2 m) u))) := by
  rw [swp_lin, lin_comp_fun, xp_lin]
  rfl

/-- The other family of terms. -/
noncomputable def tx (k m j : Nat) (σ : List Nat) : SKey →₀ F := xp (m + 1) (La k j (swp (m + 1) (w2 m σ)))

theorem tm_bd (k m j : Nat) (hσ : Inc σ) : bd (tm k m j σ) =
    pre (fun j => tm k m j σ + pm yy4 (tm k m j σ)) j + pre (fun k => tm k m j σ + tx k m j σ) k +
      pre (fun m => tx k m j σ + pm sw4 (tm k m j σ)) m + lin (tm k m j) (delE σ) := by
  have hs := swp_supp m (w2_supp (d := m) hσ)
  rw [tm_lin]
  rw [tm, xp_bd m (La_supp k j hσ hs), La_bd k j hσ hs, swp_bd m hσ (w2_supp hσ), w2_bd hσ]
  rw [swp_add, map_add, xp_add, xp_add, xp_add, xp_pre, xp_pre, ← add_assoc]
  congr 1
  congr 1
  · congr 1
    · cases j with
      | zero => rfl
      | succ j =>
        simp only [pre]
        rw [xp_add, xp_yy m (La_supp k j hσ hs)]
        rfl
    · cases k with
      | zero => rfl
      | succ k =>
        simp only [pre]
        rw [xp_add, xp_comm]
        rfl
  · cases m with
    | zero => simp only [pre]; simp [swp, xp]
    | succ m =>
      simp only [pre]
      rw [swp_add, swp_comm, map_add, xp_add]
      congr 1
      rw [show pm sw (swp (m + 1) (w2 m σ)) = pm sw (pm sw (swp m (w2 m σ))) from rfl,
        pm_sw_sw (TS_length (swp_supp m (w2_supp hσ)))]
      rfl

/-- The double family. -/
noncomputable def Th (i j : Nat) (σ : List Nat) : SKey →₀ F := ∑ p ∈ Finset.antidiagonal i, tm p.1 p.2 j σ

theorem Th_supp (i j : Nat) (hσ : Inc σ) : Th i j σ ∈ Finsupp.supported F F (TS 4 ((i + j : Nat) + ldim σ) σ) := by
  refine Submodule.sum_mem _ fun p hp => ?_
  rw [← Finset.mem_antidiagonal.1 hp]
  exact tm_supp p.1 p.2 j hσ

theorem Th_bd (i j : Nat) (hσ : Inc σ) : bd (Th i j σ) =
    pre (fun i => Th i j σ + pm sw4 (Th i j σ)) i + pre (fun j => Th i j σ + pm yy4 (Th i j σ)) j +
      lin (Th i j) (delE σ) := by
  unfold Th
  rw [map_sum, lin_sum_fun, Finset.sum_congr rfl fun p _ => tm_bd p.1 p.2 j hσ, Finset.sum_add_distrib,
    Finset.sum_add_distrib, Finset.sum_add_distrib, add_assoc (∑ p ∈ Finset.antidiagonal i, pre _ j),
    add_comm (∑ p ∈ Finset.antidiagonal i, pre _ j)]
  congr 1
  congr 1
  · cases i with
    | zero => simp [pre]
    | succ i =>
      rw [Finset.Nat.sum_antidiagonal_succ, Finset.Nat.sum_antidiagonal_succ']
      simp only [pre, zero_add, add_zero]
      rw [← Finset.sum_add_distrib, map_sum, ← Finset.sum_add_distrib]
      refine Finset.sum_congr rfl fun p _ => ?_
      rw [show ∀ a b c : SKey →₀ F, a + b + (b + c) = a + c + (b + b) by intros; abel, add_self', add_zero]
  · cases j with
    | zero => simp [pre]
    | succ j => simp only [pre]; rw [map_sum, ← Finset.sum_add_distrib]

/-! ### the homotopy between the double family and its transpose -/

/-- The transpose. -/
noncomputable def Tt (i j : Nat) (σ : List Nat) : SKey →₀ F := pm sh4 (Th j i σ)

theorem Tt_supp (i j : Nat) (hσ : Inc σ) : Tt i j σ ∈ Finsupp.supported F F (TS 4 ((i + j : Nat) + ldim σ) σ) := by
  rw [add_comm i j]
  exact pm_supp isPerm_sh4 (Th_supp j i hσ)

theorem Tt_bd (i j : Nat) (hσ : Inc σ) : bd (Tt i j σ) =
    pre (fun i => Tt i j σ + pm sw4 (Tt i j σ)) i + pre (fun j => Tt i j σ + pm yy4 (Tt i j σ)) j +
      lin (Tt i j) (delE σ) := by
  unfold Tt
  rw [bd_pm isPerm_sh4 (TS_length (Th_supp j i hσ)), Th_bd j i hσ, map_add, map_add, lin_comp_fun,
    add_comm (pm sh4 (pre _ j))]
  congr 2
  · cases i with
    | zero => simp [pre]
    | succ i => simp only [pre]; rw [map_add, sh_yy (TS_length (Th_supp j i hσ))]
  · cases j with
    | zero => simp [pre]
    | succ j => simp only [pre]; rw [map_add, sh_sw (TS_length (Th_supp j i hσ))]

theorem aug_smul_cat (c : F) (u v : SKey →₀ F) : aug (c • cat u v) = c * (aug u * aug v) := by
  rw [map_smul, aug_cat, smul_eq_mul]

theorem Th_zero_vertex (v : Nat) : aug (Th 0 0 [v]) = 1 := by
  have hσ : Inc [v] := ⟨by simp, by simp⟩
  have hw : w2 0 [v] = bv F [[v], [v]] := by
    rw [w2, w_bottom le_rfl hσ, aw_cons, aw_zero, aw_nil]
    simp [lany, Comch.ldrop, hasRep]
  simp only [Th, Finset.HasAntidiagonal.antidiagonal_zero, Finset.sum_singleton, tm, xp, swp, La, hw, lin_single, one_smul, lift2]
  rw [Dn, add_zero, Finset.HasAntidiagonal.antidiagonal_zero, Finset.sum_singleton, tP, map_add, aug_smul_cat, aug_smul_cat, aug_pm, aug_w2]
  decide

end Contract
end Comch
