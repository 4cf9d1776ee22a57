import Verif.Lib.CubeCartan

/-! # The double complex of the Adem relations on cubes modulo 2 -/

set_option linter.unusedSectionVars false

namespace Comch
namespace CubeCart
open Finsupp (single)
open Acyclic BElem Elem CElem Comch.Spec Join CubCall CubeCoch SurjComp SurjElem IsPerm SurjMay Comch.Props
open Contract (Contr T S S_supp contract_pos contract_zero tensK_supp aug_cat pre cP cQ two_zero cPQ c_ab c_ab' c_a'b c_a'b' c_small)

/-! ### the higher diagonals on pairs of cubes -/

/-- The swap inside both pairs. -/
abbrev yy4 : Perm := [2, 1, 4, 3]
theorem isPerm_yy4 : IsPerm 4 yy4 := by decide
theorem actL_yy4 (a b c e : Cube) : actL yy4 [a, b, c, e] = [b, a, e, c] := by
  simp [actL, sortl, List.insertionSort, List.orderedInsert]

theorem pm_yy_cat {u v : CKey →₀ F} (hu : u ∈ Finsupp.supported F F (Len 2))
    (hv : v ∈ Finsupp.supported F F (Len 2)) : pm yy4 (cat u v) = cat (pm sw u) (pm sw v) := by
  have := bil_ext_supported (R := F) (M := CKey →₀ F) (S := Len 2) (T := Len 2)
    (f := (cat (R := F) (A := Cube)).compr₂ (pm yy4))
    (g := (cat (R := F) (A := Cube)).compl₁₂ (pm sw) (pm sw)) (fun a ha b hb => by
      obtain ⟨a1, a2, rfl⟩ := List.length_eq_two.1 ha
      obtain ⟨b1, b2, rfl⟩ := List.length_eq_two.1 hb
      simp [actL_yy4, actL_sw, pm, actK_two]) hu hv
  rw [LinearMap.compr₂_apply, LinearMap.compl₁₂_apply] at this
  exact this

theorem len_four {k : CKey} (hk : k ∈ Len 4) : ∃ a b c e, k = [a, b, c, e] := by
  match k, hk with
  | [f, g, f', g'], _ => exact ⟨f, g, f', g', rfl⟩

theorem pm_ext4 {p q p' q' : Perm} (h : ∀ a b c e : Cube,
    actL p (actL q [a, b, c, e]) = actL p' (actL q' [a, b, c, e])) {v : CKey →₀ F}
    (hv : v ∈ Finsupp.supported F F (Len 4)) : pm p (pm q v) = pm p' (pm q' v) := by
  refine lin_ext_supported (f := (pm p).comp (pm q)) (g := (pm p').comp (pm q')) (fun k hk => ?_) hv
  obtain ⟨a, b, c, e, rfl⟩ := len_four hk
  simp only [LinearMap.comp_apply, pm_bv, h]

theorem yy_yy {v : CKey →₀ F} (hv : v ∈ Finsupp.supported F F (Len 4)) : pm yy4 (pm yy4 v) = v := by
  rw [pm_pm isPerm_yy4 isPerm_yy4 hv]; exact pm_id (r := 4) hv

theorem sw_yy {v : CKey →₀ F} (hv : v ∈ Finsupp.supported F F (Len 4)) : pm sw4 (pm yy4 v) = pm yy4 (pm sw4 v) :=
  pm_ext4 (fun a b c e => by rw [actL_yy4, actL_sw4, actL_sw4, actL_yy4]) hv

theorem sh_sw {v : CKey →₀ F} (hv : v ∈ Finsupp.supported F F (Len 4)) : pm sh4 (pm sw4 v) = pm yy4 (pm sh4 v) :=
  pm_ext4 (fun a b c e => by rw [actL_sw4, actL_sh4, actL_sh4, actL_yy4]) hv

theorem sh_yy {v : CKey →₀ F} (hv : v ∈ Finsupp.supported F F (Len 4)) : pm sh4 (pm yy4 v) = pm sw4 (pm sh4 v) :=
  pm_ext4 (fun a b c e => by rw [actL_yy4, actL_sh4, actL_sh4, actL_sw4]) hv

variable {d : Nat} {σ : Cube}

noncomputable def tP (k A B : Nat) (f g : Cube) : CKey →₀ F :=
  cP k A B • cat (cw A f) (cw B g) + cQ k A B • cat (cw A f) (pm sw (cw B g))

/-- The diagonal of order `k`, in total degree `n`. -/
noncomputable def Dn (k n : Nat) (f g : Cube) : CKey →₀ F :=
  ∑ p ∈ Finset.antidiagonal n, tP k p.1 p.2 f g

theorem Dn_small {k n : Nat} (h : n < 2 * k) (f g : Cube) : Dn k n f g = 0 := by
  refine Finset.sum_eq_zero fun p hp => ?_
  have hp := Finset.mem_antidiagonal.1 hp
  obtain ⟨h1, h2⟩ := c_small (k := k) (A := p.1) (B := p.2) (by omega)
  rw [tP, h1, h2, zero_smul, zero_smul, add_zero]

theorem w2_bd (hσ : Cu σ) (d : Nat) :
    cbd (cw d σ) = pre (fun d => cw d σ + pm sw (cw d σ)) d + lin (cw d) (cubeD σ) := by
  cases d with
  | zero => rw [w2_zero hσ, pre, zero_add]
  | succ d => rw [w2_succ hσ, pre]

theorem tP_lin_left (k A B : Nat) (g : Cube) (u : Cube →₀ F) :
    lin (fun x => tP k A B x g) u = cP k A B • cat (lin (cw A) u) (cw B g) +
      cQ k A B • cat (lin (cw A) u) (pm sw (cw B g)) := by
  refine LinearMap.congr_fun (f := lin fun x => tP k A B x g) (g := cP k A B • ((cat.flip (cw B g)).comp (lin (cw A))) +
    cQ k A B • ((cat.flip (pm sw (cw B g))).comp (lin (cw A)))) (lin_ext fun k => ?_) u
  simp [tP]

theorem tP_lin_right (k A B : Nat) (f : Cube) (u : Cube →₀ F) :
    lin (fun y => tP k A B f y) u = cP k A B • cat (cw A f) (lin (cw B) u) +
      cQ k A B • cat (cw A f) (pm sw (lin (cw B) u)) := by
  refine LinearMap.congr_fun (f := lin fun y => tP k A B f y) (g := cP k A B • ((cat (cw A f)).comp (lin (cw B))) +
    cQ k A B • ((cat (cw A f)).comp ((pm sw).comp (lin (cw B))))) (lin_ext fun k => ?_) u
  simp [tP]

theorem pm_sw_pre {g : Cube} (hg : Cu g) (d : Nat) :
    pm sw (pre (fun d => cw d g + pm sw (cw d g)) d) = pre (fun d => cw d g + pm sw (cw d g)) d := by
  cases d with
  | zero => simp [pre]
  | succ d => rw [pre, map_add, pm_sw_sw (w2_len hg), add_comm]

theorem tP_bd (k A B : Nat) {f g : Cube} (hf : Cu f) (hg : Cu g) :
    cbd (tP k A B f g) = cat (pre (fun d => cw d f + pm sw (cw d f)) A) (cP k A B • cw B g + cQ k A B • pm sw (cw B g)) +
      (cP k A B + cQ k A B) • cat (cw A f) (pre (fun d => cw d g + pm sw (cw d g)) B) +
      lin (fun x => tP k A B x g) (cubeD f) + lin (fun y => tP k A B f y) (cubeD g) := by
  rw [tP_lin_left, tP_lin_right, tP, map_add, map_smul, map_smul, bd_cat, bd_cat, bd_pm isPerm_sw (w2_len hg),
    w2_bd hf, w2_bd hg, map_add (pm sw), pm_sw_pre hg]
  simp only [map_add, LinearMap.add_apply, smul_add, map_smul, add_smul]
  abel

/-- The part of the boundary that does not come from the boundary of the cubes. -/
noncomputable def En (k : Nat) : Nat → Cube → Cube → (CKey →₀ F)
  | 0, _, _ => 0
  | n + 1, f, g => Dn k n f g + pm yy4 (Dn k n f g) + pre (fun k => Dn k n f g + pm sw4 (Dn k n g f)) k

theorem lin_sum_fun {ι : Type} (t : ι → Cube → (CKey →₀ F)) (s : Finset ι) (u : Cube →₀ F) :
    lin (fun x => ∑ i ∈ s, t i x) u = ∑ i ∈ s, lin (t i) u := by
  refine (LinearMap.congr_fun (f := lin fun x => ∑ i ∈ s, t i x) (g := ∑ i ∈ s, lin (t i)) (lin_ext fun k => ?_) u).trans
    (by rw [LinearMap.sum_apply])
  simp [LinearMap.sum_apply]

theorem Dn_yy (k n : Nat) {f g : Cube} (hf : Cu f) (hg : Cu g) : pm yy4 (Dn k n f g) =
    ∑ p ∈ Finset.antidiagonal n, (cP k p.1 p.2 • cat (pm sw (cw p.1 f)) (pm sw (cw p.2 g)) +
      cQ k p.1 p.2 • cat (pm sw (cw p.1 f)) (cw p.2 g)) := by
  rw [Dn, map_sum]
  refine Finset.sum_congr rfl fun p _ => ?_
  rw [tP, map_add, map_smul, map_smul, pm_yy_cat (w2_len hf) (w2_len hg),
    pm_yy_cat (w2_len hf) (TS_length (pm_supp isPerm_sw (w2_supp hg))), pm_sw_sw (w2_len hg)]

theorem Dn_sw (k n : Nat) {f g : Cube} (hf : Cu f) (hg : Cu g) : pm sw4 (Dn k n g f) =
    ∑ p ∈ Finset.antidiagonal n, (cP k p.2 p.1 • cat (cw p.1 f) (cw p.2 g) +
      cQ k p.2 p.1 • cat (pm sw (cw p.1 f)) (cw p.2 g)) := by
  rw [Dn, map_sum, ← Finset.Nat.sum_antidiagonal_swap]
  refine Finset.sum_congr rfl fun p _ => ?_
  rw [tP, map_add, map_smul, map_smul, pm_sw_cat (w2_len hg) (w2_len hf),
    pm_sw_cat (w2_len hg) (TS_length (pm_supp isPerm_sw (w2_supp hf)))]
  rfl

theorem En_eq (k n : Nat) {f g : Cube} (hf : Cu f) (hg : Cu g) : En k (n + 1) f g =
    ∑ p ∈ Finset.antidiagonal n,
      ((cP k (p.1 + 1) p.2 + (cP k p.1 (p.2 + 1) + cQ k p.1 (p.2 + 1))) • cat (cw p.1 f) (cw p.2 g) +
       (cQ k (p.1 + 1) p.2 + (cP k p.1 (p.2 + 1) + cQ k p.1 (p.2 + 1))) • cat (cw p.1 f) (pm sw (cw p.2 g)) +
       cP k (p.1 + 1) p.2 • cat (pm sw (cw p.1 f)) (cw p.2 g) +
       cQ k (p.1 + 1) p.2 • cat (pm sw (cw p.1 f)) (pm sw (cw p.2 g))) := by
  rw [Finset.sum_congr rfl fun p _ => by rw [c_ab, c_ab', c_a'b, c_a'b'], En, Dn_yy k n hf hg]
  cases k with
  | zero =>
    simp only [pre, add_zero]
    rw [Dn, ← Finset.sum_add_distrib]
    refine Finset.sum_congr rfl fun p _ => ?_
    rw [tP]
    abel
  | succ k =>
    simp only [pre]
    rw [Dn_sw k n hf hg, Dn, Dn, ← Finset.sum_add_distrib, ← Finset.sum_add_distrib, ← Finset.sum_add_distrib]
    refine Finset.sum_congr rfl fun p _ => ?_
    simp only [tP, add_smul]
    abel

theorem Dn_bd (k n : Nat) (f g : Cube) (hf : Cu f) (hg : Cu g) :
    cbd (Dn k n f g) = En k n f g + lin (fun x => Dn k n x g) (cubeD f) + lin (fun y => Dn k n f y) (cubeD g) := by
  unfold Dn
  rw [map_sum, lin_sum_fun, lin_sum_fun, Finset.sum_congr rfl fun p _ => tP_bd k p.1 p.2 hf hg, Finset.sum_add_distrib,
    Finset.sum_add_distrib, Finset.sum_add_distrib]
  congr 2
  cases n with
  | zero => simp [pre, En]
  | succ n =>
    rw [En_eq k n hf hg, Finset.Nat.sum_antidiagonal_succ, Finset.Nat.sum_antidiagonal_succ']
    simp only [pre, map_zero, LinearMap.zero_apply, smul_zero, zero_add, add_zero]
    rw [← Finset.sum_add_distrib]
    refine Finset.sum_congr rfl fun p _ => ?_
    simp only [map_add, LinearMap.add_apply, smul_add, map_smul, add_smul]
    abel

/-! ### the diagonals on the tensor square -/

noncomputable def La (k j : Nat) : (CKey →₀ F) →ₗ[F] (CKey →₀ F) := lin (lift2 (Dn k (j + k)))

theorem Dn_supp {k n : Nat} {f g : Cube} (hf : Cu f) (hg : Cu g) (h1 : f ∈ FC σ) (h2 : g ∈ FC σ) :
    Dn k n f g ∈ Finsupp.supported F F (TC 4 (n + cdim f + cdim g) σ) := by
  refine Submodule.sum_mem _ fun p hp => ?_
  have hp := Finset.mem_antidiagonal.1 hp
  have h1 := Finsupp.supported_mono (TC_mono h1) (w2_supp (d := p.1) hf)
  have h2 := Finsupp.supported_mono (TC_mono h2) (w2_supp (d := p.2) hg)
  rw [show (n : Int) + cdim f + cdim g = ((p.1 : Int) + cdim f) + ((p.2 : Int) + cdim g) by
    rw [← hp]; push_cast; ring]
  exact Submodule.add_mem _ (Submodule.smul_mem _ _ (cat_TS h1 h2))
    (Submodule.smul_mem _ _ (cat_TS h1 (pm_supp isPerm_sw h2)))

theorem La_supp (k j : Nat) (hσ : Cu σ) {m : Int} {v : CKey →₀ F} (hv : v ∈ Finsupp.supported F F (TC 2 m σ)) :
    La k j v ∈ Finsupp.supported F F (TC 4 ((j + k : Nat) + m) σ) :=
  lift2_supp (fun _ _ hf hg h1 h2 => Dn_supp hf hg h1 h2) hσ hv

theorem lift2_pm (B : Cube → Cube → (CKey →₀ F)) (p : Perm) (v : CKey →₀ F) :
    lin (lift2 fun f g => pm p (B f g)) v = pm p (lin (lift2 B) v) := by
  refine LinearMap.congr_fun (f := lin (lift2 fun f g => pm p (B f g))) (g := (pm p).comp (lin (lift2 B)))
    (lin_ext fun k => ?_) v
  simp only [LinearMap.comp_apply, lin_single, one_smul]
  unfold lift2
  split <;> simp

theorem lift2_sw (B : Cube → Cube → (CKey →₀ F)) {v : CKey →₀ F} (hv : v ∈ Finsupp.supported F F (Len 2)) :
    lin (lift2 fun f g => B g f) v = lin (lift2 B) (pm sw v) := by
  refine lin_ext_supported (f := lin (lift2 fun f g => B g f)) (g := (lin (lift2 B)).comp (pm sw)) (fun k hk => ?_) hv
  obtain ⟨f, g, rfl⟩ := List.length_eq_two.1 hk
  simp only [LinearMap.comp_apply, pm_bv, actL_sw, lin_single, one_smul, lift2]

theorem lift2_En (k n : Nat) {v : CKey →₀ F} (hv : v ∈ Finsupp.supported F F (Len 2)) :
    lin (lift2 (En k (n + 1))) v = lin (lift2 (Dn k n)) v + pm yy4 (lin (lift2 (Dn k n)) v) +
      pre (fun k => lin (lift2 (Dn k n)) v + pm sw4 (lin (lift2 (Dn k n)) (pm sw v))) k := by
  rw [show En k (n + 1) = fun f g => (Dn k n f g + pm yy4 (Dn k n f g)) +
    pre (fun k => Dn k n f g + pm sw4 (Dn k n g f)) k from rfl, lift2_add, lift2_add, lift2_pm]
  congr 1
  cases k with
  | zero => simp only [pre]; rw [lift2_zero]; rfl
  | succ k =>
    simp only [pre]
    rw [lift2_add, lift2_pm (fun f g => Dn k n g f), lift2_sw (Dn k n) hv]

theorem La_bd (k j : Nat) (hσ : Cu σ) {m : Int} {v : CKey →₀ F} (hv : v ∈ Finsupp.supported F F (TC 2 m σ)) :
    cbd (La k j v) = pre (fun j => La k j v + pm yy4 (La k j v)) j +
      pre (fun k => La k j v + pm sw4 (La k j (pm sw v))) k + La k j (cbd v) := by
  unfold La
  rw [lift2_chain (Dn_bd k (j + k)) hσ hv]
  congr 1
  have hl := TS_length hv
  cases j with
  | zero =>
    cases k with
    | zero =>
      simp only [pre]
      rw [show En 0 (0 + 0) = fun _ _ => 0 from rfl, lift2_zero]
      rfl
    | succ k =>
      have h0 : Dn (k + 1) (0 + k) = fun _ _ => 0 := by
        funext f g; exact Dn_small (by omega) f g
      rw [show 0 + (k + 1) = (0 + k) + 1 by omega, lift2_En _ _ hl, h0, lift2_zero]
      simp only [pre]
      simp
  | succ j =>
    have e : j + 1 + k = (j + k) + 1 := by omega
    rw [e, lift2_En _ _ hl]
    cases k with
    | zero => simp only [pre]
    | succ k =>
      simp only [pre]
      have e' : j + (k + 1) = j + 1 + k := by omega
      rw [e']

/-! ### the double family -/

/-- Powers of the swap of the pairs. -/
noncomputable def xp : Nat → (CKey →₀ F) → (CKey →₀ F)
  | 0, v => v
  | i + 1, v => pm sw4 (xp i v)

theorem xp_supp (i : Nat) {m : Int} {v : CKey →₀ F} (hv : v ∈ Finsupp.supported F F (TC 4 m σ)) :
    xp i v ∈ Finsupp.supported F F (TC 4 m σ) := by
  induction i with
  | zero => exact hv
  | succ i ih => exact pm_supp isPerm_sw4 ih

theorem xp_add (i : Nat) (u v : CKey →₀ F) : xp i (u + v) = xp i u + xp i v := by
  induction i with
  | zero => rfl
  | succ i ih => rw [xp, ih, map_add]; rfl

theorem xp_zero (i : Nat) : xp i 0 = 0 := by
  induction i with
  | zero => rfl
  | succ i ih => rw [xp, ih, map_zero]

theorem xp_comm (i : Nat) (v : CKey →₀ F) : xp i (pm sw4 v) = pm sw4 (xp i v) := by
  induction i with
  | zero => rfl
  | succ i ih => rw [xp, ih]; rfl

theorem xp_bd (i : Nat) {m : Int} {v : CKey →₀ F} (hv : v ∈ Finsupp.supported F F (TC 4 m σ)) :
    cbd (xp i v) = xp i (cbd v) := by
  induction i with
  | zero => rfl
  | succ i ih => rw [xp, bd_pm isPerm_sw4 (TS_length (xp_supp i hv)), ih]; rfl

theorem xp_lin (i : Nat) (b : Cube → (CKey →₀ F)) (u : Cube →₀ F) :
    xp i (lin b u) = lin (fun x => xp i (b x)) u := by
  induction i with
  | zero => rfl
  | succ i ih => rw [xp, ih, lin_comp_fun]; rfl

theorem xp_yy (i : Nat) {m : Int} {v : CKey →₀ F} (hv : v ∈ Finsupp.supported F F (TC 4 m σ)) :
    xp i (pm yy4 v) = pm yy4 (xp i v) := by
  induction i with
  | zero => rfl
  | succ i ih => rw [xp, ih, sw_yy (TS_length (xp_supp i hv))]; rfl

theorem xp_pre (i : Nat) (f : Nat → (CKey →₀ F)) (n : Nat) : xp i (pre f n) = pre (fun n => xp i (f n)) n := by
  cases n with
  | zero => exact xp_zero i
  | succ n => rfl

/-- One term. -/
noncomputable def tm (k m j : Nat) (σ : Cube) : CKey →₀ F := xp m (La k j (swp m (cw m σ)))

theorem tm_supp (k m j : Nat) (hσ : Cu σ) : tm k m j σ ∈ Finsupp.supported F F (TC 4 ((k + m + j : Nat) + cdim σ) σ) := by
  have := xp_supp m (La_supp k j hσ (swp_supp m (w2_supp (d := m) hσ)))
  rw [show ((k + m + j : Nat) : Int) + cdim σ = (j + k : Nat) + (m + cdim σ) by push_cast; ring]
  exact this

theorem tm_lin (k m j : Nat) (u : Cube →₀ F) :
    lin (tm k m j) u = xp m (La k j (swp m (lin (cw m) u))) := by
  rw [swp_lin, lin_comp_fun, xp_lin]
  rfl

/-- The other family of terms. -/
noncomputable def tx (k m j : Nat) (σ : Cube) : CKey →₀ F := xp (m + 1) (La k j (swp (m + 1) (cw m σ)))

theorem tm_bd (k m j : Nat) (hσ : Cu σ) : cbd (tm k m j σ) =
    pre (fun j => tm k m j σ + pm yy4 (tm k m j σ)) j + pre (fun k => tm k m j σ + tx k m j σ) k +
      pre (fun m => tx k m j σ + pm sw4 (tm k m j σ)) m + lin (tm k m j) (cubeD σ) := by
  have hs := swp_supp m (w2_supp (d := m) hσ)
  rw [tm_lin]
  rw [tm, xp_bd m (La_supp k j hσ hs), La_bd k j hσ hs, swp_bd m hσ (w2_supp hσ), w2_bd hσ]
  rw [swp_add, map_add, xp_add, xp_add, xp_add, xp_pre, xp_pre, ← add_assoc]
  congr 1
  congr 1
  · congr 1
    · cases j with
      | zero => rfl
      | succ j =>
        simp only [pre]
        rw [xp_add, xp_yy m (La_supp k j hσ hs)]
        rfl
    · cases k with
      | zero => rfl
      | succ k =>
        simp only [pre]
        rw [xp_add, xp_comm]
        rfl
  · cases m with
    | zero => simp only [pre]; simp [swp, xp]
    | succ m =>
      simp only [pre]
      rw [swp_add, swp_comm, map_add, xp_add]
      congr 1
      rw [show pm sw (swp (m + 1) (cw m σ)) = pm sw (pm sw (swp m (cw m σ))) from rfl,
        pm_sw_sw (TS_length (swp_supp m (w2_supp hσ)))]
      rfl

/-- The double family. -/
noncomputable def Th (i j : Nat) (σ : Cube) : CKey →₀ F := ∑ p ∈ Finset.antidiagonal i, tm p.1 p.2 j σ

theorem Th_supp (i j : Nat) (hσ : Cu σ) : Th i j σ ∈ Finsupp.supported F F (TC 4 ((i + j : Nat) + cdim σ) σ) := by
  refine Submodule.sum_mem _ fun p hp => ?_
  rw [← Finset.mem_antidiagonal.1 hp]
  exact tm_supp p.1 p.2 j hσ

theorem Th_bd (i j : Nat) (hσ : Cu σ) : cbd (Th i j σ) =
    pre (fun i => Th i j σ + pm sw4 (Th i j σ)) i + pre (fun j => Th i j σ + pm yy4 (Th i j σ)) j +
      lin (Th i j) (cubeD σ) := by
  unfold Th
  rw [map_sum, lin_sum_fun, Finset.sum_congr rfl fun p _ => tm_bd p.1 p.2 j hσ, Finset.sum_add_distrib,
    Finset.sum_add_distrib, Finset.sum_add_distrib, add_assoc (∑ p ∈ Finset.antidiagonal i, pre _ j),
    add_comm (∑ p ∈ Finset.antidiagonal i, pre _ j)]
  congr 1
  congr 1
  · cases i with
    | zero => simp [pre]
    | succ i =>
      rw [Finset.Nat.sum_antidiagonal_succ, Finset.Nat.sum_antidiagonal_succ']
      simp only [pre, zero_add, add_zero]
      rw [← Finset.sum_add_distrib, map_sum, ← Finset.sum_add_distrib]
      refine Finset.sum_congr rfl fun p _ => ?_
      rw [show ∀ a b c : CKey →₀ F, a + b + (b + c) = a + c + (b + b) by intros; abel, add_self', add_zero]
  · cases j with
    | zero => simp [pre]
    | succ j => simp only [pre]; rw [map_sum, ← Finset.sum_add_distrib]

/-! ### the homotopy between the double family and its transpose -/

/-- The transpose. -/
noncomputable def Tt (i j : Nat) (σ : Cube) : CKey →₀ F := pm sh4 (Th j i σ)

theorem Tt_supp (i j : Nat) (hσ : Cu σ) : Tt i j σ ∈ Finsupp.supported F F (TC 4 ((i + j : Nat) + cdim σ) σ) := by
  rw [add_comm i j]
  exact pm_supp isPerm_sh4 (Th_supp j i hσ)

theorem Tt_bd (i j : Nat) (hσ : Cu σ) : cbd (Tt i j σ) =
    pre (fun i => Tt i j σ + pm sw4 (Tt i j σ)) i + pre (fun j => Tt i j σ + pm yy4 (Tt i j σ)) j +
      lin (Tt i j) (cubeD σ) := by
  unfold Tt
  rw [bd_pm isPerm_sh4 (TS_length (Th_supp j i hσ)), Th_bd j i hσ, map_add, map_add, lin_comp_fun,
    add_comm (pm sh4 (pre _ j))]
  congr 2
  · cases i with
    | zero => simp [pre]
    | succ i => simp only [pre]; rw [map_add, sh_yy (TS_length (Th_supp j i hσ))]
  · cases j with
    | zero => simp [pre]
    | succ j => simp only [pre]; rw [map_add, sh_sw (TS_length (Th_supp j i hσ))]

theorem aug_smul_cat (c : F) (u v : CKey →₀ F) : aug (c • cat u v) = c * (aug u * aug v) := by
  rw [map_smul, aug_cat, smul_eq_mul]

theorem Th_zero_vertex {c : Cube} (hd : cdim c = 0) : aug (Th 0 0 c) = 1 := by
  simp only [Th, Finset.HasAntidiagonal.antidiagonal_zero, Finset.sum_singleton, tm, xp, swp, La, w2_vertex hd, lin_single, one_smul, lift2]
  rw [Dn, add_zero, Finset.HasAntidiagonal.antidiagonal_zero, Finset.sum_singleton, tP, map_add, aug_smul_cat, aug_smul_cat, aug_pm, aug_w2 hd]
  decide

end CubeCart
end Comch
