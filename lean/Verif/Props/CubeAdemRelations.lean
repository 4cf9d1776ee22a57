import Verif.Lib.CubeAdemHomotopy
import Verif.Lib.AdemArith
import Verif.Props.CubeCartanFormula

/-! # The Adem relations for Steenrod squares: C121 -/

set_option linter.unusedSectionVars false

namespace Comch.CubeAdem
open Comch.Spec Elem SurjComp SurjElem IsPerm SurjMay CubCall CubeCoch CubeCart Comch.Props
open Contract (pre cPQ)
open Finsupp (single)

abbrev F := ZMod 2

variable {M : Nat} {X : CubeComplex M} {σ : Cube} {q : Nat} {α : Cube → F}

/-! ### cochains that are coboundaries -/

theorem cube_cob_mul (c : F) (γ : Cube → F) (σ : Cube) :
    cubeCoboundary (fun f => c * γ f) σ = c * cubeCoboundary γ σ := by
  unfold cubeCoboundary
  rw [← List.sum_map_mul_left]
  congr 1
  refine List.map_congr_left fun i _ => ?_
  split <;> ring

/-- Coboundaries. -/
def Null (X : CubeComplex M) (f : Cube → F) : Prop :=
  ∃ γ : Cube → F, ∀ σ ∈ X.cubes, f σ = cubeCoboundary γ σ

theorem Null.zero : Null X (fun _ => 0) := ⟨fun _ => 0, fun σ _ => (cube_cob_zero σ).symm⟩

theorem Null.add {f g : Cube → F} (hf : Null X f) (hg : Null X g) : Null X (fun σ => f σ + g σ) := by
  obtain ⟨γ, h⟩ := hf
  obtain ⟨ε, h'⟩ := hg
  exact ⟨fun τ => γ τ + ε τ, fun σ hσ => by beta_reduce; rw [cube_cob_add, h σ hσ, h' σ hσ]⟩

theorem Null.mul {f : Cube → F} (c : F) (hf : Null X f) : Null X (fun σ => c * f σ) := by
  obtain ⟨γ, h⟩ := hf
  exact ⟨fun τ => c * γ τ, fun σ hσ => by beta_reduce; rw [cube_cob_mul, h σ hσ]⟩

theorem Null.sum {ι : Type} {s : Finset ι} {f : ι → Cube → F} (h : ∀ i ∈ s, Null X (f i)) :
    Null X (fun σ => ∑ i ∈ s, f i σ) := by
  classical
  induction s using Finset.induction_on with
  | empty => simpa using Null.zero
  | insert i s hi ih =>
    have := (h i (by simp)).add (ih fun j hj => h j (by simp [hj]))
    simpa [Finset.sum_insert hi] using this

theorem Null.congr {f g : Cube → F} (hf : Null X f) (h : ∀ σ ∈ X.cubes, f σ = g σ) : Null X g := by
  obtain ⟨γ, h'⟩ := hf
  exact ⟨γ, fun σ hσ => by rw [← h σ hσ, h' σ hσ]⟩

/-! ### the squares -/

/-- The operation of index `A`. -/
noncomputable abbrev D (q : Nat) (α : Cube → F) (A : Nat) : Cube → F := wq A (q) (α) (q) (α)

theorem D_cocycle (hα : IsCubeCocycle X q α) (A : Nat) (hσ : σ ∈ X.cubes) : cubeCoboundary (D q α A) σ = 0 :=
  wc_self_cob hα hσ

theorem D_len {A : Nat} (hA : A ≤ q) (hσ : Cu σ) (h : D q α A σ ≠ 0) : σ.count 2 = 2 * q - A := by
  have := square_degree (k := q - A) hσ (Nat.sub_le _ _) (by rwa [show q - (q - A) = A by omega])
  omega

theorem D_zero {A : Nat} (hA : q < A) (hσ : σ ∈ X.cubes) : D q α A σ = 0 := square_vanish (cube_le hσ) hA

/-- A product of two of the operations. -/
noncomputable def P (q : Nat) (α : Cube → F) (A B m : Nat) (σ : Cube) : F :=
  pairC (D q α A) (D q α B) (cw m σ)

theorem pairC_sw (φ ψ : Cube → F) {v : CKey →₀ F} (hv : v ∈ Finsupp.supported F F (Len 2)) :
    pairC φ ψ (pm sw v) = pairC ψ φ v := by
  refine fun_ext (f := (pairC φ ψ).comp (pm sw)) (g := pairC ψ φ) (fun k hk => ?_) hv
  obtain ⟨f, g, rfl⟩ := List.length_eq_two.1 hk
  rw [LinearMap.comp_apply, pm_bv, actL_sw, pairC_single, pairC_single]
  ring

theorem P_zero {A B : Nat} (m : Nat) (h : q < A ∨ q < B) (hσ : σ ∈ X.cubes) : P q α A B m σ = 0 := by
  have hi := cube_le hσ
  refine fun_ext (f := pairC _ _) (g := 0) (fun k hk => ?_) (w2_supp (d := m) hi)
  obtain ⟨f, g, rfl⟩ := List.length_eq_two.1 hk.2.1
  rw [pairC_single, LinearMap.zero_apply, one_mul]
  have hX : ∀ f ∈ FC σ, f ∈ X.cubes := fun f hf => X.faces σ hσ f hf
  rcases h with h | h
  · rw [D_zero h (hX f (hk.1 f (by simp))), zero_mul]
  · rw [D_zero h (hX g (hk.1 g (by simp))), mul_zero]

theorem P_eq {A B : Nat} (m : Nat) (hA : A ≤ q) (hB : B ≤ q) (hσ : Cu σ) :
    P q α A B m σ = wq m (2 * q - A) (D q α A) (2 * q - B) (D q α B) σ :=
  (evC_pairC (fun f hf h => D_len hA (FC_cu hf) h) (fun f hf h => D_len hB (FC_cu hf) h) (w2_supp hσ)).symm

/-- Exchanging the factors changes the product by a cubeCoboundary. -/
theorem P_comm (hα : IsCubeCocycle X q α) (A B m : Nat) : Null X (fun σ => P q α A B m σ + P q α B A m σ) := by
  by_cases h : A ≤ q ∧ B ≤ q
  · refine ⟨wq (m + 1) (2 * q - A) (D q α A) (2 * q - B) (D q α B), fun σ hσ => ?_⟩
    have hi := cube_le hσ
    beta_reduce
    rw [P_eq m h.1 h.2 hi, P_eq m h.2 h.1 hi, wc_succ hi,
      wc_on hσ (α := cubeCoboundary (D q α A)) (α' := fun _ => 0) (β := D q α B) (β' := D q α B)
        (fun f hf _ => D_cocycle hα A hf) (fun _ _ _ => rfl), wc_zero_left,
      wc_on hσ (β := cubeCoboundary (D q α B)) (β' := fun _ => 0) (α := D q α A) (α' := D q α A) (fun _ _ _ => rfl)
        (fun f hf _ => D_cocycle hα B hf), wc_zero_right]
    ring
  · refine Null.zero.congr fun σ hσ => ?_
    rw [P_zero m (by omega) hσ, P_zero m (by omega) hσ, add_zero]

/-- A symmetric sum of products reduces to its middle term. -/
theorem sum_symm (hα : IsCubeCocycle X q α) (s : Nat → Nat → F) (hs : ∀ A B, s A B = s B A) (n m : Nat) :
    Null X (fun σ => ∑ p ∈ Finset.antidiagonal n, s p.1 p.2 * P q α p.1 p.2 m σ +
      if n % 2 = 0 then s (n / 2) (n / 2) * P q α (n / 2) (n / 2) m σ else 0) := by
  classical
  have hlt : Null X (fun σ => ∑ p ∈ (Finset.antidiagonal n).filter (fun p => p.1 < p.2),
      s p.1 p.2 * (P q α p.1 p.2 m σ + P q α p.2 p.1 m σ)) :=
    Null.sum fun p _ => (P_comm hα p.1 p.2 m).mul _
  refine hlt.congr fun σ hσ => ?_
  have h1 : ∑ p ∈ Finset.antidiagonal n, s p.1 p.2 * P q α p.1 p.2 m σ =
      ∑ p ∈ (Finset.antidiagonal n).filter (fun p => p.1 < p.2), s p.1 p.2 * P q α p.1 p.2 m σ +
      (∑ p ∈ (Finset.antidiagonal n).filter (fun p => p.2 < p.1), s p.1 p.2 * P q α p.1 p.2 m σ +
       ∑ p ∈ (Finset.antidiagonal n).filter (fun p => p.1 = p.2), s p.1 p.2 * P q α p.1 p.2 m σ) := by
    rw [← Finset.sum_filter_add_sum_filter_not (Finset.antidiagonal n) (fun p => p.1 < p.2)]
    congr 1
    rw [← Finset.sum_filter_add_sum_filter_not ((Finset.antidiagonal n).filter fun p => ¬ p.1 < p.2) (fun p => p.2 < p.1),
      Finset.filter_filter, Finset.filter_filter]
    congr 1
    · refine Finset.sum_congr (Finset.filter_congr fun p _ => ?_) fun _ _ => rfl
      omega
    · refine Finset.sum_congr (Finset.filter_congr fun p _ => ?_) fun _ _ => rfl
      omega
  have h2 : ∑ p ∈ (Finset.antidiagonal n).filter (fun p => p.2 < p.1), s p.1 p.2 * P q α p.1 p.2 m σ =
      ∑ p ∈ (Finset.antidiagonal n).filter (fun p => p.1 < p.2), s p.1 p.2 * P q α p.2 p.1 m σ := by
    refine Finset.sum_nbij' Prod.swap Prod.swap ?_ ?_ (fun _ _ => Prod.swap_swap _) (fun _ _ => Prod.swap_swap _) ?_
    · intro p hp
      simp only [Finset.mem_filter, Finset.mem_antidiagonal, Prod.fst_swap, Prod.snd_swap] at hp ⊢
      omega
    · intro p hp
      simp only [Finset.mem_filter, Finset.mem_antidiagonal, Prod.fst_swap, Prod.snd_swap] at hp ⊢
      omega
    · intro p _
      rw [Prod.fst_swap, Prod.snd_swap, hs]
  have h3 : ∑ p ∈ (Finset.antidiagonal n).filter (fun p => p.1 = p.2), s p.1 p.2 * P q α p.1 p.2 m σ =
      if n % 2 = 0 then s (n / 2) (n / 2) * P q α (n / 2) (n / 2) m σ else 0 := by
    split
    · rename_i h
      rw [show (Finset.antidiagonal n).filter (fun p => p.1 = p.2) = {(n / 2, n / 2)} by
        ext ⟨a, b⟩
        simp only [Finset.mem_filter, Finset.mem_antidiagonal, Finset.mem_singleton, Prod.mk.injEq]
        omega, Finset.sum_singleton]
    · rename_i h
      refine Finset.sum_eq_zero fun p hp => ?_
      simp only [Finset.mem_filter, Finset.mem_antidiagonal] at hp
      omega
  rw [h1, h2, h3]
  simp only [mul_add, Finset.sum_add_distrib]
  rw [show ∀ a b c : F, a + (b + c) + c = a + b + (c + c) by intros; ring, CubeCoch.two_self, add_zero]

/-! ### evaluation of the double family -/

theorem ev_yy {v : CKey →₀ F} (hv : v ∈ Finsupp.supported F F (Len 4)) :
    fourC q q α α (pm yy4 v) = fourC q q α α v := by
  refine fun_ext (f := (fourC q q α α).comp (pm yy4)) (g := fourC q q α α) (fun k hk => ?_) hv
  obtain ⟨a, b, c, e, rfl⟩ := len_four hk
  rw [LinearMap.comp_apply, pm_bv, actL_yy4, fourC_single, fourC_single]
  ring

theorem ev_sh {v : CKey →₀ F} (hv : v ∈ Finsupp.supported F F (Len 4)) :
    fourC q q α α (pm sh4 v) = fourC q q α α v := by
  refine fun_ext (f := (fourC q q α α).comp (pm sh4)) (g := fourC q q α α) (fun k hk => ?_) hv
  obtain ⟨a, b, c, e, rfl⟩ := len_four hk
  rw [LinearMap.comp_apply, pm_bv, actL_sh4, fourC_single, fourC_single]
  ring

theorem ev_xp (i : Nat) {m : Int} {v : CKey →₀ F} (hv : v ∈ Finsupp.supported F F (TC 4 m σ)) :
    fourC q q α α (xp i v) = fourC q q α α v := by
  induction i with
  | zero => rfl
  | succ i ih => rw [xp, fourC_sw (TS_length (xp_supp i hv)), ih]

theorem ev_Dn (k n : Nat) {f g : Cube} (hf : Cu f) (hg : Cu g) : fourC q q α α (Dn k n f g) =
    ∑ p ∈ Finset.antidiagonal n, ((p.1.choose k : F) * (p.2.choose k : F)) * (D q α p.1 f * D q α p.2 g) := by
  rw [Dn, map_sum]
  refine Finset.sum_congr rfl fun p _ => ?_
  have h1 := pm_supp isPerm_sw (w2_supp (d := p.2) hg)
  have h2 : evC q α q α (pm sw (cw p.2 g)) = evC q α q α (cw p.2 g) := two_swp 1 (w2_supp hg)
  rw [tP, map_add, map_smul, map_smul, fourC_cat (w2_len hf) (w2_len hg), fourC_cat (w2_len hf) (TS_length h1), h2,
    ← add_smul, cPQ, smul_eq_mul]
  rfl

theorem ev_La (k j : Nat) (hσ : Cu σ) {m : Int} {v : CKey →₀ F} (hv : v ∈ Finsupp.supported F F (TC 2 m σ)) :
    fourC q q α α (La k j v) = ∑ p ∈ Finset.antidiagonal (j + k), ((p.1.choose k : F) * (p.2.choose k : F)) *
      pairC (D q α p.1) (D q α p.2) v := by
  have h := fun_ext (f := (fourC q q α α).comp (La k j))
    (g := ∑ p ∈ Finset.antidiagonal (j + k), ((p.1.choose k : F) * (p.2.choose k : F)) • pairC (D q α p.1) (D q α p.2))
    (fun x hx => by
      obtain ⟨f, g, rfl⟩ := List.length_eq_two.1 hx.2.1
      have hf := FC_cu (hx.1 f (by simp))
      have hg := FC_cu (hx.1 g (by simp))
      rw [LinearMap.comp_apply, La, lin_single, one_smul, lift2, ev_Dn k (j + k) hf hg, LinearMap.sum_apply]
      refine Finset.sum_congr rfl fun p _ => ?_
      rw [LinearMap.smul_apply, pairC_single, one_mul, smul_eq_mul]) hv
  rw [LinearMap.comp_apply, LinearMap.sum_apply] at h
  exact h

theorem ev_La_sw (k j : Nat) (hσ : Cu σ) {m : Int} {v : CKey →₀ F} (hv : v ∈ Finsupp.supported F F (TC 2 m σ)) :
    fourC q q α α (La k j (pm sw v)) = fourC q q α α (La k j v) := by
  rw [ev_La k j hσ hv, ev_La k j hσ (pm_supp isPerm_sw hv), ← Finset.Nat.sum_antidiagonal_swap]
  refine Finset.sum_congr rfl fun p _ => ?_
  rw [Prod.fst_swap, Prod.snd_swap, pairC_sw _ _ (TS_length hv)]
  ring

theorem ev_La_swp (k j i : Nat) (hσ : Cu σ) {m : Int} {v : CKey →₀ F} (hv : v ∈ Finsupp.supported F F (TC 2 m σ)) :
    fourC q q α α (La k j (swp i v)) = fourC q q α α (La k j v) := by
  induction i with
  | zero => rfl
  | succ i ih => rw [swp, ev_La_sw k j hσ (swp_supp i hv), ih]

theorem ev_Th (i j : Nat) (hσ : Cu σ) : fourC q q α α (Th i j σ) = ∑ r ∈ Finset.antidiagonal i,
    ∑ p ∈ Finset.antidiagonal (j + r.1), ((p.1.choose r.1 : F) * (p.2.choose r.1 : F)) * P q α p.1 p.2 r.2 σ := by
  rw [Th, map_sum]
  refine Finset.sum_congr rfl fun r _ => ?_
  have hs := swp_supp r.2 (w2_supp (d := r.2) hσ)
  rw [tm, ev_xp r.2 (La_supp r.1 j hσ hs), ev_La_swp r.1 j r.2 hσ (w2_supp hσ), ev_La r.1 j hσ (w2_supp hσ)]
  rfl

/-- The iterated operation `D_{N-2l} D_l`. -/
noncomputable def E (q : Nat) (α : Cube → F) (N l : Nat) (σ : Cube) : F := P q α l l (N - 2 * l) σ

theorem F_sq (x : F) : x * x = x := by revert x; decide

open AdemArith in
theorem ev_Th_null (hα : IsCubeCocycle X q α) (i j N : Nat) (hN : i + j = N) : Null X (fun σ =>
    fourC q q α α (Th i j σ) + ∑ l ∈ Finset.range (N / 2 + 1), dg l j * E q α N l σ) := by
  classical
  have h := Null.sum (X := X) (s := Finset.antidiagonal i) (f := fun r σ =>
    ∑ p ∈ Finset.antidiagonal (j + r.1), ((p.1.choose r.1 : F) * (p.2.choose r.1 : F)) * P q α p.1 p.2 r.2 σ +
      if (j + r.1) % 2 = 0 then (((j + r.1) / 2).choose r.1 : F) * (((j + r.1) / 2).choose r.1 : F) *
        P q α ((j + r.1) / 2) ((j + r.1) / 2) r.2 σ else 0)
    (fun r _ => sum_symm hα (fun A B => (A.choose r.1 : F) * (B.choose r.1 : F)) (fun A B => mul_comm _ _) (j + r.1) r.2)
  refine h.congr fun σ hσ => ?_
  rw [Finset.sum_add_distrib, ev_Th i j (cube_le hσ)]
  congr 1
  rw [← Finset.sum_filter]
  have hz : ∑ l ∈ Finset.range (N / 2 + 1), dg l j * E q α N l σ =
      ∑ l ∈ (Finset.range (N / 2 + 1)).filter (fun l => j ≤ 2 * l), dg l j * E q α N l σ := by
    rw [Finset.sum_filter]
    refine Finset.sum_congr rfl fun l _ => ?_
    split
    · rfl
    · rename_i h
      rw [dg, if_neg h, zero_mul]
  rw [hz]
  refine Finset.sum_nbij' (fun r => (j + r.1) / 2) (fun l => (2 * l - j, N - 2 * l)) ?_ ?_ ?_ ?_ ?_
  · intro r hr
    simp only [Finset.mem_filter, Finset.mem_antidiagonal, Finset.mem_range] at hr ⊢
    omega
  · intro l hl
    simp only [Finset.mem_filter, Finset.mem_antidiagonal, Finset.mem_range] at hl ⊢
    omega
  · rintro ⟨a, b⟩ hr
    simp only [Finset.mem_filter, Finset.mem_antidiagonal, Prod.mk.injEq] at hr ⊢
    omega
  · intro l hl
    simp only [Finset.mem_filter, Finset.mem_range] at hl ⊢
    omega
  · rintro ⟨a, b⟩ hr
    simp only [Finset.mem_filter, Finset.mem_antidiagonal] at hr
    rw [F_sq, dg, if_pos (by omega), E]
    congr 3 <;> omega

/-- Evaluation of the homotopy. -/
theorem ev_symm (hα : IsCubeCocycle X q α) (i j : Nat) : Null X (fun σ =>
    fourC q q α α (Th i j σ) + fourC q q α α (Th j i σ)) := by
  obtain ⟨H, hH⟩ := adem_homotopy (i + j + 1)
  refine ⟨fun τ => fourC q q α α (H i j τ), fun σ hσ => ?_⟩
  have hi := cube_le hσ
  beta_reduce
  have h := congrArg (fourC q q α α) (hH i j (by omega) σ hi).2
  rw [fourC_bd hα hα hσ (hH i j (by omega) σ hi).1, map_add, map_add, map_add, map_add, Tt, ev_sh (TS_length (Th_supp j i hi)),
    cob_lin] at h
  have h1 : fourC q q α α (pre (fun i => H i j σ + pm sw4 (H i j σ)) i) = 0 := by
    cases i with
    | zero => exact map_zero _
    | succ i =>
      simp only [pre]
      rw [map_add, fourC_sw (TS_length (hH i j (by omega) σ hi).1), CubeCoch.two_self]
  have h2 : fourC q q α α (pre (fun j => H i j σ + pm yy4 (H i j σ)) j) = 0 := by
    cases j with
    | zero => exact map_zero _
    | succ j =>
      simp only [pre]
      rw [map_add, ev_yy (TS_length (hH i j (by omega) σ hi).1), CubeCoch.two_self]
  rw [h1, h2, add_zero, add_zero] at h
  generalize fourC q q α α (Th i j σ) + fourC q q α α (Th j i σ) = x at h ⊢
  generalize cubeCoboundary (fun f => fourC q q α α (H i j f)) σ = z at h ⊢
  revert h
  revert x z
  decide

open AdemArith in
/-- The relations before their simplification. -/
theorem relation (hα : IsCubeCocycle X q α) {N j : Nat} (hj : j ≤ N) : Null X (fun σ =>
    ∑ l ∈ Finset.range (N / 2 + 1), (dg l j + dg l (N - j)) * E q α N l σ) := by
  refine (((ev_symm hα (N - j) j).add (ev_Th_null hα (N - j) j N (by omega))).add
    (ev_Th_null hα j (N - j) N (by omega))).congr fun σ _ => ?_
  simp only [add_mul, Finset.sum_add_distrib]
  rw [show ∀ a b x y : F, a + b + (a + x) + (b + y) = x + y + (a + a) + (b + b) by intros; ring, CubeCoch.two_self, CubeCoch.two_self,
    add_zero, add_zero]

open AdemArith in
theorem adem_D (hα : IsCubeCocycle X q α) {N L : Nat} (hL : 3 * L < N) : Null X (fun σ => E q α N L σ +
    ∑ l ∈ Finset.range (N / 2 + 1), (if N ≤ 2 * l + L then ((l - L - 1).choose (2 * l + L - N) : F) else 0) *
      E q α N l σ) := by
  have h := Null.sum (X := X) (s := Finset.range (L + 1)) (f := fun j σ => ((2 * L - j).choose (L - j) : F) *
    ∑ l ∈ Finset.range (N / 2 + 1), (dg l j + dg l (N - j)) * E q α N l σ)
    (fun j hj => (relation hα (by have := Finset.mem_range.1 hj; omega)).mul _)
  refine h.congr fun σ _ => ?_
  have hE : E q α N L σ = ∑ l ∈ Finset.range (N / 2 + 1), (if l = L then (1 : F) else 0) * E q α N l σ := by
    simp only [ite_mul, one_mul, zero_mul]
    rw [Finset.sum_ite_eq' (Finset.range (N / 2 + 1)) L (fun l => E q α N l σ), if_pos (Finset.mem_range.2 (by omega))]
  rw [hE, ← Finset.sum_add_distrib]
  simp only [Finset.mul_sum]
  rw [Finset.sum_comm]
  refine Finset.sum_congr rfl fun l hl => ?_
  have := Finset.mem_range.1 hl
  rw [← sum_left L l, ← sum_right hL (show 2 * l ≤ N by omega), ← add_mul, ← Finset.sum_add_distrib, Finset.sum_mul]
  refine Finset.sum_congr rfl fun j _ => ?_
  ring

/-- The composite of two squares in terms of the products. -/
theorem square_square (hσ : σ ∈ X.cubes) (s t : Nat) :
    cochain (cubeSquareValue s (q + t) (cochain (cubeSquareValue t q α))) σ =
      if t ≤ q ∧ s ≤ q + t then P q α (q - t) (q - t) (q + t - s) σ else 0 := by
  have hi := cube_le hσ
  have hX : ∀ f, f ∈ FC σ → f ∈ X.cubes := fun f hf => X.faces σ hσ f hf
  have key : ∀ f, f ∈ FC σ → cochain (cubeSquareValue (t : Int) q α) f = if t ≤ q then D q α (q - t) f else 0 := by
    intro f hf
    rw [cochain_cube_square (hX f hf)]
    by_cases h : t ≤ q
    · rw [if_pos (by exact_mod_cast h), if_pos h, show ((q : Int) - t).toNat = q - t by omega]
    · rw [if_neg (by exact_mod_cast h), if_neg h]
  rw [cochain_cube_square hσ]
  by_cases hs : s ≤ q + t
  · rw [if_pos (by exact_mod_cast hs), show (((q + t : Nat) : Int) - s).toNat = q + t - s by omega]
    rw [show ∀ φ ψ : Cube → F, wc .mcClureSmith (q + t - s) (q + t) φ (q + t) ψ σ =
      evC (q + t) φ (q + t) ψ (cw (q + t - s) σ) from fun _ _ => rfl]
    have hd : ∀ f, f ∈ FC σ → cochain (cubeSquareValue (t : Int) q α) f ≠ 0 → f.count 2 = q + t := by
      intro f hf hne
      rw [key f hf] at hne
      split at hne
      · rename_i h
        exact square_degree (FC_cu hf) h hne
      · exact absurd rfl hne
    rw [evC_pairC hd hd (w2_supp hi), pairC_congr key key (w2_supp hi)]
    by_cases h : t ≤ q
    · simp only [if_pos h]
      rw [if_pos ⟨h, hs⟩]
      rfl
    · simp only [if_neg h]
      rw [if_neg (by tauto)]
      refine fun_ext (f := pairC _ _) (g := 0) (fun k hk => ?_) (w2_supp (d := q + t - s) hi)
      obtain ⟨f, g, rfl⟩ := List.length_eq_two.1 hk.2.1
      simp
  · rw [if_neg (by exact_mod_cast hs), if_neg (by tauto)]

end Comch.CubeAdem

namespace Comch.Props
open Comch.Spec Elem SurjComp SurjElem IsPerm SurjMay CubCall CubeCoch CubeCart
open CubeAdem (P E P_zero adem_D square_square)

variable {M : Nat} {X : CubeComplex M} {q : Nat}

/-- The Adem relations: for `0 < a < 2b`, on cohomology classes,
`Sq^a Sq^b = Σ_{c ≤ a/2} C(b - c - 1, a - 2c) Sq^{a+b-c} Sq^c`. -/
theorem C121_adem {α : Cube → ZMod 2} (hα : IsCubeCocycle X q α) {a b : Nat} (hab : a < 2 * b) (m : Nat) :
    CubeCohomologous X m
      (cochain (cubeSquareValue a (q + b) (cochain (cubeSquareValue b q α))))
      (fun σ => ∑ c ∈ Finset.range (a / 2 + 1), ((b - c - 1).choose (a - 2 * c) : ZMod 2) *
        cochain (cubeSquareValue ((a + b - c : Nat) : Int) (q + c) (cochain (cubeSquareValue c q α))) σ) := by
  by_cases hq : b ≤ q ∧ a ≤ q + b
  · obtain ⟨γ, hγ⟩ := adem_D (N := 3 * q - a - b) (L := q - b) hα (by omega)
    refine ⟨γ, fun σ hσ _ => ?_⟩
    beta_reduce
    have h := hγ σ hσ
    beta_reduce at h
    rw [square_square hσ, if_pos hq, ← h, E, show 3 * q - a - b - 2 * (q - b) = q + b - a by omega]
    have hsum : ∑ c ∈ Finset.range (a / 2 + 1), ((b - c - 1).choose (a - 2 * c) : ZMod 2) *
          cochain (cubeSquareValue ((a + b - c : Nat) : Int) (q + c) (cochain (cubeSquareValue c q α))) σ =
        ∑ l ∈ Finset.range ((3 * q - a - b) / 2 + 1), (if 3 * q - a - b ≤ 2 * l + (q - b) then
          ((l - (q - b) - 1).choose (2 * l + (q - b) - (3 * q - a - b)) : ZMod 2) else 0) * E q α (3 * q - a - b) l σ := by
      rw [Finset.sum_congr rfl fun c _ => by rw [square_square hσ]]
      have hl : ∑ c ∈ Finset.range (a / 2 + 1), ((b - c - 1).choose (a - 2 * c) : ZMod 2) *
          (if c ≤ q ∧ a + b - c ≤ q + c then P q α (q - c) (q - c) (q + c - (a + b - c)) σ else 0) =
          ∑ c ∈ (Finset.range (a / 2 + 1)).filter (fun c => c ≤ q ∧ a + b - c ≤ q + c),
            ((b - c - 1).choose (a - 2 * c) : ZMod 2) * P q α (q - c) (q - c) (q + c - (a + b - c)) σ := by
        rw [Finset.sum_filter]
        refine Finset.sum_congr rfl fun c _ => ?_
        split <;> simp
      have hr : ∑ l ∈ Finset.range ((3 * q - a - b) / 2 + 1), (if 3 * q - a - b ≤ 2 * l + (q - b) then
          ((l - (q - b) - 1).choose (2 * l + (q - b) - (3 * q - a - b)) : ZMod 2) else 0) * E q α (3 * q - a - b) l σ =
          ∑ l ∈ (Finset.range ((3 * q - a - b) / 2 + 1)).filter (fun l => l ≤ q ∧ 3 * q - a - b ≤ 2 * l + (q - b)),
          ((l - (q - b) - 1).choose (2 * l + (q - b) - (3 * q - a - b)) : ZMod 2) * E q α (3 * q - a - b) l σ := by
        rw [Finset.sum_filter]
        refine Finset.sum_congr rfl fun l _ => ?_
        by_cases h1 : l ≤ q
        · simp only [h1, true_and]
          split <;> simp
        · rw [if_neg (by tauto : ¬ (l ≤ q ∧ _)), E, P_zero _ (by omega) hσ, mul_zero]
      rw [hl, hr]
      refine Finset.sum_nbij' (fun c => q - c) (fun l => q - l) ?_ ?_ ?_ ?_ ?_
      · intro c hc
        simp only [Finset.mem_filter, Finset.mem_range] at hc ⊢
        omega
      · intro l hl
        simp only [Finset.mem_filter, Finset.mem_range] at hl ⊢
        omega
      · intro c hc
        simp only [Finset.mem_filter, Finset.mem_range] at hc
        omega
      · intro l hl
        simp only [Finset.mem_filter, Finset.mem_range] at hl
        omega
      · intro c hc
        simp only [Finset.mem_filter, Finset.mem_range] at hc
        rw [E, show q - c - (q - b) - 1 = b - c - 1 by omega,
          show 2 * (q - c) + (q - b) - (3 * q - a - b) = a - 2 * c by omega,
          show 3 * q - a - b - 2 * (q - c) = q + c - (a + b - c) by omega]
    rw [hsum]
    generalize P q α (q - b) (q - b) (q + b - a) σ = x
    generalize (∑ l ∈ _, _ : ZMod 2) = y
    revert x y
    decide
  · refine ⟨fun _ => 0, fun σ hσ _ => ?_⟩
    beta_reduce
    rw [square_square hσ, if_neg hq, cube_cob_zero, add_zero]
    refine (Finset.sum_eq_zero fun c hc => ?_).symm
    have := Finset.mem_range.1 hc
    rw [square_square hσ]
    split
    · rw [Nat.choose_eq_zero_of_lt (by omega)]
      simp
    · rw [mul_zero]

/-- `Sq^1 Sq^1 = 0`. -/
theorem C121_sq1_sq1 {α : Cube → ZMod 2} (hα : IsCubeCocycle X q α) (m : Nat) :
    CubeCohomologous X m (cochain (cubeSquareValue 1 (q + 1) (cochain (cubeSquareValue 1 q α)))) (fun _ => 0) := by
  have h := C121_adem hα (show 1 < 2 * 1 by norm_num) m
  simpa using h

/-- `Sq^1 Sq^{2n} = Sq^{2n+1}`. -/
theorem C121_sq1_even {α : Cube → ZMod 2} (hα : IsCubeCocycle X q α) (n : Nat) (hn : 0 < n) (m : Nat) :
    CubeCohomologous X m (cochain (cubeSquareValue 1 (q + 2 * n) (cochain (cubeSquareValue (2 * n : Nat) q α))))
      (cochain (cubeSquareValue (2 * n + 1 : Nat) q α)) := by
  obtain ⟨γ, hγ⟩ := C121_adem hα (show 1 < 2 * (2 * n) by omega) m
  refine ⟨γ, fun σ hσ hl => ?_⟩
  refine (hγ σ hσ hl).trans ?_
  congr 1
  have h1 : ((2 * n - 1 : Nat) : ZMod 2) = 1 := by
    obtain ⟨k, rfl⟩ : ∃ k, n = k + 1 := ⟨n - 1, by omega⟩
    rw [show 2 * (k + 1) - 1 = 2 * k + 1 by omega]
    push_cast
    rw [show (2 : ZMod 2) = 0 by decide]; ring
  simp only [show 1 / 2 + 1 = 1 by norm_num, Finset.sum_range_one, Nat.sub_zero, mul_zero, Nat.choose_one_right, h1, one_mul,
    add_zero]
  rw [show 1 + 2 * n = 2 * n + 1 by omega, cochain_cube_square hσ, cochain_cube_square hσ]
  split
  · refine wc_on hσ ?_ ?_ <;>
    · intro f hf hfl
      have := C112_zero (q := q) α hf hfl
      show cochain (cubeSquareValue 0 q α) f = α f
      rw [cochain, this]
  · rfl

/-- `Sq^2 Sq^2 = Sq^3 Sq^1`. -/
theorem C121_sq2_sq2 {α : Cube → ZMod 2} (hα : IsCubeCocycle X q α) (m : Nat) :
    CubeCohomologous X m (cochain (cubeSquareValue 2 (q + 2) (cochain (cubeSquareValue 2 q α))))
      (cochain (cubeSquareValue 3 (q + 1) (cochain (cubeSquareValue 1 q α)))) := by
  obtain ⟨γ, hγ⟩ := C121_adem hα (show 2 < 2 * 2 by norm_num) m
  refine ⟨γ, fun σ hσ hl => ?_⟩
  refine (hγ σ hσ hl).trans ?_
  congr 1
  simp [Finset.sum_range_succ]

/-- A cochain of degree 2 on the 6-cube; its coboundary is a cocycle for which the right-hand side of
`Sq^1 Sq^2 = Sq^3` is not zero as a cochain. -/
def exSix (c : Cube) : ZMod 2 := if c = [2, 2, 1, 0, 0, 0] ∨ c = [1, 1, 1, 2, 2, 0] then 1 else 0

example : IsCubeCocycle (exCubeComplex 6) 3 (cubeCoboundary exSix) := fun c _ _ => cube_cob_cob exSix c

example : cubeSquareValue 3 3 (cubeCoboundary exSix) [2, 2, 2, 2, 2, 2] = .ok 1 := by
  have hc : [2, 2, 2, 2, 2, 2] ∈ (exCubeComplex 6).cubes := by
    refine ⟨?_, ?_⟩ <;> decide
  refine (C112_top (q := 3) (cubeCoboundary exSix) hc).trans ?_
  congr 1

end Comch.Props
