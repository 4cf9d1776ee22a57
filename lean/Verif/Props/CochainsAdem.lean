import Verif.Lib.AdemHomotopy
import Verif.Lib.AdemArith
import Verif.Props.CochainsCartan

/-! # The Adem relations for Steenrod squares: C116 -/

set_option linter.unusedSectionVars false

namespace Comch.Adem
open Comch.Spec Elem SurjComp SurjElem IsPerm SurjMay Coch Contract Comch.Props
open Finsupp (single)

abbrev F := ZMod 2

variable {X : OrderedComplex} {σ : List Nat} {q : Nat} {α : List Nat → F}

/-! ### cochains that are coboundaries -/

/-- Coboundaries. -/
def Null (X : OrderedComplex) (f : List Nat → F) : Prop :=
  ∃ γ : List Nat → F, ∀ σ ∈ X.simplices, f σ = coboundary γ σ

theorem Null.zero : Null X (fun _ => 0) := ⟨fun _ => 0, fun σ _ => (cob_zero σ).symm⟩

theorem Null.add {f g : List Nat → F} (hf : Null X f) (hg : Null X g) : Null X (fun σ => f σ + g σ) := by
  obtain ⟨γ, h⟩ := hf
  obtain ⟨ε, h'⟩ := hg
  exact ⟨fun τ => γ τ + ε τ, fun σ hσ => by beta_reduce; rw [cob_add, h σ hσ, h' σ hσ]⟩

theorem Null.mul {f : List Nat → F} (c : F) (hf : Null X f) : Null X (fun σ => c * f σ) := by
  obtain ⟨γ, h⟩ := hf
  exact ⟨fun τ => c * γ τ, fun σ hσ => by beta_reduce; rw [cob_mul, h σ hσ]⟩

theorem Null.sum {ι : Type} {s : Finset ι} {f : ι → List Nat → F} (h : ∀ i ∈ s, Null X (f i)) :
    Null X (fun σ => ∑ i ∈ s, f i σ) := by
  classical
  induction s using Finset.induction_on with
  | empty => simpa using Null.zero
  | insert i s hi ih =>
    have := (h i (by simp)).add (ih fun j hj => h j (by simp [hj]))
    simpa [Finset.sum_insert hi] using this

theorem Null.congr {f g : List Nat → F} (hf : Null X f) (h : ∀ σ ∈ X.simplices, f σ = g σ) : Null X g := by
  obtain ⟨γ, h'⟩ := hf
  exact ⟨γ, fun σ hσ => by rw [← h σ hσ, h' σ hσ]⟩

/-! ### the squares -/

/-- The operation of index `A`. -/
noncomputable abbrev D (q : Nat) (α : List Nat → F) (A : Nat) : List Nat → F := wv 2 2 A [(q, α), (q, α)]

theorem D_cocycle (hα : IsCocycle X q α) (A : Nat) (hσ : σ ∈ X.simplices) : coboundary (D q α A) σ = 0 := by
  have h2 : (2 : Nat) ≠ 1 := by norm_num
  have hi := inc_of_mem hσ
  have hl : ∀ i, wv 2 2 i [(q + 1, coboundary α), (q, α)] σ = 0 := fun i => by
    rw [wv_congr h2 hσ (α := coboundary α) (α' := fun _ => 0) (β := α) (β' := α)
      (fun f hf hl => hα f hf hl) (fun _ _ _ => rfl), wv_zero_left]
  have hr : ∀ i, wv 2 2 i [(q, α), (q + 1, coboundary α)] σ = 0 := fun i => by
    rw [wv_congr h2 hσ (β := coboundary α) (β' := fun _ => 0) (α := α) (α' := α) (fun _ _ _ => rfl)
      (fun f hf hl => hα f hf hl), wv_zero_right]
  cases A with
  | zero => rw [wv_two_zero hi, hl, hr, add_zero]
  | succ A => rw [wv_two hi, hl, hr, two_self, two_self, add_zero]

theorem D_len {A : Nat} (hA : A ≤ q) (hσ : Inc σ) (h : D q α A σ ≠ 0) : σ.length = 2 * q - A + 1 := by
  have := square_degree (k := q - A) hσ (Nat.sub_le _ _) (by rwa [show q - (q - A) = A by omega])
  omega

theorem D_zero {A : Nat} (hA : q < A) (hσ : σ ∈ X.simplices) : D q α A σ = 0 := square_vanish hσ hA

/-- A product of two of the operations. -/
noncomputable def P (q : Nat) (α : List Nat → F) (A B m : Nat) (σ : List Nat) : F :=
  pairF (D q α A) (D q α B) (w2 m σ)

theorem pairF_sw (φ ψ : List Nat → F) {v : SKey →₀ F} (hv : v ∈ Finsupp.supported F F (Len 2)) :
    pairF φ ψ (pm sw v) = pairF ψ φ v := by
  refine fun_ext_supported (f := (pairF φ ψ).comp (pm sw)) (g := pairF ψ φ) (fun k hk => ?_) hv
  obtain ⟨f, g, rfl⟩ := List.length_eq_two.1 hk
  rw [LinearMap.comp_apply, pm_bv, actL_sw, pairF_single, pairF_single]
  ring

theorem P_zero {A B : Nat} (m : Nat) (h : q < A ∨ q < B) (hσ : σ ∈ X.simplices) : P q α A B m σ = 0 := by
  have hi := inc_of_mem hσ
  refine fun_ext_supported (f := pairF _ _) (g := 0) (fun k hk => ?_) (w2_supp (d := m) hi)
  obtain ⟨f, g, rfl⟩ := List.length_eq_two.1 hk.2.1
  rw [pairF_single, LinearMap.zero_apply, one_mul]
  have hX : ∀ f ∈ Gs σ, f ∈ X.simplices := fun f hf => X.faces σ hσ f hf.2 hf.1
  rcases h with h | h
  · rw [D_zero h (hX f (hk.1 f (by simp))), zero_mul]
  · rw [D_zero h (hX g (hk.1 g (by simp))), mul_zero]

theorem P_eq {A B : Nat} (m : Nat) (hA : A ≤ q) (hB : B ≤ q) (hσ : Inc σ) :
    P q α A B m σ = wv 2 2 m [(2 * q - A, D q α A), (2 * q - B, D q α B)] σ :=
  (evF_pairF (fun f hf h => D_len hA (Gs_inc hσ hf) h) (fun f hf h => D_len hB (Gs_inc hσ hf) h) (w2_supp hσ)).symm

/-- Exchanging the factors changes the product by a coboundary. -/
theorem P_comm (hα : IsCocycle X q α) (A B m : Nat) : Null X (fun σ => P q α A B m σ + P q α B A m σ) := by
  by_cases h : A ≤ q ∧ B ≤ q
  · have h2 : (2 : Nat) ≠ 1 := by norm_num
    refine ⟨wv 2 2 (m + 1) [(2 * q - A, D q α A), (2 * q - B, D q α B)], fun σ hσ => ?_⟩
    have hi := inc_of_mem hσ
    beta_reduce
    rw [P_eq m h.1 h.2 hi, P_eq m h.2 h.1 hi, wv_two hi,
      wv_congr h2 hσ (α := coboundary (D q α A)) (α' := fun _ => 0) (β := D q α B) (β' := D q α B)
        (fun f hf _ => D_cocycle hα A hf) (fun _ _ _ => rfl), wv_zero_left,
      wv_congr h2 hσ (β := coboundary (D q α B)) (β' := fun _ => 0) (α := D q α A) (α' := D q α A) (fun _ _ _ => rfl)
        (fun f hf _ => D_cocycle hα B hf), wv_zero_right]
    ring
  · refine Null.zero.congr fun σ hσ => ?_
    rw [P_zero m (by omega) hσ, P_zero m (by omega) hσ, add_zero]

/-- A symmetric sum of products reduces to its middle term. -/
theorem sum_symm (hα : IsCocycle X q α) (s : Nat → Nat → F) (hs : ∀ A B, s A B = s B A) (n m : Nat) :
    Null X (fun σ => ∑ p ∈ Finset.antidiagonal n, s p.1 p.2 * P q α p.1 p.2 m σ +
      if n % 2 = 0 then s (n / 2) (n / 2) * P q α (n / 2) (n / 2) m σ else 0) := by
  classical
  have hlt : Null X (fun σ => ∑ p ∈ (Finset.antidiagonal n).filter (fun p => p.1 < p.2),
      s p.1 p.2 * (P q α p.1 p.2 m σ + P q α p.2 p.1 m σ)) :=
    Null.sum fun p _ => (P_comm hα p.1 p.2 m).mul _
  refine hlt.congr fun σ hσ => ?_
  have h1 : ∑ p ∈ Finset.antidiagonal n, s p.1 p.2 * P q α p.1 p.2 m σ =
      ∑ p ∈ (Finset.antidiagonal n).filter (fun p => p.1 < p.2), s p.1 p.2 * P q α p.1 p.2 m σ +
      (∑ p ∈ (Finset.antidiagonal n).filter (fun p => p.2 < p.1), s p.1 p.2 * P q α p.1 p.2 m σ +
       ∑ p ∈ (Finset.antidiagonal n).filter (fun p => p.1 = p.2), s p.1 p.2 * P q α p.1 p.2 m σ) := by
    rw [← Finset.sum_filter_add_sum_filter_not (Finset.antidiagonal n) (fun p => p.1 < p.2)]
    congr 1
    rw [← Finset.sum_filter_add_sum_filter_not ((Finset.antidiagonal n).filter fun p => ¬ p.1 < p.2) (fun p => p.2 < p.1),
      Finset.filter_filter, Finset.filter_filter]
    congr 1
    · refine Finset.sum_congr (Finset.filter_congr fun p _ => ?_) fun _ _ => rfl
      omega
    · refine Finset.sum_congr (Finset.filter_congr fun p _ => ?_) fun _ _ => rfl
      omega
  have h2 : ∑ p ∈ (Finset.antidiagonal n).filter (fun p => p.2 < p.1), s p.1 p.2 * P q α p.1 p.2 m σ =
      ∑ p ∈ (Finset.antidiagonal n).filter (fun p => p.1 < p.2), s p.1 p.2 * P q α p.2 p.1 m σ := by
    refine Finset.sum_nbij' Prod.swap Prod.swap ?_ ?_ (fun _ _ => Prod.swap_swap _) (fun _ _ => Prod.swap_swap _) ?_
    · intro p hp
      simp only [Finset.mem_filter, Finset.mem_antidiagonal, Prod.fst_swap, Prod.snd_swap] at hp ⊢
      omega
    · intro p hp
      simp only [Finset.mem_filter, Finset.mem_antidiagonal, Prod.fst_swap, Prod.snd_swap] at hp ⊢
      omega
    · intro p _
      rw [Prod.fst_swap, Prod.snd_swap, hs]
  have h3 : ∑ p ∈ (Finset.antidiagonal n).filter (fun p => p.1 = p.2), s p.1 p.2 * P q α p.1 p.2 m σ =
      if n % 2 = 0 then s (n / 2) (n / 2) * P q α (n / 2) (n / 2) m σ else 0 := by
    split
    · rename_i h
      rw [show (Finset.antidiagonal n).filter (fun p => p.1 = p.2) = {(n / 2, n / 2)} by
        ext ⟨a, b⟩
        simp only [Finset.mem_filter, Finset.mem_antidiagonal, Finset.mem_singleton, Prod.mk.injEq]
        omega, Finset.sum_singleton]
    · rename_i h
      refine Finset.sum_eq_zero fun p hp => ?_
      simp only [Finset.mem_filter, Finset.mem_antidiagonal] at hp
      omega
  rw [h1, h2, h3]
  simp only [mul_add, Finset.sum_add_distrib]
  rw [show ∀ a b c : F, a + (b + c) + c = a + b + (c + c) by intros; ring, two_self, add_zero]

/-! ### evaluation of the double family -/

theorem ev_pm {p : Perm} (hp : ∀ a b c e : List Nat, tensorValue [(q, α), (q, α), (q, α), (q, α)] (actL p [a, b, c, e]) =
    tensorValue [(q, α), (q, α), (q, α), (q, α)] [a, b, c, e]) {v : SKey →₀ F} (hv : v ∈ Finsupp.supported F F (Len 4)) :
    four q q α α (pm p v) = four q q α α v := by
  refine fun_ext_supported (f := (four q q α α).comp (pm p)) (g := four q q α α) (fun k hk => ?_) hv
  obtain ⟨a, b, c, e, rfl⟩ := len_four hk
  rw [LinearMap.comp_apply, pm_bv, evF_single, evF_single, hp]

theorem ev_yy {v : SKey →₀ F} (hv : v ∈ Finsupp.supported F F (Len 4)) :
    four q q α α (pm yy4 v) = four q q α α v :=
  ev_pm (fun a b c e => by rw [actL_yy4]; simp only [tensorValue]; ring) hv

theorem ev_sh {v : SKey →₀ F} (hv : v ∈ Finsupp.supported F F (Len 4)) :
    four q q α α (pm sh4 v) = four q q α α v :=
  ev_pm (fun a b c e => by rw [actL_sh4]; simp only [tensorValue]; ring) hv

theorem ev_xp (i : Nat) {m : Int} {v : SKey →₀ F} (hv : v ∈ Finsupp.supported F F (TS 4 m σ)) :
    four q q α α (xp i v) = four q q α α v := by
  induction i with
  | zero => rfl
  | succ i ih => rw [xp, four_sw (TS_length (xp_supp i hv)), ih]

theorem ev_Dn (k n : Nat) {f g : List Nat} (hf : Inc f) (hg : Inc g) : four q q α α (Dn k n f g) =
    ∑ p ∈ Finset.antidiagonal n, ((p.1.choose k : F) * (p.2.choose k : F)) * (D q α p.1 f * D q α p.2 g) := by
  rw [Dn, map_sum]
  refine Finset.sum_congr rfl fun p _ => ?_
  have h1 := pm_supp isPerm_sw (w2_supp (d := p.2) hg)
  have h2 : evF [(q, α), (q, α)] (pm sw (w2 p.2 g)) = evF [(q, α), (q, α)] (w2 p.2 g) := two_swp 1 (w2_supp hg)
  rw [tP, map_add, map_smul, map_smul, four_cat (w2_len hf) (w2_len hg), four_cat (w2_len hf) (TS_length h1), h2,
    ← add_smul, cPQ, smul_eq_mul]
  rfl

theorem ev_La (k j : Nat) (hσ : Inc σ) {m : Int} {v : SKey →₀ F} (hv : v ∈ Finsupp.supported F F (TS 2 m σ)) :
    four q q α α (La k j v) = ∑ p ∈ Finset.antidiagonal (j + k), ((p.1.choose k : F) * (p.2.choose k : F)) *
      pairF (D q α p.1) (D q α p.2) v := by
  have h := fun_ext_supported (f := (four q q α α).comp (La k j))
    (g := ∑ p ∈ Finset.antidiagonal (j + k), ((p.1.choose k : F) * (p.2.choose k : F)) • pairF (D q α p.1) (D q α p.2))
    (fun x hx => by
      obtain ⟨f, g, rfl⟩ := List.length_eq_two.1 hx.2.1
      have hf := Gs_inc hσ (hx.1 f (by simp))
      have hg := Gs_inc hσ (hx.1 g (by simp))
      rw [LinearMap.comp_apply, La, lin_single, one_smul, lift2, ev_Dn k (j + k) hf hg, LinearMap.sum_apply]
      refine Finset.sum_congr rfl fun p _ => ?_
      rw [LinearMap.smul_apply, pairF_single, one_mul, smul_eq_mul]) hv
  rw [LinearMap.comp_apply, LinearMap.sum_apply] at h
  exact h

theorem ev_La_sw (k j : Nat) (hσ : Inc σ) {m : Int} {v : SKey →₀ F} (hv : v ∈ Finsupp.supported F F (TS 2 m σ)) :
    four q q α α (La k j (pm sw v)) = four q q α α (La k j v) := by
  rw [ev_La k j hσ hv, ev_La k j hσ (pm_supp isPerm_sw hv), ← Finset.Nat.sum_antidiagonal_swap]
  refine Finset.sum_congr rfl fun p _ => ?_
  rw [Prod.fst_swap, Prod.snd_swap, pairF_sw _ _ (TS_length hv)]
  ring

theorem ev_La_swp (k j i : Nat) (hσ : Inc σ) {m : Int} {v : SKey →₀ F} (hv : v ∈ Finsupp.supported F F (TS 2 m σ)) :
    four q q α α (La k j (swp i v)) = four q q α α (La k j v) := by
  induction i with
  | zero => rfl
  | succ i ih => rw [swp, ev_La_sw k j hσ (swp_supp i hv), ih]

theorem ev_Th (i j : Nat) (hσ : Inc σ) : four q q α α (Th i j σ) = ∑ r ∈ Finset.antidiagonal i,
    ∑ p ∈ Finset.antidiagonal (j + r.1), ((p.1.choose r.1 : F) * (p.2.choose r.1 : F)) * P q α p.1 p.2 r.2 σ := by
  rw [Th, map_sum]
  refine Finset.sum_congr rfl fun r _ => ?_
  have hs := swp_supp r.2 (w2_supp (d := r.2) hσ)
  rw [tm, ev_xp r.2 (La_supp r.1 j hσ hs), ev_La_swp r.1 j r.2 hσ (w2_supp hσ), ev_La r.1 j hσ (w2_supp hσ)]
  rfl

/-- The iterated operation `D_{N-2l} D_l`. -/
noncomputable def E (q : Nat) (α : List Nat → F) (N l : Nat) (σ : List Nat) : F := P q α l l (N - 2 * l) σ

theorem F_sq (x : F) : x * x = x := by revert x; decide

open AdemArith in
theorem ev_Th_null (hα : IsCocycle X q α) (i j N : Nat) (hN : i + j = N) : Null X (fun σ =>
    four q q α α (Th i j σ) + ∑ l ∈ Finset.range (N / 2 + 1), dg l j * E q α N l σ) := by
  classical
  have h := Null.sum (X := X) (s := Finset.antidiagonal i) (f := fun r σ =>
    ∑ p ∈ Finset.antidiagonal (j + r.1), ((p.1.choose r.1 : F) * (p.2.choose r.1 : F)) * P q α p.1 p.2 r.2 σ +
      if (j + r.1) % 2 = 0 then (((j + r.1) / 2).choose r.1 : F) * (((j + r.1) / 2).choose r.1 : F) *
        P q α ((j + r.1) / 2) ((j + r.1) / 2) r.2 σ else 0)
    (fun r _ => sum_symm hα (fun A B => (A.choose r.1 : F) * (B.choose r.1 : F)) (fun A B => mul_comm _ _) (j + r.1) r.2)
  refine h.congr fun σ hσ => ?_
  rw [Finset.sum_add_distrib, ev_Th i j (inc_of_mem hσ)]
  congr 1
  rw [← Finset.sum_filter]
  have hz : ∑ l ∈ Finset.range (N / 2 + 1), dg l j * E q α N l σ =
      ∑ l ∈ (Finset.range (N / 2 + 1)).filter (fun l => j ≤ 2 * l), dg l j * E q α N l σ := by
    rw [Finset.sum_filter]
    refine Finset.sum_congr rfl fun l _ => ?_
    split
    · rfl
    · rename_i h
      rw [dg, if_neg h, zero_mul]
  rw [hz]
  refine Finset.sum_nbij' (fun r => (j + r.1) / 2) (fun l => (2 * l - j, N - 2 * l)) ?_ ?_ ?_ ?_ ?_
  · intro r hr
    simp only [Finset.mem_filter, Finset.mem_antidiagonal, Finset.mem_range] at hr ⊢
    omega
  · intro l hl
    simp only [Finset.mem_filter, Finset.mem_antidiagonal, Finset.mem_range] at hl ⊢
    omega
  · rintro ⟨a, b⟩ hr
    simp only [Finset.mem_filter, Finset.mem_antidiagonal, Prod.mk.injEq] at hr ⊢
    omega
  · intro l hl
    simp only [Finset.mem_filter, Finset.mem_range] at hl ⊢
    omega
  · rintro ⟨a, b⟩ hr
    simp only [Finset.mem_filter, Finset.mem_antidiagonal] at hr
    rw [F_sq, dg, if_pos (by omega), E]
    congr 3 <;> omega

/-- Evaluation of the homotopy. -/
theorem ev_symm (hα : IsCocycle X q α) (i j : Nat) : Null X (fun σ =>
    four q q α α (Th i j σ) + four q q α α (Th j i σ)) := by
  obtain ⟨H, hH⟩ := adem_homotopy (i + j + 1)
  refine ⟨fun τ => four q q α α (H i j τ), fun σ hσ => ?_⟩
  have hi := inc_of_mem hσ
  beta_reduce
  have h := congrArg (four q q α α) (hH i j (by omega) σ hi).2
  rw [four_bd hα hα hσ (hH i j (by omega) σ hi).1, map_add, map_add, map_add, map_add, Tt, ev_sh (TS_length (Th_supp j i hi)),
    cob_lin _ _ hi] at h
  have h1 : four q q α α (pre (fun i => H i j σ + pm sw4 (H i j σ)) i) = 0 := by
    cases i with
    | zero => exact map_zero _
    | succ i =>
      simp only [pre]
      rw [map_add, four_sw (TS_length (hH i j (by omega) σ hi).1), two_self]
  have h2 : four q q α α (pre (fun j => H i j σ + pm yy4 (H i j σ)) j) = 0 := by
    cases j with
    | zero => exact map_zero _
    | succ j =>
      simp only [pre]
      rw [map_add, ev_yy (TS_length (hH i j (by omega) σ hi).1), two_self]
  rw [h1, h2, add_zero, add_zero] at h
  generalize four q q α α (Th i j σ) + four q q α α (Th j i σ) = x at h ⊢
  generalize coboundary (fun f => four q q α α (H i j f)) σ = z at h ⊢
  revert h
  revert x z
  decide

open AdemArith in
/-- The relations before their simplification. -/
theorem relation (hα : IsCocycle X q α) {N j : Nat} (hj : j ≤ N) : Null X (fun σ =>
    ∑ l ∈ Finset.range (N / 2 + 1), (dg l j + dg l (N - j)) * E q α N l σ) := by
  refine (((ev_symm hα (N - j) j).add (ev_Th_null hα (N - j) j N (by omega))).add
    (ev_Th_null hα j (N - j) N (by omega))).congr fun σ _ => ?_
  simp only [add_mul, Finset.sum_add_distrib]
  rw [show ∀ a b x y : F, a + b + (a + x) + (b + y) = x + y + (a + a) + (b + b) by intros; ring, two_self, two_self,
    add_zero, add_zero]

open AdemArith in
theorem adem_D (hα : IsCocycle X q α) {N L : Nat} (hL : 3 * L < N) : Null X (fun σ => E q α N L σ +
    ∑ l ∈ Finset.range (N / 2 + 1), (if N ≤ 2 * l + L then ((l - L - 1).choose (2 * l + L - N) : F) else 0) *
      E q α N l σ) := by
  have h := Null.sum (X := X) (s := Finset.range (L + 1)) (f := fun j σ => ((2 * L - j).choose (L - j) : F) *
    ∑ l ∈ Finset.range (N / 2 + 1), (dg l j + dg l (N - j)) * E q α N l σ)
    (fun j hj => (relation hα (by have := Finset.mem_range.1 hj; omega)).mul _)
  refine h.congr fun σ _ => ?_
  have hE : E q α N L σ = ∑ l ∈ Finset.range (N / 2 + 1), (if l = L then (1 : F) else 0) * E q α N l σ := by
    simp only [ite_mul, one_mul, zero_mul]
    rw [Finset.sum_ite_eq' (Finset.range (N / 2 + 1)) L (fun l => E q α N l σ), if_pos (Finset.mem_range.2 (by omega))]
  rw [hE, ← Finset.sum_add_distrib]
  simp only [Finset.mul_sum]
  rw [Finset.sum_comm]
  refine Finset.sum_congr rfl fun l hl => ?_
  have := Finset.mem_range.1 hl
  rw [← sum_left L l, ← sum_right hL (show 2 * l ≤ N by omega), ← add_mul, ← Finset.sum_add_distrib, Finset.sum_mul]
  refine Finset.sum_congr rfl fun j _ => ?_
  ring

/-- The composite of two squares in terms of the products. -/
theorem square_square (hσ : σ ∈ X.simplices) (s t : Nat) :
    cochain (steenrodValue 2 s (q + t) false (cochain (steenrodValue 2 t q false α))) σ =
      if t ≤ q ∧ s ≤ q + t then P q α (q - t) (q - t) (q + t - s) σ else 0 := by
  have hi := inc_of_mem hσ
  have hX : ∀ f, f ∈ Gs σ → f ∈ X.simplices := fun f hf => X.faces σ hσ f hf.2 hf.1
  have key : ∀ f, f ∈ Gs σ → cochain (steenrodValue 2 (t : Int) q false α) f = if t ≤ q then D q α (q - t) f else 0 := by
    intro f hf
    rw [cochain_square (hX f hf)]
    by_cases h : t ≤ q
    · rw [if_pos (by exact_mod_cast h), if_pos h, show ((q : Int) - t).toNat = q - t by omega]
    · rw [if_neg (by exact_mod_cast h), if_neg h]
  rw [cochain_square hσ]
  by_cases hs : s ≤ q + t
  · rw [if_pos (by exact_mod_cast hs), show (((q + t : Nat) : Int) - s).toNat = q + t - s by omega]
    show evF _ (w2 (q + t - s) σ) = _
    have hd : ∀ f, f ∈ Gs σ → cochain (steenrodValue 2 (t : Int) q false α) f ≠ 0 → f.length = q + t + 1 := by
      intro f hf hne
      rw [key f hf] at hne
      split at hne
      · rename_i h
        exact square_degree (Gs_inc hi hf) h hne
      · exact absurd rfl hne
    rw [evF_pairF hd hd (w2_supp hi), pairF_congr key key (w2_supp hi)]
    by_cases h : t ≤ q
    · simp only [if_pos h]
      rw [if_pos ⟨h, hs⟩]
      rfl
    · simp only [if_neg h]
      rw [if_neg (by tauto)]
      refine fun_ext_supported (f := pairF _ _) (g := 0) (fun k hk => ?_) (w2_supp (d := q + t - s) hi)
      obtain ⟨f, g, rfl⟩ := List.length_eq_two.1 hk.2.1
      simp
  · rw [if_neg (by exact_mod_cast hs), if_neg (by tauto)]

end Comch.Adem

namespace Comch.Props
open Comch.Spec Elem SurjComp SurjElem IsPerm SurjMay Coch Contract
open Adem (P E P_zero adem_D square_square)

variable {X : OrderedComplex} {q : Nat}

/-- The Adem relations: for `0 < a < 2b`, on cohomology classes,
`Sq^a Sq^b = Σ_{c ≤ a/2} C(b - c - 1, a - 2c) Sq^{a+b-c} Sq^c`. -/
theorem C116_adem {α : List Nat → ZMod 2} (hα : IsCocycle X q α) {a b : Nat} (hab : a < 2 * b) (m : Nat) :
    Cohomologous X m
      (cochain (steenrodValue 2 a (q + b) false (cochain (steenrodValue 2 b q false α))))
      (fun σ => ∑ c ∈ Finset.range (a / 2 + 1), ((b - c - 1).choose (a - 2 * c) : ZMod 2) *
        cochain (steenrodValue 2 ((a + b - c : Nat) : Int) (q + c) false (cochain (steenrodValue 2 c q false α))) σ) := by
  by_cases hq : b ≤ q ∧ a ≤ q + b
  · obtain ⟨γ, hγ⟩ := adem_D (N := 3 * q - a - b) (L := q - b) hα (by omega)
    refine ⟨γ, fun σ hσ _ => ?_⟩
    beta_reduce
    have h := hγ σ hσ
    beta_reduce at h
    rw [square_square hσ, if_pos hq, ← h, E, show 3 * q - a - b - 2 * (q - b) = q + b - a by omega]
    have hsum : ∑ c ∈ Finset.range (a / 2 + 1), ((b - c - 1).choose (a - 2 * c) : ZMod 2) *
          cochain (steenrodValue 2 ((a + b - c : Nat) : Int) (q + c) false (cochain (steenrodValue 2 c q false α))) σ =
        ∑ l ∈ Finset.range ((3 * q - a - b) / 2 + 1), (if 3 * q - a - b ≤ 2 * l + (q - b) then
          ((l - (q - b) - 1).choose (2 * l + (q - b) - (3 * q - a - b)) : ZMod 2) else 0) * E q α (3 * q - a - b) l σ := by
      rw [Finset.sum_congr rfl fun c _ => by rw [square_square hσ]]
      have hl : ∑ c ∈ Finset.range (a / 2 + 1), ((b - c - 1).choose (a - 2 * c) : ZMod 2) *
          (if c ≤ q ∧ a + b - c ≤ q + c then P q α (q - c) (q - c) (q + c - (a + b - c)) σ else 0) =
          ∑ c ∈ (Finset.range (a / 2 + 1)).filter (fun c => c ≤ q ∧ a + b - c ≤ q + c),
            ((b - c - 1).choose (a - 2 * c) : ZMod 2) * P q α (q - c) (q - c) (q + c - (a + b - c)) σ := by
        rw [Finset.sum_filter]
        refine Finset.sum_congr rfl fun c _ => ?_
        split <;> simp
      have hr : ∑ l ∈ Finset.range ((3 * q - a - b) / 2 + 1), (if 3 * q - a - b ≤ 2 * l + (q - b) then
          ((l - (q - b) - 1).choose (2 * l + (q - b) - (3 * q - a - b)) : ZMod 2) else 0) * E q α (3 * q - a - b) l σ =
          ∑ l ∈ (Finset.range ((3 * q - a - b) / 2 + 1)).filter (fun l => l ≤ q ∧ 3 * q - a - b ≤ 2 * l + (q - b)),
          ((l - (q - b) - 1).choose (2 * l + (q - b) - (3 * q - a - b)) : ZMod 2) * E q α (3 * q - a - b) l σ := by
        rw [Finset.sum_filter]
        refine Finset.sum_congr rfl fun l _ => ?_
        by_cases h1 : l ≤ q
        · simp only [h1, true_and]
          split <;> simp
        · rw [if_neg (by tauto : ¬ (l ≤ q ∧ _)), E, P_zero _ (by omega) hσ, mul_zero]
      rw [hl, hr]
      refine Finset.sum_nbij' (fun c => q - c) (fun l => q - l) ?_ ?_ ?_ ?_ ?_
      · intro c hc
        simp only [Finset.mem_filter, Finset.mem_range] at hc ⊢
        omega
      · intro l hl
        simp only [Finset.mem_filter, Finset.mem_range] at hl ⊢
        omega
      · intro c hc
        simp only [Finset.mem_filter, Finset.mem_range] at hc
        omega
      · intro l hl
        simp only [Finset.mem_filter, Finset.mem_range] at hl
        omega
      · intro c hc
        simp only [Finset.mem_filter, Finset.mem_range] at hc
        rw [E, show q - c - (q - b) - 1 = b - c - 1 by omega,
          show 2 * (q - c) + (q - b) - (3 * q - a - b) = a - 2 * c by omega,
          show 3 * q - a - b - 2 * (q - c) = q + c - (a + b - c) by omega]
    rw [hsum]
    generalize P q α (q - b) (q - b) (q + b - a) σ = x
    generalize (∑ l ∈ _, _ : ZMod 2) = y
    revert x y
    decide
  · refine ⟨fun _ => 0, fun σ hσ _ => ?_⟩
    beta_reduce
    rw [square_square hσ, if_neg hq, cob_zero, add_zero]
    refine (Finset.sum_eq_zero fun c hc => ?_).symm
    have := Finset.mem_range.1 hc
    rw [square_square hσ]
    split
    · rw [Nat.choose_eq_zero_of_lt (by omega)]
      simp
    · rw [mul_zero]

/-- `Sq^1 Sq^1 = 0`. -/
theorem C116_sq1_sq1 {α : List Nat → ZMod 2} (hα : IsCocycle X q α) (m : Nat) :
    Cohomologous X m (cochain (steenrodValue 2 1 (q + 1) false (cochain (steenrodValue 2 1 q false α)))) (fun _ => 0) := by
  have h := C116_adem hα (show 1 < 2 * 1 by norm_num) m
  simpa using h

/-- `Sq^1 Sq^{2n} = Sq^{2n+1}`. -/
theorem C116_sq1_even {α : List Nat → ZMod 2} (hα : IsCocycle X q α) (n : Nat) (hn : 0 < n) (m : Nat) :
    Cohomologous X m (cochain (steenrodValue 2 1 (q + 2 * n) false (cochain (steenrodValue 2 (2 * n : Nat) q false α))))
      (cochain (steenrodValue 2 (2 * n + 1 : Nat) q false α)) := by
  obtain ⟨γ, hγ⟩ := C116_adem hα (show 1 < 2 * (2 * n) by omega) m
  refine ⟨γ, fun σ hσ hl => ?_⟩
  refine (hγ σ hσ hl).trans ?_
  congr 1
  have h1 : ((2 * n - 1 : Nat) : ZMod 2) = 1 := by
    obtain ⟨k, rfl⟩ : ∃ k, n = k + 1 := ⟨n - 1, by omega⟩
    rw [show 2 * (k + 1) - 1 = 2 * k + 1 by omega]
    push_cast
    rw [show (2 : ZMod 2) = 0 by decide]; ring
  simp only [show 1 / 2 + 1 = 1 by norm_num, Finset.sum_range_one, Nat.sub_zero, mul_zero, Nat.choose_one_right, h1, one_mul,
    add_zero]
  rw [show 1 + 2 * n = 2 * n + 1 by omega, cochain_square hσ, cochain_square hσ]
  split
  · refine wv_congr (by norm_num) hσ ?_ ?_ <;>
    · intro f hf hfl
      have := C104_zero (q := q) α hf hfl
      show cochain (steenrodValue 2 0 q false α) f = α f
      rw [cochain, this]
  · rfl

/-- `Sq^2 Sq^2 = Sq^3 Sq^1`. -/
theorem C116_sq2_sq2 {α : List Nat → ZMod 2} (hα : IsCocycle X q α) (m : Nat) :
    Cohomologous X m (cochain (steenrodValue 2 2 (q + 2) false (cochain (steenrodValue 2 2 q false α))))
      (cochain (steenrodValue 2 3 (q + 1) false (cochain (steenrodValue 2 1 q false α)))) := by
  obtain ⟨γ, hγ⟩ := C116_adem hα (show 2 < 2 * 2 by norm_num) m
  refine ⟨γ, fun σ hσ hl => ?_⟩
  refine (hγ σ hσ hl).trans ?_
  congr 1
  simp [Finset.sum_range_succ]

/-- A cocycle of degree 3 on the 6-simplex for which the right-hand side of `Sq^1 Sq^2 = Sq^3` is not zero as a
cochain. -/
def exTri (σ : List Nat) : ZMod 2 := if σ = [0, 1, 2] ∨ σ = [3, 4, 5] then 1 else 0

example : IsCocycle (exComplex 7) 3 (coboundary exTri) := fun σ _ _ => coboundary_coboundary exTri σ

example : steenrodValue 2 3 3 false (coboundary exTri) [0, 1, 2, 3, 4, 5, 6] = .ok 1 := by
  have hσ : [0, 1, 2, 3, 4, 5, 6] ∈ (exComplex 7).simplices := by
    refine ⟨?_, ?_, ?_⟩ <;> decide
  refine (C104_top (q := 3) (coboundary exTri) hσ (by decide)).trans ?_
  decide

end Comch.Props
