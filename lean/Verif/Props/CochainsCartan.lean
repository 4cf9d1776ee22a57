import Verif.Lib.Cartan
import Verif.Props.CochainsBockstein

/-! # The Cartan formula for Steenrod squares: C108 -/

set_option linter.unusedSectionVars false

namespace Comch.Props
open Comch.Spec Elem SurjComp SurjElem IsPerm SurjMay Coch Contract
open Finsupp (single)

variable {X : OrderedComplex} {σ : List Nat}

/-- A product of two functions on pairs of simplices. -/
noncomputable def pairF (φ ψ : List Nat → F) : (SKey →₀ F) →ₗ[F] F :=
  Finsupp.linearCombination F fun k => match k with
    | [f, g] => φ f * ψ g
    | _ => 0

@[simp] theorem pairF_single (φ ψ : List Nat → F) (f g : List Nat) (c : F) :
    pairF φ ψ (single [f, g] c) = c * (φ f * ψ g) := by simp [pairF]

theorem evF_of_degree {L : List (Nat × (List Nat → F))} {r : Nat} {m : Int} {v : SKey →₀ F}
    (hv : v ∈ Finsupp.supported F F (TS r m σ)) (hm : m ≠ ((L.map Prod.fst).sum : Nat)) : evF L v = 0 := by
  refine fun_ext_supported (f := evF L) (g := 0) (fun k hk => ?_) hv
  rw [evF_single, one_mul, LinearMap.zero_apply]
  by_contra hne
  apply hm
  rw [← hk.2.2]
  clear hm hk hv
  induction L generalizing k with
  | nil =>
    cases k with
    | nil => simp [totDeg]
    | cons f k => exact absurd rfl hne
  | cons p L ih =>
    obtain ⟨q, α⟩ := p
    cases k with
    | nil => exact absurd rfl hne
    | cons f k =>
      rw [tensorValue] at hne
      have h1 : f.length = q + 1 := by
        by_contra h
        rw [if_neg h, zero_mul] at hne
        exact hne rfl
      rw [totDeg, ih k (right_ne_zero_of_mul hne), ldim, h1]
      push_cast
      simp

theorem evF_pairF {p q : Nat} {φ ψ : List Nat → F} (hφ : ∀ f, f ∈ Gs σ → φ f ≠ 0 → f.length = p + 1)
    (hψ : ∀ f, f ∈ Gs σ → ψ f ≠ 0 → f.length = q + 1) {m : Int} {v : SKey →₀ F}
    (hv : v ∈ Finsupp.supported F F (TS 2 m σ)) : evF [(p, φ), (q, ψ)] v = pairF φ ψ v := by
  refine fun_ext_supported (f := evF [(p, φ), (q, ψ)]) (g := pairF φ ψ) (fun k hk => ?_) hv
  obtain ⟨f, g, rfl⟩ := List.length_eq_two.1 hk.2.1
  rw [evF_single, pairF_single, one_mul, one_mul]
  simp only [tensorValue, mul_one]
  have h1 := hφ f (hk.1 f (by simp))
  have h2 := hψ g (hk.1 g (by simp))
  by_cases e1 : φ f = 0
  · simp [e1]
  · by_cases e2 : ψ g = 0
    · simp [e2]
    · rw [if_pos (h1 e1), if_pos (h2 e2)]

theorem pairF_congr {φ φ' ψ ψ' : List Nat → F} (hφ : ∀ f, f ∈ Gs σ → φ f = φ' f)
    (hψ : ∀ f, f ∈ Gs σ → ψ f = ψ' f) {m : Int} {v : SKey →₀ F}
    (hv : v ∈ Finsupp.supported F F (TS 2 m σ)) : pairF φ ψ v = pairF φ' ψ' v := by
  refine fun_ext_supported (f := pairF φ ψ) (g := pairF φ' ψ') (fun k hk => ?_) hv
  obtain ⟨f, g, rfl⟩ := List.length_eq_two.1 hk.2.1
  rw [pairF_single, pairF_single, hφ f (hk.1 f (by simp)), hψ g (hk.1 g (by simp))]

section
variable {a b : Nat} {α β : List Nat → F}

/-- The four cochains. -/
noncomputable abbrev four (a b : Nat) (α β : List Nat → F) : (SKey →₀ F) →ₗ[F] F := evF [(a, α), (b, β), (a, α), (b, β)]

theorem four_cat {u v : SKey →₀ F} (hu : u ∈ Finsupp.supported F F (Len 2)) (hv : v ∈ Finsupp.supported F F (Len 2)) :
    four a b α β (cat u v) = evF [(a, α), (b, β)] u * evF [(a, α), (b, β)] v := by
  have h := BElem.bil_ext_supported (R := F) (M := F) (S := Len 2) (T := Len 2)
    (f := (cat (R := F) (A := List Nat)).compr₂ (four a b α β))
    (g := (LinearMap.mul F F).compl₁₂ (evF [(a, α), (b, β)]) (evF [(a, α), (b, β)])) (fun k hk l hl => by
      obtain ⟨f, g, rfl⟩ := List.length_eq_two.1 hk
      obtain ⟨f', g', rfl⟩ := List.length_eq_two.1 hl
      simp [tensorValue, mul_assoc]) hu hv
  rw [LinearMap.compr₂_apply, LinearMap.compl₁₂_apply, LinearMap.mul_apply'] at h
  exact h

theorem four_sh_cat {u v : SKey →₀ F} (hu : u ∈ Finsupp.supported F F (Len 2)) (hv : v ∈ Finsupp.supported F F (Len 2)) :
    four a b α β (pm sh4 (cat u v)) = evF [(a, α), (a, α)] u * evF [(b, β), (b, β)] v := by
  have h := BElem.bil_ext_supported (R := F) (M := F) (S := Len 2) (T := Len 2)
    (f := (cat (R := F) (A := List Nat)).compr₂ ((four a b α β).comp (pm sh4)))
    (g := (LinearMap.mul F F).compl₁₂ (evF [(a, α), (a, α)]) (evF [(b, β), (b, β)])) (fun k hk l hl => by
      obtain ⟨f, g, rfl⟩ := List.length_eq_two.1 hk
      obtain ⟨f', g', rfl⟩ := List.length_eq_two.1 hl
      simp only [LinearMap.compr₂_apply, LinearMap.compl₁₂_apply, LinearMap.mul_apply', LinearMap.comp_apply, cat_single_single, List.cons_append, List.nil_append, mul_one, one_mul, pm_bv, actL_sh4, evF_single, tensorValue]
      ring) hu hv
  rw [LinearMap.compr₂_apply, LinearMap.compl₁₂_apply, LinearMap.mul_apply', LinearMap.comp_apply] at h
  exact h

theorem four_sw {v : SKey →₀ F} (hv : v ∈ Finsupp.supported F F (Len 4)) :
    four a b α β (pm sw4 v) = four a b α β v := by
  refine fun_ext_supported (f := (four a b α β).comp (pm sw4)) (g := four a b α β) (fun k hk => ?_) hv
  obtain ⟨f, g, f', g', rfl⟩ : ∃ f g f' g', k = [f, g, f', g'] := by
    match k, hk with
    | [f, g, f', g'], _ => exact ⟨f, g, f', g', rfl⟩
  simp only [LinearMap.compr₂_apply, LinearMap.compl₁₂_apply, LinearMap.mul_apply', LinearMap.comp_apply, cat_single_single, List.cons_append, List.nil_append, mul_one, one_mul, pm_bv, actL_sw4, evF_single, tensorValue]
  ring

theorem two_swp (i : Nat) {v : SKey →₀ F} {m : Int} (hv : v ∈ Finsupp.supported F F (TS 2 m σ)) :
    evF [(a, α), (a, α)] (swp i v) = evF [(a, α), (a, α)] v := by
  have h : ∀ v : SKey →₀ F, v ∈ Finsupp.supported F F (Len 2) →
      evF [(a, α), (a, α)] (pm sw v) = evF [(a, α), (a, α)] v := by
    intro v hv
    refine fun_ext_supported (f := (evF [(a, α), (a, α)]).comp (pm sw)) (g := evF [(a, α), (a, α)]) (fun k hk => ?_) hv
    obtain ⟨f, g, rfl⟩ := List.length_eq_two.1 hk
    simp only [LinearMap.compr₂_apply, LinearMap.compl₁₂_apply, LinearMap.mul_apply', LinearMap.comp_apply, cat_single_single, List.cons_append, List.nil_append, mul_one, one_mul, pm_bv, actL_sw, evF_single, tensorValue]
    ring
  induction i with
  | zero => rfl
  | succ i ih => rw [swp, h _ (TS_length (swp_supp i hv)), ih]

theorem four_Lh (d : Nat) (hσ : Inc σ) : four a b α β (Lh d σ) =
    pairF (wv 2 2 0 [(a, α), (b, β)]) (wv 2 2 0 [(a, α), (b, β)]) (w2 d σ) := by
  refine fun_ext_supported (f := (four a b α β).comp (lin (lift2 B0)))
    (g := pairF (wv 2 2 0 [(a, α), (b, β)]) (wv 2 2 0 [(a, α), (b, β)])) (fun k hk => ?_) (w2_supp (d := d) hσ)
  obtain ⟨f, g, rfl⟩ := List.length_eq_two.1 hk.2.1
  have hf := Gs_inc hσ (hk.1 f (by simp))
  have hg := Gs_inc hσ (hk.1 g (by simp))
  rw [LinearMap.comp_apply, lin_single, one_smul, lift2, B0, four_cat (w2_len hf) (w2_len hg), pairF_single, one_mul]
  rfl

theorem four_Rh (d : Nat) (hσ : Inc σ) : four a b α β (Rh d σ) = ∑ i ∈ Finset.range (d + 1),
    pairF (wv 2 2 (d - i) [(a, α), (a, α)]) (wv 2 2 i [(b, β), (b, β)]) (w2 0 σ) := by
  have h := fun_ext_supported (f := (four a b α β).comp ((pm sh4).comp (lin (lift2 (Bd d)))))
    (g := ∑ i ∈ Finset.range (d + 1), pairF (wv 2 2 (d - i) [(a, α), (a, α)]) (wv 2 2 i [(b, β), (b, β)]))
    (fun k hk => by
      obtain ⟨f, g, rfl⟩ := List.length_eq_two.1 hk.2.1
      have hf := Gs_inc hσ (hk.1 f (by simp))
      have hg := Gs_inc hσ (hk.1 g (by simp))
      rw [LinearMap.comp_apply, LinearMap.comp_apply, lin_single, one_smul, lift2, Bd, map_sum, map_sum,
        LinearMap.sum_apply]
      refine Finset.sum_congr rfl fun i _ => ?_
      rw [term, four_sh_cat (TS_length (swp_supp i (w2_supp hf))) (w2_len hg), two_swp i (w2_supp hf), pairF_single,
        one_mul]
      rfl) (w2_supp (d := 0) hσ)
  rw [LinearMap.sum_apply] at h
  exact h

theorem four_bd (hα : IsCocycle X a α) (hβ : IsCocycle X b β) (hσ : σ ∈ X.simplices) {m : Int} {v : SKey →₀ F}
    (hv : v ∈ Finsupp.supported F F (TS 4 m σ)) : four a b α β (bd v) = 0 := by
  have hi := inc_of_mem hσ
  have hF : v ∈ Finsupp.supported F F (Faces 4 σ) := 
    Finsupp.supported_mono (show TS 4 m σ ⊆ Faces 4 σ from fun k hk => ⟨hk.2.1, fun f hf =>
      ⟨(hk.1 f hf).2, (hk.1 f hf).1⟩⟩) hv
  rw [bd_eq hi hv, evF_bd (r := 4) hi _ hF]
  refine fun_ext_supported (f := (four a b α β).comp simplicialD) (g := 0) (fun k hk => ?_) hv
  simp only [LinearMap.comp_apply, LinearMap.zero_apply, simplicialD, tens_single, one_smul]
  refine evF_tensK_cocycle (X := X) _ (fun x hx => ?_) k (fun f hf => X.faces σ hσ f (hk.1 f hf).2 (hk.1 f hf).1)
  simp only [List.mem_cons, List.not_mem_nil, or_false] at hx
  rcases hx with rfl | rfl | rfl | rfl <;> assumption

theorem cob_lin (φ : (SKey →₀ F) →ₗ[F] F) (H : List Nat → (SKey →₀ F)) (hσ : Inc σ) :
    φ (lin H (delE σ)) = coboundary (fun f => φ (H f)) σ := by
  unfold coboundary
  split
  · rename_i h
    have : σ.length = 1 := by have := List.length_pos_iff.2 hσ.2; omega
    obtain ⟨v, rfl⟩ := List.length_eq_one_iff.1 this
    rw [delE_singleton]; simp
  · rename_i h
    rw [delE_of_two (by omega), Coch.delK_eq_sum, map_list_sum, map_list_sum, List.map_map, List.map_map]
    congr 1
    refine List.map_congr_left fun i _ => ?_
    simp

/-- Square of a cup product, in terms of the structure maps. -/
theorem cartan_wv (hα : IsCocycle X a α) (hβ : IsCocycle X b β) (d : Nat) : ∃ γ : List Nat → F,
    ∀ σ ∈ X.simplices, pairF (wv 2 2 0 [(a, α), (b, β)]) (wv 2 2 0 [(a, α), (b, β)]) (w2 d σ) =
      ∑ i ∈ Finset.range (d + 1), pairF (wv 2 2 (d - i) [(a, α), (a, α)]) (wv 2 2 i [(b, β), (b, β)]) (w2 0 σ) +
        coboundary γ σ := by
  obtain ⟨K, H, hK, hH, hb⟩ := cartan_homotopy d
  refine ⟨fun f => four a b α β (H f), fun σ hσ => ?_⟩
  have hi := inc_of_mem hσ
  have h := congrArg (four a b α β) (hb σ hi)
  rw [four_bd hα hβ hσ (hH σ hi), map_add, map_add, map_add, map_add, four_sw (TS_length (hK σ hi)), two_self, add_zero,
    cob_lin _ _ hi, four_Lh d hi, four_Rh d hi] at h
  generalize pairF (wv 2 2 0 [(a, α), (b, β)]) (wv 2 2 0 [(a, α), (b, β)]) (w2 d σ) = x at h ⊢
  generalize (∑ i ∈ Finset.range (d + 1), _ : F) = y at h ⊢
  generalize coboundary (fun f => four a b α β (H f)) σ = z at h ⊢
  revert h
  revert x y z
  decide

theorem cup_degree (hσ : Inc σ) (h : wv 2 2 0 [(a, α), (b, β)] σ ≠ 0) : σ.length = a + b + 1 := by
  by_contra hne
  apply h
  refine evF_of_degree (w2_supp (d := 0) hσ) ?_
  have := List.length_pos_iff.2 hσ.2
  simp only [ldim, List.map_cons, List.map_nil, List.sum_cons, List.sum_nil]
  push_cast
  omega

theorem square_degree (hσ : Inc σ) {k : Nat} (hk : k ≤ a) (h : wv 2 2 (a - k) [(a, α), (a, α)] σ ≠ 0) :
    σ.length = a + k + 1 := by
  have := wv_degree (p := 2) (q := a) le_rfl hσ α h
  push_cast [hk] at this
  omega

theorem square_vanish (hσ : σ ∈ X.simplices) {j : Nat} (hj : a < j) : wv 2 2 j [(a, α), (a, α)] σ = 0 := by
  have h := C104_vanishing (q := a) (s := (a : Int) - j) α hσ (Or.inl (by omega))
  rw [square_eq (inc_of_mem hσ), if_pos (by omega), show ((a : Int) - ((a : Int) - j)).toNat = j by omega] at h
  injection h

end

/-- The Cartan formula: `Sq^s(α ∪ β) = Σ_{k ≤ s} Sq^k α ∪ Sq^{s-k} β` on cohomology classes. -/
theorem C108_cartan {a b : Nat} {α β : List Nat → ZMod 2} (hα : IsCocycle X a α) (hβ : IsCocycle X b β) (s m : Nat) :
    Cohomologous X m (cochain (steenrodValue 2 s (a + b) false (cochain (cupValue 2 0 a α b β))))
      (fun σ => ∑ k ∈ Finset.range (s + 1),
        cochain (cupValue 2 0 (a + k) (cochain (steenrodValue 2 k a false α))
          (b + (s - k)) (cochain (steenrodValue 2 ((s - k : Nat) : Int) b false β))) σ) := by
  have h2 : (2 : Nat) ≠ 1 := by norm_num
  -- the terms on the right
  have hT : ∀ σ ∈ X.simplices, ∀ k ∈ Finset.range (s + 1),
      cochain (cupValue 2 0 (a + k) (cochain (steenrodValue 2 k a false α))
          (b + (s - k)) (cochain (steenrodValue 2 ((s - k : Nat) : Int) b false β))) σ =
      if k ≤ a ∧ s - k ≤ b then pairF (wv 2 2 (a - k) [(a, α), (a, α)]) (wv 2 2 (b - (s - k)) [(b, β), (b, β)]) (w2 0 σ)
      else 0 := by
    intro σ hσ k _
    have hi := inc_of_mem hσ
    have hX : ∀ f, f ∈ Gs σ → f ∈ X.simplices := fun f hf => X.faces σ hσ f hf.2 hf.1
    have key : ∀ (q j : Nat) (γ : List Nat → ZMod 2) (f : List Nat), f ∈ Gs σ →
        cochain (steenrodValue 2 (j : Int) q false γ) f = if j ≤ q then wv 2 2 (q - j) [(q, γ), (q, γ)] f else 0 := by
      intro q j γ f hf
      rw [cochain_square (hX f hf)]
      by_cases h : j ≤ q
      · rw [if_pos (by exact_mod_cast h), if_pos h, show ((q : Int) - j).toNat = q - j by omega]
      · rw [if_neg (by exact_mod_cast h), if_neg h]
    have hdeg : ∀ (q j : Nat) (γ : List Nat → ZMod 2) (f : List Nat), f ∈ Gs σ →
        cochain (steenrodValue 2 (j : Int) q false γ) f ≠ 0 → f.length = q + j + 1 := by
      intro q j γ f hf hne
      rw [key q j γ f hf] at hne
      split at hne
      · rename_i h
        exact square_degree (Gs_inc hi hf) h hne
      · exact absurd rfl hne
    rw [cochain_cup h2 hσ]
    show evF _ (w2 0 σ) = _
    rw [evF_pairF (fun f hf => hdeg a k α f hf) (fun f hf => hdeg b (s - k) β f hf) (w2_supp hi)]
    by_cases h1 : k ≤ a
    · by_cases h3 : s - k ≤ b
      · rw [if_pos ⟨h1, h3⟩]
        exact pairF_congr (fun f hf => by rw [key a k α f hf, if_pos h1])
          (fun f hf => by rw [key b (s - k) β f hf, if_pos h3]) (w2_supp hi)
      · rw [if_neg (by tauto), pairF_congr (fun f hf => rfl) (fun f hf => by rw [key b (s - k) β f hf, if_neg h3]) (w2_supp hi)]
        refine fun_ext_supported (f := pairF _ fun _ => 0) (g := 0) (fun k hk => ?_) (w2_supp (d := 0) hi)
        obtain ⟨f, g, rfl⟩ := List.length_eq_two.1 hk.2.1
        simp
    · rw [if_neg (by tauto), pairF_congr (fun f hf => by rw [key a k α f hf, if_neg h1]) (fun f hf => rfl) (w2_supp hi)]
      refine fun_ext_supported (f := pairF (fun _ => 0) _) (g := 0) (fun k hk => ?_) (w2_supp (d := 0) hi)
      obtain ⟨f, g, rfl⟩ := List.length_eq_two.1 hk.2.1
      simp
  by_cases hs : s ≤ a + b
  · obtain ⟨γ, hγ⟩ := cartan_wv hα hβ (a + b - s)
    refine ⟨γ, fun σ hσ _ => ?_⟩
    have hi := inc_of_mem hσ
    have hX : ∀ f, f ∈ Gs σ → f ∈ X.simplices := fun f hf => X.faces σ hσ f hf.2 hf.1
    beta_reduce
    rw [Finset.sum_congr rfl (hT σ hσ), cochain_square hσ, if_pos (by exact_mod_cast hs),
      show (((a + b : Nat) : Int) - s).toNat = a + b - s by omega]
    show evF _ (w2 (a + b - s) σ) = _
    have hcd : ∀ f, f ∈ Gs σ → cochain (cupValue 2 0 a α b β) f = wv 2 2 0 [(a, α), (b, β)] f :=
      fun f hf => cochain_cup h2 (hX f hf) 0 a b α β
    rw [evF_pairF (fun f hf hne => by rw [hcd f hf] at hne; exact cup_degree (Gs_inc hi hf) hne)
      (fun f hf hne => by rw [hcd f hf] at hne; exact cup_degree (Gs_inc hi hf) hne) (w2_supp hi),
      pairF_congr hcd hcd (w2_supp hi), hγ σ hσ]
    congr 1
    rw [← Finset.sum_filter]
    have hz : ∀ i ∈ Finset.range (a + b - s + 1), ¬ (i ≤ b ∧ a + b - s - i ≤ a) →
        pairF (wv 2 2 (a + b - s - i) [(a, α), (a, α)]) (wv 2 2 i [(b, β), (b, β)]) (w2 0 σ) = 0 := by
      intro i _ hne
      refine fun_ext_supported (f := pairF _ _) (g := 0) (fun k hk => ?_) (w2_supp (d := 0) hi)
      obtain ⟨f, g, rfl⟩ := List.length_eq_two.1 hk.2.1
      rw [pairF_single, LinearMap.zero_apply, one_mul]
      by_cases h1 : i ≤ b
      · rw [square_vanish (hX f (hk.1 f (by simp))) (by omega), zero_mul]
      · rw [square_vanish (a := b) (hX g (hk.1 g (by simp))) (by omega), mul_zero]
    rw [← Finset.sum_filter_add_sum_filter_not (Finset.range (a + b - s + 1)) (fun i => i ≤ b ∧ a + b - s - i ≤ a),
      Finset.sum_eq_zero (s := Finset.filter (fun i => ¬ _) _) (fun i hi => hz i (Finset.mem_filter.1 hi).1 (Finset.mem_filter.1 hi).2),
      add_zero]
    refine Finset.sum_nbij' (fun i => i + s - b) (fun k => b + k - s) ?_ ?_ ?_ ?_ ?_
    · intro i hi
      simp only [Finset.mem_filter, Finset.mem_range] at hi ⊢
      omega
    · intro k hk
      simp only [Finset.mem_filter, Finset.mem_range] at hk ⊢
      omega
    · intro i hi
      simp only [Finset.mem_filter, Finset.mem_range] at hi
      omega
    · intro k hk
      simp only [Finset.mem_filter, Finset.mem_range] at hk
      omega
    · intro i hi
      simp only [Finset.mem_filter, Finset.mem_range] at hi
      rw [show a - (i + s - b) = a + b - s - i by omega, show b - (s - (i + s - b)) = i by omega]
  · refine ⟨fun _ => 0, fun σ hσ _ => ?_⟩
    beta_reduce
    rw [Finset.sum_congr rfl (hT σ hσ), cochain_square hσ, if_neg (by exact_mod_cast hs), Finset.sum_eq_zero]
    · unfold coboundary; split <;> simp
    · intro k hk
      have := Finset.mem_range.1 hk
      rw [if_neg (by omega)]

/-- On the six-vertex projective plane, for the one-dimensional class and the constant class. -/
example : Cohomologous exPlane 2
    (cochain (steenrodValue 2 1 1 false (cochain (cupValue 2 0 1 (fun σ => ((exLift σ : Int) : ZMod 2)) 0 fun _ => 1))))
      (fun σ => cochain (cupValue 2 0 1 (cochain (steenrodValue 2 0 1 false fun σ => ((exLift σ : Int) : ZMod 2)))
          1 (cochain (steenrodValue 2 1 0 false fun _ => 1))) σ +
        cochain (cupValue 2 0 2 (cochain (steenrodValue 2 1 1 false fun σ => ((exLift σ : Int) : ZMod 2)))
          0 (cochain (steenrodValue 2 0 0 false fun _ => 1))) σ) := by
  have hα : IsCocycle exPlane 1 (fun σ => ((exLift σ : Int) : ZMod 2)) := by
    intro σ hσ hl
    have : ∀ t ∈ exTriangles, coboundary (fun σ => ((exLift σ : Int) : ZMod 2)) t = 0 := by decide
    exact this σ (exPlane_top hσ hl)
  have hβ : IsCocycle exPlane 0 (fun _ => (1 : ZMod 2)) := by
    intro σ hσ hl
    rw [coboundary, if_neg (by omega), hl]
    decide
  have h := C108_cartan hα hβ 1 2
  simpa [Finset.sum_range_succ] using h

/-- The right-hand side is not zero: on `(0, 3, 4)` it takes the value of `Sq^1`, the Bockstein. -/
example : (cupValue 2 0 2 (cochain (steenrodValue 2 1 1 false fun σ => ((exLift σ : Int) : ZMod 2)))
    0 (cochain (steenrodValue 2 0 0 false fun _ => 1)) [0, 3, 4]).toOption = some 1 := by
  decide +kernel

end Comch.Props
