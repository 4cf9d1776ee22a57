import Verif.Lib.CubeCartan
import Verif.Props.CubeCochains

/-! # The Cartan formula for Steenrod squares on cubical complexes: C120 -/

set_option linter.unusedSectionVars false

namespace Comch.CubeCart
open Comch.Spec Elem CElem SurjComp SurjElem IsPerm SurjMay CubCall CubeCoch Comch.Props
open Contract (T aug_cat)
open Finsupp (single)

variable {N : Nat} {X : CubeComplex N} {σ : Cube}

/-- A product of two functions on pairs of cubes. -/
noncomputable def pairC (φ ψ : Cube → F) : (CKey →₀ F) →ₗ[F] F :=
  Finsupp.linearCombination F fun k => match k with
    | [f, g] => φ f * ψ g
    | _ => 0

@[simp] theorem pairC_single (φ ψ : Cube → F) (f g : Cube) (c : F) :
    pairC φ ψ (single [f, g] c) = c * (φ f * ψ g) := by simp [pairC]

/-- The products of the package. -/
noncomputable abbrev wq (i a : Nat) (α : Cube → F) (b : Nat) (β : Cube → F) : Cube → F := wc .mcClureSmith i a α b β

theorem wq_eq (i a : Nat) (α : Cube → F) (b : Nat) (β : Cube → F) (c : Cube) :
    evC a α b β (cw i c) = wq i a α b β c := rfl

theorem evC_pairC {p q : Nat} {φ ψ : Cube → F} (hφ : ∀ f, f ∈ FC σ → φ f ≠ 0 → f.count 2 = p)
    (hψ : ∀ f, f ∈ FC σ → ψ f ≠ 0 → f.count 2 = q) {m : Int} {v : CKey →₀ F}
    (hv : v ∈ Finsupp.supported F F (TC 2 m σ)) : evC p φ q ψ v = pairC φ ψ v := by
  refine fun_ext (f := evC p φ q ψ) (g := pairC φ ψ) (fun k hk => ?_) hv
  obtain ⟨f, g, rfl⟩ := List.length_eq_two.1 hk.2.1
  rw [evC_single, pairC_single, one_mul, one_mul]
  simp only [cubeTensorValue]
  have h1 := hφ f (hk.1 f (by simp))
  have h2 := hψ g (hk.1 g (by simp))
  by_cases e1 : φ f = 0
  · simp [e1]
  · by_cases e2 : ψ g = 0
    · simp [e2]
    · rw [if_pos ⟨h1 e1, h2 e2⟩]

theorem pairC_congr {φ φ' ψ ψ' : Cube → F} (hφ : ∀ f, f ∈ FC σ → φ f = φ' f)
    (hψ : ∀ f, f ∈ FC σ → ψ f = ψ' f) {m : Int} {v : CKey →₀ F}
    (hv : v ∈ Finsupp.supported F F (TC 2 m σ)) : pairC φ ψ v = pairC φ' ψ' v := by
  refine fun_ext (f := pairC φ ψ) (g := pairC φ' ψ') (fun k hk => ?_) hv
  obtain ⟨f, g, rfl⟩ := List.length_eq_two.1 hk.2.1
  rw [pairC_single, pairC_single, hφ f (hk.1 f (by simp)), hψ g (hk.1 g (by simp))]

section
variable {a b : Nat} {α β : Cube → F}

/-- One factor. -/
def tv1 (a : Nat) (α : Cube → F) (f : Cube) : F := if f.count 2 = a then α f else 0

theorem tv_two (f g : Cube) : cubeTensorValue a α b β [f, g] = tv1 a α f * tv1 b β g := by
  simp only [cubeTensorValue, tv1]
  by_cases h1 : f.count 2 = a <;> by_cases h2 : g.count 2 = b <;> simp [h1, h2]

/-- The four cochains. -/
noncomputable def fourC (a b : Nat) (α β : Cube → F) : (CKey →₀ F) →ₗ[F] F :=
  Finsupp.linearCombination F fun k => match k with
    | [f, g, f', g'] => tv1 a α f * tv1 b β g * (tv1 a α f' * tv1 b β g')
    | _ => 0

@[simp] theorem fourC_single (f g f' g' : Cube) (c : F) : fourC a b α β (single [f, g, f', g'] c) =
    c * (tv1 a α f * tv1 b β g * (tv1 a α f' * tv1 b β g')) := by simp [fourC]

theorem fourC_cat {u v : CKey →₀ F} (hu : u ∈ Finsupp.supported F F (Len 2)) (hv : v ∈ Finsupp.supported F F (Len 2)) :
    fourC a b α β (cat u v) = evC a α b β u * evC a α b β v := by
  have h := BElem.bil_ext_supported (R := F) (M := F) (S := Len 2) (T := Len 2)
    (f := (cat (R := F) (A := Cube)).compr₂ (fourC a b α β))
    (g := (LinearMap.mul F F).compl₁₂ (evC a α b β) (evC a α b β)) (fun k hk l hl => by
      obtain ⟨f, g, rfl⟩ := List.length_eq_two.1 hk
      obtain ⟨f', g', rfl⟩ := List.length_eq_two.1 hl
      simp [tv_two]) hu hv
  rw [LinearMap.compr₂_apply, LinearMap.compl₁₂_apply, LinearMap.mul_apply'] at h
  exact h

theorem fourC_sh_cat {u v : CKey →₀ F} (hu : u ∈ Finsupp.supported F F (Len 2)) (hv : v ∈ Finsupp.supported F F (Len 2)) :
    fourC a b α β (pm sh4 (cat u v)) = evC a α a α u * evC b β b β v := by
  have h := BElem.bil_ext_supported (R := F) (M := F) (S := Len 2) (T := Len 2)
    (f := (cat (R := F) (A := Cube)).compr₂ ((fourC a b α β).comp (pm sh4)))
    (g := (LinearMap.mul F F).compl₁₂ (evC a α a α) (evC b β b β)) (fun k hk l hl => by
      obtain ⟨f, g, rfl⟩ := List.length_eq_two.1 hk
      obtain ⟨f', g', rfl⟩ := List.length_eq_two.1 hl
      simp only [LinearMap.compr₂_apply, LinearMap.compl₁₂_apply, LinearMap.mul_apply', LinearMap.comp_apply, cat_single_single, List.cons_append, List.nil_append, mul_one, one_mul, pm_bv, actL_sh4, evC_single, fourC_single, tv_two]
      ring) hu hv
  rw [LinearMap.compr₂_apply, LinearMap.compl₁₂_apply, LinearMap.mul_apply', LinearMap.comp_apply] at h
  exact h

theorem fourC_sw {v : CKey →₀ F} (hv : v ∈ Finsupp.supported F F (Len 4)) :
    fourC a b α β (pm sw4 v) = fourC a b α β v := by
  refine fun_ext (f := (fourC a b α β).comp (pm sw4)) (g := fourC a b α β) (fun k hk => ?_) hv
  obtain ⟨f, g, f', g', rfl⟩ : ∃ f g f' g', k = [f, g, f', g'] := by
    match k, hk with
    | [f, g, f', g'], _ => exact ⟨f, g, f', g', rfl⟩
  simp only [LinearMap.comp_apply, pm_bv, actL_sw4, fourC_single]
  ring

theorem two_swp (i : Nat) {v : CKey →₀ F} {m : Int} (hv : v ∈ Finsupp.supported F F (TC 2 m σ)) :
    evC a α a α (swp i v) = evC a α a α v := by
  induction i with
  | zero => rfl
  | succ i ih =>
    have hl := TS_length (swp_supp i hv)
    rw [swp, ← pm_sw_eq hl, evC_sw hl, ih]

theorem fourC_Lh (d : Nat) (hσ : Cu σ) : fourC a b α β (Lh d σ) =
    pairC (wq 0 a α b β) (wq 0 a α b β) (cw d σ) := by
  refine fun_ext (f := (fourC a b α β).comp (lin (lift2 B0)))
    (g := pairC (wq 0 a α b β) (wq 0 a α b β)) (fun k hk => ?_) (w2_supp (d := d) hσ)
  obtain ⟨f, g, rfl⟩ := List.length_eq_two.1 hk.2.1
  have hf := FC_cu (hk.1 f (by simp))
  have hg := FC_cu (hk.1 g (by simp))
  rw [LinearMap.comp_apply, lin_single, one_smul, lift2, B0, fourC_cat (w2_len hf) (w2_len hg), pairC_single, one_mul]
  rfl

theorem fourC_Rh (d : Nat) (hσ : Cu σ) : fourC a b α β (Rh d σ) = ∑ i ∈ Finset.range (d + 1),
    pairC (wq (d - i) a α a α) (wq i b β b β) (cw 0 σ) := by
  have h := fun_ext (f := (fourC a b α β).comp ((pm sh4).comp (lin (lift2 (Bd d)))))
    (g := ∑ i ∈ Finset.range (d + 1), pairC (wq (d - i) a α a α) (wq i b β b β))
    (fun k hk => by
      obtain ⟨f, g, rfl⟩ := List.length_eq_two.1 hk.2.1
      have hf := FC_cu (hk.1 f (by simp))
      have hg := FC_cu (hk.1 g (by simp))
      rw [LinearMap.comp_apply, LinearMap.comp_apply, lin_single, one_smul, lift2, Bd, map_sum, map_sum,
        LinearMap.sum_apply]
      refine Finset.sum_congr rfl fun i _ => ?_
      rw [term, fourC_sh_cat (TS_length (swp_supp i (w2_supp hf))) (w2_len hg), two_swp i (w2_supp hf), pairC_single,
        one_mul]
      rfl) (w2_supp (d := 0) hσ)
  rw [LinearMap.sum_apply] at h
  exact h

theorem evC_bd_zero (hα : IsCubeCocycle X a α) (hβ : IsCubeCocycle X b β) {f g : Cube} (hf : f ∈ X.cubes)
    (hg : g ∈ X.cubes) : evC a α b β (cbd (bv F [f, g])) = 0 := by
  have := evC_cubicalD (a := a) (α := α) (b := b) (β := β) (v := bv F [f, g])
    (Finsupp.single_mem_supported F _ (show [f, g].length = 2 from rfl))
  refine Eq.trans this ?_
  rw [evC_single, evC_single, tv_two, tv_two]
  have h1 : tv1 (a + 1) (cubeCoboundary α) f = 0 := by
    rw [tv1]; split
    · exact hα f hf ‹_›
    · rfl
  have h2 : tv1 (b + 1) (cubeCoboundary β) g = 0 := by
    rw [tv1]; split
    · exact hβ g hg ‹_›
    · rfl
  rw [h1, h2]
  simp

theorem bd_len2 (f g : Cube) : cbd (bv F [f, g]) ∈ Finsupp.supported F F (Len 2) := by
  have e1 : cbd (bv F [f, g]) = cat (one (cubeD f)) (bv F [g]) + cat (bv F [f]) (one (cubeD g)) := by
    rw [show bv F [f, g] = cat (bv F [f]) (bv F [g]) by simp, bd_cat]
    congr 2 <;> simp [tensK]
  rw [e1]
  have h : ∀ (u v : CKey →₀ F), u ∈ Finsupp.supported F F (Len 1) → v ∈ Finsupp.supported F F (Len 1) →
      cat u v ∈ Finsupp.supported F F (Len 2) := by
    intro u v hu hv
    have : cat u v = bil (fun a k => bv F (a ++ k)) u v := by
      refine BElem.bil_ext_supported (S := Set.univ) (T := Set.univ)
        (f := cat) (g := bil fun a k => bv F (a ++ k)) ?_ (by simp) (by simp)
      intro a _ k _
      rw [bil_bv]
      simp
    rw [this]
    refine BElem.bil_supported (S := Len 1) (T := Len 1) _ (fun a ha k hk => ?_) hu hv
    refine Finsupp.single_mem_supported F _ ?_
    have ha : a.length = 1 := ha
    have hk : k.length = 1 := hk
    show (a ++ k).length = 2
    rw [List.length_append, ha, hk]
  have h1 : ∀ u : Cube →₀ F, one u ∈ Finsupp.supported F F (Len 1) := fun u =>
    mapK_supported (S := Set.univ) (T := Len 1) _ (fun _ _ => rfl) (by simp)
  have h2 : ∀ f : Cube, bv F [f] ∈ Finsupp.supported F F (Len 1) := fun f =>
    Finsupp.single_mem_supported F _ (show [f].length = 1 from rfl)
  exact Submodule.add_mem _ (h _ _ (h1 _) (h2 _)) (h _ _ (h2 _) (h1 _))

theorem fourC_bd (hα : IsCubeCocycle X a α) (hβ : IsCubeCocycle X b β) (hσ : σ ∈ X.cubes) {m : Int} {v : CKey →₀ F}
    (hv : v ∈ Finsupp.supported F F (TC 4 m σ)) : fourC a b α β (cbd v) = 0 := by
  refine fun_ext (f := (fourC a b α β).comp cbd) (g := 0) (fun k hk => ?_) hv
  obtain ⟨f, g, f', g', rfl⟩ : ∃ f g f' g', k = [f, g, f', g'] := by
    match k, hk.2.1 with
    | [f, g, f', g'], _ => exact ⟨f, g, f', g', rfl⟩
  have hX : ∀ x ∈ [f, g, f', g'], x ∈ X.cubes := fun x hx => X.faces σ hσ x (hk.1 x hx)
  have h2 : ∀ f g : Cube, bv F [f, g] ∈ Finsupp.supported F F (Len 2) := fun f g =>
    Finsupp.single_mem_supported F _ (show [f, g].length = 2 from rfl)
  rw [LinearMap.comp_apply, LinearMap.zero_apply, show bv F [f, g, f', g'] = cat (bv F [f, g]) (bv F [f', g']) by simp, bd_cat,
    map_add, fourC_cat (bd_len2 f g) (h2 _ _), fourC_cat (h2 _ _) (bd_len2 f' g'),
    evC_bd_zero hα hβ (hX f (by simp)) (hX g (by simp)), evC_bd_zero hα hβ (hX f' (by simp)) (hX g' (by simp))]
  simp

theorem cob_lin (φ : (CKey →₀ F) →ₗ[F] F) (H : Cube → (CKey →₀ F)) (c : Cube) :
    φ (lin H (cubeD c)) = cubeCoboundary (fun f => φ (H f)) c := by
  have := fun_cubeD (φ.comp (lin H)) c
  refine this.trans ?_
  unfold cubeCoboundary
  congr 1
  refine List.map_congr_left fun i _ => ?_
  simp

/-- Square of a cup product, in terms of the structure maps. -/
theorem cartan_wq (hα : IsCubeCocycle X a α) (hβ : IsCubeCocycle X b β) (d : Nat) : ∃ γ : Cube → F,
    ∀ σ ∈ X.cubes, pairC (wq 0 a α b β) (wq 0 a α b β) (cw d σ) =
      ∑ i ∈ Finset.range (d + 1), pairC (wq (d - i) a α a α) (wq i b β b β) (cw 0 σ) +
        cubeCoboundary γ σ := by
  obtain ⟨K, H, hK, hH, hb⟩ := cartan_homotopy d
  refine ⟨fun f => fourC a b α β (H f), fun σ hσ => ?_⟩
  have hi : Cu σ := cube_le hσ
  have h := congrArg (fourC a b α β) (hb σ hi)
  rw [fourC_bd hα hβ hσ (hH σ hi), map_add, map_add, map_add, map_add, fourC_sw (TS_length (hK σ hi)), CubeCoch.two_self, add_zero,
    cob_lin, fourC_Lh d hi, fourC_Rh d hi] at h
  generalize pairC (wq 0 a α b β) (wq 0 a α b β) (cw d σ) = x at h ⊢
  generalize (∑ i ∈ Finset.range (d + 1), _ : F) = y at h ⊢
  generalize cubeCoboundary (fun f => fourC a b α β (H f)) σ = z at h ⊢
  revert h
  revert x y z
  decide

theorem cup_degree (hσ : Cu σ) (h : wq 0 a α b β σ ≠ 0) : σ.count 2 = a + b := by
  by_contra hne
  exact h (wc_degree hσ (by omega))

theorem square_degree (hσ : Cu σ) {k : Nat} (hk : k ≤ a) (h : wq (a - k) a α a α σ ≠ 0) :
    σ.count 2 = a + k := by
  by_contra hne
  exact h (wc_degree hσ (by omega))

theorem square_vanish (hσ : Cu σ) {j : Nat} (hj : a < j) : wq j a α a α σ = 0 := by
  by_contra hne
  have h1 : σ.count 2 + j = a + a := by
    by_contra h; exact hne (wc_degree hσ h)
  exact hne (wc_large hσ (by omega))

theorem wc_conv (cv : Convention) (c : Cube) : wc cv 0 a α b β c = wq 0 a α b β c := by
  rw [wq, wc_splits, wc_splits]

end

end Comch.CubeCart

namespace Comch.Props
open Comch.Spec Comch.CubeCoch Elem CElem SurjComp SurjElem SurjMay CubCall
open CubeCart (Cu TC pairC pairC_single evC_pairC pairC_congr wq wc_conv w2_supp FC_cu cartan_wq)

variable {N : Nat} {X : CubeComplex N}

/-- The Cartan formula on cubical complexes: `Sq^s(α ∪ β) = Σ_{k ≤ s} Sq^k α ∪ Sq^{s-k} β` on cohomology classes, whichever
conventions the cup products are formed in. -/
theorem C120_cartan (cv cv' : Convention) {a b : Nat} {α β : Cube → ZMod 2} (hα : IsCubeCocycle X a α)
    (hβ : IsCubeCocycle X b β) (s m : Nat) :
    CubeCohomologous X m (cochain (cubeSquareValue s (a + b) (cochain (cubeCupValue cv 0 a α b β))))
      (fun c => ∑ k ∈ Finset.range (s + 1),
        cochain (cubeCupValue cv' 0 (a + k) (cochain (cubeSquareValue k a α))
          (b + (s - k)) (cochain (cubeSquareValue ((s - k : Nat) : Int) b β))) c) := by
  -- the terms on the right
  have hT : ∀ σ ∈ X.cubes, ∀ k ∈ Finset.range (s + 1),
      cochain (cubeCupValue cv' 0 (a + k) (cochain (cubeSquareValue k a α))
          (b + (s - k)) (cochain (cubeSquareValue ((s - k : Nat) : Int) b β))) σ =
      if k ≤ a ∧ s - k ≤ b then pairC (wq (a - k) a α a α) (wq (b - (s - k)) b β b β) (CubeCart.cw 0 σ)
      else 0 := by
    intro σ hσ k _
    have hi : Cu σ := cube_le hσ
    have hX : ∀ f, f ∈ FC σ → f ∈ X.cubes := fun f hf => X.faces σ hσ f hf
    have key : ∀ (q j : Nat) (γ : Cube → ZMod 2) (f : Cube), f ∈ FC σ →
        cochain (cubeSquareValue (j : Int) q γ) f = if j ≤ q then wq (q - j) q γ q γ f else 0 := by
      intro q j γ f hf
      rw [cochain_cube_square (hX f hf)]
      by_cases h : j ≤ q
      · rw [if_pos (by exact_mod_cast h), if_pos h, show ((q : Int) - j).toNat = q - j by omega]
      · rw [if_neg (by exact_mod_cast h), if_neg h]
    have hdeg : ∀ (q j : Nat) (γ : Cube → ZMod 2) (f : Cube), f ∈ FC σ →
        cochain (cubeSquareValue (j : Int) q γ) f ≠ 0 → f.count 2 = q + j := by
      intro q j γ f hf hne
      rw [key q j γ f hf] at hne
      split at hne
      · rename_i h
        exact CubeCart.square_degree (FC_cu hf) h hne
      · exact absurd rfl hne
    rw [cochain_cube_cup cv' hσ, wc_conv, ← CubeCart.wq_eq,
      evC_pairC (fun f hf => hdeg a k α f hf) (fun f hf => hdeg b (s - k) β f hf) (w2_supp hi)]
    by_cases h1 : k ≤ a
    · by_cases h3 : s - k ≤ b
      · rw [if_pos ⟨h1, h3⟩]
        exact pairC_congr (fun f hf => by rw [key a k α f hf, if_pos h1])
          (fun f hf => by rw [key b (s - k) β f hf, if_pos h3]) (w2_supp hi)
      · rw [if_neg (by tauto), pairC_congr (fun f hf => rfl) (fun f hf => by rw [key b (s - k) β f hf, if_neg h3]) (w2_supp hi)]
        refine fun_ext (f := pairC _ fun _ => 0) (g := 0) (fun k hk => ?_) (w2_supp (d := 0) hi)
        obtain ⟨f, g, rfl⟩ := List.length_eq_two.1 hk.2.1
        simp
    · rw [if_neg (by tauto), pairC_congr (fun f hf => by rw [key a k α f hf, if_neg h1]) (fun f hf => rfl) (w2_supp hi)]
      refine fun_ext (f := pairC (fun _ => 0) _) (g := 0) (fun k hk => ?_) (w2_supp (d := 0) hi)
      obtain ⟨f, g, rfl⟩ := List.length_eq_two.1 hk.2.1
      simp
  by_cases hs : s ≤ a + b
  · obtain ⟨γ, hγ⟩ := cartan_wq hα hβ (a + b - s)
    refine ⟨γ, fun σ hσ _ => ?_⟩
    have hi : Cu σ := cube_le hσ
    have hX : ∀ f, f ∈ FC σ → f ∈ X.cubes := fun f hf => X.faces σ hσ f hf
    beta_reduce
    rw [Finset.sum_congr rfl (hT σ hσ), cochain_cube_square hσ, if_pos (by exact_mod_cast hs),
      show (((a + b : Nat) : Int) - s).toNat = a + b - s by omega]
    have hcd : ∀ f, f ∈ FC σ → cochain (cubeCupValue cv 0 a α b β) f = wq 0 a α b β f :=
      fun f hf => by rw [cochain_cube_cup cv (hX f hf) 0 a b α β, wc_conv]
    rw [show ∀ φ ψ : Cube → ZMod 2, wc .mcClureSmith (a + b - s) (a + b) φ (a + b) ψ σ =
        evC (a + b) φ (a + b) ψ (CubeCart.cw (a + b - s) σ) from fun _ _ => rfl,
      evC_pairC (fun f hf hne => by rw [hcd f hf] at hne; exact CubeCart.cup_degree (FC_cu hf) hne)
      (fun f hf hne => by rw [hcd f hf] at hne; exact CubeCart.cup_degree (FC_cu hf) hne) (w2_supp hi),
      pairC_congr hcd hcd (w2_supp hi), hγ σ hσ]
    congr 1
    rw [← Finset.sum_filter]
    have hz : ∀ i ∈ Finset.range (a + b - s + 1), ¬ (i ≤ b ∧ a + b - s - i ≤ a) →
        pairC (wq (a + b - s - i) a α a α) (wq i b β b β) (CubeCart.cw 0 σ) = 0 := by
      intro i _ hne
      refine fun_ext (f := pairC _ _) (g := 0) (fun k hk => ?_) (w2_supp (d := 0) hi)
      obtain ⟨f, g, rfl⟩ := List.length_eq_two.1 hk.2.1
      rw [pairC_single, LinearMap.zero_apply, one_mul]
      by_cases h1 : i ≤ b
      · rw [CubeCart.square_vanish (FC_cu (hk.1 f (by simp))) (by omega), zero_mul]
      · rw [CubeCart.square_vanish (a := b) (FC_cu (hk.1 g (by simp))) (by omega), mul_zero]
    rw [← Finset.sum_filter_add_sum_filter_not (Finset.range (a + b - s + 1)) (fun i => i ≤ b ∧ a + b - s - i ≤ a),
      Finset.sum_eq_zero (s := Finset.filter (fun i => ¬ _) _) (fun i hi => hz i (Finset.mem_filter.1 hi).1 (Finset.mem_filter.1 hi).2),
      add_zero]
    refine Finset.sum_nbij' (fun i => i + s - b) (fun k => b + k - s) ?_ ?_ ?_ ?_ ?_
    · intro i hi
      simp only [Finset.mem_filter, Finset.mem_range] at hi ⊢
      omega
    · intro k hk
      simp only [Finset.mem_filter, Finset.mem_range] at hk ⊢
      omega
    · intro i hi
      simp only [Finset.mem_filter, Finset.mem_range] at hi
      omega
    · intro k hk
      simp only [Finset.mem_filter, Finset.mem_range] at hk
      omega
    · intro i hi
      simp only [Finset.mem_filter, Finset.mem_range] at hi
      rw [show a - (i + s - b) = a + b - s - i by omega, show b - (s - (i + s - b)) = i by omega]
  · refine ⟨fun _ => 0, fun σ hσ _ => ?_⟩
    beta_reduce
    rw [Finset.sum_congr rfl (hT σ hσ), cochain_cube_square hσ, if_neg (by exact_mod_cast hs), Finset.sum_eq_zero]
    · rw [cube_cob_zero, add_zero]
    · intro k hk
      have := Finset.mem_range.1 hk
      rw [if_neg (by omega)]

/-- Two cocycles of degree 1 on the 3-cube for which both terms of the formula for `Sq^1` are not zero as cochains. -/
def exCubeVertex : Cube → ZMod 2 := cubeCoboundary fun c => if c = [0, 0, 1] then 1 else 0

example : IsCubeCocycle (exCubeComplex 3) 1 exCubeVertex ∧ IsCubeCocycle (exCubeComplex 3) 1 exCubeCochain :=
  ⟨fun c _ _ => cube_cob_cob _ c, fun c _ _ => cube_cob_cob _ c⟩

example : ∀ k ∈ Finset.range 2, cochain (cubeCupValue .bergerFresse 0 (1 + k) (cochain (cubeSquareValue k 1 exCubeVertex))
    (1 + (1 - k)) (cochain (cubeSquareValue ((1 - k : Nat) : Int) 1 exCubeCochain))) [2, 2, 2] = 1 := by
  decide +kernel

end Comch.Props
