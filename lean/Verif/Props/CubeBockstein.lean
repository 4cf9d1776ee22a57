import Verif.Lib.CubeBock
import Verif.Props.CubeCartanFormula
import Verif.Spec.CubeBockstein

/-! # The Bockstein and Steenrod squares on cubical complexes: C122 -/

set_option linter.unusedSectionVars false

namespace Comch.CubeBock
open Comch.Spec Elem CElem SurjComp SurjElem IsPerm SurjMay CubCall CubeCoch CubeCart Comch.Props
open Contract (T)
open Finsupp (single)

variable {N : Nat} {X : CubeComplex N} {c : Cube} {a b q : Nat} {A B : Cube → Int}

/-! ### integral cochains -/

theorem funZ_cubeD (φ : (Cube →₀ Int) →ₗ[Int] Int) (c : Cube) : φ (cubeD c) = cubeCoboundaryZ (fun f => φ (bv Int f)) c := by
  unfold cubeCoboundaryZ
  induction c generalizing φ with
  | nil => simp [cubeD]
  | cons e c ih =>
    have h := ih (φ.comp (consV e))
    simp only [LinearMap.comp_apply, consV_single] at h
    rw [List.length_cons, List.range_succ_eq_map, List.map_cons, List.sum_cons, List.map_map, cubeD]
    by_cases he : e = 2
    · subst he
      rw [if_pos rfl, map_sub, map_sub, h]
      have : ((List.range c.length).map ((fun i => if (2 :: c).getD i 0 = 2 then (-1) ^ ((2 :: c).take i).count 2 *
          (φ (bv Int ((2 :: c).set i 1)) - φ (bv Int ((2 :: c).set i 0))) else 0) ∘ Nat.succ)) =
          (List.range c.length).map fun i => -1 * (if c.getD i 0 = 2 then (-1) ^ (c.take i).count 2 *
            (φ (bv Int (2 :: c.set i 1)) - φ (bv Int (2 :: c.set i 0))) else 0) := by
        refine List.map_congr_left fun i _ => ?_
        simp only [Function.comp, List.getD_cons_succ, List.take_succ_cons, List.count_cons_self, List.set_cons_succ]
        split
        · rw [pow_succ]; ring
        · ring
      rw [this, List.sum_map_mul_left]
      simp
      ring
    · rw [if_neg he, h]
      have : ((List.range c.length).map ((fun i => if (e :: c).getD i 0 = 2 then (-1) ^ ((e :: c).take i).count 2 *
          (φ (bv Int ((e :: c).set i 1)) - φ (bv Int ((e :: c).set i 0))) else 0) ∘ Nat.succ)) =
          (List.range c.length).map fun i => (if c.getD i 0 = 2 then (-1) ^ (c.take i).count 2 *
            (φ (bv Int (e :: c.set i 1)) - φ (bv Int (e :: c.set i 0))) else 0) := by
        refine List.map_congr_left fun i _ => ?_
        simp only [Function.comp, List.getD_cons_succ, List.take_succ_cons, List.count_cons_of_ne he, List.set_cons_succ]
      rw [this]
      simp [he]

theorem cobZ_eq (A : Cube → Int) (c : Cube) : cubeCoboundaryZ A c = Finsupp.linearCombination Int A (cubeD c) := by
  rw [funZ_cubeD]; simp

theorem cobZ_lin (φ : (CKey →₀ Int) →ₗ[Int] Int) (H : Cube → (CKey →₀ Int)) (c : Cube) :
    φ (lin H (cubeD c)) = cubeCoboundaryZ (fun f => φ (H f)) c := by
  have := funZ_cubeD (φ.comp (lin H)) c
  refine this.trans ?_
  simp

theorem cobZ_cobZ (A : Cube → Int) (c : Cube) : cubeCoboundaryZ (cubeCoboundaryZ A) c = 0 := by
  rw [cobZ_eq]
  have h : ∀ v : Cube →₀ Int, Finsupp.linearCombination Int (cubeCoboundaryZ A) v =
      Finsupp.linearCombination Int A (lin cubeD v) := by
    intro v
    induction v using Finsupp.induction_linear with
    | zero => simp
    | add f g hf hg => simp only [map_add, hf, hg]
    | single k t => rw [Finsupp.linearCombination_single, lin_single, map_smul, ← cobZ_eq]
  rw [h, cube_dd, map_zero]

theorem cobZ_add (A B : Cube → Int) (c : Cube) :
    cubeCoboundaryZ (fun f => A f + B f) c = cubeCoboundaryZ A c + cubeCoboundaryZ B c := by
  unfold cubeCoboundaryZ
  rw [← List.sum_map_add]
  congr 1
  exact List.map_congr_left fun i _ => by split <;> ring

theorem cobZ_mul (t : Int) (A : Cube → Int) (c : Cube) :
    cubeCoboundaryZ (fun f => t * A f) c = t * cubeCoboundaryZ A c := by
  unfold cubeCoboundaryZ
  rw [← List.sum_map_mul_left]
  congr 1
  exact List.map_congr_left fun i _ => by split <;> ring

theorem cobZ_zero (c : Cube) : cubeCoboundaryZ (fun _ => 0) c = 0 := by
  unfold cubeCoboundaryZ
  simp

theorem cast_cobZ (A : Cube → Int) (c : Cube) :
    ((cubeCoboundaryZ A c : Int) : F) = cubeCoboundary (fun f => ((A f : Int) : F)) c := by
  unfold cubeCoboundaryZ cubeCoboundary
  rw [Int.cast_list_sum, List.map_map]
  congr 1
  refine List.map_congr_left fun i _ => ?_
  simp only [Function.comp]
  split
  · have h1 : (-1 : F) = 1 := by decide
    push_cast
    rw [h1, one_pow, one_mul, sub_eq_add_neg, neg_id, add_comm]
  · simp

theorem cobZ_on {m : Nat} (hX : c ∈ X.cubes) (hm : c.count 2 = m + 1)
    (h : ∀ f ∈ X.cubes, f.count 2 = m → A f = B f) : cubeCoboundaryZ A c = cubeCoboundaryZ B c := by
  rw [cobZ_eq, cobZ_eq]
  have h0 := BElem.lin_ext_supported (R := Int) (M := Nat →₀ Int)
    (f := (Finsupp.lsingle 0).comp (Finsupp.linearCombination Int A))
    (g := (Finsupp.lsingle 0).comp (Finsupp.linearCombination Int B)) (fun k hk => by
      simp only [LinearMap.comp_apply, Finsupp.linearCombination_single, one_smul]
      rw [h k (X.faces c hX k hk.1) (by
        have := hk.2
        simp only [cdim, Cube.dimension] at this
        omega)]) (cubeD_FC c (cube_le hX))
  exact Finsupp.single_injective _ h0

/-! ### evaluation of integral cochains -/

/-- The value of a pair of integral cochains. -/
def tvZ (a : Nat) (A : Cube → Int) (b : Nat) (B : Cube → Int) : CKey → Int
  | [f, g] => if f.count 2 = a ∧ g.count 2 = b then A f * B g else 0
  | _ => 0

noncomputable def evZ (a : Nat) (A : Cube → Int) (b : Nat) (B : Cube → Int) : (CKey →₀ Int) →ₗ[Int] Int :=
  Finsupp.linearCombination Int (tvZ a A b B)

@[simp] theorem evZ_single (k : CKey) (e : Int) : evZ a A b B (single k e) = e * tvZ a A b B k := by simp [evZ]

theorem evZ_ext {S : Set CKey} {f g : (CKey →₀ Int) →ₗ[Int] Int} (h : ∀ m ∈ S, f (bv Int m) = g (bv Int m))
    {v : CKey →₀ Int} (hv : v ∈ Finsupp.supported Int Int S) : f v = g v := by
  have := BElem.lin_ext_supported (R := Int) (S := S) (f := (Finsupp.lsingle (0 : Nat)).comp f)
    (g := (Finsupp.lsingle (0 : Nat)).comp g) (fun m hm => by
      simp only [LinearMap.comp_apply]
      rw [h m hm]) hv
  simp only [LinearMap.comp_apply, Finsupp.lsingle_apply] at this
  exact Finsupp.single_injective _ this

theorem evZ_cast (v : CKey →₀ Int) : ((evZ a A b B v : Int) : F) =
    evC a (fun f => ((A f : Int) : F)) b (fun f => ((B f : Int) : F)) (castV F v) := by
  induction v using Finsupp.induction_linear with
  | zero => simp
  | add f g hf hg => simp only [map_add, Int.cast_add, hf, hg]
  | single k t =>
    rw [castV_single, evC_single, evZ_single, Int.cast_mul]
    congr 1
    unfold tvZ cubeTensorValue
    split
    · dsimp only
      split <;> simp only [Int.cast_mul, Int.cast_zero]
    · dsimp only
      simp

noncomputable def e1Z (a : Nat) (A : Cube → Int) : (Cube →₀ Int) →ₗ[Int] Int :=
  Finsupp.linearCombination Int fun f => if f.count 2 = a then A f else 0

@[simp] theorem e1Z_single (f : Cube) (e : Int) : e1Z a A (single f e) = e * if f.count 2 = a then A f else 0 := by simp [e1Z]

theorem e1Z_cubeD (a : Nat) (A : Cube → Int) {c : Cube} (hc : Cu c) :
    e1Z a A (cubeD c) = if c.count 2 = a + 1 then cubeCoboundaryZ A c else 0 := by
  have hd : ∀ k, k ∈ {f : Cube | f ∈ FC c ∧ cdim f = cdim c - 1} → (k.count 2 : Int) = c.count 2 - 1 := fun k hk => hk.2
  by_cases h : c.count 2 = a + 1
  · rw [if_pos h, cobZ_eq]
    have h0 := BElem.lin_ext_supported (R := Int) (M := Nat →₀ Int)
      (f := (Finsupp.lsingle 0).comp (e1Z a A))
      (g := (Finsupp.lsingle 0).comp (Finsupp.linearCombination Int A)) (fun k hk => by
        have := hd k hk
        simp only [LinearMap.comp_apply, Finsupp.linearCombination_single, one_smul, e1Z_single, one_mul]
        rw [if_pos (by omega)]) (cubeD_FC c hc)
    exact Finsupp.single_injective _ h0
  · rw [if_neg h]
    have h0 := BElem.lin_ext_supported (R := Int) (M := Nat →₀ Int)
      (f := (Finsupp.lsingle 0).comp (e1Z a A))
      (g := 0) (fun k hk => by
        have := hd k hk
        simp only [LinearMap.comp_apply, e1Z_single, one_mul, LinearMap.zero_apply]
        rw [if_neg (by omega)]; simp) (cubeD_FC c hc)
    rw [LinearMap.comp_apply, LinearMap.zero_apply] at h0
    exact Finsupp.single_eq_zero.1 h0

theorem evZ_cat (u v : Cube →₀ Int) : evZ a A b B (cat (one u) (one v)) = e1Z a A u * e1Z b B v := by
  induction u using Finsupp.induction_linear with
  | zero => simp
  | add f g hf hg => simp only [map_add, LinearMap.add_apply, hf, hg, add_mul]
  | single f s =>
    induction v using Finsupp.induction_linear with
    | zero => simp
    | add f g hf hg => simp only [map_add, hf, hg, mul_add]
    | single g t =>
      simp only [one, mapK_single, cat_single_single, List.singleton_append, evZ_single, e1Z_single, tvZ]
      by_cases h1 : f.count 2 = a <;> by_cases h2 : g.count 2 = b <;> simp [h1, h2]
      ring

/-- Evaluation on a boundary. -/
theorem evZ_bd {m : Int} {v : CKey →₀ Int} (hv : v ∈ Finsupp.supported Int Int (TC 2 m c)) :
    evZ a A b B (cbd v) = evZ (a + 1) (cubeCoboundaryZ A) b B v + (-1) ^ a * evZ a A (b + 1) (cubeCoboundaryZ B) v := by
  refine evZ_ext (f := (evZ a A b B).comp cbd) (g := evZ (a + 1) (cubeCoboundaryZ A) b B +
    (-1 : Int) ^ a • evZ a A (b + 1) (cubeCoboundaryZ B)) (fun m hm => ?_) hv
  obtain ⟨f, g, rfl⟩ := List.length_eq_two.1 hm.2.1
  have hf := FC_cu (hm.1 f (by simp))
  have hg := FC_cu (hm.1 g (by simp))
  have e1 : cbd (bv Int [f, g]) = cat (one (cubeD f)) (one (bv Int g)) +
      sg Int (cdim f) • cat (one (bv Int f)) (one (cubeD g)) := by
    rw [tens_single, one_smul, tensK, consV_eq_cat]
    simp [tensK, one]
  rw [LinearMap.comp_apply, e1, map_add, map_smul, evZ_cat, evZ_cat, e1Z_cubeD _ _ hf, e1Z_cubeD _ _ hg, LinearMap.add_apply,
    LinearMap.smul_apply, evZ_single, evZ_single]
  simp only [e1Z_single, tvZ, one_mul, smul_eq_mul]
  congr 1
  · by_cases h1 : f.count 2 = a + 1 <;> by_cases h2 : g.count 2 = b <;> simp [h1, h2]
  · by_cases h1 : f.count 2 = a
    · have : sg Int (cdim f) = (-1) ^ a := by
        rw [← sg_natCast, ← h1]; rfl
      rw [this]
      by_cases h2 : g.count 2 = b + 1 <;> simp [h1, h2]
    · simp [h1]

theorem evZ_tau {v : CKey →₀ Int} (hv : v ∈ Finsupp.supported Int Int (Len 2)) :
    evZ a A b B (tau v) = (-1) ^ (a * b) * evZ b B a A v := by
  refine evZ_ext (f := (evZ a A b B).comp tau) (g := (-1 : Int) ^ (a * b) • evZ b B a A) (fun m hm => ?_) hv
  obtain ⟨f, g, rfl⟩ := List.length_eq_two.1 hm
  rw [LinearMap.comp_apply, tau_two, map_smul, LinearMap.smul_apply, evZ_single, evZ_single]
  simp only [tvZ, one_mul, smul_eq_mul]
  by_cases h1 : f.count 2 = b
  · by_cases h2 : g.count 2 = a
    · have : sg Int (cdim f * cdim g) = (-1) ^ (a * b) := by
        rw [← sg_natCast, ← h1, ← h2]
        simp only [cdim, Cube.dimension]
        push_cast
        rw [mul_comm]
      rw [this]
      simp [h1, h2, mul_comm]
    · simp [h2]
  · simp [h1]

theorem evZ_congr {A' B' : Cube → Int} {m : Int} {v : CKey →₀ Int} (hX : c ∈ X.cubes)
    (h1 : ∀ f ∈ X.cubes, f.count 2 = a → A f = A' f) (h2 : ∀ f ∈ X.cubes, f.count 2 = b → B f = B' f)
    (hv : v ∈ Finsupp.supported Int Int (TC 2 m c)) : evZ a A b B v = evZ a A' b B' v := by
  refine evZ_ext (f := evZ a A b B) (g := evZ a A' b B') (fun m hm => ?_) hv
  obtain ⟨f, g, rfl⟩ := List.length_eq_two.1 hm.2.1
  rw [evZ_single, evZ_single]
  simp only [tvZ]
  split
  · rename_i h
    rw [h1 f (X.faces c hX f (hm.1 f (by simp))) h.1, h2 g (X.faces c hX g (hm.1 g (by simp))) h.2]
  · rfl

theorem evZ_mul_left (t : Int) (v : CKey →₀ Int) : evZ a (fun f => t * A f) b B v = t * evZ a A b B v := by
  induction v using Finsupp.induction_linear with
  | zero => simp
  | add f g hf hg => simp only [map_add, hf, hg, mul_add]
  | single k s =>
    rw [evZ_single, evZ_single]
    unfold tvZ
    split
    · split <;> ring
    · ring

theorem evZ_mul_right (t : Int) (v : CKey →₀ Int) : evZ a A b (fun f => t * B f) v = t * evZ a A b B v := by
  induction v using Finsupp.induction_linear with
  | zero => simp
  | add f g hf hg => simp only [map_add, hf, hg, mul_add]
  | single k s =>
    rw [evZ_single, evZ_single]
    unfold tvZ
    split
    · split <;> ring
    · ring

/-! ### the square of an integral cochain -/

variable {W : Nat → Cube → (CKey →₀ Int)}

theorem lift_square (hW : Fam2 W) (hB : ∀ c ∈ X.cubes, c.count 2 = q + 1 → cubeCoboundaryZ A c = 2 * B c) (D : Nat) (e : Int)
    (he : 1 + (-1) ^ D * (-1) ^ (q * q) = 2 * e) (hc : c ∈ X.cubes) :
    cubeCoboundaryZ (fun f => evZ q A q A (W D f)) c = 2 * ((-1) ^ D * (evZ (q + 1) B q A (W D c) +
      (-1) ^ q * evZ q A (q + 1) B (W D c) - if D = 0 then 0 else e * evZ q A q A (W (D - 1) c))) := by
  have hi : Cu c := cube_le hc
  have h1 : evZ q A q A (cbd (W D c)) = 2 * (evZ (q + 1) B q A (W D c) + (-1) ^ q * evZ q A (q + 1) B (W D c)) := by
    rw [evZ_bd (hW.supp D c hi), evZ_congr hc (fun f hf h => hB f hf h) (fun _ _ _ => rfl) (hW.supp D c hi),
      evZ_congr (B := cubeCoboundaryZ A) hc (fun _ _ _ => rfl) (fun f hf h => hB f hf h) (hW.supp D c hi), evZ_mul_left,
      evZ_mul_right]
    ring
  have h2 : ((-1 : Int) ^ D) * (-1) ^ D = 1 := by rw [← mul_pow]; simp
  rw [← cobZ_lin]
  cases D with
  | zero =>
    rw [← hW.zero c hi, h1]
    simp
  | succ D =>
    have h3 := congrArg (evZ q A q A) (hW.succ D c hi)
    have h4 : sg Int ((D : Int) + 1) = (-1) ^ (D + 1) := by rw [← sg_natCast]; push_cast; rfl
    rw [h1, map_add, map_add, map_smul, map_smul, evZ_tau (TC_len (hW.supp D c hi)), h4] at h3
    simp only [smul_eq_mul] at h3
    rw [if_neg (by omega), Nat.add_sub_cancel]
    generalize evZ q A q A (lin (W (D + 1)) (cubeD c)) = z at h3 ⊢
    generalize evZ q A q A (W D c) = w at h3 ⊢
    generalize evZ (q + 1) B q A (W (D + 1) c) = x at h3 ⊢
    generalize evZ q A (q + 1) B (W (D + 1) c) = y at h3 ⊢
    generalize (-1 : Int) ^ (D + 1) = s at *
    linear_combination (-1 * z) * h2 - s * h3 - s * w * he

/-- Families modulo 2 compute the products of the package on a cocycle. -/
theorem fam_square {V : Nat → Cube → (CKey →₀ F)} (hV : Fam2 V) {α : Cube → F} (hα : IsCubeCocycle X q α) (d : Nat) :
    ∃ γ : Cube → F, ∀ c ∈ X.cubes, evC q α q α (V d c) = wq d q α q α c + cubeCoboundary γ c := by
  obtain ⟨K, H, hK, hH, hb⟩ := fam_homotopy hV fam_cw d
  refine ⟨fun f => evC q α q α (H f), fun c hc => ?_⟩
  have hi : Cu c := cube_le hc
  have h := congrArg (evC q α q α) (hb c hi)
  have h0 : evC q α q α (cbd (H c)) = 0 := by
    refine fun_ext (f := (evC q α q α).comp cbd) (g := 0) (fun k hk => ?_) (hH c hi)
    obtain ⟨f, g, rfl⟩ := List.length_eq_two.1 hk.2.1
    rw [LinearMap.comp_apply, LinearMap.zero_apply, evC_bd_zero hα hα (X.faces c hc f (hk.1 f (by simp)))
      (X.faces c hc g (hk.1 g (by simp)))]
  rw [h0, map_add, map_add, map_add, map_add, tau_pm, ← pm_sw_eq (TC_len (hK c hi)), evC_sw (TC_len (hK c hi)),
    CubeCoch.two_self, add_zero, CubeCart.cob_lin, wq_eq] at h
  generalize evC q α q α (V d c) = x at h ⊢
  generalize wq d q α q α c = y at h ⊢
  generalize cubeCoboundary (fun f => evC q α q α (H f)) c = z at h ⊢
  revert h
  revert x y z
  decide

/-- The products of two cocycles commute up to coboundaries. -/
theorem fam_comm {V : Nat → Cube → (CKey →₀ F)} (hV : Fam2 V) {α β : Cube → F} (hα : IsCubeCocycle X a α)
    (hβ : IsCubeCocycle X b β) (d : Nat) :
    ∃ γ : Cube → F, ∀ c ∈ X.cubes, evC a α b β (V d c) + evC b β a α (V d c) = cubeCoboundary γ c := by
  refine ⟨fun f => evC a α b β (V (d + 1) f), fun c hc => ?_⟩
  have hi : Cu c := cube_le hc
  have h := congrArg (evC a α b β) (hV.succ d c hi)
  have h0 : evC a α b β (cbd (V (d + 1) c)) = 0 := by
    refine fun_ext (f := (evC a α b β).comp cbd) (g := 0) (fun k hk => ?_) (hV.supp (d + 1) c hi)
    obtain ⟨f, g, rfl⟩ := List.length_eq_two.1 hk.2.1
    rw [LinearMap.comp_apply, LinearMap.zero_apply, evC_bd_zero hα hβ (X.faces c hc f (hk.1 f (by simp)))
      (X.faces c hc g (hk.1 g (by simp)))]
  rw [h0, sg_two, one_smul, one_smul, map_add, map_add, tau_pm, ← pm_sw_eq (TC_len (hV.supp d c hi)),
    evC_sw (TC_len (hV.supp d c hi)), CubeCart.cob_lin] at h
  generalize evC a α b β (V d c) = x at h ⊢
  generalize evC b β a α (V d c) = y at h ⊢
  generalize cubeCoboundary (fun f => evC a α b β (V (d + 1) f)) c = z at h ⊢
  revert h
  revert x y z
  decide

end Comch.CubeBock

namespace Comch.Props
open Comch.Spec Comch.CubeCoch Comch.CubeBock Elem CElem SurjComp SurjElem SurjMay CubCall
open CubeCart (Cu wq)

variable {N : Nat} {X : CubeComplex N} {m q : Nat} {s : Int}

/-- The integral coboundary is dual to the boundary of the package: `(δA)(c)` is the value of `A` on
`CubicalElement({(c,): 1}).boundary()`. -/
theorem C122_coboundary (A : Cube → Int) (c : Cube) : ∃ u, CElem.boundary (Elem.new cubical [([c], 1)]) = .ok u ∧
    cubeCoboundaryZ A c = cubeEvalZ A u := by
  obtain ⟨u, eu⟩ : ∃ u, CElem.boundary (Elem.new cubical [([c], 1)]) = .ok u := ⟨_, boundary_eq _⟩
  refine ⟨u, eu, ?_⟩
  have hd : (Elem.new cubical [([c], 1)]).data = [([c], 1)] := by
    simp [Elem.new, preferredRep, zeroDropped, basePreferredRep, cubical]
  have h := den_cboundary (n := 0) eu rfl
  rw [hd] at h
  have h' : den Int u.data = cubicalD (den Int [([c], (1 : Int))]) := h
  have e1 : cubicalD (den Int [([c], (1 : Int))]) = one (cubeD c) := by
    simp [cubicalD, tensK]
  let φ : (CKey →₀ Int) →ₗ[Int] Int := Finsupp.linearCombination Int fun k => match k with
    | [f] => A f
    | _ => 0
  have h2 : cubeEvalZ A u = φ (den Int u.data) := by
    unfold cubeEvalZ
    induction u.data with
    | nil => simp
    | cons p l ih => rw [List.map_cons, List.sum_cons, ih, den_cons, map_add]; simp [φ]; exact Or.inl rfl
  rw [h2, h', e1]
  have := funZ_cubeD (φ.comp one) c
  refine Eq.trans ?_ this.symm
  simp [φ, one]

/-- Every cocycle has a Bockstein. -/
theorem C122_exists {α : Cube → ZMod 2} (hα : IsCubeCocycle X m α) : ∃ β, IsCubeBockstein X m α β := by
  have hc : ∀ τ, (((α τ).val : Int) : ZMod 2) = α τ := fun τ => by simp
  refine ⟨fun c => ((cubeCoboundaryZ (fun τ => ((α τ).val : Int)) c / 2 : Int) : ZMod 2), fun τ => (α τ).val,
    fun c => cubeCoboundaryZ (fun τ => ((α τ).val : Int)) c / 2, fun c _ _ => hc c, fun c hX hl => ⟨?_, rfl⟩⟩
  refine (Int.mul_ediv_cancel' ?_).symm
  rw [show (2 : Int) = ((2 : Nat) : Int) from rfl, ← ZMod.intCast_zmod_eq_zero_iff_dvd, cast_cobZ]
  rw [show (fun τ => (((α τ).val : Int) : ZMod 2)) = α from funext hc]
  exact hα c hX hl

/-- The Bockstein of a class is well defined. -/
theorem C122_unique {α α' β β' : Cube → ZMod 2} (h : CubeCohomologous X m α α') (hb : IsCubeBockstein X m α β)
    (hb' : IsCubeBockstein X m α' β') : CubeCohomologous X (m + 1) β β' := by
  obtain ⟨γ, hγ⟩ := h
  obtain ⟨A, B, hA, hB⟩ := hb
  obtain ⟨A', B', hA', hB'⟩ := hb'
  let G : Cube → Int := fun τ => ((γ τ).val : Int)
  have hG : (fun τ => ((G τ : Int) : ZMod 2)) = γ := funext fun τ => by simp [G]
  let D : Cube → Int := fun τ => (A τ - A' τ - cubeCoboundaryZ G τ) / 2
  have hD : ∀ τ ∈ X.cubes, τ.count 2 = m → A τ = A' τ + (cubeCoboundaryZ G τ + 2 * D τ) := by
    intro τ hτ hl
    have hd : (2 : Int) ∣ A τ - A' τ - cubeCoboundaryZ G τ := by
      rw [show (2 : Int) = ((2 : Nat) : Int) from rfl, ← ZMod.intCast_zmod_eq_zero_iff_dvd, Int.cast_sub, Int.cast_sub,
        hA τ hτ hl, hA' τ hτ hl, cast_cobZ, hG, hγ τ hτ hl]
      ring
    have := Int.mul_ediv_cancel' hd
    simp only [D]
    rw [this]
    ring
  refine ⟨fun τ => ((D τ : Int) : ZMod 2), fun c hc hl => ?_⟩
  have h1 := cobZ_on hc hl hD
  rw [cobZ_add, cobZ_add, cobZ_cobZ, zero_add, cobZ_mul, (hB c hc hl).1, (hB' c hc hl).1, ← mul_add] at h1
  rw [← (hB c hc hl).2, ← (hB' c hc hl).2, ← cast_cobZ, mul_left_cancel₀ (by norm_num) h1, Int.cast_add]

/-- The Bockstein of a cochain is a cocycle. -/
theorem C122_cocycle {α β : Cube → ZMod 2} (hb : IsCubeBockstein X m α β) : IsCubeCocycle X (m + 1) β := by
  obtain ⟨A, B, -, hB⟩ := hb
  intro c hc hl
  rw [cube_cob_on hc fun f hf h => ((hB f hf (by omega)).2).symm, ← cast_cobZ]
  have h1 : cubeCoboundaryZ (cubeCoboundaryZ A) c = cubeCoboundaryZ (fun τ => 2 * B τ) c :=
    cobZ_on hc hl fun f hf h => (hB f hf h).1
  rw [cobZ_cobZ, cobZ_mul] at h1
  rw [(mul_eq_zero.1 h1.symm).resolve_left (by norm_num), Int.cast_zero]

/-- The Bockstein of `Sq^s`. -/
theorem cube_bockstein_square {α : Cube → ZMod 2} (hα : IsCubeCocycle X q α) {β : Cube → ZMod 2}
    (hb : IsCubeBockstein X m (cochain (cubeSquareValue s q α)) β) :
    CubeCohomologous X (m + 1) β (fun c => if s % 2 = 0 then cochain (cubeSquareValue (s + 1) q α) c else 0) := by
  by_cases hs : s ≤ q
  · set D := (q - s).toNat with hD
    let A : Cube → Int := fun τ => (α τ).val
    have hA : (fun τ => ((A τ : Int) : ZMod 2)) = α := funext fun τ => by simp [A]
    let B : Cube → Int := fun c => cubeCoboundaryZ A c / 2
    have hB : ∀ c ∈ X.cubes, c.count 2 = q + 1 → cubeCoboundaryZ A c = 2 * B c := by
      intro c hc hl
      refine (Int.mul_ediv_cancel' ?_).symm
      rw [show (2 : Int) = ((2 : Nat) : Int) from rfl, ← ZMod.intCast_zmod_eq_zero_iff_dvd, cast_cobZ, hA]
      exact hα c hc hl
    have hβ : IsCubeCocycle X (q + 1) (fun τ => ((B τ : Int) : ZMod 2)) :=
      C122_cocycle (α := α) ⟨A, B, fun c _ _ => congrFun hA c, fun c hc hl => ⟨hB c hc hl, rfl⟩⟩
    have hpar : (1 + (-1 : Int) ^ D * (-1) ^ (q * q)) = 2 * (if s % 2 = 0 then 1 else 0) := by
      rw [← pow_add, neg_one_pow_eq_pow_mod_two]
      have hq : q * q % 2 = q % 2 := by
        rcases Nat.mod_two_eq_zero_or_one q with h | h <;> simp [Nat.mul_mod, h]
      split
      · rw [show (D + q * q) % 2 = 0 by omega]; norm_num
      · rw [show (D + q * q) % 2 = 1 by omega]; norm_num
    obtain ⟨W, hW, -⟩ := exists_fam (R := Int)
    have hV := fam_cast (R := ZMod 2) hW
    obtain ⟨γ, hγ⟩ := fam_square hV hα D
    obtain ⟨γ', hγ'⟩ := fam_square hV hα (D - 1)
    obtain ⟨ε, hε⟩ := fam_comm hV hβ hα D
    have hm1 : (-1 : ZMod 2) = 1 := by decide
    have hE := C122_unique (α := cochain (cubeSquareValue s q α))
      (α' := fun c => ((evZ q A q A (W D c) : Int) : ZMod 2)) ⟨γ, fun c hc _ => by
        beta_reduce
        rw [cochain_cube_square hc, if_pos hs, evZ_cast, hA, hγ c hc, add_assoc, CubeCoch.two_self, add_zero]⟩ hb
      ⟨fun c => evZ q A q A (W D c), _, fun c _ _ => rfl, fun c hc _ => ⟨lift_square hW hB D _ hpar hc, rfl⟩⟩
    obtain ⟨θ, hθ⟩ := hE
    refine ⟨fun f => θ f + (ε f + if D = 0 then 0 else if s % 2 = 0 then γ' f else 0), fun c hc hl => ?_⟩
    have hneg : ∀ t : ZMod 2, -t = t := by decide
    rw [hθ c hc hl, cube_cob_add, cube_cob_add]
    push_cast
    rw [hm1, one_pow, one_pow, one_mul, one_mul, evZ_cast, evZ_cast, hA, hε c hc, sub_eq_add_neg, hneg]
    have key : ((if D = 0 then (0 : Int) else (if s % 2 = 0 then 1 else 0) * evZ q A q A (W (D - 1) c) : Int) : ZMod 2) =
        (if s % 2 = 0 then cochain (cubeSquareValue (s + 1) q α) c else 0) +
          cubeCoboundary (fun f => if D = 0 then 0 else if s % 2 = 0 then γ' f else 0) c := by
      rw [cochain_cube_square hc]
      by_cases h0 : D = 0
      · simp only [if_pos h0, cube_cob_zero]
        rw [if_neg (show ¬ (s + 1 ≤ q) by omega)]
        simp
      · simp only [if_neg h0]
        rw [if_pos (show s + 1 ≤ q by omega), show ((q : Int) - (s + 1)).toNat = D - 1 by omega]
        by_cases h2 : s % 2 = 0
        · simp only [if_pos h2, one_mul]
          rw [evZ_cast, hA, hγ' c hc]
        · simp only [if_neg h2, zero_mul, cube_cob_zero]
          simp
    have key' := key
    push_cast at key'
    rw [key']
    ring
  · refine C122_unique ⟨fun _ => 0, fun c _ _ => by rw [cube_cob_zero, add_zero]⟩ hb
      ⟨fun _ => 0, fun _ => 0, fun c hc _ => ?_, fun c hc _ => ⟨by rw [cobZ_zero]; simp, ?_⟩⟩
    · rw [cochain_cube_square hc, if_neg hs, Int.cast_zero]
    · beta_reduce
      rw [cochain_cube_square hc, if_neg (show ¬ (s + 1 ≤ q) by omega), ite_self, Int.cast_zero]

/-- The Bockstein of `Sq^s` is `Sq^{s+1}` for even `s`. -/
theorem C122_square_even (hs : s % 2 = 0) {α : Cube → ZMod 2} (hα : IsCubeCocycle X q α) {β : Cube → ZMod 2}
    (hb : IsCubeBockstein X m (cochain (cubeSquareValue s q α)) β) :
    CubeCohomologous X (m + 1) β (cochain (cubeSquareValue (s + 1) q α)) := by
  have := cube_bockstein_square hα hb
  simpa only [hs, if_true] using this

/-- The Bockstein of `Sq^s` vanishes for odd `s`. -/
theorem C122_square_odd (hs : s % 2 = 1) {α : Cube → ZMod 2} (hα : IsCubeCocycle X q α) {β : Cube → ZMod 2}
    (hb : IsCubeBockstein X m (cochain (cubeSquareValue s q α)) β) :
    CubeCohomologous X (m + 1) β (fun _ => 0) := by
  have := cube_bockstein_square hα hb
  rwa [show (fun c => if s % 2 = 0 then cochain (cubeSquareValue (s + 1) q α) c else (0 : ZMod 2)) = fun _ => 0 from
    funext fun c => if_neg (by omega)] at this

/-- `Sq^1` is the Bockstein. -/
theorem C122_square_one {α : Cube → ZMod 2} (hα : IsCubeCocycle X q α) {β : Cube → ZMod 2}
    (hb : IsCubeBockstein X q α β) : CubeCohomologous X (q + 1) β (cochain (cubeSquareValue 1 q α)) := by
  refine C122_square_even (s := 0) rfl hα ?_
  obtain ⟨A, B, h1, h2⟩ := hb
  refine ⟨A, B, fun c hc hl => ?_, h2⟩
  rw [h1 c hc hl, cochain_cube_square hc, if_pos (by omega), show ((q : Int) - 0).toNat = q by omega, wc_top q (cube_le hc) hl]

/-! ### cases that meet the hypotheses: the barycentric cubes of the projective plane with six vertices -/

/-- Triangles of the projective plane. -/
def exCubeTriangles : List (List Nat) :=
  [[0, 1, 2], [0, 2, 3], [0, 3, 4], [0, 4, 5], [0, 1, 5], [1, 2, 4], [2, 3, 5], [1, 3, 4], [2, 4, 5], [1, 3, 5]]

/-- The face of the 6-cube given by an edge from a vertex to a triangle in the face order: `1` at the vertex, an interval
at the other vertices of the triangle. -/
def exCubeSquares : List Cube :=
  (exCubeTriangles.flatMap fun t => t.map fun v => (List.range 6).map fun i => if i = v then 1 else if i ∈ t then 2 else 0)

def exCubePlane : CubeComplex 6 where
  cubes := {c | ∃ t ∈ exCubeSquares, IsFaceOf c t}
  isCube := by
    rintro c ⟨t, ht, h⟩
    have h6 : ∀ t ∈ exCubeSquares, t.length = 6 := by decide
    refine ⟨by rw [h.length_eq, h6 t ht], fc_le h⟩
  faces := fun c ⟨t, ht, h⟩ f hf => ⟨t, ht, fc_trans hf h⟩

theorem exCubePlane_top {c : Cube} (hc : c ∈ exCubePlane.cubes) (hl : c.count 2 = 2) : c ∈ exCubeSquares := by
  obtain ⟨t, ht, h⟩ := hc
  have h2 : ∀ t ∈ exCubeSquares, t.count 2 = 2 := by decide
  rw [fc_count_eq h (by rw [hl, h2 t ht])]
  exact ht

/-- An integral cochain whose reduction modulo 2 is the non-trivial class of degree 1: an edge from a simplex to a larger
one with another first vertex gets the value of the simplicial class on the two first vertices. -/
def exCubeLift (c : Cube) : Int :=
  if [c.findIdx (· ≠ 0), c.findIdx (· = 1)] ∈ [[0, 2], [0, 3], [1, 2], [1, 4], [3, 4]] then 1 else 0

def exCubeQuotient (c : Cube) : Int := cubeCoboundaryZ exCubeLift c / 2

example : IsCubeCocycle exCubePlane 1 (fun c => ((exCubeLift c : Int) : ZMod 2)) := by
  intro c hc hl
  have : ∀ t ∈ exCubeSquares, cubeCoboundary (fun c => ((exCubeLift c : Int) : ZMod 2)) t = 0 := by decide +kernel
  exact this c (exCubePlane_top hc hl)

example : IsCubeBockstein exCubePlane 1 (fun c => ((exCubeLift c : Int) : ZMod 2)) (fun c => ((exCubeQuotient c : Int) : ZMod 2)) := by
  refine ⟨exCubeLift, exCubeQuotient, fun _ _ _ => rfl, fun c hc hl => ⟨?_, rfl⟩⟩
  have : ∀ t ∈ exCubeSquares, cubeCoboundaryZ exCubeLift t = 2 * exCubeQuotient t := by decide +kernel
  exact this c (exCubePlane_top hc hl)

def exCubeEdges (c : Cube) : List Cube :=
  (List.range c.length).flatMap fun i => if c.getD i 0 = 2 then [c.set i 0, c.set i 1] else []

theorem cube_cob_edges (γ : Cube → ZMod 2) (c : Cube) : cubeCoboundary γ c = ((exCubeEdges c).map γ).sum := by
  unfold cubeCoboundary exCubeEdges
  induction List.range c.length with
  | nil => rfl
  | cons i l ih =>
    rw [List.map_cons, List.sum_cons, ih, List.flatMap_cons, List.map_append, List.sum_append]
    congr 1
    split <;> simp

/-- The sum over all squares vanishes on coboundaries: every edge is on two squares. -/
theorem exCubePlane_sum (γ : Cube → ZMod 2) : (exCubeSquares.map (cubeCoboundary γ)).sum = 0 := by
  have h : (exCubeSquares.flatMap exCubeEdges).Perm
      ((exCubeSquares.flatMap exCubeEdges).dedup ++ (exCubeSquares.flatMap exCubeEdges).dedup) := by decide +kernel
  have h1 : ∀ l : List Cube, (l.map (cubeCoboundary γ)).sum = ((l.flatMap exCubeEdges).map γ).sum := by
    intro l
    induction l with
    | nil => rfl
    | cons c l ih => rw [List.map_cons, List.sum_cons, ih, List.flatMap_cons, List.map_append, List.sum_append, cube_cob_edges]
  rw [h1, (h.map γ).sum_eq, List.map_append, List.sum_append, CubeCoch.two_self]

/-- The sum over all squares tells that neither this Bockstein nor `Sq^1` is a coboundary. -/
example : (exCubeSquares.map fun c => ((exCubeQuotient c : Int) : ZMod 2)).sum = 1 ∧
    (exCubeSquares.map (cochain (cubeSquareValue 1 1 fun c => ((exCubeLift c : Int) : ZMod 2)))).sum = 1 := by
  decide +kernel

end Comch.Props
