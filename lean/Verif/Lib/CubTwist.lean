import Verif.Lib.CubCallAct
import Verif.Lib.CubCartan
import Verif.Lib.AtDeg

/-! # Surjections acting on cubes, with signs -/

set_option linter.unusedSectionVars false

namespace Comch.CubTwist
open Finsupp (single)
open Comch.Join Serre SurjComp CubCall

variable {R : Type} [CommRing R]

theorem h22 : (2 : ZMod 2) = 0 := by decide

/-- Degree of a cube after suspension. -/
def del (a : Cube) : Int := cdim a + 1

/-- Total suspended degree. -/
def Dl (g : CKey) : Int := (g.map del).sum

@[simp] theorem Dl_nil : Dl [] = 0 := rfl
@[simp] theorem Dl_cons (a : Cube) (g : CKey) : Dl (a :: g) = del a + Dl g := by simp [Dl]
@[simp] theorem Dl_append (g h : CKey) : Dl (g ++ h) = Dl g + Dl h := by simp [Dl]

section Th
variable (θ : Cube → (CKey →₀ R))

noncomputable def thK : CKey → (CKey →₀ R)
  | [] => 0
  | a :: L => cat (θ a) (bv R L) + sg R (del a) • consV a (thK L)

noncomputable def thT : List CKey → (List CKey →₀ R)
  | [] => 0
  | g :: G => cat (one (thK θ g)) (bv R G) + sg R (Dl g) • consV g (thT G)

noncomputable def thS : List CKey → (List CKey →₀ R)
  | [] => 0
  | g :: G => cat (one (thK θ g)) (bv R G) + sg R (Dl g - 1) • consV g (thS G)

noncomputable def thW : List (Nat × Cube) → (List (Nat × Cube) →₀ R)
  | [] => 0
  | p :: W => mapK (fun w : CKey => w.map (fun a => (p.1, a)) ++ W) (θ p.2) + sg R (del p.2) • consV p (thW W)

variable {θ}

theorem thK_supp (hθ : ∀ a, θ a ∈ Finsupp.supported R R {w | Dl w = del a - 1}) (g : CKey) :
    thK θ g ∈ Finsupp.supported R R {w | Dl w = Dl g - 1} := by
  induction g with
  | nil => simp [thK]
  | cons a g ih =>
    rw [thK]
    refine Submodule.add_mem _ ?_ (Submodule.smul_mem _ _ ?_)
    · rw [cat_bv_right]
      refine mapK_supported (T := {w : CKey | Dl w = Dl (a :: g) - 1}) _ (fun w hw => ?_) (hθ a)
      have hw : Dl w = del a - 1 := hw
      show Dl (w ++ g) = Dl (a :: g) - 1
      rw [Dl_append, Dl_cons, hw]; ring
    · refine mapK_supported (T := {w : CKey | Dl w = Dl (a :: g) - 1}) _ (fun w hw => ?_) ih
      have hw : Dl w = Dl g - 1 := hw
      show Dl (a :: w) = Dl (a :: g) - 1
      rw [Dl_cons, Dl_cons, hw]; ring

/-- Total degree of the first `i` groups. -/
def lowG (i : Nat) (G : List CKey) : Int := ((G.take i).map Dl).sum

@[simp] theorem lowG_zero (G : List CKey) : lowG 0 G = 0 := by simp [lowG]
@[simp] theorem lowG_succ (i : Nat) (g : CKey) (G : List CKey) : lowG (i + 1) (g :: G) = Dl g + lowG i G := by
  simp [lowG]

/-- Insertion at the head of a group, with the sign of moving past the earlier groups. -/
noncomputable def ins (a : Cube) (i : Nat) (G : List CKey) : List CKey →₀ R :=
  sg R (del a * lowG i G) • bv R (G.modify i (a :: ·))

theorem lin_ins_consV (a : Cube) (i : Nat) (g : CKey) (v : List CKey →₀ R) :
    lin (ins a (i + 1)) (consV g v) = sg R (del a * Dl g) • consV g (lin (ins a i) v) := by
  induction v using Finsupp.induction_linear with
  | zero => simp
  | add f g hf hg => simp only [map_add, hf, hg, smul_add]
  | single G r =>
    rw [consV_single, lin_single, lin_single, ins, ins, lowG_succ, mul_add, sg_add, List.modify_succ_cons]
    simp only [map_smul, consV_single, smul_smul]
    congr 1; ring

theorem lin_ins_one (a : Cube) (i : Nat) {u : CKey →₀ R} {d : Int} (hu : u ∈ Finsupp.supported R R {w | Dl w = d})
    (G : List CKey) :
    lin (ins a (i + 1)) (cat (one u) (bv R G)) = sg R (del a * (d + lowG i G)) • cat (one u) (bv R (G.modify i (a :: ·))) := by
  rw [cat_one_bv, cat_one_bv]
  have := BElem.lin_ext_supported (R := R)
    (f := (lin (ins (R := R) a (i + 1))).comp (mapK fun g => g :: G))
    (g := sg R (del a * (d + lowG i G)) • mapK fun g => g :: G.modify i (a :: ·))
    (fun w hw => by
      have hw : Dl w = d := hw
      simp only [LinearMap.comp_apply, LinearMap.smul_apply, mapK_single, lin_single, one_smul, ins, lowG_succ, hw,
        List.modify_succ_cons]) hu
  simpa using this

theorem lin_ins_zero (a : Cube) (v : List CKey →₀ R) :
    lin (ins a 0) v = mapK (fun G => G.modify 0 (a :: ·)) v := by
  induction v using Finsupp.induction_linear with
  | zero => simp
  | add f g hf hg => simp only [map_add, hf, hg]
  | single G r => simp [ins]

theorem thT_modify (hθ : ∀ a, θ a ∈ Finsupp.supported R R {w | Dl w = del a - 1}) (a : Cube) (G : List CKey) (i : Nat)
    (hi : i < G.length) :
    thT θ (G.modify i (a :: ·)) = sg R (lowG i G) • mapK (fun w => G.modify i (w ++ ·)) (θ a) +
      sg R (del a * (lowG i G + 1)) • lin (ins a i) (thT θ G) := by
  induction G generalizing i with
  | nil => simp at hi
  | cons g G ih =>
    cases i with
    | zero =>
      rw [lin_ins_zero]
      simp only [List.modify_zero_cons, thT, thK, cat_one_bv, lowG_zero, zero_add, mul_one, sg_zero, one_smul]
      simp only [map_add, map_smul, consV_mapK, mapK_mapK', cat_bv_right, List.modify_zero_cons, smul_add, smul_smul, Dl_cons,
        sg_add]
      abel
    | succ i =>
      have hK := thK_supp hθ g
      simp only [List.modify_succ_cons, thT, ih i (by simpa using hi), map_add, map_smul, lin_ins_consV,
        lin_ins_one a i hK, lowG_succ, smul_add, smul_smul]
      have e1 : sg R (del a * (Dl g + lowG i G + 1)) * sg R (del a * (Dl g - 1 + lowG i G)) = 1 := by
        rw [← sg_add, ← sg_zero (R := R)]
        apply sg_eq_of_zmod
        push_cast
        linear_combination ((del a : ZMod 2) * (Dl g + lowG i G)) * h22
      have e2 : sg R (Dl g) * sg R (del a * (lowG i G + 1)) =
          sg R (del a * (Dl g + lowG i G + 1)) * (sg R (Dl g) * sg R (del a * Dl g)) := by
        rw [← sg_add, ← sg_add, ← sg_add]
        apply sg_eq_of_zmod
        push_cast
        linear_combination (-(del a : ZMod 2) * Dl g) * h22
      rw [e1, one_smul, e2, sg_add]
      simp only [consV_mapK, mapK_mapK']
      abel

/-- Total degree of the entries with label smaller than `x`. -/
def lowW (x : Nat) (W : List (Nat × Cube)) : Int := ((W.filter fun p => p.1 < x).map fun p => del p.2).sum

theorem lowW_cons (x : Nat) (p : Nat × Cube) (W : List (Nat × Cube)) :
    lowW x (p :: W) = (if p.1 < x then del p.2 else 0) + lowW x W := by
  unfold lowW
  rw [List.filter_cons]
  by_cases h : p.1 < x <;> simp [h]

theorem lowG_modify (a : Cube) (G : List CKey) (i j : Nat) (hj : j < G.length) :
    lowG i (G.modify j (a :: ·)) = (if j < i then del a else 0) + lowG i G := by
  induction G generalizing i j with
  | nil => simp at hj
  | cons g G ih =>
    cases i with
    | zero => simp
    | succ i =>
      cases j with
      | zero => simp [add_assoc]
      | succ j =>
        rw [List.modify_succ_cons, lowG_succ, lowG_succ, ih i j (by simpa using hj)]
        simp only [Nat.add_lt_add_iff_right]
        ring

theorem lowG_gam {r x : Nat} {W : List (Nat × Cube)} (hW : ∀ p ∈ W, 1 ≤ p.1 ∧ p.1 ≤ r) (hx : 1 ≤ x) :
    lowG (x - 1) (gam r W) = lowW x W := by
  induction W with
  | nil =>
    have : ∀ (l : List Nat), (l.map fun _ => (0 : Int)).sum = 0 := fun l => by simp
    unfold lowG gam lowW
    simp [List.map_take, List.map_map, Function.comp_def]
  | cons p W ih =>
    have hp := hW p (by simp)
    rw [gam_cons hp.1, lowG_modify _ _ _ _ (by rw [length_gam]; omega), ih fun q hq => hW q (by simp [hq]), lowW_cons]
    have : p.1 - 1 < x - 1 ↔ p.1 < x := by omega
    simp only [this]

/-- The Koszul sign of sorting. -/
def kosW : List (Nat × Cube) → Int
  | [] => 0
  | p :: W => del p.2 * lowW p.1 W + kosW W

theorem thW_supp {r : Nat} {W : List (Nat × Cube)} (hW : ∀ p ∈ W, 1 ≤ p.1 ∧ p.1 ≤ r) :
    thW θ W ∈ Finsupp.supported R R {W' : List (Nat × Cube) | ∀ p ∈ W', 1 ≤ p.1 ∧ p.1 ≤ r} := by
  induction W with
  | nil => simp [thW]
  | cons p W ih =>
    have hp := hW p (by simp)
    have hW' : ∀ p ∈ W, 1 ≤ p.1 ∧ p.1 ≤ r := fun q hq => hW q (by simp [hq])
    rw [thW]
    refine Submodule.add_mem _ ?_ (Submodule.smul_mem _ _ ?_)
    · refine mapK_supported (S := Set.univ) (T := {W' : List (Nat × Cube) | ∀ p ∈ W', 1 ≤ p.1 ∧ p.1 ≤ r}) _ (fun w _ => ?_) (by simp)
      intro q hq
      rcases List.mem_append.1 hq with hq | hq
      · obtain ⟨b, -, rfl⟩ := List.mem_map.1 hq
        exact hp
      · exact hW' q hq
    · refine mapK_supported (T := {W' : List (Nat × Cube) | ∀ p ∈ W', 1 ≤ p.1 ∧ p.1 ≤ r}) _ (fun w hw => ?_) (ih hW')
      intro q hq
      rcases List.mem_cons.1 hq with rfl | hq
      · exact hp
      · exact hw q hq

/-- Sorting with its sign. -/
noncomputable def srt (r : Nat) (W : List (Nat × Cube)) : List CKey →₀ R := sg R (kosW W) • bv R (gam r W)

theorem kosW_append_map (x : Nat) (w : CKey) (W : List (Nat × Cube)) :
    kosW (w.map (fun a => (x, a)) ++ W) = Dl w * lowW x W + kosW W := by
  induction w with
  | nil => simp
  | cons a w ih =>
    have : lowW x (w.map (fun a => (x, a)) ++ W) = lowW x W := by
      unfold lowW
      rw [List.filter_append, List.filter_eq_nil_iff.2 (by
        rintro p hp
        obtain ⟨b, -, rfl⟩ := List.mem_map.1 hp
        simp)]
      rfl
    rw [List.map_cons, List.cons_append, kosW, ih, this, Dl_cons]
    ring

/-- Sorting commutes with the derivations. -/
theorem thT_gam (hθ : ∀ a, θ a ∈ Finsupp.supported R R {w | Dl w = del a - 1}) (r : Nat) (W : List (Nat × Cube))
    (hW : ∀ p ∈ W, 1 ≤ p.1 ∧ p.1 ≤ r) :
    sg R (kosW W) • thT θ (gam r W) = lin (srt r) (thW θ W) := by
  induction W with
  | nil =>
    have : ∀ l : List Nat, thT θ (l.map fun _ => ([] : CKey)) = 0 := by
      intro l
      induction l with
      | nil => rfl
      | cons x l ih => rw [List.map_cons, thT, ih, thK]; simp
    have h2 : thT θ (gam r []) = 0 := this _
    rw [thW, map_zero, h2, smul_zero]
  | cons p W ih =>
    have hp := hW p (by simp)
    have hW' : ∀ p ∈ W, 1 ≤ p.1 ∧ p.1 ≤ r := fun q hq => hW q (by simp [hq])
    have ih := ih hW'
    obtain ⟨i, a⟩ := p
    have hp : 1 ≤ i ∧ i ≤ r := hp
    rw [gam_cons hp.1, thT_modify hθ _ _ _ (by rw [length_gam]; omega), lowG_gam hW' hp.1, thW, map_add, map_smul]
    have hA := BElem.lin_ext_supported (R := R)
      (f := (lin (srt (R := R) r)).comp (mapK fun w : CKey => w.map (fun b => (i, b)) ++ W))
      (g := sg R ((del a - 1) * lowW i W + kosW W) • mapK fun w => (gam r W).modify (i - 1) (w ++ ·))
      (fun w hw => by
        have hw : Dl w = del a - 1 := hw
        simp only [LinearMap.comp_apply, LinearMap.smul_apply, mapK_single, lin_single, one_smul, srt,
          kosW_append_map, gam_append hp.1, hw]) (hθ a)
    have hB := BElem.lin_ext_supported (R := R)
      (f := (lin (srt (R := R) r)).comp (consV (i, a)))
      (g := (lin (ins a (i - 1))).comp (lin (srt r)))
      (fun w hw => by
        simp only [LinearMap.comp_apply, consV_single, lin_single, one_smul, srt, map_smul, ins, kosW,
          gam_cons hp.1, lowG_gam hw hp.1, sg_add, smul_smul]
        congr 1; ring) (thW_supp (θ := θ) hW')
    simp only [LinearMap.comp_apply, LinearMap.smul_apply] at hA hB
    rw [hA, hB, ← ih, map_smul, smul_add, smul_smul, smul_smul, smul_smul, ← sg_add, ← sg_add, ← sg_add, kosW]
    congr 1
    · congr 1
      apply sg_eq_of_zmod
      push_cast
      linear_combination (lowW i W : ZMod 2) * h22
    · congr 1
      apply sg_eq_of_zmod
      push_cast
      linear_combination ((del a : ZMod 2) * lowW i W) * h22

/-! ### desuspension of the groups -/

def E2 : List CKey → Int
  | [] => 0
  | g :: G => G.length * Dl g + E2 G

noncomputable def sE2 (G : List CKey) : List CKey →₀ R := sg R (E2 G) • bv R G

theorem thT_length (G : List CKey) : thT θ G ∈ Finsupp.supported R R {G' : List CKey | G'.length = G.length} := by
  induction G with
  | nil => simp [thT]
  | cons g G ih =>
    rw [thT]
    refine Submodule.add_mem _ ?_ (Submodule.smul_mem _ _ ?_)
    · rw [cat_one_bv]
      exact mapK_supported (S := Set.univ) (T := {G' : List CKey | G'.length = (g :: G).length}) _ (fun w _ => by simp) (by simp)
    · refine mapK_supported (T := {G' : List CKey | G'.length = (g :: G).length}) _ (fun w hw => ?_) ih
      have hw : w.length = G.length := hw
      show (g :: w).length = (g :: G).length
      simp [hw]

theorem lin_sE2 (hθ : ∀ a, θ a ∈ Finsupp.supported R R {w | Dl w = del a - 1}) (G : List CKey) :
    lin sE2 (thT θ G) = sg R (E2 G + G.length + 1) • thS θ G := by
  induction G with
  | nil => simp [thT, thS]
  | cons g G ih =>
    have h1 := BElem.lin_ext_supported (R := R)
      (f := (lin (sE2 (R := R))).comp (mapK fun g => g :: G))
      (g := sg R (G.length * (Dl g - 1) + E2 G) • mapK fun g => g :: G)
      (fun w hw => by
        have hw : Dl w = Dl g - 1 := hw
        simp only [LinearMap.comp_apply, LinearMap.smul_apply, mapK_single, lin_single, one_smul, sE2, E2, hw])
      (thK_supp hθ g)
    have h2 := BElem.lin_ext_supported (R := R)
      (f := (lin (sE2 (R := R))).comp (consV g))
      (g := sg R (G.length * Dl g) • (consV g).comp (lin sE2))
      (fun w hw => by
        have hw : w.length = G.length := hw
        simp only [LinearMap.comp_apply, LinearMap.smul_apply, consV_single, lin_single, one_smul, sE2, E2, hw, map_smul,
          sg_add, smul_smul, one_mul]) (thT_length (θ := θ) G)
    simp only [LinearMap.comp_apply, LinearMap.smul_apply] at h1 h2
    rw [thT, thS, cat_one_bv, map_add, map_smul, h1, h2, ih, map_smul, smul_add, smul_smul, smul_smul, smul_smul, ← sg_add,
      ← sg_add, ← sg_add, E2]
    congr 1
    · congr 1
      apply sg_eq_of_zmod
      push_cast [List.length_cons]
      linear_combination (-(G.length : ZMod 2) - 1) * h22
    · congr 1
      apply sg_eq_of_zmod
      push_cast [List.length_cons]
      ring

end Th

/-! ### joins -/

def E1 : CKey → Int
  | [] => 0
  | a :: L => L.length * del a + E1 L

noncomputable def sE1 (g : CKey) : CKey →₀ R := sg R (E1 g) • bv R g

/-- The faces and minus the omission of a vertex. -/
noncomputable def tht (a : Cube) : CKey →₀ R := one (cubeD a) - if cdim a = 0 then bv R [] else 0

noncomputable def thF : CKey → (CKey →₀ R)
  | [] => 0
  | a :: L => cat (one (cubeD a)) (bv R L) + sg R (del a) • consV a (thF L)

noncomputable def thO : CKey → (CKey →₀ R)
  | [] => 0
  | a :: L => (if cdim a = 0 then bv R L else 0) + sg R (del a) • consV a (thO L)

theorem thK_tht (g : CKey) : thK (R := R) tht g = thF g - thO g := by
  induction g with
  | nil => simp [thK, thF, thO]
  | cons a g ih =>
    rw [thK, thF, thO, ih, tht]
    simp only [map_sub, LinearMap.sub_apply, smul_sub]
    have : cat (if cdim a = 0 then bv R [] else 0) (bv R g) = if cdim a = 0 then bv R g else 0 := by
      split <;> simp
    rw [this]
    abel

theorem cubeD_deg (a : Cube) : cubeD (R := R) a ∈ Finsupp.supported R R {b | cdim b = cdim a - 1} := by
  induction a with
  | nil => exact Submodule.zero_mem _
  | cons e c ih =>
    rw [cubeD]
    split
    · rename_i he
      subst he
      refine Submodule.sub_mem _ (Submodule.sub_mem _ ?_ ?_) ?_
      · refine Finsupp.single_mem_supported R _ ?_
        simp [cdim, Cube.dimension_cons]
      · refine Finsupp.single_mem_supported R _ ?_
        simp [cdim, Cube.dimension_cons]
      · refine mapK_supported (T := {b : Cube | cdim b = cdim (2 :: c) - 1}) _ (fun z hz => ?_) ih
        have hz : cdim z = cdim c - 1 := hz
        show cdim (2 :: z) = cdim (2 :: c) - 1
        rw [cdim_two, cdim_two, hz]; ring
    · rename_i he
      refine mapK_supported (T := {b : Cube | cdim b = cdim (e :: c) - 1}) _ (fun z hz => ?_) ih
      have hz : cdim z = cdim c - 1 := hz
      show cdim (e :: z) = cdim (e :: c) - 1
      rw [cdim_cons_ne he, cdim_cons_ne he, hz]

theorem tht_supp (a : Cube) : tht (R := R) a ∈ Finsupp.supported R R {w | Dl w = del a - 1} := by
  rw [tht]
  refine Submodule.sub_mem _ ?_ ?_
  · rw [one]
    refine mapK_supported (T := {w : CKey | Dl w = del a - 1}) _ (fun b hb => ?_) (cubeD_deg a)
    have hb : cdim b = cdim a - 1 := hb
    show Dl [b] = del a - 1
    simp [del, hb]
  · split
    · rename_i h
      refine Finsupp.single_mem_supported R _ ?_
      show Dl [] = del a - 1
      simp [del, h]
    · exact Submodule.zero_mem _

theorem thF_length (g : CKey) : thF (R := R) g ∈ Finsupp.supported R R {w : CKey | w.length = g.length} := by
  induction g with
  | nil => simp [thF]
  | cons a g ih =>
    rw [thF]
    refine Submodule.add_mem _ ?_ (Submodule.smul_mem _ _ ?_)
    · rw [cat_one_bv]
      exact mapK_supported (S := Set.univ) (T := {w : CKey | w.length = (a :: g).length}) _ (fun w _ => by simp) (by simp)
    · refine mapK_supported (T := {w : CKey | w.length = (a :: g).length}) _ (fun w hw => ?_) ih
      have hw : w.length = g.length := hw
      show (a :: w).length = (a :: g).length
      simp [hw]

theorem thO_length (g : CKey) : thO (R := R) g ∈ Finsupp.supported R R {w : CKey | w.length + 1 = g.length} := by
  induction g with
  | nil => simp [thO]
  | cons a g ih =>
    rw [thO]
    refine Submodule.add_mem _ ?_ (Submodule.smul_mem _ _ ?_)
    · split
      · exact Finsupp.single_mem_supported R _ rfl
      · exact Submodule.zero_mem _
    · refine mapK_supported (T := {w : CKey | w.length + 1 = (a :: g).length}) _ (fun w hw => ?_) ih
      have hw : w.length + 1 = g.length := hw
      show (a :: w).length + 1 = (a :: g).length
      simp [hw]

theorem lin_sE1_consV (a : Cube) (n : Int) {v : CKey →₀ R} (hv : v ∈ Finsupp.supported R R {w : CKey | (w.length : Int) = n}) :
    lin sE1 (consV a v) = sg R (n * del a) • consV a (lin sE1 v) := by
  have := BElem.lin_ext_supported (R := R)
      (f := (lin (sE1 (R := R))).comp (consV a))
      (g := sg R (n * del a) • (consV a).comp (lin sE1))
      (fun w hw => by
        have hw : (w.length : Int) = n := hw
        simp only [LinearMap.comp_apply, LinearMap.smul_apply, consV_single, lin_single, one_smul, sE1, E1, hw, map_smul,
          sg_add, smul_smul, one_mul]) hv
  simpa using this

theorem sE1_thF (g : CKey) : lin sE1 (thF (R := R) g) = sg R (E1 g + g.length + 1) • tensK cubeD cdim g := by
  induction g with
  | nil => simp [thF, tensK]
  | cons a g ih =>
    have h1 := BElem.lin_ext_supported (R := R)
      (f := (lin (sE1 (R := R))).comp (mapK fun b => b :: g))
      (g := sg R (g.length * cdim a + E1 g) • mapK fun b => b :: g)
      (fun b hb => by
        have hb : cdim b = cdim a - 1 := hb
        simp only [LinearMap.comp_apply, LinearMap.smul_apply, mapK_single, lin_single, one_smul, sE1, E1, del, hb,
          sub_add_cancel]) (cubeD_deg a)
    simp only [LinearMap.comp_apply, LinearMap.smul_apply] at h1
    have h2 := lin_sE1_consV (R := R) a g.length (v := thF g) (Finsupp.supported_mono (fun w hw => by
      have hw : w.length = g.length := hw
      show (w.length : Int) = g.length
      rw [hw]) (thF_length g))
    rw [thF, tensK, cat_one_bv, map_add, map_smul, h1, h2, ih, map_smul, smul_add, smul_smul, smul_smul, smul_smul, ← sg_add,
      ← sg_add, ← sg_add, E1, del]
    congr 1
    · congr 1
      apply sg_eq_of_zmod
      push_cast [List.length_cons]
      linear_combination (-(g.length : ZMod 2) - 1) * h22
    · congr 1
      apply sg_eq_of_zmod
      push_cast [List.length_cons]
      ring

theorem sE1_thO (g : CKey) : lin sE1 (thO (R := R) g) = sg R (E1 g + g.length + 1) • omK g := by
  induction g with
  | nil => simp [thO, omK]
  | cons a g ih =>
    have h1 : lin sE1 (if cdim a = 0 then bv R g else 0) = sg R (E1 (a :: g) + (a :: g).length + 1) •
        (if cdim a = 0 then bv R g else 0) := by
      split
      · rename_i h
        rw [lin_single, one_smul, sE1, E1, del, h]
        congr 1
        apply sg_eq_of_zmod
        push_cast [List.length_cons]
        linear_combination (-(g.length : ZMod 2) - 1) * h22
      · simp
    have h2 := lin_sE1_consV (R := R) a (g.length - 1) (v := thO g) (Finsupp.supported_mono (fun w hw => by
      have hw : w.length + 1 = g.length := hw
      show (w.length : Int) = g.length - 1
      omega) (thO_length g))
    rw [thO, omK, map_add, map_smul, h1, h2, ih, map_smul, smul_sub, smul_smul, smul_smul, ← sg_add, ← sg_add,
      sub_eq_add_neg (G := CKey →₀ R), ← neg_smul, ← sg_succ]
    congr 2
    apply sg_eq_of_zmod
    rw [E1, del]
    push_cast [List.length_cons]
    linear_combination (-1 : ZMod 2) * h22

/-- The normalised join. -/
noncomputable def jt (g : CKey) : Cube →₀ R := sg R (E1 g) • jn g

theorem lin_jt (v : CKey →₀ R) : lin jt v = JN (lin sE1 v) := by
  induction v using Finsupp.induction_linear with
  | zero => simp
  | add f g hf hg => simp only [map_add, hf, hg]
  | single k r => simp [jt, sE1, JN, smul_smul]

theorem cubeD_jt {n : Nat} (g : CKey) (hg : ∀ c ∈ g, IsCube n c) :
    lin cubeD (jt (R := R) g) = lin jt (thK tht g) := by
  rw [jt, map_smul, cubeD_jn g hg, thK_tht, lin_jt, map_sub, sE1_thF, sE1_thO, map_sub, map_smul, map_smul, ← smul_sub,
    smul_smul, ← sg_natCast, ← sg_add]
  congr 2
  push_cast
  ring

theorem jt_degree {n : Nat} (g : CKey) (hg : ∀ c ∈ g, IsCube n c) :
    jt (R := R) g ∈ Finsupp.supported R R {b | cdim b = Dl g - 1} := by
  rw [jt]
  refine Submodule.smul_mem _ _ ?_
  cases g with
  | nil => simp [jn]
  | cons a g =>
    rw [jn]
    have : ∀ (g : CKey) (d : Int) (v : Cube →₀ R), (∀ c ∈ g, IsCube n c) → v ∈ Finsupp.supported R R (CD n d) →
        jnL g v ∈ Finsupp.supported R R {b | cdim b = d + Dl g} := by
      intro g
      induction g with
      | nil => intro d v _ hv; exact Finsupp.supported_mono (fun b hb => by
          have := hb.2
          show cdim b = d + Dl []
          simp [this]) hv
      | cons b g ih =>
        intro d v hg hv
        rw [jnL_cons]
        have h1 := ih (d + del b) (bil j2 v (bv R b)) (fun c hc => hg c (by simp [hc])) (by
          refine BElem.bil_supported (R := R) (S := CD n d) (T := {b}) j2 (fun x hx y hy => ?_) hv
            (Finsupp.single_mem_supported R _ rfl)
          have hy : y = b := hy
          subst hy
          have := j2_supported (R := R) hx.1 (hg y (by simp))
          rw [hx.2] at this
          rw [del, ← add_assoc]
          exact this)
        refine Finsupp.supported_mono (fun c hc => ?_) h1
        have hc : cdim c = d + del b + Dl g := hc
        show cdim c = d + Dl (b :: g)
        rw [hc, Dl_cons]; ring
    refine Finsupp.supported_mono (fun c hc => ?_) (this g (cdim a) (bv R a) (fun c hc => hg c (by simp [hc]))
      (Finsupp.single_mem_supported R _ ⟨hg a (by simp), rfl⟩))
    have hc : cdim c = cdim a + Dl g := hc
    show cdim c = Dl (a :: g) - 1
    rw [hc, Dl_cons, del]; ring

theorem cubicalD_tmK {n : Nat} (G : List CKey) (hG : ∀ g ∈ G, ∀ c ∈ g, IsCube n c) :
    cubicalD (tmK (jt (R := R)) G) = tm jt (thS tht G) := by
  induction G with
  | nil => simp [tmK, thS, cubicalD, tensK]
  | cons g G ih =>
    have ih := ih fun g hg => hG g (by simp [hg])
    rw [cubicalD] at ih
    rw [tmK, cubicalD, tens_cat, ih, thS, map_add, map_smul, tm_cat, tm_one, tm_consV, tens_one,
      cubeD_jt g (hG g (by simp))]
    congr 1
    · simp
    · have := BElem.lin_ext_supported (R := R)
        (f := (sgn (R := R) cdim).comp one) (g := sg R (Dl g - 1) • one)
        (fun b hb => by
          have hb : cdim b = Dl g - 1 := hb
          simp [sgn_single, hb, Finsupp.smul_single, totDeg]) (jt_degree g (hG g (by simp)))
      simp only [LinearMap.comp_apply, LinearMap.smul_apply] at this
      rw [this, map_smul, LinearMap.smul_apply]

end Comch.CubTwist
