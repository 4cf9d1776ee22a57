import Verif.Props.CubCall
import Verif.Props.Action
import Verif.Props.CubicalDiagonal
import Verif.Spec.CubeMaps

/-! # Naturality with respect to maps of cubes: C90 -/

set_option linter.unusedSectionVars false

namespace Comch
open Finsupp (single)
open Comch.Spec Serre Join

namespace CubNat

variable {R : Type} [CommRing R]

/-- One more coordinate in front. -/
def up : CubeMap → CubeMap
  | .inclusion j b => .inclusion (j + 1) b
  | .projection j => .projection (j + 1)

theorem cases_up {P : CubeMap → Prop} (h1 : ∀ b, P (.inclusion 0 b)) (h2 : P (.projection 0)) (h3 : ∀ g, P g → P (up g)) :
    ∀ g, P g := by
  intro g
  cases g with
  | inclusion j b =>
    induction j with
    | zero => exact h1 b
    | succ j ih => exact h3 _ ih
  | projection j =>
    induction j with
    | zero => exact h2
    | succ j ih => exact h3 _ ih

def bit (b : Bool) : Nat := if b then 1 else 0

theorem bit_ne (b : Bool) : bit b ≠ 2 := by cases b <;> decide

theorem cj_bit (b : Bool) : cj (bit b) (bit b) = 0 := by cases b <;> decide

theorem image_zero (b : Bool) (c : Cube) : (CubeMap.inclusion 0 b).image c = some (bit b :: c) := by
  cases b <;> rfl

theorem image_proj (e : Nat) (c : Cube) : (CubeMap.projection 0).image (e :: c) = if e = 2 then none else some c := by
  simp [CubeMap.image]

theorem image_proj_nil : (CubeMap.projection 0).image [] = some [] := by rfl

theorem image_up_nil (g : CubeMap) : (up g).image [] = g.image [] := by
  cases g <;> simp [CubeMap.image, up]

theorem image_up (g : CubeMap) (e : Nat) (c : Cube) : (up g).image (e :: c) = (g.image c).map (e :: ·) := by
  cases g with
  | inclusion j b => rfl
  | projection j =>
    simp only [CubeMap.image, up, List.getElem?_cons_succ]
    split <;> simp

/-- The image of a cube as a vector. -/
noncomputable def g1 (g : CubeMap) (c : Cube) : Cube →₀ R := match g.image c with
  | some c' => bv R c'
  | none => 0

theorem g1_zero (b : Bool) (c : Cube) : g1 (R := R) (.inclusion 0 b) c = bv R (bit b :: c) := by
  rw [g1, image_zero]

theorem g1_proj (e : Nat) (c : Cube) : g1 (R := R) (.projection 0) (e :: c) = if e = 2 then 0 else bv R c := by
  rw [g1, image_proj]
  split <;> simp_all

theorem g1_proj_nil : g1 (R := R) (.projection 0) [] = bv R [] := by rw [g1, image_proj_nil]

theorem g1_up_nil (g : CubeMap) : g1 (R := R) (up g) [] = g1 g [] := by rw [g1, image_up_nil, g1]

theorem g1_up (g : CubeMap) (e : Nat) (c : Cube) : g1 (R := R) (up g) (e :: c) = consV e (g1 g c) := by
  rw [g1, image_up, g1]
  cases g.image c <;> simp

theorem dimension_image {g : CubeMap} {c c' : Cube} (h : g.image c = some c') : c'.dimension = c.dimension := by
  revert c c'
  induction g using cases_up with
  | h1 b =>
    intro c c' h
    rw [image_zero] at h
    cases h
    rw [Cube.dimension_cons, if_neg (bit_ne b), add_zero]
  | h2 =>
    intro c c' h
    cases c with
    | nil => rw [image_proj_nil] at h; cases h; rfl
    | cons e c =>
      rw [image_proj] at h
      split at h
      · cases h
      · cases h; rename_i he; rw [Cube.dimension_cons, if_neg he, add_zero]
  | h3 g ih =>
    intro c c' h
    cases c with
    | nil => rw [image_up_nil] at h; exact ih h
    | cons e c =>
      rw [image_up, Option.map_eq_some_iff] at h
      obtain ⟨c'', h, rfl⟩ := h
      rw [Cube.dimension_cons, Cube.dimension_cons, ih h]

/-- The image of a cube of length `n`. -/
def newLength (g : CubeMap) (n : Nat) : Nat := match g with
  | .inclusion _ _ => n + 1
  | .projection j => if j < n then n - 1 else n

theorem length_image {g : CubeMap} {c c' : Cube} (h : g.image c = some c') : c'.length = newLength g c.length := by
  cases g with
  | inclusion j b =>
    cases h
    simp only [newLength, List.length_append, List.length_take, List.length_singleton, List.length_drop]
    omega
  | projection j =>
    simp only [CubeMap.image] at h
    split at h
    · cases h
    · cases h
      simp only [newLength, List.length_append, List.length_take, List.length_drop]
      split <;> omega

theorem isCube_image {g : CubeMap} {n : Nat} {c c' : Cube} (h : g.image c = some c') (hc : IsCube n c) :
    IsCube (newLength g n) c' := by
  refine ⟨by rw [length_image h, hc.1], ?_⟩
  cases g with
  | inclusion j b =>
    cases h
    intro e he
    simp only [List.mem_append, List.mem_singleton] at he
    rcases he with (he | rfl) | he
    · exact hc.2 e (List.mem_of_mem_take he)
    · split <;> omega
    · exact hc.2 e (List.mem_of_mem_drop he)
  | projection j =>
    simp only [CubeMap.image] at h
    split at h
    · cases h
    · cases h
      intro e he
      rcases List.mem_append.1 he with he | he
      · exact hc.2 e (List.mem_of_mem_take he)
      · exact hc.2 e (List.mem_of_mem_drop he)

theorem g1_cases (g : CubeMap) (c : Cube) :
    (g1 (R := R) g c = 0 ∧ g.image c = none) ∨ ∃ c', g.image c = some c' ∧ g1 (R := R) g c = bv R c' ∧ cdim c' = cdim c := by
  rcases h : g.image c with _ | c'
  · exact Or.inl ⟨by rw [g1, h], rfl⟩
  · exact Or.inr ⟨c', rfl, by rw [g1, h], by simp only [cdim]; rw [dimension_image h]⟩

theorem image_vertex {g : CubeMap} {c : Cube} (h : cdim c = 0) : g.image c ≠ none := by
  revert c
  induction g using cases_up with
  | h1 b => intro c _; rw [image_zero]; simp
  | h2 =>
    intro c h
    cases c with
    | nil => simp [image_proj_nil]
    | cons e c =>
      rw [image_proj, if_neg]
      · simp
      · rintro rfl
        rw [Serre.cdim_two] at h
        simp only [cdim] at h
        omega
  | h3 g ih =>
    intro c h
    cases c with
    | nil => rw [image_up_nil]; exact ih h
    | cons e c =>
      rw [image_up]
      have : cdim c = 0 := by
        rw [cdim_cons] at h
        simp only [cdim] at h ⊢
        split at h <;> omega
      simpa using ih this

theorem eps_g1 (g : CubeMap) (c : Cube) : eps (g1 (R := R) g c) = if cdim c = 0 then 1 else 0 := by
  rcases g1_cases (R := R) g c with ⟨h, h'⟩ | ⟨c', -, h, hd⟩
  · rw [h, if_neg, map_zero]
    intro h0
    exact image_vertex h0 h'
  · rw [h, eps_single, hd]

theorem lin_g1_zero (b : Bool) (v : Cube →₀ R) : lin (g1 (.inclusion 0 b)) v = consV (bit b) v := by
  induction v using Finsupp.induction_linear with
  | zero => simp
  | add f g hf hg => simp only [map_add, hf, hg]
  | single k r => simp [g1_zero]

theorem lin_g1_proj (e : Nat) (v : Cube →₀ R) : lin (g1 (.projection 0)) (consV e v) = if e = 2 then 0 else v := by
  induction v using Finsupp.induction_linear with
  | zero => simp
  | add f g hf hg => simp only [map_add, hf, hg]; split <;> simp
  | single k r =>
    simp only [consV_single, lin_single, g1_proj]
    split <;> simp

theorem lin_g1_up (g : CubeMap) (e : Nat) (v : Cube →₀ R) : lin (g1 (up g)) (consV e v) = consV e (lin (g1 g) v) := by
  induction v using Finsupp.induction_linear with
  | zero => simp
  | add f g hf hg => simp only [map_add, hf, hg]
  | single k r => simp [g1_up]

/-- The boundary of a cube. -/
theorem cubeD_g1 (g : CubeMap) (c : Cube) : lin (g1 g) (cubeD (R := R) c) = lin cubeD (g1 g c) := by
  revert c
  induction g using cases_up with
  | h1 b =>
    intro c
    rw [lin_g1_zero, g1_zero, lin_single, one_smul, cubeD, if_neg (bit_ne b)]
  | h2 =>
    intro c
    cases c with
    | nil => simp [g1_proj_nil, cubeD]
    | cons e c =>
      rw [g1_proj, cubeD]
      by_cases he : e = 2
      · rw [if_pos he, if_pos he, map_sub, map_sub, lin_g1_proj, if_pos rfl]
        simp [g1_proj]
      · rw [if_neg he, if_neg he, lin_g1_proj, if_neg he, lin_single, one_smul]
  | h3 g ih =>
    intro c
    cases c with
    | nil => rw [g1_up_nil, ← ih]; simp [cubeD]
    | cons e c =>
      rw [g1_up, lin_cubeD_consV, ← ih, cubeD]
      by_cases he : e = 2
      · rw [if_pos he, if_pos he, map_sub, map_sub, lin_g1_up]
        simp [g1_up]
      · rw [if_neg he, if_neg he, lin_g1_up]

/-- The join of two cubes. -/
theorem j2_g1 (g : CubeMap) {x y : Cube} (hl : x.length = y.length) :
    lin (g1 g) (j2 (R := R) x y) = bil j2 (g1 g x) (g1 g y) := by
  revert x y
  induction g using cases_up with
  | h1 b =>
    intro x y _
    rw [lin_g1_zero, g1_zero, g1_zero, consV_bv, consV_bv, bil_j2_consV, cj_bit, if_neg (bit_ne b), if_neg (bit_ne b)]
    simp
  | h2 =>
    intro x y hl
    cases x with
    | nil =>
      obtain rfl : y = [] := List.length_eq_zero_iff.1 hl.symm
      simp [j2, g1_proj_nil]
    | cons e x =>
      cases y with
      | nil => simp at hl
      | cons f y =>
        rw [j2, g1_proj, g1_proj, map_add]
        have h1 : lin (g1 (R := R) (.projection 0)) (if cdim x = 0 then ((cj e f : Int) : R) • bv R (2 :: y) else 0) = 0 := by
          split
          · rw [map_smul, lin_single, one_smul, g1_proj, if_pos rfl, smul_zero]
          · simp
        rw [h1, zero_add]
        by_cases hf : f = 2
        · simp [hf]
        · by_cases he : e = 2
          · simp [hf, he, lin_g1_proj]
          · simp [hf, he, lin_g1_proj]
  | h3 g ih =>
    intro x y hl
    cases x with
    | nil =>
      cases y with
      | nil =>
        rw [g1_up_nil, ← ih rfl]
        simp [j2]
      | cons f y => simp at hl
    | cons e x =>
      cases y with
      | nil => simp at hl
      | cons f y =>
        rw [j2, g1_up, g1_up, map_add, bil_j2_consV, eps_g1, ← ih (by simpa using hl)]
        congr 1
        · by_cases h : cdim x = 0
          · rw [if_pos h, if_pos h, map_smul, lin_single, one_smul, g1_up, one_mul]
          · rw [if_neg h, if_neg h]; simp
        · split
          · simp
          · rw [map_smul, lin_g1_up]

/-! ### tensors -/

theorem cat_one_bv {A : Type} (a : A) (v : List A →₀ R) : cat (one (bv R a)) v = consV a v := by
  rw [consV_eq_cat]; simp

/-- The images of a tensor. -/
theorem tmK_images (g : CubeMap) (k : CKey) : tmK (g1 (R := R) g) k = match g.images k with
    | some k' => bv R k'
    | none => 0 := by
  induction k with
  | nil => simp [tmK, CubeMap.images]
  | cons a k ih =>
    rw [tmK, ih, CubeMap.images, g1]
    rcases g.image a with _ | a' <;> rcases g.images k with _ | k' <;> simp

theorem tmK_cases (g : CubeMap) (k : CKey) :
    (∃ a ∈ k, g1 (R := R) g a = 0) ∨ ∃ F : Cube → Cube, (∀ a ∈ k, g.image a = some (F a)) := by
  by_cases h : ∃ a ∈ k, g1 (R := R) g a = 0
  · exact Or.inl h
  · right
    push Not at h
    refine ⟨fun a => (g.image a).getD [], fun a ha => ?_⟩
    rcases g1_cases (R := R) g a with ⟨h0, -⟩ | ⟨c, hc, -⟩
    · exact absurd h0 (h a ha)
    · simp [hc]

theorem tmK_map (g : CubeMap) {k : CKey} {F : Cube → Cube} (h : ∀ a ∈ k, g.image a = some (F a)) :
    tmK (g1 (R := R) g) k = bv R (k.map F) := by
  induction k with
  | nil => simp [tmK]
  | cons a k ih =>
    rw [tmK, ih fun b hb => h b (by simp [hb]), g1, h a (by simp)]
    simp

theorem cubicalD_tm (g : CubeMap) (v : CKey →₀ R) : tm (g1 g) (cubicalD v) = cubicalD (tm (g1 g) v) := by
  have : (tm (g1 (R := R) g)).comp cubicalD = cubicalD.comp (tm (g1 g)) := by
    apply lin_ext
    intro k
    simp only [LinearMap.comp_apply, tens_single, one_smul, tm_single]
    induction k with
    | nil => simp [tensK, tmK]
    | cons a k ih =>
      rw [tensK, map_add, map_smul, tm_consV, ih, tm_cat, tm_one, cubeD_g1, tmK]
      rcases g1_cases (R := R) g a with ⟨h, -⟩ | ⟨c', -, h, hd⟩
      · rw [h]; simp
      · rw [h, cat_one_bv, cat_one_bv, tens_consV, hd, tm_single, one_smul, lin_single, one_smul]
  exact LinearMap.congr_fun this v

theorem tm_pre_zero (b : Bool) (v : CKey →₀ R) : tm (g1 (.inclusion 0 b)) v = pre (bit b) v := by
  have : tm (g1 (R := R) (.inclusion 0 b)) = pre (bit b) := by
    apply lin_ext
    intro k
    rw [tm_single, one_smul, mapK_single, tmK_map (F := (bit b :: ·)) _ fun a _ => image_zero b a]
  rw [this]

theorem tm_proj_pre {e : Nat} (he : e ≠ 2) (v : CKey →₀ R) : tm (g1 (.projection 0)) (pre e v) = v := by
  have : (tm (g1 (R := R) (.projection 0))).comp (pre e) = LinearMap.id := by
    apply lin_ext
    intro k
    rw [LinearMap.comp_apply, mapK_single, tm_single, one_smul, LinearMap.id_apply,
      tmK_map (F := List.tail) _ fun a ha => by
        obtain ⟨b, -, rfl⟩ := List.mem_map.1 ha
        rw [image_proj, if_neg he]; rfl, List.map_map]
    congr 1
    exact List.map_id'' (fun _ => rfl) k
  exact LinearMap.congr_fun this v

theorem tm_proj_tK (k : CKey) : tm (g1 (R := R) (.projection 0)) (tK k) = 0 := by
  induction k with
  | nil => simp [tK]
  | cons a k ih =>
    rw [tK, map_add, map_smul, tm_consV, ih, tm_single, tmK, g1_proj, if_pos rfl]
    simp

theorem tm_up_pre (g : CubeMap) (e : Nat) (v : CKey →₀ R) : tm (g1 (up g)) (pre e v) = pre e (tm (g1 g) v) := by
  have : (tm (g1 (R := R) (up g))).comp (pre e) = (pre e).comp (tm (g1 g)) := by
    apply lin_ext
    intro k
    simp only [LinearMap.comp_apply, mapK_single, tm_single, one_smul]
    induction k with
    | nil => simp [tmK]
    | cons a k ih => rw [List.map_cons, tmK, tmK, pre_cat, pre_one, ih, g1_up]
  exact LinearMap.congr_fun this v

theorem tm_up_tL (g : CubeMap) (v : CKey →₀ R) : tm (g1 (up g)) (tL v) = tL (tm (g1 g) v) := by
  have : (tm (g1 (R := R) (up g))).comp tL = tL.comp (tm (g1 g)) := by
    apply lin_ext
    intro k
    simp only [LinearMap.comp_apply, tL_single, tm_single, one_smul]
    induction k with
    | nil => simp [tmK, tK]
    | cons a k ih =>
      have h2 : tmK (g1 (R := R) (up g)) (k.map (1 :: ·)) = pre 1 (tmK (g1 g) k) := by
        have := tm_up_pre (R := R) g 1 (bv R k)
        simpa using this
      rw [tK, map_add, map_smul, tm_consV, ih, tm_single, one_smul, tmK, h2, g1_up, g1_up, tmK]
      rcases g1_cases (R := R) g a with ⟨h, -⟩ | ⟨c', -, h, hd⟩
      · rw [h]; simp
      · rw [h, cat_one_bv, tL_consV, hd, ← consV_bv, ← consV_bv, cat_one_bv, cat_one_bv]
  exact LinearMap.congr_fun this v

theorem tmK_replicate_up (g : CubeMap) (n : Nat) :
    tmK (g1 (R := R) (up g)) (List.replicate n []) = tmK (g1 g) (List.replicate n []) := by
  induction n with
  | zero => rfl
  | succ n ih => rw [List.replicate_succ, tmK, tmK, ih, g1_up_nil]

/-- The diagonal of a cube. -/
theorem serre_g1 (g : CubeMap) (t : Nat) (c : Cube) : tm (g1 g) (serre (R := R) t c) = lin (serre t) (g1 g c) := by
  revert c
  induction g using cases_up with
  | h1 b =>
    intro c
    rw [tm_pre_zero, g1_zero, lin_single, one_smul, serre, if_neg (bit_ne b)]
  | h2 =>
    intro c
    cases c with
    | nil =>
      rw [g1_proj_nil, lin_single, one_smul, serre, tm_single, one_smul, tmK_map (F := id)]
      · simp
      · intro a ha
        rw [List.eq_of_mem_replicate ha]; rfl
    | cons e c =>
      rw [g1_proj, serre]
      by_cases he : e = 2
      · rw [if_pos he, if_pos he, map_zero]
        generalize serre (R := R) t c = v
        induction v using Finsupp.induction_linear with
        | zero => simp
        | add f g hf hg => rw [map_add, map_add, hf, hg, add_zero]
        | single k r => rw [tL_single, map_smul, tm_proj_tK, smul_zero]
      · rw [if_neg he, if_neg he, tm_proj_pre he, lin_single, one_smul]
  | h3 g ih =>
    intro c
    cases c with
    | nil =>
      rw [g1_up_nil, ← ih, serre, tm_single, tm_single, tmK_replicate_up]
    | cons e c =>
      rw [g1_up, lin_serre_consV, ← ih, serre]
      by_cases he : e = 2
      · rw [if_pos he, if_pos he, tm_up_tL]
      · rw [if_neg he, if_neg he, tm_up_pre]

theorem atL_serre_tm (g : CubeMap) (t c : Nat) (v : CKey →₀ R) :
    tm (g1 g) (atL (serre t) c v) = atL (serre t) c (tm (g1 g) v) := by
  have : (tm (g1 (R := R) g)).comp (atL (serre t) c) = (atL (serre t) c).comp (tm (g1 g)) := by
    apply lin_ext
    intro k
    simp only [LinearMap.comp_apply, atL_single, tm_single, one_smul]
    induction k generalizing c with
    | nil => simp [tmK, atK]
    | cons a k ih =>
      cases c with
      | zero =>
        rw [atK, tm_cat, serre_g1, tm_single, one_smul, tmK]
        rcases g1_cases (R := R) g a with ⟨h, -⟩ | ⟨c', -, h, hd⟩
        · rw [h]; simp
        · rw [h, cat_one_bv, lin_single, one_smul]
          generalize tmK (g1 (R := R) g) k = w
          induction w using Finsupp.induction_linear with
          | zero => simp
          | add f g hf hg => simp only [map_add, hf, hg]
          | single k r => rw [consV_single, atL_single, atK, ← map_smul, ← single_eq_smul_bv]
      | succ c =>
        rw [atK, tm_consV, ih, tmK]
        rcases g1_cases (R := R) g a with ⟨h, -⟩ | ⟨c', -, h, hd⟩
        · rw [h]; simp
        · rw [h, cat_one_bv, cat_one_bv]
          generalize tmK (g1 (R := R) g) k = w
          induction w using Finsupp.induction_linear with
          | zero => simp
          | add f g hf hg => simp only [map_add, hf, hg]
          | single k r => rw [consV_single, atL_single, atL_single, atK, map_smul]
  exact LinearMap.congr_fun this v

/-! ### joins -/

theorem j2_length {x y : Cube} {n : Nat} (hx : x.length = n) (hy : y.length = n) :
    j2 (R := R) x y ∈ Finsupp.supported R R {c : Cube | c.length = n} := by
  induction n generalizing x y with
  | zero =>
    obtain rfl := List.length_eq_zero_iff.1 hx
    simp [j2]
  | succ n ih =>
    obtain ⟨e, x, rfl⟩ := List.exists_cons_of_length_pos (l := x) (by omega)
    obtain ⟨f, y, rfl⟩ := List.exists_cons_of_length_pos (l := y) (by omega)
    rw [j2]
    refine Submodule.add_mem _ ?_ ?_
    · split
      · exact Submodule.smul_mem _ _ (Finsupp.single_mem_supported R _ (by simpa using hy))
      · exact Submodule.zero_mem _
    · split
      · exact Submodule.zero_mem _
      · refine Submodule.smul_mem _ _ ?_
        exact mapK_supported (T := {c : Cube | c.length = n + 1}) _ (fun L hL => by simpa using hL)
          (ih (by simpa using hx) (by simpa using hy))

theorem jnL_g1 (g : CubeMap) {n : Nat} (l : CKey) (hl : ∀ c ∈ l, c.length = n) {v : Cube →₀ R}
    (hv : v ∈ Finsupp.supported R R {c : Cube | c.length = n}) :
    lin (g1 g) (jnL l v) = TJ (lin (g1 g) v) (tmK (g1 g) l) := by
  induction l generalizing v with
  | nil => rw [tmK, TJ_single, one_smul]; rfl
  | cons b l ih =>
    have hb : b.length = n := hl b (by simp)
    have h1 : bil j2 v (bv R b) ∈ Finsupp.supported R R {c : Cube | c.length = n} := by
      have : bil j2 v (bv R b) = lin (fun x => j2 (R := R) x b) v := by
        induction v using Finsupp.induction_linear with
        | zero => simp
        | add f g hf hg =>
          have : bil j2 (f + g) (bv R b) = lin (fun x => j2 (R := R) x b) (f + g) := by
            generalize f + g = w
            induction w using Finsupp.induction_linear with
            | zero => simp
            | add f g hf hg => rw [map_add, map_add, LinearMap.add_apply, hf, hg]
            | single x r => rw [bil_single, lin_single, mul_one]
          exact this
        | single x r => rw [bil_single, lin_single, mul_one]
      rw [this]
      exact lin_supported _ (fun x hx => j2_length hx hb) hv
    rw [jnL_cons, ih (fun c hc => hl c (by simp [hc])) h1, tmK, TJ_cat_one]
    congr 2
    have := BElem.lin_ext_supported (R := R) (S := {c : Cube | c.length = n})
      (f := (lin (g1 g)).comp ((bil j2).flip (bv R b))) (g := ((bil j2).flip (g1 g b)).comp (lin (g1 g)))
      (fun x hx => by
        simp only [LinearMap.comp_apply, LinearMap.flip_apply, bil_bv, lin_single, one_smul]
        exact j2_g1 g (hx.trans hb.symm)) hv
    exact this

theorem jn_g1 (g : CubeMap) {n : Nat} {k : CKey} (hk : ∀ c ∈ k, c.length = n) :
    lin (g1 g) (jn (R := R) k) = JN (tmK (g1 g) k) := by
  cases k with
  | nil => simp [jn, tmK]
  | cons a k =>
    rw [jn, jnL_g1 g k (fun c hc => hk c (by simp [hc])) (Finsupp.single_mem_supported R _ (hk a (by simp))), lin_single,
      one_smul, tmK]
    rcases g1_cases (R := R) g a with ⟨h, -⟩ | ⟨c', -, h, hd⟩
    · rw [h]; simp
    · rw [h, cat_one_bv]
      generalize tmK (g1 (R := R) g) k = w
      induction w using Finsupp.induction_linear with
      | zero => simp
      | add f g hf hg => simp only [map_add, hf, hg]
      | single k r => rw [consV_single, JN_single, jn, TJ_single]

theorem tm_tmK {A B C : Type} (f : A → (B →₀ R)) (h : B → (C →₀ R)) (k : List A) :
    tm h (tmK f k) = tmK (fun a => lin h (f a)) k := by
  induction k with
  | nil => simp [tmK]
  | cons a k ih => rw [tmK, tm_cat, tm_one, ih, tmK]

theorem tmK_congr {A B : Type} {f h : A → (B →₀ R)} {k : List A} (H : ∀ a ∈ k, f a = h a) : tmK f k = tmK h k := by
  induction k with
  | nil => rfl
  | cons a k ih => rw [tmK, tmK, H a (by simp), ih fun b hb => H b (by simp [hb])]

open CubCall

theorem ac_g1 (g : CubeMap) {n r : Nat} {k : Surj} (hk : ∀ v ∈ k, 1 ≤ v ∧ v ≤ r) {L : CKey} (hl : L.length = k.length)
    (hL : ∀ c ∈ L, c.length = n) : tm (g1 g) (ac (R := R) r k L) = lin (ac r k) (tmK (g1 g) L) := by
  rw [ac, tm_tmK]
  have h1 : ∀ G ∈ gam r (k.zip L), lin (g1 (R := R) g) (jn G) = JN (tmK (g1 g) G) := fun G hG =>
    jn_g1 g fun c hc => by
      obtain ⟨p, hp, rfl⟩ := gam_sub hG hc
      exact hL _ (List.of_mem_zip hp).2
  rw [tmK_congr h1]
  rcases tmK_cases (R := R) g L with ⟨a, ha, h0⟩ | ⟨F, hF⟩
  · rw [tmK_zero_of _ ha h0, map_zero]
    obtain ⟨j, hj, rfl⟩ := List.getElem_of_mem ha
    have hjk : j < k.length := by omega
    have hv := hk k[j] (List.getElem_mem hjk)
    refine tmK_zero_of _ (a := (((k.zip L).filter fun p => p.1 == k[j]).map Prod.snd))
      (List.mem_map.2 ⟨k[j], by rw [List.mem_range'_1]; omega, rfl⟩) ?_
    rw [tmK_zero_of _ (List.mem_map.2 ⟨(k[j], L[j]), List.mem_filter.2 ⟨?_, by simp⟩, rfl⟩) h0, map_zero]
    have hz : j < (k.zip L).length := by rw [List.length_zip]; omega
    have := List.getElem_mem hz
    rwa [List.getElem_zip] at this
  · rw [tmK_map g hF, lin_single, one_smul, ac]
    have h2 : gam r (k.zip (L.map F)) = (gam r (k.zip L)).map (List.map F) := by
      unfold gam
      rw [List.map_map]
      apply List.map_congr_left
      intro i _
      simp only [Function.comp]
      rw [List.zip_map_right, List.filter_map, List.map_map, List.map_map]
      rfl
    rw [h2]
    have h3 : ∀ G ∈ gam r (k.zip L), JN (R := R) (tmK (g1 g) G) = jn (G.map F) := fun G hG => by
      rw [tmK_map g (F := F) fun a ha => by
        obtain ⟨p, hp, rfl⟩ := gam_sub hG ha
        exact hF _ (List.of_mem_zip hp).2, JN_single, one_smul]
    rw [tmK_congr h3]
    generalize gam r (k.zip L) = G
    induction G with
    | nil => rfl
    | cons a G ih => rw [tmK, ih, List.map_cons, tmK]


theorem actL_mem {A : Type} {σ : Perm} {k : List A} (h : k.length = σ.length) {a : A} (ha : a ∈ k) : a ∈ actL σ k := by
  unfold actL sortl
  obtain ⟨j, hj, rfl⟩ := List.getElem_of_mem ha
  rw [List.mem_map]
  have hz : j < (σ.zip k).length := by rw [List.length_zip]; omega
  refine ⟨(σ.zip k)[j], ?_, by simp⟩
  rw [List.mem_insertionSort]
  exact List.getElem_mem hz

theorem actK_g1 (g : CubeMap) {σ : Perm} {k : CKey} (h : k.length = σ.length) :
    tm (g1 g) (actK (R := R) cdim σ k) = lin (actK cdim σ) (tmK (g1 g) k) := by
  rw [actK, map_smul, tm_single, one_smul]
  rcases tmK_cases (R := R) g k with ⟨a, ha, h0⟩ | ⟨F, hF⟩
  · rw [tmK_zero_of _ ha h0, map_zero, tmK_zero_of _ (actL_mem h ha) h0, smul_zero]
  · rw [tmK_map g hF, lin_single, one_smul, actK]
    have hk : kos (fun a => cdim a) (σ.zip (k.map F)) = kos cdim (σ.zip k) := by
      have : ∀ W : List (Nat × Cube), (∀ p ∈ W, cdim (F p.2) = cdim p.2) →
          kos cdim (W.map (Prod.map id F)) = kos cdim W := by
        intro W hW
        induction W with
        | nil => rfl
        | cons x W ih =>
          rw [List.map_cons, kos, kos, ih fun p hp => hW p (by simp [hp]), List.filter_map, List.map_map]
          simp only [Prod.map]
          rw [hW x (by simp)]
          congr 3
          apply List.map_congr_left
          intro y hy
          exact hW y (by simp [(List.mem_filter.1 hy).1])
      rw [List.zip_map_right]
      refine this _ fun p hp => ?_
      simp only [cdim]
      rw [dimension_image (hF _ (List.of_mem_zip hp).2)]
    rw [hk]
    congr 1
    have hm : actL σ (k.map F) = (actL σ k).map F := by
      unfold actL sortl
      rw [List.zip_map_right, ← List.map_insertionSort (fun a b => a.1 ≤ b.1) _ (Prod.map id F) (σ.zip k)
        (fun a _ b _ => by simp), List.map_map, List.map_map]
      rfl
    rw [hm]
    refine tmK_map g fun a ha => hF a ?_
    unfold actL sortl at ha
    obtain ⟨p, hp, rfl⟩ := List.mem_map.1 ha
    rw [List.mem_insertionSort] at hp
    exact (List.of_mem_zip hp).2

open Props SurjElem

theorem csign_map {n r c : Nat} {d : Int} {k : Surj} {key : CKey} {F : Cube → Cube}
    (h : ∀ a ∈ key, (F a).dimension = a.dimension) : csign n r d c k (key.map F) = csign n r d c k key := by
  have h1 : ((((key.map F).drop c).take k.length).map fun c => ((Cube.dimension c : Nat) : Int) % 2) =
      (((key.drop c).take k.length).map fun c => ((Cube.dimension c : Nat) : Int) % 2) := by
    rw [← List.map_drop, ← List.map_take, List.map_map]
    apply List.map_congr_left
    intro a ha
    simp only [Function.comp]
    rw [h a (List.mem_of_mem_drop (List.mem_of_mem_take ha))]
  have h2 : CElem.keyDegree ((key.map F).take c) = CElem.keyDegree (key.take c) := by
    unfold CElem.keyDegree
    rw [← List.map_take, List.map_map]
    congr 1
    apply List.map_congr_left
    intro a ha
    exact h a (List.mem_of_mem_take ha)
  unfold csign
  simp only [h1, h2]

theorem csummandV_g1 (g : CubeMap) {n r N c : Nat} {d : Int} {k : Surj} (hk : ∀ v ∈ k, 1 ≤ v ∧ v ≤ r) {key : CKey}
    (hl : c + k.length ≤ key.length) (hN : ∀ a ∈ key, a.length = N) :
    tm (g1 g) (csummandV n r r d c k key) = lin (csummandV n r r d c k) (tmK (g1 g) key) := by
  have hac := ac_g1 (R := ZMod n) g hk (L := (key.drop c).take k.length) (by simp; omega)
    (fun a ha => hN a (List.mem_of_mem_drop (List.mem_of_mem_take ha)))
  rw [csummandV, map_smul, tm_cat, tm_cat, hac, tm_single, one_smul, tm_single, one_smul]
  have hsplit : key = key.take c ++ ((key.drop c).take k.length ++ key.drop (c + k.length)) := by
    rw [← List.drop_drop, List.take_append_drop, List.take_append_drop]
  rcases tmK_cases (R := ZMod n) g key with ⟨a, ha, h0⟩ | ⟨F, hF⟩
  · rw [tmK_zero_of _ ha h0, map_zero]
    rw [hsplit, List.mem_append, List.mem_append] at ha
    rcases ha with ha | ha | ha
    · rw [tmK_zero_of _ ha h0]; simp
    · rw [tmK_zero_of _ ha h0]; simp
    · rw [tmK_zero_of _ ha h0]; simp
  · rw [tmK_map g hF, lin_single, one_smul, csummandV, csign_map fun a ha => dimension_image (hF a ha)]
    rw [tmK_map g fun a ha => hF a (List.mem_of_mem_take ha), tmK_map g fun a ha => hF a (List.mem_of_mem_drop ha),
      tmK_map g fun a ha => hF a (List.mem_of_mem_drop (List.mem_of_mem_take ha)), lin_single, one_smul,
      List.map_take, List.map_drop, List.map_take, List.map_drop]

theorem callCV_g1 (g : CubeMap) {n r N c : Nat} {d : Int} {u : Surj →₀ ZMod n} {v : CKey →₀ ZMod n}
    (hu : u ∈ Finsupp.supported (ZMod n) (ZMod n) {k : Surj | k ≠ [] ∧ ∀ v ∈ k, 1 ≤ v ∧ v ≤ r})
    (hv : v ∈ Finsupp.supported (ZMod n) (ZMod n) {m : CKey | c < m.length ∧ ∀ a ∈ m, a.length = N}) :
    tm (g1 g) (callCV n r d c u v) = callCV n r d c u (tm (g1 g) v) := by
  have := BElem.bil_ext_supported (R := ZMod n)
    (f := (callCV n r d c).compr₂ (tm (g1 g))) (g := (callCV n r d c).compl₂ (tm (g1 g)))
    (fun k hk m hm => by
      have hkl := List.length_pos_iff.2 hk.1
      simp only [LinearMap.compr₂_apply, LinearMap.compl₂_apply, tm_single, one_smul]
      have e1 : ∀ w, callCV n r d c (bv _ k) w = lin (csummandV n r r d c k) (atL (serre (k.length - 1)) c w) := by
        intro w
        rw [callCV, bil_bv]
        induction w using Finsupp.induction_linear with
        | zero => simp
        | add f g hf hg => simp only [map_add, hf, hg]
        | single a b => rw [lin_single, atL_single, map_smul]
      have e2 := atL_serre_tm (R := ZMod n) g (k.length - 1) c (bv _ m)
      rw [tm_single, one_smul] at e2
      rw [e1, e1, ← e2, atL_single, one_smul]
      have := BElem.lin_ext_supported (R := ZMod n)
        (f := (tm (g1 g)).comp (lin (csummandV n r r d c k))) (g := (lin (csummandV n r r d c k)).comp (tm (g1 g)))
        (fun key hkey => by
          simp only [LinearMap.comp_apply, lin_single, tm_single, one_smul]
          exact csummandV_g1 g hk.2 (by have h := hkey.1; have h' := hm.1; omega) hkey.2)
        (atK_lengths (R := ZMod n) (k.length - 1) hm.1 hm.2)
      exact this) hu hv
  exact this

end CubNat

namespace Props
open Elem CubNat CElem SurjElem

variable {g : CubeMap} {y : CElem} {n : Nat}

theorem den_cpush (hn : y.torsion = n) : den (ZMod n) (cubicalPushforward g y).data = tm (g1 g) (den _ y.data) := by
  unfold cubicalPushforward
  rw [den_accumulate_zero' _ _ _ rfl hn]
  refine (pr_false _).trans ?_
  generalize y.data = d
  induction d with
  | nil => simp
  | cons p d ih =>
    rw [den_cons, map_add, ← ih, tm_single, tmK_images, List.filterMap_cons]
    cases g.images p.1 with
    | none => simp
    | some k => simp

theorem nf_cpush (y : CElem) : (cubicalPushforward g y).NF cubical := nf_accumulate_zero _ _ _

theorem cpush_attrs (y : CElem) : (cubicalPushforward g y).attrs = y.attrs := by simp [cubicalPushforward]

theorem images_spec {k k' : CKey} (h : g.images k = some k') : k'.length = k.length ∧ CElem.keyDegree k' = CElem.keyDegree k ∧
    ∀ c' ∈ k', ∃ c ∈ k, g.image c = some c' := by
  induction k generalizing k' with
  | nil => cases h; simp
  | cons a k ih =>
    rw [CubeMap.images] at h
    rcases ha : g.image a with _ | a' <;> rcases hk : g.images k with _ | k'' <;> rw [ha, hk] at h <;> cases h
    obtain ⟨h1, h2, h3⟩ := ih hk
    refine ⟨by simp [h1], ?_, ?_⟩
    · rw [CElem.keyDegree, CElem.keyDegree, List.map_cons, List.map_cons, List.sum_cons, List.sum_cons, dimension_image ha]
      rw [CElem.keyDegree, CElem.keyDegree] at h2
      rw [h2]
    · intro c' hc'
      rcases List.mem_cons.1 hc' with rfl | hc'
      · exact ⟨a, by simp, ha⟩
      · obtain ⟨c, hc, e⟩ := h3 c' hc'
        exact ⟨c, by simp [hc], e⟩

theorem mem_cpush {q : CKey × Int} (h : q ∈ (cubicalPushforward g y).data) :
    ∃ p ∈ y.data, g.images p.1 = some q.1 := by
  have := mem_keys_accumulate_zero (List.mem_map_of_mem (f := Prod.fst) h)
  rw [List.mem_map] at this
  obtain ⟨p', hp', e⟩ := this
  obtain ⟨p, hp, e'⟩ := List.mem_filterMap.1 hp'
  rw [Option.map_eq_some_iff] at e'
  obtain ⟨k, hk, rfl⟩ := e'
  exact ⟨p, hp, by rw [hk, ← e]⟩

theorem cpush_keys {e a : Nat} (h : ∀ p ∈ y.data, CElem.keyDegree p.1 = e ∧ p.1.length = a) :
    ∀ p ∈ (cubicalPushforward g y).data, CElem.keyDegree p.1 = e ∧ p.1.length = a := by
  intro q hq
  obtain ⟨p, hp, hi⟩ := mem_cpush hq
  obtain ⟨h1, h2, -⟩ := images_spec hi
  rw [h1, h2]
  exact h p hp

theorem cpush_lengths {N : Nat} (h : ∀ p ∈ y.data, ∀ c ∈ p.1, c.length = N) :
    ∀ p ∈ (cubicalPushforward g y).data, ∀ c ∈ p.1, c.length = newLength g N := by
  intro q hq c hc
  obtain ⟨p, hp, hi⟩ := mem_cpush hq
  obtain ⟨b, hb, hi⟩ := (images_spec hi).2.2 c hc
  rw [length_image hi, h p hp b hb]

theorem cdegree_of_keys {e a : Nat} (hne : y.data ≠ []) (h : ∀ p ∈ y.data, CElem.keyDegree p.1 = e ∧ p.1.length = a) :
    y.degree = some e ∧ y.arity = some a := by
  rw [CElem.degree, CElem.arity, uniqueValue_eq_some, uniqueValue_eq_some]
  refine ⟨⟨by simpa using hne, fun b hb => ?_⟩, by simpa using hne, fun b hb => ?_⟩ <;>
    obtain ⟨q, hq, rfl⟩ := List.mem_map.1 hb
  · exact (h q hq).1
  · exact (h q hq).2

/-- The boundary is natural with respect to the maps of cubes. -/
theorem C90_boundary (g : CubeMap) (y : CElem) : ∃ u v, (cubicalPushforward g y).boundary = .ok u ∧
    y.boundary = .ok v ∧ pyEq u (cubicalPushforward g v) = true := by
  obtain ⟨u, eu⟩ := C28_boundary_ok (cubicalPushforward g y)
  obtain ⟨v, ev⟩ := C28_boundary_ok y
  have t1 : (cubicalPushforward g y).torsion = y.torsion := torsion_congr (cpush_attrs y)
  have tv : v.torsion = y.torsion := torsion_congr (cboundary_attrs ev)
  refine ⟨u, v, eu, ev, pyEq_of_den (n := y.torsion) (nf_cboundary eu) (nf_cpush _)
    ((torsion_congr (cboundary_attrs eu)).trans t1) ((torsion_congr (cpush_attrs _)).trans tv) ?_⟩
  rw [den_cboundary eu t1, den_cpush rfl, den_cpush tv, den_cboundary ev rfl, cubicalD_tm]

/-- The iterated diagonal is natural (whenever it is defined: the package cannot apply it to zero). -/
theorem C90_diagonal (g : CubeMap) {d r : Nat} (hd : y.degree = some d)
    (hr : y.arity = some r) (t c : Nat) (hc : 1 ≤ c) (hcr : c ≤ r) (hne : (cubicalPushforward g y).data ≠ []) :
    ∃ u v, (cubicalPushforward g y).iteratedDiagonal t c = .ok u ∧ y.iteratedDiagonal t c = .ok v ∧
      pyEq u (cubicalPushforward g v) = true := by
  obtain ⟨hd', hr'⟩ := cdegree_of_keys hne (cpush_keys (chomogeneous_keys hd hr))
  obtain ⟨u, eu, nu, au, du⟩ := cIteratedDiagonal_ok hd' hr' t c hc hcr
  obtain ⟨v, ev, nv, av, dv⟩ := cIteratedDiagonal_ok hd hr t c hc hcr
  have t1 : (cubicalPushforward g y).torsion = y.torsion := torsion_congr (cpush_attrs y)
  refine ⟨u, v, eu, ev, pyEq_of_den (n := y.torsion) nu (nf_cpush _) ((torsion_congr au).trans t1)
    ((torsion_congr (cpush_attrs v)).trans (torsion_congr av)) ?_⟩
  rw [t1] at du
  rw [du, den_cpush rfl, den_cpush (torsion_congr av), dv, atL_serre_tm]

/-- The join is natural. -/
theorem C90_join (g : CubeMap) {d r N : Nat} (hy : y.NF cubical) (hd : y.degree = some d) (hr : y.arity = some r) (hr1 : 1 ≤ r)
    (hN : ∀ p ∈ y.data, ∀ c ∈ p.1, c.length = N) :
    ∃ u v, (cubicalPushforward g y).join = .ok u ∧ y.join = .ok v ∧ pyEq u (cubicalPushforward g v) = true := by
  have hk := cpush_keys (g := g) (chomogeneous_keys hd hr)
  obtain ⟨u, eu, nu, au, du⟩ := join_ok' (nf_cpush (g := g) y) (by
    by_cases hne : (cubicalPushforward g y).data = []
    · exact Or.inl hne
    · obtain ⟨hd', hr'⟩ := cdegree_of_keys hne hk
      exact Or.inr ⟨d, r, hd', hr', hr1⟩) (cpush_lengths hN)
  obtain ⟨v, ev, nv, av, dv⟩ := join_ok' hy (Or.inr ⟨d, r, hd, hr, hr1⟩) hN
  have t1 : (cubicalPushforward g y).torsion = y.torsion := torsion_congr (cpush_attrs y)
  refine ⟨u, v, eu, ev, pyEq_of_den (n := y.torsion) nu (nf_cpush _) ((torsion_congr au).trans t1)
    ((torsion_congr (cpush_attrs v)).trans (torsion_congr av)) ?_⟩
  rw [t1] at du
  rw [du, den_cpush rfl, den_cpush (torsion_congr av), dv]
  have h1 : ∀ w : Cube →₀ ZMod y.torsion, mapK (fun c => [c]) w = one w := fun w => by
    induction w using Finsupp.induction_linear with
    | zero => simp
    | add f g hf hg => simp only [map_add, hf, hg]
    | single a b => simp
  rw [h1, h1, tm_one]
  congr 1
  refine den_induction (P := fun w => JN (tm (g1 g) w) = lin (g1 g) (JN w)) y.data (by simp)
    (fun a b ha hb => by simp only [map_add, ha, hb]) ?_
  intro p hp
  rw [tm_single, map_smul, JN_single, map_smul, jn_g1 g (hN p hp)]

/-- The action of the surjections is natural, for every torsion and both conventions. -/
theorem C90_call (g : CubeMap) {x : SurjElem} {r a coord N e : Nat} {d : Int} (hx : InSurj r x) (hd : x.degree = some d)
    (hyd : y.degree = some e) (hya : y.arity = some a) (hN : ∀ p ∈ y.data, ∀ c ∈ p.1, c.length = N)
    (ht : y.torsion = x.torsion) (h1 : 1 ≤ coord) (h2 : coord ≤ a) :
    ∃ u v, callCubical x (cubicalPushforward g y) coord = .ok u ∧ callCubical x y coord = .ok v ∧
      pyEq u (cubicalPushforward g v) = true := by
  have hs : ∀ p ∈ x.data, ((SurjComp.sdeg p.1 : Nat) : Int) = d := fun p hp => SurjElem.sdeg_of_degree hx hd hp
  have hk := chomogeneous_keys hyd hya
  have t1 : (cubicalPushforward g y).torsion = y.torsion := torsion_congr (cpush_attrs y)
  obtain ⟨u, eu, nu, au, du⟩ := callCubical_ok hx hs (cpush_keys (g := g) hk) (cpush_lengths hN) rfl (t1.trans ht) h1 h2
  obtain ⟨v, ev, nv, av, dv⟩ := callCubical_ok hx hs hk hN rfl ht h1 h2
  refine ⟨u, v, eu, ev, pyEq_of_den (n := x.torsion) nu (nf_cpush _) ((torsion_congr au).trans (t1.trans ht))
    ((torsion_congr (cpush_attrs v)).trans ((torsion_congr av).trans ht)) ?_⟩
  rw [du, den_cpush ht, den_cpush ((torsion_congr av).trans ht), dv]
  refine (callCV_g1 (N := N) g ?_ ?_).symm
  · refine den_induction (P := fun w => w ∈ Finsupp.supported (ZMod x.torsion) (ZMod x.torsion)
      {k : Surj | k ≠ [] ∧ ∀ v ∈ k, 1 ≤ v ∧ v ≤ r}) x.data (Submodule.zero_mem _) (fun u v => Submodule.add_mem _) ?_
    intro p hp
    exact Finsupp.single_mem_supported _ _ ⟨SurjElem.onto_ne_nil hx.nf hp, fun v hv => (hx.onto p hp v).1 hv⟩
  · refine den_induction (P := fun w => w ∈ Finsupp.supported (ZMod x.torsion) (ZMod x.torsion)
      {m : CKey | coord - 1 < m.length ∧ ∀ a ∈ m, a.length = N}) y.data (Submodule.zero_mem _)
      (fun u v => Submodule.add_mem _) ?_
    intro p hp
    exact Finsupp.single_mem_supported _ _ ⟨by rw [(hk p hp).2]; omega, hN p hp⟩

/-- The action of the symmetric group is natural. -/
theorem C90_act (g : CubeMap) {s : RingElem} {d r : Nat} (hs : InRing r s) (hsn : s.data ≠ []) (hy : y.NF cubical)
    (hd : y.degree = some d) (hr : y.arity = some r) (ts : s.torsion = y.torsion)
    (hne : (cubicalPushforward g y).data ≠ []) :
    ∃ u v, CElem.rmul s (cubicalPushforward g y) = .ok u ∧ CElem.rmul s y = .ok v ∧
      pyEq u (cubicalPushforward g v) = true := by
  have t1 : (cubicalPushforward g y).torsion = y.torsion := torsion_congr (cpush_attrs y)
  have hY := hasArity_iff hy hr
  have hP := hasArity_iff (nf_cpush y) (cdegree_of_keys hne (cpush_keys (chomogeneous_keys hd hr))).2
  obtain ⟨u, eu, nu, au, -, du⟩ := rmulG_ok (w := cdim) rfl cubical_any hs hsn hP ts t1
  obtain ⟨v, ev, nv, av, -, dv⟩ := rmulG_ok (w := cdim) rfl cubical_any hs hsn hY ts rfl
  refine ⟨u, v, eu, ev, pyEq_of_den (n := y.torsion) nu (nf_cpush _) ((torsion_congr au).trans t1)
    ((torsion_congr (cpush_attrs v)).trans (torsion_congr av)) ?_⟩
  rw [du, den_cpush rfl, den_cpush (torsion_congr av), dv]
  have := BElem.bil_ext_supported (R := ZMod y.torsion) (S := {σ : Perm | σ.length = r}) (T := {k : CKey | k.length = r})
    (f := (actV cdim).compl₂ (tm (g1 g))) (g := (actV (R := ZMod y.torsion) cdim).compr₂ (tm (g1 g)))
    (fun σ hσ k hk => by
      simp only [LinearMap.compl₂_apply, LinearMap.compr₂_apply, tm_single, one_smul]
      rw [bil_bv, bil_bv, lin_single, one_smul]
      exact (actK_g1 g (hk.trans hσ.symm)).symm)
    (u := den _ s.data) (v := den _ y.data) (by
      refine den_induction (P := fun w => w ∈ Finsupp.supported (ZMod y.torsion) (ZMod y.torsion)
        {σ : Perm | σ.length = r}) s.data (Submodule.zero_mem _) (fun u v => Submodule.add_mem _) ?_
      intro p hp
      exact Finsupp.single_mem_supported _ _ (hs.perm p hp).length) (by
      refine den_induction (P := fun w => w ∈ Finsupp.supported (ZMod y.torsion) (ZMod y.torsion)
        {k : CKey | k.length = r}) y.data (Submodule.zero_mem _) (fun u v => Submodule.add_mem _) ?_
      intro p hp
      exact Finsupp.single_mem_supported _ _ (hY.len p hp))
  exact this

/-- A chain of squares in the 3-cube: the projection collapses one of them and identifies the other two. -/
def exCN : CElem := Elem.new cubical [([[2, 0, 2]], 2), ([[2, 1, 2]], 5), ([[2, 2, 1]], 1)]

example : (cubicalPushforward (.projection 1) exCN).data = [([[2, 2]], 7)] ∧
    (cubicalPushforward (.inclusion 1 true) exCN).data = [([[2, 1, 0, 2]], 2), ([[2, 1, 1, 2]], 5), ([[2, 1, 2, 1]], 1)] ∧
    exCN.NF cubical ∧ exCN.degree = some 2 ∧ exCN.arity = some 1 ∧ (∀ p ∈ exCN.data, ∀ c ∈ p.1, c.length = 3) :=
  ⟨by decide, by decide, nf_new _ (by decide) _ _, by decide, by decide, by decide⟩

example : (callCubical (Elem.new surjection [([1, 2, 1], 1)] none .mcClureSmith)
    (cubicalPushforward (.projection 1) exCN)).toOption.map (·.data.length) = some 4 := by
  decide +kernel

end Props
end Comch
