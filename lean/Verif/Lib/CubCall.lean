import Verif.Lib.JoinCode
import Verif.Lib.SurjConv

/-! # Surjections acting on cubes, modulo 2 -/

set_option linter.unusedSectionVars false

namespace Comch.CubCall
open Finsupp (single)
open Comch.Join Serre

variable {R : Type} [CommRing R]

/-! ### joins of consecutive factors of a diagonal vanish -/

/-- No position at which both entries are different end points. -/
def Flat : Cube → Cube → Prop
  | e :: a, f :: b => cj e f = 0 ∧ Flat a b
  | _, _ => True

theorem j2_flat {a b : Cube} (h : Flat a b) : j2 (R := R) a b = 0 := by
  induction a generalizing b with
  | nil => simp [j2]
  | cons e a ih =>
    cases b with
    | nil => simp [j2]
    | cons f b =>
      rw [j2, h.1, ih h.2]
      simp

theorem j2_nil (x : Cube) : j2 (R := R) x [] = 0 := by cases x <;> simp [j2]

theorem bil_j2_nil (v : Cube →₀ R) : bil j2 v (bv R []) = 0 := by
  induction v using Finsupp.induction_linear with
  | zero => simp
  | add f g hf hg => rw [map_add, LinearMap.add_apply, hf, hg, add_zero]
  | single a r => rw [bil_single, j2_nil, smul_zero]

theorem j2_j2_flat (v : Cube) {a b : Cube} (h : Flat a b) : bil j2 (j2 (R := R) v a) (bv R b) = 0 := by
  induction v generalizing a b with
  | nil => simp [j2]
  | cons e v ih =>
    cases a with
    | nil => simp [j2]
    | cons f a =>
      cases b with
      | nil => exact bil_j2_nil _
      | cons g b =>
        have hab : bil j2 (bv R a) (bv R b) = 0 := by
          rw [bil_bv, lin_single, one_smul, j2_flat h.2]
        have h2 : cj 2 g = 0 := by simp [cj]
        have h3 : bil j2 (bv R (2 :: a)) (bv R (g :: b)) = 0 := by
          rw [consV_bv, consV_bv, bil_j2_consV, h2, hab]
          simp
        have h4 : bil j2 (consV e (j2 v a)) (bv R (g :: b)) = 0 := by
          rw [consV_bv, bil_j2_consV, ih h.2, eps_j2]
          simp
        rw [j2, map_add, LinearMap.add_apply]
        have h5 : bil j2 (if cdim v = 0 then ((cj e f : Int) : R) • bv R (2 :: a) else 0) (bv R (g :: b)) = 0 := by
          split
          · rw [map_smul, LinearMap.smul_apply, h3, smul_zero]
          · simp
        have h6 : bil j2 (if f = 2 then 0 else (if e = 2 then (-1 : R) else 1) • consV e (j2 v a))
            (bv R (g :: b)) = 0 := by
          split
          · simp
          · rw [map_smul, LinearMap.smul_apply, h4, smul_zero]
        rw [h5, h6, add_zero]

theorem bil_bil_flat (v : Cube →₀ R) {a b : Cube} (h : Flat a b) : bil j2 (bil j2 v (bv R a)) (bv R b) = 0 := by
  induction v using Finsupp.induction_linear with
  | zero => simp
  | add f g hf hg => simp only [map_add, LinearMap.add_apply, hf, hg, add_zero]
  | single x r =>
    rw [bil_single, mul_one, map_smul, LinearMap.smul_apply, j2_j2_flat x h, smul_zero]

theorem jnL_append (k l : CKey) (v : Cube →₀ R) : jnL (k ++ l) v = jnL l (jnL k v) := by
  induction k generalizing v with
  | nil => simp [jnL]
  | cons b k ih => rw [List.cons_append, jnL_cons, ih, jnL_cons]

theorem jn_flat (k l : CKey) {a b : Cube} (h : Flat a b) : jn (R := R) (k ++ a :: b :: l) = 0 := by
  cases k with
  | nil =>
    rw [List.nil_append, jn, jnL_cons, bil_bv, lin_single, one_smul, j2_flat h, map_zero]
  | cons c k => rw [List.cons_append, jn, jnL_append, jnL_cons, jnL_cons, bil_bil_flat _ h, map_zero]

/-! ### the factors of the diagonal -/

theorem tK_chain {k : CKey} (hk : k.IsChain Flat) :
    tK (R := R) k ∈ Finsupp.supported R R
      {L : CKey | L.IsChain Flat ∧ ∀ b ∈ L.head?, ∃ e a, b = e :: a ∧ (e = 0 ∨ e = 2) ∧ k.head? = some a} := by
  have hmap : ∀ k : CKey, k.IsChain Flat → (k.map (1 :: ·)).IsChain Flat := by
    intro k hk
    rw [List.isChain_map]
    exact hk.imp fun a b h => ⟨by simp [cj], h⟩
  induction k with
  | nil => simp [tK]
  | cons a k ih =>
    rw [tK]
    refine Submodule.add_mem _ (Finsupp.single_mem_supported R _ ?_) (Submodule.smul_mem _ _ ?_)
    · refine ⟨?_, ?_⟩
      · rw [List.isChain_cons]
        refine ⟨?_, hmap k hk.tail⟩
        intro b hb
        cases k with
        | nil => simp at hb
        | cons c k =>
          simp only [List.map_cons, List.head?_cons, Option.mem_def, Option.some.injEq] at hb
          subst hb
          exact ⟨by simp [cj], (List.isChain_cons_cons.1 hk).1⟩
      · intro b hb
        simp only [List.head?_cons, Option.mem_def, Option.some.injEq] at hb
        exact ⟨2, a, hb.symm, Or.inr rfl, rfl⟩
    · refine mapK_supported (T := {L : CKey | L.IsChain Flat ∧ ∀ b ∈ L.head?, ∃ e a', b = e :: a' ∧ (e = 0 ∨ e = 2) ∧
        (a :: k).head? = some a'}) _ (fun L hL => ?_) (ih hk.tail)
      refine ⟨?_, ?_⟩
      · rw [List.isChain_cons]
        refine ⟨?_, hL.1⟩
        intro b hb
        obtain ⟨e, c, rfl, he, hc⟩ := hL.2 b hb
        refine ⟨by rcases he with rfl | rfl <;> simp [cj], ?_⟩
        cases k with
        | nil => simp at hc
        | cons d k =>
          simp only [List.head?_cons, Option.some.injEq] at hc
          subst hc
          exact (List.isChain_cons_cons.1 hk).1
      · intro b hb
        simp only [List.head?_cons, Option.mem_def, Option.some.injEq] at hb
        exact ⟨0, a, hb.symm, Or.inl rfl, rfl⟩

theorem flat_self (a : Cube) : Flat a a := by
  induction a with
  | nil => trivial
  | cons e a ih =>
    refine ⟨?_, ih⟩
    unfold cj
    rw [if_neg (by omega), if_neg (by omega)]

theorem serre_chain (t : Nat) (c : Cube) :
    serre (R := R) t c ∈ Finsupp.supported R R {L : CKey | L.IsChain Flat} := by
  induction c with
  | nil =>
    rw [serre]
    refine Finsupp.single_mem_supported R _ ?_
    show (List.replicate (t + 1) ([] : Cube)).IsChain Flat
    exact List.isChain_replicate_of_rel _ trivial
  | cons e c ih =>
    rw [serre]
    split
    · exact lin_supported _ (fun k hk => Finsupp.supported_mono (fun L hL => hL.1) (tK_chain hk)) ih
    · refine mapK_supported (T := {L : CKey | L.IsChain Flat}) _ (fun L hL => ?_) ih
      have hL : L.IsChain Flat := hL
      show (L.map (e :: ·)).IsChain Flat
      rw [List.isChain_map]
      refine hL.imp fun a b h => ⟨?_, h⟩
      unfold cj
      rw [if_neg (by omega), if_neg (by omega)]

/-! ### omitting a vertex of a diagonal -/

/-- Omit the factor `i`, if it is a vertex. -/
noncomputable def omAt : Nat → CKey → (CKey →₀ R)
  | _, [] => 0
  | 0, a :: k => if cdim a = 0 then bv R k else 0
  | i + 1, a :: k => consV a (omAt i k)

theorem lin_omAt_consV (i : Nat) (a : Cube) (v : CKey →₀ R) :
    lin (omAt (i + 1)) (consV a v) = consV a (lin (omAt i) v) := by
  induction v using Finsupp.induction_linear with
  | zero => simp
  | add f g hf hg => simp only [map_add, hf, hg]
  | single k r => simp [omAt]

theorem omAt_pre {e : Nat} (he : e ≠ 2) (i : Nat) (k : CKey) :
    omAt (R := R) i (k.map (e :: ·)) = pre e (omAt i k) := by
  induction k generalizing i with
  | nil => simp [omAt]
  | cons a k ih =>
    cases i with
    | zero =>
      rw [List.map_cons, omAt, omAt, cdim_cons_ne he]
      split
      · simp
      · simp
    | succ i => rw [List.map_cons, omAt, omAt, ih, pre_consV]

theorem omAt_tK (i : Nat) (k : CKey) : lin (omAt i) (tK (R := R) k) = tL (omAt i k) := by
  induction k generalizing i with
  | nil => simp [tK, omAt]
  | cons a k ih =>
    have h2 : bv R ((2 :: a) :: k.map (1 :: ·)) = consV (2 :: a) (bv R (k.map (1 :: ·))) := by simp
    cases i with
    | zero =>
      have h3 : ∀ (b : Cube) (v : CKey →₀ R), lin (omAt 0) (consV b v) = if cdim b = 0 then v else 0 := by
        intro b v
        induction v using Finsupp.induction_linear with
        | zero => simp
        | add f g hf hg =>
          simp only [map_add, hf, hg]
          split <;> simp
        | single k r =>
          rw [consV_single, lin_single, omAt]
          split
          · rw [← single_eq_smul_bv]
          · simp
      rw [tK, h2, map_add, map_smul, h3, h3, omAt, cdim_two, cdim_cons_ne (by decide)]
      have : ¬ cdim a + 1 = 0 := by
        have : 0 ≤ cdim a := by unfold cdim; omega
        omega
      rw [if_neg this, zero_add]
      split
      · rename_i h
        rw [h]
        simp
      · simp
    | succ i =>
      rw [tK, h2, map_add, map_smul, lin_omAt_consV, lin_omAt_consV, ih, omAt, tL_consV, lin_single, one_smul,
        omAt_pre (by decide)]

theorem omAt_serre (i t : Nat) (hi : i ≤ t + 1) (c : Cube) :
    lin (omAt i) (serre (R := R) (t + 1) c) = serre t c := by
  induction c with
  | nil =>
    rw [serre, serre, lin_single, one_smul]
    induction i generalizing t with
    | zero => simp [List.replicate_succ, omAt, cdim, Cube.dimension]
    | succ i ih =>
      cases t with
      | zero =>
        obtain rfl : i = 0 := by omega
        simp [List.replicate_succ, omAt, cdim, Cube.dimension]
      | succ t =>
        rw [List.replicate_succ, omAt, ih t (by omega)]
        simp [List.replicate_succ]
  | cons e c ih =>
    rw [serre, serre]
    have hT : ∀ v : CKey →₀ R, lin (omAt i) (tL v) = tL (lin (omAt i) v) := by
      intro v
      induction v using Finsupp.induction_linear with
      | zero => simp
      | add f g hf hg => simp only [map_add, hf, hg]
      | single k r => rw [tL_single, map_smul, omAt_tK, lin_single, map_smul]
    have hP : ∀ (he : e ≠ 2) (v : CKey →₀ R), lin (omAt i) (pre e v) = pre e (lin (omAt i) v) := by
      intro he v
      induction v using Finsupp.induction_linear with
      | zero => simp
      | add f g hf hg => simp only [map_add, hf, hg]
      | single k r => rw [mapK_single, lin_single, omAt_pre he, lin_single, map_smul]
    split
    · rw [hT, ih]
    · rename_i he
      rw [hP he, ih]

/-! ### sorting the factors by their labels -/

/-- The factors with labels `1, …, r`. -/
def gam (r : Nat) (W : List (Nat × Cube)) : List CKey :=
  (List.range' 1 r).map fun i => (W.filter fun p => p.1 == i).map Prod.snd

theorem length_gam (r : Nat) (W : List (Nat × Cube)) : (gam r W).length = r := by simp [gam]

theorem gam_append {r i : Nat} (h1 : 1 ≤ i) (w : CKey) (W : List (Nat × Cube)) :
    gam r (w.map (fun a => (i, a)) ++ W) = (gam r W).modify (i - 1) (w ++ ·) := by
  apply List.ext_getElem?
  intro j
  rw [List.getElem?_modify]
  unfold gam
  rw [List.getElem?_map, List.getElem?_map]
  by_cases hj : j < r
  · rw [List.getElem?_range' hj]
    simp only [Option.map_some, List.filter_append, List.map_append, one_mul, Functor.map]
    by_cases h : i - 1 = j
    · have : i = 1 + j := by omega
      subst this
      rw [if_pos h]
      simp [List.filter_map, Function.comp_def]
    · have : ¬ i = 1 + j := by omega
      rw [if_neg h]
      simp [List.filter_map, Function.comp_def, this]
  · rw [List.getElem?_eq_none (by simp; omega)]
    simp

theorem gam_cons {r i : Nat} (h1 : 1 ≤ i) (a : Cube) (W : List (Nat × Cube)) :
    gam r ((i, a) :: W) = (gam r W).modify (i - 1) (a :: ·) := gam_append h1 [a] W

/-! ### derivations -/

section Th
variable (θ : Cube → (CKey →₀ R))

noncomputable def thK : CKey → (CKey →₀ R)
  | [] => 0
  | a :: L => cat (θ a) (bv R L) + consV a (thK L)

noncomputable def thT : List CKey → (List CKey →₀ R)
  | [] => 0
  | g :: G => cat (one (thK θ g)) (bv R G) + consV g (thT G)

noncomputable def thW : List (Nat × Cube) → (List (Nat × Cube) →₀ R)
  | [] => 0
  | p :: W => mapK (fun w : CKey => w.map (fun a => (p.1, a)) ++ W) (θ p.2) + consV p (thW W)

theorem mapK_mapK' {A B C : Type} (f : B → C) (g : A → B) (v : A →₀ R) : mapK f (mapK g v) = mapK (fun a => f (g a)) v := by
  induction v using Finsupp.induction_linear with
  | zero => simp
  | add f g hf hg => simp only [map_add, hf, hg]
  | single k r => simp

theorem cat_bv_right {A : Type} (v : List A →₀ R) (l : List A) : cat v (bv R l) = mapK (· ++ l) v := by
  induction v using Finsupp.induction_linear with
  | zero => simp
  | add f g hf hg => simp only [map_add, LinearMap.add_apply, hf, hg]
  | single k r => simp

theorem consV_mapK {A : Type} (a : A) (v : List A →₀ R) : consV a v = mapK (a :: ·) v := rfl

theorem thT_modify (a : Cube) (G : List CKey) (i : Nat) (hi : i < G.length) :
    thT θ (G.modify i (a :: ·)) = mapK (fun w => G.modify i (w ++ ·)) (θ a) +
      mapK (fun G' => G'.modify i (a :: ·)) (thT θ G) := by
  induction G generalizing i with
  | nil => simp at hi
  | cons g G ih =>
    cases i with
    | zero =>
      simp only [List.modify_zero_cons, thT, thK, cat_one_bv]
      simp only [map_add, consV_mapK, mapK_mapK', cat_bv_right, List.modify_zero_cons]
      abel
    | succ i =>
      simp only [List.modify_succ_cons, thT, ih i (by simpa using hi), map_add, cat_one_bv, consV_mapK, mapK_mapK']
      abel

theorem thT_gam (r : Nat) (W : List (Nat × Cube)) (hW : ∀ p ∈ W, 1 ≤ p.1 ∧ p.1 ≤ r) :
    thT θ (gam r W) = mapK (gam r) (thW θ W) := by
  induction W with
  | nil =>
    have : ∀ l : List Nat, thT θ (l.map fun _ => ([] : CKey)) = 0 := by
      intro l
      induction l with
      | nil => rfl
      | cons x l ih => rw [List.map_cons, thT, ih, thK]; simp
    rw [thW, map_zero]
    exact this _
  | cons p W ih =>
    obtain ⟨i, a⟩ := p
    have hi := hW (i, a) (by simp)
    rw [gam_cons hi.1, thT_modify _ _ _ _ (by rw [length_gam]; omega), ih (fun q hq => hW q (by simp [hq])), thW,
      map_add, mapK_mapK', consV_mapK, mapK_mapK', mapK_mapK']
    congr 2
    · congr 1
      funext w
      exact (gam_append hi.1 w W).symm
    · congr 1
      funext w
      exact (gam_cons hi.1 a w).symm

end Th

/-! ### modulo 2 -/

section Two
variable [CharP R 2]

theorem sg_char (a : Int) : sg R a = 1 := by
  unfold sg
  rcases pySign_eq_one_or a with h | h <;> rw [h]
  · simp
  · have : (-1 : R) = 1 := CharTwo.neg_eq 1
    simpa using this

theorem neg_char {M : Type} [AddCommGroup M] [Module R M] (v : M) : -v = v := by
  have : (-1 : R) = 1 := CharTwo.neg_eq 1
  calc -v = (-1 : R) • v := by simp
    _ = v := by rw [this, one_smul]

/-- The faces and the omission of a vertex. -/
noncomputable def tht (a : Cube) : CKey →₀ R := one (cubeD a) + if cdim a = 0 then bv R [] else 0

theorem thK_tht (g : CKey) : thK (R := R) tht g = tensK cubeD cdim g + omK g := by
  induction g with
  | nil => simp [thK, tensK, omK]
  | cons a g ih =>
    rw [thK, ih, tensK, omK, sub_eq_add_neg, neg_char (R := R), sg_char, one_smul, tht]
    simp only [map_add, LinearMap.add_apply]
    have : cat (if cdim a = 0 then bv R [] else 0) (bv R g) = if cdim a = 0 then bv R g else 0 := by
      split <;> simp
    rw [this]
    abel

theorem cubeD_jn_two {n : Nat} (g : CKey) (hg : ∀ c ∈ g, IsCube n c) :
    lin cubeD (jn (R := R) g) = JN (thK tht g) := by
  rw [cubeD_jn g hg, thK_tht, ← sg_natCast, sg_char, one_smul, sub_eq_add_neg, neg_char (R := R), map_add]

theorem cubicalD_cat (u v : CKey →₀ R) : cubicalD (cat u v) = cat (cubicalD u) v + cat u (cubicalD v) := by
  rw [cubicalD, tens_cat]
  have : ∀ u : CKey →₀ R, sgn cdim u = u := by
    intro u
    induction u using Finsupp.induction_linear with
    | zero => simp
    | add f g hf hg => rw [map_add, hf, hg]
    | single k r => rw [sgn_single, sg_char, mul_one, ← single_eq_smul_bv]
  rw [this]

theorem cubicalD_tmK {n : Nat} (G : List CKey) (hG : ∀ g ∈ G, ∀ c ∈ g, IsCube n c) :
    cubicalD (tmK (jn (R := R)) G) = tm jn (thT tht G) := by
  induction G with
  | nil => simp [tmK, thT, cubicalD, tensK]
  | cons g G ih =>
    rw [tmK, cubicalD_cat, ih (fun g hg => hG g (by simp [hg])), thT, map_add, tm_cat, tm_one, tm_consV]
    congr 2
    · rw [cubicalD, tens_one, cubeD_jn_two g (hG g (by simp))]
      rfl
    · simp

theorem thW_zip (k : List Nat) (L : CKey) (h : k.length = L.length) :
    thW (R := R) tht (k.zip L) = mapK (fun L' => k.zip L') (tensK cubeD cdim L) +
      ((List.range k.length).map fun i => mapK (fun L' => (k.eraseIdx i).zip L') (omAt i L)).sum := by
  induction k generalizing L with
  | nil =>
    obtain rfl := List.length_eq_zero_iff.1 h.symm
    simp [thW, tensK]
  | cons x k ih =>
    cases L with
    | nil => simp at h
    | cons a L =>
      rw [List.zip_cons_cons, thW, ih L (by simpa using h), tensK, List.length_cons, List.range_succ_eq_map,
        List.map_cons, List.sum_cons, List.map_map, sg_char, one_smul, tht, map_add, map_add, map_add, map_list_sum,
        List.map_map]
      have e1 : mapK (fun w : CKey => w.map (fun a => (x, a)) ++ k.zip L) (one (cubeD (R := R) a)) =
          mapK (fun L' => (x :: k).zip L') (cat (one (cubeD a)) (bv R L)) := by
        rw [cat_one_bv]
        have h1 : ∀ v : Cube →₀ R, one v = mapK (fun c => [c]) v := by
          intro v
          induction v using Finsupp.induction_linear with
          | zero => simp
          | add f g hf hg => rw [map_add, hf, hg, map_add]
          | single k r => simp
        rw [h1, mapK_mapK', mapK_mapK']
        rfl
      have e2 : mapK (fun w : CKey => w.map (fun a => (x, a)) ++ k.zip L) (if cdim a = 0 then bv R [] else 0) =
          mapK (fun L' => ((x :: k).eraseIdx 0).zip L') (omAt 0 (a :: L)) := by
        rw [omAt]
        split
        · simp
        · simp
      have e3 : consV (x, a) (mapK (fun L' => k.zip L') (tensK (R := R) cubeD cdim L)) =
          mapK (fun L' => (x :: k).zip L') (consV a (tensK cubeD cdim L)) := by
        rw [consV_mapK, consV_mapK, mapK_mapK', mapK_mapK']
        rfl
      have e4 : (List.map ((consV (R := R) (x, a)) ∘ fun i => mapK (fun L' => (k.eraseIdx i).zip L') (omAt i L))
          (List.range k.length)) =
          List.map ((fun i => mapK (fun L' => ((x :: k).eraseIdx i).zip L') (omAt i (a :: L))) ∘ Nat.succ)
          (List.range k.length) := by
        apply List.map_congr_left
        intro i _
        simp only [Function.comp_apply, Nat.succ_eq_add_one, List.eraseIdx_cons_succ]
        rw [omAt, consV_mapK, consV_mapK, mapK_mapK', mapK_mapK']
        rfl
      rw [e1, e2, e3, e4]
      abel

end Two

/-! ### the action -/

/-- A surjection applied to a tensor with as many factors as its length. -/
noncomputable def ac (r : Nat) (k : List Nat) (L : CKey) : CKey →₀ R := tmK jn (gam r (k.zip L))

/-- A surjection applied to a cube. -/
noncomputable def cact (r : Nat) (k : List Nat) (a : Cube) : CKey →₀ R := lin (ac r k) (serre (k.length - 1) a)

theorem tmK_zero_of {A B : Type} (f : A → (B →₀ R)) {k : List A} {a : A} (ha : a ∈ k) (h : f a = 0) : tmK f k = 0 := by
  induction k with
  | nil => simp at ha
  | cons b k ih =>
    rw [tmK]
    rcases List.mem_cons.1 ha with rfl | ha
    · rw [h]; simp
    · rw [ih ha]; simp

theorem gam_mem {r i : Nat} (h1 : 1 ≤ i) (h2 : i ≤ r) (W : List (Nat × Cube)) :
    (W.filter fun p => p.1 == i).map Prod.snd ∈ gam r W := by
  unfold gam
  exact List.mem_map.2 ⟨i, List.mem_range'_1.2 ⟨h1, by omega⟩, rfl⟩

/-- Missing values give zero. -/
theorem ac_missing {r i : Nat} (h1 : 1 ≤ i) (h2 : i ≤ r) {k : List Nat} (hi : i ∉ k) (L : CKey) :
    ac (R := R) r k L = 0 := by
  refine tmK_zero_of jn (gam_mem h1 h2 (k.zip L)) ?_
  have : (k.zip L).filter (fun p => p.1 == i) = [] := by
    rw [List.filter_eq_nil_iff]
    rintro ⟨x, a⟩ hp
    have := (List.of_mem_zip hp).1
    simp only [beq_iff_eq]
    rintro rfl
    exact hi this
  rw [this]
  simp [jn]

/-- Repetitions give zero on flat tensors. -/
theorem ac_hasRep {r : Nat} {k : List Nat} (hk : ∀ v ∈ k, 1 ≤ v ∧ v ≤ r) (hrep : hasRep k = true) {L : CKey}
    (hL : L.IsChain Flat) (hl : L.length = k.length) : ac (R := R) r k L = 0 := by
  have hsplit : ∃ (x : Nat) (a b : Cube) (W1 W2 : List (Nat × Cube)), k.zip L = W1 ++ (x, a) :: (x, b) :: W2 ∧
      Flat a b ∧ x ∈ k := by
    clear hk
    induction k generalizing L with
    | nil => simp [hasRep] at hrep
    | cons x k ih =>
      cases L with
      | nil => simp at hl
      | cons a L =>
        cases k with
        | nil => simp [hasRep] at hrep
        | cons y k =>
          cases L with
          | nil => simp at hl
          | cons b L =>
            by_cases hxy : x = y
            · subst hxy
              exact ⟨x, a, b, [], k.zip L, rfl, (List.isChain_cons_cons.1 hL).1, by simp⟩
            · have hrep' : hasRep (y :: k) = true := by
                rw [hasRep] at hrep
                simpa [hxy] using hrep
              obtain ⟨z, a', b', W1, W2, h1, h2, h3⟩ := ih hrep' hL.tail (by simpa using hl)
              exact ⟨z, a', b', (x, a) :: W1, W2, by
                rw [List.zip_cons_cons]; exact congrArg _ h1, h2, by simp [List.mem_cons.1 h3]⟩
  obtain ⟨x, a, b, W1, W2, h1, h2, h3⟩ := hsplit
  refine tmK_zero_of jn (gam_mem (hk x h3).1 (hk x h3).2 (k.zip L)) ?_
  rw [h1]
  simp only [List.filter_append, List.filter_cons, beq_self_eq_true, if_true, List.map_append, List.map_cons]
  exact jn_flat _ _ h2

theorem cact_drop {r : Nat} {k : List Nat} (hk : ∀ v ∈ k, 1 ≤ v ∧ v ≤ r) (hne : k ≠ [])
    (h : hasRep k = true ∨ ∃ i, 1 ≤ i ∧ i ≤ r ∧ i ∉ k) (a : Cube) : cact (R := R) r k a = 0 := by
  unfold cact
  rcases h with h | ⟨i, h1, h2, h3⟩
  · have h4 := serre_chain (R := R) (k.length - 1) a
    have h5 := serre_supported (R := R) (k.length - 1) a
    have := BElem.lin_ext_supported (R := R)
      (S := {L : CKey | L.IsChain Flat} ∩ ND (k.length - 1 + 1) (cdim a)) (f := lin (ac (R := R) r k)) (g := 0) (fun L hL => by
        rw [lin_single, one_smul, ac_hasRep hk h hL.1 ?_, LinearMap.zero_apply]
        have := hL.2.1
        have := List.length_pos_iff.2 hne
        omega) (by
        rw [Finsupp.mem_supported] at h4 h5 ⊢
        exact Set.subset_inter h4 h5)
    simpa using this
  · have : ac (R := R) r k = fun _ => 0 := by
      funext L
      exact ac_missing h1 h2 h3 L
    rw [this]
    generalize serre (R := R) (k.length - 1) a = v
    induction v using Finsupp.induction_linear with
    | zero => simp
    | add f g hf hg => rw [map_add, hf, hg, add_zero]
    | single k r => simp

theorem serre_isCube {n : Nat} (t : Nat) (a : Cube) (ha : IsCube n a) :
    serre (R := R) t a ∈ Finsupp.supported R R {L : CKey | ∀ c ∈ L, IsCube n c} := by
  induction a generalizing n with
  | nil =>
    rw [serre]
    refine Finsupp.single_mem_supported R _ ?_
    intro c hc
    rw [List.eq_of_mem_replicate hc]
    exact ha
  | cons e a ih =>
    obtain ⟨n, rfl⟩ : ∃ n', n = n' + 1 := ⟨a.length, by rw [← ha.1]; simp⟩
    have ha' : IsCube n a := ⟨by simpa using ha.1, fun e he => ha.2 e (by simp [he])⟩
    have hcons : ∀ (f : Nat) (x : Cube), f ≤ 2 → IsCube n x → IsCube (n + 1) (f :: x) := by
      intro f x hf hx
      refine ⟨by simp [hx.1], ?_⟩
      intro a ha
      rcases List.mem_cons.1 ha with rfl | ha
      · exact hf
      · exact hx.2 a ha
    have hmap : ∀ (f : Nat) (L : CKey), f ≤ 2 → (∀ c ∈ L, IsCube n c) → ∀ c ∈ L.map (f :: ·), IsCube (n + 1) c := by
      intro f L hf hL c hc
      obtain ⟨x, hx, rfl⟩ := List.mem_map.1 hc
      exact hcons f x hf (hL x hx)
    rw [serre]
    split
    · refine lin_supported _ (fun k hk => ?_) (ih ha')
      have hk : ∀ c ∈ k, IsCube n c := hk
      clear ih
      induction k with
      | nil => simp [tK]
      | cons b k ihk =>
        have hk' : ∀ c ∈ k, IsCube n c := fun c hc => hk c (by simp [hc])
        rw [tK]
        refine Submodule.add_mem _ (Finsupp.single_mem_supported R _ ?_) (Submodule.smul_mem _ _ ?_)
        · intro c hc
          rcases List.mem_cons.1 hc with rfl | hc
          · exact hcons 2 b le_rfl (hk b (by simp))
          · exact hmap 1 k (by omega) hk' c hc
        · refine mapK_supported (T := {L : CKey | ∀ c ∈ L, IsCube (n + 1) c}) _ (fun L hL => ?_) (ihk hk' hk')
          intro c hc
          rcases List.mem_cons.1 hc with rfl | hc
          · exact hcons 0 b (by omega) (hk b (by simp))
          · exact hL c hc
    · exact mapK_supported (T := {L : CKey | ∀ c ∈ L, IsCube (n + 1) c}) _
        (fun L hL => hmap e L (ha.2 e (by simp)) hL) (ih ha')

section Two
variable [CharP R 2]

theorem gam_sub {r : Nat} {W : List (Nat × Cube)} {g : CKey} (hg : g ∈ gam r W) {c : Cube} (hc : c ∈ g) :
    ∃ p ∈ W, p.2 = c := by
  obtain ⟨i, -, rfl⟩ := List.mem_map.1 hg
  obtain ⟨p, hp, rfl⟩ := List.mem_map.1 hc
  exact ⟨p, (List.mem_filter.1 hp).1, rfl⟩

theorem cubicalD_ac {n r : Nat} {k : List Nat} (hk : ∀ v ∈ k, 1 ≤ v ∧ v ≤ r) {L : CKey} (hL : ∀ c ∈ L, IsCube n c)
    (hl : L.length = k.length) :
    cubicalD (ac (R := R) r k L) = lin (ac r k) (tensK cubeD cdim L) +
      ((List.range k.length).map fun i => lin (ac r (k.eraseIdx i)) (omAt i L)).sum := by
  rw [ac, cubicalD_tmK (n := n) _ (fun g hg c hc => by
      obtain ⟨p, hp, rfl⟩ := gam_sub hg hc
      exact hL _ (List.of_mem_zip hp).2),
    thT_gam _ _ _ (fun p hp => hk _ (List.of_mem_zip hp).1), thW_zip k L hl.symm, map_add, map_add, map_list_sum,
    map_list_sum, List.map_map, List.map_map]
  have h : ∀ (m : List Nat) (v : CKey →₀ R), tm jn (mapK (gam r) (mapK (fun L' => m.zip L') v)) = lin (ac r m) v := by
    intro m v
    induction v using Finsupp.induction_linear with
    | zero => simp
    | add f g hf hg => simp only [map_add, hf, hg]
    | single k s => simp [ac]
  rw [h]
  congr 2
  apply List.map_congr_left
  intro i _
  simp only [Function.comp_apply]
  rw [h]

theorem cubicalD_cact {n r : Nat} {k : List Nat} (hk : ∀ v, v ∈ k ↔ 1 ≤ v ∧ v ≤ r) (hne : k ≠ []) {a : Cube}
    (ha : IsCube n a) (c : Convention) :
    cubicalD (cact (R := R) r k a) = lin (fun m => cact r m a) (sbd c (bv R k)) + lin (cact r k) (cubeD a) := by
  have hkl := List.length_pos_iff.2 hne
  have hstep := BElem.lin_ext_supported (R := R)
    (S := ND (k.length - 1 + 1) (cdim a) ∩ {L : CKey | ∀ c ∈ L, IsCube n c})
    (f := cubicalD.comp (lin (ac (R := R) r k)))
    (g := (lin (ac r k)).comp cubicalD +
      ((List.range k.length).map fun i => (lin (ac (R := R) r (k.eraseIdx i))).comp (lin (omAt i))).sum)
    (fun L hL => by
      have h0 := cubicalD_ac (R := R) (fun v hv => (hk v).1 hv) hL.2 (by have := hL.1.1; omega)
      rw [LinearMap.comp_apply, lin_single, one_smul, h0, LinearMap.add_apply, LinearMap.comp_apply]
      congr 1
      · simp [cubicalD]
      · generalize List.range k.length = l
        induction l with
        | nil => simp
        | cons i l ih => rw [List.map_cons, List.sum_cons, List.map_cons, List.sum_cons, LinearMap.add_apply, ih]; simp)
    (v := serre (k.length - 1) a) (by
      have h4 := serre_isCube (R := R) (k.length - 1) a ha
      have h5 := serre_supported (R := R) (k.length - 1) a
      rw [Finsupp.mem_supported] at h4 h5 ⊢
      exact Set.subset_inter h5 h4)
  rw [LinearMap.comp_apply, LinearMap.add_apply, LinearMap.comp_apply, cubicalD_serre] at hstep
  rw [cact, hstep, add_comm]
  congr 1
  · rw [sbd_mod_two, map_list_sum, List.map_map]
    have hsum : ∀ l : List Nat, (l.map fun i => (lin (ac (R := R) r (k.eraseIdx i))).comp (lin (omAt i))).sum
        (serre (k.length - 1) a) = (l.map fun i => lin (ac (R := R) r (k.eraseIdx i))
          (lin (omAt i) (serre (k.length - 1) a))).sum := by
      intro l
      induction l with
      | nil => simp
      | cons i l ih => rw [List.map_cons, List.sum_cons, List.map_cons, List.sum_cons, LinearMap.add_apply, ih]; simp
    rw [hsum]
    congr 1
    apply List.map_congr_left
    intro i hi
    rw [List.mem_range] at hi
    have hgi : k.getD i 0 = k[i] := by rw [List.getD_eq_getElem?_getD, List.getElem?_eq_getElem hi]; rfl
    simp only [Function.comp_apply]
    by_cases h2 : 2 ≤ k.count (k.getD i 0)
    · rw [if_pos h2, lin_single, one_smul, cact]
      have hl2 : 2 ≤ k.length := h2.trans List.count_le_length
      rw [List.length_eraseIdx_of_lt hi]
      obtain ⟨t, ht⟩ : ∃ t, k.length = t + 2 := ⟨k.length - 2, by omega⟩
      rw [ht, show t + 2 - 1 = t + 1 by omega, omAt_serre i t (by omega), show t + 1 - 1 = t by omega]
    · rw [if_neg h2, map_zero]
      have hmem : k[i] ∈ k := List.getElem_mem hi
      have hr := (hk _).1 hmem
      have hnot : k[i] ∉ k.eraseIdx i := by
        intro hm
        rw [hgi] at h2
        have hp : k.Perm (k[i] :: k.eraseIdx i) := (List.getElem_cons_eraseIdx_perm hi).symm
        have := hp.count_eq k[i]
        rw [List.count_cons_self] at this
        have := List.count_pos_iff.2 hm
        omega
      have : ac (R := R) r (k.eraseIdx i) = fun _ => 0 := by
        funext L
        exact ac_missing hr.1 hr.2 hnot L
      rw [this]
      generalize lin (omAt i) (serre (R := R) (k.length - 1) a) = v
      induction v using Finsupp.induction_linear with
      | zero => simp
      | add f g hf hg => rw [map_add, hf, hg, add_zero]
      | single k r => simp
  · generalize cubeD (R := R) a = v
    induction v using Finsupp.induction_linear with
    | zero => simp
    | add f g hf hg => simp only [map_add, hf, hg]
    | single b s => simp [cact]

end Two

end Comch.CubCall
