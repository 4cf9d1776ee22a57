import Verif.Lib.CubCall
import Verif.Lib.SurjCall

/-! # The Cartan–Serre map and the actions of the surjection operad -/

set_option linter.unusedSectionVars false

namespace Comch.CubCS
open Finsupp (single)
open Comch.Join Serre CubCall

variable {R : Type} [CommRing R]

/-- At each position the first cube has a `0` or the second cube has a `1`. -/
def Ord : Cube → Cube → Prop
  | e :: a, f :: b => (e = 0 ∨ f = 1) ∧ Ord a b
  | _, _ => True

/-! ### the factors of the diagonal are ordered -/

theorem tK_ord {k : CKey} (hk : k.Pairwise Ord) :
    tK (R := R) k ∈ Finsupp.supported R R {L : CKey | L.Pairwise Ord ∧ ∀ b ∈ L, ∃ e, ∃ a ∈ k, b = e :: a} := by
  induction k with
  | nil => simp [tK]
  | cons a k ih =>
    rw [List.pairwise_cons] at hk
    rw [tK]
    refine Submodule.add_mem _ (Finsupp.single_mem_supported R _ ?_) (Submodule.smul_mem _ _ ?_)
    · refine ⟨?_, ?_⟩
      · rw [List.pairwise_cons]
        refine ⟨?_, ?_⟩
        · intro b hb
          obtain ⟨c, hc, rfl⟩ := List.mem_map.1 hb
          exact ⟨Or.inr rfl, hk.1 c hc⟩
        · rw [List.pairwise_map]
          exact hk.2.imp fun h => ⟨Or.inr rfl, h⟩
      · intro b hb
        rcases List.mem_cons.1 hb with rfl | hb
        · exact ⟨2, a, by simp, rfl⟩
        · obtain ⟨c, hc, rfl⟩ := List.mem_map.1 hb
          exact ⟨1, c, by simp [hc], rfl⟩
    · refine mapK_supported (T := {L : CKey | L.Pairwise Ord ∧ ∀ b ∈ L, ∃ e, ∃ c ∈ a :: k, b = e :: c}) _ (fun L hL => ?_) (ih hk.2)
      refine ⟨?_, ?_⟩
      · rw [List.pairwise_cons]
        refine ⟨?_, hL.1⟩
        intro b hb
        obtain ⟨e, c, hc, rfl⟩ := hL.2 b hb
        exact ⟨Or.inl rfl, hk.1 c hc⟩
      · intro b hb
        rcases List.mem_cons.1 hb with rfl | hb
        · exact ⟨0, a, by simp, rfl⟩
        · obtain ⟨e, c, hc, rfl⟩ := hL.2 b hb
          exact ⟨e, c, by simp [hc], rfl⟩

theorem serre_ord {n : Nat} (t : Nat) (c : Cube) (hc : IsCube n c) :
    serre (R := R) t c ∈ Finsupp.supported R R {L : CKey | L.Pairwise Ord} := by
  induction c generalizing n with
  | nil =>
    rw [serre]
    refine Finsupp.single_mem_supported R _ ?_
    show (List.replicate (t + 1) ([] : Cube)).Pairwise Ord
    exact List.pairwise_replicate.2 (Or.inr trivial)
  | cons e c ih =>
    have hc' : IsCube (n - 1) c := ⟨by have := hc.1; simp at this; omega, fun e he => hc.2 e (by simp [he])⟩
    rw [serre]
    split
    · exact lin_supported _ (fun k hk => Finsupp.supported_mono (fun L hL => hL.1) (tK_ord hk)) (ih hc')
    · refine mapK_supported (T := {L : CKey | L.Pairwise Ord}) _ (fun L hL => ?_) (ih hc')
      have hL : L.Pairwise Ord := hL
      show (L.map (e :: ·)).Pairwise Ord
      rw [List.pairwise_map]
      have := hc.2 e (by simp)
      exact hL.imp fun h => ⟨by omega, h⟩

/-! ### the collapse of a join -/

theorem hasRep_sh (s : Simplex) : hasRep (s.map (· + 1)) = hasRep s := by
  induction s with
  | nil => rfl
  | cons a s ih =>
    cases s with
    | nil => rfl
    | cons b s =>
      simp only [List.map_cons, hasRep] at ih ⊢
      rw [ih]
      congr 1
      rw [Bool.eq_iff_iff]
      simp

theorem hasRep_append (s t : List Nat) (h : hasRep s = true) : hasRep (s ++ t) = true := by
  induction s with
  | nil => simp [hasRep] at h
  | cons a s ih =>
    cases s with
    | nil => simp [hasRep] at h
    | cons b s =>
      simp only [List.cons_append, hasRep, Bool.or_eq_true] at h ih ⊢
      exact h.imp id ih

theorem pr_sh (v : Simplex →₀ R) : pr hasRep (sh v) = sh (pr hasRep v) := by
  induction v using Finsupp.induction_linear with
  | zero => simp
  | add f g hf hg => simp only [map_add, hf, hg]
  | single s r =>
    rw [mapK_single, pr_single, pr_single, hasRep_sh]
    split <;> simp

theorem pr_consV_congr (a : Nat) {v w : Simplex →₀ R} (h : pr hasRep v = pr hasRep w) :
    pr hasRep (consV a v) = pr hasRep (consV a w) := by
  have := pr_consV (drops := hasRep) (a := a) (fun k hk => hasRep_cons hk) (v := v - w) (by rw [map_sub, h, sub_self])
  rwa [map_sub, map_sub, sub_eq_zero] at this

theorem pr_cat_left (u w : Simplex →₀ R) : pr hasRep (cat (pr hasRep u) w) = pr hasRep (cat u w) := by
  have := pr_lin_pr (R := R) (drops := hasRep) (drops' := hasRep) (cat.flip w) (fun k hk => by
    rw [LinearMap.flip_apply]
    induction w using Finsupp.induction_linear with
    | zero => simp
    | add f g hf hg => simp only [map_add, hf, hg, add_zero]
    | single s r => rw [cat_single_single, pr_single, hasRep_append _ _ hk]; simp) u
  exact this

theorem sh_cat (u v : Simplex →₀ R) : sh (cat u v) = cat (sh u) (sh v) := by
  induction u using Finsupp.induction_linear with
  | zero => simp
  | add f g hf hg => simp only [map_add, LinearMap.add_apply, hf, hg]
  | single k r =>
    induction v using Finsupp.induction_linear with
    | zero => simp
    | add f g hf hg => simp only [map_add, hf, hg]
    | single l s => simp

theorem cat_consV (a : Nat) (u v : Simplex →₀ R) : cat (consV a u) v = consV a (cat u v) := by
  rw [consV_eq_cat, consV_eq_cat, cat_assoc]

theorem pr_cat_zero {x : R} {v : Simplex →₀ R} (hv : ∃ w, v = consV 0 w) : pr hasRep (cat (x • bv R [0]) v) = 0 := by
  obtain ⟨w, rfl⟩ := hv
  rw [map_smul, LinearMap.smul_apply, map_smul]
  have : pr hasRep (cat (bv R [0]) (consV 0 w)) = 0 := by
    induction w using Finsupp.induction_linear with
    | zero => simp
    | add f g hf hg => simp only [map_add, hf, hg, add_zero]
    | single s r => simp [pr_single, hasRep]
  rw [this, smul_zero]

theorem cs1_zero (c : Cube) : cs1 (R := R) (0 :: c) = eps (bv R c) • bv R [0] := by
  rw [cs1, if_neg (by decide), if_pos rfl, eps_single]
  split <;> simp

/-- The collapse of the join of ordered cubes. -/
theorem cs1_j2 {n : Nat} {x y : Cube} (hx : IsCube n x) (hy : IsCube n y) (h : Ord x y) :
    pr hasRep (lin cs1 (j2 (R := R) x y)) = sg R (cdim x) • pr hasRep (cat (cs1 x) (cs1 y)) := by
  induction n generalizing x y with
  | zero =>
    obtain rfl := List.length_eq_zero_iff.1 hx.1
    obtain rfl := List.length_eq_zero_iff.1 hy.1
    simp [j2, cs1, hasRep, pr_single]
  | succ n ih =>
    obtain ⟨e, x, rfl⟩ := List.exists_cons_of_length_pos (l := x) (by rw [hx.1]; omega)
    obtain ⟨f, y, rfl⟩ := List.exists_cons_of_length_pos (l := y) (by rw [hy.1]; omega)
    have hx' : IsCube n x := ⟨by simpa using hx.1, fun e he => hx.2 e (by simp [he])⟩
    have hy' : IsCube n y := ⟨by simpa using hy.1, fun e he => hy.2 e (by simp [he])⟩
    have ih := ih hx' hy' h.2
    have he : e ≤ 2 := hx.2 e (by simp)
    have hf : f ≤ 2 := hy.2 f (by simp)
    have h2 : ∀ c : Cube, cs1 (R := R) (2 :: c) = consV 0 (sh (cs1 c)) := fun c => by rw [cs1, if_pos rfl]
    have h1 : ∀ c : Cube, cs1 (R := R) (1 :: c) = sh (cs1 c) := fun c => by
      rw [cs1, if_neg (by decide), if_neg (by decide)]
    rcases Nat.eq_zero_or_pos e with rfl | he0
    · -- first entry zero
      have hz : lin cs1 (consV 0 (j2 (R := R) x y)) = 0 := by rw [lin_cs1_consV_zero, eps_j2, zero_smul]
      rcases (by omega : f = 0 ∨ f = 1 ∨ f = 2) with rfl | rfl | rfl
      · rw [j2]
        simp only [cj, map_add]
        simp only [one_ne_zero, zero_ne_one, and_false, false_and, if_false, Int.cast_zero, zero_smul, ite_self,
          map_zero, zero_add, OfNat.zero_ne_ofNat, one_smul, hz]
        rw [cs1_zero, cs1_zero, map_smul, map_smul (pr hasRep), pr_cat_zero ⟨bv R [], by simp⟩]
        simp
      · rw [j2]
        simp only [cj, map_add, and_self, if_true, Int.cast_one, one_smul, OfNat.one_ne_ofNat, if_false, OfNat.zero_ne_ofNat, hz,
          add_zero]
        rw [cs1_zero, h1, eps_single, cdim_cons_ne (by decide)]
        by_cases hd : cdim x = 0
        · rw [if_pos hd, if_pos hd, hd, lin_single, one_smul, h2]
          simp [← consV_eq_cat]
        · rw [if_neg hd, if_neg hd]
          simp
      · rw [j2]
        simp only [cj, if_true, add_zero]
        rw [cs1_zero, h2, pr_cat_zero ⟨_, rfl⟩]
        simp
    · have hf1 : f = 1 := by
        rcases h.1 with h | h
        · omega
        · exact h
      subst hf1
      rcases (by omega : e = 1 ∨ e = 2) with rfl | rfl
      · rw [j2]
        simp only [cj, one_ne_zero, zero_ne_one, and_false, false_and, if_false, Int.cast_zero, zero_smul, ite_self,
          zero_add, OfNat.one_ne_ofNat, one_smul]
        rw [lin_cs1_consV_ne (by decide) (by decide), h1, h1, ← sh_cat, pr_sh, pr_sh, ih, cdim_cons_ne (by decide), map_smul]
      · rw [j2]
        simp only [cj, OfNat.ofNat_ne_zero, OfNat.ofNat_ne_one, zero_ne_one, and_false, false_and, if_false, Int.cast_zero, zero_smul, ite_self,
          zero_add, OfNat.one_ne_ofNat, if_true]
        rw [map_smul, lin_cs1_consV_two, h2, h1, cat_consV, ← sh_cat, map_smul]
        have := pr_consV_congr (R := R) 0 (v := sh (lin cs1 (j2 x y))) (w := sg R (cdim x) • sh (cat (cs1 x) (cs1 y))) (by
          rw [pr_sh, ih, map_smul (pr hasRep), pr_sh, map_smul])
        rw [this, map_smul, map_smul, cdim_two, sg_succ, smul_smul, neg_one_mul]

/-- The cubes of a join stay ordered. -/
theorem j2_ord {n : Nat} {x y w : Cube} (hx : IsCube n x) (hy : IsCube n y) (hw : IsCube n w) (hxy : Ord x y) (hxw : Ord x w)
    (hyw : Ord y w) : j2 (R := R) x y ∈ Finsupp.supported R R {c | Ord c w} := by
  induction n generalizing x y w with
  | zero =>
    obtain rfl := List.length_eq_zero_iff.1 hx.1
    simp [j2]
  | succ n ih =>
    obtain ⟨e, x, rfl⟩ := List.exists_cons_of_length_pos (l := x) (by rw [hx.1]; omega)
    obtain ⟨f, y, rfl⟩ := List.exists_cons_of_length_pos (l := y) (by rw [hy.1]; omega)
    obtain ⟨g, w, rfl⟩ := List.exists_cons_of_length_pos (l := w) (by rw [hw.1]; omega)
    have hx' : IsCube n x := ⟨by simpa using hx.1, fun e he => hx.2 e (by simp [he])⟩
    have hy' : IsCube n y := ⟨by simpa using hy.1, fun e he => hy.2 e (by simp [he])⟩
    have hw' : IsCube n w := ⟨by simpa using hw.1, fun e he => hw.2 e (by simp [he])⟩
    have ih := ih hx' hy' hw' hxy.2 hxw.2 hyw.2
    rw [j2]
    refine Submodule.add_mem _ ?_ ?_
    · split
      · by_cases hc : e = 0 ∧ f = 1
        · refine Submodule.smul_mem _ _ (Finsupp.single_mem_supported R _ ⟨?_, hyw.2⟩)
          rcases hyw.1 with h | h
          · omega
          · exact Or.inr h
        · have : cj e f = 0 := by
            unfold cj
            rw [if_neg hc, if_neg]
            rintro ⟨rfl, rfl⟩
            rcases hxy.1 with h | h <;> omega
          rw [this]
          simp
      · exact Submodule.zero_mem _
    · split
      · exact Submodule.zero_mem _
      · refine Submodule.smul_mem _ _ ?_
        refine mapK_supported (T := {c | Ord c (g :: w)}) _ (fun c hc => ?_) ih
        exact ⟨hxw.1, hc⟩

/-- The concatenation of the collapses. -/
noncomputable def catS : List Cube → (Simplex →₀ R)
  | [] => bv R []
  | b :: L => cat (cs1 b) (catS L)

/-- Exponent of the sign of the joins. -/
def jex : Int → List Cube → Int
  | _, [] => 0
  | d, b :: L => d + jex (d + cdim b + 1) L

theorem cs1_jnL {n : Nat} (L : List Cube) (hL : ∀ b ∈ L, IsCube n b) (hp : L.Pairwise Ord) (d : Int) {v : Cube →₀ R}
    (hv : v ∈ Finsupp.supported R R {x | x ∈ CD n d ∧ ∀ b ∈ L, Ord x b}) :
    pr hasRep (lin cs1 (jnL L v)) = sg R (jex d L) • pr hasRep (cat (lin cs1 v) (catS L)) := by
  induction L generalizing v d with
  | nil => simp [jnL, jex, catS]
  | cons b L ih =>
    rw [List.pairwise_cons] at hp
    have hb : IsCube n b := hL b (by simp)
    have hL' : ∀ b ∈ L, IsCube n b := fun c hc => hL c (by simp [hc])
    have hs : bil j2 v (bv R b) ∈ Finsupp.supported R R {x | x ∈ CD n (d + cdim b + 1) ∧ ∀ b ∈ L, Ord x b} := by
      refine BElem.bil_supported (T := {b}) j2 (fun x hx y hy => ?_) hv (Finsupp.single_mem_supported R _ rfl)
      obtain rfl : y = b := hy
      have h1 : j2 (R := R) x y ∈ Finsupp.supported R R (CD n (cdim x + cdim y + 1)) := j2_supported hx.1.1 hb
      rw [hx.1.2] at h1
      rw [Finsupp.mem_supported] at h1 ⊢
      intro c hc
      refine ⟨h1 hc, fun w hw => ?_⟩
      have h2 := j2_ord (R := R) hx.1.1 hb (hL' w hw) (hx.2 y (by simp)) (hx.2 w (by simp [hw])) (hp.1 w hw)
      exact h2 hc
    rw [jnL_cons, ih hL' hp.2 _ hs, jex, sg_add, catS, ← cat_assoc, ← pr_cat_left, mul_smul, smul_comm]
    congr 1
    have : pr hasRep (lin cs1 (bil j2 v (bv R b))) = sg R d • pr hasRep (cat (lin cs1 v) (cs1 b)) := by
      have := BElem.lin_ext_supported (R := R) (f := (pr hasRep).comp ((lin cs1).comp ((bil j2).flip (bv R b))))
        (g := sg R d • (pr hasRep).comp ((cat.flip (cs1 b)).comp (lin cs1))) (fun x hx => by
          simp only [LinearMap.comp_apply, LinearMap.flip_apply, LinearMap.smul_apply]
          rw [bil_bv, lin_single, one_smul, lin_single, one_smul, cs1_j2 hx.1.1 hb (hx.2 b (by simp)), hx.1.2]) hv
      exact this
    rw [this, map_smul, LinearMap.smul_apply, map_smul, pr_cat_left]

/-- Exponent of the sign of the join of a group. -/
def jexG : List Cube → Int
  | [] => 0
  | a :: L => jex (cdim a) L

theorem cs1_jn {n : Nat} {g : List Cube} (hg : g ≠ []) (hc : ∀ b ∈ g, IsCube n b) (hp : g.Pairwise Ord) :
    pr hasRep (lin cs1 (jn (R := R) g)) = sg R (jexG g) • pr hasRep (catS g) := by
  cases g with
  | nil => exact absurd rfl hg
  | cons a L =>
    rw [List.pairwise_cons] at hp
    rw [jn, cs1_jnL (n := n) L (fun b hb => hc b (by simp [hb])) hp.2 (cdim a)
      (Finsupp.single_mem_supported R _ ⟨⟨hc a (by simp), rfl⟩, hp.1⟩), lin_single, one_smul]
    rfl

end Comch.CubCS
