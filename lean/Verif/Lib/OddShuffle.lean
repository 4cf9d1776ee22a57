import Verif.Lib.OddVanish

/-! # Shuffles of two tensors with the same number of factors -/

set_option linter.unusedSectionVars false

namespace Comch
namespace OddP
open Finsupp (single)
open Acyclic BElem Elem Comch.Spec Join Coch SurjComp SurjElem IsPerm SurjMay Comch.Props Contract

section
variable {R : Type} [CommRing R]

/-- `f_1 g_1 f_2 g_2 …` with the sign of the permutation of the factors. -/
noncomputable def shK (R : Type) [CommRing R] : SKey → SKey → (SKey →₀ R)
  | [], [] => bv R []
  | f :: s, g :: t => sg R (ldim g * totDeg ldim s) • consV f (consV g (shK R s t))
  | _, _ => 0

noncomputable def shV : (SKey →₀ R) →ₗ[R] (SKey →₀ R) →ₗ[R] (SKey →₀ R) := bil (shK R)

@[simp] theorem shV_bv (s t : SKey) : shV (bv R s) (bv R t) = shK R s t := by rw [shV, bil_single, one_mul, one_smul]

theorem tensK_deg (k : SKey) : tensK (R := R) delE ldim k ∈ Finsupp.supported R R {m : SKey | totDeg ldim m = totDeg ldim k - 1} := by
  induction k with
  | nil => simp [tensK]
  | cons f k ih =>
    rw [tensK, cat_one_bv]
    refine Submodule.add_mem _ (mapK_supported (T := {m : SKey | totDeg ldim m = _}) _ (fun b hb => ?_) (delE_supp f))
      (Submodule.smul_mem _ _ (mapK_supported (T := {m : SKey | totDeg ldim m = _}) _ (fun m hm => ?_) ih))
    · have h1 := List.length_pos_iff.2 hb.1.1
      have h2 := hb.2
      simp only [Set.mem_setOf_eq, totDeg, ldim]
      omega
    · have hm : totDeg ldim m = totDeg ldim k - 1 := hm
      simp only [Set.mem_setOf_eq, totDeg, hm]
      ring

theorem delE_deg (f : List Nat) : delE (R := R) f ∈ Finsupp.supported R R {x : List Nat | ldim x = ldim f - 1} := by
  refine Finsupp.supported_mono (fun b hb => ?_) (delE_supp f)
  have h1 := List.length_pos_iff.2 hb.1.1
  have h2 := hb.2
  simp only [Set.mem_setOf_eq, ldim]
  omega

theorem sh1 (x : List Nat →₀ R) (s t : SKey) (g : List Nat) :
    shV (cat (one x) (bv R s)) (bv R (g :: t)) = sg R (ldim g * totDeg ldim s) • cat (one x) (consV g (shK R s t)) := by
  refine LinearMap.congr_fun (f := (shV.flip (bv R (g :: t))).comp ((cat.flip (bv R s)).comp one))
    (g := sg R (ldim g * totDeg ldim s) • ((cat.flip (consV g (shK R s t))).comp one)) (lin_ext fun f => ?_) x
  simp [shK, consV_eq_cat]

theorem sh2 {m : Int} {u : SKey →₀ R} (hu : u ∈ Finsupp.supported R R {k : SKey | totDeg ldim k = m}) (f g : List Nat) (t : SKey) :
    shV (consV f u) (bv R (g :: t)) = sg R (ldim g * m) • consV f (consV g (shV u (bv R t))) := by
  refine lin_ext_supported (R := R) (f := (shV.flip (bv R (g :: t))).comp (consV f))
    (g := sg R (ldim g * m) • (consV f).comp ((consV g).comp (shV.flip (bv R t)))) (fun k hk => ?_) hu
  have hk : totDeg ldim k = m := hk
  simp [shK, hk]

theorem sh3 {n : Int} {y : List Nat →₀ R} (hy : y ∈ Finsupp.supported R R {x : List Nat | ldim x = n}) (f : List Nat) (s t : SKey) :
    shV (bv R (f :: s)) (cat (one y) (bv R t)) = sg R (n * totDeg ldim s) • consV f (cat (one y) (shK R s t)) := by
  refine lin_ext_supported (R := R) (f := (shV (bv R (f :: s))).comp ((cat.flip (bv R t)).comp one))
    (g := sg R (n * totDeg ldim s) • (consV f).comp ((cat.flip (shK R s t)).comp one)) (fun k hk => ?_) hy
  have hk : ldim k = n := hk
  simp [shK, hk, consV_eq_cat]

theorem sh4' (f g : List Nat) (s : SKey) (v : SKey →₀ R) :
    shV (bv R (f :: s)) (consV g v) = sg R (ldim g * totDeg ldim s) • consV f (consV g (shV (bv R s) v)) := by
  refine LinearMap.congr_fun (f := (shV (bv R (f :: s))).comp (consV g))
    (g := sg R (ldim g * totDeg ldim s) • (consV f).comp ((consV g).comp (shV (bv R s)))) (lin_ext fun t => ?_) v
  simp [shK]

theorem sg_par {x y : Int} (h : (x : ZMod 2) = y) : sg R x = sg R y := sg_eq_of_zmod h

theorem bd_shK : ∀ s t : SKey, bd (shK R s t) = shV (bd (bv R s)) (bv R t) + sg R (totDeg ldim s) • shV (bv R s) (bd (bv R t))
  | [], [] => by simp [shK, tensK]
  | [], g :: t => by
    have h : ∀ v ∈ Finsupp.supported R R {k : SKey | k.length = t.length + 1}, shV (bv R []) v = 0 := by
      intro v hv
      refine lin_ext_supported (R := R) (f := shV (bv R [])) (g := 0) (fun k hk => ?_) hv
      match k, hk with
      | g :: k, _ => simp [shK]
    rw [h _ (by rw [tens_single, one_smul]; exact tensK_supported _ _ _)]
    simp [shK, tensK]
  | f :: s, [] => by
    have h : ∀ v ∈ Finsupp.supported R R {k : SKey | k.length = s.length + 1}, shV v (bv R []) = 0 := by
      intro v hv
      refine lin_ext_supported (R := R) (f := shV.flip (bv R [])) (g := 0) (fun k hk => ?_) hv
      match k, hk with
      | g :: k, _ => simp [shK]
    rw [h _ (by rw [tens_single, one_smul]; exact tensK_supported _ _ _)]
    simp [shK, tensK]
  | f :: s, g :: t => by
    have ih := bd_shK s t
    have h2 : (2 : ZMod 2) = 0 := by decide
    rw [tens_single, tens_single, one_smul, one_smul] at ih ⊢
    rw [tensK, tensK, map_add, map_add, map_smul, map_smul, LinearMap.add_apply, LinearMap.smul_apply, sh1, sh2 (tensK_deg s), sh3 (delE_deg g), sh4',
      shK, map_smul, tens_consV, tens_consV, ih]
    simp only [map_add, map_smul, smul_add, smul_smul, ← sg_add, totDeg]
    simp only [add_assoc]
    congr 1
    rw [add_left_comm]
    congr 1
    · congr 1
      refine sg_par ?_
      push_cast; ring_nf; simp [h2]
    · congr 2 <;> refine sg_par ?_ <;> push_cast <;> ring_nf <;> simp [h2]

theorem bd_sh {m : Int} {u : SKey →₀ R} (hu : u ∈ Finsupp.supported R R {k : SKey | totDeg ldim k = m}) (v : SKey →₀ R) :
    bd (shV u v) = shV (bd u) v + sg R m • shV u (bd v) := by
  have := bil_ext_supported (R := R) (M := SKey →₀ R) (S := {k : SKey | totDeg ldim k = m}) (T := Set.univ)
    (f := shV.compr₂ bd) (g := shV.compl₁₂ bd LinearMap.id + sg R m • shV.compl₁₂ LinearMap.id bd) (fun s hs t _ => by
      have hs : totDeg ldim s = m := hs
      have := bd_shK (R := R) s t
      rw [hs] at this
      simpa using this) hu (v := v) (by simp)
  simpa using this

/-! ### the key of a shuffle -/

def kap : SKey → SKey → Int
  | _ :: s, g :: t => ldim g * totDeg ldim s + kap s t
  | _, _ => 0

def zipL : SKey → SKey → SKey
  | f :: s, g :: t => f :: g :: zipL s t
  | _, _ => []

theorem shK_eq : ∀ {s t : SKey}, s.length = t.length → shK R s t = sg R (kap s t) • bv R (zipL s t)
  | [], [], _ => by simp [shK, kap, zipL]
  | f :: s, g :: t, h => by
    rw [shK, shK_eq (by simpa using h), kap, zipL, map_smul, map_smul, smul_smul, ← sg_add]; simp

theorem length_zipL : ∀ {s t : SKey}, s.length = t.length → (zipL s t).length = 2 * s.length
  | [], [], _ => rfl
  | f :: s, g :: t, h => by simp [zipL, length_zipL (s := s) (t := t) (by simpa using h)]; ring

theorem totDeg_zipL : ∀ {s t : SKey}, s.length = t.length → totDeg ldim (zipL s t) = totDeg ldim s + totDeg ldim t
  | [], [], _ => rfl
  | f :: s, g :: t, h => by simp [zipL, totDeg, totDeg_zipL (s := s) (t := t) (by simpa using h)]; ring

theorem mem_zipL : ∀ {s t : SKey} {x : List Nat}, x ∈ zipL s t → x ∈ s ∨ x ∈ t
  | f :: s, g :: t, x, h => by
    simp only [zipL, List.mem_cons] at h ⊢
    rcases h with h | h | h
    · tauto
    · tauto
    · rcases mem_zipL h with h | h <;> tauto
  | [], [], x, h => by simp [zipL] at h
  | [], g :: t, x, h => by simp [zipL] at h
  | f :: s, [], x, h => by simp [zipL] at h

theorem zipL_snoc (f g : List Nat) : ∀ {s t : SKey}, s.length = t.length → zipL (s ++ [f]) (t ++ [g]) = zipL s t ++ [f, g]
  | [], [], _ => rfl
  | a :: s, b :: t, h => by simp [zipL, zipL_snoc f g (s := s) (t := t) (by simpa using h)]

theorem kap_snoc (f g : List Nat) : ∀ {s t : SKey}, s.length = t.length →
    kap (s ++ [f]) (t ++ [g]) = ldim f * totDeg ldim t + kap s t
  | [], [], _ => by simp [kap, totDeg]
  | a :: s, b :: t, h => by
    simp only [List.cons_append, kap, kap_snoc f g (s := s) (t := t) (by simpa using h), totDeg_append, totDeg]; ring

theorem sh_supp {p : Nat} {i j : Int} {σ : List Nat} {u v : SKey →₀ R} (hu : u ∈ Finsupp.supported R R (TS p i σ))
    (hv : v ∈ Finsupp.supported R R (TS p j σ)) : shV u v ∈ Finsupp.supported R R (TS (2 * p) (i + j) σ) := by
  refine bil_supported (S := TS p i σ) (T := TS p j σ) _ (fun a ha k hk => ?_) hu hv
  have hl : a.length = k.length := ha.2.1.trans hk.2.1.symm
  rw [shK_eq hl]
  refine Submodule.smul_mem _ _ (Finsupp.single_mem_supported R _ ⟨fun x hx => ?_, ?_, ?_⟩)
  · rcases mem_zipL hx with hx | hx
    · exact ha.1 x hx
    · exact hk.1 x hx
  · rw [length_zipL hl, ha.2.1]
  · rw [totDeg_zipL hl, ha.2.2, hk.2.2]

/-- Rotation by two places. -/
theorem rot2_snoc (k : SKey) (f g : List Nat) :
    (rot ^ 2) (bv R (k ++ [f, g])) = sg R ((ldim f + ldim g) * totDeg ldim k) • bv R (f :: g :: k) := by
  have h2 : (2 : ZMod 2) = 0 := by decide
  rw [pow_two, Module.End.mul_apply, show k ++ [f, g] = (k ++ [f]) ++ [g] by simp, rot_snoc, map_smul,
    show g :: (k ++ [f]) = (g :: k) ++ [f] by simp, rot_snoc, smul_smul, ← sg_add]
  congr 1
  refine sg_par ?_
  rw [totDeg_append]
  simp only [totDeg]
  generalize ldim g = x
  generalize ldim f = y
  push_cast
  linear_combination (x * y : ZMod 2) * h2

theorem sh_rot {p : Nat} {u v : SKey →₀ R} (hu : u ∈ Finsupp.supported R R (Ln p)) (hv : v ∈ Finsupp.supported R R (Ln p)) :
    shV (rot u) (rot v) = (rot ^ 2) (shV u v) := by
  have := bil_ext_supported (R := R) (M := SKey →₀ R) (S := Ln p) (T := Ln p)
    (f := shV.compl₁₂ rot rot) (g := shV.compr₂ (rot ^ 2)) (fun s hs t ht => by
      have hs : s.length = p := hs
      have ht : t.length = p := ht
      rw [LinearMap.compl₁₂_apply, LinearMap.compr₂_apply, shV_bv]
      rcases s.eq_nil_or_concat with rfl | ⟨s, f, rfl⟩
      · have : t = [] := List.length_eq_zero_iff.1 (by simp at hs; omega)
        subst this
        have e : rot (bv R ([] : SKey)) = bv R [] := by
          rw [rot, lin_single, one_smul, actK]; simp [kos, actL, sortl]
        rw [e, shV_bv, shK, pow_two, Module.End.mul_apply, e, e]
      · rcases t.eq_nil_or_concat with rfl | ⟨t, g, rfl⟩
        · simp at hs ht; omega
        · rw [List.concat_eq_append] at hs ht ⊢
          have hl : s.length = t.length := by simp at hs ht; omega
          have h2 : (2 : ZMod 2) = 0 := by decide
          rw [List.concat_eq_append, shK_eq (by simp [hl]), zipL_snoc f g hl, kap_snoc f g hl, map_smul, rot2_snoc, rot_snoc, rot_snoc,
            map_smul, map_smul, LinearMap.smul_apply, shV_bv, shK, shK_eq hl, map_smul, map_smul, smul_smul, smul_smul, smul_smul, smul_smul,
            ← sg_add, ← sg_add, ← sg_add, ← sg_add]
          simp only [consV_single]
          congr 1
          refine sg_par ?_
          rw [totDeg_zipL hl]
          generalize ldim g = x
          generalize ldim f = y
          push_cast
          linear_combination (-(y * totDeg ldim t) : ZMod 2) * h2) hu hv
  simpa using this

theorem sh_rot_pow {p : Nat} (j : Nat) {u v : SKey →₀ R} (hu : u ∈ Finsupp.supported R R (Ln p)) (hv : v ∈ Finsupp.supported R R (Ln p)) :
    shV ((rot ^ j) u) ((rot ^ j) v) = ((rot ^ 2) ^ j) (shV u v) := by
  have hl : ∀ (j : Nat) {u : SKey →₀ R}, u ∈ Finsupp.supported R R (Ln p) → (rot ^ j) u ∈ Finsupp.supported R R (Ln p) := by
    intro j u hu
    induction j with
    | zero => exact hu
    | succ j ih => rw [pow_succ', Module.End.mul_apply]; exact rot_len ih
  induction j with
  | zero => rfl
  | succ j ih =>
    rw [pow_succ', pow_succ' (rot ^ 2), Module.End.mul_apply, Module.End.mul_apply, Module.End.mul_apply, sh_rot (hl j hu) (hl j hv), ih]

end
end OddP
end Comch
