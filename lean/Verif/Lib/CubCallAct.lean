import Verif.Lib.CubCall
import Verif.Lib.Act
import Verif.Lib.SurjCallAct

/-! # Relabelling surjections and permuting the factors of their values on cubes -/

set_option linter.unusedSectionVars false

namespace Comch.CubCall
open Finsupp (single)
open Comch.Join Serre SurjComp Comch.Spec IsPerm

variable {R : Type} [CommRing R]

section Srt
variable {A B : Type}

/-- Insertion of a labelled factor. -/
def ins (p : Nat × B) (w : List (Nat × B)) : List (Nat × B) := w.orderedInsert (fun a b => a.1 ≤ b.1) p

noncomputable def insV : ((Nat × B) →₀ R) →ₗ[R] (List (Nat × B) →₀ R) →ₗ[R] (List (Nat × B) →₀ R) :=
  bil fun p w => bv R (ins p w)

theorem insV_cat (i j : Nat) (u v : B →₀ R) (x : List (Nat × B) →₀ R) :
    insV (mapK (fun b => (i, b)) u) (cat (one (mapK (fun b => (j, b)) v)) x) =
      if i ≤ j then cat (one (mapK (fun b => (i, b)) u)) (cat (one (mapK (fun b => (j, b)) v)) x)
      else cat (one (mapK (fun b => (j, b)) v)) (insV (mapK (fun b => (i, b)) u) x) := by
  induction u using Finsupp.induction_linear with
  | zero => simp
  | add f g hf hg => simp only [map_add, LinearMap.add_apply, hf, hg]; split <;> rfl
  | single a r =>
    induction v using Finsupp.induction_linear with
    | zero => simp
    | add f g hf hg => simp only [map_add, LinearMap.add_apply, hf, hg]; split <;> rfl
    | single b s =>
      induction x using Finsupp.induction_linear with
      | zero => simp
      | add f g hf hg => simp only [map_add, hf, hg]; split <;> rfl
      | single w t =>
        by_cases h : i ≤ j
        · rw [if_pos h]
          simp [insV, ins, List.orderedInsert, h, one, mul_comm, mul_left_comm]
        · rw [if_neg h]
          simp [insV, ins, List.orderedInsert, h, one, mul_comm, mul_left_comm]

theorem insV_nil (u : (Nat × B) →₀ R) : insV u (bv R []) = one u := by
  induction u using Finsupp.induction_linear with
  | zero => simp
  | add f g hf hg => simp only [map_add, LinearMap.add_apply, hf, hg]
  | single a r => simp [insV, ins, one]

/-- Labelled version of `f`. -/
noncomputable def labF (f : A → (B →₀ R)) (p : Nat × A) : (Nat × B) →₀ R := mapK (fun b => (p.1, b)) (f p.2)

theorem insV_tmK (f : A → (B →₀ R)) (p : Nat × A) (W : List (Nat × A)) :
    insV (labF f p) (tmK (labF f) W) = tmK (labF f) (ins p W) := by
  induction W with
  | nil => rw [tmK, insV_nil, ins, List.orderedInsert_nil, tmK, tmK]
           rw [cat_nil_right]
  | cons q W ih =>
    rw [tmK, labF, labF, insV_cat]
    by_cases h : p.1 ≤ q.1
    · rw [if_pos h, ins, List.orderedInsert_cons, if_pos h]; rfl
    · rw [if_neg h, ins, List.orderedInsert_cons, if_neg h]
      exact congrArg _ ih

theorem sortl_tmK (f : A → (B →₀ R)) (W : List (Nat × A)) :
    mapK sortl (tmK (labF f) W) = tmK (labF f) (sortl W) := by
  induction W with
  | nil => simp [tmK, sortl]
  | cons p W ih =>
    have h : ∀ (u : (Nat × B) →₀ R) (v : List (Nat × B) →₀ R), mapK sortl (cat (one u) v) = insV u (mapK sortl v) := by
      intro u v
      induction u using Finsupp.induction_linear with
      | zero => simp
      | add f g hf hg => simp only [map_add, LinearMap.add_apply, hf, hg]
      | single a r =>
        induction v using Finsupp.induction_linear with
        | zero => simp
        | add f g hf hg => simp only [map_add, hf, hg]
        | single w t => simp [insV, ins, one, sortl, mul_comm]
    rw [tmK, h, ih, insV_tmK]
    rfl

theorem snd_tmK (f : A → (B →₀ R)) (W : List (Nat × A)) :
    mapK (List.map Prod.snd) (tmK (labF f) W) = tmK f (W.map Prod.snd) := by
  induction W with
  | nil => simp [tmK]
  | cons p W ih =>
    have h : ∀ (u : B →₀ R) (v : List (Nat × B) →₀ R), mapK (List.map Prod.snd) (cat (one (mapK (fun b => (p.1, b)) u)) v) =
        cat (one u) (mapK (List.map Prod.snd) v) := by
      intro u v
      induction u using Finsupp.induction_linear with
      | zero => simp
      | add f g hf hg => simp only [map_add, LinearMap.add_apply, hf, hg]
      | single a r =>
        induction v using Finsupp.induction_linear with
        | zero => simp
        | add f g hf hg => simp only [map_add, hf, hg]
        | single w t => simp [one]
    rw [tmK, labF, h, ih]
    rfl

theorem zip_tmK (f : A → (B →₀ R)) (σ : List Nat) (G : List A) (h : G.length = σ.length) :
    tmK (labF f) (σ.zip G) = mapK (fun m => σ.zip m) (tmK f G) := by
  induction σ generalizing G with
  | nil =>
    obtain rfl := List.length_eq_zero_iff.1 h
    simp [tmK]
  | cons i σ ih =>
    cases G with
    | nil => simp at h
    | cons a G =>
      rw [List.zip_cons_cons, tmK, tmK, ih G (by simpa using h), labF]
      generalize tmK f G = v
      generalize f a = u
      induction u using Finsupp.induction_linear with
      | zero => simp
      | add f g hf hg => simp only [map_add, LinearMap.add_apply, hf, hg]
      | single a r =>
        induction v using Finsupp.induction_linear with
        | zero => simp
        | add f g hf hg => simp only [map_add, hf, hg]
        | single w t => simp [one]

theorem tmK_actL (f : A → (B →₀ R)) (σ : Perm) (G : List A) (h : G.length = σ.length) :
    tmK f (actL σ G) = mapK (actL σ) (tmK f G) := by
  rw [actL, ← snd_tmK, ← sortl_tmK, zip_tmK f σ G h, mapK_mapK', mapK_mapK']
  rfl

end Srt

variable {r : Nat} {σ : Perm}

theorem gam_mulL (hσ : IsPerm r σ) {k : List Nat} (hk : ∀ v ∈ k, 1 ≤ v ∧ v ≤ r) (L : CKey) :
    gam r ((mulL σ k).zip L) = actL σ (gam r (k.zip L)) := by
  have hget : ∀ (W : List (Nat × Cube)) (j : Nat), j < r →
      (gam r W)[j]? = some ((W.filter fun p => p.1 == j + 1).map Prod.snd) := by
    intro W j hj
    simp [gam, hj, Nat.add_comm]
  refine isMoved_unique hσ (length_gam r _) ⟨by rw [length_gam, length_gam], fun j hj => ?_⟩
    (isMoved_actL hσ (length_gam r _))
  rw [length_gam] at hj
  have hv := value_range hσ (i := j + 1) (by omega) (by omega)
  rw [hget _ _ hj, hget _ _ (by omega), Nat.sub_add_cancel hv.1]
  congr 1
  induction k generalizing L with
  | nil => simp [mulL]
  | cons x k ih =>
    cases L with
    | nil => simp
    | cons a L =>
      have hx := hk x (by simp)
      have ih := ih (fun v hv => hk v (by simp [hv])) L
      have hm : mulL σ (x :: k) = value σ x :: mulL σ k := rfl
      rw [hm, List.zip_cons_cons, List.zip_cons_cons, List.filter_cons, List.filter_cons]
      by_cases h : x = j + 1
      · subst h
        simp [ih]
      · have h' : value σ x ≠ value σ (j + 1) := fun e => h (value_inj hσ hx (by omega) e)
        simp [ih, h, h']

theorem ac_mulL (hσ : IsPerm r σ) {k : List Nat} (hk : ∀ v ∈ k, 1 ≤ v ∧ v ≤ r) (L : CKey) :
    ac (R := R) r (mulL σ k) L = mapK (actL σ) (ac r k L) := by
  rw [ac, ac, gam_mulL hσ hk, tmK_actL _ _ _ (by rw [length_gam, hσ.length])]

theorem cact_mulL (hσ : IsPerm r σ) {k : List Nat} (hk : ∀ v ∈ k, 1 ≤ v ∧ v ≤ r) (a : Cube) :
    cact (R := R) r (mulL σ k) a = mapK (actL σ) (cact r k a) := by
  have hl : (mulL σ k).length = k.length := by simp [mulL]
  have : ac (R := R) r (mulL σ k) = fun L => mapK (actL σ) (ac r k L) := funext fun L => ac_mulL hσ hk L
  rw [cact, cact, hl, this]
  generalize serre (R := R) (k.length - 1) a = v
  induction v using Finsupp.induction_linear with
  | zero => simp
  | add f g hf hg => simp only [map_add, hf, hg]
  | single L c => simp

/-! ### arity and degree -/

theorem sum_modify (f : Cube → Int) (F : CKey → Int) (hF : ∀ a g, F (a :: g) = f a + F g) (G : List CKey) (i : Nat)
    (hi : i < G.length) (a : Cube) : ((G.modify i (a :: ·)).map F).sum = f a + (G.map F).sum := by
  induction G generalizing i with
  | nil => simp at hi
  | cons g G ih =>
    cases i with
    | zero => simp [hF, add_assoc]
    | succ i =>
      rw [List.modify_succ_cons, List.map_cons, List.sum_cons, ih i (by simpa using hi), List.map_cons, List.sum_cons]
      ring

theorem sum_gam (f : Cube → Int) (F : CKey → Int) (hF : ∀ a g, F (a :: g) = f a + F g) (h0 : F [] = 0)
    (W : List (Nat × Cube)) (hW : ∀ p ∈ W, 1 ≤ p.1 ∧ p.1 ≤ r) :
    ((gam r W).map F).sum = (W.map fun p => f p.2).sum := by
  induction W with
  | nil => simp [gam, h0]
  | cons p W ih =>
    obtain ⟨i, a⟩ := p
    have hi := hW (i, a) (by simp)
    rw [gam_cons hi.1, sum_modify f F hF _ _ (by rw [length_gam]; have := hi.1; have := hi.2; simp only at *; omega),
      ih fun p hp => hW p (by simp [hp])]
    simp

theorem tmK_jn_supported {N : Nat} (G : List CKey) (hG : ∀ g ∈ G, g ≠ [] ∧ ∀ c ∈ g, IsCube N c)
    (hj : ∀ g ∈ G, jn (R := R) g ∈ Finsupp.supported R R (CD N (totDeg cdim g + (g.length - 1 : Nat)))) :
    tmK (jn (R := R)) G ∈ Finsupp.supported R R {m : CKey | m.length = G.length ∧ (∀ c ∈ m, IsCube N c) ∧
      totDeg cdim m = (G.map fun g => totDeg cdim g + g.length).sum - G.length} := by
  induction G with
  | nil => exact Finsupp.single_mem_supported R _ (by simp [totDeg])
  | cons g G ih =>
    have ih := ih (fun g hg => hG g (by simp [hg])) (fun g hg => hj g (by simp [hg]))
    have hg := hj g (by simp)
    have hgn := List.length_pos_iff.2 (hG g (by simp)).1
    rw [tmK]
    have := BElem.bil_supported (R := R) (fun (c : Cube) (m : CKey) => bv R (c :: m)) (S := CD N (totDeg cdim g + (g.length - 1 : Nat)))
      (T := {m : CKey | m.length = G.length ∧ (∀ c ∈ m, IsCube N c) ∧
        totDeg cdim m = (G.map fun g => totDeg cdim g + g.length).sum - G.length})
      (U := {m : CKey | m.length = (g :: G).length ∧ (∀ c ∈ m, IsCube N c) ∧
        totDeg cdim m = ((g :: G).map fun g => totDeg cdim g + g.length).sum - (g :: G).length})
      (fun c hc m hm => Finsupp.single_mem_supported R _ (by
        refine ⟨by simp [hm.1], ?_, ?_⟩
        · intro x hx
          rcases List.mem_cons.1 hx with rfl | hx
          · exact hc.1
          · exact hm.2.1 x hx
        · rw [totDeg, hc.2, hm.2.2]
          simp only [List.map_cons, List.sum_cons, List.length_cons]
          push_cast
          omega)) hg ih
    have e : ∀ (u : Cube →₀ R) (v : CKey →₀ R), cat (one u) v = bil (fun c m => bv R (c :: m)) u v := by
      intro u v
      induction u using Finsupp.induction_linear with
      | zero => simp
      | add f g hf hg => simp only [map_add, LinearMap.add_apply, hf, hg]
      | single a r =>
        induction v using Finsupp.induction_linear with
        | zero => simp
        | add f g hf hg => simp only [map_add, hf, hg]
        | single w t => simp [one, mul_comm]
    rw [e]
    exact this

end Comch.CubCall
