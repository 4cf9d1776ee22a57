import Verif.Lib.TableRed
import Verif.Lib.SurjCompose
import Verif.Lib.BECompose

/-! # Table reduction and operadic composition -/

set_option linter.unusedSectionVars false

namespace Comch.TR
open Finsupp (single)
open Comch.SurjComp

variable {R : Type} [CommRing R] {i s : Nat}

/-- Substitute a word for the letter `i`, shifting by a fixed amount. -/
def sb (i s : Nat) (p : List Nat × List Nat) : List Nat :=
  p.1.flatMap fun j => if j = i then p.2.map (up i) else [sh i s j]

theorem sb_cons_ne {j : Nat} (h : j ≠ i) (u v : List Nat) : sb i s (j :: u, v) = sh i s j :: sb i s (u, v) := by
  simp [sb, h]

theorem sb_cons_i (u v : List Nat) : sb i s (i :: u, v) = v.map (up i) ++ sb i s (u, v) := by
  simp [sb]

theorem sb_not_mem {u : List Nat} (h : i ∉ u) (v : List Nat) : sb i s (u, v) = u.map (sh i s) := by
  induction u with
  | nil => simp [sb]
  | cons j u ih =>
    rw [List.mem_cons, not_or] at h
    rw [sb_cons_ne (Ne.symm h.1), ih h.2, List.map_cons]

theorem sb_nil (u : List Nat) : sb i s (u, []) = (rm i u).map (sh i s) := by
  induction u with
  | nil => simp [sb, rm]
  | cons j u ih =>
    by_cases h : j = i
    · subst h; rw [sb_cons_i, ih, rm_cons_self]; simp
    · rw [sb_cons_ne h, ih, rm_cons_ne h, List.map_cons]

theorem rm_append (c : Nat) (u v : List Nat) : rm c (u ++ v) = rm c u ++ rm c v := by simp [rm]

theorem rm_sh (hi : 1 ≤ i) (hs : 1 ≤ s) {j : Nat} (hj : j ≠ i) (u : List Nat) {v : List Nat} (hv : Rng s v) :
    rm (sh i s j) (sb i s (u, v)) = sb i s (rm j u, v) := by
  induction u with
  | nil => simp [sb, rm]
  | cons l u ih =>
    by_cases h : l = i
    · subst h
      rw [sb_cons_i, rm_append, ih, rm_cons_ne (Ne.symm hj), sb_cons_i, rm_not_mem]
      intro hm
      obtain ⟨a, ha, e⟩ := List.mem_map.1 hm
      exact sh_ne_up hj (hv a ha) hi e.symm
    · rw [sb_cons_ne h]
      by_cases e : l = j
      · subst e
        rw [rm_cons_self, rm_cons_self, ih]
      · rw [rm_cons_ne (fun h' => e (sh_inj h hj hs h')), ih, rm_cons_ne e, sb_cons_ne h]

theorem rm_up (hi : 1 ≤ i) {a : Nat} (ha : 1 ≤ a ∧ a ≤ s) (u : List Nat) {v : List Nat} (hv : Rng s v) :
    rm (up i a) (sb i s (u, v)) = sb i s (u, rm a v) := by
  have h1 : rm (up i a) (v.map (up i)) = (rm a v).map (up i) := by
    simp only [rm]
    rw [List.filter_map]
    congr 1
    apply List.filter_congr
    intro b hb
    simp only [Function.comp, decide_eq_decide]
    exact not_congr ⟨fun h => up_inj (hv b hb).1 ha.1 hi h, fun h => by rw [h]⟩
  induction u with
  | nil => simp [sb, rm]
  | cons l u ih =>
    by_cases h : l = i
    · subst h
      rw [sb_cons_i, rm_append, ih, h1, sb_cons_i]
    · rw [sb_cons_ne h, rm_cons_ne (sh_ne_up h ha hi), ih, sb_cons_ne h]

/-- The table reduction of the composition of two sequences of words. -/
noncomputable def T (R : Type) [CommRing R] (i s : Nat) (X Y : List (List Nat)) : List Nat →₀ R :=
  trL (mapK (List.map (sb i s)) (ez X Y))

@[simp] theorem T_nil_left (Y : List (List Nat)) : T R i s [] Y = 0 := by simp [T]
@[simp] theorem T_nil_right (X : List (List Nat)) : T R i s X [] = 0 := by simp [T]

theorem mapK_map_consV {α β : Type} (f : α → β) (a : α) (v : List α →₀ R) :
    mapK (List.map f) (consV a v) = consV (f a) (mapK (List.map f) v) := by
  induction v using Finsupp.induction_linear with
  | zero => simp
  | add f g hf hg => simp only [map_add, hf, hg]
  | single k r => simp

theorem T_step {u v w' : List Nat} {c : Nat} {X Y : List (List Nat)} {f g : List Nat → List Nat}
    (h1 : sb i s (u, v) = c :: w') (h2 : w' = sb i s (f u, g v))
    (h3 : ∀ x ∈ u :: X, ∀ y ∈ v :: Y, rm c (sb i s (x, y)) = sb i s (f x, g y)) :
    T R i s (u :: X) (v :: Y) = consV c ((-1 : R) ^ X.length • T R i s (u :: X) Y + T R i s X (v :: Y) +
      T R i s ((u :: X).map f) ((v :: Y).map g)) := by
  set E : List (List Nat × List Nat) →₀ R := (if X.length = 0 ∧ Y.length = 0 then bv R [] else 0) +
      (-1 : R) ^ X.length • ez (u :: X) Y + ez X (v :: Y) with hE
  have e1 : ez (R := R) (u :: X) (v :: Y) = consV (u, v) E := by
    rw [ez_cons, hE, map_add, map_add, map_smul]
    congr 2
    split <;> simp
  have sE : E ∈ Finsupp.supported R R {m | ∀ p ∈ m, p.1 ∈ u :: X ∧ p.2 ∈ v :: Y} := by
    refine Submodule.add_mem _ (Submodule.add_mem _ ?_ (Submodule.smul_mem _ _ ?_)) ?_
    · split
      · exact Finsupp.single_mem_supported R _ (by simp)
      · exact Submodule.zero_mem _
    · refine Finsupp.supported_mono (t := {m | ∀ p ∈ m, p.1 ∈ u :: X ∧ p.2 ∈ v :: Y}) (fun m hm => ?_)
        (ez_supported (R := R) (u :: X) Y)
      exact fun p hp => ⟨(hm.2.1 p hp).1, List.mem_cons_of_mem _ (hm.2.1 p hp).2⟩
    · refine Finsupp.supported_mono (t := {m | ∀ p ∈ m, p.1 ∈ u :: X ∧ p.2 ∈ v :: Y}) (fun m hm => ?_)
        (ez_supported (R := R) X (v :: Y))
      exact fun p hp => ⟨List.mem_cons_of_mem _ (hm.2.1 p hp).1, (hm.2.1 p hp).2⟩
  have e2 : mapK (List.map (rm c)) (mapK (List.map (sb i s)) E) =
      mapK (List.map (sb i s)) (mapK (List.map (Prod.map f g)) E) := by
    rw [SurjMay.mapK_comp', SurjMay.mapK_comp']
    refine BElem.mapK_congr_supported (fun m hm => ?_) sE
    simp only [Function.comp, List.map_map]
    apply List.map_congr_left
    intro p hp
    have := hm p hp
    exact h3 p.1 this.1 p.2 this.2
  have e3 : consV w' (mapK (List.map (rm c)) (mapK (List.map (sb i s)) E)) =
      mapK (List.map (sb i s)) (ez ((u :: X).map f) ((v :: Y).map g)) := by
    rw [e2, ez_map, e1, mapK_map_consV, mapK_map_consV, h2]
    rfl
  have e4 : trL (mapK (List.map (sb i s)) E) = (-1 : R) ^ X.length • T R i s (u :: X) Y + T R i s X (v :: Y) := by
    rw [hE]
    simp only [map_add, map_smul, T]
    have : trL (R := R) (mapK (List.map (sb i s)) (if X.length = 0 ∧ Y.length = 0 then bv R [] else 0)) = 0 := by
      split <;> simp
    rw [this, zero_add]
  conv_lhs => rw [T, e1, mapK_map_consV, h1, trL_consV, e3, e4]
  rw [← map_add]
  rfl

/-- The span of the degenerate words. -/
abbrev Deg (R : Type) [CommRing R] : Submodule R (List Nat →₀ R) :=
  Finsupp.supported R R {m : List Nat | hasRep m = true}

theorem consV_Deg (c : Nat) {v : List Nat →₀ R} (hv : v ∈ Deg R) : consV c v ∈ Deg R := by
  refine mapK_supported (S := {m : List Nat | hasRep m = true}) (T := {m : List Nat | hasRep m = true}) _
    (fun m hm => ?_) hv
  have hm : hasRep m = true := hm
  show hasRep (c :: m) = true
  cases m with
  | nil => simp [hasRep] at hm
  | cons q m => simp [hasRep, hm]

theorem consV_consV_Deg (c : Nat) (v : List Nat →₀ R) : consV c (consV c v) ∈ Deg R := by
  induction v using Finsupp.induction_linear with
  | zero => simp
  | add f g hf hg => rw [map_add, map_add]; exact Submodule.add_mem _ hf hg
  | single k r =>
    rw [consV_single, consV_single]
    apply Finsupp.single_mem_supported
    show hasRep (c :: c :: k) = true
    simp [hasRep]

theorem bil_cmp_ne {j : Nat} (hj : j ≠ i) (a b : List Nat →₀ R) :
    bil (cmp i s) (consV j a) b = consV (sh i s j) (bil (cmp i s) a b) := by
  induction a using Finsupp.induction_linear with
  | zero => simp
  | add f g hf hg => simp only [map_add, LinearMap.add_apply, hf, hg]
  | single k c =>
    induction b using Finsupp.induction_linear with
    | zero => simp
    | add f g hf hg => simp only [map_add, hf, hg]
    | single l d => simp [cmp_ne hj]

/-- One step of the composition at the letter `i`, over two linear combinations. -/
theorem bil_cmp_step {d : Nat} {a : Nat} (p q : Bool) (o : Bool) {U V : List Nat →₀ R}
    (hU : U ∈ Finsupp.supported R R {t : List Nat | sdeg (i :: t) = d ∧ (i ∈ t ↔ p = true)})
    (hV : V ∈ Finsupp.supported R R {w : List Nat | (a ∈ w ↔ q = true) ∧ (w = [] ↔ o = true)}) :
    bil (cmp i s) (consV i U) (consV a V) =
      (if q then (-1 : R) ^ d else 1) • consV (up i a) (bil (cmp i s) (consV i U) V) +
        (if p ∨ o then consV (up i a) (bil (cmp i s) U (consV a V)) else 0) := by
  have := BElem.bil_ext_supported (R := R)
    (f := ((bil (cmp (R := R) i s)).comp (consV i)).compl₂ (consV a))
    (g := (if q then (-1 : R) ^ d else 1) • ((bil (cmp (R := R) i s)).comp (consV i)).compr₂ (consV (up i a)) +
      (if p ∨ o then ((bil (cmp (R := R) i s)).compl₂ (consV a)).compr₂ (consV (up i a)) else 0))
    (S := {t : List Nat | sdeg (i :: t) = d ∧ (i ∈ t ↔ p = true)})
    (T := {w : List Nat | (a ∈ w ↔ q = true) ∧ (w = [] ↔ o = true)}) ?_ hU hV
  · simp only [LinearMap.compl₂_apply, LinearMap.comp_apply, LinearMap.add_apply, LinearMap.smul_apply,
      LinearMap.compr₂_apply] at this
    rw [this]
    congr 1
    split <;> simp
  · rintro t ⟨ht1, ht2⟩ w ⟨hw1, hw2⟩
    simp only [LinearMap.compl₂_apply, LinearMap.comp_apply, LinearMap.add_apply, LinearMap.smul_apply,
      LinearMap.compr₂_apply, consV_single, bil_single, one_mul, one_smul, cmp_i_cons, ht1, ht2, hw1, hw2]
    congr 1
    split <;> simp


theorem sdeg_of_term {A : Finset Nat} {n : Nat} {t : List Nat} (hi : i ∈ A)
    (h : (∀ v, v ∈ t ↔ v ∈ A) ∧ t.length + 1 = n + A.card) : sdeg (i :: t) = n := by
  have h1 := sdeg_card (i :: t)
  have h2 : (i :: t).toFinset = A := by
    ext v
    rw [List.mem_toFinset, List.mem_cons, h.1]
    constructor
    · rintro (rfl | h) <;> assumption
    · exact Or.inr
  rw [h2, List.length_cons] at h1
  omega

theorem sdeg_of_term' {A : Finset Nat} {n : Nat} {t : List Nat} (hi : i ∈ A)
    (h : (∀ v, v ∈ t ↔ v ∈ A.erase i) ∧ t.length + 1 = (n + 1) + (A.erase i).card) : sdeg (i :: t) = n := by
  have h1 := sdeg_card (i :: t)
  have h2 : (i :: t).toFinset = A := by
    ext v
    rw [List.mem_toFinset, List.mem_cons, h.1, Finset.mem_erase]
    constructor
    · rintro (rfl | h)
      · exact hi
      · exact h.2
    · intro hv
      by_cases e : v = i
      · exact Or.inl e
      · exact Or.inr ⟨e, hv⟩
  have h3 := h.2
  have := Finset.card_pos.2 ⟨i, hi⟩
  rw [Finset.card_erase_of_mem hi] at h3
  rw [h2, List.length_cons] at h1
  omega

theorem cmpL_nil_i (v : List Nat →₀ R) : bil (cmp i s) (consV i v) (bv R []) = 0 := by
  induction v using Finsupp.induction_linear with
  | zero => simp
  | add f g hf hg => rw [map_add, map_add, LinearMap.add_apply, hf, hg, add_zero]
  | single k r => simp

theorem size_step (c : Nat) (w : List Nat) (W : List (List Nat)) :
    size (w :: W.map (rm c)) < size ((c :: w) :: W) := by
  have := size_rm_le c W
  simp only [size, List.length_cons, List.map_cons, List.sum_cons, List.length_map] at *
  omega

theorem size_tail (w : List Nat) (W : List (List Nat)) : size W < size (w :: W) := by
  simp only [size, List.length_cons, List.map_cons, List.sum_cons]
  omega

theorem Al.rng {B : Finset Nat} {Y : List (List Nat)} (h : Al B Y) (hB : ∀ a ∈ B, 1 ≤ a ∧ a ≤ s) :
    ∀ y ∈ Y, Rng s y := by
  intro y hy a ha
  exact hB a (by rw [← (h y hy).2, List.mem_toFinset]; exact ha)

theorem Al.nodup {A : Finset Nat} {w : List Nat} {W : List (List Nat)} (h : Al A (w :: W)) : w.Nodup :=
  (h w (by simp)).1

theorem Al.nil {W : List (List Nat)} (h : Al ∅ W) : ∀ w ∈ W, w = [] := by
  intro w hw
  have := (h w hw).2
  simpa using this

theorem Al.al_sh {A : Finset Nat} {X : List (List Nat)} (hs : 1 ≤ s) (h : Al A X) :
    Al ((A.erase i).image (sh i s)) (X.map fun x => sb i s (x, [])) := by
  intro w hw
  obtain ⟨x, hx, rfl⟩ := List.mem_map.1 hw
  have hm : ∀ v, v ∈ TR.rm i x ↔ v ∈ A.erase i := by
    intro v
    rw [mem_rm, Finset.mem_erase, ← (h x hx).2, List.mem_toFinset]; tauto
  refine ⟨?_, ?_⟩
  · show (sb i s (x, [])).Nodup
    rw [sb_nil]
    refine (nodup_rm (h x hx).1 i).map_on ?_
    intro a ha b hb e
    exact sh_inj (mem_rm.1 ha).2 (mem_rm.1 hb).2 hs e
  · show (sb i s (x, [])).toFinset = _
    rw [sb_nil]
    ext v
    simp only [List.mem_toFinset, List.mem_map, Finset.mem_image, hm]

/-- Composing with the empty word alone. -/
theorem T_nil_one {A : Finset Nat} (hs : 1 ≤ s) {X : List (List Nat)} (hX : X ≠ []) (h : Al A X) :
    T R i s X [[]] = mapK (List.map (sh i s)) (tr (X.map (rm i))) := by
  rw [T, BElem.ez_single_right _ hX, mapK_single, trL_single, one_smul, List.map_map, ← tr_map (h.rm i)]
  · rw [List.map_map]
    congr 1
    apply List.map_congr_left
    intro x _
    exact sb_nil x
  · intro a ha b hb e
    exact sh_inj (Finset.mem_erase.1 ha).1 (Finset.mem_erase.1 hb).1 hs e

/-- Composing with several empty words. -/
theorem T_nil_many {A : Finset Nat} (hs : 1 ≤ s) {X Y : List (List Nat)} (h : Al A X) (hY : ∀ y ∈ Y, y = [])
    (hr : hasRep Y = true) : T R i s X Y ∈ Deg R := by
  rw [T]
  have h1 := ez_hasRep (R := R) X Y (Or.inr hr)
  have h2 := ez_supported (R := R) X Y
  have h3 : ez (R := R) X Y ∈ Finsupp.supported R R
      {m : List (List Nat × List Nat) | hasRep m = true ∧ ∀ p ∈ m, p.1 ∈ X ∧ p.2 ∈ Y} := by
    intro m hm
    exact ⟨h1 hm, (h2 hm).2.1⟩
  refine lin_supported (S := {W : List (List Nat) | hasRep W = true ∧ Al ((A.erase i).image (sh i s)) W}) _ ?_
    (mapK_supported (S := {m : List (List Nat × List Nat) | hasRep m = true ∧ ∀ p ∈ m, p.1 ∈ X ∧ p.2 ∈ Y}) _ ?_ h3)
  · intro W hW
    exact tr_hasRep hW.2 hW.1
  · intro m hm
    refine ⟨BElem.hasRep_map_of _ hm.1, ?_⟩
    intro w hw
    obtain ⟨p, hp, rfl⟩ := List.mem_map.1 hw
    obtain ⟨hp1, hp2⟩ := hm.2 p hp
    refine h.al_sh hs _ (List.mem_map.2 ⟨p.1, hp1, ?_⟩)
    rw [← hY _ hp2]

theorem sub_consV_Deg {c : Nat} {a b : List Nat →₀ R} (h : a - b ∈ Deg R) : consV c a - consV c b ∈ Deg R := by
  rw [← map_sub]; exact consV_Deg c h

/-- Table reduction is compatible with composition, up to degenerate words. -/
theorem tr_compose (hi : 1 ≤ i) (hs : 1 ≤ s) : ∀ (N : Nat) (X Y : List (List Nat)) (A B : Finset Nat),
    size X + size Y ≤ N → Al A X → i ∈ A → Al B Y → (∀ a ∈ B, 1 ≤ a ∧ a ≤ s) → B.Nonempty →
    T R i s X Y - bil (cmp i s) (tr X) (tr Y) ∈ Deg R := by
  intro N
  induction N with
  | zero =>
    intro X Y A B hN _ _ _ _ _
    cases X with
    | nil => simp
    | cons u X => simp [size] at hN
  | succ N ih =>
    intro X Y A B hN hX hiA hY hB hBne
    cases X with
    | nil => simp
    | cons u X =>
    cases Y with
    | nil => simp
    | cons v Y =>
    cases u with
    | nil => have := hX.mem.1 hiA; simp at this
    | cons j u =>
    cases v with
    | nil =>
      obtain ⟨b, hb⟩ := hBne
      have := hY.mem.1 hb; simp at this
    | cons a v =>
    have hju : j ∉ u := (List.nodup_cons.1 hX.nodup).1
    have hav : a ∉ v := (List.nodup_cons.1 hY.nodup).1
    have haB : a ∈ B := hY.mem.2 (by simp)
    have z1 := size_step j u X
    have z2 := size_step a v Y
    have z3 := size_tail (j :: u) X
    have z4 := size_tail (a :: v) Y
    by_cases hj : j = i
    · subst hj
      have hstep := T_step (R := R) (i := j) (s := s) (u := j :: u) (v := a :: v) (c := up j a)
        (w' := sb j s (j :: u, v)) (X := X) (Y := Y) (f := id) (g := rm a)
        (by rw [sb_cons_i, sb_cons_i, sb_not_mem hju, sb_not_mem hju]; simp)
        (by rw [rm_cons_self, rm_not_mem hav]; rfl)
        (fun x _ y hy => rm_up hi (hB a haB) x (hY.rng hB y hy))
      rw [List.map_id, List.map_cons, rm_cons_self, rm_not_mem hav] at hstep
      -- supports
      have sP1 : tr (R := R) X ∈ Finsupp.supported R R
          {t : List Nat | sdeg (j :: t) = X.length ∧ (j ∈ t ↔ true = true)} := by
        intro t ht
        have ht := tr_supported hX.tail ht
        exact ⟨sdeg_of_term hiA ht, by rw [ht.1]; simpa using hiA⟩
      have sP2 : tr (R := R) (u :: X.map (rm j)) ∈ Finsupp.supported R R
          {t : List Nat | sdeg (j :: t) = X.length ∧ (j ∈ t ↔ false = true)} := by
        intro t ht
        have ht := tr_supported hX.step ht
        exact ⟨sdeg_of_term' hiA (by simpa using ht), by rw [ht.1]; simp⟩
      have sQ1 : tr (R := R) Y ∈ Finsupp.supported R R
          {w : List Nat | (a ∈ w ↔ true = true) ∧ (w = [] ↔ false = true)} := by
        intro w hw
        have hw := tr_supported hY.tail hw
        have : a ∈ w := (hw.1 a).2 haB
        exact ⟨by simpa using this, by simpa using List.ne_nil_of_mem this⟩
      have t1 := sub_consV_Deg (c := up j a) (ih ((j :: u) :: X) Y A B (by omega) hX hiA hY.tail hB hBne)
      have t2 := sub_consV_Deg (c := up j a) (ih X ((a :: v) :: Y) A B (by omega) hX.tail hiA hY hB hBne)
      rw [tr_cons j] at t1
      rw [tr_cons a] at t2
      rw [hstep, tr_cons j, tr_cons a]
      simp only [map_add, map_smul, LinearMap.add_apply] at t1 t2 ⊢
      by_cases hv : v = []
      · subst hv
        have hBa : B.erase a = ∅ := by
          rw [← (hY.step [] (by simp)).2]; rfl
        by_cases hY0 : Y = []
        · subst hY0
          have sQ2 : bv R ([] : List Nat) ∈ Finsupp.supported R R
              {w : List Nat | (a ∈ w ↔ false = true) ∧ (w = [] ↔ true = true)} :=
            Finsupp.single_mem_supported R _ (by simp)
          have hP2 : bil (cmp j s) (tr (u :: X.map (rm j))) (consV a (bv R [])) =
              mapK (List.map (sh j s)) (tr (u :: X.map (rm j))) := by
            rw [consV_single]
            refine BElem.lin_ext_supported (f := (bil (cmp j s)).flip (bv R [a])) (g := mapK (List.map (sh j s)))
              (fun t ht => ?_) sP2
            have : j ∉ t := by
              intro h
              have := ht.2.1 h
              simp at this
            rw [LinearMap.flip_apply, bil_single, cmp_not_mem this]
            simp
          have hT := T_nil_one (R := R) (i := j) hs (X := (j :: u) :: X) (by simp) hX
          rw [List.map_cons, rm_cons_self, rm_not_mem hju] at hT
          rw [tr_nil] at *
          simp only [List.map_nil, tr_nil_cons, if_true, T_nil_right, map_zero, add_zero, zero_add] at t1 t2 ⊢
          rw [bil_cmp_step true false true sP1 sQ2, bil_cmp_step false false true sP2 sQ2, hP2, hT]
          simp only [cmpL_nil_i, map_zero, if_true, or_true, smul_zero, zero_add]
          refine (congrArg (· ∈ Deg R) ?_).mp t2
          abel
        · have hQ2 : tr (R := R) ([] :: Y.map (rm a)) = 0 := by
            rw [tr_nil_cons, if_neg]
            simpa using hY0
          have t3 : T R j s ((j :: u) :: X) ([] :: Y.map (rm a)) ∈ Deg R := by
            refine T_nil_many hs hX (Al.nil (hBa ▸ hY.step)) ?_
            cases Y with
            | nil => exact absurd rfl hY0
            | cons y Y =>
              have : rm a y = [] := Al.nil (hBa ▸ hY.step) (rm a y) (by simp)
              rw [List.map_cons, this]
              simp [hasRep]
          have t3 := consV_Deg (up j a) t3
          rw [hQ2] at t2 ⊢
          simp only [map_zero, add_zero] at t1 t2 ⊢
          rw [bil_cmp_step true true false sP1 sQ1, bil_cmp_step false true false sP2 sQ1]
          simp only [if_true, true_or, Bool.false_eq_true, or_self, if_false, add_zero]
          have := Submodule.add_mem _ (Submodule.smul_mem _ ((-1 : R) ^ X.length) t1) (Submodule.add_mem _ t2 t3)
          refine (congrArg (· ∈ Deg R) ?_).mp this
          module
      · have sQ2 : tr (R := R) (v :: Y.map (rm a)) ∈ Finsupp.supported R R
            {w : List Nat | (a ∈ w ↔ false = true) ∧ (w = [] ↔ false = true)} := by
          intro w hw
          have hw := tr_supported hY.step hw
          obtain ⟨b, hb⟩ := List.exists_mem_of_ne_nil v hv
          have : b ∈ w := (hw.1 b).2 (hY.step.mem.2 hb)
          exact ⟨by rw [hw.1]; simp, by simpa using List.ne_nil_of_mem this⟩
        have hBa : (B.erase a).Nonempty := by
          obtain ⟨b, hb⟩ := List.exists_mem_of_ne_nil v hv
          exact ⟨b, hY.step.mem.2 hb⟩
        have t3 := sub_consV_Deg (c := up j a) (ih ((j :: u) :: X) (v :: Y.map (rm a)) A (B.erase a) (by omega) hX
          hiA hY.step (fun b hb => hB b (Finset.mem_of_mem_erase hb)) hBa)
        rw [tr_cons j] at t3
        simp only [map_add, LinearMap.add_apply] at t3
        rw [bil_cmp_step true true false sP1 sQ1, bil_cmp_step false true false sP2 sQ1,
          bil_cmp_step true false false sP1 sQ2, bil_cmp_step false false false sP2 sQ2]
        simp only [if_true, true_or, Bool.false_eq_true, or_self, if_false, add_zero, one_smul]
        have := Submodule.add_mem _ (Submodule.smul_mem _ ((-1 : R) ^ X.length) t1) (Submodule.add_mem _ t2 t3)
        refine (congrArg (· ∈ Deg R) ?_).mp this
        module
    · have hstep : ∀ y Y', Rng s y → (∀ z ∈ Y', Rng s z) → T R i s ((j :: u) :: X) (y :: Y') =
          consV (sh i s j) ((-1 : R) ^ X.length • T R i s ((j :: u) :: X) Y' + T R i s X (y :: Y') +
            T R i s (u :: X.map (rm j)) (y :: Y')) := by
        intro y Y' hy hY'
        have := T_step (R := R) (i := i) (s := s) (u := j :: u) (v := y) (c := sh i s j)
          (w' := sb i s (u, y)) (X := X) (Y := Y') (f := rm j) (g := id) (sb_cons_ne hj _ _)
          (by rw [rm_cons_self, rm_not_mem hju]; rfl)
          (fun x _ z hz => by
            refine rm_sh hi hs hj x ?_
            rcases List.mem_cons.1 hz with rfl | hz
            · exact hy
            · exact hY' z hz)
        rw [List.map_cons, rm_cons_self, rm_not_mem hju, List.map_id] at this
        exact this
      have hr := hY.rng hB
      rw [hstep _ _ (hr _ (by simp)) (fun z hz => hr z (List.mem_cons_of_mem _ hz)), tr_cons j,
        map_add (bil (cmp i s)), LinearMap.add_apply, bil_cmp_ne hj, bil_cmp_ne hj, map_add, map_add, map_smul]
      have t1 : consV (sh i s j) (T R i s ((j :: u) :: X) Y) ∈ Deg R := by
        cases Y with
        | nil => simp
        | cons y Y =>
          rw [hstep _ _ (hr _ (by simp)) (fun z hz => hr z (by simp [hz]))]
          exact consV_consV_Deg _ _
      have t2 := sub_consV_Deg (c := sh i s j) (ih X ((a :: v) :: Y) A B (by omega) hX.tail hiA hY hB hBne)
      have t3 := sub_consV_Deg (c := sh i s j) (ih (u :: X.map (rm j)) ((a :: v) :: Y) (A.erase j) B (by omega)
        hX.step (Finset.mem_erase.2 ⟨Ne.symm hj, hiA⟩) hY hB hBne)
      have := Submodule.add_mem _ (Submodule.smul_mem _ ((-1 : R) ^ X.length) t1) (Submodule.add_mem _ t2 t3)
      refine (congrArg (· ∈ Deg R) ?_).mp this
      abel

end Comch.TR
