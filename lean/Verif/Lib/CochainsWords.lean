import Verif.Lib.CochainsAct

/-! # Tensors of cochains: words in letters which stand for cochains

The free module on words acts as functionals on tensors of simplices.  The differential and the action of permutations on
tensors of simplices are adjoint to those on words. -/

set_option linter.unusedSectionVars false

namespace Comch.Coch
open Comch.Spec Elem SurjComp SurjElem IsPerm SurjMay Comch.Props
open BElem (stepV stepV_supported PermSet)
open Finsupp (single)

variable {R : Type} [CommRing R] {A : Type} {r : Nat} (deg : A → Nat) (val : A → List Nat → R)

/-- The functional which a combination of words stands for. -/
noncomputable def EW : (List A →₀ R) →ₗ[R] (SKey →₀ R) →ₗ[R] R :=
  Finsupp.linearCombination R fun w => evF (w.map fun a => (deg a, val a))

/-- Degrees of letters as integers. -/
def wd (a : A) : Int := deg a

@[simp] theorem EW_single (w : List A) (c : R) (v : SKey →₀ R) :
    EW deg val (single w c) v = c * evF (w.map fun a => (deg a, val a)) v := by simp [EW]

/-! ### permutations -/

theorem actL_map {B : Type} (f : A → B) (σ : Perm) (k : List A) : actL σ (k.map f) = (actL σ k).map f := by
  unfold actL
  rw [List.zip_map_right, List.map_map]
  have : ∀ l : List (Nat × A), sortl (l.map (Prod.map id f)) = (sortl l).map (Prod.map id f) := by
    intro l
    unfold sortl
    induction l with
    | nil => rfl
    | cons x l ih =>
      rw [List.map_cons, List.insertionSort_cons, List.insertionSort_cons, ih]
      generalize List.insertionSort (fun a b : Nat × A => a.1 ≤ b.1) l = m
      induction m with
      | nil => rfl
      | cons y m ih2 =>
        simp only [List.map_cons, List.orderedInsert_cons]
        by_cases h : x.1 ≤ y.1
        · rw [if_pos (by exact h), if_pos h]; rfl
        · rw [if_neg (by exact h), if_neg h, List.map_cons, ih2]
  rw [this, List.map_map]
  rfl

theorem kos_congr {f g : A → Int} {l : List (Nat × A)} (h : ∀ x ∈ l, f x.2 = g x.2) : kos f l = kos g l := by
  induction l with
  | nil => rfl
  | cons x l ih =>
    rw [kos, kos, ih fun y hy => h y (by simp [hy]), h x (by simp)]
    congr 3
    refine List.map_congr_left fun y hy => h y (by simp [(List.mem_filter.1 hy).1])

/-- The value at one pair of a letter and a simplex. -/
def v2 (x : A × List Nat) : R := if x.2.length = deg x.1 + 1 then val x.1 x.2 else 0

theorem tensorValue_zip (z : List (A × List Nat)) :
    tensorValue ((z.map Prod.fst).map fun a => (deg a, val a)) (z.map Prod.snd) = (z.map (v2 deg val)).prod := by
  induction z with
  | nil => simp [tensorValue]
  | cons x z ih => rw [List.map_cons, List.map_cons, List.map_cons, tensorValue, ih]; simp [v2]

theorem EW_act {σ : Perm} (hσ : IsPerm r σ) {w : List A} {k : SKey} (hw : w.length = r) (hk : k.length = r) :
    EW deg val (actK (wd deg) σ w) (actK ldim σ k) = EW deg val (bv R w) (bv R k) := by
  obtain ⟨z, hz, rfl, rfl⟩ : ∃ z : List (A × List Nat), z.length = r ∧ z.map Prod.fst = w ∧ z.map Prod.snd = k :=
    ⟨w.zip k, by simp [hw, hk], List.map_fst_zip (by omega), List.map_snd_zip (by omega)⟩
  rw [actK, actK, actL_map, actL_map, map_smul, map_smul, LinearMap.smul_apply, EW_single, EW_single, evF_single,
    evF_single, tensorValue_zip, tensorValue_zip, ((perm_actL hσ hz).map _).prod_eq, kos_map, kos_map]
  simp only [one_mul, smul_eq_mul]
  by_cases h : ∀ x ∈ z, x.2.length = deg x.1 + 1
  · rw [kos_congr (f := fun a : A × List Nat => wd deg a.1) (g := fun a : A × List Nat => ldim a.2), ← mul_assoc, ← sg_add]
    · rw [show kos (fun a : A × List Nat => ldim a.2) (List.zip σ z) + kos (fun a : A × List Nat => ldim a.2) (List.zip σ z) =
        2 * kos (fun a : A × List Nat => ldim a.2) (List.zip σ z) by ring]
      rw [sg_congr (b := 0) (by omega)]
      simp
    · intro x hx
      have := h x.2 (List.of_mem_zip hx).2
      rw [wd, ldim, this]
      push_cast; ring
  · push Not at h
    obtain ⟨x, hx, hne⟩ := h
    have : (z.map (v2 deg val)).prod = 0 := List.prod_eq_zero (List.mem_map.2 ⟨x, hx, by rw [v2, if_neg hne]⟩)
    rw [this]; simp

theorem EW_adj {σ : Perm} (hσ : IsPerm r σ) {w : List A} {k : SKey} (hw : w.length = r) (hk : k.length = r) :
    EW deg val (actK (wd deg) (invL r σ) w) (bv R k) = EW deg val (bv R w) (actK ldim σ k) := by
  have h1 : EW deg val (bv R w) (actK ldim σ k) =
      EW deg val (lin (actK (wd deg) σ) (actK (wd deg) (invL r σ) w)) (actK ldim σ k) := by
    rw [actK_actK (wd deg) hσ (isPerm_invL hσ) hw, mulL_invL hσ, actK_id _ hw]
  rw [h1, actK, map_smul, map_smul, map_smul, LinearMap.smul_apply, LinearMap.smul_apply, lin_single, one_smul,
    EW_act deg val hσ (length_actL (isPerm_invL hσ) hw) hk]

theorem supp_ind {K : Type} {S : Set K} {P : (K →₀ R) → Prop} (h0 : P 0) (hadd : ∀ u v, P u → P v → P (u + v))
    (hs : ∀ k ∈ S, ∀ c, P (single k c)) {v : K →₀ R} (hv : v ∈ Finsupp.supported R R S) : P v := by
  rw [Finsupp.supported_eq_span_single] at hv
  have : P v ∧ ∀ c : R, P (c • v) := by
    refine Submodule.span_induction (p := fun v _ => P v ∧ ∀ c : R, P (c • v)) ?_ ?_ ?_ ?_ hv
    · rintro _ ⟨k, hk, rfl⟩
      exact ⟨hs k hk 1, fun c => by rw [Finsupp.smul_single]; exact hs k hk _⟩
    · exact ⟨h0, fun c => by rw [smul_zero]; exact h0⟩
    · exact fun u v _ _ hu hv => ⟨hadd _ _ hu.1 hv.1, fun c => by rw [smul_add]; exact hadd _ _ (hu.2 c) (hv.2 c)⟩
    · exact fun c v _ hv => ⟨hv.2 c, fun c' => by rw [smul_smul]; exact hv.2 _⟩
  exact this.1

/-- The adjoint action of the group ring. -/
noncomputable def actD (r : Nat) (s : Perm →₀ R) : (List A →₀ R) →ₗ[R] (List A →₀ R) :=
  actV (wd deg) (mapK (invL r) s)

theorem actD_add (s t : Perm →₀ R) (u : List A →₀ R) : actD deg r (s + t) u = actD deg r s u + actD deg r t u := by
  simp only [actD, map_add, LinearMap.add_apply]

theorem actD_single (σ : Perm) (c : R) (u : List A →₀ R) :
    actD deg r (single σ c) u = c • lin (actK (wd deg) (invL r σ)) u := by
  rw [actD, mapK_single, bil_single_left]

theorem EW_actD {s : Perm →₀ R} (hs : s ∈ Finsupp.supported R R (PermSet r)) {u : List A →₀ R}
    (hu : u ∈ Finsupp.supported R R {w : List A | w.length = r}) {v : SKey →₀ R}
    (hv : v ∈ Finsupp.supported R R {m : SKey | m.length = r}) :
    EW deg val (actD deg r s u) v = EW deg val u (actV ldim s v) := by
  refine supp_ind (P := fun s => EW deg val (actD deg r s u) v = EW deg val u (actV ldim s v)) (by simp [actD])
    (fun s t h1 h2 => by simp only [actD_add, map_add, LinearMap.add_apply, h1, h2]) (fun σ hσ c => ?_) hs
  rw [actD_single, bil_single_left, map_smul, map_smul, LinearMap.smul_apply]
  congr 1
  refine supp_ind (P := fun u => EW deg val (lin (actK (wd deg) (invL r σ)) u) v = EW deg val u (lin (actK ldim σ) v)) (by simp)
    (fun s t h1 h2 => by simp only [map_add, LinearMap.add_apply, h1, h2]) (fun w hw c => ?_) hu
  refine supp_ind (P := fun v => EW deg val (lin (actK (wd deg) (invL r σ)) (single w c)) v =
    EW deg val (single w c) (lin (actK ldim σ) v)) (by simp)
    (fun s t h1 h2 => by simp only [map_add, h1, h2]) (fun k hk e => ?_) hv
  rw [lin_single, lin_single, map_smul, map_smul, LinearMap.smul_apply, single_eq_smul_bv k e, single_eq_smul_bv w c,
    map_smul, map_smul, EW_adj deg val hσ hw hk, LinearMap.smul_apply]
  simp only [smul_eq_mul]
  ring

theorem actD_supported {S : Set (List A)} (hS : ∀ w ∈ S, w.length = r) (hact : ∀ σ, IsPerm r σ → ∀ w ∈ S, actL σ w ∈ S)
    {s : Perm →₀ R} (hs : s ∈ Finsupp.supported R R (PermSet r)) {u : List A →₀ R} (hu : u ∈ Finsupp.supported R R S) :
    actD deg r s u ∈ Finsupp.supported R R S := by
  refine supp_ind (P := fun s => actD deg r s u ∈ Finsupp.supported R R S) (by simp [actD])
    (fun s t h1 h2 => by rw [actD_add]; exact Submodule.add_mem _ h1 h2) (fun σ hσ c => ?_) hs
  rw [actD_single]
  refine Submodule.smul_mem _ _ (lin_supported _ (fun w hw => ?_) hu)
  exact Submodule.smul_mem _ _ (Finsupp.single_mem_supported R _ (hact _ (isPerm_invL hσ) w hw))

theorem actD_mulV {s t : Perm →₀ R} (hs : s ∈ Finsupp.supported R R (PermSet r))
    (ht : t ∈ Finsupp.supported R R (PermSet r)) {u : List A →₀ R}
    (hu : u ∈ Finsupp.supported R R {w : List A | w.length = r}) :
    actD deg r t (actD deg r s u) = actD deg r (mulV s t) u := by
  refine supp_ind (P := fun s => actD deg r t (actD deg r s u) = actD deg r (mulV s t) u) (by simp [actD])
    (fun s t h1 h2 => by simp only [actD_add, map_add, LinearMap.add_apply, h1, h2]) (fun σ hσ c => ?_) hs
  refine supp_ind (P := fun t => actD deg r t (actD deg r (single σ c) u) = actD deg r (mulV (single σ c) t) u) (by simp [actD])
    (fun s t h1 h2 => by simp only [actD_add, map_add, h1, h2]) (fun τ hτ e => ?_) ht
  refine supp_ind (P := fun u => actD deg r (single τ e) (actD deg r (single σ c) u) = actD deg r (mulV (single σ c) (single τ e)) u)
    (by simp) (fun s t h1 h2 => by simp only [map_add, h1, h2]) (fun w hw b => ?_) hu
  have hinv : mulL (invL r τ) (invL r σ) = invL r (mulL σ τ) := by
    have hσ : IsPerm r σ := hσ
    have hτ : IsPerm r τ := hτ
    have h1 := isPerm_mulL (isPerm_invL hτ) (isPerm_invL hσ)
    have h2 := isPerm_mulL hσ hτ
    have e1 : mulL (mulL (invL r τ) (invL r σ)) (mulL σ τ) = pyRange 1 (r + 1) := by
      rw [mulL_assoc (isPerm_invL hτ) (isPerm_invL hσ) h2, ← mulL_assoc (isPerm_invL hσ) hσ hτ, invL_mulL hσ, id_mulL hτ,
        invL_mulL hτ]
    have e2 := congrArg (fun x => mulL x (invL r (mulL σ τ))) e1
    rwa [mulL_assoc h1 h2 (isPerm_invL h2), mulL_invL h2, mulL_id h1, id_mulL (isPerm_invL h2)] at e2
  rw [mulV_single, actD_single, actD_single, actD_single, map_smul, lin_single, map_smul,
    actK_actK (wd deg) (isPerm_invL hτ) (isPerm_invL hσ) hw, lin_single, hinv]
  simp only [smul_smul]
  congr 1
  ring

/-! ### the differential -/

variable {d : A → (A →₀ R)}

theorem tens_actD (hdeg : ∀ a, sgn1 (wd deg) (d a) = - (sg R (wd deg a) • d a)) {s : Perm →₀ R}
    (hs : s ∈ Finsupp.supported R R (PermSet r)) {u : List A →₀ R}
    (hu : u ∈ Finsupp.supported R R {w : List A | w.length = r}) :
    tens d (wd deg) (actD deg r s u) = actD deg r s (tens d (wd deg) u) := by
  refine supp_ind (P := fun s => tens d (wd deg) (actD deg r s u) = actD deg r s (tens d (wd deg) u)) (by simp [actD])
    (fun s t h1 h2 => by simp only [actD_add, map_add, h1, h2]) (fun σ hσ c => ?_) hs
  refine supp_ind (P := fun u => tens d (wd deg) (actD deg r (single σ c) u) = actD deg r (single σ c) (tens d (wd deg) u)) (by simp)
    (fun s t h1 h2 => by simp only [map_add, h1, h2]) (fun w hw b => ?_) hu
  rw [actD_single, actD_single, lin_single, map_smul, map_smul, tens_actK hdeg (isPerm_invL hσ) hw, tens_single, map_smul]

variable {X : OrderedComplex}

/-- The differential of words is adjoint to the boundary. -/
theorem EW_tensK (hd : ∀ a (σ : List Nat), σ ∈ X.simplices →
    Finsupp.linearCombination R (fun a => v2 deg val (a, σ)) (d a) = if σ.length = deg a + 2 then coboundary (val a) σ else 0) :
    ∀ (w : List A) (k : SKey), (∀ f ∈ k, f ∈ X.simplices) →
      EW deg val (tensK d (wd deg) w) (bv R k) = evF (w.map fun a => (deg a, val a)) (tensK delK ldim k)
  | [], [], _ => by simp [tensK]
  | [], f :: k, hk => by
    have := evF_tensK_cocycle (R := R) (X := X) [] (by simp) (f :: k) hk
    rw [List.map_nil, this, tensK, map_zero, LinearMap.zero_apply]
  | a :: w, [], _ => by
    rw [tensK, tensK, map_zero, map_add, LinearMap.add_apply, map_smul, LinearMap.smul_apply]
    have h1 : ∀ u : A →₀ R, EW deg val (cat (one u) (bv R w)) (bv R []) = 0 := by
      intro u
      induction u using Finsupp.induction_linear with
      | zero => simp
      | add f g hf hg => simp only [map_add, LinearMap.add_apply, hf, hg, add_zero]
      | single f c => simp [one, tensorValue]
    have h2 : ∀ v : List A →₀ R, EW deg val (consV a v) (bv R []) = 0 := by
      intro v
      induction v using Finsupp.induction_linear with
      | zero => simp
      | add v w hv hw => simp only [map_add, LinearMap.add_apply, hv, hw, add_zero]
      | single k c => simp [tensorValue]
    rw [h1, h2, smul_zero, add_zero]
  | a :: w, f :: k, hk => by
    have ih := EW_tensK hd w k fun g hg => hk g (by simp [hg])
    have h1 : ∀ u : A →₀ R, EW deg val (cat (one u) (bv R w)) (bv R (f :: k)) =
        Finsupp.linearCombination R (fun a => v2 deg val (a, f)) u * tensorValue (w.map fun a => (deg a, val a)) k := by
      intro u
      induction u using Finsupp.induction_linear with
      | zero => simp
      | add f g hf hg => simp only [map_add, LinearMap.add_apply, hf, hg, add_mul]
      | single b c => simp [one, tensorValue, v2, mul_assoc]
    have h2 : ∀ v : List A →₀ R, EW deg val (consV a v) (bv R (f :: k)) = v2 deg val (a, f) * EW deg val v (bv R k) := by
      intro v
      induction v using Finsupp.induction_linear with
      | zero => simp
      | add v w hv hw => simp only [map_add, LinearMap.add_apply, hv, hw, mul_add]
      | single k c => simp [tensorValue, v2]; ring
    rw [tensK, map_add, map_smul, LinearMap.add_apply, LinearMap.smul_apply, h1, h2, ih, hd a f (hk f (by simp)),
      tensK, map_add, map_smul, List.map_cons, evF_cat_one, evF_consV, ev1_delK]
    congr 1
    simp only [v2, smul_eq_mul]
    by_cases hf : f.length = deg a + 1
    · rw [if_pos hf, wd, ldim, hf]
      congr 2
      push_cast; ring
    · simp [hf]

/-! ### the values of the structure elements -/

section values
variable {n m : Nat} {deg : A → Nat} {val : A → List Nat → ZMod n} {d : A → (A →₀ ZMod n)} {σ : List Nat}

/-- The values on a combination of words. -/
noncomputable def wu (r n m : Nat) (deg : A → Nat) (val : A → List Nat → ZMod n) (u : List A →₀ ZMod n) (σ : List Nat) :
    ZMod n := EW deg val u (W r n m (bv (ZMod n) [σ]))

theorem wu_single (w : List A) (c : ZMod n) (σ : List Nat) :
    wu r n m deg val (single w c) σ = c * wv r n m (w.map fun a => (deg a, val a)) σ := by
  rw [wu, EW_single]; rfl

theorem wu_add (u v : List A →₀ ZMod n) (σ : List Nat) :
    wu r n m deg val (u + v) σ = wu r n m deg val u σ + wu r n m deg val v σ := by
  rw [wu, map_add, LinearMap.add_apply]; rfl

theorem wu_zero (σ : List Nat) : wu r n m deg val (0 : List A →₀ ZMod n) σ = 0 := by
  rw [wu, map_zero, LinearMap.zero_apply]

theorem wu_smul (c : ZMod n) (u : List A →₀ ZMod n) (σ : List Nat) :
    wu r n m deg val (c • u) σ = c * wu r n m deg val u σ := by
  rw [wu, map_smul, LinearMap.smul_apply]; rfl

theorem cob_add (α β : List Nat → R) (σ : List Nat) :
    coboundary (fun τ => α τ + β τ) σ = coboundary α σ + coboundary β σ := by
  unfold coboundary
  split
  · simp
  · rw [← List.sum_map_add]
    congr 1
    exact List.map_congr_left fun i _ => by ring

theorem cob_mul (c : R) (α : List Nat → R) (σ : List Nat) :
    coboundary (fun τ => c * α τ) σ = c * coboundary α σ := by
  unfold coboundary
  split
  · simp
  · rw [← List.sum_map_mul_left]
    congr 1
    exact List.map_congr_left fun i _ => by ring

theorem cob_zero (σ : List Nat) : coboundary (fun _ => (0 : R)) σ = 0 := by
  unfold coboundary; split <;> simp

theorem evF_of_words (u : List A →₀ ZMod n) (v : SKey →₀ ZMod n) :
    EW deg val u v = u.sum fun w c => c * evF (w.map fun a => (deg a, val a)) v := by
  rw [EW, Finsupp.linearCombination_apply, Finsupp.sum, LinearMap.sum_apply]
  rfl

/-- The adjoint formula for the boundary. -/
theorem wu_tens (hr : 2 ≤ r) (hn : n ≠ 1) (hX : σ ∈ X.simplices) (hd : ∀ a (σ : List Nat), σ ∈ X.simplices →
      Finsupp.linearCombination (ZMod n) (fun a => v2 deg val (a, σ)) (d a) =
        if σ.length = deg a + 2 then coboundary (val a) σ else 0) (u : List A →₀ ZMod n) :
    EW deg val u (simplicialD (W r n m (bv (ZMod n) [σ]))) = wu r n m deg val (tens d (wd deg) u) σ := by
  have hσ : Inc σ := ⟨X.increasing σ hX, X.nonempty σ hX⟩
  induction u using Finsupp.induction_linear with
  | zero => simp [wu]
  | add u v hu hv => rw [map_add, map_add, LinearMap.add_apply, hu, hv, wu_add]
  | single w c =>
    rw [EW_single, tens_single, wu_smul]
    congr 1
    refine fun_ext_supported (f := (evF (w.map fun a => (deg a, val a))).comp simplicialD)
      (g := EW deg val (tensK d (wd deg) w)) (fun k hk => ?_) (W_supported (d := m) hr hn hσ)
    rw [LinearMap.comp_apply, simplicialD, tens_single, one_smul]
    exact (EW_tensK deg val hd w k fun f hf => X.faces σ hX f (hk.2 f hf).1 (hk.2 f hf).2).symm

theorem wu_zero_bd (hr : 2 ≤ r) (hn : n ≠ 1) (hX : σ ∈ X.simplices) (hd : ∀ a (σ : List Nat), σ ∈ X.simplices →
      Finsupp.linearCombination (ZMod n) (fun a => v2 deg val (a, σ)) (d a) =
        if σ.length = deg a + 2 then coboundary (val a) σ else 0) (u : List A →₀ ZMod n) :
    coboundary (wu r n 0 deg val u) σ = wu r n 0 deg val (tens d (wd deg) u) σ := by
  have hσ : Inc σ := ⟨X.increasing σ hX, X.nonempty σ hX⟩
  rw [← wu_tens hr hn hX hd]
  induction u using Finsupp.induction_linear with
  | zero =>
    rw [show wu r n 0 deg val (0 : List A →₀ ZMod n) = fun _ => 0 from funext wu_zero, cob_zero]
    simp
  | add u v hu hv =>
    rw [show wu r n 0 deg val (u + v) = fun τ => wu r n 0 deg val u τ + wu r n 0 deg val v τ from funext (wu_add u v),
      cob_add, hu, hv, map_add, LinearMap.add_apply]
  | single w c =>
    rw [show wu r n 0 deg val (single w c) = _ from funext (wu_single w c), cob_mul, wv_zero_bd hr hn hσ, EW_single]

theorem wu_succ_bd (hr : 2 ≤ r) (hn : n ≠ 1) (hX : σ ∈ X.simplices) (hd : ∀ a (σ : List Nat), σ ∈ X.simplices →
      Finsupp.linearCombination (ZMod n) (fun a => v2 deg val (a, σ)) (d a) =
        if σ.length = deg a + 2 then coboundary (val a) σ else 0) {u : List A →₀ ZMod n}
    (hu : u ∈ Finsupp.supported (ZMod n) (ZMod n) {w : List A | w.length = r}) :
    (-1) ^ (m + 1) * coboundary (wu r n (m + 1) deg val u) σ =
      wu r n (m + 1) deg val (tens d (wd deg) u) σ - wu r n m deg val (actD deg r (stepV (ZMod n) r (m + 1)) u) σ := by
  have hσ : Inc σ := ⟨X.increasing σ hX, X.nonempty σ hX⟩
  rw [← wu_tens hr hn hX hd, wu, EW_actD deg val (stepV_supported (by omega) _) hu
    (Finsupp.supported_mono (fun m hm => hm.1) (W_supported hr hn hσ))]
  clear hu
  induction u using Finsupp.induction_linear with
  | zero =>
    rw [show wu r n (m + 1) deg val (0 : List A →₀ ZMod n) = fun _ => 0 from funext wu_zero, cob_zero]
    simp
  | add u v hu hv =>
    rw [show wu r n (m + 1) deg val (u + v) = fun τ => wu r n (m + 1) deg val u τ + wu r n (m + 1) deg val v τ from
      funext (wu_add u v), cob_add, mul_add, hu, hv, map_add, LinearMap.add_apply, LinearMap.add_apply]
    ring
  | single w c =>
    rw [show wu r n (m + 1) deg val (single w c) = _ from funext (wu_single w c), cob_mul, EW_single, EW_single,
      ← mul_sub, ← wv_succ_bd hr hn hσ]
    ring

end values

end Comch.Coch
