import Verif.Lib.CochainsHomotopy

/-! # Steenrod operations on cohomology at all primes: C105 -/

set_option linter.unusedSectionVars false

namespace Comch.Coch
open Comch.Spec Elem SurjComp SurjElem IsPerm SurjMay Comch.Props
open BElem (stepV stepV_supported PermSet stepV_mul)
open Finsupp (single)

variable {p q m : Nat} {X : OrderedComplex} {σ : List Nat}

theorem wv_congr_all {r n d : Nat} (hr : 2 ≤ r) (hn : n ≠ 1) {α β : List Nat → ZMod n} (hσ : σ ∈ X.simplices)
    (h : ∀ f ∈ X.simplices, f.length = q + 1 → α f = β f) :
    wv r n d (List.replicate r (q, α)) σ = wv r n d (List.replicate r (q, β)) σ := by
  refine fun_ext_supported (f := evF (List.replicate r (q, α))) (g := evF (List.replicate r (q, β))) (fun k hk => ?_)
    (W_supported hr hn (inc_of_mem hσ))
  rw [evF_single, evF_single, tensorValue_replicate q α r k hk.1, tensorValue_replicate q β r k hk.1]
  congr 2
  refine List.map_congr_left fun f hf => ?_
  split
  · rename_i hl
    exact h f (X.faces σ hσ f (hk.2 f hf).1 (hk.2 f hf).2) hl
  · rfl

theorem tens_pw {R A : Type} [CommRing R] {d : A → (A →₀ R)} {w : A → Int} {V : A →₀ R} (hV : lin d V = 0) (n : Nat) :
    tens d w (pw V n) = 0 := by
  induction n with
  | zero => simp [pw, tensK]
  | succ n ih => rw [pw, tens_cat, tens_one, hV, ih]; simp

theorem pw_bv {R A : Type} [CommRing R] (a : A) (n : Nat) : pw (bv R a) n = bv R (List.replicate n a) := by
  induction n with
  | zero => rfl
  | succ n ih => rw [pw, ih, one_single, cat_single_single, List.replicate_succ]; simp

/-- Cohomologous cocycles have cohomologous values. -/
theorem wv_well_defined (hp : p.Prime) {α β : List Nat → ZMod p} (hβ : IsCocycle X q β) (h : Cohomologous X q α β)
    (m : Nat) : ∃ g : List Nat → ZMod p, ∀ σ ∈ X.simplices,
      wv p p m (List.replicate p (q, α)) σ = wv p p m (List.replicate p (q, β)) σ + coboundary g σ := by
  have h2 := hp.two_le
  have h1 : p ≠ 1 := hp.ne_one
  obtain ⟨γ, hγ⟩ := h
  cases q with
  | zero =>
    refine ⟨fun _ => 0, fun σ hσ => ?_⟩
    rw [cob_zero, add_zero]
    refine wv_congr_all h2 h1 hσ fun f hf hl => ?_
    rw [hγ f hf hl, coboundary, if_pos (by omega), add_zero]
  | succ q =>
    set V : Letter →₀ ZMod p := bv _ .a + bv _ .dc with hV
    set V' : Letter →₀ ZMod p := bv _ .a with hV'
    have sV : V ∈ Finsupp.supported (ZMod p) (ZMod p) {x | Letter.deg q x = q + 1} :=
      Submodule.add_mem _ (Finsupp.single_mem_supported _ _ rfl) (Finsupp.single_mem_supported _ _ rfl)
    have sV' : V' ∈ Finsupp.supported (ZMod p) (ZMod p) {x | Letter.deg q x = q + 1} :=
      Finsupp.single_mem_supported _ _ rfl
    have hlen : ∀ {V : Letter →₀ ZMod p}, V ∈ Finsupp.supported (ZMod p) (ZMod p) {x | Letter.deg q x = q + 1} →
        pw V p ∈ Finsupp.supported (ZMod p) (ZMod p) {w | w.length = p} := fun hV =>
      Finsupp.supported_mono (fun w hw => hw.1) (pw_supported hV p)
    have hns : ∀ n, pw V n - pw V' n ∈ Finsupp.supported (ZMod p) (ZMod p) (NWord n) := by
      intro n
      induction n with
      | zero => simp [pw]
      | succ n ih =>
        have e : pw V (n + 1) - pw V' (n + 1) = consV .a (pw V n - pw V' n) + consV .dc (pw V n) := by
          rw [pw, pw, hV, hV', map_add, map_add, LinearMap.add_apply, one_single, one_single, consV_eq_cat, consV_eq_cat,
            map_sub]
          abel
        rw [e]
        refine Submodule.add_mem _ (mapK_supported _ (fun k hk => ?_) ih) (mapK_supported _ (fun k hk => ?_) (pw_supported sV n))
        · obtain ⟨h1, y, hy, hne⟩ := hk
          exact ⟨by simp [h1], y, by simp [hy], hne⟩
        · exact ⟨by simp [hk.1], .dc, by simp, by simp⟩
    obtain ⟨g, hg⟩ := wu_null h2 h1 (γ := γ) hβ m (pw V p - pw V' p) (hns p)
      (by
        rw [map_sub, tens_pw, tens_pw, sub_zero]
        · rw [hV', lin_single, Letter.d, smul_zero]
        · rw [hV, map_add, lin_single, lin_single, Letter.d, Letter.d, smul_zero, add_zero])
      (actD_step_inv (by omega) (Submodule.sub_mem _ (hlen sV) (hlen sV'))
        (by rw [map_sub, rho_pw (by omega) hp.eq_two_or_odd sV, rho_pw (by omega) hp.eq_two_or_odd sV']) m)
    refine ⟨g, fun σ hσ => ?_⟩
    rw [← hg σ hσ, wu, map_sub, LinearMap.sub_apply]
    have hf : ∀ k ∈ Faces p σ, ∀ f ∈ k, f ∈ X.simplices := fun k hk f hf => X.faces σ hσ f (hk.2 f hf).1 (hk.2 f hf).2
    rw [EW_pw (V := V) (S := Faces p σ) (q := q + 1) (α := α) (fun k hk => ⟨hk.1, fun f hf' => by
        rw [hV, map_add, Finsupp.linearCombination_single, Finsupp.linearCombination_single, one_smul, one_smul, v2, v2]
        show (if f.length = q + 1 + 1 then β f else 0) + (if f.length = q + 1 + 1 then coboundary γ f else 0) = _
        split
        · rename_i hl; rw [hγ f (hf k hk f hf') hl]
        · simp⟩) (W_supported h2 h1 (inc_of_mem hσ)),
      EW_pw (V := V') (S := Faces p σ) (q := q + 1) (α := β) (fun k hk => ⟨hk.1, fun f hf' => by
        rw [hV', Finsupp.linearCombination_single, one_smul, v2]
        rfl⟩) (W_supported h2 h1 (inc_of_mem hσ))]
    simp only [wv]
    ring

/-! ### additivity -/

/-- Letters for two cocycles of one degree. -/
def bdeg (q : Nat) (_ : Bool) : Nat := q

def bval {n : Nat} (α β : List Nat → ZMod n) : Bool → List Nat → ZMod n
  | false => α
  | true => β

theorem bval_d {n : Nat} {α β : List Nat → ZMod n} (hα : IsCocycle X q α) (hβ : IsCocycle X q β) (x : Bool) (σ : List Nat)
    (hσ : σ ∈ X.simplices) :
    Finsupp.linearCombination (ZMod n) (fun y => v2 (bdeg q) (bval α β) (y, σ)) ((fun _ => 0 : Bool → (Bool →₀ ZMod n)) x) =
      if σ.length = bdeg q x + 2 then coboundary (bval α β x) σ else 0 := by
  rw [map_zero]
  split
  · rename_i h
    cases x with
    | false => exact (hα σ hσ h).symm
    | true => exact (hβ σ hσ h).symm
  · rfl

theorem tens_zero {R A : Type} [CommRing R] (w : A → Int) (u : List A →₀ R) : tens (fun _ => 0) w u = 0 := by
  have : ∀ k : List A, tensK (R := R) (fun _ => 0) w k = 0 := by
    intro k
    induction k with
    | nil => rfl
    | cons a k ih => rw [tensK, ih]; simp
  induction u using Finsupp.induction_linear with
  | zero => simp
  | add u v hu hv => rw [map_add, hu, hv, add_zero]
  | single k c => rw [tens_single, this, smul_zero]

/-- Rotation of words. -/
def rot (p : Nat) (w : List Bool) : List Bool := actL (RingElem.rho p) w

theorem rot_append (b : Bool) (k : List Bool) (h : k.length + 1 = p) : rot p (k ++ [b]) = b :: k := by
  subst h; exact actL_rho b k

theorem rot_iter (k l : List Bool) (h : k.length + l.length = p) : (rot p)^[l.length] (k ++ l) = l ++ k := by
  induction l using List.reverseRecOn generalizing k with
  | nil => simp
  | append_singleton l b ih =>
    rw [List.length_append, List.length_singleton, Function.iterate_succ_apply, ← List.append_assoc,
      rot_append b (k ++ l) (by simp at h ⊢; omega), ← List.cons_append, ih (b :: k) (by simp at h ⊢; omega)]
    simp

theorem last_rot {w : List Bool} (hw : w.length = p) {j : Nat} (hj : j < p) :
    ((rot p)^[j] w).getLast? = w.reverse[j]? := by
  have e : w = w.take (p - j) ++ w.drop (p - j) := (List.take_append_drop _ _).symm
  have hl : (w.drop (p - j)).length = j := by simp [hw]; omega
  have h1 := rot_iter (p := p) (w.take (p - j)) (w.drop (p - j)) (by simp [hw])
  rw [hl, ← e] at h1
  rw [h1, List.getLast?_append]
  have hne : (w.take (p - j)).getLast? = w[p - j - 1]? := by
    rw [List.getLast?_eq_getElem?, List.length_take, List.getElem?_take_of_lt (by omega)]
    congr 1
    omega
  rw [hne, List.getElem?_reverse (by omega), hw, show p - 1 - j = p - j - 1 by omega,
    List.getElem?_eq_getElem (by omega)]
  rfl

theorem actK_rot (hp2 : p = 2 ∨ p % 2 = 1) {w : List Bool} (hw : w.length = p) (hp : 1 ≤ p) :
    actK (R := ZMod p) (wd (bdeg q)) (RingElem.rho p) w = bv _ (rot p w) := by
  have hne : w ≠ [] := by rintro rfl; simp at hw; omega
  have e := List.dropLast_append_getLast hne
  have hl : w.dropLast.length + 1 = p := by rw [List.length_dropLast]; omega
  rw [← e, actK_rho (deg := bdeg q) (e := q) hp2 hl (fun _ _ => rfl), rot_append _ _ hl]

theorem length_rot (hp : 1 ≤ p) {w : List Bool} (hw : w.length = p) : (rot p w).length = p :=
  length_actL (isPerm_rho hp) hw

theorem actK_rot_iter (hp2 : p = 2 ∨ p % 2 = 1) (hp : 1 ≤ p) (j : Nat) {w : List Bool} (hw : w.length = p) :
    actK (R := ZMod p) (wd (bdeg q)) (powL p (RingElem.rho p) j) w = bv _ ((rot p)^[j] w) := by
  induction j generalizing w with
  | zero => rw [powL, actK_id _ hw]; rfl
  | succ j ih =>
    rw [powL, ← actK_actK (wd (bdeg q)) (isPerm_powL (isPerm_rho hp) j) (isPerm_rho hp) hw, actK_rot hp2 hw hp,
      lin_single, one_smul, ih (length_rot hp hw), Function.iterate_succ_apply]

/-- Weights of words. -/
def wt (p : Nat) (w : List Bool) : ZMod p := if w.getLast? = some true then ((w.count true : Nat) : ZMod p)⁻¹ else 0

theorem count_rot (hp : 1 ≤ p) (j : Nat) {w : List Bool} (hw : w.length = p) :
    ((rot p)^[j] w).count true = w.count true ∧ ((rot p)^[j] w).length = p := by
  induction j generalizing w with
  | zero => exact ⟨rfl, hw⟩
  | succ j ih =>
    rw [Function.iterate_succ_apply]
    obtain ⟨h1, h2⟩ := ih (length_rot hp hw)
    exact ⟨h1.trans ((perm_actL (isPerm_rho hp) hw).count_eq true), h2⟩

theorem sum_wt (hp : p.Prime) {w : List Bool} (hw : w.length = p) (h1 : true ∈ w) (h2 : false ∈ w) :
    ((List.range p).map fun j => wt p ((rot p)^[j] w)).sum = 1 := by
  have hp1 := hp.one_le
  have hc : ((w.count true : Nat) : ZMod p) ≠ 0 := by
    rw [Ne, ZMod.natCast_eq_zero_iff]
    intro hd
    have hpos : 0 < w.count true := List.count_pos_iff.2 h1
    have hlt : w.count true < p := by
      rw [← hw]
      refine lt_of_le_of_ne List.count_le_length fun he => ?_
      have := List.count_eq_length.1 he false h2
      simp at this
    exact absurd (Nat.le_of_dvd hpos hd) (by omega)
  have e : ∀ j ∈ List.range p, wt p ((rot p)^[j] w) =
      (if w.reverse[j]? = some true then 1 else 0) * ((w.count true : Nat) : ZMod p)⁻¹ := by
    intro j hj
    rw [wt, last_rot hw (List.mem_range.1 hj), (count_rot hp1 j hw).1]
    split <;> simp
  rw [List.map_congr_left e, List.sum_map_mul_right]
  have h3 : ∀ l : List Bool, ((List.range l.length).map fun j => (if l[j]? = some true then 1 else 0 : ZMod p)).sum =
      ((l.count true : Nat) : ZMod p) := by
    intro l
    induction l with
    | nil => simp
    | cons b l ih =>
      rw [List.length_cons, List.range_succ_eq_map, List.map_cons, List.sum_cons, List.map_map]
      have : (List.map ((fun j => (if (b :: l)[j]? = some true then 1 else 0 : ZMod p)) ∘ Nat.succ) (List.range l.length)) =
          (List.range l.length).map fun j => (if l[j]? = some true then 1 else 0 : ZMod p) :=
        List.map_congr_left fun j _ => by simp
      rw [this, ih]
      cases b <;> simp [add_comm]
  have h4 := h3 w.reverse
  rw [List.length_reverse, hw, List.count_reverse] at h4
  rw [h4]
  have : Fact p.Prime := ⟨hp⟩
  exact mul_inv_cancel₀ hc

/-- An invariant combination of words with both letters is a norm. -/
theorem exists_norm (hp : p.Prime) {u : List Bool →₀ ZMod p}
    (hu : u ∈ Finsupp.supported (ZMod p) (ZMod p) {w | w.length = p ∧ true ∈ w ∧ false ∈ w})
    (hinv : lin (actK (R := ZMod p) (wd (bdeg q)) (RingElem.rho p)) u = u) :
    ∃ v ∈ Finsupp.supported (ZMod p) (ZMod p) {w : List Bool | w.length = p}, actD (bdeg q) p (nV (ZMod p) p) v = u := by
  have hp1 := hp.one_le
  have hp2 := hp.eq_two_or_odd
  have hρ := isPerm_rho hp1
  have hpow : ∀ j, lin (actK (R := ZMod p) (wd (bdeg q)) (powL p (RingElem.rho p) j)) u = u := by
    intro j
    induction j with
    | zero =>
      refine BElem.lin_ext_supported (g := LinearMap.id) (fun w hw => ?_) hu
      rw [lin_single, one_smul, powL, actK_id _ hw.1]; rfl
    | succ j ih =>
      have : lin (actK (R := ZMod p) (wd (bdeg q)) (powL p (RingElem.rho p) (j + 1))) u =
          lin (actK (R := ZMod p) (wd (bdeg q)) (powL p (RingElem.rho p) j)) (lin (actK (R := ZMod p) (wd (bdeg q)) (RingElem.rho p)) u) := by
        refine BElem.lin_ext_supported (g := (lin (actK (R := ZMod p) (wd (bdeg q)) (powL p (RingElem.rho p) j))).comp
          (lin (actK (R := ZMod p) (wd (bdeg q)) (RingElem.rho p)))) (fun w hw => ?_) hu
        rw [LinearMap.comp_apply, lin_single, lin_single, one_smul, one_smul, powL,
          actK_actK _ (isPerm_powL hρ j) hρ hw.1]
      rw [this, hinv, ih]
  refine ⟨lin (fun w => wt p w • bv (ZMod p) w) u, lin_supported _ (fun w hw => ?_) hu, ?_⟩
  · exact Submodule.smul_mem _ _ (Finsupp.single_mem_supported _ _ hw.1)
  have key : ∀ j, actD (bdeg q) p (bv (ZMod p) (powL p (RingElem.rho p) j)) (lin (fun w => wt p w • bv (ZMod p) w) u) =
      lin (fun w => wt p ((rot p)^[j] w) • bv (ZMod p) w) u := by
    intro j
    rw [actD_single, one_smul]
    conv_lhs => rw [← hpow j]
    refine BElem.lin_ext_supported (f := ((lin (actK (R := ZMod p) (wd (bdeg q)) (invL p (powL p (RingElem.rho p) j)))).comp
      (lin (fun w => wt p w • bv (ZMod p) w))).comp (lin (actK (R := ZMod p) (wd (bdeg q)) (powL p (RingElem.rho p) j))))
      (fun w hw => ?_) hu
    simp only [LinearMap.comp_apply, lin_single, one_smul]
    rw [actK_rot_iter hp2 hp1 j hw.1, lin_single, one_smul, map_smul, ← actK_rot_iter (q := q) hp2 hp1 j hw.1,
      actK_actK _ (isPerm_invL (isPerm_powL hρ j)) (isPerm_powL hρ j) hw.1, invL_mulL (isPerm_powL hρ j), actK_id _ hw.1]
  have hsum : ∀ l : List Nat, actD (bdeg q) p ((l.map fun k => bv (ZMod p) (powL p (RingElem.rho p) k)).sum)
      (lin (fun w => wt p w • bv (ZMod p) w) u) =
      lin (fun w => (l.map fun j => wt p ((rot p)^[j] w)).sum • bv (ZMod p) w) u := by
    intro l
    induction l with
    | nil =>
      have : lin (fun w => (List.map (fun j => wt p ((rot p)^[j] w)) []).sum • bv (ZMod p) w) u = 0 := by
        refine BElem.lin_ext_supported (g := 0) (fun w hw => ?_) hu
        simp
      rw [this]
      simp [actD]
    | cons j l ih =>
      rw [List.map_cons, List.sum_cons, actD_add, ih, key]
      refine BElem.lin_ext_supported (f := lin (fun w => wt p ((rot p)^[j] w) • bv (ZMod p) w) +
        lin (fun w => (l.map fun j => wt p ((rot p)^[j] w)).sum • bv (ZMod p) w)) (fun w hw => ?_) hu
      simp only [LinearMap.add_apply, lin_single, one_smul, List.map_cons, List.sum_cons, add_smul]
  unfold nV
  rw [hsum]
  refine BElem.lin_ext_supported (g := LinearMap.id) (fun w hw => ?_) hu
  rw [lin_single, one_smul, sum_wt hp hw.1 hw.2.1 hw.2.2, one_smul]
  rfl

/-- Norms have values which are coboundaries. -/
theorem wu_norm (hp : p.Prime) {A : Type} {deg : A → Nat} {val : A → List Nat → ZMod p}
    (hd : ∀ a (σ : List Nat), σ ∈ X.simplices →
      Finsupp.linearCombination (ZMod p) (fun a => v2 deg val (a, σ)) ((fun _ => 0 : A → (A →₀ ZMod p)) a) =
        if σ.length = deg a + 2 then coboundary (val a) σ else 0) (m : Nat)
    {v : List A →₀ ZMod p} (hv : v ∈ Finsupp.supported (ZMod p) (ZMod p) {w : List A | w.length = p}) :
    ∃ g : List Nat → ZMod p, ∀ σ ∈ X.simplices,
      wu p p m deg val (actD deg p (nV (ZMod p) p) v) σ = coboundary g σ := by
  have h2 := hp.two_le
  have h1 := hp.ne_one
  have hρ := isPerm_rho hp.one_le
  have step : ∀ v ∈ Finsupp.supported (ZMod p) (ZMod p) {w : List A | w.length = p}, ∃ g : List Nat → ZMod p,
      ∀ σ ∈ X.simplices, wu p p m deg val (actD deg p (stepV (ZMod p) p (m + 1)) v) σ = coboundary g σ := by
    intro v hv
    refine ⟨fun τ => - (-1) ^ (m + 1) * wu p p (m + 1) deg val v τ, fun σ hσ => ?_⟩
    have := wu_succ_bd (m := m) h2 h1 hσ hd hv
    rw [tens_zero, wu_zero, zero_sub] at this
    rw [cob_mul, neg_mul, this, neg_neg]
  by_cases hm : (m + 1) % 2 = 0
  · have := step v hv
    rwa [stepV, if_pos hm] at this
  · have hrot : ∀ j, ∃ g : List Nat → ZMod p, ∀ σ ∈ X.simplices,
        wu p p m deg val (actD deg p (bv _ (powL p (RingElem.rho p) j)) v) σ =
          wu p p m deg val v σ + coboundary g σ := by
      intro j
      induction j with
      | zero =>
        refine ⟨fun _ => 0, fun σ _ => ?_⟩
        rw [cob_zero, add_zero, powL, actD_single, one_smul]
        congr 1
        refine BElem.lin_ext_supported (g := LinearMap.id) (fun w hw => ?_) hv
        have hid : invL p (pyRange 1 (p + 1)) = pyRange 1 (p + 1) := Comch.invL_id
        rw [lin_single, one_smul, hid, actK_id _ hw]
        rfl
      | succ j ih =>
        obtain ⟨g, hg⟩ := ih
        have hs : bv (ZMod p) (powL p (RingElem.rho p) j) ∈ Finsupp.supported (ZMod p) (ZMod p) (PermSet p) :=
          Finsupp.single_mem_supported _ _ (isPerm_powL hρ j)
        have ht : bv (ZMod p) (RingElem.rho p) ∈ Finsupp.supported (ZMod p) (ZMod p) (PermSet p) :=
          Finsupp.single_mem_supported _ _ hρ
        have hv' : actD deg p (bv (ZMod p) (powL p (RingElem.rho p) j)) v ∈
            Finsupp.supported (ZMod p) (ZMod p) {w : List A | w.length = p} :=
          actD_supported (S := {w : List A | w.length = p}) _ (fun w hw => hw) (fun σ hσ w hw => length_actL hσ hw) hs hv
        obtain ⟨g', hg'⟩ := step _ hv'
        refine ⟨fun τ => g τ + g' τ, fun σ hσ => ?_⟩
        have e := actD_mulV deg hs ht hv
        rw [mulV_single, one_mul] at e
        have e2 : actD deg p (stepV (ZMod p) p (m + 1)) (actD deg p (bv (ZMod p) (powL p (RingElem.rho p) j)) v) =
            actD deg p (bv _ (powL p (RingElem.rho p) (j + 1))) v -
              actD deg p (bv (ZMod p) (powL p (RingElem.rho p) j)) v := by
          rw [stepV, if_neg hm, tV, sub_eq_add_neg, ← Finsupp.single_neg, actD_add, powL, ← e, sub_eq_add_neg]
          congr 1
          rw [actD_single _ (pyRange 1 (p + 1)), neg_one_smul]
          congr 1
          refine BElem.lin_ext_supported (g := LinearMap.id) (fun w hw => ?_) hv'
          have hid : invL p (pyRange 1 (p + 1)) = pyRange 1 (p + 1) := Comch.invL_id
          rw [lin_single, one_smul, hid, actK_id _ hw]
          rfl
        have e3 := hg' σ hσ
        rw [e2, sub_eq_add_neg, wu_add, ← neg_one_smul (ZMod p), wu_smul, hg σ hσ] at e3
        rw [cob_add, ← e3]
        ring
    have hsum : ∀ l : List Nat, ∃ g : List Nat → ZMod p, ∀ σ ∈ X.simplices,
        wu p p m deg val (actD deg p ((l.map fun k => bv (ZMod p) (powL p (RingElem.rho p) k)).sum) v) σ =
          (l.length : ZMod p) * wu p p m deg val v σ + coboundary g σ := by
      intro l
      induction l with
      | nil => exact ⟨fun _ => 0, fun σ _ => by rw [cob_zero]; simp [actD, wu_zero]⟩
      | cons j l ih =>
        obtain ⟨g, hg⟩ := ih
        obtain ⟨g', hg'⟩ := hrot j
        refine ⟨fun τ => g τ + g' τ, fun σ hσ => ?_⟩
        rw [List.map_cons, List.sum_cons, actD_add, wu_add, hg σ hσ, hg' σ hσ, cob_add, List.length_cons]
        push_cast
        ring
    obtain ⟨g, hg⟩ := hsum (List.range p)
    refine ⟨g, fun σ hσ => ?_⟩
    unfold nV
    rw [hg σ hσ, List.length_range]
    simp

theorem wv_additive (hp : p.Prime) {α β : List Nat → ZMod p} (hα : IsCocycle X q α) (hβ : IsCocycle X q β) (m : Nat) :
    ∃ g : List Nat → ZMod p, ∀ σ ∈ X.simplices,
      wv p p m (List.replicate p (q, fun f => α f + β f)) σ =
        wv p p m (List.replicate p (q, α)) σ + wv p p m (List.replicate p (q, β)) σ + coboundary g σ := by
  have h2 := hp.two_le
  have h1 := hp.ne_one
  set V : Bool →₀ ZMod p := bv _ false + bv _ true with hV
  have sV : ∀ V : Bool →₀ ZMod p, V ∈ Finsupp.supported (ZMod p) (ZMod p) {x | bdeg q x = q} := fun V x _ => rfl
  have hns : ∀ n, pw V (n + 1) - pw (bv _ false) (n + 1) - pw (bv _ true) (n + 1) ∈
      Finsupp.supported (ZMod p) (ZMod p) {w | w.length = n + 1 ∧ true ∈ w ∧ false ∈ w} := by
    have hb : ∀ (b : Bool) n, pw V n - pw (bv _ b) n ∈ Finsupp.supported (ZMod p) (ZMod p) {w | w.length = n ∧ (!b) ∈ w} := by
      intro b n
      induction n with
      | zero => simp [pw]
      | succ n ih =>
        have e : pw V (n + 1) - pw (bv _ b) (n + 1) = consV b (pw V n - pw (bv _ b) n) + consV (!b) (pw V n) := by
          rw [pw, pw, hV, map_add, map_add, LinearMap.add_apply, one_single, one_single, one_single, consV_eq_cat, consV_eq_cat,
            map_sub]
          cases b <;> (simp only [Bool.not_false, Bool.not_true]; abel)
        rw [e]
        refine Submodule.add_mem _ (mapK_supported _ (fun k hk => ?_) ih) (mapK_supported _ (fun k hk => ?_) (pw_supported (sV V) n))
        · exact ⟨by simp [hk.1], by simp [hk.2]⟩
        · exact ⟨by simp [hk.1], by simp⟩
    intro n
    have e : pw V (n + 1) - pw (bv _ false) (n + 1) - pw (bv _ true) (n + 1) =
        consV false (pw V n - pw (bv _ false) n) + consV true (pw V n - pw (bv _ true) n) := by
      rw [pw, pw, pw, hV, map_add, map_add, LinearMap.add_apply, one_single, one_single, consV_eq_cat, consV_eq_cat,
        map_sub, map_sub]
      abel
    rw [e]
    refine Submodule.add_mem _ (mapK_supported _ (fun k hk => ?_) (hb false n)) (mapK_supported _ (fun k hk => ?_) (hb true n))
    · exact ⟨by simp [hk.1], List.mem_cons_of_mem _ (by simpa using hk.2), by simp⟩
    · exact ⟨by simp [hk.1], by simp, List.mem_cons_of_mem _ (by simpa using hk.2)⟩
  obtain ⟨n, hn⟩ : ∃ n, p = n + 1 := ⟨p - 1, by omega⟩
  have hns := hns n
  rw [← hn] at hns
  obtain ⟨v, hv, hvu⟩ := exists_norm (q := q) hp hns (by
    rw [map_sub, map_sub, rho_pw hp.one_le hp.eq_two_or_odd (sV _), rho_pw hp.one_le hp.eq_two_or_odd (sV _),
      rho_pw hp.one_le hp.eq_two_or_odd (sV _)])
  obtain ⟨g, hg⟩ := wu_norm hp (bval_d hα hβ) m hv
  refine ⟨g, fun σ hσ => ?_⟩
  rw [← hg σ hσ, hvu, wu, map_sub, map_sub, LinearMap.sub_apply, LinearMap.sub_apply]
  rw [EW_pw (V := V) (S := Faces p σ) (q := q) (α := fun f => α f + β f) (fun k hk => ⟨hk.1, fun f hf' => by
        rw [hV, map_add, Finsupp.linearCombination_single, Finsupp.linearCombination_single, one_smul, one_smul, v2, v2]
        show (if f.length = q + 1 then α f else 0) + (if f.length = q + 1 then β f else 0) = _
        split <;> simp⟩) (W_supported h2 h1 (inc_of_mem hσ)),
    EW_pw (V := bv _ false) (S := Faces p σ) (q := q) (α := α) (fun k hk => ⟨hk.1, fun f hf' => by
        rw [Finsupp.linearCombination_single, one_smul, v2]
        rfl⟩) (W_supported h2 h1 (inc_of_mem hσ)),
    EW_pw (V := bv _ true) (S := Faces p σ) (q := q) (α := β) (fun k hk => ⟨hk.1, fun f hf' => by
        rw [Finsupp.linearCombination_single, one_smul, v2]
        rfl⟩) (W_supported h2 h1 (inc_of_mem hσ))]
  simp only [wv]
  ring

end Comch.Coch

namespace Comch.Coch
open Comch.Spec Elem SurjComp SurjElem IsPerm SurjMay Comch.Props
open Finsupp (single)

variable {p q m : Nat} {X : OrderedComplex} {σ : List Nat}

theorem W_bottom {r n : Nat} (hr : 2 ≤ r) (hσ : Inc σ) : W r n 0 (bv (ZMod n) [σ]) = pr lany (aw (r - 1) σ) := by
  unfold W
  rw [LinearMap.comp_apply, psiS, convS_single, one_mul, map_smul, LinearMap.smul_apply, map_smul]
  have hsort : (List.range' 1 r).Pairwise (· ≤ ·) :=
    List.Pairwise.imp (fun h => by omega) (List.pairwise_lt_range' (s := 1) (n := r) 1)
  have h1 : convE .mcClureSmith (pyRange 1 (r + 1)) = 0 := invE_sorted hsort
  rw [h1]
  simp only [Nat.cast_zero, sg_zero, one_smul]
  rw [callV_one _ _ _ rfl]
  congr 1
  exact sact_identity (R := ZMod n) (r := r) (by omega) hσ.2

theorem sub_of_mem_allCuts {A : Type} {r : Nat} {V : List A} {k : List (List A)} (h : k ∈ allCuts r V) :
    ∀ f ∈ k, f.Sublist V := by
  induction r generalizing V k with
  | zero => simp [allCuts] at h
  | succ r ih =>
    cases r with
    | zero =>
      simp only [allCuts, List.mem_singleton] at h
      subst h
      simp
    | succ r =>
      simp only [allCuts, List.mem_flatMap, List.mem_range, List.mem_map] at h
      obtain ⟨i, hi, k', hk', rfl⟩ := h
      intro f hf
      rcases List.mem_cons.1 hf with rfl | hf
      · exact List.take_sublist _ _
      · exact (ih hk' f hf).trans (List.drop_sublist _ _)

/-- The power of a cochain on the iterated diagonal. -/
theorem evF_cuts {R : Type} [CommRing R] (q : Nat) (α : List Nat → R) : ∀ (r : Nat) (V : List Nat), V.length = (r + 1) * q + 1 →
    ((allCuts (r + 1) V).map fun k => tensorValue (List.replicate (r + 1) (q, α)) k).sum =
      ((List.range (r + 1)).map fun i => α ((V.drop (i * q)).take (q + 1))).prod
  | 0, V, h => by
    simp only [allCuts, List.map_cons, List.map_nil, List.sum_singleton, zero_add, List.replicate_one, tensorValue, mul_one]
    rw [if_pos (by simpa using h)]
    simp [List.take_of_length_le (show V.length ≤ q + 1 by simpa using h.le)]
  | r + 1, V, h => by
    have h' : V.length = q + ((r + 1) * q + 1) := by rw [h]; ring
    rw [allCuts, List.map_flatMap, List.flatMap_def, List.sum_flatten, List.map_map]
    rw [sum_range_single (a := q) _ (by omega)]
    · simp only [Function.comp, List.map_map]
      have ih := evF_cuts q α r (V.drop q) (by rw [List.length_drop]; omega)
      rw [List.map_congr_left (g := fun k => α (V.take (q + 1)) * tensorValue (List.replicate (r + 1) (q, α)) k)
        (fun k _ => by
          rw [Function.comp, List.replicate_succ, tensorValue, if_pos (by rw [List.length_take]; omega)]),
        List.sum_map_mul_left, ih, List.range_succ_eq_map (n := r + 1), List.map_cons, List.prod_cons, List.map_map]
      simp only [zero_mul, List.drop_zero]
      congr 2
      refine List.map_congr_left fun i _ => ?_
      simp only [Function.comp, List.drop_drop]
      congr 3
      rw [Nat.succ_mul, add_comm]
    · intro i hi hne
      simp only [Function.comp, List.map_map]
      refine List.sum_eq_zero fun x hx => ?_
      obtain ⟨k, -, rfl⟩ := List.mem_map.1 hx
      rw [Function.comp, List.replicate_succ, tensorValue, if_neg (by rw [List.length_take]; omega), zero_mul]

/-- The value of the structure element of degree 0. -/
theorem wv_bottom {r n : Nat} (hr : 2 ≤ r) (hσ : Inc σ) (α : List Nat → ZMod n) (hl : σ.length = r * q + 1) :
    wv r n 0 (List.replicate r (q, α)) σ = ((List.range r).map fun i => α ((σ.drop (i * q)).take (q + 1))).prod := by
  obtain ⟨r, rfl⟩ : ∃ t, r = t + 1 := ⟨r - 1, by omega⟩
  rw [wv, W_bottom hr hσ, evF_pr hσ, Nat.add_sub_cancel, aw_eq_cuts, map_list_sum, List.map_map, ← evF_cuts q α r σ hl]
  · congr 1
    exact List.map_congr_left fun k _ => by rw [Function.comp, evF_single, one_mul]
  · rw [Nat.add_sub_cancel, aw_eq_cuts]
    refine list_sum_mem fun t ht => ?_
    obtain ⟨m, hm, rfl⟩ := List.mem_map.1 ht
    exact Finsupp.single_mem_supported _ _ fun f hf => sub_of_mem_allCuts hm f hf

/-- There are no values on simplices of dimension less than that of the cochain. -/
theorem wv_small {r n d : Nat} (hr : 2 ≤ r) (hn : n ≠ 1) (hσ : Inc σ) (α : List Nat → ZMod n) (hl : σ.length ≤ q) :
    wv r n d (List.replicate r (q, α)) σ = 0 := by
  refine fun_ext_supported (f := evF (List.replicate r (q, α))) (g := 0) (fun k hk => ?_) (W_supported hr hn hσ)
  rw [evF_single, tensorValue_replicate q α r k hk.1, LinearMap.zero_apply, one_mul]
  obtain ⟨f, k, rfl⟩ : ∃ f k', k = f :: k' := by
    cases k with
    | nil => have := hk.1; simp at this; omega
    | cons f k => exact ⟨f, k, rfl⟩
  have := (hk.2 f (by simp)).1.length_le
  rw [List.map_cons, List.prod_cons, if_neg (by omega), zero_mul]

end Comch.Coch

namespace Comch.Props
open Comch.Spec Comch.Coch Elem SurjComp SurjElem SurjMay

variable {p q : Nat} {s : Int} {b : Bool} {σ : List Nat} {x : SurjElem} {X : OrderedComplex}

/-- Cohomologous cocycles have cohomologous images. -/
theorem C105_well_defined (hp : p.Prime) (hop : Surjection.steenrodOperation p (-s) (-(q : Int)) b = .ok x)
    {α β : List Nat → ZMod p} (hβ : IsCocycle X q β) (h : Cohomologous X q α β) (m : Nat) :
    Cohomologous X m (cochain (steenrodValue p s q b α)) (cochain (steenrodValue p s q b β)) := by
  obtain ⟨c, d, -, hv⟩ := steenrod_eq hp.two_le hop
  obtain ⟨g, hg⟩ := wv_well_defined hp hβ h d
  refine ⟨fun τ => (c : ZMod p) * g τ, fun σ hσ _ => ?_⟩
  rw [cochain, cochain, hv α σ (inc_of_mem hσ), hv β σ (inc_of_mem hσ)]
  simp only []
  rw [hg σ hσ, cob_mul]
  ring

/-- The operations are additive up to coboundaries. -/
theorem C105_additive (hp : p.Prime) (hop : Surjection.steenrodOperation p (-s) (-(q : Int)) b = .ok x)
    {α β : List Nat → ZMod p} (hα : IsCocycle X q α) (hβ : IsCocycle X q β) (m : Nat) :
    Cohomologous X m (cochain (steenrodValue p s q b fun f => α f + β f))
      (fun σ => cochain (steenrodValue p s q b α) σ + cochain (steenrodValue p s q b β) σ) := by
  obtain ⟨c, d, -, hv⟩ := steenrod_eq hp.two_le hop
  obtain ⟨g, hg⟩ := wv_additive hp hα hβ d
  refine ⟨fun τ => (c : ZMod p) * g τ, fun σ hσ _ => ?_⟩
  beta_reduce
  rw [cochain, cochain, cochain, hv α σ (inc_of_mem hσ), hv β σ (inc_of_mem hσ), hv _ σ (inc_of_mem hσ)]
  simp only []
  rw [hg σ hσ, cob_mul]
  ring

/-- `P^s` and `βP^s` vanish for `s < 0` and for `2 s > q`, `βP^s` also for `2 s = q`. -/
theorem C105_vanishing (hp : p.Prime) (h2 : p ≠ 2) (hop : Surjection.steenrodOperation p (-s) (-(q : Int)) b = .ok x)
    (α : List Nat → ZMod p) (hσ : σ ∈ X.simplices) (h : s < 0 ∨ (q : Int) < 2 * s ∨ (b = true ∧ (q : Int) ≤ 2 * s)) :
    steenrodValue p s q b α σ = .ok 0 := by
  obtain ⟨c, d, hd, hv⟩ := steenrod_eq hp.two_le hop
  rw [hv α σ (inc_of_mem hσ)]
  by_cases hc : c = 0
  · subst hc; simp
  have hd := hd hc
  rw [if_neg h2] at hd
  have hp3 : 3 ≤ p := by have := hp.two_le; omega
  congr 1
  by_contra hne
  have hw : wv p p d (List.replicate p (q, α)) σ ≠ 0 := by intro h0; rw [h0] at hne; simp at hne
  have hdeg := wv_degree hp.two_le (inc_of_mem hσ) α hw
  have hlen : q < σ.length := by
    by_contra hlt
    exact hw (wv_small hp.two_le hp.ne_one (inc_of_mem hσ) α (by omega))
  have hq0 : (0 : Int) ≤ d := by omega
  rcases h with h | h | ⟨hb, h⟩
  · have h5 : (σ.length : Int) = q + 1 + 2 * s * (p - 1) + (if b then 1 else 0) := by
      rw [hd] at hdeg
      have : (σ.length : Int) = p * q + 1 - ((q - 2 * s) * (p - 1) - (if b then 1 else 0)) := by omega
      rw [this]; ring
    have h6 : 2 * s * ((p : Int) - 1) ≤ -4 := by nlinarith
    split at h5 <;> omega
  · have h6 : ((q : Int) - 2 * s) * ((p : Int) - 1) ≤ -2 := by nlinarith
    split at hd <;> omega
  · subst hb
    have h6 : ((q : Int) - 2 * s) * ((p : Int) - 1) ≤ 0 := by nlinarith
    simp at hd
    omega

/-- On cochains of degree `2 s` the operation `P^s` is the `p`-th power. -/
theorem C105_top (hp : p.Prime) (h2 : p ≠ 2) (s : Nat) (α : List Nat → ZMod p) (hσ : σ ∈ X.simplices)
    (hl : σ.length = p * (2 * s) + 1) :
    steenrodValue p s (2 * s) false α σ =
      .ok ((List.range p).map fun i => α ((σ.drop (i * (2 * s))).take (2 * s + 1))).prod := by
  have hi := inc_of_mem hσ
  have hc : steenrodCoeff p (-(s : Int)) (-((2 * s : Nat) : Int)) = .ok 1 := by
    unfold steenrodCoeff
    dsimp only
    rw [if_pos (by omega)]
    congr 1
    rw [show (-((2 * s : Nat) : Int)) / 2 + -(s : Int) = 2 * (-(s : Int)) by omega]
    simp [pySign]
  have hdz : steenrodDegree p (-(s : Int)) (-((2 * s : Nat) : Int)) false = 0 := by
    unfold steenrodDegree
    push_cast
    simp
  obtain ⟨m, em, -⟩ := C56_psi_ok (r := p) .mcClureSmith hp.two_le 0 p hp.ne_one
  obtain ⟨z, ez, dz⟩ := call_smul hp.two_le hi 1 em
  unfold steenrodValue Surjection.steenrodOperation
  rw [if_neg h2]
  dsimp only
  rw [hdz, if_neg (by omega), hc]
  simp only [bind, Except.bind, Int.toNat_zero, em]
  rw [ez]
  simp only []
  rw [evalOn_eq, dz, Int.cast_one, one_smul, ← wv_bottom hp.two_le hi α hl]
  rfl

/-! ### a case that meets the hypotheses -/

example : ∃ x, Surjection.steenrodOperation 3 (-1) (-((2 : Nat) : Int)) false = .ok x ∧ x.data ≠ [] :=
  ⟨_, rfl, by decide +kernel⟩

example : steenrodValue 3 1 2 false (fun σ => exCochain 3 (σ.take 2) * exCochain 3 (σ.drop 1)) [0, 1, 2, 3, 4, 5, 6] = .ok 2 := by
  decide +kernel

end Comch.Props
