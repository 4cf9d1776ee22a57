import Verif.Lib.CochainsWords
import Verif.Props.Cochains

/-! # Null-homotopic words, and powers of sums of cochains -/

set_option linter.unusedSectionVars false

namespace Comch.Coch
open Comch.Spec Elem SurjComp SurjElem IsPerm SurjMay Comch.Props
open BElem (stepV stepV_supported PermSet stepV_mul)
open Finsupp (single)

variable {R : Type} [CommRing R]

/-! ### letters for `α`, `γ` and `δγ` -/

inductive Letter | a | c | dc
  deriving DecidableEq

variable (q : Nat)

def Letter.deg : Letter → Nat
  | .a => q + 1
  | .c => q
  | .dc => q + 1

def Letter.val (α γ : List Nat → R) : Letter → List Nat → R
  | .a => α
  | .c => γ
  | .dc => coboundary γ

noncomputable def Letter.d : Letter → (Letter →₀ R)
  | .c => bv R .dc
  | .a => 0
  | .dc => 0

theorem Letter.sgn_d (x : Letter) :
    sgn1 (wd (Letter.deg q)) (Letter.d (R := R) x) = - (sg R (wd (Letter.deg q) x) • Letter.d x) := by
  cases x with
  | a => simp [Letter.d]
  | dc => simp [Letter.d]
  | c =>
    simp only [Letter.d, sgn1, lin_single, one_smul, wd, Letter.deg]
    push_cast
    rw [sg_succ]
    simp

theorem Letter.val_d {X : OrderedComplex} {α γ : List Nat → R} (hα : IsCocycle X (q + 1) α) (x : Letter) (σ : List Nat)
    (hσ : σ ∈ X.simplices) :
    Finsupp.linearCombination R (fun y => v2 (Letter.deg q) (Letter.val α γ) (y, σ)) (Letter.d x) =
      if σ.length = Letter.deg q x + 2 then coboundary (Letter.val α γ x) σ else 0 := by
  cases x with
  | a =>
    rw [Letter.d, map_zero]
    split
    · rename_i h; exact (hα σ hσ h).symm
    · rfl
  | dc =>
    simp only [Letter.d, map_zero, Letter.deg, Letter.val, coboundary_coboundary, ite_self]
  | c =>
    rw [Letter.d, Finsupp.linearCombination_single, one_smul, v2]
    rfl

/-- The contraction. -/
noncomputable def SW : List Letter → (List Letter →₀ R)
  | [] => 0
  | .a :: k => sg R ((q : Int) + 1) • consV .a (SW k)
  | .c :: _ => 0
  | .dc :: k => bv R (.c :: k)

theorem lin_SW_a (v : List Letter →₀ R) : lin (SW q) (consV .a v) = sg R ((q : Int) + 1) • consV .a (lin (SW q) v) := by
  induction v using Finsupp.induction_linear with
  | zero => simp
  | add u v hu hv => simp only [map_add, hu, hv, smul_add]
  | single k c => rw [consV_single, lin_single, lin_single, SW, map_smul, smul_comm]

theorem lin_SW_c (v : List Letter →₀ R) : lin (SW q) (consV .c v) = 0 := by
  induction v using Finsupp.induction_linear with
  | zero => simp
  | add u v hu hv => simp only [map_add, hu, hv, add_zero]
  | single k c => rw [consV_single, lin_single, SW, smul_zero]

theorem lin_SW_dc (v : List Letter →₀ R) : lin (SW q) (consV .dc v) = consV .c v := by
  induction v using Finsupp.induction_linear with
  | zero => simp
  | add u v hu hv => simp only [map_add, hu, hv]
  | single k c => rw [consV_single, lin_single, SW, consV_single]; simp

/-- Words of length `r` which contain `γ` or `δγ`. -/
def NWord (r : Nat) : Set (List Letter) := {w | w.length = r ∧ ∃ x ∈ w, x ≠ .a}

theorem SW_supported {r : Nat} (w : List Letter) (hw : w.length = r) :
    SW (R := R) q w ∈ Finsupp.supported R R (NWord r) := by
  induction w generalizing r with
  | nil => simp [SW]
  | cons x w ih =>
    cases x with
    | a =>
      rw [SW]
      refine Submodule.smul_mem _ _ (mapK_supported _ (fun k hk => ?_) (ih rfl))
      obtain ⟨h1, y, hy, hne⟩ := hk
      exact ⟨by simp [h1, ← hw], y, by simp [hy], hne⟩
    | c => simp [SW]
    | dc =>
      rw [SW]
      exact Finsupp.single_mem_supported R _ ⟨by simpa using hw, .c, by simp, by simp⟩

theorem SW_homotopy (w : List Letter) (hw : ∃ x ∈ w, x ≠ Letter.a) :
    tens Letter.d (wd (Letter.deg q)) (SW (R := R) q w) + lin (SW q) (tensK Letter.d (wd (Letter.deg q)) w) = bv R w := by
  induction w with
  | nil => simp at hw
  | cons x w ih =>
    have hs : ∀ v : List Letter →₀ R, sg R ((q : Int) + 1) • sg R ((q : Int) + 1) • v = v := by
      intro v
      rw [smul_smul, ← sg_add, sg_congr (b := 0) (by omega)]
      simp
    cases x with
    | a =>
      have hw' : ∃ x ∈ w, x ≠ Letter.a := by
        obtain ⟨x, hx, hne⟩ := hw
        rcases List.mem_cons.1 hx with rfl | hx
        · exact absurd rfl hne
        · exact ⟨x, hx, hne⟩
      have e : wd (Letter.deg q) Letter.a = (q : Int) + 1 := by simp [wd, Letter.deg]
      rw [SW, map_smul, tens_consV, tensK, e, map_add, map_smul, lin_SW_a, Letter.d]
      simp only [map_zero, LinearMap.zero_apply, zero_add, hs]
      rw [← map_add, ih hw', consV_single]
    | c =>
      rw [SW, map_zero, zero_add, tensK, map_add, map_smul, lin_SW_c, smul_zero, add_zero, Letter.d, one_single,
        ← consV_eq_cat, lin_SW_dc, consV_single]
    | dc =>
      have e : wd (Letter.deg q) Letter.dc = (q : Int) + 1 := by simp [wd, Letter.deg]
      have e' : wd (Letter.deg q) Letter.c = (q : Int) := by simp [wd, Letter.deg]
      rw [SW, tens_single, one_smul, tensK, tensK, e, e', map_add, map_smul, lin_SW_dc, Letter.d, Letter.d, one_single,
        ← consV_eq_cat, consV_single, sg_succ]
      simp

variable {q} {X : OrderedComplex}

/-- Closed invariant words containing `γ` or `δγ` have values which are coboundaries. -/
theorem wu_null {r n : Nat} (hr : 2 ≤ r) (hn : n ≠ 1) {α γ : List Nat → ZMod n} (hα : IsCocycle X (q + 1) α) (m : Nat) :
    ∀ u : List Letter →₀ ZMod n, u ∈ Finsupp.supported (ZMod n) (ZMod n) (NWord r) →
      tens Letter.d (wd (Letter.deg q)) u = 0 → actD (Letter.deg q) r (stepV (ZMod n) r m) u = 0 →
      ∃ g : List Nat → ZMod n, ∀ σ ∈ X.simplices, wu r n m (Letter.deg q) (Letter.val α γ) u σ = coboundary g σ := by
  have key : ∀ u : List Letter →₀ ZMod n, u ∈ Finsupp.supported (ZMod n) (ZMod n) (NWord r) →
      tens Letter.d (wd (Letter.deg q)) u = 0 → tens Letter.d (wd (Letter.deg q)) (lin (SW q) u) = u := by
    intro u hu h0
    have := BElem.lin_ext_supported (R := ZMod n) (S := NWord r)
      (f := (tens Letter.d (wd (Letter.deg q))).comp (lin (SW q)) + (lin (SW q)).comp (tens Letter.d (wd (Letter.deg q))))
      (g := LinearMap.id) (fun w hw => by
        simp only [LinearMap.add_apply, LinearMap.comp_apply, lin_single, one_smul, tens_single, LinearMap.id_apply]
        exact SW_homotopy q w hw.2) hu
    simp only [LinearMap.add_apply, LinearMap.comp_apply, LinearMap.id_apply, h0, map_zero, add_zero] at this
    exact this
  have hS : ∀ u : List Letter →₀ ZMod n, u ∈ Finsupp.supported (ZMod n) (ZMod n) (NWord r) →
      lin (SW q) u ∈ Finsupp.supported (ZMod n) (ZMod n) (NWord r) := fun u hu =>
    lin_supported _ (fun w hw => SW_supported q w hw.1) hu
  have hlen : Finsupp.supported (ZMod n) (ZMod n) (NWord r) ≤ Finsupp.supported (ZMod n) (ZMod n) {w | w.length = r} :=
    Finsupp.supported_mono fun w hw => hw.1
  induction m with
  | zero =>
    intro u hu h0 _
    refine ⟨wu r n 0 (Letter.deg q) (Letter.val α γ) (lin (SW q) u), fun σ hσ => ?_⟩
    rw [wu_zero_bd hr hn hσ (Letter.val_d q hα), key u hu h0]
  | succ m ih =>
    intro u hu h0 hs
    have hu' : actD (Letter.deg q) r (stepV (ZMod n) r (m + 1)) (lin (SW q) u) ∈
        Finsupp.supported (ZMod n) (ZMod n) (NWord r) :=
      actD_supported (S := NWord r) _ (fun w hw => hw.1) (fun σ hσ w hw => ⟨length_actL hσ hw.1, by
        obtain ⟨x, hx, hne⟩ := hw.2
        exact ⟨x, (perm_actL hσ hw.1).mem_iff.2 hx, hne⟩⟩) (stepV_supported (by omega) _) (hS u hu)
    obtain ⟨g, hg⟩ := ih _ hu'
      (by rw [tens_actD _ (Letter.sgn_d q) (stepV_supported (by omega) _) (hlen (hS u hu)), key u hu h0, hs])
      (by
        rw [actD_mulV _ (stepV_supported (by omega) _) (stepV_supported (by omega) _) (hlen (hS u hu)),
          stepV_mul (by omega)]
        simp [actD])
    refine ⟨fun τ => (-1) ^ (m + 1) * wu r n (m + 1) (Letter.deg q) (Letter.val α γ) (lin (SW q) u) τ + g τ,
      fun σ hσ => ?_⟩
    have := wu_succ_bd (m := m) hr hn hσ (Letter.val_d q hα (γ := γ)) (hlen (hS u hu))
    rw [cob_add, cob_mul, this, key u hu h0, hg σ hσ]
    ring

/-! ### powers -/

section powers
variable {A : Type} {deg : A → Nat} {e : Nat}

/-- The tensor power of a combination of letters. -/
noncomputable def pw (V : A →₀ R) : Nat → (List A →₀ R)
  | 0 => bv R []
  | n + 1 => cat (one V) (pw V n)

theorem pw_comm (V : A →₀ R) (n : Nat) : cat (one V) (pw V n) = cat (pw V n) (one V) := by
  induction n with
  | zero => simp [pw]
  | succ n ih =>
    rw [pw, cat_assoc, ← ih]

theorem pw_supported {V : A →₀ R} {S : Set A} (hV : V ∈ Finsupp.supported R R S) (n : Nat) :
    pw V n ∈ Finsupp.supported R R {w : List A | w.length = n ∧ ∀ x ∈ w, x ∈ S} := by
  induction n with
  | zero => exact Finsupp.single_mem_supported R _ ⟨rfl, by simp⟩
  | succ n ih =>
    have : cat (one V) (pw V n) = bil (fun a k => bv R (a :: k)) V (pw V n) := by
      refine BElem.bil_ext_supported (S := Set.univ) (T := Set.univ)
        (f := cat.comp one) (g := bil fun a k => bv R (a :: k)) ?_ (by simp) (by simp)
      intro a _ k _
      rw [bil_bv]
      simp
    rw [pw, this]
    refine BElem.bil_supported (S := S) (T := {w : List A | w.length = n ∧ ∀ x ∈ w, x ∈ S}) _ (fun a ha k hk => ?_) hV ih
    refine Finsupp.single_mem_supported R _ ⟨by simp [hk.1], fun x hx => ?_⟩
    rcases List.mem_cons.1 hx with rfl | hx
    · exact ha
    · exact hk.2 x hx

theorem sortl_rho (b : A) : ∀ (m j : Nat) (k : List A), 2 ≤ j → k.length = m →
    sortl ((List.range' j m ++ [1]).zip (k ++ [b])) = (1, b) :: (List.range' j m).zip k
  | 0, j, [], _, _ => rfl
  | m + 1, j, a :: k, hj, h => by
    have ih := sortl_rho b m (j + 1) k (by omega) (by simpa using h)
    unfold sortl at ih ⊢
    rw [List.range'_succ, List.cons_append, List.cons_append, List.zip_cons_cons, List.insertionSort_cons, ih,
      List.orderedInsert_cons, if_neg (by simp; omega), List.zip_cons_cons]
    congr 1
    cases hz : (List.range' (j + 1) m).zip k with
    | nil => rfl
    | cons y l =>
      have hy : y ∈ (List.range' (j + 1) m).zip k := by rw [hz]; simp
      have := List.mem_range'_1.1 (List.of_mem_zip hy).1
      rw [List.orderedInsert_cons, if_pos (by show j ≤ y.1; omega)]

theorem actL_rho (b : A) (k : List A) : actL (RingElem.rho (k.length + 1)) (k ++ [b]) = b :: k := by
  unfold actL RingElem.rho pyRange
  rw [show k.length + 1 + 1 - 2 = k.length by omega, sortl_rho b k.length 2 k le_rfl rfl, List.map_cons,
    List.map_snd_zip (by simp)]

/-- Words with letters of one degree are rotated without sign. -/
theorem actK_rho {p : Nat} (hp2 : p = 2 ∨ p % 2 = 1) {w : List A} (hw : w.length + 1 = p) {b : A} (he : ∀ x ∈ b :: w, deg x = e) :
    actK (R := ZMod p) (wd deg) (RingElem.rho p) (w ++ [b]) = bv (ZMod p) (b :: w) := by
  subst hw
  rw [actK, actL_rho]
  have : sg (ZMod (w.length + 1)) (kos (wd deg) ((RingElem.rho (w.length + 1)).zip (w ++ [b]))) = 1 := by
    rcases hp2 with h2 | hodd
    · rw [h2]; exact sg_two _
    · obtain ⟨m, hm⟩ : ∃ m, w.length = 2 * m := ⟨w.length / 2, by omega⟩
      rw [RingElem.rho, pyRange, show w.length + 1 + 1 - 2 = w.length by omega, kos_rho (wd deg) b w.length 2 w le_rfl rfl]
      have : (w.map (wd deg)) = List.replicate (2 * m) (e : Int) := by
        rw [List.eq_replicate_iff]
        refine ⟨by simp [hm], fun x hx => ?_⟩
        obtain ⟨y, hy, rfl⟩ := List.mem_map.1 hx
        rw [wd, he y (by simp [hy])]
      rw [this, wd, he b (by simp), List.sum_replicate, sg_congr (b := 0)]
      · simp
      · simp only [nsmul_eq_mul]
        push_cast
        rw [show (e : Int) * (2 * m * e) = 2 * (e * (m * e)) by ring]
        omega
  rw [this, one_smul]

theorem rho_pw {p : Nat} (hp : 1 ≤ p) (hp2 : p = 2 ∨ p % 2 = 1) {V : A →₀ ZMod p}
    (hV : V ∈ Finsupp.supported (ZMod p) (ZMod p) {x | deg x = e}) :
    lin (actK (R := ZMod p) (wd deg) (RingElem.rho p)) (pw V p) = pw V p := by
  obtain ⟨n, rfl⟩ : ∃ n, p = n + 1 := ⟨p - 1, by omega⟩
  rw [pw]
  conv_lhs => rw [pw_comm]
  refine supp_ind (P := fun u => lin (actK (R := ZMod (n + 1)) (wd deg) (RingElem.rho (n + 1))) (cat u (one V)) = cat (one V) u) (by simp)
    (fun u v hu hv => by simp only [map_add, LinearMap.add_apply, hu, hv]) (fun w hw c => ?_) (pw_supported hV n)
  refine supp_ind (P := fun V => lin (actK (R := ZMod (n + 1)) (wd deg) (RingElem.rho (n + 1))) (cat (single w c) (one V)) =
    cat (one V) (single w c)) (by simp)
    (fun u v hu hv => by simp only [map_add, LinearMap.add_apply, hu, hv]) (fun x hx b => ?_) hV
  rw [one_single, cat_single_single, cat_single_single, lin_single,
    actK_rho (e := e) hp2 (by rw [hw.1]) (by
      intro y hy
      rcases List.mem_cons.1 hy with rfl | hy
      · exact hx
      · exact hw.2 y hy)]
  simp [mul_comm]

/-- Invariant words are annihilated by `T` and `N`. -/
theorem actD_step_inv {p : Nat} (hp : 1 ≤ p) {u : List A →₀ ZMod p}
    (hu : u ∈ Finsupp.supported (ZMod p) (ZMod p) {w : List A | w.length = p})
    (h : lin (actK (R := ZMod p) (wd deg) (RingElem.rho p)) u = u) (m : Nat) :
    actD deg p (stepV (ZMod p) p m) u = 0 := by
  have hρ := isPerm_rho hp
  have hcomp : ∀ σ τ, IsPerm p σ → IsPerm p τ → lin (actK (R := ZMod p) (wd deg) σ) (lin (actK (wd deg) τ) u) =
      lin (actK (wd deg) (mulL σ τ)) u := by
    intro σ τ hσ hτ
    refine BElem.lin_ext_supported (f := (lin (actK (R := ZMod p) (wd deg) σ)).comp (lin (actK (wd deg) τ)))
      (fun w hw => ?_) hu
    rw [LinearMap.comp_apply, lin_single, lin_single, one_smul, one_smul, actK_actK (wd deg) hσ hτ hw]
  have hid : lin (actK (R := ZMod p) (wd deg) (pyRange 1 (p + 1))) u = u := by
    refine BElem.lin_ext_supported (g := LinearMap.id) (fun w hw => ?_) hu
    rw [lin_single, one_smul, actK_id _ hw]; rfl
  have hpow : ∀ j, lin (actK (R := ZMod p) (wd deg) (powL p (RingElem.rho p) j)) u = u := by
    intro j
    induction j with
    | zero => exact hid
    | succ j ih => rw [powL, ← hcomp _ _ (isPerm_powL hρ j) hρ, h, ih]
  have hinv : ∀ σ, IsPerm p σ → lin (actK (R := ZMod p) (wd deg) σ) u = u →
      lin (actK (R := ZMod p) (wd deg) (invL p σ)) u = u := by
    intro σ hσ hσu
    conv_lhs => rw [← hσu]
    rw [hcomp _ _ (isPerm_invL hσ) hσ, invL_mulL hσ, hid]
  unfold stepV
  split
  · have : ∀ l : List Nat, actD deg p ((l.map fun k => bv (ZMod p) (powL p (RingElem.rho p) k)).sum) u = (l.length : ZMod p) • u := by
      intro l
      induction l with
      | nil => simp [actD]
      | cons j l ih =>
        rw [List.map_cons, List.sum_cons, actD_add, ih, actD_single, hinv _ (isPerm_powL hρ j) (hpow j), List.length_cons,
          Nat.cast_succ, add_smul, add_comm]
    unfold nV
    rw [this, List.length_range]
    simp
  · unfold tV
    rw [sub_eq_add_neg, ← Finsupp.single_neg, actD_add, actD_single, actD_single, hinv _ hρ h, hinv _ (isPerm_id p) hid]
    simp

variable {val : A → List Nat → R}

theorem EW_cat (f : List Nat) (k : SKey) (V : A →₀ R) (u : List A →₀ R) :
    EW deg val (cat (one V) u) (bv R (f :: k)) =
      Finsupp.linearCombination R (fun a => v2 deg val (a, f)) V * EW deg val u (bv R k) := by
  induction V using Finsupp.induction_linear with
  | zero => simp
  | add f g hf hg => simp only [map_add, LinearMap.add_apply, hf, hg, add_mul]
  | single b c =>
    induction u using Finsupp.induction_linear with
    | zero => simp
    | add f g hf hg => simp only [map_add, LinearMap.add_apply, hf, hg, mul_add]
    | single w c' =>
      simp [tensorValue, v2]
      ring

/-- The power of a sum is the power of the sum of the cochains. -/
theorem EW_pw {V : A →₀ R} {S : Set SKey} {q : Nat} {α : List Nat → R} {n : Nat}
    (hS : ∀ k ∈ S, k.length = n ∧ ∀ f ∈ k, Finsupp.linearCombination R (fun a => v2 deg val (a, f)) V =
      if List.length f = q + 1 then α f else 0) {v : SKey →₀ R}
    (hv : v ∈ Finsupp.supported R R S) : EW deg val (pw V n) v = evF (List.replicate n (q, α)) v := by
  refine fun_ext_supported (fun k hk => ?_) hv
  obtain ⟨h1, h2⟩ := hS k hk
  clear hk hv hS
  induction n generalizing k with
  | zero =>
    have : k = [] := List.length_eq_zero_iff.1 h1
    subst this
    simp [pw, tensorValue]
  | succ n ih =>
    cases k with
    | nil => simp at h1
    | cons f k =>
      rw [pw, EW_cat, h2 f (by simp), ih k (by simpa using h1) fun g hg => h2 g (by simp [hg])]
      simp [tensorValue, List.replicate_succ]

end powers

end Comch.Coch
