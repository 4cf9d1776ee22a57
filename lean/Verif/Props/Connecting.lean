import Verif.Props.CochainsPZero
import Verif.Props.CubeCochains
import Verif.Spec.Connecting

/-! # Steenrod operations and the connecting homomorphism: C114 -/

set_option linter.unusedSectionVars false

namespace Comch.Coch
open Comch.Spec Elem SurjComp SurjElem IsPerm SurjMay Comch.Props
open BElem (stepV stepV_supported PermSet stepV_mul)
open Finsupp (single)

variable {p q : Nat} {σ : List Nat} {X A : OrderedComplex}

/-- A coboundary on `X` of a cochain that vanishes on `A`. -/
def RelNull (X A : OrderedComplex) (f : List Nat → ZMod p) : Prop :=
  ∃ E : List Nat → ZMod p, (∀ τ ∈ A.simplices, E τ = 0) ∧ ∀ σ ∈ X.simplices, f σ = coboundary E σ

theorem RelNull.add {f g : List Nat → ZMod p} (hf : RelNull X A f) (hg : RelNull X A g) :
    RelNull X A (fun σ => f σ + g σ) := by
  obtain ⟨E, h1, h2⟩ := hf
  obtain ⟨E', h1', h2'⟩ := hg
  refine ⟨fun τ => E τ + E' τ, fun τ hτ => ?_, fun σ hσ => ?_⟩
  · beta_reduce; rw [h1 τ hτ, h1' τ hτ, add_zero]
  · beta_reduce; rw [h2 σ hσ, h2' σ hσ, cob_add]

theorem RelNull.of {f : List Nat → ZMod p} (c : ZMod p) {E : List Nat → ZMod p} (hE : ∀ τ ∈ A.simplices, E τ = 0)
    (h : ∀ σ ∈ X.simplices, f σ = c * coboundary E σ) : RelNull X A f := by
  refine ⟨fun τ => c * E τ, fun τ hτ => ?_, fun σ hσ => ?_⟩
  · beta_reduce; rw [hE τ hτ, mul_zero]
  · rw [h σ hσ, cob_mul]

theorem RelNull.congr {f g : List Nat → ZMod p} (hf : RelNull X A f) (h : ∀ σ ∈ X.simplices, g σ = f σ) : RelNull X A g := by
  obtain ⟨E, h1, h2⟩ := hf
  exact ⟨E, h1, fun σ hσ => by rw [h σ hσ, h2 σ hσ]⟩

theorem tensorValue_rel {γ : List Nat → ZMod p} : ∀ (w : List Bool) (k : SKey), true ∈ w →
    (∀ f ∈ k, f.length = q + 2 → coboundary γ f = 0) → tensorValue (w.map fun a => (zdeg q a, zval γ a)) k = 0
  | [], _, h, _ => by simp at h
  | x :: w, [], _, _ => by simp [tensorValue]
  | x :: w, f :: k, h, hk => by
    rw [List.map_cons, tensorValue]
    cases x with
    | true =>
      have := hk f (by simp)
      simp only [zdeg, if_true, zval]
      split
      · rename_i hl; rw [this hl, zero_mul]
      · rw [zero_mul]
    | false => rw [tensorValue_rel w k (by simpa using h) fun g hg => hk g (by simp [hg]), mul_zero]

/-- Words with a coboundary vanish where the coboundary does. -/
theorem wu_rel (hp : p.Prime) {γ : List Nat → ZMod p} (hγ : ∀ f ∈ A.simplices, f.length = q + 2 → coboundary γ f = 0) (m : Nat)
    {j : Nat} (hj : 1 ≤ j) {v : List Bool →₀ ZMod p} (hv : v ∈ Finsupp.supported (ZMod p) (ZMod p) (Cnt p j))
    (hσ : σ ∈ A.simplices) : wu p p m (zdeg q) (zval γ) v σ = 0 := by
  refine supp_ind (P := fun v => wu p p m (zdeg q) (zval γ) v σ = 0) (wu_zero σ)
    (fun u v hu hv => by rw [wu_add, hu, hv, add_zero]) (fun w hw c => ?_) hv
  rw [wu_single, wv]
  have : evF (w.map fun a => (zdeg q a, zval γ a)) (W p p m (bv (ZMod p) [σ])) = 0 := by
    refine fun_ext_supported (g := 0) (fun k hk => ?_) (W_supported (d := m) hp.two_le hp.ne_one (inc_of_mem hσ))
    rw [evF_single, tensorValue_rel w k (List.count_pos_iff.1 (by rw [hw.2]; omega)) fun f hf hl =>
      hγ f (A.faces σ hσ f (hk.2 f hf).1 (hk.2 f hf).2) hl]
    simp
  rw [this, mul_zero]

/-- Two steps of the zig-zag. -/
theorem rel_double (hp : p.Prime) {γ : List Nat → ZMod p} (hγ : ∀ f ∈ A.simplices, f.length = q + 2 → coboundary γ f = 0)
    (k M : Nat) (hk : 2 * k + 2 < p) :
    RelNull X A (fun σ => wu p p (M + 2) (zdeg q) (zval γ) (((ZigZag.omega p (Lop q) ^ k) (Bw p) : WV p)) σ -
      wu p p M (zdeg q) (zval γ) (((ZigZag.omega p (Lop q) ^ (k + 1)) (Bw p) : WV p)) σ) := by
  set y := Lop q 0 ((ZigZag.omega p (Lop q) ^ k) (Bw p)) with hy
  have cy : (y : List Bool →₀ ZMod p) ∈ Finsupp.supported (ZMod p) (ZMod p) (Cnt p (p - 2 * k - 1)) := Lop_cnt 0 (omega_pow_cnt k)
  have f1 : tens zd (wd (zdeg q)) (y : List Bool →₀ ZMod p) = ((ZigZag.omega p (Lop q) ^ k) (Bw p) : WV p) :=
    congrArg Subtype.val (ZigZag.d_odd (Lop_hom (q := q) hp.one_le) Lop_per Bw_d k)
  have key : ∃ z : WV p, (z : List Bool →₀ ZMod p) ∈ Finsupp.supported (ZMod p) (ZMod p) (Cnt p (p - 2 * k - 1 - 1)) ∧
      tens zd (wd (zdeg q)) (z : List Bool →₀ ZMod p) = actD (zdeg q) p (stepV (ZMod p) p (M + 2)) (y : List Bool →₀ ZMod p) ∧
      actD (zdeg q) p (stepV (ZMod p) p (M + 1)) (z : List Bool →₀ ZMod p) = ((ZigZag.omega p (Lop q) ^ (k + 1)) (Bw p) : WV p) := by
    rcases Nat.mod_two_eq_zero_or_one M with hM | hM
    · obtain ⟨-, h2, h3⟩ := ZigZag.double_step (Lop_hom (q := q) hp.one_le) Lop_per (Lop_rot hp.one_le) Bw_d (Bw_t hp) hp
        (Dop_comm hp.one_le) k
      refine ⟨((Top q hp.one_le - 1) ^ (p - 2)) (Lop q 0 (Lop q (p - 1) ((ZigZag.omega p (Lop q) ^ k) (Bw p)))),
        T_cnt hp.one_le (p - 2) (Lop_cnt 0 (Lop_cnt (p - 1) (omega_pow_cnt k))), ?_, ?_⟩
      · rw [stepV, if_pos (by omega), ← Top_norm hp.one_le]
        exact (congrArg Subtype.val h2).symm
      · rw [stepV, if_neg (by omega), ← Top_sub hp.one_le, h3]
    · refine ⟨Lop q 0 (Lop q (p - 1) ((ZigZag.omega p (Lop q) ^ k) (Bw p))), Lop_cnt 0 (Lop_cnt (p - 1) (omega_pow_cnt k)), ?_, ?_⟩
      · rw [stepV, if_neg (by omega), ← Top_sub hp.one_le, hy, ZigZag.t_odd Lop_per (Lop_rot hp.one_le) (Bw_t hp) hp.one_le,
          ← ZigZag.d_even (Lop_hom (q := q) hp.one_le) Lop_per Bw_d]
        rfl
      · rw [stepV, if_pos (by omega), ← Top_norm hp.one_le, ZigZag.n_even Lop_per (Lop_rot hp.one_le) (Bw_t hp) hp.one_le]
  obtain ⟨z, cz, g1, g2⟩ := key
  have e1 : ∀ σ ∈ X.simplices, _ := fun σ hσ => wu_succ_bd (m := M + 1) hp.two_le hp.ne_one hσ (zval_d q (γ := γ)) y.2
  have e2 : ∀ σ ∈ X.simplices, _ := fun σ hσ => wu_succ_bd (m := M) hp.two_le hp.ne_one hσ (zval_d q (γ := γ)) z.2
  refine ((RelNull.of ((-1) ^ (M + 1 + 1)) (fun τ hτ => wu_rel hp hγ (M + 1 + 1) (by omega) cy hτ) fun σ _ => rfl).add
    (RelNull.of ((-1) ^ (M + 1)) (fun τ hτ => wu_rel hp hγ (M + 1) (by omega) cz hτ) fun σ _ => rfl)).congr fun σ hσ => ?_
  rw [e1 σ hσ, e2 σ hσ, f1, g1, g2]
  ring

theorem rel_chain (hp : p.Prime) {γ : List Nat → ZMod p} (hγ : ∀ f ∈ A.simplices, f.length = q + 2 → coboundary γ f = 0)
    (k M : Nat) (hk : 2 * k < p) :
    RelNull X A (fun σ => wu p p (M + 2 * k) (zdeg q) (zval γ) (bv (ZMod p) (List.replicate p true)) σ -
      wu p p M (zdeg q) (zval γ) (((ZigZag.omega p (Lop q) ^ k) (Bw p) : WV p)) σ) := by
  induction k generalizing M with
  | zero => exact ⟨fun _ => 0, fun _ _ => rfl, fun σ _ => by rw [cob_zero]; exact sub_self _⟩
  | succ k ih =>
    refine ((ih (M + 2) (by omega)).add (rel_double (X := X) hp hγ k M (by omega))).congr fun σ _ => ?_
    rw [show M + 2 * (k + 1) = M + 2 + 2 * k by ring]
    ring

theorem wu_true (d : Nat) (γ : List Nat → ZMod p) (σ : List Nat) :
    wu p p d (zdeg q) (zval γ) (bv (ZMod p) (List.replicate p true)) σ = wv p p d (List.replicate p (q + 1, coboundary γ)) σ := by
  rw [wu_single, one_mul, List.map_replicate]; rfl

theorem wu_false (d : Nat) (γ : List Nat → ZMod p) (σ : List Nat) :
    wu p p d (zdeg q) (zval γ) (bv (ZMod p) (List.replicate p false)) σ = wv p p d (List.replicate p (q, γ)) σ := by
  rw [wu_single, one_mul, List.map_replicate]; rfl

/-- The operation of degree `d + p - 1` on the coboundary is the coboundary of the operation of degree `d`. -/
theorem rel_suspend (hp : p.Prime) {m : Nat} (hm : p = 2 * m + 1) {γ : List Nat → ZMod p}
    (hγ : ∀ f ∈ A.simplices, f.length = q + 2 → coboundary γ f = 0) (d : Nat) :
    RelNull X A (fun σ => wv p p (d + 2 * m) (List.replicate p (q + 1, coboundary γ)) σ -
      (-1) ^ d * ((-1) ^ (q * m) * (m.factorial : ZMod p)) * coboundary (wv p p d (List.replicate p (q, γ))) σ) := by
  refine (rel_chain (X := X) hp hγ m d (by omega)).congr fun σ hσ => ?_
  rw [wu_true]
  congr 1
  have hd'' : tens zd (wd (zdeg q)) ((Lop q 0 ((ZigZag.omega p (Lop q) ^ m) (Bw p)) : WV p) : List Bool →₀ ZMod p) =
      ((ZigZag.omega p (Lop q) ^ m) (Bw p) : WV p) :=
    congrArg Subtype.val (ZigZag.d_odd (Lop_hom (q := q) hp.one_le) Lop_per Bw_d m)
  rw [← hd'', last_word hm, map_smul, wu_smul, mul_comm ((-1) ^ d), mul_assoc]
  congr 1
  have hw : wv p p d (List.replicate p (q, γ)) = wu p p d (zdeg q) (zval γ) (bv (ZMod p) (List.replicate p false)) :=
    funext fun τ => (wu_false d γ τ).symm
  rw [hw]
  cases d with
  | zero => rw [wu_zero_bd hp.two_le hp.ne_one hσ (zval_d q (γ := γ)), pow_zero, one_mul]
  | succ M =>
    have hs : bv (ZMod p) (List.replicate p false) ∈ Finsupp.supported (ZMod p) (ZMod p) {w : List Bool | w.length = p} :=
      Finsupp.single_mem_supported _ _ (by simp)
    have hr := rho_pw (deg := zdeg q) (e := q) hp.one_le hp.eq_two_or_odd (V := bv (ZMod p) false)
      (Finsupp.single_mem_supported _ _ (by simp [zdeg]))
    rw [pw_bv] at hr
    have e := wu_succ_bd (m := M) hp.two_le hp.ne_one hσ (zval_d q (γ := γ)) hs
    rw [actD_step_inv hp.one_le hs hr, wu_zero, sub_zero] at e
    exact e

/-- The operations of degree 0 and `p - 2` on the coboundary. -/
theorem rel_zero (hp : p.Prime) {γ : List Nat → ZMod p} (hγ : ∀ f ∈ A.simplices, f.length = q + 2 → coboundary γ f = 0) :
    RelNull X A (wv p p 0 (List.replicate p (q + 1, coboundary γ))) := by
  have cy : (Lop q 0 (Bw p) : List Bool →₀ ZMod p) ∈ Finsupp.supported (ZMod p) (ZMod p) (Cnt p (p - 1)) := Lop_cnt 0 Bw_cnt
  have f1 : tens zd (wd (zdeg q)) ((Lop q 0 (Bw p) : WV p) : List Bool →₀ ZMod p) = (Bw p : WV p) :=
    congrArg Subtype.val (ZigZag.d_odd (Lop_hom (q := q) hp.one_le) Lop_per Bw_d 0)
  refine RelNull.of 1 (fun τ hτ => wu_rel hp hγ 0 (by have := hp.two_le; omega) cy hτ) fun σ hσ => ?_
  rw [wu_zero_bd hp.two_le hp.ne_one hσ (zval_d q (γ := γ)), f1, one_mul]
  exact (wu_true 0 γ σ).symm

theorem rel_low (hp : p.Prime) {m : Nat} (hm : p = 2 * m + 1) {γ : List Nat → ZMod p}
    (hγ : ∀ f ∈ A.simplices, f.length = q + 2 → coboundary γ f = 0) (hpos : 1 ≤ m) :
    RelNull X A (wv p p (2 * m - 1) (List.replicate p (q + 1, coboundary γ))) := by
  have h := rel_chain (X := X) hp hγ (m - 1) 1 (by omega)
  set k := m - 1 with hk
  set y := Lop q 0 ((ZigZag.omega p (Lop q) ^ k) (Bw p)) with hy
  set z := Lop q 0 (Lop q (p - 1) ((ZigZag.omega p (Lop q) ^ k) (Bw p))) with hz
  have cy : (y : List Bool →₀ ZMod p) ∈ Finsupp.supported (ZMod p) (ZMod p) (Cnt p (p - 2 * k - 1)) := Lop_cnt 0 (omega_pow_cnt k)
  have cz : (z : List Bool →₀ ZMod p) ∈ Finsupp.supported (ZMod p) (ZMod p) (Cnt p (p - 2 * k - 1 - 1)) :=
    Lop_cnt 0 (Lop_cnt (p - 1) (omega_pow_cnt k))
  have f1 : tens zd (wd (zdeg q)) (y : List Bool →₀ ZMod p) = ((ZigZag.omega p (Lop q) ^ k) (Bw p) : WV p) :=
    congrArg Subtype.val (ZigZag.d_odd (Lop_hom (q := q) hp.one_le) Lop_per Bw_d k)
  have g1 : tens zd (wd (zdeg q)) (z : List Bool →₀ ZMod p) = actD (zdeg q) p (stepV (ZMod p) p (0 + 1)) (y : List Bool →₀ ZMod p) := by
    rw [stepV, if_neg (by omega), ← Top_sub hp.one_le, hy, ZigZag.t_odd Lop_per (Lop_rot hp.one_le) (Bw_t hp) hp.one_le,
      ← ZigZag.d_even (Lop_hom (q := q) hp.one_le) Lop_per Bw_d]
    rfl
  refine (h.add ((RelNull.of ((-1) ^ (0 + 1)) (fun τ hτ => wu_rel hp hγ (0 + 1) (by omega) cy hτ) fun σ _ => rfl).add
    (RelNull.of 1 (fun τ hτ => wu_rel hp hγ 0 (by omega) cz hτ) fun σ _ => rfl))).congr fun σ hσ => ?_
  rw [wu_succ_bd (m := 0) hp.two_le hp.ne_one hσ (zval_d q (γ := γ)) y.2, wu_zero_bd hp.two_le hp.ne_one hσ (zval_d q (γ := γ)),
    f1, g1, wu_true, show 1 + 2 * k = 2 * m - 1 by omega]
  ring

/-- The operation at an odd prime with its coefficient. -/
theorem steenrod_val (hp : p.Prime) (h2 : p ≠ 2) {s : Int} {b : Bool} {c : Int} (hc : steenrodCoeff p (-s) (-(q : Int)) = .ok c)
    (α : List Nat → ZMod p) (hi : Inc σ) :
    steenrodValue p s q b α σ = .ok (if 0 ≤ ((q : Int) - 2 * s) * (p - 1) - (if b then 1 else 0) then
      (c : ZMod p) * wv p p (((q : Int) - 2 * s) * (p - 1) - (if b then 1 else 0)).toNat (List.replicate p (q, α)) σ else 0) := by
  have hd : steenrodDegree p (-s) (-(q : Int)) b = ((q : Int) - 2 * s) * (p - 1) - (if b then 1 else 0) := by
    unfold steenrodDegree; ring
  set D := ((q : Int) - 2 * s) * (p - 1) - (if b then 1 else 0) with hD
  unfold steenrodValue Surjection.steenrodOperation
  rw [if_neg h2]
  dsimp only
  rw [hd]
  by_cases h : D < 0
  · rw [if_pos h, if_neg (by omega)]
    obtain ⟨z, ez, hz⟩ := call_empty (σ := σ) (x := Elem.new surjection [] (some p)) (n := p)
      (by simp [Elem.new, preferredRep, zeroDropped, basePreferredRep]) (List.replicate p (q, α))
    simp only [hc, bind, Except.bind, ez, hz]
  · rw [if_neg h, if_pos (by omega), hc]
    obtain ⟨y, ey, -⟩ := C56_psi_ok (r := p) .mcClureSmith hp.two_le D.toNat p hp.ne_one
    obtain ⟨z, ez, dz⟩ := call_smul hp.two_le hi c ey
    simp only [bind, Except.bind, ey]
    rw [ez]
    simp only []
    rw [evalOn_eq, dz, map_smul, smul_eq_mul]
    rfl

end Comch.Coch

namespace Comch.Props
open Comch.Spec Comch.Coch Elem SurjComp SurjElem SurjMay Comch.CubeCoch

variable {p q : Nat} {X A : OrderedComplex}

theorem cob_zero_on {α γ : List Nat → ZMod p} (hα : IsCocycle A q α) (h : ∀ σ ∈ A.simplices, σ.length = q + 1 → γ σ = α σ) :
    ∀ f ∈ A.simplices, f.length = q + 2 → coboundary γ f = 0 := by
  intro f hf hl
  rw [coboundary_congr hf (fun τ hτ ht => h τ hτ (by omega))]
  exact hα f hf hl

theorem connecting_of {α β γ : List Nat → ZMod p} {a : ZMod p} {n : Nat} (hrel : RelNull X A (fun σ => β σ - a * coboundary γ σ))
    (h : ∀ τ ∈ A.simplices, a * γ τ = α τ) : IsConnecting X A n α β := by
  obtain ⟨E, h1, h2⟩ := hrel
  refine ⟨fun τ => a * γ τ + E τ, fun τ hτ _ => ?_, fun σ hσ _ => ?_⟩
  · beta_reduce; rw [h1 τ hτ, add_zero, h τ hτ]
  · rw [cob_add, cob_mul, ← h2 σ hσ]; ring

/-- Squares commute with the connecting homomorphism of a pair. (The pair needs no inclusion here: where `A` is not
contained in `X` the two conditions are about different simplices.) -/
theorem C114_square {α β : List Nat → ZMod 2} (hα : IsCocycle A q α) (h : IsConnecting X A q α β)
    (s : Int) (n : Nat) :
    IsConnecting X A n (cochain (steenrodValue 2 s q false α)) (cochain (steenrodValue 2 s (q + 1) false β)) := by
  obtain ⟨γ, h1, h2⟩ := h
  have hn : (2 : Nat) ≠ 1 := by norm_num
  have hγ := cob_zero_on hα h1
  have hz : ∀ j, ∀ σ ∈ X.simplices, wv 2 2 j [(q, γ), (q + 1 + 1, coboundary (coboundary γ))] σ = 0 := by
    intro j σ hσ
    rw [wv_congr hn hσ (α := γ) (α' := γ) (β := coboundary (coboundary γ)) (β' := fun _ => 0) (fun _ _ _ => rfl)
      (fun f _ _ => coboundary_coboundary γ f), wv_zero_right]
  have hr : ∀ j, ∀ τ ∈ A.simplices, wv 2 2 j [(q, γ), (q + 1, coboundary γ)] τ = 0 := by
    intro j τ hτ
    rw [wv_congr hn hτ (α := γ) (α' := γ) (β := coboundary γ) (β' := fun _ => 0) (fun _ _ _ => rfl) (fun f hf hl => hγ f hf hl),
      wv_zero_right]
  by_cases hs : s ≤ q
  · refine ⟨fun τ => wv 2 2 ((q - s).toNat + 1) [(q, γ), (q + 1, coboundary γ)] τ + wv 2 2 (q - s).toNat [(q, γ), (q, γ)] τ,
      fun τ hτ _ => ?_, fun σ hσ _ => ?_⟩
    · beta_reduce; rw [cochain_square hτ, if_pos hs, hr _ τ hτ, zero_add, wv_congr hn hτ h1 h1]
    · rw [cochain_square hσ, if_pos (by push_cast; omega), show (((q + 1 : Nat) : Int) - s).toNat = (q - s).toNat + 1 by omega,
        wv_congr hn hσ (fun f hf hl => h2 f hf hl) (fun f hf hl => h2 f hf hl)]
      generalize (q - s).toNat = i
      have h1 : coboundary (wv 2 2 i [(q, γ), (q, γ)]) σ =
          wv 2 2 i [(q + 1, coboundary γ), (q, γ)] σ + wv 2 2 i [(q, γ), (q + 1, coboundary γ)] σ := by
        cases i with
        | zero => rw [wv_two_zero (inc_of_mem hσ)]
        | succ i => rw [wv_two (inc_of_mem hσ), two_self (wv 2 2 i [(q, γ), (q, γ)] σ), add_zero]
      rw [coboundary_add, h1, wv_two (inc_of_mem hσ), hz (i + 1) σ hσ, add_zero]
      rw [add_assoc, two_self, add_zero]
  · by_cases hs' : s = q + 1
    · refine ⟨wv 2 2 0 [(q, γ), (q + 1, coboundary γ)], fun τ hτ _ => ?_, fun σ hσ _ => ?_⟩
      · rw [cochain_square hτ, if_neg hs, hr 0 τ hτ]
      · rw [cochain_square hσ, if_pos (by push_cast; omega), show (((q + 1 : Nat) : Int) - s).toNat = 0 by omega,
          wv_congr hn hσ (fun f hf hl => h2 f hf hl) (fun f hf hl => h2 f hf hl), wv_two_zero (inc_of_mem hσ), hz 0 σ hσ, add_zero]
    · refine ⟨fun _ => 0, fun τ hτ _ => ?_, fun σ hσ _ => ?_⟩
      · rw [cochain_square hτ, if_neg hs]
      · rw [cochain_square hσ, if_neg (by push_cast; omega), cob_zero]

/-- The same for cubical complexes. -/
theorem C114_cubical {N : Nat} {X A : CubeComplex N} {α β : Cube → ZMod 2} (hα : IsCubeCocycle A q α) (h : IsCubeConnecting X A q α β)
    (s : Int) (n : Nat) :
    IsCubeConnecting X A n (cochain (cubeSquareValue s q α)) (cochain (cubeSquareValue s (q + 1) β)) := by
  obtain ⟨γ, h1, h2⟩ := h
  have hγ : ∀ f ∈ A.cubes, f.count 2 = q + 1 → cubeCoboundary γ f = 0 := by
    intro f hf hl
    rw [cube_cob_on hf (fun τ hτ ht => h1 τ hτ (by omega))]
    exact hα f hf hl
  have hz : ∀ j, ∀ c ∈ X.cubes, wc .mcClureSmith j q γ (q + 1 + 1) (cubeCoboundary (cubeCoboundary γ)) c = 0 := by
    intro j c hc
    rw [wc_on hc (α := γ) (α' := γ) (β := cubeCoboundary (cubeCoboundary γ)) (β' := fun _ => 0) (fun _ _ _ => rfl)
      (fun f _ _ => cube_cob_cob γ f), wc_zero_right]
  have hr : ∀ j, ∀ c ∈ A.cubes, wc .mcClureSmith j q γ (q + 1) (cubeCoboundary γ) c = 0 := by
    intro j c hc
    rw [wc_on hc (α := γ) (α' := γ) (β := cubeCoboundary γ) (β' := fun _ => 0) (fun _ _ _ => rfl) (fun f hf hl => hγ f hf hl),
      wc_zero_right]
  by_cases hs : s ≤ q
  · refine ⟨fun f => wc .mcClureSmith ((q - s).toNat + 1) q γ (q + 1) (cubeCoboundary γ) f + wc .mcClureSmith (q - s).toNat q γ q γ f,
      fun f hf _ => ?_, fun c hc _ => ?_⟩
    · beta_reduce; rw [cochain_cube_square hf, if_pos hs, hr _ f hf, zero_add, wc_on hf h1 h1]
    · rw [cochain_cube_square hc, if_pos (by push_cast; omega), show (((q + 1 : Nat) : Int) - s).toNat = (q - s).toNat + 1 by omega,
        wc_on hc (fun f hf hl => h2 f hf hl) (fun f hf hl => h2 f hf hl)]
      generalize (q - s).toNat = i
      have h1 : cubeCoboundary (wc .mcClureSmith i q γ q γ) c =
          wc .mcClureSmith i (q + 1) (cubeCoboundary γ) q γ c + wc .mcClureSmith i q γ (q + 1) (cubeCoboundary γ) c := by
        cases i with
        | zero => rw [wc_zero (cube_le hc)]
        | succ i => rw [wc_succ (cube_le hc), CubeCoch.two_self (wc .mcClureSmith i q γ q γ c), add_zero]
      rw [cube_cob_add, h1, wc_succ (cube_le hc), hz (i + 1) c hc, add_zero]
      rw [add_assoc, CubeCoch.two_self, add_zero]
  · by_cases hs' : s = q + 1
    · refine ⟨wc .mcClureSmith 0 q γ (q + 1) (cubeCoboundary γ), fun f hf _ => ?_, fun c hc _ => ?_⟩
      · rw [cochain_cube_square hf, if_neg hs, hr 0 f hf]
      · rw [cochain_cube_square hc, if_pos (by push_cast; omega), show (((q + 1 : Nat) : Int) - s).toNat = 0 by omega,
          wc_on hc (fun f hf hl => h2 f hf hl) (fun f hf hl => h2 f hf hl), wc_zero (cube_le hc), hz 0 c hc, add_zero]
    · refine ⟨fun _ => 0, fun f hf _ => ?_, fun c hc _ => ?_⟩
      · rw [cochain_cube_square hf, if_neg hs]
      · rw [cochain_cube_square hc, if_neg (by push_cast; omega), cube_cob_zero]

/-- The coefficients of the operations in two consecutive degrees. -/
theorem nu_succ (p : Nat) [Fact p.Prime] {m : Nat} (hm : p = 2 * m + 1) (q : Nat) :
    nu p (-((q + 1 : Nat) : Int)) * ((-1) ^ (q * m) * (m.factorial : ZMod p)) = (-1) ^ m * nu p (-(q : Int)) := by
  have hm2 : (p - 1) / 2 = m := by omega
  have hne := factorial_ne_zero p hm
  have hn1 : (-1 : ZMod p) ≠ 0 := neg_ne_zero.2 one_ne_zero
  rw [nu, nu, hm2, show (-1 : ZMod p) ^ (q * m) = (-1) ^ ((q * m : Nat) : Int) from (zpow_natCast _ _).symm,
    show (-1 : ZMod p) ^ m = (-1) ^ (m : Int) from (zpow_natCast _ _).symm, mul_mul_mul_comm, ← mul_assoc ((-1 : ZMod p) ^ (m : Int)),
    ← zpow_add₀ hn1, ← zpow_add₀ hn1, ← zpow_add_one₀ hne, show -((q + 1 : Nat) : Int) + 1 = -(q : Int) by push_cast; ring]
  congr 1
  rw [neg_one_zpow_eq, neg_one_zpow_eq]
  congr 1
  apply pySign_eq_of_zmod
  have e1 : -((q + 1 : Nat) : Int) * (-((q + 1 : Nat) : Int) - 1) / 2 = -(q : Int) * (-(q : Int) - 1) / 2 + (q + 1) := by
    rw [show -((q + 1 : Nat) : Int) * (-((q + 1 : Nat) : Int) - 1) = -(q : Int) * (-(q : Int) - 1) + (q + 1) * 2 by push_cast; ring,
      Int.add_mul_ediv_right _ _ (by norm_num)]
  rw [e1]
  simp only [Int.cast_mul, Int.cast_add, Int.cast_natCast, Nat.cast_mul, Int.cast_one]
  have h22 : (2 : ZMod 2) = 0 := by decide
  linear_combination ((q : ZMod 2) * m) * h22

/-- At an odd prime `P^s` commutes with the connecting homomorphism up to the sign `(-1)^{(p - 1) / 2}`, and `β P^s` up to
the opposite sign. -/
theorem C114_power (hp : p.Prime) (h2 : p ≠ 2) (hp47 : p < 47) {α β : List Nat → ZMod p}
    (hα : IsCocycle A q α) (h : IsConnecting X A q α β) (s : Int) (b : Bool) (n : Nat) :
    IsConnecting X A n
      (fun τ => (if b then -1 else 1) * (-1) ^ ((p - 1) / 2) * cochain (steenrodValue p s q b α) τ)
      (cochain (steenrodValue p s (q + 1) b β)) := by
  have : Fact p.Prime := ⟨hp⟩
  obtain ⟨m, hm⟩ : ∃ m, p = 2 * m + 1 := by
    rcases hp.eq_two_or_odd with h | h
    · exact absurd h h2
    · exact ⟨p / 2, by omega⟩
  have hpos : 1 ≤ m := by have := hp.two_le; omega
  have hm2 : (p - 1) / 2 = m := by omega
  obtain ⟨γ, g1, g2⟩ := h
  have hγ := cob_zero_on hα g1
  obtain ⟨c, hc, vc⟩ := C57_coefficient_small p h2 hp47 (-s) (-(q : Int))
  obtain ⟨c', hc', vc'⟩ := C57_coefficient_small p h2 hp47 (-s) (-((q + 1 : Nat) : Int))
  have hX : ∀ σ ∈ X.simplices, cochain (steenrodValue p s (q + 1) b β) σ = _ := fun σ hσ => by
    rw [cochain, steenrod_val hp h2 hc' β (inc_of_mem hσ)]
  have hAα : ∀ τ ∈ A.simplices, cochain (steenrodValue p s q b α) τ = _ := fun σ hσ => by
    rw [cochain, steenrod_val hp h2 hc α (inc_of_mem hσ)]
  simp only [] at hX hAα
  have hβ : ∀ d, ∀ σ ∈ X.simplices, wv p p d (List.replicate p (q + 1, β)) σ = wv p p d (List.replicate p (q + 1, coboundary γ)) σ :=
    fun d σ hσ => wv_congr_all hp.two_le hp.ne_one hσ fun f hf hl => g2 f hf hl
  have hαγ : ∀ d, ∀ σ ∈ A.simplices, wv p p d (List.replicate p (q, α)) σ = wv p p d (List.replicate p (q, γ)) σ :=
    fun d σ hσ => wv_congr_all hp.two_le hp.ne_one hσ fun f hf hl => (g1 f hf hl).symm
  set D := ((q : Int) - 2 * s) * (p - 1) - (if b then 1 else 0) with hD
  have hD' : (((q + 1 : Nat) : Int) - 2 * s) * (p - 1) - (if b then 1 else 0) = D + 2 * m := by
    rw [hD, hm]; push_cast; ring
  rw [hD'] at hX
  have hnull : RelNull X A (cochain (steenrodValue p s (q + 1) b β)) → ¬ 0 ≤ D → IsConnecting X A n
      (fun τ => (if b then -1 else 1) * (-1) ^ ((p - 1) / 2) * cochain (steenrodValue p s q b α) τ)
      (cochain (steenrodValue p s (q + 1) b β)) := by
    rintro ⟨E, e1, e2⟩ hneg
    refine ⟨E, fun τ hτ _ => ?_, fun σ hσ _ => e2 σ hσ⟩
    beta_reduce; rw [hAα τ hτ, if_neg hneg, mul_zero, e1 τ hτ]
  by_cases h0 : 0 ≤ D
  · obtain ⟨d, hd⟩ := Int.eq_ofNat_of_zero_le h0
    rw [hd] at hX hAα
    have hsgn : (-1 : ZMod p) ^ d = if b then -1 else 1 := by
      have : D % 2 = if b then 1 else 0 := by
        rw [hD, hm]; push_cast
        rw [show ((q : Int) - 2 * s) * (2 * m + 1 - 1) = 2 * ((q - 2 * s) * m) by ring]
        cases b <;> simp <;> omega
      cases b with
      | true => exact Odd.neg_one_pow (Nat.odd_iff.2 (by simp at this; omega))
      | false => exact Even.neg_one_pow (Nat.even_iff.2 (by simp at this; omega))
    obtain ⟨E, e1, e2⟩ := rel_suspend (X := X) hp hm hγ d
    refine connecting_of (γ := wv p p d (List.replicate p (q, γ)))
      (a := (c' : ZMod p) * ((-1) ^ d * ((-1) ^ (q * m) * (m.factorial : ZMod p)))) ?_ fun τ hτ => ?_
    · refine RelNull.of (c' : ZMod p) e1 fun σ hσ => ?_
      rw [hX σ hσ, if_pos (by omega), hβ _ σ hσ, ← e2 σ hσ, show ((d : Int) + 2 * m).toNat = d + 2 * m by omega]
      ring
    · beta_reduce; rw [hAα τ hτ, if_pos (Int.natCast_nonneg d), hαγ _ τ hτ, Int.toNat_natCast, ← mul_assoc, hsgn, vc, vc', hm2]
      have := nu_succ p hm q
      generalize (if b = true then (-1 : ZMod p) else 1) = t
      linear_combination t * (-1) ^ (-s) * wv p p d (List.replicate p (q, γ)) τ * this
  · refine hnull ?_ h0
    by_cases h1 : 0 ≤ D + 2 * m
    swap
    · exact ⟨fun _ => 0, fun _ _ => rfl, fun σ hσ => by rw [hX σ hσ, if_neg h1, cob_zero]⟩
    have hmul : ∀ {d : Nat}, (D + 2 * m).toNat = d → RelNull X A (wv p p d (List.replicate p (q + 1, coboundary γ))) →
        RelNull X A (cochain (steenrodValue p s (q + 1) b β)) := by
      rintro d hd ⟨E, e1, e2⟩
      refine RelNull.of (c' : ZMod p) e1 fun σ hσ => ?_
      rw [hX σ hσ, if_pos h1, hβ _ σ hσ, hd, e2 σ hσ]
    have hD2 : D = 2 * (((q : Int) - 2 * s) * m) - (if b then 1 else 0) := by rw [hD, hm]; push_cast; ring
    have hlt : ((q : Int) - 2 * s) ≤ 0 := by
      by_contra hc
      have : (1 : Int) * 1 ≤ ((q : Int) - 2 * s) * m := mul_le_mul (by omega) (by exact_mod_cast hpos) (by norm_num) (by omega)
      split at hD2 <;> omega
    have hgt : -1 ≤ ((q : Int) - 2 * s) := by
      by_contra hc
      have : ((q : Int) - 2 * s) * m ≤ (-2) * m := mul_le_mul_of_nonneg_right (by omega) (by positivity)
      split at hD2 <;> omega
    rcases eq_or_lt_of_le hlt with he | he
    · cases b with
      | false => rw [he] at hD2; simp at hD2; omega
      | true =>
        rw [he] at hD2
        simp at hD2
        exact hmul (d := 2 * m - 1) (by omega) (rel_low hp hm hγ hpos)
    · rw [show (q : Int) - 2 * s = -1 by omega] at hD2
      cases b with
      | true => simp at hD2; omega
      | false => exact hmul (d := 0) (by simp at hD2; omega) (rel_zero hp hγ)

/-- The edge and its ends. -/
def exEdge : OrderedComplex where
  simplices := {σ | σ = [0] ∨ σ = [1] ∨ σ = [0, 1]}
  increasing := by rintro σ (rfl | rfl | rfl) <;> decide
  nonempty := by rintro σ (rfl | rfl | rfl) <;> decide
  faces := by
    rintro σ h τ ht hne
    have : τ ∈ [0, 1].sublists := by
      rw [List.mem_sublists]
      rcases h with rfl | rfl | rfl
      · exact ht.trans (by decide)
      · exact ht.trans (by decide)
      · exact ht
    simp [List.sublists] at this
    rcases this with rfl | rfl | rfl | rfl
    · exact absurd rfl hne
    · exact Or.inl rfl
    · exact Or.inr (Or.inl rfl)
    · exact Or.inr (Or.inr rfl)

def exEnds : OrderedComplex where
  simplices := {σ | σ = [0] ∨ σ = [1]}
  increasing := by rintro σ (rfl | rfl) <;> decide
  nonempty := by rintro σ (rfl | rfl) <;> decide
  faces := by
    rintro σ (rfl | rfl) τ ht hne
    · rcases List.sublist_singleton.1 ht with rfl | rfl
      · exact absurd rfl hne
      · exact Or.inl rfl
    · rcases List.sublist_singleton.1 ht with rfl | rfl
      · exact absurd rfl hne
      · exact Or.inr rfl

/-- (defect) The sign cannot be dropped: modulo 3, on the pair of
the 1-simplex and its ends, `P^0` of the value of the connecting homomorphism is the negative of what stability asks for. -/
theorem C114_unstable :
    ∃ (X A : OrderedComplex) (α β : List Nat → ZMod 3), A.simplices ⊆ X.simplices ∧ IsCocycle A 0 α ∧ IsConnecting X A 0 α β ∧
      ¬ IsConnecting X A 0 (cochain (steenrodValue 3 0 0 false α)) (cochain (steenrodValue 3 0 1 false β)) := by
  refine ⟨exEdge, exEnds, fun τ => if τ = [1] then 1 else 0, fun _ => 1, fun τ h => ?_, fun τ h hl => ?_, ⟨fun τ => if τ = [1] then 1 else 0, fun _ _ _ => rfl, ?_⟩, ?_⟩
  · exact h.elim (fun h => Or.inl h) fun h => Or.inr (Or.inl h)
  · rcases h with rfl | rfl <;> simp at hl
  · rintro σ (rfl | rfl | rfl) hl
    · simp at hl
    · simp at hl
    · decide +kernel
  · rintro ⟨γ, h1, h2⟩
    have a0 := h1 [0] (Or.inl rfl) rfl
    have a1 := h1 [1] (Or.inr rfl) rfl
    have b := h2 [0, 1] (Or.inr (Or.inr rfl)) rfl
    have e : coboundary γ [0, 1] = γ [1] - γ [0] := by
      simp [coboundary, List.range_succ]; ring
    rw [e, a0, a1] at b
    exact absurd b (by decide +kernel)

/-! ### cases that meet the hypotheses -/

example : IsConnecting exEdge exEnds 0 (fun τ => if τ = [1] then (1 : ZMod 5) else 0) (fun _ => 1) ∧
    IsCocycle exEnds 0 (fun τ => if τ = [1] then (1 : ZMod 5) else 0) := by
  refine ⟨⟨fun τ => if τ = [1] then 1 else 0, fun _ _ _ => rfl, ?_⟩, ?_⟩
  · rintro σ (rfl | rfl | rfl) hl
    · simp at hl
    · simp at hl
    · decide +kernel
  · rintro σ (rfl | rfl) hl <;> simp at hl

example : steenrodValue 3 0 1 false (fun _ => 1) [0, 1] = .ok (-1) := by decide +kernel

end Comch.Props
