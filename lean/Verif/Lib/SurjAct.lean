import Verif.Lib.SurjConv
import Verif.Props.Surjection

/-! # The action of the symmetric group on surjections -/

set_option linter.unusedSectionVars false

namespace Comch
open Spec IsPerm Elem
open Finsupp (single)

variable {R : Type} [CommRing R] {r : Nat} {σ τ : List Nat}

/-- Koszul exponent of a function `f` on labels, for weights `W`. -/
def kosF (f : Nat → Nat) (W : Nat → Int) (L : List Nat) : Int := kos id (L.map fun l => (f l, W l))

theorem kosF_cons (f : Nat → Nat) (W : Nat → Int) (a : Nat) (L : List Nat) :
    kosF f W (a :: L) = W a * ((L.filter fun l => f l < f a).map W).sum + kosF f W L := by
  unfold kosF
  rw [List.map_cons, kos, List.filter_map, List.map_map]
  rfl

theorem sum_map_update {W W' : Nat → Int} {x : Nat} {L : List Nat} (hL : L.Nodup)
    (h : ∀ l, l ≠ x → W' l = W l) (hx : W' x = W x + 1) (P : Nat → Bool) :
    ((L.filter P).map W').sum = ((L.filter P).map W).sum + if x ∈ L ∧ P x = true then 1 else 0 := by
  induction L with
  | nil => simp
  | cons a L ih =>
    rw [List.nodup_cons] at hL
    have ih := ih hL.2
    rw [List.filter_cons]
    by_cases e : a = x
    · subst e
      rw [if_neg (fun h => hL.1 h.1)] at ih
      by_cases hp : P a = true
      · simp only [hp, if_true, List.map_cons, List.sum_cons, hx, List.mem_cons, true_or, true_and]
        rw [ih]; ring
      · simp only [hp, and_false]; simpa using ih
    · have hm : (x ∈ a :: L) ↔ x ∈ L := by simp [Ne.symm e]
      by_cases hp : P a = true
      · simp only [hp, if_true, List.map_cons, List.sum_cons, hm, h a e]
        rw [ih]; ring
      · simp only [hp, hm]; simpa using ih

theorem kosF_update {f : Nat → Nat} {W W' : Nat → Int} {x : Nat} {L : List Nat}
    (hL : L.Pairwise (· < ·)) (h : ∀ l, l ≠ x → W' l = W l) (hx : W' x = W x + 1) (hm : x ∈ L) :
    kosF f W' L = kosF f W L + ((L.filter fun l => l < x ∧ f x < f l).map W).sum +
      ((L.filter fun l => x < l ∧ f l < f x).map W).sum := by
  induction L with
  | nil => simp at hm
  | cons a L ih =>
    have hnd : (a :: L).Nodup := hL.imp (fun h => Nat.ne_of_lt h)
    rw [List.pairwise_cons] at hL
    rw [List.nodup_cons] at hnd
    rw [kosF_cons, kosF_cons]
    by_cases e : a = x
    · subst e
      have hW : ∀ P : Nat → Bool, ((L.filter P).map W').sum = ((L.filter P).map W).sum := by
        intro P
        congr 1
        apply List.map_congr_left
        intro l hl
        apply h
        intro e
        exact hnd.1 (e ▸ (List.mem_filter.1 hl).1)
      have hk : kosF f W' L = kosF f W L := by
        unfold kosF
        congr 1
        apply List.map_congr_left
        intro l hl
        rw [h l (fun e => hnd.1 (e ▸ hl))]
      have h1 : (a :: L).filter (fun l => decide (l < a ∧ f a < f l)) = [] := by
        rw [List.filter_eq_nil_iff]
        intro l hl
        rcases List.mem_cons.1 hl with rfl | hl
        · simp
        · have := hL.1 l hl
          simp; omega
      have h2 : (a :: L).filter (fun l => decide (a < l ∧ f l < f a)) = L.filter fun l => f l < f a := by
        rw [List.filter_cons, if_neg (by simp)]
        apply List.filter_congr
        intro l hl
        have := hL.1 l hl
        simp [this]
      rw [h1, h2, hW, hk, hx]
      simp
      ring
    · have hm' : x ∈ L := by
        rcases List.mem_cons.1 hm with h | h
        · exact absurd h.symm e
        · exact h
      have hax := hL.1 x hm'
      rw [ih hL.2 hm', h a e, sum_map_update hnd.2 h hx]
      have h1 : ((a :: L).filter fun l => decide (x < l ∧ f l < f x)) =
          L.filter fun l => x < l ∧ f l < f x := by
        rw [List.filter_cons, if_neg (by simp; omega)]
      rw [h1, List.filter_cons]
      simp only [hm', true_and, decide_eq_true_eq, hax]
      by_cases hf : f x < f a
      · simp only [hf, if_true, List.map_cons, List.sum_cons]
        ring
      · simp only [hf, if_false]
        ring

/-- Weight of a value. -/
def wt (t : List Nat) (l : Nat) : Int := ((t.count l - 1 : Nat) : Int)

theorem smaller_eq {t : List Nat} (ht : ∀ v ∈ t, 1 ≤ v ∧ v ≤ r) (y : Nat) :
    (smaller t y : Int) = (((List.range' 1 r).filter fun l => l < y).map (wt t)).sum := by
  unfold smaller
  rw [Nat.cast_list_sum, List.map_map]
  have hz : ∀ l, (l < 1 ∨ r < l) → wt t l = 0 := by
    intro l hl
    unfold wt
    rw [List.count_eq_zero.2]
    · rfl
    · intro h
      have := ht l h
      omega
  show ((List.range y).map (wt t)).sum = _
  have key : ∀ y, ((List.range y).map (wt t)).sum =
      (((List.range' 1 r).filter fun l => l < y).map (wt t)).sum := by
    intro y
    induction y with
    | zero => simp
    | succ y ih =>
      rw [List.range_succ, List.map_append, List.sum_append, ih]
      have hs : ∀ (L : List Nat), L.Nodup → ((L.filter fun l => l < y + 1).map (wt t)).sum =
          ((L.filter fun l => l < y).map (wt t)).sum + if y ∈ L then wt t y else 0 := by
        intro L hL
        induction L with
        | nil => simp
        | cons a L ih =>
          rw [List.nodup_cons] at hL
          have ih := ih hL.2
          rw [List.filter_cons, List.filter_cons]
          rcases lt_trichotomy a y with h | h | h
          · have : y ≠ a := by omega
            simp only [decide_eq_true_eq, h, if_true, show a < y + 1 by omega, List.map_cons,
              List.sum_cons, ih, List.mem_cons, this, false_or]
            ring
          · subst h
            simp only [decide_eq_true_eq, Nat.lt_irrefl, if_false, Nat.lt_succ_self, if_true,
              List.map_cons, List.sum_cons, ih, List.mem_cons, true_or, hL.1]
            ring
          · have : y ≠ a := by omega
            simp only [decide_eq_true_eq, show ¬ a < y by omega, if_false, show ¬ a < y + 1 by omega,
              ih, List.mem_cons, this, false_or]
      rw [hs _ List.nodup_range']
      congr 1
      simp only [List.map_cons, List.map_nil, List.sum_cons, List.sum_nil, add_zero]
      split
      · rfl
      · rename_i h
        apply hz
        rw [List.mem_range'_1] at h
        omega
  exact key y

theorem count_mulL (hσ : IsPerm r σ) {t : List Nat} (ht : ∀ v ∈ t, 1 ≤ v ∧ v ≤ r) {l : Nat}
    (hl : 1 ≤ l ∧ l ≤ r) : (mulL σ t).count (value σ l) = t.count l := by
  unfold mulL
  induction t with
  | nil => simp
  | cons x t ih =>
    have hx := ht x (by simp)
    rw [List.map_cons, List.count_cons, List.count_cons, ih fun v hv => ht v (List.mem_cons_of_mem _ hv)]
    congr 1
    by_cases e : x = l
    · simp [e]
    · have : value σ x ≠ value σ l := fun h => e (value_inj hσ hx hl h)
      simp [e, this]

theorem mulL_range (hσ : IsPerm r σ) {t : List Nat} (ht : ∀ v ∈ t, 1 ≤ v ∧ v ≤ r) :
    ∀ v ∈ mulL σ t, 1 ≤ v ∧ v ≤ r := by
  intro v hv
  obtain ⟨a, ha, rfl⟩ := List.mem_map.1 hv
  exact value_range hσ (ht a ha).1 (ht a ha).2

theorem mem_mulL (hσ : IsPerm r σ) {t : List Nat} (ht : ∀ v ∈ t, 1 ≤ v ∧ v ≤ r) {l : Nat}
    (hl : 1 ≤ l ∧ l ≤ r) : value σ l ∈ mulL σ t ↔ l ∈ t := by
  rw [← List.count_pos_iff, count_mulL hσ ht hl, List.count_pos_iff]

theorem smaller_mulL (hσ : IsPerm r σ) {t : List Nat} (ht : ∀ v ∈ t, 1 ≤ v ∧ v ≤ r) (y : Nat) :
    (smaller (mulL σ t) y : Int) =
      (((List.range' 1 r).filter fun l => value σ l < y).map (wt t)).sum := by
  rw [smaller_eq (mulL_range hσ ht)]
  have hp : (List.range' 1 r).Perm ((List.range' 1 r).map (value σ)) := by
    rw [map_value_range hσ]
    exact (perm_range hσ).symm
  rw [((hp.filter (fun l => decide (l < y))).map (wt (mulL σ t))).sum_eq, List.filter_map, List.map_map]
  congr 1
  apply List.map_congr_left
  intro l hl
  have hl := (List.mem_filter.1 hl).1
  rw [List.mem_range'_1] at hl
  simp only [Function.comp, wt]
  rw [count_mulL hσ ht (by omega)]

/-- Two indicator sums differ by the symmetric difference. -/
theorem sum_symmDiff (W : Nat → Int) (P Q : Nat → Prop) [DecidablePred P] [DecidablePred Q]
    (L : List Nat) :
    (((L.filter fun l => P l).map W).sum + ((L.filter fun l => Q l).map W).sum +
      ((L.filter fun l => P l ∧ ¬ Q l).map W).sum + ((L.filter fun l => Q l ∧ ¬ P l).map W).sum) % 2 = 0 := by
  induction L with
  | nil => simp
  | cons a L ih =>
    simp only [List.filter_cons]
    by_cases hp : P a <;> by_cases hq : Q a <;>
      simp only [hp, hq, decide_true, decide_false, if_true, Bool.false_eq_true, if_false, not_true,
        not_false_eq_true, and_true, and_false, List.map_cons, List.sum_cons] <;> omega

theorem invE_mulL (hσ : IsPerm r σ) {t : List Nat} (ht : ∀ v ∈ t, 1 ≤ v ∧ v ≤ r) :
    ((invE (mulL σ t) : Int) + invE t + kosF (value σ) (wt t) (List.range' 1 r)) % 2 = 0 := by
  induction t with
  | nil =>
    have h0 : ∀ L : List Nat, kosF (value σ) (wt []) L = 0 := by
      intro L
      induction L with
      | nil => rfl
      | cons a L ih => rw [kosF_cons, ih]; simp [wt]
    simp [h0, mulL, invE]
  | cons x t ih =>
    have hx := ht x (by simp)
    have ht' : ∀ v ∈ t, 1 ≤ v ∧ v ≤ r := fun v hv => ht v (List.mem_cons_of_mem _ hv)
    have ih := ih ht'
    have hcons : mulL σ (x :: t) = value σ x :: mulL σ t := rfl
    rw [hcons, invE, invE]
    by_cases hm : x ∈ t
    · rw [if_pos hm, if_pos ((mem_mulL hσ ht' hx).2 hm)]
      have h1 : ∀ l, l ≠ x → wt (x :: t) l = wt t l := by
        intro l hl
        unfold wt
        rw [List.count_cons_of_ne (Ne.symm hl)]
      have h2 : wt (x :: t) x = wt t x + 1 := by
        unfold wt
        have := List.count_pos_iff.2 hm
        rw [List.count_cons_self]
        omega
      rw [kosF_update List.pairwise_lt_range' h1 h2 (by rw [List.mem_range'_1]; omega)]
      push_cast
      rw [smaller_mulL hσ ht', smaller_eq ht']
      have hsd := sum_symmDiff (wt t) (fun l => value σ l < value σ x) (fun l => l < x) (List.range' 1 r)
      have e1 : (List.range' 1 r).filter (fun l => decide (l < x ∧ ¬ value σ l < value σ x)) =
          (List.range' 1 r).filter (fun l => decide (l < x ∧ value σ x < value σ l)) := by
        apply List.filter_congr
        intro l hl
        rw [List.mem_range'_1] at hl
        apply decide_eq_decide.2
        apply and_congr_right
        intro hlt
        have : value σ l ≠ value σ x := fun h => by
          have := value_inj hσ (by omega) hx h
          omega
        omega
      have e2 : (List.range' 1 r).filter (fun l => decide (value σ l < value σ x ∧ ¬ l < x)) =
          (List.range' 1 r).filter (fun l => decide (x < l ∧ value σ l < value σ x)) := by
        apply List.filter_congr
        intro l hl
        apply decide_eq_decide.2
        constructor
        · rintro ⟨h1, h2⟩
          refine ⟨?_, h1⟩
          rcases Nat.lt_or_eq_of_le (Nat.le_of_not_lt h2) with h | h
          · exact h
          · subst h
            exact absurd h1 (Nat.lt_irrefl _)
        · rintro ⟨h1, h2⟩
          exact ⟨h2, by omega⟩
      rw [e1, e2] at hsd
      omega
    · rw [if_neg hm, if_neg (fun h => hm ((mem_mulL hσ ht' hx).1 h))]
      have h1 : wt (x :: t) = wt t := by
        funext l
        unfold wt
        rw [List.count_cons]
        by_cases e : x = l
        · subst e
          rw [List.count_eq_zero.2 hm]
          simp
        · simp [e]
      rw [h1]
      simpa using ih

theorem kosF_value (hσ : IsPerm r σ) (W : Nat → Int) :
    kosF (value σ) W (List.range' 1 r) = kos id (σ.zip ((List.range' 1 r).map W)) := by
  unfold kosF
  congr 1
  conv_rhs => rw [← map_value_range hσ]
  rw [List.zip_map']

/-! ### the boundary -/

theorem erase_map_inj {f : Nat → Nat} {t : List Nat} {x : Nat} (h : ∀ a ∈ t, f a = f x → a = x) :
    (t.map f).erase (f x) = (t.erase x).map f := by
  induction t with
  | nil => rfl
  | cons a t ih =>
    by_cases e : a = x
    · subst e; simp
    · have : f a ≠ f x := fun h' => e (h a (by simp) h')
      rw [List.map_cons, List.erase_cons_tail (by simpa using this), List.erase_cons_tail (by simpa using e),
        ih fun b hb => h b (List.mem_cons_of_mem _ hb), List.map_cons]

theorem count_map_inj {f : Nat → Nat} {t : List Nat} {x : Nat} (h : ∀ a ∈ t, f a = f x → a = x) :
    (t.map f).count (f x) = t.count x := by
  induction t with
  | nil => rfl
  | cons a t ih =>
    rw [List.map_cons, List.count_cons, List.count_cons, ih fun b hb => h b (List.mem_cons_of_mem _ hb)]
    congr 1
    by_cases e : a = x
    · simp [e]
    · have : f a ≠ f x := fun h' => e (h a (by simp) h')
      simp [e, this]

theorem sdel_map {f : Nat → Nat} {k : List Nat} (h : ∀ a ∈ k, ∀ b ∈ k, f a = f b → a = b) :
    sdel (R := R) (k.map f) = mapK (List.map f) (sdel k) := by
  induction k with
  | nil => simp [sdel]
  | cons x t ih =>
    have ih := ih fun a ha b hb => h a (List.mem_cons_of_mem _ ha) b (List.mem_cons_of_mem _ hb)
    have hx : ∀ a ∈ t, f a = f x → a = x := fun a ha => h a (List.mem_cons_of_mem _ ha) x (by simp)
    have hc := count_map_inj hx
    have hm : f x ∈ t.map f ↔ x ∈ t := by
      rw [← List.count_pos_iff, hc, List.count_pos_iff]
    have hcons : ∀ v : List Nat →₀ R, consV (f x) (mapK (List.map f) v) = mapK (List.map f) (consV x v) := by
      intro v
      induction v using Finsupp.induction_linear with
      | zero => simp
      | add f g hf hg => simp only [map_add, hf, hg]
      | single k c => simp
    rw [List.map_cons, sdel, sdel, hc, ih, hcons, erase_map_inj hx, map_sub]
    congr 1
    · by_cases hx' : x ∈ t
      · rw [if_pos hx', if_pos (hm.2 hx'), map_sub]; simp
      · rw [if_neg hx', if_neg (fun h => hx' (hm.1 h))]
    · split <;> simp

/-- `k` is onto `1..r`. -/
def Onto (r : Nat) (k : List Nat) : Prop := ∀ v, v ∈ k ↔ 1 ≤ v ∧ v ≤ r

theorem Onto.range {k : List Nat} (h : Onto r k) : ∀ v ∈ k, 1 ≤ v ∧ v ≤ r := fun v hv => (h v).1 hv

theorem Onto.mulL (hσ : IsPerm r σ) {k : List Nat} (h : Onto r k) : Onto r (mulL σ k) := by
  intro v
  constructor
  · exact mulL_range hσ h.range v
  · intro hv
    obtain ⟨l, hl, rfl⟩ := exists_value hσ hv
    exact (mem_mulL hσ h.range hl).2 ((h l).2 hl)

theorem surj_drops_mulL (hσ : IsPerm r σ) {k : List Nat} (h : Onto r k) :
    surjection.drops (mulL σ k) = surjection.drops k := by
  have h1 := h.mulL hσ
  have hrep : hasRep (mulL σ k) = hasRep k :=
    BElem.hasRep_map fun a ha b hb => value_inj hσ (h.range a ha) (h.range b hb)
  rw [surj_drops, surj_drops, hrep]
  congr 1
  have e1 : Surj.isOnto (mulL σ k) = true := by
    rw [isOnto_iff, pyMax_of_onto h1]; exact h1
  have e2 : Surj.isOnto k = true := by
    rw [isOnto_iff, pyMax_of_onto h]; exact h
  rw [e1, e2]
  cases k <;> rfl

namespace SurjElem

/-- The action on basis elements. -/
noncomputable def actS (a : Attrs) (σ : Perm) (k : Surj) : Surj →₀ ZMod a.torsion :=
  sg (ZMod a.torsion) (convE a.convention k + convE a.convention (mulL σ k)) •
    bv (ZMod a.torsion) (mulL σ k)

theorem actS_eq (a : Attrs) (σ : Perm) (k : Surj) :
    actS a σ k = convS a.convention (mapK (mulL σ) (convS a.convention (bv _ k))) := by
  rw [convS_single, map_smul, map_smul, mapK_single, convS_single, smul_smul, actS, sg_add]
  simp

theorem lin_actS (a : Attrs) (σ : Perm) (v : Surj →₀ ZMod a.torsion) :
    lin (actS a σ) v = convS a.convention (mapK (mulL σ) (convS a.convention v)) := by
  have : lin (actS a σ) = (convS a.convention).comp ((mapK (mulL σ)).comp (convS a.convention)) := by
    apply lin_ext
    intro k
    rw [lin_single, one_smul, actS_eq]
    rfl
  rw [this]
  rfl

theorem actionSign_eq (hσ : IsPerm r σ) {k : Surj} (hk : Onto r k) (c : Convention) :
    actionSign σ k c = .ok (pySign (convE c k + convE c (mulL σ k))) := by
  cases c with
  | bergerFresse => simp [actionSign, convE]
  | mcClureSmith =>
    unfold actionSign
    simp only
    have hp := pyMax_of_onto hk
    have hw : (pyRange 1 (pyMax k + 1)).map (fun i => (k.count i : Int) - 1) = (List.range' 1 r).map (wt k) := by
      rw [hp]
      apply List.map_congr_left
      intro l hl
      rw [mem_pyRange] at hl
      have := List.count_pos_iff.2 ((hk l).2 (by omega))
      unfold wt
      omega
    rw [hw, koszulExp_eq hσ (by simp)]
    simp only [bind, Except.bind]
    congr 1
    apply pySign_congr
    have := invE_mulL hσ hk.range
    rw [kosF_value hσ] at this
    simp only [convE]
    omega

theorem rmul_eq (hr : 1 ≤ r) {s : RingElem} {x : SurjElem} (hs : InRing r s) (hsn : s.data ≠ [])
    (hx : InSurj r x) (hxn : x.data ≠ []) (ts : s.torsion = x.torsion) :
    rmul s x = .ok (Elem.accumulate surjection (x.zero surjection)
      ((pyProduct x.data s.data).map fun pq => (mulL pq.2.1 pq.1.1,
        pySign (convE x.attrs.convention pq.1.1 + convE x.attrs.convention (mulL pq.2.1 pq.1.1)) *
          pq.1.2 * pq.2.2))) := by
  unfold rmul
  rw [if_neg (by simpa using ts.symm), if_neg (by
    rw [ringArity_eq hs hsn, arity_eq hx hxn]; simp)]
  have hm : (pyProduct x.data s.data).mapM (fun (pq : (Surj × Int) × (Perm × Int)) => (do
      let newKey ← pq.1.1.mapM fun i => pyGet1 pq.2.1 i
      let sgn ← actionSign pq.2.1 pq.1.1 x.attrs.convention
      .ok (newKey, sgn * pq.1.2 * pq.2.2) : Py (Surj × Int))) =
      .ok ((pyProduct x.data s.data).map fun pq => (mulL pq.2.1 pq.1.1,
        pySign (convE x.attrs.convention pq.1.1 + convE x.attrs.convention (mulL pq.2.1 pq.1.1)) *
          pq.1.2 * pq.2.2)) := by
    apply mapM_ok
    intro pq hpq
    rw [mem_pyProduct] at hpq
    have hk : Onto r pq.1.1 := hx.onto _ hpq.1
    rw [mapM_eq (hs.perm _ hpq.2) hk.range, actionSign_eq (hs.perm _ hpq.2) hk]
    rfl
  simp only [bind] at hm ⊢
  rw [hm]
  rfl

theorem actSpec (hr : 1 ≤ r) : ActSpec surjection r (Onto r) rmul actS where
  dt := rfl
  ok := by
    intro s x hs hsn nx hxn hQ ts
    have hx : InSurj r x := ⟨nx, hQ⟩
    refine ⟨_, rmul_eq hr hs hsn hx hxn ts, nf_accumulate_zero _ _ _, by simp, ?_, ?_⟩
    · intro p hp
      have h := mem_keys_accumulate_zero (List.mem_map_of_mem (f := Prod.fst) hp)
      simp only [List.map_map, List.mem_map, mem_pyProduct, Function.comp] at h
      obtain ⟨pq, hpq, h⟩ := h
      rw [← h]
      exact Onto.mulL (hs.perm _ hpq.2) (hQ _ hpq.1)
    · rw [den_accumulate_zero' _ _ _ rfl rfl]
      have hev : den (ZMod x.torsion) ((pyProduct x.data s.data).map fun pq => (mulL pq.2.1 pq.1.1,
          pySign (convE x.attrs.convention pq.1.1 + convE x.attrs.convention (mulL pq.2.1 pq.1.1)) *
            pq.1.2 * pq.2.2)) = bil (actS x.attrs) (den _ s.data) (den _ x.data) := by
        have hswap : bil (actS x.attrs) (den _ s.data) (den _ x.data) =
            bil (fun k q => actS x.attrs q k) (den (ZMod x.torsion) x.data) (den _ s.data) := by
          generalize s.data = e
          induction e with
          | nil => simp
          | cons q e ih =>
            rw [den_cons, map_add, map_add, LinearMap.add_apply, ih]
            congr 1
            generalize x.data = d
            induction d with
            | nil => simp
            | cons p d ih2 =>
              rw [den_cons, map_add, map_add, LinearMap.add_apply, ih2]
              congr 1
              rw [bil_single, bil_single, mul_comm]
        rw [hswap, bil_den, den_map]
        congr 1
        apply List.map_congr_left
        intro pq _
        rw [actS, smul_smul, single_eq_smul_bv]
        congr 1
        push_cast
        rw [cast_pySign]
        ring
      rw [hev]
      refine den_induction (P := fun u => pr surjection.drops (bil (actS x.attrs) u (den _ x.data)) =
        bil (actS x.attrs) u (den _ x.data)) s.data (by simp)
        (fun u v hu hv => by simp only [map_add, LinearMap.add_apply] at *; rw [hu, hv]) ?_
      intro p hp
      refine den_induction (P := fun u => pr surjection.drops
        (bil (actS x.attrs) (single p.1 (p.2 : ZMod x.torsion)) u) =
        bil (actS x.attrs) (single p.1 (p.2 : ZMod x.torsion)) u) x.data (by simp)
        (fun u v hu hv => by simp only [map_add] at *; rw [hu, hv]) ?_
      intro q hq
      rw [bil_single, map_smul, actS, map_smul, pr_single, surj_drops_mulL (hs.perm p hp) (hQ q hq),
        nx.kept q hq]
      rfl
  assoc := by
    intro a σ τ k hσ hτ hk
    rw [actS, map_smul, lin_single, one_smul, actS, actS, smul_smul, ← sg_add]
    have e : mulL σ (mulL τ k) = mulL (mulL σ τ) k := by
      unfold mulL
      rw [List.map_map]
      apply List.map_congr_left
      intro v hv
      have := hk.range v hv
      exact (value_mulL hτ this.1 this.2).symm
    rw [e]
    congr 1
    apply sg_congr
    omega
  one := by
    intro a k hk
    have e : mulL (pyRange 1 (r + 1)) k = k := by
      unfold mulL
      conv_rhs => rw [← List.map_id k]
      apply List.map_congr_left
      intro v hv
      exact value_id (hk.range v hv).1 (hk.range v hv).2
    rw [actS, e, sg_add, sg_mul_self, one_smul]

/-- The action commutes with the boundary, on basis elements. -/
theorem sbd_actS (a : Attrs) (hσ : IsPerm r σ) {k : Surj} (hk : Onto r k) :
    sbd a.convention (actS a σ k) = lin (actS a σ) (sbd a.convention (bv _ k)) := by
  rw [lin_actS, actS_eq]
  simp only [sbd, LinearMap.comp_apply, convS_convS]
  congr 1
  rw [convS_single, map_smul, map_smul, map_smul, map_smul, mapK_single, sdelL_single, sdelL_single,
    one_smul, one_smul]
  congr 1
  exact sdel_map fun x hx y hy => value_inj hσ (hk.range x hx) (hk.range y hy)

theorem sbd_supported (c : Convention) (k : Surj) :
    sbd c (bv R k) ∈ Finsupp.supported R R {m | SameVals k m} := by
  rw [sbd_single]
  apply Submodule.smul_mem
  exact lin_supported _ (fun m hm => Submodule.smul_mem _ _ (Finsupp.single_mem_supported R _ hm))
    (sdel_supported k)

theorem SameVals.onto {k m : Surj} (h : SameVals k m) (hk : Onto r k) : Onto r m :=
  fun v => (h v).trans (hk v)

theorem pr_actS (a : Attrs) (hσ : IsPerm r σ) {v : Surj →₀ ZMod a.torsion}
    (hv : v ∈ Finsupp.supported _ (ZMod a.torsion) {m | Onto r m}) :
    pr surjection.drops (lin (actS a σ) v) = lin (actS a σ) (pr surjection.drops v) := by
  refine BElem.lin_ext_supported (f := (pr surjection.drops).comp (lin (actS a σ)))
    (g := (lin (actS a σ)).comp (pr surjection.drops)) ?_ hv
  intro m hm
  simp only [LinearMap.comp_apply, pr_single, lin_single, one_smul]
  rw [actS, map_smul, pr_single, surj_drops_mulL hσ hm]
  split
  · simp
  · rw [lin_single, one_smul]; rfl

end SurjElem

end Comch
