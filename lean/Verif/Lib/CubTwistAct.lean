import Verif.Lib.CubTwistSign

/-! # The twisted action of surjections on cubes is compatible with the boundaries -/

set_option linter.unusedSectionVars false

namespace Comch.CubTwist
open Finsupp (single)
open Comch.Join Serre SurjComp CubCall Comch.Spec

variable {R : Type} [CommRing R]

theorem length_onto {r : Nat} {k : List Nat} (hk : OntoR r k) : k.length = sdeg k + r := by
  have hc := sdeg_card k
  have e : k.toFinset = Finset.Icc 1 r := by
    ext v; rw [List.mem_toFinset, hk v, Finset.mem_Icc]
  rw [e, Nat.card_Icc] at hc
  omega

theorem sum_neg_list {M : Type} [AddCommGroup M] (l : List M) : -l.sum = (l.map fun x => -x).sum := by
  induction l with
  | nil => simp
  | cons x l ih => rw [List.sum_cons, List.map_cons, List.sum_cons, ← ih]; abel

theorem miss_onto {r : Nat} {k : List Nat} (hk : OntoR r k) (x : Nat) : miss r k x = 0 := by
  unfold miss
  rw [List.length_eq_zero_iff, List.filter_eq_nil_iff]
  intro v hv
  rw [List.mem_range'_1] at hv
  simp only [decide_not, Bool.not_eq_true', decide_eq_false_iff_not, not_not]
  exact (hk v).2 ⟨by omega, by omega⟩

theorem zip_letters {k : List Nat} {L : CKey} (hl : L.length = k.length) : (k.zip L).map Prod.fst = k :=
  List.map_fst_zip (by omega)

theorem zip_cubes {k : List Nat} {L : CKey} (hl : L.length = k.length) : (k.zip L).map Prod.snd = L :=
  List.map_snd_zip (by omega)

/-- All signs for one cut. -/
theorem sign_onto {r : Nat} {k : List Nat} (hk : OntoR r k) {L : CKey} (hl : L.length = k.length) :
    sg R (E2 (gam r (k.zip L)) + kosW (k.zip L)) = sg R (tail L + Fk r k + cexp (Wd (k.zip L))) := by
  apply sg_eq_of_zmod
  have h := total_sign r (k.zip L) (fun p hp => (hk _).1 (List.of_mem_zip hp).1)
  rw [zip_letters hl, zip_cubes hl] at h
  have h0 : misW r k (k.zip L) = 0 := by
    unfold misW
    simp [miss_onto hk]
  rw [h0] at h
  push_cast at h ⊢
  linear_combination h - (cexp (Wd (k.zip L)) : ZMod 2) * h22

noncomputable def sT (L : CKey) : CKey →₀ R := sg R (tail L) • bv R L

theorem sT_thF (g : CKey) : lin sT (thF (R := R) g) = sg R (tail g + g.length + 1) • tensK cubeD cdim g := by
  induction g with
  | nil => simp [thF, tensK]
  | cons a g ih =>
    have h1 := BElem.lin_ext_supported (R := R)
      (f := (lin (sT (R := R))).comp (mapK fun b => b :: g))
      (g := sg R (g.length * (cdim a - 1) + tail g) • mapK fun b => b :: g)
      (fun b hb => by
        have hb : cdim b = cdim a - 1 := hb
        simp only [LinearMap.comp_apply, LinearMap.smul_apply, mapK_single, lin_single, one_smul, sT, tail, hb]) (cubeD_deg a)
    have h2 := BElem.lin_ext_supported (R := R)
      (f := (lin (sT (R := R))).comp (consV a))
      (g := sg R (g.length * cdim a) • (consV a).comp (lin sT))
      (fun w hw => by
        have hw : w.length = g.length := hw
        simp only [LinearMap.comp_apply, LinearMap.smul_apply, consV_single, lin_single, one_smul, sT, tail, hw, map_smul,
          sg_add, smul_smul, one_mul]) (thF_length g)
    simp only [LinearMap.comp_apply, LinearMap.smul_apply] at h1 h2
    rw [thF, tensK, cat_one_bv, map_add, map_smul, h1, h2, ih, map_smul, smul_add, smul_smul, smul_smul, smul_smul, ← sg_add,
      ← sg_add, ← sg_add, tail, del]
    generalize cdim a = w
    congr 1
    · congr 1
      apply sg_eq_of_zmod
      push_cast [List.length_cons]
      linear_combination (-(g.length : ZMod 2) - 1) * h22
    · congr 1
      apply sg_eq_of_zmod
      push_cast [List.length_cons]
      ring

/-- Sorted, with the signs of sorting and of the desuspension. -/
noncomputable def Pw (r : Nat) (W : List (Nat × Cube)) : CKey →₀ R :=
  sg R (E2 (gam r W) + kosW W) • tmK jt (gam r W)

theorem tm_thS {r : Nat} {W : List (Nat × Cube)} (hW : ∀ p ∈ W, 1 ≤ p.1 ∧ p.1 ≤ r) :
    tm jt (thS (R := R) tht (gam r W)) = sg R (E2 (gam r W) + kosW W + r + 1) • lin (Pw r) (thW tht W) := by
  have h1 := lin_sE2 (R := R) tht_supp (gam r W)
  have h2 := thT_gam (R := R) tht_supp r W hW
  have h3 : thS (R := R) tht (gam r W) = sg R (E2 (gam r W) + r + 1) • lin sE2 (thT tht (gam r W)) := by
    rw [h1, smul_smul, length_gam, sg_mul_self, one_smul]
  have h4 : thT (R := R) tht (gam r W) = sg R (kosW W) • lin (srt r) (thW tht W) := by
    rw [← h2, smul_smul, sg_mul_self, one_smul]
  have h5 : ∀ v : List (Nat × Cube) →₀ R, tm jt (lin sE2 (lin (srt r) v)) = lin (Pw r) v := by
    intro v
    induction v using Finsupp.induction_linear with
    | zero => simp
    | add f g hf hg => simp only [map_add, hf, hg]
    | single W s =>
      simp only [lin_single, srt, sE2, map_smul, tm_single, one_smul, Pw, smul_smul, sg_add]
      congr 1; ring
  rw [h3, h4, map_smul, map_smul, map_smul, h5, smul_smul, ← sg_add]
  congr 2
  ring

theorem omAt_eq {i : Nat} {L : CKey} (hi : i < L.length) :
    omAt (R := R) i L = if cdim L[i] = 0 then bv R (L.eraseIdx i) else 0 := by
  induction L generalizing i with
  | nil => simp at hi
  | cons a L ih =>
    cases i with
    | zero => simp [omAt]
    | succ i =>
      rw [omAt, ih (by simpa using hi)]
      simp only [List.getElem_cons_succ, List.eraseIdx_cons_succ]
      split <;> simp

theorem tail_erase {i : Nat} {L : CKey} (hi : i < L.length) (h0 : cdim L[i] = 0) :
    tail L + i = tail (L.eraseIdx i) + Dl (L.take i) := by
  induction L generalizing i with
  | nil => simp at hi
  | cons a L ih =>
    cases i with
    | zero =>
      simp only [List.getElem_cons_zero] at h0
      simp [tail, h0]
    | succ i =>
      have hi' : i < L.length := by simpa using hi
      have := ih hi' (by simpa using h0)
      rw [List.eraseIdx_cons_succ, tail, tail, List.length_eraseIdx_of_lt hi', List.take_succ_cons, Dl_cons, del]
      have h1 : ((L.length - 1 : Nat) : Int) = L.length - 1 := by omega
      rw [h1]
      push_cast
      linear_combination this

theorem Fk_erase (r : Nat) {k : List Nat} {i : Nat} (hi : i < k.length) :
    Fk r k = Fk r (k.eraseIdx i) + (((k.drop (i + 1)).filter (· < k[i])).length +
      ((k.take i).filter (k[i] < ·)).length) + (r - k[i]) := by
  induction k generalizing i with
  | nil => simp at hi
  | cons x k ih =>
    cases i with
    | zero =>
      simp [Fk]; ring
    | succ i =>
      have hi' : i < k.length := by simpa using hi
      have ih := ih hi'
      simp only [List.getElem_cons_succ, List.eraseIdx_cons_succ, List.drop_succ_cons, List.take_succ_cons, Fk]
      have hp : k.Perm (k[i] :: k.eraseIdx i) := (List.getElem_cons_eraseIdx_perm hi').symm
      have h1 := (hp.filter (· < x)).length_eq
      rw [h1, ih, List.filter_cons, List.filter_cons]
      by_cases h : k[i] < x
      · simp only [h, decide_true, if_true, List.length_cons]
        push_cast; ring
      · simp only [h, decide_false, Bool.false_eq_true, if_false]
        push_cast; ring

theorem ms_sign {r : Nat} {k : List Nat} (hk : OntoR r k) {i : Nat} (hi : i < k.length) :
    ((Fk r k + Fk r (k.eraseIdx i) + r + i + 1 : Int) : ZMod 2) = ((msExponent k i : Nat) : ZMod 2) := by
  have hF := Fk_erase r hi
  have hgd : k.getD i 0 = k[i] := by rw [List.getD_eq_getElem?_getD, List.getElem?_eq_getElem hi]; rfl
  have hx := (hk k[i]).1 (List.getElem_mem hi)
  have hms : msExponent k i = smaller k k[i] + (k.take i).count k[i] := by rw [msExponent, hgd]; rfl
  have h1 := sdeg_filter k k[i]
  have h2 := sdeg_miss r k k[i] (fun y hy => ((hk y).1 hy).2)
  rw [if_pos (List.getElem_mem hi), miss_onto hk] at h2
  have h3 := length_onto hk
  have h4 := filter_length k[i] k
  have h5 : (k.filter (· < k[i])).length = ((k.take i).filter (· < k[i])).length + ((k.drop (i + 1)).filter (· < k[i])).length := by
    have : ∀ x, x = k[i] → (k.filter (· < x)).length = ((k.take i).filter (· < x)).length + ((k.drop (i + 1)).filter (· < x)).length := by
      intro x hx
      conv_lhs => rw [← List.take_append_drop i k, List.filter_append, List.drop_eq_getElem_cons hi, List.filter_cons]
      simp [hx]
    exact this _ rfl
  have h6 : ∀ (t : List Nat) (x : Nat), (t.filter (· < x)).length + (t.filter (x < ·)).length + t.count x = t.length := by
    intro t x
    induction t with
    | nil => rfl
    | cons y t ih =>
      rw [List.filter_cons, List.filter_cons, List.count_cons]
      rcases lt_trichotomy y x with h | h | h
      · have h' : ¬ x < y := by omega
        have h'' : ¬ y = x := by omega
        simp [h, h', h'']; omega
      · subst h; simp; omega
      · have h' : ¬ y < x := by omega
        have h'' : ¬ y = x := by omega
        simp [h, h', h'']; omega
  have h7 := h6 (k.take i) k[i]
  rw [List.length_take, min_eq_left (by omega)] at h7
  rw [hms]
  generalize ((k.take i).filter (· < k[i])).length = A at *
  generalize ((k.take i).filter (k[i] < ·)).length = B at *
  generalize ((k.drop (i + 1)).filter (· < k[i])).length = C at *
  have h8 : Fk r k + Fk r (k.eraseIdx i) + r + i + 1 = ((smaller k k[i] + (k.take i).count k[i] : Nat) : Int) +
      2 * (Fk r (k.eraseIdx i) + B + r) := by
    push_cast
    omega
  rw [h8]
  push_cast
  linear_combination (((Fk r (k.eraseIdx i) : Int) : ZMod 2) + B + r) * h22

theorem thW_zip (k : List Nat) (L : CKey) (h : k.length = L.length) :
    thW (R := R) tht (k.zip L) = mapK (fun L' => k.zip L') (thF L) -
      ((List.range k.length).map fun i => sg R (Dl (L.take i)) • mapK (fun L' => (k.eraseIdx i).zip L') (omAt i L)).sum := by
  induction k generalizing L with
  | nil =>
    obtain rfl := List.length_eq_zero_iff.1 h.symm
    simp [thW, thF]
  | cons x k ih =>
    cases L with
    | nil => simp at h
    | cons a L =>
      rw [List.zip_cons_cons, thW, ih L (by simpa using h), thF, List.length_cons, List.range_succ_eq_map,
        List.map_cons, List.sum_cons, List.map_map, tht, map_sub, map_add, map_sub, map_smul, map_list_sum,
        List.map_map, smul_sub, List.smul_sum, List.map_map]
      have e1 : mapK (fun w : CKey => w.map (fun a => (x, a)) ++ k.zip L) (one (cubeD (R := R) a)) =
          mapK (fun L' => (x :: k).zip L') (cat (one (cubeD a)) (bv R L)) := by
        rw [cat_one_bv]
        have h1 : ∀ v : Cube →₀ R, one v = mapK (fun c => [c]) v := by
          intro v
          induction v using Finsupp.induction_linear with
          | zero => simp
          | add f g hf hg => rw [map_add, hf, hg, map_add]
          | single k r => simp
        rw [h1, mapK_mapK', mapK_mapK']
        rfl
      have e2 : mapK (fun w : CKey => w.map (fun a => (x, a)) ++ k.zip L) (if cdim a = 0 then bv R [] else 0) =
          sg R (Dl ((a :: L).take 0)) • mapK (fun L' => ((x :: k).eraseIdx 0).zip L') (omAt 0 (a :: L)) := by
        rw [omAt]
        split
        · simp
        · simp
      have e3 : consV (x, a) (mapK (fun L' => k.zip L') (thF (R := R) L)) =
          mapK (fun L' => (x :: k).zip L') (consV a (thF L)) := by
        rw [consV_mapK, consV_mapK, mapK_mapK', mapK_mapK']
        rfl
      have e4 : (List.map ((fun v => sg R (del a) • v) ∘ ((consV (R := R) (x, a)) ∘ fun i => sg R (Dl (L.take i)) • mapK (fun L' => (k.eraseIdx i).zip L') (omAt i L)))
          (List.range k.length)) =
          List.map ((fun i => sg R (Dl ((a :: L).take i)) • mapK (fun L' => ((x :: k).eraseIdx i).zip L') (omAt i (a :: L))) ∘ Nat.succ)
          (List.range k.length) := by
        apply List.map_congr_left
        intro i _
        simp only [Function.comp_apply, Nat.succ_eq_add_one, List.eraseIdx_cons_succ, List.take_succ_cons, Dl_cons, map_smul,
          smul_smul, sg_add]
        rw [omAt, consV_mapK, consV_mapK, mapK_mapK', mapK_mapK']
        rfl
      rw [e1, e2, e3, e4]
      abel

/-- One cut with the twisted signs of the code. -/
noncomputable def ct (r : Nat) (k : List Nat) (L : CKey) : CKey →₀ R :=
  sg R (cexp (Wd (k.zip L)) + sdeg k) • tmK jt (gam r (k.zip L))

theorem gam_nil_of_missing {r i : Nat} (h1 : 1 ≤ i) (h2 : i ≤ r) {k : List Nat} (hi : i ∉ k) (L : CKey) :
    tmK (jt (R := R)) (gam r (k.zip L)) = 0 := by
  refine tmK_zero_of jt (gam_mem h1 h2 (k.zip L)) ?_
  have : (k.zip L).filter (fun p => p.1 == i) = [] := by
    rw [List.filter_eq_nil_iff]
    rintro ⟨x, a⟩ hp
    have := (List.of_mem_zip hp).1
    simp only [beq_iff_eq]
    rintro rfl
    exact hi this
  rw [this]
  simp [jt, jn]

theorem cubicalD_ct {n r : Nat} {k : List Nat} (hk : OntoR r k) {L : CKey} (hL : ∀ c ∈ L, IsCube n c)
    (hl : L.length = k.length) :
    cubicalD (ct (R := R) r k L) = sg R (sdeg k) • lin (ct r k) (tensK cubeD cdim L) +
      ((List.range k.length).map fun i => if 2 ≤ k.count (k.getD i 0) then
        sg R (msExponent k i : Nat) • lin (ct r (k.eraseIdx i)) (omAt i L) else 0).sum := by
  have hW : ∀ p ∈ k.zip L, 1 ≤ p.1 ∧ p.1 ≤ r := fun p hp => (hk _).1 (List.of_mem_zip hp).1
  have hlen := length_onto hk
  rw [ct, map_smul, cubicalD_tmK (n := n) _ (fun g hg c hc => by
      obtain ⟨i, -, rfl⟩ := List.mem_map.1 hg
      obtain ⟨p, hp, rfl⟩ := List.mem_map.1 hc
      exact hL _ (List.of_mem_zip (List.mem_filter.1 hp).1).2), tm_thS hW, smul_smul, thW_zip k L hl.symm, map_sub, smul_sub,
    sub_eq_add_neg, sg_add (E2 _ + _ + _), sg_add (E2 _ + _), sign_onto hk hl]
  congr 1
  · have h1 := BElem.lin_ext_supported (R := R)
      (f := (lin (Pw (R := R) r)).comp (mapK fun L' => k.zip L'))
      (g := sg R (Fk r k + sdeg k) • (lin (ct r k)).comp (lin sT))
      (fun L' hL' => by
        have hL' : L'.length = L.length := hL'
        simp only [LinearMap.comp_apply, LinearMap.smul_apply, mapK_single, lin_single, one_smul, sT, map_smul, Pw, ct,
          smul_smul, sign_onto hk (hL'.trans hl), one_mul]
        congr 1
        simp only [← sg_add]
        apply sg_eq_of_zmod
        push_cast
        linear_combination (-(sdeg k : ZMod 2)) * h22) (thF_length L)
    simp only [LinearMap.comp_apply, LinearMap.smul_apply] at h1
    rw [h1, sT_thF, map_smul, smul_smul, smul_smul]
    congr 1
    have : sg R (1 : Int) = sg R 1 := rfl
    simp only [← sg_add]
    apply sg_eq_of_zmod
    have hz : ((L.length : Nat) : ZMod 2) = sdeg k + r := by rw [hl, hlen]; push_cast; rfl
    push_cast
    rw [hz]
    linear_combination ((cexp (Wd (k.zip L)) : ZMod 2) + tail L + Fk r k + sdeg k + r + 1) * h22
  · rw [map_list_sum, List.map_map, List.smul_sum, List.map_map, sum_neg_list, List.map_map]
    congr 1
    apply List.map_congr_left
    intro i hi
    rw [List.mem_range] at hi
    have hi' : i < L.length := by omega
    have hgd : k.getD i 0 = k[i] := by rw [List.getD_eq_getElem?_getD, List.getElem?_eq_getElem hi]; rfl
    simp only [Function.comp_apply, omAt_eq hi']
    by_cases h0 : cdim L[i] = 0
    · simp only [h0, if_true, map_smul, mapK_single, lin_single, one_smul]
      by_cases h2 : 2 ≤ k.count (k.getD i 0)
      · rw [if_pos h2]
        have hk' : OntoR r (k.eraseIdx i) := fun v => (sameVals_eraseIdx hi h2 v).trans (hk v)
        have hl' : (L.eraseIdx i).length = (k.eraseIdx i).length := by
          rw [List.length_eraseIdx_of_lt hi', List.length_eraseIdx_of_lt hi, hl]
        have hlen' := length_onto hk'
        rw [List.length_eraseIdx_of_lt hi] at hlen'
        rw [Pw, ct, sign_onto hk' hl', smul_smul, smul_smul, smul_smul, ← neg_smul]
        congr 1
        simp only [← sg_add]
        rw [← sg_succ]
        apply sg_eq_of_zmod
        have ht := congrArg (fun z : Int => (z : ZMod 2)) (tail_erase hi' h0)
        have hms := ms_sign hk hi
        have hs : sdeg k = sdeg (k.eraseIdx i) + 1 := by omega
        rw [hs]
        push_cast at ht hms ⊢
        rw [← hms]
        linear_combination ht + ((cexp (Wd (k.zip L)) : ZMod 2) + tail (L.eraseIdx i) + Dl (L.take i) + 1 - i) * h22
      · rw [if_neg h2]
        have hr := (hk k[i]).1 (List.getElem_mem hi)
        have hnot : k[i] ∉ k.eraseIdx i := by
          intro hm
          rw [hgd] at h2
          have hp : k.Perm (k[i] :: k.eraseIdx i) := (List.getElem_cons_eraseIdx_perm hi).symm
          have := hp.count_eq k[i]
          rw [List.count_cons_self] at this
          have := List.count_pos_iff.2 hm
          omega
        rw [Pw, gam_nil_of_missing hr.1 hr.2 hnot]
        simp
    · simp only [h0, if_false, map_zero, smul_zero, ite_self, neg_zero]

end Comch.CubTwist
