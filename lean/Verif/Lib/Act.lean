import Verif.Lib.Koszul
import Verif.Lib.Ring
import Verif.Model.Simplicial

/-! # The action of permutations on tensor factors with Koszul signs -/

set_option linter.unusedSectionVars false

namespace Comch
open Spec IsPerm Elem
open Finsupp (single)

variable {R : Type} [CommRing R] {A : Type} {r : Nat} {σ τ : Perm}

/-- Permuted factors. -/
def actL (σ : Perm) (k : List A) : List A := (sortl (σ.zip k)).map Prod.snd

theorem sortl_labels (hσ : IsPerm r σ) {k : List A} (hk : k.length = r) :
    (sortl (σ.zip k)).map Prod.fst = List.range' 1 r := by
  have hl : (σ.zip k).map Prod.fst = σ := List.map_fst_zip (by rw [hσ.length, hk])
  have hp : ((sortl (σ.zip k)).map Prod.fst).Perm (List.range' 1 r) := by
    have := (sortl_perm (σ.zip k)).map Prod.fst
    rw [hl] at this
    exact this.trans (perm_range hσ)
  have hs : ((sortl (σ.zip k)).map Prod.fst).Pairwise (· ≤ ·) := by
    rw [List.pairwise_map]
    exact sortl_pairwise _
  have hr : (List.range' 1 r).Pairwise (· ≤ ·) :=
    (List.pairwise_lt_range' (s := 1) (n := r)).imp (fun h => le_of_lt h)
  exact hp.eq_of_pairwise (fun a b _ _ h1 h2 => le_antisymm h1 h2) hs hr

theorem length_actL (hσ : IsPerm r σ) {k : List A} (hk : k.length = r) : (actL σ k).length = r := by
  have := congrArg List.length (sortl_labels hσ hk)
  simpa [actL] using this

theorem sortl_zip (hσ : IsPerm r σ) {k : List A} (hk : k.length = r) :
    sortl (σ.zip k) = (List.range' 1 r).zip (actL σ k) := by
  rw [← sortl_labels hσ hk, actL, ← List.zip_of_prod rfl rfl]

theorem perm_actL (hσ : IsPerm r σ) {k : List A} (hk : k.length = r) : (actL σ k).Perm k := by
  have h := (sortl_perm (σ.zip k)).map Prod.snd
  rwa [List.map_snd_zip (by rw [hσ.length, hk])] at h

/-- Value of the action on a basis element. -/
noncomputable def actK (deg : A → Int) (σ : Perm) (k : List A) : List A →₀ R :=
  sg R (kos deg (σ.zip k)) • bv R (actL σ k)

theorem actK_eq (deg : A → Int) (σ : Perm) (k : List A) :
    actK (R := R) deg σ k = mapK (List.map Prod.snd) (srtK deg (σ.zip k)) := by
  rw [srtK_eq, map_smul, mapK_single]
  rfl

theorem relab_zip (f : Nat → Nat) (l : List Nat) (k : List A) :
    relab f (l.zip k) = (l.map f).zip k := by
  induction l generalizing k with
  | nil => rfl
  | cons a l ih =>
    cases k with
    | nil => rfl
    | cons b k => simp only [List.zip_cons_cons, List.map_cons, ← ih]; rfl

theorem map_value_range (hσ : IsPerm r σ) : (List.range' 1 r).map (value σ) = σ := by
  have := mulL_id hσ
  exact this

theorem actK_actK (deg : A → Int) (hσ : IsPerm r σ) (hτ : IsPerm r τ) {k : List A}
    (hk : k.length = r) :
    lin (actK (R := R) deg σ) (actK deg τ k) = actK deg (mulL σ τ) k := by
  have h1 : relab (value σ) (sortl (τ.zip k)) = σ.zip (actL τ k) := by
    rw [sortl_zip hτ hk, relab_zip, map_value_range hσ]
  have h2 : relab (value σ) (τ.zip k) = (mulL σ τ).zip k := relab_zip _ _ _
  have h3 := srt_relab_srt (R := R) deg (value σ) (τ.zip k) (by
    have : (τ.zip k).map (fun x => value σ x.1) = mulL σ τ := by
      show List.map (value σ ∘ Prod.fst) _ = _
      rw [← List.map_map, List.map_fst_zip (by rw [hτ.length, hk])]
      rfl
    rw [this]
    exact (isPerm_mulL hσ hτ).nodup)
  rw [h2, srtK_eq, map_smul, mapK_single, h1, map_smul, srt_single, one_smul] at h3
  rw [actK_eq deg (mulL σ τ), ← h3, map_smul, ← actK_eq]
  rw [actK, map_smul, lin_single, one_smul]

theorem actK_id (deg : A → Int) {k : List A} (hk : k.length = r) :
    actK (R := R) deg (pyRange 1 (r + 1)) k = bv R k := by
  have key : ∀ (n : Nat) (k : List A), k.length = r → 
      srtK (R := R) deg ((List.range' n r).zip k) = bv R ((List.range' n r).zip k) := by
    clear hk k
    induction r with
    | zero => intro n k hk; simp [srtK]
    | succ r ih =>
      intro n k hk
      cases k with
      | nil => simp at hk
      | cons a k =>
        rw [List.range'_succ, List.zip_cons_cons, srtK, ih (n + 1) k (by simpa using hk), ins_single,
          one_smul]
        cases hz : (List.range' (n + 1) r).zip k with
        | nil => simp [insK]
        | cons y l =>
          have hy : n ≤ y.1 := by
            have hm : y ∈ (List.range' (n + 1) r).zip k := by rw [hz]; simp
            have := (List.of_mem_zip hm).1
            rw [List.mem_range'_1] at this
            omega
          simp [insK, hy]
  rw [actK_eq]
  have h : pyRange 1 (r + 1) = List.range' 1 r := rfl
  rw [h, key 1 k hk, mapK_single, List.map_snd_zip (by simp [hk])]

/-! ### compatibility with the differential -/

section
variable {deg : A → Int} {d : A → (A →₀ R)}

theorem mapK_snd_cat (u v : List (Nat × A) →₀ R) :
    mapK (List.map Prod.snd) (cat u v) =
      cat (mapK (List.map Prod.snd) u) (mapK (List.map Prod.snd) v) := by
  induction u using Finsupp.induction_linear with
  | zero => simp
  | add f g hf hg => simp only [map_add, LinearMap.add_apply, hf, hg]
  | single k a =>
    induction v using Finsupp.induction_linear with
    | zero => simp
    | add f g hf hg => simp only [map_add, hf, hg]
    | single l b => simp

theorem mapK_snd_one (u : Nat × A →₀ R) :
    mapK (List.map Prod.snd) (one u) = one (mapK Prod.snd u) := by
  induction u using Finsupp.induction_linear with
  | zero => simp
  | add f g hf hg => simp only [map_add, hf, hg]
  | single k a => simp

theorem mapK_snd_lab (l : Nat) (u : A →₀ R) : mapK Prod.snd (lab l u) = u := by
  induction u using Finsupp.induction_linear with
  | zero => simp
  | add f g hf hg => simp only [map_add, hf, hg]
  | single k a => simp

theorem mapK_snd_consV (x : Nat × A) (v : List (Nat × A) →₀ R) :
    mapK (List.map Prod.snd) (consV x v) = consV x.2 (mapK (List.map Prod.snd) v) := by
  rw [consV_eq_cat, mapK_snd_cat, mapK_single, consV_eq_cat]
  rfl

theorem mapK_snd_tens (v : List (Nat × A) →₀ R) :
    mapK (List.map Prod.snd) (tens (dl d) (degl deg) v) =
      tens d deg (mapK (List.map Prod.snd) v) := by
  induction v using Finsupp.induction_linear with
  | zero => simp
  | add f g hf hg => simp only [map_add, hf, hg]
  | single k a =>
    rw [tens_single, map_smul, mapK_single, tens_single]
    congr 1
    induction k with
    | nil => simp [tensK]
    | cons x k ih =>
      rw [tensK, map_add, map_smul, mapK_snd_cat, mapK_snd_one, mapK_snd_lab, mapK_single,
        mapK_snd_consV, ih]
      rfl

theorem mapK_zip_cat_one (s : Nat) (l : List Nat) (u : A →₀ R) (k : List A) :
    mapK (fun k => (s :: l).zip k) (cat (one u) (bv R k)) = cat (one (lab s u)) (bv R (l.zip k)) := by
  induction u using Finsupp.induction_linear with
  | zero => simp
  | add f g hf hg => simp only [map_add, LinearMap.add_apply, hf, hg]
  | single a c => simp

theorem mapK_zip_consV (s : Nat) (l : List Nat) (a : A) (v : List A →₀ R) :
    mapK (fun k => (s :: l).zip k) (consV a v) = consV (s, a) (mapK (fun k => l.zip k) v) := by
  induction v using Finsupp.induction_linear with
  | zero => simp
  | add f g hf hg => simp only [map_add, hf, hg]
  | single k c => simp

theorem tensK_zip (l : List Nat) (k : List A) (h : l.length = k.length) :
    tensK (dl d) (degl deg) (l.zip k) = mapK (fun k => l.zip k) (tensK d deg k) := by
  induction l generalizing k with
  | nil =>
    cases k with
    | nil => simp [tensK]
    | cons b k => simp at h
  | cons s l ih =>
    cases k with
    | nil => simp at h
    | cons b k =>
      rw [List.zip_cons_cons, tensK, tensK, map_add, map_smul, mapK_zip_cat_one, mapK_zip_consV,
        ih k (by simpa using h)]

theorem lin_actK (σ : Perm) (v : List A →₀ R) :
    lin (actK deg σ) v = mapK (List.map Prod.snd) (srt deg (mapK (fun k => σ.zip k) v)) := by
  induction v using Finsupp.induction_linear with
  | zero => simp
  | add f g hf hg => simp only [map_add, hf, hg]
  | single k c => simp only [lin_single, mapK_single, srt_single, map_smul, actK_eq]

theorem tens_actK (hdeg : ∀ a, sgn1 deg (d a) = - (sg R (deg a) • d a)) (hσ : IsPerm r σ)
    {k : List A} (hk : k.length = r) :
    tens d deg (actK deg σ k) = lin (actK deg σ) (tensK d deg k) := by
  rw [actK_eq, ← mapK_snd_tens, lin_actK, ← tensK_zip _ _ (by rw [hσ.length, hk])]
  have := tens_srt (d := d) deg hdeg (bv R (σ.zip k))
  rw [srt_single, one_smul, tens_single, one_smul] at this
  rw [this]

end

theorem any_actL (dr : A → Bool) (hσ : IsPerm r σ) {k : List A} (hk : k.length = r) :
    (actL σ k).any dr = k.any dr := by
  rw [Bool.eq_iff_iff, List.any_eq_true, List.any_eq_true]
  have := perm_actL hσ hk
  simp only [this.mem_iff]

/-! ### the code -/

theorem kos_eq_sum (deg : A → Int) (l : List (Nat × A)) :
    kos deg l = ((enumerate l).map fun p =>
      deg p.2.2 * (((l.drop (p.1 + 1)).filter fun y => y.1 < p.2.1).map fun y => deg y.2).sum).sum := by
  induction l with
  | nil => rfl
  | cons x l ih =>
    rw [enumerate_cons, List.map_cons, List.sum_cons, List.map_map, kos, ih]
    rfl

theorem kos_map {B : Type} (f : A → B) (deg : B → Int) (σ : List Nat) (k : List A) :
    kos deg (σ.zip (k.map f)) = kos (fun a => deg (f a)) (σ.zip k) := by
  induction σ generalizing k with
  | nil => rfl
  | cons s σ ih =>
    cases k with
    | nil => rfl
    | cons a k =>
      simp only [List.map_cons, List.zip_cons_cons, kos]
      rw [ih, List.zip_map_right]
      congr 2
      rw [List.filter_map, List.map_map]
      rfl

theorem koszulExp_eq (hσ : IsPerm r σ) {w : List Int} (hw : w.length = r) :
    koszulExp σ w = .ok (kos id (σ.zip w)) := by
  have hg : ∀ y ∈ σ.zip w, w.getD (σ.idxOf y.1) 0 = y.2 := by
    intro y hy
    obtain ⟨i, hi, rfl⟩ := List.getElem_of_mem hy
    rw [List.length_zip, hσ.length, hw, min_self] at hi
    rw [List.getElem_zip, hσ.nodup.idxOf_getElem, List.getD_eq_getElem?_getD]
    simp [hw, hi]
  have hterm : (enumerate σ).mapM (fun (p : Nat × Nat) => (do
      let right ← ((σ.drop (p.1 + 1)).filter fun j => p.2 > j).mapM fun j => do
        let at_ ← pyIndex σ j
        pyGet w at_
      if right = [] then
        let _ ← pyGet w p.1
        .ok 0
      else do
        let v ← pyGet w p.1
        .ok (right.sum * v) : Py Int)) = .ok ((enumerate σ).map fun p =>
          (((σ.drop (p.1 + 1)).filter fun j => p.2 > j).map fun j => w.getD (σ.idxOf j) 0).sum *
            w.getD p.1 0) := by
    apply mapM_ok
    rintro ⟨idx, i⟩ hp
    rw [mem_enumerate] at hp
    have hidx : idx < r := by
      rw [← hσ.length]
      exact (List.getElem?_eq_some_iff.1 hp).1
    have hgetw : ∀ i, i < r → pyGet w i = .ok (w.getD i 0) := by
      intro i hi
      unfold pyGet
      rw [List.getD_eq_getElem?_getD]
      have : w[i]? = some (w[i]'(by omega)) := List.getElem?_eq_getElem _
      rw [this]
      rfl
    have hr : ((σ.drop (idx + 1)).filter fun j => i > j).mapM (fun j => (do
        let at_ ← pyIndex σ j
        pyGet w at_ : Py Int)) = .ok (((σ.drop (idx + 1)).filter fun j => i > j).map fun j =>
          w.getD (σ.idxOf j) 0) := by
      apply mapM_ok
      intro j hj
      have hj' : j ∈ σ := List.mem_of_mem_drop (List.mem_filter.1 hj).1
      have hlt : σ.idxOf j < σ.length := List.idxOf_lt_length_iff.2 hj'
      unfold pyIndex
      rw [if_pos hlt]
      exact hgetw _ (by rw [← hσ.length]; exact hlt)
    simp only [hgetw idx hidx, bind, Except.bind]
    simp only [bind, Except.bind] at hr
    rw [hr]
    simp only
    split
    · next h => rw [h]; simp
    · rfl
  unfold koszulExp
  simp only [bind] at hterm ⊢
  rw [hterm]
  simp only [Except.bind]
  congr 1
  rw [kos_eq_sum]
  have e1 : enumerate (σ.zip w) = (List.range r).map fun i => (i, (σ.getD i 0, w.getD i 0)) := by
    rw [enumerate_eq_map _ (0, 0)]
    rw [List.length_zip, hσ.length, hw, min_self]
    apply List.map_congr_left
    intro i hi
    rw [List.mem_range] at hi
    congr 1
    have h1 : i < σ.length := by rw [hσ.length]; exact hi
    have h2 : i < w.length := by omega
    rw [List.getD_eq_getElem?_getD, List.getD_eq_getElem?_getD, List.getD_eq_getElem?_getD,
      List.getElem?_eq_getElem (by simp [h1, h2]), List.getElem?_eq_getElem h1,
      List.getElem?_eq_getElem h2]
    simp
  have e2 : enumerate σ = (List.range r).map fun i => (i, σ.getD i 0) := by
    rw [enumerate_eq_map _ 0, hσ.length]
  rw [e1, e2, List.map_map, List.map_map]
  congr 1
  apply List.map_congr_left
  intro i hi
  simp only [Function.comp, id]
  rw [mul_comm]
  congr 2
  have h3 : σ.drop (i + 1) = ((σ.zip w).drop (i + 1)).map Prod.fst := by
    rw [List.map_drop, List.map_fst_zip (by rw [hσ.length, hw])]
  rw [h3, List.filter_map, List.map_map]
  simp only [Function.comp_def, gt_iff_lt]
  apply List.map_congr_left
  intro y hy
  exact hg y (List.mem_of_mem_drop (List.mem_filter.1 hy).1)

theorem sg_kos_mod (deg : A → Int) (l : List (Nat × A)) :
    sg R (kos (fun a => deg a % 2) l) = sg R (kos deg l) := by
  apply sg_eq_of_zmod
  have hs : ∀ l : List (Nat × A), (((l.map fun y => deg y.2 % 2).sum : Int) : ZMod 2) =
      (((l.map fun y => deg y.2).sum : Int) : ZMod 2) := by
    intro l
    induction l with
    | nil => rfl
    | cons y l ih =>
      simp only [List.map_cons, List.sum_cons, Int.cast_add, ih]
      congr 1
      exact cast_emod (n := 2) (R := ZMod 2) (by decide) _
  induction l with
  | nil => rfl
  | cons x l ih =>
    simp only [kos, Int.cast_add, Int.cast_mul, ih, hs]
    congr 2
    exact cast_emod (n := 2) (R := ZMod 2) (by decide) _

theorem permuteFactors_eq (hσ : IsPerm r σ) {k : List A} (hk : k.length = r) :
    permuteFactors σ k = .ok (actL σ k) := by
  -- the loop only writes
  have h1 : ∀ (idxs : List (Nat × Nat)) (nk : List (Option A)), nk.length = r →
      (∀ p ∈ idxs, p.1 < r ∧ 1 ≤ p.2 ∧ p.2 ≤ r) →
      idxs.foldlM (fun (nk : List (Option A)) (p : Nat × Nat) => (do
        let a ← pyGet k p.1
        if p.2 = 0 ∨ nk.length < p.2 then .error .indexError
        else .ok (nk.set (p.2 - 1) (some a)) : Py (List (Option A)))) nk =
      .ok (idxs.foldl (fun nk p => nk.set (p.2 - 1) k[p.1]?) nk) := by
    intro idxs
    induction idxs with
    | nil => intro nk _ _; rfl
    | cons p idxs ih =>
      intro nk hnk hp
      have hp0 := hp p (by simp)
      rw [List.foldlM_cons, List.foldl_cons]
      have hg : pyGet k p.1 = .ok (k[p.1]'(by omega)) := by
        unfold pyGet
        rw [List.getElem?_eq_getElem (by omega)]
      simp only [hg, bind, Except.bind]
      rw [if_neg (by omega)]
      simp only
      have he : k[p.1]? = some (k[p.1]'(by omega)) := List.getElem?_eq_getElem _
      have := ih (nk.set (p.2 - 1) k[p.1]?) (by simp [hnk]) fun q hq => hp q (List.mem_cons_of_mem _ hq)
      rw [he] at this ⊢
      exact this
  -- what it writes
  have h2 : ∀ (idxs : List (Nat × Nat)) (nk : List (Option A)),
      (∀ p ∈ idxs, 1 ≤ p.2 ∧ p.2 ≤ nk.length) → (idxs.map Prod.snd).Nodup →
      (idxs.foldl (fun nk p => nk.set (p.2 - 1) k[p.1]?) nk).length = nk.length ∧
      (∀ p ∈ idxs, (idxs.foldl (fun nk p => nk.set (p.2 - 1) k[p.1]?) nk)[p.2 - 1]? = some k[p.1]?) ∧
      (∀ j, (∀ p ∈ idxs, p.2 - 1 ≠ j) →
        (idxs.foldl (fun nk p => nk.set (p.2 - 1) k[p.1]?) nk)[j]? = nk[j]?) := by
    intro idxs
    induction idxs with
    | nil => intro nk _ _; simp
    | cons p idxs ih =>
      intro nk hp hn
      rw [List.map_cons, List.nodup_cons] at hn
      have hp0 := hp p (by simp)
      obtain ⟨g1, g2, g3⟩ := ih (nk.set (p.2 - 1) k[p.1]?)
        (by intro q hq; simpa using hp q (List.mem_cons_of_mem _ hq)) hn.2
      rw [List.foldl_cons]
      refine ⟨by rw [g1]; simp, ?_, ?_⟩
      · intro q hq
        rcases List.mem_cons.1 hq with rfl | hq
        · rw [g3]
          · rw [List.getElem?_set_self (by omega)]
          · intro p' hp' h
            have := hp p' (List.mem_cons_of_mem _ hp')
            have h' : p'.2 = q.2 := by omega
            exact hn.1 (by rw [← h']; exact List.mem_map_of_mem hp')
        · exact g2 q hq
      · intro j hj
        rw [g3 j fun q hq => hj q (List.mem_cons_of_mem _ hq), List.getElem?_set_ne (hj p (by simp))]
  have hen : ∀ p ∈ enumerate σ, p.1 < r ∧ 1 ≤ p.2 ∧ p.2 ≤ r := by
    intro p hp
    rw [mem_enumerate] at hp
    obtain ⟨h, h'⟩ := List.getElem?_eq_some_iff.1 hp
    refine ⟨by rw [← hσ.length]; exact h, ?_⟩
    rw [← h']
    exact hσ.range _ (List.getElem_mem _)
  have hsnd : (enumerate σ).map Prod.snd = σ := by
    unfold enumerate
    rw [List.map_snd_zip (by simp)]
  obtain ⟨g1, g2, g3⟩ := h2 (enumerate σ) (List.replicate σ.length none)
    (by intro p hp; rw [List.length_replicate, hσ.length]; exact (hen p hp).2)
    (by rw [hsnd]; exact hσ.nodup)
  have hfin : (enumerate σ).foldl (fun nk p => nk.set (p.2 - 1) k[p.1]?) (List.replicate σ.length none) =
      (actL σ k).map some := by
    apply List.ext_getElem?
    intro j
    by_cases hj : j < r
    · obtain ⟨i, hi, hiv⟩ := exists_value hσ (j := j + 1) (by omega)
      have hm : (i - 1, j + 1) ∈ enumerate σ := by
        rw [mem_enumerate]
        have hlen : i - 1 < σ.length := by rw [hσ.length]; omega
        rw [value_eq_getElem hi.1 (by rw [hσ.length]; omega)] at hiv
        simp only [List.getElem?_eq_getElem hlen, hiv]
      have := g2 _ hm
      simp only [Nat.add_sub_cancel] at this
      rw [this]
      have hik : i - 1 < k.length := by omega
      have hjl : j < (actL σ k).length := by rw [length_actL hσ hk]; exact hj
      rw [List.getElem?_map, List.getElem?_eq_getElem hik, List.getElem?_eq_getElem hjl]
      simp only [Option.map_some, Option.some.injEq]
      have hz : (j + 1, k[i - 1]) ∈ σ.zip k := by
        rw [List.mem_iff_getElem]
        refine ⟨i - 1, by simp [hσ.length, hk]; omega, ?_⟩
        rw [List.getElem_zip]
        rw [value_eq_getElem hi.1 (by rw [hσ.length]; omega)] at hiv
        rw [hiv]
      rw [← (sortl_perm (σ.zip k)).mem_iff, sortl_zip hσ hk, List.mem_iff_getElem] at hz
      obtain ⟨m, hm1, hm2⟩ := hz
      rw [List.getElem_zip] at hm2
      simp only [Prod.mk.injEq, List.getElem_range'] at hm2
      have : m = j := by omega
      subst this
      exact hm2.2.symm
    · rw [List.getElem?_eq_none (by rw [g1]; simp [hσ.length]; omega),
        List.getElem?_eq_none (by rw [List.length_map, length_actL hσ hk]; omega)]
  unfold permuteFactors
  have h1' := h1 (enumerate σ) (List.replicate σ.length none) (by simp [hσ.length]) hen
  rw [hfin] at h1'
  simp only [bind] at h1' ⊢
  rw [h1']
  simp only [Except.bind]
  have : ∀ l : List A, (l.map some).mapM (fun o => match o with
      | some a => (.ok a : Py A)
      | none => .error .typeError) = .ok l := by
    intro l
    rw [mapM_ok_iff]
    induction l with
    | nil => exact .nil
    | cons a l ih => exact .cons rfl ih
  exact this _

end Comch
