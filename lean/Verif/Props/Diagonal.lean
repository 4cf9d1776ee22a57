import Verif.Props.Simplicial
import Verif.Lib.AW

/-! # Alexander–Whitney diagonal: C24, C25 -/

set_option linter.unusedSectionVars false

namespace Comch.Props
open Comch Elem SElem
open Finsupp (single)

variable {R : Type} [CommRing R]

theorem simplicial_drops_lany : simplicial.drops = lany := simplicial_drops_eq

theorem atK_eq {A : Type} (f : A → (List A →₀ R)) (c : Nat) (k : List A) (a : A)
    (h : k[c]? = some a) :
    atK f c k = cat (bv R (k.take c)) (cat (f a) (bv R (k.drop (c + 1)))) := by
  induction k generalizing c with
  | nil => simp at h
  | cons b k ih =>
    cases c with
    | zero =>
      simp only [List.getElem?_cons_zero, Option.some.injEq] at h
      subst h
      simp [atK]
    | succ c =>
      rw [atK, ih c (by simpa using h), consV_eq_cat, ← cat_assoc]
      simp

theorem pr_diagonalEvents (N t c : Nat) (k : SKey) (v : Int) (hc : 1 ≤ c) (hck : c ≤ k.length)
    (hk : keyDegree k = N) (hne : ∀ s ∈ k, s ≠ []) :
    pr lany (den R (diagonalEvents N t c k v)) = (v : R) • pr lany (atK (aw t) (c - 1) k) := by
  have hlt : c - 1 < k.length := by omega
  have hg : k[c - 1]? = some k[c - 1] := List.getElem?_eq_getElem hlt
  have hlen : (k[c - 1]).length ≤ N + 1 := by
    have h1 : ∀ (k : SKey), (∀ s ∈ k, s ≠ []) → ∀ s ∈ k, (s.length : Int) - 1 ≤ keyDegree k ∧
        0 ≤ keyDegree k := by
      intro k
      induction k with
      | nil => simp
      | cons a k ih =>
        intro h s hs
        have ha := List.length_pos_iff.2 (h a (by simp))
        have h0 : 0 ≤ keyDegree k := by
          cases k with
          | nil => simp [keyDegree]
          | cons b k => exact (ih (fun s hs => h s (List.mem_cons_of_mem _ hs)) b (by simp)).2
        have hcons : keyDegree (a :: k) = (a.length : Int) - 1 + keyDegree k := by
          simp [keyDegree, Simplex.dimension]
        rw [hcons]
        rcases List.mem_cons.1 hs with rfl | hs
        · omega
        · have := ih (fun s hs => h s (List.mem_cons_of_mem _ hs)) s hs
          omega
    have := (h1 k hne _ (List.getElem_mem hlt)).1
    rw [hk] at this
    omega
  rw [atK_eq _ _ _ _ hg]
  have e : den R (diagonalEvents N t c k v) = (v : R) • cat (bv R (k.take (c - 1)))
      (cat ((combinationsWithReplacement (List.range (N + 1)) t).map
        fun p => bv R (cuts (k[c - 1]) (0 :: (p ++ [N])))).sum (bv R (k.drop (c - 1 + 1)))) := by
    unfold diagonalEvents
    rw [den_map]
    simp only [hg, Option.getD_some]
    generalize combinationsWithReplacement (List.range (N + 1)) t = l
    induction l with
    | nil => simp
    | cons p l ih =>
      simp only [List.map_cons, List.sum_cons, ih, map_add, LinearMap.add_apply, smul_add]
      congr 1
      simp [cuts, Nat.sub_add_cancel hc]
  rw [e, map_smul]
  congr 1
  show pr (fun k : SKey => k.any ldrop) _ = pr (fun k : SKey => k.any ldrop) _
  rw [pr_any_cat, pr_any_cat, pr_any_cat, pr_any_cat]
  congr 3
  exact pr_lany_cuts t _ N hlen

theorem nf_ne_nil {x : SElem} (hx : x.NF simplicial) {p : SKey × Int} (hp : p ∈ x.data) :
    ∀ s ∈ p.1, s ≠ [] := by
  have := hx.kept _ hp
  intro s hs h0
  rw [simplicial_drops] at this
  simp only [List.any_eq_false] at this
  exact this s hs (by simp [h0])

theorem degree_nonneg {x : SElem} (hx : x.NF simplicial) {d : Int} (hd : x.degree = some d) :
    0 ≤ d := by
  rw [degree, uniqueValue_eq_some] at hd
  obtain ⟨p, hp⟩ := List.exists_mem_of_ne_nil _ (by simpa using hd.1)
  rw [← hd.2 _ (List.mem_map_of_mem hp)]
  apply List.sum_nonneg
  intro e he
  obtain ⟨s, hs, rfl⟩ := List.mem_map.1 he
  have := List.length_pos_iff.2 (nf_ne_nil hx hp s hs)
  simp only [Simplex.dimension]
  omega

/-- The linear description of `iterated_diagonal`. -/
theorem iteratedDiagonal_ok {x : SElem} (hx : x.NF simplicial) {d : Int} {r : Nat}
    (hd : x.degree = some d) (hr : x.arity = some r) (t c : Nat) (hc : 1 ≤ c) (hcr : c ≤ r) :
    ∃ y, x.iteratedDiagonal t c = .ok y ∧ y.NF simplicial ∧ y.attrs = x.attrs ∧
      y = accumulate simplicial (x.zero simplicial)
        (x.data.flatMap fun p => diagonalEvents d.toNat t c p.1 p.2) ∧
      den (ZMod x.torsion) y.data = pr lany (atL (aw t) (c - 1) (den _ x.data)) := by
  refine ⟨_, ?_, nf_accumulate_zero simplicial x
    (x.data.flatMap fun p => diagonalEvents d.toNat t c p.1 p.2), by simp, rfl, ?_⟩
  · unfold iteratedDiagonal
    rw [hd, hr]
    simp only [if_neg (not_lt.2 hcr)]
  · rw [den_accumulate_zero' _ _ _ rfl rfl, simplicial_drops_lany]
    have h0 := degree_nonneg hx hd
    rw [degree, uniqueValue_eq_some] at hd
    rw [arity, uniqueValue_eq_some] at hr
    rw [den_flatMap, map_list_sum, List.map_map]
    rw [atL, lin_den, map_list_sum, List.map_map]
    congr 1
    apply List.map_congr_left
    intro p hp
    simp only [Function.comp, map_smul]
    apply pr_diagonalEvents _ _ _ _ _ hc
    · rw [hr.2 _ (List.mem_map_of_mem hp)]; exact hcr
    · rw [hd.2 _ (List.mem_map_of_mem hp), Int.toNat_of_nonneg h0]
    · exact nf_ne_nil hx hp

/-- On a homogeneous element `iterated_diagonal` does not raise; the result commutes with
boundaries.  (When `x.boundary()` is zero, Python cannot take its diagonal - see C65 - and the
boundary of the diagonal is zero.) -/
theorem C24_diagonal_chain_map {x : SElem} (hx : x.NF simplicial) {d : Int} {r : Nat}
    (hd : x.degree = some d) (hr : x.arity = some r) (t c : Nat) (hc : 1 ≤ c) (hcr : c ≤ r) :
    ∃ y, x.iteratedDiagonal t c = .ok y ∧
      (x.boundary.data = [] → y.boundary.data = []) ∧
      (x.boundary.data ≠ [] → ∃ z, x.boundary.iteratedDiagonal t c = .ok z ∧
        pyEq y.boundary z = true) := by
  obtain ⟨y, hy, hynf, hya, -, hyd⟩ := iteratedDiagonal_ok hx hd hr t c hc hcr
  have hyt : y.torsion = x.torsion := torsion_congr hya
  have hxb : x.boundary.torsion = x.torsion := torsion_congr (boundary_attrs x)
  have hyb : y.boundary.torsion = x.torsion := by rw [torsion_congr (boundary_attrs y), hyt]
  have key : den (ZMod x.torsion) y.boundary.data =
      pr lany (atL (aw t) (c - 1) (den (ZMod x.torsion) x.boundary.data)) := by
    rw [den_boundary y hyt, hyd, den_boundary x rfl, simplicial_drops_lany,
      pr_lin_pr _ (fun k hk => by
        have := pr_simplicialD (R := ZMod x.torsion) k
        rw [simplicial_drops_lany] at this
        exact this hk),
      pr_lany_atL_aw]
    exact pr_ltens_atL_aw t (c - 1) _
  refine ⟨y, hy, ?_, ?_⟩
  · intro h0
    rw [(nf_boundary y).data_eq_nil_iff, hyb, key, h0]
    simp
  · intro hne
    have hdb := (C22_boundary_degree x d hd).resolve_left hne
    have hrb := (C22_boundary_arity x r hr).resolve_left hne
    obtain ⟨z, hz, hznf, hza, -, hzd⟩ := iteratedDiagonal_ok (nf_boundary x) hdb hrb t c hc hcr
    refine ⟨z, hz, pyEq_of_den (n := x.torsion) (nf_boundary y) hznf hyb ?_ ?_⟩
    · rw [torsion_congr hza, hxb]
    · rw [hxb] at hzd
      rw [key, hzd]

theorem length_pairwise {α : Type} (l : List α) : (pairwise l).length = l.length - 1 := by
  simp [pairwise]

/-- Each cut raises the arity by one; the degree does not change. -/
theorem C24_diagonal_arity_degree {x y : SElem} (hx : x.NF simplicial) {d : Int} {r : Nat}
    (hd : x.degree = some d) (hr : x.arity = some r) (t c : Nat) (hc : 1 ≤ c) (hcr : c ≤ r)
    (hy : x.iteratedDiagonal t c = .ok y) :
    ∀ p ∈ y.data, p.1.length = r + t ∧ keyDegree p.1 = d := by
  obtain ⟨y', hy', hynf, hya, he, hyd⟩ := iteratedDiagonal_ok hx hd hr t c hc hcr
  have hyt : y'.torsion = x.torsion := torsion_congr hya
  obtain rfl : y = y' := by rw [hy] at hy'; cases hy'; rfl
  intro p hp
  constructor
  · have := mem_keys_accumulate_zero (he ▸ List.mem_map_of_mem (f := Prod.fst) hp)
    rw [arity, uniqueValue_eq_some] at hr
    simp only [List.mem_map, List.mem_flatMap, diagonalEvents] at this
    obtain ⟨e, ⟨q, hq, w, hw, rfl⟩, h2⟩ := this
    rw [← h2]
    have hql : q.1.length = r := hr.2 _ (List.mem_map_of_mem hq)
    have := length_of_mem_cwr hw
    simp only [List.length_append, List.length_take, List.length_map, length_pairwise,
      List.length_drop, List.length_cons, List.length_nil, this, hql]
    omega
  · -- the total degree is visible through the support
    have hsup := hynf.mem_keys_iff.1 (List.mem_map_of_mem (f := Prod.fst) hp)
    rw [hyt, hyd] at hsup
    have hdx := hd
    rw [degree, uniqueValue_eq_some] at hd
    -- vectors supported in degree `d`
    by_contra hne
    apply hsup
    have hsplit : ∀ (k : SKey), keyDegree k = d →
        pr (fun m : SKey => decide (keyDegree m = d)) (atK (aw (R := ZMod x.torsion) t) (c - 1) k)
          = 0 := by
      intro k hk
      have hpre : ∀ (e : Int) (a : Nat) (v : SKey →₀ ZMod x.torsion),
          pr (fun m : SKey => decide (keyDegree m = e)) v = 0 →
          pr (fun m : SKey => decide (keyDegree m = e + 1)) (preV a v) = 0 := by
        intro e a v hv
        have := pr_lin_pr (drops := fun m : SKey => decide (keyDegree m = e))
          (drops' := fun m : SKey => decide (keyDegree m = e + 1)) (preV (R := ZMod x.torsion) a) ?_ v
        · rw [← this, hv]; simp
        · intro m hm
          cases m with
          | nil => simp [preK]
          | cons b m =>
            simp only [decide_eq_true_eq, keyDegree, List.map_cons, List.sum_cons,
              Simplex.dimension] at hm
            simp only [preV_single, preK, one_smul]
            rw [pr_single, if_pos]
            simp only [decide_eq_true_eq, keyDegree, List.map_cons, List.sum_cons,
              Simplex.dimension, List.length_cons, ← hm]
            push_cast
            ring
      have hcons : ∀ (e f : Int) (s : Simplex) (hs : s.dimension + e = f)
          (v : SKey →₀ ZMod x.torsion),
          pr (fun m : SKey => decide (keyDegree m = e)) v = 0 →
          pr (fun m : SKey => decide (keyDegree m = f)) (consV s v) = 0 := by
        intro e f s hs v hv
        have := pr_lin_pr (drops := fun m : SKey => decide (keyDegree m = e))
          (drops' := fun m : SKey => decide (keyDegree m = f)) (consV (R := ZMod x.torsion) s) ?_ v
        · rw [← this, hv]; simp
        · intro m hm
          simp only [decide_eq_true_eq] at hm
          simp only [consV_single]
          rw [pr_single, if_pos]
          simp only [decide_eq_true_eq, ← hs, ← hm]
          simp [keyDegree]
      have haw : ∀ (t : Nat) (s : Simplex),
          pr (fun m : SKey => decide (keyDegree m = s.dimension)) (aw (R := ZMod x.torsion) t s)
            = 0 := by
        intro t
        induction t with
        | zero => intro s; simp [aw_zero, keyDegree]
        | succ t iht =>
          intro s
          induction s with
          | nil => simp [aw_nil]
          | cons a s ihs =>
            rw [aw_cons, map_add, dim_cons, hpre _ a _ ihs, add_zero]
            apply hcons (Simplex.dimension s + 1)
            · simp [Simplex.dimension]
            · have := iht (a :: s)
              rwa [dim_cons] at this
      have hcat : ∀ (e f : Int) (k : SKey) (hs : keyDegree k + e = f) (v : SKey →₀ ZMod x.torsion),
          pr (fun m : SKey => decide (keyDegree m = e)) v = 0 →
          pr (fun m : SKey => decide (keyDegree m = f)) (cat v (bv _ k)) = 0 := by
        intro e f k hs v hv
        have hm : ∀ v : SKey →₀ ZMod x.torsion, cat v (bv _ k) = mapK (· ++ k) v := by
          intro v
          induction v using Finsupp.induction_linear with
          | zero => simp
          | add f g hf hg => simp only [map_add, LinearMap.add_apply, hf, hg]
          | single a r => simp
        rw [hm]
        have := pr_lin_pr (drops := fun m : SKey => decide (keyDegree m = e))
          (drops' := fun m : SKey => decide (keyDegree m = f)) (mapK (R := ZMod x.torsion) (· ++ k)) ?_ v
        · rw [← this, hv]; simp
        · intro m hm
          simp only [decide_eq_true_eq] at hm
          simp only [mapK_single]
          rw [pr_single, if_pos]
          simp only [decide_eq_true_eq, ← hs, ← hm]
          simp only [keyDegree, List.map_append, List.sum_append]
          ring
      have hall : ∀ (c : Nat) (k : SKey),
          pr (fun m : SKey => decide (keyDegree m = keyDegree k))
            (atK (aw (R := ZMod x.torsion) t) c k) = 0 := by
        intro c k
        induction k generalizing c with
        | nil => cases c <;> simp [atK]
        | cons s k ih =>
          cases c with
          | zero =>
            rw [atK]
            apply hcat s.dimension
            · simp only [keyDegree, List.map_cons, List.sum_cons]; ring
            · exact haw t s
          | succ c =>
            rw [atK]
            apply hcons (keyDegree k)
            · simp [keyDegree]
            · exact ih c
      rw [← hk]
      exact hall _ _
    have htot : pr (fun m : SKey => decide (keyDegree m = d))
        (atL (aw t) (c - 1) (den (ZMod x.torsion) x.data)) = 0 := by
      rw [atL, lin_den, map_list_sum, List.map_map]
      apply List.sum_eq_zero
      intro w hw
      obtain ⟨q, hq, rfl⟩ := List.mem_map.1 hw
      simp only [Function.comp, map_smul]
      rw [hsplit q.1 (hd.2 _ (List.mem_map_of_mem hq)), smul_zero]
    have := DFunLike.congr_fun htot p.1
    rw [pr_apply, if_neg (by simpa using hne)] at this
    rw [pr_apply, this]
    simp

/-- The diagonal of `exS` at its first factor. -/
example : ∃ y, exS.iteratedDiagonal 1 1 = .ok y ∧ y.data.length = 5 ∧ y.boundary.data ≠ [] := by
  refine ⟨_, rfl, ?_, ?_⟩ <;> decide +kernel

/-! ### coefficients -/

theorem consV_apply (x : Simplex) (v : SKey →₀ R) (m : SKey) :
    consV x v m = match m with | [] => 0 | y :: m' => if y = x then v m' else 0 := by
  induction v using Finsupp.induction_linear with
  | zero => cases m <;> simp
  | add f g hf hg =>
    simp only [map_add, Finsupp.add_apply, hf, hg]
    cases m with
    | nil => simp
    | cons y m' => simp only; split <;> simp
  | single k r =>
    cases m with
    | nil => simp
    | cons y m' =>
      simp only [consV_single, Finsupp.single_apply, List.cons.injEq]
      by_cases h1 : x = y <;> by_cases h2 : k = m' <;> simp [h1, h2, eq_comm (a := y)]

theorem preV_apply (a : Nat) (v : SKey →₀ R) (m : SKey) :
    preV a v m = match m with
      | (b :: y) :: m' => if b = a then v (y :: m') else 0
      | _ => 0 := by
  induction v using Finsupp.induction_linear with
  | zero => rcases m with _ | ⟨_ | ⟨b, y⟩, m'⟩ <;> simp
  | add f g hf hg =>
    simp only [map_add, Finsupp.add_apply, hf, hg]
    rcases m with _ | ⟨_ | ⟨b, y⟩, m'⟩ <;> simp
    split <;> simp
  | single k r =>
    rcases k with _ | ⟨z, k⟩
    · rcases m with _ | ⟨_ | ⟨b, y⟩, m'⟩ <;> simp [preK]
    · rcases m with _ | ⟨_ | ⟨b, y⟩, m'⟩ <;> simp [preK, Finsupp.single_apply]
      by_cases h1 : a = b <;> by_cases h2 : z = y <;> by_cases h3 : k = m' <;>
        simp [h1, h2, h3, eq_comm (a := b)]

theorem glue_cons {A : Type} [DecidableEq A] (p q : List A) (qs : List (List A)) :
    Spec.glue (p :: q :: qs) = match Spec.glue (q :: qs) with
      | some (a :: w) => if p.getLast? = some a then some (p ++ w) else none
      | _ => none := rfl

/-- Every cut occurs exactly once. -/
theorem aw_apply (t : Nat) (s : Simplex) (hs : s ≠ [] ∨ 0 < t) (m : SKey) (hm : ∀ p ∈ m, p ≠ []) :
    aw (R := R) t s m = if m.length = t + 1 ∧ Spec.glue m = some s then 1 else 0 := by
  induction t generalizing s m with
  | zero =>
    rw [aw_zero, Finsupp.single_apply]
    rcases m with _ | ⟨p, _ | ⟨q, m⟩⟩ <;> simp [Spec.glue, eq_comm]
  | succ t iht =>
    have hnil : ∀ (t : Nat) (s : Simplex) (m : SKey), aw (R := R) (t + 1) s ([] :: m) = 0 := by
      intro t s
      induction s with
      | nil => simp [aw_nil]
      | cons a s ih =>
        intro m
        rw [aw_cons, Finsupp.add_apply, consV_apply, preV_apply]
        simp
    induction s generalizing m with
    | nil =>
      rw [aw_nil]
      have : ¬ (m.length = t + 1 + 1 ∧ Spec.glue m = some []) := by
        rintro ⟨h1, h2⟩
        rcases m with _ | ⟨p, _ | ⟨q, m⟩⟩
        · simp at h1
        · simp at h1
        · rw [glue_cons] at h2
          split at h2
          · split at h2
            · simp only [Option.some.injEq, List.append_eq_nil_iff] at h2
              exact hm p (by simp) h2.1
            · cases h2
          · cases h2
      rw [if_neg this]; simp
    | cons a s ihs =>
      rw [aw_cons, Finsupp.add_apply, consV_apply, preV_apply]
      rcases m with _ | ⟨p, m⟩
      · simp
      · have hm' : ∀ p ∈ m, p ≠ [] := fun q hq => hm q (List.mem_cons_of_mem _ hq)
        rcases p with _ | ⟨b, y⟩
        · exact absurd rfl (hm [] (by simp))
        · simp only [List.cons.injEq]
          rcases y with _ | ⟨e, y⟩
          · rw [hnil]
            simp only [and_true, ite_self, add_zero]
            rw [iht _ (Or.inl (by simp)) _ hm']
            rcases m with _ | ⟨q, m⟩
            · simp
            · rw [glue_cons]
              by_cases hb : b = a
              · subst hb
                rw [if_pos rfl]
                congr 1
                simp only [List.length_cons, Nat.add_right_cancel_iff, eq_iff_iff, and_congr_right_iff]
                intro _
                rcases hg : Spec.glue (q :: m) with _ | _ | ⟨c, w⟩
                · simp
                · simp
                · by_cases hc : b = c
                  · subst hc; simp
                  · simp [hc, Ne.symm hc]
              · rw [if_neg hb, if_neg]
                rintro ⟨-, h2⟩
                split at h2
                · split at h2
                  · simp only [List.cons_append, Option.some.injEq, List.cons.injEq] at h2
                    exact hb h2.1
                  · cases h2
                · cases h2
          · rw [if_neg (by simp), zero_add]
            have hm2 : ∀ p ∈ (e :: y) :: m, p ≠ [] := by
              intro p hp
              rcases List.mem_cons.1 hp with rfl | hp
              · simp
              · exact hm' p hp
            rw [ihs (Or.inr (by omega)) _ hm2]
            by_cases hb : b = a
            · subst hb
              rw [if_pos rfl]
              congr 1
              simp only [List.length_cons, eq_iff_iff, and_congr_right_iff]
              intro hl
              rcases m with _ | ⟨q, m⟩
              · simp at hl
              · rw [glue_cons, glue_cons]
                rcases hg : Spec.glue (q :: m) with _ | _ | ⟨c, w⟩
                · simp
                · simp
                · simp only [List.getLast?_cons_cons]
                  split <;> simp
            · rw [if_neg hb, if_neg]
              rintro ⟨hl, h2⟩
              rcases m with _ | ⟨q, m⟩
              · simp at hl
              · rw [glue_cons] at h2
                split at h2
                · split at h2
                  · simp only [List.cons_append, Option.some.injEq, List.cons.injEq] at h2
                    exact hb h2.1
                  · cases h2
                · cases h2

theorem cat_bv_apply_right (v : SKey →₀ R) (k m : SKey) :
    cat v (bv R k) m = if k.length ≤ m.length ∧ m.drop (m.length - k.length) = k
      then v (m.take (m.length - k.length)) else 0 := by
  induction v using Finsupp.induction_linear with
  | zero => simp
  | add f g hf hg =>
    simp only [map_add, LinearMap.add_apply, Finsupp.add_apply, hf, hg]
    split <;> simp
  | single a r =>
    rw [cat_single_single, Finsupp.single_apply, mul_one, Finsupp.single_apply]
    by_cases h : a ++ k = m
    · subst h
      simp
    · rw [if_neg h]
      split
      · rename_i h2
        rw [if_neg]
        rintro rfl
        apply h
        conv_rhs => rw [← List.take_append_drop (m.length - k.length) m, h2.2]
      · rfl

theorem cat_bv_apply_left (v : SKey →₀ R) (k m : SKey) :
    cat (bv R k) v m = if m.take k.length = k then v (m.drop k.length) else 0 := by
  induction v using Finsupp.induction_linear with
  | zero => simp
  | add f g hf hg =>
    simp only [map_add, Finsupp.add_apply, hf, hg]
    split <;> simp
  | single a r =>
    rw [cat_single_single, Finsupp.single_apply, one_mul, Finsupp.single_apply]
    by_cases h : k ++ a = m
    · subst h
      simp
    · rw [if_neg h]
      split
      · rename_i h2
        rw [if_neg]
        rintro rfl
        apply h
        conv_rhs => rw [← List.take_append_drop k.length m, h2]
      · rfl

/-- The coefficients of the iterated diagonal: each way of cutting factor `coord` of a term of `x`
into `times + 1` pieces with common end vertices contributes the coefficient of that term. -/
theorem C24_diagonal_coeff {x y : SElem} (hx : x.NF simplicial) {d : Int} {r : Nat}
    (hd : x.degree = some d) (hr : x.arity = some r) (t c : Nat) (hc : 1 ≤ c) (hcr : c ≤ r)
    (hy : x.iteratedDiagonal t c = .ok y) (m : SKey) (hm : ∀ s ∈ m, s.isDegenerate = false) :
    y.coeff m ≡ (x.data.map fun p => if Spec.isCutAt p.1 m c t then p.2 else 0).sum
      [ZMOD x.torsion] := by
  obtain ⟨y', hy', hynf, hya, he, hyd⟩ := iteratedDiagonal_ok hx hd hr t c hc hcr
  obtain rfl : y = y' := by rw [hy] at hy'; cases hy'; rfl
  rw [← ZMod.intCast_eq_intCast_iff]
  have h2 := DFunLike.congr_fun hyd m
  have hm' : lany m = false := by
    rw [← simplicial_drops_lany]
    show (m.any fun s => s.isDegenerate) = false
    simpa using hm
  have hm0 : ∀ p ∈ m, p ≠ [] := by
    intro p hp h0
    have := hm p hp
    subst h0
    simp [Simplex.isDegenerate, Simplex.dimension] at this
  rw [Dict.den_apply hynf.nodup, pr_apply, hm'] at h2
  simp only [Bool.false_eq_true, if_false] at h2
  rw [coeff, h2, atL, lin_den]
  rw [arity, uniqueValue_eq_some] at hr
  have : ∀ l : List (SKey × Int), (∀ p ∈ l, p ∈ x.data) →
      (l.map fun p => ((p.2 : Int) : ZMod x.torsion) • atK (aw t) (c - 1) p.1).sum m =
      (((l.map fun p => if Spec.isCutAt p.1 m c t then p.2 else 0).sum : Int) : ZMod x.torsion) := by
    intro l hl
    induction l with
    | nil => simp
    | cons p l ih =>
      rw [List.map_cons, List.sum_cons, Finsupp.add_apply, ih (fun q hq => hl q (by simp [hq])),
        List.map_cons, List.sum_cons, Int.cast_add]
      congr 1
      have hp := hl p (by simp)
      have hpl : p.1.length = r := hr.2 _ (List.mem_map_of_mem hp)
      have hlt : c - 1 < p.1.length := by omega
      have hg : p.1[c - 1]? = some p.1[c - 1] := List.getElem?_eq_getElem hlt
      rw [Finsupp.smul_apply, atK_eq _ _ _ _ hg, cat_bv_apply_left, cat_bv_apply_right]
      have hlen : (p.1.take (c - 1)).length = c - 1 := by simp; omega
      have hlen2 : (p.1.drop (c - 1 + 1)).length = r - c := by simp; omega
      have hsub : c - 1 + 1 = c := by omega
      rw [hlen, hlen2, hsub, List.drop_drop, List.length_drop]
      have hiff : Spec.isCutAt p.1 m c t ↔ (m.length = r + t ∧ m.take (c - 1) = p.1.take (c - 1) ∧
          m.drop (c + t) = p.1.drop c ∧
          Spec.glue ((m.drop (c - 1)).take (t + 1)) = some p.1[c - 1]) := by
        unfold Spec.isCutAt
        rw [hpl, hg]
      simp only [hiff]
      by_cases h1 : m.take (c - 1) = p.1.take (c - 1)
      · rw [if_pos h1]
        rw [aw_apply t _ (Or.inl (nf_ne_nil hx hp _ (List.getElem_mem hlt)))
          _ (fun q hq => hm0 q (List.mem_of_mem_drop (List.mem_of_mem_take hq)))]
        by_cases hml : m.length = r + t
        · have e1 : m.length - (c - 1) - (r - c) = t + 1 := by omega
          have e2 : c - 1 + (t + 1) = c + t := by omega
          rw [e1, e2]
          have e3 : ((m.drop (c - 1)).take (t + 1)).length = t + 1 := by simp; omega
          simp only [e3, true_and, hml, h1]
          have e4 : r - c ≤ r + t - (c - 1) := by omega
          simp only [e4, true_and]
          by_cases h5 : m.drop (c + t) = p.1.drop c
          · simp only [h5, true_and, if_true]
            split <;> simp
          · simp [h5]
        · simp only [hml, false_and, if_false]
          split
          · rename_i h6
            rw [if_neg]
            · simp
            · rintro ⟨h7, -⟩
              apply hml
              rw [List.length_take, List.length_drop] at h7
              have := h6.1
              omega
          · simp
      · rw [if_neg h1, if_neg (fun h => h1 h.2.1)]
        simp
  exact this x.data (fun p hp => hp)

example : Spec.isCutAt [[7, 8], [0, 1, 2, 5], [3]] [[7, 8], [0, 1], [1, 2, 5], [5], [3]] 2 2 := by
  decide

/-! ## C25 coassociativity -/

theorem C25_diagonal_iterated {x y z : SElem} (hx : x.NF simplicial) {d : Int} {r : Nat}
    (hd : x.degree = some d) (hr : x.arity = some r) (a b c j : Nat) (hc : 1 ≤ c) (hcr : c ≤ r)
    (hj : j ≤ a) (hy : x.iteratedDiagonal a c = .ok y) (hyne : y.data ≠ [])
    (hz : x.iteratedDiagonal (a + b) c = .ok z) :
    ∃ w, y.iteratedDiagonal b (c + j) = .ok w ∧ pyEq w z = true := by
  obtain ⟨y', hy', hynf, hya, -, hyd⟩ := iteratedDiagonal_ok hx hd hr a c hc hcr
  obtain rfl : y = y' := by rw [hy] at hy'; cases hy'; rfl
  obtain ⟨z', hz', hznf, hza, -, hzd⟩ := iteratedDiagonal_ok hx hd hr (a + b) c hc hcr
  obtain rfl : z = z' := by rw [hz] at hz'; cases hz'; rfl
  have had := C24_diagonal_arity_degree hx hd hr a c hc hcr hy
  have hyt : y.torsion = x.torsion := torsion_congr hya
  have hydeg : y.degree = some d := by
    rw [degree, uniqueValue_eq_some]
    refine ⟨by simpa using hyne, ?_⟩
    intro e he
    obtain ⟨p, hp, rfl⟩ := List.mem_map.1 he
    exact (had p hp).2
  have hyar : y.arity = some (r + a) := by
    rw [arity, uniqueValue_eq_some]
    refine ⟨by simpa using hyne, ?_⟩
    intro e he
    obtain ⟨p, hp, rfl⟩ := List.mem_map.1 he
    exact (had p hp).1
  obtain ⟨w, hw, hwnf, hwa, -, hwd⟩ :=
    iteratedDiagonal_ok hynf hydeg hyar b (c + j) (by omega) (by omega)
  refine ⟨w, hw, pyEq_of_den (n := x.torsion) hwnf hznf ?_ (torsion_congr hza) ?_⟩
  · rw [torsion_congr hwa, hyt]
  · rw [hyt] at hwd
    rw [hwd, hzd, hyd, pr_lany_atL_aw]
    congr 1
    generalize den (ZMod x.torsion) x.data = v
    rw [show c + j - 1 = (c - 1) + j by omega]
    generalize c - 1 = c
    induction v using Finsupp.induction_linear with
    | zero => simp
    | add f g hf hg => simp only [map_add, hf, hg]
    | single k s =>
      simp only [atL_single, map_smul]
      congr 1
      induction k generalizing c with
      | nil => cases c <;> simp [atK]
      | cons q k ih =>
        cases c with
        | zero =>
          simp only [atK, zero_add]
          -- the second cut happens inside the pieces of the first one
          have hin : ∀ (j : Nat) (u v : SKey →₀ ZMod x.torsion),
              pr (fun m : SKey => decide (j < m.length)) u = 0 →
              atL (aw b) j (cat u v) = cat (atL (aw b) j u) v := by
            intro j u v hu
            have : u = pr (fun m : SKey => !decide (j < m.length)) u := by
              ext m
              have := DFunLike.congr_fun hu m
              rw [pr_apply] at this ⊢
              by_cases hm : j < m.length
              · simp [hm]
              · simpa [hm] using this
            rw [this]
            clear this hu
            induction u using Finsupp.induction_linear with
            | zero => simp
            | add f g hf hg => simp only [map_add, LinearMap.add_apply, hf, hg]
            | single m s =>
              rw [pr_single]
              split
              · simp
              · rename_i hm
                simp only [Bool.not_eq_true', decide_eq_false_iff_not, Decidable.not_not] at hm
                rw [single_eq_smul_bv]
                simp only [map_smul, LinearMap.smul_apply]
                congr 1
                induction m generalizing j with
                | nil => simp at hm
                | cons e m ihm =>
                  cases j with
                  | zero =>
                    simp only [atL_single, atK, one_smul, cat_assoc]
                    have h1 : cat (bv (ZMod x.torsion) (e :: m)) v =
                        cat (one (bv _ e)) (cat (bv _ m) v) := by
                      rw [← cat_assoc]; simp
                    rw [h1, atL_cat_one_zero]
                    simp
                  | succ j =>
                    have h1 : cat (bv (ZMod x.torsion) (e :: m)) v = consV e (cat (bv _ m) v) := by
                      rw [consV_eq_cat, ← cat_assoc]; simp
                    rw [h1, atL_consV, ihm j (by simpa using hm)]
                    simp only [atL_single, atK, one_smul]
                    rw [consV_eq_cat, consV_eq_cat, cat_assoc]
          rw [hin, atL_aw _ _ _ _ hj]
          -- `aw a` has `a + 1` factors
          have hl : ∀ (a : Nat) (q : Simplex),
              pr (fun m : SKey => decide (m.length = a + 1)) (aw (R := ZMod x.torsion) a q) = 0 := by
            intro a
            induction a with
            | zero => intro q; simp [aw_zero]
            | succ a iha =>
              intro q
              induction q with
              | nil => simp [aw_nil]
              | cons e q ihq =>
                rw [aw_cons, map_add]
                have h1 : pr (fun m : SKey => decide (m.length = a + 1 + 1))
                    (consV (R := ZMod x.torsion) [e] (aw a (e :: q))) = 0 := by
                  have := pr_lin_pr (drops := fun m : SKey => decide (m.length = a + 1))
                    (drops' := fun m : SKey => decide (m.length = a + 1 + 1))
                    (consV (R := ZMod x.torsion) [e]) (by
                      intro m hm
                      simp only [decide_eq_true_eq] at hm
                      simp [hm]) (aw a (e :: q))
                  rw [← this, iha]; simp
                have h2 : pr (fun m : SKey => decide (m.length = a + 1 + 1))
                    (preV (R := ZMod x.torsion) e (aw (a + 1) q)) = 0 := by
                  have := pr_lin_pr (drops := fun m : SKey => decide (m.length = a + 1 + 1))
                    (drops' := fun m : SKey => decide (m.length = a + 1 + 1))
                    (preV (R := ZMod x.torsion) e) (by
                      intro m hm
                      simp only [decide_eq_true_eq] at hm
                      cases m with
                      | nil => simp at hm
                      | cons f m => simp [preK, ← hm]) (aw (a + 1) q)
                  rw [← this, ihq]; simp
                rw [h1, h2, add_zero]
          have := hl a q
          rw [← map_zero (pr fun m : SKey => decide (j < m.length))]
          refine pr_of_pr_le (p := fun m : SKey => decide (m.length = a + 1)) ?_ (by simpa using this)
          intro m hm
          simp only [decide_eq_true_eq] at hm ⊢
          omega
        | succ c =>
          rw [show c + 1 + j = (c + j) + 1 by ring]
          simp only [atK, atL_consV, ih]

example : ∃ y z w, exS.iteratedDiagonal 1 1 = .ok y ∧ exS.iteratedDiagonal 3 1 = .ok z ∧
    y.iteratedDiagonal 2 2 = .ok w ∧ pyEq w z = true ∧ w.data.length = 14 := by
  refine ⟨_, _, _, rfl, rfl, rfl, ?_, ?_⟩ <;> decide +kernel

end Comch.Props
