import Verif.Props.SurjAssoc
import Verif.Props.Diagonal
import Verif.Lib.AtDeg

/-! # Surjections acting on simplicial chains: C52 -/

set_option linter.unusedSectionVars false

namespace Comch.SurjElem
open Comch.Spec Elem SurjComp Comch.Props
open Finsupp (single)

variable {R : Type} [CommRing R]

/-- The action as a bilinear map: surjections of degree `d` and arity `r` act at position `c`. -/
noncomputable def callV (R : Type) [CommRing R] (r : Nat) (d : Int) (c : Nat) :
    (Surj →₀ R) →ₗ[R] (SKey →₀ R) →ₗ[R] (SKey →₀ R) :=
  bil fun k m => atKd ldim d (sact r k) c m

theorem labels_joinW (k : List Nat) (ps : List (List Nat)) (i : Nat) :
    labels (joinW k ps) i = (fiber k ps i).flatten := by
  unfold fiber labels
  induction k generalizing ps with
  | nil => simp
  | cons x k ih =>
    cases ps with
    | nil => simp
    | cons p ps =>
      rw [joinW_cons, List.filter_append, List.map_append, ih, List.zip_cons_cons, List.filter_cons]
      by_cases h : x = i
      · subst h
        simp [List.filter_map, Function.comp_def]
      · simp [List.filter_map, Function.comp_def, h]

theorem isDegenerate_eq (s : Simplex) : Simplex.isDegenerate s = ldrop s := by
  unfold Simplex.isDegenerate ldrop
  rw [any_pairwise_eq]
  congr 1
  rw [Bool.eq_iff_iff]
  simp [Simplex.dimension]

theorem totDeg_ldim (k : SKey) : totDeg ldim k = SElem.keyDegree k := by
  rw [totDeg_eq_sum]; rfl

/-- One summand of the code as a vector. -/
noncomputable def summandV (r : Nat) (d : Int) (c : Nat) (k : Surj) (key : SKey) : SKey →₀ R :=
  sg R (totDeg ldim (key.take c) * d) •
    cat (bv R (key.take c)) (cat (cutTerm r k ((key.drop c).take k.length)) (bv R (key.drop (c + k.length))))

theorem pr_simplicialSummand {r n : Nat} {d : Int} {c : Nat} {k : Surj}
    (hk : ∀ v, v ∈ k ↔ 1 ≤ v ∧ v ≤ r) (key : SKey) (v1 v2 : Int) :
    pr lany (den (ZMod n) (simplicialSummand n d (c + 1) k v1 key v2)) =
      pr lany (((v1 * v2 : Int) : ZMod n) • summandV r d c k key) := by
  unfold simplicialSummand
  have hr : pyMax k = r := pyMax_of_onto hk
  have e1 : c + 1 + k.length - 1 = c + k.length := by omega
  have hsl : slice key c (c + k.length) = (key.drop c).take k.length := by
    rw [slice, List.drop_take, Nat.add_sub_cancel_left]
  have hnew : ((pyRange 1 (r + 1)).map fun i => (fiber k ((key.drop c).take k.length) i).flatten) =
      tensorOf r (joinW k ((key.drop c).take k.length)) := by
    unfold tensorOf tensorFrom pyRange
    rw [Nat.add_sub_cancel]
    exact List.map_congr_left fun i _ => (labels_joinW _ _ _).symm
  simp only [Nat.add_sub_cancel, e1, hsl, hr, hnew, isDegenerate_eq]
  have hv : ((tensorOf r (joinW k ((key.drop c).take k.length))).any fun s => ldrop s) =
      lany (tensorOf r (joinW k ((key.drop c).take k.length))) := rfl
  rw [hv]
  have hc : cat (bv (ZMod n) (key.take c)) (cat (cutTerm r k ((key.drop c).take k.length))
      (bv _ (key.drop (c + k.length)))) =
      ((computeSign k (((key.drop c).take k.length).map fun s => Simplex.dimension s % 2) : Int) : ZMod n) •
        bv _ (key.take c ++ tensorOf r (joinW k ((key.drop c).take k.length)) ++ key.drop (c + k.length)) := by
    unfold cutTerm
    simp only [map_smul, LinearMap.smul_apply, cat_single_single, one_mul, List.append_assoc]
  unfold summandV
  rw [hc]
  by_cases hl : lany (tensorOf r (joinW k ((key.drop c).take k.length))) = true
  · rw [if_pos hl]
    simp only [den, map_zero, map_smul]
    rw [pr_single, if_pos]
    · simp
    · unfold lany at hl ⊢
      simp [hl]
  · rw [if_neg hl]
    congr 1
    simp only [den_cons, den_nil, add_zero, totDeg_ldim]
    rw [single_eq_smul_bv, smul_smul, smul_smul]
    congr 1
    by_cases h2 : n = 2
    · subst h2
      rw [if_pos rfl]
      have hs : ∀ a : Int, sg (ZMod 2) a = 1 := by
        intro a
        unfold sg
        rcases pySign_eq_one_or a with h | h <;> rw [h] <;> decide
      have hcs : ((computeSign k (((key.drop c).take k.length).map fun s => Simplex.dimension s % 2) : Int) : ZMod 2) = 1 :=
        hs _
      rw [hs, hcs]
      push_cast
      ring
    · rw [if_neg h2]
      have hs : sg (ZMod n) (SElem.keyDegree (key.take c) % 2 * d) = sg (ZMod n) (SElem.keyDegree (key.take c) * d) :=
        sg_congr (by rw [Int.mul_emod, Int.mul_emod (SElem.keyDegree (key.take c)) d]; simp)
      push_cast
      rw [cast_pySign, hs]
      ring

theorem aw_nondegenerate (t : Nat) {V : List Nat} (hV : ldrop V = false) :
    aw (R := R) t V ∈ Finsupp.supported R R
      {ps : List (List Nat) | ps.length = t + 1 ∧ lany ps = false ∧
        ∃ q ps', ps = q :: ps' ∧ q.head? = V.head?} := by
  have hne : V ≠ [] := by rintro rfl; simp [ldrop] at hV
  induction t generalizing V with
  | zero =>
    rw [aw_zero]
    apply Finsupp.single_mem_supported
    exact ⟨rfl, by simpa [lany] using hV, V, [], rfl, rfl⟩
  | succ t iht =>
    induction V with
    | nil => exact absurd rfl hne
    | cons a V ihV =>
      rw [aw_cons]
      refine Submodule.add_mem _ ?_ ?_
      · refine mapK_supported _ (fun ps hps => ?_) (iht (V := a :: V) hV (by simp))
        refine ⟨by simp [hps.1], ?_, [a], ps, rfl, rfl⟩
        have := hps.2.1
        unfold lany at this ⊢
        rw [List.any_cons, this]
        simp [ldrop, hasRep]
      · by_cases h : V = []
        · subst h
          rw [aw_nil, map_zero]
          exact Submodule.zero_mem _
        · obtain ⟨b, V, rfl⟩ := List.exists_cons_of_ne_nil h
          have hV' : a ≠ b ∧ ldrop (b :: V) = false := by
            simpa [ldrop, hasRep] using hV
          refine lin_supported _ (fun ps hps => ?_) (ihV hV'.2 h)
          obtain ⟨h1, h2, q, ps', rfl, h4⟩ := hps
          apply Finsupp.single_mem_supported
          refine ⟨by simpa using h1, ?_, a :: q, ps', rfl, rfl⟩
          cases q with
          | nil => simp at h4
          | cons c q =>
            simp only [List.head?_cons, Option.some.injEq] at h4
            subst h4
            unfold lany at h2 ⊢
            simp only [List.any_cons, Bool.or_eq_false_iff] at h2 ⊢
            refine ⟨?_, h2.2⟩
            have := h2.1
            simp only [ldrop, reduceCtorEq, decide_false, Bool.false_or] at this ⊢
            simp [hasRep, this, hV'.1]

theorem cat_bv_cat (L Q : SKey) (v : SKey →₀ R) :
    cat (bv R L) (cat v (bv R Q)) = mapK (fun m => L ++ (m ++ Q)) v := by
  induction v using Finsupp.induction_linear with
  | zero => simp
  | add f g hf hg => simp only [map_add, LinearMap.add_apply, hf, hg]
  | single m r => simp

theorem cat_lin_cat (L Q : SKey) (f : SKey → (SKey →₀ R)) (v : SKey →₀ R) :
    cat (bv R L) (cat (lin f v) (bv R Q)) = lin (fun m => cat (bv R L) (cat (f m) (bv R Q))) v := by
  induction v using Finsupp.induction_linear with
  | zero => simp
  | add f g hf hg => simp only [map_add, LinearMap.add_apply, hf, hg]
  | single m r => simp

theorem lin_summandV {r : Nat} {d : Int} {c : Nat} {k : Surj} (hk : k ≠ []) {q : SKey} {a : Simplex}
    (ha : q[c]? = some a) (hne : a ≠ []) :
    lin (summandV (R := R) r d c k) (atK (aw (k.length - 1)) c q) = atKd ldim d (sact r k) c q := by
  have hc : (q.take c).length = c := by
    rw [List.length_take]
    have := (List.getElem?_eq_some_iff.1 ha).1
    omega
  have hkl := List.length_pos_iff.2 hk
  rw [atK_eq _ _ _ _ ha, atKd_eq _ _ _ _ _ ha, cat_bv_cat, ← sact_eq r hk hne, cat_lin_cat]
  have := BElem.lin_ext_supported (R := R)
    (f := (lin (summandV (R := R) r d c k)).comp (mapK fun m => q.take c ++ (m ++ q.drop (c + 1))))
    (g := sg R (totDeg ldim (q.take c) * d) • lin (fun m => cat (bv R (q.take c)) (cat (cutTerm r k m)
      (bv R (q.drop (c + 1))))))
    (fun ps hps => by
      have hl : ps.length = k.length := by rw [hps.1]; omega
      simp only [LinearMap.comp_apply, mapK_single, lin_single, one_smul, LinearMap.smul_apply]
      unfold summandV
      generalize q.take c = L at *
      subst hc
      rw [List.take_left, List.drop_left, ← hl, List.take_left, ← List.drop_drop, List.drop_left,
        List.drop_left]) (aw_supported (R := R) (k.length - 1) hne)
  simpa using this

theorem length_of_onto {r : Nat} {k : Surj} (hk : ∀ v, v ∈ k ↔ 1 ≤ v ∧ v ≤ r) : k.length = sdeg k + r := by
  have hc := sdeg_card k
  have e : k.toFinset = Finset.Icc 1 r := by
    ext v; rw [List.mem_toFinset, hk v, Finset.mem_Icc]
  rw [e, Nat.card_Icc] at hc
  omega

theorem pr_self {K : Type} {drops : K → Bool} {v : K →₀ R}
    (hv : v ∈ Finsupp.supported R R {m | drops m = false}) : pr drops v = v := by
  have := BElem.lin_ext_supported (R := R) (f := pr drops) (g := LinearMap.id) (fun m hm => by
    have hm : drops m = false := hm
    simp [hm]) hv
  simpa using this

/-- The linear description of `__call__` on simplicial elements. -/
theorem call_ok {x : SurjElem} {y : SElem} {r a coord n : Nat} {d e : Int} (hx : InSurj r x)
    (hd : ∀ p ∈ x.data, ((sdeg p.1 : Nat) : Int) = d) (hcv : x.attrs.convention = .mcClureSmith)
    (hy : y.NF simplicial) (hyd : ∀ p ∈ y.data, SElem.keyDegree p.1 = e ∧ p.1.length = a)
    (hn : x.torsion = n) (hyn : y.torsion = n) (h1 : 1 ≤ coord) (h2 : coord ≤ a) :
    ∃ z, callSimplicial x y coord = .ok z ∧ z.NF simplicial ∧ z.attrs = y.attrs ∧
      den (ZMod n) z.data = pr lany (callV _ r d (coord - 1) (den _ x.data) (den _ y.data)) := by
  unfold callSimplicial
  by_cases h0 : x.data = [] ∨ y.data = []
  · rw [if_pos (by simpa [truthy] using h0)]
    refine ⟨_, rfl, nf_zero _ _, by simp, ?_⟩
    rcases h0 with h | h <;> simp [h]
  · obtain ⟨hxne, hyne⟩ := not_or.1 h0
    rw [if_neg (by simpa [truthy] using ⟨hxne, hyne⟩)]
    have hlen : ∀ p ∈ x.data, (p.1.length : Int) = r + d := fun p hp => by
      rw [← hd p hp, length_of_onto (hx.onto p hp)]
      push_cast
      ring
    have hxd : x.degree = some d := by
      unfold SurjElem.degree
      rw [uniqueValue_eq_some]
      refine ⟨by simpa using hxne, fun b hb => ?_⟩
      obtain ⟨p, hp, rfl⟩ := List.mem_map.1 hb
      rw [keyDegree, pyMax_of_onto (hx.onto p hp), hlen p hp]
      ring
    have hyd' : y.degree = some e := by
      unfold SElem.degree
      rw [uniqueValue_eq_some]
      refine ⟨by simpa using hyne, fun b hb => ?_⟩
      obtain ⟨p, hp, rfl⟩ := List.mem_map.1 hb
      exact (hyd p hp).1
    have hya : y.arity = some a := by
      unfold SElem.arity
      rw [uniqueValue_eq_some]
      refine ⟨by simpa using hyne, fun b hb => ?_⟩
      obtain ⟨p, hp, rfl⟩ := List.mem_map.1 hb
      exact (hyd p hp).2
    obtain ⟨w, hw, hwnf, hwa, -, hwd⟩ := iteratedDiagonal_ok hy hyd' hya (r + d - 1).toNat coord h1 h2
    rw [hxd, arity_eq hx hxne, hya]
    simp only [if_neg (not_lt.2 h2), hn, hyn, ne_eq, not_true, if_false, hcv, hw, bind, Except.bind]
    refine ⟨_, rfl, nf_accumulate_zero _ _ _, by simp, ?_⟩
    rw [den_accumulate_zero' _ _ _ rfl hyn, simplicial_drops_lany]
    rw [hyn] at hwd
    obtain ⟨c, rfl⟩ : ∃ c, coord = c + 1 := ⟨coord - 1, by omega⟩
    rw [Nat.add_sub_cancel] at hwd ⊢
    have hpr : pr lany (atL (aw (R := ZMod n) (r + d - 1).toNat) c (den (ZMod n) y.data)) =
        atL (aw (r + d - 1).toNat) c (den (ZMod n) y.data) := by
      refine pr_self (drops := lany) ?_
      refine den_induction (P := fun u => atL (aw (R := ZMod n) (r + d - 1).toNat) c u ∈
        Finsupp.supported (ZMod n) (ZMod n) {m : SKey | lany m = false}) y.data (by simp)
        (fun u v hu hv => by rw [map_add]; exact Submodule.add_mem _ hu hv) ?_
      intro q hq
      have hk := hy.kept _ hq
      rw [simplicial_drops_lany] at hk
      have hcl : c < q.1.length := by rw [(hyd q hq).2]; omega
      have hg : q.1[c]? = some q.1[c] := List.getElem?_eq_getElem hcl
      have hk' : ∀ s ∈ q.1, ldrop s = false := by
        simpa [lany] using hk
      rw [atL_single]
      refine Submodule.smul_mem _ _ ?_
      rw [atK_eq _ _ _ _ hg, cat_bv_cat]
      refine mapK_supported (T := {m : SKey | lany m = false}) _ (fun m hm => ?_)
        (aw_nondegenerate (R := ZMod n) _ (hk' _ (List.getElem_mem hcl)))
      have hm := hm.2.1
      show lany _ = false
      unfold lany at hm ⊢
      rw [List.any_append, List.any_append, hm]
      simp only [Bool.or_eq_false_iff, Bool.false_or, List.any_eq_false, Bool.not_eq_true]
      exact ⟨fun s hs => hk' s (List.mem_of_mem_take hs), fun s hs => hk' s (List.mem_of_mem_drop hs)⟩
    rw [hpr] at hwd
    have hev : pr lany (den (ZMod n) ((pyProduct x.data w.data).flatMap fun pq =>
        simplicialSummand n d (c + 1) pq.1.1 pq.1.2 pq.2.1 pq.2.2)) =
        pr lany (bil (summandV r d c) (den (ZMod n) x.data) (den (ZMod n) w.data)) := by
      rw [den_flatMap, bil_den, map_list_sum, map_list_sum, List.map_map, List.map_map]
      congr 1
      apply List.map_congr_left
      intro pq hpq
      rw [mem_pyProduct] at hpq
      exact pr_simplicialSummand (hx.onto _ hpq.1) _ _ _
    refine Eq.trans hev ?_
    congr 1
    rw [hwd]
    unfold callV
    refine den_induction (P := fun u => bil (summandV r d c) u (atL (aw (r + d - 1).toNat) c (den (ZMod n) y.data)) =
      bil (fun k m => atKd ldim d (sact r k) c m) u (den (ZMod n) y.data)) x.data (by simp)
      (fun u v hu hv => by rw [map_add, map_add, LinearMap.add_apply, LinearMap.add_apply, hu, hv]) ?_
    intro p hp
    refine den_induction (P := fun u => bil (summandV r d c) _ (atL (aw (r + d - 1).toNat) c u) =
      bil (fun k m => atKd ldim d (sact r k) c m) _ u) y.data (by simp)
      (fun u v hu hv => by rw [map_add, map_add, map_add, hu, hv]) ?_
    intro q hq
    have hcl : c < q.1.length := by rw [(hyd q hq).2]; omega
    have hg : q.1[c]? = some q.1[c] := List.getElem?_eq_getElem hcl
    have hl := hlen p hp
    rw [bil_single, atL_single, map_smul, bil_single_left,
      show (r + d - 1).toNat = p.1.length - 1 by omega,
      lin_summandV (onto_ne_nil hx.nf hp) hg (nf_ne_nil hy hq _ (List.getElem_mem hcl)), smul_smul, mul_comm]

theorem delK_supported (V : List Nat) :
    delK V ∈ Finsupp.supported R R {W : List Nat | ldim W = ldim V - 1} := by
  induction V with
  | nil => simp [delK]
  | cons a V ih =>
    rw [delK]
    refine Submodule.sub_mem _ (Finsupp.single_mem_supported R _ ?_) ?_
    · simp [ldim]
    · refine mapK_supported (T := {W : List Nat | ldim W = ldim (a :: V) - 1}) _ (fun m hm => ?_) ih
      have hm : ldim m = ldim V - 1 := hm
      show ldim (a :: m) = _
      simp only [ldim, List.length_cons] at hm ⊢
      omega

theorem pr_ltens_callV_bv {r : Nat} {k : Surj} (hk : ∀ v, v ∈ k ↔ 1 ≤ v ∧ v ≤ r) {d : Int}
    (hd : ((sdeg k : Nat) : Int) = d) (c : Nat) (m : SKey) :
    pr lany (ltens (callV R r d c (bv R k) (bv R m))) =
      pr lany (callV R r (d - 1) c (sbd .mcClureSmith (bv R k)) (bv R m) +
        sg R d • callV R r d c (bv R k) (ltens (bv R m))) := by
  have h1 : callV R r d c (bv R k) (bv R m) = atKd ldim d (sact r k) c m := by simp [callV]
  have h2 : callV R r d c (bv R k) (ltens (bv R m)) = atLd ldim d (sact r k) c (tensK delK ldim m) := by
    rw [callV, bil_bv, tens_single, one_smul]; rfl
  have h3 : ∀ u : Surj →₀ R, callV R r (d - 1) c u (bv R m) =
      atKd ldim (d - 1) (fun a => lin (fun m => sact r m a) u) c m := by
    intro u
    rw [atKd_lin]
    induction u using Finsupp.induction_linear with
    | zero => simp
    | add f g hf hg => simp only [map_add, LinearMap.add_apply, hf, hg]
    | single a b => simp [callV]
  rw [h1, h2, h3]
  refine pr_tens_atKd (dr := ldrop) delK_supported (fun a => ?_) (fun a => ?_) c m
  · have := pr_ltens_sact (R := R) (r := r) hk a
    rw [← sg_natCast, hd] at this
    exact this
  · rw [sgn_sact hk, length_of_onto hk]
    congr 2
    push_cast
    omega

theorem sbd_supp {r : Nat} {c : Convention} {u : Surj →₀ R} (hu : u ∈ Finsupp.supported R R (OntoS r)) :
    sbd c u ∈ Finsupp.supported R R (OntoS r) := by
  have hconv : ∀ v : Surj →₀ R, v ∈ Finsupp.supported R R (OntoS r) →
      convS c v ∈ Finsupp.supported R R (OntoS r) := fun v hv =>
    lin_supported _ (fun k hk => Submodule.smul_mem _ _ (Finsupp.single_mem_supported R _ hk)) hv
  exact hconv _ (sdelL_supp (hconv _ hu))

theorem pr_callV_left {r : Nat} (hr : 1 ≤ r) {d : Int} {c : Nat} {u : Surj →₀ R}
    (hu : u ∈ Finsupp.supported R R (OntoS r)) (v : SKey →₀ R) :
    pr lany (callV R r d c (pr surjection.drops u) v) = pr lany (callV R r d c u v) := by
  have := BElem.bil_ext_supported (R := R)
    (f := ((callV R r d c).compr₂ (pr lany)).comp (pr surjection.drops))
    (g := (callV R r d c).compr₂ (pr lany)) (S := OntoS r) (T := Set.univ)
    (fun k hk m _ => by
      simp only [LinearMap.comp_apply, LinearMap.compr₂_apply]
      by_cases hd : surjection.drops k = true
      · rw [pr_single, if_pos hd]
        simp only [map_zero, LinearMap.zero_apply]
        rw [callV, bil_bv, lin_single, one_smul]
        exact (pr_atKd_of_zero (dr := ldrop) _ (fun a => pr_sact_degenerate (r := r) hk
          (Or.inl (hasRep_of_drops hr hk hd))) c m).symm
      · rw [pr_single, if_neg hd]) hu (v := v) (by simp)
  simpa using this

theorem pr_callV_right {r : Nat} {d : Int} {c : Nat} {u : Surj →₀ R}
    (hu : u ∈ Finsupp.supported R R (OntoS r)) (v : SKey →₀ R) :
    pr lany (callV R r d c u (pr lany v)) = pr lany (callV R r d c u v) := by
  have := BElem.bil_ext_supported (R := R)
    (f := ((callV R r d c).compr₂ (pr lany)).compl₂ (pr lany))
    (g := (callV R r d c).compr₂ (pr lany)) (S := OntoS r) (T := Set.univ)
    (fun k hk m _ => by
      simp only [LinearMap.compl₂_apply, LinearMap.compr₂_apply]
      by_cases hd : lany m = true
      · rw [pr_single, if_pos hd]
        simp only [map_zero]
        rw [callV, bil_bv, lin_single, one_smul]
        exact (pr_atKd (dr := ldrop) _ (fun a ha => pr_sact_degenerate (r := r) hk (Or.inr ha)) c m hd).symm
      · rw [pr_single, if_neg hd]) hu (v := v) (by simp)
  simpa using this

end Comch.SurjElem

namespace Comch.Props
open Comch.Spec Elem SurjComp SurjElem
open Finsupp (single)

variable {x : SurjElem} {y : SElem} {r a coord : Nat} {d e : Int}

theorem homogeneous_keys (hd : y.degree = some e) (ha : y.arity = some a) :
    ∀ p ∈ y.data, SElem.keyDegree p.1 = e ∧ p.1.length = a := by
  rw [SElem.degree, uniqueValue_eq_some] at hd
  rw [SElem.arity, uniqueValue_eq_some] at ha
  exact fun p hp => ⟨hd.2 _ (List.mem_map_of_mem hp), ha.2 _ (List.mem_map_of_mem hp)⟩

theorem homogeneous_keys_boundary (hd : y.degree = some e) (ha : y.arity = some a) :
    ∀ p ∈ y.boundary.data, SElem.keyDegree p.1 = e - 1 ∧ p.1.length = a := by
  intro p hp
  have hne := List.ne_nil_of_mem hp
  exact homogeneous_keys ((C22_boundary_degree y e hd).resolve_left hne)
    ((C22_boundary_arity y a ha).resolve_left hne) p hp

theorem sdeg_boundary (hx : InSurj r x) (hd : x.degree = some d) :
    ∀ p ∈ x.boundary.data, ((sdeg p.1 : Nat) : Int) = d - 1 := by
  intro p hp
  have hne := List.ne_nil_of_mem hp
  have := ((C47_boundary_degree hx d hd).2.resolve_left hne).1
  exact sdeg_of_degree (inSurj_boundary hx) this hp

/-- `∂(x(c)) = (∂x)(c) + (-1)^deg(x) x(∂c)` for `x` homogeneous in the convention of McClure and Smith,
acting on any factor of a homogeneous tensor of simplices; nothing raises. -/
theorem C52_chain_map (hx : InSurj r x) (hd : x.degree = some d)
    (hcv : x.attrs.convention = .mcClureSmith) (hy : y.NF simplicial) (hyd : y.degree = some e)
    (hya : y.arity = some a) (ht : y.torsion = x.torsion) (h1 : 1 ≤ coord) (h2 : coord ≤ a) :
    ∃ z zx zy w, callSimplicial x y coord = .ok z ∧ callSimplicial x.boundary y coord = .ok zx ∧
      callSimplicial x y.boundary coord = .ok zy ∧
      add simplicial zx (smul simplicial (pySign d) zy) = .ok w ∧ pyEq (z : SElem).boundary w = true := by
  have hk := homogeneous_keys hyd hya
  have hkb := homogeneous_keys_boundary hyd hya
  have hs : ∀ p ∈ x.data, ((sdeg p.1 : Nat) : Int) = d := fun p hp => sdeg_of_degree hx hd hp
  have tb : x.boundary.torsion = x.torsion := torsion_congr (SurjElem.boundary_attrs x)
  have tyb : y.boundary.torsion = x.torsion := by rw [torsion_congr (Props.boundary_attrs y), ht]
  obtain ⟨z, ez, nz, az, dz⟩ := call_ok hx hs hcv hy hk rfl ht h1 h2
  obtain ⟨zx, ezx, nzx, azx, dzx⟩ := call_ok (inSurj_boundary hx) (sdeg_boundary hx hd)
    (by rw [SurjElem.boundary_attrs, hcv]) hy hk tb ht h1 h2
  obtain ⟨zy, ezy, nzy, azy, dzy⟩ := call_ok hx hs hcv (Props.nf_boundary y) hkb rfl tyb h1 h2
  have tz : z.torsion = x.torsion := by rw [torsion_congr az, ht]
  have tzx : zx.torsion = x.torsion := by rw [torsion_congr azx, ht]
  have tzy : zy.torsion = x.torsion := by rw [torsion_congr azy, tyb]
  have tzb : (SElem.boundary z).torsion = x.torsion := by rw [torsion_congr (Props.boundary_attrs z), tz]
  obtain ⟨w, ew⟩ := add_ok (C := simplicial) (x := zx) (y := smul simplicial (pySign d) zy)
    (by rw [smul_torsion, tzx, tzy])
  refine ⟨z, zx, zy, w, ez, ezx, ezy, ew, pyEq_of_den (Props.nf_boundary z) (nf_add ew nzx) tzb
    (by rw [torsion_congr (attrs_add ew), tzx]) ?_⟩
  have hxne : x.data ≠ [] := by
    rw [SurjElem.degree, uniqueValue_eq_some] at hd
    simpa using hd.1
  obtain ⟨p, hp⟩ := List.exists_mem_of_ne_nil _ hxne
  have hr : 1 ≤ r := one_le_of_mem hx hp
  have hux := den_supp_onto (R := ZMod x.torsion) hx
  rw [Props.den_boundary z tz,
    den_add (R := ZMod x.torsion) ew nzx (nf_smul nzy _) (by simp) (by rw [tzx]; simp),
    den_smul nzy _ (by simp) (by rw [tzy]; simp), dz, dzx, dzy,
    SurjElem.den_boundary hx.nf rfl, Props.den_boundary y ht, simplicial_drops_lany, hcv,
    pr_callV_left hr (sbd_supp hux), pr_callV_right hux,
    pr_lin_pr _ (fun k hk => by
      have := pr_simplicialD (R := ZMod x.torsion) k
      rw [simplicial_drops_lany] at this
      exact this hk), cast_pySign, ← map_smul, ← map_add]
  refine den_induction (P := fun u => pr lany (simplicialD (callV (ZMod x.torsion) r d (coord - 1) u
      (den _ y.data))) = pr lany (callV _ r (d - 1) (coord - 1) (sbd .mcClureSmith u) (den _ y.data) +
        sg _ d • callV _ r d (coord - 1) u (simplicialD (den _ y.data)))) x.data (by simp)
      (fun u v hu hv => by
        simp only [map_add, LinearMap.add_apply, smul_add] at hu hv ⊢
        rw [hu, hv]; abel) ?_
  intro p hp
  refine den_induction (P := fun v => pr lany (simplicialD (callV (ZMod x.torsion) r d (coord - 1)
      (single p.1 (p.2 : ZMod x.torsion)) v)) =
      pr lany (callV _ r (d - 1) (coord - 1) (sbd .mcClureSmith (single p.1 (p.2 : ZMod x.torsion))) v +
        sg _ d • callV _ r d (coord - 1) (single p.1 (p.2 : ZMod x.torsion)) (simplicialD v))) y.data (by simp)
      (fun u v hu hv => by
        simp only [map_add, smul_add] at hu hv ⊢
        rw [hu, hv]; abel) ?_
  intro q hq
  have := pr_ltens_callV_bv (R := ZMod x.torsion) (hx.onto p hp) (hs p hp) (coord - 1) q.1
  rw [single_eq_smul_bv p.1, single_eq_smul_bv q.1]
  simp only [map_smul, LinearMap.smul_apply, map_add, smul_add] at this ⊢
  rw [show simplicialD (R := ZMod x.torsion) = ltens from rfl, this]
  simp only [smul_add]
  rw [smul_comm (sg (ZMod x.torsion) d) (q.2 : ZMod x.torsion),
    smul_comm (sg (ZMod x.torsion) d) (p.2 : ZMod x.torsion)]

theorem cat_supported {R : Type} [CommRing R] {S T U : Set SKey} {u v : SKey →₀ R}
    (h : ∀ k ∈ S, ∀ m ∈ T, k ++ m ∈ U) (hu : u ∈ Finsupp.supported R R S)
    (hv : v ∈ Finsupp.supported R R T) : cat u v ∈ Finsupp.supported R R U := by
  have : ∀ k ∈ S, cat (bv R k) v ∈ Finsupp.supported R R U := fun k hk => by
    rw [cat_single]
    exact mapK_supported _ (fun m hm => h k hk m hm) hv
  rw [Finsupp.mem_supported] at hu
  rw [← Finsupp.sum_single u, Finsupp.sum, map_sum, LinearMap.sum_apply]
  refine Submodule.sum_mem _ fun k hk => ?_
  rw [single_eq_smul_bv, map_smul, LinearMap.smul_apply]
  exact Submodule.smul_mem _ _ (this k (hu hk))

theorem callV_supported {R : Type} [CommRing R] {k : Surj} (hk : ∀ v, v ∈ k ↔ 1 ≤ v ∧ v ≤ r)
    (hd : ((sdeg k : Nat) : Int) = d) {c : Nat} {m : SKey} (hc : c < m.length) :
    atKd ldim d (sact (R := R) r k) c m ∈ Finsupp.supported R R
      {w : SKey | w.length + 1 = m.length + r ∧ SElem.keyDegree w = SElem.keyDegree m + d} := by
  have hg : m[c]? = some m[c] := List.getElem?_eq_getElem hc
  rw [atKd_eq _ _ _ _ _ hg, cat_bv_cat]
  refine Submodule.smul_mem _ _ ?_
  refine mapK_supported (T := {w : SKey | w.length + 1 = m.length + r ∧
    SElem.keyDegree w = SElem.keyDegree m + d}) _ (fun w hw => ?_) (sact_supported (R := R) hk m[c])
  obtain ⟨hw1, hw2⟩ := hw
  have e : m = m.take c ++ ([m[c]] ++ m.drop (c + 1)) := by
    rw [List.singleton_append, List.getElem_cons_drop, List.take_append_drop]
  have hl := length_of_onto hk
  constructor
  · conv_rhs => rw [e]
    simp only [List.length_append, hw1, List.length_cons, List.length_nil]
    omega
  · simp only [← totDeg_ldim] at *
    conv_rhs => rw [e]
    simp only [totDeg_append, hw2, totDeg]
    omega

/-- Acting with an element of arity `r` and degree `d` on a factor of a tensor of arity `a` and degree
`e` gives a tensor of arity `a + r - 1` and degree `e + d`, with the attributes of the tensor. -/
theorem C52_arity_degree (hx : InSurj r x) (hd : x.degree = some d)
    (hcv : x.attrs.convention = .mcClureSmith) (hy : y.NF simplicial) (hyd : y.degree = some e)
    (hya : y.arity = some a) (ht : y.torsion = x.torsion) (h1 : 1 ≤ coord) (h2 : coord ≤ a) :
    ∃ z, callSimplicial x y coord = .ok z ∧ z.NF simplicial ∧ z.attrs = y.attrs ∧
      ∀ p ∈ z.data, p.1.length + 1 = a + r ∧ SElem.keyDegree p.1 = e + d := by
  have hk := homogeneous_keys hyd hya
  have hs : ∀ p ∈ x.data, ((sdeg p.1 : Nat) : Int) = d := fun p hp => sdeg_of_degree hx hd hp
  obtain ⟨z, ez, nz, az, dz⟩ := call_ok hx hs hcv hy hk rfl ht h1 h2
  refine ⟨z, ez, nz, az, fun p hp => ?_⟩
  have tz : z.torsion = x.torsion := by rw [torsion_congr az, ht]
  have hsup : den (ZMod x.torsion) z.data ∈ Finsupp.supported (ZMod x.torsion) (ZMod x.torsion)
      {w : SKey | w.length + 1 = a + r ∧ SElem.keyDegree w = e + d} := by
    rw [dz]
    refine BElem.pr_supported ?_
    refine den_induction (P := fun u => callV (ZMod x.torsion) r d (coord - 1) u (den _ y.data) ∈
      Finsupp.supported (ZMod x.torsion) (ZMod x.torsion)
        {w : SKey | w.length + 1 = a + r ∧ SElem.keyDegree w = e + d}) x.data (by simp)
      (fun u v hu hv => by rw [map_add, LinearMap.add_apply]; exact Submodule.add_mem _ hu hv) ?_
    intro p hp
    refine den_induction (P := fun u => callV (ZMod x.torsion) r d (coord - 1) _ u ∈
      Finsupp.supported (ZMod x.torsion) (ZMod x.torsion)
        {w : SKey | w.length + 1 = a + r ∧ SElem.keyDegree w = e + d}) y.data (by simp)
      (fun u v hu hv => by rw [map_add]; exact Submodule.add_mem _ hu hv) ?_
    intro q hq
    rw [callV, bil_single]
    refine Submodule.smul_mem _ _ ?_
    have := callV_supported (R := ZMod x.torsion) (hx.onto p hp) (hs p hp) (c := coord - 1) (m := q.1)
      (by rw [(hk q hq).2]; omega)
    rwa [(hk q hq).1, (hk q hq).2] at this
  have := nz.mem_keys_iff.1 (List.mem_map_of_mem (f := Prod.fst) hp)
  rw [tz] at this
  exact (Finsupp.mem_supported _ _).1 hsup (Finsupp.mem_support_iff.2 this)

theorem call_bilSpec (r a coord : Nat) (d e : Int) (h1 : 1 ≤ coord) (h2 : coord ≤ a) :
    BilSpec simplicial (fun x : SurjElem => InSurj r x ∧ (∀ p ∈ x.data, ((sdeg p.1 : Nat) : Int) = d) ∧
        x.attrs.convention = .mcClureSmith)
      (fun y : SElem => y.NF simplicial ∧ ∀ p ∈ y.data, SElem.keyDegree p.1 = e ∧ p.1.length = a)
      (fun x y => callSimplicial x y coord)
      fun n => (callV (ZMod n) r d (coord - 1)).compr₂ (pr lany) := by
  rintro x y n ⟨hx, hd, hc⟩ ⟨hy, hk⟩ hn hyn
  obtain ⟨z, ez, nz, az, dz⟩ := call_ok hx hd hc hy hk hn hyn h1 h2
  exact ⟨z, ez, nz, (torsion_congr az).trans hyn, dz⟩

theorem degree_add {x x' t : SurjElem} (hd : ∀ p ∈ x.data, ((sdeg p.1 : Nat) : Int) = d)
    (hd' : ∀ p ∈ x'.data, ((sdeg p.1 : Nat) : Int) = d) (h : add surjection x x' = .ok t) :
    ∀ p ∈ t.data, ((sdeg p.1 : Nat) : Int) = d := by
  intro p hp
  rw [add_eq (torsion_eq_of_add h)] at h
  cases h
  rcases mem_keys_iaddCore (List.mem_map_of_mem (f := Prod.fst) hp) with h | h
  · obtain ⟨q, hq, e⟩ := List.mem_map.1 (mem_keys_create h)
    rw [← e]; exact hd q hq
  · obtain ⟨q, hq, e⟩ := List.mem_map.1 h
    rw [← e]; exact hd' q hq

theorem skeys_add {y y' t : SElem} (hd : ∀ p ∈ y.data, SElem.keyDegree p.1 = e ∧ p.1.length = a)
    (hd' : ∀ p ∈ y'.data, SElem.keyDegree p.1 = e ∧ p.1.length = a) (h : add simplicial y y' = .ok t) :
    ∀ p ∈ t.data, SElem.keyDegree p.1 = e ∧ p.1.length = a := by
  intro p hp
  rw [add_eq (torsion_eq_of_add h)] at h
  cases h
  rcases mem_keys_iaddCore (List.mem_map_of_mem (f := Prod.fst) hp) with h | h
  · obtain ⟨q, hq, e⟩ := List.mem_map.1 (mem_keys_create h)
    rw [← e]; exact hd q hq
  · obtain ⟨q, hq, e⟩ := List.mem_map.1 h
    rw [← e]; exact hd' q hq

/-- `(x + x')(c) = x(c) + x'(c)` for elements of the same arity and degree. -/
theorem C52_add_left {x x' t : SurjElem} (hx : InSurj r x) (hx' : InSurj r x') (hd : x.degree = some d)
    (hd' : x'.degree = some d) (hc : x.attrs.convention = .mcClureSmith)
    (hc' : x'.attrs.convention = .mcClureSmith) (ha : add surjection x x' = .ok t) (hy : y.NF simplicial)
    (hyd : y.degree = some e) (hya : y.arity = some a) (ht : x.torsion = y.torsion) (h1 : 1 ≤ coord)
    (h2 : coord ≤ a) :
    ∃ u v z w, callSimplicial x y coord = .ok u ∧ callSimplicial x' y coord = .ok v ∧
      callSimplicial t y coord = .ok z ∧ add simplicial u v = .ok w ∧ pyEq z w = true :=
  (call_bilSpec r a coord d e h1 h2).add_left rfl rfl hx.nf hx'.nf
    ⟨hx, fun p hp => sdeg_of_degree hx hd hp, hc⟩ ⟨hx', fun p hp => sdeg_of_degree hx' hd' hp, hc'⟩
    ⟨hy, homogeneous_keys hyd hya⟩ ht ha
    ⟨inSurj_add hx hx' ha, degree_add (fun p hp => sdeg_of_degree hx hd hp)
      (fun p hp => sdeg_of_degree hx' hd' hp) ha, by rw [attrs_add ha, hc]⟩

/-- `x(c + c') = x(c) + x(c')` for tensors of the same arity and degree. -/
theorem C52_add_right {y y' t : SElem} (hx : InSurj r x) (hd : x.degree = some d)
    (hc : x.attrs.convention = .mcClureSmith) (hy : y.NF simplicial) (hy' : y'.NF simplicial)
    (hyd : y.degree = some e) (hya : y.arity = some a) (hyd' : y'.degree = some e) (hya' : y'.arity = some a)
    (ha : add simplicial y y' = .ok t) (ht : x.torsion = y.torsion) (h1 : 1 ≤ coord) (h2 : coord ≤ a) :
    ∃ u v z w, callSimplicial x y coord = .ok u ∧ callSimplicial x y' coord = .ok v ∧
      callSimplicial x t coord = .ok z ∧ add simplicial u v = .ok w ∧ pyEq z w = true :=
  (call_bilSpec r a coord d e h1 h2).add_right rfl rfl hy hy'
    ⟨hx, fun p hp => sdeg_of_degree hx hd hp, hc⟩ ⟨hy, homogeneous_keys hyd hya⟩
    ⟨hy', homogeneous_keys hyd' hya'⟩ ht ha
    ⟨nf_add ha hy, skeys_add (homogeneous_keys hyd hya) (homogeneous_keys hyd' hya') ha⟩

/-- A factor that does not exist, different torsions, the signs of Berger and Fresse, and inhomogeneous
surjections raise. -/
theorem C52_errors (hx : x.data ≠ []) (hy : y.data ≠ []) :
    (x.degree = none ∨ x.arity = none → callSimplicial x y coord = .error .typeError) ∧
    (y.arity = some a → a < coord → callSimplicial x y coord = .error .typeError) ∧
    (x.torsion ≠ y.torsion → callSimplicial x y coord = .error .typeError) ∧
    (∀ r d, x.degree = some d → x.arity = some r → y.arity = some a → coord ≤ a → x.torsion = y.torsion →
      x.attrs.convention = .bergerFresse → callSimplicial x y coord = .error .notImplementedError) := by
  unfold callSimplicial
  rw [if_neg (by simpa [truthy] using ⟨hx, hy⟩)]
  refine ⟨?_, ?_, ?_, ?_⟩
  · rintro (h | h)
    · rw [h]
    · rw [h]; cases x.degree <;> rfl
  · intro h1 h2
    rw [h1]
    rcases x.degree with _ | d <;> rcases x.arity with _ | r <;> simp [h2]
  · intro h
    rcases x.degree with _ | d <;> rcases x.arity with _ | r <;> rcases y.arity with _ | b <;> simp [h]
  · intro r d h1 h2 h3 h4 h5 h6
    rw [h1, h2, h3]
    simp [not_lt.2 h4, h5, h6]

/-- Zero acts as zero and on zero. -/
theorem C52_zero (h : x.data = [] ∨ y.data = []) :
    ∃ z, callSimplicial x y coord = .ok z ∧ z.data = [] ∧ z.attrs = y.attrs := by
  unfold callSimplicial
  rw [if_pos (by simpa [truthy] using h)]
  exact ⟨_, rfl, by simp, by simp⟩

/-! ### the surjections of degree zero -/

theorem smaller_eq_zero {l : List Nat} {x : Nat} (h : ∀ y ∈ l, x ≤ y) : smaller l x = 0 := by
  induction l with
  | nil => simp [smaller]
  | cons y l ih =>
    have h1 : ¬ (y ∈ l ∧ y < x) := fun h' => by have := h y (by simp); omega
    rw [smaller_cons, ih fun z hz => h z (by simp [hz]), if_neg h1]

theorem invE_sorted {l : List Nat} (h : l.Pairwise (· ≤ ·)) : invE l = 0 := by
  induction l with
  | nil => rfl
  | cons y l ih =>
    rw [List.pairwise_cons] at h
    rw [invE, ih h.2, smaller_eq_zero h.1]
    simp

theorem sdeg_nodup {l : List Nat} (h : l.Nodup) : sdeg l = 0 := by
  induction l with
  | nil => rfl
  | cons y l ih =>
    rw [List.nodup_cons] at h
    rw [sdeg, ih h.2, if_neg h.1]

theorem pathE_nodup {l : List Nat} (h : l.Nodup) (ps : List (List Nat)) : pathE l ps = 0 := by
  induction l generalizing ps with
  | nil => cases ps <;> rfl
  | cons y l ih =>
    cases ps with
    | nil => rfl
    | cons p ps => rw [pathE, sdeg_nodup h, ih (List.nodup_cons.1 h).2]; simp

theorem letters_joinW_sorted {l : List Nat} (h : l.Pairwise (· ≤ ·)) {ps : List (List Nat)}
    (hl : ps.length = l.length) (hne : ∀ p ∈ ps, p ≠ []) : (letters (joinW l ps)).Pairwise (· ≤ ·) := by
  induction l generalizing ps with
  | nil => simp
  | cons y l ih =>
    cases ps with
    | nil => simp at hl
    | cons p ps =>
      have hl' : ps.length = l.length := by simpa using hl
      have hne' : ∀ q ∈ ps, q ≠ [] := fun q hq => hne q (by simp [hq])
      rw [List.pairwise_cons] at h
      rw [letters_joinW_cons, List.pairwise_append]
      refine ⟨?_, ih h.2 hl' hne', ?_⟩
      · rw [List.pairwise_replicate]; simp
      · intro u hu v hv
        rw [List.eq_of_mem_replicate hu]
        exact h.1 v ((mem_letters_joinW hl' hne' v).1 hv)

theorem labels_map_append (p : List Nat) (x i : Nat) (W : LW) :
    labels (p.map (fun b => (x, b)) ++ W) i = (if x = i then p else []) ++ labels W i := by
  unfold labels
  rw [List.filter_append, List.map_append]
  congr 1
  by_cases h : x = i
  · subst h
    simp [List.filter_map, Function.comp_def]
  · simp [List.filter_map, Function.comp_def, h]

theorem tensorFrom_joinW {b n : Nat} {ps : List (List Nat)} (hl : ps.length = n)
    (hne : ∀ p ∈ ps, p ≠ []) : tensorFrom b n (joinW (List.range' b n) ps) = ps := by
  induction n generalizing b ps with
  | zero => rw [List.length_eq_zero_iff.1 hl]; rfl
  | succ n ih =>
    cases ps with
    | nil => simp at hl
    | cons p ps =>
      have hl' : ps.length = n := by simpa using hl
      have hne' : ∀ q ∈ ps, q ≠ [] := fun q hq => hne q (by simp [hq])
      rw [List.range'_succ, joinW_cons, tensorFrom, List.range'_succ, List.map_cons, labels_map_append,
        if_pos rfl]
      have h0 : labels (joinW (List.range' (b + 1) n) ps) b = [] := by
        unfold labels
        rw [List.map_eq_nil_iff, List.filter_eq_nil_iff]
        intro u hu hub
        have hm : u.1 ∈ letters (joinW (List.range' (b + 1) n) ps) := List.mem_map_of_mem hu
        rw [mem_letters_joinW (by simpa using hl') hne', List.mem_range'_1] at hm
        simp at hub
        omega
      rw [h0, List.append_nil]
      congr 1
      have := ih (b := b + 1) hl' hne'
      conv_rhs => rw [← this]
      unfold tensorFrom
      apply List.map_congr_left
      intro i hi
      rw [List.mem_range'_1] at hi
      rw [labels_map_append, if_neg (by omega), List.nil_append]

theorem sact_identity {R : Type} [CommRing R] (hr : 1 ≤ r) {V : List Nat} (hV : V ≠ []) :
    sact (R := R) r (List.range' 1 r) V = aw (r - 1) V := by
  have hk : List.range' 1 r ≠ [] := by
    rw [ne_eq, List.range'_eq_nil_iff]; omega
  rw [← sact_eq r hk hV, List.length_range']
  have hsort : (List.range' 1 r).Pairwise (· ≤ ·) := List.Pairwise.imp (fun h => by omega) (List.pairwise_lt_range' (s := 1) (n := r) 1)
  have := BElem.lin_ext_supported (R := R) (f := lin (cutTerm (R := R) r (List.range' 1 r)))
    (g := LinearMap.id) (fun ps hps => by
      have hl : ps.length = (List.range' 1 r).length := by rw [hps.1, List.length_range']; omega
      rw [lin_single, one_smul, cutTerm, sg_computeSign hl hps.2.1,
        invE_sorted (letters_joinW_sorted hsort hl hps.2.1), invE_sorted hsort,
        pathE_nodup (List.nodup_range' (step := 1)), tensorOf,
        tensorFrom_joinW (by rw [hl, List.length_range']) hps.2.1]
      simp) (aw_supported (R := R) (r - 1) hV)
  simpa using this

/-- The surjection `(1, …, r)` acts as the iterated diagonal. -/
theorem C52_identity_diagonal {u : SurjElem} (hu : u.NF surjection) (hr : 1 ≤ r)
    (hud : u.data = [(List.range' 1 r, 1)]) (hcv : u.attrs.convention = .mcClureSmith)
    (hy : y.NF simplicial) (hyd : y.degree = some e) (hya : y.arity = some a) (ht : y.torsion = u.torsion)
    (h1 : 1 ≤ coord) (h2 : coord ≤ a) :
    ∃ z w, callSimplicial u y coord = .ok z ∧ y.iteratedDiagonal (r - 1) coord = .ok w ∧ pyEq z w = true := by
  have hk := homogeneous_keys hyd hya
  have hi : InSurj r u := ⟨hu, fun p hp v => by
    rw [hud] at hp; simp at hp; subst hp; rw [List.mem_range'_1]; omega⟩
  obtain ⟨z, ez, nz, az, dz⟩ := call_ok (d := 0) hi (fun p hp => by
    rw [hud] at hp; simp at hp; subst hp
    rw [sdeg_nodup (List.nodup_range' (step := 1))]; rfl) hcv hy hk rfl ht h1 h2
  obtain ⟨w, hw, hwnf, hwa, -, hwd⟩ := iteratedDiagonal_ok hy hyd hya (r - 1) coord h1 h2
  rw [ht] at hwd
  refine ⟨z, w, ez, hw, pyEq_of_den (n := u.torsion) nz hwnf (by rw [torsion_congr az, ht])
    (by rw [torsion_congr hwa, ht]) ?_⟩
  rw [dz, hwd, hud]
  congr 1
  refine den_induction (P := fun v => callV (ZMod u.torsion) r 0 (coord - 1)
      (den (ZMod u.torsion) [(List.range' 1 r, 1)]) v = atL (aw (r - 1)) (coord - 1) v) y.data (by simp)
    (fun u v hu hv => by rw [map_add, map_add, hu, hv]) ?_
  intro q hq
  have hcl : coord - 1 < q.1.length := by rw [(hk q hq).2]; omega
  have hg : q.1[coord - 1]? = some q.1[coord - 1] := List.getElem?_eq_getElem hcl
  rw [den_cons, den_nil, add_zero, callV, bil_single, atL_single, atKd_eq _ _ _ _ _ hg, atK_eq _ _ _ _ hg,
    sact_identity hr (nf_ne_nil hy hq _ (List.getElem_mem hcl))]
  simp

/-! ### Examples -/

/-- A tensor of two simplices. -/
abbrev exSS : SElem := Elem.new simplicial [([[0, 1, 2], [3, 4]], 2), ([[0, 1, 4, 5], [2]], -1)] (some 5)

example : InSurj 3 (exSu .mcClureSmith) ∧ (exSu .mcClureSmith).degree = some 2 ∧
    exSS.NF simplicial ∧ SElem.degree exSS = some 3 ∧ SElem.arity exSS = some 2 ∧
    exSS.torsion = (exSu .mcClureSmith).torsion ∧
    (((exSu .mcClureSmith).callSimplicial exSS 1).toOption.map fun z => z.data.length) = some 17 := by
  refine ⟨exSu_in _, by decide +kernel, nf_new _ (by decide) _ _, by decide +kernel, by decide +kernel, rfl,
    by decide +kernel⟩

example : (SurjElem.callSimplicial (Elem.new surjection [([1, 2, 1], 1)] none .mcClureSmith)
    (Simplicial.standardElement 2)).toOption.map Elem.data =
      some [([[0, 1, 2], [0, 1]], -1), ([[0, 2], [0, 1, 2]], 1), ([[0, 1, 2], [1, 2]], -1)] := by
  decide +kernel

example : (SurjElem.callSimplicial (Elem.new surjection [([1, 2, 1], 1)] none .mcClureSmith)
    (Elem.new simplicial [([[0, 1], [2, 3]], 1)]) 2).toOption.map Elem.data =
      some [([[0, 1], [2, 3], [2, 3]], -1)] := by decide +kernel

end Comch.Props
