import Verif.Props.SurjSuspension
import Verif.Props.SurjAction
import Verif.Lib.SurjSuspComp

/-! # C117: suspension, boundary, action and composition -/

set_option linter.unusedSectionVars false

namespace Comch.SurjElem
open Elem Spec SurjComp
open Finsupp (single)

variable {r : Nat} {x : SurjElem}

theorem den_suspEvents {R : Type} [CommRing R] (hr : 1 ≤ r) {x : SurjElem} (hx : InSurj r x) :
    den R (x.data.flatMap (suspEvents r)) = susT R r [] (den R x.data) := by
  rw [susT]
  refine den_events (R := R) x.data (fun k v => suspEvents r (k, v)) _ fun p hp => ?_
  have hl := le_length_of_onto (hx.onto p hp)
  unfold suspEvents eps
  simp only [List.nil_append, List.length_nil, Nat.sub_zero]
  split_ifs
  · simp [mul_smul]
  · simp

/-- A word with a repetition has no suspension without one. -/
theorem susT_rep {R : Type} [CommRing R] {p k m : List Nat} (hp : p.length < r) (hk : hasRep k = true)
    (hm : hasRep m = false) : susT R r p (bv R k) m = 0 := by
  induction k generalizing p with
  | nil => simp [hasRep] at hk
  | cons a k ih =>
    rw [show bv R (a :: k) = consV a (bv R k) by simp]
    by_cases hl : p.length + 2 ≤ r
    · rw [susT_cons hl]
      cases k with
      | nil => simp [hasRep] at hk
      | cons b k =>
        by_cases e : a = b
        · subst e
          rw [show bv R (a :: k) = consV a (bv R k) by simp, susT_dup (by simp [List.nodup_append]) _ (by simp; omega)]
          rfl
        · exact ih (by simp; omega) (by simpa [hasRep, e] using hk)
    · rw [susT_last (by omega), Finsupp.smul_apply]
      have : consV a (bv R k) m = 0 := by
        rw [consV_single, Finsupp.single_apply, if_neg]
        rintro rfl
        rw [hk] at hm
        cases hm
      rw [this, smul_zero]

theorem susT_pr {R : Type} [CommRing R] (hr : 1 ≤ r) {v : Surj →₀ R}
    (hv : v ∈ Finsupp.supported R R (OntoS r)) {m : Surj} (hm : hasRep m = false) :
    susT R r [] (pr surjection.drops v) m = susT R r [] v m := by
  have := BElem.lin_ext_supported (R := R) (M := R)
    (f := (Finsupp.lapply m).comp ((susT R r []).comp (pr surjection.drops)))
    (g := (Finsupp.lapply m).comp (susT R r [])) (S := OntoS r) (fun k hk => by
      simp only [LinearMap.comp_apply, Finsupp.lapply_apply, pr_single]
      split
      · rename_i h
        rw [susT_rep (by simp; omega) (hasRep_of_drops hr hk h) hm]
        simp
      · rfl) hv
  exact this

theorem eps_mulL {R : Type} [CommRing R] {q k : List Nat} (hq : IsPerm r q) (hk : Rng r k) :
    eps R r (k.map (value q)) = (-1) ^ inversions q * eps R r k := by
  unfold eps
  by_cases h : IsPerm r k
  · have h' : IsPerm r (k.map (value q)) := IsPerm.isPerm_mulL hq h
    rw [if_pos h, if_pos h']
    have e := congrArg (Int.cast (R := R)) (IsPerm.inversions_mulL hq h)
    push_cast at e
    exact e
  · rw [if_neg h, if_neg, mul_zero]
    intro h'
    apply h
    refine ⟨by simpa using h'.length, List.Nodup.of_map _ h'.nodup, hk⟩

theorem map_inj_on {f : Nat → Nat} {k m : List Nat} (hf : ∀ a ∈ k, ∀ b ∈ m, f a = f b → a = b)
    (h : k.map f = m.map f) : k = m := by
  induction k generalizing m with
  | nil => symm at h; simpa using h.symm
  | cons a k ih =>
    cases m with
    | nil => simp at h
    | cons b m =>
      simp only [List.map_cons, List.cons.injEq] at h
      rw [hf a (by simp) b (by simp) h.1, ih (fun a ha b hb => hf a (by simp [ha]) b (by simp [hb])) h.2]

theorem nd_rep {m : Surj} (h : NonDegenerate r m) : hasRep m = false := hasRep_eq_false h.noRepeat

/-- The coefficients of the suspension, as a vector. -/
theorem suspension_ok (hr : 1 ≤ r) (hx : InSurj r x) (hd : x.data = [] ∨ ∃ d, x.degree = some d)
    (hc : x.attrs.convention = .bergerFresse) {n : Nat} (hn : x.torsion = n) :
    ∃ z, suspension x = .ok z ∧ z.NF surjection ∧ z.attrs = x.attrs ∧
      den (ZMod n) z.data = pr surjection.drops (susT _ r [] (den (ZMod n) x.data)) := by
  by_cases hne : x.data = []
  · refine ⟨x, ?_, hx.nf, rfl, by rw [hne]; simp⟩
    unfold suspension
    rw [show x.truthy = false by simp [truthy, hne]]
    rfl
  · obtain ⟨d, hd⟩ := hd.resolve_left hne
    refine ⟨_, suspension_eq hx hne hd hc, nf_accumulate_zero _ _ _, by simp, ?_⟩
    rw [den_accumulate_zero' _ _ _ rfl hn, den_suspEvents hr hx]

theorem coeff_den {z : SurjElem} (hz : z.NF surjection) {n : Nat} {v : Surj →₀ ZMod n}
    (h : den (ZMod n) z.data = pr surjection.drops v) (hr : 1 ≤ r) {m : Surj} (hm : NonDegenerate r m) :
    ((z.coeff m : Int) : ZMod n) = v m := by
  have h2 := DFunLike.congr_fun h m
  rw [Dict.den_apply hz.nodup, pr_apply, surj_kept hr hm] at h2
  simpa [coeff] using h2

theorem arity_pos_or (hx : InSurj r x) : 1 ≤ r ∨ x.data = [] := by
  rcases h : x.data with _ | ⟨p, l⟩
  · exact Or.inr rfl
  · exact Or.inl (one_le_of_mem hx (p := p) (by rw [h]; simp))

/-- Only the nondegenerate surjections of the right arity contribute to a composite. -/
theorem cmp_degenerate {R : Type} [CommRing R] {i s : Nat} (hi : 1 ≤ i) (hir : i ≤ r) (hs : 1 ≤ s)
    {m : Surj} (hm : NonDegenerate (r + s - 1) m) {k1 k2 : Surj} (hk1 : Rng r k1) (hk2 : Rng s k2)
    (h : ¬ NonDegenerate r k1 ∨ ¬ NonDegenerate s k2) : cmp (R := R) i s k1 k2 m = 0 := by
  have rep : ∀ v : Surj →₀ R, pr hasRep v = 0 → v m = 0 := by
    intro v hv
    have := DFunLike.congr_fun hv m
    rwa [pr_apply, nd_rep hm, if_neg (by simp)] at this
  have hup : ∀ b, 1 ≤ b ∧ b ≤ s → up i b ∈ m := fun b hb =>
    (hm.onto _).2 ⟨by unfold up; omega, by unfold up; omega⟩
  by_cases hik : i ∈ k1
  swap
  · exact cmp_no_i hk2 hi hs hik ⟨le_rfl, hs⟩ (hup 1 ⟨le_rfl, hs⟩)
  have nd : ∀ {q : Nat} {k : Surj}, Rng q k → ¬ NonDegenerate q k →
      hasRep k = true ∨ ∃ v, 1 ≤ v ∧ v ≤ q ∧ v ∉ k := by
    intro q k hk hn
    by_contra hc
    push Not at hc
    refine hn ⟨fun v => ⟨hk v, fun hv => hc.2 v hv.1 hv.2⟩, ?_⟩
    intro j hj
    exact noRepeat_of_hasRep (by simpa using hc.1) j hj
  rcases h with h | h
  · rcases nd hk1 h with h | ⟨v, h1, h2, h3⟩
    · exact rep _ (pr_cmp_left _ _ h)
    · have hvi : v ≠ i := fun e => h3 (e ▸ hik)
      exact cmp_miss_outer hk2 hi hs h3 hvi ((hm.onto _).2 (by unfold sh; split <;> omega))
  · rcases nd hk2 h with h | ⟨v, h1, h2, h3⟩
    · exact rep _ (pr_cmp_right _ _ hik h)
    · exact cmp_miss_inner hk2 hi hs h3 ⟨h1, h2⟩ (hup v ⟨h1, h2⟩)

open Classical in
/-- Restriction to the nondegenerate surjections of arity `r`. -/
noncomputable def ndr (R : Type) [CommRing R] (r : Nat) : (Surj →₀ R) →ₗ[R] (Surj →₀ R) :=
  pr fun k => decide (¬ NonDegenerate r k)

theorem susT_rng {R : Type} [CommRing R] {S : Set Surj} (hS : ∀ k ∈ S, Rng r k) {v : Surj →₀ R}
    (hv : v ∈ Finsupp.supported R R S) : susT R r [] v ∈ Finsupp.supported R R {k : Surj | Rng r k} := by
  refine lin_supported _ (fun k hk => ?_) hv
  apply Submodule.smul_mem
  exact Finsupp.single_mem_supported R _ fun a ha => hS k hk a (List.mem_of_mem_drop ha)

theorem cmpV_ndr {R : Type} [CommRing R] {i s : Nat} (hi : 1 ≤ i) (hir : i ≤ r) (hs : 1 ≤ s)
    {m : Surj} (hm : NonDegenerate (r + s - 1) m) {u v : Surj →₀ R}
    (hu : u ∈ Finsupp.supported R R {k : Surj | Rng r k}) (hv : v ∈ Finsupp.supported R R {k : Surj | Rng s k}) :
    cmpV R i s (ndr R r u) (ndr R s v) m = cmpV R i s u v m := by
  have := BElem.bil_ext_supported (R := R) (M := R)
    (f := ((cmpV R i s).compl₁₂ (ndr R r) (ndr R s)).compr₂ (Finsupp.lapply m))
    (g := (cmpV R i s).compr₂ (Finsupp.lapply m))
    (fun k1 hk1 k2 hk2 => by
      simp only [LinearMap.compr₂_apply, LinearMap.compl₁₂_apply, Finsupp.lapply_apply, ndr, pr_single]
      have e : cmpV R i s (bv R k1) (bv R k2) m = cmp i s k1 k2 m := by simp [cmpV, bil_single]
      by_cases h1 : NonDegenerate r k1
      · by_cases h2 : NonDegenerate s k2
        · simp [h1, h2]
        · rw [e, cmp_degenerate hi hir hs hm hk1 hk2 (Or.inr h2)]
          simp [h1, h2]
      · rw [e, cmp_degenerate hi hir hs hm hk1 hk2 (Or.inl h1)]
        simp [h1]) hu hv
  exact this

end Comch.SurjElem

namespace Comch.Props
open Comch Elem Spec SurjElem SurjComp
open Finsupp (single)

variable {r s i : Nat} {x y : SurjElem}

/-- In the arity of `x` suspension commutes with the boundary up to the sign `(-1)^(r-1)`. -/
theorem C117_boundary (hr : 1 ≤ r) (hx : InSurj r x) {d : Int} (hd : x.degree = some d)
    (hc : x.attrs.convention = .bergerFresse) :
    ∃ z zb, suspension x = .ok z ∧ suspension x.boundary = .ok zb ∧
      ∀ m, NonDegenerate r m → zb.coeff m ≡ (-1) ^ (r - 1) * z.boundary.coeff m [ZMOD x.torsion] := by
  have cb : x.boundary.attrs = x.attrs := SurjElem.boundary_attrs x
  obtain ⟨z, ez, nz, az, dz⟩ := suspension_ok hr hx (Or.inr ⟨d, hd⟩) hc rfl
  obtain ⟨hb, hdeg⟩ := C47_boundary_degree hx d hd
  obtain ⟨zb, ezb, nzb, azb, dzb⟩ := suspension_ok hr hb (hdeg.imp id fun h => ⟨_, h.1⟩)
    (by rw [cb]; exact hc) (n := x.torsion) (torsion_congr cb)
  refine ⟨z, zb, ez, ezb, fun m hm => ?_⟩
  rw [← ZMod.intCast_eq_intCast_iff]
  push_cast
  have dzz := den_boundary_bf nz (Or.inr (by rw [az]; exact hc)) (torsion_congr az)
  rw [coeff_den nzb dzb hr hm, coeff_den (SurjElem.nf_boundary z) dzz hr hm, dz,
    den_boundary_bf hx.nf (Or.inr hc) rfl, susT_pr hr (sdelL_supp (den_supp_onto hx)) (nd_rep hm)]
  have e1 : sdelL (R := ZMod x.torsion) (pr surjection.drops (susT _ r [] (den _ x.data))) m =
      sdelL (susT _ r [] (den _ x.data)) m := by
    have h := pr_lin_pr (R := ZMod x.torsion) (drops := surjection.drops) (drops' := surjection.drops) sdelL
      (fun k hk => by simpa [sdelL] using pr_surj_sdel hk) (susT _ r [] (den _ x.data))
    have h2 := DFunLike.congr_fun h m
    rwa [pr_apply, pr_apply, surj_kept hr hm, if_neg (by simp), if_neg (by simp)] at h2
  rw [e1]
  have := BElem.lin_ext_supported (R := ZMod x.torsion) (M := ZMod x.torsion)
    (f := (Finsupp.lapply m).comp ((susT _ r []).comp sdelL))
    (g := (-1 : ZMod x.torsion) ^ (r - 1) • (Finsupp.lapply m).comp (sdelL.comp (susT _ r []))) (S := OntoS r)
    (fun k hk => by
      simp only [LinearMap.comp_apply, Finsupp.lapply_apply, LinearMap.smul_apply, smul_eq_mul]
      rw [← sus_boundary hr (fun a ha => (hk a).1 ha) (fun v h1 h2 => (hm.onto v).2 ⟨h1, h2⟩)]
      simp [sdelL]) (den_supp_onto hx)
  exact this

/-- Suspension is equivariant up to the sign of the permutation: the coefficient of `σ · m` in the suspension
of `σ · x` is `sgn σ` times the coefficient of `m` in the suspension of `x`. -/
theorem C117_equivariance (hr : 1 ≤ r) {q : Perm} (hq : IsPerm r q) {g : RingElem} (hg : InRing r g)
    (hgd : g.data = [(q, 1)]) (hx : InSurj r x) (ts : g.torsion = x.torsion) {d : Int} (hd : x.degree = some d)
    (hc : x.attrs.convention = .bergerFresse) :
    ∃ w z zw, rmul g x = .ok w ∧ suspension x = .ok z ∧ suspension w = .ok zw ∧
      ∀ m, NonDegenerate r m →
        zw.coeff (m.map (value q)) ≡ (-1) ^ inversions q * z.coeff m [ZMOD x.torsion] := by
  have hxn : x.data ≠ [] := by
    rw [SurjElem.degree, uniqueValue_eq_some] at hd
    simpa using hd.1
  obtain ⟨w, ew, iw, aw, dw, -⟩ := C48_act_coeff hr hg (by simp [hgd]) hx hxn ts
  obtain ⟨z, ez, nz, az, dz⟩ := suspension_ok hr hx (Or.inr ⟨d, hd⟩) hc rfl
  obtain ⟨zw, ezw, nzw, azw, dzw⟩ := suspension_ok hr iw ((dw d hd).imp id fun h => ⟨_, h⟩)
    (by rw [aw]; exact hc) (n := x.torsion) (torsion_congr aw)
  refine ⟨w, z, zw, ew, ez, ezw, fun m hm => ?_⟩
  have hm' : NonDegenerate r (m.map (value q)) := by
    refine ⟨Onto.mulL hq hm.onto, ?_⟩
    intro j hj
    simp only [List.length_map] at hj
    have h1 : j < m.length := by omega
    simp only [List.getD_eq_getElem?_getD, List.getElem?_map, List.getElem?_eq_getElem h1,
      List.getElem?_eq_getElem hj, Option.map_some, Option.getD_some]
    have := hm.noRepeat j hj
    simp only [List.getD_eq_getElem?_getD, List.getElem?_eq_getElem h1,
      List.getElem?_eq_getElem hj, Option.getD_some] at this
    intro e
    exact this (IsPerm.value_inj hq ((hm.onto _).1 (List.getElem_mem h1)) ((hm.onto _).1 (List.getElem_mem hj)) e)
  rw [← ZMod.intCast_eq_intCast_iff]
  push_cast
  rw [coeff_den nzw dzw hr hm', coeff_den nz dz hr hm]
  have dww : den (ZMod x.torsion) w.data = pr surjection.drops (mapK (IsPerm.mulL q) (den _ x.data)) := by
    have e2 := ew
    rw [SurjElem.rmul_eq hr hg (by simp [hgd]) hx hxn ts] at e2
    cases e2
    rw [den_accumulate_zero' _ _ _ rfl rfl, hgd, hc]
    rw [mapK_den]
    congr 2
    have hps : pySign (((0 : Nat) : Int) + ((0 : Nat) : Int)) = 1 := by decide
    generalize x.data = l
    induction l with
    | nil => rfl
    | cons p l ih => simp only [pyProduct, List.flatMap_cons, List.map_append, List.map_cons, List.map_nil, convE,
        hps, one_mul, mul_one, List.singleton_append] at ih ⊢; rw [ih]
  rw [dww, susT_pr hr (mapK_supported (S := OntoS r) _ (fun k hk => Onto.mulL hq hk) (den_supp_onto hx)) (nd_rep hm')]
  have := BElem.lin_ext_supported (R := ZMod x.torsion) (M := ZMod x.torsion)
    (f := (Finsupp.lapply (m.map (value q))).comp ((susT _ r []).comp (mapK (IsPerm.mulL q))))
    (g := (-1 : ZMod x.torsion) ^ inversions q • (Finsupp.lapply m).comp (susT _ r [])) (S := OntoS r)
    (fun k hk => by
      simp only [LinearMap.comp_apply, Finsupp.lapply_apply, LinearMap.smul_apply, smul_eq_mul, mapK_single]
      rw [susT_bv, susT_bv]
      simp only [List.nil_append, List.length_nil, Nat.sub_zero, Finsupp.smul_apply, smul_eq_mul, IsPerm.mulL,
        ← List.map_take, ← List.map_drop]
      rw [eps_mulL hq (fun a ha => (hk a).1 (List.mem_of_mem_take ha)), mul_assoc]
      congr 2
      rw [Finsupp.single_apply, Finsupp.single_apply]
      congr 1
      rw [eq_iff_iff]
      constructor
      · intro e
        exact map_inj_on (fun a ha b hb => IsPerm.value_inj hq ((hk a).1 (List.mem_of_mem_drop ha)) ((hm.onto b).1 hb)) e
      · rintro rfl; rfl) (den_supp_onto hx)
  exact this

theorem den_ndr {n : Nat} {u z : SurjElem} (hr : 1 ≤ r) (hu : InSurj r u) (hz : z.NF surjection)
    {v : Surj →₀ ZMod n} (h : den (ZMod n) z.data = pr surjection.drops v)
    (he : ∀ m, NonDegenerate r m → u.coeff m ≡ z.coeff m [ZMOD n]) : den (ZMod n) u.data = ndr _ r v := by
  ext k
  rw [Dict.den_apply hu.nf.nodup, ndr, pr_apply]
  by_cases hk : NonDegenerate r k
  · have := (ZMod.intCast_eq_intCast_iff _ _ _).2 (he k hk)
    rw [coeff_den hz h hr hk] at this
    simpa [hk] using this
  · have : Dict.get u.data k = 0 := by
      apply Dict.get_of_not_mem
      intro hmem
      obtain ⟨p, hp, rfl⟩ := List.mem_map.1 hmem
      apply hk
      exact ⟨hu.onto p hp, noRepeat_of_hasRep (surj_kept_iff.1 (hu.nf.kept p hp)).2.2⟩
    simp [hk, this]

/-- The part of arity `r` of the suspension is an element of the operad, of degree `d - r + 1`. -/
theorem C117_part (hx : InSurj r x) {d : Int} (hd : x.degree = some d)
    (hc : x.attrs.convention = .bergerFresse) :
    ∃ z u, suspension x = .ok z ∧ InSurj r u ∧ u.attrs = x.attrs ∧
      (u.data = [] ∨ u.degree = some (d - r + 1)) ∧
      ∀ m, NonDegenerate r m → u.coeff m = z.coeff m := by
  classical
  have hxn : x.data ≠ [] := by
    rw [SurjElem.degree, uniqueValue_eq_some] at hd
    simpa using hd.1
  obtain ⟨z, ez, nz, az, kz, -⟩ := C55_suspension hx hxn hd hc
  have hsub : (z.data.filter (fun p => decide (∀ v, v ∈ p.1 ↔ 1 ≤ v ∧ v ≤ r))).Sublist z.data := List.filter_sublist
  refine ⟨z, ⟨z.data.filter fun p => decide (∀ v, v ∈ p.1 ↔ 1 ≤ v ∧ v ≤ r), z.attrs⟩, ez, ⟨⟨?_, ?_, ?_, ?_⟩, ?_⟩,
    az, ?_, ?_⟩
  · exact nz.nodup.sublist (hsub.map _)
  · exact fun p hp => nz.coeff_ne p (hsub.subset hp)
  · exact fun h p hp => nz.coeff_range h p (hsub.subset hp)
  · exact fun p hp => nz.kept p (hsub.subset hp)
  · intro p hp
    simpa using (List.mem_filter.1 hp).2
  · rw [or_iff_not_imp_left]
    intro hne
    rw [SurjElem.degree, uniqueValue_eq_some]
    refine ⟨by simpa using hne, ?_⟩
    intro b hb
    obtain ⟨p, hp, rfl⟩ := List.mem_map.1 hb
    have h1 := (kz p (hsub.subset hp)).1
    have h2 : ∀ v, v ∈ p.1 ↔ 1 ≤ v ∧ v ≤ r := by simpa using (List.mem_filter.1 hp).2
    rw [keyDegree, pyMax_of_onto h2, h1]
    ring
  · intro m hm
    unfold coeff
    have hnd := nz.nodup
    simp only
    clear hsub
    by_cases hmem : m ∈ z.data.map Prod.fst
    · obtain ⟨p, hp, rfl⟩ := List.mem_map.1 hmem
      rw [Dict.get_of_mem hnd hp, Dict.get_of_mem (p := p) (hnd.sublist (List.filter_sublist.map _))]
      exact List.mem_filter.2 ⟨hp, by simpa using hm.onto⟩
    · rw [Dict.get_of_not_mem hmem, Dict.get_of_not_mem]
      intro h
      exact hmem ((List.filter_sublist.map _).subset h)

/-- In the expected arity, suspension commutes with composition up to the sign `(-1)^((s-1)(d+i-1))`, `d` being
the degree of `x` and `s` the arity of `y`; `u` and `v` are the parts of arity `r` and `s` of the suspensions. -/
theorem C117_compose (hx : InSurj r x) (hy : InSurj s y) (h1 : 1 ≤ i) (h2 : i ≤ r) (hs : 1 ≤ s) {d : Nat} {e : Int}
    (hd : x.degree = some (d : Int)) (he : y.degree = some e) (ty : y.torsion = x.torsion)
    (cx : x.attrs.convention = .bergerFresse) (cy : y.attrs.convention = .bergerFresse)
    {zx zy u v : SurjElem} (ex : suspension x = .ok zx) (ey : suspension y = .ok zy)
    (hu : InSurj r u) (hv : InSurj s v) (au : u.attrs = x.attrs)
    (eu : ∀ m, NonDegenerate r m → u.coeff m ≡ zx.coeff m [ZMOD x.torsion])
    (ev : ∀ m, NonDegenerate s m → v.coeff m ≡ zy.coeff m [ZMOD x.torsion]) :
    ∃ z zz w, compose x y i = .ok z ∧ suspension z = .ok zz ∧ compose u v i = .ok w ∧
      ∀ m, NonDegenerate (r + s - 1) m →
        zz.coeff m ≡ (-1) ^ ((s - 1) * (d + i - 1)) * w.coeff m [ZMOD x.torsion] := by
  have hr : 1 ≤ r := by omega
  obtain ⟨zx', ex', nzx, azx, dzx⟩ := suspension_ok hr hx (Or.inr ⟨_, hd⟩) cx rfl
  cases ex.symm.trans ex'
  obtain ⟨zy', ey', nzy, azy, dzy⟩ := suspension_ok hs hy (Or.inr ⟨e, he⟩) cy (n := x.torsion) ty
  cases ey.symm.trans ey'
  obtain ⟨z, ez, iz, az, -, degz⟩ := C51_arity_degree hx hy h1 h2 (Or.inr cx)
  obtain ⟨z', ez', nz, _, dz⟩ := compose_ok hx hy h1 h2 (Or.inr cx) rfl
  cases ez.symm.trans ez'
  have hN : 1 ≤ r + s - 1 := by omega
  obtain ⟨zz, ezz, nzz, azz, dzz⟩ := suspension_ok hN iz
    ((em (z.data = [])).imp id fun h => ⟨_, degz _ _ hd he h⟩) (by rw [az]; exact cx) (n := x.torsion)
    (torsion_congr az)
  obtain ⟨w, ew, nw, aw, dw⟩ := compose_ok hu hv h1 h2 (Or.inr (by rw [au]; exact cx)) (n := x.torsion)
    (torsion_congr au)
  refine ⟨z, zz, w, ez, ezz, ew, fun m hm => ?_⟩
  rw [← ZMod.intCast_eq_intCast_iff]
  push_cast
  have sx : den (ZMod x.torsion) x.data ∈
      Finsupp.supported (ZMod x.torsion) (ZMod x.torsion) {k : Surj | Rng r k ∧ i ∈ k ∧ sdeg k = d ∧ k ∈ OntoS r} := by
    refine den_induction (P := fun w => w ∈ Finsupp.supported _ _ _)
      x.data (Submodule.zero_mem _) (fun u v => Submodule.add_mem _) ?_
    intro p hp
    refine Finsupp.single_mem_supported _ _ ⟨fun a ha => (hx.onto p hp a).1 ha, (hx.onto p hp i).2 ⟨h1, h2⟩, ?_,
      hx.onto p hp⟩
    exact_mod_cast sdeg_of_degree hx hd hp
  have sy := den_supp_onto (R := ZMod x.torsion) hy
  have sz : cmpV (ZMod x.torsion) i s (den _ x.data) (den _ y.data) ∈ Finsupp.supported (ZMod x.torsion) (ZMod x.torsion) (OntoS (r + s - 1)) := by
    refine BElem.bil_supported _ (fun k1 hk1 k2 hk2 => ?_) sx sy
    refine Finsupp.supported_mono ?_ (cmp_supported (R := ZMod x.torsion) h1 k1 k2 (rng_of_onto hk2) hs)
    intro t ht
    exact term_onto h1 h2 hs hk1.2.2.2 hk2 ht
  rw [coeff_den nzz dzz hN hm, coeff_den nw dw hN hm, dz, susT_pr hN sz (nd_rep hm),
    den_ndr hr hu nzx dzx eu, den_ndr hs hv nzy dzy ev,
    cmpV_ndr h1 h2 hs hm (susT_rng (fun k hk => hk.1) sx) (susT_rng (fun k hk => rng_of_onto hk) sy)]
  have := BElem.bil_ext_supported (R := ZMod x.torsion) (M := ZMod x.torsion)
    (f := (cmpV _ i s).compr₂ ((Finsupp.lapply m).comp (susT _ (r + s - 1) [])))
    (g := (-1 : ZMod x.torsion) ^ ((s - 1) * (d + i - 1)) •
      ((cmpV _ i s).compl₁₂ (susT _ r []) (susT _ s [])).compr₂ (Finsupp.lapply m))
    (fun k1 hk1 k2 hk2 => by
      simp only [LinearMap.compr₂_apply, LinearMap.compl₁₂_apply, Finsupp.lapply_apply, LinearMap.comp_apply,
        LinearMap.smul_apply, smul_eq_mul]
      have e1 : cmpV (ZMod x.torsion) i s (bv _ k1) (bv _ k2) = cmp i s k1 k2 := by simp [cmpV, bil_single]
      rw [e1, sus_cmp h1 h2 hs (fun v a b => (hm.onto v).2 ⟨a, b⟩) hk1.1 (rng_of_onto hk2), hk1.2.2.1, susT_bv,
        susT_bv, map_smul, map_smul, LinearMap.smul_apply]
      have e2 : cmpV (ZMod x.torsion) i s (bv _ (k1.drop (r - 1))) (bv _ (k2.drop (s - 1))) =
        cmp i s (k1.drop (r - 1)) (k2.drop (s - 1)) := by simp [cmpV, bil_single]
      simp only [List.nil_append, List.length_nil, Nat.sub_zero, e2, Finsupp.smul_apply, smul_eq_mul]
      rw [Nat.add_sub_assoc h1]
      ring) sx sy
  exact this

/-- (defect) The unit test of the project claims `suspension(x ∘_i y) == suspension(x) ∘_i suspension(y)`, but only
tests it where both sides vanish. For `x = y = (1,2,1)` and `i = 1` both sides are non-zero in arity 3, and opposite. -/
theorem C117_defect : ∃ x z zz w : SurjElem, InSurj 2 x ∧ x.attrs.convention = .bergerFresse ∧
    suspension x = .ok z ∧ InSurj 2 z ∧ (compose x x 1).toOption.map suspension = some (.ok zz) ∧
    compose z z 1 = .ok w ∧ w.data = [([3, 2, 1], 1)] ∧ zz.coeff [3, 2, 1] = -1 := by
  refine ⟨Elem.new surjection [([1, 2, 1], 1)] none .bergerFresse,
    Elem.new surjection [([2, 1], 1)] none .bergerFresse,
    Elem.new surjection [([3, 2, 1], -1)] none .bergerFresse,
    Elem.new surjection [([3, 2, 1], 1)] none .bergerFresse, ?_⟩
  refine ⟨inSurj_of_arity (nf_new _ (by decide) _ _) (by decide), rfl, by rfl,
    inSurj_of_arity (nf_new _ (by decide) _ _) (by decide), by rfl, by rfl, by decide +kernel, by decide +kernel⟩

-- the hypotheses are met, and the coefficients compared are not zero
example : ∃ x, InSurj 2 x ∧ x.degree = some 1 ∧ x.attrs.convention = .bergerFresse ∧
    (suspension x).toOption.map Elem.data = some [([2, 1], 3)] :=
  ⟨Elem.new surjection [([1, 2, 1], 3)] none .bergerFresse, inSurj_of_arity (nf_new _ (by decide) _ _) (by decide),
    by decide, rfl, by decide +kernel⟩

example : ∃ x, InSurj 2 x ∧ x.degree = some 2 ∧ x.attrs.convention = .bergerFresse ∧
    (suspension x).toOption.map (fun z => (SurjElem.boundary z).data) = some [([1, 2], 1), ([2, 1], -1)] ∧
    (suspension x.boundary).toOption.map Elem.data = some [([1, 2], -1), ([2, 1], 1)] :=
  ⟨Elem.new surjection [([1, 2, 1, 2], 1), ([2, 1, 2, 1], 0)] none .bergerFresse,
    inSurj_of_arity (nf_new _ (by decide) _ _) (by decide), by decide, rfl, by decide +kernel, by decide +kernel⟩

end Comch.Props
