import Verif.Lib.BEOrbit
import Verif.Lib.BEDiagonal
import Verif.Lib.Pairs
import Verif.Props.BarrattEccles

/-! # C38, C41, C44, C45: orbits, diagonal and complexity in the Barratt-Eccles operad -/

set_option linter.unusedSectionVars false

namespace Comch.Props
open Comch Elem Spec IsPerm
open Finsupp (single)

/-! ## C38 orbits -/

section
variable {r : Nat} {x : BElem}

/-- `orbit` does not raise; every key of the result starts with the identity, and its coefficients are
obtained by adding (with sign) the coefficients of all the translates. -/
theorem C38_orbit_coeff (hr : 1 ≤ r) (hx : InBE r x) (rep : Representation) :
    ∃ z, BElem.orbit x rep = .ok z ∧ InBE r z ∧ z.torsion = x.torsion ∧
      (∀ p ∈ z.data, p.1.head? = some (pyRange 1 (r + 1))) ∧
      ∀ m : BKey, m.head? = some (pyRange 1 (r + 1)) → (∀ σ ∈ m, IsPerm r σ) →
        z.coeff m ≡ (x.data.map fun p =>
          if IsTranslate (p.1.headD []) m p.1 then repSign rep (p.1.headD []) * p.2 else 0).sum
          [ZMOD x.torsion] := by
  obtain ⟨z, ez, hz, tz', dz⟩ := BElem.orbit_ok hr hx rep
  refine ⟨z, ez, hz, tz', ?_, ?_⟩
  · intro p hp
    have h0 : den (ZMod x.torsion) z.data p.1 ≠ 0 := by
      have := (hz.nf.mem_keys_iff (k := p.1)).1 (List.mem_map_of_mem hp)
      rw [tz'] at this
      exact this
    by_contra hne
    apply h0
    rw [dz]
    refine den_induction (P := fun u => lin (BElem.orbK _ r rep) u p.1 = 0) x.data (by simp)
      (fun u v hu hv => by rw [map_add, Finsupp.add_apply, hu, hv, add_zero]) ?_
    intro q hq
    rw [lin_single, BElem.orbK, Finsupp.smul_apply, Finsupp.smul_apply, Finsupp.single_apply, if_neg]
    · simp
    · intro he
      apply hne
      rw [← he]
      have hk0 := BElem.key_ne_nil hx.nf hq
      have hp' := hx.perm q hq _ (BElem.headD_mem hk0)
      rcases hk : q.1 with _ | ⟨a, k⟩
      · exact absurd hk hk0
      · rw [hk] at hp'
        simp only [List.headD_cons, BElem.trL, List.map_cons, List.head?_cons] at hp' ⊢
        rw [invL_mulL hp']
  · intro m hmh hm
    rw [← ZMod.intCast_eq_intCast_iff, coeff, ← Dict.den_apply hz.nf.nodup, dz, lin_den]
    have happ : ∀ (l : List (BKey →₀ ZMod x.torsion)), l.sum m = (l.map fun v => v m).sum := by
      intro l
      induction l with
      | nil => rfl
      | cons a l ih => rw [List.sum_cons, Finsupp.add_apply, ih]; rfl
    rw [happ, Int.cast_list_sum, List.map_map, List.map_map]
    congr 1
    apply List.map_congr_left
    intro p hp
    have hk0 := BElem.key_ne_nil hx.nf hp
    have hp' := hx.perm p hp _ (BElem.headD_mem hk0)
    simp only [Function.comp, Finsupp.smul_apply, BElem.orbK, Finsupp.single_apply, smul_eq_mul]
    have hiff : BElem.trL (invL r (p.1.headD [])) p.1 = m ↔ IsTranslate (p.1.headD []) m p.1 := by
      rw [BElem.isTranslate_iff hp' hm]
      constructor
      · rintro rfl
        rw [BElem.trL, BElem.trL, List.map_map]
        conv_rhs => rw [← List.map_id p.1]
        apply List.map_congr_left
        intro t ht
        show mulL _ (mulL _ t) = t
        rw [← mulL_assoc hp' (isPerm_invL hp') (hx.perm p hp t ht), mulL_invL hp', id_mulL (hx.perm p hp t ht)]
      · intro h
        conv_lhs => arg 2; rw [← h]
        rw [BElem.trL, BElem.trL, List.map_map]
        conv_rhs => rw [← List.map_id m]
        apply List.map_congr_left
        intro t ht
        show mulL _ (mulL _ t) = t
        rw [← mulL_assoc (isPerm_invL hp') hp' (hm t ht), invL_mulL hp', id_mulL (hm t ht)]
    rw [if_congr hiff rfl rfl]
    split <;> simp [mul_comm]

/-- `x.orbit(rep).orbit(rep') == x.orbit(rep)`: orbits are idempotent. -/
theorem C38_orbit_orbit (hr : 1 ≤ r) (hx : InBE r x) (rep rep' : Representation) :
    ∃ z w, BElem.orbit x rep = .ok z ∧ BElem.orbit z rep' = .ok w ∧ pyEq w z = true := by
  obtain ⟨z, ez, hz, tz', dz⟩ := BElem.orbit_ok hr hx rep
  obtain ⟨w, ew, hw, tw, dw⟩ := BElem.orbit_ok hr hz rep'
  refine ⟨z, w, ez, ew, pyEq_of_den (n := z.torsion) hw.nf hz.nf tw rfl ?_⟩
  rw [dw]
  rw [tz', dz]
  refine den_induction (P := fun u => lin (BElem.orbK _ r rep') (lin (BElem.orbK _ r rep) u) =
    lin (BElem.orbK _ r rep) u) x.data (by simp)
    (fun u v hu hv => by rw [map_add, map_add, hu, hv]) ?_
  intro p hp
  rw [lin_single, map_smul, BElem.orbK_orbK (BElem.key_ne_nil hx.nf hp) (hx.perm p hp)]

/-- `(s * x).orbit(rep) == ε(s) * x.orbit(rep)`, where `ε(s)` is the sum of the coefficients of `s`,
each multiplied by the sign of its permutation for the sign representation.  For `s` a permutation
this is invariance, resp. equivariance, of orbits. -/
theorem C38_orbit_act (hr : 1 ≤ r) {s : RingElem} (hs : InRing r s) (hsn : s.data ≠ [])
    (hx : InBE r x) (hxn : x.data ≠ []) (ts : s.torsion = x.torsion) (rep : Representation) :
    ∃ sx z w, BElem.rmul s x = .ok sx ∧ BElem.orbit sx rep = .ok z ∧ BElem.orbit x rep = .ok w ∧
      pyEq z (smul barrattEccles ((s.data.map fun q => repSign rep q.1 * q.2).sum) w) = true := by
  obtain ⟨sx, esx, hsx, tsx, dsx⟩ := BElem.rmul_den hr hs hsn hx hxn ts rfl
  obtain ⟨z, ez, hz, tz', dz⟩ := BElem.orbit_ok hr hsx rep
  obtain ⟨w, ew, hw, tw, dw⟩ := BElem.orbit_ok hr hx rep
  refine ⟨sx, z, w, esx, ez, ew, pyEq_of_den (n := x.torsion) hz.nf (nf_smul hw.nf _) (tz'.trans tsx)
    (by rw [smul_torsion, tw]) ?_⟩
  rw [tsx] at dz
  rw [dz, dsx, den_smul hw.nf _ (by simp) (by rw [tw]; simp), dw]
  generalize hsd : s.data = e
  have hse : ∀ p ∈ e, IsPerm r p.1 := by rw [← hsd]; exact hs.perm
  clear hsd dsx dz
  induction e with
  | nil => simp
  | cons q e ih =>
    rw [den_cons, map_add, LinearMap.add_apply, map_add,
      ih fun p hp => hse p (List.mem_cons_of_mem _ hp), List.map_cons, List.sum_cons, Int.cast_add, add_smul]
    congr 1
    refine den_induction (P := fun u => lin (BElem.orbK _ r rep)
      (bil (fun q k => bv (ZMod x.torsion) (BElem.trL q k)) (single q.1 (q.2 : ZMod x.torsion)) u) =
      ((repSign rep q.1 * q.2 : Int) : ZMod x.torsion) • lin (BElem.orbK _ r rep) u) x.data (by simp)
      (fun u v hu hv => by rw [map_add, map_add, map_add, smul_add, hu, hv]) ?_
    intro p hp
    rw [bil_single, map_smul, lin_single, one_smul, lin_single,
      BElem.orbK_trL (hse q (by simp)) (BElem.key_ne_nil hx.nf hp) (hx.perm p hp), smul_smul, smul_smul]
    congr 1
    push_cast
    ring

end

example : (BElem.orbit exBE .sign).toOption.map (·.data) =
    some [([[1, 2, 3], [2, 1, 3], [3, 1, 2]], 2), ([[1, 2, 3], [2, 1, 3], [1, 2, 3]], 1)] := by decide +kernel

/-! ## C41 composition with zero -/

/-- The guard of `compose` computes `self.zero()` for a zero operand but drops it: the call raises
`TypeError`. -/
theorem C41_compose_zero_raises (x y : BElem) (i : Nat) (h : x.data = [] ∨ y.data = []) :
    BElem.compose x y i = .error .typeError := by
  unfold BElem.compose
  split
  · rfl
  · rcases h with h | h
    · rw [BElem.arity_none h]
    · rw [BElem.arity_none h]
      cases x.arity <;> rfl

/-- Hence it is not true that composition with zero gives zero. -/
theorem C41_compose_zero_false :
    ¬ ∀ (x y : BElem) (i : Nat), InBE 3 x → InBE 3 y → x.torsion = y.torsion → 1 ≤ i → i ≤ 3 →
      y.data = [] → ∃ z, BElem.compose x y i = .ok z ∧ z.data = [] := by
  intro h
  obtain ⟨z, hz, _⟩ := h exBE (Elem.new barrattEccles [] (some 5)) 1 exBE_in
    ⟨nf_new _ (by decide) _ _, by decide⟩ rfl (by decide) (by decide) (by decide)
  rw [C41_compose_zero_raises _ _ _ (Or.inr (by decide))] at hz
  cases hz

/-! ## C44 diagonal -/

/-- The terms of `diagonal(r)`: a tuple `m` of `r + 1` pieces occurs with the coefficient of the
sequence obtained by gluing the pieces (each piece begins with the last entry of the one before). -/
theorem C44_diagonal_coeff (x : BElem) (hx : x.NF barrattEccles) (r : Nat) (m : BElem.DKey) :
    (x.diagonal r).NF (freeModule BElem.DKey) ∧ (x.diagonal r).torsion = x.torsion ∧
    (x.diagonal r).coeff m = if m.length = r + 1 then
        match glue m with
        | some k => x.coeff k
        | none => 0
      else 0 := by
  obtain ⟨h1, h2, h3⟩ := BElem.diagonal_spec x r rfl
  refine ⟨h1, h2, ?_⟩
  -- compare with a one-term element in normal form
  have hval : ((x.diagonal r).coeff m : ZMod x.torsion) =
      (((if m.length = r + 1 then
        match glue m with
        | some k => x.coeff k
        | none => 0
      else 0 : Int)) : ZMod x.torsion) := by
    rw [coeff, ← Dict.den_apply h1.nodup, h3]
    have hd : ∀ k, ((x.coeff k : Int) : ZMod x.torsion) = den (ZMod x.torsion) x.data k := fun k => by
      rw [coeff, ← Dict.den_apply hx.nodup]
    have hlin : ∀ u : BKey →₀ ZMod x.torsion, lin (BElem.diagK _ r) u m =
        if m.length = r + 1 then
          match glue m with
          | some k => u k
          | none => 0
        else 0 := by
      intro u
      induction u using Finsupp.induction_linear with
      | zero => split <;> [cases glue m <;> simp; simp]
      | add u v hu hv =>
        rw [map_add, Finsupp.add_apply, hu, hv]
        split <;> [cases glue m <;> simp; simp]
      | single k c =>
        rw [lin_single, Finsupp.smul_apply, BElem.diagK_apply]
        by_cases hm : m.length = r + 1
        · simp only [hm, true_and, if_true]
          rcases hg : glue m with _ | k'
          · simp
          · simp only [Option.some.injEq, Finsupp.single_apply]
            by_cases hk : k = k'
            · simp [hk]
            · have : k' ≠ k := fun h => hk h.symm
              simp [hk, this]
        · simp [hm]
    rw [hlin]
    split
    · cases glue m with
      | none => simp
      | some k => simp only [hd]
    · simp
  have hrange : ∀ {K : Type} [DecidableEq K] {C : Cls K} {y : Elem K}, y.NF C → ∀ k,
      y.torsion ≠ 0 → 0 ≤ y.coeff k ∧ y.coeff k < y.torsion := by
    intro K _ C y hy k ht
    by_cases hk : y.coeff k = 0
    · rw [hk]; omega
    · exact hy.coeff_range ht _ (Dict.mem_of_get_ne_zero hk)
  rw [ZMod.intCast_eq_intCast_iff] at hval
  by_cases ht : x.torsion = 0
  · rw [ht] at hval
    simpa using Int.modEq_zero_iff.1 hval
  · have ha := hrange h1 m (by rw [h2]; exact ht)
    rw [h2] at ha
    rw [Int.ModEq, Int.emod_eq_of_lt ha.1 ha.2] at hval
    rw [hval]
    apply Int.emod_eq_of_lt
    · split
      · cases glue m with
        | none => simp
        | some k => exact (hrange hx k ht).1
      · simp
    · split
      · cases glue m with
        | none => simp; omega
        | some k => exact (hrange hx k ht).2
      · omega

/-- `(x + y).diagonal(r) == x.diagonal(r) + y.diagonal(r)`. -/
theorem C44_diagonal_add {x y z : BElem} (hx : x.NF barrattEccles) (hy : y.NF barrattEccles) (r : Nat)
    (h : add barrattEccles x y = .ok z) :
    ∃ w, add (freeModule BElem.DKey) (x.diagonal r) (y.diagonal r) = .ok w ∧
      pyEq (z.diagonal r) w = true :=
  additive_of_den (fun x => BElem.diagonal x r) (fun _ => lin (BElem.diagK _ r))
    (fun x _ => (BElem.diagonal_spec x r rfl).2.2) (fun x => (BElem.diagonal_spec x r rfl).1)
    (fun x => (BElem.diagonal_spec x r rfl).2.1) rfl rfl hx hy h

example : (BElem.diagonal (Elem.new barrattEccles [([[1, 2], [2, 1], [1, 2]], 3)]) 2).coeff
    [[[1, 2]], [[1, 2], [2, 1], [1, 2]], [[1, 2]]] = 3 := by decide +kernel

/-! ## C45 complexity -/

theorem complexity_bounds (x : BElem) :
    (∀ p ∈ x.data, ∀ ij ∈ SurjElem.pairsUpTo (pyMax (p.1.headD [])), p.1.length - 1 ≤ x.complexity) ∧
    (x.complexity = 0 ∨ ∃ p ∈ x.data, ∃ ij ∈ SurjElem.pairsUpTo (pyMax (p.1.headD [])),
      x.complexity = p.1.length - 1) := by
  have hl : ∀ k : BKey, (pairwise k).length = k.length - 1 := by
    intro k; simp [pairwise]
  have h := foldl_foldl_max (fun p : BKey × Int => SurjElem.pairsUpTo (pyMax (p.1.headD [])))
    (fun p _ => (pairwise p.1).length) x.data
  simp only [hl] at h
  unfold BElem.complexity
  simp only [hl]
  exact h

/-- In arity at least two the returned number is the largest degree of a term. -/
theorem C45_complexity_eq_degree {r : Nat} (hr : 2 ≤ r) {x : BElem} (hx : InBE r x) (hxn : x.data ≠ []) :
    (∀ p ∈ x.data, p.1.length - 1 ≤ x.complexity) ∧ ∃ p ∈ x.data, x.complexity = p.1.length - 1 := by
  obtain ⟨h1, h2⟩ := complexity_bounds x
  have hpair : ∀ p ∈ x.data, (1, 2) ∈ SurjElem.pairsUpTo (pyMax (p.1.headD [])) := by
    intro p hp
    rw [pyMax_eq (hx.perm p hp _ (BElem.headD_mem (BElem.key_ne_nil hx.nf hp))), mem_pairsUpTo]
    omega
  have h3 : ∀ p ∈ x.data, p.1.length - 1 ≤ x.complexity := fun p hp => h1 p hp _ (hpair p hp)
  refine ⟨h3, ?_⟩
  rcases h2 with h2 | ⟨p, hp, _, _, h⟩
  · obtain ⟨p, hp⟩ := List.exists_mem_of_ne_nil _ hxn
    have := h3 p hp
    exact ⟨p, hp, by omega⟩
  · exact ⟨p, hp, h⟩

/-- It is an upper bound for the documented complexity. -/
theorem C45_complexity_upper {r : Nat} {x : BElem} (hx : InBE r x) :
    ∀ p ∈ x.data, ∀ i j, 1 ≤ i → i < j → j ≤ r → orderChanges p.1 i j ≤ x.complexity := by
  intro p hp i j h1 h2 h3
  have hle : orderChanges p.1 i j ≤ p.1.length - 1 := by
    unfold orderChanges
    refine (List.length_filter_le _ _).trans ?_
    simp
  refine hle.trans ((complexity_bounds x).1 p hp (i, j) ?_)
  rw [pyMax_eq (hx.perm p hp _ (BElem.headD_mem (BElem.key_ne_nil hx.nf hp))), mem_pairsUpTo]
  omega

theorem filter_two {σ : Perm} (h : IsPerm 2 σ) : σ.filter (fun x => x = 1 ∨ x = 2) = σ := by
  apply List.filter_eq_self.2
  intro a ha
  have := h.range a ha
  simp
  omega

/-- In arity two it is the documented complexity. -/
theorem C45_complexity_arity_two {x : BElem} (hx : InBE 2 x) (hxn : x.data ≠ []) :
    (∀ p ∈ x.data, orderChanges p.1 1 2 ≤ x.complexity) ∧
      ∃ p ∈ x.data, x.complexity = orderChanges p.1 1 2 := by
  refine ⟨fun p hp => C45_complexity_upper hx p hp 1 2 (by omega) (by omega) (by omega), ?_⟩
  obtain ⟨p, hp, h⟩ := (C45_complexity_eq_degree (by omega) hx hxn).2
  refine ⟨p, hp, h.trans ?_⟩
  unfold orderChanges
  rw [List.filter_eq_self.2]
  · simp
  · intro t ht
    have ht' : t < p.1.length - 1 := by simpa using ht
    have hk := hx.nf.kept p hp
    rw [be_drops] at hk
    simp only [Bool.or_eq_false_iff] at hk
    have h1 : p.1.getD t [] ∈ p.1 := by
      rw [List.getD_eq_getElem _ _ (by omega)]; exact List.getElem_mem _
    have h2 : p.1.getD (t + 1) [] ∈ p.1 := by
      rw [List.getD_eq_getElem _ _ (by omega)]; exact List.getElem_mem _
    rw [filter_two (hx.perm p hp _ h1), filter_two (hx.perm p hp _ h2)]
    simp only [decide_eq_true_eq]
    have hrep := hk.2
    clear hk h1 h2 ht h
    generalize p.1 = k at hrep ht' ⊢
    induction k generalizing t with
    | nil => simp at ht'
    | cons a k ih =>
      cases k with
      | nil => simp at ht'
      | cons b k =>
        rw [hasRep, Bool.or_eq_false_iff] at hrep
        cases t with
        | zero => simpa using hrep.1
        | succ t =>
          have := ih t hrep.2 (by simp at ht' ⊢; omega)
          simpa using this

/-- In arity three it is not: along `(123), (132), (312)` no pair of letters changes its order twice,
but `complexity` returns 2. -/
theorem C45_complexity_false : ∃ x : BElem, InBE 3 x ∧ x.data ≠ [] ∧ x.complexity = 2 ∧
    ∀ p ∈ x.data, ∀ i j, 1 ≤ i → i < j → j ≤ 3 → orderChanges p.1 i j ≤ 1 := by
  refine ⟨Elem.new barrattEccles [([[1, 2, 3], [1, 3, 2], [3, 1, 2]], 1)],
    ⟨nf_new _ (by decide) _ _, by decide⟩, by decide, by decide, ?_⟩
  intro p hp i j h1 h2 h3
  have : p = ([[1, 2, 3], [1, 3, 2], [3, 1, 2]], 1) := by
    have h : (Elem.new barrattEccles [([[1, 2, 3], [1, 3, 2], [3, 1, 2]], 1)]).data =
      [([[1, 2, 3], [1, 3, 2], [3, 1, 2]], 1)] := by decide
    rw [h] at hp
    simpa using hp
  subst this
  have hij : (i = 1 ∧ j = 2) ∨ (i = 1 ∧ j = 3) ∨ (i = 2 ∧ j = 3) := by omega
  rcases hij with ⟨rfl, rfl⟩ | ⟨rfl, rfl⟩ | ⟨rfl, rfl⟩ <;> decide

end Comch.Props
