import Verif.Lib.BEHopf
import Verif.Spec.Hopf
import Verif.Props.Naturality
import Verif.Props.ComposeCoeff
import Verif.Props.BEMore

/-! # The Hopf structure of the Barratt-Eccles operad: C91, C92 -/

set_option linter.unusedSectionVars false

namespace Comch.Hopf
open Comch.Spec Elem
open Finsupp (single)

variable {R : Type} [CommRing R]

theorem hasRep_iff {A : Type} [DecidableEq A] (k : List A) : hasRep k = false ↔ k.IsChain (· ≠ ·) := by
  induction k with
  | nil => simp [hasRep]
  | cons a k ih =>
    cases k with
    | nil => simp [hasRep]
    | cons b k => rw [List.isChain_cons_cons, ← ih]; simp [hasRep]

theorem proper_iff (k : BElem.DKey) : ProperTensor k ↔ lany k = false := by
  unfold ProperTensor lany
  rw [List.any_eq_false]
  constructor
  · intro h s hs
    have := h s hs
    rw [← hasRep_iff] at this
    simp [ldrop, this.1, this.2]
  · intro h s hs
    have := h s hs
    rw [← hasRep_iff]
    simpa [ldrop] using this

theorem drops_eq : barrattEccles.drops = (ldrop : BKey → Bool) := be_drops_eq

theorem pr_free (v : BElem.DKey →₀ R) : pr (freeModule BElem.DKey).drops v = v :=
  pr_eq_self fun k hk => by simp [freeModule] at hk

/-- The pieces of a sequence without repetitions have no repetitions. -/
theorem aw_proper {A : Type} [DecidableEq A] (t : Nat) (s : List A) (hs : ldrop s = false) :
    aw (R := R) t s ∈ Finsupp.supported R R {m : List (List A) | lany m = false ∧ ∃ p m', m = p :: m' ∧ p.head? = s.head?} := by
  induction t generalizing s with
  | zero =>
    rw [aw_zero]
    exact Finsupp.single_mem_supported R _ ⟨by simpa [lany] using hs, s, [], rfl, rfl⟩
  | succ t iht =>
    induction s with
    | nil => simp [ldrop] at hs
    | cons a s ihs =>
      rw [aw_cons]
      refine Submodule.add_mem _ ?_ ?_
      · refine mapK_supported _ (fun L hL => ?_) (iht (a :: s) hs)
        refine ⟨?_, [a], L, rfl, rfl⟩
        have := hL.1
        simp only [lany] at this
        simp [lany, ldrop, hasRep, this]
      · cases s with
        | nil => simp [aw_nil]
        | cons b s =>
          have hh : (a == b) = false ∧ hasRep (b :: s) = false := by simpa [ldrop, hasRep] using hs
          refine lin_supported _ (fun L hL => ?_) (ihs (by simpa [ldrop] using hh.2))
          obtain ⟨h1, p, m', rfl, h2⟩ := hL
          refine Finsupp.single_mem_supported R _ ⟨?_, _, _, rfl, rfl⟩
          cases p with
          | nil => simp at h2
          | cons c p =>
            simp only [List.head?_cons, Option.some.injEq] at h2
            subst h2
            have h3 : ldrop (c :: p) = false ∧ lany m' = false := by simpa [lany] using h1
            have h4 : hasRep (c :: p) = false := by simpa [ldrop] using h3.1
            simp only [lany, List.any_cons, Bool.or_eq_false_iff]
            refine ⟨?_, h3.2⟩
            simpa [ldrop, hasRep, h4] using hh.1

theorem pr_aw_self {A : Type} [DecidableEq A] (t : Nat) {s : List A} (hs : ldrop s = false) :
    pr lany (aw (R := R) t s) = aw t s := by
  apply pr_eq_self
  intro m hm
  by_contra h
  have := aw_proper (R := R) t s hs (Finsupp.mem_support_iff.2 h)
  rw [this.1] at hm
  cases hm

/-- The diagonal of the image in the normalized complex. -/
theorem lin_aw_pr {A : Type} [DecidableEq A] (t : Nat) (v : List A →₀ R) :
    lin (aw t) (pr ldrop v) = pr lany (lin (aw t) v) := by
  have : (lin (aw t)).comp (pr ldrop) = (pr lany).comp (lin (aw (R := R) (α := A) t)) := by
    apply lin_ext
    intro k
    simp only [LinearMap.comp_apply, pr_single, lin_single, one_smul]
    rcases hk : ldrop k with _ | _
    · simp [pr_aw_self t hk]
    · simp [pr_aw_of_drop t k hk]
  exact LinearMap.congr_fun this v

theorem den_diagonal (x : BElem) (r : Nat) :
    den (ZMod x.torsion) (x.diagonal r).data = lin (aw r) (den _ x.data) := by
  rw [(BElem.diagonal_spec x r rfl).2.2]
  congr 2
  funext k
  exact diagK_eq_aw r k

theorem nf_diagonal (x : BElem) (r : Nat) : (x.diagonal r).NF (freeModule BElem.DKey) := (BElem.diagonal_spec x r rfl).1
theorem torsion_diagonal (x : BElem) (r : Nat) : (x.diagonal r).torsion = x.torsion := (BElem.diagonal_spec x r rfl).2.1

theorem den_filter_pr {K : Type} [DecidableEq K] (P : K → Prop) [DecidablePred P] (d : List (K × Int)) (c : Int) :
    den R ((d.filter fun q => P q.1).map fun q => (q.1, c * q.2)) = (c : R) • pr (fun k => !decide (P k)) (den R d) := by
  induction d with
  | nil => simp
  | cons q d ih =>
    rw [den_cons, map_add, smul_add, ← ih, pr_single]
    by_cases h : P q.1
    · simp [h]
    · simp [h]

theorem den_tensorBoundaryTerms (k : BElem.DKey) : den R (tensorBoundaryTerms k) = tensK delK ldim k := by
  induction k with
  | nil => simp [tensorBoundaryTerms, tensK]
  | cons a k ih =>
    rw [tensorBoundaryTerms, den_append, tensK, ← ih]
    congr 1
    · rw [den_map, delK_eq_sum, map_list_sum, List.map_map, ← LinearMap.flip_apply, map_list_sum, List.map_map]
      congr 1
      apply List.map_congr_left
      intro j hj
      simp [sg_natCast, removeAt_eq_eraseIdx, cat_one_bv]
    · rw [consV, mapK_den, den_map, den_map, List.smul_sum, List.map_map]
      congr 1
      apply List.map_congr_left
      intro q _
      simp [cast_pySign, ldim]

theorem den_tensorBoundary (t : Elem BElem.DKey) {n : Nat} (hn : t.torsion = n) :
    den (ZMod n) (tensorBoundary t).data = pr lany (ltens (den _ t.data)) := by
  unfold tensorBoundary
  rw [den_accumulate_zero' _ _ _ rfl hn, pr_free]
  have h := den_events (R := ZMod n) t.data
    (fun k c => ((tensorBoundaryTerms k).filter fun q => ProperTensor q.1).map fun q => (q.1, c * q.2))
    (fun k => pr lany (tensK delK ldim k)) (fun p _ => by
      rw [den_filter_pr, den_tensorBoundaryTerms]
      congr 2
      congr 1
      funext k
      rw [Bool.eq_iff_iff]
      simp [proper_iff])
  rw [h]
  have : lin (fun k => pr lany (tensK delK ldim k)) = (pr lany).comp (ltens (R := ZMod n) (α := Perm)) := by
    apply lin_ext
    intro k
    simp
  rw [this]
  rfl

theorem atK_eq {A : Type} (f : A → (List A →₀ R)) (a0 : A) {j : Nat} {k : List A} (hj : j < k.length) :
    atK f j k = cat (bv R (k.take j)) (cat (f (k.getD j a0)) (bv R (k.drop (j + 1)))) := by
  induction j generalizing k with
  | zero =>
    cases k with
    | nil => simp at hj
    | cons a k => simp [atK]
  | succ j ih =>
    cases k with
    | nil => simp at hj
    | cons a k =>
      rw [atK, ih (by simpa using hj), consV_eq_cat]
      simp [← cat_assoc]

theorem aw_supp (r : Nat) (k : BKey) (hk : k ≠ []) :
    aw (R := R) r k ∈ Finsupp.supported R R {m : BElem.DKey | m.length = r + 1 ∧ ∀ s ∈ m, s ≠ []} := by
  intro m hm
  refine ⟨?_, aw_supp_ne (R := R) r k hk hm⟩
  have := Finsupp.mem_support_iff.1 hm
  rw [aw_app] at this
  simp only [ne_eq, ite_eq_right_iff, not_forall] at this
  exact this.1.1

theorem den_diagonal_supp {x : BElem} (hx : x.NF barrattEccles) (r : Nat) :
    den (ZMod x.torsion) (x.diagonal r).data ∈ Finsupp.supported (ZMod x.torsion) (ZMod x.torsion)
      {m : BElem.DKey | m.length = r + 1 ∧ ∀ s ∈ m, s ≠ []} := by
  rw [den_diagonal]
  refine lin_supported (S := {k : BKey | k ≠ []}) _ (fun k hk => aw_supp r k hk) ?_
  refine den_induction (P := fun w => w ∈ Finsupp.supported (ZMod x.torsion) (ZMod x.torsion)
    {k : BKey | k ≠ []}) x.data (Submodule.zero_mem _) (fun u v => Submodule.add_mem _) ?_
  intro p hp
  exact Finsupp.single_mem_supported _ _ (BElem.key_ne_nil hx hp)

theorem mem_diagonal {x : BElem} {r : Nat} (hx : x.NF barrattEccles) {p : BElem.DKey × Int} (hp : p ∈ (x.diagonal r).data) :
    p.1.length = r + 1 ∧ (∀ s ∈ p.1, s ≠ []) := by
  have h1 := ((nf_diagonal x r).mem_keys_iff (k := p.1)).1 (List.mem_map_of_mem hp)
  rw [torsion_diagonal] at h1
  exact den_diagonal_supp hx r (Finsupp.mem_support_iff.2 h1)

theorem den_cutFactor (t : Elem BElem.DKey) {n : Nat} (hn : t.torsion = n) (s j : Nat) (hj : ∀ p ∈ t.data, j < p.1.length) :
    den (ZMod n) (cutFactor s j t).data = atL (aw s) j (den _ t.data) := by
  unfold cutFactor
  rw [den_accumulate_zero' _ _ _ rfl hn, pr_free]
  refine den_events (R := ZMod n) t.data
    (fun k c => (allCuts (s + 1) (k.getD j [])).map fun ps => (k.take j ++ ps ++ k.drop (j + 1), c))
    (atK (aw s) j) (fun p hp => ?_)
  rw [atK_eq _ [] (hj p hp), SurjComp.aw_eq_cuts, cat_single, ← LinearMap.flip_apply, map_list_sum, List.map_map,
    map_list_sum, List.map_map, List.smul_sum, den_map, List.map_map]
  congr 1
  apply List.map_congr_left
  intro ps _
  simp

theorem den_omitFactor (t : Elem BElem.DKey) {n : Nat} (hn : t.torsion = n) (j : Nat) (hj : ∀ p ∈ t.data, j < p.1.length) :
    den (ZMod n) (omitFactor j t).data = atL counitK j (den _ t.data) := by
  unfold omitFactor
  rw [den_accumulate_zero' _ _ _ rfl hn, pr_free, atL, lin_den, den_map]
  generalize t.data = d at hj
  induction d with
  | nil => simp
  | cons p d ih =>
    have ih' := ih fun p hp => hj p (by simp [hp])
    rw [List.map_cons, List.sum_cons, ← ih', atK_eq _ [] (hj p (by simp)), counitK]
    by_cases h : (p.1.getD j []).length = 1
    · rw [List.filter_cons_of_pos (by simpa using h), if_pos h]
      simp [List.eraseIdx_eq_take_drop_succ]
    · rw [List.filter_cons_of_neg (by simpa using h), if_neg h]
      simp

theorem translate_eq (q : Perm) (k : BKey) : (k.map fun τ => τ.map (value q)) = BElem.trL q k := rfl

theorem den_translateFactors (s : RingElem) (t : Elem BElem.DKey) {n : Nat} (hn : t.torsion = n) :
    den (ZMod n) (translateFactors s t).data =
      bil (fun m q => bv _ (m.map (BElem.trL q))) (den _ t.data) (den _ s.data) := by
  unfold translateFactors
  rw [den_accumulate_zero' _ _ _ rfl hn, pr_free, bil_den, den_map]
  congr 1
  apply List.map_congr_left
  intro pq _
  simp
  rfl

end Comch.Hopf

namespace Comch.Props
open Comch.Spec Elem Comch.Hopf BElem
open Finsupp (single)

variable {x y z : BElem} {r s d e i : Nat}

/-- The diagonal is a chain map to the tensor power of the complex. -/
theorem C91_chain_map (x : BElem) (r : Nat) : pyEq (tensorBoundary (x.diagonal r)) (x.boundary.diagonal r) = true := by
  have hb : x.boundary.torsion = x.torsion := torsion_congr (BElem.boundary_attrs x)
  refine pyEq_of_den (n := x.torsion) (nf_accumulate_zero _ _ _) (nf_diagonal _ _)
    (by simp [tensorBoundary, Elem.torsion, zero_attrs]; exact torsion_diagonal x r) ((torsion_diagonal _ _).trans hb) ?_
  have h1 := den_diagonal x.boundary r
  rw [hb] at h1
  rw [den_tensorBoundary _ (torsion_diagonal x r), h1, den_diagonal, BElem.den_boundary x rfl, drops_eq, lin_aw_pr]
  have : (pr lany).comp ((ltens (R := ZMod x.torsion)).comp (lin (aw r))) = (pr lany).comp ((lin (aw r)).comp (del (α := Perm))) := by
    apply lin_ext
    intro k
    simpa [del] using pr_ltens_aw r k
  exact LinearMap.congr_fun this _

/-- Cutting one of the factors further gives the next diagonals. -/
theorem C91_coassociative (hx : x.NF barrattEccles) (r s j : Nat) (hj : j ≤ r) :
    pyEq (cutFactor s j (x.diagonal r)) (x.diagonal (r + s)) = true := by
  refine pyEq_of_den (n := x.torsion) (nf_accumulate_zero _ _ _) (nf_diagonal _ _)
    (by simp [cutFactor, Elem.torsion, zero_attrs]; exact torsion_diagonal x r) (torsion_diagonal _ _) ?_
  rw [den_cutFactor _ (torsion_diagonal x r) s j fun p hp => by rw [(mem_diagonal hx hp).1]; omega, den_diagonal, den_diagonal]
  have : (atL (aw s) j).comp (lin (aw (R := ZMod x.torsion) (α := Perm) r)) = lin (aw (r + s)) := by
    apply lin_ext
    intro k
    simpa using atL_aw k r s j hj
  exact LinearMap.congr_fun this _

/-- Omitting a factor of degree zero is left inverse to the diagonal. -/
theorem C91_counit (hx : x.NF barrattEccles) (r j : Nat) (hj : j ≤ r + 1) :
    pyEq (omitFactor j (x.diagonal (r + 1))) (x.diagonal r) = true := by
  refine pyEq_of_den (n := x.torsion) (nf_accumulate_zero _ _ _) (nf_diagonal _ _)
    (by simp [omitFactor, Elem.torsion, zero_attrs]; exact torsion_diagonal x _) (torsion_diagonal _ _) ?_
  rw [den_omitFactor _ (torsion_diagonal x _) j fun p hp => by rw [(mem_diagonal hx hp).1]; omega, den_diagonal, den_diagonal]
  have := lin_ext_supported (R := ZMod x.torsion) (S := {k : BKey | k ≠ []})
    (f := (atL counitK j).comp (lin (aw (r + 1)))) (g := lin (aw r))
    (fun k hk => by simpa using counit_aw r k hk j hj) (v := den _ x.data) (by
      refine den_induction (P := fun w => w ∈ Finsupp.supported (ZMod x.torsion) (ZMod x.torsion)
        {k : BKey | k ≠ []}) x.data (Submodule.zero_mem _) (fun u v => Submodule.add_mem _) ?_
      intro p hp
      exact Finsupp.single_mem_supported _ _ (BElem.key_ne_nil hx hp))
  exact this

/-- The diagonal commutes with the action of the group ring: all the factors are translated. -/
theorem C91_equivariant (hr : 1 ≤ r) {σ : RingElem} (hs : InRing r σ) (hsn : σ.data ≠ []) (hx : InBE r x)
    (hxn : x.data ≠ []) (ts : σ.torsion = x.torsion) (hz : BElem.rmul σ x = .ok z) (t : Nat) :
    pyEq (z.diagonal t) (translateFactors σ (x.diagonal t)) = true := by
  rw [BElem.rmul_eq hr hs hsn hx hxn ts] at hz
  cases hz
  have tz : (Elem.accumulate barrattEccles (x.zero barrattEccles)
      ((pyProduct x.data σ.data).map fun pq => (BElem.trL pq.2.1 pq.1.1, pq.1.2 * pq.2.2))).torsion = x.torsion := by
    simp [Elem.torsion, zero_attrs]
  refine pyEq_of_den (n := x.torsion) (nf_diagonal _ _) (nf_accumulate_zero _ _ _) ((torsion_diagonal _ _).trans tz)
    (by simp [translateFactors, Elem.torsion, zero_attrs]; exact torsion_diagonal x _) ?_
  have h1 := den_diagonal (Elem.accumulate barrattEccles (x.zero barrattEccles)
      ((pyProduct x.data σ.data).map fun pq => (BElem.trL pq.2.1 pq.1.1, pq.1.2 * pq.2.2))) t
  rw [tz] at h1
  rw [h1, den_translateFactors _ _ (torsion_diagonal x t), den_diagonal, den_accumulate_zero' _ _ _ rfl rfl,
    pr_den_of_forall]
  · have e1 : den (ZMod x.torsion) ((pyProduct x.data σ.data).map fun pq => (BElem.trL pq.2.1 pq.1.1, pq.1.2 * pq.2.2)) =
        bil (fun k q => bv _ (BElem.trL q k)) (den _ x.data) (den _ σ.data) := by
      rw [bil_den, den_map]
      congr 1
      apply List.map_congr_left
      intro pq _
      simp
    rw [e1]
    have := BElem.bil_ext_supported (R := ZMod x.torsion) (S := Set.univ) (T := Set.univ)
      (f := (bil (fun (k : BKey) (q : Perm) => bv (ZMod x.torsion) (BElem.trL q k))).compr₂ (lin (aw t)))
      (g := (bil (fun (m : DKey) (q : Perm) => bv (ZMod x.torsion) (m.map (BElem.trL q)))).comp (lin (aw t)))
      (fun k _ q _ => by
        simp only [LinearMap.compr₂_apply, LinearMap.comp_apply, lin_single, one_smul]
        rw [bil_bv, lin_single, one_smul, lin_single, one_smul]
        have h2 := Natural.mapK_aw (R := ZMod x.torsion) (Comch.IsPerm.mulL q) t k
        have h3 : ∀ v : DKey →₀ ZMod x.torsion, bil (fun (m : DKey) (q : Perm) => bv (ZMod x.torsion) (m.map (BElem.trL q))) v (bv _ q) =
            mapK (List.map (BElem.trL q)) v := by
          intro v
          induction v using Finsupp.induction_linear with
          | zero => simp
          | add u v hu hv => simp only [map_add, LinearMap.add_apply, hu, hv]
          | single m c => rw [bil_single_left]; simp
        rw [h3]
        exact h2.symm) (u := den _ x.data) (v := den _ σ.data) (by simp) (by simp)
    exact this
  · intro p hp
    obtain ⟨pq, hpq, rfl⟩ := List.mem_map.1 hp
    obtain ⟨h1, h2⟩ := mem_pyProduct.1 hpq
    rw [BElem.drops_trL (hs.perm _ h2) (hx.perm _ h1)]
    exact hx.nf.kept _ h1

/-- The coefficients of the composition of two basis elements. -/
theorem ecmp_app {R : Type} [CommRing R] (i : Nat) {k l : BKey} (n1 : k ≠ []) (n2 : l ≠ []) (m : BKey) :
    ecmp (R := R) i k l m = (barrattEcclesCoeff i k l m : R) := by
  rw [ecmp, ez_eq_sum [] [] _ _ n1 n2, barrattEcclesCoeff, map_list_sum, ← Finsupp.applyAddHom_apply, map_list_sum,
    List.map_map, List.map_map, Int.cast_list_sum, List.map_map]
  congr 1
  apply List.map_congr_left
  intro w _
  have hmet : List.map (cp i) (met [] [] k l w) =
      (visited w 0 0).map fun ab => substitutePerm i (k.getD ab.1 []) (l.getD ab.2 []) := by
    unfold met
    rw [List.map_map]
    rfl
  simp only [Function.comp, map_smul, mapK_single, Finsupp.applyAddHom_apply, Finsupp.smul_apply,
    Finsupp.single_apply, hmet]
  split <;> simp

theorem cat_one_app {R A : Type} [CommRing R] [DecidableEq A] (u v : A →₀ R) (a b : A) :
    cat (one u) (one v) [a, b] = u a * v b := by
  induction u using Finsupp.induction_linear with
  | zero => simp
  | add f g hf hg => simp only [map_add, LinearMap.add_apply, Finsupp.add_apply, hf, hg]; ring
  | single k c =>
    induction v using Finsupp.induction_linear with
    | zero => simp
    | add f g hf hg => simp only [map_add, Finsupp.add_apply, hf, hg]; ring
    | single l c' =>
      simp only [one_single, cat_single_single, List.cons_append, List.nil_append, Finsupp.single_apply, List.cons.injEq, and_true]
      by_cases h1 : k = a <;> by_cases h2 : l = b <;> simp [h1, h2]

/-- The diagonal is a map of operads: the diagonal of a composition is the composition of the diagonals in
the tensor square of the operad. -/
theorem C92_hopf (hx : HomBE r d x) (hy : HomBE s e y) (hxn : x.data ≠ []) (hyn : y.data ≠ [])
    (hi : 1 ≤ i ∧ i ≤ r) (ht : x.torsion = y.torsion) (hz : compose x y i = .ok z) (m m' : BKey)
    (hm : ProperTensor [m, m']) :
    (z.diagonal 1).coeff [m, m'] ≡ ((pyProduct (x.diagonal 1).data (y.diagonal 1).data).map fun pq =>
      pq.1.2 * pq.2.2 * tensorCompositionCoeff i pq.1.1 pq.2.1 m m').sum [ZMOD x.torsion] := by
  obtain ⟨z', ez', nz, az, dz⟩ := compose_ok hx hy hxn hyn hi ht rfl
  obtain rfl : z = z' := by rw [hz] at ez'; cases ez'; rfl
  have hzt : z.torsion = x.torsion := torsion_congr az
  have dd := den_diagonal z 1
  rw [hzt, dz, drops_eq, lin_aw_pr] at dd
  have dx := den_diagonal x 1
  have dy := den_diagonal y 1
  rw [← ht] at dy
  have key : lin (aw 1) (ecmpV (ZMod x.torsion) i (den _ x.data) (den _ y.data)) =
      mapK (List.map (List.map (cp i))) (bil shT (den _ (x.diagonal 1).data) (den _ (y.diagonal 1).data)) := by
    rw [dx, dy]
    have := BElem.bil_ext_supported (R := ZMod x.torsion) (S := Set.univ) (T := Set.univ)
      (f := (ecmpV (ZMod x.torsion) i).compr₂ (lin (aw 1)))
      (g := ((bil shT).compl₁₂ (lin (aw 1)) (lin (aw 1))).compr₂ (mapK (List.map (List.map (cp i)))))
      (fun k _ l _ => by
        simp only [LinearMap.compr₂_apply, LinearMap.compl₁₂_apply, lin_single, one_smul]
        rw [← aw_ez, ecmpV, bil_bv, lin_single, one_smul, ecmp]
        generalize (ez k l : List (Perm × Perm) →₀ ZMod x.torsion) = v
        have : (lin (aw 1)).comp (mapK (List.map (cp i))) =
            (mapK (List.map (List.map (cp i)))).comp (lin (aw (R := ZMod x.torsion) 1)) := by
          apply lin_ext
          intro k
          simp only [LinearMap.comp_apply, mapK_single, lin_single, one_smul]
          exact (Natural.mapK_aw (cp i) 1 k).symm
        exact LinearMap.congr_fun this v) (u := den _ x.data) (v := den _ y.data) (by simp) (by simp)
    exact this
  rw [key] at dd
  rw [← ZMod.intCast_eq_intCast_iff]
  have hc := DFunLike.congr_fun dd [m, m']
  rw [Dict.den_apply (nf_diagonal z 1).nodup, pr_apply, (proper_iff _).1 hm] at hc
  simp only [Bool.false_eq_true, if_false] at hc
  rw [coeff, hc, bil_den, map_list_sum, List.map_map]
  rw [← Finsupp.applyAddHom_apply, map_list_sum, List.map_map, Int.cast_list_sum, List.map_map]
  congr 1
  apply List.map_congr_left
  intro pq hpq
  obtain ⟨hp, hq⟩ := mem_pyProduct.1 hpq
  simp only [Function.comp, Finsupp.applyAddHom_apply, map_smul, Finsupp.smul_apply, smul_eq_mul]
  rw [Int.cast_mul (_ * _)]
  congr 1
  obtain ⟨l1, n1⟩ := mem_diagonal hx.nf hp
  obtain ⟨l2, n2⟩ := mem_diagonal hy.nf hq
  obtain ⟨X, X', hX⟩ := List.length_eq_two.1 l1
  obtain ⟨Y, Y', hY⟩ := List.length_eq_two.1 l2
  rw [hX] at n1 ⊢
  rw [hY] at n2 ⊢
  simp only [List.mem_cons, List.not_mem_nil, or_false, forall_eq_or_imp, forall_eq] at n1 n2
  have e1 : mapK (List.map (List.map (cp i))) (shT (R := ZMod x.torsion) [X, X'] [Y, Y']) =
      sg (ZMod x.torsion) (ldim X' * ldim Y) • cat (one (ecmp i X Y)) (one (ecmp i X' Y')) := by
    rw [shT, map_smul, Natural.mapK_cat, Natural.mapK_one, Natural.mapK_one]
    rfl
  rw [e1, Finsupp.smul_apply, cat_one_app, ecmp_app i n1.1 n2.1, ecmp_app i n1.2 n2.2, tensorCompositionCoeff]
  have p1 := List.length_pos_iff.2 n1.2
  have p2 := List.length_pos_iff.2 n2.1
  have hsg : sg (ZMod x.torsion) (ldim X' * ldim Y) = (-1) ^ ((X'.length - 1) * (Y.length - 1)) := by
    rw [← sg_natCast]
    congr 1
    simp only [ldim]
    push_cast [Nat.cast_sub (show 1 ≤ X'.length from p1), Nat.cast_sub (show 1 ≤ Y.length from p2)]
    rfl
  rw [hsg]
  simp

/-! ### Examples -/

example : pyEq (tensorBoundary (exBE.diagonal 2)) (exBE.boundary.diagonal 2) = true ∧
    (exBE.boundary.diagonal 2).data ≠ [] ∧
    (cutFactor 1 1 (exBE.diagonal 1)).data.length = 12 ∧ (exBE.diagonal 2).data.length = 12 := by
  refine ⟨C91_chain_map _ _, ?_, ?_, ?_⟩ <;> decide +kernel

example : InRing 3 exRing ∧ exRing.data ≠ [] ∧ InBE 3 exBE ∧ exBE.data ≠ [] ∧ exRing.torsion = exBE.torsion ∧
    (BElem.rmul exRing exBE).toOption.map (fun z => (z.diagonal 1).data.length) = some 18 ∧
    (omitFactor 1 (exBE.diagonal 2)).data = (exBE.diagonal 1).data ∧ (exBE.diagonal 1).data.length = 6 :=
  ⟨exRing_inRing, by decide +kernel, exBE_in, by decide, by decide, by decide +kernel, by decide +kernel, by decide +kernel⟩

example : HomBE 3 2 exBE ∧ HomBE 2 1 exBE2 ∧ exBE.torsion = exBE2.torsion ∧
    (compose exBE exBE2 2).toOption.map (fun z => (z.diagonal 1).coeff
      [[[1, 2, 3, 4], [1, 3, 2, 4], [3, 2, 1, 4]], [[3, 2, 1, 4], [4, 1, 3, 2]]]) = some 4 :=
  ⟨exBE_hom, exBE2_hom, rfl, by decide +kernel⟩

end Comch.Props
