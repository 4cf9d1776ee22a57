import Verif.Lib.CochainsAct

/-! # Operations on the cochains of ordered simplicial complexes: C102, C103, C104 -/

set_option linter.unusedSectionVars false

namespace Comch.Coch
open Comch.Spec Elem SurjComp SurjElem IsPerm SurjMay Comch.Props
open BElem (stepV stepV_supported)
open Finsupp (single)

variable {p q n d : Nat} {s : Int} {b : Bool} {σ : List Nat} {x : SurjElem}

theorem cup_eq (hn : n ≠ 1) (hσ : Inc σ) (i a c : Nat) (α β : List Nat → ZMod n) :
    cupValue n i a α c β σ = .ok (wv 2 n i [(a, α), (c, β)] σ) := by
  obtain ⟨x, z, ex, ez, dz⟩ := W_simplex (d := i) le_rfl hn hσ
  unfold cupValue
  simp only [ex, bind, Except.bind, ez]
  rw [evalOn_eq, dz]
  rfl

theorem call_smul (hp : 2 ≤ p) (hσ : Inc σ) {m : SurjElem} (c : Int)
    (hm : Surjection.maySteenrodStructure p d (some p) .mcClureSmith = .ok m) :
    ∃ z, callSimplicial (smul surjection c m) (simplexElement p σ) = .ok z ∧
      den (ZMod p) z.data = (c : ZMod p) • W p p d (bv (ZMod p) [σ]) := by
  have hn : p ≠ 1 := by omega
  obtain ⟨h1, h2, h3, h4, h5⟩ := simplex_ok hσ hn
  obtain ⟨m', em, im, tm, cm, -, -, dm, -⟩ := C56_psi_ok (r := p) .mcClureSmith hp d p hn
  cases hm.symm.trans em
  obtain ⟨m', em', -, -, dm'⟩ := surjMay_ok (r := p) .mcClureSmith hp d p
  cases hm.symm.trans em'
  have hd : ∀ t ∈ (smul surjection c m).data, ((sdeg t.1 : Nat) : Int) = d :=
    keysP_smul (P := fun k => ((sdeg k : Nat) : Int) = d) c fun t ht => sdeg_of_degree im dm ht
  obtain ⟨z, ez, nz, az, dz⟩ := call_ok (inSurj_smul im c) hd cm h1 (homogeneous_keys h2 h3) tm h4 le_rfl le_rfl
  refine ⟨z, ez, ?_⟩
  rw [dz, den_smul im.nf _ (by simp) (by rw [tm]; simp), dm', den_simplex hσ hn, map_smul, LinearMap.smul_apply, map_smul]
  rfl

theorem call_empty {n : Nat} (hx : x.data = []) (L : List (Nat × (List Nat → ZMod n))) :
    ∃ u, callSimplicial x (simplexElement n σ) = .ok u ∧ evalOn L u = 0 := by
  obtain ⟨z, ez, dz, -⟩ := C52_zero (x := x) (y := simplexElement n σ) (coord := 1) (Or.inl hx)
  exact ⟨z, ez, by rw [evalOn_eq, dz]; simp⟩

/-- The operation on cochains is a multiple of the values of one structure element. -/
theorem steenrod_eq (hp : 2 ≤ p) (h : Surjection.steenrodOperation p (-s) (-(q : Int)) b = .ok x)
    : ∃ (c : Int) (d : Nat),
      (c ≠ 0 → (d : Int) = if p = 2 then q - s else (q - 2 * s) * (p - 1) - (if b then 1 else 0)) ∧ ∀ (α : List Nat → ZMod p) σ, Inc σ →
      steenrodValue p s q b α σ = .ok ((c : ZMod p) * wv p p d (List.replicate p (q, α)) σ) := by
  have hval : ∀ (α : List Nat → ZMod p) σ u, callSimplicial x (simplexElement p σ) = .ok u →
      steenrodValue p s q b α σ = .ok (evalOn (List.replicate p (q, α)) u) := by
    intro α σ u hu
    unfold steenrodValue
    simp only [h, bind, Except.bind, hu]
  have hgood : ∀ c (d : Nat) m, ((d : Int) = if p = 2 then q - s else (q - 2 * s) * (p - 1) - (if b then 1 else 0)) →
      Surjection.maySteenrodStructure p d (some p) .mcClureSmith = .ok m →
      x = smul surjection c m → ∃ (c : Int) (d : Nat),
      (c ≠ 0 → (d : Int) = if p = 2 then q - s else (q - 2 * s) * (p - 1) - (if b then 1 else 0)) ∧ ∀ (α : List Nat → ZMod p) σ, Inc σ →
      steenrodValue p s q b α σ = .ok ((c : ZMod p) * wv p p d (List.replicate p (q, α)) σ) := by
    intro c d m hd hm hx
    refine ⟨c, d, fun _ => hd, fun α σ hσ => ?_⟩
    obtain ⟨z, ez, dz⟩ := call_smul hp hσ c hm
    rw [hval α σ z (by rw [hx, ez]), evalOn_eq, dz, map_smul, smul_eq_mul]
    rfl
  have hzero : x.data = [] → ∃ (c : Int) (d : Nat),
      (c ≠ 0 → (d : Int) = if p = 2 then q - s else (q - 2 * s) * (p - 1) - (if b then 1 else 0)) ∧ ∀ (α : List Nat → ZMod p) σ, Inc σ →
      steenrodValue p s q b α σ = .ok ((c : ZMod p) * wv p p d (List.replicate p (q, α)) σ) := by
    intro hx
    refine ⟨0, 0, fun h => absurd rfl h, fun α σ hσ => ?_⟩
    obtain ⟨z, ez, hz⟩ := call_empty (σ := σ) hx (List.replicate p (q, α))
    rw [hval α σ z ez, hz]
    simp
  have h00 : ∀ n, (Elem.new surjection [] (some n)).data = [] := fun n => by
    simp [Elem.new, preferredRep, zeroDropped, basePreferredRep]
  unfold Surjection.steenrodOperation at h
  split at h
  · rename_i h2
    split at h
    · cases h
    · split at h
      · cases h
        exact hzero (h00 2)
      · cases hm : Surjection.maySteenrodStructure p (-s - -(q : Int)).toNat (some p) .mcClureSmith with
        | error e => rw [hm] at h; cases h
        | ok m =>
          rw [hm] at h
          cases h
          exact hgood _ _ m (by rw [if_pos h2]; omega) hm rfl
  · rename_i h2
    dsimp only at h
    split at h
    · cases hc : steenrodCoeff p (-s) (-(q : Int)) with
      | error e => rw [hc] at h; cases h
      | ok c =>
        rw [hc] at h
        cases h
        exact hzero (h00 p)
    · cases hc : steenrodCoeff p (-s) (-(q : Int)) with
      | error e => rw [hc] at h; cases h
      | ok c =>
        rw [hc] at h
        simp only [bind, Except.bind] at h
        split at h
        · cases h
        · rename_i m hm
          cases h
          refine hgood _ _ m ?_ hm rfl
          rw [if_neg h2, Int.toNat_of_nonneg (by omega), steenrodDegree]
          ring

/-- The values of a structure element vanish except in one dimension. -/
theorem wv_degree (hp : 2 ≤ p) (hσ : Inc σ) (α : List Nat → ZMod p)
    (h : wv p p d (List.replicate p (q, α)) σ ≠ 0) : (σ.length : Int) - 1 + d = p * q := by
  have hn : p ≠ 1 := by omega
  obtain ⟨h1, h2, h3, h4, h5⟩ := simplex_ok hσ hn
  obtain ⟨x, z, ex, ez, dz⟩ := W_simplex (d := d) hp hn hσ
  obtain ⟨x', ex', ix, tx, cx, -, -, dx, -⟩ := C56_psi_ok .mcClureSmith hp d p hn
  cases ex.symm.trans ex'
  obtain ⟨z', ez', -, -, hz⟩ := C52_arity_degree ix dx cx h1 h2 h3 (by rw [h4, tx]) le_rfl le_rfl
  cases ez.symm.trans ez'
  by_contra hne
  apply h
  rw [wv, ← dz]
  refine fun_ext_supported (f := evF (List.replicate p (q, α))) (g := 0) (S := {m : SKey | m.length = p ∧
    SElem.keyDegree m = (σ.length : Int) - 1 + d}) (fun m hm => ?_) (den_supported (R := ZMod p) fun t ht => ?_)
  · rw [evF_single, LinearMap.zero_apply, one_mul, tensorValue_replicate q α p m hm.1]
    refine List.prod_eq_zero ?_
    have : ∃ f ∈ m, List.length f ≠ q + 1 := by
      by_contra hall
      push Not at hall
      apply hne
      rw [← hm.2, ← hm.1, ← totDeg_ldim]
      have : ∀ m : SKey, (∀ f ∈ m, List.length f = q + 1) → totDeg ldim m = (m.length : Int) * q := by
        intro m
        induction m with
        | nil => simp [totDeg]
        | cons f m ih =>
          intro hf
          rw [totDeg, ih fun g hg => hf g (by simp [hg]), ldim, hf f (by simp)]
          simp
          ring
      exact this m hall
    obtain ⟨f, hf, hl⟩ := this
    exact List.mem_map.2 ⟨f, hf, if_neg hl⟩
  · have := hz t ht
    exact ⟨by have := this.1; omega, this.2⟩

theorem square_op (s : Int) (q : Nat) : ∃ x, Surjection.steenrodOperation 2 (-s) (-(q : Int)) = .ok x := by
  rcases lt_or_ge (-s) (-(q : Int)) with h | h
  · obtain ⟨z, hz, -⟩ := (C57_operation_two (-s) (-(q : Int)) .mcClureSmith).1 h
    exact ⟨z, hz⟩
  · obtain ⟨z, m, hz, -⟩ := (C57_operation_two (-s) (-(q : Int)) .mcClureSmith).2.1 h
    exact ⟨z, hz⟩

/-- `Sq^s` on cochains of degree `q` is `α ∪_{q-s} α`, and zero for `s > q`. -/
theorem square_eq (hσ : Inc σ) (s : Int) (q : Nat) (α : List Nat → ZMod 2) :
    steenrodValue 2 s q false α σ =
      .ok (if s ≤ q then wv 2 2 (q - s).toNat [(q, α), (q, α)] σ else 0) := by
  unfold steenrodValue Surjection.steenrodOperation
  rw [if_pos rfl, if_neg (by simp)]
  by_cases h : s ≤ q
  · rw [if_neg (by omega), if_pos h, show (-s - -(q : Int)) = q - s by ring]
    obtain ⟨m, em, -⟩ := C56_psi_ok (r := 2) .mcClureSmith le_rfl ((q : Int) - s).toNat 2 (by norm_num)
    obtain ⟨z, ez, dz⟩ := call_smul le_rfl hσ 1 em
    simp only [em, bind, Except.bind]
    rw [ez]
    simp only []
    rw [evalOn_eq, dz]
    simp [wv, List.replicate]
  · rw [if_pos (by omega), if_neg h]
    obtain ⟨z, ez, hz⟩ := call_empty (σ := σ) (x := Elem.new surjection [] (some 2)) (n := 2)
      (by simp [Elem.new, preferredRep, zeroDropped, basePreferredRep]) (List.replicate 2 (q, α))
    simp only [bind, Except.bind]
    rw [ez]
    simp only []
    rw [hz]

end Comch.Coch

namespace Comch.Props
open Comch.Spec Comch.Coch Elem SurjComp SurjElem SurjMay

variable {p q n : Nat} {s : Int} {b : Bool} {σ : List Nat} {x : SurjElem} {X : OrderedComplex}

theorem inc_of_mem (h : σ ∈ X.simplices) : Inc σ := ⟨X.increasing σ h, X.nonempty σ h⟩

theorem coboundary_congr {R : Type} [CommRing R] {α β : List Nat → R} (hX : σ ∈ X.simplices)
    (h : ∀ τ ∈ X.simplices, τ.length + 1 = σ.length → α τ = β τ) : coboundary α σ = coboundary β σ := by
  unfold coboundary
  split
  · rfl
  · rename_i hl
    congr 1
    refine List.map_congr_left fun i hi => ?_
    have hi := List.mem_range.1 hi
    have hlen := List.length_eraseIdx_of_lt hi
    rw [h _ (X.faces σ hX _ (List.eraseIdx_sublist _ _) (fun h0 => by
      rw [h0] at hlen; simp at hlen; omega)) (by rw [hlen]; omega)]

/-- No exception: once the operation itself exists (always at `p = 2`, see `C57` for odd primes), it can be
evaluated on every simplex. -/
theorem C102_defined (hp : 2 ≤ p) (hop : Surjection.steenrodOperation p (-s) (-(q : Int)) b = .ok x)
    (α : List Nat → ZMod p) (hσ : σ ∈ X.simplices) : ∃ v, steenrodValue p s q b α σ = .ok v := by
  obtain ⟨c, d, -, h⟩ := steenrod_eq hp hop
  exact ⟨_, h α σ (inc_of_mem hσ)⟩

/-- The degree: the values on `q`-cochains vanish on all simplices but those of dimension `q + s` at `p = 2` and
`q + 2 s (p - 1)`, plus one with the Bockstein, at odd primes. -/
theorem C102_degree (hp : p.Prime) (hop : Surjection.steenrodOperation p (-s) (-(q : Int)) b = .ok x)
    (α : List Nat → ZMod p) (hσ : σ ∈ X.simplices)
    (h : steenrodValue p s q b α σ ≠ .ok 0) :
    (σ.length : Int) - 1 = if p = 2 then q + s else q + 2 * s * (p - 1) + (if b then 1 else 0) := by
  obtain ⟨c, d, hd, hv⟩ := steenrod_eq hp.two_le hop
  rw [hv α σ (inc_of_mem hσ)] at h
  have hc : c ≠ 0 := by rintro rfl; simp at h
  have hw : wv p p d (List.replicate p (q, α)) σ ≠ 0 := by intro h0; rw [h0] at h; simp at h
  have h1 := wv_degree hp.two_le (inc_of_mem hσ) α hw
  rw [hd hc] at h1
  split at h1
  · rename_i h2
    subst h2
    rw [if_pos rfl]
    push_cast at h1
    linarith
  · rename_i h2
    rw [if_neg h2]
    linarith

/-- The Steenrod operations of the package, at all primes and with or without the Bockstein, send cocycles to
cocycles. -/
theorem C102_cocycle (hp : p.Prime) (hop : Surjection.steenrodOperation p (-s) (-(q : Int)) b = .ok x)
    {α : List Nat → ZMod p} (hα : IsCocycle X q α) (m : Nat) :
    IsCocycle X m (cochain (steenrodValue p s q b α)) := by
  intro σ hσ hl
  obtain ⟨c, d, -, h⟩ := steenrod_eq hp.two_le hop
  have hp2 : p = 2 ∨ p % 2 = 1 := hp.eq_two_or_odd
  have := wv_cocycle (d := d) hp.two_le hp2 hα hσ
  rw [coboundary_congr (β := fun τ => (c : ZMod p) * wv p p d (List.replicate p (q, α)) τ) hσ
    (fun τ hτ _ => by rw [cochain, h α τ (inc_of_mem hτ)])]
  have hs : coboundary (fun τ => (c : ZMod p) * wv p p d (List.replicate p (q, α)) τ) σ =
      c * coboundary (wv p p d (List.replicate p (q, α))) σ := by
    unfold coboundary
    split
    · simp
    · rw [← List.sum_map_mul_left]
      congr 1
      exact List.map_congr_left fun i _ => by ring
  rw [hs, this, mul_zero]

theorem cochain_cup (hn : n ≠ 1) (hX : σ ∈ X.simplices) (i a c : Nat) (α β : List Nat → ZMod n) :
    cochain (cupValue n i a α c β) σ = wv 2 n i [(a, α), (c, β)] σ := by
  rw [cochain, cup_eq hn (inc_of_mem hX)]

/-- The cup-`i` products can be evaluated on every simplex, modulo every `n ≠ 1`. -/
theorem C103_defined (hn : n ≠ 1) (hσ : σ ∈ X.simplices) (i a c : Nat) (α β : List Nat → ZMod n) :
    ∃ v, cupValue n i a α c β σ = .ok v := ⟨_, cup_eq hn (inc_of_mem hσ) i a c α β⟩

/-- `δ(α ∪ β) = δα ∪ β + (-1)^|α| α ∪ δβ`. -/
theorem C103_coboundary_zero (hn : n ≠ 1) (hσ : σ ∈ X.simplices) (a c : Nat) (α β : List Nat → ZMod n) :
    coboundary (cochain (cupValue n 0 a α c β)) σ =
      cochain (cupValue n 0 (a + 1) (coboundary α) c β) σ +
        (-1) ^ a * cochain (cupValue n 0 a α (c + 1) (coboundary β)) σ := by
  rw [coboundary_congr hσ fun τ hτ _ => cochain_cup hn hτ 0 a c α β, cochain_cup hn hσ, cochain_cup hn hσ]
  exact wv_pair_zero hn (inc_of_mem hσ) a c α β

/-- Steenrod's formula: `(-1)^{i+1} δ(α ∪_{i+1} β) = δα ∪_{i+1} β + (-1)^|α| α ∪_{i+1} δβ
- (-1)^{|α||β|} β ∪_i α - (-1)^{i+1} α ∪_i β`, modulo every `n ≠ 1`, in particular over the integers. -/
theorem C103_coboundary_succ (hn : n ≠ 1) (hσ : σ ∈ X.simplices) (i a c : Nat) (α β : List Nat → ZMod n) :
    (-1) ^ (i + 1) * coboundary (cochain (cupValue n (i + 1) a α c β)) σ =
      cochain (cupValue n (i + 1) (a + 1) (coboundary α) c β) σ +
        (-1) ^ a * cochain (cupValue n (i + 1) a α (c + 1) (coboundary β)) σ -
      (-1) ^ (a * c) * cochain (cupValue n i c β a α) σ - (-1) ^ (i + 1) * cochain (cupValue n i a α c β) σ := by
  rw [coboundary_congr hσ fun τ hτ _ => cochain_cup hn hτ (i + 1) a c α β, cochain_cup hn hσ, cochain_cup hn hσ,
    cochain_cup hn hσ, cochain_cup hn hσ, wv_pair_succ hn (inc_of_mem hσ) a c α β]
  ring

theorem sum_range_single {R : Type} [CommRing R] {m a : Nat} (f : Nat → R) (ha : a < m)
    (h : ∀ i, i < m → i ≠ a → f i = 0) : ((List.range m).map f).sum = f a := by
  induction m with
  | zero => omega
  | succ m ih =>
    rw [List.range_succ, List.map_append, List.sum_append]
    by_cases hm : a = m
    · subst hm
      rw [List.sum_eq_zero fun t ht => ?_]
      · simp
      · obtain ⟨i, hi, rfl⟩ := List.mem_map.1 ht
        have := List.mem_range.1 hi
        exact h i (by omega) (by omega)
    · rw [ih (by omega) fun i hi => h i (by omega), List.map_singleton, List.sum_singleton, h m (by omega) (Ne.symm hm),
        add_zero]

/-- `α ∪_0 β` is the product of the value of `α` on the front face and of `β` on the back face. -/
theorem C103_front_back (hn : n ≠ 1) (hσ : σ ∈ X.simplices) (a c : Nat) (α β : List Nat → ZMod n)
    (hl : σ.length = a + c + 1) :
    cupValue n 0 a α c β σ = .ok (α (σ.take (a + 1)) * β (σ.drop a)) := by
  have hi := inc_of_mem hσ
  rw [cup_eq hn hi]
  congr 1
  have hW : W 2 n 0 (bv (ZMod n) [σ]) = pr lany (aw 1 σ) := by
    unfold W
    rw [LinearMap.comp_apply, psiS, convS_single, one_mul, map_smul, LinearMap.smul_apply, map_smul]
    have h1 : convE .mcClureSmith (pyRange 1 (2 + 1)) = 0 := by decide
    rw [h1]
    simp only [Nat.cast_zero, sg_zero, one_smul]
    rw [callV_one _ _ _ rfl]
    congr 1
    exact sact_identity (R := ZMod n) (r := 2) (by norm_num) hi.2
  rw [wv, hW, evF_pr hi]
  · rw [aw_eq_cuts, map_list_sum, List.map_map]
    have hc : allCuts 2 σ = (List.range σ.length).map fun i => [σ.take (i + 1), σ.drop i] := by
      rw [List.map_eq_flatMap]
      simp [allCuts]
    rw [hc, List.map_map, sum_range_single (a := a) _ (by omega)]
    · simp only [Function.comp, evF_single, one_mul, tensorValue, mul_one]
      rw [if_pos (by rw [List.length_take]; omega), if_pos (by rw [List.length_drop]; omega)]
    · intro i hi hne
      simp only [Function.comp, evF_single, one_mul, tensorValue, mul_one]
      rw [if_neg (by rw [List.length_take]; omega), zero_mul]
  · rw [aw_eq_cuts]
    refine list_sum_mem fun t ht => ?_
    obtain ⟨m, hm, rfl⟩ := List.mem_map.1 ht
    refine Finsupp.single_mem_supported _ _ fun f hf => ?_
    simp only [allCuts, List.mem_flatMap, List.mem_range, List.map_cons, List.map_nil, List.mem_singleton] at hm
    obtain ⟨i, -, rfl⟩ := hm
    simp only [List.mem_cons, List.not_mem_nil, or_false] at hf
    rcases hf with rfl | rfl
    · exact List.take_sublist _ _
    · exact List.drop_sublist _ _

/-! ### Steenrod squares -/

theorem cochain_square (hX : σ ∈ X.simplices) (s : Int) (q : Nat) (α : List Nat → ZMod 2) :
    cochain (steenrodValue 2 s q false α) σ = if s ≤ q then wv 2 2 (q - s).toNat [(q, α), (q, α)] σ else 0 := by
  rw [cochain, square_eq (inc_of_mem hX)]

theorem tensorValue_congr {R : Type} [CommRing R] {k : SKey} {a c : Nat} {α α' β β' : List Nat → R}
    (h1 : ∀ f ∈ k, f.length = a + 1 → α f = α' f) (h2 : ∀ f ∈ k, f.length = c + 1 → β f = β' f) :
    tensorValue [(a, α), (c, β)] k = tensorValue [(a, α'), (c, β')] k := by
  match k with
  | [] => rfl
  | [f] => simp [tensorValue]
  | [f, g] =>
    simp only [tensorValue, mul_one]
    congr 1
    · split
      · rename_i h; exact h1 f (by simp) h
      · rfl
    · split
      · rename_i h; exact h2 g (by simp) h
      · rfl
  | f :: g :: e :: k => simp [tensorValue]

theorem wv_congr (hn : n ≠ 1) (hX : σ ∈ X.simplices) {i a c : Nat} {α α' β β' : List Nat → ZMod n}
    (h1 : ∀ f ∈ X.simplices, f.length = a + 1 → α f = α' f) (h2 : ∀ f ∈ X.simplices, f.length = c + 1 → β f = β' f) :
    wv 2 n i [(a, α), (c, β)] σ = wv 2 n i [(a, α'), (c, β')] σ := by
  refine fun_ext_supported (S := Faces 2 σ) (fun m hm => ?_) (W_supported le_rfl hn (inc_of_mem hX))
  have hf : ∀ f ∈ m, f ∈ X.simplices := fun f hf => X.faces σ hX f (hm.2 f hf).1 (hm.2 f hf).2
  rw [evF_single, evF_single, tensorValue_congr (fun f h => h1 f (hf f h)) (fun f h => h2 f (hf f h))]

theorem wv_add_left (i a c : Nat) (α α' β : List Nat → ZMod n) :
    wv 2 n i [(a, fun f => α f + α' f), (c, β)] σ = wv 2 n i [(a, α), (c, β)] σ + wv 2 n i [(a, α'), (c, β)] σ := by
  unfold wv
  generalize W 2 n i (bv (ZMod n) [σ]) = v
  induction v using Finsupp.induction_linear with
  | zero => simp
  | add v w hv hw => simp only [map_add, hv, hw]; ring
  | single k e =>
    rw [evF_single, evF_single, evF_single]
    match k with
    | [] => simp [tensorValue]
    | [f] => simp [tensorValue]
    | [f, g] => simp only [tensorValue]; split <;> ring
    | f :: g :: h :: k => simp [tensorValue]

theorem wv_add_right (i a c : Nat) (α β β' : List Nat → ZMod n) :
    wv 2 n i [(a, α), (c, fun f => β f + β' f)] σ = wv 2 n i [(a, α), (c, β)] σ + wv 2 n i [(a, α), (c, β')] σ := by
  unfold wv
  generalize W 2 n i (bv (ZMod n) [σ]) = v
  induction v using Finsupp.induction_linear with
  | zero => simp
  | add v w hv hw => simp only [map_add, hv, hw]; ring
  | single k e =>
    rw [evF_single, evF_single, evF_single]
    match k with
    | [] => simp [tensorValue]
    | [f] => simp [tensorValue]
    | [f, g] => simp only [tensorValue]; split <;> split <;> ring
    | f :: g :: h :: k => simp [tensorValue]

theorem wv_zero_left (i a c : Nat) (β : List Nat → ZMod n) : wv 2 n i [(a, fun _ => 0), (c, β)] σ = 0 := by
  have := wv_add_left (n := n) (σ := σ) i a c (fun _ => 0) (fun _ => 0) β
  simpa using this

theorem wv_zero_right (i a c : Nat) (α : List Nat → ZMod n) : wv 2 n i [(a, α), (c, fun _ => 0)] σ = 0 := by
  have := wv_add_right (n := n) (σ := σ) i a c α (fun _ => 0) (fun _ => 0)
  simpa using this

theorem coboundary_add {R : Type} [CommRing R] (α β : List Nat → R) (σ : List Nat) :
    coboundary (fun τ => α τ + β τ) σ = coboundary α σ + coboundary β σ := by
  unfold coboundary
  split
  · simp
  · rw [← List.sum_map_add]
    congr 1
    exact List.map_congr_left fun i _ => by ring

/-- `δδ = 0`. -/
theorem coboundary_coboundary {R : Type} [CommRing R] (γ : List Nat → R) (σ : List Nat) :
    coboundary (coboundary γ) σ = 0 := by
  by_cases h : σ.length ≤ 2
  · unfold coboundary
    split
    · rfl
    · refine List.sum_eq_zero fun t ht => ?_
      obtain ⟨i, hi, rfl⟩ := List.mem_map.1 ht
      have hi := List.mem_range.1 hi
      rw [if_pos (by rw [List.length_eraseIdx_of_lt hi]; omega), mul_zero]
  · obtain ⟨q, hq⟩ : ∃ q, σ.length = q + 3 := ⟨σ.length - 3, by omega⟩
    have h1 : ∀ v : List Nat →₀ R, ev1 (q + 1) (coboundary γ) v = ev1 q γ (del v) := by
      intro v
      induction v using Finsupp.induction_linear with
      | zero => simp
      | add v w hv hw => simp only [map_add, hv, hw]
      | single f c => rw [ev1_single, del_single, map_smul, ev1_delK, smul_eq_mul]
    have h2 := ev1_delK (R := R) (q + 1) (coboundary γ) σ
    rw [if_pos (by omega), h1, show delK (R := R) σ = del (bv R σ) by simp, del_del, map_zero] at h2
    exact h2.symm

/-- Modulo 2 the formula for the coboundary of `α ∪_{i+1} β` has no signs. -/
theorem wv_two (hσ : Inc σ) (i a c : Nat) (α β : List Nat → ZMod 2) :
    coboundary (wv 2 2 (i + 1) [(a, α), (c, β)]) σ =
      wv 2 2 (i + 1) [(a + 1, coboundary α), (c, β)] σ + wv 2 2 (i + 1) [(a, α), (c + 1, coboundary β)] σ +
        (wv 2 2 i [(c, β), (a, α)] σ + wv 2 2 i [(a, α), (c, β)] σ) := by
  have h := wv_pair_succ (d := i) (n := 2) (by norm_num) hσ a c α β
  have hs : ∀ m : Nat, ((-1 : ZMod 2)) ^ m = 1 := fun m => by
    rw [show (-1 : ZMod 2) = 1 by decide, one_pow]
  simp only [hs, one_mul] at h
  rw [h, sub_eq_add_neg, show ∀ t : ZMod 2, -t = t by decide]

theorem wv_two_zero (hσ : Inc σ) (a c : Nat) (α β : List Nat → ZMod 2) :
    coboundary (wv 2 2 0 [(a, α), (c, β)]) σ =
      wv 2 2 0 [(a + 1, coboundary α), (c, β)] σ + wv 2 2 0 [(a, α), (c + 1, coboundary β)] σ := by
  have h := wv_pair_zero (n := 2) (by norm_num) hσ a c α β
  rw [show (-1 : ZMod 2) = 1 by decide, one_pow, one_mul] at h
  exact h

theorem two_self (t : ZMod 2) : t + t = 0 := by revert t; decide

/-- The squares are additive on cohomology classes. -/
theorem C104_additive {α β : List Nat → ZMod 2} (hα : IsCocycle X q α) (hβ : IsCocycle X q β) (s : Int) (m : Nat) :
    Cohomologous X m (cochain (steenrodValue 2 s q false fun f => α f + β f))
      (fun σ => cochain (steenrodValue 2 s q false α) σ + cochain (steenrodValue 2 s q false β) σ) := by
  have h2 : (2 : Nat) ≠ 1 := by norm_num
  by_cases hs : s ≤ q
  · refine ⟨wv 2 2 ((q - s).toNat + 1) [(q, α), (q, β)], fun σ hσ _ => ?_⟩
    beta_reduce
    rw [cochain_square hσ, cochain_square hσ, cochain_square hσ, if_pos hs, if_pos hs, if_pos hs,
      wv_two (inc_of_mem hσ), wv_add_left, wv_add_right, wv_add_right,
      wv_congr h2 hσ (α := coboundary α) (α' := fun _ => 0) (β := β) (β' := β) (fun f hf hl => hα f hf hl) (fun _ _ _ => rfl),
      wv_congr h2 hσ (α := α) (α' := α) (β := coboundary β) (β' := fun _ => 0) (fun _ _ _ => rfl) (fun f hf hl => hβ f hf hl),
      wv_zero_left, wv_zero_right]
    ring
  · refine ⟨fun _ => 0, fun σ hσ _ => ?_⟩
    beta_reduce
    rw [cochain_square hσ, cochain_square hσ, cochain_square hσ, if_neg hs, if_neg hs, if_neg hs]
    unfold coboundary
    split <;> simp

/-- The square of a coboundary is a coboundary. -/
theorem square_coboundary (γ : List Nat → ZMod 2) (i q : Nat) : ∃ ε : List Nat → ZMod 2, ∀ σ ∈ X.simplices,
    wv 2 2 i [(q + 1, coboundary γ), (q + 1, coboundary γ)] σ = coboundary ε σ := by
  have h2 : (2 : Nat) ≠ 1 := by norm_num
  have hz : ∀ j, ∀ σ ∈ X.simplices, wv 2 2 j [(q, γ), (q + 1 + 1, coboundary (coboundary γ))] σ = 0 := by
    intro j σ hσ
    rw [wv_congr h2 hσ (α := γ) (α' := γ) (β := coboundary (coboundary γ)) (β' := fun _ => 0) (fun _ _ _ => rfl)
      (fun f _ _ => coboundary_coboundary γ f), wv_zero_right]
  cases i with
  | zero =>
    refine ⟨wv 2 2 0 [(q, γ), (q + 1, coboundary γ)], fun σ hσ => ?_⟩
    rw [wv_two_zero (inc_of_mem hσ), hz 0 σ hσ, add_zero]
  | succ i =>
    have h1 : ∀ σ ∈ X.simplices, coboundary (wv 2 2 i [(q, γ), (q, γ)]) σ =
        wv 2 2 i [(q + 1, coboundary γ), (q, γ)] σ + wv 2 2 i [(q, γ), (q + 1, coboundary γ)] σ := by
      intro σ hσ
      cases i with
      | zero => rw [wv_two_zero (inc_of_mem hσ)]
      | succ i => rw [wv_two (inc_of_mem hσ), two_self (wv 2 2 i [(q, γ), (q, γ)] σ), add_zero]
    refine ⟨fun τ => wv 2 2 (i + 1) [(q, γ), (q + 1, coboundary γ)] τ + wv 2 2 i [(q, γ), (q, γ)] τ, fun σ hσ => ?_⟩
    rw [coboundary_add, h1 σ hσ, wv_two (inc_of_mem hσ), hz (i + 1) σ hσ, add_zero]
    rw [add_assoc, two_self, add_zero]

/-- The class of the square depends only on the class of the cocycle. -/
theorem C104_well_defined {α β : List Nat → ZMod 2} (hα : IsCocycle X q α) (h : Cohomologous X q α β) (s : Int)
    (m : Nat) :
    Cohomologous X m (cochain (steenrodValue 2 s q false α)) (cochain (steenrodValue 2 s q false β)) := by
  have h2 : (2 : Nat) ≠ 1 := by norm_num
  have hc0 : ∀ σ : List Nat, coboundary (fun _ => (0 : ZMod 2)) σ = 0 := by
    intro σ; unfold coboundary; split <;> simp
  obtain ⟨γ, hγ⟩ := h
  by_cases hs : s ≤ q
  swap
  · refine ⟨fun _ => 0, fun σ hσ _ => ?_⟩
    rw [cochain_square hσ, cochain_square hσ, if_neg hs, if_neg hs, hc0, add_zero]
  cases q with
  | zero =>
    refine ⟨fun _ => 0, fun σ hσ _ => ?_⟩
    have hab : ∀ f ∈ X.simplices, f.length = 0 + 1 → α f = β f := by
      intro f hf hl
      rw [hγ f hf hl, coboundary, if_pos (by omega), add_zero]
    rw [cochain_square hσ, cochain_square hσ, if_pos hs, if_pos hs, hc0, add_zero,
      wv_congr h2 hσ hab hab]
  | succ q =>
    have hβ : IsCocycle X (q + 1) β := by
      intro σ hσ hl
      have := hα σ hσ hl
      rw [coboundary_congr (β := fun τ => β τ + coboundary γ τ) hσ (fun τ hτ hτl => hγ τ hτ (by omega)), coboundary_add,
        coboundary_coboundary, add_zero] at this
      exact this
    obtain ⟨ε, hε⟩ := square_coboundary (X := X) γ (((q + 1 : Nat) : Int) - s).toNat q
    refine ⟨fun τ => wv 2 2 ((((q + 1 : Nat) : Int) - s).toNat + 1) [(q + 1, β), (q + 1, coboundary γ)] τ + ε τ, fun σ hσ _ => ?_⟩
    rw [cochain_square hσ, cochain_square hσ, if_pos hs, if_pos hs, coboundary_add, ← hε σ hσ,
      wv_two (inc_of_mem hσ), wv_congr h2 hσ hγ hγ, wv_add_left, wv_add_right, wv_add_right,
      wv_congr h2 hσ (α := coboundary β) (α' := fun _ => 0) (β := coboundary γ) (β' := coboundary γ) (fun f hf hl => hβ f hf hl) (fun _ _ _ => rfl),
      wv_congr h2 hσ (α := β) (α' := β) (β := coboundary (coboundary γ)) (β' := fun _ => 0) (fun _ _ _ => rfl)
        (fun f hf hl => coboundary_coboundary γ f),
      wv_zero_left, wv_zero_right]
    ring

/-- `Sq^s` on cochains of degree `q` vanishes for `s > q` and for `s < 0`. -/
theorem C104_vanishing (α : List Nat → ZMod 2) (hσ : σ ∈ X.simplices) (h : s < 0 ∨ (q : Int) < s) :
    steenrodValue 2 s q false α σ = .ok 0 := by
  have hi := inc_of_mem hσ
  rw [square_eq hi]
  split
  · rename_i hs
    congr 1
    by_contra hne
    have hdeg := wv_degree (p := 2) (q := q) le_rfl hi α hne
    rw [Int.toNat_of_nonneg (by omega)] at hdeg
    push_cast at hdeg
    obtain ⟨h1, h2, h3, h4, h5⟩ := simplex_ok (n := 2) hi (by norm_num)
    obtain ⟨x, z, ex, ez, dz⟩ := W_simplex (r := 2) (n := 2) (d := ((q : Int) - s).toNat) le_rfl (by norm_num) hi
    obtain ⟨x', ex', ix, tx, cx, -, -, dx, -⟩ := C56_psi_ok (r := 2) .mcClureSmith le_rfl ((q : Int) - s).toNat 2 (by norm_num)
    cases ex.symm.trans ex'
    obtain ⟨z', ez', hz, -⟩ := C87_instability ix dx cx h1 h2 h3 (by rw [h4, tx])
    cases ez.symm.trans ez'
    have h0 := hz (by rw [Int.toNat_of_nonneg (by omega)]; push_cast; omega)
    apply hne
    rw [wv, ← dz, h0]
    simp
  · rfl

/-- `Sq^q` on cochains of degree `q` is the cup square. -/
theorem C104_top (α : List Nat → ZMod 2) (hσ : σ ∈ X.simplices) (hl : σ.length = 2 * q + 1) :
    steenrodValue 2 q q false α σ = .ok (α (σ.take (q + 1)) * α (σ.drop q)) := by
  rw [square_eq (inc_of_mem hσ), if_pos le_rfl, ← C103_front_back (n := 2) (by norm_num) hσ q q α α (by omega),
    cup_eq (by norm_num) (inc_of_mem hσ)]
  simp

theorem only_entry {K : Type} [DecidableEq K] {C : Cls K} {w : Elem K} {k : K} (hw : w.NF C) (tw : w.torsion = 2)
    (hne : w.data ≠ []) (hk : ∀ p ∈ w.data, p.1 = k) : w.data = [(k, 1)] := by
  obtain ⟨p, l, hl⟩ := List.exists_cons_of_ne_nil hne
  have hp : p ∈ w.data := by rw [hl]; simp
  have hl0 : l = [] := by
    cases l with
    | nil => rfl
    | cons q l =>
      exfalso
      have hn := hw.nodup
      rw [hl, Dict.KeysNodup] at hn
      simp only [List.map_cons, List.nodup_cons, List.mem_cons, not_or] at hn
      exact hn.1.1 ((hk p hp).trans (hk q (by rw [hl]; simp)).symm)
  have h1 := hw.coeff_ne p hp
  have h2 := hw.coeff_range (by rw [tw]; norm_num) p hp
  rw [tw] at h2
  rw [hl, hl0]
  congr 1
  refine Prod.ext (hk p hp) ?_
  show p.2 = 1
  push_cast at h2
  omega

/-- `Sq^0` is the identity. -/
theorem C104_zero (α : List Nat → ZMod 2) (hσ : σ ∈ X.simplices) (hl : σ.length = q + 1) :
    steenrodValue 2 0 q false α σ = .ok (α σ) := by
  have hi := inc_of_mem hσ
  rw [square_eq hi, if_pos (by omega)]
  congr 1
  obtain ⟨h1, h2, h3, h4, h5⟩ := simplex_ok (n := 2) hi (by norm_num)
  rw [show ((q : Int) - 0).toNat = q by omega]
  obtain ⟨x, z, ex, ez, dz⟩ := W_simplex (r := 2) (n := 2) (d := q) le_rfl (by norm_num) hi
  obtain ⟨x', ex', ix, tx, cx, hne, -, dx, hh⟩ := C56_psi_ok (r := 2) .mcClureSmith le_rfl q 2 (by norm_num)
  cases ex.symm.trans ex'
  have hlen : ∀ p ∈ x.data, p.1.length = q + 2 := by
    intro p hp
    have h6 := sdeg_of_degree ix dx hp
    have h7 := length_of_onto (ix.onto p hp)
    omega
  obtain ⟨p0, hp0⟩ := List.exists_mem_of_ne_nil _ hne
  have hrepk : ∀ p ∈ x.data, hasRep p.1 = false := fun p hp => (surj_kept_iff.1 (ix.nf.kept p hp)).2.2
  have hx1 : x.data = [(p0.1, 1)] := by
    refine only_entry ix.nf tx hne fun p hp => ?_
    refine alternating_unique (hrepk p hp) (hrepk p0 hp0) (fun v hv => ?_) (fun v hv => ?_)
      (by rw [hh p hp, hh p0 hp0]) (by rw [hlen p hp, hlen p0 hp0])
    · have := (ix.onto p hp v).1 hv; omega
    · have := (ix.onto p0 hp0 v).1 hv; omega
  have h2' : (simplexElement 2 σ).degree = some (q : Int) := by
    rw [h2, hl]; push_cast; congr 1; ring
  obtain ⟨z', ez', hk, hcoef⟩ := C88_arity_two ix hx1 dx cx h1 h2' h3 (by rw [h4, tx])
  cases ez.symm.trans ez'
  have hnd : Simplex.isDegenerate σ = false := by
    rw [SurjElem.isDegenerate_eq]; exact hi.ldrop
  obtain ⟨ε, hε, hco⟩ := hcoef σ hl hnd
  have hk' : ∀ t ∈ z.data, t.1 = [σ, σ] := by
    intro t ht
    obtain ⟨p, hp, e⟩ := hk t ht
    rw [h5] at hp
    simp at hp
    rw [e, hp]
    rfl
  have tz : z.torsion = 2 := by
    obtain ⟨z'', ez'', -, az, -⟩ := C52_arity_degree ix dx cx h1 h2 h3 (by rw [h4, tx]) le_rfl le_rfl
    cases ez.symm.trans ez''
    rw [torsion_congr az, h4]
  have hzne : z.data ≠ [] := by
    intro h0
    rw [tx] at hco
    have h9 : (simplexElement 2 σ).coeff [σ] = 1 := by
      rw [coeff, h5]; simp [Dict.get]
    rw [h9, coeff, h0] at hco
    rcases hε with rfl | rfl
    · exact absurd (show (0 : Int) ≡ _ [ZMOD (2 : Nat)] from hco) (by decide)
    · exact absurd (show (0 : Int) ≡ _ [ZMOD (2 : Nat)] from hco) (by decide)
  have hz1 := only_entry (nf_callSimplicial ez) tz hzne hk'
  rw [wv, ← dz, hz1]
  simp only [den_cons, den_nil, add_zero, evF_single, tensorValue, hl, if_true, Int.cast_one, one_mul, mul_one]
  generalize α σ = t
  revert t
  decide

/-! ### a case that meets the hypotheses -/

/-- The standard simplex with vertices `0, …, m - 1`. -/
def exComplex (m : Nat) : OrderedComplex where
  simplices := {σ | σ.Pairwise (· < ·) ∧ σ ≠ [] ∧ ∀ v ∈ σ, v < m}
  increasing := fun _ h => h.1
  nonempty := fun _ h => h.2.1
  faces := fun _ h _ hs hne => ⟨h.1.sublist hs, hne, fun v hv => h.2.2 v (hs.subset hv)⟩

/-- A cochain of degree 1: 1 on the edges with exactly one odd vertex. -/
def exCochain (p : Nat) : List Nat → ZMod p := coboundary fun σ => if σ.sum % 2 = 1 then 1 else 0

example : IsCocycle (exComplex 5) 1 (exCochain 3) := fun σ _ _ => coboundary_coboundary _ σ

example : IsCocycle (exComplex 5) 1 (exCochain 2) := fun σ _ _ => coboundary_coboundary _ σ

example : steenrodValue 2 1 1 false (exCochain 2) [0, 1, 2] = .ok 1 := by decide +kernel

example : steenrodValue 3 0 1 false (exCochain 3) [0, 1] = .ok 2 := by decide +kernel

example : steenrodValue 3 0 1 true (exCochain 3) [0, 1, 2] = .ok 0 := by decide +kernel

example : cupValue 0 0 1 (exCochain 0) 2 (fun _ => 1) [0, 1, 2, 3] = .ok 1 := by decide +kernel

end Comch.Props
