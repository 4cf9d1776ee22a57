import Verif.Props.SurjAction

/-! # C123: the symmetric action on elements of mixed arity

An element whose basis elements have different arities has no arity (`None`), and so has a ring element
with permutations of different lengths; the arity check of `__rmul__` compares `None` with `None` and
lets the product pass. -/

set_option linter.unusedSectionVars false

namespace Comch.Mixed
open Comch Elem Spec IsPerm

theorem mapM_error {α β : Type} {f : α → Py β} {e : PyErr} {l : List α}
    (h : ∀ a ∈ l, (∃ b, f a = .ok b) ∨ f a = .error e) (he : ∃ a ∈ l, f a = .error e) :
    l.mapM f = .error e := by
  induction l with
  | nil => obtain ⟨a, ha, _⟩ := he; simp at ha
  | cons a l ih =>
    rw [List.mapM_cons]
    rcases h a (by simp) with ⟨b, hb⟩ | hb
    · have : l.mapM f = .error e := by
        refine ih (fun c hc => h c (List.mem_cons_of_mem _ hc)) ?_
        obtain ⟨c, hc, ec⟩ := he
        rcases List.mem_cons.1 hc with rfl | hc
        · rw [hb] at ec; cases ec
        · exact ⟨c, hc, ec⟩
      rw [hb, this]
      rfl
    · rw [hb]
      rfl

theorem mapM_congr' {α β : Type} {f g : α → Py β} {l : List α} (h : ∀ a ∈ l, f a = g a) :
    l.mapM f = l.mapM g := by
  induction l with
  | nil => rfl
  | cons a l ih =>
    rw [List.mapM_cons, List.mapM_cons, h a (by simp), ih fun b hb => h b (List.mem_cons_of_mem _ hb)]

theorem foldlM_congr' {α β : Type} {f g : β → α → Py β} {l : List α} (h : ∀ a ∈ l, ∀ b, f b a = g b a) (b : β) :
    l.foldlM f b = l.foldlM g b := by
  induction l generalizing b with
  | nil => rfl
  | cons a l ih =>
    rw [List.foldlM_cons, List.foldlM_cons, h a (by simp)]
    cases g b a with
    | error e => rfl
    | ok c => exact ih (fun a ha => h a (List.mem_cons_of_mem _ ha)) c

theorem pyGet_take {A : Type} {k : List A} {r i : Nat} (h : i < r) : pyGet (k.take r) i = pyGet k i := by
  unfold pyGet
  rw [List.getElem?_take_of_lt h]

theorem enum_lt {σ : Perm} {p : Nat × Nat} (hp : p ∈ enumerate σ) : p.1 < σ.length := by
  rw [mem_enumerate] at hp
  exact (List.getElem?_eq_some_iff.1 hp).1

theorem permuteFactors_take {A : Type} {σ : Perm} {k : List A} :
    permuteFactors σ k = permuteFactors σ (k.take σ.length) := by
  unfold permuteFactors
  congr 1
  apply foldlM_congr'
  rintro ⟨idx, i⟩ hp b
  have hg := pyGet_take (k := k) (enum_lt hp)
  simp only at hg ⊢
  rw [hg]

theorem koszulExp_take {σ : Perm} {w : List Int} :
    koszulExp σ w = koszulExp σ (w.take σ.length) := by
  unfold koszulExp
  congr 1
  apply mapM_congr'
  rintro ⟨idx, i⟩ hp
  have h1 : ((σ.drop (idx + 1)).filter fun j => i > j).mapM (fun j => (do
      let at_ ← pyIndex σ j
      pyGet w at_ : Py Int)) = ((σ.drop (idx + 1)).filter fun j => i > j).mapM (fun j => (do
      let at_ ← pyIndex σ j
      pyGet (w.take σ.length) at_ : Py Int)) := by
    apply mapM_congr'
    intro j _
    unfold pyIndex
    split
    · rename_i h
      simp only [bind, Except.bind]
      rw [pyGet_take h]
    · rfl
  have hg := pyGet_take (k := w) (enum_lt hp)
  simp only at h1 hg ⊢
  rw [h1, hg]

theorem pyGet_cases {A : Type} (k : List A) (i : Nat) :
    (i < k.length ∧ ∃ a, pyGet k i = .ok a) ∨ (k.length ≤ i ∧ pyGet k i = .error .indexError) := by
  unfold pyGet
  by_cases h : i < k.length
  · exact Or.inl ⟨h, _, by rw [List.getElem?_eq_getElem h]⟩
  · exact Or.inr ⟨by omega, by rw [List.getElem?_eq_none (by omega)]⟩

/-- A permutation longer than the list of factors: `IndexError`. -/
theorem permuteFactors_short {A : Type} {σ : Perm} {k : List A} (h : k.length < σ.length) :
    permuteFactors σ k = .error .indexError := by
  unfold permuteFactors
  have key : ∀ (l : List (Nat × Nat)) (nk : List (Option A)), (∃ p ∈ l, k.length ≤ p.1) →
      l.foldlM (fun (nk : List (Option A)) (p : Nat × Nat) => (do
        let a ← pyGet k p.1
        if p.2 = 0 ∨ nk.length < p.2 then .error .indexError
        else .ok (nk.set (p.2 - 1) (some a)) : Py (List (Option A)))) nk = .error .indexError := by
    intro l
    induction l with
    | nil => rintro nk ⟨p, hp, _⟩; simp at hp
    | cons p l ih =>
      intro nk he
      rw [List.foldlM_cons]
      rcases pyGet_cases k p.1 with ⟨h1, a, ha⟩ | ⟨h1, ha⟩
      · rw [ha]
        simp only [bind, Except.bind]
        by_cases hc : p.2 = 0 ∨ nk.length < p.2
        · rw [if_pos hc]
        · rw [if_neg hc]
          refine ih _ ?_
          obtain ⟨q, hq, hq'⟩ := he
          rcases List.mem_cons.1 hq with rfl | hq
          · omega
          · exact ⟨q, hq, hq'⟩
      · rw [ha]
        rfl
  rw [key _ _ ⟨(k.length, σ[k.length]), mem_enumerate.2 (List.getElem?_eq_getElem h), le_refl _⟩]
  rfl

/-- More entries than weights: `IndexError`. -/
theorem koszulExp_short {σ : Perm} {w : List Int} (hσ : σ.Nodup) (h : w.length < σ.length) :
    koszulExp σ w = .error .indexError := by
  unfold koszulExp
  have hin : ∀ idx i : Nat, (∃ l, ((σ.drop (idx + 1)).filter fun j => i > j).mapM (fun j => (do
      let at_ ← pyIndex σ j
      pyGet w at_ : Py Int)) = .ok l) ∨
      ((σ.drop (idx + 1)).filter fun j => i > j).mapM (fun j => (do
      let at_ ← pyIndex σ j
      pyGet w at_ : Py Int)) = .error .indexError := by
    intro idx i
    have hj : ∀ j ∈ (σ.drop (idx + 1)).filter fun j => i > j, (∃ b, (do
      let at_ ← pyIndex σ j
      pyGet w at_ : Py Int) = .ok b) ∨ (do
      let at_ ← pyIndex σ j
      pyGet w at_ : Py Int) = .error .indexError := by
      intro j hj
      have hm : j ∈ σ := List.mem_of_mem_drop (List.mem_filter.1 hj).1
      unfold pyIndex
      rw [if_pos (List.idxOf_lt_length_iff.2 hm)]
      simp only [bind, Except.bind]
      rcases pyGet_cases w (σ.idxOf j) with ⟨_, a, ha⟩ | ⟨_, ha⟩
      · exact Or.inl ⟨a, ha⟩
      · exact Or.inr ha
    by_cases he : ∃ j ∈ (σ.drop (idx + 1)).filter fun j => i > j, (do
      let at_ ← pyIndex σ j
      pyGet w at_ : Py Int) = .error .indexError
    · exact Or.inr (mapM_error hj he)
    · left
      push Not at he
      have : ∀ j ∈ (σ.drop (idx + 1)).filter fun j => i > j, (do
        let at_ ← pyIndex σ j
        pyGet w at_ : Py Int) = .ok (w.getD (σ.idxOf j) 0) := by
        intro j hjm
        have hm : j ∈ σ := List.mem_of_mem_drop (List.mem_filter.1 hjm).1
        rcases hj j hjm with ⟨b, hb⟩ | hb
        · rw [hb]
          unfold pyIndex at hb
          rw [if_pos (List.idxOf_lt_length_iff.2 hm)] at hb
          simp only [bind, Except.bind, pyGet] at hb
          rw [List.getD_eq_getElem?_getD]
          cases hw : w[σ.idxOf j]? with
          | none => rw [hw] at hb; cases hb
          | some a => rw [hw] at hb; cases hb; rfl
        · exact absurd hb (he j hjm)
      exact ⟨_, mapM_ok this⟩
  rw [mapM_error (e := PyErr.indexError)]
  · rfl
  · rintro ⟨idx, i⟩ hp
    simp only
    rcases hin idx i with ⟨l, hl⟩ | hl
    · rw [hl]
      simp only [bind, Except.bind]
      rcases pyGet_cases w idx with ⟨_, a, ha⟩ | ⟨_, ha⟩
      · left
        rw [ha]
        by_cases h0 : l = []
        · exact ⟨0, by rw [if_pos h0]⟩
        · exact ⟨l.sum * a, by rw [if_neg h0]⟩
      · right
        rw [ha]
        split <;> rfl
    · right
      rw [hl]
      rfl
  · refine ⟨(w.length, σ[w.length]), mem_enumerate.2 (List.getElem?_eq_getElem h), ?_⟩
    simp only
    have hg : pyGet w w.length = .error .indexError := by
      rcases pyGet_cases w w.length with ⟨h1, _⟩ | ⟨_, h1⟩
      · omega
      · exact h1
    rcases hin w.length σ[w.length] with ⟨l, hl⟩ | hl
    · rw [hl]
      simp only [bind, Except.bind]
      rw [hg]
      split <;> rfl
    · rw [hl]
      rfl

section
variable {A : Type} [DecidableEq A] {C : Cls (List A)} {w : A → Int} {s : RingElem} {x : Elem (List A)}

theorem rmulG_short (hs : ∀ q ∈ s.data, IsPerm q.1.length q.1) (ts : s.torsion = x.torsion)
    (ha : uniqueValue (x.data.map fun p => p.1.length) = s.arity)
    (h : ∃ p ∈ x.data, ∃ q ∈ s.data, p.1.length < q.1.length) :
    rmulG C w s x = .error .indexError := by
  unfold rmulG
  rw [if_neg (by simpa using ts.symm), if_neg (by simpa using ha)]
  rw [mapM_error (e := PyErr.indexError)]
  · rfl
  · rintro ⟨p, q⟩ hpq
    rw [mem_pyProduct] at hpq
    have h1 := hs q hpq.2
    simp only
    by_cases hl : p.1.length < q.1.length
    · right
      rw [permuteFactors_short hl]
      rfl
    · left
      have hk : (p.1.take q.1.length).length = q.1.length := by
        rw [List.length_take]; omega
      rw [permuteFactors_take, permuteFactors_eq h1 hk, koszulExp_take, koszulExp_eq h1 (by
        rw [List.length_take, List.length_map]; omega)]
      exact ⟨_, rfl⟩
  · obtain ⟨p, hp, q, hq, hl⟩ := h
    refine ⟨(p, q), mem_pyProduct.2 ⟨hp, hq⟩, ?_⟩
    simp only
    rw [permuteFactors_short hl]
    rfl

theorem rmulG_long (hC : C.defaultTorsion = 0) (hs : ∀ q ∈ s.data, IsPerm q.1.length q.1)
    (ts : s.torsion = x.torsion)
    (ha : uniqueValue (x.data.map fun p => p.1.length) = s.arity)
    (h : ∀ p ∈ x.data, ∀ q ∈ s.data, q.1.length ≤ p.1.length) (wN : A → Nat)
    (hw : ∀ p ∈ x.data, ∀ a ∈ p.1, w a = wN a) :
    ∃ z, rmulG C w s x = .ok z ∧ z.NF C ∧ z.attrs = x.attrs ∧
      ∀ m : List A, C.drops m = false →
      z.coeff m ≡ (x.data.map fun p => (s.data.map fun q =>
        if IsMoved q.1 (p.1.take q.1.length) m then
          (-1) ^ koszulExponent q.1 ((p.1.take q.1.length).map wN) * p.2 * q.2 else 0).sum).sum
        [ZMOD x.torsion] := by
  have hm : (pyProduct x.data s.data).mapM (fun (pq : (List A × Int) × (Perm × Int)) => (do
      let newKey ← permuteFactors pq.2.1 pq.1.1
      let e ← koszulExp pq.2.1 (pq.1.1.map fun c => w c % 2)
      .ok (newKey, pySign e * pq.1.2 * pq.2.2) : Py (List A × Int))) =
      .ok ((pyProduct x.data s.data).map fun pq => (actL pq.2.1 (pq.1.1.take pq.2.1.length),
        pySign (kos w (pq.2.1.zip (pq.1.1.take pq.2.1.length))) * pq.1.2 * pq.2.2)) := by
    apply mapM_ok
    intro pq hpq
    rw [mem_pyProduct] at hpq
    have h1 := hs _ hpq.2
    have h2 : (pq.1.1.take pq.2.1.length).length = pq.2.1.length := by
      have := h _ hpq.1 _ hpq.2
      rw [List.length_take]; omega
    rw [permuteFactors_take, permuteFactors_eq h1 h2, koszulExp_take, ← List.map_take,
      koszulExp_eq h1 (by simpa using h2)]
    simp only [bind, Except.bind]
    congr 3
    congr 1
    rw [kos_map]
    have := sg_kos_mod (R := Int) w (pq.2.1.zip (pq.1.1.take pq.2.1.length))
    rw [← cast_pySign, ← cast_pySign] at this
    simpa using this
  refine ⟨Elem.accumulate C (x.zero C) ((pyProduct x.data s.data).map fun pq =>
    (actL pq.2.1 (pq.1.1.take pq.2.1.length),
        pySign (kos w (pq.2.1.zip (pq.1.1.take pq.2.1.length))) * pq.1.2 * pq.2.2)), ?_,
    nf_accumulate_zero _ _ _, by simp, ?_⟩
  · unfold rmulG
    rw [if_neg (by simpa using ts.symm), if_neg (by simpa using ha)]
    simp only [bind] at hm ⊢
    rw [hm]
    rfl
  · intro m hmk
    refine (coeff_accumulate_zero x _ hC m hmk).trans ?_
    refine congrArg (· % (x.torsion : Int)) ?_
    rw [List.map_map, sum_pyProduct]
    congr 1
    apply List.map_congr_left
    intro p hp
    congr 1
    apply List.map_congr_left
    intro q hq
    simp only [Function.comp]
    have h1 := hs q hq
    have h2 : (p.1.take q.1.length).length = q.1.length := by
      have := h _ hp _ hq
      rw [List.length_take]; omega
    have h3 : actL q.1 (p.1.take q.1.length) = m ↔ IsMoved q.1 (p.1.take q.1.length) m := by
      constructor
      · rintro rfl; exact isMoved_actL h1 h2
      · intro h; exact isMoved_unique h1 h2 (isMoved_actL h1 h2) h
    rw [kos_eq_koszulExponent w wN q.1 (p.1.take q.1.length)
      (fun a ha => hw p hp a (List.mem_of_mem_take ha)), pySign_natCast]
    simp only [h3]

end

end Comch.Mixed

namespace Comch.Props
open Comch Elem Spec IsPerm Mixed

/-- The permutations of a ring element, possibly of different lengths. -/
def MixedPerms (s : RingElem) : Prop := ∀ q ∈ s.data, q.1 ≠ [] ∧ IsPerm q.1.length q.1

instance (s : RingElem) : Decidable (MixedPerms s) :=
  inferInstanceAs (Decidable (∀ q ∈ s.data, _ ∧ _))

section simplicial
variable {s : RingElem} {x : SElem}

/-- `IndexError` as soon as one permutation is longer than one multisimplex. -/
theorem C123_simplicial_missing (hs : MixedPerms s) (ts : s.torsion = x.torsion)
    (hsa : s.arity = none) (hxa : x.arity = none)
    (h : ∃ p ∈ x.data, ∃ q ∈ s.data, p.1.length < q.1.length) :
    SElem.rmul s x = .error .indexError :=
  rmulG_short (C := simplicial) (w := Simplex.dimension) (fun q hq => (hs q hq).2) ts (hxa.trans hsa.symm) h

/-- Otherwise no exception, and the factors beyond the length of the permutation are silently
discarded. -/
theorem C123_simplicial_dropped (hs : MixedPerms s) (ts : s.torsion = x.torsion)
    (hx : x.NF simplicial) (hsa : s.arity = none) (hxa : x.arity = none)
    (h : ∀ p ∈ x.data, ∀ q ∈ s.data, q.1.length ≤ p.1.length) :
    ∃ z, SElem.rmul s x = .ok z ∧ z.NF simplicial ∧ z.attrs = x.attrs ∧
      ∀ m : SKey, (∀ σ ∈ m, σ.isDegenerate = false) →
        z.coeff m ≡ (x.data.map fun p => (s.data.map fun q =>
          if IsMoved q.1 (p.1.take q.1.length) m then
            (-1) ^ koszulExponent q.1 ((p.1.take q.1.length).map fun σ => σ.length - 1) * p.2 * q.2
          else 0).sum).sum [ZMOD x.torsion] := by
  obtain ⟨z, ez, nz, az, hz⟩ := rmulG_long (C := simplicial) (w := Simplex.dimension) rfl
    (fun q hq => (hs q hq).2) ts (hxa.trans hsa.symm) h (fun σ => σ.length - 1) (by
      intro p hp a ha
      have h := hx.kept p hp
      rw [simplicial_drops] at h
      simp only [List.any_eq_false] at h
      have h0 : a ≠ [] := by
        intro h0
        exact h a ha (by simp [h0])
      have := List.length_pos_iff.2 h0
      simp only [Simplex.dimension]
      omega)
  refine ⟨z, ez, nz, az, fun m hm => hz m ?_⟩
  show (m.any fun s => s.isDegenerate) = false
  simpa using hm

end simplicial

section cubical
variable {s : RingElem} {x : CElem}

/-- `IndexError` as soon as one permutation is longer than one multicube. -/
theorem C123_cubical_missing (hs : MixedPerms s) (ts : s.torsion = x.torsion)
    (hsa : s.arity = none) (hxa : x.arity = none)
    (h : ∃ p ∈ x.data, ∃ q ∈ s.data, p.1.length < q.1.length) :
    CElem.rmul s x = .error .indexError :=
  rmulG_short (C := cubical) (w := cdim) (fun q hq => (hs q hq).2) ts (hxa.trans hsa.symm) h

/-- Otherwise the factors beyond the length of the permutation are silently discarded. -/
theorem C123_cubical_dropped (hs : MixedPerms s) (ts : s.torsion = x.torsion)
    (hsa : s.arity = none) (hxa : x.arity = none)
    (h : ∀ p ∈ x.data, ∀ q ∈ s.data, q.1.length ≤ p.1.length) :
    ∃ z, CElem.rmul s x = .ok z ∧ z.NF cubical ∧ z.attrs = x.attrs ∧
      ∀ m : CKey, z.coeff m ≡ (x.data.map fun p => (s.data.map fun q =>
          if IsMoved q.1 (p.1.take q.1.length) m then
            (-1) ^ koszulExponent q.1 ((p.1.take q.1.length).map fun c =>
              (intervalPositions c).length) * p.2 * q.2
          else 0).sum).sum [ZMOD x.torsion] := by
  obtain ⟨z, ez, nz, az, hz⟩ := rmulG_long (C := cubical) (w := cdim) rfl
    (fun q hq => (hs q hq).2) ts (hxa.trans hsa.symm) h (fun c => (intervalPositions c).length) (by
      intro p hp a ha
      rw [length_intervalPositions])
  exact ⟨z, ez, nz, az, fun m => hz m rfl⟩

end cubical

section barrattEccles
variable {s : RingElem} {x : BElem}

/-- In the Barratt-Eccles operad the product of two non-zero elements without arity always raises
`TypeError`, from the product of two permutations of different lengths. -/
theorem C123_barrattEccles (hs : MixedPerms s) (ts : s.torsion = x.torsion)
    (hx : ∀ p ∈ x.data, p.1 ≠ [] ∧ ∃ r, 1 ≤ r ∧ ∀ σ ∈ p.1, IsPerm r σ)
    (hsa : s.arity = none) (hxa : x.arity = none) (hsn : s.data ≠ []) (hxn : x.data ≠ []) :
    BElem.rmul s x = .error .typeError := by
  have hmul : ∀ {p q : Perm} {a b : Nat}, 1 ≤ a → 1 ≤ b → IsPerm a p → IsPerm b q → a ≠ b →
      Perm.mul p q = .error .typeError := by
    intro p q a b ha hb hp hq hab
    unfold Perm.mul
    rw [arity_eq hp ha, arity_eq hq hb]
    simp only [bind, Except.bind]
    rw [if_pos hab]
  have hlen : ∀ q ∈ s.data, 1 ≤ q.1.length := fun q hq => List.length_pos_iff.2 (hs q hq).1
  have hbad : ∀ p ∈ x.data, ∀ q ∈ s.data, ∀ r, (∀ σ ∈ p.1, IsPerm r σ) → 1 ≤ r → q.1.length ≠ r →
      (p.1.mapM fun π => Perm.mul q.1 π) = .error .typeError := by
    intro p hp q hq r hr h1 hne
    refine mapM_error (fun σ hσ => Or.inr (hmul (hlen q hq) h1 (hs q hq).2 (hr σ hσ) hne)) ?_
    obtain ⟨σ, hσ⟩ := List.exists_mem_of_ne_nil _ (hx p hp).1
    exact ⟨σ, hσ, hmul (hlen q hq) h1 (hs q hq).2 (hr σ hσ) hne⟩
  unfold BElem.rmul
  rw [if_neg (by simpa using ts.symm), if_neg (by rw [hsa, hxa]; simp)]
  rw [mapM_error (e := PyErr.typeError)]
  · rfl
  · rintro ⟨p, q⟩ hpq
    rw [mem_pyProduct] at hpq
    obtain ⟨hne, r, h1, hr⟩ := hx p hpq.1
    simp only
    by_cases he : q.1.length = r
    · left
      have : (p.1.mapM fun π => Perm.mul q.1 π) = .ok (p.1.map fun π => mulL q.1 π) :=
        mapM_ok fun σ hσ => mul_eq (he ▸ (hs q hpq.2).2) (hr σ hσ) h1
      rw [this]
      exact ⟨_, rfl⟩
    · right
      rw [hbad p hpq.1 q hpq.2 r hr h1 he]
      rfl
  · obtain ⟨p, hp⟩ := List.exists_mem_of_ne_nil _ hxn
    obtain ⟨hne, r, h1, hr⟩ := hx p hp
    have : ∃ q ∈ s.data, q.1.length ≠ r := by
      unfold RingElem.arity at hsa
      rw [uniqueValue_eq_none] at hsa
      rcases hsa with h | ⟨a, ha, b, hb, hab⟩
      · exact absurd (List.map_eq_nil_iff.1 h) hsn
      · obtain ⟨q, hq, rfl⟩ := List.mem_map.1 ha
        obtain ⟨q', hq', rfl⟩ := List.mem_map.1 hb
        rw [pyMax_eq (hs q hq).2, pyMax_eq (hs q' hq').2] at hab
        by_cases h : q.1.length = r
        · exact ⟨q', hq', fun h' => hab (h.trans h'.symm)⟩
        · exact ⟨q, hq, h⟩
    obtain ⟨q, hq, hne'⟩ := this
    refine ⟨(p, q), mem_pyProduct.2 ⟨hp, hq⟩, ?_⟩
    simp only
    rw [hbad p hp q hq r hr h1 hne']
    rfl

end barrattEccles

section surjection
variable {s : RingElem} {x : SurjElem}

private theorem get1_cases (σ : Perm) {v : Nat} (hv : 1 ≤ v) :
    (v ≤ σ.length ∧ ∃ a, pyGet1 σ v = .ok a) ∨ (σ.length < v ∧ pyGet1 σ v = .error .indexError) := by
  unfold pyGet1
  rw [if_neg (by omega)]
  rcases pyGet_cases σ (v - 1) with ⟨h, a, ha⟩ | ⟨h, ha⟩
  · exact Or.inl ⟨by omega, a, ha⟩
  · exact Or.inr ⟨by omega, ha⟩

private theorem key_ok {σ : Perm} (hσ : IsPerm σ.length σ) {k : Surj} (hk : ∀ v ∈ k, 1 ≤ v)
    (h : ∀ v ∈ k, v ≤ σ.length) : (k.mapM fun i => pyGet1 σ i) = .ok (mulL σ k) :=
  mapM_eq hσ fun i hi => ⟨hk i hi, h i hi⟩

private theorem key_error {σ : Perm} {k : Surj} (hk : ∀ v ∈ k, 1 ≤ v)
    (h : ∃ v ∈ k, σ.length < v) : (k.mapM fun i => pyGet1 σ i) = .error .indexError := by
  refine mapM_error (fun v hv => ?_) ?_
  · rcases get1_cases σ (hk v hv) with ⟨_, h⟩ | ⟨_, h⟩
    · exact Or.inl h
    · exact Or.inr h
  · obtain ⟨v, hv, hl⟩ := h
    refine ⟨v, hv, ?_⟩
    rcases get1_cases σ (hk v hv) with ⟨h, _⟩ | ⟨_, h⟩
    · omega
    · exact h

private theorem pos_of_nf (hx : x.NF surjection) {p : Surj × Int} (hp : p ∈ x.data) : ∀ v ∈ p.1, 1 ≤ v := by
  intro v hv
  exact (((surj_kept_iff.1 (hx.kept p hp)).2.1 v).1 hv).1

private theorem sign_cases {σ : Perm} (hσ : IsPerm σ.length σ) (k : Surj) (c : Convention) :
    (∃ e, SurjElem.actionSign σ k c = .ok e) ∨ SurjElem.actionSign σ k c = .error .indexError := by
  cases c with
  | bergerFresse => exact Or.inl ⟨_, rfl⟩
  | mcClureSmith =>
    unfold SurjElem.actionSign
    by_cases h : ((pyRange 1 (pyMax k + 1)).map fun i => (k.count i : Int) - 1).length < σ.length
    · right
      simp only
      rw [koszulExp_short hσ.nodup h]
      rfl
    · left
      simp only
      rw [koszulExp_take, koszulExp_eq hσ (by rw [List.length_take]; omega)]
      exact ⟨_, rfl⟩

/-- `IndexError` as soon as one permutation is shorter than a value of one surjection. -/
theorem C123_surjection_missing (hs : MixedPerms s) (ts : s.torsion = x.torsion)
    (hx : x.NF surjection) (hsa : s.arity = none) (hxa : x.arity = none)
    (h : ∃ p ∈ x.data, ∃ q ∈ s.data, ∃ v ∈ p.1, q.1.length < v) :
    SurjElem.rmul s x = .error .indexError := by
  unfold SurjElem.rmul
  rw [if_neg (by simpa using ts.symm), if_neg (by rw [hsa, hxa]; simp)]
  rw [mapM_error (e := PyErr.indexError)]
  · rfl
  · rintro ⟨p, q⟩ hpq
    rw [mem_pyProduct] at hpq
    simp only
    by_cases hl : ∀ v ∈ p.1, v ≤ q.1.length
    · rw [key_ok (hs q hpq.2).2 (pos_of_nf hx hpq.1) hl]
      simp only [bind, Except.bind]
      rcases sign_cases (hs q hpq.2).2 p.1 x.attrs.convention with ⟨e, he⟩ | he
      · left; rw [he]; exact ⟨_, rfl⟩
      · right; rw [he]
    · right
      push Not at hl
      rw [key_error (pos_of_nf hx hpq.1) hl]
      rfl
  · obtain ⟨p, hp, q, hq, hl⟩ := h
    refine ⟨(p, q), mem_pyProduct.2 ⟨hp, hq⟩, ?_⟩
    simp only
    rw [key_error (pos_of_nf hx hp) hl]
    rfl

/-- In the Berger-Fresse convention there is no exception otherwise: longer permutations are applied
to the values of the surjection; a result which is not a surjection is zero. -/
theorem C123_surjection_relabelled (hs : MixedPerms s) (ts : s.torsion = x.torsion)
    (hx : x.NF surjection) (hsa : s.arity = none) (hxa : x.arity = none)
    (hc : x.attrs.convention = .bergerFresse)
    (h : ∀ p ∈ x.data, ∀ q ∈ s.data, ∀ v ∈ p.1, v ≤ q.1.length) :
    ∃ z, SurjElem.rmul s x = .ok z ∧ z.NF surjection ∧ z.attrs = x.attrs ∧
      ∀ r (m : Surj), 1 ≤ r → NonDegenerate r m →
        z.coeff m ≡ (x.data.map fun p => (s.data.map fun q =>
          if p.1.map (value q.1) = m then p.2 * q.2 else 0).sum).sum [ZMOD x.torsion] := by
  have hm : (pyProduct x.data s.data).mapM (fun (pq : (Surj × Int) × (Perm × Int)) => (do
      let newKey ← pq.1.1.mapM fun i => pyGet1 pq.2.1 i
      let sgn ← SurjElem.actionSign pq.2.1 pq.1.1 x.attrs.convention
      .ok (newKey, sgn * pq.1.2 * pq.2.2) : Py (Surj × Int))) =
      .ok ((pyProduct x.data s.data).map fun pq => (mulL pq.2.1 pq.1.1, 1 * pq.1.2 * pq.2.2)) := by
    apply mapM_ok
    intro pq hpq
    rw [mem_pyProduct] at hpq
    rw [key_ok (hs _ hpq.2).2 (pos_of_nf hx hpq.1) (h _ hpq.1 _ hpq.2), hc]
    rfl
  refine ⟨Elem.accumulate surjection (x.zero surjection) ((pyProduct x.data s.data).map fun pq =>
    (mulL pq.2.1 pq.1.1, 1 * pq.1.2 * pq.2.2)), ?_, nf_accumulate_zero _ _ _, by simp, ?_⟩
  · unfold SurjElem.rmul
    rw [if_neg (by simpa using ts.symm), if_neg (by rw [hsa, hxa]; simp)]
    simp only [bind] at hm ⊢
    rw [hm]
    rfl
  · intro r m hr hmr
    refine (coeff_accumulate_zero x _ rfl m (surj_kept hr hmr)).trans ?_
    refine congrArg (· % (x.torsion : Int)) ?_
    rw [List.map_map, sum_pyProduct]
    simp only [Function.comp, one_mul]
    rfl

/-- In the McClure-Smith convention a permutation which is longer than the arity of one surjection
raises `IndexError` too, so that the product of two non-zero elements without arity always does. -/
theorem C123_surjection_signs (hs : MixedPerms s) (ts : s.torsion = x.torsion)
    (hx : x.NF surjection) (hsa : s.arity = none) (hxa : x.arity = none)
    (hc : x.attrs.convention = .mcClureSmith) (hsn : s.data ≠ []) (hxn : x.data ≠ []) :
    SurjElem.rmul s x = .error .indexError := by
  have step : ∀ p ∈ x.data, ∀ q ∈ s.data, q.1.length ≠ pyMax p.1 →
      (do
        let newKey ← p.1.mapM fun i => pyGet1 q.1 i
        let sgn ← SurjElem.actionSign q.1 p.1 x.attrs.convention
        .ok (newKey, sgn * p.2 * q.2) : Py (Surj × Int)) = .error .indexError := by
    intro p hp q hq hne
    by_cases hl : ∀ v ∈ p.1, v ≤ q.1.length
    · rw [key_ok (hs q hq).2 (pos_of_nf hx hp) hl]
      simp only [bind, Except.bind]
      have hmax : pyMax p.1 ≤ q.1.length := by
        have hk := surj_kept_iff.1 (hx.kept p hp)
        obtain ⟨v, hv⟩ := List.exists_mem_of_ne_nil _ hk.1
        have := ((hk.2.1 v).1 hv)
        exact hl _ ((hk.2.1 _).2 ⟨by omega, le_refl _⟩)
      rw [hc]
      unfold SurjElem.actionSign
      simp only
      rw [koszulExp_short (hs q hq).2.nodup (by
        rw [List.length_map, pyRange, List.length_range']; omega)]
      rfl
    · push Not at hl
      rw [key_error (pos_of_nf hx hp) hl]
      rfl
  unfold SurjElem.rmul
  rw [if_neg (by simpa using ts.symm), if_neg (by rw [hsa, hxa]; simp)]
  rw [mapM_error (e := PyErr.indexError)]
  · rfl
  · rintro ⟨p, q⟩ hpq
    rw [mem_pyProduct] at hpq
    simp only
    by_cases hl : ∀ v ∈ p.1, v ≤ q.1.length
    · rw [key_ok (hs q hpq.2).2 (pos_of_nf hx hpq.1) hl]
      simp only [bind, Except.bind]
      rcases sign_cases (hs q hpq.2).2 p.1 x.attrs.convention with ⟨e, he⟩ | he
      · left; rw [he]; exact ⟨_, rfl⟩
      · right; rw [he]
    · right
      push Not at hl
      rw [key_error (pos_of_nf hx hpq.1) hl]
      rfl
  · obtain ⟨p, hp⟩ := List.exists_mem_of_ne_nil _ hxn
    have : ∃ q ∈ s.data, q.1.length ≠ pyMax p.1 := by
      unfold RingElem.arity at hsa
      rw [uniqueValue_eq_none] at hsa
      rcases hsa with h | ⟨a, ha, b, hb, hab⟩
      · exact absurd (List.map_eq_nil_iff.1 h) hsn
      · obtain ⟨q, hq, rfl⟩ := List.mem_map.1 ha
        obtain ⟨q', hq', rfl⟩ := List.mem_map.1 hb
        rw [pyMax_eq (hs q hq).2, pyMax_eq (hs q' hq').2] at hab
        by_cases h : q.1.length = pyMax p.1
        · exact ⟨q', hq', fun h' => hab (h.trans h'.symm)⟩
        · exact ⟨q, hq, h⟩
    obtain ⟨q, hq, hne⟩ := this
    exact ⟨(p, q), mem_pyProduct.2 ⟨hp, hq⟩, step p hp q hq hne⟩

end surjection

/-- Multiplying an element without arity by the zero ring element raises no exception in any of the
four classes: the result is zero. -/
theorem C123_zero {s : RingElem} (hs : s.data = []) :
    (∀ x : SElem, x.torsion = s.torsion → x.arity = none → ∃ z, SElem.rmul s x = .ok z ∧ z.data = []) ∧
    (∀ x : CElem, x.torsion = s.torsion → x.arity = none → ∃ z, CElem.rmul s x = .ok z ∧ z.data = []) ∧
    (∀ x : BElem, x.torsion = s.torsion → x.arity = none → ∃ z, BElem.rmul s x = .ok z ∧ z.data = []) ∧
    (∀ x : SurjElem, x.torsion = s.torsion → x.arity = none →
      ∃ z, SurjElem.rmul s x = .ok z ∧ z.data = []) := by
  have he : ∀ {α : Type} (l : List α), pyProduct l s.data = [] := by
    intro α l
    unfold pyProduct
    rw [hs]
    simp
  have hz : ∀ {K : Type} [DecidableEq K] (C : Cls K) (x : Elem K),
      (Elem.accumulate C (x.zero C) []).data = [] := by
    intro K _ C x
    rw [List.eq_nil_iff_forall_not_mem]
    intro p hp
    have := mem_keys_accumulate_zero (List.mem_map_of_mem (f := Prod.fst) hp)
    simp at this
  refine ⟨?_, ?_, ?_, ?_⟩
  · intro x ht ha
    unfold SElem.rmul
    rw [if_neg (by simpa using ht), if_neg (by rw [ha, ringArity_none hs]; simp), he]
    exact ⟨_, rfl, hz _ _⟩
  · intro x ht ha
    unfold CElem.rmul
    rw [if_neg (by simpa using ht), if_neg (by rw [ha, ringArity_none hs]; simp), he]
    exact ⟨_, rfl, hz _ _⟩
  · intro x ht ha
    unfold BElem.rmul
    rw [if_neg (by simpa using ht), if_neg (by rw [ha, ringArity_none hs]; simp), he]
    exact ⟨_, rfl, hz _ _⟩
  · intro x ht ha
    unfold SurjElem.rmul
    rw [if_neg (by simpa using ht), if_neg (by rw [ha, ringArity_none hs]; simp), he]
    exact ⟨_, rfl, hz _ _⟩

/-! ### concrete cases -/

/-- `(2,1) + 2 (1,3,2)` -/
def exMixRing : RingElem := Elem.new symmetricRing [([2, 1], 1), ([1, 3, 2], 2)]
/-- Multisimplices with two and with four factors. -/
def exMixS : SElem := Elem.new simplicial [([[0, 1], [1, 2]], 1), ([[0, 1], [1, 2], [2], [2, 3]], 3)]
/-- Multisimplices with three and with four factors. -/
def exMixS' : SElem := Elem.new simplicial [([[0, 1], [1, 2], [3]], 1), ([[0, 1], [1, 2], [2, 3], [2, 3]], 3)]
/-- The same for cubes. -/
def exMixC : CElem := Elem.new cubical [([[2], [0]], 1), ([[2], [1], [2]], 3)]
def exMixC' : CElem := Elem.new cubical [([[2], [2], [0]], 1), ([[2], [1], [2], [2]], 3)]
def exMixB : BElem := Elem.new barrattEccles [([[1, 2], [2, 1]], 1), ([[1, 3, 2], [3, 2, 1]], 3)]
def exMixSu (c : Convention) : SurjElem :=
  Elem.new surjection [([1, 2, 1], 1), ([1], 4)] none c
def exMixSu' (c : Convention) : SurjElem :=
  Elem.new surjection [([1, 2, 1], 1), ([1, 2, 3, 1], 4)] none c

example : MixedPerms exMixRing ∧ exMixRing.arity = none ∧ exMixRing.data ≠ [] := by decide +kernel
example : exMixS.arity = none ∧ exMixS.data ≠ [] ∧ exMixRing.torsion = exMixS.torsion ∧
    ∃ p ∈ exMixS.data, ∃ q ∈ exMixRing.data, p.1.length < q.1.length := by decide +kernel
example : exMixS'.arity = none ∧ exMixS'.data ≠ [] ∧ exMixRing.torsion = exMixS'.torsion ∧
    ∀ p ∈ exMixS'.data, ∀ q ∈ exMixRing.data, q.1.length ≤ p.1.length := by decide +kernel
example : exMixC.arity = none ∧ exMixRing.torsion = exMixC.torsion ∧
    ∃ p ∈ exMixC.data, ∃ q ∈ exMixRing.data, p.1.length < q.1.length := by decide +kernel
example : exMixC'.arity = none ∧ exMixC'.data ≠ [] ∧ exMixRing.torsion = exMixC'.torsion ∧
    ∀ p ∈ exMixC'.data, ∀ q ∈ exMixRing.data, q.1.length ≤ p.1.length := by decide +kernel
example : exMixB.arity = none ∧ exMixB.data ≠ [] ∧ exMixRing.torsion = exMixB.torsion ∧
    (∀ p ∈ exMixB.data, p.1 ≠ []) := by decide +kernel
example : ∀ p ∈ exMixB.data, ∃ r, 1 ≤ r ∧ ∀ σ ∈ p.1, IsPerm r σ := by
  intro p hp
  have h : p = ([[1, 2], [2, 1]], 1) ∨ p = ([[1, 3, 2], [3, 2, 1]], 3) := by
    have : exMixB.data = [([[1, 2], [2, 1]], 1), ([[1, 3, 2], [3, 2, 1]], 3)] := by decide +kernel
    rw [this] at hp
    simpa using hp
  rcases h with rfl | rfl
  · exact ⟨2, by decide⟩
  · exact ⟨3, by decide⟩
example (c : Convention) : (exMixSu c).arity = none ∧ (exMixSu c).data ≠ [] ∧
    exMixRing.torsion = (exMixSu c).torsion ∧ (exMixSu c).attrs.convention = c ∧
    ∀ p ∈ (exMixSu c).data, ∀ q ∈ exMixRing.data, ∀ v ∈ p.1, v ≤ q.1.length := by
  cases c <;> decide +kernel
example (c : Convention) : (exMixSu' c).arity = none ∧ (exMixSu' c).data ≠ [] ∧
    exMixRing.torsion = (exMixSu' c).torsion ∧
    ∃ p ∈ (exMixSu' c).data, ∃ q ∈ exMixRing.data, ∃ v ∈ p.1, q.1.length < v := by
  cases c <;> decide +kernel
/-- The result of the silent truncation: the last two factors of the second multisimplex are gone. -/
example : (SElem.rmul exMixRing exMixS').toOption.map (·.coeff [[1, 2], [0, 1]]) = some (-4) := by
  decide +kernel

end Comch.Props
