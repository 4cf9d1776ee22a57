import Verif.Lib.BarrattEccles
import Verif.Props.SymmetricRing

/-! # C36, C37, C38: boundary, action and orbits in the Barratt-Eccles operad -/

set_option linter.unusedSectionVars false

namespace Comch.Props
open Comch Elem Spec IsPerm
open Finsupp (single)

/-! ## C36 boundary -/

/-- `∂∂ = 0`, for every element and every torsion. -/
theorem C36_boundary_boundary (x : BElem) : x.boundary.boundary.data = [] := by
  rw [(BElem.nf_boundary _).data_eq_nil_iff]
  have h1 : x.boundary.torsion = x.torsion := torsion_congr (BElem.boundary_attrs x)
  have h2 : x.boundary.boundary.torsion = x.torsion := by
    rw [torsion_congr (BElem.boundary_attrs x.boundary), h1]
  rw [h2, BElem.den_boundary x.boundary h1, BElem.den_boundary x rfl,
    pr_lin_pr _ (fun k hk => by rw [del, lin_single, one_smul]; exact pr_be_delK k hk), del_del, map_zero]

/-- `∂(x + y) = ∂x + ∂y`. -/
theorem C36_boundary_add {x y z : BElem} (hx : x.NF barrattEccles) (hy : y.NF barrattEccles)
    (h : add barrattEccles x y = .ok z) :
    ∃ w, add barrattEccles x.boundary y.boundary = .ok w ∧ pyEq z.boundary w = true :=
  additive_of_den BElem.boundary (fun _ => (pr barrattEccles.drops).comp del)
    (fun x _ => BElem.den_boundary x rfl) BElem.nf_boundary
    (fun x => torsion_congr (BElem.boundary_attrs x)) rfl rfl hx hy h

/-- Two consecutive entries are equal. -/
theorem be_kept {m : BKey} (h0 : m ≠ []) (hm : ∀ i, i + 1 < m.length → m.getD i [] ≠ m.getD (i + 1) []) :
    barrattEccles.drops m = false := by
  rw [be_drops]
  simp only [Bool.or_eq_false_iff, decide_eq_false_iff_not]
  refine ⟨h0, ?_⟩
  clear h0
  induction m with
  | nil => rfl
  | cons a m ih =>
    cases m with
    | nil => rfl
    | cons b m =>
      rw [hasRep, Bool.or_eq_false_iff]
      refine ⟨?_, ih fun i hi => ?_⟩
      · have := hm 0 (by simp)
        simpa using this
      · have := hm (i + 1) (by simp at hi ⊢; omega)
        simpa using this

/-- The coefficients of the boundary are given by the incidence numbers of the deletions. -/
theorem C36_boundary_coeff (x : BElem) (m : BKey) (h0 : m ≠ [])
    (hm : ∀ i, i + 1 < m.length → m.getD i [] ≠ m.getD (i + 1) []) :
    x.boundary.coeff m ≡
      (x.data.map fun p => p.2 * deletionIncidence p.1 m).sum [ZMOD x.torsion] := by
  have ht := torsion_congr (BElem.boundary_attrs x)
  have h := coeff_of_den (C := barrattEccles) (x := x.boundary) (n := x.torsion)
    (ev := x.data.flatMap fun (k, v) => BElem.boundaryEvents k v) (BElem.nf_boundary x) (by
      rw [BElem.den_boundary x rfl, den_events _ _ _ fun p _ => BElem.den_boundaryEvents p.1 p.2]
      rfl) (be_kept h0 hm)
  refine h.trans ?_
  rw [List.map_flatMap, sum_flatMap]
  refine congrArg (· % (x.torsion : Int)) ?_
  congr 1
  apply List.map_congr_left
  rintro ⟨k, v⟩ hp
  simp only [BElem.boundaryEvents, deletionIncidence, List.map_map]
  rw [← List.sum_map_mul_left]
  congr 1
  apply List.map_congr_left
  intro i _
  simp only [Function.comp, removeAt_eq_eraseIdx, pySign_natCast]
  split
  · ring
  · simp

/-- The boundary of a homogeneous element is zero or homogeneous of degree one less; it stays in the
same arity. -/
theorem C36_boundary_degree {r : Nat} (x : BElem) (hx : InBE r x) (d : Int) (hd : x.degree = some d) :
    InBE r x.boundary ∧ (x.boundary.data = [] ∨
      (x.boundary.degree = some (d - 1) ∧ x.boundary.arity = some r)) := by
  refine ⟨BElem.inBE_boundary hx, ?_⟩
  rw [or_iff_not_imp_left]
  intro hne
  refine ⟨?_, BElem.arity_eq (BElem.inBE_boundary hx) hne⟩
  rw [BElem.degree, uniqueValue_eq_some] at hd ⊢
  refine ⟨by simpa using hne, ?_⟩
  intro b hb
  obtain ⟨q, hq, rfl⟩ := List.mem_map.1 hb
  obtain ⟨p, hp, i, hi, he⟩ := BElem.mem_keys_boundary (List.mem_map_of_mem (f := Prod.fst) hq)
  have h1 := hd.2 _ (List.mem_map_of_mem hp)
  rw [he, ← h1, List.length_eraseIdx, if_pos hi]
  omega

/-- An element of degree 2 in arity 3. -/
abbrev exBE : BElem := Elem.new barrattEccles
  [([[1, 2, 3], [2, 1, 3], [3, 1, 2]], 2), ([[2, 1, 3], [1, 2, 3], [2, 1, 3]], -1)] (some 5)

theorem exBE_in : InBE 3 exBE := ⟨nf_new _ (by decide) _ _, by decide⟩

example : exBE.degree = some 2 ∧ exBE.arity = some 3 ∧
    exBE.boundary.data = [([[2, 1, 3], [3, 1, 2]], 2), ([[1, 2, 3], [3, 1, 2]], 3),
      ([[1, 2, 3], [2, 1, 3]], 1), ([[2, 1, 3], [1, 2, 3]], 4)] := by decide +kernel

/-! ## C37 action -/

theorem smul_one_eq {K : Type} [DecidableEq K] {C : Cls K} {x : Elem K} (hx : x.NF C) (h0 : C.defaultTorsion = 0) :
    smul C 1 x = x := by
  have hz : ∀ d : Dict K, d = x.data → zeroDropped C.drops d = x.data := by
    rintro _ rfl
    rw [zeroDropped]
    conv_rhs => rw [← List.map_id x.data]
    apply List.map_congr_left
    intro p hp
    rw [hx.kept p hp]
    rfl
  have hb : basePreferredRep x.torsion x.data = x.data := by
    unfold basePreferredRep
    have hm : (if x.torsion ≠ 0 then x.data.map (fun p => (p.1, p.2 % (x.torsion : Int))) else x.data) = x.data := by
      split_ifs with h
      · conv_rhs => rw [← List.map_id x.data]
        apply List.map_congr_left
        intro p hp
        have := hx.coeff_range h p hp
        rw [Int.emod_eq_of_lt this.1 this.2]
        rfl
      · rfl
    rw [hm]
    apply List.filter_eq_self.2
    intro p hp
    simpa using hx.coeff_ne p hp
  have hb0 : basePreferredRep 0 x.data = x.data := by
    unfold basePreferredRep
    simp only [ne_eq, not_true_eq_false, if_false]
    apply List.filter_eq_self.2
    intro p hp
    simpa using hx.coeff_ne p hp
  have h1 : (x.data.map fun p => (p.1, 1 * p.2)) = x.data := by simp
  unfold smul create
  rw [h1]
  simp only [Elem.new, preferredRep, Option.getD_none, h0, torsion] at *
  rw [hz _ rfl, hb0, hz _ rfl, hb]

section
variable {r : Nat} {s t : RingElem} {x : BElem}

/-- Coefficients of `s * x`: all entries of a key are multiplied from the left; the arity and the
degree are kept. -/
theorem C37_act_coeff (hr : 1 ≤ r) (hs : InRing r s) (hsn : s.data ≠ []) (hx : InBE r x)
    (hxn : x.data ≠ []) (ts : s.torsion = x.torsion) :
    ∃ z, BElem.rmul s x = .ok z ∧ InBE r z ∧ z.torsion = x.torsion ∧
      (∀ d, x.degree = some d → z.data = [] ∨ z.degree = some d) ∧
      ∀ m : BKey, m ≠ [] → (∀ i, i + 1 < m.length → m.getD i [] ≠ m.getD (i + 1) []) →
        z.coeff m ≡ (x.data.map fun p => (s.data.map fun q =>
          if IsTranslate q.1 p.1 m then p.2 * q.2 else 0).sum).sum [ZMOD x.torsion] := by
  refine ⟨_, BElem.rmul_eq hr hs hsn hx hxn ts, ⟨nf_accumulate_zero _ _ _, ?_⟩, ?_, ?_, ?_⟩
  · intro p hp σ hσ
    have h := mem_keys_accumulate_zero (List.mem_map_of_mem (f := Prod.fst) hp)
    simp only [List.map_map, List.mem_map, mem_pyProduct, Function.comp] at h
    obtain ⟨pq, hpq, h⟩ := h
    rw [← h] at hσ
    obtain ⟨τ, hτ, rfl⟩ := List.mem_map.1 hσ
    exact isPerm_mulL (hs.perm _ hpq.2) (hx.perm _ hpq.1 τ hτ)
  · rw [torsion, accumulate_attrs]; rfl
  · intro d hd
    rw [or_iff_not_imp_left]
    intro hne
    rw [BElem.degree, uniqueValue_eq_some] at hd ⊢
    refine ⟨by simpa using hne, ?_⟩
    intro b hb
    obtain ⟨q, hq, rfl⟩ := List.mem_map.1 hb
    have h := mem_keys_accumulate_zero (List.mem_map_of_mem (f := Prod.fst) hq)
    simp only [List.map_map, List.mem_map, mem_pyProduct, Function.comp] at h
    obtain ⟨pq, hpq, h⟩ := h
    rw [← h, List.length_map]
    exact hd.2 _ (List.mem_map_of_mem (f := fun p : BKey × Int => (p.1.length : Int) - 1) hpq.1)
  · intro m h0 hm
    refine (coeff_accumulate_zero x _ rfl m (be_kept h0 hm)).trans ?_
    refine congrArg (· % (x.torsion : Int)) ?_
    rw [List.map_map, sum_pyProduct]
    congr 1
    apply List.map_congr_left
    intro p hp
    congr 1
    apply List.map_congr_left
    intro q hq
    simp only [Function.comp]
    rw [if_congr (BElem.isTranslate_iff (hs.perm q hq) (hx.perm p hp)).symm rfl rfl]

/-- `s * (t * x) == (1 * (s * t)) * x`; when one of the intermediate results is zero (the code then raises
`TypeError` on that side) the other side is zero.  The factor `1` is needed: the keys of `s * t` are plain
tuples, by which a Barratt-Eccles element cannot be multiplied (C96); `1 * (s * t)` is the same ring element
with keys of the right type. -/
theorem C37_act_assoc (hr : 1 ≤ r) (hs : InRing r s) (hsn : s.data ≠ []) (ht : InRing r t)
    (htn : t.data ≠ []) (hx : InBE r x) (hxn : x.data ≠ []) (ts : s.torsion = x.torsion)
    (tt : t.torsion = x.torsion) :
    ∃ st tx, RingElem.mul s t = .ok st ∧ BElem.rmul t x = .ok tx ∧
      (st.data ≠ [] → tx.data ≠ [] → ∃ a b, BElem.rmul s tx = .ok a ∧
        BElem.rmul (smul symmetricRing 1 st) x = .ok b ∧ pyEq a b = true) ∧
      (st.data = [] → tx.data ≠ [] → ∃ a, BElem.rmul s tx = .ok a ∧ a.data = []) ∧
      (st.data ≠ [] → tx.data = [] → ∃ b, BElem.rmul (smul symmetricRing 1 st) x = .ok b ∧ b.data = []) := by
  obtain ⟨st, tx, e1, e2, h⟩ := (BElem.actSpec hr).act_assoc hs hsn ht htn hx.nf hxn hx.perm ts tt
  obtain ⟨z, ez, hz, -⟩ := C16_mul_convolution hs ht (ts.trans tt.symm)
  cases e1.symm.trans ez
  refine ⟨st, tx, e1, e2, ?_⟩
  rw [smul_one_eq hz.nf rfl]
  exact h

/-- `1 * x == x`. -/
theorem C37_act_one (hr : 1 ≤ r) (hx : InBE r x) (hxn : x.data ≠ []) :
    ∃ z, BElem.rmul (RingElem.identityElement r (some x.torsion)) x = .ok z ∧ pyEq z x = true :=
  (BElem.actSpec hr).act_one hx.nf hxn hx.perm

/-- `(s + s') * x == s * x + s' * x`. -/
theorem C37_add_act {s' u : RingElem} (hr : 1 ≤ r) (hs : InRing r s) (hsn : s.data ≠ [])
    (hs' : InRing r s') (hsn' : s'.data ≠ []) (hx : InBE r x) (hxn : x.data ≠ [])
    (ts : s.torsion = x.torsion) (hadd : add symmetricRing s s' = .ok u) :
    ∃ a b v, BElem.rmul s x = .ok a ∧ BElem.rmul s' x = .ok b ∧ add barrattEccles a b = .ok v ∧
      (u.data = [] → v.data = []) ∧
      (u.data ≠ [] → ∃ c, BElem.rmul u x = .ok c ∧ pyEq c v = true) :=
  (BElem.actSpec hr).add_act hs hsn hs' hsn' hx.nf hxn hx.perm ts hadd

/-- `s * (x + x') == s * x + s * x'`. -/
theorem C37_act_add {x' y : BElem} (hr : 1 ≤ r) (hs : InRing r s) (hsn : s.data ≠ []) (hx : InBE r x)
    (hxn : x.data ≠ []) (hx' : InBE r x') (hxn' : x'.data ≠ []) (hattrs : x'.attrs = x.attrs)
    (ts : s.torsion = x.torsion) (hadd : add barrattEccles x x' = .ok y) :
    ∃ a b v, BElem.rmul s x = .ok a ∧ BElem.rmul s x' = .ok b ∧ add barrattEccles a b = .ok v ∧
      (y.data = [] → v.data = []) ∧
      (y.data ≠ [] → ∃ c, BElem.rmul s y = .ok c ∧ pyEq c v = true) :=
  (BElem.actSpec hr).act_add hs hsn hx.nf hxn hx.perm hx'.nf hxn' hx'.perm hattrs ts hadd

/-- Integer factors can be moved out of both factors. -/
theorem C37_act_smul (hr : 1 ≤ r) (hs : InRing r s) (hsn : s.data ≠ []) (hx : InBE r x)
    (hxn : x.data ≠ []) (ts : s.torsion = x.torsion) (c : Int) :
    ∃ a, BElem.rmul s x = .ok a ∧
      ((smul barrattEccles c x).data ≠ [] → ∃ b, BElem.rmul s (smul barrattEccles c x) = .ok b ∧
        pyEq b (smul barrattEccles c a) = true) ∧
      ((smul symmetricRing c s).data ≠ [] → ∃ b, BElem.rmul (smul symmetricRing c s) x = .ok b ∧
        pyEq b (smul barrattEccles c a) = true) :=
  (BElem.actSpec hr).act_smul hs hsn hx.nf hxn hx.perm ts c

/-- The action commutes with the boundary: `(s * x).boundary() == s * x.boundary()`. -/
theorem C37_act_boundary {z : BElem} (hr : 1 ≤ r) (hs : InRing r s) (hsn : s.data ≠ [])
    (hx : InBE r x) (hxn : x.data ≠ []) (ts : s.torsion = x.torsion) (hz : BElem.rmul s x = .ok z) :
    (x.boundary.data = [] → z.boundary.data = []) ∧
    (x.boundary.data ≠ [] → ∃ y, BElem.rmul s x.boundary = .ok y ∧ pyEq z.boundary y = true) := by
  obtain ⟨z', ez, nz, az, lz, dz⟩ := (BElem.actSpec hr).ok s x hs hsn hx.nf hxn hx.perm ts
  cases hz.symm.trans ez
  refine (BElem.actSpec hr).act_boundary ((pr barrattEccles.drops).comp del) ?_ hs hsn hx.nf hxn hx.perm
    ts hz (BElem.nf_boundary x) (BElem.nf_boundary z) (by simp) (by simp) (BElem.den_boundary x rfl)
    (BElem.inBE_boundary hx).perm (BElem.den_boundary z (torsion_congr az))
  intro σ k hσ hk _
  rw [bil_bv]
  simp only [LinearMap.comp_apply, BElem.actB, del, lin_single, one_smul]
  rw [BElem.trL, BElem.delK_map]
  exact BElem.pr_mapK_trL hσ hk

/-- Different torsions or arities are rejected; so is a zero operand (its `arity` is `None`). -/
theorem C37_act_mismatch (h : x.torsion ≠ s.torsion ∨ x.arity ≠ s.arity) :
    BElem.rmul s x = .error .typeError := by
  unfold BElem.rmul
  rcases h with h | h
  · rw [if_pos h]
  · rw [if_pos h, ite_self]

end

example : ∃ z, BElem.rmul (Elem.new symmetricRing [([2, 3, 1], 1), ([1, 3, 2], 2)] (some 5)) exBE = .ok z ∧
    z.coeff [[3, 2, 1], [2, 3, 1], [3, 2, 1]] = 4 ∧ z.data ≠ [] := ⟨_, rfl, by decide +kernel, by decide +kernel⟩

end Comch.Props
