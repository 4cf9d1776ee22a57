import Verif.Props.FreeModule
import Verif.Spec.Operators
import Verif.Props.Action
import Verif.Props.SurjAction

/-! # C95, C96: the operator `*`, and the keys of products of ring elements -/

set_option linter.unusedSectionVars false

namespace Comch.Props
open Comch Elem Spec

/-! ## C95 the operator `*` -/

/-- `a * b` can only succeed on the pairs of classes of the table `productClass`, and then has the class given
there. -/
theorem C95_class (a b v : Val) (h : Val.star a b = .ok v) : productClass (tag a) (tag b) = some (tag v) := by
  cases a <;> cases b <;> simp only [Val.star, bind, Except.bind, reduceCtorEq, Except.ok.injEq] at h <;>
    first
    | (subst h; rfl)
    | (split at h
       · cases h
       · cases h; rfl)

/-- On all other pairs of classes `a * b` raises: `AttributeError` for a permutation times an int or tuple,
`NotImplementedError` for a chain of another class or a tuple times a Barratt-Eccles element, `TypeError`
otherwise. -/
theorem C95_error (a b : Val) (h : productClass (tag a) (tag b) = none) :
    Val.star a b = .error (if tag a = .permutation ∧ (tag b = .int ∨ tag b = .tuple) then .attributeError
      else if tag b = .barrattEccles ∧ tag a ≠ .barrattEccles then .notImplementedError else .typeError) := by
  cases a <;> cases b <;> first
    | rfl
    | (exfalso; revert h; simp [productClass, tag, Tag.isChain])

/-- Integers always scale. -/
theorem C95_int (n : Int) (b : Val) : ∃ v, Val.star (.int n) b = .ok v := by
  cases b <;> exact ⟨_, rfl⟩

/-- The `i`-th entry of a repeated list. -/
theorem getElem_repeat {A : Type} (l : List A) : ∀ (n i : Nat), i < (List.replicate n l).flatten.length →
    (List.replicate n l).flatten[i]? = l[i % l.length]?
  | 0, i, h => by simp at h
  | n + 1, i, h => by
    rw [List.replicate_succ, List.flatten_cons] at h ⊢
    rcases Nat.lt_or_ge i l.length with hi | hi
    · rw [List.getElem?_append_left hi, Nat.mod_eq_of_lt hi]
    · rw [List.getElem?_append_right hi, getElem_repeat l n _ (by rw [List.length_append] at h; omega), Nat.mod_eq_sub_mod hi]

/-- An integer times a tuple, in either order, or times a permutation on the right is Python's repetition: a plain tuple with `n` copies
(none if `n` is negative). -/
theorem C95_repeat (n : Int) (l : List Nat) :
    ∃ t : List Nat, Val.star (.int n) (.tup l) = .ok (.tup t) ∧ Val.star (.tup l) (.int n) = .ok (.tup t) ∧
      Val.star (.int n) (.perm l) = .ok (.tup t) ∧
      t.length = n.toNat * l.length ∧ ∀ i < t.length, t[i]? = l[i % l.length]? :=
  ⟨(List.replicate n.toNat l).flatten, rfl, rfl, rfl, by simp, fun i hi => getElem_repeat l _ i hi⟩

/-- An integer times a chain scales the coefficients. -/
theorem C95_int_scales (n : Int) (s : RingObj) (x : SElem) (y : CElem) (b : BElem) (u : SurjElem)
    (hs : s.el.NF symmetricRing) (hx : x.NF simplicial) (hy : y.NF cubical) (hb : b.NF barrattEccles)
    (hu : u.NF surjection) :
    (∃ s', Val.star (.int n) (.ring s) = .ok (.ring s') ∧ Val.star (.ring s) (.int n) = .ok (.ring s') ∧
      s'.el.attrs = s.el.attrs ∧ ∀ k, s'.el.coeff k ≡ n * s.el.coeff k [ZMOD s.el.torsion]) ∧
    (∃ x', Val.star (.int n) (.simp x) = .ok (.simp x') ∧ x'.attrs = x.attrs ∧
      ∀ k, x'.coeff k ≡ n * x.coeff k [ZMOD x.torsion]) ∧
    (∃ y', Val.star (.int n) (.cub y) = .ok (.cub y') ∧ y'.attrs = y.attrs ∧
      ∀ k, y'.coeff k ≡ n * y.coeff k [ZMOD y.torsion]) ∧
    (∃ b', Val.star (.int n) (.be b) = .ok (.be b') ∧ b'.attrs = b.attrs ∧
      ∀ k, b'.coeff k ≡ n * b.coeff k [ZMOD b.torsion]) ∧
    (∃ u', Val.star (.int n) (.surj u) = .ok (.surj u') ∧ u'.attrs = u.attrs ∧
      ∀ k, u'.coeff k ≡ n * u.coeff k [ZMOD u.torsion]) :=
  ⟨⟨_, rfl, rfl, rfl, C04_smul_coeff _ _ hs (dvd_zero _) n⟩, ⟨_, rfl, rfl, C04_smul_coeff _ _ hx (dvd_zero _) n⟩,
    ⟨_, rfl, rfl, C04_smul_coeff _ _ hy (dvd_zero _) n⟩, ⟨_, rfl, rfl, C04_smul_coeff _ _ hb (dvd_zero _) n⟩,
    ⟨_, rfl, rfl, C04_smul_coeff _ _ hu (dvd_zero _) n⟩⟩

/-- A permutation and a ring element cannot be multiplied, in either order. -/
theorem C95_permutation_ring (p : Perm) (s : RingObj) :
    Val.star (.perm p) (.ring s) = .error .typeError ∧ Val.star (.ring s) (.perm p) = .error .typeError :=
  ⟨rfl, rfl⟩

theorem single_data (p : Perm) {n : Nat} (hn : n ≠ 1) :
    (new symmetricRing [(p, 1)] (some n)).data = [(p, 1)] := by
  by_cases h0 : n = 0
  · subst h0
    simp [Elem.new, preferredRep, zeroDropped, basePreferredRep, symmetricRing]
  · have h1 : (1 : Int) % n = 1 := Int.emod_eq_of_lt (by omega) (by omega)
    simp [Elem.new, preferredRep, zeroDropped, basePreferredRep, symmetricRing, h0, h1]

theorem single_inRing {r : Nat} {p : Perm} (hp : IsPerm r p) (n : Nat) :
    InRing r (new symmetricRing [(p, 1)] (some n)) :=
  inRing_new (by simp [Dict.KeysNodup]) (by simpa using hp) _

theorem single_mul {r : Nat} {p q : Perm} (hp : IsPerm r p) (hq : IsPerm r q) {n : Nat} (hn : n ≠ 1) :
    RingElem.mul (new symmetricRing [(p, 1)] (some n)) (new symmetricRing [(q, 1)] (some n)) =
      .ok (new symmetricRing [(IsPerm.mulL p q, 1)] (some n)) := by
  unfold RingElem.mul
  rw [if_neg (by simp [Elem.new, preferredRep]), single_data p hn, single_data q hn]
  have h := IsPerm.mapM_eq hp hq.range
  simp only [pyProduct, List.flatMap_cons, List.flatMap_nil, List.map_cons, List.map_nil, List.append_nil,
    List.mapM_cons, List.mapM_nil, h, bind, Except.bind, pure, Except.pure, zero_data, List.foldl_cons,
    List.foldl_nil, Dict.set, Dict.get]
  rfl

theorem nf_torsion_ne_one {K : Type} [DecidableEq K] {C : Cls K} {x : Elem K} (hx : x.NF C) (hxn : x.data ≠ []) :
    x.torsion ≠ 1 := by
  intro h1
  obtain ⟨a, t, hd⟩ := List.exists_cons_of_ne_nil hxn
  have hm : a ∈ x.data := by rw [hd]; simp
  have := hx.coeff_range (by omega) a hm
  have := hx.coeff_ne a hm
  rw [h1] at *
  omega

section generic
variable {K : Type} [DecidableEq K] {C : Cls K} {r : Nat} {x : Elem K} {act : RingElem → Elem K → Py (Elem K)}

/-- Shape of the associativity theorems of the four actions. -/
def AssocAt (r : Nat) (x : Elem K) (act : RingElem → Elem K → Py (Elem K)) : Prop :=
  ∀ s t : RingElem, InRing r s → s.data ≠ [] → InRing r t → t.data ≠ [] → s.torsion = x.torsion →
    t.torsion = x.torsion → ∃ st tx, RingElem.mul s t = .ok st ∧ act t x = .ok tx ∧
      (st.data ≠ [] → tx.data ≠ [] → ∃ a b, act s tx = .ok a ∧ act st x = .ok b ∧ pyEq a b = true) ∧
      (st.data = [] → tx.data ≠ [] → ∃ a, act s tx = .ok a ∧ a.data = []) ∧
      (st.data ≠ [] → tx.data = [] → ∃ b, act st x = .ok b ∧ b.data = [])

theorem perm_act (hr : 1 ≤ r) (hx : x.NF C) (hxn : x.data ≠ []) (hass : AssocAt r x act)
    (hone : ∃ z, act (RingElem.identityElement r (some x.torsion)) x = .ok z ∧ pyEq z x = true)
    {p q : Perm} (hp : IsPerm r p) (hq : IsPerm r q) :
    ∃ y a b, act (new symmetricRing [(q, 1)] (some x.torsion)) x = .ok y ∧ y.data ≠ [] ∧
      act (new symmetricRing [(p, 1)] (some x.torsion)) y = .ok a ∧
      act (new symmetricRing [(IsPerm.mulL p q, 1)] (some x.torsion)) x = .ok b ∧ pyEq a b = true := by
  have h1 := nf_torsion_ne_one hx hxn
  have ne : ∀ σ : Perm, (new symmetricRing [(σ, 1)] (some x.torsion)).data ≠ [] := fun σ => by
    rw [single_data σ h1]; simp
  obtain ⟨st, y, e1, e2, h, -, -⟩ := hass _ _ (single_inRing hp x.torsion) (ne p) (single_inRing hq x.torsion) (ne q)
    rfl rfl
  rw [single_mul hp hq h1] at e1
  cases e1
  have hy : y.data ≠ [] := by
    intro hy
    obtain ⟨st', y', e1', e2', -, -, h'⟩ := hass _ _ (single_inRing (IsPerm.isPerm_invL hq) x.torsion)
      (ne (IsPerm.invL r q)) (single_inRing hq x.torsion) (ne q) rfl rfl
    cases e2.symm.trans e2'
    rw [single_mul (IsPerm.isPerm_invL hq) hq h1] at e1'
    cases e1'
    obtain ⟨b, eb, hb⟩ := h' (ne _) hy
    obtain ⟨z, ez, hz⟩ := hone
    have : IsPerm.mulL (IsPerm.invL r q) q = pyRange 1 (r + 1) := IsPerm.invL_mulL hq
    rw [this] at eb
    cases eb.symm.trans ez
    obtain ⟨k, t, hd⟩ := List.exists_cons_of_ne_nil hxn
    rw [pyEq, hb, hd] at hz
    simp only [List.all_nil, Bool.true_and, List.all_cons, Bool.and_eq_true, beq_iff_eq, coeff, hb,
      Dict.get] at hz
    exact hx.coeff_ne k (by rw [hd]; simp) hz.1.symm
  obtain ⟨a, b, ea, eb, hab⟩ := h (ne _) hy
  exact ⟨y, a, b, e2, hy, ea, eb, hab⟩

end generic

/-- A permutation acts on simplicial chains as the ring element `{p: 1}` does, and `p * (q * x) == (p * q) * x`. -/
theorem C95_simplicial {r : Nat} {x : SElem} (hx : x.NF simplicial) (hr : x.arity = some r) (h1 : 1 ≤ r)
    {p q : Perm} (hp : IsPerm r p) (hq : IsPerm r q) :
    ∃ y pq a b, Val.star (.perm q) (.simp x) = .ok (.simp y) ∧
      Val.star (.ring (RingObj.new [(q, 1)] (some x.torsion))) (.simp x) = .ok (.simp y) ∧
      Val.star (.perm p) (.perm q) = .ok (.perm pq) ∧ Val.star (.perm p) (.simp y) = .ok (.simp a) ∧
      Val.star (.perm pq) (.simp x) = .ok (.simp b) ∧ pyEq a b = true := by
  have hxn : x.data ≠ [] := by intro h; simp [SElem.arity, h, uniqueValue] at hr
  obtain ⟨y, a, b, e1, -, e2, e3, h⟩ := perm_act h1 hx hxn (act := SElem.rmul)
    (fun s t hs hsn ht htn ts tt => C23_act_assoc hs hsn ht htn hx hr ts tt) (C23_act_one hx hr) hp hq
  have hy : y.torsion = x.torsion := by
    obtain ⟨z, ez, -, tz, -⟩ := C23_act_coeff (single_inRing hq x.torsion)
      (by rw [single_data q (nf_torsion_ne_one hx hxn)]; simp) hx hr rfl
    cases e1.symm.trans ez
    exact tz
  refine ⟨y, IsPerm.mulL p q, a, b, ?_, ?_, ?_, ?_, ?_, h⟩
  · simp only [Val.star, Val.asRing, RingObj.new, RingObj.wrapped, e1, bind, Except.bind]
  · simp only [Val.star, RingObj.new, RingObj.wrapped, e1, bind, Except.bind]
  · simp only [Val.star, IsPerm.mul_eq hp hq h1, bind, Except.bind]
  · simp only [Val.star, Val.asRing, RingObj.new, RingObj.wrapped, hy, e2, bind, Except.bind]
  · simp only [Val.star, Val.asRing, RingObj.new, RingObj.wrapped, e3, bind, Except.bind]

/-- The same for cubical chains. -/
theorem C95_cubical {r : Nat} {x : CElem} (hx : x.NF cubical) (hr : x.arity = some r) (h1 : 1 ≤ r)
    {p q : Perm} (hp : IsPerm r p) (hq : IsPerm r q) :
    ∃ y pq a b, Val.star (.perm q) (.cub x) = .ok (.cub y) ∧
      Val.star (.ring (RingObj.new [(q, 1)] (some x.torsion))) (.cub x) = .ok (.cub y) ∧
      Val.star (.perm p) (.perm q) = .ok (.perm pq) ∧ Val.star (.perm p) (.cub y) = .ok (.cub a) ∧
      Val.star (.perm pq) (.cub x) = .ok (.cub b) ∧ pyEq a b = true := by
  have hxn : x.data ≠ [] := by intro h; simp [CElem.arity, h, uniqueValue] at hr
  obtain ⟨y, a, b, e1, -, e2, e3, h⟩ := perm_act h1 hx hxn (act := CElem.rmul)
    (fun s t hs hsn ht htn ts tt => C29_act_assoc hs hsn ht htn hx hr ts tt) (C29_act_one hx hr) hp hq
  have hy : y.torsion = x.torsion := by
    obtain ⟨z, ez, -, tz, -⟩ := C29_act_coeff (single_inRing hq x.torsion)
      (by rw [single_data q (nf_torsion_ne_one hx hxn)]; simp) hx hr rfl
    cases e1.symm.trans ez
    exact tz
  refine ⟨y, IsPerm.mulL p q, a, b, ?_, ?_, ?_, ?_, ?_, h⟩
  · simp only [Val.star, Val.asRing, RingObj.new, RingObj.wrapped, e1, bind, Except.bind]
  · simp only [Val.star, RingObj.new, RingObj.wrapped, e1, bind, Except.bind]
  · simp only [Val.star, IsPerm.mul_eq hp hq h1, bind, Except.bind]
  · simp only [Val.star, Val.asRing, RingObj.new, RingObj.wrapped, hy, e2, bind, Except.bind]
  · simp only [Val.star, Val.asRing, RingObj.new, RingObj.wrapped, e3, bind, Except.bind]

/-- The same for surjections. -/
theorem C95_surjection {r : Nat} {x : SurjElem} (hx : InSurj r x) (hxn : x.data ≠ []) (h1 : 1 ≤ r)
    {p q : Perm} (hp : IsPerm r p) (hq : IsPerm r q) :
    ∃ y pq a b, Val.star (.perm q) (.surj x) = .ok (.surj y) ∧
      Val.star (.ring (RingObj.new [(q, 1)] (some x.torsion))) (.surj x) = .ok (.surj y) ∧
      Val.star (.perm p) (.perm q) = .ok (.perm pq) ∧ Val.star (.perm p) (.surj y) = .ok (.surj a) ∧
      Val.star (.perm pq) (.surj x) = .ok (.surj b) ∧ pyEq a b = true := by
  obtain ⟨y, a, b, e1, -, e2, e3, h⟩ := perm_act h1 hx.nf hxn (act := SurjElem.rmul)
    (fun s t hs hsn ht htn ts tt => C48_act_assoc h1 hs hsn ht htn hx hxn ts tt) (C48_act_one h1 hx hxn) hp hq
  have hy : y.torsion = x.torsion := by
    obtain ⟨z, ez, -, tz, -⟩ := C48_act_coeff h1 (single_inRing hq x.torsion)
      (by rw [single_data q (nf_torsion_ne_one hx.nf hxn)]; simp) hx hxn rfl
    cases e1.symm.trans ez
    exact torsion_congr tz
  refine ⟨y, IsPerm.mulL p q, a, b, ?_, ?_, ?_, ?_, ?_, h⟩
  · simp only [Val.star, Val.asRing, RingObj.new, RingObj.wrapped, e1, bind, Except.bind]
  · simp only [Val.star, RingObj.new, RingObj.wrapped, e1, bind, Except.bind]
  · simp only [Val.star, IsPerm.mul_eq hp hq h1, bind, Except.bind]
  · simp only [Val.star, Val.asRing, RingObj.new, RingObj.wrapped, hy, e2, bind, Except.bind]
  · simp only [Val.star, Val.asRing, RingObj.new, RingObj.wrapped, e3, bind, Except.bind]

/-! Elements all of whose keys are `SymmetricGroupElement`s: the operations agree with those of the other model
files. -/

theorem isPlain_eq_false {x : RingObj} (hx : AllGroupElements x) {p : Perm × Int} (hp : p ∈ x.el.data) :
    x.isPlain p.1 = false := by
  simpa [RingObj.isPlain] using hx p hp

theorem allGroup_wrapped (e : RingElem) : AllGroupElements (RingObj.wrapped e) := by
  intro p _
  simp [RingObj.wrapped]

theorem mem_of_pyProduct {α β : Type} {l : List α} {m : List β} {p : α × β} (h : p ∈ pyProduct l m) :
    p.1 ∈ l ∧ p.2 ∈ m := mem_pyProduct.1 h

theorem mapM_congr' {α β : Type} {f g : α → Py β} {l : List α} (h : ∀ a ∈ l, f a = g a) : l.mapM f = l.mapM g := by
  induction l with
  | nil => rfl
  | cons a l ih =>
    rw [List.mapM_cons, List.mapM_cons, h a (by simp), ih fun b hb => h b (by simp [hb])]

theorem rmulObj_eq {s : RingObj} (hs : AllGroupElements s) (x : BElem) :
    BElem.rmulObj s x = BElem.rmul s.el x := by
  unfold BElem.rmulObj BElem.rmul
  rw [mapM_congr' (g := fun pq : (BKey × Int) × (Perm × Int) => (do
      let newK ← pq.1.1.mapM fun pi => pq.2.1.mul pi
      .ok (newK, pq.1.2 * pq.2.2)))]
  intro pq hpq
  simp [isPlain_eq_false hs (mem_of_pyProduct hpq).2]

/-- The same for the Barratt-Eccles operad. -/
theorem C95_barratt_eccles {r : Nat} {x : BElem} (hx : InBE r x) (hxn : x.data ≠ []) (h1 : 1 ≤ r)
    {p q : Perm} (hp : IsPerm r p) (hq : IsPerm r q) :
    ∃ y pq a b, Val.star (.perm q) (.be x) = .ok (.be y) ∧
      Val.star (.ring (RingObj.new [(q, 1)] (some x.torsion))) (.be x) = .ok (.be y) ∧
      Val.star (.perm p) (.perm q) = .ok (.perm pq) ∧ Val.star (.perm p) (.be y) = .ok (.be a) ∧
      Val.star (.perm pq) (.be x) = .ok (.be b) ∧ pyEq a b = true := by
  obtain ⟨y, a, b, e1, -, e2, e3, h⟩ := perm_act h1 hx.nf hxn (act := BElem.rmul)
    (fun s t hs hsn ht htn ts tt => (BElem.actSpec h1).act_assoc hs hsn ht htn hx.nf hxn hx.perm ts tt)
    (C37_act_one h1 hx hxn) hp hq
  have hy : y.torsion = x.torsion := by
    obtain ⟨z, ez, -, tz, -⟩ := C37_act_coeff h1 (single_inRing hq x.torsion)
      (by rw [single_data q (nf_torsion_ne_one hx.nf hxn)]; simp) hx hxn rfl
    cases e1.symm.trans ez
    exact tz
  refine ⟨y, IsPerm.mulL p q, a, b, ?_, ?_, ?_, ?_, ?_, h⟩
  · simp only [Val.star, Val.asRing, RingObj.new, rmulObj_eq (allGroup_wrapped _)]
    simp only [RingObj.wrapped, e1, bind, Except.bind]
  · simp only [Val.star, RingObj.new, rmulObj_eq (allGroup_wrapped _)]
    simp only [RingObj.wrapped, e1, bind, Except.bind]
  · simp only [Val.star, IsPerm.mul_eq hp hq h1, bind, Except.bind]
  · simp only [Val.star, Val.asRing, RingObj.new, rmulObj_eq (allGroup_wrapped _)]
    simp only [RingObj.wrapped, hy, e2, bind, Except.bind]
  · simp only [Val.star, Val.asRing, RingObj.new, rmulObj_eq (allGroup_wrapped _)]
    simp only [RingObj.wrapped, e3, bind, Except.bind]

/-- Instances: `(2,3,1) * x` for elements of all four classes, and the rejected products. -/
example : (Val.star (.perm [2, 1]) (.simp (new simplicial [([[0, 1], [0, 1, 2]], 1)] none))).toOption.map tag =
    some .simplicial := by decide +kernel
example : Val.star (.perm [2, 1]) (.ring (RingObj.new [([2, 1], 1)])) = .error .typeError := rfl
example : ∃ l, Val.star (.int 2) (.perm [2, 1]) = .ok (.tup l) ∧ l = [2, 1, 2, 1] := ⟨_, rfl, by decide⟩
example : IsPerm 2 [2, 1] ∧ SElem.arity (new simplicial [([[0, 1], [0, 1, 2]], 1)] none) = some 2 := by decide +kernel

/-! ## C96 keys of products of ring elements -/

/-- A program that never multiplies two ring elements only meets keys that are `SymmetricGroupElement`s. -/
theorem C96_product_free {x : RingObj} (h : ProductFree x) : x.plain = [] := by
  induction h with
  | new | smul => rfl
  | truediv x z c h =>
    simp only [RingObj.truediv, bind, Except.bind] at h
    split at h <;> cases h
    rfl
  | pow x z n h =>
    simp only [RingObj.pow, bind, Except.bind] at h
    split at h <;> split at h <;> cases h <;> rfl
  | compose x y z i h =>
    simp only [RingObj.compose, bind, Except.bind] at h
    split at h
    · cases h; rfl
    · split at h
      · cases h
      · split at h <;> cases h
        rfl
  | add x y z hy h ih =>
    simp only [RingObj.add, bind, Except.bind] at h
    split at h <;> cases h
    simp [RingObj.mergePlain, ih]
  | sub x y z hy h ih =>
    simp only [RingObj.sub, bind, Except.bind] at h
    split at h <;> cases h
    simp [RingObj.mergePlain, ih]
  | iadd x y z hx hy h ih1 ih2 =>
    simp only [RingObj.iadd, bind, Except.bind] at h
    split at h <;> cases h
    simp [RingObj.mergePlain, ih1, ih2]
  | isub x y z hx hy h ih1 ih2 =>
    simp only [RingObj.isub, bind, Except.bind] at h
    split at h <;> cases h
    simp [RingObj.mergePlain, ih1, ih2]
  | setTorsion x n hx ih => simp [RingObj.setTorsion, ih]

/-- On elements whose keys are `SymmetricGroupElement`s the operations are those of the other properties. -/
theorem C96_agree {s : RingObj} (hs : AllGroupElements s) (t : RingObj) (x : BElem) (n : Int) (i : Nat) :
    (s.pow n).map RingObj.el = RingElem.pow s.el n ∧
    (s.compose t i).map RingObj.el = RingElem.compose s.el t.el i ∧
    (s.mul t).map RingObj.el = RingElem.mul s.el t.el ∧
    Val.star (.ring s) (.be x) = (BElem.rmul s.el x).map Val.be := by
  refine ⟨?_, ?_, ?_, ?_⟩
  · unfold RingObj.pow
    split_ifs with h0
    · subst h0
      cases RingElem.pow s.el 0 <;> rfl
    · rw [RingElem.pow, if_neg h0, mapM_congr' (g := fun kv : Perm × Int => (do
        let k' ← kv.1.pow n
        .ok (k', kv.2)))]
      · simp only [bind, Except.bind]
        split <;> rfl
      · intro p hp
        simp [isPlain_eq_false hs hp]
  · unfold RingObj.compose RingElem.compose
    split_ifs
    · rfl
    · rfl
    · rw [mapM_congr' (g := fun pq : (Perm × Int) × (Perm × Int) => (do
        let k ← pq.1.1.compose pq.2.1 i
        .ok (k, pq.1.2 * pq.2.2)))]
      · simp only [bind, Except.bind]
        split <;> rfl
      · intro p hp
        simp [isPlain_eq_false hs (mem_of_pyProduct hp).1]
  · simp only [RingObj.mul, bind, Except.bind]
    cases RingElem.mul s.el t.el <;> rfl
  · simp only [Val.star, rmulObj_eq hs, bind, Except.bind]
    cases BElem.rmul s.el x <;> rfl

/-- All keys of a product are plain tuples. -/
theorem C96_mul_keys {s t u : RingObj} (h : s.mul t = .ok u) : ∀ p ∈ u.el.data, u.isPlain p.1 = true := by
  simp only [RingObj.mul, bind, Except.bind] at h
  split at h <;> cases h
  intro p hp
  simp only [RingObj.isPlain, List.contains_iff_mem]
  exact List.mem_map_of_mem hp

theorem keys_create {K : Type} [DecidableEq K] {C : Cls K} {x : Elem K} (hx : x.NF C) (hC : C.defaultTorsion = 0)
    (k : K) : k ∈ (x.create C x.data).data.keys ↔ k ∈ x.data.keys := by
  have h1 := (nf_create C x hx.nodup).mem_keys_iff (k := k)
  have h2 := hx.mem_keys_iff (k := k)
  have e : den (ZMod x.torsion) (x.create C x.data).data = den (ZMod x.torsion) x.data := by
    rw [den_create C x _ (by simp [hC]) (by simp), hx.pr_den]
  exact h1.trans ((not_congr (by rw [← e]; rfl)).trans h2.symm)

theorem isPlain_merge (present plainX plainY : List Perm) (z : RingElem) (k : Perm) (hk : k ∈ z.data.keys) :
    (RingObj.isPlain ⟨z, RingObj.mergePlain present plainX plainY z⟩ k = true) ↔
      (k ∈ plainX ∨ (k ∉ present ∧ k ∈ plainY)) := by
  simp [RingObj.isPlain, RingObj.mergePlain, hk, and_comm]

/-- `x + y` and `x - y` turn the keys of `x` into `SymmetricGroupElement`s, but a key that occurs only in `y` keeps
its type. -/
theorem C96_add_keys {x y z : RingObj} (hx : x.el.NF symmetricRing) (h : x.add y = .ok z ∨ x.sub y = .ok z) :
    ∀ p ∈ z.el.data, z.isPlain p.1 = true ↔ p.1 ∉ x.el.data.keys ∧ y.isPlain p.1 = true := by
  intro p hp
  have hk : p.1 ∈ z.el.data.keys := List.mem_map_of_mem hp
  rcases h with h | h
  all_goals
    simp only [RingObj.add, RingObj.sub, bind, Except.bind] at h
    split at h <;> cases h
    rw [isPlain_merge _ _ _ _ _ hk, keys_create hx rfl]
    simp [RingObj.isPlain]

/-- `x += y` and `x -= y` keep the type of the keys of `x`; a key that occurs only in `y` keeps its type. -/
theorem C96_iadd_keys {x y z : RingObj} (hx : ∀ k ∈ x.plain, k ∈ x.el.data.keys)
    (h : x.iadd y = .ok z ∨ x.isub y = .ok z) :
    ∀ p ∈ z.el.data, z.isPlain p.1 = if p.1 ∈ x.el.data.keys then x.isPlain p.1 else y.isPlain p.1 := by
  intro p hp
  have hk : p.1 ∈ z.el.data.keys := List.mem_map_of_mem hp
  rw [Bool.eq_iff_iff]
  rcases h with h | h
  all_goals
    simp only [RingObj.iadd, RingObj.isub, bind, Except.bind] at h
    split at h <;> cases h
    rw [isPlain_merge _ _ _ _ _ hk]
    have := hx p.1
    split_ifs with hm
    · simp [RingObj.isPlain, hm]
    · simp only [RingObj.isPlain, List.contains_iff_mem]
      tauto

/-- `set_torsion` keeps the type of the keys. -/
theorem C96_setTorsion_keys (x : RingObj) (n : Nat) :
    ∀ p ∈ (x.setTorsion n).el.data, (x.setTorsion n).isPlain p.1 = x.isPlain p.1 := by
  intro p hp
  have hk : p.1 ∈ (x.setTorsion n).el.data.keys := List.mem_map_of_mem hp
  rw [Bool.eq_iff_iff]
  simp only [RingObj.setTorsion, RingObj.isPlain, List.contains_iff_mem] at hk ⊢
  simp [hk]

/-- Instance: a product, and what `+`, `+=` and `set_torsion` do to its key. -/
example : ∃ u v w, (RingObj.new [([2, 1], 1)]).mul (RingObj.new [([2, 1], 1)]) = .ok u ∧
    u.plain = [[1, 2]] ∧ u.add (RingObj.new [([2, 1], 1)]) = .ok v ∧ v.plain = [] ∧
    (RingObj.new [([2, 1], 1)]).add u = .ok w ∧ w.plain = [[1, 2]] ∧ (w.setTorsion 5).plain = [[1, 2]] ∧
    (u.iadd u).toOption.map RingObj.plain = some [[1, 2]] :=
  ⟨_, _, _, rfl, by decide +kernel, rfl, by decide +kernel, rfl, by decide +kernel, by decide +kernel, by decide +kernel⟩

theorem mapM_error {α β : Type} {f : α → Py β} {l : List α} {e : PyErr} (hl : l ≠ [])
    (h : ∀ a ∈ l, f a = .error e) : l.mapM f = .error e := by
  cases l with
  | nil => exact absurd rfl hl
  | cons a l => rw [List.mapM_cons, h a (by simp)]; rfl

theorem pyProduct_ne_nil {α β : Type} {l : List α} {m : List β} (hl : l ≠ []) (hm : m ≠ []) : pyProduct l m ≠ [] := by
  cases l with
  | nil => exact absurd rfl hl
  | cons a l =>
    cases m with
    | nil => exact absurd rfl hm
    | cons b m => simp [pyProduct]

theorem ring_arity {r : Nat} {s : RingElem} (hs : InRing r s) (hsn : s.data ≠ []) : s.arity = some r := by
  obtain ⟨a, t, hd⟩ := List.exists_cons_of_ne_nil hsn
  have h : ∀ p ∈ s.data, pyMax p.1 = r := fun p hp => IsPerm.pyMax_eq (hs.perm p hp)
  rw [RingElem.arity, hd, List.map_cons, uniqueValue, if_pos, h a (by rw [hd]; simp)]
  rw [List.all_eq_true]
  intro b hb
  obtain ⟨p, hp, rfl⟩ := List.mem_map.1 hb
  rw [h p (by rw [hd]; simp [hp]), h a (by rw [hd]; simp)]
  simp

/-- (Defect.) `(s * t) * x` raises `TypeError` for a Barratt-Eccles element `x`, unless `s * t` and `x` are both
zero. -/
theorem C96_barratt_eccles {r : Nat} {s t u : RingObj} {x : BElem} (hs : InRing r s.el) (ht : InRing r t.el)
    (h : s.mul t = .ok u) (hx : InBE r x) (hne : u.el.data ≠ [] ∨ x.data ≠ []) :
    Val.star (.ring u) (.be x) = .error .typeError := by
  have hk := C96_mul_keys h
  have hu : InRing r u.el := by
    simp only [RingObj.mul, bind, Except.bind] at h
    have hst : s.el.torsion = t.el.torsion := by
      by_contra hc
      rw [RingElem.mul, if_pos hc] at h
      cases h
    obtain ⟨z, hz, hzr, -⟩ := C16_mul_convolution hs ht hst
    rw [hz] at h
    cases h
    exact hzr
  have : BElem.rmulObj u x = .error .typeError := by
    unfold BElem.rmulObj
    split_ifs with h1 h2
    · rfl
    · rfl
    · have hux : u.el.data ≠ [] ∧ x.data ≠ [] := by
        rcases hne with hne | hne
        · refine ⟨hne, fun hx0 => h2 ?_⟩
          rw [ring_arity hu hne, BElem.arity, hx0]
          simp [uniqueValue]
        · refine ⟨fun hu0 => h2 ?_, hne⟩
          rw [BElem.arity_eq hx hne, RingElem.arity, hu0]
          simp [uniqueValue]
      rw [mapM_error (e := .typeError) (pyProduct_ne_nil hux.2 hux.1)]
      · rfl
      · intro pq hpq
        have := mem_of_pyProduct hpq
        simp only [hk _ this.2, if_true]
        rw [mapM_error (e := .typeError) (BElem.key_ne_nil hx.nf this.1) (fun _ _ => rfl)]
        rfl
  simp only [Val.star, this, bind, Except.bind]

/-- (Defect.) `(s * t) ** n` raises `TypeError` for `n ≠ 0` and `(s * t).compose(y, i)` raises `AttributeError`
(operands non-zero and of equal torsion). -/
theorem C96_pow_compose {s t u y : RingObj} (h : s.mul t = .ok u) (hu : u.el.data ≠ []) :
    (∀ n : Int, n ≠ 0 → u.pow n = .error .typeError) ∧
    (y.el.data ≠ [] → u.el.torsion = y.el.torsion → ∀ i, u.compose y i = .error .attributeError) := by
  have hk := C96_mul_keys h
  constructor
  · intro n hn
    unfold RingObj.pow
    rw [if_neg hn, mapM_error (e := .typeError) hu]
    · rfl
    · intro p hp
      simp only [hk p hp, if_true]
      rfl
  · intro hy ht i
    unfold RingObj.compose
    rw [if_neg (by simp [truthy, hu]), if_neg (by simp [ht]), mapM_error (e := .attributeError) (pyProduct_ne_nil hu hy)]
    · rfl
    · intro p hp
      simp only [hk _ (mem_of_pyProduct hp).1, if_true]
      rfl

/-- Multiplying by the integer 1 repairs a product: `1 * (s * t)` is equal to `s * t` but its keys are
`SymmetricGroupElement`s, and `s * (t * x) == (1 * (s * t)) * x`. -/
theorem C96_repair {r : Nat} (hr : 1 ≤ r) {s t : RingObj} {x : BElem} (hs : InRing r s.el) (hsn : s.el.data ≠ [])
    (hsg : AllGroupElements s) (ht : InRing r t.el) (htn : t.el.data ≠ []) (htg : AllGroupElements t)
    (hx : InBE r x) (hxn : x.data ≠ []) (ts : s.el.torsion = x.torsion) (tt : t.el.torsion = x.torsion) :
    ∃ st tx, Val.star (.ring s) (.ring t) = .ok (.ring st) ∧
      Val.star (.ring t) (.be x) = .ok (.be tx) ∧
      (RingObj.smul 1 st).el = st.el ∧ AllGroupElements (RingObj.smul 1 st) ∧
      (st.el.data ≠ [] → tx.data ≠ [] → ∃ a b, Val.star (.ring s) (.be tx) = .ok (.be a) ∧
        Val.star (.ring (RingObj.smul 1 st)) (.be x) = .ok (.be b) ∧ pyEq a b = true) := by
  obtain ⟨st, tx, e1, e2, h, -, -⟩ := (BElem.actSpec hr).act_assoc hs hsn ht htn hx.nf hxn hx.perm ts tt
  obtain ⟨z, ez, hz, -⟩ := C16_mul_convolution hs ht (ts.trans tt.symm)
  cases e1.symm.trans ez
  have h1 : smul symmetricRing 1 st = st := smul_one_eq hz.nf rfl
  have hg : AllGroupElements (RingObj.smul 1 ⟨st, st.data.keys⟩) := allGroup_wrapped _
  refine ⟨⟨st, st.data.keys⟩, tx, ?_, ?_, h1, hg, ?_⟩
  · simp only [Val.star, RingObj.mul, e1, bind, Except.bind]
  · simp only [Val.star, rmulObj_eq htg, e2, bind, Except.bind]
  · intro h2 h3
    obtain ⟨a, b, ea, eb, hab⟩ := h h2 h3
    refine ⟨a, b, ?_, ?_, hab⟩
    · simp only [Val.star, rmulObj_eq hsg, ea, bind, Except.bind]
    · simp only [Val.star, rmulObj_eq hg]
      simp only [RingObj.smul, RingObj.wrapped, h1, eb, bind, Except.bind]

/-- On the three other classes of chains the type of the keys does not matter. -/
theorem C96_other_classes (u : RingObj) (x : SElem) (y : CElem) (z : SurjElem) :
    Val.star (.ring u) (.simp x) = Val.star (.ring (RingObj.wrapped u.el)) (.simp x) ∧
    Val.star (.ring u) (.cub y) = Val.star (.ring (RingObj.wrapped u.el)) (.cub y) ∧
    Val.star (.ring u) (.surj z) = Val.star (.ring (RingObj.wrapped u.el)) (.surj z) := ⟨rfl, rfl, rfl⟩

/-- Instance: `t * t * x` for the transposition, computed in both ways. -/
example : ∃ u, (RingObj.new [([2, 1], 1)]).mul (RingObj.new [([2, 1], 1)]) = .ok u ∧
    u.el.data = [([1, 2], 1)] ∧ u.plain = [[1, 2]] ∧
    Val.star (.ring u) (.be (new barrattEccles [([[1, 2], [2, 1]], 1)])) = .error .typeError ∧
    u.pow 2 = .error .typeError :=
  ⟨_, rfl, by decide +kernel, by decide +kernel, rfl, rfl⟩

end Comch.Props
