import Verif.Model.Heap
import Verif.Spec.FreeModule

/-! # C08: operations do not change other objects -/

namespace Comch.Props
open Comch Heap

variable {K : Type} [DecidableEq K]

/-- The object that an operation is allowed to change: the target of an in-place operation. -/
def HeapOp.target : HeapOp K → Option Nat
  | .iadd o _ => some o
  | .isub o _ => some o
  | .setTorsion o _ => some o
  | _ => none

/-- The full property: an operation changes what is seen of no object but its target. -/
def OperandsUnchanged (K : Type) [DecidableEq K] : Prop :=
  ∀ (C : Cls K) (hist : List (HeapOp K)) (op : HeapOp K) (h h' : Heap K),
    run C empty hist = .ok h → step C h op = .ok h' →
    ∀ o < h.objs.length, some o ≠ HeapOp.target op → h'.view o = h.view o

/-- It is false: `x = FreeModuleElement({1: 3}); z = x.zero(); z.set_torsion(2)` changes the
torsion of `x` to 2 (and leaves the coefficient 3, so `x` is not even in normal form any more). -/
theorem C08_operandsUnchanged_false : ¬ OperandsUnchanged Nat := by
  intro hp
  have := hp (freeModule Nat) [.new [(1, 3)] none .bergerFresse, .zero 0] (.setTorsion 1 2)
    ⟨[⟨[(1, 3)], 0⟩, ⟨[], 0⟩], [{ torsion := 0 }]⟩ ⟨[⟨[(1, 3)], 0⟩, ⟨[], 0⟩], [{ torsion := 2 }]⟩
    rfl rfl 0 (by decide) (by decide)
  simp [view] at this

/-- In the same history the operand `x` ends up with torsion 2 and coefficient 3. -/
theorem C08_normal_form_lost :
    ∃ h x, run (freeModule Nat) empty
        [.new [(1, 3)] none .bergerFresse, .zero 0, .setTorsion 1 2] = .ok h ∧
      h.view 0 = some x ∧ ¬ x.NF (freeModule Nat) := by
  refine ⟨⟨[⟨[(1, 3)], 0⟩, ⟨[], 0⟩], [{ torsion := 2 }]⟩, ⟨[(1, 3)], { torsion := 2 }⟩, rfl, rfl, ?_⟩
  intro h
  have := h.coeff_range (by decide) (1, 3) (by simp)
  simp at this

omit [DecidableEq K] in
theorem view_append (h : Heap K) (obj : Obj K) (ds : List Attrs) (o : Nat)
    (ho : o < h.objs.length) (hv : (h.view o).isSome) :
    Heap.view ⟨h.objs ++ [obj], h.dicts ++ ds⟩ o = h.view o := by
  unfold view at *
  rw [List.getElem?_append_left ho]
  rcases h1 : h.objs[o]? with _ | ob
  · rfl
  · rw [h1] at hv
    simp only [Option.bind_eq_bind, Option.bind_some] at hv ⊢
    rcases h2 : h.dicts[ob.dictAddr]? with _ | a
    · rw [h2] at hv; simp at hv
    · rw [List.getElem?_append_left (by rw [List.getElem?_eq_some_iff] at h2; exact h2.1), h2]

omit [DecidableEq K] in
theorem view_alloc (h : Heap K) (p : Nat) (d : Dict K) (o : Nat) (ho : o < h.objs.length) :
    (h.alloc p d).view o = h.view o := by
  unfold alloc
  split
  · unfold view
    simp only
    rw [List.getElem?_append_left ho]
  · rfl

omit [DecidableEq K] in
theorem view_set_ne (h : Heap K) (p : Nat) (obj : Obj K) (o : Nat) (ho : o ≠ p) :
    Heap.view ⟨h.objs.set p obj, h.dicts⟩ o = h.view o := by
  unfold view
  simp only
  rw [List.getElem?_set_ne (Ne.symm ho)]

/-- Every object built by a history has an attribute dictionary. -/
def Valid (h : Heap K) : Prop := ∀ obj ∈ h.objs, obj.dictAddr < h.dicts.length

omit [DecidableEq K] in
theorem Valid.view_isSome {h : Heap K} (hv : Valid h) {o : Nat} (ho : o < h.objs.length) :
    (h.view o).isSome := by
  unfold view
  have h2 := hv h.objs[o] (List.getElem_mem ho)
  simp [List.getElem?_eq_getElem ho, List.getElem?_eq_getElem h2]

omit [DecidableEq K] in
theorem Valid.alloc {h : Heap K} (hv : Valid h) (p : Nat) (d : Dict K) : Valid (h.alloc p d) := by
  unfold Heap.alloc
  split
  · rename_i obj hobj
    intro o ho
    simp only [List.mem_append, List.mem_singleton] at ho
    rcases ho with ho | rfl
    · exact hv o ho
    · exact hv obj (List.mem_of_getElem? hobj)
  · exact hv

theorem Valid.step {C : Cls K} {h h' : Heap K} {op : HeapOp K} (hv : Valid h)
    (hs : step C h op = .ok h') : Valid h' := by
  have hset : ∀ (p : Nat) (obj obj' : Obj K) (ds : List Attrs), h.objs[p]? = some obj →
      obj'.dictAddr = obj.dictAddr → ds.length = h.dicts.length →
      Valid (⟨h.objs.set p obj', ds⟩ : Heap K) := by
    intro p obj obj' ds hobj hd hl o ho
    rcases List.mem_or_eq_of_mem_set ho with ho | rfl
    · simpa [hl] using hv o ho
    · simpa [hl, hd] using hv obj (List.mem_of_getElem? hobj)
  cases op with
  | new d t c =>
    cases hs
    intro o ho
    simp only [List.mem_append, List.mem_singleton] at ho
    rcases ho with ho | rfl
    · have := hv o ho; simp; omega
    · simp
  | create o d => simp only [Heap.step] at hs; split at hs <;> cases hs; exact hv.alloc _ _
  | zero o => simp only [Heap.step] at hs; split at hs <;> cases hs; exact hv.alloc _ _
  | smul c o => simp only [Heap.step] at hs; split at hs <;> cases hs; exact hv.alloc _ _
  | neg o => simp only [Heap.step] at hs; split at hs <;> cases hs; exact hv.alloc _ _
  | add o p =>
    simp only [Heap.step] at hs
    split at hs
    · rename_i x y _ _
      rcases hz : Elem.add C x y with e | z <;> rw [hz] at hs <;> cases hs
      exact hv.alloc _ _
    · cases hs
  | sub o p =>
    simp only [Heap.step] at hs
    split at hs
    · rename_i x y _ _
      rcases hz : Elem.sub C x y with e | z <;> rw [hz] at hs <;> cases hs
      exact hv.alloc _ _
    · cases hs
  | iadd o p =>
    simp only [Heap.step] at hs
    split at hs
    · rename_i x y obj _ _ hobj
      rcases hz : Elem.iadd C x y with e | z <;> rw [hz] at hs <;> cases hs
      exact hset _ _ _ _ hobj rfl rfl
    · cases hs
  | isub o p =>
    simp only [Heap.step] at hs
    split at hs
    · rename_i x y obj _ _ hobj
      rcases hz : Elem.isub C x y with e | z <;> rw [hz] at hs <;> cases hs
      exact hset _ _ _ _ hobj rfl rfl
    · cases hs
  | setTorsion o n =>
    simp only [Heap.step] at hs
    split at hs
    · rename_i x obj _ hobj
      cases hs
      exact hset _ _ _ _ hobj rfl (by simp)
    · cases hs

theorem Valid.run {C : Cls K} {hist : List (HeapOp K)} {h h' : Heap K} (hv : Valid h)
    (hr : run C h hist = .ok h') : Valid h' := by
  induction hist generalizing h with
  | nil => cases hr; exact hv
  | cons op ops ih =>
    simp only [Heap.run] at hr
    rcases hs : Heap.step C h op with e | h1
    · rw [hs] at hr; cases hr
    · rw [hs] at hr
      exact ih (hv.step hs) hr

/-- What holds of it (not covered here: objects sharing their `__dict__` with the target of
`set_torsion`).  After any history, an operation leaves unchanged everything seen of every object
`o` other than its target, except that `set_torsion(p, n)` may change objects created from `p` (or
from which `p` was created), i.e. with the same attribute dictionary. -/
theorem C08_unshared_unchanged (C : Cls K) (hist : List (HeapOp K)) (op : HeapOp K)
    (h h' : Heap K) (hr : run C empty hist = .ok h) (hs : step C h op = .ok h') (o : Nat)
    (ho : o < h.objs.length) (hne : some o ≠ HeapOp.target op)
    (hsh : ∀ p n, op = .setTorsion p n →
      (h.objs[o]?).map Obj.dictAddr ≠ (h.objs[p]?).map Obj.dictAddr) :
    h'.view o = h.view o := by
  have hv : Valid h := Valid.run (h := empty) (by intro o ho; simp [Heap.empty] at ho) hr
  cases op with
  | new d t c =>
    cases hs
    exact view_append h _ _ o ho (hv.view_isSome ho)
  | create p d => simp only [Heap.step] at hs; split at hs <;> cases hs; exact view_alloc _ _ _ _ ho
  | zero p => simp only [Heap.step] at hs; split at hs <;> cases hs; exact view_alloc _ _ _ _ ho
  | smul c p => simp only [Heap.step] at hs; split at hs <;> cases hs; exact view_alloc _ _ _ _ ho
  | neg p => simp only [Heap.step] at hs; split at hs <;> cases hs; exact view_alloc _ _ _ _ ho
  | add p q =>
    simp only [Heap.step] at hs
    split at hs
    · rename_i x y _ _
      rcases hz : Elem.add C x y with e | z <;> rw [hz] at hs <;> cases hs
      exact view_alloc _ _ _ _ ho
    · cases hs
  | sub p q =>
    simp only [Heap.step] at hs
    split at hs
    · rename_i x y _ _
      rcases hz : Elem.sub C x y with e | z <;> rw [hz] at hs <;> cases hs
      exact view_alloc _ _ _ _ ho
    · cases hs
  | iadd p q =>
    simp only [Heap.step] at hs
    split at hs
    · rename_i x y obj _ _ hobj
      rcases hz : Elem.iadd C x y with e | z <;> rw [hz] at hs <;> cases hs
      exact view_set_ne _ _ _ _ (by rintro rfl; exact hne rfl)
    · cases hs
  | isub p q =>
    simp only [Heap.step] at hs
    split at hs
    · rename_i x y obj _ _ hobj
      rcases hz : Elem.isub C x y with e | z <;> rw [hz] at hs <;> cases hs
      exact view_set_ne _ _ _ _ (by rintro rfl; exact hne rfl)
    · cases hs
  | setTorsion p n =>
    have hsh' := hsh p n rfl
    simp only [Heap.step] at hs
    split at hs
    · rename_i x obj _ hobj
      cases hs
      have hop : o ≠ p := by rintro rfl; exact hne rfl
      unfold view
      simp only
      rw [List.getElem?_set_ne (Ne.symm hop)]
      rw [List.getElem?_eq_getElem ho] at hsh' ⊢
      rw [hobj] at hsh'
      simp only [Option.map_some, ne_eq, Option.some.injEq] at hsh'
      simp only [Option.bind_eq_bind, Option.bind_some]
      rw [List.getElem?_set_ne (Ne.symm hsh')]
    · cases hs

/-- Non-vacuity: two independently constructed objects, `set_torsion` on the second one. -/
example : ∃ h h', run (freeModule Nat) empty
      [.new [(1, 3)] none .bergerFresse, .new [(2, 5)] none .bergerFresse, .add 0 1] = .ok h ∧
    step (freeModule Nat) h (.setTorsion 1 2) = .ok h' ∧
    (h.objs[0]?).map Obj.dictAddr ≠ (h.objs[1]?).map Obj.dictAddr ∧
    (h'.view 1).map Elem.data = some [(2, 1)] ∧ (h'.view 0).map Elem.data = some [(1, 3)] :=
  ⟨_, _, rfl, rfl, by decide, by decide, by decide⟩

/-! ### The exact extent of the sharing -/

/-- The family of each object, read off the history alone: a constructor call starts a new family,
`create`, `zero`, `+`, `-`, scalar `*` put their result in the family of the object they are called
on (`self`), in-place operations create no object. -/
def familyStep (f : List Nat) : HeapOp K → List Nat
  | .new _ _ _ => f ++ [f.length]
  | .create o _ => f ++ [f.getD o 0]
  | .zero o => f ++ [f.getD o 0]
  | .add o _ => f ++ [f.getD o 0]
  | .sub o _ => f ++ [f.getD o 0]
  | .smul _ o => f ++ [f.getD o 0]
  | .neg o => f ++ [f.getD o 0]
  | .iadd _ _ => f
  | .isub _ _ => f
  | .setTorsion _ _ => f

/-- Families after a history. -/
def families (hist : List (HeapOp K)) : List Nat := hist.foldl familyStep []

/-- Two objects share their attribute dictionary exactly when they are in one family. -/
structure SameFamilies (f : List Nat) (h : Heap K) : Prop where
  len : f.length = h.objs.length
  lt : ∀ a ∈ f, a < f.length
  iff : ∀ o p, o < f.length → p < f.length →
    (f[o]? = f[p]? ↔ (h.objs[o]?).map Obj.dictAddr = (h.objs[p]?).map Obj.dictAddr)

omit [DecidableEq K] in
theorem SameFamilies.alloc {f : List Nat} {h : Heap K} (hf : SameFamilies f h) {q : Nat} {x : Elem K}
    (hq : h.view q = some x) (d : Dict K) : SameFamilies (f ++ [f.getD q 0]) (h.alloc q d) := by
  have hq' : q < h.objs.length := by
    rcases Nat.lt_or_ge q h.objs.length with hc | hc
    · exact hc
    · simp only [view, List.getElem?_eq_none hc] at hq
      cases hq
  have hqf : q < f.length := by rw [hf.len]; exact hq'
  have hal : h.alloc q d = ⟨h.objs ++ [⟨d, h.objs[q].dictAddr⟩], h.dicts⟩ := by
    unfold Heap.alloc
    rw [List.getElem?_eq_getElem hq']
  rw [hal]
  -- the new entry behaves as the entry `q`
  have e1 : ∀ o, (f ++ [f.getD q 0])[o]? = if o = f.length then f[q]? else f[o]? := by
    intro o
    split
    · rename_i ho
      subst ho
      simp [List.getElem?_eq_getElem hqf]
    · rename_i ho
      rcases Nat.lt_or_gt_of_ne ho with h1 | h1
      · rw [List.getElem?_append_left h1]
      · rw [List.getElem?_eq_none (by simp; omega), List.getElem?_eq_none (by omega)]
  have e2 : ∀ o, ((h.objs ++ [⟨d, h.objs[q].dictAddr⟩])[o]?).map Obj.dictAddr =
      if o = f.length then (h.objs[q]?).map Obj.dictAddr else (h.objs[o]?).map Obj.dictAddr := by
    intro o
    rw [hf.len]
    split
    · rename_i ho
      subst ho
      simp [List.getElem?_eq_getElem hq']
    · rename_i ho
      rcases Nat.lt_or_gt_of_ne ho with h1 | h1
      · rw [List.getElem?_append_left h1]
      · rw [List.getElem?_eq_none (by simp; omega), List.getElem?_eq_none (by omega)]
  refine ⟨by simp [hf.len], ?_, ?_⟩
  · intro a ha
    rw [List.length_append, List.length_singleton]
    rcases List.mem_append.1 ha with ha | ha
    · exact Nat.lt_succ_of_lt (hf.lt a ha)
    · rw [List.mem_singleton.1 ha]
      have : f.getD q 0 = f[q] := by simp [List.getD, List.getElem?_eq_getElem hqf]
      rw [this]
      exact Nat.lt_succ_of_lt (hf.lt _ (List.getElem_mem hqf))
  · intro o p ho hp
    rw [List.length_append, List.length_singleton] at ho hp
    simp only [e1, e2]
    split <;> split
    · simp
    · exact hf.iff _ _ hqf (by omega)
    · exact hf.iff _ _ (by omega) hqf
    · exact hf.iff _ _ (by omega) (by omega)

omit [DecidableEq K] in
theorem SameFamilies.set {f : List Nat} {h : Heap K} (hf : SameFamilies f h) {q : Nat} {obj obj' : Obj K}
    (hq : h.objs[q]? = some obj) (hd : obj'.dictAddr = obj.dictAddr) (ds : List Attrs) :
    SameFamilies f (⟨h.objs.set q obj', ds⟩ : Heap K) := by
  have e : ∀ o : Nat, ((h.objs.set q obj')[o]?).map Obj.dictAddr = (h.objs[o]?).map Obj.dictAddr := by
    intro o
    by_cases ho : o = q
    · subst ho
      rw [List.getElem?_set_self (by rw [List.getElem?_eq_some_iff] at hq; exact hq.1), hq]
      simp [hd]
    · rw [List.getElem?_set_ne (Ne.symm ho)]
  refine ⟨by simp [hf.len], hf.lt, ?_⟩
  intro o p ho hp
  simp only [e]
  exact hf.iff o p ho hp

theorem SameFamilies.step {C : Cls K} {f : List Nat} {h h' : Heap K} {op : HeapOp K}
    (hf : SameFamilies f h) (hv : Valid h) (hs : step C h op = .ok h') :
    SameFamilies (familyStep f op) h' := by
  cases op with
  | new d t c =>
    cases hs
    simp only [familyStep]
    have e1 : ∀ o, o < f.length + 1 → (f ++ [f.length])[o]? = if o = f.length then some f.length else f[o]? := by
      intro o ho
      split
      · rename_i h1; subst h1; simp
      · rw [List.getElem?_append_left (by omega)]
    have e2 : ∀ o, o < f.length + 1 →
        ((h.objs ++ [(⟨(Elem.new C d t c).data, h.dicts.length⟩ : Obj K)])[o]?).map Obj.dictAddr =
        if o = f.length then some h.dicts.length else (h.objs[o]?).map Obj.dictAddr := by
      intro o ho
      split
      · rename_i h1; subst h1; rw [hf.len]; simp
      · rw [List.getElem?_append_left (by rw [← hf.len]; omega)]
    have n1 : ∀ o, o < f.length → f[o]? ≠ some f.length := by
      intro o ho hc
      have := hf.lt _ (List.mem_of_getElem? hc)
      omega
    have n2 : ∀ o, o < f.length → (h.objs[o]?).map Obj.dictAddr ≠ some h.dicts.length := by
      intro o ho hc
      rw [List.getElem?_eq_getElem (by rw [← hf.len]; exact ho)] at hc
      have := hv _ (List.getElem_mem (by rw [← hf.len]; exact ho : o < h.objs.length))
      simp only [Option.map_some, Option.some.injEq] at hc
      omega
    refine ⟨by simp [hf.len], ?_, ?_⟩
    · intro a ha
      rw [List.length_append, List.length_singleton]
      rcases List.mem_append.1 ha with ha | ha
      · exact Nat.lt_succ_of_lt (hf.lt a ha)
      · rw [List.mem_singleton.1 ha]; exact Nat.lt_succ_self _
    · intro o p ho hp
      rw [List.length_append, List.length_singleton] at ho hp
      rw [e1 o ho, e1 p hp, e2 o ho, e2 p hp]
      split <;> split
      · simp
      · rename_i _ hne
        exact iff_of_false (fun h => n1 p (by omega) h.symm) (fun h => n2 p (by omega) h.symm)
      · rename_i hne _
        exact iff_of_false (n1 o (by omega)) (n2 o (by omega))
      · exact hf.iff _ _ (by omega) (by omega)
  | create o d => simp only [Heap.step] at hs; split at hs <;> cases hs; exact hf.alloc (by assumption) _
  | zero o => simp only [Heap.step] at hs; split at hs <;> cases hs; exact hf.alloc (by assumption) _
  | smul c o => simp only [Heap.step] at hs; split at hs <;> cases hs; exact hf.alloc (by assumption) _
  | neg o => simp only [Heap.step] at hs; split at hs <;> cases hs; exact hf.alloc (by assumption) _
  | add o p =>
    simp only [Heap.step] at hs
    split at hs
    · rename_i x y hx _
      rcases hz : Elem.add C x y with e | z <;> rw [hz] at hs <;> cases hs
      exact hf.alloc hx _
    · cases hs
  | sub o p =>
    simp only [Heap.step] at hs
    split at hs
    · rename_i x y hx _
      rcases hz : Elem.sub C x y with e | z <;> rw [hz] at hs <;> cases hs
      exact hf.alloc hx _
    · cases hs
  | iadd o p =>
    simp only [Heap.step] at hs
    split at hs
    · rename_i x y obj _ _ hobj
      rcases hz : Elem.iadd C x y with e | z <;> rw [hz] at hs <;> cases hs
      exact hf.set (obj' := ⟨z.data, obj.dictAddr⟩) hobj rfl _
    · cases hs
  | isub o p =>
    simp only [Heap.step] at hs
    split at hs
    · rename_i x y obj _ _ hobj
      rcases hz : Elem.isub C x y with e | z <;> rw [hz] at hs <;> cases hs
      exact hf.set (obj' := ⟨z.data, obj.dictAddr⟩) hobj rfl _
    · cases hs
  | setTorsion o n =>
    simp only [Heap.step] at hs
    split at hs
    · rename_i x obj _ hobj
      cases hs
      exact hf.set (obj' := ⟨(Elem.setTorsion C x n).data, obj.dictAddr⟩) hobj rfl _
    · cases hs

theorem SameFamilies.run {C : Cls K} {hist : List (HeapOp K)} {f : List Nat} {h h' : Heap K}
    (hf : SameFamilies f h) (hv : Valid h) (hr : run C h hist = .ok h') :
    SameFamilies (hist.foldl familyStep f) h' := by
  induction hist generalizing h f with
  | nil => cases hr; exact hf
  | cons op ops ih =>
    simp only [Heap.run] at hr
    rcases hs : Heap.step C h op with e | h1
    · rw [hs] at hr; cases hr
    · rw [hs] at hr
      exact ih (hf.step hv hs) (hv.step hs) hr

/-- No operation but an in-place one changes anything that is seen of an existing object; the
in-place `+=`, `-=` change their target only. -/
theorem C08_operations_keep_objects (C : Cls K) (hist : List (HeapOp K)) (op : HeapOp K)
    (h h' : Heap K) (hr : run C empty hist = .ok h) (hs : step C h op = .ok h') (o : Nat)
    (ho : o < h.objs.length) (hne : some o ≠ HeapOp.target op)
    (hop : ∀ p n, op ≠ .setTorsion p n) : h'.view o = h.view o :=
  C08_unshared_unchanged C hist op h h' hr hs o ho hne fun p n he => absurd he (hop p n)

/-- What `p.set_torsion(n)` does to the other objects, after any history: the objects of the family
of `p` keep their data and get torsion `n`, all others are unchanged. -/
theorem C08_setTorsion_effect (C : Cls K) (hist : List (HeapOp K)) (p n : Nat)
    (h h' : Heap K) (hr : run C empty hist = .ok h) (hs : step C h (.setTorsion p n) = .ok h')
    (o : Nat) (ho : o < h.objs.length) (hop : o ≠ p) :
    ∃ x y, h.view o = some x ∧ h'.view o = some y ∧ y.data = x.data ∧
      y.attrs = if (families hist)[o]? = (families hist)[p]? then { x.attrs with torsion := n } else x.attrs := by
  have hv : Valid h := Valid.run (h := empty) (by intro o ho; simp [Heap.empty] at ho) hr
  have hf : SameFamilies (families hist) h :=
    SameFamilies.run (h := empty) ⟨rfl, by simp, by simp⟩ (by intro o ho; simp [Heap.empty] at ho) hr
  have hp : p < h.objs.length := by
    simp only [Heap.step] at hs
    split at hs
    · rename_i x obj _ hobj
      rw [List.getElem?_eq_some_iff] at hobj
      exact hobj.1
    · cases hs
  by_cases hfam : (families hist)[o]? = (families hist)[p]?
  · have had := (hf.iff o p (by rw [hf.len]; exact ho) (by rw [hf.len]; exact hp)).1 hfam
    simp only [Heap.step] at hs
    split at hs
    · rename_i x obj hx hobj
      cases hs
      rw [List.getElem?_eq_getElem ho, hobj] at had
      simp only [Option.map_some, Option.some.injEq] at had
      have hlt := hv obj (List.mem_of_getElem? hobj)
      have hxa : x.attrs = h.dicts[obj.dictAddr] := by
        simp only [view, hobj, Option.bind_eq_bind, Option.bind_some, List.getElem?_eq_getElem hlt] at hx
        injection hx with hx
        rw [← hx]
      refine ⟨⟨h.objs[o].payload, h.dicts[obj.dictAddr]⟩,
        ⟨h.objs[o].payload, { h.dicts[obj.dictAddr] with torsion := n }⟩, ?_, ?_, rfl, ?_⟩
      · simp only [view, List.getElem?_eq_getElem ho, Option.bind_eq_bind, Option.bind_some, had,
          List.getElem?_eq_getElem hlt]
      · simp only [view]
        rw [List.getElem?_set_ne (Ne.symm hop)]
        simp only [List.getElem?_eq_getElem ho, Option.bind_eq_bind, Option.bind_some, had]
        rw [List.getElem?_set_self hlt]
        simp only [Option.bind_some, Option.some.injEq, Elem.mk.injEq, true_and]
        rw [← hxa]
        rfl
      · rw [if_pos hfam]
    · cases hs
  · have hview := C08_unshared_unchanged C hist _ h h' hr hs o ho
      (by intro hc; exact hop (Option.some.inj hc)) (fun q m he => by
        cases he
        intro hc
        exact hfam ((hf.iff o p (by rw [hf.len]; exact ho) (by rw [hf.len]; exact hp)).2 hc))
    have hsome := hv.view_isSome ho
    obtain ⟨x, hx⟩ := Option.isSome_iff_exists.1 hsome
    exact ⟨x, x, hx, by rw [hview, hx], rfl, by rw [if_neg hfam]⟩

/-- Both cases occur: in `x = F({1:3}); y = F({2:5}); z = x + x; z.set_torsion(2)` the families are
`x, y, x`. -/
example : families (K := Nat) [.new [(1, 3)] none .bergerFresse, .new [(2, 5)] none .bergerFresse, .add 0 0]
    = [0, 1, 0] := rfl

end Comch.Props
