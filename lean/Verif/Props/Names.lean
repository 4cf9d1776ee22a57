import Verif.Model.Names
import Verif.Props.Heap
import Verif.Props.FreeModule
import Verif.Lib.BarrattEccles
import Verif.Lib.Ring

/-! # C99: variables, aliasing and in-place operators -/

namespace Comch.Props
open Comch PyState

variable {K : Type} [DecidableEq K]

/-! ### Reachable states -/

/-- What every program preserves: objects have attribute dictionaries, variables refer to objects. -/
structure Sound (s : PyState K) : Prop where
  valid : Valid s.heap
  names : ∀ v a, s.names v = some a → a < s.heap.objs.length

omit [DecidableEq K] in
theorem Sound.init : Sound (PyState.init : PyState K) :=
  ⟨by intro o ho; simp [PyState.init, Heap.empty] at ho, by intro v a h; simp [PyState.init] at h⟩

omit [DecidableEq K] in
theorem Sound.see {s : PyState K} (hs : Sound s) {v a : Nat} (hv : s.names v = some a) : ∃ x, s.see v = some x := by
  have := hs.valid.view_isSome (hs.names v a hv)
  obtain ⟨x, hx⟩ := Option.isSome_iff_exists.1 this
  exact ⟨x, by simp [PyState.see, hv, hx]⟩

omit [DecidableEq K] in
theorem see_eq {s : PyState K} {v a : Nat} (hv : s.names v = some a) : s.see v = s.heap.view a := by
  simp [PyState.see, hv]

omit [DecidableEq K] in
theorem see_bind (s : PyState K) (v a w : Nat) :
    (s.bind v a).see w = if w = v then s.heap.view a else s.see w := by
  simp only [PyState.see, PyState.bind]
  split <;> simp

omit [DecidableEq K] in
theorem view_eq {h : Heap K} {a : Nat} {x : Elem K} (hx : h.view a = some x) :
    ∃ obj, h.objs[a]? = some obj ∧ h.dicts[obj.dictAddr]? = some x.attrs ∧ obj.payload = x.data := by
  unfold Heap.view at hx
  rcases h1 : h.objs[a]? with _ | obj
  · rw [h1] at hx; cases hx
  · rw [h1] at hx
    simp only [Option.bind_eq_bind, Option.bind_some] at hx
    rcases h2 : h.dicts[obj.dictAddr]? with _ | at'
    · rw [h2] at hx; cases hx
    · rw [h2] at hx
      cases hx
      exact ⟨obj, rfl, h2, rfl⟩

omit [DecidableEq K] in
theorem lt_of_view {h : Heap K} {a : Nat} {x : Elem K} (hx : h.view a = some x) : a < h.objs.length := by
  obtain ⟨obj, h1, _⟩ := view_eq hx
  exact (List.getElem?_eq_some_iff.1 h1).1

omit [DecidableEq K] in
theorem alloc_eq {h : Heap K} {a : Nat} {x : Elem K} (hx : h.view a = some x) (d : Dict K) :
    ∃ obj, h.objs[a]? = some obj ∧ h.alloc a d = ⟨h.objs ++ [⟨d, obj.dictAddr⟩], h.dicts⟩ := by
  obtain ⟨obj, h1, _⟩ := view_eq hx
  exact ⟨obj, h1, by simp [Heap.alloc, h1]⟩

omit [DecidableEq K] in
theorem view_alloc_new {h : Heap K} {a : Nat} {x : Elem K} (hx : h.view a = some x) (d : Dict K) :
    (h.alloc a d).view h.objs.length = some ⟨d, x.attrs⟩ := by
  obtain ⟨obj, h1, h2, _⟩ := view_eq hx
  simp [Heap.alloc, h1, Heap.view, h2]

/-- Binding a variable to an existing object. -/
theorem Sound.bind {s : PyState K} (hs : Sound s) (v : Nat) {a : Nat} (ha : a < s.heap.objs.length) :
    Sound (s.bind v a) := by
  refine ⟨hs.valid, fun w b hw => ?_⟩
  simp only [PyState.bind] at hw ⊢
  split at hw
  · cases hw; exact ha
  · exact hs.names w b hw

omit [DecidableEq K] in
/-- A larger heap. -/
theorem Sound.heap {s : PyState K} (hs : Sound s) {h : Heap K} (hv : Valid h) (hl : s.heap.objs.length ≤ h.objs.length) :
    Sound { s with heap := h } :=
  ⟨hv, fun v a ha => Nat.lt_of_lt_of_le (hs.names v a ha) hl⟩

theorem inplace_length {C : Cls K} {h h' : Heap K} {op : HeapOp K} (hop : ∃ a b, op = .iadd a b ∨ op = .isub a b ∨ op = .setTorsion a b)
    (hs : Heap.step C h op = .ok h') : h'.objs.length = h.objs.length := by
  obtain ⟨a, b, rfl | rfl | rfl⟩ := hop
  · simp only [Heap.step] at hs
    split at hs
    · rename_i x y obj _ _ _
      rcases hz : Elem.iadd C x y with e | z <;> rw [hz] at hs <;> cases hs
      simp
    · cases hs
  · simp only [Heap.step] at hs
    split at hs
    · rename_i x y obj _ _ _
      rcases hz : Elem.isub C x y with e | z <;> rw [hz] at hs <;> cases hs
      simp
    · cases hs
  · simp only [Heap.step] at hs
    split at hs <;> cases hs
    simp

/-- Executing a method call. -/
theorem exec_call {C : Cls K} {s s' : PyState K} {v o : Nat} {args : List Nat} {m : Method K}
    (h : exec C s (.call v o args m) = .ok s') : ∃ a x ys z, s.names o = some a ∧ s.see o = some x ∧ args.mapM s.see = some ys ∧
      m.run x ys = .ok z ∧
      ((m.origin x = .same ∧ s' = s.bind v a) ∨
       (m.origin x = .shared ∧ s' = PyState.bind { s with heap := s.heap.alloc a z.data } v s.heap.objs.length) ∨
       (m.origin x = .own ∧ s' = PyState.bind { s with heap := { objs := s.heap.objs ++ [⟨z.data, s.heap.dicts.length⟩]
                                                                 dicts := s.heap.dicts ++ [z.attrs] } } v s.heap.objs.length)) := by
  simp only [exec] at h
  split at h
  · rename_i a x ys h1 h2 h3
    rcases hz : m.run x ys with e | z
    · rw [hz] at h; cases h
    · rw [hz] at h
      refine ⟨a, x, ys, z, h1, h2, h3, hz, ?_⟩
      change (match m.origin x with | .same => _ | .shared => _ | .own => _) = _ at h
      split at h <;> rename_i ho <;> cases h
      · exact Or.inl ⟨ho, rfl⟩
      · exact Or.inr (Or.inl ⟨ho, rfl⟩)
      · exact Or.inr (Or.inr ⟨ho, rfl⟩)
  · cases h

theorem exec_inplace {C : Cls K} {s s' : PyState K} {v w : Nat} {op : Nat → Nat → HeapOp K}
    (h : s.inplace C v w op = .ok s') : ∃ a b h', s.names v = some a ∧ s.names w = some b ∧
      Heap.step C s.heap (op a b) = .ok h' ∧ s' = { s with heap := h' } := by
  simp only [PyState.inplace] at h
  split at h
  · rename_i a b h1 h2
    rcases hz : Heap.step C s.heap (op a b) with e | h'
    · rw [hz] at h; cases h
    · rw [hz] at h; cases h
      exact ⟨a, b, h', h1, h2, hz, rfl⟩
  · cases h

theorem exec_setTorsion {C : Cls K} {s s' : PyState K} {v n : Nat} (h : exec C s (.setTorsion v n) = .ok s') :
    ∃ a h', s.names v = some a ∧ Heap.step C s.heap (.setTorsion a n) = .ok h' ∧ s' = { s with heap := h' } := by
  simp only [exec] at h
  split at h
  · rename_i a h1
    rcases hz : Heap.step C s.heap (.setTorsion a n) with e | h'
    · rw [hz] at h; cases h
    · rw [hz] at h; cases h
      exact ⟨a, h', h1, hz, rfl⟩
  · cases h

theorem Sound.exec {C : Cls K} {s s' : PyState K} {st : Stmt K} (hs : Sound s) (h : exec C s st = .ok s') : Sound s' := by
  cases st with
  | new v d t c =>
    rcases hz : Heap.step C s.heap (.new d t c) with e | h'
    · simp only [PyState.exec, hz] at h; cases h
    · have hv := hs.valid.step hz
      simp only [PyState.exec, hz] at h
      cases h
      cases hz
      exact (hs.heap hv (by simp)).bind v (by simp)
  | assign v w =>
    simp only [PyState.exec] at h
    split at h
    · rename_i a ha
      cases h
      exact hs.bind v (hs.names w a ha)
    · cases h
  | call v o args m =>
    obtain ⟨a, x, ys, z, h1, h2, h3, h4, h5⟩ := exec_call h
    have hx : s.heap.view a = some x := by rw [← see_eq h1]; exact h2
    rcases h5 with ⟨_, rfl⟩ | ⟨_, rfl⟩ | ⟨_, rfl⟩
    · exact hs.bind v (hs.names o a h1)
    · obtain ⟨obj, _, he⟩ := alloc_eq hx z.data
      refine (hs.heap (hs.valid.alloc _ _) (by rw [he]; simp)).bind v ?_
      rw [he]; simp
    · refine (hs.heap ?_ (by simp)).bind v (by simp)
      intro obj hobj
      rcases List.mem_append.1 hobj with hobj | hobj
      · have := hs.valid obj hobj; simp; omega
      · rw [List.mem_singleton.1 hobj]; simp
  | iadd v w =>
    obtain ⟨a, b, h', _, _, h3, rfl⟩ := exec_inplace h
    exact hs.heap (hs.valid.step h3) (inplace_length ⟨a, b, Or.inl rfl⟩ h3).ge
  | isub v w =>
    obtain ⟨a, b, h', _, _, h3, rfl⟩ := exec_inplace h
    exact hs.heap (hs.valid.step h3) (inplace_length ⟨a, b, Or.inr (Or.inl rfl)⟩ h3).ge
  | setTorsion v n =>
    obtain ⟨a, h', _, h3, rfl⟩ := exec_setTorsion h
    exact hs.heap (hs.valid.step h3) (inplace_length ⟨a, n, Or.inr (Or.inr rfl)⟩ h3).ge

theorem Sound.execAll {C : Cls K} {prog : List (Stmt K)} {s s' : PyState K} (hs : Sound s)
    (h : execAll C s prog = .ok s') : Sound s' := by
  induction prog generalizing s with
  | nil => cases h; exact hs
  | cons st rest ih =>
    simp only [PyState.execAll] at h
    rcases hz : PyState.exec C s st with e | s1
    · rw [hz] at h; cases h
    · rw [hz] at h
      exact ih (hs.exec hz) h

/-! ### The properties -/

/-- A method is *consistent* if what it is declared to return fits what it computes: `return self` returns `self`,
and an object built with `create` has the attributes of `self`. -/
structure Consistent (m : Method K) : Prop where
  same : ∀ x ys z, m.run x ys = .ok z → m.origin x = .same → z = x
  shared : ∀ x ys z, m.run x ys = .ok z → m.origin x = .shared → z.attrs = x.attrs

/-- After any program, a method call `v = o.m(args)` computes its result from the current values of `o` and `args`,
binds it to `v` and changes the value of no other variable.  If the method does not return `self`, the result is an
object that no other variable refers to. -/
theorem C99_call (C : Cls K) (prog : List (Stmt K)) (s s' : PyState K) (hp : execAll C init prog = .ok s)
    {v o : Nat} {args : List Nat} {m : Method K} (hm : Consistent m) (h : exec C s (.call v o args m) = .ok s') :
    (∃ x ys z, s.see o = some x ∧ args.mapM s.see = some ys ∧ m.run x ys = .ok z ∧ s'.see v = some z ∧
      (m.origin x ≠ .same → ∀ w, w ≠ v → s'.names w ≠ s'.names v)) ∧
    ∀ w, w ≠ v → s'.see w = s.see w ∧ s'.names w = s.names w := by
  have hs : Sound s := Sound.execAll Sound.init hp
  obtain ⟨a, x, ys, z, h1, h2, h3, h4, h5⟩ := exec_call h
  have hx : s.heap.view a = some x := by rw [← see_eq h1]; exact h2
  rcases h5 with ⟨ho, rfl⟩ | ⟨ho, rfl⟩ | ⟨ho, rfl⟩
  · refine ⟨⟨x, ys, z, h2, h3, h4, ?_, fun hc => absurd ho hc⟩, fun w hw => ⟨?_, ?_⟩⟩
    · rw [see_bind, if_pos rfl, hx, hm.same x ys z h4 ho]
    · rw [see_bind, if_neg hw]
    · simp [PyState.bind, hw]
  · refine ⟨⟨x, ys, z, h2, h3, h4, ?_, fun _ w hw hc => ?_⟩, fun w hw => ⟨?_, ?_⟩⟩
    · rw [see_bind, if_pos rfl]
      simp only
      rw [view_alloc_new hx, ← hm.shared x ys z h4 ho]
    · simp only [PyState.bind, if_neg hw, if_true] at hc
      exact absurd (hs.names w _ hc) (lt_irrefl _)
    · rw [see_bind, if_neg hw]
      simp only [PyState.see]
      rcases hb : s.names w with _ | b
      · rfl
      · simp [view_alloc _ _ _ _ (hs.names w b hb)]
    · simp [PyState.bind, hw]
  · refine ⟨⟨x, ys, z, h2, h3, h4, ?_, fun _ w hw hc => ?_⟩, fun w hw => ⟨?_, ?_⟩⟩
    · rw [see_bind, if_pos rfl]
      simp [Heap.view]
    · simp only [PyState.bind, if_neg hw, if_true] at hc
      exact absurd (hs.names w _ hc) (lt_irrefl _)
    · rw [see_bind, if_neg hw]
      simp only [PyState.see]
      rcases hb : s.names w with _ | b
      · rfl
      · have hb' := hs.names w b hb
        simp [view_append _ _ _ _ hb' (hs.valid.view_isSome hb')]
    · simp [PyState.bind, hw]

/-- After any program, `v += w` (with `v - w` for `v -= w`) gives every variable referring to the object of `v` the
sum of the values of `v` and `w`, and changes the value of no other variable. -/
theorem C99_inplace (C : Cls K) (prog : List (Stmt K)) (s s' : PyState K) (hp : execAll C init prog = .ok s)
    {v w : Nat} {op : Elem K → Elem K → Py (Elem K)}
    (h : (exec C s (.iadd v w) = .ok s' ∧ op = Elem.iadd C) ∨ (exec C s (.isub v w) = .ok s' ∧ op = Elem.isub C)) :
    (∃ x y z, s.see v = some x ∧ s.see w = some y ∧ op x y = .ok z ∧ ∀ u, s.names u = s.names v → s'.see u = some z) ∧
    (∀ u, s.names u ≠ s.names v → s'.see u = s.see u) ∧ s'.names = s.names := by
  have hs : Sound s := Sound.execAll Sound.init hp
  have key : ∀ (a b : Nat) (x y z : Elem K) (obj : Obj K), s.names v = some a → s.names w = some b → s.heap.view a = some x →
      s.heap.view b = some y → s.heap.objs[a]? = some obj → op x y = .ok z → z.attrs = x.attrs →
      s' = { s with heap := { s.heap with objs := s.heap.objs.set a ⟨z.data, obj.dictAddr⟩ } } →
      (∃ x y z, s.see v = some x ∧ s.see w = some y ∧ op x y = .ok z ∧ ∀ u, s.names u = s.names v → s'.see u = some z) ∧
      (∀ u, s.names u ≠ s.names v → s'.see u = s.see u) ∧ s'.names = s.names := by
    intro a b x y z obj ha hb hx hy hobj hz hat he
    subst he
    refine ⟨⟨x, y, z, by rw [see_eq ha, hx], by rw [see_eq hb, hy], hz, fun u hu => ?_⟩, fun u hu => ?_, rfl⟩
    · simp only [PyState.see, hu, ha]
      obtain ⟨obj', h1, h2, h3⟩ := view_eq hx
      rw [hobj] at h1
      cases h1
      simp only [Heap.view, Option.bind_eq_bind, Option.bind_some]
      rw [List.getElem?_set_self (List.getElem?_eq_some_iff.1 hobj).1]
      simp [h2, ← hat]
    · simp only [PyState.see]
      rcases hc : s.names u with _ | c
      · rfl
      · simp only [Option.bind_eq_bind, Option.bind_some]
        rw [view_set_ne]
        rintro rfl
        exact hu (by rw [hc, ha])
  rcases h with ⟨h, rfl⟩ | ⟨h, rfl⟩
  · obtain ⟨a, b, h', ha, hb, hst, rfl⟩ := exec_inplace h
    simp only [Heap.step] at hst
    split at hst
    · rename_i x y obj hx hy hobj
      rcases hz : Elem.iadd C x y with e | z <;> rw [hz] at hst <;> cases hst
      refine key a b x y z obj ha hb hx hy hobj hz ?_ rfl
      unfold Elem.iadd at hz
      split at hz <;> cases hz
      rfl
    · cases hst
  · obtain ⟨a, b, h', ha, hb, hst, rfl⟩ := exec_inplace h
    simp only [Heap.step] at hst
    split at hst
    · rename_i x y obj hx hy hobj
      rcases hz : Elem.isub C x y with e | z <;> rw [hz] at hst <;> cases hst
      refine key a b x y z obj ha hb hx hy hobj hz ?_ rfl
      unfold Elem.isub at hz
      split at hz <;> cases hz
      rfl
    · cases hst

/-- After any program, `v.set_torsion(n)` gives every variable referring to the object of `v` the reduced value; the
other variables keep their coefficients, and their attributes are either unchanged or differ in the torsion, which
is then `n`. -/
theorem C99_setTorsion (C : Cls K) (prog : List (Stmt K)) (s s' : PyState K) (hp : execAll C init prog = .ok s)
    {v n : Nat} (h : exec C s (.setTorsion v n) = .ok s') :
    (∃ x, s.see v = some x ∧ ∀ u, s.names u = s.names v → s'.see u = some (x.setTorsion C n)) ∧
    (∀ u y, s.names u ≠ s.names v → s.see u = some y →
      s'.see u = some y ∨ s'.see u = some { y with attrs := { y.attrs with torsion := n } }) ∧ s'.names = s.names := by
  have hs : Sound s := Sound.execAll Sound.init hp
  obtain ⟨a, h', ha, hst, rfl⟩ := exec_setTorsion h
  simp only [Heap.step] at hst
  split at hst
  · rename_i x obj hx hobj
    cases hst
    obtain ⟨obj', h1, h2, h3⟩ := view_eq hx
    rw [hobj] at h1
    cases h1
    refine ⟨⟨x, by rw [see_eq ha, hx], fun u hu => ?_⟩, fun u y hu hy => ?_, rfl⟩
    · simp only [PyState.see, hu, ha, Heap.view, Option.bind_eq_bind, Option.bind_some]
      rw [List.getElem?_set_self (List.getElem?_eq_some_iff.1 hobj).1]
      simp only [Option.bind_some]
      rw [List.getElem?_set_self (List.getElem?_eq_some_iff.1 h2).1]
      rfl
    · simp only [PyState.see] at hy ⊢
      rcases hc : s.names u with _ | c
      · rw [hc] at hy; cases hy
      · rw [hc] at hy
        have hca : c ≠ a := by rintro rfl; exact hu (by rw [hc, ha])
        obtain ⟨ob, g1, g2, g3⟩ := view_eq (h := s.heap) (a := c) (x := y) hy
        simp only [Heap.view, Option.bind_eq_bind, Option.bind_some]
        rw [List.getElem?_set_ne (Ne.symm hca), g1]
        simp only [Option.bind_some]
        by_cases hd : ob.dictAddr = obj.dictAddr
        · right
          rw [hd, List.getElem?_set_self (List.getElem?_eq_some_iff.1 h2).1]
          rw [hd, h2] at g2
          simp only [Option.some.injEq] at g2
          simp [Elem.setTorsion, Elem.preferredRep, g2, g3]
        · left
          rw [List.getElem?_set_ne (Ne.symm hd), g2]
          simp [g3]
  · cases hst

/-! ### The methods of the package -/

/-- The result of a method on `x` that is built from `self.zero()` by in-place additions. -/
def FromSelf (C : Cls K) (x z : Elem K) : Prop := z.attrs = x.attrs ∧ z.NF C

theorem fromSelf_accumulate (C : Cls K) (x : Elem K) (ev : List (K × Int)) :
    FromSelf C x (Elem.accumulate C (x.zero C) ev) :=
  ⟨by rw [Elem.accumulate_attrs]; rfl, Elem.nf_accumulate_zero _ _ _⟩

omit [DecidableEq K] in
theorem py_bind {A B : Type} {e : Py A} {f : A → Py B} {z : B} (h : (e >>= f) = .ok z) : ∃ a, e = .ok a ∧ f a = .ok z := by
  cases e with
  | error e => cases h
  | ok a => exact ⟨a, rfl, h⟩

/-- A loop of in-place additions. -/
theorem fold_iadd {A : Type} {C : Cls K} {F : Elem K → A → Py (Elem K)}
    (hF : ∀ acc a z, F acc a = .ok z → ∃ y, Elem.iadd C acc y = .ok z) {l : List A} {x z : Elem K}
    (h : l.foldlM F x = .ok z) (hx : x.NF C) : z.attrs = x.attrs ∧ z.NF C := by
  induction l generalizing x with
  | nil => cases h; exact ⟨rfl, hx⟩
  | cons a l ih =>
    rw [List.foldlM_cons] at h
    obtain ⟨x1, h1, h2⟩ := py_bind h
    obtain ⟨y, h3⟩ := hF x a x1 h1
    have hn := Elem.nf_iadd h3 hx
    have ha : x1.attrs = x.attrs := by
      unfold Elem.iadd at h3
      split at h3 <;> cases h3
      rfl
    obtain ⟨g1, g2⟩ := ih h2 hn
    exact ⟨g1.trans ha, g2⟩

/-- What the methods of the package satisfy: they are consistent and give elements in normal form. -/
structure Fine (C : Cls K) (m : Method K) : Prop extends Consistent m where
  nf : ∀ x ys z, x.NF C → (∀ y ∈ ys, y.NF C) → m.run x ys = .ok z → z.NF C

/-- A method built from `self.zero()`. -/
theorem fine_shared {C : Cls K} {m : Method K} (ho : ∀ x, m.origin x = .shared)
    (h : ∀ x ys z, m.run x ys = .ok z → z.attrs = x.attrs) (hn : ∀ x ys z, x.NF C → m.run x ys = .ok z → z.NF C) : Fine C m :=
  { same := fun x _ _ _ hs => by rw [ho] at hs; cases hs
    shared := fun x ys z hz _ => h x ys z hz
    nf := fun x ys z hx _ hz => hn x ys z hx hz }

theorem fine_unary {C : Cls K} {f : Elem K → Py (Elem K)} (h : ∀ x z, f x = .ok z → FromSelf C x z) :
    Fine C (Method.unary f fun _ => .shared) :=
  fine_shared (fun _ => rfl) (fun x _ z hz => (h x z hz).1) (fun x _ z _ hz => (h x z hz).2)

theorem fine_binary {C : Cls K} {f : Elem K → Elem K → Py (Elem K)} (h : ∀ x y z, f x y = .ok z → FromSelf C x z) :
    Fine C (Method.binary f fun _ => .shared) := by
  refine fine_shared (fun _ => rfl) (fun x ys z hz => ?_) (fun x ys z _ hz => ?_)
  · simp only [Method.binary] at hz
    split at hz
    · exact (h x _ z hz).1
    · cases hz
  · simp only [Method.binary] at hz
    split at hz
    · exact (h x _ z hz).2
    · cases hz

/-- The free module operations. -/
theorem C99_arithmetic (C : Cls K) (c : Int) {d : Dict K} (hd : d.KeysNodup) : ∀ m ∈ Method.arithmetic C c d, Fine C m := by
  intro m hm
  simp only [Method.arithmetic, List.mem_cons, List.not_mem_nil, or_false] at hm
  rcases hm with rfl | rfl | rfl | rfl | rfl | rfl | rfl
  · refine fine_shared (fun _ => rfl) (fun x ys z hz => ?_) (fun x ys z hx hz => ?_)
    · simp only [Method.binary] at hz
      split at hz
      · unfold Elem.add at hz
        split at hz <;> cases hz
        rfl
      · cases hz
    · simp only [Method.binary] at hz
      split at hz
      · exact Elem.nf_add hz hx
      · cases hz
  · refine fine_shared (fun _ => rfl) (fun x ys z hz => ?_) (fun x ys z hx hz => ?_)
    · simp only [Method.binary] at hz
      split at hz
      · unfold Elem.sub at hz
        split at hz <;> cases hz
        rfl
      · cases hz
    · simp only [Method.binary] at hz
      split at hz
      · exact Elem.nf_sub hz hx
      · cases hz
  · exact fine_shared (fun _ => rfl) (fun x ys z hz => by cases hz; rfl) (fun x ys z hx hz => by cases hz; exact Elem.nf_smul hx c)
  · exact fine_shared (fun _ => rfl) (fun x ys z hz => by cases hz; rfl)
      (fun x ys z hx hz => by cases hz; exact Elem.nf_smul hx (-1))
  · refine fine_shared (fun _ => rfl) (fun x ys z hz => ?_) (fun x ys z hx hz => ?_)
    · simp only [Method.unary, Elem.truediv] at hz
      split at hz
      · cases hz
      · obtain ⟨i, _, hz⟩ := py_bind hz
        cases hz; rfl
    · simp only [Method.unary, Elem.truediv] at hz
      split at hz
      · cases hz
      · obtain ⟨i, _, hz⟩ := py_bind hz
        cases hz; exact Elem.nf_smul hx i
  · exact fine_shared (fun _ => rfl) (fun x ys z hz => by cases hz; rfl) (fun x ys z hx hz => by cases hz; exact Elem.nf_zero C x)
  · exact fine_shared (fun _ => rfl) (fun x ys z hz => by cases hz; rfl)
      (fun x ys z hx hz => by cases hz; exact Elem.nf_create C x hd)

/-- Simplicial elements. -/
theorem C99_simplicial (s : RingElem) (times coord : Nat) : ∀ m ∈ Method.simplicialMethods s times coord, Fine simplicial m := by
  intro m hm
  simp only [Method.simplicialMethods, List.mem_cons, List.not_mem_nil, or_false] at hm
  rcases hm with rfl | rfl | rfl | rfl
  · exact fine_unary fun x z hz => by cases hz; exact fromSelf_accumulate _ _ _
  · refine fine_unary fun x z hz => ?_
    unfold SElem.rmul at hz
    split at hz
    · cases hz
    split at hz
    · cases hz
    obtain ⟨ev, _, hz⟩ := py_bind hz
    cases hz; exact fromSelf_accumulate _ _ _
  · refine fine_unary fun x z hz => ?_
    unfold SElem.iteratedDiagonal at hz
    split at hz
    · cases hz
    · cases hz
    · split at hz <;> cases hz
      exact fromSelf_accumulate _ _ _
  · exact fine_unary fun x z hz => by cases hz; exact fromSelf_accumulate _ _ _

theorem fine_join : Fine cubical Method.join := by
  refine { same := fun x ys z hz ho => ?_, shared := fun x ys z hz ho => ?_, nf := fun x ys z hx _ hz => ?_ }
  all_goals simp only [Method.join, Method.unary, CElem.join] at *
  · split at ho
    · cases ho
    · rename_i ht
      rw [if_pos (by simpa using ht)] at hz
      cases hz; rfl
  · split at ho
    · rename_i ht
      rw [if_neg (by simpa using ht)] at hz
      split at hz
      · cases hz
      · cases hz
      · obtain ⟨ev, _, hz⟩ := py_bind hz
        cases hz; exact (fromSelf_accumulate cubical _ _).1
    · cases ho
  · split at hz
    · cases hz; exact hx
    · split at hz
      · cases hz
      · cases hz
      · obtain ⟨ev, _, hz⟩ := py_bind hz
        cases hz; exact (fromSelf_accumulate cubical _ _).2

/-- Cubical elements. -/
theorem C99_cubical (s : RingElem) (times coord : Nat) : ∀ m ∈ Method.cubicalMethods s times coord, Fine cubical m := by
  intro m hm
  simp only [Method.cubicalMethods, List.mem_cons, List.not_mem_nil, or_false] at hm
  rcases hm with rfl | rfl | rfl | rfl
  · refine fine_unary fun x z hz => ?_
    obtain ⟨ev, _, hz⟩ := py_bind hz
    cases hz; exact fromSelf_accumulate _ _ _
  · refine fine_unary fun x z hz => ?_
    unfold CElem.rmul at hz
    split at hz
    · cases hz
    split at hz
    · cases hz
    obtain ⟨ev, _, hz⟩ := py_bind hz
    cases hz; exact fromSelf_accumulate _ _ _
  · refine fine_unary fun x z hz => ?_
    unfold CElem.iteratedDiagonal at hz
    split at hz
    · cases hz
    · cases hz
    · split at hz
      · cases hz
      · obtain ⟨ev, _, hz⟩ := py_bind hz
        cases hz; exact fromSelf_accumulate _ _ _
  · exact fine_join

theorem fine_orbitBE (r : Representation) : Fine barrattEccles (Method.orbitBE r) := by
  have key : ∀ x z, x.truthy = true → BElem.orbit x r = .ok z → z.NF barrattEccles := by
    intro x z hx hz
    unfold BElem.orbit at hz
    rw [if_neg (by simp [hx])] at hz
    refine (fold_iadd (C := barrattEccles) (fun acc a y hy => ?_) hz (Elem.nf_new _ (by simp [Dict.KeysNodup]) _ _)).2
    obtain ⟨k0, _, hy⟩ := py_bind hy
    obtain ⟨inv, _, hy⟩ := py_bind hy
    cases r with
    | trivial =>
      obtain ⟨m, _, hy⟩ := py_bind hy
      obtain ⟨m, _, hy⟩ := py_bind hy
      exact ⟨m, hy⟩
    | sign =>
      obtain ⟨s, _, hy⟩ := py_bind hy
      obtain ⟨m, _, hy⟩ := py_bind hy
      obtain ⟨m, _, hy⟩ := py_bind hy
      exact ⟨m, hy⟩
  refine { same := fun x ys z hz ho => ?_, shared := fun x ys z hz ho => ?_, nf := fun x ys z hx _ hz => ?_ }
  all_goals simp only [Method.orbitBE, Method.unary] at *
  · split at ho
    · cases ho
    · rename_i ht
      unfold BElem.orbit at hz
      rw [if_pos (by simpa using ht)] at hz
      cases hz; rfl
  · split at ho <;> cases ho
  · by_cases ht : x.truthy = true
    · exact key x z ht hz
    · unfold BElem.orbit at hz
      rw [if_pos (by simpa using ht)] at hz
      cases hz; exact hx

/-- Elements of the Barratt–Eccles operad. -/
theorem C99_barrattEccles (s : RingElem) (r : Representation) (i : Nat) :
    ∀ m ∈ Method.barrattEcclesMethods s r i, Fine barrattEccles m := by
  intro m hm
  simp only [Method.barrattEcclesMethods, List.mem_cons, List.not_mem_nil, or_false] at hm
  rcases hm with rfl | rfl | rfl | rfl
  · refine fine_unary fun x z hz => ?_
    cases hz
    exact ⟨BElem.boundary_attrs x, BElem.nf_boundary x⟩
  · refine fine_unary fun x z hz => ?_
    unfold BElem.rmul at hz
    split at hz
    · cases hz
    split at hz
    · cases hz
    obtain ⟨ev, _, hz⟩ := py_bind hz
    cases hz; exact fromSelf_accumulate _ _ _
  · exact fine_orbitBE r
  · refine fine_binary fun x y z hz => ?_
    unfold BElem.compose at hz
    split at hz
    · cases hz
    split at hz
    · split at hz
      · cases hz
      · obtain ⟨ev, _, hz⟩ := py_bind hz
        cases hz; exact fromSelf_accumulate _ _ _
    · cases hz

theorem fine_suspension : Fine surjection Method.suspension := by
  refine { same := fun x ys z hz ho => ?_, shared := fun x ys z hz ho => ?_, nf := fun x ys z hx _ hz => ?_ }
  all_goals simp only [Method.suspension, Method.unary, SurjElem.suspension] at *
  · split at ho
    · cases ho
    · rename_i ht
      rw [if_pos (by simpa using ht)] at hz
      cases hz; rfl
  · split at ho
    · rename_i ht
      rw [if_neg (by simpa using ht)] at hz
      split at hz
      · cases hz
      · cases hz
      · split at hz
        · cases hz
        · obtain ⟨ev, _, hz⟩ := py_bind hz
          cases hz; exact (fromSelf_accumulate surjection _ _).1
    · cases ho
  · split at hz
    · cases hz; exact hx
    · split at hz
      · cases hz
      · cases hz
      · split at hz
        · cases hz
        · obtain ⟨ev, _, hz⟩ := py_bind hz
          cases hz; exact (fromSelf_accumulate surjection _ _).2

/-- Elements of the surjection operad. -/
theorem C99_surjection (s : RingElem) (r : Representation) (i : Nat) :
    ∀ m ∈ Method.surjectionMethods s r i, Fine surjection m := by
  intro m hm
  simp only [Method.surjectionMethods, List.mem_cons, List.not_mem_nil, or_false] at hm
  rcases hm with rfl | rfl | rfl | rfl | rfl
  · exact fine_unary fun x z hz => by cases hz; exact fromSelf_accumulate _ _ _
  · refine fine_unary fun x z hz => ?_
    unfold SurjElem.rmul at hz
    split at hz
    · cases hz
    split at hz
    · cases hz
    obtain ⟨ev, _, hz⟩ := py_bind hz
    cases hz; exact fromSelf_accumulate _ _ _
  · refine fine_unary fun x z hz => ?_
    unfold SurjElem.orbit at hz
    refine show z.attrs = (x.zero surjection).attrs ∧ _ from fold_iadd (C := surjection) (fun acc a y hy => ?_) hz (Elem.nf_zero _ _)
    obtain ⟨p, _, hy⟩ := py_bind hy
    cases r with
    | trivial =>
      obtain ⟨m, _, hy⟩ := py_bind hy
      obtain ⟨m, _, hy⟩ := py_bind hy
      exact ⟨m, hy⟩
    | sign =>
      obtain ⟨m, _, hy⟩ := py_bind hy
      obtain ⟨m, _, hy⟩ := py_bind hy
      exact ⟨m, hy⟩
  · refine fine_binary fun x y z hz => ?_
    obtain ⟨ev, _, hz⟩ := py_bind hz
    cases hz; exact fromSelf_accumulate _ _ _
  · exact fine_suspension

/-- Elements of the group ring. -/
theorem C99_ring (times : Int) (i : Nat) : ∀ m ∈ Method.ringMethods times i, Fine symmetricRing m := by
  intro m hm
  simp only [Method.ringMethods, List.mem_cons, List.not_mem_nil, or_false] at hm
  rcases hm with rfl | rfl | rfl
  · refine fine_binary fun x y z hz => ?_
    unfold RingElem.mul at hz
    split at hz
    · cases hz
    · obtain ⟨ev, _, hz⟩ := py_bind hz
      cases hz
      refine ⟨rfl, Elem.nf_preferredRep _ _ ?_⟩
      have hk : ∀ (l : List (Perm × Int)) (d : Dict Perm), d.KeysNodup →
          (l.foldl (fun d t => Dict.set d t.1 (d.get t.1 + t.2)) d).KeysNodup := by
        intro l
        induction l with
        | nil => intro d hd; exact hd
        | cons t l ih => intro d hd; exact ih _ (hd.set _ _)
      exact hk _ _ (Elem.nf_zero symmetricRing x).nodup
  · have key : ∀ x z, RingElem.pow x times = .ok z → (times ≠ 0 → z.attrs = x.attrs) ∧ z.NF symmetricRing := by
      intro x z hz
      unfold RingElem.pow at hz
      split at hz
      · rename_i ht
        split at hz <;> cases hz
        exact ⟨fun h => absurd ht h, Elem.nf_new _ (by simp [Dict.KeysNodup]) _ _⟩
      · obtain ⟨ev, _, hz⟩ := py_bind hz
        cases hz
        exact ⟨fun _ => (fromSelf_accumulate symmetricRing _ _).1, (fromSelf_accumulate symmetricRing _ _).2⟩
    refine { same := fun x ys z hz ho => ?_, shared := fun x ys z hz ho => ?_, nf := fun x ys z hx _ hz => (key x z hz).2 }
    all_goals simp only [Method.unary] at ho hz
    · split at ho <;> cases ho
    · split at ho
      · cases ho
      · rename_i ht
        exact (key x z hz).1 ht
  · refine fine_binary fun x y z hz => ?_
    unfold RingElem.compose at hz
    split at hz
    · cases hz; exact ⟨rfl, Elem.nf_zero _ _⟩
    split at hz
    · cases hz
    · obtain ⟨ev, _, hz⟩ := py_bind hz
      cases hz; exact fromSelf_accumulate _ _ _

/-! ### Normal forms in whole programs -/

/-- The statements that keep normal forms: dict literals have distinct keys, the methods are those above, and
`set_torsion` is not used. -/
def Allowed (C : Cls K) : Stmt K → Prop
  | .new _ d _ _ => d.KeysNodup
  | .call _ _ _ m => Fine C m
  | .setTorsion _ _ => False
  | _ => True

omit [DecidableEq K] in
theorem mem_mapM_see {s : PyState K} {args : List Nat} {ys : List (Elem K)} (h : args.mapM s.see = some ys) {y : Elem K}
    (hy : y ∈ ys) : ∃ u ∈ args, s.see u = some y := by
  induction args generalizing ys with
  | nil => simp at h; subst h; cases hy
  | cons u us ih =>
    rw [List.mapM_cons] at h
    rcases g1 : s.see u with _ | y1
    · rw [g1] at h; cases h
    · rw [g1] at h
      rcases g2 : us.mapM s.see with _ | ys1
      · rw [g2] at h; cases h
      · rw [g2] at h
        cases h
        rcases List.mem_cons.1 hy with rfl | hy
        · exact ⟨u, by simp, g1⟩
        · obtain ⟨u', h1, h2⟩ := ih g2 hy
          exact ⟨u', List.mem_cons_of_mem _ h1, h2⟩

theorem nf_exec {C : Cls K} {s s' : PyState K} {st : Stmt K} (hs : Sound s) (ha : Allowed C st)
    (hn : ∀ a x, s.heap.view a = some x → x.NF C) (h : exec C s st = .ok s') :
    ∀ a x, s'.heap.view a = some x → x.NF C := by
  have inpl : ∀ (a : Nat) (x z : Elem K) (obj : Obj K), s.heap.view a = some x → s.heap.objs[a]? = some obj → z.NF C →
      z.attrs = x.attrs → ∀ b y, Heap.view ⟨s.heap.objs.set a ⟨z.data, obj.dictAddr⟩, s.heap.dicts⟩ b = some y → y.NF C := by
    intro a x z obj hx hobj hz hat b y hy
    by_cases hb : b = a
    · subst hb
      obtain ⟨obj', h1, h2, h3⟩ := view_eq hx
      rw [hobj] at h1
      cases h1
      have : y = z := by
        simp only [Heap.view, Option.bind_eq_bind] at hy
        rw [List.getElem?_set_self (List.getElem?_eq_some_iff.1 hobj).1] at hy
        simp only [Option.bind_some, h2, Option.some.injEq] at hy
        rw [← hy, ← hat]
      rw [this]; exact hz
    · rw [view_set_ne _ _ _ _ hb] at hy
      exact hn b y hy
  cases st with
  | new v d t c =>
    rcases hz : Heap.step C s.heap (.new d t c) with e | h'
    · simp only [PyState.exec, hz] at h; cases h
    · simp only [PyState.exec, hz] at h
      cases h
      cases hz
      intro a x hx
      simp only [PyState.bind] at hx
      rcases Nat.lt_or_ge a s.heap.objs.length with hlt | hge
      · rw [view_append _ _ _ _ hlt (hs.valid.view_isSome hlt)] at hx
        exact hn a x hx
      · have hlt := lt_of_view hx
        simp only [List.length_append, List.length_singleton] at hlt
        have hae : a = s.heap.objs.length := by omega
        subst hae
        simp only [Heap.view, List.getElem?_concat_length, Option.bind_eq_bind, Option.bind_some, Option.some.injEq] at hx
        rw [← hx]
        exact Elem.nf_new C ha t c
  | assign v w =>
    simp only [PyState.exec] at h
    split at h
    · cases h; exact hn
    · cases h
  | call v o args m =>
    obtain ⟨a, x, ys, z, h1, h2, h3, h4, h5⟩ := exec_call h
    have hx : s.heap.view a = some x := by rw [← see_eq h1]; exact h2
    have hys : ∀ y ∈ ys, y.NF C := by
      intro y hy
      obtain ⟨u, hu, hu'⟩ := mem_mapM_see h3 hy
      simp only [PyState.see] at hu'
      rcases hc : s.names u with _ | c
      · rw [hc] at hu'; cases hu'
      · rw [hc] at hu'; exact hn c y hu'
    have hz : z.NF C := ha.nf x ys z (hn a x hx) hys h4
    rcases h5 with ⟨_, rfl⟩ | ⟨ho, rfl⟩ | ⟨_, rfl⟩
    · exact hn
    · intro b y hy
      simp only [PyState.bind] at hy
      rcases Nat.lt_or_ge b s.heap.objs.length with hlt | hge
      · rw [view_alloc _ _ _ _ hlt] at hy
        exact hn b y hy
      · have hlt := lt_of_view hy
        obtain ⟨obj, _, he⟩ := alloc_eq hx z.data
        rw [he] at hlt
        simp only [List.length_append, List.length_singleton] at hlt
        have hbe : b = s.heap.objs.length := by omega
        subst hbe
        rw [view_alloc_new hx, ← ha.shared x ys z h4 ho] at hy
        cases hy; exact hz
    · intro b y hy
      simp only [PyState.bind] at hy
      rcases Nat.lt_or_ge b s.heap.objs.length with hlt | hge
      · rw [view_append _ _ _ _ hlt (hs.valid.view_isSome hlt)] at hy
        exact hn b y hy
      · have hlt := lt_of_view hy
        simp only [List.length_append, List.length_singleton] at hlt
        have hbe : b = s.heap.objs.length := by omega
        subst hbe
        simp only [Heap.view, List.getElem?_concat_length, Option.bind_eq_bind, Option.bind_some, Option.some.injEq] at hy
        rw [← hy]
        exact hz
  | iadd v w =>
    obtain ⟨a, b, h', _, _, hst, rfl⟩ := exec_inplace h
    simp only [Heap.step] at hst
    split at hst
    · rename_i x y obj hx hy hobj
      rcases hz : Elem.iadd C x y with e | z <;> rw [hz] at hst <;> cases hst
      refine inpl a x z obj hx hobj (Elem.nf_iadd hz (hn a x hx)) ?_
      unfold Elem.iadd at hz
      split at hz <;> cases hz
      rfl
    · cases hst
  | isub v w =>
    obtain ⟨a, b, h', _, _, hst, rfl⟩ := exec_inplace h
    simp only [Heap.step] at hst
    split at hst
    · rename_i x y obj hx hy hobj
      rcases hz : Elem.isub C x y with e | z <;> rw [hz] at hst <;> cases hst
      refine inpl a x z obj hx hobj (Elem.nf_isub hz (hn a x hx)) ?_
      unfold Elem.isub at hz
      split at hz <;> cases hz
      rfl
    · cases hst
  | setTorsion v n => exact ha.elim

/-- In every program built from the operations of the package without `set_torsion`, the value of every variable is
in normal form (with `set_torsion` this fails: `C08_normal_form_lost`). -/
theorem C99_normal_form (C : Cls K) (prog : List (Stmt K)) (s : PyState K) (ha : ∀ st ∈ prog, Allowed C st)
    (hp : execAll C init prog = .ok s) (v : Nat) (x : Elem K) (hx : s.see v = some x) : x.NF C := by
  have key : ∀ (prog : List (Stmt K)) (s0 : PyState K), (∀ st ∈ prog, Allowed C st) → Sound s0 →
      (∀ a x, s0.heap.view a = some x → x.NF C) → execAll C s0 prog = .ok s → ∀ a x, s.heap.view a = some x → x.NF C := by
    intro prog
    induction prog with
    | nil => intro s0 _ _ hn h; cases h; exact hn
    | cons st rest ih =>
      intro s0 ha hs hn h
      simp only [PyState.execAll] at h
      obtain ⟨s1, h1, h2⟩ := py_bind h
      exact ih s1 (fun t ht => ha t (List.mem_cons_of_mem _ ht)) (hs.exec h1) (nf_exec hs (ha st (by simp)) hn h1) h2
  have := key prog init ha Sound.init (by intro a x h; simp [PyState.init, Heap.empty, Heap.view] at h) hp
  simp only [PyState.see] at hx
  rcases hc : s.names v with _ | c
  · rw [hc] at hx; cases hx
  · rw [hc] at hx; exact this c x hx

/-! ### The result may be the operand -/

/-- If the result of a method is a new object, changing it in place does not change the operand, nor any other
variable. -/
theorem C99_independent (C : Cls K) (prog : List (Stmt K)) (s s1 s2 : PyState K) (hp : execAll C init prog = .ok s)
    {v o w : Nat} {args : List Nat} {m : Method K} (hm : Consistent m) {x : Elem K} (hx : s.see o = some x)
    (ho : m.origin x ≠ .same) (h1 : exec C s (.call v o args m) = .ok s1) (h2 : exec C s1 (.iadd v w) = .ok s2)
    (u : Nat) (hu : u ≠ v) : s2.see u = s.see u := by
  obtain ⟨⟨x', ys, z, g1, g2, g3, g4, g5⟩, g6⟩ := C99_call C prog s s1 hp hm h1
  rw [hx] at g1
  cases g1
  have hp' : execAll C init (prog ++ [.call v o args m]) = .ok s1 := by
    have : ∀ (l : List (Stmt K)) (s0 : PyState K), execAll C s0 l = .ok s → execAll C s0 (l ++ [.call v o args m]) = .ok s1 := by
      intro l
      induction l with
      | nil =>
        intro s0 h
        cases h
        simp only [List.nil_append, PyState.execAll, h1]
        rfl
      | cons st rest ih =>
        intro s0 h
        simp only [PyState.execAll] at h
        obtain ⟨s0', e1, e2⟩ := py_bind h
        simp only [List.cons_append, PyState.execAll, e1]
        exact ih s0' e2
    exact this prog init hp
  have := (C99_inplace C _ s1 s2 hp' (Or.inl ⟨h2, rfl⟩)).2.1 u (g5 ho u hu)
  rw [this, (g6 u hu).1]

theorem update_nil {d : Dict K} (hd : d.KeysNodup) : Dict.update [] d = d := by
  have key : ∀ (e d : Dict K), (d ++ e).KeysNodup → Dict.update d e = d ++ e := by
    intro e
    induction e with
    | nil => intro d _; simp [Dict.update]
    | cons p e ih =>
      intro d hd
      have hn : p.1 ∉ d.map Prod.fst := by
        simp only [Dict.KeysNodup, List.map_append, List.map_cons] at hd
        have := List.nodup_middle.1 hd
        simp only [List.nodup_cons, List.mem_append] at this
        exact fun h => this.1 (Or.inl h)
      have hs : ∀ (d : Dict K), p.1 ∉ d.map Prod.fst → d.get p.1 = 0 ∧ ∀ v, d.set p.1 v = d ++ [(p.1, v)] := by
        intro d
        induction d with
        | nil => intro _; exact ⟨rfl, fun v => rfl⟩
        | cons q d ih =>
          intro h
          simp only [List.map_cons, List.mem_cons, not_or] at h
          obtain ⟨i1, i2⟩ := ih h.2
          have hq : ¬ q.1 = p.1 := fun hc => h.1 hc.symm
          exact ⟨by simp [Dict.get, hq, i1], fun v => by simp [Dict.set, hq, i2]⟩
      obtain ⟨g1, g2⟩ := hs d hn
      have : Dict.update d (p :: e) = Dict.update (d ++ [p]) e := by
        simp [Dict.update, g1, g2]
      rw [this, ih _ (by simpa [List.append_assoc] using hd)]
      simp
  simpa using key d [] (by simpa using hd)

theorem iadd_zero {C : Cls K} {x z : Elem K} (h0 : x.data = []) (hz : z.NF C) (ht : x.torsion = z.torsion) :
    Elem.iadd C x z = .ok ⟨z.data, x.attrs⟩ := by
  have hf : Elem.preferredRep C ⟨z.data, x.attrs⟩ = ⟨z.data, x.attrs⟩ := by
    have hz' : Elem.NF C ⟨z.data, x.attrs⟩ := ⟨hz.nodup, hz.coeff_ne, by
      have := hz.coeff_range
      rw [← ht] at this
      exact this, hz.kept⟩
    exact ((C01_nf_iff_fixed C _).1 hz').2
  rw [Elem.iadd, if_neg (by simpa using ht)]
  simp only [Elem.iaddCore, h0, update_nil hz.nodup]
  rw [hf]

/-- `v = o.m(); v += w` for a method that returns `self` on the zero value of `o`. -/
theorem alias_zero (C : Cls K) {s : PyState K} (hs : Sound s) {m : Method K} {v o w : Nat} {x z : Elem K}
    (hx : s.see o = some x) (hr : m.run x [] = .ok x) (ho : m.origin x = .same) (h0 : x.data = [])
    (hz : s.see w = some z) (hzn : z.NF C) (ht : x.torsion = z.torsion) (hvw : w ≠ v) :
    ∃ s', execAll C s [.call v o [] m, .iadd v w] = .ok s' ∧ s'.see o = some ⟨z.data, x.attrs⟩ := by
  obtain ⟨a, ha⟩ : ∃ a, s.names o = some a := by
    simp only [PyState.see] at hx
    rcases hc : s.names o with _ | c
    · rw [hc] at hx; cases hx
    · exact ⟨c, rfl⟩
  obtain ⟨b, hb⟩ : ∃ a, s.names w = some a := by
    simp only [PyState.see] at hz
    rcases hc : s.names w with _ | c
    · rw [hc] at hz; cases hz
    · exact ⟨c, rfl⟩
  have hxa : s.heap.view a = some x := by rw [← see_eq ha]; exact hx
  have hzb : s.heap.view b = some z := by rw [← see_eq hb]; exact hz
  obtain ⟨obj, h1, h2, h3⟩ := view_eq hxa
  have e1 : exec C s (.call v o [] m) = .ok (s.bind v a) := by
    simp only [PyState.exec, ha, hx, List.mapM_nil]
    change (m.run x [] >>= _) = _
    rw [hr]
    change (match m.origin x with | .same => _ | .shared => _ | .own => _) = _
    rw [ho]
  have n1 : (s.bind v a).names v = some a := by simp [PyState.bind]
  have n2 : (s.bind v a).names w = some b := by simp [PyState.bind, hvw, hb]
  have e2 : exec C (s.bind v a) (.iadd v w) = .ok { s.bind v a with
      heap := { s.heap with objs := s.heap.objs.set a ⟨z.data, obj.dictAddr⟩ } } := by
    simp only [PyState.exec, PyState.inplace, n1, n2]
    change (Heap.step C s.heap (.iadd a b) >>= _) = _
    simp only [Heap.step, hxa, hzb, h1, iadd_zero h0 hzn ht]
    rfl
  refine ⟨_, by simp only [PyState.execAll, e1]; change (exec C (s.bind v a) (.iadd v w) >>= _) = _; rw [e2]; rfl, ?_⟩
  have n3 : (s.bind v a).names o = some a := by
    simp only [PyState.bind]
    split
    · rfl
    · exact ha
  simp only [PyState.see, n3]
  simp only [Heap.view, Option.bind_eq_bind, Option.bind_some]
  rw [List.getElem?_set_self (List.getElem?_eq_some_iff.1 h1).1]
  simp [h2]

section
variable {v o w : Nat}

omit [DecidableEq K] in
theorem truthy_of_nil {x : Elem K} (h : x.data = []) : x.truthy = false := by simp [Elem.truthy, h]

/-- The join of a zero cubical element is that element itself: `y = x.join(); y += z` makes `x` equal to `z`. -/
theorem C99_join_alias (prog : List (Stmt CKey)) (s : PyState CKey) (hp : execAll cubical init prog = .ok s) {x z : CElem}
    (hx : s.see o = some x) (h0 : x.data = []) (hz : s.see w = some z) (hzn : z.NF cubical) (ht : x.torsion = z.torsion)
    (hvw : w ≠ v) :
    ∃ s', execAll cubical s [.call v o [] .join, .iadd v w] = .ok s' ∧ s'.see o = some ⟨z.data, x.attrs⟩ :=
  alias_zero cubical (Sound.execAll Sound.init hp) hx
    (by simp [Method.join, Method.unary, CElem.join, truthy_of_nil h0])
    (by simp [Method.join, Method.unary, truthy_of_nil h0]) h0 hz hzn ht hvw

/-- The same for the orbit representative of a zero Barratt–Eccles element. -/
theorem C99_orbit_alias (prog : List (Stmt BKey)) (s : PyState BKey) (hp : execAll barrattEccles init prog = .ok s)
    (r : Representation) {x z : BElem} (hx : s.see o = some x) (h0 : x.data = []) (hz : s.see w = some z)
    (hzn : z.NF barrattEccles) (ht : x.torsion = z.torsion) (hvw : w ≠ v) :
    ∃ s', execAll barrattEccles s [.call v o [] (.orbitBE r), .iadd v w] = .ok s' ∧ s'.see o = some ⟨z.data, x.attrs⟩ :=
  alias_zero barrattEccles (Sound.execAll Sound.init hp) hx
    (by simp [Method.orbitBE, Method.unary, BElem.orbit, truthy_of_nil h0])
    (by simp [Method.orbitBE, Method.unary, truthy_of_nil h0]) h0 hz hzn ht hvw

/-- The same for the suspension of a zero surjection element. -/
theorem C99_suspension_alias (prog : List (Stmt Surj)) (s : PyState Surj) (hp : execAll surjection init prog = .ok s)
    {x z : SurjElem} (hx : s.see o = some x) (h0 : x.data = []) (hz : s.see w = some z)
    (hzn : z.NF surjection) (ht : x.torsion = z.torsion) (hvw : w ≠ v) :
    ∃ s', execAll surjection s [.call v o [] .suspension, .iadd v w] = .ok s' ∧ s'.see o = some ⟨z.data, x.attrs⟩ :=
  alias_zero surjection (Sound.execAll Sound.init hp) hx
    (by simp [Method.suspension, Method.unary, SurjElem.suspension, truthy_of_nil h0])
    (by simp [Method.suspension, Method.unary, truthy_of_nil h0]) h0 hz hzn ht hvw

end

/-! ### Examples -/

/-- The value and torsion of a variable after a program. -/
def exRun (prog : List (Stmt CKey)) (v : Nat) : Option (Elem CKey) :=
  (execAll cubical init prog).toOption.bind fun s => s.see v

/-- `x = C({}); z = C({((0, 2), (1, 1)): 3}); y = x.join(); y += z`: `x` becomes `z`. -/
def exAlias : List (Stmt CKey) :=
  [.new 0 [] none .bergerFresse, .new 1 [([[0, 2], [1, 1]], 3)] none .bergerFresse, .call 2 0 [] .join, .iadd 2 1]

example : exRun exAlias 0 = some ⟨[([[0, 2], [1, 1]], 3)], { torsion := 0 }⟩ ∧
    exRun exAlias 1 = some ⟨[([[0, 2], [1, 1]], 3)], { torsion := 0 }⟩ ∧
    exRun exAlias 2 = some ⟨[([[0, 2], [1, 1]], 3)], { torsion := 0 }⟩ := ⟨rfl, rfl, rfl⟩

/-- `x = C({((2, 0, 1), (1, 1, 2)): 3}); y = x.join(); w = y; y += y`: `w` is the same object as `y`, `x` is unchanged. -/
def exNames : List (Stmt CKey) :=
  [.new 0 [([[2, 0, 1], [1, 1, 2]], 3)] none .bergerFresse, .call 2 0 [] .join, .assign 1 2, .iadd 2 2]

example : exRun exNames 0 = some ⟨[([[2, 0, 1], [1, 1, 2]], 3)], { torsion := 0 }⟩ ∧
    exRun exNames 1 = some ⟨[([[2, 2, 2]], -6)], { torsion := 0 }⟩ ∧
    exRun exNames 2 = some ⟨[([[2, 2, 2]], -6)], { torsion := 0 }⟩ := ⟨rfl, rfl, rfl⟩

/-- `y.set_torsion(4)` then changes the torsion of `x`. -/
example : exRun (exNames ++ [.setTorsion 2 4]) 0 = some ⟨[([[2, 0, 1], [1, 1, 2]], 3)], { torsion := 4 }⟩ ∧
    exRun (exNames ++ [.setTorsion 2 4]) 1 = some ⟨[([[2, 2, 2]], 2)], { torsion := 4 }⟩ ∧
    exRun (exNames ++ [.setTorsion 2 4]) 2 = some ⟨[([[2, 2, 2]], 2)], { torsion := 4 }⟩ := ⟨rfl, rfl, rfl⟩

example : ∀ st ∈ exNames, Allowed cubical st := by
  intro st hst
  simp only [exNames, List.mem_cons, List.not_mem_nil, or_false] at hst
  rcases hst with rfl | rfl | rfl | rfl
  · show Dict.KeysNodup _
    decide
  · exact fine_join
  · trivial
  · trivial

end Comch.Props
