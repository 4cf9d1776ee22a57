import Verif.Lib.Ring

/-! # The group ring of the symmetric group: C16–C19

`Spec.InRing r x`: `x` is in normal form and all its keys are permutations of `1..r`.
-/

set_option linter.unusedSectionVars false

namespace Comch.Props
open Comch Spec IsPerm Elem RingElem
open Finsupp (single)

theorem inRing_add {r : Nat} {x y z : RingElem} (hx : InRing r x) (hy : InRing r y)
    (h : add symmetricRing x y = .ok z) : InRing r z := by
  refine ⟨nf_add h hx.nf, ?_⟩
  intro p hp
  rw [add_eq (torsion_eq_of_add h)] at h
  cases h
  have hk := mem_keys_iaddCore (List.mem_map_of_mem (f := Prod.fst) hp)
  rcases hk with hk | hk
  · obtain ⟨q, hq, he⟩ := List.mem_map.1 (mem_keys_create hk)
    rw [← he]; exact hx.perm q hq
  · obtain ⟨q, hq, he⟩ := List.mem_map.1 hk
    rw [← he]; exact hy.perm q hq

theorem inRing_smul {r : Nat} {x : RingElem} (hx : InRing r x) (c : Int) :
    InRing r (smul symmetricRing c x) := by
  refine ⟨nf_smul hx.nf c, ?_⟩
  intro p hp
  have hk := mem_keys_create (List.mem_map_of_mem (f := Prod.fst) hp)
  simp only [List.map_map, List.mem_map, Function.comp] at hk
  obtain ⟨q, hq, he⟩ := hk
  rw [← he]; exact hx.perm q hq

/-- The three-term example used below. -/
def exRing : RingElem := new symmetricRing [([2, 3, 1], 1), ([1, 3, 2], -2), ([3, 2, 1], 4)] (some 5)

theorem exRing_inRing : InRing 3 exRing := by
  refine ⟨nf_new _ (by decide) _ _, ?_⟩
  have : exRing.data.map Prod.fst = [[2, 3, 1], [1, 3, 2], [3, 2, 1]] := by decide +kernel
  intro p hp
  have h := List.mem_map_of_mem (f := Prod.fst) hp
  rw [this] at h
  revert h
  generalize p.1 = k
  simp only [List.mem_cons, List.not_mem_nil, or_false]
  rintro (rfl | rfl | rfl) <;> decide

/-! ## C16 multiplication -/

/-- The product of two elements of the group ring exists, lies in the group ring, keeps the torsion,
and its coefficients are the convolution sums modulo the torsion. -/
theorem C16_mul_convolution {r : Nat} {x y : RingElem} (hx : InRing r x) (hy : InRing r y)
    (ht : x.torsion = y.torsion) :
    ∃ z, mul x y = .ok z ∧ InRing r z ∧ z.torsion = x.torsion ∧
      ∀ m, z.coeff m ≡ (x.data.map fun p => (y.data.map fun q =>
        if IsComposite p.1 q.1 m then p.2 * q.2 else 0).sum).sum [ZMOD x.torsion] := by
  obtain ⟨z, hz, hzr, hza, hzd⟩ := mul_ok hx hy rfl ht.symm
  refine ⟨z, hz, hzr, torsion_congr hza, ?_⟩
  intro m
  rw [← ZMod.intCast_eq_intCast_iff, coeff, ← Dict.den_apply hzr.nf.nodup, hzd, mulV, bil_den]
  unfold pyProduct
  rw [List.map_flatMap, sum_flatMap]
  have key : ∀ p ∈ x.data, ∀ q ∈ y.data, (mulL p.1 q.1 = m ↔ IsComposite p.1 q.1 m) := by
    intro p hp q hq
    have hp' := hx.perm p hp
    have hq' := hy.perm q hq
    constructor
    · rintro rfl
      refine ⟨by simp [mulL], ?_⟩
      intro i hi
      exact value_mulL hq' (by omega) (by rw [← hq'.length]; omega)
    · rintro ⟨h1, h2⟩
      refine IsPerm.ext' (r := r) (by simp [mulL, hq'.length]) (by rw [h1, hq'.length]) ?_
      intro i h3 h4
      rw [value_mulL hq' h3 h4]
      have := h2 (i - 1) (by rw [hq'.length]; omega)
      rw [show i - 1 + 1 = i by omega] at this
      exact this.symm
  have h2 : ∀ (l : List (Perm × Int)) (l' : List (Perm × Int)), (∀ p ∈ l, p ∈ x.data) →
      (∀ q ∈ l', q ∈ y.data) →
      ((l.map fun a => ((l'.map fun b => (a, b)).map fun pq : (Perm × Int) × (Perm × Int) =>
        ((pq.1.2 * pq.2.2 : Int) : ZMod x.torsion) • bv (ZMod x.torsion) (mulL pq.1.1 pq.2.1)).sum).sum :
          Perm →₀ ZMod x.torsion) m =
      (((l.map fun p => (l'.map fun q =>
        if IsComposite p.1 q.1 m then p.2 * q.2 else 0).sum).sum : Int) : ZMod x.torsion) := by
    intro l l' hl hl'
    induction l with
    | nil => simp
    | cons p l ih =>
      rw [List.map_cons, List.sum_cons, Finsupp.add_apply, ih fun q hq => hl q (List.mem_cons_of_mem _ hq),
        List.map_cons, List.sum_cons, Int.cast_add]
      congr 1
      clear ih
      induction l' with
      | nil => simp
      | cons q l' ih =>
        rw [List.map_cons, List.map_cons, List.sum_cons, Finsupp.add_apply,
          ih fun q hq => hl' q (List.mem_cons_of_mem _ hq), List.map_cons, List.sum_cons, Int.cast_add]
        congr 1
        rw [Finsupp.smul_apply, Finsupp.single_apply]
        by_cases hm : IsComposite p.1 q.1 m
        · rw [if_pos hm, if_pos ((key p (hl p (by simp)) q (hl' q (by simp))).2 hm)]
          simp
        · rw [if_neg hm, if_neg (fun h => hm ((key p (hl p (by simp)) q (hl' q (by simp))).1 h))]
          simp
  exact h2 _ _ (fun _ h => h) (fun _ h => h)

theorem C16_mul_assoc {r : Nat} {x y z : RingElem} (hx : InRing r x) (hy : InRing r y)
    (hz : InRing r z) (hxy : x.torsion = y.torsion) (hyz : y.torsion = z.torsion) :
    ∃ xy yz a b, mul x y = .ok xy ∧ mul y z = .ok yz ∧ mul xy z = .ok a ∧ mul x yz = .ok b ∧
      pyEq a b = true := by
  obtain ⟨xy, h1, r1, a1, d1⟩ := mul_ok hx hy (n := z.torsion) (hxy.trans hyz) hyz
  obtain ⟨yz, h2, r2, a2, d2⟩ := mul_ok hy hz (n := z.torsion) hyz rfl
  obtain ⟨a, h3, r3, a3, d3⟩ := mul_ok r1 hz (n := z.torsion)
    ((torsion_congr a1).trans (hxy.trans hyz)) rfl
  obtain ⟨b, h4, r4, a4, d4⟩ := mul_ok hx r2 (n := z.torsion) (hxy.trans hyz)
    ((torsion_congr a2).trans hyz)
  refine ⟨xy, yz, a, b, h1, h2, h3, h4, pyEq_of_den r3.nf r4.nf
    (n := z.torsion) ?_ ?_ ?_⟩
  · rw [torsion_congr a3, torsion_congr a1, hxy, hyz]
  · rw [torsion_congr a4, hxy, hyz]
  · rw [d3, d4, d1, d2, mulV_assoc hx.perm hy.perm hz.perm]

theorem mul_bilSpec (r : Nat) : BilSpec symmetricRing (InRing r) (InRing r) mul fun _ => mulV := by
  intro x y n hx hy tx ty
  obtain ⟨z, hz, hzr, hza, hzd⟩ := mul_ok hx hy tx ty
  exact ⟨z, hz, hzr.nf, (torsion_congr hza).trans tx, hzd⟩

/-- `(x + x') * y == x * y + x' * y`. -/
theorem C16_add_mul {r : Nat} {x x' s y : RingElem} (hx : InRing r x) (hx' : InRing r x')
    (hy : InRing r y) (ht : x.torsion = y.torsion) (hs : add symmetricRing x x' = .ok s) :
    ∃ a b c t, mul x y = .ok a ∧ mul x' y = .ok b ∧ mul s y = .ok c ∧
      add symmetricRing a b = .ok t ∧ pyEq c t = true :=
  (mul_bilSpec r).add_left rfl rfl hx.nf hx'.nf hx hx' hy ht hs (inRing_add hx hx' hs)

/-- `x * (y + y') == x * y + x * y'`. -/
theorem C16_mul_add {r : Nat} {x y y' s : RingElem} (hx : InRing r x) (hy : InRing r y)
    (hy' : InRing r y') (ht : x.torsion = y.torsion) (hs : add symmetricRing y y' = .ok s) :
    ∃ a b c t, mul x y = .ok a ∧ mul x y' = .ok b ∧ mul x s = .ok c ∧
      add symmetricRing a b = .ok t ∧ pyEq c t = true :=
  (mul_bilSpec r).add_right rfl rfl hy.nf hy'.nf hx hy hy' ht hs (inRing_add hy hy' hs)

/-- Integer factors can be moved out of both factors. -/
theorem C16_smul_mul {r : Nat} {x y : RingElem} (hx : InRing r x) (hy : InRing r y)
    (ht : x.torsion = y.torsion) (c : Int) :
    (∃ a b, mul x y = .ok a ∧ mul (smul symmetricRing c x) y = .ok b ∧
      pyEq b (smul symmetricRing c a) = true) ∧
    (∃ a b, mul x y = .ok a ∧ mul x (smul symmetricRing c y) = .ok b ∧
      pyEq b (smul symmetricRing c a) = true) :=
  ⟨(mul_bilSpec r).smul_left rfl rfl hx.nf hx hy ht c (inRing_smul hx c),
   (mul_bilSpec r).smul_right rfl rfl hy.nf hx hy ht c (inRing_smul hy c)⟩

theorem inRing_new {r : Nat} {d : Dict Perm} (hd : d.KeysNodup) (h : ∀ p ∈ d, IsPerm r p.1)
    (t : Option Nat) : InRing r (new symmetricRing d t) := by
  refine inRing_of_keys (nf_new _ hd _ _) ?_
  intro k hk
  obtain ⟨p, hp, rfl⟩ := List.mem_map.1 (mem_keys_new hk)
  exact h p hp

theorem inRing_identity (r : Nat) (t : Option Nat) : InRing r (identityElement r t) :=
  inRing_new (by simp [Dict.KeysNodup]) (by simpa using isPerm_id r) t

theorem new_torsion {K : Type} [DecidableEq K] (C : Cls K) (d : Dict K) (n : Nat) :
    (new C d (some n)).torsion = n := rfl

theorem den_identity {n : Nat} (r : Nat) :
    den (ZMod n) (identityElement r (some n)).data = bv _ (pyRange 1 (r + 1)) := by
  unfold identityElement
  rw [den_new _ _ _ _ (by simp)]
  show pr (fun _ => false) _ = _
  simp

/-- `identity_element` is neutral. -/
theorem C16_mul_one {r : Nat} {x : RingElem} (hx : InRing r x) :
    ∃ a b, mul x (identityElement r (some x.torsion)) = .ok a ∧
      mul (identityElement r (some x.torsion)) x = .ok b ∧ pyEq a x = true ∧ pyEq b x = true := by
  obtain ⟨a, h1, r1, a1, d1⟩ := mul_ok hx (inRing_identity r (some x.torsion)) (n := x.torsion) rfl rfl
  obtain ⟨b, h2, r2, a2, d2⟩ := mul_ok (inRing_identity r (some x.torsion)) hx (n := x.torsion) rfl rfl
  refine ⟨a, b, h1, h2, pyEq_of_den r1.nf hx.nf (torsion_congr a1) rfl ?_,
    pyEq_of_den (n := x.torsion) r2.nf hx.nf ((torsion_congr a2).trans rfl) rfl ?_⟩
  · rw [d1, den_identity, mulV_id hx.perm]
  · rw [d2, den_identity, id_mulV hx.perm]

theorem C16_torsion_mismatch {x y : RingElem} (h : x.torsion ≠ y.torsion) :
    mul x y = .error .typeError := mul_err h

example : ∃ z, mul exRing exRing = .ok z ∧ 2 ≤ z.data.length := ⟨_, rfl, by decide +kernel⟩

/-! ## C17 powers -/

/-- The intended meaning: `n`-fold product. -/
def powSpec (x : RingElem) : Nat → Py RingElem
  | 0 => .ok x
  | n + 1 => do RingElem.mul (← powSpec x n) x

/-- The power with exponent 0 of a non-zero element is the unit: it multiplies from both sides as the identity;
the power of zero and of elements of mixed arities raises `TypeError`. -/
theorem C17_pow_zero {r : Nat} (hr : 1 ≤ r) {x : RingElem} (hx : InRing r x) (hxn : x.data ≠ []) :
    ∃ e, RingElem.pow x 0 = .ok e ∧ InRing r e ∧ e.torsion = x.torsion ∧
      ∀ y : RingElem, InRing r y → y.torsion = x.torsion → ∃ a b, RingElem.mul e y = .ok a ∧
        RingElem.mul y e = .ok b ∧ pyEq a y = true ∧ pyEq b y = true := by
  refine ⟨identityElement r (some x.torsion), ?_, inRing_identity r _, rfl, ?_⟩
  · unfold RingElem.pow
    have ha : x.arity = some r := by
      rw [RingElem.arity, uniqueValue_eq_some]
      refine ⟨by simpa using hxn, ?_⟩
      intro b hb
      obtain ⟨p, hp, rfl⟩ := List.mem_map.1 hb
      exact pyMax_eq (hx.perm p hp)
    rw [if_pos rfl, ha]
  · intro y hy ty
    obtain ⟨a, b, h1, h2, h3, h4⟩ := C16_mul_one hy
    rw [ty] at h1 h2
    exact ⟨b, a, h2, h1, h4, h3⟩

theorem C17_pow_zero_error (x : RingElem) (h : x.arity = none) : RingElem.pow x 0 = .error .typeError := by
  unfold RingElem.pow
  rw [if_pos rfl, h]

/-- What the code computes for exponents `n ≥ 1`: every key is raised to the `n`-th power. -/
theorem C17_pow_keywise {r : Nat} (hr : 1 ≤ r) {x : RingElem} (hx : InRing r x) (n : Nat) (hn : 1 ≤ n) :
    ∃ z, RingElem.pow x n = .ok z ∧ InRing r z ∧ z.torsion = x.torsion ∧
      ∀ m, z.coeff m ≡ (x.data.map fun p => if Perm.pow p.1 n = .ok m then p.2 else 0).sum
        [ZMOD x.torsion] := by
  have hm : x.data.mapM (fun (p : Perm × Int) => (do
      let k' ← p.1.pow n
      .ok (k', p.2) : Py (Perm × Int))) = .ok (x.data.map fun p => (powL r p.1 n, p.2)) := by
    apply mapM_ok
    intro p hp
    rw [pow_eq (hx.perm p hp) hr]
    rfl
  refine ⟨accumulate symmetricRing (x.zero symmetricRing) (x.data.map fun p => (powL r p.1 n, p.2)),
    ?_, inRing_of_keys (nf_accumulate_zero _ _ _) ?_, by rw [torsion, accumulate_attrs]; rfl, ?_⟩
  · unfold RingElem.pow
    rw [if_neg (by omega)]
    simp only [bind] at hm ⊢
    rw [hm]
    rfl
  · intro k hk
    have := mem_keys_accumulate_zero hk
    simp only [List.map_map, List.mem_map, Function.comp] at this
    obtain ⟨p, hp, rfl⟩ := this
    exact isPerm_powL (hx.perm p hp) n
  · intro m
    have := coeff_accumulate_zero x (C := symmetricRing) (x.data.map fun p => (powL r p.1 n, p.2)) rfl m rfl
    rw [List.map_map] at this
    refine this.trans ?_
    refine congrArg (· % (x.torsion : Int)) ?_
    congr 1
    apply List.map_congr_left
    intro p hp
    simp only [Function.comp]
    rw [pow_eq (hx.perm p hp) hr]
    simp

/-- The code agrees with the `n`-fold product on basis elements `{p: 1}` (torsion not 1),
which is the only use made of `**` inside the package. -/
theorem C17_pow_basis {r : Nat} (hr : 1 ≤ r) {p : Perm} (hp : IsPerm r p) {n : Nat}
    (hn : n ≠ 1) (k : Nat) :
    ∃ a b, RingElem.pow (new symmetricRing [(p, 1)] (some n)) (k + 1 : Nat) = .ok a ∧
      powSpec (new symmetricRing [(p, 1)] (some n)) k = .ok b ∧ pyEq a b = true := by
  set x : RingElem := new symmetricRing [(p, 1)] (some n) with hxdef
  have hx : InRing r x := inRing_new (by simp [Dict.KeysNodup]) (by simpa using hp) _
  have hxd : den (ZMod n) x.data = bv _ p := by
    rw [hxdef, den_new _ _ _ _ (by simp)]
    show pr (fun _ => false) _ = _
    simp
  have htx : x.torsion = n := rfl
  have hdata : x.data = [(p, 1)] := by
    have h1 : ((1 : Int) % (n : Int)) ≠ 0 ∨ n = 0 := by
      by_cases h0 : n = 0
      · exact Or.inr h0
      · left
        rw [Int.emod_eq_of_lt (by omega) (by omega)]
        omega
    rw [hxdef]
    simp only [new, preferredRep, symmetricRing, zeroDropped, basePreferredRep, Option.getD_some]
    rcases h1 with h1 | h1
    · by_cases h0 : n = 0
      · subst h0; simp
      · have h2 : (1 : Int) % (n : Int) = 1 := Int.emod_eq_of_lt (by omega) (by omega)
        simp [h0, h2]
    · subst h1; simp
  have hspec : ∃ b, powSpec x k = .ok b ∧ InRing r b ∧ b.torsion = n ∧
      den (ZMod n) b.data = bv _ (powL r p (k + 1)) := by
    clear hxdef
    induction k with
    | zero =>
      refine ⟨x, rfl, hx, htx, ?_⟩
      rw [hxd, powL, powL, id_mulL hp]
    | succ k ih =>
      obtain ⟨b, h1, h2, h3, h4⟩ := ih
      obtain ⟨z, hz, hzr, hza, hzd⟩ := mul_ok h2 hx h3 htx
      refine ⟨z, ?_, hzr, (torsion_congr hza).trans h3, ?_⟩
      · rw [powSpec, h1]; exact hz
      · rw [hzd, h4, hxd, mulV_single, one_mul]; rfl
  obtain ⟨b, h1, h2, h3, h4⟩ := hspec
  have hpow : RingElem.pow x ((k + 1 : Nat) : Int) =
      .ok (accumulate symmetricRing (x.zero symmetricRing) [(powL r p (k + 1), 1)]) := by
    unfold RingElem.pow
    rw [if_neg (by omega), hdata]
    simp only [List.mapM_cons, List.mapM_nil, pow_eq hp hr, bind, Except.bind, pure, Except.pure]
  refine ⟨_, b, hpow, h1, pyEq_of_den (nf_accumulate_zero _ _ _) h2.nf (n := n) (by rw [torsion, accumulate_attrs]; rfl) h3 ?_⟩
  rw [den_accumulate_zero' _ _ _ rfl htx, h4]
  show pr (fun _ => false) _ = _
  simp

/-- False in general: `(1 + t)**2` for the transposition `t` is computed as `2`, not as `2 + 2t`. -/
theorem C17_pow_false :
    ∃ (x a b : RingElem), InRing 2 x ∧ RingElem.pow x 2 = .ok a ∧ RingElem.mul x x = .ok b ∧
      pyEq a b = false := by
  refine ⟨new symmetricRing [([1, 2], 1), ([2, 1], 1)] (some 0), _, _,
    inRing_new (by decide) ?_ _, rfl, rfl, by decide +kernel⟩
  intro p hp
  simp only [List.mem_cons, List.not_mem_nil, or_false] at hp
  rcases hp with rfl | rfl <;> decide

/-! ## C18 composition -/

theorem compose_bilSpec (r s i : Nat) (h1 : 1 ≤ i) (h2 : i ≤ r) :
    BilSpec symmetricRing (InRing r) (InRing s) (fun x y => compose x y i) fun _ => compV i := by
  intro x y n hx hy tx ty
  obtain ⟨z, hz, hzr, hza, hzd⟩ := compose_ok hx hy tx ty h1 h2
  exact ⟨z, hz, hzr.nf, (torsion_congr hza).trans tx, hzd⟩

theorem C18_compose_ok {r s : Nat} {x y : RingElem} (hx : InRing r x) (hy : InRing s y)
    (ht : x.torsion = y.torsion) {i : Nat} (h1 : 1 ≤ i) (h2 : i ≤ r) :
    ∃ z, compose x y i = .ok z ∧ InRing (r + s - 1) z ∧ z.torsion = x.torsion ∧
      ∀ m, z.coeff m ≡ (x.data.map fun p => (y.data.map fun q =>
        if Perm.compose p.1 q.1 i = .ok m then p.2 * q.2 else 0).sum).sum [ZMOD x.torsion] := by
  obtain ⟨z, hz, hzr, hza, hzd⟩ := compose_ok hx hy rfl ht.symm h1 h2
  refine ⟨z, hz, hzr, torsion_congr hza, ?_⟩
  intro m
  rw [← ZMod.intCast_eq_intCast_iff, coeff, ← Dict.den_apply hzr.nf.nodup, hzd, compV, bil_den]
  unfold pyProduct
  rw [List.map_flatMap, sum_flatMap]
  have h2' : ∀ (l : List (Perm × Int)) (l' : List (Perm × Int)), (∀ p ∈ l, p ∈ x.data) →
      (∀ q ∈ l', q ∈ y.data) →
      ((l.map fun a => ((l'.map fun b => (a, b)).map fun pq : (Perm × Int) × (Perm × Int) =>
        ((pq.1.2 * pq.2.2 : Int) : ZMod x.torsion) • bv (ZMod x.torsion) (compL pq.1.1 pq.2.1 i)).sum).sum :
          Perm →₀ ZMod x.torsion) m =
      (((l.map fun p => (l'.map fun q =>
        if Perm.compose p.1 q.1 i = .ok m then p.2 * q.2 else 0).sum).sum : Int) : ZMod x.torsion) := by
    intro l l' hl hl'
    induction l with
    | nil => simp
    | cons p l ih =>
      rw [List.map_cons, List.sum_cons, Finsupp.add_apply, ih fun q hq => hl q (List.mem_cons_of_mem _ hq),
        List.map_cons, List.sum_cons, Int.cast_add]
      congr 1
      clear ih
      induction l' with
      | nil => simp
      | cons q l' ih =>
        rw [List.map_cons, List.map_cons, List.sum_cons, Finsupp.add_apply,
          ih fun q hq => hl' q (List.mem_cons_of_mem _ hq), List.map_cons, List.sum_cons, Int.cast_add]
        congr 1
        rw [Finsupp.smul_apply, Finsupp.single_apply,
          compose_eq (hx.perm p (hl p (by simp))) q.1 h1 h2]
        by_cases hm : compL p.1 q.1 i = m
        · rw [if_pos hm, if_pos (by rw [hm])]
          simp
        · rw [if_neg hm, if_neg (by simpa using hm)]
          simp
  exact h2' _ _ (fun _ h => h) (fun _ h => h)

theorem C18_compose_add_left {r s : Nat} {x x' t y : RingElem} (hx : InRing r x) (hx' : InRing r x')
    (hy : InRing s y) (ht : x.torsion = y.torsion) (hs : add symmetricRing x x' = .ok t) {i : Nat}
    (h1 : 1 ≤ i) (h2 : i ≤ r) :
    ∃ a b c w, compose x y i = .ok a ∧ compose x' y i = .ok b ∧ compose t y i = .ok c ∧
      add symmetricRing a b = .ok w ∧ pyEq c w = true :=
  (compose_bilSpec r s i h1 h2).add_left rfl rfl hx.nf hx'.nf hx hx' hy ht hs (inRing_add hx hx' hs)

theorem C18_compose_add_right {r s : Nat} {x y y' t : RingElem} (hx : InRing r x) (hy : InRing s y)
    (hy' : InRing s y') (ht : x.torsion = y.torsion) (hs : add symmetricRing y y' = .ok t) {i : Nat}
    (h1 : 1 ≤ i) (h2 : i ≤ r) :
    ∃ a b c w, compose x y i = .ok a ∧ compose x y' i = .ok b ∧ compose x t i = .ok c ∧
      add symmetricRing a b = .ok w ∧ pyEq c w = true :=
  (compose_bilSpec r s i h1 h2).add_right rfl rfl hy.nf hy'.nf hx hy hy' ht hs (inRing_add hy hy' hs)

theorem C18_compose_unit {r : Nat} {x : RingElem} (hx : InRing r x) {i : Nat} (h1 : 1 ≤ i) (h2 : i ≤ r) :
    ∃ a b, compose x (identityElement 1 (some x.torsion)) i = .ok a ∧
      compose (identityElement 1 (some x.torsion)) x 1 = .ok b ∧ pyEq a x = true ∧ pyEq b x = true := by
  obtain ⟨a, e1, r1, a1, d1⟩ := compose_ok hx (inRing_identity 1 (some x.torsion)) (n := x.torsion)
    rfl rfl h1 h2
  obtain ⟨b, e2, r2, a2, d2⟩ := compose_ok (inRing_identity 1 (some x.torsion)) hx (n := x.torsion)
    rfl rfl (le_refl 1) (le_refl 1)
  refine ⟨a, b, e1, e2, pyEq_of_den r1.nf hx.nf (torsion_congr a1) rfl ?_,
    pyEq_of_den (n := x.torsion) r2.nf hx.nf ((torsion_congr a2).trans rfl) rfl ?_⟩
  · rw [d1, den_identity]
    exact compV_unit hx.perm h1
  · rw [d2, den_identity]
    exact unit_compV _

theorem C18_compose_sequential {r s u : Nat} {x y z : RingElem} (hx : InRing r x) (hy : InRing s y)
    (hz : InRing u z) (hxy : x.torsion = y.torsion) (hyz : y.torsion = z.torsion) {i j : Nat}
    (hi : 1 ≤ i ∧ i ≤ r) (hj : 1 ≤ j ∧ j ≤ s) :
    ∃ xy yz a b, compose x y i = .ok xy ∧ compose y z j = .ok yz ∧
      compose xy z (i + j - 1) = .ok a ∧ compose x yz i = .ok b ∧ pyEq a b = true := by
  obtain ⟨xy, e1, r1, a1, d1⟩ := compose_ok hx hy (n := z.torsion) (hxy.trans hyz) hyz hi.1 hi.2
  obtain ⟨yz, e2, r2, a2, d2⟩ := compose_ok hy hz (n := z.torsion) hyz rfl hj.1 hj.2
  obtain ⟨a, e3, r3, a3, d3⟩ := compose_ok r1 hz (n := z.torsion)
    ((torsion_congr a1).trans (hxy.trans hyz)) rfl (i := i + j - 1) (by omega) (by omega)
  obtain ⟨b, e4, r4, a4, d4⟩ := compose_ok hx r2 (n := z.torsion) (hxy.trans hyz)
    ((torsion_congr a2).trans hyz) hi.1 hi.2
  refine ⟨xy, yz, a, b, e1, e2, e3, e4, pyEq_of_den r3.nf r4.nf (n := z.torsion) ?_ ?_ ?_⟩
  · rw [torsion_congr a3, torsion_congr a1, hxy, hyz]
  · rw [torsion_congr a4, hxy, hyz]
  · rw [d3, d4, d1, d2, compV_seq hx.perm hy.perm hz.perm hi hj]

theorem C18_compose_parallel {r s u : Nat} {x y z : RingElem} (hx : InRing r x) (hy : InRing s y)
    (hz : InRing u z) (hxy : x.torsion = y.torsion) (hyz : y.torsion = z.torsion) {i k : Nat}
    (hi : 1 ≤ i) (hik : i < k) (hk : k ≤ r) :
    ∃ xy xz a b, compose x y i = .ok xy ∧ compose x z k = .ok xz ∧
      compose xy z (k + s - 1) = .ok a ∧ compose xz y i = .ok b ∧ pyEq a b = true := by
  obtain ⟨xy, e1, r1, a1, d1⟩ := compose_ok hx hy (n := z.torsion) (hxy.trans hyz) hyz hi (by omega)
  obtain ⟨xz, e2, r2, a2, d2⟩ := compose_ok hx hz (n := z.torsion) (hxy.trans hyz) rfl
    (i := k) (by omega) hk
  obtain ⟨a, e3, r3, a3, d3⟩ := compose_ok r1 hz (n := z.torsion)
    ((torsion_congr a1).trans (hxy.trans hyz)) rfl (i := k + s - 1) (by omega) (by omega)
  obtain ⟨b, e4, r4, a4, d4⟩ := compose_ok r2 hy (n := z.torsion)
    ((torsion_congr a2).trans (hxy.trans hyz)) hyz (i := i) hi (by omega)
  refine ⟨xy, xz, a, b, e1, e2, e3, e4, pyEq_of_den r3.nf r4.nf (n := z.torsion) ?_ ?_ ?_⟩
  · rw [torsion_congr a3, torsion_congr a1, hxy, hyz]
  · rw [torsion_congr a4, torsion_congr a2, hxy, hyz]
  · rw [d3, d4, d1, d2, compV_par hx.perm hy.perm hz.perm hi hik]

/-! ## C19 rotation, transposition, norm -/

theorem isPerm_rho {r : Nat} (hr : 1 ≤ r) : IsPerm r (rho r) := by
  refine ⟨?_, ?_, ?_⟩
  · simp [rho, pyRange]; omega
  · unfold rho pyRange
    rw [List.nodup_append]
    refine ⟨List.nodup_range', by simp, ?_⟩
    intro a ha b hb
    rw [List.mem_range'_1] at ha
    simp only [List.mem_singleton] at hb
    omega
  · intro i hi
    unfold rho at hi
    rw [List.mem_append, mem_pyRange, List.mem_singleton] at hi
    omega

theorem value_rho {r : Nat} {i : Nat} (h1 : 1 ≤ i) (h2 : i ≤ r) :
    value (rho r) i = i % r + 1 := by
  rw [value_eq_getElem h1 (by rw [(isPerm_rho (by omega)).length]; exact h2)]
  unfold rho pyRange
  by_cases h : i = r
  · subst h
    rw [List.getElem_append_right (by simp)]
    simp [Nat.mod_self]
  · rw [List.getElem_append_left (by simp; omega), Nat.mod_eq_of_lt (by omega)]
    simp
    omega

theorem value_powL_rho {r : Nat} (hr : 1 ≤ r) (n : Nat) {i : Nat} (h1 : 1 ≤ i) (h2 : i ≤ r) :
    value (powL r (rho r) n) i = (i - 1 + n) % r + 1 := by
  rw [value_powL (isPerm_rho hr) n h1 h2]
  induction n generalizing i with
  | zero => simp [Nat.mod_eq_of_lt (show i - 1 < r by omega)]; omega
  | succ n ih =>
    rw [Function.iterate_succ_apply, value_rho h1 h2, ih (by omega)
      (by have := Nat.mod_lt i (show 0 < r by omega); omega)]
    rw [Nat.add_sub_cancel, Nat.mod_add_mod, show i - 1 + (n + 1) = i + n by omega]

theorem powL_rho_self {r : Nat} (hr : 1 ≤ r) : powL r (rho r) r = pyRange 1 (r + 1) := by
  apply IsPerm.ext (isPerm_powL (isPerm_rho hr) r) (isPerm_id r)
  intro i h1 h2
  rw [value_powL_rho hr r h1 h2, value_id h1 h2, Nat.add_mod_right, Nat.mod_eq_of_lt (by omega)]
  omega

/-- The tuple used for the rotation has order exactly `r`: its `r`-th power is the identity and the
smaller powers send `1` to pairwise different letters. -/
theorem C19_rho_order {r : Nat} (hr : 1 ≤ r) :
    IsPerm r (rho r) ∧ Perm.pow (rho r) r = .ok (List.range' 1 r) ∧
      ∀ k, k < r → ∃ q, Perm.pow (rho r) k = .ok q ∧ value q 1 = k + 1 := by
  refine ⟨isPerm_rho hr, ?_, ?_⟩
  · rw [pow_eq (isPerm_rho hr) hr, powL_rho_self hr]; rfl
  · intro k hk
    refine ⟨_, pow_eq (isPerm_rho hr) hr k, ?_⟩
    rw [value_powL_rho hr k (le_refl 1) hr]
    simp [Nat.mod_eq_of_lt hk]

theorem inRing_rotation {r : Nat} (hr : 1 ≤ r) (t : Option Nat) : InRing r (rotationElement r t) :=
  inRing_new (by simp [Dict.KeysNodup]) (by simpa using isPerm_rho hr) t

theorem rho_ne_id {r : Nat} (hr : 2 ≤ r) : rho r ≠ pyRange 1 (r + 1) := by
  intro h
  have h1 := value_rho (r := r) (i := 1) (le_refl 1) (by omega)
  rw [h, value_id (le_refl 1) (by omega), Nat.mod_eq_of_lt (by omega)] at h1
  omega

theorem transposition_data {r : Nat} (hr : 2 ≤ r) :
    Dict.ofPairs [(rho r, 1), (pyRange 1 (r + 1), -1)] = [(rho r, 1), (pyRange 1 (r + 1), -1)] :=
  Dict.ofPairs_eq (by simpa using rho_ne_id hr)

theorem inRing_transposition {r : Nat} (hr : 2 ≤ r) (t : Option Nat) :
    InRing r (transpositionElement r t) := by
  unfold transpositionElement
  rw [transposition_data hr]
  refine inRing_new (by simpa [Dict.KeysNodup] using rho_ne_id hr) ?_ t
  intro p hp
  simp only [List.mem_cons, List.not_mem_nil, or_false] at hp
  rcases hp with rfl | rfl
  · exact isPerm_rho (by omega)
  · exact isPerm_id r

theorem den_rotation {n r : Nat} :
    den (ZMod n) (rotationElement r (some n)).data = bv _ (rho r) := by
  unfold rotationElement
  rw [den_new _ _ _ _ (by simp)]
  show pr (fun _ => false) _ = _
  simp

theorem den_transposition {n r : Nat} (hr : 2 ≤ r) :
    den (ZMod n) (transpositionElement r (some n)).data = bv _ (rho r) - bv _ (pyRange 1 (r + 1)) := by
  unfold transpositionElement
  rw [transposition_data hr, den_new _ _ _ _ (by simp)]
  show pr (fun _ => false) _ = _
  simp [sub_eq_add_neg]

/-- `T = rho - 1`. -/
theorem C19_transposition {r : Nat} (hr : 2 ≤ r) (n : Nat) :
    InRing r (transpositionElement r (some n)) ∧
    ∃ d, sub symmetricRing (rotationElement r (some n)) (identityElement r (some n)) = .ok d ∧
      pyEq (transpositionElement r (some n)) d = true := by
  refine ⟨inRing_transposition hr _, ?_⟩
  obtain ⟨d, hd⟩ := sub_ok (C := symmetricRing) (x := rotationElement r (some n))
    (y := identityElement r (some n)) rfl
  refine ⟨d, hd, pyEq_of_den (n := n) (inRing_transposition hr _).nf
    (nf_sub hd (inRing_rotation (by omega) _).nf) rfl (torsion_congr (attrs_sub hd)) ?_⟩
  rw [den_sub hd (inRing_rotation (by omega) _).nf (inRing_identity r _).nf (by simp [symmetricRing])
    (by show ((n : Nat) : ZMod n) = 0; simp), den_rotation, den_identity, den_transposition hr]

theorem rotation_data {r n : Nat} (hn : n ≠ 1) :
    (rotationElement r (some n)).data = [(rho r, 1)] := by
  unfold rotationElement
  simp only [new, preferredRep, symmetricRing, zeroDropped, basePreferredRep, Option.getD_some]
  by_cases h0 : n = 0
  · subst h0; simp
  · have h2 : (1 : Int) % (n : Int) = 1 := Int.emod_eq_of_lt (by omega) (by omega)
    simp [h0, h2]

theorem rotation_pow {r n : Nat} (hr : 1 ≤ r) (hn : n ≠ 1) (k : Nat) :
    ∃ z, RingElem.pow (rotationElement r (some n)) k = .ok z ∧ InRing r z ∧ z.torsion = n ∧
      den (ZMod n) z.data = bv _ (powL r (rho r) k) := by
  cases k with
  | zero =>
    refine ⟨identityElement r (some n), ?_, inRing_identity r _, rfl, den_identity r⟩
    unfold RingElem.pow
    rw [if_pos (by simp), RingElem.arity, rotation_data hn]
    simp only [List.map_cons, List.map_nil, pyMax_eq (isPerm_rho hr)]
    rfl
  | succ k =>
    refine ⟨accumulate symmetricRing ((rotationElement r (some n)).zero symmetricRing)
      [(powL r (rho r) (k + 1), 1)], ?_, inRing_of_keys (nf_accumulate_zero _ _ _) ?_, by rw [torsion, accumulate_attrs]; rfl, ?_⟩
    · unfold RingElem.pow
      rw [if_neg (by omega), rotation_data hn]
      simp only [List.mapM_cons, List.mapM_nil, pow_eq (isPerm_rho hr) hr, bind, Except.bind, pure,
        Except.pure]
    · intro q hq
      have := mem_keys_accumulate_zero hq
      simp only [List.map_cons, List.map_nil, List.mem_singleton] at this
      subst this
      exact isPerm_powL (isPerm_rho hr) _
    · rw [den_accumulate_zero' _ _ _ rfl (n := n) rfl]
      show pr (fun _ => false) _ = _
      simp

theorem iadd_ok' {r : Nat} {x y : RingElem} {n : Nat} (hx : InRing r x) (hy : InRing r y)
    (tx : x.torsion = n) (ty : y.torsion = n) :
    ∃ z, iadd symmetricRing x y = .ok z ∧ InRing r z ∧ z.torsion = n ∧
      den (ZMod n) z.data = den _ x.data + den _ y.data := by
  refine ⟨_, iadd_eq (by rw [tx, ty]), inRing_of_keys (nf_iaddCore hx.nf.nodup _) ?_, tx, ?_⟩
  · intro k hk
    rcases mem_keys_iaddCore hk with h | h
    · obtain ⟨p, hp, rfl⟩ := List.mem_map.1 h; exact hx.perm p hp
    · obtain ⟨p, hp, rfl⟩ := List.mem_map.1 h; exact hy.perm p hp
  · rw [den_iaddCore _ _ _ (tz tx)]
    exact pr_false _

theorem normLoop_ok {r n : Nat} (hr : 1 ≤ r) (hn : n ≠ 1) (l : List Nat) (x : RingElem)
    (hx : InRing r x) (tx : x.torsion = n) :
    ∃ z, normLoop (rotationElement r (some n)) l x = .ok z ∧ InRing r z ∧ z.torsion = n ∧
      den (ZMod n) z.data = den _ x.data + (l.map fun k => bv _ (powL r (rho r) k)).sum := by
  induction l generalizing x with
  | nil => exact ⟨x, rfl, hx, tx, by simp⟩
  | cons k l ih =>
    obtain ⟨w, h1, h2, h3, h4⟩ := rotation_pow hr hn k
    obtain ⟨v, g1, g2, g3, g4⟩ := iadd_ok' hx h2 tx h3
    obtain ⟨z, f1, f2, f3, f4⟩ := ih v g2 g3
    refine ⟨z, ?_, f2, f3, ?_⟩
    · rw [normLoop, h1]
      simp only [bind, Except.bind]
      rw [g1]
      exact f1
    · rw [f4, g4, h4, List.map_cons, List.sum_cons, add_assoc]

theorem norm_ok {r n : Nat} (hr : 1 ≤ r) (hn : n ≠ 1) :
    ∃ z, normElement r (some n) = .ok z ∧ InRing r z ∧ z.torsion = n ∧
      den (ZMod n) z.data = ((List.range r).map fun k => bv _ (powL r (rho r) k)).sum := by
  obtain ⟨z, h1, h2, h3, h4⟩ := normLoop_ok hr hn (List.range r) (new symmetricRing [] (some n))
    (inRing_new (by simp [Dict.KeysNodup]) (by simp) _) rfl
  refine ⟨z, h1, h2, h3, ?_⟩
  rw [h4, den_new _ _ _ _ (by simp)]
  simp

/-- `N = 1 + rho + … + rho^(r-1)`: the coefficient of a permutation is the number of `k < r` such
that it is the `k`-th power of the rotation. -/
theorem C19_norm {r n : Nat} (hr : 1 ≤ r) (hn : n ≠ 1) :
    ∃ z, normElement r (some n) = .ok z ∧ InRing r z ∧ z.torsion = n ∧
      ∀ m, z.coeff m ≡ (((List.range r).filter fun k : Nat => decide (Perm.pow (rho r) (k : Int) = .ok m)).length : Int)
        [ZMOD n] := by
  obtain ⟨z, h1, h2, h3, h4⟩ := norm_ok hr hn
  refine ⟨z, h1, h2, h3, ?_⟩
  intro m
  rw [← ZMod.intCast_eq_intCast_iff, coeff, ← Dict.den_apply h2.nf.nodup, h4]
  generalize List.range r = l
  induction l with
  | nil => simp
  | cons k l ih =>
    rw [List.map_cons, List.sum_cons, Finsupp.add_apply, ih, Finsupp.single_apply, List.filter_cons,
      pow_eq (isPerm_rho hr) hr]
    by_cases h : powL r (rho r) k = m
    · rw [if_pos h, if_pos (by simp [h]), List.length_cons]
      push_cast
      ring
    · rw [if_neg h, if_neg (by simpa using h)]
      simp

theorem sum_shift {M : Type} [AddCommGroup M] (f : Nat → M) (r : Nat) :
    ((List.range r).map fun k => f (k + 1)).sum - ((List.range r).map f).sum = f r - f 0 := by
  induction r with
  | zero => simp
  | succ r ih =>
    rw [List.range_succ, List.map_append, List.map_append, List.sum_append, List.sum_append]
    simp only [List.map_cons, List.map_nil, List.sum_cons, List.sum_nil, add_zero]
    have : ∀ a b c d : M, a + b - (c + d) = (a - c) + (b - d) := by intros; abel
    rw [this, ih]; abel

theorem mulV_sum_left {R : Type} [CommRing R] (f : Nat → Perm) (l : List Nat) (v : Perm →₀ R) :
    mulV ((l.map fun k => bv R (f k)).sum) v = (l.map fun k => mulV (bv R (f k)) v).sum := by
  induction l with
  | nil => simp
  | cons k l ih => simp only [List.map_cons, List.sum_cons, map_add, LinearMap.add_apply, ih]

theorem mulV_sum_right {R : Type} [CommRing R] (f : Nat → Perm) (l : List Nat) (v : Perm →₀ R) :
    mulV v ((l.map fun k => bv R (f k)).sum) = (l.map fun k => mulV v (bv R (f k))).sum := by
  induction l with
  | nil => simp
  | cons k l ih => simp only [List.map_cons, List.sum_cons, map_add, ih]

theorem mulV_sub_right {R : Type} [CommRing R] (v u w : Perm →₀ R) :
    mulV v (u - w) = mulV v u - mulV v w := map_sub _ _ _

theorem mulV_N_T {R : Type} [CommRing R] {r : Nat} (hr : 1 ≤ r) :
    mulV ((List.range r).map fun k => bv R (powL r (rho r) k)).sum
      (bv R (rho r) - bv R (pyRange 1 (r + 1))) = 0 := by
  rw [mulV_sum_left]
  have : ∀ k, mulV (bv R (powL r (rho r) k)) (bv R (rho r) - bv R (pyRange 1 (r + 1))) =
      bv R (powL r (rho r) (k + 1)) - bv R (powL r (rho r) k) := by
    intro k
    rw [map_sub, mulV_single, mulV_single, mulL_id (isPerm_powL (isPerm_rho hr) k), one_mul, powL]
  simp only [this]
  have h := sum_shift (fun k => bv R (powL r (rho r) k)) r
  rw [powL_rho_self hr] at h
  have h2 : ∀ (f g : Nat → (Perm →₀ R)) (l : List Nat),
      (l.map fun k => f k - g k).sum = (l.map f).sum - (l.map g).sum := by
    intro f g l
    induction l with
    | nil => simp
    | cons a l ih => simp only [List.map_cons, List.sum_cons, ih]; abel
  rw [h2, h]
  simp [powL]

theorem mulV_T_N {R : Type} [CommRing R] {r : Nat} (hr : 1 ≤ r) :
    mulV (bv R (rho r) - bv R (pyRange 1 (r + 1)))
      ((List.range r).map fun k => bv R (powL r (rho r) k)).sum = 0 := by
  rw [mulV_sum_right]
  have : ∀ k, mulV (bv R (rho r) - bv R (pyRange 1 (r + 1))) (bv R (powL r (rho r) k)) =
      bv R (powL r (rho r) (k + 1)) - bv R (powL r (rho r) k) := by
    intro k
    have h1 : powL r (rho r) 1 = rho r := by rw [powL, powL, id_mulL (isPerm_rho hr)]
    have h2 := powL_add (isPerm_rho hr) 1 k
    rw [h1, add_comm] at h2
    rw [map_sub, LinearMap.sub_apply, mulV_single, mulV_single,
      id_mulL (isPerm_powL (isPerm_rho hr) k), one_mul, h2]
  simp only [this]
  have h := sum_shift (fun k => bv R (powL r (rho r) k)) r
  rw [powL_rho_self hr] at h
  have h2 : ∀ (f g : Nat → (Perm →₀ R)) (l : List Nat),
      (l.map fun k => f k - g k).sum = (l.map f).sum - (l.map g).sum := by
    intro f g l
    induction l with
    | nil => simp
    | cons a l ih => simp only [List.map_cons, List.sum_cons, ih]; abel
  rw [h2, h]
  simp [powL]

/-- `N * T == 0 == T * N`. -/
theorem C19_norm_transposition {r n : Nat} (hr : 2 ≤ r) (hn : n ≠ 1) :
    ∃ N a b, normElement r (some n) = .ok N ∧
      RingElem.mul N (transpositionElement r (some n)) = .ok a ∧ a.data = [] ∧
      RingElem.mul (transpositionElement r (some n)) N = .ok b ∧ b.data = [] := by
  obtain ⟨N, h1, h2, h3, h4⟩ := norm_ok (r := r) (n := n) (by omega) hn
  have hT := inRing_transposition hr (some n)
  obtain ⟨a, ha, har, haa, had⟩ := mul_ok h2 hT h3 (n := n) rfl
  obtain ⟨b, hb, hbr, hba, hbd⟩ := mul_ok hT h2 (n := n) rfl h3
  refine ⟨N, a, b, h1, ha, ?_, hb, ?_⟩
  · rw [har.nf.data_eq_nil_iff, torsion_congr haa, h3, had, h4, den_transposition hr, mulV_N_T (by omega)]
  · rw [hbr.nf.data_eq_nil_iff, torsion_congr hba]
    show den (ZMod n) b.data = 0
    rw [hbd, h4, den_transposition hr, mulV_T_N (by omega)]

/-- For torsion 1 (the zero ring) `norm_element` raises: `rho**0` needs the arity of `0`. -/
theorem C19_norm_torsion_one {r : Nat} (hr : 1 ≤ r) : normElement r (some 1) = .error .typeError := by
  have hd : (rotationElement r (some 1)).data = [] := by
    simp [rotationElement, new, preferredRep, symmetricRing, zeroDropped, basePreferredRep]
  obtain ⟨r, rfl⟩ : ∃ r', r = r' + 1 := ⟨r - 1, by omega⟩
  unfold normElement
  rw [List.range_succ_eq_map, normLoop]
  unfold RingElem.pow
  rw [if_pos (by simp), RingElem.arity, hd]
  rfl

/-- For arity 1 the dict display overwrites the first entry: `transposition_element(1)` is `-1`
instead of `rho - 1 = 0`. -/
theorem C19_transposition_arity_one :
    (transpositionElement 1 (some 0)).data = [([1], -1)] := by decide +kernel

example : ∃ z, normElement 3 (some 5) = .ok z ∧
    z.data = [([1, 2, 3], 1), ([2, 3, 1], 1), ([3, 1, 2], 1)] := ⟨_, rfl, by decide +kernel⟩

end Comch.Props
