import Verif.Props.Acyclic
import Verif.Props.BEMore
import Verif.Lib.BEOrbit
import Verif.Lib.SurjOrbit

/-! # Orbits classify the coinvariants, and the actions are free: C83 -/

set_option linter.unusedSectionVars false

namespace Comch.Spec

/-- The value on `x` of the linear function which is `f` on the basis. -/
def evaluate {K : Type} {n : Nat} (f : K → ZMod n) (x : Elem K) : ZMod n :=
  (x.data.map fun p => ((p.2 : Int) : ZMod n) * f p.1).sum

/-- `f` is equivariant: multiplying a basis element of arity `r` by a permutation multiplies the value by
the sign of the permutation in the representation. -/
def EquivariantBE (r : Nat) (rep : Representation) {n : Nat} (f : BKey → ZMod n) : Prop :=
  ∀ σ k k', IsPerm r σ → k ≠ [] → (∀ τ ∈ k, IsPerm r τ) → IsTranslate σ k k' →
    f k' = ((repSign rep σ : Int) : ZMod n) * f k

/-- The same for surjections, where a sign depending on the convention appears in the action. -/
def EquivariantSurj (r : Nat) (c : Convention) (rep : Representation) {n : Nat} (f : Surj → ZMod n) : Prop :=
  ∀ σ k, IsPerm r σ → (∀ v, v ∈ k ↔ 1 ≤ v ∧ v ≤ r) →
    (-1) ^ relabelExponent r c σ k * f (k.map (value σ)) = ((repSign rep σ : Int) : ZMod n) * f k

end Comch.Spec

namespace Comch
namespace Props
open Comch.Spec Elem IsPerm
open Finsupp (single)

variable {r n : Nat} {rep : Representation}

theorem evaluate_eq {K : Type} (f : K → ZMod n) (x : Elem K) :
    evaluate f x = Finsupp.linearCombination (ZMod n) f (den (ZMod n) x.data) := by
  unfold evaluate
  induction x.data with
  | nil => simp
  | cons p d ih =>
    rw [show (p :: d) = [p] ++ d from rfl, den_append, map_add, List.map_append, List.sum_append, ih]
    obtain ⟨k, c⟩ := p
    simp

/-- Two elements have the same orbit exactly when no equivariant linear function separates them. -/
theorem C83_be {x y : BElem} (hr : 1 ≤ r) (hx : InBE r x) (hy : InBE r y) (ht : y.torsion = x.torsion) :
    ∃ u v, BElem.orbit x rep = .ok u ∧ BElem.orbit y rep = .ok v ∧
      (pyEq u v = true ↔ ∀ f : BKey → ZMod x.torsion, EquivariantBE r rep f → evaluate f x = evaluate f y) := by
  obtain ⟨u, eu, iu, tu, du⟩ := BElem.orbit_ok hr hx rep
  obtain ⟨v, ev, iv, tv, dv⟩ := BElem.orbit_ok hr hy rep
  refine ⟨u, v, eu, ev, ?_⟩
  rw [ht] at dv tv
  rw [pyEq_iff_den iu.nf iv.nf (by rw [tu, tv]), tu, du, dv]
  have hkey : ∀ {z : BElem}, InBE r z → den (ZMod x.torsion) z.data ∈ Finsupp.supported (ZMod x.torsion)
      (ZMod x.torsion) {k : BKey | k ≠ [] ∧ ∀ τ ∈ k, IsPerm r τ} := fun {z} hz =>
    den_supported fun p hp => ⟨BElem.key_ne_nil hz.nf hp, hz.perm p hp⟩
  constructor
  · intro h f hf
    have key : ∀ {z : BElem}, InBE r z → Finsupp.linearCombination (ZMod x.torsion) f
        (lin (BElem.orbK _ r rep) (den (ZMod x.torsion) z.data)) = evaluate f z := by
      intro z hz
      rw [evaluate_eq]
      refine BElem.lin_ext_supported (f := (Finsupp.linearCombination (ZMod x.torsion) f).comp
        (lin (BElem.orbK _ r rep))) (g := Finsupp.linearCombination (ZMod x.torsion) f) (fun k hk => ?_) (hkey hz)
      have hp := hk.2 _ (BElem.headD_mem hk.1)
      have h1 := hf _ k _ (isPerm_invL hp) hk.1 hk.2 ((BElem.isTranslate_iff (isPerm_invL hp) hk.2).2 rfl)
      rw [LinearMap.comp_apply, lin_single, one_smul, BElem.orbK, map_smul, Finsupp.linearCombination_single,
        Finsupp.linearCombination_single, h1, SurjElem.repSign_inv rep hp, one_smul, one_smul, smul_eq_mul,
        ← mul_assoc, ← Int.cast_mul, repSign_mul_self]
      simp
    rw [← key hx, ← key hy, h]
  · intro h
    ext m
    have key : ∀ z : BElem, (lin (BElem.orbK _ r rep) (den (ZMod x.torsion) z.data)) m =
        evaluate (fun k => BElem.orbK (ZMod x.torsion) r rep k m) z := by
      intro z
      rw [evaluate_eq]
      generalize den (ZMod x.torsion) z.data = w
      induction w using Finsupp.induction_linear with
      | zero => simp
      | add f g hf hg => simp only [map_add, Finsupp.add_apply, hf, hg]
      | single k c => simp
    rw [key, key]
    refine h _ fun σ k k' hσ hk0 hk hkk => ?_
    have : k' = BElem.trL σ k := ((BElem.isTranslate_iff hσ hk).1 hkk).symm
    rw [this, BElem.orbK_trL hσ hk0 hk]
    simp

/-- The same for surjections, in both conventions. -/
theorem C83_surj {x y : SurjElem} (hr : 1 ≤ r) (hx : InSurj r x) (hy : InSurj r y) (ha : y.attrs = x.attrs) :
    ∃ u v, SurjElem.orbit x rep = .ok u ∧ SurjElem.orbit y rep = .ok v ∧
      (pyEq u v = true ↔ ∀ f : Surj → ZMod x.torsion, EquivariantSurj r x.attrs.convention rep f →
        evaluate f x = evaluate f y) := by
  obtain ⟨xd, a⟩ := x
  obtain ⟨yd, b⟩ := y
  obtain rfl : b = a := ha
  obtain ⟨u, eu, iu, au, du⟩ := SurjElem.orbit_ok hr hx rep
  obtain ⟨v, ev, iv, av, dv⟩ := SurjElem.orbit_ok hr hy rep
  refine ⟨u, v, eu, ev, ?_⟩
  have tu : u.torsion = b.torsion := torsion_congr au
  have tv : v.torsion = b.torsion := torsion_congr av
  have du' : den (ZMod b.torsion) u.data = lin (SurjElem.orbS b r rep) (den (ZMod b.torsion) xd) := du
  have dv' : den (ZMod b.torsion) v.data = lin (SurjElem.orbS b r rep) (den (ZMod b.torsion) yd) := dv
  rw [pyEq_iff_den iu.nf iv.nf (by rw [tu, tv]), tu, du', dv']
  have hkey : ∀ {d : List (Surj × Int)}, InSurj r ⟨d, b⟩ → den (ZMod b.torsion) d ∈ Finsupp.supported (ZMod b.torsion)
      (ZMod b.torsion) {k : Surj | Onto r k} := fun {z} hz => den_supported fun p hp => hz.onto p hp
  have hsign : ∀ {σ k}, IsPerm r σ → Onto r k →
      SurjElem.actS b σ k = ((-1 : ZMod b.torsion) ^ relabelExponent r b.convention σ k) • bv _ (k.map (value σ)) := by
    intro σ k hσ hk
    have := congrArg (Int.cast : Int → ZMod b.torsion) (SurjElem.relabel_sign hσ hk b.convention)
    rw [cast_pySign] at this
    rw [SurjElem.actS, this]
    push_cast
    rfl
  constructor
  · intro h f hf
    have key : ∀ {d : List (Surj × Int)}, InSurj r ⟨d, b⟩ → Finsupp.linearCombination (ZMod b.torsion) f
        (lin (SurjElem.orbS b r rep) (den (ZMod b.torsion) d)) = evaluate f ⟨d, b⟩ := by
      intro d hz
      rw [evaluate_eq]
      refine BElem.lin_ext_supported (f := (Finsupp.linearCombination (ZMod b.torsion) f).comp
        (lin (SurjElem.orbS b r rep))) (g := Finsupp.linearCombination (ZMod b.torsion) f) (fun k hk => ?_) (hkey hz)
      have hp := SurjElem.isPerm_seen hk
      have h1 := hf _ k (isPerm_invL hp) hk
      rw [LinearMap.comp_apply, lin_single, one_smul, SurjElem.orbS, hsign (isPerm_invL hp) hk, map_smul, map_smul,
        Finsupp.linearCombination_single, Finsupp.linearCombination_single, one_smul, one_smul, smul_eq_mul,
        smul_eq_mul, h1, SurjElem.repSign_inv rep hp, ← mul_assoc, ← Int.cast_mul, repSign_mul_self]
      simp
    rw [← key hx, ← key hy, h]
  · intro h
    ext m
    have key : ∀ d : List (Surj × Int), (lin (SurjElem.orbS b r rep) (den (ZMod b.torsion) d)) m =
        evaluate (fun k => SurjElem.orbS b r rep k m) ⟨d, b⟩ := by
      intro d
      rw [evaluate_eq]
      generalize den (ZMod b.torsion) d = w
      induction w using Finsupp.induction_linear with
      | zero => simp
      | add f g hf hg => simp only [map_add, Finsupp.add_apply, hf, hg]
      | single k c => simp
    rw [key, key]
    refine h _ fun σ k hσ hk => ?_
    have h1 := congrArg (fun w => w m) (SurjElem.orbS_actS b rep hσ hk hr)
    rw [hsign hσ hk, map_smul, lin_single, one_smul] at h1
    simpa using h1

/-- The action of the symmetric group on the basis of the Barratt-Eccles operad is free: only the identity
fixes a basis element (even up to a coefficient). -/
theorem C83_be_free {s : RingElem} {x w : BElem} {σ : Perm} {k : BKey} {a c : Int} (hs : InRing r s)
    (hx : InBE r x) (ts : s.torsion = x.torsion) (hsd : s.data = [(σ, a)]) (hxd : x.data = [(k, c)])
    (hw : BElem.rmul s x = .ok w) (h : k ∈ w.data.map Prod.fst) : σ = pyRange 1 (r + 1) := by
  have hσ : IsPerm r σ := hs.perm (σ, a) (by simp [hsd])
  have hk : ∀ τ ∈ k, IsPerm r τ := hx.perm (k, c) (by simp [hxd])
  have hk0 : k ≠ [] := BElem.key_ne_nil hx.nf (p := (k, c)) (by simp [hxd])
  by_cases hr : 1 ≤ r
  · obtain ⟨w', ew, iw, tw, dw⟩ := BElem.rmul_den hr hs (by simp [hsd]) hx (by simp [hxd]) ts rfl
    cases hw.symm.trans ew
    have h1 := iw.nf.mem_keys_iff.1 h
    rw [tw, dw, hsd, hxd] at h1
    have h2 : BElem.trL σ k = k := by
      by_contra hne
      apply h1
      simp [bil_single, hne]
    obtain ⟨τ, k', rfl⟩ := List.exists_cons_of_ne_nil hk0
    have h3 : mulL σ τ = τ := (List.cons.inj h2).1
    have hτ := hk τ (by simp)
    have h4 := mulL_assoc hσ hτ (isPerm_invL hτ)
    rw [h3, mulL_invL hτ] at h4
    rw [h4, mulL_id hσ]
  · obtain rfl : r = 0 := by omega
    have := hσ.length
    rw [List.length_eq_zero_iff] at this
    rw [this]
    rfl

/-- The same for surjections. -/
theorem C83_surj_free {s : RingElem} {x w : SurjElem} {σ : Perm} {k : Surj} {a c : Int} (hs : InRing r s)
    (hx : InSurj r x) (ts : s.torsion = x.torsion) (hsd : s.data = [(σ, a)]) (hxd : x.data = [(k, c)])
    (hw : SurjElem.rmul s x = .ok w) (h : k ∈ w.data.map Prod.fst) : σ = pyRange 1 (r + 1) := by
  have hσ : IsPerm r σ := hs.perm (σ, a) (by simp [hsd])
  have hk : Onto r k := hx.onto (k, c) (by simp [hxd])
  have hr : 1 ≤ r := SurjElem.one_le_of_mem hx (p := (k, c)) (by simp [hxd])
  obtain ⟨w', ew, nw, aw, ow, dw⟩ := (SurjElem.actSpec hr).ok s x hs (by simp [hsd]) hx.nf (by simp [hxd]) hx.onto ts
  cases hw.symm.trans ew
  have h1 := nw.mem_keys_iff.1 h
  have tw : w.torsion = x.torsion := torsion_congr aw
  rw [tw, dw, hsd, hxd] at h1
  have h2 : mulL σ k = k := by
    by_contra hne
    apply h1
    simp [bil_single, SurjElem.actS, hne]
  refine IsPerm.ext hσ (isPerm_id r) fun v h3 h4 => ?_
  rw [value_id h3 h4]
  have h5 : ∀ l : List Nat, l.map (value σ) = l → ∀ v ∈ l, value σ v = v := by
    intro l
    induction l with
    | nil => simp
    | cons b l ih =>
      intro hl v hv
      rw [List.map_cons, List.cons.injEq] at hl
      rcases List.mem_cons.1 hv with rfl | hv
      · exact hl.1
      · exact ih hl.2 v hv
  exact h5 k h2 v ((hk v).2 ⟨h3, h4⟩)

/-- Elements with different orbits (separated by an equivariant function), and hypotheses met. -/
example : InSurj 2 (Elem.new surjection [([2, 1, 2], 3)]) ∧
    (SurjElem.orbit (Elem.new surjection [([2, 1, 2], 3)]) .sign).toOption.map (·.data) = some [([1, 2, 1], -3)] ∧
    (SurjElem.orbit (Elem.new surjection [([1, 2, 1], 3)]) .sign).toOption.map (·.data) = some [([1, 2, 1], 3)] :=
  ⟨SurjElem.inSurj_of_arity (nf_new _ (by decide) _ _) (by decide), by decide +kernel, by decide +kernel⟩

end Props
end Comch
