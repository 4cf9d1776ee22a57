import Verif.Lib.FreeModule
import Verif.Model.Heap
import Mathlib.Data.List.Perm.Basic

/-! # Properties of free module elements: C01–C09 -/

set_option linter.unusedSectionVars false

namespace Comch.Props
open Comch Finsupp Elem

variable {K : Type} [DecidableEq K]

/-- A concrete class with a dropped key, and concrete elements, for the non-vacuity examples. -/
abbrev exC : Cls Nat := { drops := fun k => k == 7 }
abbrev exX : Elem Nat := Elem.new exC [(1, 5), (2, -3), (7, 4)] (some 6)
abbrev exY : Elem Nat := Elem.new exC [(2, 3), (4, 1)] (some 6)

theorem exX_nf : exX.NF exC := nf_new _ (by decide) _ _
theorem exY_nf : exY.NF exC := nf_new _ (by decide) _ _

/-! ## C01 -/

/-- Everything built with the public operations, in any order and number, is in normal form. -/
theorem C01_built_nf (C : Cls K) (x : Elem K) (hx : Built C x) : x.NF C := by
  induction hx with
  | new d h t c => exact nf_new C h t c
  | create x _ d h _ => exact nf_create C x h
  | zero x _ _ => exact nf_zero C x
  | add x y z _ _ h ihx _ => exact nf_add h ihx
  | sub x y z _ _ h ihx _ => exact nf_sub h ihx
  | iadd x y z _ _ h ihx _ => exact nf_iadd h ihx
  | isub x y z _ _ h ihx _ => exact nf_isub h ihx
  | smul c x _ ih => exact nf_smul ih c
  | neg x _ ih => exact nf_smul ih _
  | truediv x z c _ h ih =>
    unfold truediv at h
    split at h
    · cases h
    · rcases hp : powInv c x.torsion with e | i
      · rw [hp] at h; cases h
      · rw [hp] at h
        cases h
        exact nf_create C x (keysNodup_scale ih.nodup i)
  | setTorsion x n _ ih => exact nf_setTorsion ih n

/-- Conversely normal forms are exactly the fixed points of the constructor: nothing is lost by
normalising. -/
theorem C01_nf_iff_fixed (C : Cls K) (x : Elem K) :
    x.NF C ↔ x.data.KeysNodup ∧ Elem.new C x.data (some x.torsion) x.attrs.convention = x := by
  constructor
  · intro h
    refine ⟨h.nodup, ?_⟩
    obtain ⟨d, ⟨t, c⟩⟩ := x
    simp only [Elem.new, preferredRep, Option.getD_some, Elem.mk.injEq, and_true]
    have h1 : zeroDropped C.drops d = d := by
      unfold zeroDropped
      conv_rhs => rw [← List.map_id d]
      apply List.map_congr_left
      intro p hp
      simp [h.kept p hp]
    rw [h1]
    unfold basePreferredRep
    have h2 : (if t ≠ 0 then d.map (fun p => (p.1, p.2 % (t : Int))) else d) = d := by
      split
      · rename_i ht
        conv_rhs => rw [← List.map_id d]
        apply List.map_congr_left
        intro p hp
        have := h.coeff_range ht p hp
        have e : p.2 % (t : Int) = p.2 := Int.emod_eq_of_lt this.1 this.2
        rw [e]; rfl
      · rfl
    simp only [torsion]
    rw [h2, List.filter_eq_self]
    intro p hp
    simpa using h.coeff_ne p hp
  · rintro ⟨h1, h2⟩
    rw [← h2]
    exact nf_new C h1 _ _

example : Built exC exX := Built.new _ (by decide) _ _
example : exX.data = [(1, 5), (2, 3)] := by decide

/-! ## C02 -/

/-- `==` of two elements of one class and torsion `n` is congruence modulo `n` of the coefficients
of all basis elements. -/
theorem C02_eq_iff (C : Cls K) (x y : Elem K) (hx : x.NF C) (hy : y.NF C)
    (ht : x.torsion = y.torsion) :
    pyEq x y = true ↔ ∀ k, x.coeff k ≡ y.coeff k [ZMOD x.torsion] := by
  rw [pyEq_iff_den hx hy ht]
  constructor
  · intro h k
    have := DFunLike.congr_fun h k
    rwa [Dict.den_apply hx.nodup, Dict.den_apply hy.nodup, ZMod.intCast_eq_intCast_iff] at this
  · intro h
    ext k
    rw [Dict.den_apply hx.nodup, Dict.den_apply hy.nodup, ZMod.intCast_eq_intCast_iff]
    exact h k

/-- The order of the terms is irrelevant. -/
theorem C02_order_irrelevant (C : Cls K) (x y : Elem K) (hx : x.NF C)
    (h : x.data.Perm y.data) : pyEq x y = true := by
  have hy : y.data.KeysNodup := (h.map Prod.fst).nodup_iff.1 hx.nodup
  unfold pyEq
  simp only [Bool.and_eq_true, List.all_eq_true, beq_iff_eq]
  refine ⟨fun p hp => ?_, fun p hp => ?_⟩
  · exact (Dict.get_of_mem hy (h.mem_iff.1 hp)).symm
  · exact Dict.get_of_mem hx.nodup (h.mem_iff.2 hp)

/-- `bool(x)` is false exactly when `x == 0`. -/
theorem C02_truthy_iff (C : Cls K) (x : Elem K) (hx : x.NF C) :
    x.truthy = false ↔ ∀ k, x.coeff k ≡ 0 [ZMOD x.torsion] := by
  have h0 := C02_eq_iff C x (x.zero C) hx (nf_zero C x) rfl
  have : pyEq x (x.zero C) = true ↔ x.truthy = false := by
    rw [pyEq_iff_den hx (nf_zero C x) rfl, zero_data, den_nil, ← hx.data_eq_nil_iff, truthy]
    rcases x.data with _ | _ <;> simp
  rw [← this, h0]
  simp [coeff, Dict.get]

example : pyEq exX exY = false := by decide
example : exX.torsion = exY.torsion ∧ exX.truthy = true := by decide

/-! ## C03 -/

section
variable (C : Cls K)

/-- Coefficients of a sum. -/
theorem C03_add_coeff (x y z : Elem K) (hx : x.NF C) (hy : y.NF C)
    (hD : x.torsion ∣ C.defaultTorsion) (h : add C x y = .ok z) (k : K) :
    z.coeff k ≡ x.coeff k + y.coeff k [ZMOD x.torsion] := by
  have h1 := DFunLike.congr_fun
    (den_add (R := ZMod x.torsion) h hx hy (cast_of_dvd hD) (tz rfl)) k
  rw [Finsupp.add_apply, Dict.den_apply (nf_add h hx).nodup, Dict.den_apply hx.nodup,
    Dict.den_apply hy.nodup, ← Int.cast_add, ZMod.intCast_eq_intCast_iff] at h1
  exact h1

theorem C03_sub_coeff (x y z : Elem K) (hx : x.NF C) (hy : y.NF C)
    (hD : x.torsion ∣ C.defaultTorsion) (h : sub C x y = .ok z) (k : K) :
    z.coeff k ≡ x.coeff k - y.coeff k [ZMOD x.torsion] := by
  have h1 := DFunLike.congr_fun
    (den_sub (R := ZMod x.torsion) h hx hy (cast_of_dvd hD) (tz rfl)) k
  rw [Finsupp.sub_apply, Dict.den_apply (nf_sub h hx).nodup, Dict.den_apply hx.nodup,
    Dict.den_apply hy.nodup, ← Int.cast_sub, ZMod.intCast_eq_intCast_iff] at h1
  exact h1

/-- `x + y == y + x`. -/
theorem C03_add_comm (x y : Elem K) (hx : x.NF C) (hy : y.NF C) (ht : x.torsion = y.torsion)
    (hD : x.torsion ∣ C.defaultTorsion) :
    ∃ s t, add C x y = .ok s ∧ add C y x = .ok t ∧ pyEq s t = true := by
  obtain ⟨s, hs⟩ := add_ok (C := C) ht
  obtain ⟨t, ht'⟩ := add_ok (C := C) ht.symm
  refine ⟨s, t, hs, ht', pyEq_of_den (n := x.torsion) (nf_add hs hx) (nf_add ht' hy)
    (torsion_congr (attrs_add hs)) ((torsion_congr (attrs_add ht')).trans ht.symm) ?_⟩
  rw [den_add hs hx hy (cast_of_dvd hD) (tz rfl),
    den_add ht' hy hx (cast_of_dvd hD) (tz ht.symm), add_comm]

/-- `(x + y) + z == x + (y + z)`. -/
theorem C03_add_assoc (x y z : Elem K) (hx : x.NF C) (hy : y.NF C) (hz : z.NF C)
    (hxy : x.torsion = y.torsion) (hyz : y.torsion = z.torsion)
    (hD : x.torsion ∣ C.defaultTorsion) :
    ∃ a b c d, add C x y = .ok a ∧ add C a z = .ok b ∧ add C y z = .ok c ∧ add C x c = .ok d ∧
      pyEq b d = true := by
  obtain ⟨a, ha⟩ := add_ok (C := C) hxy
  have hat := torsion_congr (attrs_add ha)
  obtain ⟨b, hb⟩ := add_ok (C := C) (hat.trans (hxy.trans hyz))
  obtain ⟨c, hc⟩ := add_ok (C := C) hyz
  have hct := torsion_congr (attrs_add hc)
  obtain ⟨d, hd⟩ := add_ok (C := C) (hxy.trans hct.symm)
  have hna := nf_add ha hx
  have hnc := nf_add hc hy
  refine ⟨a, b, c, d, ha, hb, hc, hd, pyEq_of_den (n := x.torsion) (nf_add hb hna) (nf_add hd hx)
    ((torsion_congr (attrs_add hb)).trans hat) (torsion_congr (attrs_add hd)) ?_⟩
  rw [den_add hb hna hz (cast_of_dvd hD) (tz hat),
    den_add ha hx hy (cast_of_dvd hD) (tz rfl),
    den_add hd hx hnc (cast_of_dvd hD) (tz rfl),
    den_add hc hy hz (cast_of_dvd hD) (tz hxy.symm), add_assoc]

/-- `x + x.zero() == x`. -/
theorem C03_add_zero (x : Elem K) (hx : x.NF C) (hD : x.torsion ∣ C.defaultTorsion) :
    ∃ s, add C x (x.zero C) = .ok s ∧ pyEq s x = true := by
  obtain ⟨s, hs⟩ := add_ok (C := C) (x := x) (y := x.zero C) rfl
  refine ⟨s, hs, pyEq_of_den (n := x.torsion) (nf_add hs hx) hx
    (torsion_congr (attrs_add hs)) rfl ?_⟩
  rw [den_add hs hx (nf_zero C x) (cast_of_dvd hD) (tz rfl)]
  simp

/-- `x - x == 0`: the result is the empty (falsy) element. -/
theorem C03_sub_self (x : Elem K) (hx : x.NF C) (hD : x.torsion ∣ C.defaultTorsion) :
    ∃ s, sub C x x = .ok s ∧ s.data = [] := by
  obtain ⟨s, hs⟩ := sub_ok (C := C) (x := x) (y := x) rfl
  have hst : s.torsion = x.torsion := torsion_congr (attrs_sub hs)
  refine ⟨s, hs, (nf_sub hs hx).data_eq_nil_iff.2 ?_⟩
  rw [hst, den_sub hs hx hx (cast_of_dvd hD) (tz rfl), sub_self]

/-- `x - y == x + (-y)`. -/
theorem C03_sub_eq_add_neg (x y : Elem K) (hx : x.NF C) (hy : y.NF C)
    (ht : x.torsion = y.torsion) (hD : x.torsion ∣ C.defaultTorsion) :
    ∃ s t, sub C x y = .ok s ∧ add C x (y.neg C) = .ok t ∧ pyEq s t = true := by
  obtain ⟨s, hs⟩ := sub_ok (C := C) ht
  have hny : (y.neg C).NF C := nf_smul hy _
  obtain ⟨t, ht'⟩ := add_ok (C := C) (x := x) (y := y.neg C) ht
  refine ⟨s, t, hs, ht', pyEq_of_den (n := x.torsion) (nf_sub hs hx) (nf_add ht' hx)
    (torsion_congr (attrs_sub hs)) (torsion_congr (attrs_add ht')) ?_⟩
  rw [den_sub hs hx hy (cast_of_dvd hD) (tz rfl),
    den_add ht' hx hny (cast_of_dvd hD) (tz rfl),
    den_neg hy (cast_of_dvd hD) (tz ht.symm), sub_eq_add_neg]

example : exX.NF exC ∧ exY.NF exC ∧ exX.torsion = exY.torsion ∧ exX.torsion ∣ exC.defaultTorsion :=
  ⟨exX_nf, exY_nf, by decide, by decide⟩
example : (add exC exX exY).toOption.map Elem.data = some [(1, 5), (4, 1)] := by decide

/-! ## C04 -/

theorem C04_smul_coeff (x : Elem K) (hx : x.NF C) (hD : x.torsion ∣ C.defaultTorsion) (c : Int)
    (k : K) : (smul C c x).coeff k ≡ c * x.coeff k [ZMOD x.torsion] := by
  have h1 := DFunLike.congr_fun
    (den_smul (R := ZMod x.torsion) hx c (cast_of_dvd hD) (tz rfl)) k
  rw [Finsupp.smul_apply, Dict.den_apply (nf_smul hx c).nodup, Dict.den_apply hx.nodup,
    smul_eq_mul, ← Int.cast_mul, ZMod.intCast_eq_intCast_iff] at h1
  exact h1

/-- `a * (b * x) == (a * b) * x`. -/
theorem C04_mul_smul (x : Elem K) (hx : x.NF C) (hD : x.torsion ∣ C.defaultTorsion) (a b : Int) :
    pyEq (smul C a (smul C b x)) (smul C (a * b) x) = true := by
  refine pyEq_of_den (n := x.torsion) (nf_smul (nf_smul hx b) a) (nf_smul hx _) rfl rfl ?_
  rw [den_smul (nf_smul hx b) _ (cast_of_dvd hD) (tz rfl),
    den_smul hx _ (cast_of_dvd hD) (tz rfl), den_smul hx _ (cast_of_dvd hD) (tz rfl), smul_smul]
  push_cast
  rfl

/-- `(a + b) * x == a * x + b * x`. -/
theorem C04_add_smul (x : Elem K) (hx : x.NF C) (hD : x.torsion ∣ C.defaultTorsion) (a b : Int) :
    ∃ s, add C (smul C a x) (smul C b x) = .ok s ∧ pyEq (smul C (a + b) x) s = true := by
  obtain ⟨s, hs⟩ := add_ok (C := C) (x := smul C a x) (y := smul C b x) rfl
  refine ⟨s, hs, pyEq_of_den (n := x.torsion) (nf_smul hx _) (nf_add hs (nf_smul hx a)) rfl
    ((torsion_congr (attrs_add hs)).trans (smul_torsion C a x)) ?_⟩
  rw [den_add hs (nf_smul hx a) (nf_smul hx b) (cast_of_dvd hD) (tz rfl),
    den_smul hx _ (cast_of_dvd hD) (tz rfl), den_smul hx _ (cast_of_dvd hD) (tz rfl),
    den_smul hx _ (cast_of_dvd hD) (tz rfl), ← add_smul]
  push_cast
  rfl

/-- `a * (x + y) == a * x + a * y`. -/
theorem C04_smul_add (x y s : Elem K) (hx : x.NF C) (hy : y.NF C)
    (hD : x.torsion ∣ C.defaultTorsion) (a : Int) (h : add C x y = .ok s) :
    ∃ t, add C (smul C a x) (smul C a y) = .ok t ∧ pyEq (smul C a s) t = true := by
  have ht : x.torsion = y.torsion := torsion_eq_of_add h
  have hs : s.torsion = x.torsion := torsion_congr (attrs_add h)
  obtain ⟨t, ht'⟩ := add_ok (C := C) (x := smul C a x) (y := smul C a y) ht
  refine ⟨t, ht', pyEq_of_den (n := x.torsion) (nf_smul (nf_add h hx) _)
    (nf_add ht' (nf_smul hx a)) hs
    ((torsion_congr (attrs_add ht')).trans (smul_torsion C a x)) ?_⟩
  rw [den_smul (nf_add h hx) _ (cast_of_dvd hD) (tz hs),
    den_add h hx hy (cast_of_dvd hD) (tz rfl),
    den_add ht' (nf_smul hx a) (nf_smul hy a) (cast_of_dvd hD) (tz rfl),
    den_smul hx _ (cast_of_dvd hD) (tz rfl), den_smul hy _ (cast_of_dvd hD) (tz ht.symm),
    smul_add]

/-- `1 * x == x`. -/
theorem C04_one_smul (x : Elem K) (hx : x.NF C) (hD : x.torsion ∣ C.defaultTorsion) :
    pyEq (smul C 1 x) x = true := by
  refine pyEq_of_den (n := x.torsion) (nf_smul hx _) hx rfl rfl ?_
  rw [den_smul hx _ (cast_of_dvd hD) (tz rfl)]
  simp

/-- `m * x == 0` whenever the torsion divides `m` (in particular `0 * x == 0` and `n * x == 0`). -/
theorem C04_torsion_smul (x : Elem K) (hx : x.NF C) (hD : x.torsion ∣ C.defaultTorsion) (m : Int)
    (hm : (x.torsion : Int) ∣ m) : (smul C m x).data = [] := by
  refine (nf_smul hx m).data_eq_nil_iff.2 ?_
  rw [show (smul C m x).torsion = x.torsion from rfl, den_smul hx _ (cast_of_dvd hD) (tz rfl)]
  have : ((m : Int) : ZMod x.torsion) = 0 := (ZMod.intCast_zmod_eq_zero_iff_dvd m x.torsion).2 hm
  rw [this, zero_smul]

example : (smul exC 3 exX).data = [(1, 3), (2, 3)] := by decide

/-! ## C05 -/

/-- All four operators raise `TypeError` exactly when the torsions differ. -/
theorem C05_error_iff (x y : Elem K) :
    (add C x y = .error .typeError ↔ x.torsion ≠ y.torsion) ∧
    (sub C x y = .error .typeError ↔ x.torsion ≠ y.torsion) ∧
    (iadd C x y = .error .typeError ↔ x.torsion ≠ y.torsion) ∧
    (isub C x y = .error .typeError ↔ x.torsion ≠ y.torsion) := by
  by_cases h : x.torsion = y.torsion
  · rw [add_eq h, sub_eq h, iadd_eq h, isub_eq h]
    simp [h]
  · simp [add, sub, iadd, isub, h]

/-- `x += y` leaves in `x` a value equal to `x + y`, with the attributes of `x`. -/
theorem C05_iadd_eq_add (x y : Elem K) (hx : x.NF C) (hy : y.NF C) (ht : x.torsion = y.torsion)
    (hD : x.torsion ∣ C.defaultTorsion) :
    ∃ s t, iadd C x y = .ok s ∧ add C x y = .ok t ∧ pyEq s t = true ∧ s.attrs = x.attrs := by
  obtain ⟨t, ht'⟩ := add_ok (C := C) ht
  have hs := iadd_eq (C := C) ht
  refine ⟨_, t, hs, ht', ?_, attrs_iadd hs⟩
  refine pyEq_of_den (n := x.torsion) (nf_iadd hs hx) (nf_add ht' hx)
    (torsion_congr (attrs_iadd hs)) (torsion_congr (attrs_add ht')) ?_
  rw [den_iadd hs hx hy (by simp), den_add ht' hx hy (cast_of_dvd hD) (tz rfl)]

/-- `x -= y` leaves in `x` a value equal to `x - y`, with the attributes of `x`. -/
theorem C05_isub_eq_sub (x y : Elem K) (hx : x.NF C) (hy : y.NF C) (ht : x.torsion = y.torsion)
    (hD : x.torsion ∣ C.defaultTorsion) :
    ∃ s t, isub C x y = .ok s ∧ sub C x y = .ok t ∧ pyEq s t = true ∧ s.attrs = x.attrs := by
  obtain ⟨t, ht'⟩ := sub_ok (C := C) ht
  have hs := isub_eq (C := C) ht
  refine ⟨_, t, hs, ht', ?_, attrs_isub hs⟩
  refine pyEq_of_den (n := x.torsion) (nf_isub hs hx) (nf_sub ht' hx)
    (torsion_congr (attrs_isub hs)) (torsion_congr (attrs_sub ht')) ?_
  rw [den_isub hs hx hy (by simp), den_sub ht' hx hy (cast_of_dvd hD) (tz rfl)]

example : (isub exC exX exY).toOption.map Elem.data = some [(1, 5), (4, 5)] := by decide

/-! ## C06 -/

/-- For torsion `n > 0` and `c` a unit modulo `n`, `x / c` succeeds and is the unique element
(in normal form, of the same torsion) whose `c`-multiple is `x`. -/
theorem C06_div (x : Elem K) (hx : x.NF C) (hD : x.torsion ∣ C.defaultTorsion)
    (hn : x.torsion ≠ 0) (c : Int) (hc : Int.gcd c x.torsion = 1) :
    ∃ z, truediv C x c = .ok z ∧ z.NF C ∧ z.torsion = x.torsion ∧ pyEq (smul C c z) x = true ∧
      ∀ w : Elem K, w.NF C → w.torsion = x.torsion → pyEq (smul C c w) x = true →
        pyEq w z = true := by
  obtain ⟨i, hi, hi'⟩ := powInv_ok hn hc
  have hz : truediv C x c = .ok (smul C i x) := by
    unfold truediv
    rw [if_neg hn, hi]
    rfl
  have hnf := nf_smul (C := C) hx i
  have hden : den (ZMod x.torsion) (smul C i x).data = (i : ZMod x.torsion) • den _ x.data :=
    den_smul hx _ (cast_of_dvd hD) (tz rfl)
  refine ⟨_, hz, hnf, rfl, ?_, ?_⟩
  · refine pyEq_of_den (n := x.torsion) (nf_smul hnf _) hx rfl rfl ?_
    rw [den_smul hnf _ (cast_of_dvd hD) (tz rfl), hden, smul_smul, ← Int.cast_mul, hi', one_smul]
  · intro w hw hwt hwx
    have hw1 := (pyEq_iff_den (nf_smul hw c) hx hwt).1 hwx
    rw [show (smul C c w).torsion = x.torsion from hwt,
      den_smul hw _ (cast_of_dvd hD) (tz hwt)] at hw1
    refine pyEq_of_den (n := x.torsion) hw hnf hwt rfl ?_
    rw [hden, ← hw1, smul_smul, ← Int.cast_mul, mul_comm i c, hi', one_smul]

/-- Division raises `TypeError` for torsion 0 and `ValueError` when `c` is not invertible. -/
theorem C06_div_error (x : Elem K) (c : Int) :
    (x.torsion = 0 → truediv C x c = .error .typeError) ∧
    (x.torsion ≠ 0 → Int.gcd c x.torsion ≠ 1 → truediv C x c = .error .valueError) := by
  constructor
  · intro h; unfold truediv; rw [if_pos h]
  · intro h h2
    unfold truediv
    rw [if_neg h, powInv_err h2]
    rfl

example : exX.torsion ≠ 0 ∧ Int.gcd 5 exX.torsion = 1 ∧ Int.gcd 4 exX.torsion ≠ 1 := by decide
example : (truediv exC exX 5).toOption.map Elem.data = some [(1, 1), (2, 3)] := by decide

/-! ## C07 -/

/-- After `x.set_torsion(n)` the coefficients are those of the old `x` modulo `n`. -/
theorem C07_setTorsion_coeff (x : Elem K) (hx : x.NF C) (n : Nat) (k : K) :
    (setTorsion C x n).NF C ∧ (setTorsion C x n).torsion = n ∧
      (setTorsion C x n).coeff k ≡ x.coeff k [ZMOD n] := by
  refine ⟨nf_setTorsion hx n, rfl, ?_⟩
  have h1 := DFunLike.congr_fun (den_setTorsion (R := ZMod n) hx n (by simp)) k
  rw [Dict.den_apply (nf_setTorsion hx n).nodup, Dict.den_apply hx.nodup,
    ZMod.intCast_eq_intCast_iff] at h1
  exact h1

/-- Changing to `m` and then to a divisor `n` of `m` is changing to `n` at once (with `m = n`:
`set_torsion` is idempotent; every `n` divides 0). -/
theorem C07_setTorsion_setTorsion (x : Elem K) (hx : x.NF C) (m n : Nat) (h : n ∣ m) :
    pyEq (setTorsion C (setTorsion C x m) n) (setTorsion C x n) = true := by
  refine pyEq_of_den (n := n) (nf_setTorsion (nf_setTorsion hx m) n) (nf_setTorsion hx n) rfl rfl ?_
  rw [den_setTorsion (nf_setTorsion hx m) n (by simp), den_setTorsion hx m (cast_of_dvd h),
    den_setTorsion hx n (by simp)]

/-- Reduction commutes with `+`, when the old torsion is a multiple of the new one. -/
theorem C07_setTorsion_add (x y s : Elem K) (hx : x.NF C) (hy : y.NF C) (n : Nat)
    (hn : n ∣ x.torsion) (hD : x.torsion ∣ C.defaultTorsion) (h : add C x y = .ok s) :
    ∃ t, add C (setTorsion C x n) (setTorsion C y n) = .ok t ∧
      pyEq (setTorsion C s n) t = true := by
  obtain ⟨t, ht⟩ := add_ok (C := C) (x := setTorsion C x n) (y := setTorsion C y n) rfl
  have hs := nf_add h hx
  refine ⟨t, ht, pyEq_of_den (n := n) (nf_setTorsion hs n) (nf_add ht (nf_setTorsion hx n)) rfl
    (torsion_congr (attrs_add ht)) ?_⟩
  rw [den_setTorsion hs n (by simp), den_add h hx hy (cast_of_dvd (hn.trans hD)) (cast_of_dvd hn),
    den_add ht (nf_setTorsion hx n) (nf_setTorsion hy n) (cast_of_dvd (hn.trans hD))
      (cast_of_dvd (dvd_refl n)), den_setTorsion hx n (by simp), den_setTorsion hy n (by simp)]

/-- Reduction commutes with `-`, when the old torsion is a multiple of the new one. -/
theorem C07_setTorsion_sub (x y s : Elem K) (hx : x.NF C) (hy : y.NF C) (n : Nat)
    (hn : n ∣ x.torsion) (hD : x.torsion ∣ C.defaultTorsion) (h : sub C x y = .ok s) :
    ∃ t, sub C (setTorsion C x n) (setTorsion C y n) = .ok t ∧
      pyEq (setTorsion C s n) t = true := by
  obtain ⟨t, ht⟩ := sub_ok (C := C) (x := setTorsion C x n) (y := setTorsion C y n) rfl
  have hs := nf_sub h hx
  refine ⟨t, ht, pyEq_of_den (n := n) (nf_setTorsion hs n) (nf_sub ht (nf_setTorsion hx n)) rfl
    (torsion_congr (attrs_sub ht)) ?_⟩
  rw [den_setTorsion hs n (by simp), den_sub h hx hy (cast_of_dvd (hn.trans hD)) (cast_of_dvd hn),
    den_sub ht (nf_setTorsion hx n) (nf_setTorsion hy n) (cast_of_dvd (hn.trans hD))
      (cast_of_dvd (dvd_refl n)), den_setTorsion hx n (by simp), den_setTorsion hy n (by simp)]

/-- Reduction commutes with scalar multiplication. -/
theorem C07_setTorsion_smul (x : Elem K) (hx : x.NF C) (n : Nat) (c : Int)
    (hn : n ∣ x.torsion) (hD : x.torsion ∣ C.defaultTorsion) :
    pyEq (setTorsion C (smul C c x) n) (smul C c (setTorsion C x n)) = true := by
  refine pyEq_of_den (n := n) (nf_setTorsion (nf_smul hx c) n) (nf_smul (nf_setTorsion hx n) c)
    rfl rfl ?_
  rw [den_setTorsion (nf_smul hx c) n (by simp),
    den_smul hx c (cast_of_dvd (hn.trans hD)) (cast_of_dvd hn),
    den_smul (nf_setTorsion hx n) c (cast_of_dvd (hn.trans hD)) (cast_of_dvd (dvd_refl n)),
    den_setTorsion hx n (by simp)]

/-- Without divisibility the two-step statement fails (6 → 4): not a defect, `set_torsion` has
already forgotten the multiples of 6. -/
example : pyEq (setTorsion exC (setTorsion exC (Elem.new exC [(1, 7)]) 6) 4)
    (setTorsion exC (Elem.new exC [(1, 7)]) 4) = false := by decide
example : 3 ∣ exX.torsion ∧ (setTorsion exC exX 3).data = [(1, 2)] := by decide

/-! ## C09 -/

/-- `x.create(data)` represents `data` (with the dropped keys removed) modulo the torsion of `x`
when the class `default_torsion` is a multiple of it. -/
theorem C09_create_coeff (x : Elem K) (d : Dict K) (hd : d.KeysNodup)
    (hD : x.torsion ∣ C.defaultTorsion) (k : K) :
    (create C x d).NF C ∧ (create C x d).torsion = x.torsion ∧
    (create C x d).coeff k ≡ (if C.drops k then 0 else d.get k) [ZMOD x.torsion] := by
  refine ⟨nf_create C x hd, rfl, ?_⟩
  have h1 := DFunLike.congr_fun
    (den_create (R := ZMod x.torsion) C x d (cast_of_dvd hD) (tz rfl)) k
  rw [Dict.den_apply (nf_create C x hd).nodup, pr_apply, Dict.den_apply hd] at h1
  split
  · rename_i hk
    rw [if_pos hk] at h1
    rw [← ZMod.intCast_eq_intCast_iff]
    simpa using h1
  · rename_i hk
    rw [if_neg hk, ZMod.intCast_eq_intCast_iff] at h1
    exact h1

/-- With another class attribute `default_torsion = 5`, an element of torsion 3 and the data
`{a: 7}` the result is wrong: `7 % 5 % 3 = 2`, but `7 % 3 = 1`. -/
theorem C09_create_wrong_default :
    ∃ (C : Cls Nat) (x : Elem Nat), x.NF C ∧ x.torsion = 3 ∧
      ¬ ((create C x [(1, 7)]).coeff 1 ≡ 7 [ZMOD 3]) := by
  refine ⟨{ defaultTorsion := 5, drops := fun _ => false },
    Elem.new { defaultTorsion := 5, drops := fun _ => false } [] (some 3), nf_new _ (by decide) _ _,
    rfl, by decide⟩

end

end Comch.Props
