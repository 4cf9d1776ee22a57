import Verif.Lib.Lin

/-! # Denotation of the operators of `FreeModuleElement` -/

set_option linter.unusedSectionVars false

namespace Comch
open Finsupp

namespace Elem
variable {K : Type} [DecidableEq K] {R : Type} [CommRing R]

theorem cast_of_dvd {n D : Nat} (h : n ∣ D) : ((D : Nat) : ZMod n) = 0 := by
  rwa [ZMod.natCast_eq_zero_iff]

theorem tz {a n : Nat} (h : a = n) : ((a : Nat) : ZMod n) = 0 := by subst h; simp

theorem add_eq {C : Cls K} {x y : Elem K} (h : x.torsion = y.torsion) :
    add C x y = .ok (iaddCore C (create C x x.data) y) := by
  unfold add
  rw [if_neg (by simpa using h)]
  rfl

theorem sub_eq {C : Cls K} {x y : Elem K} (h : x.torsion = y.torsion) :
    sub C x y = .ok (preferredRep C { create C x x.data with
      data := (create C x x.data).data.subtract y.data }) := by
  unfold sub
  rw [if_neg (by simpa using h)]

theorem torsion_eq_of_add {C : Cls K} {x y z : Elem K} (h : add C x y = .ok z) :
    x.torsion = y.torsion := by
  unfold add at h
  split at h
  · cases h
  · rename_i h'; simpa using h'

theorem torsion_eq_of_sub {C : Cls K} {x y z : Elem K} (h : sub C x y = .ok z) :
    x.torsion = y.torsion := by
  unfold sub at h
  split at h
  · cases h
  · rename_i h'; simpa using h'

theorem den_add {C : Cls K} {x y z : Elem K} (h : add C x y = .ok z) (hx : x.NF C) (hy : y.NF C)
    (hD : (C.defaultTorsion : R) = 0) (hn : (x.torsion : R) = 0) :
    den R z.data = den R x.data + den R y.data := by
  rw [add_eq (torsion_eq_of_add h)] at h
  cases h
  rw [den_iaddCore C (create C x x.data) y hn, den_create _ _ _ hD hn, map_add, pr_pr, hx.pr_den,
    hy.pr_den]

theorem den_sub {C : Cls K} {x y z : Elem K} (h : sub C x y = .ok z) (hx : x.NF C) (hy : y.NF C)
    (hD : (C.defaultTorsion : R) = 0) (hn : (x.torsion : R) = 0) :
    den R z.data = den R x.data - den R y.data := by
  rw [sub_eq (torsion_eq_of_sub h)] at h
  cases h
  refine (den_preferredRep C _ ?_).trans ?_
  · exact hn
  · show pr C.drops (den R ((create C x x.data).data.subtract y.data)) = _
    rw [Dict.den_subtract, den_create _ _ _ hD hn, map_sub, pr_pr, hx.pr_den, hy.pr_den]

theorem attrs_add {C : Cls K} {x y z : Elem K} (h : add C x y = .ok z) : z.attrs = x.attrs := by
  rw [add_eq (torsion_eq_of_add h)] at h
  cases h
  rfl

theorem attrs_sub {C : Cls K} {x y z : Elem K} (h : sub C x y = .ok z) : z.attrs = x.attrs := by
  rw [sub_eq (torsion_eq_of_sub h)] at h
  cases h
  rfl

theorem nf_add {C : Cls K} {x y z : Elem K} (h : add C x y = .ok z) (hx : x.NF C) : z.NF C := by
  rw [add_eq (torsion_eq_of_add h)] at h
  cases h
  exact nf_iaddCore (nf_create C x hx.nodup).nodup _

theorem nf_sub {C : Cls K} {x y z : Elem K} (h : sub C x y = .ok z) (hx : x.NF C) : z.NF C := by
  rw [sub_eq (torsion_eq_of_sub h)] at h
  cases h
  exact nf_preferredRep _ _ ((nf_create C x hx.nodup).nodup.subtract _)

theorem iadd_eq {C : Cls K} {x y : Elem K} (h : x.torsion = y.torsion) :
    iadd C x y = .ok (iaddCore C x y) := by
  unfold iadd
  rw [if_neg (by simpa using h)]

theorem isub_eq {C : Cls K} {x y : Elem K} (h : x.torsion = y.torsion) :
    isub C x y = .ok (preferredRep C { x with data := x.data.subtract y.data }) := by
  unfold isub
  rw [if_neg (by simpa using h)]

theorem torsion_eq_of_iadd {C : Cls K} {x y z : Elem K} (h : iadd C x y = .ok z) :
    x.torsion = y.torsion := by
  unfold iadd at h
  split at h
  · cases h
  · rename_i h'; simpa using h'

theorem torsion_eq_of_isub {C : Cls K} {x y z : Elem K} (h : isub C x y = .ok z) :
    x.torsion = y.torsion := by
  unfold isub at h
  split at h
  · cases h
  · rename_i h'; simpa using h'

theorem den_iadd {C : Cls K} {x y z : Elem K} (h : iadd C x y = .ok z) (hx : x.NF C)
    (hy : y.NF C) (hn : (x.torsion : R) = 0) :
    den R z.data = den R x.data + den R y.data := by
  rw [iadd_eq (torsion_eq_of_iadd h)] at h
  cases h
  rw [den_iaddCore C x y hn, map_add, hx.pr_den, hy.pr_den]

theorem den_isub {C : Cls K} {x y z : Elem K} (h : isub C x y = .ok z) (hx : x.NF C)
    (hy : y.NF C) (hn : (x.torsion : R) = 0) :
    den R z.data = den R x.data - den R y.data := by
  rw [isub_eq (torsion_eq_of_isub h)] at h
  cases h
  refine (den_preferredRep C _ ?_).trans ?_
  · exact hn
  · show pr C.drops (den R (x.data.subtract y.data)) = _
    rw [Dict.den_subtract, map_sub, hx.pr_den, hy.pr_den]

theorem attrs_iadd {C : Cls K} {x y z : Elem K} (h : iadd C x y = .ok z) : z.attrs = x.attrs := by
  rw [iadd_eq (torsion_eq_of_iadd h)] at h
  cases h
  rfl

theorem attrs_isub {C : Cls K} {x y z : Elem K} (h : isub C x y = .ok z) : z.attrs = x.attrs := by
  rw [isub_eq (torsion_eq_of_isub h)] at h
  cases h
  rfl

theorem nf_iadd {C : Cls K} {x y z : Elem K} (h : iadd C x y = .ok z) (hx : x.NF C) : z.NF C := by
  rw [iadd_eq (torsion_eq_of_iadd h)] at h
  cases h
  exact nf_iaddCore hx.nodup _

theorem nf_isub {C : Cls K} {x y z : Elem K} (h : isub C x y = .ok z) (hx : x.NF C) : z.NF C := by
  rw [isub_eq (torsion_eq_of_isub h)] at h
  cases h
  exact nf_preferredRep _ _ (hx.nodup.subtract _)

theorem keysNodup_scale {d : Dict K} (h : d.KeysNodup) (c : Int) :
    Dict.KeysNodup (d.map fun p => (p.1, c * p.2)) := by
  unfold Dict.KeysNodup at *
  simpa [Function.comp_def] using h

theorem nf_smul {C : Cls K} {x : Elem K} (hx : x.NF C) (c : Int) : (smul C c x).NF C :=
  nf_create _ _ (keysNodup_scale hx.nodup c)

@[simp] theorem smul_attrs (C : Cls K) (c : Int) (x : Elem K) : (smul C c x).attrs = x.attrs := rfl

@[simp] theorem smul_torsion (C : Cls K) (c : Int) (x : Elem K) :
    (smul C c x).torsion = x.torsion := rfl

theorem den_smul {C : Cls K} {x : Elem K} (hx : x.NF C) (c : Int)
    (hD : (C.defaultTorsion : R) = 0) (hn : (x.torsion : R) = 0) :
    den R (smul C c x).data = (c : R) • den R x.data := by
  unfold smul
  rw [den_create _ _ _ hD hn, den_scale, map_smul, hx.pr_den]

theorem den_neg {C : Cls K} {x : Elem K} (hx : x.NF C)
    (hD : (C.defaultTorsion : R) = 0) (hn : (x.torsion : R) = 0) :
    den R (neg C x).data = - den R x.data := by
  unfold neg
  rw [den_smul hx _ hD hn]
  simp

/-- `pow(c, -1, n)` succeeds exactly for units and returns an inverse. -/
theorem powInv_ok {c : Int} {n : Nat} (hn : n ≠ 0) (h : Int.gcd c n = 1) :
    ∃ i : Int, powInv c n = .ok i ∧ ((c * i : Int) : ZMod n) = 1 := by
  unfold powInv
  rw [if_pos h]
  have hex : ∃ i ∈ List.range n, (c * (i : Int)) % (n : Int) = 1 % (n : Int) := by
    have hb := Int.gcd_eq_gcd_ab c n
    rw [h] at hb
    have hpos : (0 : Int) < n := by omega
    refine ⟨(Int.gcdA c n % n).toNat, ?_, ?_⟩
    · rw [List.mem_range]
      have h1 := Int.emod_nonneg (Int.gcdA c n) hpos.ne'
      have h2 := Int.emod_lt_of_pos (Int.gcdA c n) hpos
      omega
    · rw [Int.toNat_of_nonneg (Int.emod_nonneg _ hpos.ne'), Int.mul_emod, Int.emod_emod,
        ← Int.mul_emod]
      conv_rhs => rw [show (1 : Int) = ((1 : Nat) : Int) from rfl, hb]
      rw [Int.add_mul_emod_self_left]
  rcases hf : (List.range n).find? (fun (i : Nat) => (c * (i : Int)) % (n : Int) = 1 % (n : Int))
    with _ | i
  · rw [List.find?_eq_none] at hf
    obtain ⟨i, hi, hi'⟩ := hex
    exact absurd hi' (by simpa using hf i hi)
  · refine ⟨i, rfl, ?_⟩
    have := List.find?_some hf
    have h2 : (c * (i : Int)) % (n : Int) = 1 % (n : Int) := by simpa using this
    have h3 := (ZMod.intCast_eq_intCast_iff (c * (i : Int)) 1 n).2 h2
    rw [h3]; simp

theorem powInv_err {c : Int} {n : Nat} (h : Int.gcd c n ≠ 1) : powInv c n = .error .valueError := by
  unfold powInv
  rw [if_neg h]

theorem setTorsion_torsion (C : Cls K) (x : Elem K) (n : Nat) :
    (setTorsion C x n).torsion = n := rfl

theorem nf_setTorsion {C : Cls K} {x : Elem K} (hx : x.NF C) (n : Nat) :
    (setTorsion C x n).NF C := nf_preferredRep _ _ hx.nodup

theorem den_setTorsion {C : Cls K} {x : Elem K} (hx : x.NF C) (n : Nat) (hn : (n : R) = 0) :
    den R (setTorsion C x n).data = den R x.data := by
  refine (den_preferredRep C _ ?_).trans ?_
  · exact hn
  · exact hx.pr_den

theorem eq_ok_of_not_error {α : Type} {x : Py α} (h : ∀ e, x ≠ .error e) : ∃ a, x = .ok a := by
  rcases x with e | a
  · exact absurd rfl (h e)
  · exact ⟨a, rfl⟩

theorem add_ok {C : Cls K} {x y : Elem K} (h : x.torsion = y.torsion) :
    ∃ z, add C x y = .ok z := ⟨_, add_eq h⟩

theorem sub_ok {C : Cls K} {x y : Elem K} (h : x.torsion = y.torsion) :
    ∃ z, sub C x y = .ok z := ⟨_, sub_eq h⟩

theorem torsion_congr {x y : Elem K} (h : x.attrs = y.attrs) : x.torsion = y.torsion := by
  rw [torsion, h]

theorem truthy_iff {x : Elem K} : x.truthy = true ↔ x.data ≠ [] := by
  unfold truthy
  rcases x.data with _ | _ <;> simp

/-- Comparing two normal forms through denotations over `ZMod n`. -/
theorem pyEq_of_den {C : Cls K} {x y : Elem K} {n : Nat} (hx : x.NF C) (hy : y.NF C)
    (htx : x.torsion = n) (hty : y.torsion = n)
    (h : den (ZMod n) x.data = den (ZMod n) y.data) : pyEq x y = true := by
  subst htx
  exact (pyEq_iff_den hx hy hty.symm).2 h

end Elem
end Comch
