import Verif.Spec.FreeModule
import Mathlib.Data.Finsupp.Basic
import Mathlib.LinearAlgebra.Finsupp.LinearCombination
import Mathlib.Data.ZMod.Basic
import Mathlib.Algebra.BigOperators.Group.List.Basic
import Mathlib.Tactic.Abel
import Mathlib.Tactic.Ring
import Mathlib.Tactic.Module

/-!
# Denotation of dictionaries as vectors

`den R d` is the vector of the free `R`-module on `K` represented by the dictionary `d`.
-/

set_option linter.unusedSectionVars false
set_option linter.unusedSimpArgs false

namespace Comch

open Finsupp

variable {K K' : Type}

/-- The vector represented by a dictionary (or by any list of pairs key/coefficient). -/
noncomputable def den (R : Type) [CommRing R] (d : List (K × Int)) : K →₀ R :=
  (d.map fun p => single p.1 (p.2 : R)).sum

section
variable {R : Type} [CommRing R]

@[simp] theorem den_nil : den R ([] : List (K × Int)) = 0 := rfl

@[simp] theorem den_cons (p : K × Int) (d : List (K × Int)) :
    den R (p :: d) = single p.1 (p.2 : R) + den R d := by simp [den]

@[simp] theorem den_append (d e : List (K × Int)) : den R (d ++ e) = den R d + den R e := by
  simp [den]

theorem den_flatMap {α : Type} (l : List α) (f : α → List (K × Int)) :
    den R (l.flatMap f) = (l.map fun a => den R (f a)).sum := by
  induction l with
  | nil => rfl
  | cons a l ih => simp [List.flatMap_cons, ih]

theorem den_flatten (l : List (List (K × Int))) : den R l.flatten = (l.map (den R)).sum := by
  induction l with
  | nil => rfl
  | cons a l ih => simp [ih]

theorem den_map {α : Type} (l : List α) (f : α → K × Int) :
    den R (l.map f) = (l.map fun a => single (f a).1 ((f a).2 : R)).sum := by
  induction l with
  | nil => rfl
  | cons a l ih => simp [ih]

/-- Scaling all coefficients. -/
theorem den_scale (c : Int) (d : List (K × Int)) :
    den R (d.map fun p => (p.1, c * p.2)) = (c : R) • den R d := by
  induction d with
  | nil => simp
  | cons p d ih => simp [ih]

/-- `den` as the value of a linear map: linear extension of `f`. -/
noncomputable def lin (f : K → (K' →₀ R)) : (K →₀ R) →ₗ[R] (K' →₀ R) := Finsupp.linearCombination R f

@[simp] theorem lin_single (f : K → (K' →₀ R)) (k : K) (r : R) :
    lin f (single k r) = r • f k := by simp [lin]

theorem lin_den (f : K → (K' →₀ R)) (d : List (K × Int)) :
    lin f (den R d) = (d.map fun p => (p.2 : R) • f p.1).sum := by
  induction d with
  | nil => simp
  | cons p d ih => simp [ih]

/-- Two linear maps out of `K →₀ R` agree if they agree on basis vectors. -/
theorem lin_ext {M : Type} [AddCommMonoid M] [Module R M] {f g : (K →₀ R) →ₗ[R] M}
    (h : ∀ k, f (single k 1) = g (single k 1)) : f = g := by
  apply Finsupp.lhom_ext'
  intro k
  ext
  simpa using h k

theorem lin_congr_of_support {M : Type} [AddCommMonoid M] [Module R M] {f g : (K →₀ R) →ₗ[R] M}
    (v : K →₀ R) (h : ∀ k ∈ v.support, f (single k 1) = g (single k 1)) : f v = g v := by
  classical
  have hv : v = v.sum fun k r => r • single k (1 : R) := by
    conv_lhs => rw [← Finsupp.sum_single v]
    apply Finsupp.sum_congr
    intro k _
    simp
  rw [hv, Finsupp.sum, map_sum, map_sum]
  apply Finset.sum_congr rfl
  intro k hk
  rw [map_smul, map_smul, h k hk]

/-- Events produced by a loop over the items of a dictionary. -/
theorem den_events (d : List (K × Int)) (ev : K → Int → List (K' × Int))
    (f : K → (K' →₀ R)) (h : ∀ p ∈ d, den R (ev p.1 p.2) = (p.2 : R) • f p.1) :
    den R (d.flatMap fun p => ev p.1 p.2) = lin f (den R d) := by
  rw [den_flatMap, lin_den]
  congr 1
  apply List.map_congr_left
  intro p hp
  exact h p hp

/-! ### projection to the keys that are not dropped -/

/-- Kill the basis vectors in `drops`. -/
noncomputable def pr (drops : K → Bool) : (K →₀ R) →ₗ[R] (K →₀ R) :=
  lin fun k => if drops k then 0 else single k 1

@[simp] theorem pr_single (drops : K → Bool) (k : K) (r : R) :
    pr drops (single k r) = if drops k then 0 else single k r := by
  unfold pr
  rw [lin_single]
  split <;> simp

@[simp] theorem pr_pr (drops : K → Bool) (v : K →₀ R) : pr drops (pr drops v) = pr drops v := by
  have : (pr drops).comp (pr drops) = (pr drops : (K →₀ R) →ₗ[R] (K →₀ R)) := by
    apply lin_ext
    intro k
    simp only [LinearMap.comp_apply, pr_single]
    split <;> simp_all
  exact LinearMap.congr_fun this v

theorem pr_apply (drops : K → Bool) (v : K →₀ R) (k : K) :
    pr drops v k = if drops k then 0 else v k := by
  classical
  induction v using Finsupp.induction_linear with
  | zero => simp
  | add f g hf hg => simp only [map_add, Finsupp.add_apply, hf, hg]; split <;> simp
  | single a r =>
    rw [pr_single]
    by_cases h : a = k
    · subst h; split <;> simp
    · by_cases h2 : drops a = true <;> simp [h2, Finsupp.single_apply, h]

theorem pr_eq_self {drops : K → Bool} {v : K →₀ R} (h : ∀ k, drops k = true → v k = 0) :
    pr drops v = v := by
  ext k
  rw [pr_apply]
  split
  · rename_i hk; exact (h k hk).symm
  · rfl

theorem pr_den_of_forall {drops : K → Bool} {d : List (K × Int)}
    (h : ∀ p ∈ d, drops p.1 = false) : pr drops (den R d) = den R d := by
  induction d with
  | nil => simp
  | cons p d ih =>
    simp only [List.mem_cons, forall_eq_or_imp] at h
    simp [ih h.2, h.1]

@[simp] theorem pr_false (v : K →₀ R) : pr (fun _ => false) v = v :=
  pr_eq_self (by simp)

/-- A linear map that respects dropped vectors can be applied before or after dropping. -/
theorem pr_lin_pr {drops : K → Bool} {drops' : K' → Bool} (f : (K →₀ R) →ₗ[R] (K' →₀ R))
    (h : ∀ k, drops k = true → pr drops' (f (single k 1)) = 0) (v : K →₀ R) :
    pr drops' (f (pr drops v)) = pr drops' (f v) := by
  have : ((pr drops').comp f).comp (pr drops) = (pr drops').comp f := by
    apply lin_ext
    intro k
    simp only [LinearMap.comp_apply, pr_single]
    split
    · rename_i hk; rw [h k hk]; simp
    · rfl
  exact LinearMap.congr_fun this v

end

/-! ### dictionary primitives -/

namespace Dict
variable [DecidableEq K]
variable {R : Type} [CommRing R]

theorem den_set (d : Dict K) (k : K) (v : Int) :
    den R (d.set k v) = den R d + single k ((v - d.get k : Int) : R) := by
  induction d with
  | nil => simp [set, get]
  | cons p d ih =>
    obtain ⟨k', v'⟩ := p
    simp only [set, get]
    split
    · subst_vars
      simp only [den_cons, Int.cast_sub, Finsupp.single_sub]
      abel
    · simp only [den_cons, ih]
      abel

theorem den_update (d e : Dict K) : den R (d.update e) = den R d + den R e := by
  unfold update
  induction e generalizing d with
  | nil => simp
  | cons p e ih => simp only [List.foldl_cons, ih, den_set, den_cons, add_sub_cancel_right]; abel

theorem den_subtract (d e : Dict K) : den R (d.subtract e) = den R d - den R e := by
  unfold subtract
  induction e generalizing d with
  | nil => simp
  | cons p e ih =>
    simp only [List.foldl_cons, ih, den_set, den_cons, sub_sub_cancel_left, Int.cast_neg,
      Finsupp.single_neg]
    abel

theorem mem_keys_set {d : Dict K} {k : K} {v : Int} {a : K} :
    a ∈ (d.set k v).map Prod.fst ↔ a ∈ d.map Prod.fst ∨ a = k := by
  induction d with
  | nil => simp [set]
  | cons p d ih =>
    obtain ⟨k', v'⟩ := p
    simp only [set]
    split
    · subst_vars; simp; tauto
    · simp only [List.map_cons, List.mem_cons, ih]; tauto

theorem KeysNodup.set {d : Dict K} (h : d.KeysNodup) (k : K) (v : Int) :
    (d.set k v).KeysNodup := by
  unfold KeysNodup at *
  induction d with
  | nil => simp [Dict.set]
  | cons p d ih =>
    obtain ⟨k', v'⟩ := p
    simp only [List.map_cons, List.nodup_cons] at h
    simp only [Dict.set]
    split
    · simpa using h
    · simp only [List.map_cons, List.nodup_cons, ih h.2, and_true, mem_keys_set]
      rintro (h1 | h1)
      · exact h.1 h1
      · contradiction

theorem KeysNodup.update {d : Dict K} (h : d.KeysNodup) (e : Dict K) : (d.update e).KeysNodup := by
  unfold Dict.update
  induction e generalizing d with
  | nil => exact h
  | cons p e ih => exact ih (h.set _ _)

theorem KeysNodup.subtract {d : Dict K} (h : d.KeysNodup) (e : Dict K) :
    (d.subtract e).KeysNodup := by
  unfold Dict.subtract
  induction e generalizing d with
  | nil => exact h
  | cons p e ih => exact ih (h.set _ _)

theorem keysNodup_ofPairs (l : List (K × Int)) : (Dict.ofPairs l).KeysNodup := by
  unfold Dict.ofPairs
  have : ∀ (l : List (K × Int)) (d : Dict K), d.KeysNodup →
      (l.foldl (fun d p => d.set p.1 p.2) d).KeysNodup := by
    intro l
    induction l with
    | nil => intro d h; exact h
    | cons p l ih => intro d h; exact ih _ (h.set _ _)
  exact this l [] (by simp [KeysNodup])

theorem set_of_not_mem {d : Dict K} {k : K} {v : Int} (h : k ∉ d.map Prod.fst) :
    d.set k v = d ++ [(k, v)] := by
  induction d with
  | nil => rfl
  | cons p d ih =>
    obtain ⟨k', v'⟩ := p
    simp only [List.map_cons, List.mem_cons, not_or] at h
    simp [Dict.set, Ne.symm h.1, ih h.2]

/-- A dict display with distinct keys is just the list of its pairs. -/
theorem ofPairs_eq {l : List (K × Int)} (h : (l.map Prod.fst).Nodup) : Dict.ofPairs l = l := by
  unfold Dict.ofPairs
  have : ∀ (l : List (K × Int)) (d : Dict K), ((d ++ l).map Prod.fst).Nodup →
      l.foldl (fun d p => d.set p.1 p.2) d = d ++ l := by
    intro l
    induction l with
    | nil => intro d _; simp
    | cons p l ih =>
      intro d h
      simp only [List.foldl_cons]
      rw [set_of_not_mem, ih]
      · simp
      · simpa using h
      · simp only [List.map_append, List.map_cons, List.nodup_append] at h
        intro hm
        exact (h.2.2 _ hm _ (List.mem_cons_self ..)) rfl
  simpa using this l [] (by simpa using h)

theorem get_of_not_mem {d : Dict K} {k : K} (h : k ∉ d.map Prod.fst) : d.get k = 0 := by
  induction d with
  | nil => rfl
  | cons p d ih =>
    obtain ⟨k', v'⟩ := p
    simp only [List.map_cons, List.mem_cons, not_or] at h
    simp [Dict.get, Ne.symm h.1, ih h.2]

theorem get_of_mem {d : Dict K} (hd : d.KeysNodup) {p : K × Int} (h : p ∈ d) :
    d.get p.1 = p.2 := by
  induction d with
  | nil => simp at h
  | cons q d ih =>
    obtain ⟨k', v'⟩ := q
    simp only [KeysNodup, List.map_cons, List.nodup_cons] at hd
    simp only [Dict.get]
    rcases List.mem_cons.1 h with rfl | h2
    · simp
    · have : k' ≠ p.1 := by
        rintro rfl
        exact hd.1 (List.mem_map_of_mem (f := Prod.fst) h2)
      simp [this, ih hd.2 h2]

theorem mem_of_get_ne_zero {d : Dict K} {k : K} (h : d.get k ≠ 0) : (k, d.get k) ∈ d := by
  induction d with
  | nil => simp [Dict.get] at h
  | cons q d ih =>
    obtain ⟨k', v'⟩ := q
    simp only [Dict.get] at h ⊢
    split
    · subst_vars; simp
    · rw [if_neg (by assumption)] at h
      exact List.mem_cons_of_mem _ (ih h)

/-- For a dict, the vector it denotes has the stored values as coordinates. -/
theorem den_apply {d : Dict K} (hd : d.KeysNodup) (k : K) : den R d k = ((d.get k : Int) : R) := by
  induction d with
  | nil => simp [Dict.get]
  | cons q d ih =>
    obtain ⟨k', v'⟩ := q
    simp only [KeysNodup, List.map_cons, List.nodup_cons] at hd
    simp only [Dict.get, den_cons, Finsupp.add_apply, ih hd.2, Finsupp.single_apply]
    split
    · subst_vars
      rw [get_of_not_mem hd.1]; simp
    · simp

end Dict

/-! ### elements -/

namespace Elem
variable [DecidableEq K] {R : Type} [CommRing R]

theorem den_zeroDropped (drops : K → Bool) (d : Dict K) :
    den R (zeroDropped drops d) = pr drops (den R d) := by
  unfold zeroDropped
  induction d with
  | nil => simp
  | cons p d ih =>
    simp only [List.map_cons, den_cons, ih, map_add, pr_single]
    split <;> simp

theorem den_filter_ne_zero (d : Dict K) : den R (d.filter fun p => p.2 ≠ 0) = den R d := by
  induction d with
  | nil => simp
  | cons p d ih =>
    rw [List.filter_cons]
    split
    · rw [den_cons, den_cons, ih]
    · rename_i h
      simp only [ne_eq, decide_not, Bool.not_eq_eq_eq_not, Bool.not_true, decide_eq_false_iff_not,
        Decidable.not_not] at h
      simp only [den_cons, h, Int.cast_zero, single_zero, zero_add]
      exact ih

theorem cast_emod {n : Nat} (hn : (n : R) = 0) (a : Int) : ((a % (n : Int) : Int) : R) = (a : R) := by
  conv_rhs => rw [← Int.emod_add_mul_ediv a n]
  push_cast
  simp [hn]

theorem den_basePreferredRep {n : Nat} (hn : (n : R) = 0) (d : Dict K) :
    den R (basePreferredRep n d) = den R d := by
  unfold basePreferredRep
  simp only
  rw [den_filter_ne_zero]
  split
  · induction d with
    | nil => simp
    | cons p d ih => simp [ih, cast_emod hn]
  · rfl

theorem den_preferredRep (C : Cls K) (x : Elem K) (hn : (x.torsion : R) = 0) :
    den R (preferredRep C x).data = pr C.drops (den R x.data) := by
  simp only [preferredRep]
  rw [den_basePreferredRep hn, den_zeroDropped]

@[simp] theorem preferredRep_attrs (C : Cls K) (x : Elem K) :
    (preferredRep C x).attrs = x.attrs := rfl

@[simp] theorem create_attrs (C : Cls K) (x : Elem K) (d : Dict K) :
    (create C x d).attrs = x.attrs := rfl

theorem den_new (C : Cls K) (d : Dict K) (t : Option Nat) (c : Convention)
    (hn : ((t.getD C.defaultTorsion : Nat) : R) = 0) :
    den R (new C d t c).data = pr C.drops (den R d) := den_preferredRep _ _ hn

theorem den_create (C : Cls K) (x : Elem K) (d : Dict K) (hD : (C.defaultTorsion : R) = 0)
    (hn : (x.torsion : R) = 0) : den R (create C x d).data = pr C.drops (den R d) := by
  refine (den_preferredRep C { new C d with attrs := x.attrs } hn).trans ?_
  show pr C.drops (den R (new C d).data) = _
  rw [den_new _ _ _ _ (by simpa using hD), pr_pr]

theorem den_iaddCore (C : Cls K) (x y : Elem K) (hn : (x.torsion : R) = 0) :
    den R (iaddCore C x y).data = pr C.drops (den R x.data + den R y.data) := by
  refine (den_preferredRep C { x with data := x.data.update y.data } hn).trans ?_
  show pr C.drops (den R (x.data.update y.data)) = _
  rw [Dict.den_update]

@[simp] theorem iaddCore_attrs (C : Cls K) (x y : Elem K) : (iaddCore C x y).attrs = x.attrs := rfl

@[simp] theorem accumulate_attrs (C : Cls K) (x : Elem K) (ev : List (K × Int)) :
    (accumulate C x ev).attrs = x.attrs := by
  unfold accumulate
  induction ev generalizing x with
  | nil => rfl
  | cons e ev ih => simp [ih]

theorem den_accumulate (C : Cls K) (x : Elem K) (ev : List (K × Int))
    (hD : (C.defaultTorsion : R) = 0) (hn : (x.torsion : R) = 0)
    (hx : pr C.drops (den R x.data) = den R x.data) :
    den R (accumulate C x ev).data = den R x.data + pr C.drops (den R ev) := by
  unfold accumulate
  induction ev generalizing x with
  | nil => simp
  | cons e ev ih =>
    have h1 : den R (iaddCore C x (create C x [(e.1, e.2)])).data =
        den R x.data + pr C.drops (single e.1 (e.2 : R)) := by
      rw [den_iaddCore _ _ _ hn, map_add, hx, den_create _ _ _ hD hn, pr_pr]
      simp
    simp only [List.foldl_cons]
    rw [ih (iaddCore C x (create C x [(e.1, e.2)])) hn (by rw [h1, map_add, hx, pr_pr]), h1, den_cons, map_add]
    abel

/-! ### normal forms -/

theorem basePreferredRep_sublist_keys (n : Nat) (d : Dict K) :
    ((basePreferredRep n d).map Prod.fst).Sublist (d.map Prod.fst) := by
  unfold basePreferredRep
  simp only
  refine (List.Sublist.map _ List.filter_sublist).trans ?_
  split
  · simp [Function.comp_def]
  · exact List.Sublist.refl _

theorem zeroDropped_keys (drops : K → Bool) (d : Dict K) :
    (zeroDropped drops d).map Prod.fst = d.map Prod.fst := by
  unfold zeroDropped
  rw [List.map_map]
  apply List.map_congr_left
  intro p _
  simp only [Function.comp]
  split <;> rfl

theorem mem_zeroDropped {drops : K → Bool} {d : Dict K} {p : K × Int}
    (h : p ∈ zeroDropped drops d) (hp : p.2 ≠ 0) : drops p.1 = false ∧ p ∈ d := by
  unfold zeroDropped at h
  simp only [List.mem_map] at h
  obtain ⟨q, hq, rfl⟩ := h
  split at hp
  · simp at hp
  · rename_i hd
    rw [if_neg hd]
    exact ⟨by simpa using hd, hq⟩

theorem nf_preferredRep (C : Cls K) (x : Elem K) (h : x.data.KeysNodup) :
    (preferredRep C x).NF C := by
  constructor
  · have := (basePreferredRep_sublist_keys x.torsion (zeroDropped C.drops x.data))
    rw [zeroDropped_keys] at this
    exact this.nodup h
  · intro p hp
    simp only [preferredRep, basePreferredRep, List.mem_filter] at hp
    simpa using hp.2
  · intro hn p hp
    change x.torsion ≠ 0 at hn
    simp only [preferredRep, basePreferredRep, List.mem_filter, if_pos hn, List.mem_map] at hp
    obtain ⟨⟨q, _, rfl⟩, _⟩ := hp
    have h0 : (0 : Int) < x.torsion := by omega
    exact ⟨Int.emod_nonneg _ h0.ne', Int.emod_lt_of_pos _ h0⟩
  · intro p hp
    simp only [preferredRep, basePreferredRep, List.mem_filter] at hp
    obtain ⟨hp1, hp2⟩ := hp
    split at hp1
    · simp only [List.mem_map] at hp1
      obtain ⟨q, hq, rfl⟩ := hp1
      refine (mem_zeroDropped hq ?_).1
      rintro h0
      simp [h0] at hp2
    · exact (mem_zeroDropped hp1 (by simpa using hp2)).1

theorem NF.pr_den {C : Cls K} {x : Elem K} (h : x.NF C) :
    pr C.drops (den R x.data) = den R x.data := pr_den_of_forall h.kept

theorem nf_new (C : Cls K) {d : Dict K} (h : d.KeysNodup) (t : Option Nat) (c : Convention) :
    (new C d t c).NF C := nf_preferredRep _ _ h

theorem nf_create (C : Cls K) (x : Elem K) {d : Dict K} (h : d.KeysNodup) :
    (create C x d).NF C := nf_preferredRep _ _ (nf_new C h none _).nodup

theorem nf_zero (C : Cls K) (x : Elem K) : (zero C x).NF C :=
  nf_create C x (by simp [Dict.KeysNodup])

theorem nf_iaddCore {C : Cls K} {x : Elem K} (h : x.data.KeysNodup) (y : Elem K) :
    (iaddCore C x y).NF C := nf_preferredRep _ _ (h.update _)

theorem nf_accumulate {C : Cls K} {x : Elem K} (h : x.NF C) (ev : List (K × Int)) :
    (accumulate C x ev).NF C := by
  unfold accumulate
  induction ev generalizing x with
  | nil => exact h
  | cons e ev ih => exact ih (nf_iaddCore h.nodup _)

@[simp] theorem zero_data (C : Cls K) (x : Elem K) : (zero C x).data = [] := by
  simp only [zero, create, preferredRep, new, basePreferredRep, zeroDropped]
  simp

@[simp] theorem zero_attrs (C : Cls K) (x : Elem K) : (zero C x).attrs = x.attrs := rfl

theorem den_accumulate_zero (C : Cls K) (x : Elem K) (ev : List (K × Int))
    (hD : (C.defaultTorsion : R) = 0) (hn : (x.torsion : R) = 0) :
    den R (accumulate C (x.zero C) ev).data = pr C.drops (den R ev) := by
  rw [den_accumulate C (x.zero C) ev hD hn (by simp)]
  simp

theorem cast_torsion (x : Elem K) : ((x.torsion : Nat) : ZMod x.torsion) = 0 := by simp

/-- Coefficients of normal forms are determined by their residues. -/
theorem NF.get_eq_of_den {C : Cls K} {x y : Elem K} (hx : x.NF C) (hy : y.NF C)
    (ht : x.torsion = y.torsion)
    (h : den (ZMod x.torsion) x.data = den (ZMod x.torsion) y.data) (k : K) :
    x.data.get k = y.data.get k := by
  have h1 := DFunLike.congr_fun h k
  rw [Dict.den_apply hx.nodup, Dict.den_apply hy.nodup, ZMod.intCast_eq_intCast_iff] at h1
  by_cases hn : x.torsion = 0
  · simpa [hn, Int.ModEq] using h1
  · have aux : ∀ z : Elem K, z.NF C → z.torsion = x.torsion →
        0 ≤ z.data.get k ∧ z.data.get k < x.torsion := by
      intro z hz hzt
      by_cases h0 : z.data.get k = 0
      · rw [h0]; omega
      · have := hz.coeff_range (by omega) _ (Dict.mem_of_get_ne_zero h0)
        rw [hzt] at this
        exact this
    have hx' := aux x hx rfl
    have hy' := aux y hy ht.symm
    unfold Int.ModEq at h1
    rwa [Int.emod_eq_of_lt hx'.1 hx'.2, Int.emod_eq_of_lt hy'.1 hy'.2] at h1

theorem pyEq_iff {C : Cls K} {x y : Elem K} (hx : x.NF C) (hy : y.NF C) :
    pyEq x y = true ↔ ∀ k, x.data.get k = y.data.get k := by
  unfold pyEq
  simp only [Bool.and_eq_true, List.all_eq_true, beq_iff_eq]
  constructor
  · rintro ⟨h1, h2⟩ k
    by_cases h0 : x.data.get k = 0
    · by_cases h0' : y.data.get k = 0
      · rw [h0, h0']
      · exact h2 _ (Dict.mem_of_get_ne_zero h0')
    · exact h1 _ (Dict.mem_of_get_ne_zero h0)
  · intro h
    constructor
    · intro p hp
      rw [← Dict.get_of_mem hx.nodup hp, h]
    · intro p hp
      rw [← Dict.get_of_mem hy.nodup hp]
      exact h _

theorem pyEq_iff_den {C : Cls K} {x y : Elem K} (hx : x.NF C) (hy : y.NF C)
    (ht : x.torsion = y.torsion) :
    pyEq x y = true ↔ den (ZMod x.torsion) x.data = den (ZMod x.torsion) y.data := by
  rw [pyEq_iff hx hy]
  constructor
  · intro h
    ext k
    rw [Dict.den_apply hx.nodup, Dict.den_apply hy.nodup, h]
  · intro h k
    exact hx.get_eq_of_den hy ht h k

theorem NF.data_eq_nil_iff {C : Cls K} {x : Elem K} (hx : x.NF C) :
    x.data = [] ↔ den (ZMod x.torsion) x.data = 0 := by
  constructor
  · intro h; rw [h]; rfl
  · intro h
    have h2 : ∀ k, x.data.get k = 0 := by
      intro k
      have := hx.get_eq_of_den (nf_zero C x) rfl (by rw [h]; simp) k
      simpa [Dict.get] using this
    rcases hd : x.data with _ | ⟨p, d⟩
    · rfl
    · have hp : p ∈ x.data := by rw [hd]; simp
      have := hx.coeff_ne p hp
      rw [← Dict.get_of_mem hx.nodup hp] at this
      exact absurd (h2 _) this

end Elem

end Comch
