import Verif.Lib.Tensor
import Verif.Lib.Common

/-! # Bilinear extension -/

set_option linter.unusedSectionVars false

namespace Comch
open Finsupp

variable {R : Type} [CommRing R] {K K1 K2 K3 : Type}

/-- Bilinear extension of `f`. -/
noncomputable def bil (f : K1 → K2 → (K3 →₀ R)) :
    (K1 →₀ R) →ₗ[R] (K2 →₀ R) →ₗ[R] (K3 →₀ R) :=
  Finsupp.linearCombination R fun a => lin (f a)

@[simp] theorem bil_single (f : K1 → K2 → (K3 →₀ R)) (a : K1) (b : K2) (r s : R) :
    bil f (single a r) (single b s) = (r * s) • f a b := by
  simp [bil, smul_smul]

theorem bil_bv (f : K1 → K2 → (K3 →₀ R)) (a : K1) (v : K2 →₀ R) :
    bil f (bv R a) v = lin (f a) v := by
  simp [bil]

theorem bil_single_left (f : K1 → K2 → (K3 →₀ R)) (a : K1) (r : R) (v : K2 →₀ R) :
    bil f (single a r) v = r • lin (f a) v := by
  simp [bil]

/-- Structural induction for vectors given by dictionaries. -/
theorem den_induction {P : (K →₀ R) → Prop} (d : List (K × Int)) (h0 : P 0)
    (hadd : ∀ u v, P u → P v → P (u + v)) (hs : ∀ p ∈ d, P (single p.1 (p.2 : R))) : P (den R d) := by
  induction d with
  | nil => exact h0
  | cons p d ih =>
    rw [den_cons]
    exact hadd _ _ (hs p (by simp)) (ih fun q hq => hs q (List.mem_cons_of_mem _ hq))

theorem bil_den (f : K1 → K2 → (K3 →₀ R)) (d : List (K1 × Int)) (e : List (K2 × Int)) :
    bil f (den R d) (den R e) =
      ((pyProduct d e).map fun pq => ((pq.1.2 * pq.2.2 : Int) : R) • f pq.1.1 pq.2.1).sum := by
  induction d with
  | nil => simp [pyProduct]
  | cons p d ih =>
    rw [den_cons, map_add, LinearMap.add_apply, ih]
    unfold pyProduct
    rw [List.flatMap_cons, List.map_append, List.sum_append, List.map_map]
    congr 1
    rw [bil_single_left]
    clear ih
    induction e with
    | nil => simp
    | cons q e ih =>
      rw [den_cons, map_add, smul_add, ih]
      simp [smul_smul]

theorem den_bil_events (f : K1 → K2 → (K3 →₀ R)) (d : List (K1 × Int)) (e : List (K2 × Int))
    (ev : (K1 × Int) × (K2 × Int) → List (K3 × Int))
    (h : ∀ p ∈ d, ∀ q ∈ e, den R (ev (p, q)) = ((p.2 * q.2 : Int) : R) • f p.1 q.1) :
    den R ((pyProduct d e).flatMap ev) = bil f (den R d) (den R e) := by
  rw [den_flatMap, bil_den]
  congr 1
  apply List.map_congr_left
  intro pq hpq
  rw [mem_pyProduct] at hpq
  exact h _ hpq.1 _ hpq.2

theorem den_bil_map (f : K1 → K2 → K3) (d : List (K1 × Int)) (e : List (K2 × Int)) :
    den R ((pyProduct d e).map fun pq => (f pq.1.1 pq.2.1, pq.1.2 * pq.2.2)) =
      bil (fun a b => bv R (f a b)) (den R d) (den R e) := by
  rw [den_map, bil_den]
  congr 1
  apply List.map_congr_left
  intro pq _
  simp

theorem bil_congr {f g : K1 → K2 → (K3 →₀ R)} (d : List (K1 × Int)) (e : List (K2 × Int))
    (h : ∀ p ∈ d, ∀ q ∈ e, f p.1 q.1 = g p.1 q.1) :
    bil f (den R d) (den R e) = bil g (den R d) (den R e) := by
  rw [bil_den, bil_den]
  congr 1
  apply List.map_congr_left
  intro pq hpq
  rw [mem_pyProduct] at hpq
  rw [h _ hpq.1 _ hpq.2]

end Comch

namespace Comch.Elem
open Finsupp
variable {K1 K2 K3 : Type} [DecidableEq K1] [DecidableEq K2] [DecidableEq K3]

/-- What is needed to know about a binary operation of the package: on admissible arguments of equal
torsion it does not raise and its value is given by a bilinear map. -/
def BilSpec (C3 : Cls K3) (P : Elem K1 → Prop) (Q : Elem K2 → Prop)
    (op : Elem K1 → Elem K2 → Py (Elem K3))
    (f : (n : Nat) → (K1 →₀ ZMod n) →ₗ[ZMod n] (K2 →₀ ZMod n) →ₗ[ZMod n] (K3 →₀ ZMod n)) : Prop :=
  ∀ x y n, P x → Q y → x.torsion = n → y.torsion = n → ∃ z, op x y = .ok z ∧ z.NF C3 ∧ z.torsion = n ∧
    den (ZMod n) z.data = f n (den _ x.data) (den _ y.data)

variable {C1 : Cls K1} {C2 : Cls K2} {C3 : Cls K3} {P : Elem K1 → Prop} {Q : Elem K2 → Prop}
  {op : Elem K1 → Elem K2 → Py (Elem K3)}
  {f : (n : Nat) → (K1 →₀ ZMod n) →ₗ[ZMod n] (K2 →₀ ZMod n) →ₗ[ZMod n] (K3 →₀ ZMod n)}

theorem BilSpec.add_left (h : BilSpec C3 P Q op f) (h1 : C1.defaultTorsion = 0)
    (h3 : C3.defaultTorsion = 0) {x x' s : Elem K1} {y : Elem K2} (nx : x.NF C1) (nx' : x'.NF C1)
    (hx : P x) (hx' : P x') (hy : Q y) (ht : x.torsion = y.torsion) (hs : add C1 x x' = .ok s)
    (hPs : P s) :
    ∃ a b c t, op x y = .ok a ∧ op x' y = .ok b ∧ op s y = .ok c ∧ add C3 a b = .ok t ∧
      pyEq c t = true := by
  have htx := torsion_eq_of_add hs
  have hst : s.torsion = y.torsion := (torsion_congr (attrs_add hs)).trans ht
  obtain ⟨a, ha, na, ta, da⟩ := h x y y.torsion hx hy ht rfl
  obtain ⟨b, hb, nb, tb, db⟩ := h x' y y.torsion hx' hy (htx.symm.trans ht) rfl
  obtain ⟨c, hc, nc, tc, dc⟩ := h s y y.torsion hPs hy hst rfl
  obtain ⟨t, hat⟩ := add_ok (C := C3) (x := a) (y := b) (by rw [ta, tb])
  refine ⟨a, b, c, t, ha, hb, hc, hat, pyEq_of_den nc (nf_add hat na) tc
    ((torsion_congr (attrs_add hat)).trans ta) ?_⟩
  rw [dc, den_add hat na nb (by rw [h3]; simp) (by rw [ta]; simp), da, db,
    den_add hs nx nx' (by rw [h1]; simp) (by rw [ht]; simp), map_add, LinearMap.add_apply]

theorem BilSpec.add_right (h : BilSpec C3 P Q op f) (h2 : C2.defaultTorsion = 0)
    (h3 : C3.defaultTorsion = 0) {x : Elem K1} {y y' s : Elem K2} (ny : y.NF C2) (ny' : y'.NF C2)
    (hx : P x) (hy : Q y) (hy' : Q y') (ht : x.torsion = y.torsion) (hs : add C2 y y' = .ok s)
    (hQs : Q s) :
    ∃ a b c t, op x y = .ok a ∧ op x y' = .ok b ∧ op x s = .ok c ∧ add C3 a b = .ok t ∧
      pyEq c t = true := by
  have htx := torsion_eq_of_add hs
  have hst : s.torsion = y.torsion := (torsion_congr (attrs_add hs))
  obtain ⟨a, ha, na, ta, da⟩ := h x y y.torsion hx hy ht rfl
  obtain ⟨b, hb, nb, tb, db⟩ := h x y' y.torsion hx hy' ht htx.symm
  obtain ⟨c, hc, nc, tc, dc⟩ := h x s y.torsion hx hQs ht hst
  obtain ⟨t, hat⟩ := add_ok (C := C3) (x := a) (y := b) (by rw [ta, tb])
  refine ⟨a, b, c, t, ha, hb, hc, hat, pyEq_of_den nc (nf_add hat na) tc
    ((torsion_congr (attrs_add hat)).trans ta) ?_⟩
  rw [dc, den_add hat na nb (by rw [h3]; simp) (by rw [ta]; simp), da, db,
    den_add hs ny ny' (by rw [h2]; simp) (by simp), map_add]

theorem BilSpec.smul_left (h : BilSpec C3 P Q op f) (h1 : C1.defaultTorsion = 0)
    (h3 : C3.defaultTorsion = 0) {x : Elem K1} {y : Elem K2} (nx : x.NF C1)
    (hx : P x) (hy : Q y) (ht : x.torsion = y.torsion) (c : Int) (hPs : P (smul C1 c x)) :
    ∃ a b, op x y = .ok a ∧ op (smul C1 c x) y = .ok b ∧ pyEq b (smul C3 c a) = true := by
  obtain ⟨a, ha, na, ta, da⟩ := h x y y.torsion hx hy ht rfl
  obtain ⟨b, hb, nb, tb, db⟩ := h _ y y.torsion hPs hy (by rw [smul_torsion, ht]) rfl
  refine ⟨a, b, ha, hb, pyEq_of_den nb (nf_smul na c) tb (by rw [smul_torsion, ta]) ?_⟩
  rw [db, den_smul na c (by rw [h3]; simp) (by rw [ta]; simp),
    den_smul nx c (by rw [h1]; simp) (by rw [ht]; simp), da, map_smul, LinearMap.smul_apply]

theorem BilSpec.smul_right (h : BilSpec C3 P Q op f) (h2 : C2.defaultTorsion = 0)
    (h3 : C3.defaultTorsion = 0) {x : Elem K1} {y : Elem K2} (ny : y.NF C2)
    (hx : P x) (hy : Q y) (ht : x.torsion = y.torsion) (c : Int) (hQs : Q (smul C2 c y)) :
    ∃ a b, op x y = .ok a ∧ op x (smul C2 c y) = .ok b ∧ pyEq b (smul C3 c a) = true := by
  obtain ⟨a, ha, na, ta, da⟩ := h x y y.torsion hx hy ht rfl
  obtain ⟨b, hb, nb, tb, db⟩ := h x _ y.torsion hx hQs ht (smul_torsion _ _ _)
  refine ⟨a, b, ha, hb, pyEq_of_den nb (nf_smul na c) tb (by rw [smul_torsion, ta]) ?_⟩
  rw [db, den_smul na c (by rw [h3]; simp) (by rw [ta]; simp),
    den_smul ny c (by rw [h2]; simp) (by simp), da, map_smul]

/-- If `x + x' = 0` then `op x y + op x' y = 0`. -/
theorem BilSpec.add_left_zero (h : BilSpec C3 P Q op f) (h1 : C1.defaultTorsion = 0)
    (h3 : C3.defaultTorsion = 0) {x x' s : Elem K1} {y : Elem K2} (nx : x.NF C1) (nx' : x'.NF C1)
    (hx : P x) (hx' : P x') (hy : Q y) (ht : x.torsion = y.torsion) (hs : add C1 x x' = .ok s)
    (hz : s.data = []) :
    ∃ a b t, op x y = .ok a ∧ op x' y = .ok b ∧ add C3 a b = .ok t ∧ t.data = [] := by
  have htx := torsion_eq_of_add hs
  obtain ⟨a, ha, na, ta, da⟩ := h x y y.torsion hx hy ht rfl
  obtain ⟨b, hb, nb, tb, db⟩ := h x' y y.torsion hx' hy (htx.symm.trans ht) rfl
  obtain ⟨t, hat⟩ := add_ok (C := C3) (x := a) (y := b) (by rw [ta, tb])
  refine ⟨a, b, t, ha, hb, hat, ?_⟩
  have tt : t.torsion = y.torsion := (torsion_congr (attrs_add hat)).trans ta
  rw [(nf_add hat na).data_eq_nil_iff, tt, den_add hat na nb (by rw [h3]; simp) (by rw [ta]; simp),
    da, db, ← LinearMap.add_apply, ← map_add, ← den_add hs nx nx' (by rw [h1]; simp) (by rw [ht]; simp),
    hz]
  simp

/-- If `y + y' = 0` then `op x y + op x y' = 0`. -/
theorem BilSpec.add_right_zero (h : BilSpec C3 P Q op f) (h2 : C2.defaultTorsion = 0)
    (h3 : C3.defaultTorsion = 0) {x : Elem K1} {y y' s : Elem K2} (ny : y.NF C2) (ny' : y'.NF C2)
    (hx : P x) (hy : Q y) (hy' : Q y') (ht : x.torsion = y.torsion) (hs : add C2 y y' = .ok s)
    (hz : s.data = []) :
    ∃ a b t, op x y = .ok a ∧ op x y' = .ok b ∧ add C3 a b = .ok t ∧ t.data = [] := by
  have htx := torsion_eq_of_add hs
  obtain ⟨a, ha, na, ta, da⟩ := h x y y.torsion hx hy ht rfl
  obtain ⟨b, hb, nb, tb, db⟩ := h x y' y.torsion hx hy' ht htx.symm
  obtain ⟨t, hat⟩ := add_ok (C := C3) (x := a) (y := b) (by rw [ta, tb])
  refine ⟨a, b, t, ha, hb, hat, ?_⟩
  have tt : t.torsion = y.torsion := (torsion_congr (attrs_add hat)).trans ta
  rw [(nf_add hat na).data_eq_nil_iff, tt, den_add hat na nb (by rw [h3]; simp) (by rw [ta]; simp),
    da, db, ← map_add, ← den_add hs ny ny' (by rw [h2]; simp) (by simp),
    hz]
  simp

end Comch.Elem
