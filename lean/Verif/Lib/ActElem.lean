import Verif.Lib.Act

/-! # `__rmul__` by a ring element, for classes of tensors -/

set_option linter.unusedSectionVars false

namespace Comch
open Spec IsPerm Elem
open Finsupp (single)

theorem bil_den_eq_lin {R : Type} [CommRing R] {K1 K2 K3 : Type} (f : K1 → K2 → (K3 →₀ R))
    (d : List (K1 × Int)) (v : K2 →₀ R) :
    bil f (den R d) v = (d.map fun p => (p.2 : R) • lin (f p.1) v).sum := by
  induction d with
  | nil => simp
  | cons p d ih => rw [den_cons, map_add, LinearMap.add_apply, ih, bil_single_left]; simp

variable {A : Type} [DecidableEq A] {r : Nat}

/-- Common form of `SimplicialElement.__rmul__` and `CubicalElement.__rmul__` (both are this by
`rfl`). -/
def rmulG (C : Cls (List A)) (w : A → Int) (other : RingElem) (x : Elem (List A)) :
    Py (Elem (List A)) :=
  if x.torsion ≠ other.torsion then .error .typeError
  else if (uniqueValue (x.data.map fun p => p.1.length)) ≠ other.arity then .error .typeError
  else do
    let events ← (pyProduct x.data other.data).mapM fun (p, q) => do
      let newKey ← permuteFactors q.1 p.1
      let e ← koszulExp q.1 (p.1.map fun c => w c % 2)
      .ok (newKey, pySign e * p.2 * q.2)
    .ok (Elem.accumulate C (x.zero C) events)

/-- Normalised, non-zero element all of whose keys have `r` factors. -/
structure HasArity (C : Cls (List A)) (r : Nat) (x : Elem (List A)) : Prop where
  nf : x.NF C
  ne : x.data ≠ []
  len : ∀ p ∈ x.data, p.1.length = r

theorem arityG_iff {x : Elem (List A)} :
    uniqueValue (x.data.map fun p => p.1.length) = some r ↔
      x.data ≠ [] ∧ ∀ p ∈ x.data, p.1.length = r := by
  rw [uniqueValue_eq_some]
  simp only [ne_eq, List.map_eq_nil_iff, List.mem_map, forall_exists_index, and_imp,
    forall_apply_eq_imp_iff₂]

theorem ringArity_eq {s : RingElem} (hs : InRing r s) (hne : s.data ≠ []) : s.arity = some r := by
  unfold RingElem.arity
  rw [uniqueValue_eq_some]
  refine ⟨by simpa using hne, ?_⟩
  intro b hb
  obtain ⟨p, hp, rfl⟩ := List.mem_map.1 hb
  exact pyMax_eq (hs.perm p hp)

theorem ringArity_none {s : RingElem} (h : s.data = []) : s.arity = none := by
  unfold RingElem.arity
  rw [h]
  rfl

variable {C : Cls (List A)} {w : A → Int} {dr : A → Bool}

/-- Events of the action. -/
def actEvents (w : A → Int) (other : RingElem) (x : Elem (List A)) : List (List A × Int) :=
  (pyProduct x.data other.data).map fun pq =>
    (actL pq.2.1 pq.1.1, pySign (kos w (pq.2.1.zip pq.1.1)) * pq.1.2 * pq.2.2)

theorem rmulG_eq {s : RingElem} {x : Elem (List A)} (hs : InRing r s) (hsn : s.data ≠ [])
    (hx : HasArity C r x) (ht : x.torsion = s.torsion) :
    rmulG C w s x = .ok (Elem.accumulate C (x.zero C) (actEvents w s x)) := by
  unfold rmulG
  rw [if_neg (by simpa using ht), if_neg (by
    rw [ringArity_eq hs hsn, arityG_iff.2 ⟨hx.ne, hx.len⟩]; simp)]
  have hm : (pyProduct x.data s.data).mapM (fun (pq : (List A × Int) × (Perm × Int)) => (do
      let newKey ← permuteFactors pq.2.1 pq.1.1
      let e ← koszulExp pq.2.1 (pq.1.1.map fun c => w c % 2)
      .ok (newKey, pySign e * pq.1.2 * pq.2.2) : Py (List A × Int))) =
      .ok (actEvents w s x) := by
    apply mapM_ok
    intro pq hpq
    rw [mem_pyProduct] at hpq
    have h1 := hs.perm _ hpq.2
    have h2 := hx.len _ hpq.1
    rw [permuteFactors_eq h1 h2, koszulExp_eq h1 (by simpa using h2)]
    simp only [bind, Except.bind]
    congr 3
    congr 1
    rw [kos_map]
    have := sg_kos_mod (R := Int) w (pq.2.1.zip pq.1.1)
    rw [← cast_pySign, ← cast_pySign] at this
    simpa using this
  simp only [bind] at hm ⊢
  rw [hm]
  rfl

theorem den_actEvents {n : Nat} {s : RingElem} {x : Elem (List A)} :
    den (ZMod n) (actEvents w s x) = bil (actK w) (den _ s.data) (den _ x.data) := by
  unfold actEvents
  rw [den_map]
  have h : bil (actK w) (den (ZMod n) s.data) (den _ x.data) =
      bil (fun k σ => actK w σ k) (den (ZMod n) x.data) (den _ s.data) := by
    generalize s.data = e
    induction e with
    | nil => simp
    | cons q e ih =>
      rw [den_cons, map_add, map_add, LinearMap.add_apply, ih]
      congr 1
      generalize x.data = d
      induction d with
      | nil => simp
      | cons p d ih2 =>
        rw [den_cons, map_add, ih2, map_add, LinearMap.add_apply]
        congr 1
        rw [bil_single, bil_single, mul_comm]
  rw [h, bil_den]
  congr 1
  apply List.map_congr_left
  intro pq _
  rw [actK, smul_smul, single_eq_smul_bv]
  congr 1
  push_cast
  rw [cast_pySign]
  ring

theorem lin_supported {R : Type} [CommRing R] {K K' : Type} {S : Set K} {T : Set K'}
    (f : K → (K' →₀ R)) (hf : ∀ k ∈ S, f k ∈ Finsupp.supported R R T) {v : K →₀ R}
    (hv : v ∈ Finsupp.supported R R S) : lin f v ∈ Finsupp.supported R R T := by
  rw [lin, Finsupp.linearCombination_apply, Finsupp.sum]
  apply Submodule.sum_mem
  intro k hk
  exact Submodule.smul_mem _ _ (hf k (hv (by simpa using hk)))

theorem mapK_supported {R : Type} [CommRing R] {K K' : Type} {S : Set K} {T : Set K'}
    (f : K → K') (hf : ∀ k ∈ S, f k ∈ T) {v : K →₀ R}
    (hv : v ∈ Finsupp.supported R R S) : mapK f v ∈ Finsupp.supported R R T :=
  lin_supported _ (fun k hk => Finsupp.single_mem_supported R _ (hf k hk)) hv

theorem tensK_supported {R : Type} [CommRing R] {A : Type} (d : A → (A →₀ R)) (w : A → Int)
    (k : List A) : tensK d w k ∈ Finsupp.supported R R {m : List A | m.length = k.length} := by
  induction k with
  | nil => simp [tensK]
  | cons a k ih =>
    rw [tensK, cat_one_bv]
    apply Submodule.add_mem
    · exact mapK_supported (S := Set.univ) _ (fun b _ => by simp) (by simp)
    · apply Submodule.smul_mem
      exact mapK_supported _ (fun m hm => by simpa using hm) ih

theorem den_supported {R : Type} [CommRing R] {K : Type} {S : Set K} {d : List (K × Int)}
    (h : ∀ p ∈ d, p.1 ∈ S) : den R d ∈ Finsupp.supported R R S := by
  refine den_induction (P := fun v => v ∈ Finsupp.supported R R S) d (Submodule.zero_mem _)
    (fun u v hu hv => Submodule.add_mem _ hu hv) ?_
  intro p hp
  exact Finsupp.single_mem_supported R _ (h p hp)

/-- The action on vectors. -/
noncomputable abbrev actV {R : Type} [CommRing R] (w : A → Int) :
    (Perm →₀ R) →ₗ[R] (List A →₀ R) →ₗ[R] (List A →₀ R) := bil (actK w)

section vectors
variable {R : Type} [CommRing R]

theorem actV_assoc {d e : List (Perm × Int)} {f : List (List A × Int)}
    (hd : ∀ p ∈ d, IsPerm r p.1) (he : ∀ p ∈ e, IsPerm r p.1) (hf : ∀ p ∈ f, p.1.length = r) :
    actV w (mulV (den R d) (den R e)) (den R f) = actV w (den R d) (actV w (den R e) (den R f)) := by
  refine den_induction (P := fun v => actV w (mulV v (den R e)) (den R f) =
    actV w v (actV w (den R e) (den R f))) d (by simp)
    (fun u v hu hv => by simp only [map_add, LinearMap.add_apply] at *; rw [hu, hv]) ?_
  intro p hp
  refine den_induction (P := fun v => actV w (mulV (single p.1 (p.2 : R)) v) (den R f) =
    actV w (single p.1 (p.2 : R)) (actV w v (den R f))) e (by simp)
    (fun u v hu hv => by simp only [map_add, LinearMap.add_apply] at *; rw [hu, hv]) ?_
  intro q hq
  refine den_induction (P := fun v => actV w (mulV (single p.1 (p.2 : R)) (single q.1 (q.2 : R))) v =
    actV w (single p.1 (p.2 : R)) (actV w (single q.1 (q.2 : R)) v)) f (by simp)
    (fun u v hu hv => by simp only [map_add] at *; rw [hu, hv]) ?_
  intro t ht
  rw [mulV_single, bil_single, bil_single, map_smul, bil_single_left,
    actK_actK w (hd p hp) (he q hq) (hf t ht), smul_smul]
  congr 1
  ring

theorem actV_id {f : List (List A × Int)} (hf : ∀ p ∈ f, p.1.length = r) :
    actV w (bv R (pyRange 1 (r + 1))) (den R f) = den R f := by
  refine den_induction (P := fun v => actV w (bv R (pyRange 1 (r + 1))) v = v) f (by simp)
    (fun u v hu hv => by simp only [map_add] at *; rw [hu, hv]) ?_
  intro p hp
  rw [bil_single, actK_id w (hf p hp)]
  simp

theorem pr_actV (hdr : C.drops = fun k => k.any dr) {d : List (Perm × Int)}
    {f : List (List A × Int)} (hd : ∀ p ∈ d, IsPerm r p.1)
    (hf : ∀ p ∈ f, p.1.length = r) :
    pr C.drops (actV w (den R d) (den R f)) = actV w (den R d) (pr C.drops (den R f)) := by
  refine den_induction (P := fun v => pr C.drops (actV w v (den R f)) =
    actV w v (pr C.drops (den R f))) d (by simp)
    (fun u v hu hv => by simp only [map_add, LinearMap.add_apply] at *; rw [hu, hv]) ?_
  intro p hp
  refine den_induction (P := fun v => pr C.drops (actV w (single p.1 (p.2 : R)) v) =
    actV w (single p.1 (p.2 : R)) (pr C.drops v)) f (by simp)
    (fun u v hu hv => by simp only [map_add] at *; rw [hu, hv]) ?_
  intro q hq
  have : C.drops (actL p.1 q.1) = C.drops q.1 := by
    rw [hdr]
    exact any_actL dr (hd p hp) (hf q hq)
  rw [bil_single, map_smul, actK, map_smul, pr_single, this, pr_single]
  split
  · simp
  · rw [bil_single]
    rfl

theorem tens_actV {dd : A → (A →₀ R)} (hdeg : ∀ a, sgn1 w (dd a) = - (sg R (w a) • dd a))
    {d : List (Perm × Int)} {f : List (List A × Int)} (hd : ∀ p ∈ d, IsPerm r p.1)
    (hf : ∀ p ∈ f, p.1.length = r) :
    tens dd w (actV w (den R d) (den R f)) = actV w (den R d) (tens dd w (den R f)) := by
  refine den_induction (P := fun v => tens dd w (actV w v (den R f)) =
    actV w v (tens dd w (den R f))) d (by simp)
    (fun u v hu hv => by simp only [map_add, LinearMap.add_apply] at *; rw [hu, hv]) ?_
  intro p hp
  refine den_induction (P := fun v => tens dd w (actV w (single p.1 (p.2 : R)) v) =
    actV w (single p.1 (p.2 : R)) (tens dd w v)) f (by simp)
    (fun u v hu hv => by simp only [map_add] at *; rw [hu, hv]) ?_
  intro q hq
  rw [bil_single, map_smul, tens_actK hdeg (hd p hp) (hf q hq), tens_single, map_smul,
    bil_single_left, smul_smul, mul_comm]

end vectors

theorem rmulG_ok (hC : C.defaultTorsion = 0) (hdr : C.drops = fun k => k.any dr) {s : RingElem}
    {x : Elem (List A)} (hs : InRing r s) (hsn : s.data ≠ []) (hx : HasArity C r x) {n : Nat}
    (ts : s.torsion = n) (tx : x.torsion = n) :
    ∃ z, rmulG C w s x = .ok z ∧ z.NF C ∧ z.attrs = x.attrs ∧ (∀ p ∈ z.data, p.1.length = r) ∧
      den (ZMod n) z.data = actV w (den _ s.data) (den _ x.data) := by
  refine ⟨_, rmulG_eq hs hsn hx (by rw [ts, tx]), nf_accumulate_zero _ _ _, by simp, ?_, ?_⟩
  · intro p hp
    have h := mem_keys_accumulate_zero (List.mem_map_of_mem (f := Prod.fst) hp)
    simp only [actEvents, List.map_map, List.mem_map, mem_pyProduct, Function.comp] at h
    obtain ⟨pq, hpq, h⟩ := h
    rw [← h]
    exact length_actL (hs.perm _ hpq.2) (hx.len _ hpq.1)
  · rw [den_accumulate_zero' _ _ _ hC tx, den_actEvents, pr_actV hdr hs.perm hx.len, hx.nf.pr_den]

/-- The whole behaviour of `__rmul__` when one of the operands is zero. -/
theorem rmulG_zero {s : RingElem} {x : Elem (List A)} (hs : InRing r s) (hlen : x.data ≠ [] → ∀ p ∈ x.data, p.1.length = r)
    (ht : x.torsion = s.torsion) :
    (s.data = [] → x.data ≠ [] → rmulG C w s x = .error .typeError) ∧
    (s.data ≠ [] → x.data = [] → rmulG C w s x = .error .typeError) := by
  constructor
  · intro h1 h2
    unfold rmulG
    rw [if_neg (by simpa using ht), if_pos]
    rw [ringArity_none h1, (arityG_iff (r := r)).2 ⟨h2, hlen h2⟩]
    simp
  · intro h1 h2
    unfold rmulG
    rw [if_neg (by simpa using ht), if_pos]
    rw [ringArity_eq hs h1, h2]
    simp [uniqueValue]

theorem rmulG_mismatch {s : RingElem} {x : Elem (List A)}
    (h : x.torsion ≠ s.torsion ∨ uniqueValue (x.data.map fun p => p.1.length) ≠ s.arity) :
    rmulG C w s x = .error .typeError := by
  unfold rmulG
  by_cases h1 : x.torsion ≠ s.torsion
  · rw [if_pos h1]
  · rw [if_neg h1, if_pos (h.resolve_left h1)]

/-! ### the combined statements -/

theorem rmulG_mul (hC : C.defaultTorsion = 0) (hdr : C.drops = fun k => k.any dr) {s t : RingElem}
    {x : Elem (List A)} (hs : InRing r s) (hsn : s.data ≠ []) (ht : InRing r t) (htn : t.data ≠ [])
    (hx : HasArity C r x) (ts : s.torsion = x.torsion) (tt : t.torsion = x.torsion) :
    ∃ st tx, RingElem.mul s t = .ok st ∧ rmulG C w t x = .ok tx ∧
      (st.data ≠ [] → tx.data ≠ [] → ∃ a b, rmulG C w s tx = .ok a ∧ rmulG C w st x = .ok b ∧
        pyEq a b = true) ∧
      (st.data = [] → tx.data ≠ [] → ∃ a, rmulG C w s tx = .ok a ∧ a.data = []) ∧
      (st.data ≠ [] → tx.data = [] → ∃ b, rmulG C w st x = .ok b ∧ b.data = []) := by
  obtain ⟨st, est, ist, ast, dst⟩ := RingElem.mul_ok hs ht (n := x.torsion) ts tt
  obtain ⟨tx, etx, ntx, atx, ltx, dtx⟩ := rmulG_ok (w := w) hC hdr ht htn hx (n := x.torsion) tt rfl
  have tst : st.torsion = x.torsion := (torsion_congr ast).trans ts
  have ttx : tx.torsion = x.torsion := torsion_congr atx
  have key := actV_assoc (R := ZMod x.torsion) (w := w) hs.perm ht.perm hx.len
  rw [← dst, ← dtx] at key
  refine ⟨st, tx, est, etx, ?_, ?_, ?_⟩
  · intro h1 h2
    obtain ⟨a, ea, na, aa, la, da⟩ := rmulG_ok (w := w) hC hdr hs hsn ⟨ntx, h2, ltx⟩ (n := x.torsion) ts ttx
    obtain ⟨b, eb, nb, ab, lb, db⟩ := rmulG_ok (w := w) hC hdr ist h1 hx (n := x.torsion) tst rfl
    refine ⟨a, b, ea, eb, pyEq_of_den na nb ((torsion_congr aa).trans ttx) (torsion_congr ab) ?_⟩
    rw [da, db, key]
  · intro h1 h2
    obtain ⟨a, ea, na, aa, la, da⟩ := rmulG_ok (w := w) hC hdr hs hsn ⟨ntx, h2, ltx⟩ (n := x.torsion) ts ttx
    refine ⟨a, ea, ?_⟩
    have : a.torsion = x.torsion := (torsion_congr aa).trans ttx
    rw [na.data_eq_nil_iff, this, da, ← key, h1]
    simp
  · intro h1 h2
    obtain ⟨b, eb, nb, ab, lb, db⟩ := rmulG_ok (w := w) hC hdr ist h1 hx (n := x.torsion) tst rfl
    refine ⟨b, eb, ?_⟩
    rw [nb.data_eq_nil_iff, torsion_congr ab, db, key, h2]
    simp

theorem rmulG_bilSpec (hC : C.defaultTorsion = 0) (hdr : C.drops = fun k => k.any dr) :
    BilSpec C (fun s : RingElem => InRing r s ∧ s.data ≠ []) (HasArity C r) (rmulG C w)
      (fun _ => actV w) := by
  intro s x n hs hx ts tx
  obtain ⟨z, ez, nz, az, lz, dz⟩ := rmulG_ok (w := w) hC hdr hs.1 hs.2 hx ts tx
  exact ⟨z, ez, nz, (torsion_congr az).trans tx, dz⟩

/-- Compatibility with the boundary: `bx`, `bz` are the boundaries of `x` and of `s * x`. -/
theorem rmulG_boundary (hC : C.defaultTorsion = 0) (hdr : C.drops = fun k => k.any dr)
    {s : RingElem} {x z bx bz : Elem (List A)}
    (dd : (n : Nat) → A → (A →₀ ZMod n))
    (hdeg : ∀ n a, sgn1 w (dd n a) = - (sg (ZMod n) (w a) • dd n a))
    (hs : InRing r s) (hsn : s.data ≠ [])
    (hx : HasArity C r x) (ts : s.torsion = x.torsion) (hz : rmulG C w s x = .ok z)
    (nbx : bx.NF C) (nbz : bz.NF C) (abx : bx.attrs = x.attrs) (abz : bz.attrs = z.attrs)
    (dbx : den (ZMod x.torsion) bx.data = pr C.drops (tens (dd x.torsion) w (den _ x.data)))
    (lbx : ∀ p ∈ bx.data, p.1.length = r)
    (dbz : ∀ n, z.torsion = n → den (ZMod n) bz.data = pr C.drops (tens (dd n) w (den _ z.data))) :
    (bx.data = [] → bz.data = []) ∧
    (bx.data ≠ [] → ∃ y, rmulG C w s bx = .ok y ∧ pyEq bz y = true) := by
  obtain ⟨z', ez, nz, az, lz, dz⟩ := rmulG_ok (w := w) hC hdr hs hsn hx (n := x.torsion) ts rfl
  cases hz.symm.trans ez
  have tz' : z.torsion = x.torsion := torsion_congr az
  have tbz : bz.torsion = x.torsion := (torsion_congr abz).trans tz'
  have h1 : den (ZMod x.torsion) bz.data =
      actV w (den _ s.data) (den (ZMod x.torsion) bx.data) := by
    rw [dbz _ tz', dz, tens_actV (hdeg _) hs.perm hx.len, dbx]
    -- `pr` commutes with the action on vectors of length `r`
    have hp : ∀ (v : List A →₀ ZMod x.torsion), (∀ k, k.length ≠ r → v k = 0) →
        pr C.drops (actV w (den _ s.data) v) = actV w (den _ s.data) (pr C.drops v) := by
      intro v hv
      rw [bil_den_eq_lin, bil_den_eq_lin, map_list_sum, List.map_map]
      congr 1
      apply List.map_congr_left
      intro p hp
      simp only [Function.comp, map_smul]
      congr 1
      show ((pr C.drops).comp (lin (actK w p.1))) v = ((lin (actK w p.1)).comp (pr C.drops)) v
      apply lin_congr_of_support
      intro k hk
      have hkr : k.length = r := by
        by_contra hc
        exact (Finsupp.mem_support_iff.1 hk) (hv k hc)
      have : C.drops (actL p.1 k) = C.drops k := by
        rw [hdr]
        exact any_actL dr (hs.perm p hp) hkr
      simp only [LinearMap.comp_apply, lin_single, one_smul, pr_single, actK, map_smul, this]
      split
      · simp
      · simp [actK]
    apply hp
    -- the differential keeps the number of factors
    intro k hk
    have h3 : tens (dd x.torsion) w (den (ZMod x.torsion) x.data) ∈
        Finsupp.supported (ZMod x.torsion) (ZMod x.torsion) {m : List A | m.length = r} := by
      refine lin_supported _ (fun k hk => ?_) (den_supported (S := {k : List A | k.length = r}) hx.len)
      have := tensK_supported (dd x.torsion) w k
      rwa [show k.length = r from hk] at this
    rw [Finsupp.mem_supported'] at h3
    exact h3 k hk
  constructor
  · intro h0
    rw [nbz.data_eq_nil_iff, tbz, h1, h0]
    simp
  · intro hne
    have hbx : HasArity C r bx := ⟨nbx, hne, lbx⟩
    obtain ⟨y, ey, ny, ay, ly, dy⟩ := rmulG_ok (w := w) hC hdr hs hsn hbx (n := x.torsion) ts
      (torsion_congr abx)
    exact ⟨y, ey, pyEq_of_den nbz ny tbz ((torsion_congr ay).trans (torsion_congr abx)) (by rw [h1, dy])⟩

/-! ### explicit coefficients -/

theorem isMoved_actL {σ : Perm} (hσ : IsPerm r σ) {k : List A} (hk : k.length = r) :
    IsMoved σ k (actL σ k) := by
  refine ⟨by rw [length_actL hσ hk, hk], ?_⟩
  intro j hj
  have hv := value_range hσ (i := j + 1) (by omega)
  have hl : j < σ.length := by rw [hσ.length]; omega
  have hval : value σ (j + 1) = σ[j] := value_eq_getElem (by omega) (by omega)
  have hz : (value σ (j + 1), k[j]) ∈ σ.zip k := by
    rw [List.mem_iff_getElem]
    refine ⟨j, by simp [hσ.length, hk]; omega, ?_⟩
    rw [List.getElem_zip, hval]
  rw [← (sortl_perm (σ.zip k)).mem_iff, sortl_zip hσ hk, List.mem_iff_getElem] at hz
  obtain ⟨m, hm1, hm2⟩ := hz
  rw [List.getElem_zip] at hm2
  simp only [Prod.mk.injEq, List.getElem_range'] at hm2
  have hmm : m = value σ (j + 1) - 1 := by omega
  subst hmm
  have hlen : value σ (j + 1) - 1 < (actL σ k).length := by rw [length_actL hσ hk]; omega
  rw [List.getElem?_eq_getElem hlen, List.getElem?_eq_getElem hj, hm2.2]

theorem isMoved_unique {σ : Perm} (hσ : IsPerm r σ) {k m m' : List A} (hk : k.length = r)
    (h : IsMoved σ k m) (h' : IsMoved σ k m') : m = m' := by
  apply List.ext_getElem?
  intro j
  by_cases hj : j < r
  · obtain ⟨i, hi, hiv⟩ := exists_value hσ (j := j + 1) (by omega)
    have h1 := h.2 (i - 1) (by omega)
    have h2 := h'.2 (i - 1) (by omega)
    rw [show i - 1 + 1 = i by omega, hiv, Nat.add_sub_cancel] at h1 h2
    rw [h1, h2]
  · rw [List.getElem?_eq_none (by rw [h.1]; omega), List.getElem?_eq_none (by rw [h'.1]; omega)]

theorem kos_eq_koszulExponent (w : A → Int) (wN : A → Nat) (σ : Perm) (k : List A)
    (h : ∀ a ∈ k, w a = wN a) : kos w (σ.zip k) = koszulExponent σ (k.map wN) := by
  induction σ generalizing k with
  | nil => rfl
  | cons s σ ih =>
    cases k with
    | nil => rfl
    | cons a k =>
      rw [List.zip_cons_cons, kos, List.map_cons, koszulExponent,
        ih k fun b hb => h b (List.mem_cons_of_mem _ hb), h a (by simp)]
      push_cast
      congr 2
      rw [List.zip_map_right, List.filter_map, List.map_map, List.map_map]
      congr 1
      apply List.map_congr_left
      intro y hy
      exact h y.2 (List.mem_cons_of_mem _ (List.of_mem_zip (List.mem_filter.1 hy).1).2)

theorem rmulG_coeff (hC : C.defaultTorsion = 0) {s : RingElem}
    {x z : Elem (List A)} (hs : InRing r s) (hsn : s.data ≠ []) (hx : HasArity C r x)
    (ts : s.torsion = x.torsion) (hz : rmulG C w s x = .ok z) (wN : A → Nat)
    (hw : ∀ p ∈ x.data, ∀ a ∈ p.1, w a = wN a) (m : List A) (hm : C.drops m = false) :
    z.coeff m ≡ (x.data.map fun p => (s.data.map fun q =>
      if IsMoved q.1 p.1 m then (-1) ^ koszulExponent q.1 (p.1.map wN) * p.2 * q.2 else 0).sum).sum
      [ZMOD x.torsion] := by
  rw [rmulG_eq hs hsn hx ts.symm] at hz
  cases hz
  refine (coeff_accumulate_zero x _ hC m hm).trans ?_
  refine congrArg (· % (x.torsion : Int)) ?_
  unfold actEvents pyProduct
  rw [List.map_flatMap, List.map_flatMap, sum_flatMap]
  congr 1
  apply List.map_congr_left
  intro p hp
  rw [List.map_map, List.map_map]
  congr 1
  apply List.map_congr_left
  intro q hq
  simp only [Function.comp]
  have h1 := hs.perm q hq
  have h2 := hx.len p hp
  have h3 : actL q.1 p.1 = m ↔ IsMoved q.1 p.1 m := by
    constructor
    · rintro rfl; exact isMoved_actL h1 h2
    · intro h; exact isMoved_unique h1 h2 (isMoved_actL h1 h2) h
  rw [kos_eq_koszulExponent w wN q.1 p.1 (hw p hp), pySign_natCast]
  simp only [h3]

end Comch
