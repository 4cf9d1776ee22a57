import Verif.Spec.Cochains
import Verif.Props.CupI
import Verif.Props.SteenrodChain

/-! # Evaluating cochains on tensors of simplices -/

set_option linter.unusedSectionVars false

namespace Comch.Coch
open Comch.Spec Elem SurjComp SurjElem IsPerm SurjMay Comch.Props
open BElem (stepV stepV_supported)
open Finsupp (single)

variable {R : Type} [CommRing R]

/-- Linear extension of `tensorValue`. -/
noncomputable def evF (L : List (Nat × (List Nat → R))) : (SKey →₀ R) →ₗ[R] R :=
  Finsupp.linearCombination R (tensorValue L)

@[simp] theorem evF_single (L : List (Nat × (List Nat → R))) (k : SKey) (c : R) :
    evF L (single k c) = c * tensorValue L k := by simp [evF]

theorem evalOn_eq {n : Nat} (L : List (Nat × (List Nat → ZMod n))) (u : SElem) :
    evalOn L u = evF L (den (ZMod n) u.data) := by
  unfold evalOn
  generalize u.data = d
  induction d with
  | nil => simp
  | cons p d ih => rw [List.map_cons, List.sum_cons, ih, den_cons, map_add, evF_single]

/-- One cochain on single simplices. -/
noncomputable def ev1 (q : Nat) (α : List Nat → R) : (List Nat →₀ R) →ₗ[R] R :=
  Finsupp.linearCombination R fun f => if f.length = q + 1 then α f else 0

@[simp] theorem ev1_single (q : Nat) (α : List Nat → R) (f : List Nat) (c : R) :
    ev1 q α (single f c) = c * (if f.length = q + 1 then α f else 0) := by simp [ev1]

theorem delK_eq_sum (f : List Nat) :
    delK (R := R) f = ((List.range f.length).map fun i => single (f.eraseIdx i) ((-1 : R) ^ i)).sum := by
  induction f with
  | nil => simp [delK]
  | cons a f ih =>
    have h : consV a (delK (R := R) f) =
        ((List.range f.length).map fun i => single (a :: f.eraseIdx i) ((-1 : R) ^ i)).sum := by
      rw [ih, map_list_sum, List.map_map]
      congr 1
      exact List.map_congr_left fun i _ => by simp
    rw [delK, h, List.length_cons, List.range_succ_eq_map, List.map_cons, List.sum_cons, List.map_map,
      sub_eq_add_neg]
    congr 1
    · simp
    · rw [List.sum_neg, List.map_map]
      congr 1
      refine List.map_congr_left fun i _ => ?_
      simp only [Function.comp, List.eraseIdx_cons_succ]
      rw [pow_succ, mul_neg_one, Finsupp.single_neg]

theorem ev1_delK (q : Nat) (α : List Nat → R) (f : List Nat) :
    ev1 q α (delK f) = if f.length = q + 2 then coboundary α f else 0 := by
  rw [delK_eq_sum, map_list_sum, List.map_map]
  split
  · rename_i h
    rw [coboundary, if_neg (by omega)]
    congr 1
    refine List.map_congr_left fun i hi => ?_
    have hi := List.mem_range.1 hi
    simp only [Function.comp, ev1_single]
    rw [if_pos (by rw [List.length_eraseIdx_of_lt hi]; omega)]
  · rename_i h
    refine List.sum_eq_zero fun x hx => ?_
    obtain ⟨i, hi, rfl⟩ := List.mem_map.1 hx
    have hi := List.mem_range.1 hi
    simp only [Function.comp, ev1_single]
    rw [if_neg (by rw [List.length_eraseIdx_of_lt hi]; omega), mul_zero]

theorem evF_cat_one (q : Nat) (α : List Nat → R) (L : List (Nat × (List Nat → R))) (u : List Nat →₀ R) (k : SKey) :
    evF ((q, α) :: L) (cat (one u) (bv R k)) = ev1 q α u * tensorValue L k := by
  induction u using Finsupp.induction_linear with
  | zero => simp
  | add f g hf hg => simp only [map_add, LinearMap.add_apply, hf, hg, add_mul]
  | single f c => simp [one, tensorValue, mul_assoc]

theorem evF_consV (q : Nat) (α : List Nat → R) (L : List (Nat × (List Nat → R))) (f : List Nat) (v : SKey →₀ R) :
    evF ((q, α) :: L) (consV f v) = (if f.length = q + 1 then α f else 0) * evF L v := by
  induction v using Finsupp.induction_linear with
  | zero => simp
  | add v w hv hw => simp only [map_add, hv, hw, mul_add]
  | single k c =>
    simp only [consV_single, evF_single, tensorValue]
    ring

/-- The tensor product of cocycles vanishes on boundaries. -/
theorem evF_tensK_cocycle {X : OrderedComplex} : ∀ (L : List (Nat × (List Nat → R))),
    (∀ p ∈ L, IsCocycle X p.1 p.2) → ∀ k : SKey, (∀ f ∈ k, f ∈ X.simplices) →
      evF L (tensK delK ldim k) = 0
  | L, hL, [], _ => by simp [tensK]
  | [], _, f :: k, hk => by
    rw [tensK, map_add, map_smul]
    have h1 : ∀ u : List Nat →₀ R, evF [] (cat (one u) (bv R k)) = 0 := by
      intro u
      induction u using Finsupp.induction_linear with
      | zero => simp
      | add f g hf hg => simp only [map_add, LinearMap.add_apply, hf, hg, add_zero]
      | single f c => simp [one, tensorValue]
    have h2 : ∀ v : SKey →₀ R, evF [] (consV f v) = 0 := by
      intro v
      induction v using Finsupp.induction_linear with
      | zero => simp
      | add v w hv hw => simp only [map_add, hv, hw, add_zero]
      | single k c => simp [tensorValue]
    rw [h1, h2, smul_zero, add_zero]
  | (q, α) :: L, hL, f :: k, hk => by
    rw [tensK, map_add, map_smul, evF_cat_one, evF_consV, ev1_delK,
      evF_tensK_cocycle L (fun p hp => hL p (by simp [hp])) k (fun f hf => hk f (by simp [hf])), mul_zero,
      smul_zero, add_zero]
    split
    · rename_i h
      rw [hL (q, α) (by simp) f (hk f (by simp)) h, zero_mul]
    · rw [zero_mul]

theorem sg_nat (a : Nat) : sg R (a : Int) = (-1) ^ a := by
  rw [sg_natCast]

/-- `(α ⊗ β)(∂(f ⊗ g)) = (δα ⊗ β)(f ⊗ g) + (-1)^a (α ⊗ δβ)(f ⊗ g)`. -/
theorem evF_tensK_pair (a b : Nat) (α β : List Nat → R) (k : SKey) (hk : k.length = 2) :
    evF [(a, α), (b, β)] (tensK delK ldim k) =
      tensorValue [(a + 1, coboundary α), (b, β)] k + (-1) ^ a * tensorValue [(a, α), (b + 1, coboundary β)] k := by
  obtain ⟨f, g, rfl⟩ := List.length_eq_two.1 hk
  rw [tensK, map_add, map_smul, evF_cat_one, evF_consV, ev1_delK, tensK, map_add, map_smul, evF_cat_one, ev1_delK,
    tensK]
  simp only [map_zero, smul_zero, add_zero, tensorValue, mul_one, smul_eq_mul]
  congr 1
  by_cases hf : f.length = a + 1
  · rw [if_pos hf, ldim, hf, show ((a + 1 : Nat) : Int) - 1 = (a : Int) by push_cast; ring, sg_nat]
    simp
  · simp [hf]

/-- Powers of one cochain are invariant under permutations of the factors. -/
theorem tensorValue_replicate (q : Nat) (α : List Nat → R) : ∀ (r : Nat) (k : SKey), k.length = r →
    tensorValue (List.replicate r (q, α)) k = (k.map fun f => if f.length = q + 1 then α f else 0).prod
  | 0, [], _ => by simp [tensorValue]
  | r + 1, f :: k, h => by
    rw [List.replicate_succ, tensorValue, tensorValue_replicate q α r k (by simpa using h)]
    simp

theorem kos_rho {A : Type} (deg : A → Int) (b : A) : ∀ (m j : Nat) (k : List A), 2 ≤ j → k.length = m →
    kos deg ((List.range' j m ++ [1]).zip (k ++ [b])) = deg b * (k.map deg).sum
  | 0, j, [], _, _ => by simp [kos]
  | m + 1, j, a :: k, hj, h => by
    have hl : k.length = m := by simpa using h
    rw [List.range'_succ, List.cons_append, List.cons_append, List.zip_cons_cons, kos,
      kos_rho deg b m (j + 1) k (by omega) hl, List.map_cons, List.sum_cons]
    have : ((List.range' (j + 1) m ++ [1]).zip (k ++ [b])).filter (fun y => y.1 < j) = [(1, b)] := by
      rw [List.zip_append (by simp [hl]), List.filter_append]
      have h0 : ((List.range' (j + 1) m).zip k).filter (fun y => y.1 < j) = [] := by
        rw [List.filter_eq_nil_iff]
        intro y hy
        have := List.mem_range'_1.1 (List.of_mem_zip hy).1
        simp
        omega
      rw [h0]
      simp
      omega
    rw [this]
    simp
    ring

theorem evF_actK_rho (p q : Nat) (α : List Nat → ZMod p) (hp : 1 ≤ p) (hp2 : p = 2 ∨ p % 2 = 1) {k : SKey}
    (hk : k.length = p) :
    evF (List.replicate p (q, α)) (actK (R := ZMod p) ldim (RingElem.rho p) k) =
      tensorValue (List.replicate p (q, α)) k := by
  have hρ := isPerm_rho hp
  rw [actK, map_smul, evF_single, one_mul, smul_eq_mul,
    tensorValue_replicate q α p k hk, tensorValue_replicate q α p _ (length_actL hρ hk),
    ((perm_actL hρ hk).map _).prod_eq]
  by_cases hq : ∀ f ∈ k, f.length = q + 1
  · have : sg (ZMod p) (kos ldim ((RingElem.rho p).zip k)) = 1 := by
      rcases hp2 with rfl | hodd
      · exact sg_two _
      · obtain ⟨m, rfl⟩ : ∃ m, p = 2 * m + 1 := ⟨p / 2, by omega⟩
        have hne : k ≠ [] := by intro h; rw [h] at hk; simp at hk
        have e := List.dropLast_append_getLast hne
        rw [← e, RingElem.rho, pyRange, show 2 * m + 1 + 1 - 2 = 2 * m by omega,
          kos_rho ldim _ (2 * m) 2 _ le_rfl (by rw [List.length_dropLast, hk]; rfl)]
        have hd : (k.dropLast.map ldim).sum = 2 * m * q := by
          have : k.dropLast.map ldim = List.replicate (2 * m) (q : Int) := by
            rw [List.eq_replicate_iff]
            refine ⟨by rw [List.length_map, List.length_dropLast, hk]; rfl, fun b hb => ?_⟩
            obtain ⟨f, hf, rfl⟩ := List.mem_map.1 hb
            rw [ldim, hq f (List.mem_of_mem_dropLast hf)]
            push_cast; ring
          rw [this]
          simp
        rw [hd, ldim, hq _ (List.getLast_mem hne)]
        rw [show ((q + 1 : Nat) : Int) - 1 = q by push_cast; ring,
          show (q : Int) * (2 * m * q) = ((2 * (m * q * q) : Nat) : Int) by push_cast; ring, sg_nat, pow_mul]
        simp
    rw [this, one_mul]
  · push Not at hq
    obtain ⟨f, hf, hne⟩ := hq
    have : (k.map fun f => if f.length = q + 1 then α f else 0).prod = 0 := by
      refine List.prod_eq_zero ?_
      exact List.mem_map.2 ⟨f, hf, if_neg hne⟩
    rw [this, mul_zero]

theorem evF_actK_pow (p q : Nat) (α : List Nat → ZMod p) (hp : 1 ≤ p) (hp2 : p = 2 ∨ p % 2 = 1) (j : Nat) {k : SKey}
    (hk : k.length = p) :
    evF (List.replicate p (q, α)) (actK (R := ZMod p) ldim (powL p (RingElem.rho p) j) k) =
      tensorValue (List.replicate p (q, α)) k := by
  induction j generalizing k with
  | zero =>
    rw [powL, actK_id _ hk, evF_single, one_mul]
  | succ j ih =>
    have hρ := isPerm_rho hp
    rw [powL, ← actK_actK ldim (isPerm_powL hρ j) hρ hk, actK, map_smul, lin_single, one_smul, map_smul,
      ih (length_actL hρ hk), ← evF_actK_rho p q α hp hp2 hk, actK, map_smul, evF_single, one_mul]

/-- Powers of one cochain vanish on the images of `T` and `N`. -/
theorem evF_step (p q : Nat) (α : List Nat → ZMod p) (hp : 1 ≤ p) (hp2 : p = 2 ∨ p % 2 = 1) (d : Nat)
    {v : SKey →₀ ZMod p} (hv : v ∈ Finsupp.supported (ZMod p) (ZMod p) {m : SKey | m.length = p}) :
    evF (List.replicate p (q, α)) (actV ldim (stepV (ZMod p) p d) v) = 0 := by
  have := BElem.lin_ext_supported (R := ZMod p) (S := {m : SKey | m.length = p})
    (f := (Finsupp.lsingle (0 : Nat)).comp ((evF (List.replicate p (q, α))).comp (actV ldim (stepV (ZMod p) p d)))) (g := 0)
    (fun m hm => by
      have hm : m.length = p := hm
      simp only [LinearMap.comp_apply, LinearMap.zero_apply]
      rw [show evF (List.replicate p (q, α)) (actV ldim (stepV (ZMod p) p d) (bv (ZMod p) m)) = 0 from ?_, map_zero]
      unfold stepV
      split
      · unfold nV
        rw [map_list_sum, List.map_map]
        rw [show (List.map ((actV (R := ZMod p) ldim) ∘ fun k => bv (ZMod p) (powL p (RingElem.rho p) k)) (List.range p)).sum
          (bv (ZMod p) m) = ((List.range p).map fun j => actK (R := ZMod p) ldim (powL p (RingElem.rho p) j) m).sum from ?_]
        · rw [map_list_sum, List.map_map]
          show (List.map (fun j => evF (List.replicate p (q, α)) (actK (R := ZMod p) ldim (powL p (RingElem.rho p) j) m))
            (List.range p)).sum = 0
          rw [List.map_congr_left (g := fun _ => tensorValue (List.replicate p (q, α)) m)
            (fun j _ => evF_actK_pow p q α hp hp2 j hm)]
          simp
        · generalize List.range p = l
          induction l with
          | nil => simp
          | cons j l ih => simp only [List.map_cons, List.sum_cons, LinearMap.add_apply, ih, Function.comp, bil_bv,
              lin_single, one_smul]
      · unfold tV
        rw [map_sub, LinearMap.sub_apply, map_sub, bil_bv, bil_bv, lin_single, lin_single, one_smul, one_smul,
          evF_actK_rho p q α hp hp2 hm, actK_id _ hm, evF_single, one_mul, sub_self]) hv
  simp only [LinearMap.comp_apply, LinearMap.zero_apply, Finsupp.lsingle_apply] at this
  exact Finsupp.single_eq_zero.1 this

/-- Two linear maps to the ring agreeing on keys. -/
theorem fun_ext_supported {S : Set SKey} {f g : (SKey →₀ R) →ₗ[R] R} (h : ∀ m ∈ S, f (bv R m) = g (bv R m))
    {v : SKey →₀ R} (hv : v ∈ Finsupp.supported R R S) : f v = g v := by
  have := BElem.lin_ext_supported (R := R) (S := S) (f := (Finsupp.lsingle (0 : Nat)).comp f)
    (g := (Finsupp.lsingle (0 : Nat)).comp g) (fun m hm => by
      simp only [LinearMap.comp_apply]
      rw [h m hm]) hv
  simp only [LinearMap.comp_apply, Finsupp.lsingle_apply] at this
  exact Finsupp.single_injective _ this

/-- The images of `T` and `N` for two cochains. -/
theorem evF_step_pair (d a b : Nat) (α β : List Nat → R)
    {v : SKey →₀ R} (hv : v ∈ Finsupp.supported R R {m : SKey | m.length = 2}) :
    evF [(a, α), (b, β)] (actV ldim (stepV R 2 d) v) =
      (-1) ^ (a * b) * evF [(b, β), (a, α)] v + (-1) ^ d * evF [(a, α), (b, β)] v := by
  have := fun_ext_supported (R := R) (S := {m : SKey | m.length = 2})
    (f := (evF [(a, α), (b, β)]).comp (actV ldim (stepV R 2 d)))
    (g := ((-1) ^ (a * b) : R) • evF [(b, β), (a, α)] + ((-1) ^ d : R) • evF [(a, α), (b, β)]) (fun m hm => by
      obtain ⟨f, g, rfl⟩ := List.length_eq_two.1 (show m.length = 2 from hm)
      have e1 : evF [(a, α), (b, β)] (actK (R := R) ldim [2, 1] [f, g]) =
          (-1) ^ (a * b) * tensorValue [(b, β), (a, α)] [f, g] := by
        have : actL [2, 1] [f, g] = [g, f] := by
          simp [actL, sortl, List.insertionSort, List.orderedInsert]
        rw [actK, this, map_smul, evF_single, one_mul, smul_eq_mul]
        by_cases hf : f.length = b + 1
        · by_cases hg : g.length = a + 1
          · have : kos ldim (List.zip [2, 1] [f, g]) = ((a * b : Nat) : Int) := by
              have h1 : (List.length f : Int) = b + 1 := by rw [hf]; push_cast; ring
              have h2 : (List.length g : Int) = a + 1 := by rw [hg]; push_cast; ring
              simp only [List.zip_cons_cons, kos, ldim, h1, h2]
              simp [kos, ldim, h2]
              ring
            rw [this, sg_nat]
            simp only [tensorValue, hf, hg, if_true]
            ring
          · simp [tensorValue, hg]
        · simp [tensorValue, hf]
      have e2 : evF [(a, α), (b, β)] (actK (R := R) ldim [1, 2] [f, g]) = tensorValue [(a, α), (b, β)] [f, g] := by
        have := actK_id (R := R) (r := 2) ldim (k := [f, g]) rfl
        rw [show pyRange 1 (2 + 1) = [1, 2] by rfl] at this
        rw [this, evF_single, one_mul]
      simp only [LinearMap.comp_apply, LinearMap.add_apply, LinearMap.smul_apply, evF_single, one_mul, smul_eq_mul]
      unfold stepV
      split
      · rename_i h
        have : nV R 2 = bv R [1, 2] + bv R [2, 1] := by
          unfold nV
          rw [show List.range 2 = [0, 1] by rfl]
          simp only [List.map_cons, List.map_nil, List.sum_cons, List.sum_nil, add_zero]
          rfl
        rw [this, map_add, LinearMap.add_apply, map_add, bil_bv, bil_bv, lin_single, lin_single, one_smul, one_smul,
          e1, e2, (Nat.even_iff.2 h).neg_one_pow (α := R)]
        ring
      · rename_i h
        rw [show tV R 2 = bv R [2, 1] - bv R [1, 2] by rfl, map_sub, LinearMap.sub_apply, map_sub, bil_bv, bil_bv,
          lin_single, lin_single, one_smul, one_smul, e1, e2,
          (Nat.odd_iff.2 (Nat.mod_two_ne_zero.1 h)).neg_one_pow (α := R)]
        ring) hv
  simpa only [LinearMap.comp_apply, LinearMap.add_apply, LinearMap.smul_apply, smul_eq_mul] using this

variable {r n d : Nat}

/-- The action of the structure elements on chains. -/
noncomputable def W (r n d : Nat) : (SKey →₀ ZMod n) →ₗ[ZMod n] (SKey →₀ ZMod n) :=
  (pr lany).comp (callV (ZMod n) r d 0 (convS .mcClureSmith (psiS (ZMod n) r d)))

theorem W_ok (hr : 2 ≤ r) (hn : n ≠ 1) {y : SElem} {e : Int} (hy : y.NF simplicial)
    (hk : ∀ p ∈ y.data, SElem.keyDegree p.1 = e ∧ p.1.length = 1) (ty : y.torsion = n) :
    ∃ x z, Surjection.maySteenrodStructure r d (some n) .mcClureSmith = .ok x ∧ callSimplicial x y = .ok z ∧
      z.NF simplicial ∧ z.attrs = y.attrs ∧ den (ZMod n) z.data = W r n d (den _ y.data) := by
  obtain ⟨x, ex, ix, tx, cx, -, -, dx, -⟩ := C56_psi_ok .mcClureSmith hr d n hn
  obtain ⟨x', ex', ix', ax', dx'⟩ := surjMay_ok .mcClureSmith hr d n
  cases ex.symm.trans ex'
  obtain ⟨z, ez, nz, az, dz⟩ := call_ok ix (fun p hp => sdeg_of_degree ix dx hp) cx hy hk tx ty le_rfl le_rfl
  refine ⟨x, z, ex, ez, nz, az, ?_⟩
  rw [dz, dx']
  rfl

theorem W_zero (hr : 2 ≤ r) (hn : n ≠ 1) {y : SElem} {e : Int} (hy : y.NF simplicial)
    (hyd : y.degree = some e) (hya : y.arity = some 1) (ty : y.torsion = n) :
    pr lany (simplicialD (W r n 0 (den (ZMod n) y.data))) = W r n 0 (pr lany (simplicialD (den (ZMod n) y.data))) := by
  have hk := homogeneous_keys hyd hya
  have hkb := homogeneous_keys_boundary hyd hya
  have tyb : y.boundary.torsion = n := by rw [torsion_congr (Props.boundary_attrs y), ty]
  obtain ⟨x, ex, ix, tx, cx, -, -, dx, -⟩ := C56_psi_ok .mcClureSmith hr 0 n hn
  obtain ⟨u, zx, ub, t, eu, ezx, eub, et, h⟩ := C52_chain_map ix dx cx hy hyd hya (by rw [ty, tx]) le_rfl le_rfl
  obtain ⟨x', z, ex', ez, nz, az, dz⟩ := W_ok (d := 0) hr hn hy hk ty
  cases ex.symm.trans ex'
  cases eu.symm.trans ez
  obtain ⟨x', zb, ex', ezb, nzb, azb, dzb⟩ := W_ok (d := 0) hr hn (Props.nf_boundary y) hkb tyb
  cases ex.symm.trans ex'
  cases eub.symm.trans ezb
  have hb : x.boundary.data = [] := by
    by_contra hne
    obtain ⟨p, hp⟩ := List.exists_mem_of_ne_nil _ hne
    have := sdeg_boundary ix dx p hp
    simp at this
  obtain ⟨zx', ezx', dzx, azx⟩ := C52_zero (x := x.boundary) (y := y) (coord := 1) (Or.inl hb)
  cases ezx.symm.trans ezx'
  have tz : u.torsion = n := (torsion_congr az).trans ty
  have tzx : zx.torsion = n := (torsion_congr azx).trans ty
  have tzb : ub.torsion = n := (torsion_congr azb).trans tyb
  have nzx : zx.NF simplicial := nf_callSimplicial ezx
  have h1 := (pyEq_iff_den (Props.nf_boundary u) (nf_add et nzx) (by
    rw [torsion_congr (Props.boundary_attrs u), torsion_congr (attrs_add et), tz, tzx])).1 h
  rw [torsion_congr (Props.boundary_attrs u), tz] at h1
  rw [Props.den_boundary u tz, den_add (R := ZMod n) et nzx (nf_smul nzb _) (by simp) (by rw [tzx]; simp),
    den_smul nzb _ (by simp) (by rw [tzb]; simp), dzx, den_nil, zero_add, dz, dzb, Props.den_boundary y ty,
    simplicial_drops_lany] at h1
  rw [h1, cast_pySign]
  simp

theorem W_succ (hr : 2 ≤ r) (hn : n ≠ 1) {y : SElem} {e : Int} (hy : y.NF simplicial)
    (hyd : y.degree = some e) (hya : y.arity = some 1) (ty : y.torsion = n) :
    pr lany (simplicialD (W r n (d + 1) (den (ZMod n) y.data))) =
      actV ldim (stepV (ZMod n) r (d + 1)) (W r n d (den (ZMod n) y.data)) +
        sg (ZMod n) (d + 1) • W r n (d + 1) (pr lany (simplicialD (den (ZMod n) y.data))) := by
  have hk := homogeneous_keys hyd hya
  have hkb := homogeneous_keys_boundary hyd hya
  have tyb : y.boundary.torsion = n := by rw [torsion_congr (Props.boundary_attrs y), ty]
  obtain ⟨s, is, sne, ts, ds⟩ : ∃ s : RingElem, InRing r s ∧ s.data ≠ [] ∧ s.torsion = n ∧
      den (ZMod n) s.data = stepV _ r (d + 1) := by
    by_cases h : (d + 1) % 2 = 0
    · obtain ⟨N, h1, h2, h3, h4⟩ := norm_ok (r := r) (n := n) (by omega) hn
      exact ⟨N, h2, norm_ne hr hn h1, h3, by rw [h4, stepV, if_pos h]⟩
    · exact ⟨_, inRing_transposition hr (some n), transposition_ne hr hn, rfl, by
        rw [den_transposition hr, stepV, if_neg h]⟩
  obtain ⟨z, ez, iz, tz, cz, -, -, dz, -⟩ := C56_psi_ok .mcClureSmith hr (d + 1) n hn
  obtain ⟨x, ex, ix, tx, cx, -, -, dx, -⟩ := C56_psi_ok .mcClureSmith hr d n hn
  obtain ⟨z', x', w, ez', ex', hw, hb⟩ := boundary_surjPsi .mcClureSmith hr d n hn s is ts ds
  cases ez.symm.trans ez'
  cases ex.symm.trans ex'
  obtain ⟨u, v, ub, wv, t, h1, h2, h3, h4, h5, h6⟩ := cup_of_boundary (d := d)
    is sne ix iz dx (by rw [dz]; norm_cast) cx cz tx tz ts hw hb hy hyd hya ty
  obtain ⟨x', u', ex', eu', nu, au, du⟩ := W_ok (d := d + 1) hr hn hy hk ty
  cases ez.symm.trans ex'
  cases h1.symm.trans eu'
  obtain ⟨x', v', ex', ev', nv, av, dv⟩ := W_ok (d := d) hr hn hy hk ty
  cases ex.symm.trans ex'
  cases h2.symm.trans ev'
  obtain ⟨x', ub', ex', eub', nub, aub, dub⟩ := W_ok (d := d + 1) hr hn (Props.nf_boundary y) hkb tyb
  cases ez.symm.trans ex'
  cases h3.symm.trans eub'
  have tu : u.torsion = n := (torsion_congr au).trans ty
  have tv : v.torsion = n := (torsion_congr av).trans ty
  have tub : ub.torsion = n := (torsion_congr aub).trans tyb
  obtain ⟨nwv, twv, dwv⟩ : wv.NF simplicial ∧ wv.torsion = n ∧
      den (ZMod n) wv.data = actV ldim (stepV (ZMod n) r (d + 1)) (W r n d (den (ZMod n) y.data)) := by
    rcases h4 with ⟨h0, rfl⟩ | ⟨hne, hw⟩
    · refine ⟨nv, tv, ?_⟩
      rw [← dv, h0, den_nil, map_zero]
    · obtain ⟨xc', exc', -, -, lxc⟩ := C52_arity_degree ix dx cx hy hyd hya (by rw [ty, tx]) le_rfl le_rfl
      cases h2.symm.trans exc'
      have hxc : HasArity simplicial r v := ⟨nv, hne, fun p hp => by have := (lxc p hp).1; omega⟩
      obtain ⟨wv', ew', nw, aw, -, dw⟩ := rmulG_ok (w := Simplex.dimension) rfl simplicial_any is sne hxc
        (n := n) ts tv
      rw [← simplicial_rmul_eq] at ew'
      cases hw.symm.trans ew'
      refine ⟨nw, (torsion_congr aw).trans tv, ?_⟩
      rw [dw, ds, dv]
      rfl
  have h7 := (pyEq_iff_den (Props.nf_boundary u) (nf_add h5 nwv) (by
    rw [torsion_congr (Props.boundary_attrs u), torsion_congr (attrs_add h5), tu, twv])).1 h6
  rw [torsion_congr (Props.boundary_attrs u), tu] at h7
  rw [Props.den_boundary u tu, den_add (R := ZMod n) h5 nwv (nf_smul nub _) (by simp) (by rw [twv]; simp),
    den_smul nub _ (by simp) (by rw [tub]; simp), dwv, du, dub, Props.den_boundary y ty,
    simplicial_drops_lany, cast_pySign] at h7
  exact h7

end Comch.Coch
