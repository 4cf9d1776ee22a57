import Verif.Lib.SurjMay
import Verif.Props.SurjAction
import Verif.Props.BEMay

/-! # C56: the May-Steenrod structure on the surjection operad -/

set_option linter.unusedSectionVars false

namespace Comch
open Spec IsPerm Elem
open Finsupp (single)

variable {R : Type} [CommRing R] {r : Nat}

namespace SurjMay
open BElem (lin_ext_supported pr_supported stepV stepV_supported)

theorem pr_drops_of_OK (hr : 1 ≤ r) {v : Surj →₀ R} (hv : v ∈ Finsupp.supported R R (OK r)) :
    pr surjection.drops v = pr hasRep v := by
  refine lin_ext_supported (f := pr surjection.drops) (g := pr hasRep) (fun k hk => ?_) hv
  have h0 : k ≠ [] := by
    rintro rfl
    have := (hk 1).2 ⟨le_refl 1, hr⟩
    simp at this
  have h1 : Surj.isOnto k = true := by
    rw [isOnto_iff, pyMax_of_onto hk]; exact hk
  rw [pr_single, pr_single, surj_drops, h1]
  simp [h0]

theorem den_supp {x : SurjElem} {S : Set Surj} (h : ∀ p ∈ x.data, p.1 ∈ S) :
    den R x.data ∈ Finsupp.supported R R S := by
  unfold den
  apply list_sum_mem
  intro v hv
  obtain ⟨p, hp, rfl⟩ := List.mem_map.1 hv
  exact Finsupp.single_mem_supported R _ (h p hp)

theorem den_suppO {x : SurjElem} (h : InSurj r x) : den R x.data ∈ Finsupp.supported R R (OK r) :=
  den_supp fun p hp => h.onto p hp

/-- What is needed about the operators of the construction. -/
structure OpOK (f : SurjElem → SurjElem) (F : ∀ (R : Type) [CommRing R], (Surj →₀ R) → (Surj →₀ R))
    (r s : Nat) : Prop where
  ok : ∀ x, InSurj r x → InSurj s (f x)
  attrs : ∀ x, (f x).attrs = x.attrs
  den : ∀ x, InSurj r x → x.torsion = 0 → ∀ (R : Type) [CommRing R],
    den R (f x).data = pr hasRep (F R (den R x.data))
  resp : ∀ (R : Type) [CommRing R] (v : Surj →₀ R), pr hasRep (F R (pr hasRep v)) = pr hasRep (F R v)

theorem OpOK.comp {f g : SurjElem → SurjElem} {F G : ∀ (R : Type) [CommRing R], (Surj →₀ R) → (Surj →₀ R)}
    {r s t : Nat} (hg : OpOK g G s t) (hf : OpOK f F r s) :
    OpOK (fun x => g (f x)) (fun R _ v => G R (F R v)) r t where
  ok x hx := hg.ok _ (hf.ok _ hx)
  attrs x := by rw [hg.attrs, hf.attrs]
  den x hx tx R _ := by
    rw [hg.den _ (hf.ok _ hx) ((torsion_congr (hf.attrs x)).trans tx), hf.den x hx tx, hg.resp]
  resp R _ v := by rw [← hg.resp, hf.resp, hg.resp]

theorem incl_ok (hr : 1 ≤ r) : OpOK Surjection.incl (fun _ _ => iV) r (r + 1) where
  resp _ _ := pr_iV_pr
  attrs x := by simp [Surjection.incl]
  ok x hx := by
    refine ⟨nf_accumulate_zero _ _ _, fun p hp => ?_⟩
    have h := mem_keys_accumulate_zero (List.mem_map_of_mem (f := Prod.fst) hp)
    simp only [List.map_map, List.mem_map, Function.comp] at h
    obtain ⟨q, hq, h⟩ := h
    rw [← h]
    exact onto_incl (hx.onto q hq)
  den x hx tx R _ := by
    unfold Surjection.incl
    rw [den_accumulate_zero _ _ _ (by simp) (by rw [tx]; simp)]
    have e : Comch.den R (x.data.map fun (p : Surj × Int) => (1 :: p.1.map (· + 1), p.2)) = iV (Comch.den R x.data) := by
      rw [mapK_den]
    rw [e]
    exact pr_drops_of_OK (r := r + 1) (by omega) (iV_suppO (den_suppO hx))

theorem sHomotopy_ok (hr : 1 ≤ r) : OpOK Surjection.sHomotopy (fun _ _ => sV) r r where
  resp _ _ := pr_sV_pr
  attrs x := by simp [Surjection.sHomotopy]
  ok x hx := by
    refine ⟨nf_accumulate_zero _ _ _, fun p hp => ?_⟩
    have h := mem_keys_accumulate_zero (List.mem_map_of_mem (f := Prod.fst) hp)
    simp only [List.map_map, List.mem_map, Function.comp] at h
    obtain ⟨q, hq, h⟩ := h
    rw [← h]
    exact onto_cons hr (hx.onto q hq)
  den x hx tx R _ := by
    obtain ⟨r, rfl⟩ : ∃ r', r = r' + 1 := ⟨r - 1, by omega⟩
    unfold Surjection.sHomotopy
    rw [den_accumulate_zero _ _ _ (by simp) (by rw [tx]; simp)]
    have e : Comch.den R (x.data.map fun (p : Surj × Int) => (1 :: p.1, p.2)) = sV (Comch.den R x.data) := by
      rw [sV, consV, mapK_den]
    rw [e]
    exact pr_drops_of_OK hr (sV_suppO (den_suppO hx))

theorem eraseIdx_idxOf' (k : List Nat) (a : Nat) : k.eraseIdx (k.idxOf a) = k.erase a := by
  induction k with
  | nil => rfl
  | cons b k ih =>
    by_cases e : b = a
    · subst e; simp
    · rw [List.erase_cons_tail (by simpa using e), List.idxOf_cons_ne _ e, List.eraseIdx_cons_succ, ih]

theorem take_drop_erase (k : List Nat) :
    (k.take (k.idxOf 1)).map (· - 1) ++ (k.drop (k.idxOf 1 + 1)).map (· - 1) = (k.erase 1).map (· - 1) := by
  rw [← List.map_append, ← List.eraseIdx_eq_take_drop_succ, eraseIdx_idxOf']

theorem proj_ok (hr : 1 ≤ r) : OpOK Surjection.proj (fun _ _ => pV) (r + 1) r where
  resp _ _ := pr_pV_pr
  attrs x := by simp [Surjection.proj]
  ok x hx := by
    refine ⟨nf_accumulate_zero _ _ _, fun p hp => ?_⟩
    have h := mem_keys_accumulate_zero (List.mem_map_of_mem (f := Prod.fst) hp)
    simp only [List.map_map, List.mem_map, Function.comp, List.mem_filter, beq_iff_eq] at h
    obtain ⟨q, ⟨hq, hc⟩, h⟩ := h
    rw [← h, take_drop_erase]
    exact onto_proj (hx.onto q hq) hc
  den x hx tx R _ := by
    unfold Surjection.proj
    rw [den_accumulate_zero _ _ _ (by simp) (by rw [tx]; simp)]
    have e : Comch.den R ((x.data.filter fun (k, _) => k.count 1 == 1).map fun (k, v) =>
        ((k.take (k.idxOf 1)).map (· - 1) ++ (k.drop (k.idxOf 1 + 1)).map (· - 1), v)) =
        pV (Comch.den R x.data) := by
      generalize x.data = d
      induction d with
      | nil => simp
      | cons p d ih =>
        rw [den_cons, map_add, ← ih, single_eq_smul_bv, map_smul, pV_bv]
        by_cases hc : p.1.count 1 = 1
        · rw [List.filter_cons_of_pos (by simpa using hc), List.map_cons, den_cons, if_pos hc,
            ← single_eq_smul_bv, ← take_drop_erase]
        · rw [List.filter_cons_of_neg (by simpa using hc), if_neg hc]
          simp
    rw [e]
    exact pr_drops_of_OK hr (pV_suppO (den_suppO hx))

theorem id_ok (hr : 1 ≤ r) : OpOK (fun x => x) (fun _ _ v => v) r r where
  ok x hx := hx
  attrs x := rfl
  den x hx tx R _ := by
    rw [← pr_drops_of_OK hr (den_suppO hx), hx.nf.pr_den]
  resp R _ v := pr_pr _ _

theorem iter_proj_ok (j : Nat) (hr : 1 ≤ r) : OpOK (fun x => Surjection.iter Surjection.proj j x)
    (fun R _ v => (pV (R := R))^[j] v) (r + j) r := by
  induction j generalizing r with
  | zero => exact id_ok hr
  | succ j ih =>
    have := (proj_ok hr).comp (ih (r := r + 1) (by omega))
    have e : r + 1 + j = r + (j + 1) := by omega
    rw [e] at this
    have e2 : (fun (R : Type) [CommRing R] (v : Surj →₀ R) => (pV (R := R))^[j + 1] v) =
      fun (R : Type) [CommRing R] (v : Surj →₀ R) => pV ((pV (R := R))^[j] v) := by
      funext R _ v
      rw [Function.iterate_succ_apply']
    rw [e2]
    exact this

theorem iter_incl_ok (j : Nat) (hr : 1 ≤ r) : OpOK (fun x => Surjection.iter Surjection.incl j x)
    (fun R _ v => (iV (R := R))^[j] v) r (r + j) := by
  induction j with
  | zero => exact id_ok hr
  | succ j ih =>
    have := (incl_ok (r := r + j) (by omega)).comp ih
    have e2 : (fun (R : Type) [CommRing R] (v : Surj →₀ R) => (iV (R := R))^[j + 1] v) =
      fun (R : Type) [CommRing R] (v : Surj →₀ R) => iV ((iV (R := R))^[j] v) := by
      funext R _ v
      rw [Function.iterate_succ_apply']
    rw [e2]
    exact this

theorem term_ok (j : Nat) (hr : 1 ≤ r) :
    OpOK (fun x => Surjection.iter Surjection.incl j (Surjection.sHomotopy (Surjection.iter Surjection.proj j x)))
    (fun R _ v => (iV (R := R))^[j] (sV ((pV (R := R))^[j] v))) (r + j) (r + j) :=
  (iter_incl_ok j hr).comp ((sHomotopy_ok hr).comp (iter_proj_ok j hr))

theorem hV_eq_sum (m : Nat) (v : Surj →₀ R) : hV m v =
    ((List.range m).map fun j => (iV (R := R))^[j] (sV ((pV (R := R))^[j] v))).sum := by
  induction m generalizing v with
  | zero => simp [hV]
  | succ m ih =>
    rw [hV, LinearMap.add_apply, LinearMap.comp_apply, LinearMap.comp_apply, ih, List.range_succ_eq_map,
      List.map_cons, List.sum_cons, List.map_map, map_list_sum, List.map_map]
    congr 2
    apply List.map_congr_left
    intro j _
    simp only [Function.comp, Nat.succ_eq_add_one]
    rw [Function.iterate_succ_apply', Function.iterate_succ_apply]

/-- The homotopy `h`. -/
theorem hHomotopy_ok (hr : 2 ≤ r) {x : SurjElem} (hx : InSurj r x) (tx : x.torsion = 0) :
    ∃ z, Surjection.hHomotopy r x = .ok z ∧ InSurj r z ∧ z.attrs = x.attrs ∧
      ∀ (R : Type) [CommRing R], den R z.data = pr hasRep (hV (r - 1) (den R x.data)) := by
  have hs := sHomotopy_ok (r := r) (by omega)
  have ht : ∀ j, j + 1 < r → OpOK (fun x => Surjection.iter Surjection.incl j
      (Surjection.sHomotopy (Surjection.iter Surjection.proj j x)))
      (fun R _ v => (iV (R := R))^[j] (sV ((pV (R := R))^[j] v))) r r := by
    intro j hj
    have := term_ok (r := r - j) j (by omega)
    have e : r - j + j = r := by omega
    rwa [e] at this
  obtain ⟨z, h1, h2, h3, h4, h5⟩ := foldlM_iaddR (C := surjection) (Q := Onto r) 0 (pyRange 1 (r - 1))
    (fun answer r => Elem.iadd surjection answer
      (Surjection.iter Surjection.incl r (Surjection.sHomotopy (Surjection.iter Surjection.proj r x))))
    (fun j => Surjection.iter Surjection.incl j (Surjection.sHomotopy (Surjection.iter Surjection.proj j x)))
    (Surjection.sHomotopy x) ((torsion_congr (hs.attrs x)).trans tx) (fun _ _ _ _ => rfl)
    (by
      intro j hj
      rw [mem_pyRange] at hj
      have h := ht j (by omega)
      exact ⟨(h.ok x hx).nf, (torsion_congr (h.attrs x)).trans tx, (h.ok x hx).onto⟩)
    (hs.ok x hx).nf (hs.ok x hx).onto
  refine ⟨z, h1, ⟨h2, h4⟩, h3.trans (hs.attrs x), ?_⟩
  intro R _
  rw [h5 R (by simp), hs.den x hx tx, hV_eq_sum, map_list_sum, List.map_map]
  obtain ⟨r, rfl⟩ : ∃ r', r = r' + 2 := ⟨r - 2, by omega⟩
  have e1 : List.range (r + 2 - 1) = 0 :: pyRange 1 (r + 2 - 1) := by
    show List.range (r + 1) = 0 :: List.range' 1 (r + 1 - 1)
    rw [List.range_eq_range', List.range'_succ]
    rfl
  rw [e1, List.map_cons, List.sum_cons]
  congr 2
  apply List.map_congr_left
  intro j hj
  rw [mem_pyRange] at hj
  exact (ht j (by omega)).den x hx tx R

/-- The action with coefficients in any ring. -/
theorem rmul_denR (hr : 1 ≤ r) {s : RingElem} {x : SurjElem} (hs : InRing r s) (hsn : s.data ≠ [])
    (hx : InSurj r x) (hxn : x.data ≠ []) (ts : s.torsion = x.torsion) :
    ∃ z, SurjElem.rmul s x = .ok z ∧ InSurj r z ∧ z.attrs = x.attrs ∧
      ∀ (R : Type) [CommRing R], (x.torsion : R) = 0 → den R z.data =
        convS x.attrs.convention (aV (den R s.data) (convS x.attrs.convention (den R x.data))) := by
  refine ⟨_, SurjElem.rmul_eq hr hs hsn hx hxn ts, ⟨nf_accumulate_zero _ _ _, ?_⟩, by simp, ?_⟩
  · intro p hp
    have h := mem_keys_accumulate_zero (List.mem_map_of_mem (f := Prod.fst) hp)
    simp only [List.map_map, List.mem_map, mem_pyProduct, Function.comp] at h
    obtain ⟨pq, hpq, h⟩ := h
    rw [← h]
    exact Onto.mulL (hs.perm _ hpq.2) (hx.onto _ hpq.1)
  · intro R _ hn
    rw [den_accumulate_zero _ _ _ (by simp) hn]
    generalize hc : x.attrs.convention = c
    have hev : den R ((pyProduct x.data s.data).map fun pq => (mulL pq.2.1 pq.1.1,
        pySign (convE c pq.1.1 + convE c (mulL pq.2.1 pq.1.1)) * pq.1.2 * pq.2.2)) =
        bil (fun k q => convS c (aV (bv R q) (convS c (bv R k)))) (den R x.data) (den R s.data) := by
      rw [bil_den, den_map]
      congr 1
      apply List.map_congr_left
      intro pq _
      rw [convS_single, map_smul, bil_single, one_mul, one_mul, one_smul, map_smul, convS_single, smul_smul,
        smul_smul, single_eq_smul_bv]
      congr 1
      push_cast
      rw [cast_pySign, sg_add]
      ring
    rw [hev]
    have hswap : bil (fun k q => convS c (aV (bv R q) (convS c (bv R k)))) (den R x.data) (den R s.data) =
        convS c (aV (den R s.data) (convS c (den R x.data))) := by
      refine den_induction (P := fun u => bil (fun k q => convS c (aV (bv R q) (convS c (bv R k)))) (den R x.data) u =
        convS c (aV u (convS c (den R x.data)))) s.data (by simp)
        (fun u v hu hv => by simp only [map_add, LinearMap.add_apply] at *; rw [hu, hv]) ?_
      intro q _
      refine den_induction (P := fun u => bil (fun k q => convS c (aV (bv R q) (convS c (bv R k)))) u
        (single q.1 (q.2 : R)) = convS c (aV (single q.1 (q.2 : R)) (convS c u))) x.data (by simp)
        (fun u v hu hv => by simp only [map_add, LinearMap.add_apply] at *; rw [hu, hv]) ?_
      intro p _
      rw [bil_single, single_eq_smul_bv p.1 (p.2 : R), single_eq_smul_bv q.1 (q.2 : R)]
      simp only [map_smul, LinearMap.smul_apply, smul_smul]
    have hsup : den R s.data ∈ Finsupp.supported R R (BElem.PermSet r) := by
      unfold den
      apply list_sum_mem
      intro v hv
      obtain ⟨p, hp, rfl⟩ := List.mem_map.1 hv
      exact Finsupp.single_mem_supported R _ (hs.perm p hp)
    rw [hswap, pr_convS, pr_drops_of_OK hr]
    · rw [pr_aV (hsup) (convS_supp c (den_suppO hx)), pr_convS,
        ← pr_drops_of_OK hr (den_suppO hx), hx.nf.pr_den]
    · exact aV_suppO hsup (convS_supp c (den_suppO hx))

end SurjMay

namespace Props
open SurjMay
open BElem (stepV stepV_supported)

/-- The construction over the integers. -/
theorem surjPsi_ok (c : Convention) (hr : 2 ≤ r) {N : RingElem} (hN : RingElem.normElement r = .ok N) (d : Nat) :
    ∃ z, Surjection.psi N (RingElem.transpositionElement r) r c d = .ok z ∧ InSurj r z ∧
      z.attrs = ⟨0, c⟩ ∧ z.data ≠ [] ∧
      ∀ (R : Type) [CommRing R], den R z.data = convS c (psiS R r d) := by
  have hNR : ∀ (R : Type) [CommRing R], InRing r N ∧ N.torsion = 0 ∧ den R N.data = nV R r := by
    intro R _
    obtain ⟨N', h1, h2, h3, h4⟩ := norm_ok' (R := R) (r := r) (by omega)
    cases hN.symm.trans h1
    exact ⟨h2, h3, h4⟩
  have hne : ∀ d (z : SurjElem), (∀ (R : Type) [CommRing R], den R z.data = convS c (psiS R r d)) → z.data ≠ [] := by
    intro d z hden h0
    have h := hden Int
    rw [h0, den_nil] at h
    have h' := congrArg (convS c) h
    rw [convS_convS, map_zero] at h'
    exact psiS_ne_zero hr d h'.symm
  induction d with
  | zero =>
    refine ⟨_, rfl, ?_⟩
    have hnf : (Elem.new surjection [(pyRange 1 (r + 1), 1)] none c).NF surjection :=
      nf_new _ (by simp [Dict.KeysNodup]) _ _
    have hk : ∀ p ∈ (Elem.new surjection [(pyRange 1 (r + 1), 1)] none c).data, p.1 ∈ OK r := by
      intro p hp
      obtain ⟨q, hq, he⟩ := List.mem_map.1 (mem_keys_preferredRep (List.mem_map_of_mem (f := Prod.fst) hp))
      rw [← he, List.mem_singleton.1 hq]
      exact onto_id
    have hden : ∀ (R : Type) [CommRing R], den R (Elem.new surjection [(pyRange 1 (r + 1), 1)] none c).data =
        convS c (psiS R r 0) := by
      intro R _
      rw [den_new _ _ _ _ (by simp), convS_psiS_zero, den_cons, den_nil, add_zero]
      have e : single (pyRange 1 (r + 1)) ((1 : Int) : R) = psiS R r 0 := by simp [psiS]
      rw [e, pr_drops_of_OK (by omega) (psiS_suppO (by omega) 0), pr_psiS]
    exact ⟨⟨hnf, hk⟩, rfl, hne 0 _ hden, hden⟩
  | succ d ih =>
    obtain ⟨x, ex, hx, ax, nx, dx⟩ := ih
    have tx : x.torsion = 0 := by show x.attrs.torsion = 0; rw [ax]
    have cx : x.attrs.convention = c := by rw [ax]
    obtain ⟨s, hs, hsr, hst, hsd⟩ : ∃ s : RingElem,
        (if (d + 1) % 2 = 0 then N else RingElem.transpositionElement r) = s ∧ InRing r s ∧ s.torsion = 0 ∧
        ∀ (R : Type) [CommRing R], den R s.data = stepV R r (d + 1) := by
      by_cases h : (d + 1) % 2 = 0
      · refine ⟨N, if_pos h, (hNR Int).1, (hNR Int).2.1, fun R _ => ?_⟩
        rw [stepV, if_pos h, (hNR R).2.2]
      · refine ⟨_, if_neg h, (transposition_ok' (R := Int) hr).1, rfl, fun R _ => ?_⟩
        rw [stepV, if_neg h, (transposition_ok' (R := R) hr).2.2]
    have hsn : s.data ≠ [] := by
      intro h0
      have h1 := hsd Int
      rw [h0, den_nil] at h1
      refine SurjMay.stepV_ne_zero (R := Int) hr (psiS_supp (by omega) d) (psiS_ne_zero hr d) (d + 1) ?_
      rw [← h1]; simp
    obtain ⟨w, ew, hw, aw, dw⟩ := SurjMay.rmul_denR (by omega) hsr hsn hx nx (by rw [hst, tx])
    have aw' : w.attrs = ⟨0, c⟩ := aw.trans ax
    have dw' : ∀ (R : Type) [CommRing R], den R w.data = convS c (aV (stepV R r (d + 1)) (psiS R r d)) := by
      intro R _
      rw [dw R (by rw [tx]; simp), cx, hsd, dx, convS_convS]
    obtain ⟨z, ez, hz, az, dz⟩ := hHomotopy_ok hr hw ((torsion_congr aw).trans tx)
    have hden : ∀ (R : Type) [CommRing R], den R z.data = convS c (psiS R r (d + 1)) := by
      intro R _
      rw [dz, dw', ← convS_hV (r := r) c (r - 1) (by omega)
        (aV_suppO (stepV_supported (by omega) _) (psiS_suppO (by omega) d)), pr_convS]
      rfl
    refine ⟨z, ?_, hz, az.trans aw', hne _ z hden, hden⟩
    rw [Surjection.psi, ex]
    simp only [bind, Except.bind]
    rw [hs, ew]
    exact ez

theorem surjMay_ok (c : Convention) (hr : 2 ≤ r) (d n : Nat) :
    ∃ z, Surjection.maySteenrodStructure r d (some n) c = .ok z ∧ InSurj r z ∧ z.attrs = ⟨n, c⟩ ∧
      den (ZMod n) z.data = convS c (psiS _ r d) := by
  obtain ⟨N, hN, _⟩ := norm_ok' (R := Int) (r := r) (by omega)
  obtain ⟨x, ex, hx, ax, nx, dx⟩ := surjPsi_ok c hr hN d
  unfold Surjection.maySteenrodStructure
  rw [hN]
  simp only [bind, Except.bind]
  rw [ex]
  by_cases hn : n = 0
  · subst hn
    exact ⟨x, rfl, hx, ax, dx _⟩
  · refine ⟨setTorsion surjection x n, if_neg hn, ⟨nf_setTorsion hx.nf n, ?_⟩, ?_, ?_⟩
    · intro p hp
      obtain ⟨q, hq, he⟩ := List.mem_map.1 (mem_keys_preferredRep (List.mem_map_of_mem (f := Prod.fst) hp))
      rw [← he]; exact hx.onto q hq
    · have : (setTorsion surjection x n).attrs = { x.attrs with torsion := n } := by
        simp [setTorsion]
      rw [this, ax]
    · rw [den_setTorsion hx.nf n (by simp), dx]

theorem surjMay_keys {c : Convention} (hr : 2 ≤ r) {d n : Nat} {z : SurjElem} (hz : z.NF surjection)
    (tz : z.torsion = n) (dz : den (ZMod n) z.data = convS c (psiS _ r d)) :
    ∀ p ∈ z.data, p.1 ∈ O1 r (r + d) := by
  subst tz
  intro p hp
  have h := (hz.mem_keys_iff (k := p.1)).1 (List.mem_map_of_mem hp)
  rw [dz] at h
  by_contra hc
  have hs := convS_supp c (psiS_supp (R := ZMod z.torsion) (r := r) (by omega) d)
  rw [Finsupp.mem_supported'] at hs
  exact h (hs _ hc)

theorem convS_psiS_ne {n : Nat} (c : Convention) (hr : 2 ≤ r) (hn : n ≠ 1) (d : Nat) : convS c (psiS (ZMod n) r d) ≠ 0 := by
  haveI : Nontrivial (ZMod n) := ZMod.nontrivial_iff.2 hn
  intro h
  have h' := congrArg (convS c) h
  rw [convS_convS, map_zero] at h'
  exact psiS_ne_zero hr d h'

/-- `psi(0)` is the identity `(1, …, r)`, in both conventions. -/
theorem C56_psi_zero (c : Convention) (hr : 2 ≤ r) :
    ∃ z, Surjection.maySteenrodStructure r 0 none c = .ok z ∧ z.data = [(pyRange 1 (r + 1), 1)] ∧
      z.torsion = 0 ∧ z.attrs.convention = c := by
  obtain ⟨N, hN, _⟩ := norm_ok' (R := Int) (r := r) (by omega)
  unfold Surjection.maySteenrodStructure
  rw [hN]
  refine ⟨_, rfl, ?_, rfl, rfl⟩
  have hd : surjection.drops (pyRange 1 (r + 1)) = false := by
    rw [surj_kept_iff]
    refine ⟨?_, ?_, ?_⟩
    · intro h
      have := congrArg List.length h
      simp [pyRange] at this
      omega
    · rw [pyMax_of_onto (r := r) onto_id]; exact onto_id
    · have h := pr_psiS (R := Int) (r := r) 0
      by_contra hc
      rw [Bool.not_eq_false] at hc
      rw [psiS, pr_single, hc] at h
      simp only [if_true] at h
      exact Finsupp.single_ne_zero.2 one_ne_zero h.symm
  simp [Elem.new, preferredRep, zeroDropped, basePreferredRep, hd]

/-- No exception is raised: for every arity `r ≥ 2`, degree, convention and torsion (other than 1) the
structure element exists, is non-zero, of the right arity and degree, and its terms start with 1. -/
theorem C56_psi_ok (c : Convention) (hr : 2 ≤ r) (d n : Nat) (hn : n ≠ 1) :
    ∃ z, Surjection.maySteenrodStructure r d (some n) c = .ok z ∧ InSurj r z ∧ z.torsion = n ∧
      z.attrs.convention = c ∧ z.data ≠ [] ∧ z.arity = some r ∧ z.degree = some (d : Int) ∧
      ∀ p ∈ z.data, p.1.head? = some 1 := by
  obtain ⟨z, ez, hz, az, dz⟩ := surjMay_ok c hr d n
  have tz : z.torsion = n := by show z.attrs.torsion = n; rw [az]
  have hne : z.data ≠ [] := by
    intro h0
    rw [h0, den_nil] at dz
    exact convS_psiS_ne c hr hn d dz.symm
  have kz := surjMay_keys hr hz.nf tz dz
  refine ⟨z, ez, hz, tz, by rw [az], hne, SurjElem.arity_eq hz hne, ?_, fun p hp => (kz p hp).2.2⟩
  rw [SurjElem.degree, uniqueValue_eq_some]
  refine ⟨by simpa using hne, ?_⟩
  intro b hb
  obtain ⟨p, hp, rfl⟩ := List.mem_map.1 hb
  rw [SurjElem.keyDegree, (kz p hp).2.1, pyMax_of_onto (kz p hp).1]
  push_cast
  ring

theorem boundary_surjPsi (c : Convention) (hr : 2 ≤ r) (d n : Nat) (hn : n ≠ 1) (s : RingElem) (hs : InRing r s)
    (ts : s.torsion = n) (ds : den (ZMod n) s.data = stepV _ r (d + 1)) :
    ∃ z x w, Surjection.maySteenrodStructure r (d + 1) (some n) c = .ok z ∧
      Surjection.maySteenrodStructure r d (some n) c = .ok x ∧
      SurjElem.rmul s x = .ok w ∧ pyEq z.boundary w = true := by
  obtain ⟨z, ez, hz, az, dz⟩ := surjMay_ok c hr (d + 1) n
  obtain ⟨x, ex, hx, ax, dx⟩ := surjMay_ok c hr d n
  have tz : z.torsion = n := by show z.attrs.torsion = n; rw [az]
  have tx : x.torsion = n := by show x.attrs.torsion = n; rw [ax]
  have hxne : x.data ≠ [] := by
    intro h0
    rw [h0, den_nil] at dx
    exact convS_psiS_ne c hr hn d dx.symm
  haveI : Nontrivial (ZMod n) := ZMod.nontrivial_iff.2 hn
  have hsne : s.data ≠ [] := by
    intro h0
    rw [h0, den_nil] at ds
    refine SurjMay.stepV_ne_zero (R := ZMod n) hr (psiS_supp (by omega) d) (psiS_ne_zero hr d) (d + 1) ?_
    rw [← ds]; simp
  obtain ⟨w, ew, hw, aw, dw⟩ := SurjMay.rmul_denR (by omega) hs hsne hx hxne (by rw [ts, tx])
  refine ⟨z, x, w, ez, ex, ew, pyEq_of_den (n := n) (SurjElem.nf_boundary z) hw.nf
    ((torsion_congr (SurjElem.boundary_attrs z)).trans tz) ((torsion_congr aw).trans tx) ?_⟩
  have cz : z.attrs.convention = c := by rw [az]
  have cx : x.attrs.convention = c := by rw [ax]
  rw [SurjElem.den_boundary hz.nf tz, cz, dz, dw _ (by rw [tx]; simp), cx, ds, dx, convS_convS, sbd,
    LinearMap.comp_apply, LinearMap.comp_apply, convS_convS, pr_convS,
    pr_drops_of_OK (r := r) (by omega) (sdelL_supp (psiS_suppO (by omega) _)), sdelL_psiS (by omega)]

/-- `boundary psi(2m+1) == T * psi(2m)`. -/
theorem C56_boundary_odd (c : Convention) (hr : 2 ≤ r) (m n : Nat) (hn : n ≠ 1) :
    ∃ z x w, Surjection.maySteenrodStructure r (2 * m + 1) (some n) c = .ok z ∧
      Surjection.maySteenrodStructure r (2 * m) (some n) c = .ok x ∧
      SurjElem.rmul (RingElem.transpositionElement r (some n)) x = .ok w ∧ pyEq z.boundary w = true := by
  refine boundary_surjPsi c hr (2 * m) n hn _ (inRing_transposition hr _) rfl ?_
  rw [den_transposition hr, stepV, if_neg (by omega)]

/-- `boundary psi(2m+2) == N * psi(2m+1)`. -/
theorem C56_boundary_even (c : Convention) (hr : 2 ≤ r) (m n : Nat) (hn : n ≠ 1) :
    ∃ N z x w, RingElem.normElement r (some n) = .ok N ∧
      Surjection.maySteenrodStructure r (2 * m + 2) (some n) c = .ok z ∧
      Surjection.maySteenrodStructure r (2 * m + 1) (some n) c = .ok x ∧
      SurjElem.rmul N x = .ok w ∧ pyEq z.boundary w = true := by
  obtain ⟨N, h1, h2, h3, h4⟩ := norm_ok (r := r) (n := n) (by omega) hn
  obtain ⟨z, x, w, h⟩ := boundary_surjPsi c hr (2 * m + 1) n hn N h2 h3 (by
    rw [h4, stepV, if_pos (by omega)])
  exact ⟨N, z, x, w, h1, h⟩

/-- The default torsion is 0 and the default convention that of Berger and Fresse. -/
theorem C56_default_arguments (r d : Nat) : Surjection.maySteenrodStructure r d =
    Surjection.maySteenrodStructure r d (some 0) .bergerFresse := rfl

example : (Surjection.maySteenrodStructure 3 2 none .mcClureSmith).toOption.map (·.data) =
    some [([1, 2, 3, 1, 2], 1), ([1, 3, 1, 2, 3], 1), ([1, 2, 3, 2, 3], 1)] := by decide +kernel

end Props
end Comch
