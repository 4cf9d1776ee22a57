import Verif.Lib.BECompose
import Verif.Props.BEMore

/-! # C39, C40: composition in the Barratt-Eccles operad -/

set_option linter.unusedSectionVars false

namespace Comch.BElem
open Elem Spec IsPerm
open Finsupp (single)

variable {r s d e i : Nat} {x y : BElem}

theorem degree_of_hom (hx : HomBE r d x) (hne : x.data ≠ []) : x.degree = some (d : Int) := by
  rw [degree, uniqueValue_eq_some]
  refine ⟨by simpa using hne, ?_⟩
  intro b hb
  obtain ⟨p, hp, rfl⟩ := List.mem_map.1 hb
  rw [hx.len p hp]; push_cast; omega

theorem hom_of_degree (hx : InBE r x) {d : Nat} (hd : x.degree = some (d : Int)) : HomBE r d x := by
  refine ⟨hx, ?_⟩
  intro p hp
  rw [degree, uniqueValue_eq_some] at hd
  have := hd.2 _ (List.mem_map_of_mem (f := fun p : BKey × Int => (p.1.length : Int) - 1) hp)
  omega

theorem hom_boundary (hx : HomBE r d x) : HomBE r (d - 1) x.boundary := by
  refine ⟨inBE_boundary hx.toInBE, ?_⟩
  intro p hp
  have hne := key_ne_nil (nf_boundary x) hp
  obtain ⟨q, hq, i, hi, he⟩ := mem_keys_boundary (List.mem_map_of_mem (f := Prod.fst) hp)
  have := hx.len q hq
  have h2 : p.1.length = d := by rw [he, List.length_eraseIdx_of_lt hi]; omega
  rcases d with _ | d
  · exact absurd (List.length_eq_zero_iff.1 h2) hne
  · simpa using h2

theorem den_supp_hom (hx : HomBE r d x) (n : Nat) :
    den (ZMod n) x.data ∈ Finsupp.supported (ZMod n) (ZMod n) (BSd r d) := by
  refine den_induction (P := fun w => w ∈ Finsupp.supported (ZMod n) (ZMod n) (BSd r d)) x.data
    (Submodule.zero_mem _) (fun u v => Submodule.add_mem _) ?_
  intro p hp
  exact Finsupp.single_mem_supported _ _ ⟨hx.len p hp, hx.perm p hp⟩

theorem bsd_le : BSd r d ⊆ BS r := fun _ h => h.2

theorem den_supp_hom' (hx : HomBE r d x) (n : Nat) :
    den (ZMod n) x.data ∈ Finsupp.supported (ZMod n) (ZMod n) (BS r) :=
  Finsupp.supported_mono bsd_le (den_supp_hom hx n)

/-- `compose` does not raise for non-zero homogeneous elements; its value. -/
theorem compose_ok (hx : HomBE r d x) (hy : HomBE s e y) (hxn : x.data ≠ []) (hyn : y.data ≠ [])
    (hi : 1 ≤ i ∧ i ≤ r) (ht : x.torsion = y.torsion) {n : Nat} (hn : x.torsion = n) :
    ∃ z, compose x y i = .ok z ∧ z.NF barrattEccles ∧ z.attrs = x.attrs ∧
      den (ZMod n) z.data = pr barrattEccles.drops (ecmpV _ i (den _ x.data) (den _ y.data)) := by
  have hm : ((pyProduct x.data y.data).mapM fun (pq : (BKey × Int) × (BKey × Int)) =>
          (paths d e).mapM fun (path : List (Nat × Nat)) => do
            let newK ← path.mapM fun (ij : Nat × Nat) => do
              let a ← pyGet pq.1.1 ij.1
              let b ← pyGet pq.2.1 ij.2
              (a.compose b i : Py Perm)
            let sign := if x.torsion = 2 then 1 else signOfPath path
            (.ok (newK, sign * pq.1.2 * pq.2.2) : Py (BKey × Int))) =
      .ok ((pyProduct x.data y.data).map fun pq =>
        pathEvents i x.torsion d e pq.1.1 pq.1.2 pq.2.1 pq.2.2) := by
    apply mapM_ok
    rintro ⟨⟨k1, v1⟩, ⟨k2, v2⟩⟩ hpq
    rw [mem_pyProduct] at hpq
    have l1 := hx.len _ hpq.1
    have l2 := hy.len _ hpq.2
    apply mapM_ok
    intro path hp
    have hb := (paths_spec d e hp).2.2
    have hk : (path.mapM fun (p : Nat × Nat) => do
              let a ← pyGet k1 p.1
              let b ← pyGet k2 p.2
              (a.compose b i : Py Perm)) = .ok (path.map fun e => cp i (k1.getD e.1 [], k2.getD e.2 [])) := by
      apply mapM_ok
      intro p hpp
      obtain ⟨b1, b2⟩ := hb p hpp
      simp only at l1 l2
      have h1 : p.1 < k1.length := by omega
      have h2 : p.2 < k2.length := by omega
      have e1 : pyGet k1 p.1 = .ok (k1[p.1]) := by simp [pyGet, h1]
      have e2 : pyGet k2 p.2 = .ok (k2[p.2]) := by simp [pyGet, h2]
      rw [e1, e2]
      show Perm.compose _ _ _ = _
      rw [compose_eq (hx.perm _ hpq.1 _ (List.getElem_mem h1)) _ hi.1 hi.2]
      simp [cp, List.getD_eq_getElem?_getD, h1, h2]
    simp only [bind] at hk ⊢
    rw [hk]
    rfl
  unfold compose
  rw [if_neg (by simpa using ht), arity_eq hx.toInBE hxn, arity_eq hy.toInBE hyn, degree_of_hom hx hxn,
    degree_of_hom hy hyn]
  simp only [Int.toNat_natCast]
  rw [if_neg (by omega)]
  simp only [bind] at hm ⊢
  rw [hm]
  refine ⟨_, rfl, nf_accumulate_zero _ _ _, by simp, ?_⟩
  rw [den_accumulate_zero' _ _ _ rfl hn, ← List.flatMap_def]
  congr 1
  apply den_bil_events
  intro p hp q hq
  subst hn
  exact den_pathEvents (hx.len p hp) (hy.len q hq) _ _

theorem composeOrZero_ok (hx : HomBE r d x) (hy : HomBE s e y) (hi : 1 ≤ i ∧ i ≤ r)
    (ht : x.torsion = y.torsion) {n : Nat} (hn : x.torsion = n) :
    ∃ z, composeOrZero x y i = .ok z ∧ HomBE (r + s - 1) (d + e) z ∧ z.attrs = x.attrs ∧
      den (ZMod n) z.data = pr barrattEccles.drops (ecmpV _ i (den _ x.data) (den _ y.data)) := by
  unfold composeOrZero
  by_cases h0 : x.data = [] ∨ y.data = []
  · rw [if_pos h0]
    refine ⟨_, rfl, ⟨⟨⟨List.nodup_nil, by simp, by simp, by simp⟩, by simp⟩, by simp⟩, rfl, ?_⟩
    rcases h0 with h | h <;> simp [h]
  · rw [if_neg h0]
    rw [not_or] at h0
    obtain ⟨z, ez, nz, az, dz⟩ := compose_ok hx hy h0.1 h0.2 hi ht hn
    have hkey : ∀ p ∈ z.data, p.1 ∈ BSd (r + s - 1) (d + e) := by
      intro p hp
      have hn' : z.torsion = n := (torsion_congr az).trans hn
      subst hn'
      have h := nz.mem_keys_iff.1 (List.mem_map_of_mem hp)
      rw [dz] at h
      exact (Finsupp.mem_supported _ _).1 (pr_supported (ecmpV_supported (den_supp_hom hx _) (den_supp_hom hy _) hi))
        (Finsupp.mem_support_iff.2 h)
    exact ⟨z, ez, ⟨⟨nz, fun p hp => (hkey p hp).2⟩, fun p hp => (hkey p hp).1⟩, az, dz⟩

end Comch.BElem

namespace Comch.Props
open Comch Elem Spec IsPerm BElem
open Finsupp (single)

variable {r s u d e f i j k : Nat} {x y z : BElem}

/-- `compose` does not raise for non-zero homogeneous elements of one torsion. Its value has arity
`r + s - 1` and degree `d + e` (unless it is zero). -/
theorem C39_arity_degree (hx : InBE r x) (hy : InBE s y) (hi : 1 ≤ i ∧ i ≤ r)
    (hd : x.degree = some (d : Int)) (he : y.degree = some (e : Int)) (ht : x.torsion = y.torsion) :
    ∃ z, compose x y i = .ok z ∧ InBE (r + s - 1) z ∧ z.torsion = x.torsion ∧
      (z.data ≠ [] → BElem.arity z = some (r + s - 1) ∧ BElem.degree z = some ((d : Int) + e)) := by
  have hxn : x.data ≠ [] := by
    rintro h; rw [BElem.degree, uniqueValue_eq_some] at hd; exact hd.1 (by simp [h])
  have hyn : y.data ≠ [] := by
    rintro h; rw [BElem.degree, uniqueValue_eq_some] at he; exact he.1 (by simp [h])
  obtain ⟨z, ez, hz, az, dz⟩ := composeOrZero_ok (hom_of_degree hx hd) (hom_of_degree hy he) hi ht rfl
  unfold composeOrZero at ez
  rw [if_neg (by simp [hxn, hyn])] at ez
  refine ⟨z, ez, hz.toInBE, torsion_congr az, fun hz0 => ⟨arity_eq hz.toInBE hz0, ?_⟩⟩
  rw [degree_of_hom hz hz0]
  push_cast
  rfl

/-- Leibniz rule: `∂(x ∘ᵢ y) = ∂x ∘ᵢ y + (-1)^d x ∘ᵢ ∂y`, compositions with 0 counted as 0. -/
theorem C39_leibniz (hx : HomBE r d x) (hy : HomBE s e y) (hi : 1 ≤ i ∧ i ≤ r) (ht : x.torsion = y.torsion) :
    ∃ z zx zy w, composeOrZero x y i = .ok z ∧ composeOrZero x.boundary y i = .ok zx ∧
      composeOrZero x y.boundary i = .ok zy ∧
      add barrattEccles zx (smul barrattEccles ((-1) ^ d) zy) = .ok w ∧
      pyEq (z : BElem).boundary w = true := by
  have tb : x.boundary.torsion = x.torsion := torsion_congr (BElem.boundary_attrs x)
  have tyb : y.boundary.torsion = x.torsion := by rw [torsion_congr (BElem.boundary_attrs y), ht]
  obtain ⟨z, ez, hz, az, dz⟩ := composeOrZero_ok hx hy hi ht rfl
  obtain ⟨zx, ezx, hzx, azx, dzx⟩ := composeOrZero_ok (hom_boundary hx) hy hi (tb.trans ht) tb
  obtain ⟨zy, ezy, hzy, azy, dzy⟩ := composeOrZero_ok hx (hom_boundary hy) hi tyb.symm rfl
  have tz : z.torsion = x.torsion := torsion_congr az
  have tzx : zx.torsion = x.torsion := by rw [torsion_congr azx, tb]
  have tzy : zy.torsion = x.torsion := torsion_congr azy
  obtain ⟨w, ew⟩ := add_ok (C := barrattEccles) (x := zx) (y := smul barrattEccles ((-1) ^ d) zy)
    (by rw [smul_torsion, tzx, tzy])
  refine ⟨z, zx, zy, w, ez, ezx, ezy, ew, pyEq_of_den (BElem.nf_boundary z) (nf_add ew hzx.nf)
    ((torsion_congr (BElem.boundary_attrs z)).trans tz) (by rw [torsion_congr (attrs_add ew), tzx]) ?_⟩
  rw [BElem.den_boundary z tz, den_add (R := ZMod x.torsion) ew hzx.nf (nf_smul hzy.nf _) (by simp) (by rw [tzx]; simp),
    den_smul hzy.nf _ (by simp) (by rw [tzy]; simp), dz, dzx, dzy, BElem.den_boundary x rfl, BElem.den_boundary y ht.symm,
    pr_lin_pr del (fun k hk => by rw [del_single, one_smul]; exact pr_be_delK k hk), pr_ecmpV_left, pr_ecmpV_right,
    ecmpV_leibniz d]
  · simp
  · exact Finsupp.supported_mono (fun k hk => hk.1) (den_supp_hom hx _)

/-- In degree 0, composition is the composition of permutations. -/
theorem C39_degree_zero {σ τ : Perm} {a b : Int} (hσ : IsPerm r σ) (hτ : IsPerm s τ) (hi : 1 ≤ i ∧ i ≤ r)
    (hx : x.NF barrattEccles) (hy : y.NF barrattEccles) (hxd : x.data = [([σ], a)]) (hyd : y.data = [([τ], b)])
    (ht : x.torsion = y.torsion) :
    ∃ ρ z, Perm.compose σ τ i = .ok ρ ∧ compose x y i = .ok z ∧
      pyEq z (Elem.new barrattEccles [([ρ], a * b)] (some x.torsion)) = true := by
  have hx' : HomBE r 0 x := ⟨⟨hx, by simp [hxd, hσ]⟩, by simp [hxd]⟩
  have hy' : HomBE s 0 y := ⟨⟨hy, by simp [hyd, hτ]⟩, by simp [hyd]⟩
  obtain ⟨z, ez, nz, az, dz⟩ := compose_ok hx' hy' (by simp [hxd]) (by simp [hyd]) hi ht rfl
  refine ⟨_, z, compose_eq hσ τ hi.1 hi.2, ez, ?_⟩
  have nn : (Elem.new barrattEccles [([IsPerm.compL σ τ i], a * b)] (some x.torsion)).NF barrattEccles :=
    nf_new _ (by simp [Dict.KeysNodup]) _ _
  refine pyEq_of_den nz nn (torsion_congr az) (by simp [Elem.new, Elem.torsion]) ?_
  rw [dz, hxd, hyd, den_new _ _ _ _ (by simp)]
  simp [ecmpV, den, ecmp, ez_cons, cp]

/-! ## C40 -/

/-- The identity of arity 1 is a right unit. -/
theorem C40_right_unit (hx : HomBE r d x) (hxn : x.data ≠ []) (hi : 1 ≤ i ∧ i ≤ r) {one : BElem}
    (ho : one.NF barrattEccles) (hod : one.data = [([[1]], 1)]) (ht : x.torsion = one.torsion) :
    ∃ z, compose x one i = .ok z ∧ z.attrs = x.attrs ∧ pyEq z x = true := by
  have h1 : HomBE 1 0 one := ⟨⟨ho, by simp [hod]; decide⟩, by simp [hod]⟩
  obtain ⟨z, ez, nz, az, dz⟩ := compose_ok hx h1 hxn (by simp [hod]) hi ht rfl
  refine ⟨z, ez, az, pyEq_of_den nz hx.nf (torsion_congr az) rfl ?_⟩
  rw [dz, hod]
  conv_rhs => rw [← hx.nf.pr_den]
  congr 1
  refine den_induction (P := fun w => ecmpV (ZMod x.torsion) i w (den (ZMod x.torsion) [([[1]], 1)]) = w)
    x.data (by simp) (fun u v hu hv => by rw [map_add, LinearMap.add_apply, hu, hv]) ?_
  intro p hp
  simp [ecmpV, den, ecmp_one_right (hx.perm p hp) (key_ne_nil hx.nf hp) hi.1]

/-- The identity of arity 1 is a left unit. -/
theorem C40_left_unit (hy : HomBE s e y) (hyn : y.data ≠ []) {one : BElem}
    (ho : one.NF barrattEccles) (hod : one.data = [([[1]], 1)]) (ht : one.torsion = y.torsion) :
    ∃ z, compose one y 1 = .ok z ∧ z.attrs = one.attrs ∧ pyEq z y = true := by
  have h1 : HomBE 1 0 one := ⟨⟨ho, by simp [hod]; decide⟩, by simp [hod]⟩
  obtain ⟨z, ez, nz, az, dz⟩ := compose_ok h1 hy (by simp [hod]) hyn ⟨le_rfl, le_rfl⟩ ht ht
  refine ⟨z, ez, az, pyEq_of_den nz hy.nf ((torsion_congr az).trans ht) rfl ?_⟩
  rw [dz, hod]
  conv_rhs => rw [← hy.nf.pr_den]
  congr 1
  refine den_induction (P := fun w => ecmpV (ZMod y.torsion) 1 (den (ZMod y.torsion) [([[1]], 1)]) w = w)
    y.data (by simp) (fun u v hu hv => by rw [map_add, hu, hv]) ?_
  intro p hp
  simp [ecmpV, den, ecmp_one_left (key_ne_nil hy.nf hp)]

/-- Sequential associativity: `(x ∘ᵢ y) ∘_{i+j-1} z = x ∘ᵢ (y ∘ⱼ z)`. -/
theorem C40_sequential (hx : HomBE r d x) (hy : HomBE s e y) (hz : HomBE u f z) (hi : 1 ≤ i ∧ i ≤ r)
    (hj : 1 ≤ j ∧ j ≤ s) (txy : x.torsion = y.torsion) (tyz : y.torsion = z.torsion) :
    ∃ xy yz a b, composeOrZero x y i = .ok xy ∧ composeOrZero y z j = .ok yz ∧
      composeOrZero xy z (i + j - 1) = .ok a ∧ composeOrZero x yz i = .ok b ∧ pyEq a b = true := by
  obtain ⟨xy, e1, i1, a1, d1⟩ := composeOrZero_ok hx hy hi txy rfl
  obtain ⟨yz, e2, i2, a2, d2⟩ := composeOrZero_ok hy hz hj tyz txy.symm
  have t1 : xy.torsion = x.torsion := torsion_congr a1
  have t2 : yz.torsion = x.torsion := (torsion_congr a2).trans txy.symm
  obtain ⟨a, e3, i3, a3, d3⟩ := composeOrZero_ok i1 hz (i := i + j - 1) (by omega) (t1.trans (txy.trans tyz)) t1
  obtain ⟨b, e4, i4, a4, d4⟩ := composeOrZero_ok hx i2 hi t2.symm rfl
  refine ⟨xy, yz, a, b, e1, e2, e3, e4, pyEq_of_den i3.nf i4.nf ((torsion_congr a3).trans t1) (torsion_congr a4) ?_⟩
  rw [d3, d4, d1, d2, pr_ecmpV_left, pr_ecmpV_right,
    sequentialV (den_supp_hom' hx _) (den_supp_hom' hy _) (den_supp_hom' hz _) hi hj]

/-- Parallel associativity: `(x ∘ᵢ y) ∘_{k+s-1} z = (-1)^(|y||z|) (x ∘ₖ z) ∘ᵢ y` for `i < k`. -/
theorem C40_parallel (hx : HomBE r d x) (hy : HomBE s e y) (hz : HomBE u f z) (hi : 1 ≤ i) (hik : i < k)
    (hk : k ≤ r) (txy : x.torsion = y.torsion) (tyz : y.torsion = z.torsion) (hs : 1 ≤ s) (hu : 1 ≤ u) :
    ∃ xy xz a b, composeOrZero x y i = .ok xy ∧ composeOrZero x z k = .ok xz ∧
      composeOrZero xy z (k + s - 1) = .ok a ∧ composeOrZero xz y i = .ok b ∧
      pyEq a (smul barrattEccles ((-1) ^ (e * f)) b) = true := by
  obtain ⟨xy, e1, i1, a1, d1⟩ := composeOrZero_ok hx hy (i := i) (by omega) txy rfl
  obtain ⟨xz, e2, i2, a2, d2⟩ := composeOrZero_ok hx hz (i := k) (by omega) (txy.trans tyz) rfl
  have t1 : xy.torsion = x.torsion := torsion_congr a1
  have t2 : xz.torsion = x.torsion := torsion_congr a2
  obtain ⟨a, e3, i3, a3, d3⟩ := composeOrZero_ok i1 hz (i := k + s - 1) (by omega) (t1.trans (txy.trans tyz)) t1
  obtain ⟨b, e4, i4, a4, d4⟩ := composeOrZero_ok i2 hy (i := i) (by omega) (t2.trans txy) t2
  have t4 : b.torsion = x.torsion := (torsion_congr a4).trans t2
  refine ⟨xy, xz, a, b, e1, e2, e3, e4, pyEq_of_den i3.nf (nf_smul i4.nf _) ((torsion_congr a3).trans t1)
    (by rw [smul_torsion]; exact t4) ?_⟩
  rw [den_smul i4.nf _ (by simp) (by rw [t4]; simp), d3, d4, d1, d2, pr_ecmpV_left, pr_ecmpV_left,
    parallelV (den_supp_hom' hx _) (den_supp_hom hy _) (den_supp_hom hz _) hi hik, map_smul]
  simp

/-! ## C41, continued: the other arguments on which `compose` raises -/

/-- `compose` raises `TypeError` on elements of different torsion, on elements which are not homogeneous,
and for a position beyond the arity. -/
theorem C41_compose_raises (h : x.torsion ≠ y.torsion ∨ x.degree = none ∨ y.degree = none ∨
    ∃ a, BElem.arity x = some a ∧ a < i) : compose x y i = .error .typeError := by
  unfold compose
  by_cases ht : x.torsion = y.torsion
  · rw [if_neg (by simpa using ht)]
    rcases h with h | h | h | ⟨a, ha, hai⟩
    · exact absurd ht h
    · rw [h]
      cases BElem.arity x <;> cases BElem.arity y <;> rfl
    · rw [h]
      cases BElem.arity x <;> cases BElem.arity y <;> cases BElem.degree x <;> rfl
    · rw [ha]
      cases BElem.arity y <;> cases BElem.degree x <;> cases BElem.degree y <;> try rfl
      simp only [if_pos hai]
  · rw [if_pos (by simpa using ht)]

/-- Position 0 raises `ValueError`. -/
theorem C41_compose_position_zero (hx : HomBE r d x) (hy : HomBE s e y) (hxn : x.data ≠ []) (hyn : y.data ≠ [])
    (ht : x.torsion = y.torsion) : compose x y 0 = .error .valueError := by
  have hpaths : ∀ p q, paths p q ≠ [] := by
    intro p q
    induction p, q using paths.induct <;> simp_all [paths]
  have hm : ((pyProduct x.data y.data).mapM fun (pq : (BKey × Int) × (BKey × Int)) =>
          (paths d e).mapM fun (path : List (Nat × Nat)) => do
            let newK ← path.mapM fun (ij : Nat × Nat) => do
              let a ← pyGet pq.1.1 ij.1
              let b ← pyGet pq.2.1 ij.2
              (a.compose b 0 : Py Perm)
            let sign := if x.torsion = 2 then 1 else signOfPath path
            (.ok (newK, sign * pq.1.2 * pq.2.2) : Py (BKey × Int))) = .error .valueError := by
    have herr : ∀ {α β : Type} {f : α → Py β} {l : List α} (_ : l ≠ []) (_ : ∀ a ∈ l, f a = .error .valueError),
        l.mapM f = .error .valueError := by
      intro α β f l hl h
      cases l with
      | nil => exact absurd rfl hl
      | cons a l => rw [List.mapM_cons, h a (by simp)]; rfl
    apply herr
    · obtain ⟨p, hp⟩ := List.exists_mem_of_ne_nil _ hxn
      obtain ⟨q, hq⟩ := List.exists_mem_of_ne_nil _ hyn
      exact List.ne_nil_of_mem (mem_pyProduct.2 (show (p, q).1 ∈ x.data ∧ (p, q).2 ∈ y.data from ⟨hp, hq⟩))
    rintro ⟨⟨k1, v1⟩, ⟨k2, v2⟩⟩ hpq
    rw [mem_pyProduct] at hpq
    have l1 := hx.len _ hpq.1
    have l2 := hy.len _ hpq.2
    refine herr (hpaths _ _) ?_
    intro path hp
    obtain ⟨hlast, -, hb⟩ := paths_spec d e hp
    have hk : (path.mapM fun (p : Nat × Nat) => do
              let a ← pyGet k1 p.1
              let b ← pyGet k2 p.2
              (a.compose b 0 : Py Perm)) = .error .valueError := by
      apply herr
      · rintro rfl; simp at hlast
      intro p hpp
      obtain ⟨b1, b2⟩ := hb p hpp
      simp only at l1 l2
      have h1 : p.1 < k1.length := by omega
      have h2 : p.2 < k2.length := by omega
      have e1 : pyGet k1 p.1 = .ok (k1[p.1]) := by simp [pyGet, h1]
      have e2 : pyGet k2 p.2 = .ok (k2[p.2]) := by simp [pyGet, h2]
      rw [e1, e2]
      show Perm.compose _ _ _ = _
      apply compose_err
      intro hmem
      have := (mem_iff (hx.perm _ hpq.1 _ (List.getElem_mem h1))).1 hmem
      omega
    simp only [bind] at hk ⊢
    rw [hk]
    rfl
  unfold compose
  rw [if_neg (by simpa using ht), arity_eq hx.toInBE hxn, arity_eq hy.toInBE hyn, degree_of_hom hx hxn,
    degree_of_hom hy hyn]
  simp only [Int.toNat_natCast]
  rw [if_neg (by omega)]
  simp only [bind] at hm ⊢
  rw [hm]
  rfl

/-! ### Examples -/

/-- An element of arity 2 and degree 1. -/
abbrev exBE2 : BElem := Elem.new barrattEccles [([[1, 2], [2, 1]], 2), ([[2, 1], [1, 2]], 3)] (some 5)

theorem exBE2_hom : HomBE 2 1 exBE2 :=
  ⟨⟨nf_new _ (by decide) _ _, by decide⟩, by decide⟩

theorem exBE_hom : HomBE 3 2 exBE := ⟨exBE_in, by decide⟩

example : HomBE 3 2 exBE ∧ HomBE 2 1 exBE2 ∧ exBE.torsion = exBE2.torsion ∧ exBE.data ≠ [] ∧ exBE2.data ≠ [] ∧
    exBE.degree = some ((2 : Nat) : Int) ∧ exBE2.degree = some ((1 : Nat) : Int) :=
  ⟨exBE_hom, exBE2_hom, rfl, by decide, by decide, by decide, by decide⟩

-- the compositions do not vanish
example : (compose exBE exBE2 2).toOption.map (fun z => (z.data.length, decide ((BElem.boundary z).data ≠ []))) =
    some (12, true) := by decide +kernel

-- the sign of the parallel axiom is needed
example : (do
    let a ← compose (← compose exBE2 exBE2 1) exBE2 3
    let b ← compose (← compose exBE2 exBE2 2) exBE2 1
    pure (pyEq a (smul barrattEccles (-1) b), pyEq a b) : Py (Bool × Bool)).toOption = some (true, false) := by
  decide +kernel

-- a composite which is zero modulo 4
example : (compose (Elem.new barrattEccles [([[1, 2], [2, 1]], 2)] (some 4))
    (Elem.new barrattEccles [([[1, 2], [2, 1]], 2)] (some 4)) 1).toOption.map Elem.data = some [] := by decide +kernel

end Comch.Props
