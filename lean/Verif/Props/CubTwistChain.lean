import Verif.Lib.CubTwistAct
import Verif.Props.CubCartan

/-! # With the twist the action on cubical chains is a chain map: C125 -/

set_option linter.unusedSectionVars false

namespace Comch.CubTwist
open Finsupp (single)
open Comch.Join Serre SurjComp CubCall CubCS SurjElem Comch.Spec

variable {R : Type} [CommRing R]

/-! ### the signs of the code -/

theorem tmK_smul {A B : Type} (f : A → (B →₀ R)) (s : A → Int) (G : List A) :
    tmK (fun a => sg R (s a) • f a) G = sg R (G.map s).sum • tmK f G := by
  induction G with
  | nil => simp [tmK]
  | cons a G ih =>
    rw [tmK, ih, tmK, List.map_cons, List.sum_cons, sg_add, mul_smul]
    simp only [map_smul, LinearMap.smul_apply]
    rw [smul_comm]

theorem E1_eq (g : CKey) : E1 g = tri (g.map cdim) + (g.length.choose 2 : Nat) := by
  induction g with
  | nil => rfl
  | cons a g ih =>
    rw [E1, ih, List.map_cons, tri, List.length_map, List.length_cons, Nat.choose_succ_succ', del]
    simp only [Nat.choose_one_right]
    push_cast
    ring

theorem gam_ne {r : Nat} {k : List Nat} (hk : OntoR r k) {L : CKey} (hl : L.length = k.length) :
    ∀ g ∈ gam r (k.zip L), g ≠ [] := by
  intro g hg
  obtain ⟨i, hi, rfl⟩ := List.mem_map.1 hg
  rw [List.mem_range'_1] at hi
  intro h0
  have hik : i ∈ k := (hk i).2 ⟨by omega, by omega⟩
  have := congrArg List.length h0
  rw [pos_length hl, length_pos] at this
  have h2 := List.count_pos_iff.2 hik
  simp at this
  omega

theorem sum_E1 {r : Nat} {k : List Nat} (hk : OntoR r k) {L : CKey} (hl : L.length = k.length) :
    ((gam r (k.zip L)).map E1).sum = jexK r k L + sdeg k := by
  have h1 : ∀ G : List CKey, (∀ g ∈ G, g ≠ []) → (G.map E1).sum = (G.map jexG).sum + (G.map fun g => (g.length : Int)).sum - G.length := by
    intro G hG
    induction G with
    | nil => simp
    | cons g G ih =>
      rw [List.map_cons, List.sum_cons, ih fun g hg => hG g (by simp [hg]), List.map_cons, List.sum_cons, List.map_cons,
        List.sum_cons, List.length_cons, E1_eq, ← jexG_eq (hG g (by simp))]
      push_cast
      ring
  have h2 := sum_gam (r := r) (fun _ => 1) (fun g : CKey => (g.length : Int)) (fun a g => by push_cast [List.length_cons]; ring) rfl
    (k.zip L) (fun p hp => (hk _).1 (List.of_mem_zip hp).1)
  rw [h1 _ (gam_ne hk hl), h2, length_gam, jexK]
  have h3 := length_onto hk
  simp [List.length_zip, hl]
  omega

theorem loc_ct {r : Nat} {T : Int} {k : Surj} (hk : OntoR r k) (hT : Twists R r T k) {L : CKey} (hl : L.length = k.length) :
    ((locSign r k L : Int) : R) • ac (R := R) r k L = sg R T • ct r k L := by
  have h0 : tmK (jt (R := R)) (gam r (k.zip L)) = sg R (jexK r k L + sdeg k) • ac r k L := by
    have := tmK_smul (R := R) jn E1 (gam r (k.zip L))
    rw [sum_E1 hk hl] at this
    exact this
  have hW : (Wd (k.zip L)) = k.zip (L.map cdim) := by
    rw [Wd, List.zip_map_right]
    rfl
  have h1 : ((locSign r k L : Int) : R) = sg R (cexp (Wd (k.zip L))) * sg R (cexpo r k L) := by
    have : (L.map fun c => ((Cube.dimension c : Nat) : Int) % 2) = (L.map cdim).map (· % 2) := by
      rw [List.map_map]; rfl
    unfold locSign cexpo
    rw [Int.cast_mul, cast_pySign, this, computeSign_eq (by simpa using hl), cast_pySign, hW]
    congr 1
    apply sg_eq_of_zmod
    exact cast_cexp_mod _ _ (by simpa using hl)
  rw [h1, ct, h0, smul_smul, smul_smul, ← hT L hl]
  congr 1
  simp only [← sg_add]
  apply sg_eq_of_zmod
  push_cast
  linear_combination (-(jexK r k L : ZMod 2) - sdeg k) * h22

/-- One surjection on one cube, with the twisted signs. -/
noncomputable def cactT (r : Nat) (k : Surj) (a : Cube) : CKey →₀ R := lin (ct r k) (serre (k.length - 1) a)

theorem cactS_eq {r : Nat} {T : Int} {k : Surj} (hk : OntoR r k) (hkn : k ≠ []) (hT : Twists R r T k) (a : Cube) :
    cactS (R := R) r k a = sg R T • cactT r k a := by
  have hkl := List.length_pos_iff.2 hkn
  have := BElem.lin_ext_supported (R := R)
    (f := lin fun L => ((locSign r k L : Int) : R) • ac r k L) (g := sg R T • lin (ct r k))
    (fun L hL => by
      rw [lin_single, one_smul, LinearMap.smul_apply, lin_single, one_smul]
      exact loc_ct hk hT (by have := hL.1; omega)) (serre_supported (R := R) (k.length - 1) a)
  simpa [cactS, cactT] using this

/-! ### one cube -/

theorem ct_zero_of_ac {r : Nat} {k : Surj} {L : CKey} (h : ac (R := R) r k L = 0) : ct (R := R) r k L = 0 := by
  have := tmK_smul (R := R) jn E1 (gam r (k.zip L))
  have h0 : tmK (jt (R := R)) (gam r (k.zip L)) = 0 := by
    have e : tmK (jt (R := R)) (gam r (k.zip L)) = sg R ((gam r (k.zip L)).map E1).sum • ac r k L := this
    rw [e, h, smul_zero]
  rw [ct, h0, smul_zero]

theorem cactT_rep {r : Nat} {k : List Nat} (hk : ∀ v ∈ k, 1 ≤ v ∧ v ≤ r) (hne : k ≠ []) (h : hasRep k = true) (a : Cube) :
    cactT (R := R) r k a = 0 := by
  have h4 := serre_chain (R := R) (k.length - 1) a
  have h5 := serre_supported (R := R) (k.length - 1) a
  have := BElem.lin_ext_supported (R := R)
    (S := {L : CKey | L.IsChain Flat} ∩ ND (k.length - 1 + 1) (cdim a)) (f := lin (ct (R := R) r k)) (g := 0) (fun L hL => by
      rw [lin_single, one_smul, ct_zero_of_ac (ac_hasRep hk h hL.1 ?_), LinearMap.zero_apply]
      have := hL.2.1
      have := List.length_pos_iff.2 hne
      omega) (by
      rw [Finsupp.mem_supported] at h4 h5 ⊢
      exact Set.subset_inter h4 h5)
  rw [LinearMap.zero_apply] at this
  exact this

theorem cubicalD_cactT {n r : Nat} {k : List Nat} (hk : OntoR r k) (hne : k ≠ []) {a : Cube} (ha : IsCube n a) :
    cubicalD (cactT (R := R) r k a) = lin (fun m => cactT r m a) (sbd .mcClureSmith (bv R k)) +
      sg R (sdeg k) • lin (cactT r k) (cubeD a) := by
  have hkl := List.length_pos_iff.2 hne
  have hstep := BElem.lin_ext_supported (R := R)
    (S := ND (k.length - 1 + 1) (cdim a) ∩ {L : CKey | ∀ c ∈ L, IsCube n c})
    (f := cubicalD.comp (lin (ct (R := R) r k)))
    (g := sg R (sdeg k) • (lin (ct r k)).comp cubicalD +
      ((List.range k.length).map fun i => if 2 ≤ k.count (k.getD i 0) then
        sg R (msExponent k i : Nat) • (lin (ct (R := R) r (k.eraseIdx i))).comp (lin (omAt i)) else 0).sum)
    (fun L hL => by
      have h0 := cubicalD_ct (R := R) hk hL.2 (by have := hL.1.1; omega)
      rw [LinearMap.comp_apply, lin_single, one_smul, h0, LinearMap.add_apply, LinearMap.smul_apply, LinearMap.comp_apply]
      congr 1
      · simp [cubicalD]
      · generalize List.range k.length = l
        induction l with
        | nil => simp
        | cons i l ih =>
          rw [List.map_cons, List.sum_cons, List.map_cons, List.sum_cons, LinearMap.add_apply, ih]
          congr 1
          split <;> simp)
    (v := serre (k.length - 1) a) (by
      have h4 := serre_isCube (R := R) (k.length - 1) a ha
      have h5 := serre_supported (R := R) (k.length - 1) a
      rw [Finsupp.mem_supported] at h4 h5 ⊢
      exact Set.subset_inter h5 h4)
  rw [LinearMap.comp_apply, LinearMap.add_apply, LinearMap.smul_apply, LinearMap.comp_apply, cubicalD_serre] at hstep
  rw [cactT, hstep, add_comm]
  congr 1
  · rw [sbd_bv_eq_sum, map_list_sum, List.map_map]
    have hsum : ∀ l : List Nat, (l.map fun i => if 2 ≤ k.count (k.getD i 0) then
        sg R (msExponent k i : Nat) • (lin (ct (R := R) r (k.eraseIdx i))).comp (lin (omAt i)) else 0).sum
        (serre (k.length - 1) a) = (l.map fun i => if 2 ≤ k.count (k.getD i 0) then
          sg R (msExponent k i : Nat) • lin (ct (R := R) r (k.eraseIdx i)) (lin (omAt i) (serre (k.length - 1) a)) else 0).sum := by
      intro l
      induction l with
      | nil => simp
      | cons i l ih =>
        rw [List.map_cons, List.sum_cons, List.map_cons, List.sum_cons, LinearMap.add_apply, ih]
        congr 1
        split <;> simp
    rw [hsum]
    congr 1
    apply List.map_congr_left
    intro i hi
    rw [List.mem_range] at hi
    simp only [Function.comp_apply]
    by_cases h2 : 2 ≤ k.count (k.getD i 0)
    · rw [if_pos h2, if_pos h2, map_smul, lin_single, one_smul, cactT, faceExponent]
      have hl2 : 2 ≤ k.length := h2.trans List.count_le_length
      rw [List.length_eraseIdx_of_lt hi]
      obtain ⟨t, ht⟩ : ∃ t, k.length = t + 2 := ⟨k.length - 2, by omega⟩
      rw [ht, show t + 2 - 1 = t + 1 by omega, omAt_serre i t (by omega), show t + 1 - 1 = t by omega]
    · rw [if_neg h2, if_neg h2, map_zero]
  · congr 1
    generalize cubeD (R := R) a = v
    induction v using Finsupp.induction_linear with
    | zero => simp
    | add f g hf hg => simp only [map_add, hf, hg]
    | single b s => simp [cactT]

theorem tmK_jt_degree {N : Nat} (G : List CKey) (hG : ∀ g ∈ G, ∀ c ∈ g, IsCube N c) :
    tmK (jt (R := R)) G ∈ Finsupp.supported R R {m : CKey | totDeg cdim m = (G.map Dl).sum - G.length} := by
  induction G with
  | nil => exact Finsupp.single_mem_supported R _ (by simp [totDeg])
  | cons g G ih =>
    have ih := ih (fun g hg => hG g (by simp [hg]))
    have hg := jt_degree (R := R) g (hG g (by simp))
    rw [tmK, cat_one_eq]
    refine lin_supported _ (fun a ha => ?_) hg
    have ha : cdim a = Dl g - 1 := ha
    refine mapK_supported (T := {m : CKey | totDeg cdim m = ((g :: G).map Dl).sum - (g :: G).length}) _ (fun m hm => ?_) ih
    have hm : totDeg cdim m = (G.map Dl).sum - G.length := hm
    show totDeg cdim (a :: m) = _
    rw [totDeg, ha, hm, List.map_cons, List.sum_cons, List.length_cons]
    push_cast
    ring

theorem cactT_degree {N r : Nat} {k : List Nat} (hk : OntoR r k) (hne : k ≠ []) {a : Cube} (ha : IsCube N a) :
    cactT (R := R) r k a ∈ Finsupp.supported R R {m : CKey | totDeg cdim m = sdeg k + cdim a} := by
  have hkl := List.length_pos_iff.2 hne
  refine lin_supported (S := ND (k.length - 1 + 1) (cdim a) ∩ {L : CKey | ∀ c ∈ L, IsCube N c}) _ (fun L hL => ?_) (by
      have h4 := serre_isCube (R := R) (k.length - 1) a ha
      have h5 := serre_supported (R := R) (k.length - 1) a
      rw [Finsupp.mem_supported] at h4 h5 ⊢
      exact Set.subset_inter h5 h4)
  obtain ⟨⟨h1, h2⟩, h3⟩ := hL
  have hl : L.length = k.length := by omega
  refine Submodule.smul_mem _ _ (Finsupp.supported_mono (fun m hm => ?_) (tmK_jt_degree (N := N) (gam r (k.zip L)) fun g hg c hc => ?_))
  · have hm : totDeg cdim m = ((gam r (k.zip L)).map Dl).sum - (gam r (k.zip L)).length := hm
    show totDeg cdim m = sdeg k + cdim a
    rw [hm, sum_gam (r := r) del Dl Dl_cons rfl (k.zip L) (fun p hp => (hk _).1 (List.of_mem_zip hp).1), length_gam]
    have e1 : ((k.zip L).map fun p => del p.2) = L.map del := by
      rw [show (fun p : Nat × Cube => del p.2) = del ∘ Prod.snd from rfl, ← List.map_map, zip_cubes hl]
    have e2 : ∀ L : CKey, (L.map del).sum = totDeg cdim L + L.length := by
      intro L
      induction L with
      | nil => simp [totDeg]
      | cons b L ih => rw [List.map_cons, List.sum_cons, ih, totDeg, del, List.length_cons]; push_cast; ring
    rw [e1, e2, h2, hl, length_onto hk]
    push_cast
    ring
  · obtain ⟨i, -, rfl⟩ := List.mem_map.1 hg
    obtain ⟨p, hp, rfl⟩ := List.mem_map.1 hc
    exact h3 _ (List.of_mem_zip (List.mem_filter.1 hp).1).2

theorem sgn_cactT {N r : Nat} {k : List Nat} (hk : OntoR r k) (hne : k ≠ []) {a : Cube} (ha : IsCube N a) :
    sgn cdim (cactT (R := R) r k a) = sg R (sdeg k + cdim a) • cactT r k a := by
  have := BElem.lin_ext_supported (R := R) (f := sgn cdim) (g := sg R (sdeg k + cdim a) • LinearMap.id) (fun m hm => by
    have hm : totDeg cdim m = sdeg k + cdim a := hm
    simp [sgn_single, hm, Finsupp.smul_single]) (cactT_degree (R := R) hk hne ha)
  simpa using this

/-! ### one factor of a tensor -/

theorem tens_atKd {A : Type} {d : A → (A →₀ R)} {deg : A → Int} {S : Set A} {f g : A → (List A →₀ R)} {e : Int}
    (hd : ∀ a, d a ∈ Finsupp.supported R R {b | deg b = deg a - 1})
    (hf : ∀ a ∈ S, tens d deg (f a) = g a + sg R e • lin f (d a))
    (hs : ∀ a ∈ S, sgn deg (f a) = sg R (e + deg a) • f a) (c : Nat) (k : List A) (hk : ∀ a ∈ k, a ∈ S) :
    tens d deg (atKd deg e f c k) = atKd deg (e - 1) g c k + sg R e • atLd deg e f c (tensK d deg k) := by
  induction k generalizing c with
  | nil => cases c <;> simp [atKd, tensK]
  | cons a k ih =>
    have ha := hk a (by simp)
    have ih := fun c => ih c fun b hb => hk b (by simp [hb])
    cases c with
    | zero =>
      simp only [atKd, tens_cat, hs a ha, hf a ha, tensK, map_add, map_smul, atLd_cat_one_zero,
        LinearMap.smul_apply, consV_eq_cat]
      rw [show bv R [a] = one (bv R a) by simp, atLd_cat_one_zero]
      simp only [LinearMap.add_apply, LinearMap.smul_apply, lin_single, one_smul,
        tens_single, sg_add, smul_add, smul_smul]
      abel
    | succ c =>
      simp only [atKd, tens_consV, tensK, map_add, map_smul, atLd_cat_one_succ e f c (hd a), atLd_single,
        one_smul, atLd_consV]
      simp only [consV_eq_cat, ih, map_add, map_smul, smul_add, smul_smul, ← sg_add]
      have h1 : sg R (deg a * e) = sg R (e + (deg a - 1) * e) := by congr 1; ring
      have h2 : sg R (deg a * e + deg a) = sg R (deg a * (e - 1)) := by
        rw [show deg a * e + deg a = deg a * (e - 1) + (deg a + deg a) by ring, sg_add, sg_add (deg a)]; simp
      have h3 : sg R (deg a * e + (deg a + e)) = sg R (e + (deg a + deg a * e)) := by congr 1; ring
      rw [h1, h2, h3]
      abel

theorem cubicalD_atKd {N r : Nat} {k : List Nat} (hk : OntoR r k) (hne : k ≠ []) (c : Nat) {m : CKey}
    (hm : ∀ a ∈ m, IsCube N a) :
    cubicalD (atKd cdim (sdeg k) (cactT (R := R) r k) c m) =
      lin (fun k' => atKd cdim (sdeg k - 1) (cactT r k') c m) (sbd .mcClureSmith (bv R k)) +
        sg R (sdeg k) • atLd cdim (sdeg k) (cactT r k) c (cubicalD (bv R m)) := by
  have h := tens_atKd (R := R) (S := {a | IsCube N a}) (e := sdeg k) (f := cactT r k) (deg := cdim)
    (g := fun a => lin (fun m => cactT r m a) (sbd .mcClureSmith (bv R k))) (d := cubeD)
    cubeD_deg (fun a ha => cubicalD_cactT hk hne ha) (fun a ha => sgn_cactT hk hne ha) c m hm
  rw [atKd_lin] at h
  have h2 : cubicalD (bv R m) = tensK cubeD cdim m := by simp [cubicalD]
  rw [h2]
  exact h

end Comch.CubTwist

namespace Comch.Props
open Comch.Spec Elem CElem SurjComp SurjElem Serre CubCall CubCS CubTwist
open Comch.Join (jn JN IsCube)
open Finsupp (single)

variable {x : SurjElem} {y : CElem} {r a coord N e : Nat} {d : Int}

theorem callCV_tw_bv {n : Nat} {T : Surj → Int} {k : Surj} (hk : OntoR r k) (hkn : k ≠ []) (hT : Twists (ZMod n) r (T k) k)
    {m : CKey} {c : Nat} (hc : c < m.length) :
    callCV n r d c (tw T (bv _ k)) (bv _ m) = atKd cdim d (cactT (R := ZMod n) r k) c m := by
  have h : cactS (R := ZMod n) r k = fun a => sg (ZMod n) (T k) • cactT r k a := funext fun a => cactS_eq hk hkn hT a
  rw [tw, lin_single, one_smul, map_smul, LinearMap.smul_apply, callCV_bv hkn hc, h, atKd_smul, smul_smul, sg_mul_self, one_smul]

theorem onto_ne {k : Surj} (hr : 1 ≤ r) (hk : OntoR r k) : k ≠ [] := by
  rintro rfl
  exact absurd ((hk 1).2 ⟨le_rfl, hr⟩) (by simp)

theorem sbd_deg {R : Type} [CommRing R] {cv : Convention} {k : Surj} (hk : OntoR r k) :
    sbd cv (bv R k) ∈ Finsupp.supported R R {m | OntoR r m ∧ (sdeg m : Int) = sdeg k - 1} := by
  rw [sbd_bv_eq_sum]
  have hlist : ∀ l : List (List Nat →₀ R), (∀ v ∈ l, v ∈ Finsupp.supported R R {m | OntoR r m ∧ (sdeg m : Int) = sdeg k - 1}) →
      l.sum ∈ Finsupp.supported R R {m | OntoR r m ∧ (sdeg m : Int) = sdeg k - 1} := by
    intro l hl
    induction l with
    | nil => exact Submodule.zero_mem _
    | cons v l ih =>
      rw [List.sum_cons]
      exact Submodule.add_mem _ (hl v (by simp)) (ih fun w hw => hl w (by simp [hw]))
  refine hlist _ fun v hv => ?_
  obtain ⟨i, hi, rfl⟩ := List.mem_map.1 hv
  rw [List.mem_range] at hi
  split
  · rename_i h2
    refine Submodule.smul_mem _ _ (Finsupp.single_mem_supported R _ ?_)
    have hk' : OntoR r (k.eraseIdx i) := fun v => (sameVals_eraseIdx hi h2 v).trans (hk v)
    refine ⟨hk', ?_⟩
    have h3 := length_onto hk
    have h4 := length_onto hk'
    rw [List.length_eraseIdx_of_lt hi] at h4
    omega
  · exact Submodule.zero_mem _

theorem cubicalD_callCV_tw {n c : Nat} {T : Surj → Int} {u : Surj →₀ ZMod n} {v : CKey →₀ ZMod n} (hr : 1 ≤ r)
    (hT : ∀ k, OntoR r k → (sdeg k : Int) = d - 1 → surjection.drops k = false → Twists (ZMod n) r (T k) k)
    (hu : u ∈ Finsupp.supported (ZMod n) (ZMod n) {k | OntoR r k ∧ (sdeg k : Int) = d ∧ Twists (ZMod n) r (T k) k})
    (hv : v ∈ Finsupp.supported (ZMod n) (ZMod n) {m : CKey | c < m.length ∧ ∀ a ∈ m, IsCube N a}) :
    cubicalD (callCV n r d c (tw T u) v) =
      callCV n r (d - 1) c (tw T (pr surjection.drops (sbd .mcClureSmith u))) v +
        sg (ZMod n) d • callCV n r d c (tw T u) (cubicalD v) := by
  have hDsup : ∀ m : CKey, m ∈ {m : CKey | c < m.length ∧ ∀ a ∈ m, IsCube N a} →
      cubicalD (bv (ZMod n) m) ∈ Finsupp.supported (ZMod n) (ZMod n) {m : CKey | c < m.length ∧ ∀ a ∈ m, IsCube N a} := by
    intro m hm
    rw [cubicalD, tens_single, one_smul]
    refine Finsupp.supported_mono ?_ (tensK_supported_all (S := {x | IsCube N x}) cubeD cdim
      (fun a ha => cubeD_supported a ha) m hm.2)
    intro l hl
    exact ⟨by have := hl.1; have := hm.1; show c < l.length; omega, hl.2⟩
  have hleft : ∀ (m : CKey), c < m.length → ∀ w ∈ Finsupp.supported (ZMod n) (ZMod n) {k | OntoR r k ∧ (sdeg k : Int) = d - 1},
      callCV n r (d - 1) c (tw T (pr surjection.drops w)) (bv _ m) =
        lin (fun k' => atKd cdim (d - 1) (cactT r k') c m) w := by
    intro m hm w hw
    have := BElem.lin_ext_supported (R := ZMod n) (S := {k | OntoR r k ∧ (sdeg k : Int) = d - 1})
      (f := ((callCV n r (d - 1) c).flip (bv _ m)).comp ((tw T).comp (pr surjection.drops)))
      (g := lin (fun k' => atKd cdim (d - 1) (cactT r k') c m)) (fun k hk => by
        simp only [LinearMap.comp_apply, LinearMap.flip_apply, lin_single, one_smul]
        have hkn := onto_ne hr hk.1
        by_cases hd : surjection.drops k = true
        · rw [pr_single, if_pos hd, map_zero, map_zero, LinearMap.zero_apply]
          have hg : m[c]? = some m[c] := List.getElem?_eq_getElem hm
          rw [atKd_eq _ _ _ _ _ hg, cactT_rep (fun v hv => (hk.1 v).1 hv) hkn (hasRep_of_drops hr hk.1 hd)]
          simp
        · rw [pr_single, if_neg hd, callCV_tw_bv hk.1 hkn (hT k hk.1 hk.2 (by simpa using hd)) hm]) hw
    simpa using this
  have := BElem.bil_ext_supported (R := ZMod n)
    (f := ((callCV n r d c).comp (tw T)).compr₂ cubicalD)
    (g := (callCV n r (d - 1) c).comp ((tw T).comp ((pr surjection.drops).comp (sbd .mcClureSmith))) +
      sg (ZMod n) d • ((callCV n r d c).comp (tw T)).compl₂ cubicalD)
    (S := {k | OntoR r k ∧ (sdeg k : Int) = d ∧ Twists (ZMod n) r (T k) k})
    (T := {m : CKey | c < m.length ∧ ∀ a ∈ m, IsCube N a})
    (fun k hk m hm => by
      have hkn := onto_ne hr hk.1
      simp only [LinearMap.compr₂_apply, LinearMap.add_apply, LinearMap.comp_apply, LinearMap.compl₂_apply, LinearMap.smul_apply]
      have h0 := cubicalD_atKd (R := ZMod n) hk.1 hkn c hm.2
      have hs := sbd_deg (R := ZMod n) (cv := .mcClureSmith) hk.1
      rw [hk.2.1] at h0 hs
      rw [callCV_tw_bv hk.1 hkn hk.2.2 hm.1, h0, hleft m hm.1 _ hs]
      congr 2
      have h2 := BElem.lin_ext_supported (R := ZMod n) (S := {m : CKey | c < m.length ∧ ∀ a ∈ m, IsCube N a})
        (f := atLd cdim d (cactT r k) c) (g := callCV n r d c (tw T (bv _ k))) (fun l hl => by
          rw [callCV_tw_bv hk.1 hkn hk.2.2 hl.1, atLd_single, one_smul]) (hDsup m hm)
      exact h2) hu hv
  simpa using this

theorem tw_tw {n : Nat} (T E : Surj → Int) (u : Surj →₀ ZMod n) : tw T (tw E u) = tw (fun k => T k + E k) u := by
  have : (tw (R := ZMod n) T).comp (tw E) = tw fun k => T k + E k := lin_ext fun k => by
    simp [tw, sg_add, smul_smul, mul_comm]
  rw [← this]; rfl

theorem pr_tw {n : Nat} (T : Surj → Int) (dr : Surj → Bool) (u : Surj →₀ ZMod n) : pr dr (tw T u) = tw T (pr dr u) := by
  have : (pr (R := ZMod n) dr).comp (tw T) = (tw T).comp (pr dr) := Finsupp.lhom_ext fun k c => by
    simp only [LinearMap.comp_apply, tw, lin_single, map_smul, pr_single]
    split <;> simp
  exact congrArg (fun f => f u) this

/-- The signs by which the conventions differ. -/
def cvE (cv : Convention) (k : Surj) : Int := invE k + convE cv k

theorem sbd_cvE {n : Nat} (cv : Convention) (u : Surj →₀ ZMod n) :
    sbd .mcClureSmith (tw (cvE cv) u) = tw (cvE cv) (sbd cv u) := by
  have h : ∀ v : Surj →₀ ZMod n, tw (cvE cv) v = convS .mcClureSmith (convS cv v) := by
    intro v
    have : tw (R := ZMod n) (cvE cv) = (convS .mcClureSmith).comp (convS cv) := lin_ext fun k => by
      simp [tw, cvE, convE, sg_add, mul_comm]
    rw [this]; rfl
  rw [h, h]
  simp only [sbd, LinearMap.comp_apply, convS_convS]

/-- The common form: `x'` and `xb'` are `x` and its boundary with every key multiplied by `(-1)^(T k + cvE k)`. -/
theorem twisted_chain {x' xb' : SurjElem} {n : Nat} (T : Surj → Int) (hx : InSurj r x) (hd : x.degree = some d)
    (hx' : InSurj r x') (hxb' : InSurj r xb')
    (hd1 : ∀ p ∈ x'.data, ((sdeg p.1 : Nat) : Int) = d) (hd2 : ∀ p ∈ xb'.data, ((sdeg p.1 : Nat) : Int) = d - 1)
    (hyd : y.degree = some e) (hya : y.arity = some a)
    (hN : ∀ p ∈ y.data, ∀ c ∈ p.1, c.length = N ∧ ∀ v ∈ c, v ≤ 2)
    (hxn : x.torsion = n) (hxn' : x'.torsion = n) (hxbn : xb'.torsion = n) (hyn : y.torsion = n) (h1 : 1 ≤ coord) (h2 : coord ≤ a)
    (hden : den (ZMod n) x'.data = tw (fun k => T k + cvE x.attrs.convention k) (den _ x.data))
    (hdenb : den (ZMod n) xb'.data = tw (fun k => T k + cvE x.attrs.convention k) (den _ x.boundary.data))
    (hT : ∀ p ∈ x.data, Twists (ZMod n) r (T p.1) p.1)
    (hTb : ∀ k, OntoR r k → (sdeg k : Int) = d - 1 → surjection.drops k = false → Twists (ZMod n) r (T k) k) :
    ∃ z yb zb zx zy w : CElem, callCubical x' y coord = .ok z ∧ z.boundary = .ok zb ∧
      y.boundary = .ok yb ∧ callCubical xb' y coord = .ok zx ∧ callCubical x' yb coord = .ok zy ∧
      add cubical zx (smul cubical (pySign d) zy) = .ok w ∧ pyEq zb w = true := by
  have hk := chomogeneous_keys hyd hya
  have hNl : ∀ p ∈ y.data, ∀ c ∈ p.1, c.length = N := fun p hp c hc => (hN p hp c hc).1
  obtain ⟨yb, hyb⟩ := C28_boundary_ok y
  have hkb := cboundary_keys hyb hyd hya
  have hNb := cboundary_cubes hyb hN
  have tyb : yb.torsion = n := by rw [torsion_congr (cboundary_attrs hyb), hyn]
  obtain ⟨z, ez, nz, az, dz⟩ := callCubical_ok hx' hd1 hk hNl hxn' hyn h1 h2
  obtain ⟨zx, ezx, nzx, azx, dzx⟩ := callCubical_ok hxb' hd2 hk hNl hxbn hyn h1 h2
  obtain ⟨zy, ezy, nzy, azy, dzy⟩ := callCubical_ok hx' hd1 hkb (fun p hp c hc => (hNb p hp c hc).1) hxn' tyb h1 h2
  have tz : z.torsion = n := by rw [torsion_congr az, hyn]
  have tzx : zx.torsion = n := by rw [torsion_congr azx, hyn]
  have tzy : zy.torsion = n := by rw [torsion_congr azy, tyb]
  have tsz : (smul cubical (pySign d) zy).torsion = n := by rw [smul_torsion, tzy]
  obtain ⟨zb, hzb⟩ := C28_boundary_ok z
  have tzb : zb.torsion = n := by rw [torsion_congr (cboundary_attrs hzb), tz]
  obtain ⟨w, ew⟩ := add_ok (C := cubical) (x := zx) (y := smul cubical (pySign d) zy) (by rw [tzx, tsz])
  refine ⟨z, yb, zb, zx, zy, w, ez, hzb, hyb, ezx, ezy, ew, pyEq_of_den (n := n) (nf_cboundary hzb) (nf_add ew nzx) tzb
    (by rw [torsion_congr (attrs_add ew), tzx]) ?_⟩
  have hxne : x.data ≠ [] := by
    rw [SurjElem.degree, uniqueValue_eq_some] at hd
    simpa using hd.1
  obtain ⟨p, hp⟩ := List.exists_mem_of_ne_nil _ hxne
  have hr : 1 ≤ r := one_le_of_mem hx hp
  have hs : ∀ p ∈ x.data, ((sdeg p.1 : Nat) : Int) = d := fun p hp => sdeg_of_degree hx hd hp
  rw [den_cboundary hzb tz, den_add (R := ZMod n) ew nzx (nf_smul nzy _) (by simp [cubical]) (by rw [tzx]; simp),
    den_smul (R := ZMod n) nzy _ (by simp [cubical]) (by rw [tzy]; simp), dz, dzx, dzy, hden, hdenb,
    SurjElem.den_boundary hx.nf hxn, den_cboundary hyb hyn, cast_pySign, ← tw_tw, ← tw_tw, ← pr_tw, ← sbd_cvE]
  refine cubicalD_callCV_tw (N := N) hr hTb ?_ (den_supported fun p hp => ?_)
  · refine lin_supported (S := {k | OntoR r k ∧ (sdeg k : Int) = d ∧ Twists (ZMod n) r (T k) k}) _
      (fun k hk => Submodule.smul_mem _ _ (Finsupp.single_mem_supported _ _ hk))
      (den_supported fun p hp => ⟨hx.onto p hp, hs p hp, hT p hp⟩)
  exact ⟨by rw [(hk p hp).2]; omega, hN p hp⟩

theorem twist_ok (hx : InSurj r x) (hs : ∀ p ∈ x.data, ((sdeg p.1 : Nat) : Int) = d) :
    InSurj r (twist x) ∧ (∀ p ∈ (twist x).data, ((sdeg p.1 : Nat) : Int) = d) ∧ (twist x).torsion = x.torsion ∧
      den (ZMod x.torsion) (twist x).data = tw (fun k => (twistExponent k : Int)) (den _ x.data) := by
  have hnf : (twist x).NF surjection := nf_new _ (by
    have := hx.nf.nodup
    unfold Dict.KeysNodup at this ⊢
    rwa [List.map_map]) _ _
  have hkeys : ∀ p ∈ (twist x).data, ∃ q ∈ x.data, q.1 = p.1 := by
    intro p hp
    have := mem_keys_new (List.mem_map_of_mem (f := Prod.fst) hp)
    rw [List.map_map] at this
    obtain ⟨q, hq, h⟩ := List.mem_map.1 this
    exact ⟨q, hq, h⟩
  refine ⟨⟨hnf, fun p hp => ?_⟩, fun p hp => ?_, rfl, ?_⟩
  · obtain ⟨q, hq, h⟩ := hkeys p hp
    rw [← h]; exact hx.onto q hq
  · obtain ⟨q, hq, h⟩ := hkeys p hp
    rw [← h]; exact hs q hq
  rw [twist, den_new _ _ _ _ (by rw [Option.getD_some]; simp), pr_den_of_forall]
  · rw [tw, lin_den, den]
    simp only [List.map_map]
    congr 1
    refine List.map_congr_left fun p _ => ?_
    simp only [Function.comp, Finsupp.smul_single, smul_eq_mul, mul_one]
    rw [sg_natCast]
    push_cast
    rw [mul_comm]
  · intro p hp
    obtain ⟨q, hq, rfl⟩ := List.mem_map.1 hp
    exact hx.nf.kept q hq

/-- For every torsion, elements of arity at least 3 with the coefficient of every `k` multiplied by
`(-1)^(Σ_i C(m_i, 2))` act on cubical chains compatibly with the boundaries:
`∂(x'(c)) = (∂x)'(c) + (-1)^d x'(∂c)`; nothing raises. -/
theorem C125_twisted_chain_map (hx : InSurj r x) (hr : 3 ≤ r) (hd : x.degree = some d)
    (hcv : x.attrs.convention = .mcClureSmith) (hyd : y.degree = some e) (hya : y.arity = some a)
    (hN : ∀ p ∈ y.data, ∀ c ∈ p.1, c.length = N ∧ ∀ v ∈ c, v ≤ 2)
    (ht : x.torsion = y.torsion) (h1 : 1 ≤ coord) (h2 : coord ≤ a) :
    ∃ z yb zb zx zy w : CElem, callCubical (twist x) y coord = .ok z ∧ z.boundary = .ok zb ∧
      y.boundary = .ok yb ∧ callCubical (twist x.boundary) y coord = .ok zx ∧ callCubical (twist x) yb coord = .ok zy ∧
      add cubical zx (smul cubical (pySign d) zy) = .ok w ∧ pyEq zb w = true := by
  have hs : ∀ p ∈ x.data, ((sdeg p.1 : Nat) : Int) = d := fun p hp => sdeg_of_degree hx hd hp
  have tb : x.boundary.torsion = x.torsion := torsion_congr (SurjElem.boundary_attrs x)
  obtain ⟨i1, s1, t1, e1⟩ := twist_ok hx hs
  obtain ⟨i2, s2, t2, e2⟩ := twist_ok (inSurj_boundary hx) (sdeg_boundary hx hd)
  rw [tb] at t2 e2
  have hE : ∀ u : Surj →₀ ZMod x.torsion, tw (fun k => (twistExponent k : Int) + cvE x.attrs.convention k) u =
      tw (fun k => (twistExponent k : Int)) u := by
    intro u
    have : tw (R := ZMod x.torsion) (fun k => (twistExponent k : Int) + cvE x.attrs.convention k) =
        tw fun k => (twistExponent k : Int) := lin_ext fun k => by
      simp only [tw, lin_single, one_smul, hcv, cvE, convE, sg_add, sg_mul_self, mul_one]
    rw [this]
  exact twisted_chain (n := x.torsion) (fun k => (twistExponent k : Int)) hx hd i1 i2 s1 s2 hyd hya hN rfl t1 t2 ht.symm h1 h2
    (e1.trans (hE _).symm) (e2.trans (hE _).symm) (fun p hp => twists_large hr (hx.onto p hp)) (fun k hk _ _ => twists_large hr hk)

/-- The surjections of arity at most 2 and degree at most 2. -/
theorem low_keys_two {k : Surj} (hk : OntoR r k) (hrep : hasRep k = false) (hr : r ≤ 2)
    (hd : (sdeg k : Int) = d) (hne : k ≠ []) (hdl : d ≤ 2) :
    (k, r) ∈ ([([1], 1), ([1, 2], 2), ([2, 1], 2), ([1, 2, 1], 2), ([2, 1, 2], 2), ([1, 2, 1, 2], 2)] : List (Surj × Nat)) ∨
      k = [2, 1, 2, 1] ∧ r = 2 := by
  by_cases h1 : d ≤ 1 ∨ d = 2 ∧ k.head? = some 1
  · exact Or.inl (low_keys hk hrep hr hd hne h1)
  · right
    have hd2 : d = 2 := by omega
    have hl := length_of_onto hk
    have hall : ∀ v ∈ k, 1 ≤ v ∧ v ≤ r := fun v hv => (hk v).1 hv
    have hr0 : 1 ≤ r := by
      obtain ⟨v, hv⟩ := List.exists_mem_of_ne_nil _ hne
      have := hall v hv; omega
    match k, hl with
    | [], _ => exact absurd rfl hne
    | [a], hl => simp only [List.length_cons, List.length_nil] at hl; omega
    | [a, b], hl => simp only [List.length_cons, List.length_nil] at hl; omega
    | [a, b, c], hl =>
      simp only [List.length_cons, List.length_nil] at hl
      obtain rfl : r = 1 := by omega
      have ha := hall a (by simp)
      have hb := hall b (by simp)
      obtain rfl : a = b := by omega
      simp [hasRep] at hrep
    | [a, b, c, f], hl =>
      have ha := hall a (by simp)
      have hb := hall b (by simp)
      have hc := hall c (by simp)
      have hf := hall f (by simp)
      have hab : a ≠ b := by
        rintro rfl
        simp [hasRep] at hrep
      have hbc : b ≠ c := by
        rintro rfl
        simp [hasRep] at hrep
      have hcf : c ≠ f := by
        rintro rfl
        simp [hasRep] at hrep
      obtain rfl : r = 2 := by omega
      have h3 : a ≠ 1 := by
        rintro rfl
        exact h1 (Or.inr ⟨hd2, rfl⟩)
      obtain ⟨rfl, rfl, rfl, rfl⟩ : a = 2 ∧ b = 1 ∧ c = 2 ∧ f = 1 := by omega
      simp
    | a :: b :: c :: f :: g :: k, hl =>
      simp only [List.length_cons] at hl
      omega

theorem twists_2121 {R : Type} [CommRing R] : Twists R 2 1 [2, 1, 2, 1] := by
  intro L hl
  apply sg_congr
  obtain ⟨a, L, rfl⟩ := List.exists_cons_of_ne_nil (show L ≠ [] by rintro rfl; simp at hl)
  obtain ⟨b, c, d, rfl⟩ := List.length_eq_three.1 (show L.length = 3 by simpa using hl)
  have e1 : cexpo 2 [2, 1, 2, 1] [a, b, c, d] = (2 - 1) * (cdim b % 2) + ((2 - 1) * (cdim a % 2) + 0) + 1 := rfl
  have e2 : jexK 2 [2, 1, 2, 1] [a, b, c, d] = cdim b + 0 + (cdim a + 0 + 0) := rfl
  rw [e1, e2]; omega

/-- For every torsion, elements of arity at most 2 and degree at most 2 act as they are compatibly with the boundaries;
in the McClure–Smith convention this needs, in degree 2, that only `(1, 2, 1, 2)` occurs. -/
theorem C125_low_degree_chain_map (hx : InSurj r x) (hr : r ≤ 2) (hd : x.degree = some d)
    (hdl : d ≤ 1 ∨ d = 2 ∧ (x.attrs.convention = .bergerFresse ∨ ∀ p ∈ x.data, p.1.head? = some 1))
    (hyd : y.degree = some e) (hya : y.arity = some a)
    (hN : ∀ p ∈ y.data, ∀ c ∈ p.1, c.length = N ∧ ∀ v ∈ c, v ≤ 2)
    (ht : x.torsion = y.torsion) (h1 : 1 ≤ coord) (h2 : coord ≤ a) :
    ∃ z yb zb zx zy w : CElem, callCubical x y coord = .ok z ∧ z.boundary = .ok zb ∧
      y.boundary = .ok yb ∧ callCubical x.boundary y coord = .ok zx ∧ callCubical x yb coord = .ok zy ∧
      add cubical zx (smul cubical (pySign d) zy) = .ok w ∧ pyEq zb w = true := by
  have hs : ∀ p ∈ x.data, ((sdeg p.1 : Nat) : Int) = d := fun p hp => sdeg_of_degree hx hd hp
  have tb : x.boundary.torsion = x.torsion := torsion_congr (SurjElem.boundary_attrs x)
  have hxne : x.data ≠ [] := by
    rw [SurjElem.degree, uniqueValue_eq_some] at hd
    simpa using hd.1
  obtain ⟨p, hp⟩ := List.exists_mem_of_ne_nil _ hxne
  have hr1 : 1 ≤ r := one_le_of_mem hx hp
  have hd2 : d ≤ 2 := by omega
  have hT : ∀ k, OntoR r k → (sdeg k : Int) ≤ 2 → hasRep k = false → Twists (ZMod x.torsion) r (invE k : Nat) k := by
    intro k hk hdk hrep
    rcases low_keys_two hk hrep hr rfl (onto_ne hr1 hk) hdk with h | ⟨rfl, rfl⟩
    · have h0 : invE k = 0 := by
        simp only [List.mem_cons, Prod.mk.injEq, List.not_mem_nil, or_false] at h
        rcases h with ⟨rfl, rfl⟩ | ⟨rfl, rfl⟩ | ⟨rfl, rfl⟩ | ⟨rfl, rfl⟩ | ⟨rfl, rfl⟩ | ⟨rfl, rfl⟩ <;> decide
      rw [h0]
      exact twists_low h
    · have h0 : invE [2, 1, 2, 1] = 1 := by decide
      rw [h0]
      exact twists_2121
  have hE : ∀ u ∈ Finsupp.supported (ZMod x.torsion) (ZMod x.torsion)
      {k | x.attrs.convention = .bergerFresse ∨ invE k = 0}, u =
      tw (fun k => (invE k : Int) + cvE x.attrs.convention k) u := by
    intro u hu
    have := BElem.lin_ext_supported (R := ZMod x.torsion) (f := LinearMap.id)
      (g := tw (fun k => (invE k : Int) + cvE x.attrs.convention k)) (fun k hk => by
        rw [tw, lin_single, one_smul, LinearMap.id_apply]
        have : sg (ZMod x.torsion) ((invE k : Int) + cvE x.attrs.convention k) = 1 := by
          rcases hk with hk | hk
          · rw [hk, cvE, convE, Nat.cast_zero, add_zero, sg_add, sg_mul_self]
          · cases hc : x.attrs.convention <;> simp [cvE, convE, hk]
        rw [this, one_smul]) hu
    simpa using this
  refine twisted_chain (n := x.torsion) (fun k => (invE k : Int)) hx hd hx (inSurj_boundary hx) hs (sdeg_boundary hx hd) hyd hya hN
    rfl rfl tb ht.symm h1 h2 (hE _ (den_supported fun p hp => ?_)) (hE _ (den_supported fun p hp => ?_))
    (fun p hp => hT _ (hx.onto p hp) (by rw [hs p hp]; exact hd2) (surj_kept_iff.1 (hx.nf.kept p hp)).2.2)
    (fun k hk hdk hdr => hT k hk (by omega) (surj_kept_iff.1 hdr).2.2)
  · have h0 : ∀ k, OntoR r k → hasRep k = false → k ≠ [] → (sdeg k : Int) = d → (d ≤ 1 ∨ d = 2 ∧ k.head? = some 1) →
        invE k = 0 := by
      intro k hk hrep hne hdk hh
      have h := low_keys hk hrep hr hdk hne hh
      simp only [List.mem_cons, Prod.mk.injEq, List.not_mem_nil, or_false] at h
      rcases h with ⟨rfl, rfl⟩ | ⟨rfl, rfl⟩ | ⟨rfl, rfl⟩ | ⟨rfl, rfl⟩ | ⟨rfl, rfl⟩ | ⟨rfl, rfl⟩ <;> decide
    by_cases hb : x.attrs.convention = .bergerFresse
    · exact Or.inl hb
    · refine Or.inr (h0 _ (hx.onto p hp) (surj_kept_iff.1 (hx.nf.kept p hp)).2.2 (onto_ne_nil hx.nf hp) (hs p hp) ?_)
      exact hdl.imp_right fun h => ⟨h.1, h.2.resolve_left hb p hp⟩
  · have hb := inSurj_boundary hx
    have h := low_keys (hb.onto p hp) (surj_kept_iff.1 (hb.nf.kept p hp)).2.2 hr (sdeg_boundary hx hd p hp)
      (onto_ne_nil hb.nf hp) (Or.inl (by omega))
    right
    simp only [List.mem_cons, Prod.mk.injEq, List.not_mem_nil, or_false] at h
    rcases h with ⟨h, rfl⟩ | ⟨h, rfl⟩ | ⟨h, rfl⟩ | ⟨h, rfl⟩ | ⟨h, rfl⟩ | ⟨h, rfl⟩ <;> rw [h] <;> decide

/-! ### Examples and defects -/

/-- The hypotheses of the twisted theorem are met by `exCT` (arity 3, degree 1) and `exCTy`. -/
example : InSurj 3 exCT ∧ exCT.degree = some 1 ∧ exCT.attrs.convention = .mcClureSmith ∧ exCTy.degree = some 3 ∧
    exCTy.arity = some 2 ∧ (∀ p ∈ exCTy.data, ∀ c ∈ p.1, c.length = 2 ∧ ∀ v ∈ c, v ≤ 2) ∧ exCT.torsion = exCTy.torsion ∧
    (((twist exCT).callCubical exCTy 1).toOption.map fun z => z.data.length) = some 14 :=
  ⟨SurjElem.inSurj_of_arity (nf_new _ (by decide) _ _) (by decide), by decide, by decide, by decide, by decide, by decide, rfl,
    by decide +kernel⟩

abbrev exTw2 (cv : Convention) : SurjElem := Elem.new surjection [([1, 2, 1, 2], 1)] none cv
abbrev exTwB : SurjElem := Elem.new surjection [([1, 2, 1, 2], 1), ([2, 1, 2, 1], -3)] none

abbrev exTwY : CElem := Elem.new cubical [([[2, 2, 2], [2, 1, 0]], 1), ([[0, 2, 2], [2, 2, 1]], -2)]

example : InSurj 2 exTwB ∧ exTwB.degree = some 2 ∧ exTwB.attrs.convention = .bergerFresse ∧ exTwY.degree = some 4 ∧
    exTwY.arity = some 2 ∧ (∀ p ∈ exTwY.data, ∀ c ∈ p.1, c.length = 3 ∧ ∀ v ∈ c, v ≤ 2) ∧ exTwB.torsion = exTwY.torsion ∧
    ((exTwB.callCubical exTwY 1).toOption.map fun z => z.data.length) = some 13 :=
  ⟨SurjElem.inSurj_of_arity (nf_new _ (by decide) _ _) (by decide), by decide, by decide, by decide, by decide, by decide, rfl,
    by decide +kernel⟩
example (cv : Convention) : InSurj 2 (exTw2 cv) ∧ (exTw2 cv).degree = some 2 ∧ ∀ p ∈ (exTw2 cv).data, p.1.head? = some 1 :=
  ⟨SurjElem.inSurj_of_arity (nf_new _ (by decide) _ _) (by cases cv <;> decide), by cases cv <;> decide, by cases cv <;> decide⟩

/-- One surjection on one cube, over the integers: whether the action commutes with the boundary. -/
theorem chain_fails {k : Surj} {cv : Convention} {c : Cube} {d : Int} (h : (do
      let z ← callCubical (Elem.new surjection [(k, 1)] none cv) (Elem.new cubical [([c], 1)]) 1
      let zb ← z.boundary
      let yb ← CElem.boundary (Elem.new cubical [([c], 1)])
      let zx ← callCubical (SurjElem.boundary (Elem.new surjection [(k, 1)] none cv)) (Elem.new cubical [([c], 1)]) 1
      let zy ← callCubical (Elem.new surjection [(k, 1)] none cv) yb 1
      let w ← add cubical zx (smul cubical (pySign d) zy)
      .ok (pyEq zb w) : Py Bool) = .ok false) :
    ∃ z zb yb zx zy w : CElem, callCubical (Elem.new surjection [(k, 1)] none cv) (Elem.new cubical [([c], 1)]) 1 = .ok z ∧
      z.boundary = .ok zb ∧ CElem.boundary (Elem.new cubical [([c], 1)]) = .ok yb ∧
      callCubical (SurjElem.boundary (Elem.new surjection [(k, 1)] none cv)) (Elem.new cubical [([c], 1)]) 1 = .ok zx ∧
      callCubical (Elem.new surjection [(k, 1)] none cv) yb 1 = .ok zy ∧
      add cubical zx (smul cubical (pySign d) zy) = .ok w ∧ pyEq zb w = false := by
  have bind_ok : ∀ {A B : Type} {e : Py A} {f : A → Py B} {z : B}, (e >>= f) = .ok z → ∃ a, e = .ok a ∧ f a = .ok z := by
    intro A B e f z h
    cases e with
    | error t => cases h
    | ok a => exact ⟨a, rfl, h⟩
  obtain ⟨z, ez, h⟩ := bind_ok h
  obtain ⟨zb, ezb, h⟩ := bind_ok h
  obtain ⟨yb, eyb, h⟩ := bind_ok h
  obtain ⟨zx, ezx, h⟩ := bind_ok h
  obtain ⟨zy, ezy, h⟩ := bind_ok h
  obtain ⟨w, ew, h⟩ := bind_ok h
  exact ⟨z, zb, yb, zx, zy, w, ez, ezb, eyb, ezx, ezy, ew, by injection h⟩

/-- (Defect.)  Over the integers the surjection `(1, 2, 1, 2, 1)` of degree 3, acting as it is on the three-dimensional cube,
does not commute with the boundaries, in either convention. -/
theorem C125_degree_three_fails (cv : Convention) :
    SurjElem.degree (Elem.new surjection [([1, 2, 1, 2, 1], 1)] none cv) = some 3 ∧
    ∃ z zb yb zx zy w : CElem,
      callCubical (Elem.new surjection [([1, 2, 1, 2, 1], 1)] none cv) (Elem.new cubical [([[2, 2, 2]], 1)]) 1 = .ok z ∧
      z.boundary = .ok zb ∧ CElem.boundary (Elem.new cubical [([[2, 2, 2]], 1)]) = .ok yb ∧
      callCubical (SurjElem.boundary (Elem.new surjection [([1, 2, 1, 2, 1], 1)] none cv))
        (Elem.new cubical [([[2, 2, 2]], 1)]) 1 = .ok zx ∧
      callCubical (Elem.new surjection [([1, 2, 1, 2, 1], 1)] none cv) yb 1 = .ok zy ∧
      add cubical zx (smul cubical (pySign 3) zy) = .ok w ∧ pyEq zb w = false :=
  ⟨by cases cv <;> decide, chain_fails (by cases cv <;> decide +kernel)⟩

/-- (Defect.)  In the McClure–Smith convention neither does `(2, 1, 2, 1)`, on the square. -/
theorem C125_mcClureSmith_fails :
    SurjElem.degree (Elem.new surjection [([2, 1, 2, 1], 1)] none .mcClureSmith) = some 2 ∧
    ∃ z zb yb zx zy w : CElem,
      callCubical (Elem.new surjection [([2, 1, 2, 1], 1)] none .mcClureSmith) (Elem.new cubical [([[2, 2]], 1)]) 1 = .ok z ∧
      z.boundary = .ok zb ∧ CElem.boundary (Elem.new cubical [([[2, 2]], 1)]) = .ok yb ∧
      callCubical (SurjElem.boundary (Elem.new surjection [([2, 1, 2, 1], 1)] none .mcClureSmith))
        (Elem.new cubical [([[2, 2]], 1)]) 1 = .ok zx ∧
      callCubical (Elem.new surjection [([2, 1, 2, 1], 1)] none .mcClureSmith) yb 1 = .ok zy ∧
      add cubical zx (smul cubical (pySign 2) zy) = .ok w ∧ pyEq zb w = false :=
  ⟨by decide, chain_fails (by decide +kernel)⟩

end Comch.Props
