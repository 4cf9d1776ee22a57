import Verif.Lib.CubCartan
import Verif.Props.CubCall
import Verif.Props.CartanSerre
import Verif.Spec.CubeTwist

/-! # The Cartan–Serre map is compatible with the action of surjections: C93 -/

set_option linter.unusedSectionVars false

namespace Comch.CubCS
open Finsupp (single)
open Comch.Join Serre CubCall SurjComp SurjElem Spec

variable {R : Type} [CommRing R]

/-! ### the action on one cube -/

/-- The collapse keeps the dimension. -/
def Kept (c : Cube) : Prop := cdim c = Simplex.dimension (Cube.cartanSerre c)

theorem cs1_kept {c : Cube} (h : Kept c) : cs1 (R := R) c = bv R (Cube.cartanSerre c) := by
  rw [cs1_eq]; exact if_pos h

theorem cs1_not {c : Cube} (h : ¬ Kept c) : cs1 (R := R) c = 0 := by
  rw [cs1_eq]; exact if_neg h

theorem catS_kept {L : List Cube} (h : ∀ c ∈ L, Kept c) :
    catS (R := R) L = bv R (L.map Cube.cartanSerre).flatten := by
  induction L with
  | nil => rfl
  | cons b L ih =>
    rw [catS, ih fun c hc => h c (by simp [hc]), cs1_kept (h b (by simp))]
    simp

theorem catS_not {L : List Cube} {c : Cube} (hc : c ∈ L) (h : ¬ Kept c) : catS (R := R) L = 0 := by
  induction L with
  | nil => simp at hc
  | cons b L ih =>
    rw [catS]
    rcases List.mem_cons.1 hc with rfl | hc
    · rw [cs1_not h]; simp
    · rw [ih hc]; simp

theorem tmK_kept {L : List Cube} (h : ∀ c ∈ L, Kept c) :
    tmK (R := R) cs1 L = bv R (L.map Cube.cartanSerre) := by
  induction L with
  | nil => rfl
  | cons b L ih =>
    rw [tmK, ih fun c hc => h c (by simp [hc]), cs1_kept (h b (by simp))]
    simp

theorem tm_tmK {A B D : Type} (f : B → (D →₀ R)) (g : A → (B →₀ R)) (G : List A) :
    tm f (tmK g G) = tmK (fun a => lin f (g a)) G := by
  induction G with
  | nil => simp [tmK]
  | cons a G ih => rw [tmK, tm_cat, tm_one, ih, tmK]

theorem pr_tmK_congr {A B : Type} {dr : B → Bool} {f h : A → (B →₀ R)} {s : A → Int} {G : List A}
    (hG : ∀ g ∈ G, pr dr (f g) = sg R (s g) • pr dr (h g)) :
    pr (fun k => k.any dr) (tmK f G) = sg R (G.map s).sum • pr (fun k => k.any dr) (tmK h G) := by
  induction G with
  | nil => simp [tmK]
  | cons a G ih =>
    rw [tmK, tmK, pr_any_cat, pr_any_one, ih fun g hg => hG g (by simp [hg]), hG a (by simp), pr_any_cat, pr_any_one,
      List.map_cons, List.sum_cons, sg_add, mul_smul]
    simp only [map_smul, LinearMap.smul_apply]
    rw [smul_comm]

theorem tmK_bv {A B : Type} {f : A → (B →₀ R)} {h : A → B} {G : List A} (hG : ∀ g ∈ G, f g = bv R (h g)) :
    tmK f G = bv R (G.map h) := by
  induction G with
  | nil => rfl
  | cons a G ih => rw [tmK, ih fun g hg => hG g (by simp [hg]), hG a (by simp)]; simp

theorem gam_map (r : Nat) (k : List Nat) (L : List Cube) :
    (gam r (k.zip L)).map (fun g => (g.map Cube.cartanSerre).flatten) =
      tensorOf r (joinW k (L.map Cube.cartanSerre)) := by
  unfold gam tensorOf tensorFrom
  rw [List.map_map]
  refine List.map_congr_left fun i _ => ?_
  rw [labels_joinW]
  unfold fiber
  simp only [Function.comp]
  congr 1
  induction k generalizing L with
  | nil => simp
  | cons x k ih =>
    cases L with
    | nil => simp
    | cons b L =>
      rw [List.map_cons, List.zip_cons_cons, List.zip_cons_cons, List.filter_cons, List.filter_cons]
      by_cases h : x = i
      · subst h; simpa using ih L
      · have : (x == i) = false := by simpa using h
        simpa [this] using ih L

/-- The exponent by which the joins of the groups differ from concatenation. -/
def jexK (r : Nat) (k : List Nat) (L : List Cube) : Int := ((gam r (k.zip L)).map jexG).sum

theorem ac_cs1 {n r : Nat} {k : List Nat} (hk : OntoR r k) {L : List Cube} (hl : L.length = k.length)
    (hL : ∀ c ∈ L, IsCube n c) (hp : L.Pairwise Ord) :
    pr lany (tm cs1 (ac (R := R) r k L)) =
      sg R (jexK r k L) • pr lany (lin (fun ps => bv R (tensorOf r (joinW k ps))) (tmK cs1 L)) := by
  have hz : (k.zip L).map Prod.snd = L := List.map_snd_zip (by omega)
  have hzp : (k.zip L).Pairwise fun p q => Ord p.2 q.2 := by
    rw [← List.pairwise_map (f := Prod.snd), hz]; exact hp
  have hg1 : ∀ g ∈ gam r (k.zip L), g ≠ [] := by
    intro g hg
    obtain ⟨i, hi, rfl⟩ := List.mem_map.1 hg
    rw [List.mem_range'_1] at hi
    intro h0
    have hik : i ∈ k := (hk i).2 ⟨by omega, by omega⟩
    obtain ⟨j, hj, rfl⟩ := List.getElem_of_mem hik
    rw [List.map_eq_nil_iff, List.filter_eq_nil_iff] at h0
    have hz : j < (k.zip L).length := by rw [List.length_zip, hl]; omega
    have := h0 _ (List.getElem_mem hz)
    simp at this
  have hg2 : ∀ g ∈ gam r (k.zip L), ∀ c ∈ g, c ∈ L := by
    intro g hg c hc
    obtain ⟨p, hp, rfl⟩ := gam_sub hg hc
    exact (List.of_mem_zip hp).2
  have hg3 : ∀ g ∈ gam r (k.zip L), g.Pairwise Ord := by
    intro g hg
    obtain ⟨i, hi, rfl⟩ := List.mem_map.1 hg
    rw [List.pairwise_map]
    exact hzp.sublist List.filter_sublist
  rw [ac, tm_tmK]
  have h1 := pr_tmK_congr (R := R) (dr := ldrop) (f := fun g => lin cs1 (jn (R := R) g)) (h := catS) (s := jexG)
    (G := gam r (k.zip L)) (fun g hg => by
      have := cs1_jn (R := R) (hg1 g hg) (fun b hb => hL b (hg2 g hg b hb)) (hg3 g hg)
      rw [← map_smul] at this ⊢
      exact pr_of_pr_le (fun s hs => by simp [ldrop, hs]) this)
  refine h1.trans ?_
  unfold jexK
  congr 1
  by_cases hkept : ∀ c ∈ L, Kept c
  · rw [tmK_bv (h := fun g => (g.map Cube.cartanSerre).flatten) fun g hg => catS_kept fun c hc => hkept c (hg2 g hg c hc),
      gam_map, tmK_kept hkept, lin_single, one_smul]
    rfl
  · push Not at hkept
    obtain ⟨c, hc, hcn⟩ := hkept
    rw [tmK_zero_of cs1 hc (cs1_not hcn), map_zero]
    obtain ⟨j, hj, rfl⟩ := List.getElem_of_mem hc
    have hjk : j < k.length := by omega
    have hi := (hk _).1 (List.getElem_mem hjk)
    have hgm := gam_mem hi.1 hi.2 (k.zip L)
    have hm : L[j] ∈ ((k.zip L).filter fun p => p.1 == k[j]).map Prod.snd := by
      refine List.mem_map.2 ⟨(k[j], L[j]), List.mem_filter.2 ⟨?_, by simp⟩, rfl⟩
      rw [← List.getElem_zip (h := by rw [List.length_zip]; omega)]
      exact List.getElem_mem _
    rw [tmK_zero_of catS hgm (catS_not hm hcn), map_zero]
    rfl

/-- The sign of the code for one cut of a cube. -/
def locSign (a : Nat) (k : Surj) (L : CKey) : Int :=
  computeSign k (L.map fun c => ((Cube.dimension c : Nat) : Int) % 2) *
    pySign (cubicalSignExp a (L.map fun c => ((Cube.dimension c : Nat) : Int) % 2)
      ((pyRange 1 (pyMax k + 1)).map fun i => ((enumerate k).filter fun p => p.2 == i).map Prod.fst))

/-- A surjection applied to a cube, with the signs of the code. -/
noncomputable def cactS (r : Nat) (k : Surj) (a : Cube) : CKey →₀ R :=
  lin (fun L => ((locSign r k L : Int) : R) • ac r k L) (serre (k.length - 1) a)

/-- The sign of the code for the joins. -/
def cexpo (a : Nat) (k : Surj) (L : CKey) : Int :=
  cubicalSignExp a (L.map fun c => ((Cube.dimension c : Nat) : Int) % 2)
      ((pyRange 1 (pyMax k + 1)).map fun i => ((enumerate k).filter fun p => p.2 == i).map Prod.fst)

/-- The signs of the joins agree with `(-1)^T` on every cut. -/
def Twists (R : Type) [CommRing R] (r : Nat) (T : Int) (k : Surj) : Prop :=
  ∀ L : CKey, L.length = k.length → sg R (cexpo r k L + jexK r k L) = sg R T

theorem cactS_cs1 {n r : Nat} {T : Int} {k : Surj} (hk : OntoR r k) (hkn : k ≠ []) (hT : Twists R r T k) {a : Cube}
    (ha : IsCube n a) :
    pr lany (tm cs1 (cactS (R := R) r k a)) = pr lany (sg R T • lin (sact r k) (cs1 a)) := by
  have hkl := List.length_pos_iff.2 hkn
  have hs : serre (R := R) (k.length - 1) a ∈ Finsupp.supported R R
      {L : CKey | L.length = k.length ∧ (∀ c ∈ L, IsCube n c) ∧ L.Pairwise Ord} := by
    have h1 := serre_isCube (R := R) (k.length - 1) a ha
    have h2 := serre_supported (R := R) (k.length - 1) a
    have h3 := serre_ord (R := R) (k.length - 1) a ha
    rw [Finsupp.mem_supported] at *
    intro L hL
    have hl := (h2 hL).1
    exact ⟨by omega, h1 hL, h3 hL⟩
  have hcut : ∀ L : CKey, L.length = k.length → (∀ c ∈ L, IsCube n c) → L.Pairwise Ord →
      pr lany (tm cs1 (((locSign r k L : Int) : R) • ac (R := R) r k L)) =
        sg R T • pr lany (lin (cutTerm r k) (tmK cs1 L)) := by
    intro L hl hL hp
    rw [map_smul, map_smul, ac_cs1 hk hl hL hp, smul_smul]
    by_cases hkept : ∀ c ∈ L, Kept c
    · rw [tmK_kept hkept, lin_single, one_smul, lin_single, one_smul, cutTerm, map_smul, smul_smul]
      congr 1
      have hw : (L.map fun c => ((Cube.dimension c : Nat) : Int) % 2) =
          (L.map Cube.cartanSerre).map fun s => Simplex.dimension s % 2 := by
        rw [List.map_map]
        refine List.map_congr_left fun c hc => ?_
        have : ((Cube.dimension c : Nat) : Int) = Simplex.dimension (Cube.cartanSerre c) := hkept c hc
        simp only [Function.comp, this]
      have h2 : locSign r k L = computeSign k ((L.map Cube.cartanSerre).map fun s => Simplex.dimension s % 2) *
          pySign (cexpo r k L) := by rw [locSign, cexpo, hw]
      rw [h2, Int.cast_mul, mul_assoc, cast_pySign, ← sg_add, hT L hl, mul_comm]
    · push Not at hkept
      obtain ⟨c, hc, hcn⟩ := hkept
      rw [tmK_zero_of cs1 hc (cs1_not hcn), map_zero, map_zero, map_zero, map_zero, smul_zero, smul_zero]
  have h1 : pr lany (tm cs1 (cactS (R := R) r k a)) =
      sg R T • pr lany (lin (cutTerm r k) (tm cs1 (serre (k.length - 1) a))) := by
    have := BElem.lin_ext_supported (R := R)
      (f := (pr lany).comp ((tm cs1).comp (lin fun L => ((locSign r k L : Int) : R) • ac r k L)))
      (g := sg R T • (pr lany).comp ((lin (cutTerm r k)).comp (tm cs1))) (fun L hL => by
        simp only [LinearMap.comp_apply, LinearMap.smul_apply, lin_single, one_smul, tm_single]
        exact hcut L hL.1 hL.2.1 hL.2.2) hs
    simpa [cactS] using this
  rw [h1, tm_serre, map_smul]
  congr 2
  rw [cs1_eq]
  split
  · rw [lin_single, one_smul, lin_single, one_smul, sact_eq r hkn (cartanSerre_ne_nil a)]
  · simp

/-! ### the action on a tensor -/

theorem tm_atKd {A B : Type} {deg : A → Int} {deg' : B → Int} {e : Int} {dr : B → Bool} {f : A → (B →₀ R)}
    {g : A → (List A →₀ R)} {h : B → (List B →₀ R)}
    (hf : ∀ a, f a ∈ Finsupp.supported R R {b | deg' b = deg a}) (c : Nat) {m : List A}
    (hg : ∀ a ∈ m, pr (fun k => k.any dr) (tm f (g a)) = pr (fun k => k.any dr) (lin h (f a))) :
    pr (fun k => k.any dr) (tm f (atKd deg e g c m)) = pr (fun k => k.any dr) (atLd deg' e h c (tmK f m)) := by
  induction m generalizing c with
  | nil => cases c <;> simp [atKd, tmK]
  | cons a m ih =>
    cases c with
    | zero =>
      rw [atKd, tm_cat, tmK, atLd_cat_one_zero, pr_any_cat, hg a (by simp), pr_any_cat, tm_single, one_smul]
    | succ c =>
      rw [atKd, map_smul, tm_consV, tmK, atLd_cat_one_succ e h c (hf a), map_smul, map_smul, pr_any_cat,
        ih c fun b hb => hg b (by simp [hb]), pr_any_cat]

theorem cs1_supported (a : Cube) : cs1 (R := R) a ∈ Finsupp.supported R R {s : Simplex | ldim s = cdim a} := by
  rw [cs1_eq]
  split
  · rename_i h
    exact Finsupp.single_mem_supported R _ h.symm
  · exact Submodule.zero_mem _

theorem cast_csign {n a c : Nat} {d : Int} {k : Surj} {key : CKey} :
    ((csign n a d c k key : Int) : ZMod n) = ((locSign a k ((key.drop c).take k.length) : Int) : ZMod n) *
      sg (ZMod n) (totDeg cdim (key.take c) * d) := by
  have hsg : sg (ZMod n) (totDeg cdim (key.take c) * d) =
      ((pySign (((CElem.keyDegree (key.take c) : Nat) : Int) % 2 * d) : Int) : ZMod n) := by
    rw [cast_pySign, Props.totDeg_cdim]
    apply sg_eq_of_zmod
    push_cast
    rw [show ((((CElem.keyDegree (key.take c) : Nat) : Int) % 2 : Int) : ZMod 2) =
      (((CElem.keyDegree (key.take c) : Nat) : Int) : ZMod 2) from ZMod.intCast_mod _ 2]
    push_cast
    rfl
  by_cases hn : n = 2
  · subst hn
    rw [csign_two, hsg, ← Int.cast_mul]
    have h1 : ∀ w, computeSign k w = 1 ∨ computeSign k w = -1 := fun w => by
      unfold computeSign; exact pySign_eq_one_or _
    unfold locSign
    rcases h1 (((key.drop c).take k.length).map fun c => ((Cube.dimension c : Nat) : Int) % 2) with h1 | h1 <;>
    rcases pySign_eq_one_or (cubicalSignExp a (((key.drop c).take k.length).map fun c => ((Cube.dimension c : Nat) : Int) % 2)
        ((pyRange 1 (pyMax k + 1)).map fun i => ((enumerate k).filter fun p => p.2 == i).map Prod.fst)) with h2 | h2 <;>
    rcases pySign_eq_one_or (((CElem.keyDegree (key.take c) : Nat) : Int) % 2 * d) with h3 | h3 <;>
    rw [h1, h2, h3] <;> decide
  · rw [hsg, ← Int.cast_mul]
    congr 1
    unfold csign
    rw [if_neg hn]
    rfl

theorem callCV_bv {n r : Nat} {d : Int} {k : Surj} (hk : k ≠ []) {q : CKey} {c : Nat} (hc : c < q.length) :
    callCV n r d c (bv _ k) (bv _ q) = atKd cdim d (cactS (R := ZMod n) r k) c q := by
  have hg : q[c]? = some q[c] := List.getElem?_eq_getElem hc
  have hcl : (q.take c).length = c := by rw [List.length_take]; omega
  have hkl := List.length_pos_iff.2 hk
  rw [callCV, bil_bv, lin_single, one_smul, Comch.Props.atK_eq _ _ _ _ hg, atKd_eq _ _ _ _ _ hg, cat_bv_cat', cactS, cat_lin_cat']
  have := BElem.lin_ext_supported (R := ZMod n)
    (f := (lin (csummandV n r r d c k)).comp (mapK fun m => q.take c ++ (m ++ q.drop (c + 1))))
    (g := sg (ZMod n) (totDeg cdim (q.take c) * d) • lin (fun m => cat (bv (ZMod n) (q.take c))
      (cat (((locSign r k m : Int) : ZMod n) • ac r k m) (bv (ZMod n) (q.drop (c + 1))))))
    (fun ps hps => by
      have hl : ps.length = k.length := by rw [hps.1]; omega
      simp only [LinearMap.comp_apply, mapK_single, lin_single, one_smul, csummandV, LinearMap.smul_apply]
      clear hps hg hc
      generalize q.drop (c + 1) = Q
      generalize q.take c = L at *
      subst hcl
      rw [cast_csign]
      rw [List.take_left, List.drop_left, ← hl, List.take_left, ← List.drop_drop, List.drop_left,
        List.drop_left, map_smul, LinearMap.smul_apply, map_smul, smul_smul, mul_comm]) (serre_supported (R := ZMod n) (k.length - 1) q[c])
  simpa using this

/-- Multiply every surjection by the sign `(-1)^(T k)`. -/
noncomputable def tw (T : Surj → Int) : (Surj →₀ R) →ₗ[R] (Surj →₀ R) := lin fun k => sg R (T k) • bv R k

theorem callCV_tw {n r N : Nat} {d : Int} {c : Nat} {T : Surj → Int} {u : Surj →₀ ZMod n} {v : CKey →₀ ZMod n}
    (hu : u ∈ Finsupp.supported (ZMod n) (ZMod n) {k | OntoR r k ∧ k ≠ [] ∧ Twists (ZMod n) r (T k) k})
    (hv : v ∈ Finsupp.supported (ZMod n) (ZMod n) {m : CKey | c < m.length ∧ ∀ a ∈ m, IsCube N a}) :
    pr lany (tm cs1 (callCV n r d c u v)) = pr lany (callV (ZMod n) r d c (tw T u) (tm cs1 v)) := by
  have := BElem.bil_ext_supported (R := ZMod n)
    (f := (callCV n r d c).compr₂ ((pr lany).comp (tm cs1)))
    (g := ((((callV (ZMod n) r d c).comp (tw T)).compl₂ (tm cs1)).compr₂ (pr lany)))
    (fun k hk m hm => by
      simp only [LinearMap.compr₂_apply, LinearMap.comp_apply, LinearMap.compl₂_apply]
      rw [callCV_bv hk.2.1 hm.1, tw, lin_single, one_smul, tm_single, one_smul, map_smul, LinearMap.smul_apply,
        callV, bil_single_left, one_smul]
      refine (tm_atKd (deg := cdim) (deg' := ldim) (dr := ldrop) (h := fun s => sg (ZMod n) (T k) • sact r k s)
        cs1_supported c (fun a ha => ?_)).trans ?_
      · refine (cactS_cs1 hk.1 hk.2.1 hk.2.2 (hm.2 a ha)).trans ?_
        congr 1
        rw [← LinearMap.smul_apply]
        congr 1
        apply lin_ext
        intro s
        simp
      · congr 1
        rw [atLd, ← LinearMap.smul_apply]
        congr 1
        apply lin_ext
        intro s
        rw [LinearMap.smul_apply, lin_single, lin_single, one_smul, one_smul, atKd_smul]) hu hv
  simpa using this

/-! ### the signs of the joins -/

/-- `Σ_j (m - 1 - j) w_j` for a list of length `m`. -/
def tri : List Int → Int
  | [] => 0
  | x :: l => l.length * x + tri l

theorem enumerate_tri (g : List Nat) (w : Nat → Int) :
    ((enumerate g).map fun p => ((g.length : Int) - 1 - p.1) * w p.2).sum = tri (g.map w) := by
  induction g with
  | nil => rfl
  | cons a g ih =>
    rw [enumerate_cons, List.map_cons, List.sum_cons, List.map_map, List.map_cons, tri, ← ih, List.length_map]
    congr 1
    · simp
    · congr 1
      refine List.map_congr_left fun p _ => ?_
      simp only [Function.comp, List.length_cons]
      push_cast
      ring

theorem jex_eq (d : Int) (L : List Cube) :
    jex d L = L.length * d + tri (L.map cdim) + (L.length.choose 2 : Nat) := by
  induction L generalizing d with
  | nil => simp [jex, tri]
  | cons b L ih =>
    rw [jex, ih, List.map_cons, tri, List.length_map, List.length_cons, Nat.choose_succ_succ']
    simp only [Nat.choose_one_right]
    push_cast
    ring

theorem jexG_eq {g : List Cube} (hg : g ≠ []) :
    jexG g + ((g.length : Int) - 1) = tri (g.map cdim) + (g.length.choose 2 : Nat) := by
  cases g with
  | nil => exact absurd rfl hg
  | cons a L =>
    rw [jexG, jex_eq, List.map_cons, tri, List.length_map, List.length_cons, Nat.choose_succ_succ']
    simp only [Nat.choose_one_right]
    push_cast
    ring

theorem cast_tri_mod (l : List Int) : ((tri (l.map (· % 2)) : Int) : ZMod 2) = (tri l : Int) := by
  induction l with
  | nil => rfl
  | cons x l ih =>
    rw [List.map_cons, tri, tri, List.length_map]
    push_cast
    rw [ih, show ((x % 2 : Int) : ZMod 2) = (x : ZMod 2) from ZMod.intCast_mod _ 2]

/-- The positions of a value. -/
def pos (k : List Nat) (i : Nat) : List Nat := ((enumerate k).filter fun p => p.2 == i).map Prod.fst

theorem pos_cons (x : Nat) (k : List Nat) (i : Nat) :
    pos (x :: k) i = (if x = i then [0] else []) ++ (pos k i).map (· + 1) := by
  unfold pos
  rw [enumerate_cons, List.filter_cons]
  by_cases h : x = i
  · subst h
    simp [List.filter_map, Function.comp_def]
  · have : (x == i) = false := by simpa using h
    simp [List.filter_map, Function.comp_def, h]

theorem pos_map {A : Type} (wt : A → Int) {k : List Nat} {L : List A} (hl : L.length = k.length) (i : Nat) :
    (pos k i).map (fun j => ((L.map wt)[j]?).getD 0) =
      (((k.zip L).filter fun p => p.1 == i).map Prod.snd).map wt := by
  induction k generalizing L with
  | nil => rfl
  | cons x k ih =>
    cases L with
    | nil => simp at hl
    | cons b L =>
      rw [pos_cons, List.map_append, List.map_map, List.zip_cons_cons, List.filter_cons]
      have h1 := ih (L := L) (by simpa using hl)
      have h2 : ((fun j : Nat => (((b :: L).map wt)[j]?).getD 0) ∘ fun x : Nat => x + 1) = fun j : Nat => ((L.map wt)[j]?).getD 0 := by
        funext j
        simp
      rw [h2, h1]
      by_cases h : x = i
      · subst h; simp
      · have : (x == i) = false := by simpa using h
        simp [h]

theorem pos_length {A : Type} {k : List Nat} {L : List A} (hl : L.length = k.length) (i : Nat) :
    (((k.zip L).filter fun p => p.1 == i).map Prod.snd).length = (pos k i).length := by
  have := congrArg List.length (pos_map (fun _ => 0) hl i)
  simpa using this.symm

theorem length_pos (k : List Nat) (i : Nat) : (pos k i).length = k.count i := by
  induction k with
  | nil => rfl
  | cons x k ih =>
    rw [pos_cons, List.length_append, List.length_map, ih, List.count_cons]
    by_cases h : x = i
    · subst h; simp [Nat.add_comm]
    · simp [h]

theorem twistExponent_eq {r : Nat} {k : List Nat} (hk : OntoR r k) :
    twistExponent k = ((List.range' 1 r).map fun i => (k.count i).choose 2).sum := by
  unfold twistExponent
  refine (List.Perm.map _ ?_).sum_eq
  rw [List.perm_ext_iff_of_nodup (List.nodup_dedup k) List.nodup_range']
  intro i
  rw [List.mem_dedup, hk i, List.mem_range'_1]
  omega

/-- Arity at least 3: the sign of the joins is constant. -/
theorem twists_large {r : Nat} (hr : 3 ≤ r) {k : Surj} (hk : OntoR r k) :
    Twists R r (twistExponent k) k := by
  intro L hl
  apply sg_eq_of_zmod
  rw [twistExponent_eq hk]
  unfold cexpo cubicalSignExp jexK gam
  rw [if_neg (by omega), pyMax_of_onto hk, pyRange, Nat.add_sub_cancel]
  simp only [List.map_map]
  have hmem : ∀ i ∈ List.range' 1 r, ((k.zip L).filter fun p => p.1 == i).map Prod.snd ≠ [] := by
    intro i hi
    rw [List.mem_range'_1] at hi
    have hik : i ∈ k := (hk i).2 ⟨by omega, by omega⟩
    intro h0
    have := congrArg List.length h0
    rw [pos_length hl, length_pos] at this
    have h2 := List.count_pos_iff.2 hik
    simp at this
    omega
  generalize List.range' 1 r = I at hmem
  induction I with
  | nil => simp
  | cons i I ih =>
    have h := ih fun j hj => hmem j (by simp [hj])
    simp only [List.map_cons, List.sum_cons, Function.comp, Function.comp_def] at h ⊢
    have hi := jexG_eq (hmem i (by simp))
    rw [pos_length hl, length_pos] at hi
    have h1 := enumerate_tri (pos k i) (fun j => ((L.map fun c => ((Cube.dimension c : Nat) : Int) % 2)[j]?).getD 0)
    rw [pos_map _ hl, length_pos] at h1
    have h2 := cast_tri_mod ((((k.zip L).filter fun p => p.1 == i).map Prod.snd).map cdim)
    rw [List.map_map] at h2
    unfold pos at h1
    have hp : ((((enumerate k).filter fun p => p.2 == i).map Prod.fst).length : Int) = k.count i := by
      rw [← length_pos]; rfl
    rw [hp]
    rw [h1]
    have h3 : tri ((((k.zip L).filter fun p => p.1 == i).map Prod.snd).map fun c => ((Cube.dimension c : Nat) : Int) % 2) =
      tri ((((k.zip L).filter fun p => p.1 == i).map Prod.snd).map ((fun x => x % 2) ∘ cdim)) := rfl
    rw [h3]
    have hi2 := congrArg (fun z : Int => (z : ZMod 2)) hi
    push_cast at h h2 hi2 ⊢
    rw [h2]
    have h22 : (2 : ZMod 2) = 0 := by decide
    linear_combination h + hi2 + (tri ((((k.zip L).filter fun p => p.1 == i).map Prod.snd).map cdim) : ZMod 2) * h22

theorem twists_two [CharP R 2] (r : Nat) (k : Surj) : Twists R r 0 k := by
  intro L _
  rw [sg_char, sg_char]

theorem twists_low {r : Nat} {k : Surj} (hk : (k, r) ∈ ([([1], 1), ([1, 2], 2), ([2, 1], 2), ([1, 2, 1], 2),
    ([2, 1, 2], 2), ([1, 2, 1, 2], 2)] : List (Surj × Nat))) : Twists R r 0 k := by
  intro L hl
  apply sg_congr
  simp only [List.mem_cons, Prod.mk.injEq, List.not_mem_nil, or_false] at hk
  rcases hk with ⟨rfl, rfl⟩ | ⟨rfl, rfl⟩ | ⟨rfl, rfl⟩ | ⟨rfl, rfl⟩ | ⟨rfl, rfl⟩ | ⟨rfl, rfl⟩
  · obtain ⟨a, rfl⟩ := List.length_eq_one_iff.1 hl
    have e1 : cexpo 1 [1] [a] = (1 - 1) * (cdim a % 2) + 0 + 0 := rfl
    have e2 : jexK 1 [1] [a] = 0 := rfl
    rw [e1, e2]; omega
  · obtain ⟨a, b, rfl⟩ := List.length_eq_two.1 hl
    have e1 : cexpo 2 [1, 2] [a, b] = (1 - 1) * (cdim a % 2) + ((1 - 1) * (cdim b % 2) + 0) + 0 := rfl
    have e2 : jexK 2 [1, 2] [a, b] = 0 := rfl
    rw [e1, e2]; omega
  · obtain ⟨a, b, rfl⟩ := List.length_eq_two.1 hl
    have e1 : cexpo 2 [2, 1] [a, b] = (1 - 1) * (cdim b % 2) + ((1 - 1) * (cdim a % 2) + 0) + 0 := rfl
    have e2 : jexK 2 [2, 1] [a, b] = 0 := rfl
    rw [e1, e2]; omega
  · obtain ⟨a, b, c, rfl⟩ := List.length_eq_three.1 hl
    have e1 : cexpo 2 [1, 2, 1] [a, b, c] = (2 - 1) * (cdim a % 2) + ((1 - 1) * (cdim b % 2) + 0) + 0 := rfl
    have e2 : jexK 2 [1, 2, 1] [a, b, c] = cdim a + 0 + (0 + 0) := rfl
    rw [e1, e2]; omega
  · obtain ⟨a, b, c, rfl⟩ := List.length_eq_three.1 hl
    have e1 : cexpo 2 [2, 1, 2] [a, b, c] = (1 - 1) * (cdim b % 2) + ((2 - 1) * (cdim a % 2) + 0) + 0 := rfl
    have e2 : jexK 2 [2, 1, 2] [a, b, c] = 0 + (cdim a + 0 + 0) := rfl
    rw [e1, e2]; omega
  · obtain ⟨a, L, rfl⟩ := List.exists_cons_of_ne_nil (show L ≠ [] by rintro rfl; simp at hl)
    obtain ⟨b, c, d, rfl⟩ := List.length_eq_three.1 (show L.length = 3 by simpa using hl)
    have e1 : cexpo 2 [1, 2, 1, 2] [a, b, c, d] = (2 - 1) * (cdim a % 2) + ((2 - 1) * (cdim b % 2) + 0) + 0 := rfl
    have e2 : jexK 2 [1, 2, 1, 2] [a, b, c, d] = cdim a + 0 + (cdim b + 0 + 0) := rfl
    rw [e1, e2]; omega

end Comch.CubCS

namespace Comch.Props
open Comch.Spec Elem CElem SurjComp SurjElem Serre CubCall CubCS
open Comch.Join (jn JN IsCube)
open Finsupp (single)

variable {x : SurjElem} {y : CElem} {r a coord N e : Nat} {d : Int}

/-- The common form: `x'` is `x` with every key multiplied by the sign `(-1)^(T k)`. -/
theorem cs_call {x' : SurjElem} {n : Nat} (T : Surj → Int) (hx : InSurj r x) (hx' : InSurj r x')
    (hd : ∀ p ∈ x.data, ((sdeg p.1 : Nat) : Int) = d) (hd' : ∀ p ∈ x'.data, ((sdeg p.1 : Nat) : Int) = d)
    (hcv : x'.attrs.convention = .mcClureSmith) (hy : y.NF cubical)
    (hyd : y.degree = some e) (hya : y.arity = some a)
    (hN : ∀ p ∈ y.data, ∀ c ∈ p.1, c.length = N ∧ ∀ v ∈ c, v ≤ 2)
    (hxn : x.torsion = n) (hxn' : x'.torsion = n) (hyn : y.torsion = n) (h1 : 1 ≤ coord) (h2 : coord ≤ a)
    (hden : den (ZMod n) x'.data = tw T (den _ x.data))
    (hT : ∀ p ∈ x.data, Twists (ZMod n) r (T p.1) p.1) :
    ∃ (z : CElem) (w : SElem), callCubical x y coord = .ok z ∧
      callSimplicial x' (cartanSerreMap y) coord = .ok w ∧ pyEq (cartanSerreMap z) w = true := by
  have hk := chomogeneous_keys hyd hya
  have hNl : ∀ p ∈ y.data, ∀ c ∈ p.1, c.length = N := fun p hp c hc => (hN p hp c hc).1
  obtain ⟨z, ez, nz, az, dz⟩ := callCubical_ok hx hd hk hNl hxn hyn h1 h2
  have tz : z.torsion = n := by rw [torsion_congr az, hyn]
  obtain ⟨nc, tc, kc, dc⟩ := csMap_ok hy
  obtain ⟨ncz, tcz, kcz, dcz⟩ := csMap_ok nz
  have hck : ∀ p ∈ (cartanSerreMap y).data, SElem.keyDegree p.1 = (e : Int) ∧ p.1.length = a := by
    intro p hp
    obtain ⟨q, hq, h3, h4⟩ := kc p hp
    refine ⟨by rw [← h4, (hk q hq).1], by rw [h3, List.length_map, (hk q hq).2]⟩
  obtain ⟨w, ew, nw, aw', dw⟩ := call_ok hx' hd' hcv nc hck hxn' (tc.trans hyn) h1 h2
  refine ⟨z, w, ez, ew, pyEq_of_den (n := n) ncz nw (by rw [tcz, tz]) (by rw [torsion_congr aw', tc, hyn]) ?_⟩
  have h5 := NF.pr_den (R := ZMod n) ncz
  have h6 : simplicial.drops = lany := drops_eq_any
  rw [h6] at h5
  rw [tz] at dcz
  rw [hyn] at dc
  rw [← h5, dcz, dz, dw, dc, hden]
  refine callCV_tw (N := N) (den_supported fun p hp => ⟨hx.onto p hp, onto_ne_nil hx.nf hp, hT p hp⟩)
    (den_supported fun p hp => ?_)
  exact ⟨by rw [(hk p hp).2]; omega, hN p hp⟩

theorem tw_zero {n : Nat} (u : Surj →₀ ZMod n) : tw (fun _ => 0) u = u := by
  have : tw (R := ZMod n) (fun _ => 0) = LinearMap.id := lin_ext fun k => by simp [tw]
  rw [this]; rfl

/-- Modulo 2 the Cartan–Serre map takes the action of surjections on cubical chains to their action
on simplicial chains; neither side raises. -/
theorem C93_mod_two (hx : InSurj r x) (hd : x.degree = some d) (hcv : x.attrs.convention = .mcClureSmith)
    (hy : y.NF cubical) (hyd : y.degree = some e) (hya : y.arity = some a)
    (hN : ∀ p ∈ y.data, ∀ c ∈ p.1, c.length = N ∧ ∀ v ∈ c, v ≤ 2)
    (hx2 : x.torsion = 2) (hy2 : y.torsion = 2) (h1 : 1 ≤ coord) (h2 : coord ≤ a) :
    ∃ (z : CElem) (w : SElem), callCubical x y coord = .ok z ∧
      callSimplicial x (cartanSerreMap y) coord = .ok w ∧ pyEq (cartanSerreMap z) w = true := by
  have hs : ∀ p ∈ x.data, ((sdeg p.1 : Nat) : Int) = d := fun p hp => sdeg_of_degree hx hd hp
  exact cs_call (fun _ => 0) hx hx hs hs hcv hy hyd hya hN hx2 hx2 hy2 h1 h2 (tw_zero _).symm
    fun p _ => twists_two (R := ZMod 2) r p.1

/-- For every torsion, surjections of arity at least 3 act compatibly once the coefficient of `k` is
multiplied by `(-1)^(Σ_i C(m_i, 2))`, where `m_i` is the number of occurrences of `i` in `k`. -/
theorem C93_integral_twist (hx : InSurj r x) (hr : 3 ≤ r) (hd : x.degree = some d)
    (hcv : x.attrs.convention = .mcClureSmith)
    (hy : y.NF cubical) (hyd : y.degree = some e) (hya : y.arity = some a)
    (hN : ∀ p ∈ y.data, ∀ c ∈ p.1, c.length = N ∧ ∀ v ∈ c, v ≤ 2)
    (ht : x.torsion = y.torsion) (h1 : 1 ≤ coord) (h2 : coord ≤ a) :
    ∃ (z : CElem) (w : SElem), callCubical x y coord = .ok z ∧
      callSimplicial (twist x) (cartanSerreMap y) coord = .ok w ∧ pyEq (cartanSerreMap z) w = true := by
  have hs : ∀ p ∈ x.data, ((sdeg p.1 : Nat) : Int) = d := fun p hp => sdeg_of_degree hx hd hp
  have hnf : (twist x).NF surjection := nf_new _ (by
    have := hx.nf.nodup
    unfold Dict.KeysNodup at this ⊢
    rwa [List.map_map]) _ _
  have hkeys : ∀ p ∈ (twist x).data, ∃ q ∈ x.data, q.1 = p.1 := by
    intro p hp
    have := mem_keys_new (List.mem_map_of_mem (f := Prod.fst) hp)
    rw [List.map_map] at this
    obtain ⟨q, hq, h⟩ := List.mem_map.1 this
    exact ⟨q, hq, h⟩
  have hx' : InSurj r (twist x) := ⟨hnf, fun p hp => by
    obtain ⟨q, hq, h⟩ := hkeys p hp
    rw [← h]; exact hx.onto q hq⟩
  have hs' : ∀ p ∈ (twist x).data, ((sdeg p.1 : Nat) : Int) = d := fun p hp => by
    obtain ⟨q, hq, h⟩ := hkeys p hp
    rw [← h]; exact hs q hq
  have htt : (twist x).torsion = x.torsion := rfl
  refine cs_call (n := y.torsion) (fun k => (twistExponent k : Int)) hx hx' hs hs' hcv hy hyd hya hN ht (htt.trans ht) rfl h1 h2
    ?_ fun p hp => twists_large hr (hx.onto p hp)
  rw [twist, den_new _ _ _ _ (by rw [Option.getD_some, ht]; simp), pr_den_of_forall]
  · rw [tw, lin_den, den]
    simp only [List.map_map]
    congr 1
    refine List.map_congr_left fun p _ => ?_
    simp only [Function.comp, Finsupp.smul_single, smul_eq_mul, mul_one]
    rw [sg_natCast]
    push_cast
    rw [mul_comm]
  · intro p hp
    obtain ⟨q, hq, rfl⟩ := List.mem_map.1 hp
    exact hx.nf.kept q hq

theorem low_keys {k : Surj} (hk : OntoR r k) (hrep : hasRep k = false) (hr : r ≤ 2)
    (hd : (sdeg k : Int) = d) (hne : k ≠ []) (hdl : d ≤ 1 ∨ d = 2 ∧ k.head? = some 1) :
    (k, r) ∈ ([([1], 1), ([1, 2], 2), ([2, 1], 2), ([1, 2, 1], 2), ([2, 1, 2], 2), ([1, 2, 1, 2], 2)] : List (Surj × Nat)) := by
  have hl := length_of_onto hk
  have hall : ∀ v ∈ k, 1 ≤ v ∧ v ≤ r := fun v hv => (hk v).1 hv
  have hr0 : 1 ≤ r := by
    obtain ⟨v, hv⟩ := List.exists_mem_of_ne_nil _ hne
    have := hall v hv; omega
  have hlen : k.length ≤ 4 := by omega
  match k, hlen with
  | [], _ => exact absurd rfl hne
  | [a], _ =>
    have ha := hall a (by simp)
    simp only [List.length_cons, List.length_nil] at hl
    obtain rfl : r = 1 := by omega
    obtain rfl : a = 1 := by omega
    simp
  | [a, b], _ =>
    have ha := hall a (by simp)
    have hb := hall b (by simp)
    have hab : a ≠ b := by
      rintro rfl
      simp [hasRep] at hrep
    obtain rfl : r = 2 := by omega
    have : a = 1 ∧ b = 2 ∨ a = 2 ∧ b = 1 := by omega
    rcases this with ⟨rfl, rfl⟩ | ⟨rfl, rfl⟩ <;> simp
  | [a, b, c], _ =>
    have ha := hall a (by simp)
    have hb := hall b (by simp)
    have hc := hall c (by simp)
    have hab : a ≠ b := by
      rintro rfl
      simp [hasRep] at hrep
    have hbc : b ≠ c := by
      rintro rfl
      simp [hasRep] at hrep
    obtain rfl : r = 2 := by omega
    have : a = 1 ∧ b = 2 ∧ c = 1 ∨ a = 2 ∧ b = 1 ∧ c = 2 := by omega
    rcases this with ⟨rfl, rfl, rfl⟩ | ⟨rfl, rfl, rfl⟩ <;> simp
  | [a, b, c, f], _ =>
    have ha := hall a (by simp)
    have hb := hall b (by simp)
    have hc := hall c (by simp)
    have hf := hall f (by simp)
    have hab : a ≠ b := by
      rintro rfl
      simp [hasRep] at hrep
    have hbc : b ≠ c := by
      rintro rfl
      simp [hasRep] at hrep
    have hcf : c ≠ f := by
      rintro rfl
      simp [hasRep] at hrep
    obtain rfl : r = 2 := by omega
    simp only [List.length_cons, List.length_nil] at hl
    have h1 : a = 1 := by
      rcases hdl with h | h
      · omega
      · simpa using h.2
    obtain ⟨rfl, rfl, rfl, rfl⟩ : a = 1 ∧ b = 2 ∧ c = 1 ∧ f = 2 := by omega
    simp

/-- For every torsion, elements of arity at most 2 and degree at most 1, and the surjection
`(1, 2, 1, 2)`, act compatibly as they are. -/
theorem C93_low_degree (hx : InSurj r x) (hr : r ≤ 2) (hd : x.degree = some d)
    (hdl : d ≤ 1 ∨ d = 2 ∧ ∀ p ∈ x.data, p.1.head? = some 1) (hcv : x.attrs.convention = .mcClureSmith)
    (hy : y.NF cubical) (hyd : y.degree = some e) (hya : y.arity = some a)
    (hN : ∀ p ∈ y.data, ∀ c ∈ p.1, c.length = N ∧ ∀ v ∈ c, v ≤ 2)
    (ht : x.torsion = y.torsion) (h1 : 1 ≤ coord) (h2 : coord ≤ a) :
    ∃ (z : CElem) (w : SElem), callCubical x y coord = .ok z ∧
      callSimplicial x (cartanSerreMap y) coord = .ok w ∧ pyEq (cartanSerreMap z) w = true := by
  have hs : ∀ p ∈ x.data, ((sdeg p.1 : Nat) : Int) = d := fun p hp => sdeg_of_degree hx hd hp
  refine cs_call (n := y.torsion) (fun _ => 0) hx hx hs hs hcv hy hyd hya hN ht ht rfl h1 h2 (tw_zero _).symm
    fun p hp => twists_low (low_keys (hx.onto p hp) (surj_kept_iff.1 (hx.nf.kept p hp)).2.2 hr (hs p hp)
      (onto_ne_nil hx.nf hp) (hdl.imp_right fun h => ⟨h.1, h.2 p hp⟩))

/-- Sample elements. -/
abbrev exCT : SurjElem := Elem.new surjection [([1, 2, 1, 3], 1), ([1, 2, 3, 2], -2)] none .mcClureSmith
abbrev exCTy : CElem := Elem.new cubical [([[2, 2], [2, 1]], 1), ([[1, 2], [2, 2]], 3)]

example : InSurj 3 exCT := SurjElem.inSurj_of_arity (nf_new _ (by decide) _ _) (by decide)
example : SurjElem.degree exCT = some 1 := by decide
example : exCTy.NF cubical ∧ exCTy.degree = some 3 ∧ exCTy.arity = some 2 ∧
    (∀ p ∈ exCTy.data, ∀ c ∈ p.1, c.length = 2 ∧ ∀ v ∈ c, v ≤ 2) ∧ exCT.torsion = exCTy.torsion :=
  ⟨nf_new _ (by decide) _ _, by decide, by decide, by decide, rfl⟩
example : (callSimplicial (twist exCT) (cartanSerreMap exCTy) 1).toOption.map (fun w => w.data.length) = some 10 := by
  decide +kernel

/-- The twist is necessary over the integers: `(1, 2, 1, 3)` on an interval. -/
theorem C93_integral_fails :
    (callCubical (Elem.new surjection [([1, 2, 1, 3], 1)] none .mcClureSmith)
        (Elem.new cubical [([[2]], 1)])).toOption.map (fun z => (cartanSerreMap z).data) =
      some [([[0, 1], [0, 1], [1]], -1)] ∧
    (callSimplicial (Elem.new surjection [([1, 2, 1, 3], 1)] none .mcClureSmith)
        (cartanSerreMap (Elem.new cubical [([[2]], 1)]))).toOption.map (fun z => z.data) =
      some [([[0, 1], [0, 1], [1]], 1)] := by
  constructor <;> decide +kernel

end Comch.Props
