import Verif.Props.CallCoeff
import Verif.Props.SurjCallMore
import Verif.Props.ComposeCoeff
import Verif.Spec.Naturality

/-! # Naturality with respect to maps of vertices: C89 -/

set_option linter.unusedSectionVars false

namespace Comch
open Finsupp Elem

namespace Natural

variable {R : Type} [CommRing R] {A B : Type}

theorem mapK_cat (F : A → B) (u v : List A →₀ R) :
    mapK (List.map F) (cat u v) = cat (mapK (List.map F) u) (mapK (List.map F) v) := by
  induction u using Finsupp.induction_linear with
  | zero => simp
  | add f g hf hg => simp only [map_add, LinearMap.add_apply, hf, hg]
  | single k r =>
    induction v using Finsupp.induction_linear with
    | zero => simp
    | add f g hf hg => simp only [map_add, hf, hg]
    | single l s => simp [cat_single_single]

theorem mapK_consV (F : A → B) (a : A) (v : List A →₀ R) :
    mapK (List.map F) (consV a v) = consV (F a) (mapK (List.map F) v) := by
  induction v using Finsupp.induction_linear with
  | zero => simp
  | add f g hf hg => simp only [map_add, hf, hg]
  | single k r => simp [consV]

theorem mapK_one (F : A → B) (u : A →₀ R) : mapK (List.map F) (one u) = one (mapK F u) := by
  induction u using Finsupp.induction_linear with
  | zero => simp
  | add f g hf hg => simp only [map_add, hf, hg]
  | single k r => simp [one]

theorem mapK_delK (F : A → B) (k : List A) : mapK (List.map F) (delK (R := R) k) = delK (k.map F) := by
  induction k with
  | nil => simp [delK]
  | cons a k ih => simp [delK, map_sub, mapK_consV, ih]

theorem mapK_tensK (F : A → B) {d : A → (A →₀ R)} {d' : B → (B →₀ R)} {deg : A → Int} {deg' : B → Int}
    (hd : ∀ a, mapK F (d a) = d' (F a)) (hdeg : ∀ a, deg' (F a) = deg a) (k : List A) :
    mapK (List.map F) (tensK d deg k) = tensK d' deg' (k.map F) := by
  induction k with
  | nil => simp [tensK]
  | cons a k ih =>
    rw [tensK, map_add, map_smul, mapK_consV, ih, mapK_cat, mapK_one, hd, List.map_cons, tensK, hdeg]
    simp

theorem mapK_atK (F : A → B) {f : A → (List A →₀ R)} {f' : B → (List B →₀ R)} (c : Nat) (k : List A)
    (hf : ∀ a ∈ k, mapK (List.map F) (f a) = f' (F a)) :
    mapK (List.map F) (atK f c k) = atK f' c (k.map F) := by
  induction k generalizing c with
  | nil => simp [atK]
  | cons a k ih =>
    cases c with
    | zero => rw [atK, mapK_cat, hf a (by simp), List.map_cons, atK]; simp
    | succ c => rw [atK, mapK_consV, ih c (fun a ha => hf a (by simp [ha])), List.map_cons, atK]

theorem mapK_atKd (F : A → B) {f : A → (List A →₀ R)} {f' : B → (List B →₀ R)} {deg : A → Int} {deg' : B → Int}
    (hdeg : ∀ a, deg' (F a) = deg a) (e : Int) (c : Nat) (k : List A)
    (hf : ∀ a ∈ k, mapK (List.map F) (f a) = f' (F a)) :
    mapK (List.map F) (atKd deg e f c k) = atKd deg' e f' c (k.map F) := by
  induction k generalizing c with
  | nil => simp [atKd]
  | cons a k ih =>
    cases c with
    | zero => rw [atKd, mapK_cat, hf a (by simp), List.map_cons, atKd]; simp
    | succ c =>
      rw [atKd, map_smul, mapK_consV, ih c (fun a ha => hf a (by simp [ha])), List.map_cons, atKd, hdeg]

theorem allCuts_map (F : A → B) (n : Nat) (V : List A) :
    Spec.allCuts n (V.map F) = (Spec.allCuts n V).map (List.map (List.map F)) := by
  induction n generalizing V with
  | zero => simp [Spec.allCuts]
  | succ n ih =>
    cases n with
    | zero => simp [Spec.allCuts]
    | succ n =>
      rw [Spec.allCuts, Spec.allCuts, List.length_map, List.map_flatMap]
      apply List.flatMap_congr
      intro i _
      rw [← List.map_drop, ih, List.map_map, List.map_map, ← List.map_take]
      rfl

theorem mapK_aw [DecidableEq A] [DecidableEq B] (F : A → B) (t : Nat) (V : List A) :
    mapK (List.map (List.map F)) (aw (R := R) t V) = aw t (V.map F) := by
  rw [SurjComp.aw_eq_cuts, SurjComp.aw_eq_cuts, allCuts_map, map_list_sum, List.map_map, List.map_map]
  congr 1
  apply List.map_congr_left
  intro ps _
  simp

theorem hasRep_map [DecidableEq A] [DecidableEq B] (F : A → B) {k : List A} (h : hasRep k = true) :
    hasRep (k.map F) = true := by
  induction k with
  | nil => simp [hasRep] at h
  | cons a k ih =>
    cases k with
    | nil => simp [hasRep] at h
    | cons b k =>
      rw [hasRep, Bool.or_eq_true] at h
      rw [List.map_cons, List.map_cons, hasRep, Bool.or_eq_true]
      rcases h with h | h
      · left
        rw [beq_iff_eq] at h ⊢
        rw [h]
      · exact Or.inr (ih h)

theorem lany_map [DecidableEq A] [DecidableEq B] (F : A → B) {k : List (List A)} (h : lany k = true) :
    lany (k.map (List.map F)) = true := by
  simp only [lany, List.any_eq_true, List.mem_map] at h ⊢
  obtain ⟨s, hs, h⟩ := h
  refine ⟨_, ⟨s, hs, rfl⟩, ?_⟩
  simp only [ldrop, Bool.or_eq_true, decide_eq_true_eq] at h ⊢
  rcases h with h | h
  · left; simp [h]
  · exact Or.inr (hasRep_map F h)

theorem pr_mapK_pr [DecidableEq A] [DecidableEq B] (F : A → B) (v : List (List A) →₀ R) :
    pr lany (mapK (List.map (List.map F)) (pr lany v)) = pr lany (mapK (List.map (List.map F)) v) :=
  pr_lin_pr _ (fun k hk => by
    rw [mapK_single, pr_single, if_pos (lany_map F hk)]) v

open SurjComp SurjElem Spec

theorem dimOf_map (F : Nat → Nat) (s : List Nat) : dimOf (s.map F) = dimOf s := by simp [dimOf]

theorem getD_map (F : Nat → Nat) (ps : List (List Nat)) (i : Nat) :
    (ps.map (List.map F)).getD i [] = (ps.getD i []).map F := by
  simp only [List.getD_eq_getElem?_getD, List.getElem?_map]
  cases ps[i]? <;> simp

theorem assemble_map (F : Nat → Nat) (r : Nat) (k : List Nat) (ps : List (List Nat)) :
    assemble r k (ps.map (List.map F)) = (assemble r k ps).map (List.map F) := by
  unfold assemble
  rw [List.map_map]
  apply List.map_congr_left
  intro v _
  simp only [Function.comp]
  rw [List.map_flatten, List.map_map, List.zip_map_right, List.filter_map, List.map_map]
  rfl

theorem mapK_sact (F : Nat → Nat) (r : Nat) {k V : List Nat} (hk : k ≠ []) (hV : V ≠ []) :
    mapK (List.map (List.map F)) (sact (R := R) r k V) = sact r k (V.map F) := by
  rw [sact_apply r hk hV, sact_apply r hk (by simpa using hV), allCuts_map, map_list_sum, List.map_map, List.map_map]
  congr 1
  apply List.map_congr_left
  intro ps _
  simp only [Function.comp]
  rw [map_smul, mapK_single, assemble_map]
  congr 2
  unfold sortingExponent concatenationExponent
  simp only [getD_map, dimOf_map]

theorem kos_map (F : A → B) {deg : A → Int} {deg' : B → Int} (hdeg : ∀ a, deg' (F a) = deg a) (l : List (Nat × A)) :
    kos deg' (l.map (Prod.map id F)) = kos deg l := by
  induction l with
  | nil => rfl
  | cons x l ih =>
    rw [List.map_cons, kos, kos, ih, List.filter_map, List.map_map]
    simp only [Prod.map, hdeg]
    congr 3
    apply List.map_congr_left
    intro y _
    exact hdeg y.2

theorem actL_map (F : A → B) (σ : Perm) (k : List A) : actL σ (k.map F) = (actL σ k).map F := by
  unfold actL sortl
  rw [List.zip_map_right, ← List.map_insertionSort (fun a b => a.1 ≤ b.1) _ (Prod.map id F) (σ.zip k)
    (fun a _ b _ => by simp), List.map_map, List.map_map]
  rfl

theorem mapK_actK (F : A → B) {deg : A → Int} {deg' : B → Int} (hdeg : ∀ a, deg' (F a) = deg a) (σ : Perm)
    (k : List A) : mapK (List.map F) (actK (R := R) deg σ k) = actK deg' σ (k.map F) := by
  rw [actK, actK, map_smul, mapK_single, actL_map, List.zip_map_right, kos_map F hdeg]

end Natural

namespace Props
open Comch.Spec Elem SurjComp SurjElem Natural

variable {f : Nat → Nat} {x y z : SElem} {n : Nat}

theorem den_push (hn : y.torsion = n) : den (ZMod n) (pushforward f y).data =
    pr lany (mapK (List.map (List.map f)) (den _ y.data)) := by
  unfold pushforward
  rw [den_accumulate_zero' _ _ _ rfl hn, mapK_den, simplicial_drops_lany]

theorem nf_push (y : SElem) : (pushforward f y).NF simplicial := nf_accumulate_zero _ _ _

theorem push_attrs (y : SElem) : (pushforward f y).attrs = y.attrs := by simp [pushforward]

theorem mem_push {q : SKey × Int} (h : q ∈ (pushforward f y).data) : ∃ p ∈ y.data, q.1 = p.1.map (List.map f) := by
  have := mem_keys_accumulate_zero (List.mem_map_of_mem (f := Prod.fst) h)
  simp only [List.map_map, List.mem_map, Function.comp] at this
  obtain ⟨p, hp, e⟩ := this
  exact ⟨p, hp, e.symm⟩

theorem keyDegree_map (k : SKey) : SElem.keyDegree (k.map (List.map f)) = SElem.keyDegree k := by
  simp only [SElem.keyDegree, List.map_map]
  congr 1
  apply List.map_congr_left
  intro s _
  simp [Simplex.dimension]

theorem push_degree {d : Int} (hd : y.degree = some d) (hne : (pushforward f y).data ≠ []) :
    (pushforward f y).degree = some d := by
  rw [SElem.degree, uniqueValue_eq_some] at hd ⊢
  refine ⟨by simpa using hne, fun b hb => ?_⟩
  obtain ⟨q, hq, rfl⟩ := List.mem_map.1 hb
  obtain ⟨p, hp, e⟩ := mem_push hq
  rw [e, keyDegree_map]
  exact hd.2 _ (List.mem_map_of_mem (f := fun t : SKey × Int => SElem.keyDegree t.1) hp)

theorem push_arity {r : Nat} (hd : y.arity = some r) (hne : (pushforward f y).data ≠ []) :
    (pushforward f y).arity = some r := by
  rw [SElem.arity, uniqueValue_eq_some] at hd ⊢
  refine ⟨by simpa using hne, fun b hb => ?_⟩
  obtain ⟨q, hq, rfl⟩ := List.mem_map.1 hb
  obtain ⟨p, hp, e⟩ := mem_push hq
  rw [e, List.length_map]
  exact hd.2 _ (List.mem_map_of_mem (f := fun t : SKey × Int => t.1.length) hp)

/-- The boundary is natural with respect to all maps of vertices. -/
theorem C89_boundary (f : Nat → Nat) (y : SElem) :
    pyEq (pushforward f y).boundary (pushforward f y.boundary) = true := by
  have t1 : (pushforward f y).torsion = y.torsion := torsion_congr (push_attrs y)
  refine pyEq_of_den (n := y.torsion) (nf_boundary _) (nf_push _)
    ((torsion_congr (boundary_attrs _)).trans t1)
    ((torsion_congr (push_attrs _)).trans (torsion_congr (boundary_attrs y))) ?_
  rw [den_boundary _ t1, den_push rfl, den_push (torsion_congr (boundary_attrs y)), den_boundary y rfl,
    ← simplicial_drops_lany, pr_lin_pr _ (fun k hk => pr_simplicialD k hk), simplicial_drops_lany, pr_mapK_pr]
  congr 1
  have : simplicialD.comp (mapK (List.map (List.map f))) =
      (mapK (List.map (List.map f))).comp (simplicialD (R := ZMod y.torsion)) := by
    apply lin_ext
    intro k
    simp only [LinearMap.comp_apply, mapK_single, simplicialD, tens_single, one_smul]
    exact (mapK_tensK (List.map f) (fun a => mapK_delK f a) (fun a => by simp [Simplex.dimension]) k).symm
  exact LinearMap.congr_fun this _

/-- The iterated diagonal is natural (whenever it is defined: the package cannot apply it to zero). -/
theorem C89_diagonal (f : Nat → Nat) (hy : y.NF simplicial) {d : Int} {r : Nat} (hd : y.degree = some d)
    (hr : y.arity = some r) (t c : Nat) (hc : 1 ≤ c) (hcr : c ≤ r) (hne : (pushforward f y).data ≠ []) :
    ∃ u v, (pushforward f y).iteratedDiagonal t c = .ok u ∧ y.iteratedDiagonal t c = .ok v ∧
      pyEq u (pushforward f v) = true := by
  obtain ⟨u, eu, nu, au, -, du⟩ := iteratedDiagonal_ok (nf_push y) (push_degree hd hne) (push_arity hr hne) t c hc hcr
  obtain ⟨v, ev, nv, av, -, dv⟩ := iteratedDiagonal_ok hy hd hr t c hc hcr
  have t1 : (pushforward f y).torsion = y.torsion := torsion_congr (push_attrs y)
  refine ⟨u, v, eu, ev, pyEq_of_den (n := y.torsion) nu (nf_push _) ((torsion_congr au).trans t1)
    ((torsion_congr (push_attrs v)).trans (torsion_congr av)) ?_⟩
  rw [t1] at du
  rw [du, den_push rfl, den_push (torsion_congr av), dv, pr_mapK_pr]
  have key : ∀ w, atL (R := ZMod y.torsion) (aw t) (c - 1) (mapK (List.map (List.map f)) w) =
      mapK (List.map (List.map f)) (atL (aw t) (c - 1) w) := by
    intro w
    have : (atL (aw t) (c - 1)).comp (mapK (List.map (List.map f))) =
        (mapK (List.map (List.map f))).comp (atL (R := ZMod y.torsion) (aw t) (c - 1)) := by
      apply lin_ext
      intro k
      simp only [LinearMap.comp_apply, mapK_single, atL_single, one_smul]
      exact (mapK_atK (List.map f) (c - 1) k fun a _ => mapK_aw f t a).symm
    exact LinearMap.congr_fun this w
  rw [← key, pr_lany_atL_aw]

/-- The action of the surjection operad is natural. -/
theorem C89_call (f : Nat → Nat) {x : SurjElem} {r a coord : Nat} {d e : Int} (hx : InSurj r x) (hd : x.degree = some d)
    (hcv : x.attrs.convention = .mcClureSmith) (hy : y.NF simplicial) (hyd : y.degree = some e)
    (hya : y.arity = some a) (ht : y.torsion = x.torsion) (h1 : 1 ≤ coord) (h2 : coord ≤ a) :
    ∃ u v, callSimplicial x (pushforward f y) coord = .ok u ∧ callSimplicial x y coord = .ok v ∧
      pyEq u (pushforward f v) = true := by
  have hs : ∀ p ∈ x.data, ((sdeg p.1 : Nat) : Int) = d := fun p hp => sdeg_of_degree hx hd hp
  have hk := homogeneous_keys hyd hya
  have hk' : ∀ q ∈ (pushforward f y).data, SElem.keyDegree q.1 = e ∧ q.1.length = a := by
    intro q hq
    obtain ⟨p, hp, e⟩ := mem_push hq
    rw [e, keyDegree_map, List.length_map]
    exact hk p hp
  have t1 : (pushforward f y).torsion = y.torsion := torsion_congr (push_attrs y)
  obtain ⟨u, eu, nu, au, du⟩ := call_ok hx hs hcv (nf_push (f := f) y) hk' rfl (t1.trans ht) h1 h2
  obtain ⟨v, ev, nv, av, dv⟩ := call_ok hx hs hcv hy hk rfl ht h1 h2
  refine ⟨u, v, eu, ev, pyEq_of_den (n := x.torsion) nu (nf_push _) ((torsion_congr au).trans (t1.trans ht))
    ((torsion_congr (push_attrs v)).trans ((torsion_congr av).trans ht)) ?_⟩
  have hox := den_supp_onto (R := ZMod x.torsion) hx
  rw [du, den_push ht, den_push ((torsion_congr av).trans ht), dv, pr_mapK_pr, pr_callV_right hox]
  congr 1
  have hny : den (ZMod x.torsion) y.data ∈ Finsupp.supported (ZMod x.torsion) (ZMod x.torsion)
      {k : SKey | ∀ s ∈ k, s ≠ []} := by
    refine den_induction (P := fun w => w ∈ Finsupp.supported (ZMod x.torsion) (ZMod x.torsion)
      {k : SKey | ∀ s ∈ k, s ≠ []}) y.data (Submodule.zero_mem _) (fun u v => Submodule.add_mem _) ?_
    intro p hp
    exact Finsupp.single_mem_supported _ _ (nf_ne_nil hy hp)
  have hnx : den (ZMod x.torsion) x.data ∈ Finsupp.supported (ZMod x.torsion) (ZMod x.torsion) {k : Surj | k ≠ []} := by
    refine den_induction (P := fun w => w ∈ Finsupp.supported (ZMod x.torsion) (ZMod x.torsion)
      {k : Surj | k ≠ []}) x.data (Submodule.zero_mem _) (fun u v => Submodule.add_mem _) ?_
    intro p hp
    exact Finsupp.single_mem_supported _ _ (onto_ne_nil hx.nf hp)
  have := BElem.bil_ext_supported (R := ZMod x.torsion)
    (f := (callV _ r d (coord - 1)).compl₂ (mapK (List.map (List.map f))))
    (g := (callV _ r d (coord - 1)).compr₂ (mapK (List.map (List.map f))))
    (fun k hk m hm => by
      simp only [LinearMap.compl₂_apply, LinearMap.compr₂_apply, mapK_single]
      rw [callV, bil_bv, lin_single, one_smul, bil_bv, lin_single, one_smul]
      exact (mapK_atKd (R := ZMod x.torsion) (deg := ldim) (deg' := ldim) (List.map f) (fun a => by simp [ldim]) d (coord - 1) m
        fun a ha => mapK_sact f r hk (hm a ha)).symm) hnx hny
  exact this

/-- The action of the symmetric group is natural. -/
theorem C89_act (f : Nat → Nat) {s : RingElem} {r : Nat} (hs : InRing r s) (hsn : s.data ≠ []) (hy : y.NF simplicial)
    (hr : y.arity = some r) (ts : s.torsion = y.torsion) (hne : (pushforward f y).data ≠ []) :
    ∃ u v, SElem.rmul s (pushforward f y) = .ok u ∧ SElem.rmul s y = .ok v ∧ pyEq u (pushforward f v) = true := by
  have t1 : (pushforward f y).torsion = y.torsion := torsion_congr (push_attrs y)
  have hY := hasArity_iff hy hr
  have hP := hasArity_iff (nf_push y) (push_arity hr hne)
  obtain ⟨u, eu, nu, au, -, du⟩ := rmulG_ok (w := Simplex.dimension) rfl simplicial_any hs hsn hP ts t1
  obtain ⟨v, ev, nv, av, -, dv⟩ := rmulG_ok (w := Simplex.dimension) rfl simplicial_any hs hsn hY ts rfl
  refine ⟨u, v, eu, ev, pyEq_of_den (n := y.torsion) nu (nf_push _) ((torsion_congr au).trans t1)
    ((torsion_congr (push_attrs v)).trans (torsion_congr av)) ?_⟩
  have hp := pr_actV (w := Simplex.dimension) (R := ZMod y.torsion) simplicial_any (d := s.data)
    (f := y.data.map fun p => (p.1.map (List.map f), p.2)) hs.perm (by
      intro p hp
      obtain ⟨q, hq, rfl⟩ := List.mem_map.1 hp
      simpa using hY.len q hq)
  rw [du, den_push rfl, den_push (torsion_congr av), dv]
  rw [← mapK_den, simplicial_drops_lany] at hp
  rw [← hp]
  congr 1
  have := BElem.bil_ext_supported (R := ZMod y.torsion) (S := Set.univ) (T := Set.univ)
    (f := (actV Simplex.dimension).compl₂ (mapK (List.map (List.map f))))
    (g := (actV (R := ZMod y.torsion) Simplex.dimension).compr₂ (mapK (List.map (List.map f))))
    (fun σ _ k _ => by
      simp only [LinearMap.compl₂_apply, LinearMap.compr₂_apply, mapK_single]
      rw [bil_bv, lin_single, one_smul, bil_bv, lin_single, one_smul]
      exact (mapK_actK (R := ZMod y.torsion) (deg := Simplex.dimension) (deg' := Simplex.dimension) (List.map f) (fun a => by simp [Simplex.dimension]) σ k).symm)
    (u := den _ s.data) (v := den _ y.data) (by simp) (by simp)
  exact this

/-- The cofaces and codegeneracies of the package are maps of vertices. -/
theorem coface_eq_map (s : Simplex) (i : Nat) :
    s.coface i = s.map (fun j => if i ≤ j then j + 1 else j) ∧
    s.codegeneracy i = s.map (fun j => if i < j then j - 1 else j) := ⟨rfl, rfl⟩

/-- A chain in which a codegeneracy makes one term degenerate and identifies two others. -/
def exNat : SElem := Elem.new simplicial [([[0, 1, 2]], 2), ([[0, 1, 3]], 5), ([[0, 2, 3]], 1)]

example : (pushforward (fun j => if 1 < j then j - 1 else j) exNat).data = [([[0, 1, 2]], 6)] ∧
    exNat.NF simplicial ∧ exNat.degree = some 2 ∧ exNat.arity = some 1 :=
  ⟨by decide, nf_new _ (by decide) _ _, by decide, by decide⟩

example : (callSimplicial (Elem.new surjection [([1, 2, 1], 1)] none .mcClureSmith)
    (pushforward (fun j => if 1 < j then j - 1 else j) exNat)).toOption.map (·.data.length) = some 3 := by
  decide +kernel

end Props
end Comch
