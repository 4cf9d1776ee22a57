import Verif.Props.SurjCallMore
import Verif.Props.Join
import Verif.Lib.CubCallAct

/-! # Surjections acting on cubical chains: C54 -/

set_option linter.unusedSectionVars false

namespace Comch.SurjElem
open Comch.Spec Elem CElem SurjComp Comch.Props Serre CubCall
open Comch.Join (jn JN IsCube)
open Finsupp (single)

section Lin
variable {R : Type} [CommRing R]

theorem cat_bv_cat' {A : Type} (L Q : List A) (v : List A →₀ R) :
    cat (bv R L) (cat v (bv R Q)) = mapK (fun m => L ++ (m ++ Q)) v := by
  induction v using Finsupp.induction_linear with
  | zero => simp
  | add f g hf hg => simp only [map_add, LinearMap.add_apply, hf, hg]
  | single m r => simp

theorem cat_lin_cat' {A B : Type} (L Q : List A) (f : B → (List A →₀ R)) (v : B →₀ R) :
    cat (bv R L) (cat (lin f v) (bv R Q)) = lin (fun m => cat (bv R L) (cat (f m) (bv R Q))) v := by
  induction v using Finsupp.induction_linear with
  | zero => simp
  | add f g hf hg => simp only [map_add, LinearMap.add_apply, hf, hg]
  | single m r => simp

/-- The tensor of all ways to pick one term of every list. -/
theorem den_productAll (Ls : List (List (CKey × Int))) :
    den R ((productAll Ls).map fun ps => ((ps.map Prod.fst).flatten, (ps.map Prod.snd).prod)) =
      Ls.foldr (fun l v => cat (den R l) v) (bv R []) := by
  induction Ls with
  | nil => simp [productAll]
  | cons l Ls ih =>
    rw [List.foldr_cons, ← ih, productAll, List.map_flatMap, den_flatMap]
    generalize productAll Ls = P
    have h : ∀ a : CKey × Int, den R ((P.map (a :: ·)).map fun ps => ((ps.map Prod.fst).flatten, (ps.map Prod.snd).prod)) =
        cat (single a.1 ((a.2 : Int) : R)) (den R (P.map fun ps => ((ps.map Prod.fst).flatten, (ps.map Prod.snd).prod))) := by
      intro a
      induction P with
      | nil => simp
      | cons p P ihP =>
        rw [List.map_cons, List.map_cons, den_cons, ihP, List.map_cons (l := P), den_cons, map_add]
        simp
    rw [List.map_congr_left fun a _ => h a]
    induction l with
    | nil => simp
    | cons a l ihl => rw [List.map_cons, List.sum_cons, ihl, den_cons, map_add, LinearMap.add_apply]

theorem foldr_jn (G : List CKey) (Ls : List (List (CKey × Int)))
    (h : List.Forall₂ (fun g l => den R l = one (jn g)) G Ls) :
    Ls.foldr (fun l v => cat (den R l) v) (bv R []) = tmK jn G := by
  induction h with
  | nil => rfl
  | cons h1 _ ih => rw [List.foldr_cons, ih, h1, tmK]

end Lin

/-- The sign used for one summand. -/
def csign (n a : Nat) (d : Int) (c : Nat) (k : Surj) (key : CKey) : Int :=
  if n = 2 then 1
  else
    let k2 := (key.drop c).take k.length
    let weights := k2.map fun c => ((Cube.dimension c : Nat) : Int) % 2
    let groups := (pyRange 1 (pyMax k + 1)).map fun i =>
      ((enumerate k).filter fun p => p.2 == i).map Prod.fst
    computeSign k weights * pySign (cubicalSignExp a weights groups) *
        pySign (((CElem.keyDegree (key.take c) : Nat) : Int) % 2 * d)

/-- One summand of the code as a vector. -/
noncomputable def csummandV (n r a : Nat) (d : Int) (c : Nat) (k : Surj) (key : CKey) : CKey →₀ ZMod n :=
  ((csign n a d c k key : Int) : ZMod n) •
    cat (bv (ZMod n) (key.take c)) (cat (ac r k ((key.drop c).take k.length)) (bv (ZMod n) (key.drop (c + k.length))))

theorem join_key_ok {y : CElem} {g : CKey} {n : Nat} (hg : g ≠ []) (hn : ∀ c ∈ g, c.length = n) :
    ∃ j : CElem, CElem.join (y.create cubical [(g, 1)]) = .ok j ∧ j.attrs = y.attrs ∧
      j.NF cubical ∧ den (ZMod y.torsion) j.data = one (jn g) := by
  have hnf : (y.create cubical [(g, 1)]).NF cubical := nf_create _ _ (by simp [Dict.KeysNodup])
  have hkeys : ∀ p ∈ (y.create cubical [(g, 1)]).data, p.1 = g := fun p hp => by
    have := mem_keys_create (List.mem_map_of_mem (f := Prod.fst) hp)
    simpa using this
  have hdc : den (ZMod y.torsion) (y.create cubical [(g, 1)]).data = bv (ZMod y.torsion) g := by
    rw [den_create _ _ _ (by simp [cubical]) (by simp)]
    simp [cubical]
  obtain ⟨j, h1, h2, h3, h4⟩ := join_ok' (n := n) hnf (by
    by_cases h0 : (y.create cubical [(g, 1)]).data = []
    · exact Or.inl h0
    · refine Or.inr ⟨CElem.keyDegree g, g.length, ?_, ?_, List.length_pos_iff.2 hg⟩
      · rw [CElem.degree, uniqueValue_eq_some]
        refine ⟨by simpa using h0, fun b hb => ?_⟩
        obtain ⟨p, hp, rfl⟩ := List.mem_map.1 hb
        rw [hkeys p hp]
      · rw [CElem.arity, uniqueValue_eq_some]
        refine ⟨by simpa using h0, fun b hb => ?_⟩
        obtain ⟨p, hp, rfl⟩ := List.mem_map.1 hb
        rw [hkeys p hp]) (fun p hp c hc => hn c (by rwa [hkeys p hp] at hc))
  refine ⟨j, h1, by rw [h3]; simp, h2, ?_⟩
  have ht : (y.create cubical [(g, 1)]).torsion = y.torsion := torsion_congr (create_attrs _ _ _)
  rw [ht, hdc] at h4
  rw [h4, JN, lin_single, one_smul]
  rfl

theorem cubicalSummands_ok {y : CElem} {n r a N c : Nat} {d : Int} {k : Surj} (hyn : y.torsion = n)
    (hk : ∀ v, v ∈ k ↔ 1 ≤ v ∧ v ≤ r) (key : CKey) (hN : ∀ x ∈ key, x.length = N)
    (hl : ((key.drop c).take k.length).length = k.length) (v1 v2 : Int) :
    ∃ l, cubicalSummands y n a d (c + 1) k v1 key v2 = .ok l ∧
      den (ZMod n) l = ((v1 * v2 : Int) : ZMod n) • csummandV n r a d c k key := by
  subst hyn
  unfold cubicalSummands
  have hr : pyMax k = r := pyMax_of_onto hk
  have e1 : c + 1 + k.length - 1 = c + k.length := by omega
  have hsl : slice key c (c + k.length) = (key.drop c).take k.length := by
    rw [slice, List.drop_take, Nat.add_sub_cancel_left]
  simp only [Nat.add_sub_cancel, e1, hsl]
  have hfib : ∀ i ∈ pyRange 1 (pyMax k + 1), fiber k ((key.drop c).take k.length) i ≠ [] ∧
      ∀ x ∈ fiber k ((key.drop c).take k.length) i, x.length = N := by
    intro i hi
    rw [hr, pyRange, List.mem_range'_1] at hi
    constructor
    · intro h0
      have hik : i ∈ k := (hk i).2 ⟨by omega, by omega⟩
      obtain ⟨j, hj, rfl⟩ := List.getElem_of_mem hik
      rw [fiber, List.map_eq_nil_iff, List.filter_eq_nil_iff] at h0
      have hz : j < (k.zip ((key.drop c).take k.length)).length := by rw [List.length_zip, hl]; omega
      have := h0 _ (List.getElem_mem hz)
      simp at this
    · intro x hx
      obtain ⟨p, hp, rfl⟩ := List.mem_map.1 hx
      exact hN _ (List.mem_of_mem_drop (List.mem_of_mem_take (List.of_mem_zip (List.mem_of_mem_filter hp)).2))
  haveI : Nonempty CElem := ⟨y⟩
  choose! J hJ1 hJ2 hJ3 hJ4 using fun i hi => join_key_ok (y := y) (hfib i hi).1 (hfib i hi).2
  have hm := mapM_ok hJ1
  have hden : den (ZMod y.torsion) ((productAll (((pyRange 1 (pyMax k + 1)).map J).map fun j => j.data)).map
      fun ps => ((ps.map Prod.fst).flatten, (ps.map Prod.snd).prod)) = ac r k ((key.drop c).take k.length) := by
    rw [den_productAll, ac]
    apply foldr_jn
    have : gam r (k.zip ((key.drop c).take k.length)) =
        (pyRange 1 (pyMax k + 1)).map fun i => fiber k ((key.drop c).take k.length) i := by
      rw [hr, pyRange, Nat.add_sub_cancel]; rfl
    rw [this, List.map_map, List.forall₂_map_left_iff, List.forall₂_map_right_iff, List.forall₂_same]
    exact fun i hi => hJ4 i hi
  by_cases hz : (((pyRange 1 (pyMax k + 1)).map J).any fun j => !j.truthy) = true
  · refine ⟨[], (congrArg (fun m : Py _ => m >>= _) hm).trans ?_, ?_⟩
    · simp only [bind, Except.bind]
      rw [if_pos hz]
    · have h0 : ac (R := ZMod y.torsion) r k ((key.drop c).take k.length) = 0 := by
        rw [List.any_eq_true] at hz
        obtain ⟨j, hj, hj0⟩ := hz
        obtain ⟨i, hi, rfl⟩ := List.mem_map.1 hj
        have hd0 : (J i).data = [] := by simpa [truthy] using hj0
        refine tmK_zero_of jn (a := fiber k ((key.drop c).take k.length) i) ?_ ?_
        · rw [hr, pyRange, Nat.add_sub_cancel] at hi
          exact List.mem_map_of_mem (f := fun i => fiber k ((key.drop c).take k.length) i) hi
        · have h4 := hJ4 i hi
          rw [hd0, den_nil] at h4
          have h5 : ∀ v : Cube →₀ ZMod y.torsion, mapK (fun l : CKey => l.headD []) (one v) = v := by
            intro v
            induction v using Finsupp.induction_linear with
            | zero => simp
            | add f g hf hg => simp only [map_add, hf, hg]
            | single a b => simp
          rw [← h5 (jn _), ← h4, map_zero]
      rw [csummandV, h0]
      simp
  · refine ⟨_, (congrArg (fun m : Py _ => m >>= _) hm).trans (if_neg hz), ?_⟩
    · rw [csummandV, ← hden, cat_bv_cat']
      have hs : (if y.torsion = 2 then 1 else
          computeSign k (((key.drop c).take k.length).map fun c => ((Cube.dimension c : Nat) : Int) % 2) *
            pySign (cubicalSignExp a (((key.drop c).take k.length).map fun c => ((Cube.dimension c : Nat) : Int) % 2)
              ((pyRange 1 (pyMax k + 1)).map fun i => ((enumerate k).filter fun p => p.2 == i).map Prod.fst)) *
            pySign (((CElem.keyDegree (key.take c) : Nat) : Int) % 2 * d)) = csign y.torsion a d c k key := rfl
      rw [hs]
      generalize csign y.torsion a d c k key = S
      generalize productAll _ = P
      induction P with
      | nil => simp
      | cons p P ih =>
        rw [List.map_cons, den_cons, ih, List.map_cons, den_cons, map_add, smul_add, smul_add]
        congr 1
        rw [mapK_single, Finsupp.smul_single, Finsupp.smul_single]
        simp only [List.append_assoc, smul_eq_mul]
        congr 1
        push_cast
        ring

/-- The action as a bilinear map, for torsion `n`. -/
noncomputable def callCV (n r : Nat) (d : Int) (c : Nat) :
    (Surj →₀ ZMod n) →ₗ[ZMod n] (CKey →₀ ZMod n) →ₗ[ZMod n] (CKey →₀ ZMod n) :=
  bil fun k m => lin (csummandV n r r d c k) (atK (serre (k.length - 1)) c m)

theorem lengths_serre {R : Type} [CommRing R] {N : Nat} (t : Nat) (a : Cube) (ha : a.length = N) :
    serre (R := R) t a ∈ Finsupp.supported R R {L : CKey | ∀ c ∈ L, c.length = N} := by
  induction a generalizing N with
  | nil =>
    rw [serre]
    refine Finsupp.single_mem_supported R _ ?_
    intro c hc
    rw [List.eq_of_mem_replicate hc]
    exact ha
  | cons e a ih =>
    obtain ⟨n, rfl⟩ : ∃ n', N = n' + 1 := ⟨a.length, by rw [← ha]; simp⟩
    have ha' : a.length = n := by simpa using ha
    have hmap : ∀ (f : Nat) (L : CKey), (∀ c ∈ L, c.length = n) → ∀ c ∈ L.map (f :: ·), c.length = n + 1 := by
      intro f L hL c hc
      obtain ⟨x, hx, rfl⟩ := List.mem_map.1 hc
      simp [hL x hx]
    rw [serre]
    split
    · refine lin_supported _ (fun k hk => ?_) (ih ha')
      have hk : ∀ c ∈ k, c.length = n := hk
      clear ih
      induction k with
      | nil => simp [tK]
      | cons b k ihk =>
        have hk' : ∀ c ∈ k, c.length = n := fun c hc => hk c (by simp [hc])
        rw [tK]
        refine Submodule.add_mem _ (Finsupp.single_mem_supported R _ ?_) (Submodule.smul_mem _ _ ?_)
        · intro c hc
          rcases List.mem_cons.1 hc with rfl | hc
          · simp [hk b (by simp)]
          · exact hmap 1 k hk' c hc
        · refine mapK_supported (T := {L : CKey | ∀ c ∈ L, c.length = n + 1}) _ (fun L hL => ?_) (ihk hk' hk')
          intro c hc
          rcases List.mem_cons.1 hc with rfl | hc
          · simp [hk b (by simp)]
          · exact hL c hc
    · exact mapK_supported (T := {L : CKey | ∀ c ∈ L, c.length = n + 1}) _ (fun L hL => hmap e L hL) (ih ha')

theorem atK_lengths {R : Type} [CommRing R] {N : Nat} (t : Nat) {c : Nat} {k : CKey} (hc : c < k.length)
    (hk : ∀ x ∈ k, x.length = N) : atK (serre (R := R) t) c k ∈ Finsupp.supported R R
      {m : CKey | m.length = k.length + t ∧ ∀ x ∈ m, x.length = N} := by
  have hg : k[c]? = some k[c] := List.getElem?_eq_getElem hc
  rw [atK_eq _ _ _ _ hg, cat_bv_cat']
  have h4 := lengths_serre (R := R) t k[c] (hk _ (List.getElem_mem hc))
  have h5 := serre_supported (R := R) t k[c]
  have h6 : serre (R := R) t k[c] ∈ Finsupp.supported R R
      ({L : CKey | ∀ c ∈ L, c.length = N} ∩ ND (t + 1) (cdim k[c])) := by
    rw [Finsupp.mem_supported] at h4 h5 ⊢
    exact Set.subset_inter h4 h5
  refine mapK_supported (T := {m : CKey | m.length = k.length + t ∧ ∀ x ∈ m, x.length = N}) _ (fun m hm => ?_) h6
  constructor
  · have := hm.2.1
    simp only [List.length_append, List.length_take, List.length_drop, this]
    omega
  · intro x hx
    rcases List.mem_append.1 hx with h | h
    · exact hk x (List.mem_of_mem_take h)
    · rcases List.mem_append.1 h with h | h
      · exact hm.1 x h
      · exact hk x (List.mem_of_mem_drop h)

/-- The linear description of `__call__` on cubical elements, for every torsion. -/
theorem callCubical_ok {x : SurjElem} {y : CElem} {r a coord n N e : Nat} {d : Int} (hx : InSurj r x)
    (hd : ∀ p ∈ x.data, ((sdeg p.1 : Nat) : Int) = d)
    (hyd : ∀ p ∈ y.data, CElem.keyDegree p.1 = e ∧ p.1.length = a) (hN : ∀ p ∈ y.data, ∀ c ∈ p.1, c.length = N)
    (hn : x.torsion = n) (hyn : y.torsion = n) (h1 : 1 ≤ coord) (h2 : coord ≤ a) :
    ∃ z, callCubical x y coord = .ok z ∧ z.NF cubical ∧ z.attrs = y.attrs ∧
      den (ZMod n) z.data = callCV n r d (coord - 1) (den _ x.data) (den _ y.data) := by
  unfold callCubical
  by_cases h0 : x.data = [] ∨ y.data = []
  · rw [if_pos (by simpa [truthy] using h0)]
    refine ⟨_, rfl, nf_zero _ _, by simp, ?_⟩
    rcases h0 with h | h <;> simp [h]
  · obtain ⟨hxne, hyne⟩ := not_or.1 h0
    rw [if_neg (by simpa [truthy] using ⟨hxne, hyne⟩)]
    have hlen : ∀ p ∈ x.data, (p.1.length : Int) = r + d := fun p hp => by
      rw [← hd p hp, length_of_onto (hx.onto p hp)]
      push_cast
      ring
    have hxd : x.degree = some d := by
      unfold SurjElem.degree
      rw [uniqueValue_eq_some]
      refine ⟨by simpa using hxne, fun b hb => ?_⟩
      obtain ⟨p, hp, rfl⟩ := List.mem_map.1 hb
      rw [keyDegree, pyMax_of_onto (hx.onto p hp), hlen p hp]
      ring
    have hyd' : y.degree = some e := by
      unfold CElem.degree
      rw [uniqueValue_eq_some]
      refine ⟨by simpa using hyne, fun b hb => ?_⟩
      obtain ⟨p, hp, rfl⟩ := List.mem_map.1 hb
      exact (hyd p hp).1
    have hya : y.arity = some a := by
      unfold CElem.arity
      rw [uniqueValue_eq_some]
      refine ⟨by simpa using hyne, fun b hb => ?_⟩
      obtain ⟨p, hp, rfl⟩ := List.mem_map.1 hb
      exact (hyd p hp).2
    obtain ⟨w, hw, hwnf, hwa, hwd⟩ := cIteratedDiagonal_ok hyd' hya (r + d - 1).toNat coord h1 h2
    rw [hyn] at hwd
    obtain ⟨c, rfl⟩ : ∃ c, coord = c + 1 := ⟨coord - 1, by omega⟩
    rw [Nat.add_sub_cancel] at hwd ⊢
    have hwk : ∀ q ∈ w.data, q.1.length = a + (r + d - 1).toNat ∧ ∀ x ∈ q.1, x.length = N := by
      intro q hq
      have hsup := hwnf.mem_keys_iff.1 (List.mem_map_of_mem (f := Prod.fst) hq)
      rw [torsion_congr hwa, hyn, hwd] at hsup
      have : atL (serre (r + d - 1).toNat) c (den (ZMod n) y.data) ∈ Finsupp.supported (ZMod n) (ZMod n)
          {m : CKey | m.length = a + (r + d - 1).toNat ∧ ∀ x ∈ m, x.length = N} := by
        refine lin_supported (S := {k : CKey | k.length = a ∧ ∀ x ∈ k, x.length = N}) _ ?_
          (den_supported fun q hq => ⟨(hyd q hq).2, hN q hq⟩)
        rintro k ⟨h3, h4⟩
        have := atK_lengths (R := ZMod n) (r + d - 1).toNat (c := c) (k := k) (by omega) h4
        rwa [h3] at this
      exact (Finsupp.mem_supported _ _).1 this (Finsupp.mem_support_iff.2 hsup)
    have hev : ∀ pq ∈ pyProduct x.data w.data, ∃ l, cubicalSummands y n r d (c + 1) pq.1.1 pq.1.2 pq.2.1 pq.2.2 = .ok l ∧
        den (ZMod n) l = ((pq.1.2 * pq.2.2 : Int) : ZMod n) • csummandV n r r d c pq.1.1 pq.2.1 := by
      intro pq hpq
      rw [mem_pyProduct] at hpq
      have := hwk _ hpq.2
      have hl := hlen _ hpq.1
      refine cubicalSummands_ok hyn (hx.onto _ hpq.1) _ this.2 ?_ _ _
      rw [List.length_take, List.length_drop, this.1]
      omega
    choose! L hL1 hL2 using hev
    have hm := mapM_ok hL1
    rw [hxd, arity_eq hx hxne, hya]
    simp only [if_neg (not_lt.2 h2), hn, hyn, ne_eq, not_true, if_false, hw]
    refine ⟨_, congrArg (fun m : Py _ => m >>= fun events : List (List (CKey × Int)) =>
      Except.ok (Elem.accumulate cubical (y.zero cubical) events.flatten)) hm, nf_accumulate_zero _ _ _, by simp, ?_⟩
    rw [den_accumulate_zero' _ _ _ rfl hyn]
    refine (pr_false _).trans ?_
    rw [den_flatten, List.map_map]
    refine (congrArg List.sum (List.map_congr_left hL2)).trans ?_
    rw [← bil_den, hwd]
    unfold callCV
    refine den_induction (P := fun u => bil (csummandV n r r d c) u (atL (serre (r + d - 1).toNat) c (den (ZMod n) y.data)) =
      bil (fun k m => lin (csummandV n r r d c k) (atK (serre (k.length - 1)) c m)) u (den (ZMod n) y.data)) x.data (by simp)
      (fun u v hu hv => by rw [map_add, map_add, LinearMap.add_apply, LinearMap.add_apply, hu, hv]) ?_
    intro p hp
    refine den_induction (P := fun u => bil (csummandV n r r d c) _ (atL (serre (r + d - 1).toNat) c u) =
      bil (fun k m => lin (csummandV n r r d c k) (atK (serre (k.length - 1)) c m)) _ u) y.data (by simp)
      (fun u v hu hv => by rw [map_add, map_add, map_add, hu, hv]) ?_
    intro q hq
    have hl := hlen p hp
    rw [bil_single, atL_single, map_smul, bil_single_left,
      show (r + d - 1).toNat = p.1.length - 1 by omega, smul_smul, mul_comm]

/-! ### modulo 2 -/

theorem csign_two (a : Nat) (d : Int) (c : Nat) (k : Surj) (key : CKey) : csign 2 a d c k key = 1 := rfl

theorem lin_csummandV_two {r a : Nat} {d : Int} {c : Nat} {k : Surj} (hk : k ≠ []) {q : CKey} (hc : c < q.length) :
    lin (csummandV 2 r a d c k) (atK (serre (k.length - 1)) c q) = atK (cact r k) c q := by
  have hg : q[c]? = some q[c] := List.getElem?_eq_getElem hc
  have hcl : (q.take c).length = c := by rw [List.length_take]; omega
  have hkl := List.length_pos_iff.2 hk
  rw [atK_eq _ _ _ _ hg, atK_eq _ _ _ _ hg, cat_bv_cat', cact, cat_lin_cat']
  have := BElem.lin_ext_supported (R := ZMod 2)
    (f := (lin (csummandV 2 r a d c k)).comp (mapK fun m => q.take c ++ (m ++ q.drop (c + 1))))
    (g := lin (fun m => cat (bv (ZMod 2) (q.take c)) (cat (ac r k m) (bv (ZMod 2) (q.drop (c + 1))))))
    (fun ps hps => by
      have hl : ps.length = k.length := by rw [hps.1]; omega
      simp only [LinearMap.comp_apply, mapK_single, lin_single, one_smul, csummandV, csign_two, Int.cast_one]
      clear hps hg hc
      generalize q.drop (c + 1) = Q
      generalize q.take c = L at *
      subst hcl
      rw [List.take_left, List.drop_left, ← hl, List.take_left, ← List.drop_drop, List.drop_left,
        List.drop_left]) (serre_supported (R := ZMod 2) (k.length - 1) q[c])
  simpa using this

theorem cubicalD_atK {R : Type} [CommRing R] [CharP R 2] {N r : Nat} {k : List Nat}
    (hk : ∀ v, v ∈ k ↔ 1 ≤ v ∧ v ≤ r) (hne : k ≠ []) (cv : Convention) (c : Nat) {m : CKey} (hc : ∀ a ∈ m, IsCube N a) :
    cubicalD (atK (cact (R := R) r k) c m) = lin (fun k' => atK (cact r k') c m) (sbd cv (bv R k)) +
      atL (cact r k) c (cubicalD (bv R m)) := by
  have hD : ∀ m : CKey, cubicalD (bv R m) = tensK cubeD cdim m := fun m => by simp [cubicalD]
  rw [hD]
  have hcons : ∀ (a : Cube) (v : CKey →₀ R), consV a v = cat (bv R [a]) v := fun a v => by
    rw [cat_single]; rfl
  induction m generalizing c with
  | nil =>
    have h0 : ∀ u : Surj →₀ R, lin (fun _ => (0 : CKey →₀ R)) u = 0 := by
      intro u
      induction u using Finsupp.induction_linear with
      | zero => simp
      | add f g hf hg => rw [map_add, hf, hg, add_zero]
      | single a b => simp
    cases c <;> simp [atK, tensK, h0]
  | cons a m ih =>
    have ha := hc a (by simp)
    have hm : ∀ a ∈ m, IsCube N a := fun b hb => hc b (by simp [hb])
    cases c with
    | zero =>
      rw [tensK, sg_char, one_smul, map_add, atL_cat_one_zero, hcons, ← (show one (bv R a) = bv R [a] by simp [one]),
        atL_cat_one_zero, lin_single, one_smul]
      simp only [atK]
      rw [cubicalD_cat, cubicalD_cact hk hne ha cv, hD, map_add, LinearMap.add_apply, add_assoc]
      congr 1
      generalize sbd cv (bv R k) = u
      induction u using Finsupp.induction_linear with
      | zero => simp
      | add f g hf hg => simp only [map_add, LinearMap.add_apply, hf, hg]
      | single a b => simp
    | succ c =>
      rw [tensK, sg_char, one_smul, map_add, atL_cat_one_succ, atL_consV]
      simp only [atK]
      rw [hcons, cubicalD_cat, ← hcons, ih c hm, map_add, hD, tensK]
      have h1 : lin (fun k' => consV a (atK (cact r k') c m)) (sbd cv (bv R k)) =
          consV a (lin (fun k' => atK (cact r k') c m) (sbd cv (bv R k))) := by
        generalize sbd cv (bv R k) = u
        induction u using Finsupp.induction_linear with
        | zero => simp
        | add f g hf hg => simp only [map_add, hf, hg]
        | single a b => simp
      rw [h1, atL_single, one_smul]
      have h2 : tensK (R := R) cubeD cdim [] = 0 := rfl
      rw [h2, map_zero, smul_zero, add_zero]
      have h3 : cat (one (cubeD (R := R) a)) (bv R []) = one (cubeD a) := by
        generalize one (cubeD (R := R) a) = u
        induction u using Finsupp.induction_linear with
        | zero => simp
        | add f g hf hg => simp only [map_add, LinearMap.add_apply, hf, hg]
        | single a b => simp
      rw [h3]
      abel

end Comch.SurjElem

namespace Comch.Props
open Comch.Spec Elem CElem SurjComp SurjElem Serre CubCall
open Comch.Join (jn JN IsCube)
open Finsupp (single)

variable {x : SurjElem} {y : CElem} {r a coord N e : Nat} {d : Int}

theorem chomogeneous_keys (hd : y.degree = some e) (ha : y.arity = some a) :
    ∀ p ∈ y.data, CElem.keyDegree p.1 = e ∧ p.1.length = a := by
  rw [CElem.degree, uniqueValue_eq_some] at hd
  rw [CElem.arity, uniqueValue_eq_some] at ha
  exact fun p hp => ⟨hd.2 _ (List.mem_map_of_mem hp), ha.2 _ (List.mem_map_of_mem hp)⟩

theorem callCV_two (d : Int) {k : Surj} (hk : k ≠ []) {m : CKey} {c : Nat} (hc : c < m.length) :
    callCV 2 r d c (bv _ k) (bv _ m) = atK (cact r k) c m := by
  rw [callCV, bil_bv, lin_single, one_smul, lin_csummandV_two hk hc]

/-- Modulo 2, the boundary of the action. -/
theorem cubicalD_callCV_two (d : Int) (cv : Convention) {c : Nat} {u : Surj →₀ ZMod 2} {v : CKey →₀ ZMod 2} (hr : 1 ≤ r)
    (hu : u ∈ Finsupp.supported (ZMod 2) (ZMod 2) (OntoS r))
    (hv : v ∈ Finsupp.supported (ZMod 2) (ZMod 2) {m : CKey | c < m.length ∧ ∀ a ∈ m, IsCube N a}) :
    cubicalD (callCV 2 r d c u v) = callCV 2 r (d - 1) c (pr surjection.drops (sbd cv u)) v +
      callCV 2 r d c u (cubicalD v) := by
  have hDsup : ∀ m : CKey, m ∈ {m : CKey | c < m.length ∧ ∀ a ∈ m, IsCube N a} →
      cubicalD (bv (ZMod 2) m) ∈ Finsupp.supported (ZMod 2) (ZMod 2) {m : CKey | c < m.length ∧ ∀ a ∈ m, IsCube N a} := by
    intro m hm
    rw [cubicalD, tens_single, one_smul]
    refine Finsupp.supported_mono ?_ (tensK_supported_all (S := {x | IsCube N x}) cubeD cdim
      (fun a ha => cubeD_supported a ha) m hm.2)
    intro l hl
    exact ⟨by have := hl.1; have := hm.1; show c < l.length; omega, hl.2⟩
  have hleft : ∀ (m : CKey), c < m.length → ∀ w ∈ Finsupp.supported (ZMod 2) (ZMod 2) (OntoS r),
      callCV 2 r (d - 1) c (pr surjection.drops w) (bv _ m) = lin (fun k' => atK (cact r k') c m) w := by
    intro m hm w hw
    have := BElem.lin_ext_supported (R := ZMod 2) (S := OntoS r)
      (f := ((callCV 2 r (d - 1) c).flip (bv _ m)).comp (pr surjection.drops))
      (g := lin (fun k' => atK (cact r k') c m)) (fun k hk => by
        simp only [LinearMap.comp_apply, LinearMap.flip_apply, lin_single, one_smul]
        have hkn : k ≠ [] := by
          rintro rfl
          exact absurd ((hk 1).2 ⟨le_rfl, hr⟩) (by simp)
        by_cases hd : surjection.drops k = true
        · rw [pr_single, if_pos hd, map_zero, LinearMap.zero_apply]
          have hg : m[c]? = some m[c] := List.getElem?_eq_getElem hm
          rw [atK_eq _ _ _ _ hg, cact_drop (fun v hv => (hk v).1 hv) hkn (Or.inl (hasRep_of_drops hr hk hd))]
          simp
        · rw [pr_single, if_neg hd, callCV_two _ hkn hm]) hw
    simpa using this
  have := BElem.bil_ext_supported (R := ZMod 2)
    (f := (callCV 2 r d c).compr₂ cubicalD)
    (g := (callCV 2 r (d - 1) c).comp ((pr surjection.drops).comp (sbd cv)) + (callCV 2 r d c).compl₂ cubicalD)
    (S := OntoS r) (T := {m : CKey | c < m.length ∧ ∀ a ∈ m, IsCube N a})
    (fun k hk m hm => by
      have hkn : k ≠ [] := by
        rintro rfl
        exact absurd ((hk 1).2 ⟨le_rfl, hr⟩) (by simp)
      simp only [LinearMap.compr₂_apply, LinearMap.add_apply, LinearMap.comp_apply, LinearMap.compl₂_apply]
      rw [callCV_two _ hkn hm.1, cubicalD_atK hk hkn cv c hm.2,
        hleft m hm.1 _ (sbd_supp (Finsupp.single_mem_supported _ _ hk))]
      congr 1
      have h2 := BElem.lin_ext_supported (R := ZMod 2) (S := {m : CKey | c < m.length ∧ ∀ a ∈ m, IsCube N a})
        (f := atL (cact r k) c) (g := callCV 2 r d c (bv _ k)) (fun l hl => by
          rw [callCV_two _ hkn hl.1, atL_single, one_smul]) (hDsup m hm)
      exact h2) hu hv
  simpa using this

theorem cboundary_keys {b : CElem} (hb : y.boundary = .ok b) (hyd : y.degree = some e) (hya : y.arity = some a) :
    ∀ p ∈ b.data, CElem.keyDegree p.1 = e - 1 ∧ p.1.length = a := by
  intro p hp
  have hne := List.ne_nil_of_mem hp
  exact chomogeneous_keys ((C28_boundary_degree hb e hyd).resolve_left hne).2
    ((C28_boundary_arity hb a hya).resolve_left hne) p hp

theorem cboundary_cubes {b : CElem} (hb : y.boundary = .ok b) (hN : ∀ p ∈ y.data, ∀ c ∈ p.1, IsCube N c) :
    ∀ p ∈ b.data, ∀ c ∈ p.1, IsCube N c := by
  intro p hp
  have tb : b.torsion = y.torsion := torsion_congr (cboundary_attrs hb)
  have hsup := (nf_cboundary hb).mem_keys_iff.1 (List.mem_map_of_mem (f := Prod.fst) hp)
  rw [tb, den_cboundary hb rfl] at hsup
  have : cubicalD (den (ZMod y.torsion) y.data) ∈ Finsupp.supported (ZMod y.torsion) (ZMod y.torsion)
      {m : CKey | ∀ c ∈ m, IsCube N c} := by
    refine lin_supported (S := {m : CKey | ∀ c ∈ m, IsCube N c}) _ (fun m hm => ?_) (den_supported hN)
    exact Finsupp.supported_mono (fun l hl => hl.2) (tensK_supported_all (S := {x | IsCube N x}) cubeD cdim
      (fun a ha => cubeD_supported a ha) m hm)
  exact (Finsupp.mem_supported _ _).1 this (Finsupp.mem_support_iff.2 hsup)

/-- `∂(x(c)) = (∂x)(c) + x(∂c)` modulo 2 (where signs are immaterial), for `x` homogeneous in either
convention acting on any factor of a homogeneous tensor of faces of one cube; nothing raises. -/
theorem C54_chain_map_mod_two (hx : InSurj r x) (hd : x.degree = some d)
    (hyd : y.degree = some e) (hya : y.arity = some a)
    (hN : ∀ p ∈ y.data, ∀ c ∈ p.1, c.length = N ∧ ∀ v ∈ c, v ≤ 2)
    (hx2 : x.torsion = 2) (hy2 : y.torsion = 2) (h1 : 1 ≤ coord) (h2 : coord ≤ a) :
    ∃ z yb zb zx zy w : CElem, ∃ xb : SurjElem, callCubical x y coord = .ok z ∧ z.boundary = .ok zb ∧
      xb = x.boundary ∧ y.boundary = .ok yb ∧ callCubical xb y coord = .ok zx ∧
      callCubical x yb coord = .ok zy ∧ add cubical zx zy = .ok w ∧ pyEq zb w = true := by
  have hk := chomogeneous_keys hyd hya
  have hNl : ∀ p ∈ y.data, ∀ c ∈ p.1, c.length = N := fun p hp c hc => (hN p hp c hc).1
  obtain ⟨yb, hyb⟩ := C28_boundary_ok y
  have hkb := cboundary_keys hyb hyd hya
  have hNb := cboundary_cubes hyb hN
  have hs : ∀ p ∈ x.data, ((sdeg p.1 : Nat) : Int) = d := fun p hp => sdeg_of_degree hx hd hp
  have tb : x.boundary.torsion = 2 := by rw [torsion_congr (SurjElem.boundary_attrs x), hx2]
  have tyb : yb.torsion = 2 := by rw [torsion_congr (cboundary_attrs hyb), hy2]
  obtain ⟨z, ez, nz, az, dz⟩ := callCubical_ok hx hs hk hNl hx2 hy2 h1 h2
  obtain ⟨zx, ezx, nzx, azx, dzx⟩ := callCubical_ok (inSurj_boundary hx) (sdeg_boundary hx hd) hk hNl tb hy2 h1 h2
  obtain ⟨zy, ezy, nzy, azy, dzy⟩ := callCubical_ok hx hs hkb (fun p hp c hc => (hNb p hp c hc).1) hx2 tyb h1 h2
  have tz : z.torsion = 2 := by rw [torsion_congr az, hy2]
  have tzx : zx.torsion = 2 := by rw [torsion_congr azx, hy2]
  have tzy : zy.torsion = 2 := by rw [torsion_congr azy, tyb]
  obtain ⟨zb, hzb⟩ := C28_boundary_ok z
  have tzb : zb.torsion = 2 := by rw [torsion_congr (cboundary_attrs hzb), tz]
  obtain ⟨w, ew⟩ := add_ok (C := cubical) (x := zx) (y := zy) (by rw [tzx, tzy])
  refine ⟨z, yb, zb, zx, zy, w, _, ez, hzb, rfl, hyb, ezx, ezy, ew, pyEq_of_den (n := 2) (nf_cboundary hzb) (nf_add ew nzx) tzb
    (by rw [torsion_congr (attrs_add ew), tzx]) ?_⟩
  have hxne : x.data ≠ [] := by
    rw [SurjElem.degree, uniqueValue_eq_some] at hd
    simpa using hd.1
  obtain ⟨p, hp⟩ := List.exists_mem_of_ne_nil _ hxne
  have hr : 1 ≤ r := one_le_of_mem hx hp
  have h0 : ((2 : Nat) : ZMod 2) = 0 := by decide
  rw [den_cboundary hzb tz, den_add (R := ZMod 2) ew nzx nzy (by simp [cubical]) (by rw [tzx]; exact h0), dz, dzx, dzy,
    SurjElem.den_boundary hx.nf hx2, den_cboundary hyb hy2]
  refine cubicalD_callCV_two d _ (N := N) hr (den_supp_onto hx) (den_supported fun p hp => ?_)
  exact ⟨by rw [(hk p hp).2]; omega, hN p hp⟩

theorem csign_unit (n a : Nat) (d : Int) (c : Nat) (k : Surj) (key : CKey) :
    csign n a d c k key = 1 ∨ csign n a d c k key = -1 := by
  unfold csign
  split
  · exact Or.inl rfl
  · have h1 : ∀ w, computeSign k w = 1 ∨ computeSign k w = -1 := fun w => by
      unfold computeSign; exact pySign_eq_one_or _
    simp only
    rcases h1 (((key.drop c).take k.length).map fun c => ((Cube.dimension c : Nat) : Int) % 2) with h1 | h1 <;>
    rcases pySign_eq_one_or (cubicalSignExp a (((key.drop c).take k.length).map fun c => ((Cube.dimension c : Nat) : Int) % 2)
        ((pyRange 1 (pyMax k + 1)).map fun i => ((enumerate k).filter fun p => p.2 == i).map Prod.fst)) with h2 | h2 <;>
    rcases pySign_eq_one_or (((CElem.keyDegree (key.take c) : Nat) : Int) % 2 * d) with h3 | h3 <;>
    rw [h1, h2, h3] <;> simp

theorem ac_supported {R : Type} [CommRing R] {k : Surj} (hk : ∀ v, v ∈ k ↔ 1 ≤ v ∧ v ≤ r) {L : CKey}
    (hl : L.length = k.length) (hL : ∀ c ∈ L, IsCube N c) :
    ac (R := R) r k L ∈ Finsupp.supported R R {m : CKey | m.length = r ∧ (∀ c ∈ m, IsCube N c) ∧
      totDeg cdim m = totDeg cdim L + k.length - r} := by
  have hne : ∀ g ∈ gam r (k.zip L), g ≠ [] ∧ ∀ c ∈ g, IsCube N c := by
    intro g hg
    constructor
    · obtain ⟨i, hi, rfl⟩ := List.mem_map.1 hg
      rw [List.mem_range'_1] at hi
      intro h0
      have hik : i ∈ k := (hk i).2 ⟨by omega, by omega⟩
      obtain ⟨j, hj, rfl⟩ := List.getElem_of_mem hik
      rw [List.map_eq_nil_iff, List.filter_eq_nil_iff] at h0
      have hz : j < (k.zip L).length := by rw [List.length_zip, hl]; omega
      have := h0 _ (List.getElem_mem hz)
      simp at this
    · intro c hc
      obtain ⟨p, hp, rfl⟩ := gam_sub hg hc
      exact hL _ (List.of_mem_zip hp).2
  have := tmK_jn_supported (R := R) _ hne fun g hg =>
    jn_supported g (hne g hg).2 rfl (List.length_pos_iff.2 (hne g hg).1) rfl
  rw [ac]
  refine Finsupp.supported_mono ?_ this
  rintro m ⟨h1, h2, h3⟩
  refine ⟨by rw [h1, length_gam], h2, ?_⟩
  rw [h3, length_gam, sum_gam (fun a => cdim a + 1) (fun g => totDeg cdim g + g.length)
    (fun a g => by simp only [totDeg, List.length_cons]; push_cast; ring) (by simp [totDeg]) _
    (fun p hp => (hk _).1 (List.of_mem_zip hp).1)]
  congr 1
  clear hne this h1 h2 h3 hk hL
  induction k generalizing L with
  | nil =>
    obtain rfl := List.length_eq_zero_iff.1 (by simpa using hl)
    simp [totDeg]
  | cons x k ih =>
    cases L with
    | nil => simp at hl
    | cons a L =>
      rw [List.zip_cons_cons, List.map_cons, List.sum_cons, ih (by simpa using hl), totDeg, List.length_cons]
      push_cast
      ring

theorem callCV_supported {n : Nat} {k : Surj} (hk : ∀ v, v ∈ k ↔ 1 ≤ v ∧ v ≤ r)
    (hd : ((sdeg k : Nat) : Int) = d) (hkn : k ≠ []) {c : Nat} {m : CKey} (hc : c < m.length) (hm : ∀ x ∈ m, IsCube N x) :
    callCV n r d c (bv _ k) (bv _ m) ∈ Finsupp.supported (ZMod n) (ZMod n)
      {w : CKey | w.length + 1 = m.length + r ∧ (∀ x ∈ w, IsCube N x) ∧ totDeg cdim w = totDeg cdim m + d} := by
  have hg : m[c]? = some m[c] := List.getElem?_eq_getElem hc
  have hkl := List.length_pos_iff.2 hkn
  have hlen := length_of_onto hk
  rw [callCV, bil_bv, lin_single, one_smul, atK_eq _ _ _ _ hg, cat_bv_cat']
  have h4 := serre_isCube (R := ZMod n) (k.length - 1) m[c] (hm _ (List.getElem_mem hc))
  have h5 := serre_supported (R := ZMod n) (k.length - 1) m[c]
  have h6 : serre (R := ZMod n) (k.length - 1) m[c] ∈ Finsupp.supported (ZMod n) (ZMod n)
      ({L : CKey | ∀ c ∈ L, IsCube N c} ∩ ND (k.length - 1 + 1) (cdim m[c])) := by
    rw [Finsupp.mem_supported] at h4 h5 ⊢
    exact Set.subset_inter h4 h5
  have e : totDeg cdim m = totDeg cdim (m.take c) + (cdim m[c] + totDeg cdim (m.drop (c + 1))) := by
    conv_lhs => rw [← List.take_append_drop c m, ← List.getElem_cons_drop hc]
    rw [totDeg_append, totDeg]
  have h7 := mapK_supported (R := ZMod n) (T := {q : CKey | ∃ L : CKey, q = m.take c ++ (L ++ m.drop (c + 1)) ∧
    L.length = k.length ∧ (∀ x ∈ L, IsCube N x) ∧ totDeg cdim L = cdim m[c]})
    (fun L => m.take c ++ (L ++ m.drop (c + 1))) (fun L hL => ⟨L, rfl, by have := hL.2.1; omega, hL.1, hL.2.2⟩) h6
  refine lin_supported _ (fun q hq => ?_) h7
  obtain ⟨L, rfl, hL1, hL2, hL3⟩ := hq
  have hcl : (m.take c).length = c := by rw [List.length_take]; omega
  rw [csummandV]
  refine Submodule.smul_mem _ _ ?_
  have e1 : (m.take c ++ (L ++ m.drop (c + 1))).take c = m.take c := by
    rw [List.take_append_of_le_length (by omega), List.take_take, min_self]
  have e2 : (m.take c ++ (L ++ m.drop (c + 1))).drop c = L ++ m.drop (c + 1) := by
    rw [List.drop_append_of_le_length (by omega), List.drop_eq_nil_of_le (by omega), List.nil_append]
  rw [e1, e2, ← hL1, List.take_left, ← List.drop_drop, e2, List.drop_left, cat_bv_cat']
  refine mapK_supported (T := {w : CKey | w.length + 1 = m.length + r ∧ (∀ x ∈ w, IsCube N x) ∧ totDeg cdim w = totDeg cdim m + d})
    _ (fun w hw => ?_) (ac_supported (R := ZMod n) hk hL1 hL2)
  refine ⟨?_, ?_, ?_⟩
  · simp only [List.length_append, hcl, hw.1, List.length_drop]
    omega
  · intro x hx
    rcases List.mem_append.1 hx with h | h
    · exact hm x (List.mem_of_mem_take h)
    · rcases List.mem_append.1 h with h | h
      · exact hw.2.1 x h
      · exact hm x (List.mem_of_mem_drop h)
  · rw [totDeg_append, totDeg_append, hw.2.2, e, hL3]
    omega

/-- For every torsion and both conventions: acting with an element of arity `r` and degree `d` on a factor
of a tensor of arity `a` and degree `e` raises nothing and gives a tensor of faces of the same cube of arity
`a + r - 1` and degree `e + d`, with the attributes of the tensor. -/
theorem C54_arity_degree (hx : InSurj r x) (hd : x.degree = some d)
    (hyd : y.degree = some e) (hya : y.arity = some a)
    (hN : ∀ p ∈ y.data, ∀ c ∈ p.1, c.length = N ∧ ∀ v ∈ c, v ≤ 2)
    (ht : y.torsion = x.torsion) (h1 : 1 ≤ coord) (h2 : coord ≤ a) :
    ∃ z : CElem, callCubical x y coord = .ok z ∧ z.NF cubical ∧ z.attrs = y.attrs ∧
      ∀ p ∈ z.data, p.1.length + 1 = a + r ∧ (CElem.keyDegree p.1 : Int) = e + d ∧
        ∀ c ∈ p.1, c.length = N ∧ ∀ v ∈ c, v ≤ 2 := by
  have hk := chomogeneous_keys hyd hya
  have hs : ∀ p ∈ x.data, ((sdeg p.1 : Nat) : Int) = d := fun p hp => sdeg_of_degree hx hd hp
  obtain ⟨z, ez, nz, az, dz⟩ := callCubical_ok hx hs hk (fun p hp c hc => (hN p hp c hc).1) rfl ht h1 h2
  refine ⟨z, ez, nz, az, fun p hp => ?_⟩
  have tz : z.torsion = x.torsion := by rw [torsion_congr az, ht]
  have hsup : den (ZMod x.torsion) z.data ∈ Finsupp.supported (ZMod x.torsion) (ZMod x.torsion)
      {w : CKey | w.length + 1 = a + r ∧ (∀ x ∈ w, IsCube N x) ∧ totDeg cdim w = e + d} := by
    rw [dz]
    refine BElem.bil_supported _ (S := {k : Surj | OntoS r k ∧ ((sdeg k : Nat) : Int) = d ∧ k ≠ []})
      (T := {m : CKey | m.length = a ∧ (∀ x ∈ m, IsCube N x) ∧ totDeg cdim m = e}) (fun k hk m hm => ?_)
      (den_supported fun p hp => ⟨hx.onto p hp, hs p hp, onto_ne_nil hx.nf hp⟩)
      (den_supported fun p hp => ⟨(hk p hp).2, hN p hp, by rw [totDeg_cdim, (hk p hp).1]⟩)
    have := callCV_supported (n := x.torsion) hk.1 hk.2.1 hk.2.2 (c := coord - 1) (by rw [hm.1]; omega) hm.2.1
    rw [callCV, bil_bv, lin_single, one_smul, hm.1, hm.2.2] at this
    exact this
  have := nz.mem_keys_iff.1 (List.mem_map_of_mem (f := Prod.fst) hp)
  rw [tz] at this
  have := (Finsupp.mem_supported _ _).1 hsup (Finsupp.mem_support_iff.2 this)
  exact ⟨this.1, by rw [← totDeg_cdim]; exact this.2.2, this.2.1⟩

theorem callCubical_bilSpec (r a coord e N : Nat) (d : Int) (h1 : 1 ≤ coord) (h2 : coord ≤ a) :
    BilSpec cubical (fun x : SurjElem => InSurj r x ∧ (∀ p ∈ x.data, ((sdeg p.1 : Nat) : Int) = d))
      (fun y : CElem => (∀ p ∈ y.data, CElem.keyDegree p.1 = e ∧ p.1.length = a) ∧
        ∀ p ∈ y.data, ∀ c ∈ p.1, c.length = N)
      (fun x y => callCubical x y coord) fun n => callCV n r d (coord - 1) := by
  rintro x y n ⟨hx, hd⟩ ⟨hk, hN⟩ hn hyn
  obtain ⟨z, ez, nz, az, dz⟩ := callCubical_ok hx hd hk hN hn hyn h1 h2
  exact ⟨z, ez, nz, (torsion_congr az).trans hyn, dz⟩

/-- `(x + x')(c) = x(c) + x'(c)` for elements of the same arity and degree. -/
theorem C54_add_left {x x' t : SurjElem} (hx : InSurj r x) (hx' : InSurj r x') (hd : x.degree = some d)
    (hd' : x'.degree = some d) (ha : add surjection x x' = .ok t)
    (hyd : y.degree = some e) (hya : y.arity = some a) (hN : ∀ p ∈ y.data, ∀ c ∈ p.1, c.length = N)
    (ht : x.torsion = y.torsion) (h1 : 1 ≤ coord) (h2 : coord ≤ a) :
    ∃ u v z w, callCubical x y coord = .ok u ∧ callCubical x' y coord = .ok v ∧
      callCubical t y coord = .ok z ∧ add cubical u v = .ok w ∧ pyEq z w = true :=
  (callCubical_bilSpec r a coord e N d h1 h2).add_left rfl rfl hx.nf hx'.nf
    ⟨hx, fun p hp => sdeg_of_degree hx hd hp⟩ ⟨hx', fun p hp => sdeg_of_degree hx' hd' hp⟩
    ⟨chomogeneous_keys hyd hya, hN⟩ ht ha
    ⟨inSurj_add hx hx' ha, degree_add (fun p hp => sdeg_of_degree hx hd hp)
      (fun p hp => sdeg_of_degree hx' hd' hp) ha⟩

/-- `x(c + c') = x(c) + x(c')` for tensors of the same arity and degree. -/
theorem C54_add_right {y y' t : CElem} (hx : InSurj r x) (hd : x.degree = some d) (hy : y.NF cubical)
    (hy' : y'.NF cubical) (hyd : y.degree = some e) (hya : y.arity = some a) (hyd' : y'.degree = some e)
    (hya' : y'.arity = some a) (hN : ∀ p ∈ y.data, ∀ c ∈ p.1, c.length = N)
    (hN' : ∀ p ∈ y'.data, ∀ c ∈ p.1, c.length = N)
    (ha : add cubical y y' = .ok t) (ht : x.torsion = y.torsion) (h1 : 1 ≤ coord) (h2 : coord ≤ a) :
    ∃ u v z w, callCubical x y coord = .ok u ∧ callCubical x y' coord = .ok v ∧
      callCubical x t coord = .ok z ∧ add cubical u v = .ok w ∧ pyEq z w = true := by
  have hkeys : ∀ p ∈ t.data, p.1 ∈ y.data.map Prod.fst ∨ p.1 ∈ y'.data.map Prod.fst := by
    intro p hp
    have ha' := ha
    rw [add_eq (torsion_eq_of_add ha)] at ha'
    cases ha'
    rcases mem_keys_iaddCore (List.mem_map_of_mem (f := Prod.fst) hp) with h | h
    · exact Or.inl (mem_keys_create h)
    · exact Or.inr h
  refine (callCubical_bilSpec r a coord e N d h1 h2).add_right rfl rfl hy hy'
    ⟨hx, fun p hp => sdeg_of_degree hx hd hp⟩ ⟨chomogeneous_keys hyd hya, hN⟩
    ⟨chomogeneous_keys hyd' hya', hN'⟩ ht ha ⟨fun p hp => ?_, fun p hp => ?_⟩
  · rcases hkeys p hp with h | h <;> obtain ⟨q, hq, e⟩ := List.mem_map.1 h <;> rw [← e]
    · exact chomogeneous_keys hyd hya q hq
    · exact chomogeneous_keys hyd' hya' q hq
  · rcases hkeys p hp with h | h <;> obtain ⟨q, hq, e⟩ := List.mem_map.1 h <;> rw [← e]
    · exact hN q hq
    · exact hN' q hq

/-- A factor that does not exist, different torsions and inhomogeneous surjections raise; zero acts as zero. -/
theorem C54_errors_zero :
    (x.data = [] ∨ y.data = [] → ∃ z, callCubical x y coord = .ok z ∧ z.data = [] ∧ z.attrs = y.attrs) ∧
    (x.data ≠ [] → y.data ≠ [] →
      (x.degree = none ∨ x.arity = none ∨ y.arity = none → callCubical x y coord = .error .typeError) ∧
      (y.arity = some a → a < coord → callCubical x y coord = .error .typeError) ∧
      (x.torsion ≠ y.torsion → callCubical x y coord = .error .typeError)) := by
  unfold callCubical
  constructor
  · intro h
    rw [if_pos (by simpa [truthy] using h)]
    exact ⟨_, rfl, by simp, by simp⟩
  · intro hx hy
    rw [if_neg (by simpa [truthy] using ⟨hx, hy⟩)]
    refine ⟨?_, ?_, ?_⟩
    · rintro (h | h | h)
      · rw [h]
      · rw [h]; cases x.degree <;> rfl
      · rw [h]
        rcases x.degree with _ | d <;> rcases x.arity with _ | r <;> rfl
    · intro h1 h2
      rw [h1]
      rcases x.degree with _ | d <;> rcases x.arity with _ | r <;> simp [h2]
    · intro h
      rcases x.degree with _ | d <;> rcases x.arity with _ | r <;> rcases y.arity with _ | b <;> simp [h]

/-! ### permutations, modulo 2 -/

section Perm
open IsPerm

theorem sg_of_two {n : Nat} (hn : n = 2) (b : Int) : sg (ZMod n) b = 1 := by subst hn; exact sg_two b

theorem callCV_of_two {n : Nat} (hn : n = 2) (d : Int) {k : Surj} (hk : k ≠ []) {m : CKey} (hm : m.length = 1) :
    callCV n r d 0 (bv _ k) (bv _ m) = cact r k m.head! := by
  subst hn
  obtain ⟨V, rfl⟩ := List.length_eq_one_iff.1 hm
  rw [callCV_two d hk (by simp)]
  simp [atK]

/-- `(s * x)(c) == s * (x(c))` modulo 2 for `s` in the group ring, `x` homogeneous of arity `r` in either
convention and `c` a homogeneous chain of faces of one cube.  (The package cannot multiply a zero tensor
by a ring element, so the case `x(c) = 0` is stated separately.) -/
theorem C54_equivariant_mod_two {s : RingElem} (hs : InRing r s) (hsn : s.data ≠ []) (hx : InSurj r x)
    (hd : x.degree = some d) (hyd : y.degree = some e) (hya : y.arity = some 1)
    (hN : ∀ p ∈ y.data, ∀ c ∈ p.1, c.length = N ∧ ∀ v ∈ c, v ≤ 2) (hx2 : x.torsion = 2)
    (hs2 : s.torsion = 2) (hy2 : y.torsion = 2) :
    ∃ sx xc z, SurjElem.rmul s x = .ok sx ∧ callCubical x y 1 = .ok xc ∧
      callCubical sx y 1 = .ok z ∧ (xc.data = [] → z.data = []) ∧
      (xc.data ≠ [] → ∃ w, CElem.rmul s xc = .ok w ∧ pyEq z w = true) := by
  have ts : s.torsion = x.torsion := by rw [hs2, hx2]
  have ht : y.torsion = x.torsion := by rw [hy2, hx2]
  have hk := chomogeneous_keys hyd hya
  have hNl : ∀ p ∈ y.data, ∀ c ∈ p.1, c.length = N := fun p hp c hc => (hN p hp c hc).1
  have hsd : ∀ p ∈ x.data, ((sdeg p.1 : Nat) : Int) = d := fun p hp => sdeg_of_degree hx hd hp
  have hxn : x.data ≠ [] := by
    rw [SurjElem.degree, uniqueValue_eq_some] at hd
    simpa using hd.1
  obtain ⟨p0, hp0⟩ := List.exists_mem_of_ne_nil _ hxn
  have hr : 1 ≤ r := one_le_of_mem hx hp0
  obtain ⟨sx, esx, nsx, asx, osx, dsx⟩ := (SurjElem.actSpec hr).ok s x hs hsn hx.nf hxn hx.onto ts
  have tsx : sx.torsion = x.torsion := torsion_congr asx
  have isx : InSurj r sx := ⟨nsx, osx⟩
  have hsx : ∀ p ∈ sx.data, ((sdeg p.1 : Nat) : Int) = d := by
    intro p hp
    obtain ⟨z, ez, -, -, hdeg, -⟩ := C48_act_coeff hr hs hsn hx hxn ts
    cases esx.symm.trans ez
    exact sdeg_of_degree isx ((hdeg d hd).resolve_left (List.ne_nil_of_mem hp)) hp
  obtain ⟨xc, exc, nxc, axc, dxc⟩ := callCubical_ok hx hsd hk hNl rfl ht le_rfl le_rfl
  obtain ⟨z, ez, nz, az, dz⟩ := callCubical_ok isx hsx hk hNl tsx ht le_rfl le_rfl
  have txc : xc.torsion = x.torsion := by rw [torsion_congr axc, ht]
  have tz : z.torsion = x.torsion := by rw [torsion_congr az, ht]
  obtain ⟨xc', exc', -, -, lxc⟩ := C54_arity_degree hx hd hyd hya hN ht le_rfl le_rfl
  cases exc.symm.trans exc'
  have key : den (ZMod x.torsion) z.data = actV cdim (den _ s.data) (den _ xc.data) := by
    rw [dz, dxc, dsx]
    simp only [Nat.sub_self]
    refine den_induction (P := fun u => callCV x.torsion r d 0
        (bil (actS x.attrs) u (den _ x.data)) (den _ y.data) =
        actV cdim u (callCV _ r d 0 (den _ x.data) (den _ y.data))) s.data (by simp)
      (fun u v hu hv => by simp only [map_add, LinearMap.add_apply, hu, hv]) ?_
    intro q hq
    have hσ := hs.perm q hq
    have h1 : ∀ u : Surj →₀ ZMod x.torsion, bil (actS x.attrs) (single q.1 ((q.2 : Int) : ZMod x.torsion)) u =
        ((q.2 : Int) : ZMod x.torsion) • lin (actS x.attrs q.1) u := fun u => bil_single_left _ _ _ _
    have h2 : ∀ u : CKey →₀ ZMod x.torsion, actV cdim (single q.1 ((q.2 : Int) : ZMod x.torsion)) u =
        ((q.2 : Int) : ZMod x.torsion) • lin (actK cdim q.1) u := fun u => bil_single_left _ _ _ _
    rw [h1, h2, map_smul, LinearMap.smul_apply]
    congr 1
    have hb := BElem.bil_ext_supported (R := ZMod x.torsion)
      (f := ((callCV x.torsion r d 0).comp (lin (actS x.attrs q.1))))
      (g := (callCV x.torsion r d 0).compr₂ (lin (actK cdim q.1)))
      (S := {k : Surj | Onto r k ∧ k ≠ []}) (T := {m : CKey | m.length = 1}) (fun k hk m hm => by
        have hkn : mulL q.1 k ≠ [] := by
          rw [mulL, ne_eq, List.map_eq_nil_iff]
          exact hk.2
        simp only [LinearMap.comp_apply, LinearMap.compr₂_apply, lin_single, one_smul]
        have h3 : actS x.attrs q.1 k = bv (ZMod x.torsion) (mulL q.1 k) := by
          rw [actS]
          exact (congrArg (· • bv (ZMod x.torsion) (mulL q.1 k)) (sg_of_two hx2 _)).trans (one_smul _ _)
        rw [h3, callCV_of_two hx2 d hkn hm, callCV_of_two hx2 d hk.2 hm, cact_mulL hσ (fun v hv => (hk.1 v).1 hv)]
        generalize cact (R := ZMod x.torsion) r k m.head! = v
        induction v using Finsupp.induction_linear with
        | zero => simp
        | add f g hf hg => simp only [map_add, hf, hg]
        | single l c =>
          rw [mapK_single, lin_single, actK]
          have h4 : sg (ZMod x.torsion) (kos cdim (q.1.zip l)) = 1 := sg_of_two hx2 _
          rw [h4, one_smul]
          simp)
      (den_supported (R := ZMod x.torsion) fun p hp => ⟨hx.onto p hp, onto_ne_nil hx.nf hp⟩)
      (den_supported (R := ZMod x.torsion) (S := {m : CKey | m.length = 1}) fun p hp => (hk p hp).2)
    simpa using hb
  refine ⟨sx, xc, z, esx, exc, ez, ?_, ?_⟩
  · intro h0
    rw [nz.data_eq_nil_iff, tz, key, h0]
    simp
  · intro hne
    have hxc : HasArity cubical r xc := ⟨nxc, hne, fun p hp => by have := (lxc p hp).1; omega⟩
    obtain ⟨w, ew, nw, aw, lw, dw⟩ := rmulG_ok (w := cdim) rfl cubical_any hs hsn hxc
      (n := x.torsion) ts txc
    refine ⟨w, ?_, pyEq_of_den nz nw tz ((torsion_congr aw).trans txc) ?_⟩
    · rw [cubical_rmul_eq, ew]
    · rw [key, dw]

end Perm

/-! ### the surjections `(1, …, r)` -/

theorem lowSum_sorted {x : Nat} {k : List Nat} (h : ∀ y ∈ k, x < y) (w : List Int) : lowSum x (k.zip w) = 0 := by
  unfold lowSum
  have : (k.zip w).filter (fun y => y.1 < x) = [] := by
    rw [List.filter_eq_nil_iff]
    intro p hp
    have := h _ (List.of_mem_zip hp).1
    simp
    omega
  rw [this]
  rfl

theorem cexp_sorted {k : List Nat} (h : k.Pairwise (· < ·)) (w : List Int) : cexp (k.zip w) = 0 := by
  induction k generalizing w with
  | nil => simp [cexp]
  | cons x k ih =>
    cases w with
    | nil => simp [cexp]
    | cons u w =>
      rw [List.pairwise_cons] at h
      rw [List.zip_cons_cons, cexp, ih h.2, lowSum_sorted h.1]
      have h1 : x ∉ (k.zip w).map Prod.fst := by
        intro hm
        obtain ⟨p, hp, e⟩ := List.mem_map.1 hm
        have := h.1 _ (List.of_mem_zip hp).1
        omega
      have h2 : (((k.zip w).map Prod.fst).filter (x ≤ ·)).Nodup := by
        refine List.Nodup.filter _ ?_
        have : ((k.zip w).map Prod.fst).Sublist k := by
          clear h1 ih h
          induction k generalizing w with
          | nil => simp
          | cons y k ihk =>
            cases w with
            | nil => simp
            | cons v w => exact (ihk w).cons_cons y
        exact (h.2.imp (fun h => Nat.ne_of_lt h)).sublist this
      rw [if_neg h1, sdeg_nodup h2]
      simp

theorem csign_identity {n : Nat} {c : Nat} {key : CKey} (hr : 1 ≤ r)
    (hl : ((key.drop c).take r).length = r) : csign n r 0 c (List.range' 1 r) key = 1 := by
  unfold csign
  split
  · rfl
  have hk : ∀ v, v ∈ List.range' 1 r ↔ 1 ≤ v ∧ v ≤ r := fun v => by rw [List.mem_range'_1]; omega
  have hg : ∀ g ∈ (pyRange 1 (pyMax (List.range' 1 r) + 1)).map (fun i =>
      ((enumerate (List.range' 1 r)).filter fun p => p.2 == i).map Prod.fst), g.length = 1 := by
    intro g hg
    obtain ⟨i, hi, rfl⟩ := List.mem_map.1 hg
    rw [pyMax_of_onto hk, pyRange, Nat.add_sub_cancel] at hi
    have hc : ((enumerate (List.range' 1 r)).map Prod.snd).count i = 1 := by
      have : (enumerate (List.range' 1 r)).map Prod.snd = List.range' 1 r := by
        rw [enumerate]
        exact List.map_snd_zip (by simp)
      rw [this]
      exact List.count_eq_one_of_mem (List.nodup_range' (step := 1)) hi
    rw [List.length_map, ← List.countP_eq_length_filter]
    rw [List.count, List.countP_map] at hc
    exact hc
  simp only [List.length_range']
  rw [computeSign_eq (by simpa using hl), cexp_sorted (List.pairwise_lt_range' (s := 1) (n := r) 1)]
  generalize (pyRange 1 (pyMax (List.range' 1 r) + 1)).map (fun i =>
      ((enumerate (List.range' 1 r)).filter fun p => p.2 == i).map Prod.fst) = groups at hg
  have hz : ∀ w, cubicalSignExp r w groups = 0 := by
    intro w
    unfold cubicalSignExp
    simp only
    split
    · have h1 : (groups.map fun g => ((g.length : Int) - 1) * (w[g.headD 0]?).getD 0).sum = 0 := by
        apply List.sum_eq_zero
        intro v hv
        obtain ⟨g, hg', rfl⟩ := List.mem_map.1 hv
        simp [hg g hg']
      have h2 : ((enumerate groups).map fun p : Nat × List Nat =>
          ((groups.drop (p.1 + 1)).map fun right => if p.2.headD 0 > right.headD 0 then
            ((p.2.length : Int) - 1) * ((right.length : Int) - 1) else 0).sum).sum = 0 := by
        apply List.sum_eq_zero
        intro v hv
        obtain ⟨p, hp, rfl⟩ := List.mem_map.1 hv
        apply List.sum_eq_zero
        intro u hu
        obtain ⟨q, hq, rfl⟩ := List.mem_map.1 hu
        simp [hg q (List.mem_of_mem_drop hq)]
      rw [h1]
      exact (zero_add _).trans h2
    · have h1 : (groups.map fun g => ((enumerate g).map fun p : Nat × Nat =>
          ((g.length : Int) - 1 - p.1) * (w[p.2]?).getD 0).sum).sum = 0 := by
        apply List.sum_eq_zero
        intro v hv
        obtain ⟨g, hg', rfl⟩ := List.mem_map.1 hv
        obtain ⟨i, rfl⟩ := List.length_eq_one_iff.1 (hg g hg')
        simp [enumerate]
      have h2 : (groups.map fun g => (g.length : Int) - 1).sum = 0 := by
        apply List.sum_eq_zero
        intro v hv
        obtain ⟨g, hg', rfl⟩ := List.mem_map.1 hv
        simp [hg g hg']
      rw [h2, add_zero]
      exact h1
  rw [hz]
  simp [pySign]

theorem ac_identity {R : Type} [CommRing R] {L : CKey} (hl : L.length = r) :
    ac (R := R) r (List.range' 1 r) L = bv R L := by
  have h1 : ∀ (b r : Nat) (L : CKey), L.length = r → ((List.range' b r).map fun i =>
      (((List.range' b r).zip L).filter fun p => p.1 == i).map Prod.snd) = L.map fun a => [a] := by
    intro b r
    induction r generalizing b with
    | zero => intro L hl; obtain rfl := List.length_eq_zero_iff.1 hl; rfl
    | succ r ih =>
      intro L hl
      cases L with
      | nil => simp at hl
      | cons a L =>
        rw [List.range'_succ, List.map_cons, List.zip_cons_cons, List.map_cons, ← ih (b + 1) L (by simpa using hl)]
        congr 1
        · rw [List.filter_cons, if_pos (by simp), List.map_cons]
          have : ((List.range' (b + 1) r).zip L).filter (fun p => p.1 == b) = [] := by
            rw [List.filter_eq_nil_iff]
            intro p hp
            have := (List.of_mem_zip hp).1
            rw [List.mem_range'_1] at this
            simp
            omega
          rw [this]
          rfl
        · apply List.map_congr_left
          intro i hi
          rw [List.mem_range'_1] at hi
          rw [List.filter_cons, if_neg (by simp; omega)]
  rw [ac, gam, h1 1 r L hl]
  clear h1 hl
  induction L with
  | nil => rfl
  | cons a L ih =>
    rw [List.map_cons, tmK, ih, cat_one_bv]
    have : jn (R := R) [a] = bv R a := by simp [jn, Join.jnL]
    rw [this, mapK_single]

/-- The surjection `(1, …, r)` acts as the iterated diagonal, for every torsion. -/
theorem C54_identity_diagonal {u : SurjElem} (hu : u.NF surjection) (hr : 1 ≤ r)
    (hud : u.data = [(List.range' 1 r, 1)]) (hyd : y.degree = some e) (hya : y.arity = some a)
    (hN : ∀ p ∈ y.data, ∀ c ∈ p.1, c.length = N) (ht : y.torsion = u.torsion)
    (h1 : 1 ≤ coord) (h2 : coord ≤ a) :
    ∃ z w, callCubical u y coord = .ok z ∧ y.iteratedDiagonal (r - 1) coord = .ok w ∧ pyEq z w = true := by
  have hk := chomogeneous_keys hyd hya
  have hi : InSurj r u := ⟨hu, fun p hp v => by
    rw [hud] at hp; simp at hp; subst hp; rw [List.mem_range'_1]; omega⟩
  obtain ⟨z, ez, nz, az, dz⟩ := callCubical_ok (d := 0) hi (fun p hp => by
    rw [hud] at hp; simp at hp; subst hp
    rw [sdeg_nodup (List.nodup_range' (step := 1))]; rfl) hk hN rfl ht h1 h2
  obtain ⟨w, hw, hwnf, hwa, hwd⟩ := cIteratedDiagonal_ok hyd hya (r - 1) coord h1 h2
  rw [ht] at hwd
  refine ⟨z, w, ez, hw, pyEq_of_den (n := u.torsion) nz hwnf (by rw [torsion_congr az, ht])
    (by rw [torsion_congr hwa, ht]) ?_⟩
  rw [dz, hwd, hud]
  refine den_induction (P := fun v => callCV u.torsion r 0 (coord - 1)
      (den (ZMod u.torsion) [(List.range' 1 r, 1)]) v = atL (serre (r - 1)) (coord - 1) v) y.data (by simp)
    (fun u v hu hv => by rw [map_add, map_add, hu, hv]) ?_
  intro q hq
  have hcl : coord - 1 < q.1.length := by rw [(hk q hq).2]; omega
  rw [den_cons, den_nil, add_zero, callCV, bil_single, atL_single, Int.cast_one, one_mul, List.length_range']
  congr 1
  generalize coord - 1 = c at hcl
  have hsup := atK_serre_supported (R := ZMod u.torsion) (r - 1) c q.1 hcl
  have := BElem.lin_ext_supported (R := ZMod u.torsion) (f := lin (csummandV u.torsion r r 0 c (List.range' 1 r)))
    (g := LinearMap.id) (fun m hm => by
      have hm : m.length = q.1.length + (r - 1) := hm.1
      have hml : ((m.drop c).take r).length = r := by
        rw [List.length_take, List.length_drop, hm]; omega
      rw [lin_single, one_smul, csummandV, csign_identity hr hml, List.length_range', ac_identity hml, cat_bv_cat']
      simp only [Int.cast_one, one_smul, mapK_single, LinearMap.id_apply]
      rw [← List.drop_drop, List.take_append_drop, List.take_append_drop]) hsup
  simpa using this

/-! ### Examples and defects -/

/-- Two elements modulo 2. -/
abbrev exCC (cv : Convention) : SurjElem := Elem.new surjection [([1, 2, 1, 3], 1), ([2, 1, 3, 1], 1)] (some 2) cv
abbrev exCub2 : CElem := Elem.new cubical [([[2, 2], [0, 2]], 1), ([[2, 0], [2, 2]], 1)] (some 2)

theorem exCC_in (cv : Convention) : InSurj 3 (exCC cv) := by
  refine SurjElem.inSurj_of_arity (nf_new _ (by decide) _ _) ?_
  cases cv <;> decide

example (cv : Convention) : InSurj 3 (exCC cv) ∧ (exCC cv).degree = some 1 ∧ CElem.degree exCub2 = some 3 ∧
    CElem.arity exCub2 = some 2 ∧
    (∀ p ∈ exCub2.data, ∀ c ∈ p.1, c.length = 2 ∧ ∀ v ∈ c, v ≤ 2) ∧ (exCC cv).torsion = 2 ∧
    (((exCC cv).callCubical exCub2 1).toOption.map fun z => z.data.length) = some 14 := by
  refine ⟨exCC_in cv, ?_⟩
  cases cv <;> decide +kernel

/-- The interval. -/
abbrev exI : CElem := Elem.new cubical [([[2]], 1)] none

/-- (Defect.)  Over the integers the action on cubical chains does not commute with the boundary, in
either convention: it does not for `(1, 2, 1, 3)` and the interval. -/
theorem C54_chain_map_fails (cv : Convention) :
    ∃ (x : SurjElem) (y z zb yb zx zy w : CElem), InSurj 3 x ∧ x.attrs.convention = cv ∧ x.torsion = 0 ∧
      x.degree = some 1 ∧ y.NF cubical ∧ y.torsion = 0 ∧ y.data = [([[2]], 1)] ∧
      callCubical x y 1 = .ok z ∧ z.boundary = .ok zb ∧ y.boundary = .ok yb ∧
      callCubical x.boundary y 1 = .ok zx ∧ callCubical x yb 1 = .ok zy ∧
      add cubical zx (smul cubical (pySign 1) zy) = .ok w ∧ pyEq zb w = false := by
  refine ⟨Elem.new surjection [([1, 2, 1, 3], 1)] none cv, exI, ⟨[([[2], [2], [1]], -1)], exI.attrs⟩,
    ⟨[([[1], [2], [1]], -1), ([[0], [2], [1]], 1), ([[2], [1], [1]], 1), ([[2], [0], [1]], -1)], exI.attrs⟩,
    ⟨[([[1]], 1), ([[0]], -1)], exI.attrs⟩,
    ⟨[([[1], [2], [1]], 1), ([[2], [0], [1]], 1), ([[2], [1], [1]], -1), ([[0], [2], [1]], -1)], exI.attrs⟩,
    ⟨[], exI.attrs⟩,
    ⟨[([[1], [2], [1]], 1), ([[2], [0], [1]], 1), ([[2], [1], [1]], -1), ([[0], [2], [1]], -1)], exI.attrs⟩,
    SurjElem.inSurj_of_arity (nf_new _ (by decide) _ _) ?_, rfl, rfl, ?_, nf_new _ (by decide) _ _, rfl, rfl,
    ?_, rfl, rfl, ?_, ?_, rfl, by decide +kernel⟩
  all_goals cases cv
  all_goals first | rfl | decide +kernel

/-- (Defect.)  On cubical chains composites do not act as composites, not even modulo 2 and in neither convention (compare
C67): for `x = (1, 2, 1)`, `y = (1, 2)` and the square, `x.compose(y, 1)` acting on it is not `y` acting on the first
factor of the result of `x`. -/
theorem C54_operad_action_fails (cv : Convention) :
    ∃ (x y xy : SurjElem) (c xc u v : CElem), InSurj 2 x ∧ InSurj 2 y ∧ x.attrs.convention = cv ∧ y.attrs.convention = cv ∧
      x.torsion = 2 ∧ y.torsion = 2 ∧ x.degree = some 1 ∧ y.degree = some 0 ∧ c.NF cubical ∧ c.torsion = 2 ∧
      c.data = [([[2, 2]], 1)] ∧ compose x y 1 = .ok xy ∧ callCubical x c 1 = .ok xc ∧
      callCubical xy c 1 = .ok u ∧ callCubical y xc 1 = .ok v ∧ pyEq u v = false := by
  have key : ∀ cv, ∃ w, (do
      let xy ← compose (Elem.new surjection [([1, 2, 1], 1)] (some 2) cv) (Elem.new surjection [([1, 2], 1)] (some 2) cv) 1
      let xc ← callCubical (Elem.new surjection [([1, 2, 1], 1)] (some 2) cv) (Elem.new cubical [([[2, 2]], 1)] (some 2)) 1
      let u ← callCubical xy (Elem.new cubical [([[2, 2]], 1)] (some 2)) 1
      let v ← callCubical (Elem.new surjection [([1, 2], 1)] (some 2) cv) xc 1
      .ok (pyEq u v) : Py Bool) = .ok w ∧ w = false := fun cv => ⟨false, by cases cv <;> decide +kernel, rfl⟩
  have bind_ok : ∀ {A B : Type} {e : Py A} {f : A → Py B} {z : B}, (e >>= f) = .ok z → ∃ a, e = .ok a ∧ f a = .ok z := by
    intro A B e f z h
    cases e with
    | error t => cases h
    | ok a => exact ⟨a, rfl, h⟩
  obtain ⟨w, h, hw⟩ := key cv
  obtain ⟨xy, exy, h⟩ := bind_ok h
  obtain ⟨xc, exc, h⟩ := bind_ok h
  obtain ⟨u, eu, h⟩ := bind_ok h
  obtain ⟨v, ev, h9⟩ := bind_ok h
  have hw9 : pyEq u v = false := by
    cases h9
    exact hw
  clear h h9
  refine ⟨_, _, xy, _, xc, u, v, SurjElem.inSurj_of_arity (nf_new _ (by decide) _ _) ?_,
    SurjElem.inSurj_of_arity (nf_new _ (by decide) _ _) ?_, rfl, rfl, rfl, rfl, ?_, ?_, nf_new _ (by decide) _ _, rfl, rfl,
    exy, exc, eu, ev, ?_⟩
  any_goals cases cv
  any_goals decide +kernel
  all_goals exact hw9

end Comch.Props
