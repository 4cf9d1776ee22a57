import Verif.Lib.JoinCode
import Verif.Props.CartanSerre

/-! # The join of cubes: C32 -/

set_option linter.unusedSectionVars false

namespace Comch.Props
open Elem CElem
open Finsupp (single)
open Comch.Join (jn jnL j2 j2_sum IsCube okAt glue jc cj JN omK om TJ)

variable {R : Type} [CommRing R]

/-- Coefficients of an element given by a linear map. -/
theorem coeff_of_lin {K K' : Type} [DecidableEq K] [DecidableEq K'] {C : Cls K'} {y : Elem K'} {x : List (K × Int)}
    {n : Nat} (hy : y.NF C) {F : K → (K' →₀ ZMod n)} (h : den (ZMod n) y.data = lin F (den _ x)) (m : K')
    {f : K → Int} (hf : ∀ p ∈ x, F p.1 m = (f p.1 : ZMod n)) :
    y.coeff m ≡ (x.map fun p => p.2 * f p.1).sum [ZMOD n] := by
  rw [← ZMod.intCast_eq_intCast_iff]
  have h2 := DFunLike.congr_fun h m
  rw [Dict.den_apply hy.nodup] at h2
  rw [coeff, h2, lin_den]
  clear h h2 hy
  induction x with
  | nil => simp
  | cons p l ih =>
    rw [List.map_cons, List.sum_cons, Finsupp.add_apply, ih (fun q hq => hf q (by simp [hq])),
      List.map_cons, List.sum_cons, Int.cast_add, Finsupp.smul_apply, hf p (by simp)]
    simp

theorem okAt_iff {i : Nat} {a b : Cube} (hi : i < a.length) (hb : a.length = b.length)
    (hc : cj (a.getD i 0) (b.getD i 0) ≠ 0) : okAt i a b ↔ 2 ∉ b.take i ∧ 2 ∉ a.drop (i + 1) := by
  have hai : a[i]? = some (a.getD i 0) := by
    rw [List.getD_eq_getElem?_getD, List.getElem?_eq_getElem hi]; rfl
  have hbi : b[i]? = some (b.getD i 0) := by
    rw [List.getD_eq_getElem?_getD, List.getElem?_eq_getElem (by omega)]; rfl
  have he : a.getD i 0 ≠ 2 ∧ b.getD i 0 ≠ 2 := by
    constructor <;> intro h <;> rw [h] at hc <;> simp [cj] at hc
  unfold okAt
  constructor
  · rintro ⟨h1, h2⟩
    constructor
    · intro h
      obtain ⟨j, hj⟩ := List.mem_iff_getElem?.1 h
      rw [List.getElem?_take] at hj
      split at hj
      · rename_i hji
        have := h2 j ((Join.mem_intervals _ _).2 hj)
        omega
      · simp at hj
    · intro h
      obtain ⟨j, hj⟩ := List.mem_iff_getElem?.1 h
      rw [List.getElem?_drop] at hj
      have := h1 _ ((Join.mem_intervals _ _).2 hj)
      omega
  · rintro ⟨h1, h2⟩
    constructor
    · intro j hj
      rw [Join.mem_intervals] at hj
      by_contra hcon
      rcases Nat.lt_or_eq_of_le (Nat.le_of_not_lt hcon) with h | h
      · apply h2
        rw [List.mem_iff_getElem?]
        exact ⟨j - (i + 1), by rw [List.getElem?_drop, show i + 1 + (j - (i + 1)) = j by omega]; exact hj⟩
      · subst h
        rw [hai] at hj
        exact he.1 (by simpa using hj)
    · intro j hj
      rw [Join.mem_intervals] at hj
      by_contra hcon
      rcases Nat.lt_or_eq_of_le (Nat.le_of_not_lt hcon) with h | h
      · apply h1
        rw [List.mem_iff_getElem?]
        exact ⟨j, by rw [List.getElem?_take, if_pos h]; exact hj⟩
      · subst h
        rw [hbi] at hj
        exact he.2 (by simpa using hj)

theorem endpointJoin_eq (e f : Nat) : Spec.endpointJoin e f = cj e f := by
  simp [Spec.endpointJoin, cj]

theorem jn_apply (k : CKey) {n : Nat} (hk : ∀ c ∈ k, c.length = n) (m : Cube) :
    jn (R := R) k m = ((Spec.joinCoeff k m : Int) : R) := by
  generalize hl : k.length = l
  induction l generalizing k with
  | zero =>
    obtain rfl := List.length_eq_zero_iff.1 hl
    simp [jn, Spec.joinCoeff]
  | succ l ih =>
    obtain ⟨a, k, rfl⟩ := List.exists_cons_of_length_pos (l := k) (by omega)
    cases k with
    | nil =>
      rw [jn, Spec.joinCoeff, jnL]
      simp [Finsupp.single_apply]
    | cons b k =>
      have ha : a.length = n := hk a (by simp)
      have hb : b.length = n := hk b (by simp)
      rw [jn, Join.jnL_cons, bil_bv, lin_single, one_smul, j2_sum _ _ (ha.trans hb.symm), map_list_sum,
        Spec.joinCoeff, Spec.sumTo, List.map_map]
      have : ∀ L : List Nat, (∀ i ∈ L, i < a.length) →
          (L.map ((jnL (R := R) k) ∘ fun i => if okAt i a b then ((jc i a b : Int) : R) •
            bv R (glue i a b) else 0)).sum m =
          (((L.map fun i => if 2 ∉ b.take i ∧ 2 ∉ a.drop (i + 1) then
            (-1) ^ a.count 2 * Spec.endpointJoin (a.getD i 0) (b.getD i 0) *
            Spec.joinCoeff ((a.take i ++ [2] ++ b.drop (i + 1)) :: k) m else 0).sum : Int) : R) := by
        intro L hL
        induction L with
        | nil => simp
        | cons i L ihL =>
          have hi := hL i (by simp)
          rw [List.map_cons, List.sum_cons, Finsupp.add_apply, ihL (fun q hq => hL q (by simp [hq])),
            List.map_cons, List.sum_cons, Int.cast_add]
          congr 1
          rw [Function.comp_apply, endpointJoin_eq]
          by_cases hc : cj (a.getD i 0) (b.getD i 0) = 0
          · have : jc i a b = 0 := by rw [jc, hc, mul_zero]
            rw [this, hc]
            simp
          · rw [if_congr (okAt_iff hi (ha.trans hb.symm) hc) rfl rfl]
            split
            · have hg := ih (glue i a b :: k) (by
                intro c hc
                rcases List.mem_cons.1 hc with rfl | hc
                · rw [Join.length_glue hi (ha.trans hb.symm), ha]
                · exact hk c (by simp [hc])) (by simpa using hl)
              rw [jn] at hg
              rw [map_smul, Finsupp.smul_apply, hg, jc, glue, Cube.dimension]
              push_cast
              rw [smul_eq_mul]
            · simp
      exact this _ (fun i hi => List.mem_range.1 hi)

/-- Well-formed tensors: cubes of one length. -/
theorem join_ok {x : CElem} {d r n : Nat} (hd : x.degree = some d) (hr : x.arity = some r) (hr1 : 1 ≤ r)
    (hx : ∀ p ∈ x.data, ∀ c ∈ p.1, c.length = n) :
    ∃ y, x.join = .ok y ∧ y.NF cubical ∧ y.attrs = x.attrs ∧
      den (ZMod x.torsion) y.data = mapK (fun c => [c]) (JN (den _ x.data)) := by
  rw [arity, uniqueValue_eq_some] at hr
  have hne : x.data ≠ [] := by
    intro h; rw [h] at hr; simp at hr
  have hlen : ∀ p ∈ x.data, p.1.length = r := fun p hp => hr.2 _ (List.mem_map_of_mem hp)
  have hev := fun (p : CKey × Int) (hp : p ∈ x.data) => Join.joinEvents_ok (R := ZMod x.torsion) p.1 p.2 (hx p hp) (by
    intro h; have := hlen p hp; rw [h] at this; simp at this; omega)
  choose! F hF1 hF2 using hev
  refine ⟨Elem.accumulate cubical (x.zero cubical) ((x.data.map F).flatten), ?_,
    nf_accumulate_zero cubical x _, by simp, ?_⟩
  · have hr' : x.arity = some r := by rw [arity, uniqueValue_eq_some]; exact hr
    unfold CElem.join
    have ht : x.truthy = true := by
      unfold Elem.truthy
      simpa [List.isEmpty_iff] using hne
    rw [ht, hd, hr']
    have : (x.data.mapM fun (k, v) => CElem.joinEvents r k v) = .ok (x.data.map F) :=
      mapM_ok fun p hp => by have := hF1 p hp; rw [hlen p hp] at this; exact this
    exact congrArg (fun m : Py _ => m >>= fun events =>
      Except.ok (Elem.accumulate cubical (x.zero cubical) events.flatten)) this
  · rw [den_accumulate_zero' _ _ _ rfl rfl, den_flatten, List.map_map, JN, lin_den]
    refine Eq.trans (pr_false _) ?_
    rw [map_list_sum, List.map_map]
    congr 1
    apply List.map_congr_left
    intro p hp
    simp only [Function.comp_apply, map_smul]
    exact hF2 p hp

/-- `join` does not raise, and its coefficients are those of the iterated join. -/
theorem C32_join_coeff {x : CElem} {d r n : Nat} (hd : x.degree = some d) (hr : x.arity = some r) (hr1 : 1 ≤ r)
    (hx : ∀ p ∈ x.data, ∀ c ∈ p.1, c.length = n) :
    ∃ y, x.join = .ok y ∧ y.torsion = x.torsion ∧
      ∀ m, y.coeff m ≡ (x.data.map fun p => p.2 *
        (match m with | [c] => Spec.joinCoeff p.1 c | _ => 0)).sum [ZMOD x.torsion] := by
  obtain ⟨y, hy, hynf, hya, hyd⟩ := join_ok hd hr hr1 hx
  refine ⟨y, hy, torsion_congr hya, fun m => ?_⟩
  have hyd' : den (ZMod x.torsion) y.data = lin (fun k => mapK (fun c => [c]) (jn k)) (den _ x.data) := by
    rw [hyd, JN, lin_den, lin_den, map_list_sum, List.map_map]
    congr 1
    apply List.map_congr_left
    intro p _
    simp
  refine coeff_of_lin hynf hyd' m (f := fun k => match m with | [c] => Spec.joinCoeff k c | _ => 0) ?_
  intro p hp
  have hm : ∀ v : Cube →₀ ZMod x.torsion, mapK (fun c => [c]) v m = match m with | [c] => v c | _ => 0 := by
    intro v
    induction v using Finsupp.induction_linear with
    | zero =>
      match m with
      | [] => simp
      | [c] => simp
      | c :: c' :: m => simp
    | add f g hf hg =>
      rw [map_add, Finsupp.add_apply, hf, hg]
      match m with
      | [] => simp
      | [c] => simp
      | c :: c' :: m => simp
    | single a s =>
      rw [mapK_single, Finsupp.single_apply]
      match m with
      | [] => simp
      | [c] => simp [Finsupp.single_apply]
      | c :: c' :: m => simp
  rw [hm]
  match m with
  | [] => simp
  | [c] => exact jn_apply p.1 (hx p hp) c
  | c :: c' :: m => simp

theorem jnL_supported {n : Nat} (k : CKey) (hk : ∀ c ∈ k, IsCube n c) {v : Cube →₀ R} {e : Int}
    (hv : v ∈ Finsupp.supported R R (Join.CD n e)) :
    jnL k v ∈ Finsupp.supported R R (Join.CD n (e + totDeg cdim k + k.length)) := by
  induction k generalizing v e with
  | nil => simpa [jnL, totDeg] using hv
  | cons b k ih =>
    have hb := hk b (by simp)
    rw [Join.jnL_cons]
    have := ih (fun c hc => hk c (by simp [hc])) (v := bil j2 v (bv R b)) (e := e + cdim b + 1) ?_
    · have he : e + cdim b + 1 + totDeg cdim k + k.length = e + totDeg cdim (b :: k) + (b :: k).length := by
        rw [totDeg, List.length_cons]
        push_cast
        ring
      rw [← he]
      exact this
    · refine BElem.bil_supported _ (S := Join.CD n e) (T := {x | x = b}) (fun x hx y hy => ?_) hv
        (Finsupp.single_mem_supported R _ rfl)
      obtain rfl : y = b := hy
      have := Join.j2_supported (R := R) hx.1 hb
      rw [hx.2] at this
      exact this

theorem jn_supported {n r : Nat} {d : Int} (k : CKey) (hk : ∀ c ∈ k, IsCube n c) (hl : k.length = r) (hr1 : 1 ≤ r)
    (hd : totDeg cdim k = d) :
    jn (R := R) k ∈ Finsupp.supported R R (Join.CD n (d + (r - 1 : Nat))) := by
  obtain ⟨a, k, rfl⟩ := List.exists_cons_of_length_pos (l := k) (by omega)
  have := jnL_supported (R := R) k (fun c hc => hk c (by simp [hc])) (e := cdim a)
    (Finsupp.single_mem_supported R 1 (⟨hk a (by simp), rfl⟩ : a ∈ Join.CD n (cdim a)))
  rw [jn]
  have hr' : r - 1 = k.length := by simp at hl; omega
  rw [← hd, hr', totDeg]
  exact this

/-- Every term of the join of a homogeneous element of degree `d` and arity `r` is a cube of degree
`d + r - 1`, with as many entries as the factors. -/
theorem C32_join_degree {x y : CElem} {d r n : Nat} (hd : x.degree = some d) (hr : x.arity = some r) (hr1 : 1 ≤ r)
    (hx : ∀ p ∈ x.data, ∀ c ∈ p.1, c.length = n ∧ ∀ e ∈ c, e ≤ 2) (hy : x.join = .ok y) :
    ∀ p ∈ y.data, ∃ c : Cube, p.1 = [c] ∧ c.length = n ∧ (∀ e ∈ c, e ≤ 2) ∧ CElem.keyDegree p.1 = d + (r - 1) := by
  obtain ⟨y', hy', hynf, hya, hyd⟩ := join_ok hd hr hr1 (fun p hp c hc => (hx p hp c hc).1)
  obtain rfl : y = y' := by rw [hy] at hy'; cases hy'; rfl
  have hyt : y.torsion = x.torsion := torsion_congr hya
  rw [arity, uniqueValue_eq_some] at hr
  rw [degree, uniqueValue_eq_some] at hd
  have hs : den (ZMod x.torsion) y.data ∈
      Finsupp.supported _ (ZMod x.torsion) {k : CKey | ∃ c, k = [c] ∧ c ∈ Join.CD n ((d : Int) + (r - 1 : Nat))} := by
    rw [hyd]
    refine mapK_supported (S := Join.CD n ((d : Int) + (r - 1 : Nat)))
      (T := {k : CKey | ∃ c, k = [c] ∧ c ∈ Join.CD n ((d : Int) + (r - 1 : Nat))}) _ (fun c hc => ⟨c, rfl, hc⟩) ?_
    refine lin_supported (S := {k : CKey | (∀ c ∈ k, IsCube n c) ∧ k.length = r ∧ totDeg cdim k = d}) jn
      (fun k hk => jn_supported k hk.1 hk.2.1 hr1 hk.2.2) ?_
    refine den_supported (fun p hp => ?_)
    refine ⟨hx p hp, hr.2 _ (List.mem_map_of_mem hp), ?_⟩
    rw [totDeg_cdim]
    exact_mod_cast hd.2 _ (List.mem_map_of_mem hp)
  intro p hp
  have hsup := hynf.mem_keys_iff.1 (List.mem_map_of_mem (f := Prod.fst) hp)
  rw [hyt] at hsup
  obtain ⟨c, hc, h1, h2⟩ := hs (Finset.mem_coe.2 (Finsupp.mem_support_iff.2 hsup))
  refine ⟨c, hc, h1.1, h1.2, ?_⟩
  have := totDeg_cdim p.1
  rw [hc] at this ⊢
  rw [totDeg, totDeg, h2, add_zero] at this
  exact_mod_cast this.symm

theorem ckonsV_apply (a : Cube) (v : CKey →₀ R) (m : CKey) :
    consV a v m = match m with | [] => 0 | c :: m' => if c = a then v m' else 0 := by
  induction v using Finsupp.induction_linear with
  | zero => cases m <;> simp
  | add f g hf hg =>
    rw [map_add, Finsupp.add_apply, hf, hg]
    cases m with
    | nil => simp
    | cons c m => simp only; split <;> simp
  | single k s =>
    rw [consV_single, Finsupp.single_apply]
    cases m with
    | nil => simp
    | cons c m =>
      simp only [List.cons.injEq, Finsupp.single_apply]
      by_cases h : a = c
      · simp [h]
      · simp [h, Ne.symm h]

theorem omK_apply (k m : CKey) : omK (R := R) k m = ((Spec.omitVertexCoeff k m : Int) : R) := by
  induction k generalizing m with
  | nil => simp [omK, Spec.omitVertexCoeff, Spec.sumTo]
  | cons a k ih =>
    rw [omK, Spec.omitVertexCoeff, Spec.sumTo, List.length_cons, List.range_succ_eq_map, List.map_cons, List.sum_cons,
      List.map_map, Finsupp.sub_apply, sub_eq_add_neg, Int.cast_add]
    congr 1
    · have : cdim a = 0 ↔ 2 ∉ a := by
        rw [cdim, Cube.dimension]; simp [List.count_eq_zero]
      by_cases h : 2 ∈ a
      · have h' : ¬ cdim a = 0 := by rw [this]; simpa using h
        rw [if_neg h', if_neg (by simp [h])]; simp
      · have h' : cdim a = 0 := this.2 h
        rw [if_pos h']
        simp [h, Finsupp.single_apply]
    · rw [ckonsV_apply]
      cases m with
      | nil =>
        have : (List.map ((fun i => if 2 ∉ (a :: k).getD i [] ∧ (a :: k).eraseIdx i = [] then (-1 : Int) ^ i else 0) ∘
          Nat.succ) (List.range k.length)).sum = 0 := by
          apply List.sum_eq_zero
          intro z hz
          obtain ⟨i, -, rfl⟩ := List.mem_map.1 hz
          simp
        rw [this]; simp
      | cons c m =>
        by_cases h : c = a
        · subst h
          simp only [if_true]
          rw [ih, Spec.omitVertexCoeff, Spec.sumTo, ← Int.cast_neg]
          congr 1
          rw [← neg_one_mul, ← List.sum_map_mul_left]
          congr 1
          apply List.map_congr_left
          intro i _
          simp only [Function.comp_apply, Nat.succ_eq_add_one, List.getD_cons_succ, List.eraseIdx_cons_succ,
            List.cons.injEq, true_and]
          split
          · ring
          · ring
        · simp only [if_neg h, neg_zero]
          have : (List.map ((fun i => if 2 ∉ (a :: k).getD i [] ∧ (a :: k).eraseIdx i = c :: m then
              (-1 : Int) ^ i else 0) ∘ Nat.succ) (List.range k.length)).sum = 0 := by
            apply List.sum_eq_zero
            intro z hz
            obtain ⟨i, -, rfl⟩ := List.mem_map.1 hz
            simp [Ne.symm h]
          rw [this]; simp

theorem cubeD_supported {n : Nat} (c : Cube) (hc : IsCube n c) :
    cubeD (R := R) c ∈ Finsupp.supported R R {x | IsCube n x} := by
  induction c generalizing n with
  | nil => simp [cubeD]
  | cons e c ih =>
    obtain ⟨n, rfl⟩ : ∃ n', n = n' + 1 := ⟨c.length, by rw [← hc.1]; simp⟩
    have hc' : IsCube n c := ⟨by simpa using hc.1, fun e he => hc.2 e (by simp [he])⟩
    have hcons : ∀ (f : Nat) (x : Cube), f ≤ 2 → IsCube n x → IsCube (n + 1) (f :: x) := by
      intro f x hf hx
      refine ⟨by simp [hx.1], ?_⟩
      intro a ha
      rcases List.mem_cons.1 ha with rfl | ha
      · exact hf
      · exact hx.2 a ha
    rw [cubeD]
    split
    · refine Submodule.sub_mem _ (Submodule.sub_mem _ ?_ ?_) ?_
      · exact Finsupp.single_mem_supported R _ (hcons 1 c (by omega) hc')
      · exact Finsupp.single_mem_supported R _ (hcons 0 c (by omega) hc')
      · exact mapK_supported _ (fun x hx => hcons 2 x le_rfl hx) (ih hc')
    · exact mapK_supported _ (fun x hx => hcons e x (hc.2 e (by simp)) hx) (ih hc')

theorem tensK_supported_all {A : Type} {S : Set A} (D : A → (A →₀ R)) (w : A → Int)
    (hD : ∀ a ∈ S, D a ∈ Finsupp.supported R R S) (k : List A) (hk : ∀ a ∈ k, a ∈ S) :
    tensK D w k ∈ Finsupp.supported R R {m : List A | m.length = k.length ∧ ∀ a ∈ m, a ∈ S} := by
  induction k with
  | nil => simp [tensK]
  | cons a k ih =>
    have hk' : ∀ a ∈ k, a ∈ S := fun c hc => hk c (by simp [hc])
    rw [tensK, cat_one_bv]
    apply Submodule.add_mem
    · refine mapK_supported (S := S) (T := {m : List A | m.length = (a :: k).length ∧ ∀ a ∈ m, a ∈ S}) _
        (fun b hb => ⟨by simp, ?_⟩) (hD a (hk a (by simp)))
      intro c hc
      rcases List.mem_cons.1 hc with rfl | hc
      · exact hb
      · exact hk' c hc
    · apply Submodule.smul_mem
      refine mapK_supported (T := {m : List A | m.length = (a :: k).length ∧ ∀ a ∈ m, a ∈ S}) _
        (fun m hm => ⟨by simpa using hm.1, ?_⟩) (ih hk')
      intro c hc
      rcases List.mem_cons.1 hc with rfl | hc
      · exact hk c (by simp)
      · exact hm.2 c hc

theorem omK_supported {S : Set Cube} (k : CKey) (hk : ∀ a ∈ k, a ∈ S) :
    omK (R := R) k ∈ Finsupp.supported R R
      {m : CKey | m.length + 1 = k.length ∧ (∀ a ∈ m, a ∈ S) ∧ totDeg cdim m = totDeg cdim k} := by
  induction k with
  | nil => simp [omK]
  | cons a k ih =>
    have hk' : ∀ a ∈ k, a ∈ S := fun c hc => hk c (by simp [hc])
    rw [omK]
    apply Submodule.sub_mem
    · split
      · rename_i h
        exact Finsupp.single_mem_supported R _ ⟨by simp, hk', by rw [totDeg, h, zero_add]⟩
      · exact Submodule.zero_mem _
    · refine mapK_supported (T := {m : CKey | m.length + 1 = (a :: k).length ∧ (∀ a ∈ m, a ∈ S) ∧
        totDeg cdim m = totDeg cdim (a :: k)}) _ (fun m hm => ⟨by simpa using hm.1, ?_, by rw [totDeg, totDeg, hm.2.2]⟩) (ih hk')
      intro c hc
      rcases List.mem_cons.1 hc with rfl | hc
      · exact hk c (by simp)
      · exact hm.2.1 c hc

/-- `join` of an element which may be zero. -/
theorem join_ok' {x : CElem} {n : Nat} (hnf : x.NF cubical)
    (hx : x.data = [] ∨ ∃ d r, x.degree = some d ∧ x.arity = some r ∧ 1 ≤ r)
    (hn : ∀ p ∈ x.data, ∀ c ∈ p.1, c.length = n) :
    ∃ y, x.join = .ok y ∧ y.NF cubical ∧ y.attrs = x.attrs ∧
      den (ZMod x.torsion) y.data = mapK (fun c => [c]) (JN (den _ x.data)) := by
  rcases hx with h | ⟨d, r, hd, hr, hr1⟩
  · refine ⟨x, ?_, hnf, rfl, ?_⟩
    · unfold CElem.join
      have : x.truthy = false := by simp [Elem.truthy, h]
      rw [this]; rfl
    · rw [h]; simp
  · exact join_ok hd hr hr1 hn

/-- The alternating sum of the ways to omit a vertex, as an element. -/
def omitVertices (x : CElem) : CElem :=
  Elem.accumulate cubical (x.zero cubical) (x.data.flatMap fun p =>
    (List.range p.1.length).map fun i => (p.1.eraseIdx i, p.2 * if 2 ∉ p.1.getD i [] then (-1) ^ i else 0))

theorem den_omitVertices (x : CElem) : den (ZMod x.torsion) (omitVertices x).data = om (den _ x.data) := by
  rw [omitVertices, den_accumulate_zero' _ _ _ rfl rfl, om]
  refine Eq.trans (pr_false _) ?_
  rw [den_flatMap, lin_den]
  congr 1
  apply List.map_congr_left
  intro p _
  ext m
  rw [Finsupp.smul_apply, omK_apply, den_map, Spec.omitVertexCoeff, Spec.sumTo]
  generalize List.range p.1.length = L
  induction L with
  | nil => simp
  | cons i L ih =>
    rw [List.map_cons, List.sum_cons, Finsupp.add_apply, ih, List.map_cons, List.sum_cons, Int.cast_add, smul_add]
    congr 1
    rw [Finsupp.single_apply]
    by_cases h1 : p.1.eraseIdx i = m
    · by_cases h2 : 2 ∉ p.1.getD i []
      · rw [if_pos h1, if_pos h2, if_pos ⟨h2, h1⟩]; push_cast; rfl
      · rw [if_pos h1, if_neg h2, if_neg (fun h => h2 h.1)]; simp
    · rw [if_neg h1, if_neg (fun h => h1 h.2)]; simp

/-- The join is a homotopy: for cubes of one length, `∂(join x) = (-1)^(r-1) (join(∂x) - join(o))`, where `o` is the
alternating sum of the ways to omit a vertex among the factors of `x`. -/
theorem C32_join_homotopy {x bx : CElem} {d r n : Nat} (hd : x.degree = some d) (hr : x.arity = some r) (hr2 : 2 ≤ r)
    (hx : ∀ p ∈ x.data, ∀ c ∈ p.1, c.length = n ∧ ∀ e ∈ c, e ≤ 2) (hb : x.boundary = .ok bx) :
    ∃ j bj jb o jo : CElem, x.join = .ok j ∧ j.boundary = .ok bj ∧ bx.join = .ok jb ∧
      o.torsion = x.torsion ∧
      (∀ m, o.coeff m ≡ (x.data.map fun p => p.2 * Spec.omitVertexCoeff p.1 m).sum [ZMOD x.torsion]) ∧
      o.join = .ok jo ∧
      ∀ m, bj.coeff m ≡ (-1) ^ (r - 1) * (jb.coeff m - jo.coeff m) [ZMOD x.torsion] := by
  obtain ⟨j, hj, hjnf, hja, hjd⟩ := join_ok hd hr (by omega) (fun p hp c hc => (hx p hp c hc).1)
  obtain ⟨bj, hbj⟩ := C28_boundary_ok j
  have hjt : j.torsion = x.torsion := torsion_congr hja
  have hxb : bx.torsion = x.torsion := torsion_congr (cboundary_attrs hb)
  have hbx := den_cboundary hb rfl
  have har := hr
  have hde := hd
  rw [arity, uniqueValue_eq_some] at hr
  rw [degree, uniqueValue_eq_some] at hd
  have hbxn : ∀ p ∈ bx.data, ∀ c ∈ p.1, c.length = n := by
    have hs : den (ZMod x.torsion) bx.data ∈ Finsupp.supported _ (ZMod x.torsion)
        {m : CKey | ∀ c ∈ m, IsCube n c} := by
      rw [hbx]
      refine lin_supported (S := {k : CKey | ∀ c ∈ k, IsCube n c}) (tensK cubeD cdim) (fun k hk => ?_)
        (den_supported (fun p hp => hx p hp))
      refine Finsupp.supported_mono (fun m hm => hm.2)
        (tensK_supported_all (S := {x | IsCube n x}) cubeD cdim (fun a ha => cubeD_supported a ha) k hk)
    intro p hp c hc
    have hsup := (nf_cboundary hb).mem_keys_iff.1 (List.mem_map_of_mem (f := Prod.fst) hp)
    rw [hxb] at hsup
    exact (hs (Finset.mem_coe.2 (Finsupp.mem_support_iff.2 hsup)) c hc).1
  obtain ⟨jb, hjb, hjbnf, hjba, hjbd⟩ := join_ok' (nf_cboundary hb) (by
    by_cases h : bx.data = []
    · exact Or.inl h
    · exact Or.inr ⟨d - 1, r, ((C28_boundary_degree hb d hde).resolve_left h).2,
        (C28_boundary_arity hb r har).resolve_left h, by omega⟩) hbxn
  have hot : (omitVertices x).torsion = x.torsion := torsion_congr (by simp [omitVertices])
  have honf : (omitVertices x).NF cubical := nf_accumulate_zero cubical x _
  have hos : ∀ p ∈ (omitVertices x).data, p.1.length = r - 1 ∧ (∀ c ∈ p.1, c.length = n) ∧
      CElem.keyDegree p.1 = d := by
    intro p hp
    have hs : den (ZMod x.torsion) (omitVertices x).data ∈ Finsupp.supported _ (ZMod x.torsion)
        {m : CKey | m.length = r - 1 ∧ (∀ c ∈ m, IsCube n c) ∧ totDeg cdim m = (d : Int)} := by
      rw [den_omitVertices]
      refine lin_supported (S := {k : CKey | k.length = r ∧ (∀ c ∈ k, IsCube n c) ∧ totDeg cdim k = d}) omK
        (fun k hk => ?_) (den_supported (fun p hp => ⟨hr.2 _ (List.mem_map_of_mem hp), hx p hp, ?_⟩))
      · refine Finsupp.supported_mono (fun m hm => ?_) (omK_supported (S := {x | IsCube n x}) k hk.2.1)
        obtain ⟨h1, h2, h3⟩ := hm
        exact ⟨by have := hk.1; omega, h2, by rw [h3, hk.2.2]⟩
      · rw [totDeg_cdim]
        exact_mod_cast hd.2 _ (List.mem_map_of_mem hp)
    have hsup := honf.mem_keys_iff.1 (List.mem_map_of_mem (f := Prod.fst) hp)
    rw [hot] at hsup
    obtain ⟨h1, h2, h3⟩ := hs (Finset.mem_coe.2 (Finsupp.mem_support_iff.2 hsup))
    rw [totDeg_cdim] at h3
    exact ⟨h1, fun c hc => (h2 c hc).1, by exact_mod_cast h3⟩
  obtain ⟨jo, hjo, hjonf, hjoa, hjod⟩ := join_ok' honf (by
    by_cases h : (omitVertices x).data = []
    · exact Or.inl h
    · refine Or.inr ⟨d, r - 1, ?_, ?_, by omega⟩
      · rw [degree, uniqueValue_eq_some]
        exact ⟨by simpa using h, fun a ha => by
          obtain ⟨p, hp, rfl⟩ := List.mem_map.1 ha
          exact (hos p hp).2.2⟩
      · rw [arity, uniqueValue_eq_some]
        exact ⟨by simpa using h, fun a ha => by
          obtain ⟨p, hp, rfl⟩ := List.mem_map.1 ha
          exact (hos p hp).1⟩) (fun p hp => (hos p hp).2.1)
  refine ⟨j, bj, jb, omitVertices x, jo, hj, hbj, hjb, hot, ?_, hjo, ?_⟩
  · intro m
    exact coeff_of_lin honf (den_omitVertices x) m (f := fun k => Spec.omitVertexCoeff k m)
      (fun p _ => omK_apply p.1 m)
  · intro m
    rw [← ZMod.intCast_eq_intCast_iff]
    have key : den (ZMod x.torsion) bj.data =
        (-1 : ZMod x.torsion) ^ (r - 1) • (den (ZMod x.torsion) jb.data - den (ZMod x.torsion) jo.data) := by
      rw [hxb] at hjbd
      rw [hot] at hjod
      rw [den_cboundary hbj hjt, hjd, hjbd, hjod, den_omitVertices, hbx, ← map_sub, ← map_sub, ← map_smul]
      have h1 : ∀ v : Cube →₀ ZMod x.torsion, cubicalD (mapK (fun c => [c]) v) = mapK (fun c => [c]) (lin cubeD v) := by
        intro v
        induction v using Finsupp.induction_linear with
        | zero => simp
        | add f g hf hg => simp only [map_add, hf, hg]
        | single a s =>
          rw [mapK_single, cubicalD, tens, lin_single, lin_single, map_smul, tensK, cat_one_bv]
          simp [tensK]
      rw [h1]
      congr 1
      have h2 := BElem.lin_ext_supported (R := ZMod x.torsion) (S := {k : CKey | k.length = r ∧ ∀ c ∈ k, IsCube n c})
        (f := (lin cubeD).comp JN)
        (g := (-1 : ZMod x.torsion) ^ (r - 1) • JN.comp (cubicalD - om)) ?_
        (den_supported (d := x.data) (fun p hp => ⟨hr.2 _ (List.mem_map_of_mem hp), hx p hp⟩))
      · simpa only [LinearMap.comp_apply, LinearMap.smul_apply, LinearMap.sub_apply] using h2
      · rintro k ⟨hk1, hk2⟩
        have := Join.cubeD_jn (R := ZMod x.torsion) k hk2
        simp only [LinearMap.comp_apply, LinearMap.smul_apply, LinearMap.sub_apply, map_sub]
        rw [Join.JN_single, one_smul, this, cubicalD, tens, lin_single, one_smul, Join.om_single, one_smul, hk1]
        congr 1
        obtain ⟨r, rfl⟩ : ∃ r', r = r' + 1 := ⟨r - 1, by omega⟩
        rw [Nat.add_sub_cancel, pow_succ, pow_succ]
        ring
    have h2 := DFunLike.congr_fun key m
    rw [Dict.den_apply (nf_cboundary hbj).nodup, Finsupp.smul_apply, Finsupp.sub_apply, Dict.den_apply hjbnf.nodup,
      Dict.den_apply hjonf.nodup] at h2
    rw [coeff, h2, coeff, coeff]
    push_cast
    rfl

/-- A pair of squares in a cube, and a triple. -/
def exJ : CElem := Elem.new cubical [([[2, 0, 0], [1, 1, 1]], 2), ([[0, 0, 1], [1, 0, 2]], 3)] none
def exJ3 : CElem := Elem.new cubical [([[0, 1, 0, 0], [1, 0, 0, 0], [1, 1, 2, 1]], 1)] none

example : exJ.degree = some 1 ∧ exJ.arity = some 2 ∧
    (∀ p ∈ exJ.data, ∀ c ∈ p.1, c.length = 3 ∧ ∀ e ∈ c, e ≤ 2) ∧
    (exJ.join.toOption.map Elem.data) = some [([[2, 2, 1]], -2), ([[2, 0, 2]], 1)] := by decide +kernel

example : exJ3.degree = some 1 ∧ exJ3.arity = some 3 ∧
    (∀ p ∈ exJ3.data, ∀ c ∈ p.1, c.length = 4 ∧ ∀ e ∈ c, e ≤ 2) ∧
    (exJ3.join.toOption.map Elem.data) = some [([[2, 2, 2, 1]], -1)] := by decide +kernel

example : (omitVertices exJ).data = [([[2, 0, 0]], -2), ([[1, 0, 2]], 3)] := by decide +kernel

end Comch.Props
