import Verif.Props.Standard
import Verif.Props.CubicalMore
import Verif.Props.CallCoeff
import Verif.Props.Utils
import Verif.Props.Symmetric
import Verif.Props.CochainsPrimes
import Mathlib.Data.Nat.Choose.Sum

/-! # How many objects the enumerations and constructions produce: C110 -/

set_option linter.unusedSectionVars false

namespace Comch.Props
open Comch.Spec Elem SurjComp
open Finsupp (single)
open Serre (cubesOf rev)

/-! ### enumerations -/

theorem length_combinations {α : Type} (l : List α) (r : Nat) : (combinations l r).length = l.length.choose r := by
  induction l generalizing r with
  | nil => cases r <;> simp [combinations]
  | cons a l ih =>
    cases r with
    | zero => simp [combinations]
    | succ r => simp [combinations, ih, Nat.choose_succ_succ']

theorem length_productRepeat {α : Type} (l : List α) (n : Nat) : (productRepeat l n).length = l.length ^ n := by
  induction n with
  | zero => rfl
  | succ n ih =>
    rw [productRepeat, List.length_flatMap, List.map_congr_left (g := fun _ => l.length ^ n) (fun a _ => by simp [ih]),
      List.map_const', List.sum_replicate, pow_succ', smul_eq_mul]

theorem sum_range_list (n : Nat) (f : Nat → Nat) : ((List.range n).map f).sum = ∑ j ∈ Finset.range n, f j := by
  induction n with
  | zero => simp
  | succ n ih => rw [List.range_succ, List.map_append, List.sum_append, ih, Finset.sum_range_succ]; simp

/-- `len(Simplicial.basis(n))` is `2^(n+1) - 1`. -/
theorem C110_simplicial_basis (n : Nat) (t : Option Nat) :
    (Simplicial.basis n t).length = 2 ^ (n + 1) - 1 := by
  unfold Simplicial.basis
  rw [List.length_flatMap]
  have : ((pyRange 1 (n + 2)).map fun m => ((combinations (List.range (n + 1)) m).map fun b =>
      (Elem.new simplicial [([b], 1)] t : SElem)).length) = (pyRange 1 (n + 2)).map fun m => (n + 1).choose m :=
    List.map_congr_left fun m _ => by rw [List.length_map, length_combinations, List.length_range]
  rw [this]
  have h := Nat.sum_range_choose (n + 1)
  rw [← sum_range_list, List.range_succ_eq_map, List.map_cons, List.sum_cons, List.map_map, Nat.choose_zero_right] at h
  have e : (pyRange 1 (n + 2)).map (fun m => (n + 1).choose m) = (List.range (n + 1)).map ((fun m => (n + 1).choose m) ∘ Nat.succ) := by
    unfold pyRange
    rw [show n + 2 - 1 = n + 1 by omega, ← List.map_map]
    congr 1
    rw [List.range'_eq_map_range]
    exact List.map_congr_left fun i _ => by omega
  rw [e]
  exact Nat.eq_sub_of_add_eq' h

theorem C110_cubical_basis (n : Nat) (t : Option Nat) : (Cubical.basis n t).length = 3 ^ n := by
  unfold Cubical.basis
  rw [List.length_map, length_productRepeat]
  rfl

theorem C110_all (n : Nat) : (SymmetricGroup.all n).length = n.factorial := by
  unfold SymmetricGroup.all permutations
  rw [length_permutationsAux _ _ rfl]
  simp [pyRange]

/-- The shuffles are counted by binomial coefficients. -/
theorem C110_shuffles (i j : Nat) : (SymmetricGroup.shuffles i j).length = (i + j).choose i := by
  obtain ⟨hnd, hmem⟩ := C15_shuffles i j
  have hpn0 : (pyRange 1 (i + j + 1)).Nodup := List.nodup_range'
  have hdet : ∀ p ∈ SymmetricGroup.shuffles i j, p = p.take i ++ (pyRange 1 (i + j + 1)).filter (fun v => v ∉ p.take i) := by
    intro p hp
    obtain ⟨hperm, h1, h2⟩ := (hmem p).1 hp
    have hpp : p.Perm (pyRange 1 (i + j + 1)) := IsPerm.perm_range hperm
    have hpn : p.Nodup := hpp.nodup_iff.2 List.nodup_range'
    conv_lhs => rw [← List.take_append_drop i p]
    congr 1
    have hd : (p.drop i).Perm ((pyRange 1 (i + j + 1)).filter (fun v => v ∉ p.take i)) := by
      rw [List.perm_ext_iff_of_nodup (hpn.sublist (List.drop_sublist _ _)) (hpn0.filter _)]
      intro v
      rw [List.mem_filter, ← hpp.mem_iff]
      have hdis := List.disjoint_take_drop hpn (le_refl i)
      constructor
      · intro hv
        exact ⟨List.mem_of_mem_drop hv, by simpa using fun h => hdis h hv⟩
      · rintro ⟨hv, hn⟩
        rw [← List.take_append_drop i p, List.mem_append] at hv
        exact hv.resolve_left (by simpa using hn)
    refine hd.eq_of_pairwise (le := (· < ·)) (fun a b _ _ h h' => by omega) h2 ?_
    exact (List.pairwise_lt_range' (s := 1) (n := i + j + 1 - 1) 1).filter _
  have hmap : ((SymmetricGroup.shuffles i j).map (List.take i)).Nodup := by
    refine List.Nodup.map_on (fun p hp p' hp' h => ?_) hnd
    rw [hdet p hp, hdet p' hp', h]
  have hlist : ((SymmetricGroup.shuffles i j).map (List.take i)).Perm (combinations (pyRange 1 (i + j + 1)) i) := by
    rw [List.perm_ext_iff_of_nodup hmap (nodup_combinations hpn0 i)]
    intro s
    rw [mem_combinations, List.mem_map]
    constructor
    · rintro ⟨p, hp, rfl⟩
      obtain ⟨hperm, h1, h2⟩ := (hmem p).1 hp
      have hpp : p.Perm (pyRange 1 (i + j + 1)) := IsPerm.perm_range hperm
      refine ⟨?_, by rw [List.length_take, hpp.length_eq]; simp [pyRange]⟩
      have hsub : (p.take i).Subperm (pyRange 1 (i + j + 1)) := (List.take_sublist i p).subperm.trans hpp.subperm
      exact List.sublist_of_subperm_of_pairwise (r := (· < ·)) hsub h1 (List.pairwise_lt_range' (s := 1) (n := i + j + 1 - 1) 1)
    · rintro ⟨hs, hl⟩
      have hnd' : (pyRange 1 (i + j + 1)).Nodup := List.nodup_range'
      have hsn : s.Nodup := hnd'.sublist hs
      have hpr := (List.pairwise_lt_range' (s := 1) (n := i + j + 1 - 1) 1)
      refine ⟨s ++ (pyRange 1 (i + j + 1)).filter (fun v => v ∉ s), (hmem _).2 ⟨?_, ?_, ?_⟩, ?_⟩
      · refine IsPerm.of_perm ?_
        show (s ++ (pyRange 1 (i + j + 1)).filter (fun v => v ∉ s)).Perm (pyRange 1 (i + j + 1))
        rw [List.perm_ext_iff_of_nodup _ hnd']
        · intro v
          rw [List.mem_append, List.mem_filter]
          constructor
          · rintro (h | h)
            · exact hs.subset h
            · exact h.1
          · intro h
            by_cases hv : v ∈ s
            · exact Or.inl hv
            · exact Or.inr ⟨h, by simpa using hv⟩
        · refine List.nodup_append.2 ⟨hsn, hnd'.filter _, fun a ha b hb hab => ?_⟩
          subst hab
          have := (List.mem_filter.1 hb).2
          simp [ha] at this
      · rw [List.take_left' hl]
        exact hpr.sublist hs
      · rw [List.drop_left' hl]
        exact hpr.filter _
      · exact List.take_left' hl
  have := hlist.length_eq
  rw [List.length_map, length_combinations] at this
  rw [this]
  simp [pyRange]

/-! ### partitions and decompositions -/

/-- Tuples of `k + 1` positive numbers with sum `n`. -/
def compositions : Nat → Nat → List (List Nat)
  | 0, n => if n = 0 then [] else [[n]]
  | k + 1, n => (List.range n).flatMap fun i => (compositions k i).map ((n - i) :: ·)

theorem mem_compositions {k n : Nat} {l : List Nat} :
    l ∈ compositions k n ↔ l.length = k + 1 ∧ l.sum = n ∧ ∀ v ∈ l, 1 ≤ v := by
  induction k generalizing n l with
  | zero =>
    rw [compositions]
    constructor
    · intro h
      split at h
      · simp at h
      · simp only [List.mem_singleton] at h
        subst h
        simp; omega
    · rintro ⟨h1, h2, h3⟩
      obtain ⟨a, rfl⟩ := List.length_eq_one_iff.1 h1
      simp at h2 h3
      subst h2
      rw [if_neg (by omega)]
      simp
  | succ k ih =>
    rw [compositions]
    simp only [List.mem_flatMap, List.mem_range, List.mem_map]
    constructor
    · rintro ⟨i, hi, m, hm, rfl⟩
      obtain ⟨h1, h2, h3⟩ := ih.1 hm
      refine ⟨by simp [h1], by rw [List.sum_cons, h2]; omega, fun v hv => ?_⟩
      rcases List.mem_cons.1 hv with rfl | hv
      · omega
      · exact h3 v hv
    · rintro ⟨h1, h2, h3⟩
      cases l with
      | nil => simp at h1
      | cons a m =>
        have ha := h3 a (by simp)
        rw [List.sum_cons] at h2
        refine ⟨m.sum, by omega, m, ih.2 ⟨by simpa using h1, rfl, fun v hv => h3 v (by simp [hv])⟩, ?_⟩
        congr 1
        omega

theorem nodup_compositions (k n : Nat) : (compositions k n).Nodup := by
  induction k generalizing n with
  | zero => rw [compositions]; split <;> simp
  | succ k ih =>
    rw [compositions, List.nodup_flatMap]
    refine ⟨fun i _ => (ih i).map fun a b h => by simpa using h, ?_⟩
    refine List.Pairwise.imp_of_mem (fun {a b} ha hb hab => ?_) (List.nodup_range (n := n))
    intro l hl hl'
    obtain ⟨m, hm, rfl⟩ := List.mem_map.1 hl
    obtain ⟨m', hm', he⟩ := List.mem_map.1 hl'
    simp only [List.cons.injEq] at he
    obtain ⟨-, h2, -⟩ := mem_compositions.1 hm
    obtain ⟨-, h2', -⟩ := mem_compositions.1 hm'
    rw [he.2, h2] at h2'
    exact hab h2'

theorem length_compositions (k n : Nat) : (compositions k (n + 1)).length = n.choose k := by
  induction k generalizing n with
  | zero => simp [compositions]
  | succ k ih =>
    rw [compositions, List.length_flatMap, List.range_succ_eq_map, List.map_cons, List.sum_cons]
    have h0 : (compositions k 0) = [] := by
      rw [List.eq_nil_iff_forall_not_mem]
      intro l hl
      obtain ⟨h1, h2, h3⟩ := mem_compositions.1 hl
      cases l with
      | nil => simp at h1
      | cons a m =>
        have := h3 a (by simp)
        rw [List.sum_cons] at h2
        omega
    rw [h0, List.map_map]
    simp only [List.map_nil, List.length_nil, zero_add, List.length_map]
    rw [List.map_congr_left (g := fun i => i.choose k) (fun i _ => by simp [ih]), sum_range_list]
    clear h0 ih
    induction n with
    | zero => simp
    | succ n ihn => rw [Finset.sum_range_succ, ihn, Nat.choose_succ_succ', Nat.add_comm]

/-- `partitions(n, k, ordered=True)` lists `C(n-1, k-1)` tuples. -/
theorem C110_partitions (n k : Nat) : (partitions (n + 1) (k + 1) 1 none true).length = n.choose k := by
  obtain ⟨hnd, hmem⟩ := C61_partitions_ordered (n + 1) k 1 none
  rw [← length_compositions k n]
  refine List.Perm.length_eq ((List.perm_ext_iff_of_nodup hnd (nodup_compositions k (n + 1))).2 fun l => ?_)
  rw [hmem, mem_compositions]
  refine and_congr_right fun _ => and_congr_right fun hs => ⟨fun h v hv => (h v hv).1, fun h v hv => ⟨h v hv, ?_⟩⟩
  rw [Option.getD_none, ← hs]
  exact List.single_le_sum (by simp) v hv

/-- A non-empty tuple of length `n` has `C(n - 1 + k, k)` decompositions into `k + 1` overlapping pieces. -/
theorem C110_decompositions {A : Type} [DecidableEq A] (a : A) (x : List A) (k : Nat) :
    (decompositions (a :: x) k).length = (x.length + k).choose k := by
  rw [decompositions_eq, List.length_map, List.length_cons, show x.length + 1 + k = x.length + k + 1 by omega, C110_partitions]

/-! ### terms of diagonals and boundaries -/

/-- An element whose vector is a signed sum of distinct basis vectors has these as keys. -/
theorem data_length {ι K : Type} [DecidableEq K] {C : Cls K} {x : Elem K} (hx : x.NF C) (h1 : x.torsion ≠ 1) {l : List ι} {f : ι → K}
    (hl : (l.map f).Nodup) {s : ι → ZMod x.torsion} (hs : ∀ i, s i = 1 ∨ s i = -1)
    (hd : den (ZMod x.torsion) x.data = (l.map fun i => s i • bv (ZMod x.torsion) (f i)).sum) : x.data.length = l.length := by
  have : Nontrivial (ZMod x.torsion) := ZMod.nontrivial_iff.2 h1
  have hz : ∀ (m : List ι) (k : K), k ∉ m.map f → (m.map fun i => s i • bv (ZMod x.torsion) (f i)).sum k = 0 := by
    intro m k hk
    induction m with
    | nil => rfl
    | cons i m ih =>
      rw [List.map_cons, List.mem_cons, not_or] at hk
      rw [List.map_cons, List.sum_cons, Finsupp.add_apply, ih hk.2, Finsupp.smul_apply, Finsupp.single_eq_of_ne hk.1, smul_zero, add_zero]
  have hp : (x.data.map Prod.fst).Perm (l.map f) := by
    refine (List.perm_ext_iff_of_nodup hx.nodup hl).2 fun k => ?_
    rw [hx.mem_keys_iff, hd]
    constructor
    · intro h
      by_contra hk
      exact h (hz l k hk)
    · intro hk
      obtain ⟨i, hi, rfl⟩ := List.mem_map.1 hk
      obtain ⟨l1, l2, rfl⟩ := List.append_of_mem hi
      rw [List.map_append, List.map_cons] at hl
      have hn := List.nodup_append.1 hl
      have hn1 : f i ∉ l1.map f := fun h => hn.2.2 _ h _ (by simp) rfl
      have hn2 : f i ∉ l2.map f := (List.nodup_cons.1 hn.2.1).1
      rw [List.map_append, List.sum_append, List.map_cons, List.sum_cons, Finsupp.add_apply, Finsupp.add_apply, hz l1 _ hn1, hz l2 _ hn2,
        Finsupp.smul_apply, Finsupp.single_eq_same]
      rcases hs i with h | h <;> simp [h]
  have := hp.length_eq
  simpa using this

theorem sg_cases {R : Type} [CommRing R] (a : Int) : sg R a = 1 ∨ sg R a = -1 := by
  unfold sg
  rcases pySign_eq_one_or a with h | h <;> simp [h]

theorem length_allCuts {A : Type} (t : Nat) (a : A) (V : List A) : (allCuts (t + 1) (a :: V)).length = (V.length + t).choose t := by
  induction t generalizing a V with
  | zero => simp [allCuts]
  | succ t iht =>
    induction V generalizing a with
    | nil => rw [allCuts_cons, List.length_append, List.length_map, iht, List.length_map]; simp [allCuts]
    | cons b V ihV =>
      rw [allCuts_cons, List.length_append, List.length_map, iht, List.length_map, ihV, List.length_cons,
        show V.length + 1 + (t + 1) = (V.length + 1 + t) + 1 by omega, Nat.choose_succ_succ',
        show V.length + 1 + t = V.length + (t + 1) by omega]

theorem nodup_allCuts {A : Type} (t : Nat) (V : List A) : (allCuts t V).Nodup := by
  induction t generalizing V with
  | zero => simp [allCuts]
  | succ t ih =>
    cases t with
    | zero => simp [allCuts]
    | succ t =>
      rw [allCuts, List.nodup_flatMap]
      refine ⟨fun i _ => (ih _).map fun a b h => by simpa using h, ?_⟩
      refine List.Pairwise.imp_of_mem (fun {a b} ha hb hab => ?_) (List.nodup_range (n := V.length))
      intro l hl hl'
      obtain ⟨m, hm, rfl⟩ := List.mem_map.1 hl
      obtain ⟨m', hm', he⟩ := List.mem_map.1 hl'
      have := congrArg List.length (List.cons.inj he).1
      rw [List.length_take, List.length_take] at this
      rw [List.mem_range] at ha hb
      omega

theorem ne_nil_of_mem_allCuts {A : Type} {t : Nat} {V : List A} (hV : V ≠ []) {k : List (List A)} (hk : k ∈ allCuts t V) :
    ∀ f ∈ k, f ≠ [] := by
  induction t generalizing V k with
  | zero => simp [allCuts] at hk
  | succ t ih =>
    cases t with
    | zero =>
      simp only [allCuts, List.mem_singleton] at hk
      subst hk
      simpa using hV
    | succ t =>
      rw [allCuts, List.mem_flatMap] at hk
      obtain ⟨i, hi, hk⟩ := hk
      obtain ⟨m, hm, rfl⟩ := List.mem_map.1 hk
      rw [List.mem_range] at hi
      intro f hf
      rcases List.mem_cons.1 hf with rfl | hf
      · exact List.ne_nil_of_length_pos (by rw [List.length_take]; omega)
      · exact ih (List.ne_nil_of_length_pos (by rw [List.length_drop]; omega)) hm f hf

theorem lany_of_mem_allCuts {t n : Nat} {k : List (List Nat)} (hk : k ∈ allCuts t (List.range (n + 1))) : lany k = false := by
  rw [lany, List.any_eq_false]
  intro f hf
  have h1 := ne_nil_of_mem_allCuts (by simp) hk f hf
  have h2 : Coch.Inc f := ⟨(List.pairwise_lt_range (n := n + 1)).sublist (Coch.sub_of_mem_allCuts hk f hf), h1⟩
  simp [h2.ldrop]

/-- The Alexander–Whitney diagonal of the standard simplex: `C(n + t, t)` terms. -/
theorem C110_simplicial_diagonal (n t : Nat) {tor : Option Nat} (ht : tor ≠ some 1) :
    ∃ y, (Simplicial.standardElement n 1 tor).iteratedDiagonal t 1 = .ok y ∧ y.data.length = (n + t).choose t := by
  obtain ⟨h1, h2, h3, h4⟩ := C94_simplicial n 1 ht
  have hnf : (Simplicial.standardElement n 1 tor).NF simplicial := Elem.nf_new _ (by simp [Dict.KeysNodup]) _ _
  obtain ⟨y, hy, hynf, hya, -, hyd⟩ := iteratedDiagonal_ok hnf h3 h4 t 1 le_rfl le_rfl
  refine ⟨y, hy, ?_⟩
  have hyt : y.torsion = (Simplicial.standardElement n 1 tor).torsion := torsion_congr hya
  rw [← hyt, h1] at hyd
  rw [data_length hynf (l := allCuts (t + 1) (List.range (n + 1))) (f := id) (s := fun _ => 1) ?_ ?_ (fun _ => Or.inl rfl) ?_,
    List.range_succ_eq_map, length_allCuts]
  · simp
  · rw [hyt, h2]
    rcases tor with _ | m
    · simp
    · simpa using ht
  · simpa using nodup_allCuts _ _
  · rw [hyd]
    simp only [List.replicate_one, den_cons, den_nil, Int.cast_one, add_zero, Nat.sub_self, atL_single, one_smul, atK]
    rw [aw_eq_cuts, show cat ((allCuts (t + 1) (List.range (n + 1))).map (bv (ZMod y.torsion))).sum (bv (ZMod y.torsion) []) = _ from cat_nil_right _,
      map_list_sum, List.map_map]
    congr 1
    refine List.map_congr_left fun k hk => ?_
    rw [Function.comp, pr_single, lany_of_mem_allCuts hk]
    simp

/-- The Serre diagonal of the standard cube: `(t + 1)^n` terms. -/
theorem C110_cubical_diagonal (n t : Nat) {tor : Option Nat} (ht : tor ≠ some 1) :
    ∃ y, CElem.iteratedDiagonal (Cubical.standardElement n 1 tor) t 1 = .ok y ∧ y.data.length = (t + 1) ^ n := by
  obtain ⟨h1, h2, h3, h4⟩ := C94_cubical n 1 ht
  obtain ⟨y, hy, hynf, hya, hyd⟩ := cIteratedDiagonal_ok h3 h4 t 1 le_rfl le_rfl
  refine ⟨y, hy, ?_⟩
  have hyt : y.torsion = (Cubical.standardElement n 1 tor).torsion := torsion_congr hya
  rw [← hyt, h1] at hyd
  rw [data_length hynf (l := productRepeat (List.range (t + 1)) n) (f := cubesOf t (List.replicate n 2))
    (s := fun p => sg _ (rev p)) ?_ ?_ (fun _ => sg_cases _) ?_, length_productRepeat]
  · simp
  · rw [hyt, h2]
    rcases tor with _ | m
    · simp
    · simpa using ht
  · refine List.Nodup.map_on ?_ (nodup_productRepeat List.nodup_range n)
    intro p hp q hq h
    rw [mem_productRepeat] at hp hq
    have e := fun p (hp : p.length = n ∧ ∀ f ∈ p, f ∈ List.range (t + 1)) =>
      ((Serre.cubesOf_eq_iff t (List.replicate n 2) p _).1 ⟨by simpa [Cube.dimension] using hp.1, fun f hf => List.mem_range.1 (hp.2 f hf), rfl⟩).2
    rw [e p hp, e q hq, h]
  · rw [hyd]
    simp only [List.replicate_one, den_cons, den_nil, Int.cast_one, add_zero, Nat.sub_self, atL_single, one_smul, atK]
    rw [cat_nil_right, ← Serre.sum_cubesOf, show Cube.dimension (List.replicate n 2) = n by simp [Cube.dimension]]

/-- The boundary of the standard simplex: `n + 1` terms, for `n ≥ 1`. -/
theorem C110_simplicial_boundary (n : Nat) {tor : Option Nat} (ht : tor ≠ some 1) :
    (Simplicial.standardElement (n + 1 : Nat) 1 tor).boundary.data.length = n + 2 := by
  obtain ⟨h1, h2, h3, h4⟩ := C94_simplicial (n + 1) 1 ht
  have hb := Comch.Props.den_boundary (Simplicial.standardElement (n + 1 : Nat) 1 tor) (n := (Simplicial.standardElement (n + 1 : Nat) 1 tor).boundary.torsion)
    (torsion_congr (by simp))
  rw [h1] at hb
  rw [data_length (Comch.Props.nf_boundary _) (l := List.range (n + 2)) (f := fun i => [(List.range (n + 2)).eraseIdx i])
    (s := fun i => sg _ i) ?_ ?_ (fun _ => sg_cases _) ?_, List.length_range]
  · rw [torsion_congr (Comch.Props.boundary_attrs _), h2]
    rcases tor with _ | m
    · simp
    · simpa using ht
  · refine List.Nodup.map_on ?_ List.nodup_range
    intro i hi j hj h
    rw [List.mem_range] at hi hj
    by_contra hij
    have hm : i ∈ (List.range (n + 2)).eraseIdx j := by
      rw [List.mem_eraseIdx_iff_getElem]
      exact ⟨i, by simpa using hi, hij, by simp⟩
    rw [← (List.cons.inj h).1, List.mem_eraseIdx_iff_getElem] at hm
    obtain ⟨k, hk, hki, h⟩ := hm
    simp at h
    exact hki h
  · rw [hb]
    simp only [List.replicate_one, den_cons, den_nil, Int.cast_one, add_zero]
    rw [Coch.simplicialD_one, map_list_sum, List.map_map, List.length_range]
    congr 1
    refine List.map_congr_left fun i hi => ?_
    have hinc : Coch.Inc ((List.range (n + 1 + 1)).eraseIdx i) :=
      Coch.eraseIdx_inc ⟨List.pairwise_lt_range, by simp⟩ (by simpa using hi) (by simp)
    rw [Function.comp, simplicial_drops_lany, pr_single, lany, List.any_cons, hinc.ldrop]
    simp [Coch.sg_nat]

/-- The faces of the standard cube, with a bit for the sign. -/
def cubeFaces : Nat → List (Cube × Bool)
  | 0 => []
  | n + 1 => (1 :: List.replicate n 2, true) :: (0 :: List.replicate n 2, false) :: (cubeFaces n).map fun p => (2 :: p.1, !p.2)

theorem nodup_cubeFaces (n : Nat) : ((cubeFaces n).map Prod.fst).Nodup := by
  induction n with
  | zero => simp [cubeFaces]
  | succ n ih =>
    have h := ih.map (f := fun c => 2 :: c) (fun a b h => by simpa using h)
    rw [List.map_map] at h
    rw [cubeFaces, List.map_cons, List.map_cons, List.map_map, List.nodup_cons, List.nodup_cons]
    refine ⟨?_, ?_, h⟩ <;> simp

theorem length_cubeFaces (n : Nat) : (cubeFaces n).length = 2 * n := by
  induction n with
  | zero => rfl
  | succ n ih => simp [cubeFaces, ih]; omega

theorem cubeD_faces {R : Type} [CommRing R] (n : Nat) :
    cubeD (R := R) (List.replicate n 2) = ((cubeFaces n).map fun p => (if p.2 then (1 : R) else -1) • bv R p.1).sum := by
  induction n with
  | zero => simp [cubeD, cubeFaces]
  | succ n ih =>
    rw [List.replicate_succ, cubeD, if_pos rfl, ih, cubeFaces, List.map_cons, List.map_cons, List.sum_cons, List.sum_cons, map_list_sum,
      List.map_map, List.map_map]
    have : ((cubeFaces n).map ((fun p : Cube × Bool => (if p.2 then (1 : R) else -1) • bv R p.1) ∘ fun p => (2 :: p.1, !p.2))) =
        ((cubeFaces n).map (consV 2 ∘ fun p : Cube × Bool => (if p.2 then (1 : R) else -1) • bv R p.1)).map fun v => -v := by
      rw [List.map_map]
      refine List.map_congr_left fun p _ => ?_
      rcases p with ⟨c, b⟩
      cases b <;> simp
    rw [this, ← List.sum_neg]
    simp
    abel

/-- The boundary of the standard cube: `2n` terms. -/
theorem C110_cubical_boundary (n : Nat) {tor : Option Nat} (ht : tor ≠ some 1) :
    ∃ y, (Cubical.standardElement n 1 tor).boundary = .ok y ∧ y.data.length = 2 * n := by
  obtain ⟨h1, h2, h3, h4⟩ := C94_cubical n 1 ht
  obtain ⟨y, hy⟩ := C28_boundary_ok (Cubical.standardElement n 1 tor)
  have hyt : y.torsion = (Cubical.standardElement n 1 tor).torsion := torsion_congr (cboundary_attrs hy)
  have hd := den_cboundary hy hyt.symm
  rw [h1] at hd
  refine ⟨y, hy, ?_⟩
  rw [data_length (nf_cboundary hy) (l := cubeFaces n) (f := fun p => [p.1]) (s := fun p => if p.2 then 1 else -1) ?_ ?_ ?_ ?_, length_cubeFaces]
  · rw [hyt, h2]
    rcases tor with _ | m
    · simp
    · simpa using ht
  · have h := (nodup_cubeFaces n).map (f := fun c => [c]) (fun a b h => by simpa using h)
    rwa [List.map_map] at h
  · intro p
    split <;> simp
  · rw [hd]
    simp only [List.replicate_one, den_cons, den_nil, Int.cast_one, add_zero, cubicalD, tens_single, one_smul, tensK, map_zero, smul_zero]
    rw [cubeD_faces, cat_one_bv, map_list_sum, List.map_map]
    congr 1
    refine List.map_congr_left fun i _ => ?_
    rcases i with ⟨c, b⟩
    cases b <;> simp

-- the closed formulas at work, with the lists they count
example : (Simplicial.basis 3).length = 15 ∧ (SymmetricGroup.shuffles 2 3).length = 10 ∧ (partitions 5 3 1 none true).length = 6 :=
  ⟨C110_simplicial_basis 3 _, C110_shuffles 2 3, C110_partitions 4 2⟩
example : (decompositions [0, 1, 2] 1).length = 3 ∧ [[0, 1], [1, 2]] ∈ decompositions [0, 1, 2] 1 := ⟨C110_decompositions 0 [1, 2] 1, by decide +kernel⟩
example : ∃ y, (Simplicial.standardElement 4 1 (some 3)).iteratedDiagonal 2 1 = .ok y ∧ y.data.length = 15 := C110_simplicial_diagonal 4 2 (by simp)
example : ∃ y, (Cubical.standardElement 3 1 none).iteratedDiagonal 2 1 = .ok y ∧ y.data.length = 27 := C110_cubical_diagonal 3 2 (by simp)

end Comch.Props
