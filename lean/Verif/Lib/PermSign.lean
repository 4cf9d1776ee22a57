import Verif.Lib.Cycles
import Mathlib.Algebra.BigOperators.Fin

/-! # The sign of a permutation tuple -/

namespace Comch
open Spec

namespace IsPerm

variable {r : Nat} {p q : List Nat}

theorem neg_one_pow_filter (f : Nat → Nat) (a n : Nat) :
    ((-1 : ℤˣ) ^ ((List.ofFn fun i : Fin n => f i).filter fun b => b < a).length) =
      ∏ j : Fin n, if f j < a then -1 else 1 := by
  induction n generalizing f with
  | zero => simp
  | succ n ih =>
    rw [List.ofFn_succ, Fin.prod_univ_succ]
    have := ih (fun j => f (j + 1))
    simp only [Fin.val_succ] at this ⊢
    rw [← this]
    rw [List.filter_cons]
    by_cases h : f 0 < a <;> simp [h, pow_succ]

theorem neg_one_pow_inversions (f : Nat → Nat) (n : Nat) :
    ((-1 : ℤˣ) ^ inversions (List.ofFn fun i : Fin n => f i)) =
      ∏ i : Fin n, ∏ j ∈ Finset.Ioi i, if f j < f i then -1 else 1 := by
  induction n generalizing f with
  | zero => simp [inversions]
  | succ n ih =>
    rw [List.ofFn_succ, Fin.prod_univ_succ, inversions, pow_add, Fin.prod_Ioi_zero]
    congr 1
    · have := neg_one_pow_filter (fun j => f (j + 1)) (f 0) n
      simp only [Fin.val_succ, Fin.val_zero]
      exact this
    · have := ih (fun j => f (j + 1))
      simp only [Fin.prod_Ioi_succ, Fin.val_succ]
      exact this

/-- The permutation of `{0, …, r}` which fixes `0` and is `p` on `1, …, r`. -/
noncomputable def eqv (hp : IsPerm r p) : Equiv.Perm (Fin (r + 1)) :=
  Equiv.ofBijective (fun j => Fin.ofNat (r + 1) (value (0 :: p) (j + 1))) <| by
    rw [← Finite.injective_iff_bijective]
    intro i j h
    have hv : ∀ i : Fin (r + 1), value (0 :: p) (i + 1) = if (i : Nat) = 0 then 0 else value p i := by
      intro i
      by_cases h : (i : Nat) = 0
      · simp [h, value]
      · rw [value_cons_succ _ _ _ (by omega), if_neg h]
    have hlt : ∀ i : Fin (r + 1), value (0 :: p) (i + 1) < r + 1 := by
      intro i
      rw [hv]
      split
      · omega
      · have := (value_range hp (i := i) (by omega) (by omega)).2
        omega
    have h := congrArg Fin.val h
    simp only [Fin.val_ofNat, Nat.mod_eq_of_lt (hlt _)] at h
    rw [hv, hv] at h
    apply Fin.ext
    split_ifs at h with h1 h2 h3
    · omega
    · have := (value_range hp (i := j) (by omega) (by omega)).1
      omega
    · have := (value_range hp (i := i) (by omega) (by omega)).1
      omega
    · exact value_inj hp (by omega) (by omega) h

theorem eqv_val (hp : IsPerm r p) (j : Fin (r + 1)) :
    (eqv hp j : Nat) = if (j : Nat) = 0 then 0 else value p j := by
  have : (eqv hp j : Nat) = value (0 :: p) (j + 1) % (r + 1) := rfl
  rw [this]
  by_cases h : (j : Nat) = 0
  · simp [h, value]
  · rw [value_cons_succ _ _ _ (by omega), if_neg h]
    have := (value_range hp (i := j) (by omega) (by omega)).2
    exact Nat.mod_eq_of_lt (by omega)

theorem sign_eqv (hp : IsPerm r p) : Equiv.Perm.sign (eqv hp) = (-1) ^ inversions p := by
  have h0 : inversions p = inversions (0 :: p) := by simp [inversions]
  have h1 : (0 :: p : List Nat) = List.ofFn fun i : Fin (r + 1) => (fun j => value (0 :: p) (j + 1)) i := by
    apply List.ext_getElem
    · simp [hp.length]
    · intro i h h'
      have hi : i < p.length + 1 := by simpa using h
      rw [List.getElem_ofFn]
      simp only [value, Nat.add_sub_cancel]
      rw [List.getD_eq_getElem _ _ h]
  rw [h0, h1, neg_one_pow_inversions (fun j => value (0 :: p) (j + 1)), Equiv.Perm.sign_eq_prod_prod_Ioi]
  apply Finset.prod_congr rfl
  intro i _
  apply Finset.prod_congr rfl
  intro j hj
  rw [Finset.mem_Ioi] at hj
  have hv : ∀ i : Fin (r + 1), value (0 :: p) (i + 1) = eqv hp i := by
    intro i
    rw [eqv_val]
    by_cases h : (i : Nat) = 0
    · simp [h, value]
    · rw [value_cons_succ _ _ _ (by omega), if_neg h]
  simp only [hv]
  have hne : eqv hp i ≠ eqv hp j := fun h => (ne_of_lt hj) ((eqv hp).injective h)
  by_cases h : eqv hp i < eqv hp j
  · rw [if_pos h, if_neg (by exact not_lt.2 (le_of_lt h))]
  · rw [if_neg h, if_pos (Fin.lt_def.1 (lt_of_le_of_ne (not_lt.1 h) (Ne.symm hne)))]

theorem eqv_mulL (hp : IsPerm r p) (hq : IsPerm r q) :
    eqv (isPerm_mulL hp hq) = eqv hp * eqv hq := by
  apply Equiv.ext
  intro j
  apply Fin.ext
  rw [Equiv.Perm.mul_apply, eqv_val, eqv_val, eqv_val]
  by_cases h : (j : Nat) = 0
  · simp [h]
  · have hr := value_range hq (i := j) (by omega) (by omega)
    rw [if_neg h, if_neg h, if_neg (by omega), value_mulL hq (by omega) (by omega)]

theorem inversions_mulL (hp : IsPerm r p) (hq : IsPerm r q) :
    (-1 : Int) ^ inversions (mulL p q) = (-1) ^ inversions p * (-1) ^ inversions q := by
  have h : ((-1 : ℤˣ) ^ inversions (mulL p q)) = (-1) ^ inversions p * (-1) ^ inversions q := by
    rw [← sign_eqv hp, ← sign_eqv hq, ← sign_eqv (isPerm_mulL hp hq), eqv_mulL, map_mul]
  have h' := congrArg (fun u : ℤˣ => (u : Int)) h
  simpa using h'

theorem sign_formPerm {α : Type} [DecidableEq α] [Fintype α] :
    ∀ l : List α, l.Nodup → Equiv.Perm.sign l.formPerm = (-1) ^ (l.length - 1)
  | [], _ => by simp
  | [x], _ => by simp
  | x :: y :: l, h => by
    rw [List.formPerm_cons_cons, map_mul, sign_formPerm (y :: l) h.of_cons, Equiv.Perm.sign_swap]
    · simp [pow_succ]
    · rintro rfl
      simp at h

theorem prod_formPerm_of_not_mem {α : Type} [DecidableEq α] (cs : List (List α)) (x : α)
    (h : ∀ c ∈ cs, x ∉ c) : (cs.map List.formPerm).prod x = x := by
  induction cs with
  | nil => rfl
  | cons c cs ih =>
    rw [List.map_cons, List.prod_cons, Equiv.Perm.mul_apply, ih fun d hd => h d (List.mem_cons_of_mem _ hd),
      List.formPerm_apply_of_notMem (h c (by simp))]

theorem prod_formPerm_of_mem {α : Type} [DecidableEq α] (cs : List (List α)) (hn : cs.flatten.Nodup)
    (c : List α) (hc : c ∈ cs) (x : α)
    (hx : x ∈ c) : (cs.map List.formPerm).prod x = c.formPerm x := by
  induction cs with
  | nil => simp at hc
  | cons d cs ih =>
    rw [List.flatten_cons, List.nodup_append] at hn
    rw [List.map_cons, List.prod_cons, Equiv.Perm.mul_apply]
    rcases List.mem_cons.1 hc with rfl | hc
    · rw [prod_formPerm_of_not_mem]
      intro e he hxe
      exact hn.2.2 x hx x (List.mem_flatten.2 ⟨e, he, hxe⟩) rfl
    · rw [ih hn.2.1 hc, List.formPerm_apply_of_notMem]
      intro hd
      exact hn.2.2 _ hd _ (List.mem_flatten.2 ⟨c, hc, List.formPerm_apply_mem_of_mem hx⟩) rfl

theorem sign_cycles (hp : IsPerm r p) (cs : List (List Nat)) (hcs : cs.flatten.Perm (List.range' 1 r))
    (hc : ∀ c ∈ cs, IsCycle p c) :
    (-1 : ℤˣ) ^ (cs.map fun c => c.length - 1).sum = (-1) ^ inversions p := by
  set g : Nat → Fin (r + 1) := Fin.ofNat (r + 1) with hg
  have hmem : ∀ c ∈ cs, ∀ x ∈ c, 1 ≤ x ∧ x ≤ r := by
    intro c hc x hx
    have := hcs.mem_iff.1 (List.mem_flatten.2 ⟨c, hc, hx⟩)
    rw [List.mem_range'_1] at this
    omega
  have hgv : ∀ x, x ≤ r → (g x : Nat) = x := fun x hx => Nat.mod_eq_of_lt (by omega)
  have hnd : (cs.map (List.map g)).flatten.Nodup := by
    rw [← List.map_flatten, List.nodup_map_iff_inj_on (hcs.nodup_iff.2 List.nodup_range')]
    intro x hx y hy h
    obtain ⟨c, hc, hx⟩ := List.mem_flatten.1 hx
    obtain ⟨d, hd, hy⟩ := List.mem_flatten.1 hy
    have := congrArg Fin.val h
    rwa [hgv _ (hmem c hc x hx).2, hgv _ (hmem d hd y hy).2] at this
  have key : eqv hp = ((cs.map (List.map g)).map List.formPerm).prod := by
    apply Equiv.ext
    intro j
    by_cases hj : (j : Nat) = 0
    · rw [prod_formPerm_of_not_mem]
      · apply Fin.ext
        rw [eqv_val, if_pos hj, hj]
      · intro c' hc' hjc
        obtain ⟨c, hcm, rfl⟩ := List.mem_map.1 hc'
        obtain ⟨x, hx, rfl⟩ := List.mem_map.1 hjc
        have := hmem c hcm x hx
        rw [hgv _ this.2] at hj
        omega
    · have hjm : (j : Nat) ∈ cs.flatten := by
        rw [hcs.mem_iff, List.mem_range'_1]; omega
      obtain ⟨c, hcm, hjc⟩ := List.mem_flatten.1 hjm
      obtain ⟨i, hi, hij⟩ := List.getElem_of_mem hjc
      have hj' : j = (c.map g)[i]'(by simpa using hi) := by
        apply Fin.ext
        rw [List.getElem_map, hij, hgv _ (hmem c hcm _ hjc).2]
      rw [prod_formPerm_of_mem _ hnd (c.map g) (List.mem_map.2 ⟨c, hcm, rfl⟩) j
        (List.mem_map.2 ⟨j, hjc, Fin.ext (hgv _ (hmem c hcm _ hjc).2)⟩)]
      conv_rhs => rw [hj']
      have hnc : (c.map g).Nodup := (List.nodup_flatten.1 hnd).1 _ (List.mem_map.2 ⟨c, hcm, rfl⟩)
      rw [List.formPerm_apply_getElem _ hnc]
      apply Fin.ext
      have hs := (hc c hcm).step i hi
      rw [List.getD_eq_getElem _ _ hi, hij, List.getD_eq_getElem _ _ (Nat.mod_lt _ (by omega))] at hs
      have hm : c[(i + 1) % c.length]'(Nat.mod_lt _ (by omega)) ∈ c := List.getElem_mem _
      simp only [List.getElem_map, List.length_map]
      rw [eqv_val, if_neg hj, hs, hgv _ (hmem c hcm _ hm).2]
  rw [← sign_eqv hp, key, map_list_prod, List.map_map, List.map_map]
  have : ∀ ds : List (List Nat), (∀ d ∈ ds, d ∈ cs) → (-1 : ℤˣ) ^ (ds.map fun c => c.length - 1).sum =
      (ds.map ((⇑Equiv.Perm.sign ∘ List.formPerm) ∘ List.map g)).prod := by
    intro ds hds
    induction ds with
    | nil => simp
    | cons d ds ih =>
      rw [List.map_cons, List.map_cons, List.sum_cons, List.prod_cons, pow_add,
        ih fun e he => hds e (List.mem_cons_of_mem _ he)]
      simp only [Function.comp]
      rw [sign_formPerm, List.length_map]
      exact (List.nodup_flatten.1 hnd).1 _ (List.mem_map.2 ⟨d, hds d (by simp), rfl⟩)
  exact this cs fun d hd => hd

theorem isPermTuple_iff (p : List Nat) : Perm.isPermTuple p = true ↔ IsPerm p.length p := by
  unfold Perm.isPermTuple
  simp only [Bool.and_eq_true, List.all_eq_true, List.contains_iff_mem, pyRange]
  constructor
  · rintro ⟨h1, h2⟩
    apply of_perm
    have : (List.range' 1 p.length).Perm p := by
      apply (List.subperm_of_subset List.nodup_range' _).perm_of_length_le
      · rw [List.length_range']
      · intro x hx
        exact h2 x hx
    exact this.symm
  · intro h
    constructor
    · intro x hx
      exact (perm_range h).mem_iff.1 hx
    · intro x hx
      exact (perm_range h).mem_iff.2 hx

theorem sign_eq (hp : IsPerm r p) : Perm.sign p = .ok ((-1) ^ inversions p) := by
  obtain ⟨cs, h1, h2, h3⟩ := toCycles_spec hp
  have hr := hp.length
  unfold Perm.sign
  rw [(isPermTuple_iff p).2 (by rw [hr]; exact hp), h1]
  simp only [Bool.not_true, Bool.false_eq_true, if_false, bind, Except.bind, Bool.false_or]
  have := sign_cycles hp cs h2 h3
  have h4 : ∀ ds : List (List Nat), ((ds.filter fun c => decide (1 < c.length)).map fun c => c.length - 1).sum =
      (ds.map fun c => c.length - 1).sum := by
    intro ds
    induction ds with
    | nil => rfl
    | cons d ds ih =>
      rw [List.filter_cons]
      split
      · simp [ih]
      · next h =>
        simp only [decide_eq_true_eq] at h
        rw [List.map_cons, List.sum_cons, ih]
        omega
  rw [h4]
  have h' := congrArg (fun u : ℤˣ => (u : Int)) this
  simp only [Units.val_pow_eq_pow_val, Units.val_neg, Units.val_one] at h'
  rw [h']

theorem sign_err (h : ¬ ∃ r, IsPerm r p) : Perm.sign p = .error .typeError := by
  unfold Perm.sign
  rw [if_pos]
  rw [Bool.not_eq_true', Bool.eq_false_iff]
  intro h'
  exact h ⟨_, (isPermTuple_iff p).1 h'⟩

end IsPerm
end Comch
