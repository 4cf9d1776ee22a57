import Verif.Lib.PermOps
import Verif.Lib.PermSign
import Verif.Lib.Permutations

/-! # Permutations: C10–C15

`Spec.IsPerm r p` says that the tuple `p` is a permutation of `1..r`, `Spec.value p i` is `p(i)`.
-/

namespace Comch.Props
open Comch Spec IsPerm

/-! ## C10 group structure -/

/-- `p * q` does not raise and is the composite function `i ↦ p(q(i))`. -/
theorem C10_mul_composite {r : Nat} {p q : Perm} (hr : 1 ≤ r) (hp : IsPerm r p) (hq : IsPerm r q) :
    ∃ t, Perm.mul p q = .ok t ∧ IsPerm r t ∧
      ∀ i, 1 ≤ i → i ≤ r → value t i = value p (value q i) :=
  ⟨_, mul_eq hp hq hr, isPerm_mulL hp hq, fun _ h1 h2 => value_mulL hq h1 h2⟩

theorem C10_mul_assoc {r : Nat} {p q t : Perm} (hr : 1 ≤ r) (hp : IsPerm r p) (hq : IsPerm r q)
    (ht : IsPerm r t) :
    ∃ pq qt w, Perm.mul p q = .ok pq ∧ Perm.mul q t = .ok qt ∧
      Perm.mul pq t = .ok w ∧ Perm.mul p qt = .ok w :=
  ⟨_, _, _, mul_eq hp hq hr, mul_eq hq ht hr, mul_eq (isPerm_mulL hp hq) ht hr, by
    rw [mulL_assoc hp hq ht]; exact mul_eq hp (isPerm_mulL hq ht) hr⟩

/-- `(1, …, r)` is neutral on both sides. -/
theorem C10_identity {r : Nat} {p : Perm} (hr : 1 ≤ r) (hp : IsPerm r p) :
    Perm.mul (List.range' 1 r) p = .ok p ∧ Perm.mul p (List.range' 1 r) = .ok p := by
  have h1 := mul_eq (isPerm_id r) hp hr
  have h2 := mul_eq hp (isPerm_id r) hr
  rw [id_mulL hp] at h1
  rw [mulL_id hp] at h2
  exact ⟨h1, h2⟩

/-- `p.inverse()` does not raise and is a two-sided inverse. -/
theorem C10_inverse {r : Nat} {p : Perm} (hr : 1 ≤ r) (hp : IsPerm r p) :
    ∃ q, Perm.inverse p = .ok q ∧ IsPerm r q ∧
      Perm.mul p q = .ok (List.range' 1 r) ∧ Perm.mul q p = .ok (List.range' 1 r) := by
  refine ⟨_, inverse_eq hp hr, isPerm_invL hp, ?_, ?_⟩
  · rw [mul_eq hp (isPerm_invL hp) hr, mulL_invL hp]; rfl
  · rw [mul_eq (isPerm_invL hp) hp hr, invL_mulL hp]; rfl

theorem C10_arity_mismatch {r s : Nat} {p q : Perm} (hr : 1 ≤ r) (hs : 1 ≤ s) (hp : IsPerm r p)
    (hq : IsPerm s q) (h : r ≠ s) : Perm.mul p q = .error .typeError := by
  unfold Perm.mul
  rw [arity_eq hp hr, arity_eq hq hs]
  simp [bind, Except.bind, h]

example : IsPerm 4 [2, 4, 1, 3] ∧ IsPerm 4 [3, 1, 2, 4] ∧
    Perm.mul [2, 4, 1, 3] [3, 1, 2, 4] = .ok [1, 2, 4, 3] ∧
    Perm.inverse [2, 4, 1, 3] = .ok [3, 1, 4, 2] := by decide +kernel

/-! ## C11 sign -/

/-- `sign` is the parity of the number of inversions (pairs in the wrong order). -/
theorem C11_sign_inversions {r : Nat} {p : Perm} (hp : IsPerm r p) :
    Perm.sign p = .ok ((-1) ^ inversions p) := sign_eq hp

theorem C11_sign_mul {r : Nat} {p q : Perm} (hr : 1 ≤ r) (hp : IsPerm r p) (hq : IsPerm r q) :
    ∃ pq a b, Perm.mul p q = .ok pq ∧ Perm.sign p = .ok a ∧ Perm.sign q = .ok b ∧
      Perm.sign pq = .ok (a * b) :=
  ⟨_, _, _, mul_eq hp hq hr, sign_eq hp, sign_eq hq, by
    rw [sign_eq (isPerm_mulL hp hq), inversions_mulL hp hq]⟩

/-- On every other tuple `sign` raises `TypeError`. -/
theorem C11_sign_not_perm {p : Perm} (h : ∀ r, ¬ IsPerm r p) : Perm.sign p = .error .typeError :=
  sign_err (by simpa using h)

example : IsPerm 4 [2, 4, 1, 3] ∧ inversions [2, 4, 1, 3] = 3 ∧
    Perm.sign [2, 4, 1, 3] = .ok (-1) ∧ Perm.sign [2, 2] = .error .typeError := by decide +kernel

example : ∀ r, ¬ IsPerm r [2, 2] := fun r h => by
  have := h.nodup
  simp at this

/-! ## C12 cycles -/

/-- With `singletons=True` every letter occurs exactly once in the returned tuples, each of which is
a cycle of `p`; the call terminates and does not raise. -/
theorem C12_cycles_singletons {r : Nat} {p : Perm} (hp : IsPerm r p) :
    ∃ cs, Perm.toCycles p true = .ok cs ∧ cs.flatten.Perm (List.range' 1 r) ∧
      ∀ c ∈ cs, IsCycle p c := by
  obtain ⟨cs, h1, h2, h3⟩ := toCycles_spec hp
  refine ⟨cs, ?_, h2, h3⟩
  have := h1 true
  simpa using this

/-- With `singletons=False` exactly the letters which are moved occur, each of them once. -/
theorem C12_cycles {r : Nat} {p : Perm} (hp : IsPerm r p) :
    ∃ cs, Perm.toCycles p false = .ok cs ∧ cs.flatten.Nodup ∧
      (∀ i, i ∈ cs.flatten ↔ (1 ≤ i ∧ i ≤ r) ∧ value p i ≠ i) ∧
      ∀ c ∈ cs, IsCycle p c ∧ 2 ≤ c.length := by
  obtain ⟨cs, h1, h2, h3⟩ := toCycles_spec hp
  have hnd : cs.flatten.Nodup := h2.nodup_iff.2 List.nodup_range'
  refine ⟨cs.filter fun c => decide (1 < c.length), ?_, ?_, ?_, ?_⟩
  · have := h1 false
    simpa using this
  · exact List.Nodup.sublist (List.Sublist.flatten List.filter_sublist) hnd
  · intro i
    simp only [List.mem_flatten, List.mem_filter, decide_eq_true_eq]
    have hmem : i ∈ cs.flatten ↔ 1 ≤ i ∧ i ≤ r := by
      rw [h2.mem_iff, List.mem_range'_1]; omega
    -- a letter of a cycle of length `n` is fixed exactly when `n = 1`
    have hfix : ∀ c ∈ cs, i ∈ c → (1 < c.length ↔ value p i ≠ i) := by
      intro c hc hic
      obtain ⟨j, hj, hji⟩ := List.getElem_of_mem hic
      have hs := (h3 c hc).step j hj
      have hlen : 0 < c.length := by omega
      rw [List.getD_eq_getElem _ _ hj, hji, List.getD_eq_getElem _ _ (Nat.mod_lt _ hlen)] at hs
      rw [hs]
      conv_rhs => rw [← hji]
      rw [Ne, List.Nodup.getElem_inj_iff (h3 c hc).nodup]
      constructor
      · intro h1 h
        by_cases hj' : j + 1 < c.length
        · rw [Nat.mod_eq_of_lt hj'] at h; omega
        · rw [show j + 1 = c.length by omega, Nat.mod_self] at h; omega
      · intro h
        by_contra hc1
        have : c.length = 1 := by omega
        apply h
        rw [this, Nat.mod_one]; omega
    constructor
    · rintro ⟨c, ⟨hc, hl⟩, hic⟩
      exact ⟨hmem.1 (List.mem_flatten.2 ⟨c, hc, hic⟩), (hfix c hc hic).1 hl⟩
    · rintro ⟨hr, hv⟩
      obtain ⟨c, hc, hic⟩ := List.mem_flatten.1 (hmem.2 hr)
      exact ⟨c, ⟨hc, (hfix c hc hic).2 hv⟩, hic⟩
  · intro c hc
    rw [List.mem_filter, decide_eq_true_eq] at hc
    exact ⟨h3 c hc.1, hc.2⟩

example : IsPerm 5 [2, 5, 3, 4, 1] ∧ Perm.toCycles [2, 5, 3, 4, 1] true = .ok [[1, 2, 5], [3], [4]] ∧
    Perm.toCycles [2, 5, 3, 4, 1] false = .ok [[1, 2, 5]] := by decide +kernel

/-! ## C13 powers -/

/-- The function `i ↦ p(i)` iterated. -/
theorem C13_pow_iterate {r : Nat} {p : Perm} (hr : 1 ≤ r) (hp : IsPerm r p) (n : Nat) :
    ∃ t, Perm.pow p n = .ok t ∧ IsPerm r t ∧
      ∀ i, 1 ≤ i → i ≤ r → value t i = (value p)^[n] i :=
  ⟨_, pow_eq hp hr n, isPerm_powL hp n, fun _ h1 h2 => value_powL hp n h1 h2⟩

theorem C13_pow_zero {r : Nat} {p : Perm} (hr : 1 ≤ r) (hp : IsPerm r p) :
    Perm.pow p 0 = .ok (List.range' 1 r) := by
  have := pow_eq hp hr 0
  exact this

theorem C13_pow_add {r : Nat} {p : Perm} (hr : 1 ≤ r) (hp : IsPerm r p) (m n : Nat) :
    ∃ a b c, Perm.pow p m = .ok a ∧ Perm.pow p n = .ok b ∧ Perm.pow p (m + n : Nat) = .ok c ∧
      Perm.mul a b = .ok c :=
  ⟨_, _, _, pow_eq hp hr m, pow_eq hp hr n, pow_eq hp hr (m + n), by
    rw [powL_add hp, mul_eq (isPerm_powL hp m) (isPerm_powL hp n) hr]⟩

theorem C13_pow_one (p : Perm) : Perm.pow p 1 = .ok p := rfl

/-- Negative exponents are not inverted: the code returns the permutation itself. -/
theorem C13_pow_negative (p : Perm) (n : Int) (h : n < 0) : Perm.pow p n = .ok p := by
  unfold Perm.pow
  rw [if_neg (by omega), show (n - 1).toNat = 0 by omega]
  rfl

example : IsPerm 4 [2, 4, 1, 3] ∧ Perm.pow [2, 4, 1, 3] 3 = .ok [3, 1, 4, 2] ∧
    Perm.pow [2, 4, 1, 3] (-1) = .ok [2, 4, 1, 3] := by decide +kernel

/-! ## C14 operadic composition -/

theorem C14_compose_perm {r s : Nat} {p q : Perm} (hp : IsPerm r p) (hq : IsPerm s q) {i : Nat}
    (h1 : 1 ≤ i) (h2 : i ≤ r) :
    ∃ t, Perm.compose p q i = .ok t ∧ IsPerm (r + s - 1) t :=
  ⟨_, compose_eq hp q h1 h2, isPerm_compL hp hq h1 h2⟩

/-- What the composite is: the letter `i` of the word `p` is replaced by the word `q`, shifted up by
`i - 1`, and the letters of `p` above `i` are shifted up by `s - 1`. -/
theorem C14_compose_word {r s : Nat} {p q u v : Perm} {i : Nat} (hp : IsPerm r p) (hq : IsPerm s q)
    (he : p = u ++ i :: v) :
    Perm.compose p q i = .ok ((u.map fun a => if a < i then a else a + s - 1) ++
      (q.map fun b => b + (i - 1)) ++ v.map fun a => if a < i then a else a + s - 1) := by
  have hi : i ∈ p := by rw [he]; simp
  have hir := hp.range i hi
  have hnu : ∀ a ∈ u ++ v, a ≠ i := by
    have := hp.nodup
    rw [he, List.nodup_append, List.nodup_cons] at this
    intro a ha h
    subst h
    rcases List.mem_append.1 ha with ha | ha
    · exact this.2.2 a ha a (by simp) rfl
    · exact this.2.1.1 ha
  have key : ∀ w : List Nat, (∀ a ∈ w, a ≠ i ∧ 1 ≤ a) →
      w.flatMap (subst1 q i) = w.map fun a => if a < i then a else a + s - 1 := by
    intro w hw
    induction w with
    | nil => rfl
    | cons a w ih =>
      rw [List.flatMap_cons, List.map_cons, ih fun b hb => hw b (List.mem_cons_of_mem _ hb)]
      have := hw a (by simp)
      unfold subst1
      rw [hq.length]
      split
      · rfl
      · rw [if_neg this.1]
        rfl
  rw [compose_eq hp q hir.1 hir.2]
  have hpos : ∀ a ∈ u ++ v, 1 ≤ a := by
    intro a ha
    refine (hp.range a ?_).1
    rw [he]
    rcases List.mem_append.1 ha with ha | ha <;> simp [ha]
  rw [he]
  unfold compL
  rw [List.flatMap_append, List.flatMap_cons,
    key u fun a ha => ⟨hnu a (by simp [ha]), hpos a (by simp [ha])⟩,
    key v fun a ha => ⟨hnu a (by simp [ha]), hpos a (by simp [ha])⟩]
  have : subst1 q i i = q.map fun b => b + (i - 1) := by
    unfold subst1
    rw [if_neg (lt_irrefl _), if_pos rfl]
    apply List.map_congr_left
    intro b hb
    have := hq.range b hb
    omega
  rw [this, List.append_assoc]

theorem C14_compose_unit {r : Nat} {p : Perm} (hp : IsPerm r p) {i : Nat} (h1 : 1 ≤ i) (h2 : i ≤ r) :
    Perm.compose p [1] i = .ok p ∧ Perm.compose [1] p 1 = .ok p := by
  constructor
  · rw [compose_eq hp [1] h1 h2, compL_one hp h1]
  · rw [compose_eq (r := 1) (by decide) p (le_refl _) (le_refl _), one_compL]

/-- Sequential associativity `(p ∘_i q) ∘_{i+j-1} t = p ∘_i (q ∘_j t)`. -/
theorem C14_compose_sequential {r s u : Nat} {p q t : Perm} (hp : IsPerm r p) (hq : IsPerm s q)
    (ht : IsPerm u t) {i j : Nat} (hi : 1 ≤ i ∧ i ≤ r) (hj : 1 ≤ j ∧ j ≤ s) :
    ∃ pq qt w, Perm.compose p q i = .ok pq ∧ Perm.compose q t j = .ok qt ∧
      Perm.compose pq t (i + j - 1) = .ok w ∧ Perm.compose p qt i = .ok w := by
  refine ⟨_, _, _, compose_eq hp q hi.1 hi.2, compose_eq hq t hj.1 hj.2,
    compose_eq (isPerm_compL hp hq hi.1 hi.2) t (by omega) (by omega), ?_⟩
  rw [compose_eq hp _ hi.1 hi.2, compL_seq hp hq (fun b hb => (ht.range b hb).1) hi hj
    (by rw [length_compL hq ht hj.1 hj.2, ht.length])]

/-- Parallel associativity `(p ∘_i q) ∘_{k+s-1} t = (p ∘_k t) ∘_i q` for `i < k`. -/
theorem C14_compose_parallel {r s u : Nat} {p q t : Perm} (hp : IsPerm r p) (hq : IsPerm s q)
    (ht : IsPerm u t) {i k : Nat} (hi : 1 ≤ i) (hik : i < k) (hk : k ≤ r) :
    ∃ pq pt w, Perm.compose p q i = .ok pq ∧ Perm.compose p t k = .ok pt ∧
      Perm.compose pq t (k + s - 1) = .ok w ∧ Perm.compose pt q i = .ok w := by
  refine ⟨_, _, _, compose_eq hp q hi (by omega), compose_eq hp t (by omega) hk,
    compose_eq (isPerm_compL hp hq hi (by omega)) t (by omega) (by omega), ?_⟩
  rw [compL_par hp hq (fun b hb => (ht.range b hb).1) hi hik]
  by_cases hu : i ≤ r + u - 1
  · exact compose_eq (isPerm_compL hp ht (by omega) hk) q hi hu
  · omega

theorem C14_compose_bad_position {r : Nat} {p : Perm} (hp : IsPerm r p) (q : Perm) {i : Nat}
    (h : ¬ (1 ≤ i ∧ i ≤ r)) : Perm.compose p q i = .error .valueError :=
  compose_err q (by rw [mem_iff hp]; exact h)

example : IsPerm 3 [1, 3, 2] ∧ IsPerm 2 [2, 1] ∧ Perm.compose [1, 3, 2] [2, 1] 2 = .ok [1, 4, 3, 2] ∧
    Perm.compose [1, 4, 3, 2] [2, 1] 4 = .ok [1, 5, 4, 3, 2] := by decide +kernel

/-! ## C15 enumeration -/

theorem C15_all (n : Nat) :
    (SymmetricGroup.all n).Nodup ∧ ∀ p, p ∈ SymmetricGroup.all n ↔ IsPerm n p := by
  refine ⟨nodup_permutations List.nodup_range', ?_⟩
  intro p
  unfold SymmetricGroup.all
  rw [mem_permutations]
  exact ⟨of_perm, perm_range⟩

theorem C15_shuffles (i j : Nat) :
    (SymmetricGroup.shuffles i j).Nodup ∧ ∀ p, p ∈ SymmetricGroup.shuffles i j ↔
      IsPerm (i + j) p ∧ (p.take i).Pairwise (· < ·) ∧ (p.drop i).Pairwise (· < ·) := by
  refine ⟨List.Nodup.filter _ (nodup_permutations List.nodup_range'), ?_⟩
  intro p
  unfold SymmetricGroup.shuffles
  rw [List.mem_filter, mem_permutations, Bool.and_eq_true, pairwise_all, pairwise_all]
  exact and_congr_left fun _ => ⟨of_perm, perm_range⟩

example : SymmetricGroup.shuffles 1 2 = [[1, 2, 3], [2, 1, 3], [3, 1, 2]] := by decide +kernel

end Comch.Props
