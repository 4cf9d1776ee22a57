import Verif.Lib.Perm

/-! # Powers, operadic composition, cycles -/

set_option linter.unusedSectionVars false

namespace Comch
open Spec (IsPerm value IsCycle)

namespace IsPerm
variable {r s : Nat} {p q t : List Nat}

/-- Powers as tuples. -/
def powL (r : Nat) (p : List Nat) : Nat → List Nat
  | 0 => pyRange 1 (r + 1)
  | n + 1 => mulL (powL r p n) p

theorem isPerm_powL (hp : IsPerm r p) (n : Nat) : IsPerm r (powL r p n) := by
  induction n with
  | zero => exact isPerm_id r
  | succ n ih => exact isPerm_mulL ih hp

theorem powLoop_eq (hp : IsPerm r p) (hr : 1 ≤ r) (m n : Nat) :
    Perm.powLoop p m (powL r p n) = .ok (powL r p (n + m)) := by
  induction m generalizing n with
  | zero => rfl
  | succ m ih =>
    unfold Perm.powLoop
    rw [mul_eq (isPerm_powL hp n) hp hr]
    simp only [bind, Except.bind]
    have := ih (n + 1)
    rw [powL] at this
    rw [this]
    congr 2
    omega

theorem pow_eq (hp : IsPerm r p) (hr : 1 ≤ r) (n : Nat) : Perm.pow p n = .ok (powL r p n) := by
  unfold Perm.pow
  cases n with
  | zero =>
    rw [if_pos (by simp), arity_eq hp hr]
    rfl
  | succ n =>
    rw [if_neg (by omega)]
    have h1 : ((n + 1 : Nat) : Int) - 1 = n := by push_cast; ring
    rw [h1, Int.toNat_natCast]
    have := powLoop_eq hp hr n 1
    rw [powL, powL, id_mulL hp] at this
    rw [this, Nat.add_comm]

theorem value_powL (hp : IsPerm r p) (n : Nat) {i : Nat} (h1 : 1 ≤ i) (h2 : i ≤ r) :
    value (powL r p n) i = (value p)^[n] i := by
  induction n generalizing i with
  | zero => rw [powL, value_id h1 h2]; rfl
  | succ n ih =>
    have h3 := value_range hp h1 h2
    rw [powL, value_mulL hp h1 h2, ih h3.1 h3.2, Function.iterate_succ_apply]

theorem powL_add (hp : IsPerm r p) (m n : Nat) :
    powL r p (m + n) = mulL (powL r p m) (powL r p n) := by
  induction n with
  | zero => rw [Nat.add_zero, powL, mulL_id (isPerm_powL hp m)]
  | succ n ih =>
    rw [← Nat.add_assoc, powL, powL, ih, mulL_assoc (isPerm_powL hp m) (isPerm_powL hp n) hp]

/-! ### operadic composition -/

/-- One letter of a substitution. -/
def subst1 (q : List Nat) (i a : Nat) : List Nat :=
  if a < i then [a] else if a = i then q.map fun b => b + i - 1 else [a + q.length - 1]

/-- Substitute the word `q` for the letter `i`. -/
def compL (p q : List Nat) (i : Nat) : List Nat := p.flatMap (subst1 q i)

theorem compose_eq' {p : List Nat} (hp : p.Nodup) (q : List Nat) {i : Nat} (hi : i ∈ p) :
    Perm.compose p q i = .ok (compL p q i) := by
  have hne : ∀ l : List Nat, i ∉ l →
      l.flatMap (subst1 q i) = l.map fun a => if a > i then a + q.length - 1 else a := by
    intro l hl
    induction l with
    | nil => rfl
    | cons a l ih =>
      simp only [List.mem_cons, not_or] at hl
      rw [List.flatMap_cons, List.map_cons, ih hl.2, ← List.singleton_append]
      congr 1
      unfold subst1
      split
      · rw [if_neg (by omega)]
      · rw [if_neg (Ne.symm hl.1), if_pos (by omega)]
  obtain ⟨u, v, rfl⟩ := List.append_of_mem hi
  have hu : i ∉ u := by
    intro h
    rw [List.nodup_append] at hp
    exact hp.2.2 i h i (by simp) rfl
  have hv : i ∉ v := by
    rw [List.nodup_append] at hp
    exact (List.nodup_cons.1 hp.2.1).1
  have hidx : (u ++ i :: v).idxOf i = u.length := by
    rw [List.idxOf_append_of_notMem hu]; simp
  unfold Perm.compose pyIndex
  simp only [hidx, compL, List.flatMap_append, List.flatMap_cons, hne u hu, hne v hv]
  rw [if_pos (by simp)]
  have hd : ∀ (f : Nat → Nat) (c : Nat), List.drop (u.length + 1) (u.map f ++ c :: v.map f) = v.map f := by
    intro f c
    rw [show u.length + 1 = (u.map f).length + 1 by simp, List.drop_append]
    simp
  simp [bind, Except.bind, subst1, hd]

theorem compose_eq (hp : IsPerm r p) (q : List Nat) {i : Nat} (h1 : 1 ≤ i) (h2 : i ≤ r) :
    Perm.compose p q i = .ok (compL p q i) :=
  compose_eq' hp.nodup q ((mem_iff hp).2 ⟨h1, h2⟩)

theorem compose_err (q : List Nat) {i : Nat} (h : i ∉ p) :
    Perm.compose p q i = .error .valueError := by
  unfold Perm.compose pyIndex
  rw [if_neg (by rw [List.idxOf_lt_length_iff]; exact h)]
  rfl

theorem isPerm_compL (hp : IsPerm r p) (hq : IsPerm s q) {i : Nat} (h1 : 1 ≤ i) (h2 : i ≤ r) :
    IsPerm (r + s - 1) (compL p q i) := by
  have hi : i ∈ p := (mem_iff hp).2 ⟨h1, h2⟩
  refine ⟨?_, ?_, ?_⟩
  · have key : ∀ l : List Nat, l.Nodup → (l.flatMap (subst1 q i)).length + (if i ∈ l then 1 else 0) =
        l.length + if i ∈ l then s else 0 := by
      intro l hl
      induction l with
      | nil => simp
      | cons a l ih =>
        rw [List.nodup_cons] at hl
        have := ih hl.2
        rw [List.flatMap_cons, List.length_append]
        by_cases ha : a = i
        · subst ha
          simp only [hl.1, if_false, List.mem_cons, true_or, if_true] at this ⊢
          simp only [subst1, lt_irrefl, if_false, if_true, List.length_map, hq.length, List.length_cons]
          omega
        · have : (subst1 q i a).length = 1 := by
            unfold subst1; split_ifs <;> simp
          have h3 : (i ∈ a :: l) = (i ∈ l) := by simp [Ne.symm ha]
          simp only [this, h3, List.length_cons]
          omega
    have := key p hp.nodup
    simp only [hi, if_true, hp.length] at this
    unfold compL
    omega
  · unfold compL
    rw [List.nodup_flatMap]
    constructor
    · intro a _
      unfold subst1
      split_ifs
      · simp
      · rw [List.nodup_map_iff_inj_on hq.nodup]
        intro b hb c hc h
        have := (hq.range b hb).1
        have := (hq.range c hc).1
        omega
      · simp
    · apply List.Nodup.pairwise_of_forall_ne hp.nodup
      intro a ha b hb hab c hc hc'
      unfold subst1 at hc hc'
      rw [hq.length] at hc hc'
      split_ifs at hc hc' <;> simp only [List.mem_cons, List.not_mem_nil, or_false, List.mem_map]
        at hc hc'
      · omega
      · obtain ⟨d, hd, h⟩ := hc'
        have := hq.range d hd
        omega
      · omega
      · obtain ⟨d, hd, h⟩ := hc
        have := hq.range d hd
        omega
      · omega
      · obtain ⟨d, hd, h⟩ := hc
        have := hq.range d hd
        omega
      · omega
      · obtain ⟨d, hd, h⟩ := hc'
        have := hq.range d hd
        omega
      · omega
  · intro c hc
    obtain ⟨a, ha, hc⟩ := List.mem_flatMap.1 hc
    have hr := hp.range a ha
    unfold subst1 at hc
    rw [hq.length] at hc
    split_ifs at hc <;> simp only [List.mem_cons, List.not_mem_nil, or_false, List.mem_map] at hc
    · subst hc
      omega
    · obtain ⟨d, hd, h⟩ := hc
      have := hq.range d hd
      omega
    · omega

theorem compL_one (hp : IsPerm r p) {i : Nat} (h1 : 1 ≤ i) : compL p [1] i = p := by
  unfold compL
  conv_rhs => rw [← List.flatMap_singleton' p]
  apply List.flatMap_congr
  intro a _
  unfold subst1
  simp only [List.map_cons, List.map_nil, List.length_cons, List.length_nil]
  split_ifs with h h'
  · rfl
  · subst h'; congr 1; omega
  · congr 1

theorem one_compL (q : List Nat) : compL [1] q 1 = q := by
  simp [compL, subst1]

theorem length_compL (hp : IsPerm r p) (hq : IsPerm s q) {i : Nat} (h1 : 1 ≤ i) (h2 : i ≤ r) :
    (compL p q i).length = r + s - 1 := (isPerm_compL hp hq h1 h2).length

theorem compL_seq (hp : IsPerm r p) (hq : IsPerm s q) (ht : ∀ b ∈ t, 1 ≤ b) {i j : Nat}
    (hi : 1 ≤ i ∧ i ≤ r) (hj : 1 ≤ j ∧ j ≤ s) (hlen : (compL q t j).length = s + t.length - 1) :
    compL (compL p q i) t (i + j - 1) = compL p (compL q t j) i := by
  unfold compL at hlen ⊢
  rw [List.flatMap_assoc]
  apply List.flatMap_congr
  intro a ha
  have har := hp.range a ha
  by_cases h1 : a < i
  · simp only [subst1, if_pos h1, List.flatMap_cons, List.flatMap_nil, List.append_nil]
    rw [if_pos (by omega)]
  · by_cases h2 : a = i
    · subst h2
      simp only [subst1, lt_irrefl, if_false, if_true]
      rw [List.flatMap_map, List.map_flatMap]
      apply List.flatMap_congr
      intro b hb
      have hbr := hq.range b hb
      simp only [subst1]
      by_cases h3 : b < j
      · rw [if_pos (by omega), if_pos h3]; simp
      · by_cases h4 : b = j
        · subst h4
          have e : b + a - 1 = a + b - 1 := by omega
          rw [if_neg (by omega), if_pos e, if_neg h3, if_pos rfl, List.map_map]
          apply List.map_congr_left
          intro c hc
          have := ht c hc
          simp only [Function.comp]
          omega
        · rw [if_neg (by omega), if_neg (by omega), if_neg h3, if_neg h4]
          simp only [List.map_cons, List.map_nil, List.cons.injEq, and_true]
          omega
    · have h3 : i < a := by omega
      simp only [subst1, if_neg h1, if_neg h2, List.flatMap_cons, List.flatMap_nil, List.append_nil]
      have hq' := hq.length
      rw [if_neg (by omega), if_neg (by omega)]
      simp only [List.cons.injEq, and_true]
      rw [hlen]
      omega

theorem compL_par (hp : IsPerm r p) (hq : IsPerm s q) (ht : ∀ b ∈ t, 1 ≤ b) {i k : Nat}
    (hi : 1 ≤ i) (hik : i < k) :
    compL (compL p q i) t (k + s - 1) = compL (compL p t k) q i := by
  unfold compL
  rw [List.flatMap_assoc, List.flatMap_assoc]
  apply List.flatMap_congr
  intro a ha
  have har := hp.range a ha
  have hq' := hq.length
  by_cases h1 : a < i
  · simp only [subst1, if_pos h1, if_pos (show a < k by omega), List.flatMap_cons, List.flatMap_nil,
      List.append_nil, if_pos (show a < k + s - 1 by omega)]
  · by_cases h2 : a = i
    · subst h2
      simp only [subst1, lt_irrefl, if_false, if_true, if_pos hik, List.flatMap_cons,
        List.flatMap_nil, List.append_nil]
      rw [List.flatMap_map]
      conv_rhs => rw [← List.flatMap_singleton' (q.map fun b => b + a - 1), List.flatMap_map]
      apply List.flatMap_congr
      intro b hb
      have hbr := hq.range b hb
      simp only [subst1]
      rw [if_pos (by omega)]
    · have h3 : i < a := by omega
      by_cases h4 : a < k
      · simp only [subst1, if_neg h1, if_neg h2, if_pos h4, List.flatMap_cons, List.flatMap_nil,
          List.append_nil, hq']
        rw [if_pos (by omega)]
      · by_cases h5 : a = k
        · subst h5
          simp only [subst1, if_neg h1, if_neg h2, lt_irrefl, if_false, if_true, List.flatMap_cons,
            List.flatMap_nil, List.append_nil, hq']
          rw [List.flatMap_map]
          conv_lhs => rw [← List.flatMap_singleton' (t.map _), List.flatMap_map]
          apply List.flatMap_congr
          intro b hb
          have := ht b hb
          simp only [subst1]
          rw [if_neg (by omega), if_neg (by omega)]
          congr 1
          omega
        · simp only [subst1, if_neg h1, if_neg h2, if_neg h4, if_neg h5, List.flatMap_cons,
            List.flatMap_nil, List.append_nil, hq']
          rw [if_neg (by omega), if_neg (by omega), if_neg (by omega), if_neg (by omega)]
          congr 1
          omega

end IsPerm
end Comch
