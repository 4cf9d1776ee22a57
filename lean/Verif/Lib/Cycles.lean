import Verif.Lib.Perm
import Mathlib.Data.List.GetD
import Mathlib.GroupTheory.Perm.List
import Mathlib.GroupTheory.Perm.Fin

/-! # `to_cycles` and `sign` -/

namespace Comch
open Spec

namespace IsPerm

variable {r : Nat} {p : List Nat}

/-- The work list `w` marks exactly the letters of `U` as visited. -/
def Rep (r : Nat) (p : List Nat) (w : List (Option Nat)) (U : List Nat) : Prop :=
  w.length = r ∧ ∀ j, j < r → w[j]? = some (if j + 1 ∈ U then none else some (value p (j + 1)))

theorem Rep.set {w : List (Option Nat)} {U : List Nat} (h : Rep r p w U) {i : Nat} :
    Rep r p (w.set i none) (U ++ [i + 1]) := by
  refine ⟨by simp [h.1], ?_⟩
  intro j hj
  by_cases hij : i = j
  · subst hij
    simp [h.1, hj]
  · rw [List.getElem?_set_ne hij, h.2 j hj]
    have : j + 1 ≠ i + 1 := by omega
    simp [Ne.symm hij]

theorem mem_of_value_mem {c : List Nat} (hp : IsPerm r p) (hc : IsCycle p c)
    (hr : ∀ x ∈ c, 1 ≤ x ∧ x ≤ r) {y : Nat} (hy : 1 ≤ y ∧ y ≤ r) (h : value p y ∈ c) : y ∈ c := by
  obtain ⟨i, hi, hiv⟩ := List.getElem_of_mem h
  have hlen : 0 < c.length := by omega
  obtain ⟨k, hk, hki⟩ : ∃ k, k < c.length ∧ (k + 1) % c.length = i := by
    by_cases h0 : i = 0
    · refine ⟨c.length - 1, by omega, ?_⟩
      rw [show c.length - 1 + 1 = c.length by omega, Nat.mod_self, h0]
    · refine ⟨i - 1, by omega, ?_⟩
      rw [show i - 1 + 1 = i by omega, Nat.mod_eq_of_lt hi]
  have hs := hc.step k hk
  rw [hki, List.getD_eq_getElem _ _ hi, hiv, List.getD_eq_getElem _ _ hk] at hs
  have hck : c[k] ∈ c := List.getElem_mem _
  have := value_inj hp (hr _ hck) hy hs
  rw [← this]; exact hck

theorem cycleLoop_spec (hp : IsPerm r p) (first : Nat) (hf : 1 ≤ first ∧ first ≤ r) (U : List Nat)
    (hU : ∀ y, 1 ≤ y → y ≤ r → value p y ∈ U → y ∈ U) :
    ∀ (fuel : Nat) (w : List (Option Nat)) (cycle : List Nat) (last : Nat),
      Rep r p w (U ++ cycle) → cycle.Nodup → (∀ x ∈ cycle, 1 ≤ x ∧ x ≤ r) →
      (∀ x ∈ cycle, x ∉ U) → cycle.head? = some first → cycle.getLast? = some last →
      (∀ i, i + 1 < cycle.length → value p (cycle.getD i 0) = cycle.getD (i + 1) 0) →
      fuel + cycle.length = r + 1 →
      ∃ c w', Perm.cycleLoop first fuel w (value p last) cycle = .ok (c, w') ∧
        Rep r p w' (U ++ c) ∧ IsCycle p c ∧ (∀ x ∈ c, 1 ≤ x ∧ x ≤ r) ∧ (∀ x ∈ c, x ∉ U) ∧
        first ∈ c := by
  intro fuel
  induction fuel with
  | zero =>
    intro w cycle last _ hn hr _ _ _ _ hfu
    have : cycle.length ≤ (List.range' 1 r).length := by
      apply (List.subperm_of_subset hn _).length_le
      intro x hx
      have := hr x hx
      rw [List.mem_range'_1]; omega
    rw [List.length_range'] at this
    omega
  | succ fuel ih =>
    intro w cycle last hw hn hr hd hh hl hs hfu
    have hne : cycle ≠ [] := by rintro rfl; simp at hh
    have hpos : 0 < cycle.length := List.length_pos_iff.2 hne
    have hlast : cycle.getD (cycle.length - 1) 0 = last := by
      rw [List.getLast?_eq_getElem?] at hl
      rw [List.getD_eq_getElem?_getD, hl]; rfl
    have hfirst : cycle.getD 0 0 = first := by
      rw [List.head?_eq_getElem?] at hh
      rw [List.getD_eq_getElem?_getD, hh]; rfl
    have hlm : last ∈ cycle := List.mem_of_getLast? hl
    have hfm : first ∈ cycle := List.mem_of_head? hh
    have hlr := hr last hlm
    have hnr := value_range hp hlr.1 hlr.2
    rw [Perm.cycleLoop]
    by_cases hnf : value p last = first
    · rw [if_pos hnf]
      refine ⟨cycle, w, rfl, hw, ⟨hne, hn, ?_⟩, hr, hd, hfm⟩
      intro i hi
      by_cases hi' : i + 1 < cycle.length
      · rw [Nat.mod_eq_of_lt hi']; exact hs i hi'
      · have : i = cycle.length - 1 := by omega
        rw [this, show cycle.length - 1 + 1 = cycle.length by omega, Nat.mod_self, hfirst, hlast, hnf]
    · rw [if_neg hnf]
      have hnU : value p last ∉ U := fun h => hd last hlm (hU last hlr.1 hlr.2 h)
      have hnc : value p last ∉ cycle := by
        intro h
        obtain ⟨i, hi, hiv⟩ := List.getElem_of_mem h
        cases i with
        | zero =>
          apply hnf
          rw [← hiv, ← hfirst, List.getD_eq_getElem _ _ hi]
        | succ i =>
          have h1 := hs i hi
          rw [List.getD_eq_getElem _ _ hi, hiv] at h1
          rw [← hlast, List.getD_eq_getElem _ _ (by omega), List.getD_eq_getElem _ _ (by omega)] at h1
          have hm1 : cycle[i] ∈ cycle := List.getElem_mem _
          have hm2 : cycle[cycle.length - 1] ∈ cycle := List.getElem_mem _
          have h2 := value_inj hp (hr _ hm1) (hr _ hm2) h1
          have h3 := (List.Nodup.getElem_inj_iff hn).1 h2
          omega
      have hget := hw.2 (value p last - 1) (by omega)
      rw [show value p last - 1 + 1 = value p last by omega, if_neg (by simp [hnU, hnc])] at hget
      simp only [hget]
      rw [if_neg (by omega)]
      apply ih
      · have := hw.set (i := value p last - 1)
        rw [show value p last - 1 + 1 = value p last by omega, List.append_assoc] at this
        exact this
      · rw [List.nodup_append]
        refine ⟨hn, by simp, ?_⟩
        intro a ha b hb hab
        simp only [List.mem_singleton] at hb
        subst hb; subst hab; exact hnc ha
      · intro x hx
        rw [List.mem_append, List.mem_singleton] at hx
        rcases hx with hx | rfl
        · exact hr x hx
        · exact hnr
      · intro x hx
        rw [List.mem_append, List.mem_singleton] at hx
        rcases hx with hx | rfl
        · exact hd x hx
        · exact hnU
      · rw [List.head?_append, hh]; rfl
      · simp
      · intro i hi
        simp only [List.length_append, List.length_singleton] at hi
        by_cases hi' : i + 1 < cycle.length
        · rw [List.getD_append _ _ _ _ hi', List.getD_append _ _ _ _ (by omega)]
          exact hs i hi'
        · have : i = cycle.length - 1 := by omega
          subst this
          rw [List.getD_append _ _ _ _ (by omega), hlast, List.getD_append_right _ _ _ _ (by omega)]
          simp [show cycle.length - 1 + 1 = cycle.length by omega]
      · simp only [List.length_append, List.length_singleton]
        omega

theorem cyclesLoop_spec (hp : IsPerm r p) (b : Bool) :
    ∀ (n k : Nat) (w : List (Option Nat)) (cs cycles : List (List Nat)), k + n = r →
      Rep r p w cs.flatten → cs.flatten.Nodup → (∀ x ∈ cs.flatten, 1 ≤ x ∧ x ≤ r) →
      (∀ c ∈ cs, IsCycle p c) → (∀ j, j < k → j + 1 ∈ cs.flatten) →
      ∃ cs', Perm.cyclesLoop b (List.range' k n) w cycles =
          .ok (cycles ++ cs'.filter fun c => b || decide (1 < c.length)) ∧
        (cs ++ cs').flatten.Nodup ∧ (∀ x ∈ (cs ++ cs').flatten, 1 ≤ x ∧ x ≤ r) ∧
        (∀ c ∈ cs ++ cs', IsCycle p c) ∧ (∀ j, j < r → j + 1 ∈ (cs ++ cs').flatten) := by
  intro n
  induction n with
  | zero =>
    intro k w cs cycles hk hw hn hr hc hv
    refine ⟨[], ?_, by simpa using hn, by simpa using hr, by simpa using hc, ?_⟩
    · simp [Perm.cyclesLoop]
    · rw [List.append_nil]
      intro j hj; exact hv j (by omega)
  | succ n ih =>
    intro k w cs cycles hk hw hn hr hc hv
    have hget := hw.2 k (by omega)
    rw [List.range'_succ, Perm.cyclesLoop]
    by_cases hkv : k + 1 ∈ cs.flatten
    · rw [if_pos hkv] at hget
      simp only [hget]
      refine ih (k + 1) w cs cycles (by omega) hw hn hr hc ?_
      intro j hj
      by_cases hjk : j = k
      · subst hjk; exact hkv
      · exact hv j (by omega)
    · rw [if_neg hkv] at hget
      simp only [hget]
      have hU : ∀ y, 1 ≤ y → y ≤ r → value p y ∈ cs.flatten → y ∈ cs.flatten := by
        intro y h1 h2 h
        obtain ⟨c, hcm, hyc⟩ := List.mem_flatten.1 h
        refine List.mem_flatten.2 ⟨c, hcm, mem_of_value_mem hp (hc c hcm) ?_ ⟨h1, h2⟩ hyc⟩
        intro x hx
        exact hr x (List.mem_flatten.2 ⟨c, hcm, hx⟩)
      obtain ⟨c, w', he, hw', hcc, hcr, hcU, hfc⟩ := cycleLoop_spec hp (k + 1) (by omega) cs.flatten hU
        w.length (w.set k none) [k + 1] (k + 1) hw.set (by simp) (by intro x; simp; omega)
        (by intro x hx; simp only [List.mem_singleton] at hx; subst hx; exact hkv) rfl rfl
        (by intro i hi; simp at hi) (by rw [hw.1]; simp)
      rw [he]
      have hfl : (cs ++ [c]).flatten = cs.flatten ++ c := by simp
      obtain ⟨cs', h1, h2, h3, h4, h5⟩ := ih (k + 1) w' (cs ++ [c])
        (if b || decide (1 < c.length) then cycles ++ [c] else cycles) (by omega)
        (by rw [hfl]; exact hw')
        (by
          rw [hfl, List.nodup_append]
          refine ⟨hn, hcc.nodup, ?_⟩
          rintro a ha _ hb rfl
          exact hcU a hb ha)
        (by
          rw [hfl]
          intro x hx
          rcases List.mem_append.1 hx with hx | hx
          · exact hr x hx
          · exact hcr x hx)
        (by
          intro d hd
          rcases List.mem_append.1 hd with hd | hd
          · exact hc d hd
          · rw [List.mem_singleton] at hd; subst hd; exact hcc)
        (by
          rw [hfl]
          intro j hj
          rw [List.mem_append]
          by_cases hjk : j = k
          · subst hjk; exact Or.inr hfc
          · exact Or.inl (hv j (by omega)))
      rw [List.append_assoc] at h2 h3 h4 h5
      refine ⟨[c] ++ cs', ?_, h2, h3, h4, h5⟩
      simp only [bind, Except.bind]
      by_cases hb : (b || decide (1 < c.length)) = true
      · rw [if_pos hb] at h1 ⊢
        rw [h1]
        simp [hb]
      · rw [if_neg hb] at h1 ⊢
        rw [h1]
        simp [hb]

/-- All cycles of a permutation, in the order in which `to_cycles` finds them. -/
theorem toCycles_spec (hp : IsPerm r p) :
    ∃ cs : List (List Nat), (∀ b, Perm.toCycles p b = .ok (cs.filter fun c => b || decide (1 < c.length))) ∧
      cs.flatten.Perm (List.range' 1 r) ∧ ∀ c ∈ cs, IsCycle p c := by
  have hrep : Rep r p (p.map some) ([] : List (List Nat)).flatten := by
    refine ⟨by simp [hp.length], ?_⟩
    intro j hj
    have : j < p.length := by rw [hp.length]; exact hj
    simp [value, this]
  have key := fun b => cyclesLoop_spec hp b r 0 (p.map some) [] [] (by omega) hrep (by simp) (by simp) (by simp)
    (by simp)
  obtain ⟨cs, h1, h2, h3, h4, h5⟩ := key true
  have hfil : ∀ cs : List (List Nat), cs.filter (fun c => true || decide (1 < c.length)) = cs := by
    intro cs; simp
  refine ⟨cs, ?_, ?_, by simpa using h4⟩
  · intro b
    cases b with
    | true =>
      rw [Perm.toCycles, hp.length, List.range_eq_range']; simpa using h1
    | false => 
      have hg : ∀ (is : List Nat) (w : List (Option Nat)) (cy cs : List (List Nat)),
          Perm.cyclesLoop true is w cs = .ok cy →
          Perm.cyclesLoop false is w (cs.filter fun c => decide (1 < c.length)) =
            .ok (cy.filter fun c => decide (1 < c.length)) := by
        intro is
        induction is with
        | nil =>
          intro w cy cs h
          simp only [Perm.cyclesLoop, Except.ok.injEq] at h ⊢
          rw [h]
        | cons i is ih =>
          intro w cy cs h
          rw [Perm.cyclesLoop] at h ⊢
          cases hw : w[i]? with
          | none => rw [hw] at h; simp at h
          | some o =>
            rw [hw] at h
            cases o with
            | none => exact ih _ _ _ h
            | some nxt =>
              simp only at h ⊢
              cases hl : Perm.cycleLoop (i + 1) w.length (w.set i none) nxt [i + 1] with
              | error e => rw [hl] at h; simp [bind, Except.bind] at h
              | ok cw =>
                rw [hl] at h
                simp only [bind, Except.bind, Bool.true_or, if_true, Bool.false_or] at h ⊢
                have := ih _ _ _ h
                rw [List.filter_append] at this
                by_cases hc : 1 < cw.1.length
                · rw [if_pos (by simpa using hc)]
                  simpa [hc] using this
                · rw [if_neg (by simpa using hc)]
                  simpa [hc] using this
      have := hg _ _ _ [] (by rw [h1])
      rw [Perm.toCycles, hp.length, List.range_eq_range']
      simpa using this
  · rw [List.nil_append] at h2 h3 h5
    apply (List.subperm_of_subset h2 _).perm_of_length_le
    · rw [List.length_range']
      have : (List.range' 1 r).length ≤ cs.flatten.length := by
        apply (List.subperm_of_subset List.nodup_range' _).length_le
        intro x hx
        rw [List.mem_range'_1] at hx
        have := h5 (x - 1) (by omega)
        rwa [show x - 1 + 1 = x by omega] at this
      rwa [List.length_range'] at this
    · intro x hx
      have := h3 x hx
      rw [List.mem_range'_1]; omega

end IsPerm
end Comch
