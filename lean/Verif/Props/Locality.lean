import Verif.Props.CallCoeff
import Verif.Props.SteenrodChain

/-! # Locality and instability of the action on simplicial chains: C87 -/

set_option linter.unusedSectionVars false

namespace Comch
namespace SurjComp
open Comch.Spec Elem SurjElem

variable {A : Type}

/-- `L` is read off `V` from left to right, entries may be repeated. -/
inductive WeakSub : List A → List A → Prop
  | nil (V) : WeakSub V []
  | skip {V L} (a) : WeakSub V L → WeakSub (a :: V) L
  | stay {V L a} : WeakSub (a :: V) L → WeakSub (a :: V) (a :: L)

theorem WeakSub.sublist {V L M : List A} (h : WeakSub V L) (hs : M.Sublist L) : WeakSub V M := by
  induction h generalizing M with
  | nil V =>
    rw [List.sublist_nil] at hs
    subst hs
    exact .nil _
  | skip a _ ih => exact .skip a (ih hs)
  | stay _ ih =>
    rename_i V L a h
    rw [List.sublist_cons_iff] at hs
    rcases hs with hs | ⟨N, rfl, hs⟩
    · exact ih hs
    · exact .stay (ih hs)

theorem WeakSub.toSublist [DecidableEq A] {V L : List A} (h : WeakSub V L) (hr : hasRep L = false) : L.Sublist V := by
  induction h with
  | nil V => exact List.nil_sublist _
  | skip a _ ih => exact (ih hr).cons a
  | stay _ ih =>
    rename_i V L a h
    cases L with
    | nil => simp
    | cons b L =>
      rw [hasRep] at hr
      simp only [Bool.or_eq_false_iff, beq_eq_false_iff_ne] at hr
      have := ih hr.2
      rw [List.sublist_cons_iff] at this
      rcases this with h | ⟨N, h1, h2⟩
      · exact h.cons_cons a
      · cases h1
        exact absurd rfl hr.1

theorem WeakSub.prefix {V M : List A} {i : Nat} (h : WeakSub (V.drop i) M) (hi : i < V.length) :
    WeakSub V (V.take (i + 1) ++ M) := by
  induction i generalizing V with
  | zero =>
    cases V with
    | nil => simp at hi
    | cons a V => exact .stay h
  | succ i ih =>
    cases V with
    | nil => simp at hi
    | cons a V =>
      rw [List.take_succ_cons, List.cons_append]
      exact .stay (.skip a (ih (by simpa using h) (by simpa using hi)))

theorem WeakSub.refl (V : List A) : WeakSub V V := by
  induction V with
  | nil => exact .nil _
  | cons a V ih => exact .stay (.skip a ih)

theorem weakSub_of_cut {n : Nat} {V : List A} {ps : List (List A)} (h : ps ∈ allCuts n V) :
    WeakSub V ps.flatten := by
  induction n generalizing V ps with
  | zero => simp [allCuts] at h
  | succ n ih =>
    cases n with
    | zero =>
      simp only [allCuts, List.mem_singleton] at h
      subst h
      simpa using WeakSub.refl V
    | succ n =>
      simp only [allCuts, List.mem_flatMap, List.mem_map, List.mem_range] at h
      obtain ⟨i, hi, qs, hq, rfl⟩ := h
      exact WeakSub.prefix (ih hq) hi

theorem weakSub_assemble {n r : Nat} {k V L : List Nat} {ps : List (List Nat)} (h : ps ∈ allCuts n V)
    (hL : L ∈ assemble r k ps) : WeakSub V L := by
  unfold assemble at hL
  obtain ⟨v, _, rfl⟩ := List.mem_map.1 hL
  refine (weakSub_of_cut h).sublist ?_
  have h2 : ((k.zip ps).map Prod.snd).Sublist ps := by
    clear h hL
    induction k generalizing ps with
    | nil => simp
    | cons a k ih =>
      cases ps with
      | nil => simp
      | cons p ps => simpa using ih
  exact List.Sublist.flatten ((List.filter_sublist.map Prod.snd).trans h2)

end SurjComp

namespace Props
open Comch.Spec Elem SurjComp SurjElem

variable {x : SurjElem} {y z : SElem} {r a coord : Nat} {d e : Int}

/-- The action is local: every key of `x(y)` arises from a key of `y` by replacing the chosen factor by
`r` of its faces (subsequences of its vertices). -/
theorem C87_locality (hx : InSurj r x) (hd : x.degree = some d)
    (hcv : x.attrs.convention = .mcClureSmith) (hy : y.NF simplicial) (hyd : y.degree = some e)
    (hya : y.arity = some a) (ht : y.torsion = x.torsion) (h1 : 1 ≤ coord) (h2 : coord ≤ a) :
    ∃ z, callSimplicial x y coord = .ok z ∧ ∀ q ∈ z.data, ∃ p ∈ y.data, ∃ new : List Simplex,
      q.1 = p.1.take (coord - 1) ++ new ++ p.1.drop coord ∧ new.length = r ∧
      ∀ f ∈ new, f.Sublist (p.1.getD (coord - 1) []) := by
  obtain ⟨z, ez, nz, az, -⟩ := C52_arity_degree hx hd hcv hy hyd hya ht h1 h2
  refine ⟨z, ez, fun q hq => ?_⟩
  have hnd : ∀ s ∈ q.1, s.isDegenerate = false := by
    have := nz.kept q hq
    simpa [simplicial] using this
  have hc := C84_action_coeff hx hd hcv hy hyd hya ht h1 h2 ez q.1 hnd
  have tz : z.torsion = x.torsion := by rw [torsion_congr az, ht]
  have hne : ((pyProduct x.data y.data).map fun pq =>
      pq.1.2 * pq.2.2 * actionCoeff r d coord pq.1.1 pq.2.1 q.1).sum ≠ 0 := by
    intro h0
    rw [h0] at hc
    have h3 := nz.mem_keys_iff.1 (List.mem_map_of_mem hq)
    rw [Dict.den_apply nz.nodup, tz] at h3
    rw [← ZMod.intCast_eq_intCast_iff] at hc
    exact h3 (by rw [← coeff, hc, Int.cast_zero])
  obtain ⟨b, hb, hb0⟩ := List.exists_mem_ne_zero_of_sum_ne_zero hne
  obtain ⟨pq, hpq, rfl⟩ := List.mem_map.1 hb
  have hA : actionCoeff r d coord pq.1.1 pq.2.1 q.1 ≠ 0 := fun h => hb0 (by rw [h, mul_zero])
  unfold actionCoeff at hA
  obtain ⟨c, hc', hc0⟩ := List.exists_mem_ne_zero_of_sum_ne_zero hA
  obtain ⟨ps, hps, rfl⟩ := List.mem_map.1 hc'
  have hk : pq.2.1.take (coord - 1) ++ assemble r pq.1.1 ps ++ pq.2.1.drop coord = q.1 := by
    by_contra h
    exact hc0 (if_neg h)
  refine ⟨pq.2, (mem_pyProduct.1 hpq).2, assemble r pq.1.1 ps, hk.symm, by simp [assemble], fun f hf => ?_⟩
  refine (weakSub_assemble hps hf).toSublist ?_
  have := hnd f (by rw [← hk]; simp [hf])
  rw [isDegenerate_eq] at this
  simpa using (Bool.or_eq_false_iff.1 this).2

/-- Instability: `x(c) = 0` if `deg(x) > (r - 1) * dim(c)`; if the two are equal then `x(c)` is a combination of
the tensor powers of the simplices of `c`. -/
theorem C87_instability (hx : InSurj r x) (hd : x.degree = some d)
    (hcv : x.attrs.convention = .mcClureSmith) (hy : y.NF simplicial) (hyd : y.degree = some e)
    (hya : y.arity = some 1) (ht : y.torsion = x.torsion) :
    ∃ z, callSimplicial x y 1 = .ok z ∧ ((r - 1) * e < d → z.data = []) ∧
      ((r - 1) * e = d → ∀ q ∈ z.data, ∃ p ∈ y.data, q.1 = List.replicate r (p.1.headD [])) := by
  obtain ⟨z, ez, nz, az, hz⟩ := C52_arity_degree hx hd hcv hy hyd hya ht le_rfl le_rfl
  obtain ⟨z', ez', hl⟩ := C87_locality hx hd hcv hy hyd hya ht le_rfl le_rfl
  obtain rfl : z = z' := by rw [ez] at ez'; cases ez'; rfl
  have hk := homogeneous_keys hyd hya
  have key : ∀ q ∈ z.data, ∃ p ∈ y.data, q.1.length = r ∧ (∀ f ∈ q.1, f.Sublist (p.1.headD [])) ∧
      ((p.1.headD []).length : Int) = e + 1 ∧ SElem.keyDegree q.1 = e + d := by
    intro q hq
    obtain ⟨p, hp, new, h1, h2, h3⟩ := hl q hq
    have hpl := (hk p hp).2
    obtain ⟨V, hV⟩ := List.length_eq_one_iff.1 hpl
    rw [hV] at h1 h3
    have h1 : q.1 = new := by simpa using h1
    refine ⟨p, hp, by rw [h1, h2], ?_, ?_, (hz q hq).2⟩
    · rw [h1, hV]
      simpa using h3
    · have := (hk p hp).1
      rw [hV] at this ⊢
      simp [SElem.keyDegree, Simplex.dimension] at this ⊢
      omega
  have hsum : ∀ (l : List Simplex) (n : Int), (∀ f ∈ l, (f.length : Int) ≤ n + 1) →
      SElem.keyDegree l ≤ l.length * n ∧ (SElem.keyDegree l = l.length * n → ∀ f ∈ l, (f.length : Int) = n + 1) := by
    intro l n
    induction l with
    | nil => intro _; simp [SElem.keyDegree]
    | cons f l ih =>
      intro h
      have ih := ih fun g hg => h g (by simp [hg])
      have hf := h f (by simp)
      have hkd : SElem.keyDegree (f :: l) = (f.length : Int) - 1 + SElem.keyDegree l := by
        simp [SElem.keyDegree, Simplex.dimension]
      have hmul : ((f :: l).length : Int) * n = n + l.length * n := by
        rw [List.length_cons]; push_cast; ring
      rw [hkd, hmul]
      refine ⟨by omega, fun he g hg => ?_⟩
      rcases List.mem_cons.1 hg with rfl | hg
      · omega
      · exact ih.2 (by omega) g hg
  have hb : ∀ q ∈ z.data, e + d ≤ r * e := by
    intro q hq
    obtain ⟨p, hp, h1, h2, h3, h4⟩ := key q hq
    have := (hsum q.1 e fun f hf => by have := (h2 f hf).length_le; omega).1
    rw [h4, h1] at this
    exact this
  refine ⟨z, ez, fun hlt => ?_, fun heq q hq => ?_⟩
  · by_contra hne
    obtain ⟨q, hq⟩ := List.exists_mem_of_ne_nil _ hne
    have := hb q hq
    linarith
  · obtain ⟨p, hp, h1, h2, h3, h4⟩ := key q hq
    refine ⟨p, hp, ?_⟩
    rw [List.eq_replicate_iff]
    refine ⟨h1, fun f hf => (h2 f hf).eq_of_length ?_⟩
    have := (hsum q.1 e fun f hf => by have := (h2 f hf).length_le; omega).2 (by rw [h4, h1]; linarith) f hf
    omega

/-- An element of degree one applied to the second factor of a tensor. -/
def exLoc : SurjElem := Elem.new surjection [([1, 2, 1], 1), ([2, 1, 2], 3)] none .mcClureSmith

example : InSurj 2 exLoc := SurjElem.inSurj_of_arity (nf_new _ (by decide) _ _) (by decide)
example : exLoc.degree = some 1 ∧ exLoc.attrs.convention = .mcClureSmith := by decide
example : (callSimplicial exLoc (Elem.new simplicial [([[3], [0, 4]], 5)]) 2).toOption.map (·.data) =
    some [([[3], [0, 4], [0, 4]], -10)] := by decide +kernel
example : (callSimplicial exLoc (Elem.new simplicial [([[3]], 5)]) 1).toOption.map (·.data) = some [] := by
  decide +kernel

end Props
end Comch
