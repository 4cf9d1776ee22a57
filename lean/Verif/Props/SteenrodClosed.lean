import Verif.Props.CochainsSteenrod
import Verif.Props.BEClosed
import Verif.Props.Steenrod
import Mathlib.Data.Nat.Prime.Factorial

/-! # The Steenrod operations as explicit elements of the operads: C134 -/

set_option linter.unusedSectionVars false

namespace Comch.Props
open Comch Elem Spec IsPerm BElem SurjMay

theorem length_of_den_smul {K : Type} [DecidableEq K] {C : Cls K} {x y : Elem K} {p : Nat} [Fact p.Prime] (hx : x.NF C)
    (hy : y.NF C) (tx : x.torsion = p) (ty : y.torsion = p) {v : ZMod p} (hv : v ≠ 0)
    (h : den (ZMod p) x.data = v • den (ZMod p) y.data) : x.data.length = y.data.length := by
  subst tx
  have hk : (x.data.map Prod.fst).Perm (y.data.map Prod.fst) := by
    refine (List.perm_ext_iff_of_nodup hx.nodup hy.nodup).2 fun k => ?_
    rw [hx.mem_keys_iff, hy.mem_keys_iff, ty, h, Finsupp.smul_apply, smul_eq_mul]
    exact ⟨right_ne_zero_of_mul, mul_ne_zero hv⟩
  simpa using hk.length_eq

theorem nu_ne_zero (p : Nat) [hp : Fact p.Prime] (q : Int) : nu p q ≠ 0 := by
  unfold nu
  refine mul_ne_zero (zpow_ne_zero _ (neg_ne_zero.2 one_ne_zero)) (zpow_ne_zero _ ?_)
  rw [Ne, ZMod.natCast_eq_zero_iff, Nat.Prime.dvd_factorial hp.out]
  have := hp.out.two_le
  omega

/-- At the prime 2 the operation of the surjection operad is the single surjection `(1, 2, 1, 2, …)` with `s - q + 2`
entries; in both conventions. -/
theorem C134_two (cv : Convention) (s q : Int) (h : q ≤ s) :
    ∃ z, Surjection.steenrodOperation 2 s q false cv = .ok z ∧ z.attrs = ⟨2, cv⟩ ∧
      pyEq z (Elem.new surjection [(alternating ((s - q).toNat + 2), 1)] (some 2) cv) = true := by
  have h1 : ∀ t : Nat, (1 : ZMod 2) = sg (ZMod 2) (t : Nat) := fun t => by
    rw [sg_natCast, show (-1 : ZMod 2) = 1 by decide, one_pow]
  obtain ⟨m, em, im, am, -⟩ := surjMay_ok cv (r := 2) le_rfl (s - q).toNat 2
  obtain ⟨m', em', am', hm⟩ := structure_two cv (s - q).toNat 2 (e := 1) (by rw [Int.cast_one]; exact h1 _)
  obtain rfl : m = m' := by rw [em] at em'; exact Except.ok.inj em'
  have tm : m.torsion = 2 := by show m.attrs.torsion = 2; rw [am]
  have hnf := nf_new surjection (d := [(alternating ((s - q).toNat + 2), (1 : Int))]) (by simp [Dict.KeysNodup]) (some 2) cv
  have ts : (smul surjection 1 m).torsion = m.torsion := smul_torsion _ 1 m
  refine ⟨smul surjection 1 m, ?_, ?_, ?_⟩
  · unfold Surjection.steenrodOperation
    rw [if_pos rfl, if_neg (by simp), if_neg (by omega), em]
    rfl
  · rw [← am]; rfl
  · refine pyEq_trans (nf_smul im.nf 1) im.nf hnf ts (by rw [tm]; rfl) ?_ hm
    refine pyEq_of_den (n := 2) (nf_smul im.nf 1) im.nf (ts.trans tm) tm ?_
    rw [den_smul im.nf 1 (by simp) (by rw [tm]; exact CharP.cast_eq_zero (ZMod 2) 2)]
    simp

/-- At the prime 2 the operation of the Barratt-Eccles operad is the single sequence of `s - q + 1` permutations, the
identity and the transposition in turn. -/
theorem C134_two_barratt_eccles (s q : Int) (h : q ≤ s) :
    ∃ z, BarrattEccles.steenrodOperation 2 s q = .ok z ∧ z.torsion = 2 ∧
      pyEq z (Elem.new barrattEccles [((List.range ((s - q).toNat + 1)).map fun i => if i % 2 = 0 then [1, 2] else [2, 1], 1)] (some 2)) =
        true := by
  have hinc : ∀ d, increments 2 d = [List.replicate d 1] := by
    intro d
    induction d with
    | zero => rfl
    | succ d ih =>
      rw [increments]
      split
      · rw [ih]; rfl
      · rw [show List.range' 1 (2 - 1) = [1] from rfl, List.flatMap_singleton, ih]; rfl
  have hrot : ∀ d e, rotations 2 e (List.replicate d 1) =
      (List.range (d + 1)).map fun i => if (i + e) % 2 = 0 then [1, 2] else [2, 1] := by
    have hr : ∀ e, rotation 2 e = if e % 2 = 0 then [1, 2] else [2, 1] := fun e => by
      unfold rotation
      rcases Nat.mod_two_eq_zero_or_one e with h | h
      · rw [if_pos h]
        simp only [List.range_succ, List.range_zero, List.nil_append, List.singleton_append, List.map_cons, List.map_nil]
        rw [show (0 + e) % 2 = 0 by omega, show (1 + e) % 2 = 1 by omega]
      · rw [if_neg (by omega)]
        simp only [List.range_succ, List.range_zero, List.nil_append, List.singleton_append, List.map_cons, List.map_nil]
        rw [show (0 + e) % 2 = 1 by omega, show (1 + e) % 2 = 0 by omega]
    intro d
    induction d with
    | zero => intro e; simp [rotations, hr]
    | succ d ih =>
      intro e
      rw [List.replicate_succ, rotations, ih, hr, List.range_succ_eq_map (n := d + 1), List.map_cons, List.map_map, Nat.zero_add]
      congr 1
      refine List.map_congr_left fun i _ => ?_
      simp only [Function.comp]
      rw [show i.succ + e = i + (e + 1) by omega]
  obtain ⟨m, em, im, tm, -⟩ := may_ok (r := 2) le_rfl (s - q).toNat 2
  obtain ⟨m', em', -, hm⟩ := C132_structure (r := 2) le_rfl (s - q).toNat 2
  obtain rfl : m = m' := by rw [em] at em'; exact Except.ok.inj em'
  rw [hinc, List.map_singleton, hrot] at hm
  simp only [Nat.add_zero] at hm
  have hnf := nf_new barrattEccles (d := [((List.range ((s - q).toNat + 1)).map fun i => if i % 2 = 0 then [1, 2] else [2, 1], (1 : Int))])
    (by simp [Dict.KeysNodup]) (some 2)
  have ts : (smul barrattEccles 1 m).torsion = m.torsion := smul_torsion _ 1 m
  refine ⟨smul barrattEccles 1 m, ?_, ts.trans tm, ?_⟩
  · unfold BarrattEccles.steenrodOperation
    rw [if_pos rfl, if_neg (by simp), if_neg (by omega), em]
    rfl
  · refine pyEq_trans (nf_smul im.nf 1) im.nf (hnf _) ts (by rw [tm]; rfl) ?_ hm
    refine pyEq_of_den (n := 2) (nf_smul im.nf 1) im.nf (ts.trans tm) tm ?_
    rw [den_smul im.nf 1 (by simp) (by rw [tm]; exact CharP.cast_eq_zero (ZMod 2) 2)]
    simp

/-- At an odd prime the operation of the Barratt-Eccles operad is the sum of all the sequences of rotations of C132, with
the common coefficient `(-1)^s ν(q)`, which is not zero: it has exactly `(p - 1)^⌊d/2⌋` terms, `d` its degree. -/
theorem C134_odd (p : Nat) [hp : Fact p.Prime] (h2 : p ≠ 2) (s q : Int) (b : Bool) (h : q % 2 = 0 ∨ 0 ≤ q / 2 + s ∨ p < 47)
    (d : Nat) (hd : (d : Int) = (2 * s - q) * (p - 1) - (if b then 1 else 0)) :
    ∃ z, BarrattEccles.steenrodOperation p s q b = .ok z ∧ z.torsion = p ∧ z.data.length = (p - 1) ^ (d / 2) ∧
      ∀ v : Int, (v : ZMod p) = (-1) ^ s * nu p q →
        pyEq z (Elem.new barrattEccles ((increments p d).map fun l => (rotations p 0 l, v)) (some p)) = true := by
  obtain ⟨m, em, im, tm, -, dm⟩ := may_ok (r := p) hp.out.two_le d p
  obtain ⟨m1, em1, hl⟩ := C132_count (r := p) hp.out.two_le d p hp.out.ne_one
  obtain rfl : m = m1 := by rw [em] at em1; exact Except.ok.inj em1
  have hc : ∃ e, steenrodCoeff p s q = .ok e ∧ (e : ZMod p) = (-1) ^ s * nu p q := by
    refine coeff_eq p h2 s q ?_
    rcases h with h | h | h
    · exact Or.inl h
    · exact Or.inr (Or.inl h)
    · exact Or.inr (Or.inr (intToDouble_small (by omega)))
  obtain ⟨e, he, hv⟩ := hc
  have tz : (smul barrattEccles e m).torsion = p := (smul_torsion _ e m).trans tm
  have dz : den (ZMod p) (smul barrattEccles e m).data = (e : ZMod p) • den (ZMod p) m.data :=
    den_smul im.nf e (by simp) (by rw [tm]; exact CharP.cast_eq_zero (ZMod p) p)
  refine ⟨smul barrattEccles e m, ?_, tz, ?_, fun v hv' => ?_⟩
  · unfold BarrattEccles.steenrodOperation
    rw [if_neg h2]
    dsimp only
    have hd' : steenrodDegree p s q b = d := hd.symm
    rw [hd', if_neg (by omega), he]
    simp only [bind, Except.bind, Int.toNat_natCast]
    rw [em]
  · rw [← hl]
    refine length_of_den_smul (nf_smul im.nf e) im.nf tz tm ?_ dz
    rw [hv]
    exact mul_ne_zero (zpow_ne_zero _ (neg_ne_zero.2 one_ne_zero)) (nu_ne_zero p q)
  · have hk : Dict.KeysNodup ((increments p d).map fun l => (rotations p 0 l, v)) := by
      unfold Dict.KeysNodup
      rw [List.map_map]
      exact (nodup_increments p d).map_on fun a ha b hb h => rotations_injOn hp.out.two_le d a ha b hb h
    refine pyEq_of_den (n := p) (nf_smul im.nf e) (nf_new barrattEccles hk (some p) _) tz rfl ?_
    rw [dz, dm, hv, ← hv', den_new _ _ _ _ (by simp)]
    have hd : ∀ L : List (List Nat), (∀ l ∈ L, l ∈ increments p d) →
        pr barrattEccles.drops (den (ZMod p) (L.map fun l => (rotations p 0 l, v))) =
          (v : ZMod p) • (L.map fun l => bv (ZMod p) (rotations p 0 l)).sum := by
      intro L hL
      induction L with
      | nil => simp
      | cons l L ih =>
        rw [List.map_cons, den_cons, map_add, ih fun m hm => hL m (by simp [hm]), pr_single, be_drops,
          hasRep_rotations (by have := hp.out.two_le; omega) l (increments_range hp.out.two_le d l (hL l (by simp))).2]
        obtain ⟨t, ht⟩ := rotations_cons p 0 l
        rw [List.map_cons, List.sum_cons, smul_add]
        simp [ht]
    rw [hd _ fun _ h => h, psiV_rotations hp.out.two_le]

/-- The hypotheses are met: the Bockstein of `P_2` on classes of degree 1 at the prime 3 has degree 5 and 4 terms. -/
example : ((5 : Nat) : Int) = (2 * 2 - 1) * ((3 : Nat) - 1) - (if true then 1 else 0) ∧
    (BarrattEccles.steenrodOperation 3 2 1 true).toOption.map (fun z => z.data.length) = some ((3 - 1) ^ (5 / 2)) := by
  decide +kernel

example : ((3 - 1 : Int)).toNat + 2 = 4 ∧ alternating 4 = [1, 2, 1, 2] ∧
    (Surjection.steenrodOperation 2 3 1).toOption.map (fun z => z.data) = some [([1, 2, 1, 2], 1)] := by decide +kernel

end Comch.Props
