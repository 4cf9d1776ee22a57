import Verif.Lib.SurjAct
import Verif.Lib.SurjOrbit
import Verif.Props.Action
import Verif.Props.BarrattEccles

/-! # C48, C49, C65: action and orbits in the surjection operad; zero elements -/

set_option linter.unusedSectionVars false

namespace Comch.SurjElem
open Comch Elem Spec IsPerm

theorem relabel_sign {r : Nat} {q : Perm} (hq : IsPerm r q) {k : Surj} (hk : Onto r k) (c : Convention) :
    pySign (convE c k + convE c (mulL q k)) = (-1) ^ relabelExponent r c q k := by
  cases c with
  | bergerFresse => simp [convE, relabelExponent, pySign]
  | mcClureSmith =>
    rw [relabelExponent, ← pySign_natCast]
    apply pySign_congr
    have h := invE_mulL hq hk.range
    rw [kosF_value hq] at h
    have h2 := kos_eq_koszulExponent (fun l => wt k l) (fun l => k.count l - 1) q (List.range' 1 r)
      (fun _ _ => rfl)
    have h3 : kos id (q.zip ((List.range' 1 r).map (wt k))) = kos (fun l => wt k l) (q.zip (List.range' 1 r)) := by
      have : ∀ (w : Nat → Int) (a : List Nat) (b : List Nat), kos id (a.zip (b.map w)) = kos w (a.zip b) := by
        intro w a
        induction a with
        | nil => intro b; rfl
        | cons s a ih =>
          intro b
          cases b with
          | nil => rfl
          | cons t b =>
            rw [List.map_cons, List.zip_cons_cons, List.zip_cons_cons, kos, kos, ih, List.zip_map_right,
              List.filter_map, List.map_map]
            rfl
      exact this _ _ _
    rw [h3, h2] at h
    simp only [convE]
    omega

end Comch.SurjElem

namespace Comch.Props
open Comch Elem Spec IsPerm
open Finsupp (single)

/-! ## C48 action -/

section
variable {r : Nat} {s t : RingElem} {x : SurjElem}

/-- Coefficients of `s * x`: the values of a key are permuted, with the sign of the convention; arity,
degree and attributes are kept. -/
theorem C48_act_coeff (hr : 1 ≤ r) (hs : InRing r s) (hsn : s.data ≠ []) (hx : InSurj r x)
    (hxn : x.data ≠ []) (ts : s.torsion = x.torsion) :
    ∃ z, SurjElem.rmul s x = .ok z ∧ InSurj r z ∧ z.attrs = x.attrs ∧
      (∀ d, x.degree = some d → z.data = [] ∨ z.degree = some d) ∧
      ∀ m : Surj, NonDegenerate r m →
        z.coeff m ≡ (x.data.map fun p => (s.data.map fun q =>
          if p.1.map (value q.1) = m then
            (-1) ^ relabelExponent r x.attrs.convention q.1 p.1 * p.2 * q.2 else 0).sum).sum
          [ZMOD x.torsion] := by
  refine ⟨_, SurjElem.rmul_eq hr hs hsn hx hxn ts, ⟨nf_accumulate_zero _ _ _, ?_⟩, by simp, ?_, ?_⟩
  · intro p hp
    have h := mem_keys_accumulate_zero (List.mem_map_of_mem (f := Prod.fst) hp)
    simp only [List.map_map, List.mem_map, mem_pyProduct, Function.comp] at h
    obtain ⟨pq, hpq, h⟩ := h
    rw [← h]
    exact Onto.mulL (hs.perm _ hpq.2) (hx.onto _ hpq.1)
  · intro d hd
    rw [or_iff_not_imp_left]
    intro hne
    rw [SurjElem.degree, uniqueValue_eq_some] at hd ⊢
    refine ⟨by simpa using hne, ?_⟩
    intro b hb
    obtain ⟨q, hq, rfl⟩ := List.mem_map.1 hb
    have h := mem_keys_accumulate_zero (List.mem_map_of_mem (f := Prod.fst) hq)
    simp only [List.map_map, List.mem_map, mem_pyProduct, Function.comp] at h
    obtain ⟨pq, hpq, h⟩ := h
    have h1 := hd.2 _ (List.mem_map_of_mem (f := fun p : Surj × Int => SurjElem.keyDegree p.1) hpq.1)
    rw [← h, ← h1, SurjElem.keyDegree, SurjElem.keyDegree, pyMax_of_onto (hx.onto _ hpq.1),
      pyMax_of_onto (Onto.mulL (hs.perm _ hpq.2) (hx.onto _ hpq.1)), mulL, List.length_map]
  · intro m hm
    refine (coeff_accumulate_zero x _ rfl m (surj_kept hr hm)).trans ?_
    refine congrArg (· % (x.torsion : Int)) ?_
    rw [List.map_map, sum_pyProduct]
    congr 1
    apply List.map_congr_left
    intro p hp
    congr 1
    apply List.map_congr_left
    intro q hq
    simp only [Function.comp]
    rw [SurjElem.relabel_sign (hs.perm q hq) (hx.onto p hp)]
    rfl

/-- `s * (t * x) == (s * t) * x`; when one of the intermediate results is zero (the code then raises
`TypeError` on that side) the other side is zero. -/
theorem C48_act_assoc (hr : 1 ≤ r) (hs : InRing r s) (hsn : s.data ≠ []) (ht : InRing r t)
    (htn : t.data ≠ []) (hx : InSurj r x) (hxn : x.data ≠ []) (ts : s.torsion = x.torsion)
    (tt : t.torsion = x.torsion) :
    ∃ st tx, RingElem.mul s t = .ok st ∧ SurjElem.rmul t x = .ok tx ∧
      (st.data ≠ [] → tx.data ≠ [] → ∃ a b, SurjElem.rmul s tx = .ok a ∧ SurjElem.rmul st x = .ok b ∧
        pyEq a b = true) ∧
      (st.data = [] → tx.data ≠ [] → ∃ a, SurjElem.rmul s tx = .ok a ∧ a.data = []) ∧
      (st.data ≠ [] → tx.data = [] → ∃ b, SurjElem.rmul st x = .ok b ∧ b.data = []) :=
  (SurjElem.actSpec hr).act_assoc hs hsn ht htn hx.nf hxn hx.onto ts tt

/-- `1 * x == x`. -/
theorem C48_act_one (hr : 1 ≤ r) (hx : InSurj r x) (hxn : x.data ≠ []) :
    ∃ z, SurjElem.rmul (RingElem.identityElement r (some x.torsion)) x = .ok z ∧ pyEq z x = true :=
  (SurjElem.actSpec hr).act_one hx.nf hxn hx.onto

/-- `(s + s') * x == s * x + s' * x`. -/
theorem C48_add_act {s' u : RingElem} (hr : 1 ≤ r) (hs : InRing r s) (hsn : s.data ≠ [])
    (hs' : InRing r s') (hsn' : s'.data ≠ []) (hx : InSurj r x) (hxn : x.data ≠ [])
    (ts : s.torsion = x.torsion) (hadd : add symmetricRing s s' = .ok u) :
    ∃ a b v, SurjElem.rmul s x = .ok a ∧ SurjElem.rmul s' x = .ok b ∧ add surjection a b = .ok v ∧
      (u.data = [] → v.data = []) ∧
      (u.data ≠ [] → ∃ c, SurjElem.rmul u x = .ok c ∧ pyEq c v = true) :=
  (SurjElem.actSpec hr).add_act hs hsn hs' hsn' hx.nf hxn hx.onto ts hadd

/-- `s * (x + x') == s * x + s * x'`. -/
theorem C48_act_add {x' y : SurjElem} (hr : 1 ≤ r) (hs : InRing r s) (hsn : s.data ≠ [])
    (hx : InSurj r x) (hxn : x.data ≠ []) (hx' : InSurj r x') (hxn' : x'.data ≠ [])
    (hattrs : x'.attrs = x.attrs) (ts : s.torsion = x.torsion) (hadd : add surjection x x' = .ok y) :
    ∃ a b v, SurjElem.rmul s x = .ok a ∧ SurjElem.rmul s x' = .ok b ∧ add surjection a b = .ok v ∧
      (y.data = [] → v.data = []) ∧
      (y.data ≠ [] → ∃ c, SurjElem.rmul s y = .ok c ∧ pyEq c v = true) :=
  (SurjElem.actSpec hr).act_add hs hsn hx.nf hxn hx.onto hx'.nf hxn' hx'.onto hattrs ts hadd

/-- Integer factors can be moved out of both factors. -/
theorem C48_act_smul (hr : 1 ≤ r) (hs : InRing r s) (hsn : s.data ≠ []) (hx : InSurj r x)
    (hxn : x.data ≠ []) (ts : s.torsion = x.torsion) (c : Int) :
    ∃ a, SurjElem.rmul s x = .ok a ∧
      ((smul surjection c x).data ≠ [] → ∃ b, SurjElem.rmul s (smul surjection c x) = .ok b ∧
        pyEq b (smul surjection c a) = true) ∧
      ((smul symmetricRing c s).data ≠ [] → ∃ b, SurjElem.rmul (smul symmetricRing c s) x = .ok b ∧
        pyEq b (smul surjection c a) = true) :=
  (SurjElem.actSpec hr).act_smul hs hsn hx.nf hxn hx.onto ts c

/-- The action commutes with the boundary: `(s * x).boundary() == s * x.boundary()`. -/
theorem C48_act_boundary {z : SurjElem} (hr : 1 ≤ r) (hs : InRing r s) (hsn : s.data ≠ [])
    (hx : InSurj r x) (hxn : x.data ≠ []) (ts : s.torsion = x.torsion) (hz : SurjElem.rmul s x = .ok z) :
    (x.boundary.data = [] → z.boundary.data = []) ∧
    (x.boundary.data ≠ [] → ∃ y, SurjElem.rmul s x.boundary = .ok y ∧ pyEq z.boundary y = true) := by
  obtain ⟨z', ez, nz, az, lz, dz⟩ := (SurjElem.actSpec hr).ok s x hs hsn hx.nf hxn hx.onto ts
  cases hz.symm.trans ez
  refine (SurjElem.actSpec hr).act_boundary ((pr surjection.drops).comp (sbd x.attrs.convention)) ?_ hs hsn
    hx.nf hxn hx.onto ts hz (SurjElem.nf_boundary x) (SurjElem.nf_boundary z) (SurjElem.boundary_attrs x)
    (SurjElem.boundary_attrs z) (SurjElem.den_boundary hx.nf rfl) (SurjElem.inSurj_boundary hx).onto
    (by rw [SurjElem.den_boundary nz (torsion_congr az), az]; rfl)
  intro σ k hσ hk _
  rw [bil_bv]
  simp only [LinearMap.comp_apply]
  rw [SurjElem.sbd_actS _ hσ hk, SurjElem.pr_actS _ hσ]
  refine Finsupp.supported_mono ?_ (SurjElem.sbd_supported _ k)
  intro m hm
  exact SurjElem.SameVals.onto hm hk

/-- Different torsions or arities are rejected. -/
theorem C48_act_mismatch (h : x.torsion ≠ s.torsion ∨ x.arity ≠ s.arity) :
    SurjElem.rmul s x = .error .typeError := by
  unfold SurjElem.rmul
  rcases h with h | h
  · rw [if_pos h]
  · rw [if_pos h, ite_self]

end

example : ∃ z, SurjElem.rmul (Elem.new symmetricRing [([2, 1, 3], 1), ([1, 3, 2], 2)] (some 5))
    (exSu .mcClureSmith) = .ok z ∧ z.coeff [1, 3, 2, 1, 2] = 1 ∧ z.coeff [3, 2, 1, 3, 1] = 3 :=
  ⟨_, rfl, by decide +kernel, by decide +kernel⟩

example : relabelExponent 3 .mcClureSmith [2, 1, 3] [2, 3, 1, 2, 1] = 1 := by decide

/-! ## C49 orbits -/

theorem idxOf_lt_eraseDups (k : List Nat) : ∀ u v, u ∈ k → v ∈ k →
    (k.idxOf u < k.idxOf v ↔ k.eraseDups.idxOf u < k.eraseDups.idxOf v) := by
  have hfilter : ∀ (k : List Nat) (a u v : Nat), u ≠ a → v ≠ a → u ∈ k → v ∈ k →
      (k.idxOf u < k.idxOf v ↔ (k.filter fun b => !b == a).idxOf u < (k.filter fun b => !b == a).idxOf v) := by
    intro k a u v hu hv
    induction k with
    | nil => simp
    | cons b k ih =>
      intro hu' hv'
      by_cases hb : b = a
      · subst hb
        rw [List.filter_cons, if_neg (by simp), List.idxOf_cons_ne _ (Ne.symm hu), List.idxOf_cons_ne _ (Ne.symm hv),
          ← ih (by simpa [hu] using hu') (by simpa [hv] using hv')]
        omega
      · rw [List.filter_cons, if_pos (by simpa using hb)]
        by_cases e : u = b
        · subst e
          by_cases f : v = u
          · subst f; simp
          · rw [List.idxOf_cons_self, List.idxOf_cons_self, List.idxOf_cons_ne _ (Ne.symm f),
              List.idxOf_cons_ne _ (Ne.symm f)]
            simp
        · by_cases f : v = b
          · subst f; simp
          · rw [List.idxOf_cons_ne _ (Ne.symm e), List.idxOf_cons_ne _ (Ne.symm e), List.idxOf_cons_ne _ (Ne.symm f),
              List.idxOf_cons_ne _ (Ne.symm f)]
            have := ih (by simpa [e] using hu') (by simpa [f] using hv')
            omega
  induction h : k.length using Nat.strong_induction_on generalizing k with
  | _ n ih =>
    cases k with
    | nil => simp
    | cons a k =>
      intro u v hu hv
      have hl : (k.filter fun b => !b == a).length < n := by
        have := List.length_filter_le (fun b => !b == a) k
        simp at h
        omega
      rw [List.eraseDups_cons]
      by_cases e : u = a
      · subst e
        by_cases f : v = u
        · subst f; simp
        · rw [List.idxOf_cons_self, List.idxOf_cons_self, List.idxOf_cons_ne _ (Ne.symm f),
            List.idxOf_cons_ne _ (Ne.symm f)]
          simp
      · by_cases f : v = a
        · subst f; simp
        · rw [List.idxOf_cons_ne _ (Ne.symm e), List.idxOf_cons_ne _ (Ne.symm e), List.idxOf_cons_ne _ (Ne.symm f),
            List.idxOf_cons_ne _ (Ne.symm f)]
          have hu' : u ∈ k := by simpa [e] using hu
          have hv' : v ∈ k := by simpa [f] using hv
          have h1 := hfilter k a u v e f hu' hv'
          have h2 := ih _ hl _ rfl u v (by simp [hu', e]) (by simp [hv', f])
          omega

/-- A permutation whose values appear in order is the identity. -/
theorem inOrder_iff {r : Nat} {k : Surj} (hk : Onto r k) :
    FirstOccurrencesInOrder r k ↔ k.eraseDups = pyRange 1 (r + 1) := by
  have hs := SurjElem.isPerm_seen hk
  have hmem := (SurjElem.eraseDups_spec k).2
  constructor
  · intro h
    -- positions increase with the value
    have hpos : ∀ d v, 1 ≤ v → v + d ≤ r → k.eraseDups.idxOf v + d ≤ k.eraseDups.idxOf (v + d) := by
      intro d
      induction d with
      | zero => intro v _ _; exact le_rfl
      | succ d ih =>
        intro v h1 h2
        have a := ih v h1 (by omega)
        have b := (idxOf_lt_eraseDups k (v + d) (v + d + 1) ((hk _).2 ⟨by omega, by omega⟩)
          ((hk _).2 ⟨by omega, by omega⟩)).1 (h (v + d) (by omega) (by omega))
        show _ + (d + 1) ≤ k.eraseDups.idxOf (v + d + 1)
        omega
    have hexact : ∀ v, 1 ≤ v → v ≤ r → k.eraseDups.idxOf v = v - 1 := by
      intro v h1 h2
      have a := hpos (v - 1) 1 le_rfl (by omega)
      have b := hpos (r - v) v h1 (by omega)
      rw [show 1 + (v - 1) = v by omega] at a
      rw [show v + (r - v) = r by omega] at b
      have c : k.eraseDups.idxOf r < k.eraseDups.length :=
        List.idxOf_lt_length_of_mem ((hmem r).2 ((hk r).2 ⟨by omega, le_rfl⟩))
      rw [hs.length] at c
      omega
    apply List.ext_getElem
    · rw [hs.length]; simp [pyRange]
    · intro i h1 h2
      rw [hs.length] at h1
      have h3 := hexact (i + 1) (by omega) (by omega)
      have h4 : k.eraseDups.idxOf (i + 1) < k.eraseDups.length := by rw [h3, hs.length]; omega
      have h5 := List.getElem_idxOf h4
      simp only [h3] at h5
      simp only [Nat.add_sub_cancel] at h5
      rw [h5]
      simp [pyRange]
      omega
  · intro h v h1 h2
    rw [idxOf_lt_eraseDups k v (v + 1) ((hk _).2 ⟨by omega, by omega⟩) ((hk _).2 ⟨by omega, by omega⟩), h]
    have hidx : ∀ w, 1 ≤ w → w ≤ r → (pyRange 1 (r + 1)).idxOf w = w - 1 := by
      intro w h1 h2
      have hw : w - 1 < (pyRange 1 (r + 1)).length := by simp [pyRange]; omega
      have : (pyRange 1 (r + 1))[w - 1] = w := by simp [pyRange]; omega
      conv_lhs => rw [← this]
      exact List.Nodup.idxOf_getElem (isPerm_id r).nodup _ hw
    rw [hidx v h1 (by omega), hidx (v + 1) (by omega) h2]
    omega

section
variable {r : Nat} {x : SurjElem}

/-- `orbit` does not raise; in every key of the result the values appear for the first time in the order
`1, …, r`, and the coefficient of such a key `m` is the sum, with signs, of the coefficients of its
relabellings: `p` relabels `m` by the tuple `p.eraseDups` of its values in the order of first
occurrence. -/
theorem C49_orbit_coeff (hr : 1 ≤ r) (hx : InSurj r x) (rep : Representation) :
    ∃ z, SurjElem.orbit x rep = .ok z ∧ InSurj r z ∧ z.attrs = x.attrs ∧
      (∀ p ∈ z.data, FirstOccurrencesInOrder r p.1) ∧
      ∀ m : Surj, NonDegenerate r m → FirstOccurrencesInOrder r m →
        z.coeff m ≡ (x.data.map fun p =>
          if m.map (value p.1.eraseDups) = p.1 then
            repSign rep p.1.eraseDups * (-1) ^ relabelExponent r x.attrs.convention p.1.eraseDups m * p.2
          else 0).sum [ZMOD x.torsion] := by
  obtain ⟨z, ez, hz, az, dz⟩ := SurjElem.orbit_ok hr hx rep
  have tz' : z.torsion = x.torsion := torsion_congr az
  refine ⟨z, ez, hz, az, ?_, ?_⟩
  · intro p hp
    have h0 : den (ZMod x.torsion) z.data p.1 ≠ 0 := by
      have := (hz.nf.mem_keys_iff (k := p.1)).1 (List.mem_map_of_mem hp)
      rw [tz'] at this
      exact this
    by_contra hne
    apply h0
    rw [dz]
    refine den_induction (P := fun u => lin (SurjElem.orbS x.attrs r rep) u p.1 = 0) x.data (by simp)
      (fun u v hu hv => by rw [map_add, Finsupp.add_apply, hu, hv, add_zero]) ?_
    intro q hq
    rw [lin_single, SurjElem.orbS, SurjElem.actS, Finsupp.smul_apply, Finsupp.smul_apply, Finsupp.smul_apply,
      Finsupp.single_apply, if_neg]
    · simp
    · intro he
      apply hne
      have hq' := hx.onto q hq
      have hs := SurjElem.isPerm_seen hq'
      rw [inOrder_iff (hz.onto p hp), ← he, SurjElem.eraseDups_mulL (isPerm_invL hs) hq', invL_mulL hs]
  · intro m hm hmo
    rw [inOrder_iff hm.onto] at hmo
    rw [← ZMod.intCast_eq_intCast_iff, coeff, ← Dict.den_apply hz.nf.nodup, dz, lin_den]
    have happ : ∀ (l : List (Surj →₀ ZMod x.torsion)), l.sum m = (l.map fun v => v m).sum := by
      intro l
      induction l with
      | nil => rfl
      | cons a l ih => rw [List.sum_cons, Finsupp.add_apply, ih]; rfl
    rw [happ, Int.cast_list_sum, List.map_map, List.map_map]
    congr 1
    apply List.map_congr_left
    intro p hp
    have hk : Onto r p.1 := hx.onto p hp
    have hs := SurjElem.isPerm_seen hk
    simp only [Function.comp, Finsupp.smul_apply, SurjElem.orbS, SurjElem.actS, Finsupp.single_apply, smul_eq_mul]
    have hcomp : ∀ (a b : Perm) (k : Surj), IsPerm r b → Onto r k → mulL a (mulL b k) = mulL (mulL a b) k := by
      intro a b k hb hk
      unfold mulL
      rw [List.map_map]
      apply List.map_congr_left
      intro v hv
      exact (value_mulL hb (hk.range v hv).1 (hk.range v hv).2).symm
    have hid : ∀ k : Surj, Onto r k → mulL (pyRange 1 (r + 1)) k = k := by
      intro k hk
      unfold mulL
      conv_rhs => rw [← List.map_id k]
      apply List.map_congr_left
      intro v hv
      exact value_id (hk.range v hv).1 (hk.range v hv).2
    have hiff : mulL (invL r p.1.eraseDups) p.1 = m ↔ m.map (value p.1.eraseDups) = p.1 := by
      show _ ↔ mulL p.1.eraseDups m = p.1
      constructor
      · rintro rfl
        rw [hcomp _ _ _ (isPerm_invL hs) hk, mulL_invL hs, hid _ hk]
      · intro h
        conv_lhs => arg 2; rw [← h]
        rw [hcomp _ _ _ hs hm.onto, invL_mulL hs, hid _ hm.onto]
    rw [if_congr hiff rfl rfl]
    split
    · rename_i h
      have h' : mulL p.1.eraseDups m = p.1 := h
      have h'' := hiff.2 h
      rw [h'', ← SurjElem.relabel_sign hs hm.onto, h', Int.cast_mul, Int.cast_mul, cast_pySign, mul_one, mul_comm,
        add_comm (convE x.attrs.convention m : Int)]
    · simp

/-- `x.orbit(rep).orbit(rep') == x.orbit(rep)`: orbits are idempotent. -/
theorem C49_orbit_orbit (hr : 1 ≤ r) (hx : InSurj r x) (rep rep' : Representation) :
    ∃ z w, SurjElem.orbit x rep = .ok z ∧ SurjElem.orbit z rep' = .ok w ∧ pyEq w z = true := by
  obtain ⟨z, ez, hz, az, dz⟩ := SurjElem.orbit_ok hr hx rep
  obtain ⟨w, ew, hw, aw, dw⟩ := SurjElem.orbit_ok hr hz rep'
  refine ⟨z, w, ez, ew, pyEq_of_den (n := z.torsion) hw.nf hz.nf (torsion_congr aw) rfl ?_⟩
  have tz' : z.torsion = x.torsion := torsion_congr az
  rw [dw]
  have key : lin (SurjElem.orbS x.attrs r rep') (den (ZMod x.torsion) z.data) = den (ZMod x.torsion) z.data := by
    rw [dz]
    refine den_induction (P := fun u => lin (SurjElem.orbS x.attrs r rep') (lin (SurjElem.orbS x.attrs r rep) u) =
      lin (SurjElem.orbS x.attrs r rep) u) x.data (by simp)
      (fun u v hu hv => by rw [map_add, map_add, hu, hv]) ?_
    intro p hp
    rw [lin_single, map_smul, SurjElem.orbS_orbS _ (hx.onto p hp) hr]
  have gen : ∀ a : Attrs, a = x.attrs → lin (SurjElem.orbS a r rep') (den (ZMod a.torsion) z.data) =
      den (ZMod a.torsion) z.data := by
    rintro a rfl
    exact key
  exact gen z.attrs az

/-- `(s * x).orbit(rep) == ε(s) * x.orbit(rep)`, where `ε(s)` is the sum of the coefficients of `s`,
each multiplied by the sign of its permutation for the sign representation.  For `s` a permutation
this is invariance, resp. equivariance, of orbits. -/
theorem C49_orbit_act (hr : 1 ≤ r) {s : RingElem} (hs : InRing r s) (hsn : s.data ≠ [])
    (hx : InSurj r x) (hxn : x.data ≠ []) (ts : s.torsion = x.torsion) (rep : Representation) :
    ∃ sx z w, SurjElem.rmul s x = .ok sx ∧ SurjElem.orbit sx rep = .ok z ∧ SurjElem.orbit x rep = .ok w ∧
      pyEq z (smul surjection ((s.data.map fun q => repSign rep q.1 * q.2).sum) w) = true := by
  obtain ⟨sx, esx, nsx, asx, osx, dsx⟩ := (SurjElem.actSpec hr).ok s x hs hsn hx.nf hxn hx.onto ts
  obtain ⟨z, ez, hz, az, dz⟩ := SurjElem.orbit_ok hr ⟨nsx, osx⟩ rep
  obtain ⟨w, ew, hw, aw, dw⟩ := SurjElem.orbit_ok hr hx rep
  have tsx : sx.torsion = x.torsion := torsion_congr asx
  have tz' : z.torsion = x.torsion := (torsion_congr az).trans tsx
  have tw : w.torsion = x.torsion := torsion_congr aw
  refine ⟨sx, z, w, esx, ez, ew, pyEq_of_den (n := x.torsion) hz.nf (nf_smul hw.nf _) tz'
    (by rw [smul_torsion, tw]) ?_⟩
  have dz' : den (ZMod x.torsion) z.data = lin (SurjElem.orbS x.attrs r rep) (den _ sx.data) := by
    have gen : ∀ a : Attrs, a = sx.attrs → den (ZMod a.torsion) z.data =
        lin (SurjElem.orbS a r rep) (den (ZMod a.torsion) sx.data) := by
      rintro a rfl
      exact dz
    exact gen x.attrs asx.symm
  rw [dz', dsx, den_smul hw.nf _ (by simp [surjection]) (by rw [tw]; simp), dw]
  generalize hsd : s.data = e
  have hse : ∀ p ∈ e, IsPerm r p.1 := by rw [← hsd]; exact hs.perm
  clear hsd dsx dz' dz
  induction e with
  | nil => simp
  | cons q e ih =>
    rw [den_cons, map_add, LinearMap.add_apply, map_add,
      ih fun p hp => hse p (List.mem_cons_of_mem _ hp), List.map_cons, List.sum_cons, Int.cast_add, add_smul]
    congr 1
    refine den_induction (P := fun u => lin (SurjElem.orbS x.attrs r rep)
      (bil (SurjElem.actS x.attrs) (single q.1 (q.2 : ZMod x.torsion)) u) =
      ((repSign rep q.1 * q.2 : Int) : ZMod x.torsion) • lin (SurjElem.orbS x.attrs r rep) u) x.data (by simp)
      (fun u v hu hv => by rw [map_add, map_add, map_add, smul_add, hu, hv]) ?_
    intro p hp
    rw [bil_single, map_smul, lin_single,
      SurjElem.orbS_actS x.attrs rep (hse q (by simp)) (hx.onto p hp) hr, smul_smul, smul_smul]
    congr 1
    push_cast
    ring

end

example : (SurjElem.orbit (exSu .mcClureSmith) .sign).toOption.map (·.data) =
    some [([1, 2, 1, 3, 1], 2), ([1, 2, 3, 1, 3], 1)] := by decide +kernel

/-! ## C65 zero elements -/

section
variable {r : Nat} {s : RingElem}

/-- `s * x` raises `TypeError` when one factor is zero and the other one has an arity: simplicial
chains. -/
theorem C65_simplicial {x : SElem} (h : (s.data = [] ∧ x.arity = some r) ∨ (x.data = [] ∧ s.arity = some r)) :
    SElem.rmul s x = .error .typeError := by
  apply C23_act_mismatch
  right
  rcases h with ⟨h, hx⟩ | ⟨h, hs⟩
  · rw [ringArity_none h, hx]; simp
  · rw [hs, SElem.arity, h]; simp [uniqueValue]

/-- Cubical chains. -/
theorem C65_cubical {x : CElem} (h : (s.data = [] ∧ x.arity = some r) ∨ (x.data = [] ∧ s.arity = some r)) :
    CElem.rmul s x = .error .typeError := by
  apply C29_act_mismatch
  right
  rcases h with ⟨h, hx⟩ | ⟨h, hs⟩
  · rw [ringArity_none h, hx]; simp
  · rw [hs, CElem.arity, h]; simp [uniqueValue]

/-- Barratt-Eccles operad. -/
theorem C65_barrattEccles {x : BElem}
    (h : (s.data = [] ∧ x.arity = some r) ∨ (x.data = [] ∧ s.arity = some r)) :
    BElem.rmul s x = .error .typeError := by
  apply C37_act_mismatch
  right
  rcases h with ⟨h, hx⟩ | ⟨h, hs⟩
  · rw [ringArity_none h, hx]; simp
  · rw [hs, BElem.arity_none h]; simp

/-- Surjection operad. -/
theorem C65_surjection {x : SurjElem}
    (h : (s.data = [] ∧ x.arity = some r) ∨ (x.data = [] ∧ s.arity = some r)) :
    SurjElem.rmul s x = .error .typeError := by
  apply C48_act_mismatch
  right
  rcases h with ⟨h, hx⟩ | ⟨h, hs⟩
  · rw [ringArity_none h, hx]; simp
  · rw [hs, SurjElem.arity_none h]; simp

/-- This happens: the product of a transposition with the zero element obtained as `x - x`. -/
example : ∃ z, sub surjection (exSu .bergerFresse) (exSu .bergerFresse) = .ok z ∧ z.data = [] ∧
    RingElem.arity (Elem.new symmetricRing [([2, 1, 3], 1)] (some 5)) = some 3 :=
  ⟨_, rfl, by decide +kernel, by decide +kernel⟩

end

end Comch.Props
