import Verif.Lib.TableRedRead
import Verif.Props.BECompose
import Verif.Props.SurjAssoc

/-! # C42, C43: table reduction -/

set_option linter.unusedSectionVars false

namespace Comch.TR
open Elem Spec IsPerm
open Finsupp (single)

variable {r d n : Nat} {x : BElem}

theorem al_of_perm {k : BKey} (h : ∀ σ ∈ k, IsPerm r σ) : Al (Finset.Icc 1 r) k := by
  intro w hw
  refine ⟨(h w hw).nodup, ?_⟩
  ext v
  rw [List.mem_toFinset, Comch.IsPerm.mem_iff (h w hw), Finset.mem_Icc]

/-- The terms produced for one key. -/
def tev (k : BKey) (v : Int) (p : List Nat) : List (Surj × Int) :=
  match BElem.tableLoop true (k.zip p) [] [] with
  | .ok (some k2) => [(k2, v)]
  | _ => []

theorem rmL_nil (w : List Nat) : rmL [] w = w := by simp [rmL]

theorem parts_of_mem {k : BKey} (hk : ∀ σ ∈ k, IsPerm r σ) (hne : k ≠ []) (p : List Nat) :
    p ∈ partitions (k.length - 1 + pyMax (k.headD [])) (k.length - 1 + 1) 1 none true ↔
      Parts (Finset.Icc 1 r) k p := by
  obtain ⟨w, W, rfl⟩ := List.exists_cons_of_ne_nil hne
  rw [mem_partitions_ordered, List.headD_cons, Comch.IsPerm.pyMax_eq (hk w (by simp)), Parts, Nat.card_Icc]
  simp only [List.length_cons, Nat.add_sub_cancel, Option.getD_none]
  constructor
  · rintro ⟨h1, h2, h3⟩
    exact ⟨h1, by omega, fun v hv => (h3 v hv).1⟩
  · rintro ⟨h1, h2, h3⟩
    refine ⟨h1, by omega, fun v hv => ⟨h3 v hv, ?_⟩⟩
    have := List.single_le_sum (by simp) v hv
    omega

theorem loop_ok {k : BKey} (hk : ∀ σ ∈ k, IsPerm r σ) {p : List Nat} (hp : Parts (Finset.Icc 1 r) k p) (v : Int) :
    ∃ o, BElem.tableLoop true (k.zip p) [] [] = .ok o ∧
      (o = some (tl k p) ∨ (o = none ∧ hasRep (tl k p) = true)) := by
  have h := tableLoop_eq k (Finset.Icc 1 r) p true [] [] (by
    have : k.map (rmL []) = k := by
      rw [List.map_congr_left (fun w _ => rmL_nil w), List.map_id']
    rw [this]; exact al_of_perm hk) hp (by simp)
  have e : k.map (rmL []) = k := by
      rw [List.map_congr_left (fun w _ => rmL_nil w), List.map_id']
  rw [e] at h
  simpa using h

/-- Degenerate words are dropped. -/
theorem surj_drops_of_hasRep {m : Surj} (h : hasRep m = true) : surjection.drops m = true := by
  rw [surj_drops, h]; simp

theorem den_tev {R : Type} [CommRing R] {k : BKey} (hk : ∀ σ ∈ k, IsPerm r σ) (hne : k ≠ []) (hr : 1 ≤ r) (v : Int) :
    pr surjection.drops (den R ((partitions (k.length - 1 + pyMax (k.headD [])) (k.length - 1 + 1) 1 none true).flatMap
      (tev k v))) = pr surjection.drops ((v : R) • tr k) := by
  rw [den_flatMap, ← sum_parts k _ (al_of_perm hk) hne (by simpa using hr) _ (nodup_partitions _ _ _ _ _)
    (parts_of_mem hk hne), List.smul_sum, map_list_sum, map_list_sum, List.map_map, List.map_map, List.map_map]
  congr 1
  apply List.map_congr_left
  intro p hp
  obtain ⟨o, ho, h⟩ := loop_ok hk ((parts_of_mem hk hne p).1 hp) v
  simp only [Function.comp, tev, ho]
  rcases h with rfl | ⟨rfl, h⟩
  · simp
  · simp [bv, surj_drops_of_hasRep h]

theorem tableReduction_eq (hx : InBE r x) :
    BElem.tableReduction x = .ok (preferredRep surjection (accumulate surjection
      (Elem.new surjection [] (some x.torsion) .bergerFresse)
      (x.data.flatMap fun p => (partitions (p.1.length - 1 + pyMax (p.1.headD [])) (p.1.length - 1 + 1) 1 none true).flatMap
        (tev p.1 p.2)))) := by
  have hm : (x.data.mapM fun (p : BKey × Int) => do
    let ls ← (partitions (p.1.length - 1 + pyMax (p.1.headD [])) (p.1.length - 1 + 1) 1 none true).mapM fun pi => do
      match ← BElem.tableLoop true (p.1.zip pi) [] [] with
      | none => (.ok [] : Py (List (Surj × Int)))
      | some k2 => .ok [(k2, p.2)]
    (.ok ls.flatten : Py (List (Surj × Int)))) = .ok (x.data.map fun p =>
      (partitions (p.1.length - 1 + pyMax (p.1.headD [])) (p.1.length - 1 + 1) 1 none true).flatMap (tev p.1 p.2)) := by
    apply mapM_ok
    intro p hp
    have hne := BElem.key_ne_nil hx.nf hp
    have h2 : ((partitions (p.1.length - 1 + pyMax (p.1.headD [])) (p.1.length - 1 + 1) 1 none true).mapM fun pi => do
      match ← BElem.tableLoop true (p.1.zip pi) [] [] with
      | none => (.ok [] : Py (List (Surj × Int)))
      | some k2 => .ok [(k2, p.2)]) = .ok ((partitions (p.1.length - 1 + pyMax (p.1.headD [])) (p.1.length - 1 + 1) 1 none true).map (tev p.1 p.2)) := by
      apply mapM_ok
      intro q hq
      obtain ⟨o, ho, h⟩ := loop_ok (hx.perm p hp) ((parts_of_mem (hx.perm p hp) hne q).1 hq) p.2
      unfold tev
      rw [ho]
      rcases h with rfl | ⟨rfl, h⟩ <;> rfl
    rw [h2, List.flatMap_def]
    rfl
  unfold BElem.tableReduction
  rw [List.flatMap_def]
  exact congrArg (fun m : Py (List (List (Surj × Int))) => m >>= fun events => Except.ok
    (preferredRep surjection (accumulate surjection (Elem.new surjection [] (some x.torsion) .bergerFresse)
      events.flatten))) hm

theorem tableReduction_ok (hr : 1 ≤ r) (hx : InBE r x) (hn : x.torsion = n) :
    ∃ z, BElem.tableReduction x = .ok z ∧ z.NF surjection ∧
      z.attrs = { torsion := x.torsion, convention := .bergerFresse } ∧
      den (ZMod n) z.data = pr surjection.drops (trL (den _ x.data)) := by
  refine ⟨_, tableReduction_eq hx, ?_, ?_, ?_⟩
  · exact nf_preferredRep _ _ (nf_accumulate (nf_new _ (by simp [Dict.KeysNodup]) _ _) _).nodup
  · simp [preferredRep, Elem.new]
  · have hz : (x.torsion : ZMod n) = 0 := by rw [hn]; simp
    have e0 : den (ZMod n) (Elem.new surjection [] (some x.torsion) .bergerFresse).data = 0 := by
      rw [den_new _ _ _ _ (by simpa using hz)]; simp
    rw [den_preferredRep _ _ (by simpa [Elem.torsion, Elem.new, preferredRep] using hz),
      den_accumulate _ _ _ (by simp) (by simpa [Elem.torsion, Elem.new, preferredRep] using hz) (by rw [e0]; simp), e0, zero_add, pr_pr]
    rw [den_flatMap, trL, lin_den, map_list_sum, map_list_sum, List.map_map, List.map_map]
    congr 1
    apply List.map_congr_left
    intro p hp
    exact den_tev (hx.perm p hp) (BElem.key_ne_nil hx.nf hp) hr p.2

end Comch.TR

namespace Comch.Props
open Comch Elem Spec IsPerm BElem
open Finsupp (single)

variable {r d n : Nat} {x : BElem} {s : RingElem}

theorem trL_supported (hx : InBE r x) (n : Nat) : TR.trL (den (ZMod n) x.data) ∈
    Finsupp.supported (ZMod n) (ZMod n) {m : Surj | ∀ v, v ∈ m ↔ 1 ≤ v ∧ v ≤ r} := by
  have : den (ZMod n) x.data ∈ Finsupp.supported (ZMod n) (ZMod n) {k : BKey | ∀ σ ∈ k, IsPerm r σ} := by
    apply den_supported
    exact hx.perm
  refine lin_supported (S := {k : BKey | ∀ σ ∈ k, IsPerm r σ}) _ (fun k hk => ?_) this
  refine Finsupp.supported_mono ?_ (TR.tr_supported (TR.al_of_perm hk))
  rintro m ⟨h, _⟩ v
  rw [h, Finset.mem_Icc]

/-- `table_reduction` never raises on elements of the operad: the value is an element of the surjection
operad of the same arity and torsion, in the convention of Berger and Fresse. -/
theorem C42_no_exception (hr : 1 ≤ r) (hx : InBE r x) :
    ∃ z, tableReduction x = .ok z ∧ InSurj r z ∧ z.torsion = x.torsion ∧
      z.attrs.convention = .bergerFresse := by
  obtain ⟨z, ez, nz, az, dz⟩ := TR.tableReduction_ok hr hx rfl
  refine ⟨z, ez, ⟨nz, ?_⟩, by rw [Elem.torsion, az], by rw [az]⟩
  intro p hp
  have hn' : z.torsion = x.torsion := by rw [Elem.torsion, az]
  have h := nz.mem_keys_iff.1 (List.mem_map_of_mem (f := Prod.fst) hp)
  rw [hn', dz] at h
  exact (Finsupp.mem_supported _ _).1 (pr_supported (trL_supported hx _)) (Finsupp.mem_support_iff.2 h)

/-- The degree is preserved. -/
theorem C42_degree {z : SurjElem} (hr : 1 ≤ r) (hx : InBE r x) (hd : x.degree = some (d : Int))
    (hz : tableReduction x = .ok z) : z.data = [] ∨ SurjElem.degree z = some (d : Int) := by
  obtain ⟨z', ez, nz, az, dz⟩ := TR.tableReduction_ok hr hx rfl
  cases hz.symm.trans ez
  obtain ⟨z', ez', hz', _⟩ := C42_no_exception hr hx
  cases hz.symm.trans ez'
  rw [or_iff_not_imp_left]
  intro hne
  have hh := hom_of_degree hx hd
  have hsupp : TR.trL (den (ZMod x.torsion) x.data) ∈ Finsupp.supported (ZMod x.torsion) (ZMod x.torsion)
      {m : Surj | m.length = d + r} := by
    refine lin_supported (S := {k : BKey | k.length = d + 1 ∧ ∀ σ ∈ k, IsPerm r σ}) _ (fun k hk => ?_)
      (den_supported fun p hp => ⟨hh.len p hp, hx.perm p hp⟩)
    refine Finsupp.supported_mono ?_ (TR.tr_supported (TR.al_of_perm hk.2))
    rintro m ⟨_, h⟩
    rw [hk.1, Nat.card_Icc] at h
    show m.length = d + r
    omega
  rw [SurjElem.degree, uniqueValue_eq_some]
  refine ⟨by simpa using hne, ?_⟩
  intro b hb
  obtain ⟨p, hp, rfl⟩ := List.mem_map.1 hb
  have hn' : z.torsion = x.torsion := by rw [Elem.torsion, az]
  have h := nz.mem_keys_iff.1 (List.mem_map_of_mem (f := Prod.fst) hp)
  rw [hn', dz] at h
  have h2 : p.1.length = d + r :=
    (Finsupp.mem_supported _ _).1 (pr_supported hsupp) (Finsupp.mem_support_iff.2 h)
  rw [SurjElem.keyDegree, pyMax_of_onto (hz'.onto p hp), h2]
  push_cast; omega

open Classical in
/-- The coefficients of the table reduction: each term of `x` contributes to the nondegenerate
surjections which can be read off its table. -/
theorem C42_coeff {z : SurjElem} (hr : 1 ≤ r) (hx : InBE r x) (hz : tableReduction x = .ok z) {m : Surj}
    (hm : NonDegenerate r m) :
    z.coeff m ≡ (x.data.map fun p => if IsTableReading p.1 m then p.2 else 0).sum [ZMOD x.torsion] := by
  obtain ⟨z', ez, nz, az, dz⟩ := TR.tableReduction_ok hr hx rfl
  cases hz.symm.trans ez
  rw [← ZMod.intCast_eq_intCast_iff]
  have h2 := DFunLike.congr_fun dz m
  rw [Dict.den_apply nz.nodup, pr_apply, surj_kept hr hm] at h2
  simp only [Bool.false_eq_true, if_false] at h2
  rw [Elem.coeff, h2, TR.trL, lin_den]
  have happ : ∀ l : List (Surj →₀ ZMod x.torsion), l.sum m = (l.map fun v => v m).sum := by
    intro l
    induction l with
    | nil => rfl
    | cons a l ih => rw [List.sum_cons, Finsupp.add_apply, ih]; simp
  rw [happ, List.map_map, Int.cast_list_sum, List.map_map]
  congr 1
  apply List.map_congr_left
  intro p hp
  simp only [Function.comp, Finsupp.smul_apply, smul_eq_mul]
  rw [TR.tr_apply (TR.al_of_perm (hx.perm p hp)) (BElem.key_ne_nil hx.nf hp) (by
    rw [← Finset.nonempty_iff_ne_empty]; exact ⟨1, by simpa using hr⟩)]
  have : TR.Rd p.1 m ↔ IsTableReading p.1 m := Iff.rfl
  by_cases h : IsTableReading p.1 m
  · rw [if_pos h, if_pos (this.2 h), mul_one]
  · rw [if_neg h, if_neg (fun h' => h (this.1 h')), mul_zero, Int.cast_zero]

/-! ## C43 -/

theorem pr_trL_pr {v : BKey →₀ ZMod n} (hv : v ∈ Finsupp.supported (ZMod n) (ZMod n) {k : BKey | ∀ σ ∈ k, IsPerm r σ}) :
    pr surjection.drops (TR.trL (pr barrattEccles.drops v)) = pr surjection.drops (TR.trL v) := by
  refine lin_ext_supported (f := ((pr surjection.drops).comp TR.trL).comp (pr barrattEccles.drops))
    (g := (pr surjection.drops).comp TR.trL) ?_ hv
  intro k hk
  simp only [LinearMap.comp_apply, pr_single]
  split
  · rename_i hd
    rw [map_zero, map_zero, TR.trL_single, one_smul]
    rw [be_drops, Bool.or_eq_true, decide_eq_true_eq] at hd
    rcases hd with rfl | hd
    · simp [TR.tr]
    · symm
      refine lin_ext_supported (f := pr surjection.drops) (g := 0) ?_ (TR.tr_hasRep (TR.al_of_perm hk) hd)
      intro m hm
      rw [pr_single, if_pos (TR.surj_drops_of_hasRep hm)]; simp
  · rfl

theorem sdelL_trL {v : BKey →₀ ZMod n} (hv : v ∈ Finsupp.supported (ZMod n) (ZMod n) {k : BKey | ∀ σ ∈ k, IsPerm r σ}) :
    sdelL (TR.trL v) = TR.trL (del v) := by
  refine lin_ext_supported (f := sdelL.comp TR.trL) (g := TR.trL.comp del) ?_ hv
  intro k hk
  simp only [LinearMap.comp_apply, TR.trL_single, one_smul, del_single]
  exact TR.sdelL_tr (TR.al_of_perm hk)

/-- `x.boundary().table_reduction() == x.table_reduction().boundary()`. -/
theorem C43_chain_map (hr : 1 ≤ r) (hx : InBE r x) :
    ∃ z w, tableReduction x = .ok z ∧ tableReduction x.boundary = .ok w ∧
      pyEq (SurjElem.boundary z) w = true := by
  have tb : x.boundary.torsion = x.torsion := torsion_congr (BElem.boundary_attrs x)
  obtain ⟨z, ez, nz, az, dz⟩ := TR.tableReduction_ok hr hx rfl
  obtain ⟨w, ew, nw, aw, dw⟩ := TR.tableReduction_ok hr (BElem.inBE_boundary hx) tb
  have tz : z.torsion = x.torsion := by rw [Elem.torsion, az]
  have tw : w.torsion = x.torsion := by rw [Elem.torsion, aw]; exact tb
  refine ⟨z, w, ez, ew, ?_⟩
  have hs : den (ZMod x.torsion) x.data ∈ Finsupp.supported _ _ {k : BKey | ∀ σ ∈ k, IsPerm r σ} :=
    den_supported hx.perm
  have hsd : del (den (ZMod x.torsion) x.data) ∈ Finsupp.supported _ _ {k : BKey | ∀ σ ∈ k, IsPerm r σ} :=
    lin_supported _ (fun k hk => delK_supported hk) hs
  refine pyEq_of_den (SurjElem.nf_boundary z) nw ((torsion_congr (SurjElem.boundary_attrs z)).trans tz) tw ?_
  rw [SurjElem.den_boundary_bf nz (Or.inr (by rw [az])) tz, dz, dw, BElem.den_boundary x rfl, pr_trL_pr hsd,
    pr_lin_pr sdelL (fun k hk => by rw [sdelL_single, one_smul]; exact pr_surj_sdel hk), sdelL_trL hs]

theorem rmul_surj_bf {z : SurjElem} (hr : 1 ≤ r) (hs : InRing r s) (hsn : s.data ≠ []) (hz : InSurj r z)
    (hzn : z.data ≠ []) (ts : s.torsion = z.torsion) (hb : z.attrs.convention = .bergerFresse) (hn : z.torsion = n) :
    ∃ w, SurjElem.rmul s z = .ok w ∧ w.NF surjection ∧ w.attrs = z.attrs ∧
      den (ZMod n) w.data = bil (fun q k => bv _ (mulL q k)) (den _ s.data) (den _ z.data) := by
  subst hn
  obtain ⟨w, ew, nw, aw, _, dw⟩ := (SurjElem.actSpec hr).ok s z hs hsn hz.nf hzn hz.onto ts
  refine ⟨w, ew, nw, aw, dw.trans ?_⟩
  have : SurjElem.actS z.attrs = fun q k => bv (ZMod z.attrs.torsion) (mulL q k) := ?_
  · rw [this]
  funext q k
  rw [SurjElem.actS_eq, hb, convS_bf, convS_bf, mapK_single]

theorem rmul_be_vec (hr : 1 ≤ r) (hs : InRing r s) (hsn : s.data ≠ []) (hx : InBE r x)
    (hxn : x.data ≠ []) (ts : s.torsion = x.torsion) (hn : x.torsion = n) :
    ∃ w, BElem.rmul s x = .ok w ∧ InBE r w ∧ w.attrs = x.attrs ∧
      den (ZMod n) w.data = bil (fun q k => bv _ (BElem.trL q k)) (den _ s.data) (den _ x.data) := by
  subst hn
  obtain ⟨w, ew, nw, aw, pw, dw⟩ := (BElem.actSpec hr).ok s x hs hsn hx.nf hxn hx.perm ts
  exact ⟨w, ew, ⟨nw, pw⟩, aw, dw⟩

/-- `(s * x).table_reduction() == s * x.table_reduction()`. If the table reduction of `x` is zero (where
the package cannot form the product with `s`), so is that of `s * x`. -/
theorem C43_equivariant (hr : 1 ≤ r) (hs : InRing r s) (hsn : s.data ≠ []) (hx : InBE r x) (hxn : x.data ≠ [])
    (ts : s.torsion = x.torsion) :
    ∃ sx z w, BElem.rmul s x = .ok sx ∧ tableReduction x = .ok z ∧ tableReduction sx = .ok w ∧
      (z.data = [] → w.data = []) ∧
      (z.data ≠ [] → ∃ sz, SurjElem.rmul s z = .ok sz ∧ pyEq w sz = true) := by
  obtain ⟨sx, esx, hsx, asx, dsx⟩ := rmul_be_vec hr hs hsn hx hxn ts rfl
  have tsx : sx.torsion = x.torsion := torsion_congr asx
  obtain ⟨z, ez, nz, az, dz⟩ := TR.tableReduction_ok hr hx rfl
  obtain ⟨w, ew, nw, aw, dw⟩ := TR.tableReduction_ok hr hsx tsx
  obtain ⟨z', ez', hz, tz, cz⟩ := C42_no_exception hr hx
  cases ez.symm.trans ez'
  have tw : w.torsion = x.torsion := by rw [Elem.torsion, aw]; exact tsx
  refine ⟨sx, z, w, esx, ez, ew, ?_⟩
  have hss : den (ZMod x.torsion) s.data ∈ Finsupp.supported _ _ {q : Perm | IsPerm r q} := den_supported hs.perm
  have hxs : den (ZMod x.torsion) x.data ∈ Finsupp.supported _ _ {k : BKey | ∀ σ ∈ k, IsPerm r σ} :=
    den_supported hx.perm
  have key : den (ZMod x.torsion) w.data = bil (fun q k => bv _ (mulL q k)) (den _ s.data) (den _ z.data) := by
    rw [dw, dsx, dz]
    refine bil_ext_supported (R := ZMod x.torsion)
      (f := (bil fun q k => bv _ (BElem.trL q k)).compr₂ ((pr surjection.drops).comp TR.trL))
      (g := (bil fun q k => bv _ (mulL q k)).compl₂ ((pr surjection.drops).comp TR.trL)) ?_ hss hxs
    intro q hq k hk
    simp only [LinearMap.compr₂_apply, LinearMap.compl₂_apply, LinearMap.comp_apply, TR.trL_single, one_smul]
    have hf : ∀ a ∈ Finset.Icc 1 r, ∀ b ∈ Finset.Icc 1 r, value q a = value q b → a = b := by
      intro a ha b hb
      exact value_inj hq (Finset.mem_Icc.1 ha) (Finset.mem_Icc.1 hb)
    have htr := TR.tr_map (R := ZMod x.torsion) (TR.al_of_perm hk) hf
    have e1 : (bil fun (q : Perm) k => bv (ZMod x.torsion) (BElem.trL q k)) (bv _ q) (bv _ k) =
      bv _ (k.map (List.map (value q))) := by simp [bil_bv, BElem.trL]; rfl
    rw [e1, TR.trL_single, one_smul, htr]
    refine lin_ext_supported (R := ZMod x.torsion) (f := (pr surjection.drops).comp (mapK (List.map (value q))))
      (g := ((bil fun (q : Perm) k => bv (ZMod x.torsion) (mulL q k)) (bv _ q)).comp (pr surjection.drops)) ?_
      (TR.tr_supported (TR.al_of_perm hk))
    rintro m ⟨hm, _⟩
    have hm' : Onto r m := by
      intro v; rw [hm, Finset.mem_Icc]
    simp only [LinearMap.comp_apply, mapK_single, pr_single]
    have hd := surj_drops_mulL hq hm'
    rw [show List.map (value q) m = mulL q m from rfl, hd]
    split
    · simp
    · simp [bil_bv]
  constructor
  · intro h
    have h0 : den (ZMod x.torsion) w.data = 0 := by rw [key, h]; simp
    rw [← tw] at h0
    exact nw.data_eq_nil_iff.2 h0
  · intro h
    obtain ⟨sz, esz, nsz, asz, dsz⟩ := rmul_surj_bf hr hs hsn hz h (ts.trans tz.symm) cz tz
    exact ⟨sz, esz, pyEq_of_den nw nsz tw ((torsion_congr asz).trans tz) (key.trans dsz.symm)⟩

/-! ## A concrete case -/

example : (tableReduction exBE).toOption.map Elem.data =
    some [([1, 2, 3, 1, 2], 2), ([1, 2, 1, 3, 1], 2), ([2, 1, 2, 1, 3], 4)] := by decide +kernel

example : IsTableReading [[1, 2, 3], [2, 1, 3], [3, 1, 2]] [1, 2, 3, 1, 2] ∧ NonDegenerate 3 [1, 2, 3, 1, 2] := by
  refine ⟨⟨[[1], [2], [3, 1, 2]], by decide, by decide, by decide⟩, ⟨fun v => ?_, ?_⟩⟩
  · simp only [List.mem_cons, List.not_mem_nil, or_false]; omega
  · intro i hi
    simp only [List.length_cons, List.length_nil] at hi
    have : i = 0 ∨ i = 1 ∨ i = 2 ∨ i = 3 := by omega
    rcases this with rfl | rfl | rfl | rfl <;> decide

example : exBE.boundary.data ≠ [] ∧ ((tableReduction exBE.boundary).toOption.map Elem.data) ≠ some [] := by
  decide +kernel

end Comch.Props
