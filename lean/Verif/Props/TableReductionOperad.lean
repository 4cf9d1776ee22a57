import Verif.Lib.TableRedCompose
import Verif.Props.TableReduction

/-! # C79: table reduction is a morphism of operads -/

set_option linter.unusedSectionVars false

namespace Comch.TR
open Elem Spec IsPerm
open Finsupp (single)

variable {R : Type} [CommRing R] {r s i : Nat}

theorem cp_eq_sb {p : Perm × Perm} (h : p.2.length = s) (hi : 1 ≤ i) : BElem.cp i p = sb i s p := by
  unfold BElem.cp compL sb
  congr 1
  funext j
  unfold subst1 SurjComp.sh
  rw [h]
  by_cases h1 : j = i
  · subst h1
    rw [if_neg (by omega), if_pos rfl, if_pos rfl]
    rfl
  · rw [if_neg h1, if_neg h1]
    split <;> rfl

theorem trL_ecmp {k1 k2 : BKey} (h1 : k1 ∈ BElem.BS r) (h2 : k2 ∈ BElem.BS s) (hi : 1 ≤ i ∧ i ≤ r) (hs : 1 ≤ s) :
    pr surjection.drops (trL (BElem.ecmp (R := R) i k1 k2)) =
      pr surjection.drops (bil (SurjComp.cmp i s) (tr k1) (tr k2)) := by
  have e : BElem.ecmp (R := R) i k1 k2 = mapK (List.map (sb i s)) (ez k1 k2) := by
    refine BElem.mapK_congr_supported (fun m hm => ?_) (ez_supported k1 k2)
    apply List.map_congr_left
    intro p hp
    exact cp_eq_sb ((h2 p.2 (hm.2.1 p hp).2).length) hi.1
  have h := tr_compose (R := R) hi.1 hs _ k1 k2 _ _ le_rfl (al_of_perm h1) (by simpa using hi) (al_of_perm h2)
    (by simp) ⟨1, by simpa using hs⟩
  rw [← sub_eq_zero, ← map_sub, e]
  refine BElem.lin_ext_supported (f := pr surjection.drops) (g := 0) (fun m hm => ?_) h
  rw [pr_single, if_pos (surj_drops_of_hasRep hm)]
  rfl

theorem trL_ecmpV {a b : BKey →₀ R} (ha : a ∈ Finsupp.supported R R (BElem.BS r))
    (hb : b ∈ Finsupp.supported R R (BElem.BS s)) (hi : 1 ≤ i ∧ i ≤ r) (hs : 1 ≤ s) :
    pr surjection.drops (trL (BElem.ecmpV R i a b)) =
      pr surjection.drops (SurjElem.cmpV R i s (trL a) (trL b)) := by
  refine BElem.bil_ext_supported
    (f := (BElem.ecmpV R i).compr₂ ((pr surjection.drops).comp trL))
    (g := (((SurjElem.cmpV R i s).comp trL).compl₂ trL).compr₂ (pr surjection.drops)) (fun k1 h1 k2 h2 => ?_) ha hb
  simp only [LinearMap.compr₂_apply, LinearMap.comp_apply, LinearMap.compl₂_apply, trL_single, one_smul]
  have : BElem.ecmpV R i (bv R k1) (bv R k2) = BElem.ecmp i k1 k2 := by simp [BElem.ecmpV]
  rw [this]
  exact trL_ecmp h1 h2 hi hs

end Comch.TR

namespace Comch.Props
open Comch Elem Spec IsPerm BElem
open Finsupp (single)

variable {r s d e i : Nat} {x y : BElem}

/-- `x.compose(y, i).table_reduction() == x.table_reduction().compose(y.table_reduction(), i)`, for all
non-zero homogeneous elements of one torsion. -/
theorem C79_compose (hs : 1 ≤ s) (hx : InBE r x) (hy : InBE s y) (hi : 1 ≤ i ∧ i ≤ r)
    (hd : x.degree = some (d : Int)) (he : y.degree = some (e : Int)) (ht : x.torsion = y.torsion) :
    ∃ z tz tx ty w, compose x y i = .ok z ∧ tableReduction z = .ok tz ∧ tableReduction x = .ok tx ∧
      tableReduction y = .ok ty ∧ SurjElem.compose tx ty i = .ok w ∧ pyEq tz w = true := by
  have hxn : x.data ≠ [] := by
    rintro h; rw [BElem.degree, uniqueValue_eq_some] at hd; exact hd.1 (by simp [h])
  have hyn : y.data ≠ [] := by
    rintro h; rw [BElem.degree, uniqueValue_eq_some] at he; exact he.1 (by simp [h])
  have hX := hom_of_degree hx hd
  have hY := hom_of_degree hy he
  have hr : 1 ≤ r := hi.1.trans hi.2
  obtain ⟨z, ez, hz, az, dz⟩ := composeOrZero_ok hX hY hi ht rfl
  unfold composeOrZero at ez
  rw [if_neg (by simp [hxn, hyn])] at ez
  have tz : z.torsion = x.torsion := torsion_congr az
  obtain ⟨tz', etz, ntz, atz, dtz⟩ := TR.tableReduction_ok (by omega) hz.toInBE tz
  obtain ⟨tx, etx, ntx, atx, dtx⟩ := TR.tableReduction_ok hr hx rfl
  obtain ⟨ty, ety, nty, aty, dty⟩ := TR.tableReduction_ok hs hy ht.symm
  obtain ⟨tx', etx', itx, -, -⟩ := C42_no_exception hr hx
  obtain ⟨ty', ety', ity, -, -⟩ := C42_no_exception hs hy
  rw [etx] at etx'; cases etx'
  rw [ety] at ety'; cases ety'
  have ttx : tx.torsion = x.torsion := by rw [Elem.torsion, atx]
  obtain ⟨w, ew, hw, aw, dw⟩ := compose_ok' itx ity hi.1 hi.2 (Or.inr (by rw [atx])) ttx
  refine ⟨z, tz', tx, ty, w, ez, etz, etx, ety, ew, pyEq_of_den (n := x.torsion) ntz hw.nf
    (by rw [Elem.torsion, atz]; exact tz) ((torsion_congr aw).trans ttx) ?_⟩
  have sX := den_supp_hom' hX x.torsion
  have sY := den_supp_hom' hY x.torsion
  rw [dtz, dz, dw, dtx, dty,
    SurjElem.pr_cmpV_left hr (trL_supported hx _),
    SurjElem.pr_cmpV_right hi.1 hi.2 hs (trL_supported hx _) (trL_supported hy _), ← TR.trL_ecmpV sX sY hi hs]
  refine pr_trL_pr (r := r + s - 1) (BElem.bil_supported _ (S := BS r) (T := BS s) ?_ sX sY)
  intro a ha b hb
  exact ecmp_supported' ha hb hi

/-- The identity of arity 1 goes to the identity of arity 1. -/
theorem C79_unit {one : BElem} (ho : one.NF barrattEccles) (hod : one.data = [([[1]], 1)]) :
    ∃ z, tableReduction one = .ok z ∧
      pyEq z (Elem.new surjection [([1], 1)] (some one.torsion) .bergerFresse) = true := by
  have hx : InBE 1 one := ⟨ho, by simp [hod]; decide⟩
  obtain ⟨z, ez, nz, az, dz⟩ := TR.tableReduction_ok le_rfl hx rfl
  refine ⟨z, ez, pyEq_of_den (n := one.torsion) nz (nf_new _ (by simp [Dict.KeysNodup]) _ _)
    (by rw [Elem.torsion, az]) (by simp [Elem.torsion, Elem.new, preferredRep]) ?_⟩
  rw [dz, den_new _ _ _ _ (by simp), hod]
  simp [den, TR.tr_cons, TR.tr_nil_cons]

/-! ## A concrete case -/

example : InBE 3 exBE ∧ InBE 2 exBE2 ∧ exBE.degree = some 2 ∧ exBE2.degree = some 1 ∧
    exBE.torsion = exBE2.torsion := ⟨exBE_in, exBE2_hom.toInBE, by decide, by decide, by decide⟩

/-- Both sides are non-zero. -/
example : ((compose exBE exBE2 2).toOption.bind fun z => (tableReduction z).toOption.map Elem.data) ≠ some [] := by
  decide +kernel

end Comch.Props
