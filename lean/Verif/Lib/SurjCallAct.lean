import Verif.Lib.SurjCall
import Verif.Lib.ActElem

/-! # Relabelling surjections and the action on simplices -/

set_option linter.unusedSectionVars false

namespace Comch.SurjComp
open Spec Elem IsPerm SurjElem
open Finsupp (single)

variable {R : Type} [CommRing R] {r : Nat} {σ : Perm}

/-- Relabel the letters. -/
def relabW (f : Nat → Nat) (w : LW) : LW := w.map fun p => (f p.1, p.2)

theorem letters_relabW (f : Nat → Nat) (w : LW) : letters (relabW f w) = (letters w).map f := by
  simp [letters, relabW]

theorem sdeg_map_inj {f : Nat → Nat} {k : List Nat} (h : ∀ a ∈ k, ∀ b ∈ k, f a = f b → a = b) :
    sdeg (k.map f) = sdeg k := by
  induction k with
  | nil => rfl
  | cons x t ih =>
    have hm : f x ∈ t.map f ↔ x ∈ t := by
      rw [List.mem_map]
      constructor
      · rintro ⟨a, ha, e⟩
        rwa [← h a (by simp [ha]) x (by simp) e]
      · exact fun hx => ⟨x, hx, rfl⟩
    rw [List.map_cons, sdeg, sdeg, ih fun a ha b hb => h a (by simp [ha]) b (by simp [hb])]
    simp only [hm]

theorem mapK_relabW_consV (f : Nat → Nat) (x a : Nat) (v : LW →₀ R) :
    mapK (relabW f) (consV (x, a) v) = consV (f x, a) (mapK (relabW f) v) := by
  induction v using Finsupp.induction_linear with
  | zero => simp
  | add f g hf hg => simp only [map_add, hf, hg]
  | single k c => simp [relabW]

theorem pth_map {f : Nat → Nat} (k V : List Nat) (h : ∀ a ∈ k, ∀ b ∈ k, f a = f b → a = b) :
    pth (R := R) (k.map f) V = mapK (relabW f) (pth k V) := by
  refine pth_induction (P := fun k V => (∀ a ∈ k, ∀ b ∈ k, f a = f b → a = b) →
    pth (R := R) (k.map f) V = mapK (relabW f) (pth k V)) (fun V _ => by simp) (fun k _ => by simp)
    (fun x t a w ih1 ih2 h => ?_) k V h
  have h' : ∀ a ∈ t, ∀ b ∈ t, f a = f b → a = b := fun a ha b hb => h a (by simp [ha]) b (by simp [hb])
  have ih1 := ih1 h
  have ih2 := ih2 h'
  have hs := sdeg_map_inj h
  rw [List.map_cons] at ih1 hs ⊢
  rw [pth_cons, pth_cons, ih1, ih2, hs, map_add, map_add, map_smul, mapK_relabW_consV, mapK_relabW_consV]
  congr 2
  by_cases h1 : t = [] ∧ w = []
  · rw [if_pos h1, if_pos (by simpa using h1)]
    simp [relabW]
  · rw [if_neg h1, if_neg (by simpa using h1), map_zero]

theorem labels_relabW {f : Nat → Nat} {w : LW} {x : Nat} (h : ∀ a ∈ letters w, f a = f x → a = x) :
    labels (relabW f w) (f x) = labels w x := by
  induction w with
  | nil => rfl
  | cons p w ih =>
    have ih := ih fun a ha => h a (by simp only [letters, List.map_cons, List.mem_cons]; exact Or.inr ha)
    have hp := h p.1 (by simp [letters])
    rw [relabW, List.map_cons, labels_cons, labels_cons (y := p.1) (a := p.2)]
    rw [relabW] at ih
    rw [ih]
    by_cases e : p.1 = x
    · simp [e]
    · rw [if_neg e, if_neg fun h' => e (hp h')]

theorem tensorOf_getElem? (w : LW) {j : Nat} (hj : j < r) : (tensorOf r w)[j]? = some (labels w (j + 1)) := by
  simp [tensorOf, tensorFrom, hj, Nat.add_comm]

theorem length_tensorOf (w : LW) : (tensorOf r w).length = r := by simp [tensorOf, tensorFrom]

theorem tensorOf_relabW (hσ : IsPerm r σ) {w : LW} (hw : ∀ v ∈ letters w, 1 ≤ v ∧ v ≤ r) :
    tensorOf r (relabW (value σ) w) = actL σ (tensorOf r w) := by
  refine isMoved_unique hσ (length_tensorOf w) ⟨by rw [length_tensorOf, length_tensorOf], fun j hj => ?_⟩
    (isMoved_actL hσ (length_tensorOf w))
  rw [length_tensorOf] at hj
  have hv := value_range hσ (i := j + 1) (by omega) (by omega)
  rw [tensorOf_getElem? _ hj, tensorOf_getElem? _ (by omega), Nat.sub_add_cancel hv.1, labels_relabW]
  intro a ha e
  exact value_inj hσ (hw a ha) (by omega) e

theorem kos_tensorOf (hσ : IsPerm r σ) {w : LW} (hw : OntoR r (letters w)) :
    kos ldim (σ.zip (tensorOf r w)) = kosF (value σ) (wt (letters w)) (List.range' 1 r) := by
  rw [kosF_value hσ, kos_map, tensorOf, tensorFrom, kos_map]
  have hc : ∀ l ∈ List.range' 1 r, ldim (labels w l) = wt (letters w) l := by
    intro l hl
    rw [List.mem_range'_1] at hl
    have := List.count_pos_iff.2 ((hw l).2 (by omega))
    rw [ldim, labels_length, wt]
    omega
  have : (List.range' 1 r).map (fun l => ldim (labels w l)) = (List.range' 1 r).map (wt (letters w)) :=
    List.map_congr_left hc
  have e1 := kos_map (fun l => ldim (labels w l)) id σ (List.range' 1 r)
  have e2 := kos_map (wt (letters w)) id σ (List.range' 1 r)
  simp only [id] at e1 e2 ⊢
  rw [← e1, ← e2, this]

/-- Relabelling a surjection (with the sign of McClure and Smith) permutes the factors of the value. -/
theorem sact_mulL (hσ : IsPerm r σ) {k : List Nat} (hk : OntoR r k) (V : List Nat) :
    sg R ((invE k : Int) + invE (mulL σ k)) • sact r (mulL σ k) V = lin (actK ldim σ) (sact (R := R) r k V) := by
  rw [sact, sact, smul_smul, map_smul, sg_add, mul_assoc, sg_mul_self, mul_one]
  congr 1
  have h1 : pth (R := R) (mulL σ k) V = mapK (relabW (value σ)) (pth k V) :=
    pth_map k V fun a ha b hb => value_inj hσ ((hk a).1 ha) ((hk b).1 hb)
  rw [h1]
  have := BElem.lin_ext_supported (R := R)
    (f := (mapK (tensorOf r)).comp (convW.comp (mapK (relabW (value σ)))))
    (g := (lin (actK ldim σ)).comp ((mapK (tensorOf r)).comp convW))
    (S := {w : LW | OntoR r (letters w)}) (fun w hw => by
      have hw : OntoR r (letters w) := hw
      simp only [LinearMap.comp_apply, mapK_single, convW_single, map_smul, lin_single, one_mul, one_smul]
      rw [tensorOf_relabW hσ fun v hv => (hw v).1 hv, actK, smul_smul, ← sg_add, kos_tensorOf hσ hw,
        letters_relabW]
      congr 1
      have h2 := invE_mulL hσ (t := letters w) fun v hv => (hw v).1 hv
      rw [show (letters w).map (value σ) = mulL σ (letters w) from rfl]
      exact sg_congr (by omega)) (pth_onto (R := R) hk V)
  simpa using this

end Comch.SurjComp
