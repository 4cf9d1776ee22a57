import Verif.Spec.CubeCochains
import Verif.Props.CupI

/-! # Locality of the action on cubical chains -/

set_option linter.unusedSectionVars false

namespace Comch.CubCall
open Comch.Spec Elem CElem SurjComp SurjElem Serre
open Comch.Join (jn JN IsCube j2 jnL)
open Finsupp (single)

variable {R : Type} [CommRing R]

/-- The faces of a cube. -/
def FC (c : Cube) : Set Cube := {f | IsFaceOf f c}

theorem fc_cons {e v : Nat} {c f : Cube} : v :: f ∈ FC (e :: c) ↔ (v ≤ 2 ∧ (e = 2 ∨ v = e)) ∧ f ∈ FC c := by
  simp [FC, IsFaceOf]

theorem fc_self {c : Cube} (h : ∀ v ∈ c, v ≤ 2) : c ∈ FC c := by
  induction c with
  | nil => exact List.Forall₂.nil
  | cons e c ih => exact fc_cons.2 ⟨⟨h e (by simp), Or.inr rfl⟩, ih fun v hv => h v (by simp [hv])⟩

theorem fc_isCube {N : Nat} {c f : Cube} (hc : c.length = N) (hf : f ∈ FC c) : IsCube N f := by
  refine ⟨(List.Forall₂.length_eq hf).trans hc, ?_⟩
  clear hc
  induction c generalizing f with
  | nil => cases hf; simp
  | cons e c ih =>
    cases hf with
    | cons h1 h2 => exact List.forall_mem_cons.2 ⟨h1.1, ih h2⟩

theorem j2_faces {c x y : Cube} (hx : x ∈ FC c) (hy : y ∈ FC c) : j2 (R := R) x y ∈ Finsupp.supported R R (FC c) := by
  induction c generalizing x y with
  | nil => cases hx; simp [j2]
  | cons e c ih =>
    cases hx with
    | cons h1 h2 =>
    cases hy with
    | cons h3 h4 =>
      rename_i v x w y
      rw [j2]
      refine Submodule.add_mem _ ?_ ?_
      · split
        · by_cases he : e = 2
          · exact Submodule.smul_mem _ _ (Finsupp.single_mem_supported R _ (fc_cons.2 ⟨⟨le_rfl, Or.inl he⟩, h4⟩))
          · have e1 := h1.2.resolve_left he
            have e2 := h3.2.resolve_left he
            rw [e1, e2, show Join.cj e e = 0 by unfold Join.cj; split <;> omega]
            simp
        · exact Submodule.zero_mem _
      · split
        · exact Submodule.zero_mem _
        · refine Submodule.smul_mem _ _ ?_
          exact mapK_supported (T := FC (e :: c)) (fun z => v :: z) (fun z hz => fc_cons.2 ⟨h1, hz⟩) (ih h2 h4)

theorem jnL_faces {c : Cube} (k : CKey) (hk : ∀ b ∈ k, b ∈ FC c) {v : Cube →₀ R} (hv : v ∈ Finsupp.supported R R (FC c)) :
    jnL k v ∈ Finsupp.supported R R (FC c) := by
  induction k generalizing v with
  | nil => exact hv
  | cons b k ih =>
    rw [Join.jnL_cons]
    refine ih (fun b hb => hk b (by simp [hb])) ?_
    exact BElem.bil_supported (R := R) j2 (fun x hx y hy => j2_faces hx hy) hv (Finsupp.single_mem_supported R _ (hk b (by simp)))

theorem jn_faces {c : Cube} (k : CKey) (hk : ∀ b ∈ k, b ∈ FC c) : jn (R := R) k ∈ Finsupp.supported R R (FC c) := by
  cases k with
  | nil => exact Submodule.zero_mem _
  | cons a k => exact jnL_faces k (fun b hb => hk b (by simp [hb])) (Finsupp.single_mem_supported R _ (hk a (by simp)))

theorem tmK_faces {c : Cube} (G : List CKey) (hG : ∀ g ∈ G, ∀ b ∈ g, b ∈ FC c) :
    tmK (jn (R := R)) G ∈ Finsupp.supported R R {m : CKey | ∀ f ∈ m, f ∈ FC c} := by
  induction G with
  | nil => exact Finsupp.single_mem_supported R _ (by simp)
  | cons g G ih =>
    have ih := ih (fun g hg => hG g (by simp [hg]))
    rw [tmK]
    have := BElem.bil_supported (R := R) (fun (x : Cube) (m : CKey) => bv R (x :: m)) (S := FC c) (T := {m : CKey | ∀ f ∈ m, f ∈ FC c})
      (U := {m : CKey | ∀ f ∈ m, f ∈ FC c}) (fun x hx m hm => Finsupp.single_mem_supported R _ (List.forall_mem_cons.2 ⟨hx, hm⟩))
      (jn_faces (R := R) g (hG g (by simp))) ih
    convert this using 1
    generalize jn (R := R) g = u
    generalize tmK (jn (R := R)) G = v
    induction u using Finsupp.induction_linear with
    | zero => simp
    | add f g hf hg => simp only [map_add, LinearMap.add_apply, hf, hg]
    | single a s =>
      induction v using Finsupp.induction_linear with
      | zero => simp
      | add f g hf hg => simp only [map_add, hf, hg]
      | single b t => simp [one, mul_comm]

theorem serre_faces (t : Nat) {c : Cube} (hc : ∀ v ∈ c, v ≤ 2) :
    serre (R := R) t c ∈ Finsupp.supported R R {L : CKey | ∀ f ∈ L, f ∈ FC c} := by
  induction c with
  | nil =>
    rw [serre]
    refine Finsupp.single_mem_supported R _ ?_
    intro f hf
    rw [List.eq_of_mem_replicate hf]
    exact List.Forall₂.nil
  | cons e c ih =>
    have ih := ih fun v hv => hc v (by simp [hv])
    have hmap : ∀ (v : Nat) (L : CKey), (v ≤ 2 ∧ (e = 2 ∨ v = e)) → (∀ f ∈ L, f ∈ FC c) → ∀ f ∈ L.map (v :: ·), f ∈ FC (e :: c) := by
      intro v L hv hL f hf
      obtain ⟨x, hx, rfl⟩ := List.mem_map.1 hf
      exact fc_cons.2 ⟨hv, hL x hx⟩
    rw [serre]
    split
    · rename_i he
      refine lin_supported _ (fun k hk => ?_) ih
      have hk : ∀ f ∈ k, f ∈ FC c := hk
      clear ih
      induction k with
      | nil => simp [tK]
      | cons b k ihk =>
        have hk' : ∀ f ∈ k, f ∈ FC c := fun f hf => hk f (by simp [hf])
        rw [tK]
        refine Submodule.add_mem _ (Finsupp.single_mem_supported R _ ?_) (Submodule.smul_mem _ _ ?_)
        · intro f hf
          rcases List.mem_cons.1 hf with rfl | hf
          · exact fc_cons.2 ⟨⟨le_rfl, Or.inl he⟩, hk b (by simp)⟩
          · exact hmap 1 k ⟨by omega, Or.inl he⟩ hk' f hf
        · refine mapK_supported (T := {L : CKey | ∀ f ∈ L, f ∈ FC (e :: c)}) _ (fun L hL => ?_) (ihk hk' hk')
          intro f hf
          rcases List.mem_cons.1 hf with rfl | hf
          · exact fc_cons.2 ⟨⟨by omega, Or.inl he⟩, hk b (by simp)⟩
          · exact hL f hf
    · exact mapK_supported (T := {L : CKey | ∀ f ∈ L, f ∈ FC (e :: c)}) _
        (fun L hL => hmap e L ⟨hc e (by simp), Or.inr rfl⟩ hL) ih

theorem ac_faces (r : Nat) (k : List Nat) {c : Cube} {L : CKey} (hL : ∀ f ∈ L, f ∈ FC c) :
    ac (R := R) r k L ∈ Finsupp.supported R R {m : CKey | ∀ f ∈ m, f ∈ FC c} :=
  tmK_faces _ fun g hg b hb => by
    obtain ⟨p, hp, rfl⟩ := gam_sub hg hb
    exact hL _ (List.of_mem_zip hp).2

/-- The action replaces a cube by faces of it, for every torsion. -/
theorem callCV_faces {n r : Nat} {d : Int} {k : Surj} {c : Cube} (hc : ∀ v ∈ c, v ≤ 2) (hk : k ≠ []) :
    callCV n r d 0 (bv _ k) (bv _ [c]) ∈ Finsupp.supported (ZMod n) (ZMod n) {m : CKey | ∀ f ∈ m, f ∈ FC c} := by
  rw [callCV, bil_bv, lin_single, one_smul]
  have h6 : atK (serre (R := ZMod n) (k.length - 1)) 0 [c] = serre (k.length - 1) c := by simp [atK]
  rw [h6]
  refine lin_supported _ (fun L hL => ?_) (serre_faces (R := ZMod n) (k.length - 1) hc)
  rw [csummandV]
  refine Submodule.smul_mem _ _ ?_
  have h7 := ac_faces (R := ZMod n) r k (L := (L.drop 0).take k.length)
    (fun f hf => hL f (by simpa using List.mem_of_mem_take hf))
  rw [List.take_zero, cat_nil_left, cat_bv_right]
  exact mapK_supported (T := {m : CKey | ∀ f ∈ m, f ∈ FC c}) _ (fun w hw => List.forall_mem_append.2 ⟨hw, fun f hf =>
    hL f (List.mem_of_mem_drop hf)⟩) h7

end Comch.CubCall
