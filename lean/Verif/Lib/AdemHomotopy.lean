import Verif.Lib.Adem

/-! # The homotopy of the Adem relations modulo 2 -/

namespace Comch
namespace Contract
open Finsupp (single)
open Acyclic BElem Elem Comch.Spec Join Coch SurjComp SurjElem IsPerm SurjMay Comch.Props

variable {σ : List Nat}

/-- The homotopy equation at the place `(i, j)`. -/
def IsHtpy (H : Nat → Nat → List Nat → (SKey →₀ F)) (i j : Nat) : Prop := ∀ σ, Inc σ →
    H i j σ ∈ Finsupp.supported F F (TS 4 ((i + j + 1 : Nat) + ldim σ) σ) ∧
    bd (H i j σ) = Th i j σ + Tt i j σ + pre (fun i => H i j σ + pm sw4 (H i j σ)) i +
      pre (fun j => H i j σ + pm yy4 (H i j σ)) j + lin (H i j) (delE σ)

variable {H : Nat → Nat → List Nat → (SKey →₀ F)}

theorem htpy_len {i j : Nat} (h : IsHtpy H i j) (hσ : Inc σ) : H i j σ ∈ Finsupp.supported F F (Len 4) :=
  TS_length (h σ hσ).1

theorem htpy_X {i j : Nat} (hH : ∀ i' j', i' + j' ≤ i + j → IsHtpy H i' j') (hσ : Inc σ) :
    bd (H i j σ + pm sw4 (H i j σ)) = (Th i j σ + pm sw4 (Th i j σ)) + (Tt i j σ + pm sw4 (Tt i j σ)) +
      pre (fun j => H i j σ + pm yy4 (H i j σ) + pm sw4 (H i j σ + pm yy4 (H i j σ))) j +
      lin (fun x => H i j x + pm sw4 (H i j x)) (delE σ) := by
  have h := hH i j le_rfl
  have hs : ∀ v : SKey →₀ F, v + pm sw4 v = ((LinearMap.id : (SKey →₀ F) →ₗ[F] (SKey →₀ F)) + pm sw4) v := fun v => rfl
  rw [map_add, bd_pm isPerm_sw4 (htpy_len h hσ), hs (bd _), (h σ hσ).2, lin_add_fun, ← lin_comp_fun, map_add, map_add,
    map_add, map_add, ← hs, ← hs, ← hs, ← hs, ← hs]
  have h0 : pre (fun i => H i j σ + pm sw4 (H i j σ)) i + pm sw4 (pre (fun i => H i j σ + pm sw4 (H i j σ)) i) = 0 := by
    cases i with
    | zero => simp [pre]
    | succ i =>
      simp only [pre]
      rw [map_add, pm_sw4_sw4 (htpy_len (hH i j (by omega)) hσ), add_comm (pm sw4 _), add_self']
  rw [h0, add_zero]
  congr 2
  cases j with
  | zero => simp [pre]
  | succ j => rfl

theorem htpy_Y {i j : Nat} (hH : ∀ i' j', i' + j' ≤ i + j → IsHtpy H i' j') (hσ : Inc σ) :
    bd (H i j σ + pm yy4 (H i j σ)) = (Th i j σ + pm yy4 (Th i j σ)) + (Tt i j σ + pm yy4 (Tt i j σ)) +
      pre (fun i => H i j σ + pm sw4 (H i j σ) + pm yy4 (H i j σ + pm sw4 (H i j σ))) i +
      lin (fun x => H i j x + pm yy4 (H i j x)) (delE σ) := by
  have h := hH i j le_rfl
  have hs : ∀ v : SKey →₀ F, v + pm yy4 v = ((LinearMap.id : (SKey →₀ F) →ₗ[F] (SKey →₀ F)) + pm yy4) v := fun v => rfl
  rw [map_add, bd_pm isPerm_yy4 (htpy_len h hσ), hs (bd _), (h σ hσ).2, lin_add_fun, ← lin_comp_fun, map_add, map_add,
    map_add, map_add, ← hs, ← hs, ← hs, ← hs, ← hs]
  have h0 : pre (fun j => H i j σ + pm yy4 (H i j σ)) j + pm yy4 (pre (fun j => H i j σ + pm yy4 (H i j σ)) j) = 0 := by
    cases j with
    | zero => simp [pre]
    | succ j =>
      simp only [pre]
      rw [map_add, yy_yy (htpy_len (hH i j (by omega)) hσ), add_comm (pm yy4 _), add_self']
  rw [h0, add_zero]
  congr 2
  cases i with
  | zero => simp [pre]
  | succ i => rfl

/-- The element to be bounded. -/
noncomputable def Zh (H : Nat → Nat → List Nat → (SKey →₀ F)) (i j : Nat) (σ : List Nat) : SKey →₀ F :=
  Th i j σ + Tt i j σ + pre (fun i => H i j σ + pm sw4 (H i j σ)) i + pre (fun j => H i j σ + pm yy4 (H i j σ)) j

theorem lin_pre (f : Nat → List Nat → (SKey →₀ F)) (n : Nat) (u : List Nat →₀ F) :
    lin (fun x => pre (fun n => f n x) n) u = pre (fun n => lin (f n) u) n := by
  cases n with
  | zero =>
    simp only [pre]
    refine LinearMap.congr_fun (f := lin fun _ => (0 : SKey →₀ F)) (g := 0) (lin_ext fun k => ?_) u
    simp
  | succ n => rfl

theorem bd_pre (f : Nat → (SKey →₀ F)) (n : Nat) : bd (pre f n) = pre (fun n => bd (f n)) n := by
  cases n with
  | zero => exact map_zero _
  | succ n => rfl

theorem pre_add (f g : Nat → (SKey →₀ F)) (n : Nat) : pre (fun n => f n + g n) n = pre f n + pre g n := by
  cases n with
  | zero => exact (add_zero _).symm
  | succ n => rfl

theorem pre_congr {f g : Nat → (SKey →₀ F)} {n : Nat} (h : ∀ m, m + 1 = n → f m = g m) : pre f n = pre g n := by
  cases n with
  | zero => rfl
  | succ n => exact h n rfl

theorem pre_pre (f : Nat → Nat → (SKey →₀ F)) (i j : Nat) :
    pre (fun i => pre (fun j => f i j) j) i = pre (fun j => pre (fun i => f i j) i) j := by
  cases i <;> cases j <;> rfl

theorem Zh_bd {i j : Nat} (hH : ∀ i' j', i' + j' < i + j → IsHtpy H i' j') (hσ : Inc σ) :
    bd (Zh H i j σ) = lin (Zh H i j) (delE σ) := by
  have hX : bd (pre (fun i => H i j σ + pm sw4 (H i j σ)) i) =
      pre (fun i => Th i j σ + pm sw4 (Th i j σ)) i + pre (fun i => Tt i j σ + pm sw4 (Tt i j σ)) i +
      pre (fun i => pre (fun j => H i j σ + pm yy4 (H i j σ) + pm sw4 (H i j σ + pm yy4 (H i j σ))) j) i +
      lin (fun x => pre (fun i => H i j x + pm sw4 (H i j x)) i) (delE σ) := by
    rw [bd_pre, lin_pre (fun i x => H i j x + pm sw4 (H i j x)), ← pre_add, ← pre_add, ← pre_add]
    exact pre_congr fun m hm => htpy_X (fun i' j' h => hH i' j' (by omega)) hσ
  have hY : bd (pre (fun j => H i j σ + pm yy4 (H i j σ)) j) =
      pre (fun j => Th i j σ + pm yy4 (Th i j σ)) j + pre (fun j => Tt i j σ + pm yy4 (Tt i j σ)) j +
      pre (fun j => pre (fun i => H i j σ + pm sw4 (H i j σ) + pm yy4 (H i j σ + pm sw4 (H i j σ))) i) j +
      lin (fun x => pre (fun j => H i j x + pm yy4 (H i j x)) j) (delE σ) := by
    rw [bd_pre, lin_pre (fun j x => H i j x + pm yy4 (H i j x)), ← pre_add, ← pre_add, ← pre_add]
    exact pre_congr fun m hm => htpy_Y (fun i' j' h => hH i' j' (by omega)) hσ
  have hXY : pre (fun j => pre (fun i => H i j σ + pm sw4 (H i j σ) + pm yy4 (H i j σ + pm sw4 (H i j σ))) i) j =
      pre (fun i => pre (fun j => H i j σ + pm yy4 (H i j σ) + pm sw4 (H i j σ + pm yy4 (H i j σ))) j) i := by
    rw [pre_pre (fun i j => H i j σ + pm yy4 (H i j σ) + pm sw4 (H i j σ + pm yy4 (H i j σ)))]
    refine pre_congr fun m hm => pre_congr fun l hl => ?_
    rw [map_add, map_add, sw_yy (htpy_len (hH l m (by omega)) hσ)]
    abel
  unfold Zh
  rw [map_add, map_add, map_add, Th_bd i j hσ, Tt_bd i j hσ, hX, hY, hXY, lin_add_fun, lin_add_fun, lin_add_fun]
  rw [show ∀ a b c a' b' c' x z w : SKey →₀ F, a + b + c + (a' + b' + c') + (a + a' + x + z) + (b + b' + x + w) =
    c + c' + z + w + (a + a) + (b + b) + (a' + a') + (b' + b') + (x + x) by intros; abel]
  simp only [add_self', add_zero]

theorem Zh_supp {i j : Nat} (hH : ∀ i' j', i' + j' < i + j → IsHtpy H i' j') (hσ : Inc σ) :
    Zh H i j σ ∈ Finsupp.supported F F (TS 4 ((i + j : Nat) + ldim σ) σ) := by
  refine Submodule.add_mem _ (Submodule.add_mem _ (Submodule.add_mem _ (Th_supp i j hσ) (Tt_supp i j hσ)) ?_) ?_
  · cases i with
    | zero => exact Submodule.zero_mem _
    | succ i =>
      have := (hH i j (by omega) σ hσ).1
      rw [show i + 1 + j = i + j + 1 by omega]
      exact Submodule.add_mem _ this (pm_supp isPerm_sw4 this)
  · cases j with
    | zero => exact Submodule.zero_mem _
    | succ j =>
      have := (hH i j (by omega) σ hσ).1
      rw [show i + (j + 1) = i + j + 1 by omega]
      exact Submodule.add_mem _ this (pm_supp isPerm_yy4 this)

theorem Zh_fill {i j : Nat} (hH : ∀ i' j', i' + j' < i + j → IsHtpy H i' j') :
    ∃ G : List Nat → (SKey →₀ F), ∀ σ, Inc σ →
      G σ ∈ Finsupp.supported F F (TS 4 ((i + j + 1 : Nat) + ldim σ) σ) ∧ bd (G σ) = Zh H i j σ + lin G (delE σ) := by
  obtain ⟨G, hG, hb⟩ := acyclic_carrier (R := F) (r := 4) (m := i + j) (Zh H i j)
    (fun σ hσ => Zh_supp hH hσ) (fun σ hσ => by rw [sg_two, one_smul, Zh_bd hH hσ])
    (fun h v => by
      obtain ⟨rfl, rfl⟩ : i = 0 ∧ j = 0 := by omega
      rw [Zh, Tt, map_add, map_add, map_add, aug_pm, Th_zero_vertex]
      simp only [pre, map_zero, add_zero]
      decide)
  refine ⟨G, fun σ hσ => ⟨hG σ hσ, ?_⟩⟩
  rw [hb σ hσ, sg_two, one_smul]

theorem adem_homotopy (N : Nat) : ∃ H : Nat → Nat → List Nat → (SKey →₀ F), ∀ i j, i + j < N → IsHtpy H i j := by
  induction N with
  | zero => exact ⟨fun _ _ _ => 0, fun i j h => absurd h (Nat.not_lt_zero _)⟩
  | succ N ih =>
    obtain ⟨H, hH⟩ := ih
    have hstep : ∀ i j, ∃ G : List Nat → (SKey →₀ F), i + j = N → ∀ σ, Inc σ →
      G σ ∈ Finsupp.supported F F (TS 4 ((i + j + 1 : Nat) + ldim σ) σ) ∧ bd (G σ) = Zh H i j σ + lin G (delE σ) := by
      intro i j
      by_cases h : i + j = N
      · obtain ⟨G, hG⟩ := Zh_fill (H := H) (i := i) (j := j) (fun i' j' h' => hH i' j' (by omega))
        exact ⟨G, fun _ => hG⟩
      · exact ⟨fun _ => 0, fun h' => absurd h' h⟩
    choose G hG using hstep
    refine ⟨fun i j => if i + j = N then G i j else H i j, fun i j hij σ hσ => ?_⟩
    have h1 : pre (fun i => (if i + j = N then G i j else H i j) σ + pm sw4 ((if i + j = N then G i j else H i j) σ)) i =
        pre (fun i => H i j σ + pm sw4 (H i j σ)) i :=
      pre_congr fun m hm => by rw [if_neg (by omega)]
    have h2 : pre (fun j => (if i + j = N then G i j else H i j) σ + pm yy4 ((if i + j = N then G i j else H i j) σ)) j =
        pre (fun j => H i j σ + pm yy4 (H i j σ)) j :=
      pre_congr fun m hm => by rw [if_neg (by omega)]
    rw [h1, h2]
    by_cases h : i + j = N
    · simp only [if_pos h]
      exact hG i j h σ hσ
    · simp only [if_neg h]
      exact hH i j (by omega) σ hσ

end Contract
end Comch
