import Verif.Lib.Contract
import Verif.Spec.Acyclic

/-! # Simplicial and cubical chains are acyclic: C98 -/

set_option linter.unusedSectionVars false

namespace Comch
namespace Contract
open Finsupp (single)
open Acyclic BElem Elem Comch.Spec Join

variable {R : Type} [CommRing R]

/-! ### simplices -/

/-- The dropped simplices. -/
def sdrop (s : Simplex) : Bool := decide (s = []) || hasRep s

/-- The boundary without the empty simplex. -/
noncomputable def delE (s : Simplex) : Simplex →₀ R := pr (fun s => decide (s = [])) (delK s)

/-- The cone operator. -/
noncomputable def cone (v : Nat) (s : Simplex) : Simplex →₀ R := if s = [] then 0 else bv R (v :: s)

/-- Simplices on the vertices `V`. -/
def onV (V : Set Nat) : Set Simplex := {s | s ≠ [] ∧ ∀ v ∈ s, v ∈ V}

theorem pr_nil_of_ne {w : Simplex →₀ R} (hw : w ∈ Finsupp.supported R R {s : Simplex | s ≠ []}) :
    pr (fun s : Simplex => decide (s = [])) w = w := by
  refine lin_ext_supported (f := pr (fun s : Simplex => decide (s = []))) (g := LinearMap.id) (fun k hk => ?_) hw
  have hk : k ≠ [] := hk
  simp [hk]

theorem delK_mem (s : Simplex) : delK (R := R) s ∈ Finsupp.supported R R
    {t : Simplex | t.length = s.length - 1 ∧ ∀ v ∈ t, v ∈ s} := by
  rw [delK_eq_sum]
  refine list_sum_mem fun w hw => ?_
  obtain ⟨i, hi, rfl⟩ := List.mem_map.1 hw
  refine Submodule.smul_mem _ _ (Finsupp.single_mem_supported R _ ?_)
  rw [List.mem_range] at hi
  rw [removeAt_eq_eraseIdx]
  exact ⟨List.length_eraseIdx_of_lt hi, fun v hv => List.mem_of_mem_eraseIdx hv⟩

theorem delE_of_two {s : Simplex} (hs : 2 ≤ s.length) : delE (R := R) s = delK s := by
  refine pr_nil_of_ne (Finsupp.supported_mono ?_ (delK_mem s))
  rintro t ⟨ht, -⟩ rfl
  simp at ht
  omega

theorem delE_singleton (a : Nat) : delE (R := R) [a] = 0 := by
  simp [delE, delK]

theorem lin_cone_of_ne {v : Nat} {w : Simplex →₀ R} (hw : w ∈ Finsupp.supported R R {s : Simplex | s ≠ []}) :
    lin (cone v) w = consV v w := by
  refine lin_ext_supported (f := lin (cone v)) (g := consV v) (fun k hk => ?_) hw
  have hk : k ≠ [] := hk
  simp [cone, hk]

theorem contr_simplex {V : Set Nat} {v : Nat} (hv : v ∈ V) :
    Contr (R := R) delE (cone v) Simplex.dimension [v] (onV V) where
  base := ⟨⟨by simp, by simp [hv]⟩, rfl, delE_singleton v⟩
  nonneg := by
    intro s hs
    have := List.length_pos_iff.2 hs.1
    simp only [Simplex.dimension]
    omega
  homotopy := by
    intro s hs
    rw [cone, if_neg hs.1, lin_single, one_smul, delE_of_two (s := v :: s) (by
      have := List.length_pos_iff.2 hs.1
      simp; omega), delK]
    rcases s with _ | ⟨a, _ | ⟨c, s⟩⟩
    · exact absurd rfl hs.1
    · rw [delE_singleton, if_pos (by rfl)]
      simp [delK]
    · have h2 : 2 ≤ (a :: c :: s).length := by simp
      rw [delE_of_two h2, if_neg (by simp only [Simplex.dimension, List.length_cons]; push_cast; omega),
        lin_cone_of_ne]
      · simp
      · refine Finsupp.supported_mono ?_ (delK_mem _)
        rintro t ⟨ht, -⟩ rfl
        simp at ht
  hdeg := by
    intro s hs
    rw [cone, if_neg hs.1]
    refine Finsupp.single_mem_supported R _ ⟨⟨by simp, ?_⟩, dim_cons v s⟩
    intro u hu
    rcases List.mem_cons.1 hu with rfl | hu
    · exact hv
    · exact hs.2 u hu
  ddeg := by
    intro s hs
    rcases s with _ | ⟨a, _ | ⟨c, s⟩⟩
    · exact absurd rfl hs.1
    · rw [delE_singleton]; exact Submodule.zero_mem _
    · rw [delE_of_two (by simp)]
      refine Finsupp.supported_mono ?_ (delK_mem _)
      rintro t ⟨ht, hm⟩
      simp only [List.length_cons] at ht
      refine ⟨⟨?_, fun u hu => hs.2 u (hm u hu)⟩, ?_⟩
      · rintro rfl
        simp at ht
      · simp only [Simplex.dimension, List.length_cons, ht]
        push_cast
        omega
  aug := by
    intro s hs h1
    simp only [Simplex.dimension] at h1
    obtain ⟨a, c, rfl⟩ := List.length_eq_two.1 (show s.length = 2 by omega)
    rw [delE_of_two (by simp)]
    simp [delK]

theorem pr_sdrop_delE (s : Simplex) : pr sdrop (delE (R := R) s) = pr sdrop (delK s) := by
  have := pr_lin_pr (drops := fun s : Simplex => decide (s = [])) (drops' := sdrop) (LinearMap.id (R := R))
    (fun k hk => by
      have : sdrop k = true := by simp only [sdrop, hk, Bool.true_or]
      simp [this]) (delK s)
  exact this

theorem drops_eq : simplicial.drops = fun k : SKey => k.any sdrop := simplicial_drops_eq

theorem pr_tensK_delE (k : SKey) : pr simplicial.drops (tensK (R := R) delE Simplex.dimension k) =
    pr simplicial.drops (tensK delK Simplex.dimension k) := by
  rw [drops_eq]
  induction k with
  | nil => rfl
  | cons a k ih =>
    simp only [tensK, map_add, map_smul, consV_eq_cat, pr_any_cat, pr_any_one, pr_sdrop_delE, ih]

theorem pr_tens_delE (w : SKey →₀ R) : pr simplicial.drops (tens delE Simplex.dimension w) =
    pr simplicial.drops (simplicialD w) := by
  refine LinearMap.congr_fun (f := (pr simplicial.drops).comp (tens delE Simplex.dimension))
    (g := (pr simplicial.drops).comp simplicialD) ?_ w
  refine lin_ext fun k => ?_
  simp only [LinearMap.comp_apply, tens_single, one_smul, simplicialD]
  exact pr_tensK_delE k

theorem hasRep_two {s : Simplex} (h : hasRep s = true) : 2 ≤ s.length := by
  rcases s with _ | ⟨a, _ | ⟨c, s⟩⟩ <;> simp_all [hasRep]

theorem pr_S_drop (v : Nat) (k : SKey) (hk : simplicial.drops k = true) :
    pr simplicial.drops (S (R := R) (cone v) Simplex.dimension [v] k) = 0 := by
  rw [drops_eq] at hk ⊢
  induction k with
  | nil => simp at hk
  | cons a k ih =>
    simp only [S, map_add, pr_any_cat, pr_any_one]
    simp only [List.any_cons, Bool.or_eq_true] at hk
    rcases hk with hk | hk
    · have h1 : pr sdrop (cone (R := R) v a) = 0 := by
        by_cases ha : a = []
        · simp [cone, ha]
        · rw [cone, if_neg ha]
          have : hasRep a = true := by simpa [sdrop, ha] using hk
          have : sdrop (v :: a) = true := by simp [sdrop, hasRep_cons this]
          simp [this]
      have h2 : phi (R := R) Simplex.dimension [v] a = 0 := by
        rw [phi, if_neg]
        simp only [Simplex.dimension]
        by_cases ha : a = []
        · simp [ha]
        · have := hasRep_two (s := a) (by simpa [sdrop, ha] using hk)
          omega
      simp [h1, h2]
    · rw [ih hk]
      simp [hk]

theorem totDeg_dim {k : SKey} (hk : ∀ s ∈ k, s ≠ []) :
    totDeg Simplex.dimension k = ((k.map fun s => s.length - 1).sum : Nat) := by
  induction k with
  | nil => rfl
  | cons s k ih =>
    have := List.length_pos_iff.2 (hk s (by simp))
    rw [totDeg, ih fun t ht => hk t (by simp [ht])]
    simp only [Simplex.dimension, List.map_cons, List.sum_cons]
    push_cast
    omega

theorem ne_nil_of_nf {x : SElem} (hx : x.NF simplicial) {p : SKey × Int} (hp : p ∈ x.data) {s : Simplex}
    (hs : s ∈ p.1) : s ≠ [] := by
  rintro rfl
  have := hx.kept p hp
  rw [drops_eq] at this
  simp only [List.any_eq_false] at this
  exact this _ hs (by rfl)

theorem den_T {V : Set Nat} {r d : Nat} {x : SElem} (hx : OnSimplex V r d x) :
    den R x.data ∈ Finsupp.supported R R (T Simplex.dimension (onV V) r d) := by
  refine den_supported fun p hp => ⟨fun s hs => ⟨ne_nil_of_nf hx.nf hp hs, hx.vertices p hp s hs⟩,
    hx.length p hp, ?_⟩
  rw [totDeg_dim fun s hs => ne_nil_of_nf hx.nf hp hs, hx.degree p hp]

theorem onSimplex_of_den {V : Set Nat} {r d n : Nat} {x : SElem} (hx : x.NF simplicial) (hn : x.torsion = n)
    (h : den (ZMod n) x.data ∈ Finsupp.supported (ZMod n) (ZMod n) (T Simplex.dimension (onV V) r d)) :
    OnSimplex V r d x := by
  have hk := keys_of_den hx hn h
  refine ⟨hx, fun p hp s hs => ((hk p hp).1 s hs).2, fun p hp => (hk p hp).2.1, fun p hp => ?_⟩
  have := (hk p hp).2.2
  rw [totDeg_dim fun s hs => ((hk p hp).1 s hs).1] at this
  exact_mod_cast this

theorem simplex_contract {V : Set Nat} {r d : Nat} {x : SElem} {v : Nat} (hv : v ∈ V) (hx : OnSimplex V r d x)
    (h : pr simplicial.drops (tens delE Simplex.dimension (lin (S (cone v) Simplex.dimension [v])
      (den (ZMod x.torsion) x.data))) = den (ZMod x.torsion) x.data) :
    ∃ y, OnSimplex V r (d + 1) y ∧ y.attrs = x.attrs ∧ pyEq y.boundary x = true := by
  obtain ⟨y, ny, ay, dy⟩ := exists_elem simplicial x.torsion x.attrs.convention
    (lin (S (cone v) Simplex.dimension [v]) (den (ZMod x.torsion) x.data))
  have ay' : y.attrs = x.attrs := ay
  have ty : y.torsion = x.torsion := torsion_congr ay'
  refine ⟨y, onSimplex_of_den ny ty ?_, ay', ?_⟩
  · rw [dy]
    push_cast
    exact pr_supported (lin_supported _ (fun k hk => S_supp (contr_simplex hv) hk) (den_T hx))
  · refine pyEq_of_den (n := x.torsion) (Props.nf_boundary y) hx.nf
      ((torsion_congr (Props.boundary_attrs y)).trans ty) rfl ?_
    rw [Props.den_boundary y ty, dy, pr_lin_pr _ pr_simplicialD, ← pr_tens_delE, h]

/-! ### cubes -/

/-- Contraction of a cube to its corner `(0, …, 0)`. -/
noncomputable def hc : Cube → (Cube →₀ R)
  | [] => 0
  | e :: c => (if e = 1 then bv R (2 :: c) else 0) + if e = 2 then 0 else consV 0 (hc c)

theorem lin_hc_consV (e : Nat) (w : Cube →₀ R) : lin hc (consV e w) =
    (if e = 1 then consV 2 w else 0) + if e = 2 then 0 else consV 0 (lin hc w) := by
  induction w using Finsupp.induction_linear with
  | zero => simp
  | add f g hf hg =>
    simp only [map_add, hf, hg]
    split <;> split <;> abel
  | single k r =>
    rw [single_eq_smul_bv]
    simp only [map_smul, consV_single, lin_single, one_smul, hc, smul_add]
    congr 1 <;> split <;> simp

theorem aug_cubeD {c : Cube} (hd : cdim c ≤ 1) : aug (cubeD (R := R) c) = 0 := by
  induction c with
  | nil => simp [cubeD]
  | cons e c ih =>
    rw [cdim_cons] at hd
    by_cases he : e = 2
    · rw [if_pos he] at hd
      rw [cubeD, if_pos he]
      have : aug (consV 2 (cubeD (R := R) c)) = 0 := by
        rw [show (consV 2 : (Cube →₀ R) →ₗ[R] _) = mapK (2 :: ·) from rfl, aug_mapK, ih (by omega)]
      simp [this]
    · rw [if_neg he] at hd
      rw [cubeD, if_neg he, show (consV e : (Cube →₀ R) →ₗ[R] _) = mapK (e :: ·) from rfl, aug_mapK,
        ih (by omega)]

theorem contr_cube (n : Nat) : Contr (R := R) cubeD hc cdim (List.replicate n 0) {c | IsCube n c} where
  base := by
    refine ⟨⟨by simp, ?_⟩, ?_, ?_⟩
    · intro e he
      rw [List.eq_of_mem_replicate he]; omega
    · simp [cdim, Cube.dimension, List.count_replicate]
    · induction n with
      | zero => rfl
      | succ n ih => rw [List.replicate_succ, cubeD, if_neg (by decide), ih, map_zero]
  nonneg := fun c _ => by simp [cdim]
  homotopy := by
    intro c
    induction n generalizing c with
    | zero =>
      intro hc'
      obtain rfl := List.length_eq_zero_iff.1 hc'.1
      simp [hc, cubeD, cdim, Cube.dimension]
    | succ n ih =>
      intro h
      obtain ⟨e, c, rfl⟩ := List.exists_cons_of_length_pos (l := c) (by rw [h.1]; omega)
      have h' : IsCube n c := ⟨by simpa using h.1, fun e he => h.2 e (by simp [he])⟩
      have he := h.2 e (by simp)
      have ih := ih c h'
      have hr : ∀ w : Cube →₀ R, consV 0 w = mapK (0 :: ·) w := fun _ => rfl
      have key : consV 0 (lin cubeD (hc (R := R) c)) + consV 0 (lin hc (cubeD c)) =
          bv R (0 :: c) - if cdim c = 0 then bv R (List.replicate (n + 1) 0) else 0 := by
        rw [← map_add, ih, map_sub]
        split <;> simp [List.replicate_succ]
      rw [cdim_cons]
      rcases (show e = 0 ∨ e = 1 ∨ e = 2 by omega) with rfl | rfl | rfl
      · simp only [hc, cubeD]
        simp only [show (0:Nat) ≠ 1 by decide, show (0:Nat) ≠ 2 by decide, if_false, zero_add, lin_cubeD_consV,
          lin_hc_consV, add_zero]
        exact key
      · simp only [hc, cubeD]
        simp only [show (1:Nat) ≠ 2 by decide, show (0:Nat) ≠ 2 by decide, if_false, if_true, map_add, lin_cubeD_consV,
          lin_hc_consV, add_zero, lin_single, one_smul, cubeD]
        rw [show ∀ (a b c d e : Cube →₀ R), a - b - c + d + (c + e) = a - b + (d + e) by intros; abel, key]
        abel
      · simp only [hc, cubeD]
        have hz : ¬ (cdim c + 1 = 0) := by
          simp only [cdim]; omega
        simp only [show (2:Nat) ≠ 1 by decide, show (0:Nat) ≠ 1 by decide, show (1:Nat) ≠ 2 by decide,
          show (0:Nat) ≠ 2 by decide, if_false, if_true, map_sub, lin_single, one_smul, hc,
          lin_hc_consV, add_zero, zero_add, map_zero, sub_zero, hz]
        abel
  hdeg := by
    intro c
    induction n generalizing c with
    | zero =>
      intro hc'
      obtain rfl := List.length_eq_zero_iff.1 hc'.1
      exact Submodule.zero_mem _
    | succ n ih =>
      intro h
      obtain ⟨e, c, rfl⟩ := List.exists_cons_of_length_pos (l := c) (by rw [h.1]; omega)
      have h' : IsCube n c := ⟨by simpa using h.1, fun e he => h.2 e (by simp [he])⟩
      have hcons : ∀ (e : Nat) (z : Cube), e ≤ 2 → IsCube n z → IsCube (n + 1) (e :: z) := by
        intro e z he hz
        refine ⟨by simp [hz.1], ?_⟩
        intro x hx
        rcases List.mem_cons.1 hx with rfl | hx
        · exact he
        · exact hz.2 x hx
      refine Submodule.add_mem _ ?_ ?_
      · split
        · rename_i he
          subst he
          refine Finsupp.single_mem_supported R _ ⟨hcons 2 c (by omega) h', ?_⟩
          rw [cdim_cons, cdim_cons]
          simp
        · exact Submodule.zero_mem _
      · split
        · exact Submodule.zero_mem _
        · rename_i he
          refine mapK_supported (T := {z | z ∈ {z | IsCube (n + 1) z} ∧ cdim z = cdim (e :: c) + 1}) _
            (fun z hz => ⟨hcons 0 z (by omega) hz.1, ?_⟩) (ih c h')
          rw [cdim_cons, cdim_cons, hz.2, if_neg he]
          simp
  ddeg := by
    intro c hc'
    have h1 := Props.cubeD_supported (R := R) c hc'
    have h2 : cubeD (R := R) c ∈ Finsupp.supported R R {z | cdim z = cdim c - 1} := by
      clear h1 hc'
      induction c with
      | nil => exact Submodule.zero_mem _
      | cons e c ih =>
        rw [cubeD]
        split
        · rename_i he
          subst he
          refine Submodule.sub_mem _ (Submodule.sub_mem _ ?_ ?_) ?_
          · refine Finsupp.single_mem_supported R _ ?_
            simp [cdim, Cube.dimension_cons]
          · refine Finsupp.single_mem_supported R _ ?_
            simp [cdim, Cube.dimension_cons]
          · refine mapK_supported _ (fun z hz => ?_) ih
            simp only [Set.mem_setOf_eq, cdim_cons] at hz ⊢
            simp [hz]
        · rename_i he
          refine mapK_supported _ (fun z hz => ?_) ih
          simp only [Set.mem_setOf_eq, cdim_cons] at hz ⊢
          simp [hz, he]
    rw [Finsupp.mem_supported] at h1 h2 ⊢
    exact fun z hz => ⟨h1 hz, h2 hz⟩
  aug := fun c _ h1 => aug_cubeD (by omega)

theorem totDeg_cube (k : CKey) : totDeg cdim k = ((k.map fun c => c.count 2).sum : Nat) := by
  induction k with
  | nil => rfl
  | cons s k ih =>
    rw [totDeg, ih]
    simp [cdim, Cube.dimension]

theorem den_TC {n r d : Nat} {x : CElem} (hx : OnCube n r d x) :
    den R x.data ∈ Finsupp.supported R R (T cdim {c | IsCube n c} r d) :=
  den_supported fun p hp => ⟨fun s hs => hx.cubes p hp s hs, hx.length p hp, by
    rw [totDeg_cube, hx.degree p hp]⟩

theorem onCube_of_den {n r d m : Nat} {x : CElem} (hx : x.NF cubical) (hm : x.torsion = m)
    (h : den (ZMod m) x.data ∈ Finsupp.supported (ZMod m) (ZMod m) (T cdim {c | IsCube n c} r d)) :
    OnCube n r d x := by
  have hk := keys_of_den hx hm h
  refine ⟨hx, fun p hp s hs => (hk p hp).1 s hs, fun p hp => (hk p hp).2.1, fun p hp => ?_⟩
  have := (hk p hp).2.2
  rw [totDeg_cube] at this
  exact_mod_cast this

theorem cube_contract {n r d : Nat} {x : CElem} (hx : OnCube n r d x)
    (h : cubicalD (lin (S hc cdim (List.replicate n 0)) (den (ZMod x.torsion) x.data)) =
      den (ZMod x.torsion) x.data) :
    ∃ y b, OnCube n r (d + 1) y ∧ y.attrs = x.attrs ∧ y.boundary = .ok b ∧ pyEq b x = true := by
  obtain ⟨y, ny, ay, dy⟩ := exists_elem cubical x.torsion x.attrs.convention
    (lin (S hc cdim (List.replicate n 0)) (den (ZMod x.torsion) x.data))
  rw [show cubical.drops = fun _ => false from rfl, pr_false] at dy
  have ay' : y.attrs = x.attrs := ay
  have ty : y.torsion = x.torsion := torsion_congr ay'
  obtain ⟨b, hb⟩ := Props.C28_boundary_ok y
  refine ⟨y, b, onCube_of_den ny ty ?_, ay', hb, ?_⟩
  · rw [dy]
    push_cast
    exact lin_supported _ (fun k hk => S_supp (contr_cube n) hk) (den_TC hx)
  · refine pyEq_of_den (n := x.torsion) (Props.nf_cboundary hb) hx.nf
      ((torsion_congr (Props.cboundary_attrs hb)).trans ty) rfl ?_
    rw [Props.den_cboundary hb ty, dy, h]

end Contract

namespace Props
open Comch.Spec Elem Acyclic Contract BElem Join

variable {r d n : Nat} {V : Set Nat}

/-- Every simplicial cycle of positive degree on a full simplex is a boundary. -/
theorem C98_simplicial_acyclic {x : SElem} (hV : V.Nonempty) (hd : 1 ≤ d) (hx : OnSimplex V r d x)
    (hc : x.boundary.data = []) :
    ∃ y, OnSimplex V r (d + 1) y ∧ y.attrs = x.attrs ∧ pyEq y.boundary x = true := by
  obtain ⟨v, hv⟩ := hV
  refine simplex_contract hv hx ?_
  rw [contract_pos (contr_simplex hv) (by omega) (den_T hx), map_sub, hx.nf.pr_den,
    ← pr_lin_pr (lin (S (cone v) Simplex.dimension [v])) (fun k hk => by
      rw [lin_single, one_smul]; exact pr_S_drop v k hk), pr_tens_delE, ← Props.den_boundary x rfl, hc]
  simp

/-- In degree zero exactly the elements with coefficients summing to zero are boundaries. -/
theorem C98_simplicial_degree_zero {x : SElem} (hV : V.Nonempty) (hx : OnSimplex V r 0 x) :
    (∃ y, OnSimplex V r 1 y ∧ y.attrs = x.attrs ∧ pyEq y.boundary x = true) ↔
      (x.torsion : Int) ∣ (x.data.map Prod.snd).sum := by
  obtain ⟨v, hv⟩ := hV
  rw [← intCast_zmod_eq_zero, ← aug_den]
  constructor
  · rintro ⟨y, hy, ay, h⟩
    have ty : y.torsion = x.torsion := torsion_congr ay
    have tb := (torsion_congr (Props.boundary_attrs y)).trans ty
    have := (pyEq_iff_den (Props.nf_boundary y) hx.nf tb).1 h
    rw [tb, Props.den_boundary y ty, ← pr_tens_delE] at this
    have hT := den_T (R := ZMod x.torsion) hy
    have hs : tens delE Simplex.dimension (den (ZMod x.torsion) y.data) ∈
        Finsupp.supported (ZMod x.torsion) (ZMod x.torsion) (T Simplex.dimension (onV V) r 0) := by
      refine lin_supported _ (fun k hk => ?_) hT
      simpa using tensK_supp (contr_simplex hv) hk
    have e : pr simplicial.drops (tens delE Simplex.dimension (den (ZMod x.torsion) y.data)) =
        tens delE Simplex.dimension (den (ZMod x.torsion) y.data) := by
      refine lin_ext_supported (f := pr simplicial.drops) (g := LinearMap.id) (fun k hk => ?_) hs
      have h0 := deg_zero k (fun a ha => (contr_simplex (R := ZMod x.torsion) hv).nonneg a (hk.1 a ha)) hk.2.2
      have : simplicial.drops k = false := by
        rw [drops_eq]
        refine List.any_eq_false.2 fun s hs => ?_
        have := h0 s hs
        simp only [Simplex.dimension] at this
        obtain ⟨a, rfl⟩ := List.length_eq_one_iff.1 (show s.length = 1 by omega)
        simp [sdrop, hasRep]
      simp [this]
    rw [← this, e]
    refine lin_ext_supported (f := aug.comp (tens delE Simplex.dimension)) (g := 0) (fun k hk => ?_) hT
    simp only [LinearMap.comp_apply, tens_single, one_smul, LinearMap.zero_apply]
    exact aug_tensK (contr_simplex hv) k hk.1 (by rw [hk.2.2]; rfl)
  · intro h
    refine simplex_contract hv hx ?_
    rw [contract_zero (contr_simplex hv) (by simpa using den_T hx), h, zero_smul, sub_zero, hx.nf.pr_den]

/-- Every cubical cycle of positive degree on the `n`-cube is a boundary. -/
theorem C98_cubical_acyclic {x z : CElem} (hd : 1 ≤ d) (hx : OnCube n r d x) (hz : x.boundary = .ok z)
    (hc : z.data = []) :
    ∃ y b, OnCube n r (d + 1) y ∧ y.attrs = x.attrs ∧ y.boundary = .ok b ∧ pyEq b x = true := by
  refine cube_contract hx ?_
  rw [contract_pos (contr_cube n) (by omega) (den_TC hx), ← Props.den_cboundary hz rfl, hc]
  simp

/-- In degree zero exactly the elements with coefficients summing to zero are boundaries. -/
theorem C98_cubical_degree_zero {x : CElem} (hx : OnCube n r 0 x) :
    (∃ y b, OnCube n r 1 y ∧ y.attrs = x.attrs ∧ y.boundary = .ok b ∧ pyEq b x = true) ↔
      (x.torsion : Int) ∣ (x.data.map Prod.snd).sum := by
  rw [← intCast_zmod_eq_zero, ← aug_den]
  constructor
  · rintro ⟨y, b, hy, ay, hb, h⟩
    have ty : y.torsion = x.torsion := torsion_congr ay
    have tb := (torsion_congr (Props.cboundary_attrs hb)).trans ty
    have := (pyEq_iff_den (Props.nf_cboundary hb) hx.nf tb).1 h
    rw [tb, Props.den_cboundary hb ty] at this
    rw [← this]
    refine lin_ext_supported (f := aug.comp cubicalD) (g := 0) (fun k hk => ?_) (den_TC hy)
    simp only [LinearMap.comp_apply, tens_single, one_smul, LinearMap.zero_apply]
    exact aug_tensK (contr_cube n) k hk.1 (by rw [hk.2.2]; rfl)
  · intro h
    refine cube_contract hx ?_
    rw [contract_zero (contr_cube n) (by simpa using den_TC hx), h, zero_smul, sub_zero]

/-! ### concrete cases -/

/-- The boundary of the triangle on the vertices 0, 1, 2, tensored with the vertex 3. -/
def exCycle : SElem := Elem.new simplicial
  [([[1, 2], [3]], 1), ([[0, 2], [3]], -1), ([[0, 1], [3]], 1)] none .bergerFresse

example : OnSimplex {v | v ≤ 3} 2 1 exCycle ∧ exCycle.boundary.data = [] :=
  ⟨⟨nf_new _ (by decide) _ _, by decide, by decide, by decide⟩, by decide⟩

/-- The four sides of a square. -/
def exCCycle : CElem := Elem.new cubical [([[2, 0]], 1), ([[1, 2]], 1), ([[2, 1]], -1), ([[0, 2]], -1)] none .bergerFresse

example : OnCube 2 1 1 exCCycle ∧ exCCycle.boundary.toOption.map (·.data) = some [] :=
  ⟨⟨nf_new _ (by decide) _ _, by decide, by decide, by decide⟩, by decide⟩

example : OnSimplex {v | v ≤ 3} 2 0 (Elem.new simplicial [([[0], [1]], 1), ([[3], [2]], 2)] (some 3) .bergerFresse) :=
  ⟨nf_new _ (by decide) _ _, by decide, by decide, by decide⟩

example : OnCube 2 2 0 (Elem.new cubical [([[0, 1], [1, 1]], 1), ([[1, 1], [0, 1]], 2)] (some 3) .bergerFresse) :=
  ⟨nf_new _ (by decide) _ _, by decide, by decide, by decide⟩

end Props
end Comch
