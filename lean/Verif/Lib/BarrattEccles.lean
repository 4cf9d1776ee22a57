import Verif.Lib.ActSpec
import Verif.Lib.PermSign
import Verif.Spec.Operads

/-! # Barratt-Eccles operad: linear description of the model -/

set_option linter.unusedSectionVars false

namespace Comch
open Spec IsPerm Elem
open Finsupp (single)

variable {R : Type} [CommRing R] {r : Nat}

theorem be_drops (k : BKey) : barrattEccles.drops k = (decide (k = []) || hasRep k) := by
  show (k.isEmpty || (pairwise k).any fun pq => pq.1 == pq.2) = _
  have h := any_pairwise_eq k
  rw [← h]
  congr 1
  · cases k <;> rfl
  · congr 1
    funext pq
    rw [Bool.eq_iff_iff]
    simp

theorem be_drops_eq : barrattEccles.drops = fun k : BKey => decide (k = []) || hasRep k := funext be_drops

@[simp] theorem be_defaultTorsion : barrattEccles.defaultTorsion = 0 := rfl

theorem pr_be_delK (k : BKey) (h : barrattEccles.drops k = true) :
    pr barrattEccles.drops (delK (R := R) k) = 0 := by
  rw [be_drops] at h
  rw [be_drops_eq]
  simp only [Bool.or_eq_true, decide_eq_true_eq] at h
  rcases h with rfl | h
  · simp [delK]
  · exact pr_delK_of_hasRep (fun k hk => by simp [hk]) k h

namespace BElem

theorem den_boundaryEvents (k : BKey) (v : Int) : den R (boundaryEvents k v) = (v : R) • delK k := by
  unfold boundaryEvents
  rw [den_map, delK_eq_sum, List.smul_sum, List.map_map]
  congr 1
  apply List.map_congr_left
  intro i _
  simp [cast_pySign, mul_comm]

theorem den_boundary {n : Nat} (x : BElem) (hn : x.torsion = n) :
    den (ZMod n) x.boundary.data = pr barrattEccles.drops (del (den _ x.data)) := by
  unfold boundary
  rw [den_preferredRep _ _ (by rw [Elem.torsion, accumulate_attrs]; exact tz hn),
    den_accumulate_zero' _ _ _ rfl hn, pr_pr, den_events _ _ _ fun p _ => den_boundaryEvents p.1 p.2]
  rfl

theorem nf_boundary (x : BElem) : x.boundary.NF barrattEccles :=
  nf_preferredRep _ _ (nf_accumulate_zero _ _ _).nodup

@[simp] theorem boundary_attrs (x : BElem) : x.boundary.attrs = x.attrs := by simp [boundary]

theorem mem_keys_boundary {x : BElem} {m : BKey} (h : m ∈ x.boundary.data.map Prod.fst) :
    ∃ p ∈ x.data, ∃ i, i < p.1.length ∧ m = p.1.eraseIdx i := by
  have := mem_keys_accumulate_zero (mem_keys_preferredRep h)
  simp only [List.mem_map, List.mem_flatMap, boundaryEvents] at this
  obtain ⟨e, ⟨p, hp, i, hi, rfl⟩, rfl⟩ := this
  exact ⟨p, hp, i, by simpa using hi, removeAt_eq_eraseIdx _ _⟩

theorem inBE_boundary {x : BElem} (hx : InBE r x) : InBE r x.boundary := by
  refine ⟨nf_boundary x, ?_⟩
  intro p hp σ hσ
  obtain ⟨q, hq, i, hi, he⟩ := mem_keys_boundary (List.mem_map_of_mem (f := Prod.fst) hp)
  rw [he] at hσ
  exact hx.perm q hq σ (List.mem_of_mem_eraseIdx hσ)

theorem key_ne_nil {x : BElem} (hx : x.NF barrattEccles) {p : BKey × Int} (hp : p ∈ x.data) : p.1 ≠ [] := by
  have := hx.kept p hp
  rw [be_drops] at this
  intro h
  simp [h] at this

theorem arity_eq {x : BElem} (hx : InBE r x) (hne : x.data ≠ []) : x.arity = some r := by
  unfold arity
  rw [uniqueValue_eq_some]
  constructor
  · obtain ⟨p, hp⟩ := List.exists_mem_of_ne_nil _ hne
    obtain ⟨σ, hσ⟩ := List.exists_mem_of_ne_nil _ (key_ne_nil hx.nf hp)
    apply List.ne_nil_of_mem (a := pyMax σ)
    rw [List.mem_flatMap]
    exact ⟨p, hp, List.mem_map_of_mem hσ⟩
  · intro b hb
    rw [List.mem_flatMap] at hb
    obtain ⟨p, hp, hb⟩ := hb
    obtain ⟨σ, hσ, rfl⟩ := List.mem_map.1 hb
    exact pyMax_eq (hx.perm p hp σ hσ)

theorem arity_none {x : BElem} (h : x.data = []) : x.arity = none := by
  unfold arity
  rw [h]
  rfl

/-- Translation of a key. -/
abbrev trL (q : Perm) (k : BKey) : BKey := k.map (mulL q)

theorem mulL_inj {p a b : Perm} (hp : IsPerm r p) (ha : IsPerm r a) (hb : IsPerm r b)
    (h : mulL p a = mulL p b) : a = b := by
  have := congrArg (mulL (invL r p)) h
  rwa [← mulL_assoc (isPerm_invL hp) hp ha, ← mulL_assoc (isPerm_invL hp) hp hb, invL_mulL hp,
    id_mulL ha, id_mulL hb] at this

theorem hasRep_map {α : Type} [DecidableEq α] {f : α → α} {k : List α}
    (h : ∀ a ∈ k, ∀ b ∈ k, f a = f b → a = b) : hasRep (k.map f) = hasRep k := by
  induction k with
  | nil => rfl
  | cons a k ih =>
    cases k with
    | nil => rfl
    | cons b k =>
      have := ih fun c hc d hd => h c (List.mem_cons_of_mem _ hc) d (List.mem_cons_of_mem _ hd)
      simp only [List.map_cons, hasRep] at this ⊢
      rw [this]
      congr 1
      rw [Bool.eq_iff_iff]
      simp only [beq_iff_eq]
      constructor
      · exact h a (by simp) b (by simp)
      · intro h'; rw [h']

theorem drops_trL {q : Perm} (hq : IsPerm r q) {k : BKey} (hk : ∀ σ ∈ k, IsPerm r σ) :
    barrattEccles.drops (trL q k) = barrattEccles.drops k := by
  rw [be_drops, be_drops, hasRep_map fun a ha b hb => mulL_inj hq (hk a ha) (hk b hb)]
  congr 1
  apply decide_eq_decide.2
  simp

/-- The action on basis elements. -/
noncomputable def actB (a : Attrs) (q : Perm) (k : BKey) : BKey →₀ ZMod a.torsion := bv _ (trL q k)

theorem rmul_eq (hr : 1 ≤ r) {s : RingElem} {x : BElem} (hs : InRing r s) (hsn : s.data ≠ [])
    (hx : InBE r x) (hxn : x.data ≠ []) (ts : s.torsion = x.torsion) :
    rmul s x = .ok (Elem.accumulate barrattEccles (x.zero barrattEccles)
      ((pyProduct x.data s.data).map fun pq => (trL pq.2.1 pq.1.1, pq.1.2 * pq.2.2))) := by
  unfold rmul
  rw [if_neg (by simpa using ts.symm), if_neg (by
    rw [ringArity_eq hs hsn, arity_eq hx hxn]; simp)]
  have hm : (pyProduct x.data s.data).mapM (fun (pq : (BKey × Int) × (Perm × Int)) => (do
      let newK ← pq.1.1.mapM fun pi => pq.2.1.mul pi
      .ok (newK, pq.1.2 * pq.2.2) : Py (BKey × Int))) =
      .ok ((pyProduct x.data s.data).map fun pq => (trL pq.2.1 pq.1.1, pq.1.2 * pq.2.2)) := by
    apply mapM_ok
    intro pq hpq
    rw [mem_pyProduct] at hpq
    have h1 : (pq.1.1.mapM fun pi => pq.2.1.mul pi) = .ok (trL pq.2.1 pq.1.1) :=
      mapM_ok fun σ hσ => mul_eq (hs.perm _ hpq.2) (hx.perm _ hpq.1 σ hσ) hr
    rw [h1]
    rfl
  simp only [bind] at hm ⊢
  rw [hm]
  rfl

theorem actSpec (hr : 1 ≤ r) :
    ActSpec barrattEccles r (fun k => ∀ σ ∈ k, IsPerm r σ) rmul actB where
  dt := rfl
  ok := by
    intro s x hs hsn nx hxn hQ ts
    have hx : InBE r x := ⟨nx, hQ⟩
    refine ⟨_, rmul_eq hr hs hsn hx hxn ts, nf_accumulate_zero _ _ _, by simp, ?_, ?_⟩
    · intro p hp σ hσ
      have h := mem_keys_accumulate_zero (List.mem_map_of_mem (f := Prod.fst) hp)
      simp only [List.map_map, List.mem_map, mem_pyProduct, Function.comp] at h
      obtain ⟨pq, hpq, h⟩ := h
      rw [← h] at hσ
      obtain ⟨τ, hτ, rfl⟩ := List.mem_map.1 hσ
      exact isPerm_mulL (hs.perm _ hpq.2) (hQ _ hpq.1 τ hτ)
    · rw [den_accumulate_zero' _ _ _ rfl rfl, den_bil_map (fun k q => trL q k)]
      have hswap : bil (fun k q => bv (ZMod x.torsion) (trL q k)) (den _ x.data) (den _ s.data) =
          bil (actB x.attrs) (den _ s.data) (den _ x.data) := by
        generalize s.data = e
        induction e with
        | nil => simp
        | cons q e ih =>
          rw [den_cons, map_add, map_add, LinearMap.add_apply, ih]
          congr 1
          generalize x.data = d
          induction d with
          | nil => simp
          | cons p d ih2 =>
            rw [den_cons, map_add, map_add, LinearMap.add_apply, ih2]
            congr 1
            rw [bil_single, bil_single, mul_comm]
            rfl
      rw [hswap]
      refine den_induction (P := fun u => pr barrattEccles.drops (bil (actB x.attrs) u (den _ x.data)) =
        bil (actB x.attrs) u (den _ x.data)) s.data (by simp)
        (fun u v hu hv => by simp only [map_add, LinearMap.add_apply] at *; rw [hu, hv]) ?_
      intro p hp
      refine den_induction (P := fun u => pr barrattEccles.drops
        (bil (actB x.attrs) (single p.1 (p.2 : ZMod x.torsion)) u) =
        bil (actB x.attrs) (single p.1 (p.2 : ZMod x.torsion)) u) x.data (by simp)
        (fun u v hu hv => by simp only [map_add] at *; rw [hu, hv]) ?_
      intro q hq
      rw [bil_single, map_smul, actB, pr_single, drops_trL (hs.perm p hp) (hQ q hq), nx.kept q hq]
      rfl
  assoc := by
    intro a σ τ k hσ hτ hk
    unfold actB
    rw [lin_single, one_smul, trL, trL, List.map_map]
    congr 1
    apply List.map_congr_left
    intro t ht
    exact (mulL_assoc hσ hτ (hk t ht)).symm
  one := by
    intro a k hk
    unfold actB
    congr 1
    conv_rhs => rw [← List.map_id k]
    apply List.map_congr_left
    intro t ht
    exact id_mulL (hk t ht)

theorem delK_map {α β : Type} (f : α → β) (k : List α) :
    delK (R := R) (k.map f) = mapK (List.map f) (delK k) := by
  induction k with
  | nil => simp [delK]
  | cons a k ih =>
    rw [List.map_cons, delK, delK, ih, map_sub, mapK_single]
    congr 1
    generalize delK (R := R) k = v
    induction v using Finsupp.induction_linear with
    | zero => simp
    | add f g hf hg => simp only [map_add, hf, hg]
    | single k c => simp

theorem isTranslate_iff {q : Perm} (hq : IsPerm r q) {k m : BKey} (hk : ∀ σ ∈ k, IsPerm r σ) :
    IsTranslate q k m ↔ trL q k = m := by
  constructor
  · rintro ⟨h1, h2⟩
    apply List.ext_getElem (by simp [h1])
    intro i hi hi'
    have hi2 : i < k.length := by simpa using hi
    have h3 := h2 i hi2
    rw [List.getD_eq_getElem _ _ hi2, List.getD_eq_getElem _ _ hi'] at h3
    rw [List.getElem_map]
    have hp := hk _ (List.getElem_mem hi2)
    apply IsPerm.ext' (r := r) (by simp [mulL, hp.length]) (by rw [h3.1, hp.length])
    intro j h1 h2
    rw [value_mulL hp h1 h2]
    have := h3.2 (j - 1) (by rw [hp.length]; omega)
    rw [show j - 1 + 1 = j by omega] at this
    exact this.symm
  · rintro rfl
    refine ⟨by simp, ?_⟩
    intro i hi
    rw [List.getD_eq_getElem _ _ hi, List.getD_eq_getElem _ _ (by simpa using hi), List.getElem_map]
    have hp := hk _ (List.getElem_mem hi)
    refine ⟨by simp [mulL], ?_⟩
    intro j hj
    rw [hp.length] at hj
    exact value_mulL hp (by omega) (by omega)

theorem delK_supported {A : Type} {P : A → Prop} {k : List A} (hk : ∀ σ ∈ k, P σ) :
    delK (R := R) k ∈ Finsupp.supported R R {m : List A | ∀ σ ∈ m, P σ} := by
  induction k with
  | nil => simp [delK]
  | cons a k ih =>
    rw [delK]
    have hk' : ∀ σ ∈ k, P σ := fun σ hσ => hk σ (List.mem_cons_of_mem _ hσ)
    apply Submodule.sub_mem
    · exact Finsupp.single_mem_supported R _ hk'
    · refine mapK_supported _ (fun m hm => ?_) (ih hk')
      intro σ hσ
      rcases List.mem_cons.1 hσ with rfl | h
      · exact hk _ (by simp)
      · exact hm σ h

/-- Extensionality on a set of basis elements. -/
theorem lin_ext_supported {K M : Type} [AddCommMonoid M] [Module R M] {S : Set K}
    {f g : (K →₀ R) →ₗ[R] M} (h : ∀ k ∈ S, f (bv R k) = g (bv R k)) {v : K →₀ R}
    (hv : v ∈ Finsupp.supported R R S) : f v = g v := by
  rw [Finsupp.supported_eq_span_single] at hv
  induction hv using Submodule.span_induction with
  | mem u hu =>
    obtain ⟨k, hk, rfl⟩ := hu
    exact h k hk
  | zero => simp
  | add u w _ _ hu hw => rw [map_add, map_add, hu, hw]
  | smul c u _ hu => rw [map_smul, map_smul, hu]

theorem pr_mapK_trL {a : Attrs} {σ : Perm} (hσ : IsPerm r σ) {k : BKey} (hk : ∀ τ ∈ k, IsPerm r τ) :
    pr barrattEccles.drops (mapK (R := ZMod a.torsion) (trL σ) (delK k)) =
      lin (actB a σ) (pr barrattEccles.drops (delK k)) := by
  refine lin_ext_supported (f := (pr barrattEccles.drops).comp (mapK (trL σ)))
    (g := (lin (actB a σ)).comp (pr barrattEccles.drops)) ?_ (delK_supported hk)
  intro m hm
  simp only [LinearMap.comp_apply, mapK_single, pr_single, drops_trL hσ hm]
  split
  · simp
  · simp [actB]

end BElem

end Comch
