import Verif.Model.Copy
import Verif.Props.FreeModule
import Verif.Props.Construct

/-! # C100, C101: what elements inherit from `Counter` -/

namespace Comch.Props
open Comch Elem

variable {K : Type} [DecidableEq K]

/-! ## C100: copies -/

/-- A copy has the default torsion and convention, whatever those of the original are. -/
theorem C100_copy_attrs (C : Cls K) (x : Elem K) : (x.copy C).torsion = C.defaultTorsion ∧
    (x.copy C).attrs.convention = .bergerFresse := ⟨rfl, rfl⟩

theorem copy_data (C : Cls K) (h0 : C.defaultTorsion = 0) (x : Elem K) (hx : x.NF C) : (x.copy C).data = x.data := by
  have h : Elem.NF C ⟨x.data, { torsion := 0, convention := .bergerFresse }⟩ :=
    ⟨hx.nodup, hx.coeff_ne, fun h => absurd rfl h, hx.kept⟩
  have := ((C01_nf_iff_fixed C _).1 h).2
  simp only [Elem.copy, Elem.new, h0, Option.getD_none]
  simp only [Elem.new, Option.getD_some] at this
  rw [this]

/-- With the shipped default torsion, a copy has the coefficients of the original, so the two compare equal. -/
theorem C100_copy_eq (C : Cls K) (h0 : C.defaultTorsion = 0) (x : Elem K) (hx : x.NF C) :
    x.pyEq (x.copy C) = true ∧ ∀ k, (x.copy C).coeff k = x.coeff k := by
  have hd := copy_data C h0 x hx
  refine ⟨?_, fun k => by simp only [Elem.coeff, hd]⟩
  rw [Elem.pyEq]
  simp only [Elem.coeff, hd]
  rw [Bool.and_eq_true, List.all_eq_true, List.all_eq_true]
  exact ⟨fun p hp => by simp [Dict.get_of_mem hx.nodup hp], fun p hp => by simp [Dict.get_of_mem hx.nodup hp]⟩

/-- A copy is faithful exactly if the original has the default torsion and convention. -/
theorem C100_copy_faithful_iff (C : Cls K) (h0 : C.defaultTorsion = 0) (x : Elem K) (hx : x.NF C) :
    x.copy C = x ↔ x.torsion = C.defaultTorsion ∧ x.attrs.convention = .bergerFresse := by
  constructor
  · intro h
    exact ⟨by rw [← h]; rfl, by rw [← h]; rfl⟩
  · rintro ⟨h1, h2⟩
    have hd := copy_data C h0 x hx
    obtain ⟨d, t, c⟩ := x
    simp only [Elem.torsion] at h1 h2 hd
    subst h1 h2
    have : (Elem.copy C ⟨d, ⟨C.defaultTorsion, .bergerFresse⟩⟩).attrs = ⟨C.defaultTorsion, .bergerFresse⟩ := rfl
    rcases h : Elem.copy C ⟨d, ⟨C.defaultTorsion, .bergerFresse⟩⟩ with ⟨d', a⟩
    rw [h] at hd this
    simp only at hd this
    rw [hd, this]

/-- Otherwise the original cannot even be combined with its copy. -/
theorem C100_copy_add (C : Cls K) (x : Elem K) (hx : x.torsion ≠ C.defaultTorsion) :
    Elem.add C x (x.copy C) = .error .typeError ∧ Elem.sub C x (x.copy C) = .error .typeError ∧
    Elem.iadd C x (x.copy C) = .error .typeError ∧ Elem.isub C x (x.copy C) = .error .typeError := by
  refine ⟨?_, ?_, ?_, ?_⟩
  all_goals first | simp only [Elem.add] | simp only [Elem.sub] | simp only [Elem.iadd] | simp only [Elem.isub]
  all_goals exact if_pos hx

/-- Equal elements with different boundaries: a surjection element with the McClure–Smith convention and its copy. -/
theorem C100_copy_boundary_differs : ∃ x : SurjElem, x.NF surjection ∧ x.pyEq (x.copy surjection) = true ∧
    Elem.pyEq x.boundary (SurjElem.boundary (x.copy surjection)) = false := by
  refine ⟨Elem.new surjection [([2, 1, 2, 1], 1)] none .mcClureSmith, nf_new _ (by decide) _ _, by decide, by decide⟩

/-- Equal elements with different doubles: an element with coefficients modulo 3 and its copy. -/
theorem C100_copy_double_differs : ∃ x : Elem Nat, x.NF (freeModule Nat) ∧ x.pyEq (x.copy (freeModule Nat)) = true ∧
    Elem.pyEq (x.smul (freeModule Nat) 2) ((x.copy (freeModule Nat)).smul (freeModule Nat) 2) = false := by
  refine ⟨Elem.new (freeModule Nat) [(1, 2)] (some 3), nf_new _ (by decide) _ _, by decide, by decide⟩

/-- `+x` has exactly the positive coefficients of `x`: it represents `x` only if all coefficients are positive. -/
theorem C100_pos (C : Cls K) (x : Elem K) (hx : x.NF C) (k : K) : x.pos.get k = max (x.coeff k) 0 := by
  have key : ∀ d : Dict K, d.KeysNodup → Dict.get (d.filter fun p => p.2 > 0) k = max (d.get k) 0 := by
    intro d
    induction d with
    | nil => intro _; rfl
    | cons p d ih =>
      intro h
      have h' : Dict.KeysNodup d := (List.nodup_cons.1 h).2
      have hn : p.1 ∉ d.map Prod.fst := (List.nodup_cons.1 h).1
      have h0 : p.1 = k → Dict.get d k = 0 := by
        rintro rfl
        exact Dict.get_of_not_mem hn
      by_cases hp : p.2 > 0
      · rw [List.filter_cons_of_pos (by simpa using hp)]
        simp only [Dict.get]
        split
        · omega
        · exact ih h'
      · rw [List.filter_cons_of_neg (by simpa using hp), ih h']
        simp only [Dict.get]
        split
        · rename_i hk
          rw [h0 hk]; omega
        · rfl
  exact key x.data hx.nodup

example : (Elem.new (freeModule Nat) [(1, 2), (2, -3)]).pos = [(1, 2)] := by decide

/-! ## C101: direct changes of the coefficients -/

/-- The coefficients a sequence of edits is meant to leave, read off the edits alone. -/
def editedCoeff (f : K → Int) : Edit K → K → Int
  | .setItem k v => fun k' => if k' = k then v else f k'
  | .delItem k => fun k' => if k' = k then 0 else f k'
  | .update e => fun k' => f k' + e.get k'
  | .subtract e => fun k' => f k' - e.get k'
  | .clear => fun _ => 0

/-- The dicts given to `update` and `subtract` have distinct keys, as all dicts do. -/
def editOK : Edit K → Prop
  | .update e => e.KeysNodup
  | .subtract e => e.KeysNodup
  | _ => True

theorem get_update {d e : Dict K} (hd : d.KeysNodup) (he : e.KeysNodup) (k : K) : (d.update e).get k = d.get k + e.get k := by
  have h := DFunLike.congr_fun (Dict.den_update (R := ℤ) d e) k
  rw [Finsupp.add_apply, Dict.den_apply (hd.update e), Dict.den_apply hd, Dict.den_apply he] at h
  simpa using h

theorem get_subtract {d e : Dict K} (hd : d.KeysNodup) (he : e.KeysNodup) (k : K) :
    (d.subtract e).get k = d.get k - e.get k := by
  have h := DFunLike.congr_fun (Dict.den_subtract (R := ℤ) d e) k
  rw [Finsupp.sub_apply, Dict.den_apply (hd.subtract e), Dict.den_apply hd, Dict.den_apply he] at h
  simpa using h

theorem get_filter_ne (d : Dict K) (k k' : K) : Dict.get (d.filter fun p => p.1 ≠ k) k' = if k' = k then 0 else d.get k' := by
  induction d with
  | nil => simp [Dict.get]
  | cons p d ih =>
    by_cases hp : p.1 = k
    · rw [List.filter_cons_of_neg (by simpa using hp), ih]
      split
      · rfl
      · rename_i h
        rw [Dict.get, if_neg (by rw [hp]; exact fun h' => h h'.symm)]
    · rw [List.filter_cons_of_pos (by simpa using hp)]
      simp only [Dict.get, ih]
      by_cases hk : p.1 = k'
      · subst hk
        rw [if_pos rfl, if_neg hp, if_pos rfl]
      · rw [if_neg hk, if_neg hk]

theorem editDict_spec {d : Dict K} (hd : d.KeysNodup) {e : Edit K} (he : editOK e) :
    (editDict d e).KeysNodup ∧ ∀ k, (editDict d e).get k = editedCoeff d.get e k := by
  cases e with
  | setItem k v =>
    refine ⟨hd.set k v, fun k' => ?_⟩
    simp only [editDict, editedCoeff, get_set_eq]
    by_cases h : k = k'
    · rw [if_pos h, if_pos h.symm]
    · rw [if_neg h, if_neg (Ne.symm h)]
  | delItem k =>
    refine ⟨?_, fun k' => get_filter_ne d k k'⟩
    exact (List.Sublist.map _ List.filter_sublist).nodup hd
  | update e => exact ⟨hd.update e, fun k => get_update hd he k⟩
  | subtract e => exact ⟨hd.subtract e, fun k => get_subtract hd he k⟩
  | clear => exact ⟨by simp [Dict.KeysNodup, editDict], fun k => rfl⟩

/-- A sequence of direct changes has the effect on the coefficients that the dict methods document, and changes
neither torsion nor convention. -/
theorem C101_edit_coeff (x : Elem K) (hx : x.data.KeysNodup) (es : List (Edit K)) (he : ∀ e ∈ es, editOK e) :
    (x.edit es).data.KeysNodup ∧ (x.edit es).attrs = x.attrs ∧ ∀ k, (x.edit es).coeff k = es.foldl editedCoeff x.coeff k := by
  have key : ∀ (es : List (Edit K)) (d : Dict K), (∀ e ∈ es, editOK e) → d.KeysNodup →
      (es.foldl editDict d).KeysNodup ∧ ∀ k, (es.foldl editDict d).get k = es.foldl editedCoeff d.get k := by
    intro es
    induction es with
    | nil => intro d _ hd; exact ⟨hd, fun _ => rfl⟩
    | cons e es ih =>
      intro d h hd
      obtain ⟨h1, h2⟩ := editDict_spec hd (h e (by simp))
      obtain ⟨g1, g2⟩ := ih (editDict d e) (fun e' he' => h e' (List.mem_cons_of_mem _ he')) h1
      refine ⟨g1, fun k => ?_⟩
      rw [List.foldl_cons, List.foldl_cons, g2]
      rw [show (editDict d e).get = editedCoeff d.get e from funext h2]
  obtain ⟨h1, h2⟩ := key es x.data he hx
  exact ⟨h1, rfl, h2⟩

/-- After the changes, `preferred_rep()` restores the normal form: the coefficients are those the changes left,
modulo the torsion, without the degenerate basis elements. -/
theorem C101_preferred_rep (C : Cls K) (x : Elem K) (hx : x.data.KeysNodup) (es : List (Edit K)) (he : ∀ e ∈ es, editOK e) :
    ((x.edit es).preferredRep C).NF C ∧ ((x.edit es).preferredRep C).attrs = x.attrs ∧
    ∀ k, ((x.edit es).preferredRep C).coeff k ≡ (if C.drops k then 0 else es.foldl editedCoeff x.coeff k) [ZMOD x.torsion] := by
  obtain ⟨h1, h2, h3⟩ := C101_edit_coeff x hx es he
  have hn := nf_preferredRep C (x.edit es) h1
  refine ⟨hn, rfl, fun k => ?_⟩
  have h0 : (((x.edit es).torsion : Nat) : ZMod x.torsion) = 0 := by
    rw [show (x.edit es).torsion = x.torsion from rfl]; simp
  have h := DFunLike.congr_fun (den_preferredRep (R := ZMod x.torsion) C (x.edit es) h0) k
  rw [Dict.den_apply hn.nodup, pr_apply, Dict.den_apply h1] at h
  rw [← ZMod.intCast_eq_intCast_iff, Elem.coeff, h, ← h3 k]
  split <;> simp

/-- So do the arithmetic operators: the sum of two changed elements is in normal form, with the coefficients one
expects. -/
theorem C101_add (C : Cls K) (x y z : Elem K) (hx : x.data.KeysNodup) (hy : y.data.KeysNodup)
    (hD : x.torsion ∣ C.defaultTorsion) (es fs : List (Edit K)) (he : ∀ e ∈ es, editOK e) (hf : ∀ e ∈ fs, editOK e)
    (hz : Elem.add C (x.edit es) (y.edit fs) = .ok z) :
    z.NF C ∧ ∀ k, z.coeff k ≡ (if C.drops k then 0 else es.foldl editedCoeff x.coeff k + fs.foldl editedCoeff y.coeff k)
      [ZMOD x.torsion] := by
  obtain ⟨h1, h2, h3⟩ := C101_edit_coeff x hx es he
  obtain ⟨g1, g2, g3⟩ := C101_edit_coeff y hy fs hf
  rw [add_eq (torsion_eq_of_add hz)] at hz
  cases hz
  have hn : (iaddCore C (create C (x.edit es) (x.edit es).data) (y.edit fs)).NF C :=
    nf_iaddCore (nf_create C (x.edit es) h1).nodup _
  refine ⟨hn, fun k => ?_⟩
  have h0 : (((x.edit es).torsion : Nat) : ZMod x.torsion) = 0 := by
    rw [show (x.edit es).torsion = x.torsion from rfl]; simp
  have hD' : ((C.defaultTorsion : Nat) : ZMod x.torsion) = 0 := (ZMod.natCast_eq_zero_iff _ _).2 hD
  have h := DFunLike.congr_fun (den_iaddCore (R := ZMod x.torsion) C
    (create C (x.edit es) (x.edit es).data) (y.edit fs) h0) k
  rw [Dict.den_apply hn.nodup, den_create _ _ _ hD' h0, pr_apply, Finsupp.add_apply, pr_apply, Dict.den_apply h1,
    Dict.den_apply g1] at h
  rw [← ZMod.intCast_eq_intCast_iff, Elem.coeff, h, ← h3 k, ← g3 k]
  split <;> simp

/-- Before that, a changed element may be true although it is equal to zero. -/
theorem C101_not_normalised : ∃ (x : Elem Nat) (es : List (Edit Nat)), x.NF (freeModule Nat) ∧
    (x.edit es).truthy = true ∧ (x.edit es).pyEq (x.zero (freeModule Nat)) = true ∧
    ((x.edit es).preferredRep (freeModule Nat)).truthy = false := by
  refine ⟨Elem.new (freeModule Nat) [(1, 2)], [.subtract [(1, 2)]], nf_new _ (by decide) _ _, by decide, by decide, by decide⟩

/-- A longer sequence of changes. -/
example : ((Elem.new (freeModule Nat) [(1, 2), (2, 5)] (some 7)).edit
      [.setItem 3 9, .update [(1, 6), (4, 7)], .delItem 2, .subtract [(4, 1)]]).data = [(1, 8), (3, 9), (4, 6)] ∧
    (((Elem.new (freeModule Nat) [(1, 2), (2, 5)] (some 7)).edit
      [.setItem 3 9, .update [(1, 6), (4, 7)], .delItem 2, .subtract [(4, 1)]]).preferredRep (freeModule Nat)).data =
        [(1, 1), (3, 2), (4, 6)] := by decide

end Comch.Props
