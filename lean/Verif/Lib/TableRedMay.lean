import Verif.Lib.TableRedCompose
import Verif.Lib.SurjMay

/-! # Table reduction and the May-Steenrod structures -/

set_option linter.unusedSectionVars false

namespace Comch.TR
open Finsupp (single)
open Comch.SurjMay Comch.Spec Comch.IsPerm

variable {R : Type} [CommRing R] {r : Nat}

theorem tr_map_pred {m : Nat} {W : List (List Nat)} (h : Al (Finset.Icc 1 (m + 1)) W) :
    pV (tr (R := R) W) = tr ((W.map (rm 1)).map (List.map (· - 1))) := by
  have h1 : (1 : Nat) ∈ Finset.Icc 1 (m + 1) := by simp
  rw [pV, LinearMap.comp_apply, eraseOne_tr h h1, tr_map (h.rm 1)]
  intro a ha b hb e
  simp only [Finset.mem_erase, Finset.mem_Icc] at ha hb
  omega

theorem al_pred {m : Nat} {W : List (List Nat)} (h : Al (Finset.Icc 1 (m + 1)) W) :
    Al (Finset.Icc 1 m) ((W.map (rm 1)).map (List.map (· - 1))) := by
  intro w hw
  obtain ⟨v, hv, rfl⟩ := List.mem_map.1 hw
  obtain ⟨hn, hs⟩ := h.rm 1 v hv
  have hm : ∀ a, a ∈ v ↔ a ≠ 1 ∧ 1 ≤ a ∧ a ≤ m + 1 := by
    intro a
    rw [← List.mem_toFinset, hs, Finset.mem_erase, Finset.mem_Icc]
  refine ⟨hn.map_on ?_, ?_⟩
  · intro a ha b hb e
    have := (hm a).1 ha
    have := (hm b).1 hb
    omega
  · ext a
    rw [List.mem_toFinset, List.mem_map, Finset.mem_Icc]
    constructor
    · rintro ⟨b, hb, rfl⟩
      have := (hm b).1 hb
      omega
    · intro ha
      exact ⟨a + 1, (hm _).2 ⟨by omega, by omega, by omega⟩, by omega⟩

theorem map_succ_pred {m : Nat} {W : List (List Nat)} (h : Al (Finset.Icc 1 (m + 1)) W) :
    ((W.map (rm 1)).map (List.map (· - 1))).map (List.map (· + 1)) = W.map (rm 1) := by
  rw [List.map_map]
  conv_rhs => rw [← List.map_id (W.map (rm 1))]
  apply List.map_congr_left
  intro w hw
  have hs := (h.rm 1 w hw).2
  simp only [Function.comp, List.map_map, id]
  conv_rhs => rw [← List.map_id w]
  apply List.map_congr_left
  intro a ha
  have : a ∈ (Finset.Icc 1 (m + 1)).erase 1 := by rw [← hs, List.mem_toFinset]; exact ha
  simp only [Finset.mem_erase, Finset.mem_Icc] at this
  simp only [Function.comp, id]
  omega

theorem mapK_succ_Deg {v : List Nat →₀ R} (hv : v ∈ Deg R) : mapK (List.map (· + 1)) v ∈ Deg R :=
  mapK_supported (S := {m : List Nat | hasRep m = true}) (T := {m : List Nat | hasRep m = true}) _
    (fun _ hm => hasRep_map' hm) hv

theorem iV_eq (v : List Nat →₀ R) : iV v = consV 1 (mapK (List.map (· + 1)) v) := by
  rw [consV, mapK_comp']
  rfl

/-- Reading a table whose first row is the identity. -/
theorem tr_range (m : Nat) : ∀ {W : List (List Nat)}, Al (Finset.Icc 1 (m + 1)) W → W ≠ [] →
    tr (R := R) (List.range' 1 (m + 1) :: W) - hV m (tr W) ∈ Deg R := by
  induction m with
  | zero =>
    intro W h hW
    obtain ⟨w, W, rfl⟩ := List.exists_cons_of_ne_nil hW
    have h1 : w = [1] := by
      obtain ⟨hn, hs⟩ := h w (by simp)
      have hl : w.length = 1 := by
        rw [← List.toFinset_card_of_nodup hn, hs]; rfl
      obtain ⟨a, rfl⟩ := List.length_eq_one_iff.1 hl
      have : a ∈ Finset.Icc 1 (0 + 1) := by rw [← hs]; simp
      simp only [Finset.mem_Icc] at this
      have : a = 1 := by omega
      rw [this]
    subst h1
    rw [hV, LinearMap.zero_apply, sub_zero]
    show tr ([1] :: [1] :: W) ∈ _
    rw [tr_cons, tr_nil_cons, if_neg (by simp), map_zero, add_zero, tr_cons, ← map_add]
    exact consV_consV_Deg _ _
  | succ m ih =>
    intro W h hW
    have e1 : List.range' 1 (m + 1 + 1) = 1 :: (List.range' 1 (m + 1)).map (· + 1) := by
      rw [List.range'_succ]
      congr 1
      rw [show (fun x : Nat => x + 1) = fun x => 1 + x from funext fun x => Nat.add_comm x 1, List.map_add_range']
    have h' := al_pred h
    have hh : Al (Finset.Icc 1 (m + 1)) (List.range' 1 (m + 1) :: (W.map (rm 1)).map (List.map (· - 1))) := by
      intro w hw
      rcases List.mem_cons.1 hw with rfl | hw
      · refine ⟨List.nodup_range', ?_⟩
        ext a
        rw [List.mem_toFinset, List.mem_range'_1, Finset.mem_Icc]
        omega
      · exact h' w hw
    have e2 : tr (R := R) ((List.range' 1 (m + 1)).map (· + 1) :: W.map (rm 1)) =
        mapK (List.map (· + 1)) (tr (List.range' 1 (m + 1) :: (W.map (rm 1)).map (List.map (· - 1)))) := by
      rw [← tr_map hh (fun a _ b _ e => by omega), List.map_cons, map_succ_pred h]
    rw [e1, tr_cons, e2, hV, LinearMap.add_apply, LinearMap.comp_apply, LinearMap.comp_apply, tr_map_pred h, iV_eq,
      add_sub_add_left_eq_sub, ← map_sub, ← map_sub]
    exact consV_Deg 1 (mapK_succ_Deg (ih h' (by simpa using hW)))

theorem pr_hasRep_eq {a b : List Nat →₀ R} (h : a - b ∈ Deg R) : pr hasRep a = pr hasRep b := by
  rw [← sub_eq_zero, ← map_sub]
  refine BElem.lin_ext_supported (f := pr hasRep) (g := 0) (fun m hm => ?_) h
  rw [pr_single, if_pos (show hasRep m = true from hm)]
  rfl

theorem al_perm {k : BKey} (h : ∀ σ ∈ k, IsPerm r σ) : Al (Finset.Icc 1 r) k := by
  intro w hw
  refine ⟨(h w hw).nodup, ?_⟩
  ext v
  rw [List.mem_toFinset, Comch.IsPerm.mem_iff (h w hw), Finset.mem_Icc]

theorem pr_trL_pr' {v : BKey →₀ R} (hv : v ∈ Finsupp.supported R R (BElem.BS r)) :
    pr hasRep (trL (pr hasRep v)) = pr hasRep (trL v) := by
  refine BElem.lin_ext_supported (f := ((pr hasRep).comp trL).comp (pr hasRep)) (g := (pr hasRep).comp trL) ?_ hv
  intro k hk
  simp only [LinearMap.comp_apply, pr_single]
  split
  · rename_i hd
    rw [map_zero, map_zero, trL_single, one_smul]
    symm
    refine BElem.lin_ext_supported (f := pr hasRep) (g := 0) ?_ (tr_hasRep (al_perm hk) hd)
    intro m hm
    rw [pr_single, if_pos (show hasRep m = true from hm)]; simp
  · rfl

theorem trL_actV {s : Perm →₀ R} (hs : s ∈ Finsupp.supported R R (BElem.PermSet r)) {v : BKey →₀ R}
    (hv : v ∈ Finsupp.supported R R (BElem.BS r)) : trL (BElem.actV s v) = aV s (trL v) := by
  have key : ∀ q ∈ BElem.PermSet r, ∀ k ∈ BElem.BS r,
      (BElem.actV (R := R)).compr₂ trL (bv R q) (bv R k) = (aV (R := R)).compl₂ trL (bv R q) (bv R k) := by
    intro q hq k hk
    have hf : ∀ a ∈ Finset.Icc 1 r, ∀ b ∈ Finset.Icc 1 r, value q a = value q b → a = b := by
      intro a ha b hb
      exact value_inj hq (Finset.mem_Icc.1 ha) (Finset.mem_Icc.1 hb)
    have htr := tr_map (R := R) (al_perm hk) hf
    have e1 : BElem.actV (bv R q) (bv R k) = bv R (k.map (List.map (value q))) := by
      rw [bil_single, one_mul, one_smul]; rfl
    have e2 : ∀ w : Surj →₀ R, aV (bv R q) w = mapK (List.map (value q)) w := by
      intro w
      induction w using Finsupp.induction_linear with
      | zero => simp
      | add f g hf hg => simp only [map_add, hf, hg]
      | single m c => simp [mulL]
    rw [LinearMap.compr₂_apply, LinearMap.compl₂_apply, e1, e2, trL_single, trL_single, one_smul, one_smul, htr]
  have := BElem.bil_ext_supported (S := BElem.PermSet r) (T := BElem.BS r) key hs hv
  rw [LinearMap.compr₂_apply, LinearMap.compl₂_apply] at this
  exact this

/-- Table reduction takes one structure to the other. -/
theorem trL_psiV (hr : 2 ≤ r) (d : Nat) : pr hasRep (trL (BElem.psiV R r d)) = psiS R r d := by
  induction d with
  | zero =>
    have h0 : ∀ m a, tr (R := R) [List.range' a m] = bv R (List.range' a m) := by
      intro m
      induction m with
      | zero => intro a; simp [tr_nil_cons]
      | succ m ih => intro a; rw [List.range'_succ, tr_cons, List.map_nil, ih]; simp
    conv_rhs => rw [← pr_psiS]
    rw [BElem.psiV, psiS, trL_single, one_smul, pyRange, h0]
  | succ d ih =>
    obtain ⟨r, rfl⟩ : ∃ r', r = r' + 1 := ⟨r - 1, by omega⟩
    have hst := BElem.stepV_supported (R := R) (r := r + 1) (by omega) (d + 1)
    have hp' : BElem.psiV R (r + 1) d ∈ Finsupp.supported R R (BElem.BS (r + 1)) :=
      Finsupp.supported_mono (s := BElem.LKey (r + 1) (d + 1)) (fun k hk => hk.1)
        (BElem.psiV_supported' (by omega) d)
    have hw := BElem.actV_supported hst (BElem.psiV_supported' (R := R) (r := r + 1) (by omega) d)
    have hw' : consV (pyRange 1 (r + 1 + 1)) (BElem.actV (BElem.stepV R (r + 1) (d + 1)) (BElem.psiV R (r + 1) d)) ∈
        Finsupp.supported R R (BElem.BS (r + 1)) := by
      refine mapK_supported (S := BElem.LKey (r + 1) (d + 1)) (T := BElem.BS (r + 1)) _ (fun k hk => ?_) hw
      intro σ hσ
      rcases List.mem_cons.1 hσ with rfl | h
      · exact isPerm_id _
      · exact hk.1 σ h
    have hO : trL (BElem.psiV R (r + 1) d) ∈ Finsupp.supported R R (OK (r + 1)) := by
      refine lin_supported (S := BElem.BS (r + 1)) _ (fun k hk => ?_) hp'
      refine Finsupp.supported_mono (t := OK (r + 1)) ?_ (tr_supported (al_perm hk))
      rintro m ⟨h, _⟩ v
      rw [h, Finset.mem_Icc]
    rw [BElem.psiV, pr_trL_pr' hw', psiS, ← ih, ← pr_aV hst hO, pr_hV_pr, ← trL_actV hst hp']
    refine BElem.lin_ext_supported (f := ((pr hasRep).comp trL).comp (consV (pyRange 1 (r + 1 + 1))))
      (g := ((pr hasRep).comp (hV (r + 1 - 1))).comp trL) (fun k hk => ?_) hw
    simp only [LinearMap.comp_apply, consV_single, trL_single, one_smul]
    exact pr_hasRep_eq (tr_range r (al_perm hk.1) (by rintro rfl; simpa using hk.2))

end Comch.TR
