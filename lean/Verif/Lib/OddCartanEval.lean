import Verif.Lib.OddCartan

/-! # Evaluation of the two families of the Cartan formula -/

set_option linter.unusedSectionVars false

namespace Comch
namespace OddP
open Finsupp (single)
open Acyclic BElem Elem Comch.Spec Join Coch SurjComp SurjElem IsPerm SurjMay Comch.Props Contract

section
variable {R : Type} [CommRing R] {σ : List Nat}

theorem tensorValue_deg : ∀ {L : List (Nat × (List Nat → R))} {k : SKey}, tensorValue L k ≠ 0 →
    k.map List.length = L.map fun x => x.1 + 1
  | [], [], _ => rfl
  | [], _ :: _, h => absurd rfl h
  | _ :: _, [], h => absurd rfl h
  | (q, α) :: L, f :: k, h => by
    rw [tensorValue] at h
    have h1 : f.length = q + 1 := by
      by_contra h'
      rw [if_neg h', zero_mul] at h
      exact h rfl
    rw [List.map_cons, List.map_cons, h1, tensorValue_deg (right_ne_zero_of_mul h)]

theorem tensorValue_append : ∀ {L L' : List (Nat × (List Nat → R))} {k k' : SKey}, L.length = k.length →
    tensorValue (L ++ L') (k ++ k') = tensorValue L k * tensorValue L' k'
  | [], L', [], k', _ => by simp [tensorValue]
  | (q, α) :: L, L', f :: k, k', h => by
    rw [List.cons_append, List.cons_append, tensorValue, tensorValue, tensorValue_append (by simpa using h), mul_assoc]

/-- `α ⊗ β ⊗ α ⊗ β ⊗ …` -/
def Lam (a : Nat) (α : List Nat → R) (b : Nat) (β : List Nat → R) : Nat → List (Nat × (List Nat → R))
  | 0 => []
  | n + 1 => (a, α) :: (b, β) :: Lam a α b β n

variable {a b : Nat} {α β : List Nat → R}

theorem Lam_succ (n : Nat) : Lam a α b β (n + 1) = Lam a α b β n ++ [(a, α), (b, β)] := by
  induction n with
  | zero => rfl
  | succ n ih =>
    exact congrArg (fun l => (a, α) :: (b, β) :: l) ih

theorem length_Lam (n : Nat) : (Lam a α b β n).length = 2 * n := by
  induction n with
  | zero => rfl
  | succ n ih => simp [Lam, ih]; ring

theorem mem_Lam {n : Nat} {x : Nat × (List Nat → R)} (h : x ∈ Lam a α b β n) : x = (a, α) ∨ x = (b, β) := by
  induction n with
  | zero => simp [Lam] at h
  | succ n ih =>
    simp only [Lam, List.mem_cons] at h
    tauto

theorem Lam_zipL : ∀ (n : Nat) {s t : SKey}, s.length = n → t.length = n →
    tensorValue (Lam a α b β n) (zipL s t) = tensorValue (List.replicate n (a, α)) s * tensorValue (List.replicate n (b, β)) t
  | 0, [], [], _, _ => by simp [Lam, zipL, tensorValue]
  | n + 1, f :: s, g :: t, hs, ht => by
    rw [Lam, zipL, tensorValue, tensorValue, Lam_zipL n (by simpa using hs) (by simpa using ht), List.replicate_succ, List.replicate_succ, tensorValue,
      tensorValue]
    ring

theorem kap_const {x y : Int} : ∀ (n : Nat) {s t : SKey}, s.length = n → t.length = n → (∀ f ∈ s, ldim f = x) → (∀ g ∈ t, ldim g = y) →
    kap s t = x * y * (n.choose 2 : Nat)
  | 0, [], [], _, _, _, _ => by simp [kap]
  | n + 1, f :: s, g :: t, hs, ht, h1, h2 => by
    have hs : s.length = n := by simpa using hs
    have e : totDeg ldim s = n * x := by
      have : ∀ s : SKey, (∀ f ∈ s, ldim f = x) → totDeg ldim s = s.length * x := by
        intro s
        induction s with
        | nil => intro _; simp [totDeg]
        | cons f s ih => intro h; rw [totDeg, ih fun f hf => h f (by simp [hf]), h f (by simp)]; push_cast [List.length_cons]; ring
      rw [this s fun f hf => h1 f (by simp [hf]), hs]
    rw [kap, kap_const n hs (by simpa using ht) (fun f hf => h1 f (by simp [hf])) (fun f hf => h2 f (by simp [hf])), e, h2 g (by simp),
      Nat.choose_succ_succ' n 1, Nat.choose_one_right]
    push_cast
    ring

theorem ldim_of_value {n q : Nat} {γ : List Nat → R} {s : SKey} (h : tensorValue (List.replicate n (q, γ)) s ≠ 0) :
    ∀ f ∈ s, ldim f = q := by
  intro f hf
  have := tensorValue_deg h
  have h1 : f.length ∈ s.map List.length := List.mem_map_of_mem hf
  rw [this, List.map_replicate] at h1
  rw [ldim, List.eq_of_mem_replicate h1]
  push_cast
  ring

theorem evF_sh {n : Nat} {u v : SKey →₀ R} (hu : u ∈ Finsupp.supported R R (Ln n)) (hv : v ∈ Finsupp.supported R R (Ln n)) :
    evF (Lam a α b β n) (shV u v) =
      sg R (a * b * (n.choose 2 : Nat)) * (evF (List.replicate n (a, α)) u * evF (List.replicate n (b, β)) v) := by
  have h := bil_ext_supported (R := R) (M := R) (S := Ln n) (T := Ln n)
    (f := shV.compr₂ (evF (Lam a α b β n)))
    (g := sg R (a * b * (n.choose 2 : Nat)) • (LinearMap.mul R R).compl₁₂ (evF (List.replicate n (a, α))) (evF (List.replicate n (b, β)))) (fun s hs t ht => by
      have hs : s.length = n := hs
      have ht : t.length = n := ht
      rw [LinearMap.compr₂_apply, LinearMap.smul_apply, LinearMap.smul_apply, LinearMap.compl₁₂_apply, LinearMap.mul_apply', shV_bv, shK_eq (by omega),
        map_smul, evF_single, evF_single, evF_single, one_mul, one_mul, one_mul, smul_eq_mul, smul_eq_mul, Lam_zipL n hs ht]
      by_cases h1 : tensorValue (List.replicate n (a, α)) s = 0
      · rw [h1]; ring
      by_cases h2 : tensorValue (List.replicate n (b, β)) t = 0
      · rw [h2]; ring
      rw [kap_const n hs ht (ldim_of_value h1) (ldim_of_value h2)]) hu hv
  rw [LinearMap.compr₂_apply, LinearMap.smul_apply, LinearMap.smul_apply, LinearMap.compl₁₂_apply, LinearMap.mul_apply', smul_eq_mul] at h
  exact h

theorem evF_cat2 {n : Nat} {u : SKey →₀ R} (hu : u ∈ Finsupp.supported R R {k : SKey | k.length = 2}) (v : SKey →₀ R) :
    evF (Lam a α b β (n + 1)) (cat u v) = evF [(a, α), (b, β)] u * evF (Lam a α b β n) v := by
  have h := bil_ext_supported (R := R) (M := R) (S := {k : SKey | k.length = 2}) (T := Set.univ)
    (f := (cat (R := R) (A := List Nat)).compr₂ (evF (Lam a α b β (n + 1))))
    (g := (LinearMap.mul R R).compl₁₂ (evF [(a, α), (b, β)]) (evF (Lam a α b β n))) (fun s hs t _ => by
      obtain ⟨f, g, rfl⟩ := List.length_eq_two.1 hs
      rw [LinearMap.compr₂_apply, LinearMap.compl₁₂_apply, LinearMap.mul_apply', cat_single_single, evF_single, evF_single, evF_single, one_mul, one_mul,
        one_mul, one_mul, List.cons_append, List.cons_append, List.nil_append, Lam]
      simp only [tensorValue]
      ring) hu (v := v) (by simp)
  rw [LinearMap.compr₂_apply, LinearMap.compl₁₂_apply, LinearMap.mul_apply'] at h
  exact h

theorem evF_rot2 {n : Nat} (hn : n % 2 = 0) {v : SKey →₀ R} (hv : v ∈ Finsupp.supported R R (Ln (2 * (n + 1)))) :
    evF (Lam a α b β (n + 1)) ((rot ^ 2) v) = evF (Lam a α b β (n + 1)) v := by
  refine fun_ext_supported (f := (evF (Lam a α b β (n + 1))).comp (rot ^ 2 : Module.End R (SKey →₀ R))) (g := evF (Lam a α b β (n + 1))) (fun k hk => ?_) hv
  have hk : k.length = 2 * (n + 1) := hk
  obtain ⟨u, f, g, rfl⟩ : ∃ u f g, k = u ++ [f, g] := by
    rcases k.eq_nil_or_concat with rfl | ⟨t, g, rfl⟩
    · simp at hk
    rcases t.eq_nil_or_concat with rfl | ⟨u, f, rfl⟩
    · simp at hk; omega
    exact ⟨u, f, g, by simp⟩
  have hu : u.length = 2 * n := by simp at hk; omega
  rw [LinearMap.comp_apply, rot2_snoc, map_smul, evF_single, evF_single, one_mul, one_mul, smul_eq_mul]
  conv_rhs => rw [Lam_succ]
  rw [tensorValue_append (by rw [length_Lam, hu]), Lam, show f :: g :: u = [f, g] ++ u by rfl,
    show (a, α) :: (b, β) :: Lam a α b β n = [(a, α), (b, β)] ++ Lam a α b β n by rfl, tensorValue_append rfl, mul_comm (tensorValue (Lam a α b β n) u)]
  by_cases h1 : tensorValue (Lam a α b β n) u = 0
  · rw [h1]; ring
  have h2 := tensorValue_deg h1
  have e : totDeg ldim u = n * (a + b) := by
    have : ∀ (n : Nat) (u : SKey), u.map List.length = (Lam a α b β n).map (fun x => x.1 + 1) → totDeg ldim u = n * (a + b) := by
      intro n
      induction n with
      | zero => intro u hu; simp [Lam] at hu; subst hu; simp [totDeg]
      | succ n ih =>
        intro u hu
        match u with
        | [] => simp [Lam] at hu
        | [_] => simp [Lam] at hu
        | x :: y :: u =>
          simp only [Lam, List.map_cons, List.cons.injEq] at hu
          rw [totDeg, totDeg, ih u hu.2.2, ldim, ldim, hu.1, hu.2.1]
          push_cast
          ring
    exact this n u h2
  rw [e, sg_congr (R := R) (b := 0) (by
    obtain ⟨t, rfl⟩ : ∃ t, n = 2 * t := ⟨n / 2, by omega⟩
    rw [show (ldim f + ldim g) * (((2 * t : Nat) : Int) * (a + b)) = 2 * ((ldim f + ldim g) * (t * (a + b))) by push_cast; ring]
    omega), sg_zero, one_mul]

/-- The product of two functions, on pairs. -/
noncomputable def pairV (φ ψ : List Nat → R) : (SKey →₀ R) →ₗ[R] R :=
  Finsupp.linearCombination R fun k => match k with
    | [f, g] => φ f * ψ g
    | _ => 0

@[simp] theorem pairV_single (φ ψ : List Nat → R) (f g : List Nat) (c : R) :
    pairV φ ψ (single [f, g] c) = c * (φ f * ψ g) := by simp [pairV]

theorem evF_pairV {p q : Nat} {φ ψ : List Nat → R} (hφ : ∀ f, f ∈ Gs σ → φ f ≠ 0 → f.length = p + 1)
    (hψ : ∀ f, f ∈ Gs σ → ψ f ≠ 0 → f.length = q + 1) {m : Int} {v : SKey →₀ R}
    (hv : v ∈ Finsupp.supported R R (TS 2 m σ)) : evF [(p, φ), (q, ψ)] v = pairV φ ψ v := by
  refine fun_ext_supported (f := evF [(p, φ), (q, ψ)]) (g := pairV φ ψ) (fun k hk => ?_) hv
  obtain ⟨f, g, rfl⟩ := List.length_eq_two.1 hk.2.1
  rw [evF_single, pairV_single, one_mul, one_mul]
  simp only [tensorValue, mul_one]
  have h1 := hφ f (hk.1 f (by simp))
  have h2 := hψ g (hk.1 g (by simp))
  by_cases e1 : φ f = 0
  · simp [e1]
  · by_cases e2 : ψ g = 0
    · simp [e2]
    · rw [if_pos (h1 e1), if_pos (h2 e2)]

theorem pairV_congr {φ φ' ψ ψ' : List Nat → R} (hφ : ∀ f, f ∈ Gs σ → φ f = φ' f)
    (hψ : ∀ f, f ∈ Gs σ → ψ f = ψ' f) {m : Int} {v : SKey →₀ R}
    (hv : v ∈ Finsupp.supported R R (TS 2 m σ)) : pairV φ ψ v = pairV φ' ψ' v := by
  refine fun_ext_supported (f := pairV φ ψ) (g := pairV φ' ψ') (fun k hk => ?_) hv
  obtain ⟨f, g, rfl⟩ := List.length_eq_two.1 hk.2.1
  rw [pairV_single, pairV_single, hφ f (hk.1 f (by simp)), hψ g (hk.1 g (by simp))]

end

section
variable {p : Nat} {σ : List Nat}

theorem w_vertex {r n : Nat} (hr : 2 ≤ r) (hn : n ≠ 1) (v : Nat) : w r n 0 [v] = bv (ZMod n) (List.replicate r [v]) := by
  have hi : Inc [v] := ⟨by simp, by simp⟩
  have hs := w_supp (d := 0) hr hn hi
  have hb := wv_bottom (q := 0) hr hi (fun _ => (1 : ZMod n)) (by simp)
  have h := lin_ext_supported (R := ZMod n) (f := LinearMap.id)
    (g := (evF (List.replicate r (0, fun _ => (1 : ZMod n)))).smulRight (bv (ZMod n) (List.replicate r [v]))) (fun k hk => by
      have hk' : k = List.replicate r [v] := by
        refine List.eq_replicate_iff.2 ⟨hk.2.1, fun f hf => ?_⟩
        have h1 := (hk.1 f hf)
        rcases List.sublist_singleton.1 h1.2 with h | h
        · exact absurd h h1.1
        · exact h
      rw [LinearMap.id_apply, LinearMap.smulRight_apply, evF_single, one_mul, tensorValue_replicate 0 _ r k hk.2.1, hk']
      simp) hs
  rw [LinearMap.id_apply, LinearMap.smulRight_apply] at h
  rw [h]
  have : evF (List.replicate r (0, fun _ => (1 : ZMod n))) (w r n 0 [v]) = 1 := by
    rw [show evF (List.replicate r (0, fun _ => (1 : ZMod n))) (w r n 0 [v]) = wv r n 0 (List.replicate r (0, fun _ => 1)) [v] from rfl, hb]
    simp
  rw [this, one_smul]

theorem aug_bv (k : SKey) : aug (bv (ZMod p) k) = 1 := by simp

theorem aug_LM (hp : 2 ≤ p) (v : Nat) : aug (Lf p 0 [v]) = aug (Mf p 0 [v]) := by
  have h1 : p ≠ 1 := by omega
  have hL : ∀ n, aug (liftP p (List.replicate n [v])) = 1 := by
    intro n
    induction n with
    | zero => rw [List.replicate_zero, liftP, aug_bv]
    | succ n ih => rw [List.replicate_succ, liftP, aug_cat, ih, w_vertex le_rfl h1, aug_bv, mul_one]
  rw [Lf, w_vertex hp h1, lin_single, one_smul, hL, Mf, w_vertex le_rfl h1, lin_single, one_smul]
  rw [show List.replicate 2 [v] = [[v], [v]] from rfl, lf, EE_apply, Dg, if_pos rfl, Ev]
  simp only [Nat.zero_div, Finset.Nat.antidiagonal_zero, Finset.sum_singleton, oddPart, add_zero, mul_zero, xx, pow_zero, Module.End.one_apply]
  rw [w_vertex hp h1, shV_bv, shK_eq rfl, kap_const (x := 0) (y := 0) p (by simp) (by simp), Nat.cast_zero]
  · simp only [zero_mul, sg_zero, one_smul, aug_bv]
  all_goals
    intro f hf
    rw [List.eq_of_mem_replicate hf]
    simp [ldim]

variable {a b : Nat} {α β : List Nat → ZMod p} {d : Nat}

theorem cup_deg (hp : p ≠ 1) (hσ : Inc σ) (h : wv 2 p 0 [(a, α), (b, β)] σ ≠ 0) : σ.length = a + b + 1 := by
  by_contra hne
  apply h
  refine fun_ext_supported (f := evF [(a, α), (b, β)]) (g := 0) (fun k hk => ?_) (w2_TS hp hσ)
  rw [evF_single, one_mul, LinearMap.zero_apply]
  by_contra h'
  apply hne
  have := tensorValue_deg h'
  obtain ⟨f, g, rfl⟩ := List.length_eq_two.1 hk.2.1
  have h2 := hk.2.2
  have h3 := List.length_pos_iff.2 hσ.2
  simp only [List.map_cons, List.map_nil, List.cons.injEq, and_true] at this
  simp only [totDeg, ldim, this.1, this.2] at h2
  push_cast at h2
  omega

theorem ev_L (hp : 2 ≤ p) (hσ : Inc σ) :
    evF (Lam a α b β p) (Lf p d σ) = wv p p d (List.replicate p (a + b, wv 2 p 0 [(a, α), (b, β)])) σ := by
  have h1 : p ≠ 1 := by omega
  refine fun_ext_supported (f := (evF (Lam a α b β p)).comp (lin (liftP p))) (g := evF (List.replicate p (a + b, wv 2 p 0 [(a, α), (b, β)]))) (fun k hk => ?_)
    (w_supp (d := d) hp h1 hσ)
  rw [LinearMap.comp_apply, lin_single, one_smul, evF_single, one_mul]
  have key : ∀ (n : Nat) (k : SKey), k.length = n → (∀ f ∈ k, f ∈ Gs σ) →
      evF (Lam a α b β n) (liftP p k) = tensorValue (List.replicate n (a + b, wv 2 p 0 [(a, α), (b, β)])) k := by
    intro n
    induction n with
    | zero =>
      intro k hk _
      have : k = [] := List.length_eq_zero_iff.1 hk
      subst this
      rw [liftP, evF_single, one_mul]
      rfl
    | succ n ih =>
      intro k hk hG
      match k, hk with
      | f :: k, hk =>
        have hf := Gs_inc hσ (hG f (by simp))
        rw [liftP, evF_cat2 (Finsupp.supported_mono (fun _ h => h.2.1) (w2_TS h1 hf)), ih k (by simpa using hk) fun f hf => hG f (by simp [hf]),
          List.replicate_succ, tensorValue]
        congr 1
        split
        · rfl
        · rename_i h
          by_contra h'
          exact h (cup_deg h1 hf h')
  exact key p k hk.2.1 hk.1

/-- The value of the operation of degree `d`. -/
noncomputable abbrev Dv (p d q : Nat) (α : List Nat → ZMod p) : List Nat → ZMod p := wv p p d (List.replicate p (q, α))

theorem Dv_deg (hp : 2 ≤ p) {q : Nat} {γ : List Nat → ZMod p} (hσ : Inc σ) (h : Dv p d q γ σ ≠ 0) : ldim σ = p * q - d := by
  have := wv_degree hp hσ γ h
  rw [ldim]
  linarith

theorem ev_xx (hp : 2 ≤ p) (hp2 : p = 2 ∨ p % 2 = 1) (j k r s : Nat) {f g : List Nat} (hf : Inc f) (hg : Inc g) :
    evF (Lam a α b β p) (xx p j k r s f g) =
      sg (ZMod p) (a * b * (p.choose 2 : Nat)) * (sg (ZMod p) (k * (p * a - j)) * (Dv p j a α f * Dv p k b β g)) := by
  have w1 := TS_Ln (rot_pow_TS (by omega) r (w_supp (r := p) (n := p) (d := j) hp (by omega) hf))
  have w2 := TS_Ln (rot_pow_TS (by omega) s (w_supp (r := p) (n := p) (d := k) hp (by omega) hg))
  rw [xx, map_smul, evF_sh w1 w2, evF_rot_pow a (by omega) hp2 α r (TS_Ln (w_supp hp (by omega) hf)),
    evF_rot_pow b (by omega) hp2 β s (TS_Ln (w_supp hp (by omega) hg)), smul_eq_mul, mul_left_comm]
  congr 1
  by_cases h : Dv p j a α f = 0
  · rw [show evF (List.replicate p (a, α)) (w p p j f) = Dv p j a α f from rfl, h]; ring
  · rw [Dv_deg hp hf h]; rfl

/-- The right-hand side. -/
noncomputable def rhs (p a : Nat) (α : List Nat → ZMod p) (b : Nat) (β : List Nat → ZMod p) (d : Nat) (σ : List Nat) : ZMod p :=
  if d % 2 = 0 then ∑ z ∈ Finset.antidiagonal (d / 2), pairV (Dv p (2 * z.1) a α) (Dv p (2 * z.2) b β) (w 2 p 0 σ)
  else ∑ z ∈ Finset.antidiagonal (d / 2), ((-1) ^ a * pairV (Dv p (2 * z.1) a α) (Dv p (2 * z.2 + 1) b β) (w 2 p 0 σ) +
    pairV (Dv p (2 * z.1 + 1) a α) (Dv p (2 * z.2) b β) (w 2 p 0 σ))

theorem choose_zero {m : Nat} (hm : p = 2 * m + 1) : ((p.choose 2 : Nat) : ZMod p) = 0 := by
  rw [Nat.choose_two_right, show p * (p - 1) / 2 = p * m by
    rw [hm, Nat.add_sub_cancel, show (2 * m + 1) * (2 * m) = (2 * m + 1) * m * 2 by ring, Nat.mul_div_cancel _ (by norm_num)]]
  push_cast
  simp

theorem choose_par {m : Nat} (hm : p = 2 * m + 1) (x : Int) : sg (ZMod p) (x * (p.choose 2 : Nat)) = sg (ZMod p) (x * m) := by
  have h22 : (2 : ZMod 2) = 0 := by decide
  have e : p.choose 2 = (2 * m + 1) * m := by
    rw [Nat.choose_two_right, hm, Nat.add_sub_cancel, show (2 * m + 1) * (2 * m) = (2 * m + 1) * m * 2 by ring, Nat.mul_div_cancel _ (by norm_num)]
  rw [e]
  refine sg_par ?_
  push_cast
  linear_combination (x * m * m : ZMod 2) * h22

theorem tri_const {M : Type} [AddCommGroup M] (n : Nat) (y : M) : tri n (fun _ _ => y) = (n.choose 2) • y := by
  induction n with
  | zero => simp [tri]
  | succ n ih =>
    have : tri (n + 1) (fun _ _ => y) = tri n (fun _ _ => y) + n • y := by
      unfold tri
      rw [Finset.sum_range_succ]
      simp
    rw [this, ih, Nat.choose_succ_succ' n 1, Nat.choose_one_right, add_comm, add_smul]

theorem ev_EE (hp : 2 ≤ p) {m : Nat} (hm : p = 2 * m + 1) {f g : List Nat} (hf : Inc f) (hg : Inc g) :
    evF (Lam a α b β p) (EE p d f g) = sg (ZMod p) (a * b * m) *
      (if d % 2 = 0 then ∑ z ∈ Finset.antidiagonal (d / 2), Dv p (2 * z.1) a α f * Dv p (2 * z.2) b β g
      else ∑ z ∈ Finset.antidiagonal (d / 2), ((-1) ^ a * (Dv p (2 * z.1) a α f * Dv p (2 * z.2 + 1) b β g) +
        Dv p (2 * z.1 + 1) a α f * Dv p (2 * z.2) b β g)) := by
  have h22 : (2 : ZMod 2) = 0 := by decide
  rw [EE_apply]
  refine (Dg_map (p := p) (evF (Lam a α b β p)).toAddMonoidHom _ d).trans ?_
  have e : (fun j k r s => (evF (Lam a α b β p)).toAddMonoidHom (xx p j k r s f g)) = fun (j k _ _ : Nat) => sg (ZMod p) (a * b * m) *
      (sg (ZMod p) (k * (p * a - j)) * (Dv p j a α f * Dv p k b β g)) := by
    funext j k r s
    rw [← choose_par hm]
    exact ev_xx hp (Or.inr (by omega)) j k r s hf hg
  rw [e]
  unfold Dg
  split
  · have ho : ∀ i, oddPart p (fun (j k _ _ : Nat) => sg (ZMod p) (a * b * m) * (sg (ZMod p) (k * (p * a - j)) * (Dv p j a α f * Dv p k b β g))) i = 0 := by
      intro i
      cases i with
      | zero => rfl
      | succ i =>
        refine Finset.sum_eq_zero fun z _ => ?_
        rw [tri_const, nsmul_eq_mul, choose_zero hm, zero_mul]
    rw [Ev, ho, add_zero, Finset.mul_sum]
    refine Finset.sum_congr rfl fun z _ => ?_
    rw [sg_par (R := ZMod p) (x := ((2 * z.2 : Nat) : Int) * (p * a - (2 * z.1 : Nat))) (y := 0) (by push_cast; linear_combination (z.2 * (p * a - 2 * z.1) : ZMod 2) * h22), sg_zero, one_mul]
  · rw [Od, Finset.mul_sum]
    refine Finset.sum_congr rfl fun z _ => ?_
    rw [mul_add]
    congr 1
    · rw [sg_par (R := ZMod p) (x := ((2 * z.2 + 1 : Nat) : Int) * (p * a - (2 * z.1 : Nat))) (y := a) (by
        rw [hm]; push_cast
        linear_combination (z.2 * ((2 * m + 1) * a - 2 * z.1) + m * a - z.1 : ZMod 2) * h22), sg_nat]
    · rw [sg_par (R := ZMod p) (x := ((2 * z.2 : Nat) : Int) * (p * a - (2 * z.1 + 1 : Nat))) (y := 0) (by
        push_cast
        linear_combination (z.2 * (p * a - (2 * z.1 + 1)) : ZMod 2) * h22), sg_zero, one_mul]

theorem ev_M (hp : 2 ≤ p) {m : Nat} (hm : p = 2 * m + 1) (hσ : Inc σ) :
    evF (Lam a α b β p) (Mf p d σ) = sg (ZMod p) (a * b * m) * rhs p a α b β d σ := by
  unfold rhs
  split
  · rename_i hd
    have h := fun_ext_supported (f := (evF (Lam a α b β p)).comp (lin (lf (EE p d))))
      (g := sg (ZMod p) (a * b * m) • ∑ z ∈ Finset.antidiagonal (d / 2), pairV (Dv p (2 * z.1) a α) (Dv p (2 * z.2) b β)) (fun k hk => by
        obtain ⟨f, g, rfl⟩ := List.length_eq_two.1 hk.2.1
        have hf := Gs_inc hσ (hk.1 f (by simp))
        have hg := Gs_inc hσ (hk.1 g (by simp))
        rw [LinearMap.comp_apply, lin_single, one_smul, lf, ev_EE hp hm hf hg, if_pos hd, LinearMap.smul_apply, LinearMap.sum_apply, smul_eq_mul]
        simp only [pairV_single, one_mul]) (w2_TS (p := p) (by omega) hσ)
    rw [LinearMap.comp_apply, LinearMap.smul_apply, LinearMap.sum_apply, smul_eq_mul] at h
    exact h
  · rename_i hd
    have h := fun_ext_supported (f := (evF (Lam a α b β p)).comp (lin (lf (EE p d))))
      (g := sg (ZMod p) (a * b * m) • ∑ z ∈ Finset.antidiagonal (d / 2), ((-1 : ZMod p) ^ a • pairV (Dv p (2 * z.1) a α) (Dv p (2 * z.2 + 1) b β) +
        pairV (Dv p (2 * z.1 + 1) a α) (Dv p (2 * z.2) b β))) (fun k hk => by
        obtain ⟨f, g, rfl⟩ := List.length_eq_two.1 hk.2.1
        have hf := Gs_inc hσ (hk.1 f (by simp))
        have hg := Gs_inc hσ (hk.1 g (by simp))
        rw [LinearMap.comp_apply, lin_single, one_smul, lf, ev_EE hp hm hf hg, if_neg hd, LinearMap.smul_apply, LinearMap.sum_apply, smul_eq_mul]
        simp only [LinearMap.add_apply, LinearMap.smul_apply, smul_eq_mul, pairV_single, one_mul]) (w2_TS (p := p) (by omega) hσ)
    rw [LinearMap.comp_apply, LinearMap.smul_apply, LinearMap.sum_apply, smul_eq_mul] at h
    refine h.trans ?_
    simp only [LinearMap.add_apply, LinearMap.smul_apply, smul_eq_mul]

/-- The Cartan formula for the operations of the cyclic group. -/
theorem cartan_odd {X : OrderedComplex} (hp : 2 ≤ p) {m : Nat} (hm : p = 2 * m + 1) (hα : IsCocycle X a α) (hβ : IsCocycle X b β) (d : Nat) :
    ∃ γ : List Nat → ZMod p, ∀ σ ∈ X.simplices, Dv p d (a + b) (wv 2 p 0 [(a, α), (b, β)]) σ =
      sg (ZMod p) (a * b * m) * rhs p a α b β d σ + coboundary γ σ := by
  obtain ⟨γ, hγ⟩ := compare_value (cyc_two (p := p) (by omega)) (by simp) (fam_L hp) (fam_M hp) (aug_LM hp) d (X := X) (evF (Lam a α b β p))
    (fun σ hσ _ v hv => evF_cocycles (fun x hx => by rcases mem_Lam hx with h | h <;> rw [h] <;> assumption) hσ hv)
    (fun v hv => by
      obtain ⟨n, rfl⟩ : ∃ n, p = n + 1 := ⟨p - 1, by omega⟩
      exact evF_rot2 (by omega) hv)
  exact ⟨γ, fun σ hσ => (ev_L hp (inc_of_mem hσ)).symm.trans (by rw [hγ σ hσ, ev_M hp hm (inc_of_mem hσ)])⟩

end
end OddP
end Comch
