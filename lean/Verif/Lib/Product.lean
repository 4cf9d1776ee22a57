import Verif.Model.Py

/-! # `itertools.product` -/

namespace Comch

theorem mem_productRepeat {α : Type} {l : List α} {n : Nat} {b : List α} :
    b ∈ productRepeat l n ↔ b.length = n ∧ ∀ a ∈ b, a ∈ l := by
  induction n generalizing b with
  | zero =>
    simp only [productRepeat, List.mem_singleton, List.length_eq_zero_iff]
    constructor
    · rintro rfl; simp
    · exact fun h => h.1
  | succ n ih =>
    simp only [productRepeat, List.mem_flatMap, List.mem_map, ih]
    constructor
    · rintro ⟨a, ha, c, ⟨hc, h⟩, rfl⟩
      refine ⟨by simp [hc], ?_⟩
      intro x hx
      rcases List.mem_cons.1 hx with rfl | hx
      · exact ha
      · exact h x hx
    · rintro ⟨h1, h2⟩
      cases b with
      | nil => simp at h1
      | cons a b =>
        exact ⟨a, h2 a (by simp), b, ⟨by simpa using h1, fun x hx => h2 x (List.mem_cons_of_mem _ hx)⟩, rfl⟩

theorem nodup_productRepeat {α : Type} {l : List α} (hl : l.Nodup) (n : Nat) : (productRepeat l n).Nodup := by
  induction n with
  | zero => simp [productRepeat]
  | succ n ih =>
    have h : ∀ m : List α, m.Nodup → (m.flatMap fun a => (productRepeat l n).map (a :: ·)).Nodup := by
      intro m hm
      induction m with
      | nil => simp
      | cons a m ih2 =>
        rw [List.nodup_cons] at hm
        rw [List.flatMap_cons, List.nodup_append]
        refine ⟨List.Pairwise.map _ (fun x y hxy h => hxy (by simpa using h)) ih, ih2 hm.2, ?_⟩
        intro x hx y hy e
        subst e
        obtain ⟨u, _, rfl⟩ := List.mem_map.1 hx
        obtain ⟨b, hb, h⟩ := List.mem_flatMap.1 hy
        obtain ⟨v, _, h⟩ := List.mem_map.1 h
        simp only [List.cons.injEq] at h
        exact hm.1 (h.1 ▸ hb)
    exact h l hl

end Comch
