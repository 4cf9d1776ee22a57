import Verif.Model.Py
import Mathlib.Data.ZMod.Basic
import Mathlib.Tactic.Ring
import Mathlib.Tactic.Linarith

/-! # Signs -/

namespace Comch

theorem pySign_congr {a b : Int} (h : a % 2 = b % 2) : pySign a = pySign b := by
  unfold pySign; rw [h]

theorem pySign_add (a b : Int) : pySign (a + b) = pySign a * pySign b := by
  unfold pySign
  split <;> split <;> split <;> first | rfl | omega

@[simp] theorem pySign_zero : pySign 0 = 1 := rfl
@[simp] theorem pySign_one : pySign 1 = -1 := rfl

theorem pySign_sub (a b : Int) : pySign (a - b) = pySign a * pySign b := by
  rw [← pySign_add]; exact pySign_congr (by omega)

theorem pySign_neg (a : Int) : pySign (-a) = pySign a := pySign_congr (by omega)

@[simp] theorem pySign_mul_self (a : Int) : pySign a * pySign a = 1 := by
  unfold pySign; split <;> rfl

theorem pySign_succ (a : Int) : pySign (a + 1) = - pySign a := by rw [pySign_add]; simp

theorem pySign_pred (a : Int) : pySign (a - 1) = - pySign a := by rw [pySign_sub]; simp

theorem pySign_natCast (n : Nat) : pySign (n : Int) = (-1) ^ n := by
  induction n with
  | zero => rfl
  | succ n ih => rw [Nat.cast_succ, pySign_succ, ih, pow_succ]; ring

theorem pySign_emod_two (a : Int) : pySign (a % 2) = pySign a := pySign_congr (by omega)

theorem pySign_eq_one_or (a : Int) : pySign a = 1 ∨ pySign a = -1 := by
  unfold pySign; split <;> simp

/-- The sign as a function on `ZMod 2`. -/
theorem pySign_eq_of_zmod {a b : Int} (h : (a : ZMod 2) = (b : ZMod 2)) : pySign a = pySign b := by
  rw [ZMod.intCast_eq_intCast_iff] at h
  exact pySign_congr (by simpa [Int.ModEq] using h)

/-- `(-1)^e` in a ring. -/
def sg (R : Type) [CommRing R] (e : Int) : R := ((pySign e : Int) : R)

section
variable {R : Type} [CommRing R]

theorem sg_add (a b : Int) : sg R (a + b) = sg R a * sg R b := by
  unfold sg; rw [pySign_add]; push_cast; rfl

@[simp] theorem sg_zero : sg R 0 = 1 := by simp [sg]
@[simp] theorem sg_one : sg R 1 = -1 := by simp [sg]

theorem sg_sub (a b : Int) : sg R (a - b) = sg R a * sg R b := by
  unfold sg; rw [pySign_sub]; push_cast; rfl

theorem sg_neg (a : Int) : sg R (-a) = sg R a := by unfold sg; rw [pySign_neg]

@[simp] theorem sg_mul_self (a : Int) : sg R a * sg R a = 1 := by
  unfold sg; rw [← Int.cast_mul, pySign_mul_self]; simp

theorem sg_succ (a : Int) : sg R (a + 1) = - sg R a := by rw [sg_add]; simp
theorem sg_pred (a : Int) : sg R (a - 1) = - sg R a := by rw [sg_sub]; simp

theorem sg_congr {a b : Int} (h : a % 2 = b % 2) : sg R a = sg R b := by
  unfold sg; rw [pySign_congr h]

theorem sg_eq_of_zmod {a b : Int} (h : (a : ZMod 2) = (b : ZMod 2)) : sg R a = sg R b := by
  unfold sg; rw [pySign_eq_of_zmod h]

theorem sg_emod_two (a : Int) : sg R (a % 2) = sg R a := by unfold sg; rw [pySign_emod_two]

theorem cast_pySign (a : Int) : ((pySign a : Int) : R) = sg R a := rfl

theorem sg_natCast (n : Nat) : sg R (n : Int) = (-1) ^ n := by
  unfold sg; rw [pySign_natCast]; push_cast; rfl

end

end Comch
