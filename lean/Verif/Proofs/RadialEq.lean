import Verif.Proofs.RadialDr
import Mathlib.Data.Real.Basic
import Mathlib.Tactic.Linarith
import Mathlib.Algebra.CharZero.Defs

/-! The exact-equation functions and the factorial specification. -/

namespace Verif.Proofs
open Verif.Spec Verif.Model Finset Nat

theorem trino_fact (k x y : Nat) : trino k x y * (k ! * x ! * y !) = (k + x + y)! := by
  unfold trino
  have h1 := Nat.add_choose_mul_factorial_mul_factorial k (x + y)
  have h2 := Nat.add_choose_mul_factorial_mul_factorial x y
  rw [show k + (x + y) = k + x + y by ring] at h1
  have c1 : (k + x + y).choose k = (k + x + y).choose (x + y) := by
    rw [show k + x + y = k + (x + y) by ring]; exact Nat.choose_symm_add
  have c2 : (x + y).choose x = (x + y).choose y := Nat.choose_symm_add
  rw [c1, c2, ← h1, ← h2]; ring

section
variable {K : Type} [CommRing K] [Algebra ℚ K]

theorem quot_eq {F : Type} [Field F] [CharZero F] (k x y : Nat) :
    (((k + x + y)! : Nat) : F) / ((k ! * x ! * y ! : Nat) : F) = (trino k x y : F) := by
  rw [← trino_fact, Nat.cast_mul, mul_div_cancel_right₀]
  exact Nat.cast_ne_zero.2 (by positivity)

theorem scal_quot (k x y : Nat) : (scal (((((k + x + y)! : Nat) : Int) : ℚ) /
    (((((k ! : Nat) : Int) * ((x ! : Nat) : Int) * ((y ! : Nat) : Int)) : Int) : ℚ)) : K) = (trino k x y : K) := by
  have q := quot_eq (F := ℚ) k x y
  push_cast at q ⊢
  rw [q]; simp [scal, OfRat.ofRat]

/-- `a` and `b` for valid orders. -/
theorem ab_of_valid {m n : Int} (h : ValidOrders m n) : ∃ a b : Nat, n = a + b ∧ m = a - b ∧
    (n + m) / 2 = a ∧ (n - m) / 2 = b ∧ (n - pyAbs m) / 2 = (min a b : Nat) := by
  rw [valid_iff] at h
  refine ⟨((n + m) / 2).toNat, ((n - m) / 2).toNat, ?_, ?_, ?_, ?_, ?_⟩ <;> try omega
  unfold pyAbs; split_ifs <;> omega

theorem pyFactorial_cast (i : Int) (k : Nat) (h : i = k) : pyFactorial i = .ok ((k ! : Nat) : Int) := by
  subst h; unfold pyFactorial; rw [if_neg (by omega)]; simp

theorem radialEqLoop_eq (m n : Int) (r : K) (a b : Nat) (hn : n = a + b) (hm : m = a - b) (j k : Nat) (value : K)
    (hk : k + j ≤ min a b + 1) :
    radialEqLoop m n r j k value =
      .ok (value + ∑ i ∈ range j, (coefT a b (k + i) : K) * r ^ (a + b - 2 * (k + i))) := by
  induction j generalizing k value with
  | zero => simp [radialEqLoop]
  | succ j ih =>
    unfold radialEqLoop
    have e1 : (n + m) / 2 = a := by omega
    have e2 : (n - m) / 2 = b := by omega
    have hka : k ≤ a ∧ k ≤ b := by omega
    simp only [e1, e2]
    rw [pyFactorial_cast (n - k) (k + (a - k) + (b - k)) (by omega), pyFactorial_cast k k rfl,
      pyFactorial_cast (a - k) (a - k) (by omega), pyFactorial_cast (b - k) (b - k) (by omega)]
    have := ih (k + 1) (value + (coefT a b k : K) * r ^ (a + b - 2 * k)) (by omega)
    simp only [Except.bind, bind]
    rw [Finset.sum_range_succ']
    have e3 : (((-1) ^ (k : Int).toNat : Int) : K) * (scal (((((k + (a - k) + (b - k))! : Nat) : Int) : ℚ) /
        (((((k ! : Nat) : Int) * (((a - k)! : Nat) : Int) * (((b - k)! : Nat) : Int)) : Int) : ℚ)) *
        r ^ (n - 2 * (k : Int)).toNat) = (coefT a b k : K) * r ^ (a + b - 2 * k) := by
      have e4 : (n - 2 * (k : Int)).toNat = a + b - 2 * k := by omega
      rw [e4]
      simp only [coefT, hka, and_self, if_true]
      rw [scal_quot]
      push_cast
      simp; ring
    rw [e3]
    push_cast at this ⊢
    rw [this]
    congr 1
    rw [add_assoc]; congr 1
    rw [add_comm]
    congr 1
    refine Finset.sum_congr rfl fun i _ => ?_
    rw [show k + (i + 1) = k + 1 + i by ring]

theorem radialPolynomialEq_correct (m n : Int) (r : K) (h : ValidOrders m n) :
    radialPolynomialEq m n r = .ok (RR m n r) := by
  obtain ⟨a, b, hn, hm, e1, e2, e3⟩ := ab_of_valid h
  unfold radialPolynomialEq RR
  rw [e1, e2, e3, Rab_red]
  have := radialEqLoop_eq m n r a b hn hm (min a b + 1) 0 0 (by omega)
  simp only [Int.toNat_natCast, Nat.cast_zero, zero_add] at this ⊢
  rw [← this]
  congr 1

theorem radialDerivEqLoop_eq (m n : Int) (r : K) (a b : Nat) (hn : n = a + b) (hm : m = a - b) (j k : Nat) (value : K)
    (hk : k + j ≤ min a b + 1) :
    radialDerivEqLoop m n r j k value =
      .ok (value + ∑ i ∈ range j, (coefT a b (k + i) : K) * ((a + b - 2 * (k + i) : Nat) : K) *
        r ^ (a + b - 2 * (k + i) - 1)) := by
  induction j generalizing k value with
  | zero => simp [radialDerivEqLoop]
  | succ j ih =>
    unfold radialDerivEqLoop
    have e1 : (n + m) / 2 = a := by omega
    have e2 : (n - m) / 2 = b := by omega
    have hka : k ≤ a ∧ k ≤ b := by omega
    simp only [e1, e2]
    rw [Finset.sum_range_succ']
    have e5 : ∑ i ∈ range j, (coefT a b (k + (i + 1)) : K) * ((a + b - 2 * (k + (i + 1)) : Nat) : K) *
          r ^ (a + b - 2 * (k + (i + 1)) - 1) =
        ∑ i ∈ range j, (coefT a b (k + 1 + i) : K) * ((a + b - 2 * (k + 1 + i) : Nat) : K) *
          r ^ (a + b - 2 * (k + 1 + i) - 1) :=
      Finset.sum_congr rfl fun i _ => by rw [show k + (i + 1) = k + 1 + i by ring]
    rw [e5, Nat.add_zero k]
    split_ifs with hpos
    · rw [pyFactorial_cast (n - k) (k + (a - k) + (b - k)) (by omega), pyFactorial_cast k k rfl,
        pyFactorial_cast (a - k) (a - k) (by omega), pyFactorial_cast (b - k) (b - k) (by omega)]
      have := ih (k + 1) (value + (coefT a b k : K) * ((a + b - 2 * k : Nat) : K) * r ^ (a + b - 2 * k - 1)) (by omega)
      simp only [Except.bind, bind]
      have e3 : (((-1) ^ (k : Int).toNat : Int) : K) * (scal (((((k + (a - k) + (b - k))! : Nat) : Int) : ℚ) /
          (((((k ! : Nat) : Int) * (((a - k)! : Nat) : Int) * (((b - k)! : Nat) : Int)) : Int) : ℚ)) *
          r ^ (n - 2 * (k : Int) - 1).toNat) * ((n - 2 * (k : Int) : Int) : K) =
          (coefT a b k : K) * ((a + b - 2 * k : Nat) : K) * r ^ (a + b - 2 * k - 1) := by
        have e4 : (n - 2 * (k : Int) - 1).toNat = a + b - 2 * k - 1 := by omega
        have e6 : n - 2 * (k : Int) = ((a + b - 2 * k : Nat) : Int) := by omega
        rw [e4, e6]
        simp only [coefT, hka, and_self, if_true]
        rw [scal_quot]
        push_cast
        simp; ring
      rw [e3]
      push_cast at this ⊢
      rw [this]
      congr 1
      ring
    · have := ih (k + 1) value (by omega)
      push_cast at this
      rw [this]
      have e0 : a + b - 2 * k = 0 := by omega
      rw [e0]; simp

theorem radialDerivativeEq_correct (m n : Int) (r : K) (h : ValidOrders m n) :
    radialDerivativeEq m n r = .ok (DR m n r) := by
  obtain ⟨a, b, hn, hm, e1, e2, e3⟩ := ab_of_valid h
  unfold radialDerivativeEq
  split_ifs with hp
  · rw [e3, DR_red, e1, e2]
    have := radialDerivEqLoop_eq m n r a b hn hm (min a b + 1) 0 0 (by omega)
    simp only [Int.toNat_natCast, Nat.cast_zero, zero_add] at this ⊢
    rw [← this]
    congr 1
  · obtain ⟨rfl, rfl⟩ : n = 0 ∧ m = 0 := by rw [valid_iff] at h; omega
    rw [DR_zero]

end

/-- The factorial specification is the radial polynomial. -/
theorem spec_radial_eq (m n : Int) (r : ℝ) (h : ValidOrders m n) : Spec.radial m n r = RR m n r := by
  obtain ⟨a, b, hn, hm, e1, e2, e3⟩ := ab_of_valid h
  unfold RR Spec.radial
  rw [e1, e2, Rab_red, Int.toNat_natCast, Int.toNat_natCast]
  have f1 : n.toNat = a + b := by omega
  have f2 : (n.toNat - m.natAbs) / 2 = min a b := by omega
  have f3 : (n.toNat + m.natAbs) / 2 = max a b := by omega
  rw [f2, f3, f1]
  refine Finset.sum_congr rfl fun k hk => ?_
  rw [Finset.mem_range] at hk
  have hka : k ≤ a ∧ k ≤ b := by omega
  have q := quot_eq (F := ℝ) k (a - k) (b - k)
  simp only [coefT, hka, and_self, if_true]
  push_cast at q ⊢
  rw [← q, show k + (a - k) + (b - k) = a + b - k by omega]
  rcases le_total a b with hab | hab
  · rw [min_eq_left hab, max_eq_right hab]; ring
  · rw [min_eq_right hab, max_eq_left hab]; ring

end Verif.Proofs
