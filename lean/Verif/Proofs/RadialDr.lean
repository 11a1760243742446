import Verif.Proofs.Radial
import Mathlib.Algebra.Polynomial.Derivative
import Mathlib.Algebra.Polynomial.AlgebraMap

/-! Derivatives of the radial polynomials, as integer polynomials evaluated in any commutative ring. -/

namespace Verif.Proofs
open Verif.Spec Verif.Model Finset Polynomial

/-- The radial polynomial as an integer polynomial. -/
noncomputable def RP (m n : Int) : ℤ[X] := RR m n (X : ℤ[X])

section
variable {α : Type} [CommRing α]

/-- Evaluation of integer polynomials at `r`. -/
noncomputable def ev (r : α) : ℤ[X] →+* α := eval₂RingHom (Int.castRingHom α) r

@[simp] theorem ev_X (r : α) : ev r X = r := by simp [ev]

theorem ev_RP (m n : Int) (r : α) : ev r (RP m n) = RR m n r := by
  unfold RP; rw [map_RR, ev_X]

/-- The derivative of the radial polynomial at `r`. -/
noncomputable def DR (m n : Int) (r : α) : α := ev r (derivative (RP m n))

theorem DR_neg (m n : Int) (r : α) : DR (-m) n r = DR m n r := by
  unfold DR RP; rw [RR_neg]

theorem DR_abs (m n : Int) (r : α) : DR (pyAbs m) n r = DR m n r := by
  unfold DR RP; rw [RR_abs]

theorem DR_rec (m n : Int) (h : ValidOrders m n) (hlt : pyAbs m ≠ n) (r : α) :
    DR m n r = (RR (m - 1) (n - 1) r + RR (m + 1) (n - 1) r) +
      r * (DR (m - 1) (n - 1) r + DR (m + 1) (n - 1) r) - DR m (n - 2) r := by
  have e : RP m n = X * (RP (m - 1) (n - 1) + RP (m + 1) (n - 1)) - RP m (n - 2) := by
    unfold RP; exact RR_rec m n h hlt X
  unfold DR
  rw [e, derivative_sub, derivative_mul, derivative_X, derivative_add]
  simp only [map_sub, map_add, map_mul, map_one, ev_X, ev_RP]
  ring

theorem DR_zero_rec (n : Int) (h : ValidOrders 0 n) (hn : 0 < n) (r : α) :
    DR 0 n r = 2 * (RR 1 (n - 1) r + r * DR 1 (n - 1) r) - DR 0 (n - 2) r := by
  rw [DR_rec 0 n h (by simp [pyAbs]; omega), zero_sub, RR_neg, DR_neg, zero_add]; ring

theorem ev_int (r : α) (k : Int) : ev r (k : ℤ[X]) = (k : α) := map_intCast _ k

theorem DR_diag (m n : Int) (h : ValidOrders m n) (he : pyAbs m = n) (hn : 0 < n) (r : α) :
    DR m n r = (n : α) * r ^ (n - 1).toNat := by
  obtain ⟨k, rfl⟩ : ∃ k : Nat, n = k + 1 := ⟨(n - 1).toNat, by omega⟩
  unfold DR RP
  rw [RR_diag m _ h he, show ((k : Int) + 1).toNat = k + 1 by omega,
    show ((k : Int) + 1 - 1).toNat = k by omega, derivative_X_pow]
  simp

theorem DR_zero (r : α) : DR 0 0 r = 0 := by
  unfold DR RP
  rw [RR_diag 0 0 (by rw [valid_iff]; omega) rfl]; simp

theorem DR_subdiag (m n : Int) (h : ValidOrders m n) (he : pyAbs m = n - 2) (r : α) :
    DR m n r = (n : α) * (n : α) * r ^ (n - 1).toNat -
      ((n - 1 : Int) : α) * ((n - 2 : Int) : α) * r ^ (n - 3).toNat := by
  have hn : 2 ≤ n := by unfold pyAbs at he; split_ifs at he <;> omega
  obtain ⟨k, rfl⟩ : ∃ k : Nat, n = k + 2 := ⟨(n - 2).toNat, by omega⟩
  unfold DR RP
  rw [RR_subdiag m _ h he, show ((k : Int) + 2).toNat = k + 2 by omega,
    show ((k : Int) + 2 - 1).toNat = k + 1 by omega, show ((k : Int) + 2 - 2).toNat = k by omega]
  simp only [derivative_mul, derivative_X_pow, derivative_intCast, map_sub, map_mul, map_pow,
    ev_X, ev_int, zero_mul, zero_add, map_natCast]
  rcases k with _ | k
  · simp; ring
  · rw [show (((k + 1 : Nat) : Int) + 2 - 3).toNat = k by omega]
    simp; ring

/-- Closed form of the derivative. -/
theorem DRab_eq_sum (a b N : Nat) (hN : min a b < N) (r : α) :
    ev r (derivative (Rab a b (X : ℤ[X]))) =
      ∑ k ∈ range N, (coefT a b k : α) * ((a + b - 2 * k : Nat) : α) * r ^ (a + b - 2 * k - 1) := by
  rw [Rab_eq_sum a b N hN, derivative_sum, map_sum]
  refine Finset.sum_congr rfl fun k _ => ?_
  rw [derivative_mul, derivative_intCast, derivative_X_pow]
  simp only [zero_mul, zero_add, map_mul, map_pow, ev_X, map_natCast]
  rw [ev_int, mul_assoc]

theorem DR_red (m n : Int) (r : α) : DR m n r =
    ∑ k ∈ range (min ((n + m) / 2).toNat ((n - m) / 2).toNat + 1),
      (coefT ((n + m) / 2).toNat ((n - m) / 2).toNat k : α) *
        ((((n + m) / 2).toNat + ((n - m) / 2).toNat - 2 * k : Nat) : α) *
          r ^ (((n + m) / 2).toNat + ((n - m) / 2).toNat - 2 * k - 1) :=
  DRab_eq_sum _ _ _ (Nat.lt_succ_self _) r

/-- The table of `radial_derivative`. -/
theorem radialDerivTable_correct (m n : Int) (r : α) (v : α) (h : radialDerivTable m n r = some v) : v = DR m n r := by
  unfold radialDerivTable at h
  iterate 31
    refine ite_some_step h (fun hp => ?_) (fun h => ?_)
    · clear h
      casesm* _ ∨ _, _ ∧ _ <;> subst_vars <;> rw [DR_red] <;>
        simp only [Int.reduceAdd, Int.reduceSub, Int.reduceDiv, Int.reduceToNat, Int.reduceNeg] <;>
        simp [Finset.sum_range_succ, coefT, trino, Nat.choose] <;> try ring
    clear * - h
  exact absurd h (by simp)

theorem radialDerivTable_none (m n : Int) (r : α) (hv : ValidOrders m n) (hn : n ≤ 10)
    (h : radialDerivTable m n r = none) :
    (n > 7 ∧ pyAbs m = n) ∨ (n > 8 ∧ pyAbs m = n - 2) := by
  rw [valid_iff] at hv
  obtain ⟨h0, h1, h2, h3⟩ := hv
  interval_cases n <;> interval_cases m <;> first | omega | (simp [radialDerivTable] at h; done) | (simp [pyAbs]; done)

/-- `radial_derivative` computes the derivative. -/
theorem radialDerivative_correct (fuel : Nat) (m n : Int) (r : α) (hv : ValidOrders m n) (hf : n.toNat < fuel) :
    radialDerivative fuel m n r = .ok (DR m n r) := by
  induction fuel generalizing m n with
  | zero => omega
  | succ fuel ih =>
    unfold radialDerivative
    cases ht : radialDerivTable m n r with
    | some v => simp only [radialDerivTable_correct m n r v ht]
    | none =>
      simp only
      have hn := (valid_iff m n).1 hv
      by_cases c1 : n > 7 ∧ pyAbs m = n
      · rw [if_pos c1, DR_diag m n hv c1.2 (by omega)]
      · rw [if_neg c1]
        by_cases c2 : n > 8 ∧ pyAbs m = n - 2
        · rw [if_pos c2, DR_subdiag m n hv c2.2]
        · rw [if_neg c2]
          have h10 : n > 10 := by
            by_contra hc
            rcases radialDerivTable_none m n r hv (by omega) ht with h | h
            · exact c1 h
            · exact c2 h
          have c1' : pyAbs m ≠ n := fun e => c1 ⟨by omega, e⟩
          obtain ⟨v1, v2, v3⟩ := valid_down hv c1'
          have w1 := (valid_iff _ _).1 v1
          have w3 := (valid_iff _ _).1 v3
          by_cases c3 : m = 0
          · subst c3
            rw [if_pos ⟨h10, rfl⟩, radialPolynomial_correct fuel 1 (n - 1) r (by simpa using v2) (by omega),
              ih 1 (n - 1) (by simpa using v2) (by omega), ih 0 (n - 2) v3 (by omega),
              DR_zero_rec n hv (by omega)]
            rfl
          · rw [if_neg (by tauto), radialPolynomial_correct fuel _ _ r (valid_pyAbs v1) (by omega),
              radialPolynomial_correct fuel _ _ r v2 (by omega),
              ih _ _ (valid_pyAbs v1) (by omega), ih _ _ v2 (by omega), ih _ _ v3 (by omega), RR_abs, DR_abs,
              DR_rec m n hv c1']
            rfl

end
end Verif.Proofs
