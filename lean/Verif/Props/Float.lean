import Verif.Proofs.FloatDoubles
import Verif.Proofs.FloatExact
import Verif.Proofs.FloatDr
import Verif.Props.Radial
import Mathlib.Analysis.Real.Pi.Bounds

/-!
# C59–C61: evaluation in floating-point arithmetic

`radialFl F` and `polynomialFl F` are the methods `radial` and `polynomial_value` in the arithmetic `F`, where each operation rounds; `Accurate F u p`
says how well. `afterCalls h` is the state of the coefficient tables after any history of calls (they hold integers, so that the arithmetic has no effect
on them). `growth n` is 1, 1, 3, 7, 17, 41, 99, ..., about `2.41^n / 2`. The exponent of the doubles is not bounded above in the model, but the theorems bound
all results far below the greatest double.
-/

namespace Verif.Props
open Verif.Model Verif.Spec Verif.Proofs

/-- C59. In an arithmetic with the unit roundoff `u`, `radial(r)` differs from the radial polynomial at `r` by at most
`((1+u)^(4n+p+5) - 1) growth n`, by both paths. -/
theorem radial_float_error (F : FloatArith) (u : ℝ) (p : ℕ) (hF : Accurate F u p) (h : List Call) (fuel : Nat) (exact : Bool) (m n : Int)
    (hv : ValidOrders m n) (hf : n.toNat + 1 < fuel) (hc : exact = true → n ≤ 40) (r : Fl F) (h0 : 0 ≤ r.val) (h1 : r.val ≤ 1) :
    ∃ y, (radialFl F fuel exact m n r (afterCalls h)).1 = .ok y ∧
      |y.val - Spec.radial m n r.val| ≤ ((1 + u) ^ (4 * n.toNat + p + 5) - 1) * growth n.toNat := by
  obtain ⟨y, hy, e⟩ := radialFl_ok hF fuel exact m n r h0 h1 _ (afterCalls_good h) hv hf (fun c => by have := hc c.1; omega)
  exact ⟨y, hy, by rw [spec_radial_eq m n _ hv]; exact e.2⟩

/-- C59. The same for `polynomial_value(r, θ)`. -/
theorem polynomial_float_error (F : FloatArith) (u : ℝ) (p : ℕ) (hF : Accurate F u p) (h : List Call) (fuel : Nat) (exact : Bool) (m n : Int)
    (hv : ValidOrders m n) (hf : n.toNat + 1 < fuel) (hc : exact = true → n ≤ 40) (r t : Fl F) (h0 : 0 ≤ r.val) (h1 : r.val ≤ 1) :
    ∃ y, (polynomialFl F fuel exact m n r t (afterCalls h)).1 = .ok y ∧
      |y.val - zernike m n r.val t.val| ≤
        ((1 + u) ^ (4 * n.toNat + 2 * p + 11) - 1) * (Spec.norm m n * (max |(m : ℝ)| 1 * max |t.val| 1) * growth n.toNat) := by
  obtain ⟨y, hy, e⟩ := polynomialFl_ok hF fuel exact m n r t h0 h1 _ (afterCalls_good h) hv hf (fun c => by have := hc c.1; omega)
  exact ⟨y, hy, e.2⟩

/-- The model in exact arithmetic is the one of C15, and it satisfies the assumption with `u = 0`: then there is no error. -/
noncomputable def exactArith : FloatArith := ⟨fun x => x, fun x k => x ^ k, Real.sqrt, Real.cos, Real.sin⟩

theorem exactArith_accurate : Accurate exactArith 0 0 := by
  constructor <;> simp [exactArith]

example (h : List Call) : ∃ y, (radialFl exactArith 56 false (-2) 38 ⟨1 / 2⟩ (afterCalls h)).1 = .ok y ∧ y.val = Spec.radial (-2) 38 (1 / 2) := by
  obtain ⟨y, hy, e⟩ := radial_float_error exactArith 0 0 exactArith_accurate h 56 false (-2) 38 (by decide) (by decide) (by simp) ⟨1 / 2⟩
    (by norm_num) (by norm_num)
  refine ⟨y, hy, ?_⟩
  simp only [add_zero, one_pow, sub_self, zero_mul] at e
  have := abs_nonpos_iff.1 e
  linarith

/-- The bound is monotone in the order. -/
theorem error_mono {u : ℝ} (hu : 0 ≤ u) {p N : ℕ} {n : Int} (h : n.toNat ≤ N) :
    ((1 + u) ^ (4 * n.toNat + p + 5) - 1) * (growth n.toNat : ℝ) ≤ ((1 + u) ^ (4 * N + p + 5) - 1) * growth N := by
  have h1 : (growth n.toNat : ℝ) ≤ growth N := by exact_mod_cast growth_mono h
  have h2 := pow_u_mono hu (show 4 * n.toNat + p + 5 ≤ 4 * N + p + 5 by omega)
  have h3 := one_le_pow_u hu (4 * n.toNat + p + 5)
  exact mul_le_mul (by linarith) h1 (by positivity) (by linarith)

theorem growth_10 : growth 10 = 3363 := by decide +kernel
theorem growth_20 : growth 20 = 22619537 := by decide +kernel
theorem growth_30 : growth 30 = 152139002499 := by decide +kernel

/-- C59. In double precision: below 2·10⁻¹¹ up to the order 10, 3·10⁻⁷ up to the order 20, 3·10⁻³ up to the order 30. -/
theorem radial_double_error (h : List Call) (fuel : Nat) (exact : Bool) (m n : Int) (hv : ValidOrders m n) (hf : n.toNat + 1 < fuel) (r : Fl doubles)
    (h0 : 0 ≤ r.val) (h1 : r.val ≤ 1) (hn : n ≤ 30) :
    ∃ y, (radialFl doubles fuel exact m n r (afterCalls h)).1 = .ok y ∧
      (n ≤ 10 → |y.val - Spec.radial m n r.val| < 2 / 10 ^ 11) ∧
      (n ≤ 20 → |y.val - Spec.radial m n r.val| < 3 / 10 ^ 7) ∧
      |y.val - Spec.radial m n r.val| < 3 / 10 ^ 3 := by
  obtain ⟨y, hy, e⟩ := radial_float_error doubles _ _ doubles_accurate h fuel exact m n hv hf (fun _ => by omega) r h0 h1
  have hu := doubles_accurate.unit
  refine ⟨y, hy, fun c => ?_, fun c => ?_, ?_⟩
  · refine (e.trans (error_mono hu (show n.toNat ≤ 10 by omega))).trans_lt ?_
    rw [growth_10]; norm_num
  · refine (e.trans (error_mono hu (show n.toNat ≤ 20 by omega))).trans_lt ?_
    rw [growth_20]; norm_num
  · refine (e.trans (error_mono hu (show n.toNat ≤ 30 by omega))).trans_lt ?_
    rw [growth_30]; norm_num

example (h : List Call) : ∃ y, (radialFl doubles 56 false (-4) 10 ⟨1 / 2⟩ (afterCalls h)).1 = .ok y ∧ |y.val - Spec.radial (-4) 10 (1 / 2)| < 2 / 10 ^ 11 := by
  obtain ⟨y, hy, e, _⟩ := radial_double_error h 56 false (-4) 10 (by decide) (by decide) ⟨1 / 2⟩ (by norm_num) (by norm_num) (by norm_num)
  exact ⟨y, hy, e (by norm_num)⟩

/-- C59. In double precision `polynomial_value` is within 10⁻⁸ of the Zernike polynomial, up to the order 10, for `|θ| ≤ 2π`. -/
theorem polynomial_double_error (h : List Call) (fuel : Nat) (exact : Bool) (m n : Int) (hv : ValidOrders m n) (hf : n.toNat + 1 < fuel)
    (r t : Fl doubles) (h0 : 0 ≤ r.val) (h1 : r.val ≤ 1) (ht : |t.val| ≤ 2 * Real.pi) (hn : n ≤ 10) :
    ∃ y, (polynomialFl doubles fuel exact m n r t (afterCalls h)).1 = .ok y ∧ |y.val - zernike m n r.val t.val| < 1 / 10 ^ 8 := by
  obtain ⟨y, hy, e⟩ := polynomial_float_error doubles _ _ doubles_accurate h fuel exact m n hv hf (fun _ => by omega) r t h0 h1
  refine ⟨y, hy, e.trans_lt ?_⟩
  have hv' := (valid_iff m n).1 hv
  have hu := doubles_accurate.unit
  have a1 : (growth n.toNat : ℝ) ≤ 3363 := by
    have := growth_mono (show n.toNat ≤ 10 by omega)
    rw [growth_10] at this
    exact_mod_cast this
  have a2 := pow_u_mono hu (show 4 * n.toNat + 2 * 1 + 11 ≤ 53 by omega)
  have a3 := one_le_pow_u hu (4 * n.toNat + 2 * 1 + 11)
  have a4 : Spec.norm m n ≤ 5 := by
    unfold Spec.norm
    have hn' : (n : ℝ) ≤ 10 := by exact_mod_cast hn
    have hn'' : (0 : ℝ) ≤ n := by exact_mod_cast hv'.1
    rw [Real.sqrt_le_left (by norm_num)]
    split_ifs <;> linarith
  have a5 : max |(m : ℝ)| 1 ≤ 10 := by
    refine max_le ?_ (by norm_num)
    have : |m| ≤ 10 := by rw [abs_le]; omega
    exact_mod_cast this
  have a6 : max |t.val| 1 ≤ 6.3 := by
    have := Real.pi_lt_d2
    exact max_le (by norm_num at *; linarith) (by norm_num)
  have b1 : (1 : ℝ) ≤ max |(m : ℝ)| 1 := le_max_right _ _
  have b2 : (1 : ℝ) ≤ max |t.val| 1 := le_max_right _ _
  have b3 := norm_one m n hv'.1
  have b4 := growth_one n.toNat
  have c1 : max |(m : ℝ)| 1 * max |t.val| 1 ≤ 10 * 6.3 := mul_le_mul a5 a6 (by linarith) (by norm_num)
  have c2 : Spec.norm m n * (max |(m : ℝ)| 1 * max |t.val| 1) ≤ 5 * (10 * 6.3) := mul_le_mul a4 c1 (by nlinarith) (by norm_num)
  have c3 : Spec.norm m n * (max |(m : ℝ)| 1 * max |t.val| 1) * growth n.toNat ≤ 5 * (10 * 6.3) * 3363 :=
    mul_le_mul c2 a1 (by linarith) (by norm_num)
  calc _ ≤ ((1 + (2⁻¹ : ℝ) ^ 53) ^ 53 - 1) * (5 * (10 * 6.3) * 3363) := mul_le_mul (by linarith) c3 (by
        have : (0 : ℝ) ≤ max |(m : ℝ)| 1 * max |t.val| 1 := by nlinarith
        exact mul_nonneg (mul_nonneg (by linarith) this) (by linarith)) (by norm_num)
    _ < _ := by norm_num

/-- C59. The default path and the formula with factorials agree to within twice the bound, whatever the histories. -/
theorem paths_agree_float (F : FloatArith) (u : ℝ) (p : ℕ) (hF : Accurate F u p) (h h' : List Call) (fuel : Nat) (m n : Int) (hv : ValidOrders m n)
    (hf : n.toNat + 1 < fuel) (hc : n ≤ 40) (r : Fl F) (h0 : 0 ≤ r.val) (h1 : r.val ≤ 1) :
    ∃ y y', (radialFl F fuel false m n r (afterCalls h)).1 = .ok y ∧ (radialFl F fuel true m n r (afterCalls h')).1 = .ok y' ∧
      |y.val - y'.val| ≤ 2 * (((1 + u) ^ (4 * n.toNat + p + 5) - 1) * growth n.toNat) := by
  obtain ⟨y, hy, e⟩ := radial_float_error F u p hF h fuel false m n hv hf (fun c => by cases c) r h0 h1
  obtain ⟨y', hy', e'⟩ := radial_float_error F u p hF h' fuel true m n hv hf (fun _ => hc) r h0 h1
  refine ⟨y, y', hy, hy', ?_⟩
  have := abs_sub_le y.val (Spec.radial m n r.val) y'.val
  rw [abs_sub_comm (Spec.radial m n r.val)] at this
  linarith

/-- C59. In double precision the values of `radial` exceed 1 by less than 2·10⁻¹¹ at most, up to the order 10. -/
theorem radial_double_bounded (h : List Call) (fuel : Nat) (exact : Bool) (m n : Int) (hv : ValidOrders m n) (hf : n.toNat + 1 < fuel) (r : Fl doubles)
    (h0 : 0 ≤ r.val) (h1 : r.val ≤ 1) (hn : n ≤ 10) :
    ∃ y, (radialFl doubles fuel exact m n r (afterCalls h)).1 = .ok y ∧ |y.val| < 1 + 2 / 10 ^ 11 := by
  obtain ⟨y, hy, e, _⟩ := radial_double_error h fuel exact m n hv hf r h0 h1 (by omega)
  refine ⟨y, hy, ?_⟩
  have e := e hn
  have b : |Spec.radial m n r.val| ≤ 1 := by rw [spec_radial_eq m n _ hv]; exact RR_abs_le m n _ h0 h1
  have := abs_add_le (y.val - Spec.radial m n r.val) (Spec.radial m n r.val)
  rw [sub_add_cancel] at this
  linarith

/-! ## C60 -/

/-- C60. At the border `radial(1.0)` is exactly `1.0`, and at the centre `radial(0.0)` is exactly the value of the polynomial, in every arithmetic that is
exact on the integers below 2^53, by both paths, for every order (`n < 2^52` only excludes orders beyond any memory). -/
theorem radial_exact_ends (F : FloatArith) (hF : ExactOnIntegers F) (h : List Call) (fuel : Nat) (exact : Bool) (m n : Int) (hv : ValidOrders m n)
    (hf : n.toNat + 1 < fuel) (hc : exact = true → n ≤ 40) (hN : n < 2 ^ 52) :
    (∃ y, (radialFl F fuel exact m n ⟨1⟩ (afterCalls h)).1 = .ok y ∧ y.val = 1) ∧
    (∃ y, (radialFl F fuel exact m n ⟨0⟩ (afterCalls h)).1 = .ok y ∧ y.val = Spec.radial m n 0) := by
  have key : ∀ (r : Fl F) (b : ℤ), End r b → ∃ y, (radialFl F fuel exact m n r (afterCalls h)).1 = .ok y ∧ y.val = (RR m n b : ℤ) := by
    intro r b hb
    unfold radialFl radialValue
    cases exact
    · simp only [Bool.not_false, if_true]
      split_ifs
      · exact radialPolynomial_ex hF fuel m n r b hb hv (by omega) hN
      · obtain ⟨_, h2, h3⟩ := (radialPolynomialCoeffs_ex hF fuel m n r b hb hN).app _ (afterCalls_good h)
        obtain ⟨v, hv'⟩ := h3 ⟨hv, hf⟩
        exact ⟨v, hv', h2 v hv' hv⟩
    · simp only [Bool.not_true, Bool.false_eq_true, if_false]
      have := hc rfl
      rw [show maxRadialOrderCoeffs = 40 from rfl, if_neg (by omega)]
      exact radialPolynomialEq_ex hF m n r b hb hv this
  constructor
  · obtain ⟨y, hy, e⟩ := key ⟨1⟩ 1 ⟨Or.inr rfl, by simp⟩
    refine ⟨y, hy, ?_⟩
    rw [e]
    unfold RR
    rw [Rab_at_one]; simp
  · obtain ⟨y, hy, e⟩ := key ⟨0⟩ 0 ⟨Or.inl rfl, by simp⟩
    refine ⟨y, hy, ?_⟩
    have e2 := map_RR (Int.castRingHom ℝ) m n 0
    simp only [eq_intCast, Int.cast_zero] at e2
    rw [e, e2, spec_radial_eq m n 0 hv]

/-- C60. Double precision is such an arithmetic. -/
theorem radial_double_ends (h : List Call) (fuel : Nat) (exact : Bool) (m n : Int) (hv : ValidOrders m n) (hf : n.toNat + 1 < fuel)
    (hc : exact = true → n ≤ 40) (hN : n < 2 ^ 52) :
    (∃ y, (radialFl doubles fuel exact m n ⟨1⟩ (afterCalls h)).1 = .ok y ∧ y.val = 1) ∧
    (∃ y, (radialFl doubles fuel exact m n ⟨0⟩ (afterCalls h)).1 = .ok y ∧ y.val = Spec.radial m n 0) :=
  radial_exact_ends doubles doubles_exact h fuel exact m n hv hf hc hN

example (h : List Call) : ∃ y, (radialFl doubles 56 false 0 50 ⟨1⟩ (afterCalls h)).1 = .ok y ∧ y.val = 1 :=
  (radial_double_ends h 56 false 0 50 (by decide) (by decide) (by simp) (by norm_num)).1

/-! ## C61 -/

/-- C61. In an arithmetic with the unit roundoff `u`, `radial_dr(r)` differs from the derivative of the radial polynomial at `r` by at most
`((1+u)^(5n+p+8) - 1) n growth n`, for the orders with a correct derivative (C18). -/
theorem radial_dr_float_error (F : FloatArith) (u : ℝ) (p : ℕ) (hF : Accurate F u p) (h : List Call) (fuel : Nat) (exact : Bool) (m n : Int)
    (hv : ValidOrders m n) (hf : n.toNat + 1 < fuel) (hc : if exact then n ≤ 38 else n - |m| ≤ 38) (r : Fl F) (h0 : 0 ≤ r.val) (h1 : r.val ≤ 1) :
    ∃ y v, (radialDrFl F fuel exact m n r (afterCalls h)).1 = .ok y ∧ HasDerivAt (Spec.radial m n) v r.val ∧
      |y.val - v| ≤ ((1 + u) ^ (5 * n.toNat + p + 8) - 1) * (n.toNat * growth n.toNat) := by
  have hc' : if exact then n ≤ 38 else n - pyAbs m ≤ 38 := by
    split_ifs at hc ⊢
    · exact hc
    · rw [Int.abs_eq_natAbs] at hc
      unfold pyAbs; split_ifs <;> omega
  obtain ⟨y, hy, e⟩ := radialDrFl_ok hF fuel exact m n r h0 h1 _ (afterCalls_good h) hv hf hc'
  refine ⟨y, _, hy, ?_, e.2⟩
  rw [show Spec.radial m n = fun y => RR m n y from funext fun y => spec_radial_eq m n y hv]
  exact DR_hasDerivAt m n r.val

theorem errorD_mono {u : ℝ} (hu : 0 ≤ u) {p N : ℕ} {n : Int} (h : n.toNat ≤ N) :
    ((1 + u) ^ (5 * n.toNat + p + 8) - 1) * ((n.toNat : ℝ) * (growth n.toNat : ℝ)) ≤ ((1 + u) ^ (5 * N + p + 8) - 1) * (N * growth N) := by
  have h1 : (n.toNat : ℝ) * (growth n.toNat : ℝ) ≤ N * growth N := by exact_mod_cast Nat.mul_le_mul h (growth_mono h)
  have h2 := pow_u_mono hu (show 5 * n.toNat + p + 8 ≤ 5 * N + p + 8 by omega)
  have h3 := one_le_pow_u hu (5 * n.toNat + p + 8)
  exact mul_le_mul (by linarith) h1 (by positivity) (by linarith)

/-- C61. In double precision: below 3·10⁻¹⁰ up to the order 10, 6·10⁻⁶ up to the order 20. -/
theorem radial_dr_double_error (h : List Call) (fuel : Nat) (exact : Bool) (m n : Int) (hv : ValidOrders m n) (hf : n.toNat + 1 < fuel) (r : Fl doubles)
    (h0 : 0 ≤ r.val) (h1 : r.val ≤ 1) (hn : n ≤ 20) :
    ∃ y v, (radialDrFl doubles fuel exact m n r (afterCalls h)).1 = .ok y ∧ HasDerivAt (Spec.radial m n) v r.val ∧
      (n ≤ 10 → |y.val - v| < 3 / 10 ^ 10) ∧ |y.val - v| < 6 / 10 ^ 6 := by
  have hm := abs_nonneg m
  obtain ⟨y, v, hy, hd, e⟩ := radial_dr_float_error doubles _ _ doubles_accurate h fuel exact m n hv hf (by split_ifs <;> omega) r h0 h1
  have hu := doubles_accurate.unit
  refine ⟨y, v, hy, hd, fun c => ?_, ?_⟩
  · refine (e.trans (errorD_mono hu (show n.toNat ≤ 10 by omega))).trans_lt ?_
    rw [growth_10]; norm_num
  · refine (e.trans (errorD_mono hu (show n.toNat ≤ 20 by omega))).trans_lt ?_
    rw [growth_20]; norm_num

example (h : List Call) : ∃ y v, (radialDrFl doubles 56 true (-4) 10 ⟨1 / 2⟩ (afterCalls h)).1 = .ok y ∧ HasDerivAt (Spec.radial (-4) 10) v (1 / 2) ∧
    |y.val - v| < 3 / 10 ^ 10 := by
  obtain ⟨y, v, hy, hd, e, _⟩ := radial_dr_double_error h 56 true (-4) 10 (by decide) (by decide) ⟨1 / 2⟩ (by norm_num) (by norm_num) (by norm_num)
  exact ⟨y, v, hy, hd, e (by norm_num)⟩

end Verif.Props
