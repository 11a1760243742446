import Verif.Proofs.PsfConverge
import Verif.Proofs.Airy
import Mathlib.MeasureTheory.Integral.IntervalIntegral.Periodic
import Mathlib.MeasureTheory.Integral.IntervalIntegral.FundThmCalculus
import Mathlib.MeasureTheory.Integral.Prod

/-! # The diffraction integral of a uniform phase is the Airy pattern -/

namespace Verif.Proofs
open Verif.Model Verif.Spec MeasureTheory

theorem swap_intervals {E : Type*} [NormedAddCommGroup E] [NormedSpace ℝ E] (f : ℝ → ℝ → E) (hf : Continuous (Function.uncurry f)) (a b c d : ℝ) (hab : a ≤ b) (hcd : c ≤ d) :
    ∫ x in a..b, ∫ y in c..d, f x y = ∫ y in c..d, ∫ x in a..b, f x y := by
  simp only [intervalIntegral.integral_of_le hab, intervalIntegral.integral_of_le hcd]
  apply integral_integral_swap
  rw [Measure.prod_restrict]
  refine (hf.continuousOn.integrableOn_compact (isCompact_Icc.prod isCompact_Icc : IsCompact (Set.Icc a b ×ˢ Set.Icc c d))).mono_set ?_
  exact Set.prod_mono Set.Ioc_subset_Icc_self Set.Ioc_subset_Icc_self

theorem cos_integral (ρ : ℝ) (hρ : ρ ≠ 0) :
    ∫ τ in (0 : ℝ)..Real.pi, ∫ p in (0 : ℝ)..1, p * Real.cos (p * (ρ * Real.sin τ)) = Real.pi * (besselJ1 ρ / ρ) := by
  have hpi := Real.pi_pos
  have e : ∀ τ p : ℝ, p * Real.cos (p * (ρ * Real.sin τ)) =
      (Real.sin τ * Real.sin (p * (ρ * Real.sin τ)) / ρ + p * Real.sin τ ^ 2 * Real.cos (p * (ρ * Real.sin τ))) +
      (-Real.sin τ * Real.sin (p * (ρ * Real.sin τ)) / ρ + p * Real.cos τ ^ 2 * Real.cos (p * (ρ * Real.sin τ))) := by
    intro τ p
    have := Real.sin_sq_add_cos_sq τ
    linear_combination (-(p * Real.cos (p * (ρ * Real.sin τ)))) * this
  simp only [e]
  have c1 : Continuous (Function.uncurry fun τ p : ℝ =>
      Real.sin τ * Real.sin (p * (ρ * Real.sin τ)) / ρ + p * Real.sin τ ^ 2 * Real.cos (p * (ρ * Real.sin τ))) := by
    unfold Function.uncurry; fun_prop
  have c2 : Continuous (Function.uncurry fun τ p : ℝ =>
      -Real.sin τ * Real.sin (p * (ρ * Real.sin τ)) / ρ + p * Real.cos τ ^ 2 * Real.cos (p * (ρ * Real.sin τ))) := by
    unfold Function.uncurry; fun_prop
  have i1 : ∀ τ : ℝ, ∫ p in (0 : ℝ)..1, (Real.sin τ * Real.sin (p * (ρ * Real.sin τ)) / ρ + p * Real.sin τ ^ 2 * Real.cos (p * (ρ * Real.sin τ))) =
      Real.sin τ * Real.sin (ρ * Real.sin τ) / ρ := by
    intro τ
    have hd : ∀ p ∈ Set.uIcc (0 : ℝ) 1, HasDerivAt (fun p => p * (Real.sin τ * Real.sin (p * (ρ * Real.sin τ)) / ρ))
        (Real.sin τ * Real.sin (p * (ρ * Real.sin τ)) / ρ + p * Real.sin τ ^ 2 * Real.cos (p * (ρ * Real.sin τ))) p := by
      intro p _
      have h1 : HasDerivAt (fun p : ℝ => p * (ρ * Real.sin τ)) (1 * (ρ * Real.sin τ)) p := (hasDerivAt_id p).mul_const _
      have h2 := (h1.sin.const_mul (Real.sin τ)).div_const ρ
      have h3 := (hasDerivAt_id p).mul h2
      refine h3.congr_deriv ?_
      simp only [id]
      field_simp
    rw [intervalIntegral.integral_eq_sub_of_hasDerivAt hd (by apply Continuous.intervalIntegrable; fun_prop)]
    simp
  have i2 : ∀ p : ℝ, ∫ τ in (0 : ℝ)..Real.pi, (-Real.sin τ * Real.sin (p * (ρ * Real.sin τ)) / ρ + p * Real.cos τ ^ 2 * Real.cos (p * (ρ * Real.sin τ))) = 0 := by
    intro p
    have hd : ∀ τ ∈ Set.uIcc (0 : ℝ) Real.pi, HasDerivAt (fun τ => Real.cos τ * Real.sin (p * (ρ * Real.sin τ)) / ρ)
        (-Real.sin τ * Real.sin (p * (ρ * Real.sin τ)) / ρ + p * Real.cos τ ^ 2 * Real.cos (p * (ρ * Real.sin τ))) τ := by
      intro τ _
      have h1 : HasDerivAt (fun τ : ℝ => p * (ρ * Real.sin τ)) (p * (ρ * Real.cos τ)) τ := ((Real.hasDerivAt_sin τ).const_mul ρ).const_mul p
      have h3 := ((Real.hasDerivAt_cos τ).mul h1.sin).div_const ρ
      refine h3.congr_deriv ?_
      field_simp
    rw [intervalIntegral.integral_eq_sub_of_hasDerivAt hd (by apply Continuous.intervalIntegrable; fun_prop)]
    simp
  have s : ∀ τ : ℝ, ∫ p in (0 : ℝ)..1, ((Real.sin τ * Real.sin (p * (ρ * Real.sin τ)) / ρ + p * Real.sin τ ^ 2 * Real.cos (p * (ρ * Real.sin τ))) +
      (-Real.sin τ * Real.sin (p * (ρ * Real.sin τ)) / ρ + p * Real.cos τ ^ 2 * Real.cos (p * (ρ * Real.sin τ)))) =
      Real.sin τ * Real.sin (ρ * Real.sin τ) / ρ +
      ∫ p in (0 : ℝ)..1, (-Real.sin τ * Real.sin (p * (ρ * Real.sin τ)) / ρ + p * Real.cos τ ^ 2 * Real.cos (p * (ρ * Real.sin τ))) := by
    intro τ
    rw [intervalIntegral.integral_add (by apply Continuous.intervalIntegrable; fun_prop) (by apply Continuous.intervalIntegrable; fun_prop), i1]
  simp only [s]
  rw [intervalIntegral.integral_add (by apply Continuous.intervalIntegrable; fun_prop)
    ((intervalIntegral.continuous_parametric_intervalIntegral_of_continuous' c2 0 1).intervalIntegrable _ _),
    swap_intervals _ c2 0 Real.pi 0 1 hpi.le zero_le_one]
  simp only [i2, intervalIntegral.integral_zero, add_zero, intervalIntegral.integral_div]
  rw [j1_sin]
  generalize (∫ (x : ℝ) in (0 : ℝ)..Real.pi, Real.sin x * Real.sin (ρ * Real.sin x)) = X
  field_simp

/-- The field for a uniform phase: an integral over half of the circle of a real function. -/
theorem exactField_uniform (ρ θ : ℝ) :
    exactField (fun _ _ => 0) (ρ * Real.cos θ) (ρ * Real.sin θ) =
      ((2 * ∫ τ in (0 : ℝ)..Real.pi, ∫ p in (0 : ℝ)..1, p * Real.cos (p * (ρ * Real.sin τ)) : ℝ) : ℂ) := by
  have hpi := Real.pi_pos
  set K : ℝ → ℂ := fun s => ∫ p in (0 : ℝ)..1, Complex.exp (Complex.I * ((-(p * s) : ℝ) : ℂ)) * (p : ℂ) with hK
  have cK : Continuous K := by
    apply intervalIntegral.continuous_parametric_intervalIntegral_of_continuous'
      (f := fun s p : ℝ => Complex.exp (Complex.I * ((-(p * s) : ℝ) : ℂ)) * (p : ℂ))
    unfold Function.uncurry
    have : Continuous fun q : ℝ × ℝ => -(q.2 * q.1) := by fun_prop
    exact (Complex.continuous_exp.comp (continuous_const.mul (Complex.continuous_ofReal.comp this))).mul
      (Complex.continuous_ofReal.comp continuous_snd)
  have e1 : exactField (fun _ _ => 0) (ρ * Real.cos θ) (ρ * Real.sin θ) = ∫ φ in (0 : ℝ)..2 * Real.pi, K (ρ * Real.sin (φ + (Real.pi / 2 - θ))) := by
    unfold exactField
    congr 1
    funext φ
    rw [hK]
    dsimp only
    congr 1
    funext p
    unfold pupilFieldXY
    congr 3
    have : Real.sin (φ + (Real.pi / 2 - θ)) = Real.cos φ * Real.cos θ + Real.sin φ * Real.sin θ := by
      rw [show φ + (Real.pi / 2 - θ) = (φ - θ) + Real.pi / 2 by ring, Real.sin_add_pi_div_two, Real.cos_sub]
    rw [this]
    push_cast; ring
  have hper : Function.Periodic (fun τ => K (ρ * Real.sin τ)) (2 * Real.pi) := fun τ => by simp
  have c : Continuous fun τ => K (ρ * Real.sin τ) := cK.comp (by fun_prop)
  rw [e1, intervalIntegral.integral_comp_add_right (fun τ => K (ρ * Real.sin τ)),
    show 2 * Real.pi + (Real.pi / 2 - θ) = (0 + (Real.pi / 2 - θ)) + 2 * Real.pi by ring, hper.intervalIntegral_add_eq _ 0, zero_add,
    ← intervalIntegral.integral_add_adjacent_intervals (c.intervalIntegrable 0 Real.pi) (c.intervalIntegrable Real.pi (2 * Real.pi))]
  have e2 : ∫ τ in Real.pi..2 * Real.pi, K (ρ * Real.sin τ) = ∫ τ in (0 : ℝ)..Real.pi, K (-(ρ * Real.sin τ)) := by
    have := intervalIntegral.integral_comp_add_right (fun τ => K (ρ * Real.sin τ)) Real.pi (a := 0) (b := Real.pi)
    rw [zero_add, show Real.pi + Real.pi = 2 * Real.pi by ring] at this
    rw [← this]
    simp only [Real.sin_add_pi, mul_neg]
  have cm : Continuous fun τ => K (-(ρ * Real.sin τ)) := cK.comp (by fun_prop : Continuous fun τ : ℝ => -(ρ * Real.sin τ))
  rw [e2, ← intervalIntegral.integral_add (c.intervalIntegrable _ _) (cm.intervalIntegrable _ _)]
  have e3 : ∀ s : ℝ, K s + K (-s) = ((2 * ∫ p in (0 : ℝ)..1, p * Real.cos (p * s) : ℝ) : ℂ) := by
    intro s
    have cc : ∀ u : ℝ, Continuous fun p : ℝ => Complex.exp (Complex.I * ((-(p * u) : ℝ) : ℂ)) * (p : ℂ) := by
      intro u
      have : Continuous fun p : ℝ => -(p * u) := by fun_prop
      exact (Complex.continuous_exp.comp (continuous_const.mul (Complex.continuous_ofReal.comp this))).mul Complex.continuous_ofReal
    rw [hK]
    dsimp only
    rw [← intervalIntegral.integral_add ((cc _).intervalIntegrable _ _) ((cc _).intervalIntegrable _ _), ← intervalIntegral.integral_const_mul,
      ← intervalIntegral.integral_ofReal]
    congr 1
    funext p
    push_cast
    rw [Complex.cos, show Complex.I * (-((p : ℂ) * (s : ℂ))) = -((p : ℂ) * (s : ℂ)) * Complex.I by ring,
      show Complex.I * (-((p : ℂ) * (-(s : ℂ)))) = ((p : ℂ) * (s : ℂ)) * Complex.I by ring]
    ring
  simp only [e3]
  rw [intervalIntegral.integral_ofReal, intervalIntegral.integral_const_mul]

theorem exactField_const (c x y : ℝ) : exactField (fun _ _ => c) x y = Complex.exp (Complex.I * (c : ℂ)) * exactField (fun _ _ => 0) x y := by
  unfold exactField
  rw [← intervalIntegral.integral_const_mul]
  congr 1
  funext φ
  rw [← intervalIntegral.integral_const_mul]
  congr 1
  funext p
  unfold pupilFieldXY
  rw [← mul_assoc, ← Complex.exp_add]
  congr 2
  push_cast; ring

theorem exactPsf_const (c x y : ℝ) : exactPsf (fun _ _ => c) x y = exactPsf (fun _ _ => 0) x y := by
  unfold exactPsf
  rw [exactField_const, norm_mul, show Complex.I * (c : ℂ) = (c : ℂ) * Complex.I by ring, Complex.norm_exp_ofReal_mul_I, one_mul]

theorem polar_exists (x y : ℝ) : ∃ θ, x = Real.sqrt (x ^ 2 + y ^ 2) * Real.cos θ ∧ y = Real.sqrt (x ^ 2 + y ^ 2) * Real.sin θ := by
  have h : Real.sqrt (x ^ 2 + y ^ 2) = ‖(⟨x, y⟩ : ℂ)‖ := by
    rw [Complex.norm_def, Complex.normSq_mk]; congr 1; ring
  refine ⟨Complex.arg ⟨x, y⟩, ?_, ?_⟩
  · rw [h, Complex.norm_mul_cos_arg]
  · rw [h, Complex.norm_mul_sin_arg]

theorem exactPsf_airy (c x y : ℝ) (h : ¬ (x = 0 ∧ y = 0)) :
    exactPsf (fun _ _ => c) x y = 4 * (besselJ1 (Real.sqrt (x ^ 2 + y ^ 2)) / Real.sqrt (x ^ 2 + y ^ 2)) ^ 2 := by
  have hpi := Real.pi_pos
  rw [exactPsf_const]
  obtain ⟨θ, hx, hy⟩ := polar_exists x y
  have hρ : Real.sqrt (x ^ 2 + y ^ 2) ≠ 0 := by
    intro h0
    rw [h0] at hx hy
    exact h ⟨by simpa using hx, by simpa using hy⟩
  generalize Real.sqrt (x ^ 2 + y ^ 2) = ρ at *
  unfold exactPsf
  rw [hx, hy, exactField_uniform, cos_integral _ hρ, Complex.norm_real, Real.norm_eq_abs, sq_abs]
  field_simp
  ring

theorem exactPsf_center (c : ℝ) : exactPsf (fun _ _ => c) 0 0 = 1 := by
  have hpi := Real.pi_pos
  rw [exactPsf_const]
  have := exactField_uniform 0 0
  simp only [zero_mul, mul_zero, Real.cos_zero, mul_one, integral_id, intervalIntegral.integral_const] at this
  unfold exactPsf
  rw [this, Complex.norm_real, Real.norm_eq_abs, sq_abs]
  simp
  field_simp

theorem exactField_norm_le (x y : ℝ) : ‖exactField (fun _ _ => 0) x y‖ ≤ 2 * Real.pi := by
  have hpi := Real.pi_pos
  unfold exactField
  have := intervalIntegral.norm_integral_le_of_norm_le_const (a := 0) (b := 2 * Real.pi) (C := 1)
    (f := fun φ => ∫ p in (0 : ℝ)..1, pupilFieldXY (fun _ _ => 0) x y p φ) (by
    intro φ _
    have := intervalIntegral.norm_integral_le_of_norm_le_const (a := 0) (b := 1) (C := 1) (f := fun p => pupilFieldXY (fun _ _ => 0) x y p φ) (by
      intro t ht
      rw [Set.uIoc_of_le zero_le_one] at ht
      rw [norm_pupilFieldXY _ _ _ _ _ ht.1.le]
      exact ht.2)
    simpa using this)
  simpa [abs_of_pos hpi] using this

theorem exactField_lipschitz (r r' : ℝ) : ‖exactField (fun _ _ => 0) r 0 - exactField (fun _ _ => 0) r' 0‖ ≤ 2 * Real.pi * |r - r'| := by
  have hpi := Real.pi_pos
  have hF : ∀ x, Continuous (Function.uncurry fun p φ => pupilFieldXY (fun _ _ => 0) x 0 p φ) := fun x =>
    field_continuous _ (by unfold Function.uncurry; fun_prop) x 0
  have hI : ∀ x, Continuous fun φ => ∫ p in (0 : ℝ)..1, pupilFieldXY (fun _ _ => 0) x 0 p φ := fun x =>
    intervalIntegral.continuous_parametric_intervalIntegral_of_continuous' (f := fun φ p => pupilFieldXY (fun _ _ => 0) x 0 p φ)
      ((hF x).comp continuous_swap) 0 1
  have hp : ∀ x φ, Continuous fun p => pupilFieldXY (fun _ _ => 0) x 0 p φ := fun x φ =>
    (hF x).comp (by fun_prop : Continuous fun p : ℝ => (p, φ))
  unfold exactField
  rw [← intervalIntegral.integral_sub ((hI r).intervalIntegrable _ _) ((hI r').intervalIntegrable _ _)]
  have := intervalIntegral.norm_integral_le_of_norm_le_const (a := 0) (b := 2 * Real.pi) (C := |r - r'|)
    (f := fun φ => (∫ p in (0 : ℝ)..1, pupilFieldXY (fun _ _ => 0) r 0 p φ) - ∫ p in (0 : ℝ)..1, pupilFieldXY (fun _ _ => 0) r' 0 p φ) (by
    intro φ _
    rw [← intervalIntegral.integral_sub ((hp r φ).intervalIntegrable _ _) ((hp r' φ).intervalIntegrable _ _)]
    have := intervalIntegral.norm_integral_le_of_norm_le_const (a := 0) (b := 1) (C := |r - r'|)
      (f := fun p => pupilFieldXY (fun _ _ => 0) r 0 p φ - pupilFieldXY (fun _ _ => 0) r' 0 p φ) (by
      intro p hp
      rw [Set.uIoc_of_le zero_le_one] at hp
      unfold pupilFieldXY
      rw [← sub_mul, norm_mul, Complex.norm_real, Real.norm_of_nonneg hp.1.le]
      have h := Real.norm_exp_I_mul_ofReal_sub_one_le (x := -(p * (r - r') * Real.cos φ))
      have e : Complex.exp (Complex.I * ((0 - p * (r * Real.cos φ + 0 * Real.sin φ) : ℝ) : ℂ)) - Complex.exp (Complex.I * ((0 - p * (r' * Real.cos φ + 0 * Real.sin φ) : ℝ) : ℂ))
          = Complex.exp (Complex.I * ((0 - p * (r' * Real.cos φ + 0 * Real.sin φ) : ℝ) : ℂ)) * (Complex.exp (Complex.I * ((-(p * (r - r') * Real.cos φ) : ℝ) : ℂ)) - 1) := by
        rw [mul_sub, ← Complex.exp_add, mul_one]
        congr 2
        push_cast; ring
      rw [e, norm_mul, mul_comm Complex.I (((0 - p * (r' * Real.cos φ + 0 * Real.sin φ) : ℝ) : ℂ)), Complex.norm_exp_ofReal_mul_I, one_mul]
      have h2 : ‖-(p * (r - r') * Real.cos φ)‖ ≤ |r - r'| := by
        rw [norm_neg, Real.norm_eq_abs, abs_mul, abs_mul, abs_of_pos hp.1]
        have := Real.abs_cos_le_one φ
        have a := abs_nonneg (r - r')
        calc p * |r - r'| * |Real.cos φ| ≤ p * |r - r'| * 1 := mul_le_mul_of_nonneg_left this (mul_nonneg hp.1.le a)
          _ ≤ _ := by nlinarith [hp.2]
      calc _ ≤ |r - r'| * 1 := mul_le_mul (h.trans h2) hp.2 hp.1.le (abs_nonneg _)
        _ = _ := mul_one _)
    simpa using this)
  simp only [sub_zero, abs_of_pos (by positivity : (0 : ℝ) < 2 * Real.pi)] at this
  linarith

theorem exactPsf_lipschitz (r r' : ℝ) : |exactPsf (fun _ _ => 0) r 0 - exactPsf (fun _ _ => 0) r' 0| ≤ 8 * |r - r'| := by
  have hpi := Real.pi_pos
  unfold exactPsf
  have h1 := exactField_norm_le r 0
  have h2 := exactField_norm_le r' 0
  have h3 := (abs_norm_sub_norm_le _ _).trans (exactField_lipschitz r r')
  have n1 := norm_nonneg (exactField (fun _ _ => 0) r 0)
  have n2 := norm_nonneg (exactField (fun _ _ => 0) r' 0)
  generalize ‖exactField (fun _ _ => 0) r 0‖ = a at *
  generalize ‖exactField (fun _ _ => 0) r' 0‖ = b at *
  rw [← sub_div, abs_div, abs_of_pos (by positivity : 0 < Real.pi ^ 2), div_le_iff₀ (by positivity),
    show a ^ 2 - b ^ 2 = (a - b) * (a + b) by ring, abs_mul, abs_of_nonneg (by linarith : 0 ≤ a + b)]
  calc _ ≤ 2 * Real.pi * |r - r'| * (2 * Real.pi + 2 * Real.pi) := mul_le_mul h3 (by linarith) (by linarith) (by positivity)
    _ = _ := by ring

end Verif.Proofs
