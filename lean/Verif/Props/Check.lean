import Verif.Proofs.Check
import Verif.Props.Psf
import Mathlib.Analysis.Real.Pi.Bounds

/-!
# C114: the developers' reference integrations
-/

namespace Verif.Props
open Verif.Model Verif.Spec Verif.Proofs

/-- The phase `alpha * Z_n^m`. -/
noncomputable def refPhase (o : PolObj) (alpha : ℝ) (p φ : ℝ) : ℝ := alpha * zernike o.m o.n p φ

/-- How far (in optical units) a reference kernel reaches, in the two cases of `unified_kernel_size`. -/
noncomputable def refWidth (alpha : ℝ) (unified : Bool) : ℝ :=
  open Classical in
  if unified then 26 else if 2 < |alpha| then 30 else if 3 / 2 ≤ |alpha| then 26 else if 1 ≤ |alpha| then 24 else 20

/-- C114. The reference that integrates over the radius first does the same computation as the library with 320 and 300 points (its
defaults): the same value or exception and the same tables, in every state of the tables, for all arguments. -/
theorem check_point_r_is_library (fuel : Nat) (o : PolObj) (r theta alpha : ℝ) (s : CoefState) :
    checkPointR fuel o r theta alpha s = psfPoint (singlePhase fuel o alpha) r theta 320 300 s := by
  rw [checkPointR_eq]

/-- C114. The value of the reference that integrates over the radius first, after any history of calls. -/
theorem check_point_r_value (h : List Call) (fuel : Nat) (o : PolObj) (hv : ValidOrders o.m o.n) (hf : o.n.toNat + 1 < fuel)
    (r theta alpha : ℝ) :
    (checkPointR fuel o r theta alpha (afterCalls h)).1 = .ok (psfValue (refPhase o alpha) r theta 320 300) := by
  rw [checkPointR_eq]
  exact (psfPoint_ok _ _ (singlePhase_ok fuel o hv hf alpha) r theta 320 300 (by norm_num) (by norm_num) _ (afterCalls_good h)).1

/-- C114. The value of the reference that integrates over the angle first: the trapezoidal rule with 600 angles, Simpson's rule with 320
radii without two nodes, and the square of the field over `2π`. -/
theorem check_point_ang_value (h : List Call) (fuel : Nat) (o : PolObj) (hv : ValidOrders o.m o.n) (hf : o.n.toNat + 1 < fuel)
    (r theta alpha : ℝ) :
    (checkPointAng fuel o r theta alpha (afterCalls h)).1 = .ok (angleFirstValue (refPhase o alpha) r theta 320 600) :=
  (checkPointAng_ok fuel o hv hf r theta alpha _ (afterCalls_good h)).1

/-- C114. It never exceeds `(18961/38400)²`, less than a quarter, for any polynomial, amplitude and point. -/
theorem check_point_ang_bound (h : List Call) (fuel : Nat) (o : PolObj) (hv : ValidOrders o.m o.n) (hf : o.n.toNat + 1 < fuel)
    (r theta alpha : ℝ) :
    ∃ v, (checkPointAng fuel o r theta alpha (afterCalls h)).1 = .ok v ∧ 0 ≤ v ∧ v ≤ (18961 / 38400) ^ 2 ∧ v < 1 / 4 := by
  refine ⟨_, check_point_ang_value h fuel o hv hf r theta alpha, ?_, angleFirst_le _ r theta, ?_⟩
  · unfold angleFirstValue; positivity
  · exact lt_of_le_of_lt (angleFirst_le _ r theta) (by norm_num)

/-- C114. In the centre of the unaberrated PSF (a piston of any amplitude) it has this value, whereas the other reference and the library
have `22201/22500`: the two references, meant for the same quantity, differ by a factor of about four. -/
theorem check_references_disagree (h h' : List Call) (fuel : Nat) (hf : 1 < fuel) (o : PolObj) (ho : o.m = 0 ∧ o.n = 0) (theta alpha : ℝ) :
    (checkPointAng fuel o 0 theta alpha (afterCalls h)).1 = .ok ((18961 / 38400) ^ 2) ∧
    (checkPointR fuel o 0 theta alpha (afterCalls h')).1 = .ok (22201 / 22500) ∧
    (4 : ℝ) * (18961 / 38400) ^ 2 < 22201 / 22500 ∧ (22201 / 22500 : ℝ) < 4.1 * (18961 / 38400) ^ 2 := by
  refine ⟨?_, ?_, by norm_num, by norm_num⟩
  · rw [check_point_ang_value h fuel o (by rw [ho.1, ho.2]; decide) (by rw [ho.2]; simpa using hf)]
    have e : refPhase o alpha = fun (_ _ : ℝ) => alpha * 1 := by
      funext p φ
      unfold refPhase
      rw [ho.1, ho.2]
      unfold zernike
      rw [spec_radial_eq 0 0 p (by decide)]
      have : RR 0 0 p = 1 := by
        have := RR_diag 0 0 (by decide) (by decide) p
        simpa using this
      rw [this]
      simp [Spec.norm, angular]
    rw [e, angleFirst_center]
  · rw [checkPointR_eq]
    exact center_value_default h' fuel hf o ho alpha theta 320 (by norm_num)

theorem refWidth_eq (alpha : ℝ) (unified : Bool) :
    (open Classical in if (!unified) = true then (if |alpha| < 1 then (20 : ℝ) else if |alpha| < 1.5 then 24 else if |alpha| ≤ 2 then 26 else 30) else 26) =
      refWidth alpha unified := by
  unfold refWidth
  have e : (1.5 : ℝ) = 3 / 2 := by norm_num
  rw [e]
  cases unified with
  | true => simp
  | false =>
    simp only [Bool.not_false, if_true, Bool.false_eq_true, if_false]
    split_ifs <;> first | rfl | (exfalso; linarith)

theorem checkKernelSize_eq (cal alpha : ℝ) (unified : Bool) (hc : cal ≠ 0) :
    checkKernelSize cal alpha unified = .ok (makeOdd (rint (refWidth alpha unified / cal) + 1)) := by
  unfold checkKernelSize
  have := refWidth_eq alpha unified
  rw [if_neg hc]
  simp only [this, mul_one_div]
  rfl

theorem refWidth_ge (alpha : ℝ) (unified : Bool) : 20 ≤ refWidth alpha unified := by
  unfold refWidth; split_ifs <;> norm_num

/-- C114. The size of a reference kernel for a positive coefficient: odd, between half and two and a half pixels more than
`refWidth` in pixels. -/
theorem check_kernel_size (cal alpha : ℝ) (unified : Bool) (hc : 0 < cal) :
    ∃ S : ℕ, checkKernelSize cal alpha unified = .ok (S : Int) ∧ S % 2 = 1 ∧
      refWidth alpha unified / cal + 1 / 2 ≤ S ∧ S ≤ refWidth alpha unified / cal + 5 / 2 := by
  have h20 := refWidth_ge alpha unified
  have hpos : 0 ≤ refWidth alpha unified / cal := by positivity
  have hr := rint_nonneg hpos
  have ho := makeOdd_odd (rint (refWidth alpha unified / cal) + 1)
  have hg := makeOdd_ge (rint (refWidth alpha unified / cal) + 1)
  have hl : makeOdd (rint (refWidth alpha unified / cal) + 1) ≤ rint (refWidth alpha unified / cal) + 1 + 1 := by
    unfold makeOdd; split_ifs <;> omega
  have hn := abs_le.1 (rint_near (refWidth alpha unified / cal))
  obtain ⟨S, hS⟩ := Int.eq_ofNat_of_zero_le (show 0 ≤ makeOdd (rint (refWidth alpha unified / cal) + 1) by omega)
  have hg' : ((rint (refWidth alpha unified / cal) + 1 : ℤ) : ℝ) ≤ ((S : ℤ) : ℝ) := by rw [← hS]; exact_mod_cast hg
  have hl' : ((S : ℤ) : ℝ) ≤ ((rint (refWidth alpha unified / cal) + 1 + 1 : ℤ) : ℝ) := by rw [← hS]; exact_mod_cast hl
  push_cast at hg' hl'
  refine ⟨S, ?_, by omega, by linarith [hn.1], by linarith [hn.2]⟩
  rw [checkKernelSize_eq cal alpha unified hc.ne', hS]

theorem refWidth_mono {a b : ℝ} (h : |a| ≤ |b|) : refWidth a false ≤ refWidth b false := by
  unfold refWidth
  simp only [Bool.false_eq_true, if_false]
  split_ifs <;> first | (norm_num; done) | (exfalso; linarith)

/-- C114. A greater amplitude or smaller pixels never give a smaller reference kernel. -/
theorem check_kernel_size_mono (cal cal' a b : ℝ) (hc : 0 < cal') (hcc : cal' ≤ cal) (h : |a| ≤ |b|) :
    ∃ S S' : ℕ, checkKernelSize cal a false = .ok (S : Int) ∧ checkKernelSize cal' b false = .ok (S' : Int) ∧ S ≤ S' := by
  obtain ⟨S, h1, -⟩ := check_kernel_size cal a false (by linarith)
  obtain ⟨S', h2, -⟩ := check_kernel_size cal' b false hc
  refine ⟨S, S', h1, h2, ?_⟩
  rw [checkKernelSize_eq _ _ _ (by linarith : (0:ℝ) < cal).ne'] at h1
  rw [checkKernelSize_eq _ _ _ hc.ne'] at h2
  have e1 := Except.ok.inj h1
  have e2 := Except.ok.inj h2
  have : refWidth a false / cal ≤ refWidth b false / cal' := by
    have := refWidth_ge b false
    exact div_le_div₀ (by linarith) (refWidth_mono h) hc hcc
  have := rint_mono this
  have : makeOdd (rint (refWidth a false / cal) + 1) ≤ makeOdd (rint (refWidth b false / cal') + 1) := by
    unfold makeOdd; split_ifs <;> omega
  omega

theorem checkKernel_size (fuel : Nat) (o : PolObj) (cal alpha : ℝ) (unified : Bool) (S : ℕ)
    (hS : checkKernelSize cal alpha unified = .ok (S : Int)) (wl NA px : ℝ) (hcal : opticalScale wl NA px = cal) (hNA : NA ≠ 0) :
    checkKernel fuel o cal alpha unified = makeKernel S NA (fun i j => psfPoint (singlePhase fuel o alpha)
      (kernelDist S (2 * Real.pi / wl) NA px i j) (kernelTheta S i j) 320 300) false := by
  funext s
  unfold checkKernel makeKernel
  rw [hS, if_neg (by omega), if_neg hNA]
  show (if ((S : ℤ) < 0) then _ else _ : CM Grid) s = _
  rw [if_neg (by omega)]
  have e : (fun (i j : ℕ) => checkPointR fuel o (Real.sqrt (((i : ℝ) - (((S : ℤ) / 2 : ℤ) : ℝ)) ^ 2 + ((j : ℝ) - (((S : ℤ) / 2 : ℤ) : ℝ)) ^ 2) * cal)
      (arctan2 ((i : ℝ) - (((S : ℤ) / 2 : ℤ) : ℝ)) ((j : ℝ) - (((S : ℤ) / 2 : ℤ) : ℝ)) + Real.pi) alpha) =
      fun i j => psfPoint (singlePhase fuel o alpha) (kernelDist S (2 * Real.pi / wl) NA px i j) (kernelTheta S i j) 320 300 := by
    funext i j
    rw [checkPointR_eq, mul_comm _ cal, ← hcal]
    rfl
  show fillRows (fun (i j : ℕ) => checkPointR fuel o (Real.sqrt (((i : ℝ) - (((S : ℤ) / 2 : ℤ) : ℝ)) ^ 2 +
    ((j : ℝ) - (((S : ℤ) / 2 : ℤ) : ℝ)) ^ 2) * cal) (arctan2 ((i : ℝ) - (((S : ℤ) / 2 : ℤ) : ℝ)) ((j : ℝ) - (((S : ℤ) / 2 : ℤ) : ℝ)) + Real.pi) alpha)
    _ _ _ _ s = _
  rw [e]
  simp only [bind]
  generalize fillRows _ (S : ℤ).toNat (S : ℤ).toNat 0 _ s = q
  obtain ⟨r, s'⟩ := q
  cases r <;> rfl

/-- C114. A reference kernel: every pixel holds the PSF at its position, after any history of calls. -/
theorem check_kernel_samples_psf (h : List Call) (fuel : Nat) (o : PolObj) (hv : ValidOrders o.m o.n) (hf : o.n.toNat + 1 < fuel)
    (cal alpha : ℝ) (unified : Bool) (hc : 0 < cal) :
    ∃ (S : ℕ) (g : Grid), checkKernelSize cal alpha unified = .ok (S : Int) ∧ S % 2 = 1 ∧
      (checkKernel fuel o cal alpha unified (afterCalls h)).1 = .ok g ∧
      IsKernel g S fun i j => pixelPsf (refPhase o alpha) cal S 320 300 i j := by
  obtain ⟨S, hS, ho, -⟩ := check_kernel_size cal alpha unified hc
  have hcal : opticalScale (2 * Real.pi) 1 cal = cal := by
    unfold opticalScale; have := Real.pi_ne_zero; field_simp
  have hk := kernel_res (singlePhase fuel o alpha) _ (singlePhase_ok fuel o hv hf alpha)
    ⟨cal, 2 * Real.pi, 1, 320, 300, false, S⟩ ⟨by norm_num, by norm_num⟩ ⟨by positivity, by norm_num⟩ S ho _ (afterCalls_good h)
  obtain ⟨g, e, hg⟩ := pureKernel_of S (by omega) (pixelPsf (refPhase o alpha) (opticalScale (2 * Real.pi) 1 cal) S 320 300) false
  refine ⟨S, g, hS, ho, ?_, ?_⟩
  · rw [checkKernel_size fuel o cal alpha unified S hS (2 * Real.pi) 1 cal hcal one_ne_zero]
    exact hk.trans e
  · rw [hcal] at hg
    simpa [KernelOf] using hg

/-- C114. With the coefficient of the module, `2π/λ · NA · pixel size`, the reference kernel is the one the library calculates for the same
size with 320 and 300 points, not normalised and for the amplitude `alpha` times the wavelength: the same result and the same tables in every
state. -/
theorem check_kernel_is_library (fuel : Nat) (j1 : ℝ → ℝ) (o : PolObj) (alpha wl NA px : ℝ) (unified : Bool) (hw : 0 < wl) (hNA : 0 < NA)
    (hpx : 0 < px) (s : CoefState) :
    ∃ S : ℕ, checkKernelSize (opticalScale wl NA px) alpha unified = .ok (S : Int) ∧
      (3 ≤ S → checkKernel fuel o (opticalScale wl NA px) alpha unified s =
        getPsfKernel fuel j1 o (alpha * wl) ⟨px, wl, NA, 320, 300, false, S⟩ false s) := by
  have hc : 0 < opticalScale wl NA px := by unfold opticalScale; have := Real.pi_pos; positivity
  obtain ⟨S, hS, ho, -⟩ := check_kernel_size (opticalScale wl NA px) alpha unified hc
  refine ⟨S, hS, fun h3 => ?_⟩
  rw [checkKernel_size fuel o _ alpha unified S hS wl NA px rfl hNA.ne']
  unfold getPsfKernel
  dsimp only
  rw [if_neg hw.ne', if_neg (by omega), mul_div_cancel_right₀ alpha hw.ne']
  have hm : makeOdd (S : ℤ) = S := by unfold makeOdd; rw [if_neg (by omega)]
  show _ = makeKernel (makeOdd (S : ℤ)) NA (fun i j => psfPoint (singlePhase fuel o alpha)
    (kernelDist (makeOdd (S : ℤ)) (2 * Real.pi / wl) NA px i j) (kernelTheta (makeOdd (S : ℤ)) i j) 320 300) false s
  rw [hm]

/-- C114. The coefficients that are refused: 0, and the negative ones that give a negative size. -/
theorem check_kernel_refused (fuel : Nat) (o : PolObj) (cal alpha : ℝ) (unified : Bool) (s : CoefState) :
    (cal = 0 → (checkKernel fuel o cal alpha unified s).1 = .error .zeroDivisionError) ∧
    (cal < 0 → refWidth alpha unified / cal < -5 / 2 → (checkKernel fuel o cal alpha unified s).1 = .error .valueError) := by
  constructor
  · intro h
    have : checkKernelSize cal alpha unified = .error .zeroDivisionError := by
      unfold checkKernelSize; simp only; rw [if_pos h]
    unfold checkKernel
    rw [this]
    rfl
  · intro h hw
    have hn := abs_le.1 (rint_near (refWidth alpha unified / cal))
    have h3 : (rint (refWidth alpha unified / cal) : ℝ) < ((-2 : ℤ) : ℝ) := by push_cast; linarith [hn.2]
    have h4 : rint (refWidth alpha unified / cal) < -2 := by exact_mod_cast h3
    unfold checkKernel
    rw [checkKernelSize_eq cal alpha unified h.ne]
    have : makeOdd (rint (refWidth alpha unified / cal) + 1) < 0 := by unfold makeOdd; split_ifs <;> omega
    show ((if makeOdd (rint (refWidth alpha unified / cal) + 1) < 0 then CM.raise .valueError else _ : CM Grid) s).1 = _
    rw [if_pos this]
    rfl

/-- The hypotheses are met by the parameters of the module (wavelength 0.55, NA 0.95, pixel size 0.14): a size of at least 3. -/
example : ValidOrders (-1) 3 ∧ 0 < opticalScale 0.55 0.95 0.14 ∧
    ∃ S : ℕ, checkKernelSize (opticalScale 0.55 0.95 0.14) 0.5 false = .ok (S : Int) ∧ 3 ≤ S := by
  have h1 := Real.pi_gt_three
  have h2 := Real.pi_lt_d2
  have hc : 0 < opticalScale 0.55 0.95 0.14 := by unfold opticalScale; positivity
  obtain ⟨S, hS, ho, hl, -⟩ := check_kernel_size (opticalScale 0.55 0.95 0.14) 0.5 false hc
  refine ⟨by decide, hc, S, hS, ?_⟩
  have h20 := refWidth_ge 0.5 false
  have : opticalScale 0.55 0.95 0.14 ≤ 2 := by unfold opticalScale; norm_num at *; linarith
  have : 10 ≤ refWidth 0.5 false / opticalScale 0.55 0.95 0.14 := by rw [le_div_iff₀ hc]; linarith
  have : (3 : ℝ) ≤ S := by linarith
  exact_mod_cast this

end Verif.Props
