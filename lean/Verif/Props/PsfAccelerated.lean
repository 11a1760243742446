import Verif.Props.Psf

/-!
# C35: the accelerated PSF calculation
-/

namespace Verif.Props
open Verif.Model Verif.Spec Verif.Proofs

theorem oddSize_exists (k : Int) (hk : 0 ≤ k) : OddSize k (makeOdd k).toNat := by
  unfold OddSize makeOdd; split_ifs <;> omega

theorem comp_res (s0 : CoefState) (hs0 : Good s0) (o : PolObj) (hs : CompSupported o.m o.n) (coeff : ℝ) (q : KernelParams) (hq : PointsOk q) (hopt : OpticsOk q) (S : ℕ)
    (hS : OddSize q.kernelSize S) :
    (getPsfKernelComp o coeff q s0).1 = idealKernel (phaseOne o coeff q.wavelength) q S := by
  have hu : compUnsupported o.m o.n = false := by
    unfold compUnsupported
    have := hs.2.1
    simp; omega
  have hn : ¬ ((S : Int) < 0) := by omega
  unfold getPsfKernelComp
  simp only [oddSize_makeOdd hS, hu, Bool.false_eq_true, if_false, hn, hopt.1.ne']
  exact kernel_res _ _ (compPhase_ok o.m o.n hs (coeff / q.wavelength)) q hq hopt S hS.1 _ hs0

theorem comp_pols_res (s0 : CoefState) (hs0 : Good s0) (l : List (ℝ × PolObj)) (hl : l ≠ []) (hs : ∀ x ∈ l, CompSupported x.2.m x.2.n) (q : KernelParams)
    (hq : PointsOk q) (hopt : OpticsOk q) (S : ℕ) (hS : OddSize q.kernelSize S) :
    (getPsfKernelCompPols l q s0).1 = idealKernel (termSum l) q S := by
  have hu : (l.any fun x => compUnsupported x.2.m x.2.n) = false := by
    rw [List.any_eq_false]
    intro x hx
    have := (hs x hx).2.1
    unfold compUnsupported
    simp; omega
  have hn : ¬ ((S : Int) < 0) := by omega
  unfold getPsfKernelCompPols
  simp only [oddSize_makeOdd hS, hu, Bool.false_eq_true, if_false, hn, hopt.1.ne']
  have := compPols_ok (l.map fun x => (x.1, x.2.m, x.2.n)) (by simpa using hl) (by
    intro y hy
    obtain ⟨x, hx, rfl⟩ := List.mem_map.1 hy
    exact hs x hx)
  rw [orderSum_eq] at this
  exact kernel_res _ _ this q hq hopt S hS.1 _ hs0

/-- C35 (partial). For one polynomial up to the 10th radial order, except `|m| = n` for `n ≥ 8`, the accelerated kernel is the plain one
(calculated by integration), whatever the histories. -/
theorem accelerated_agrees_partial (h h' : List Call) (fuel : Nat) (j1 : ℝ → ℝ) (o : PolObj) (hv : ValidOrders o.m o.n)
    (hf : o.n.toNat + 1 < fuel) (h10 : o.n ≤ 10) (hne : ¬ (8 ≤ o.n ∧ |o.m| = o.n)) (coeff : ℝ) (q : KernelParams)
    (hR : 2 ≤ q.nR) (hPhi : 0 < q.nPhi) (hopt : OpticsOk q) (h3 : 3 ≤ q.kernelSize) :
    (getPsfKernelComp o coeff q (afterCalls h)).1 = (getPsfKernel fuel j1 o coeff q false (afterCalls h')).1 := by
  have hS := oddSize_exists q.kernelSize (by omega)
  rw [comp_res _ (afterCalls_good h) o ⟨hv, h10, by omega⟩ coeff q ⟨hR, hPhi⟩ hopt _ hS, single_res _ (afterCalls_good h') fuel j1 o hv hf coeff q ⟨hR, hPhi⟩ hopt h3 _ hS]

/-- C35 (partial). The same for several polynomials. -/
theorem accelerated_agrees_sum_partial (h h' : List Call) (fuel : Nat) (l : List (ℝ × PolObj)) (hl : l ≠ [])
    (hv : ∀ x ∈ l, ValidOrders x.2.m x.2.n ∧ x.2.n.toNat + 1 < fuel ∧ x.2.n ≤ 10 ∧ ¬ (8 ≤ x.2.n ∧ |x.2.m| = x.2.n)) (q : KernelParams)
    (hR : 2 ≤ q.nR) (hPhi : 0 < q.nPhi) (hopt : OpticsOk q) (hk : 0 ≤ q.kernelSize) :
    (getPsfKernelCompPols l q (afterCalls h)).1 = (getPsfKernelZerns fuel l q (afterCalls h')).1 := by
  have hS := oddSize_exists q.kernelSize hk
  rw [comp_pols_res _ (afterCalls_good h) l hl (fun x hx => ⟨(hv x hx).1, (hv x hx).2.2.1, by have := (hv x hx).2.2.2; omega⟩) q ⟨hR, hPhi⟩ hopt _ hS,
    several_res _ (afterCalls_good h') fuel l hl (fun x hx => ⟨(hv x hx).1, (hv x hx).2.1⟩) q ⟨hR, hPhi⟩ hopt _ hS]

/-- C35. Every polynomial of an order above 10 is rejected with `ValueError`, alone or in a list. -/
theorem accelerated_rejects (s : CoefState) (o : PolObj) (coeff : ℝ) (q : KernelParams) (hw : 0 < q.wavelength)
    (l : List (ℝ × PolObj)) :
    (o.n > 10 → (getPsfKernelComp o coeff q s).1 = .error .valueError) ∧
    ((∃ x ∈ l, x.2.n > 10) → (getPsfKernelCompPols l q s).1 = .error .valueError) := by
  have key : ∀ m n : Int, n > 10 → compUnsupported m n = true := by
    intro m n h
    unfold compUnsupported
    simp; omega
  constructor
  · intro h
    unfold getPsfKernelComp
    simp only [key _ _ h, if_true, hw.ne', if_false]
    split_ifs <;> rfl
  · rintro ⟨x, hx, h⟩
    have : (l.any fun x => compUnsupported x.2.m x.2.n) = true := List.any_eq_true.2 ⟨x, hx, key _ _ h⟩
    unfold getPsfKernelCompPols
    simp only [this, if_true, hw.ne', if_false]
    split_ifs <;> rfl

/-- The phase of the accelerated calculation for the orders `|m| = n`, `n = 8, 9, 10`: the normalisation and the angular part are missing. -/
theorem accelerated_phase_wrong (m n : Int) (h8 : 8 ≤ n) (h10 : n ≤ 10) (hm : |m| = n) : zernpolValue m n = .ok fun r _ => r ^ n.toNat := by
  unfold zernpolValue
  have : (compRadial m n : Option (ℝ → ℝ)) = none := by
    have h1 := compRadial_table m n 0
    cases hc : (compRadial m n : Option (ℝ → ℝ)) with
    | none => rfl
    | some f =>
      exfalso
      rw [hc] at h1
      have hm' : m = n ∨ m = -n := by
        rcases abs_choice m with h | h <;> omega
      interval_cases n <;> rcases hm' with rfl | rfl <;> simp [radialTable] at h1
  rw [this]
  simp only
  rw [if_pos ⟨by omega, hm⟩]

/-- If two neighbouring nodes do not have the same direction, the sum is smaller than the bound. -/
theorem angularRule_norm_lt (N : ℕ) (hN : 4 ≤ N) (g : ℝ → ℂ) (B : ℝ) (h : ∀ φ, ‖g φ‖ ≤ B)
    (hlt : ‖g 0 + 4 * g (1 * (2 * Real.pi / N))‖ < 5 * B) :
    ‖angularRule N g‖ < 2 * Real.pi * angularFraction N * B := by
  have hpi := Real.pi_pos
  have hN' : (0 : ℝ) < N := by exact_mod_cast (by omega : 0 < N)
  rw [← fraction_eq N (by omega)]
  unfold angularRule
  rw [norm_mul]
  have e : ‖((2 * Real.pi / N : ℝ) : ℂ) / 3‖ = (2 * Real.pi / N) / 3 := by
    rw [norm_div, Complex.norm_real, Real.norm_of_nonneg (by positivity)]; norm_num
  rw [e, mul_assoc]
  apply mul_lt_mul_of_pos_left _ (by positivity)
  have hmem : 1 ∈ (Finset.Ioo 0 (N - 1)).filter (fun k => k % 2 = 1) := by simp; omega
  rw [← Finset.add_sum_erase _ _ hmem]
  have s1 : ‖∑ k ∈ (Finset.Ioo 0 (N - 2)).filter (fun k => k % 2 = 0), g ((k : ℝ) * (2 * Real.pi / N))‖ ≤ ((N - 2 - 1) / 2 : ℕ) * B := by
    refine (norm_sum_le _ _).trans ((Finset.sum_le_sum fun k _ => h _).trans ?_)
    rw [Finset.sum_const, card_even, nsmul_eq_mul]
  have s2 : ‖∑ k ∈ ((Finset.Ioo 0 (N - 1)).filter (fun k => k % 2 = 1)).erase 1, g ((k : ℝ) * (2 * Real.pi / N))‖ ≤
      (((N - 1) / 2 : ℕ) - 1) * B := by
    refine (norm_sum_le _ _).trans ((Finset.sum_le_sum fun k _ => h _).trans ?_)
    rw [Finset.sum_const, Finset.card_erase_of_mem hmem, card_odd, nsmul_eq_mul, Nat.cast_sub (by omega)]
    simp
  rw [show ∀ x y z w u : ℂ, x + y + 2 * z + 4 * (w + u) = (x + 4 * w) + y + 2 * z + 4 * u by intros; ring]
  refine lt_of_le_of_lt (norm_add_le _ _) ?_
  refine lt_of_le_of_lt (add_le_add_left (norm_add₃_le ..) _) ?_
  rw [norm_mul, norm_mul]
  have a2 := h (2 * Real.pi)
  have n2 : ‖(2 : ℂ)‖ = 2 := by norm_num
  have n4 : ‖(4 : ℂ)‖ = 4 := by norm_num
  rw [n2, n4]
  simp only [Nat.cast_one] at *
  linarith

theorem trapezoid_congr (N : ℕ) (hN : 0 < N) (f g : ℝ → ℂ) (h : ∀ k : ℕ, k ≤ N → f ((k : ℝ) / N) = g ((k : ℝ) / N)) :
    trapezoid N f = trapezoid N g := by
  have hN' : (N : ℝ) ≠ 0 := by exact_mod_cast hN.ne'
  have h0 : f 0 = g 0 := by simpa using h 0 (by omega)
  have h1 : f 1 = g 1 := by simpa [hN'] using h N le_rfl
  unfold trapezoid
  rw [h0, h1, Finset.sum_congr rfl fun k hk => h k (Finset.mem_Ioo.1 hk).2.le]

/-- The aberration of the counterexample: `Z_10^{-10}`. -/
def badPol : PolObj := ⟨-10, 10, false⟩

/-- The parameters of the counterexample: all of them can be set through the API. -/
noncomputable def badParams : KernelParams :=
  { len2pixels := 1 / 5, wavelength := 1, NA := 1, nR := 20, nPhi := 40, normalize := false, kernelSize := 3 }

/-- The amplitude of the counterexample. -/
noncomputable def badCoeff : ℝ := 2 * Real.pi * 20 ^ 10

theorem exp_node (k : ℕ) : Complex.exp (Complex.I * ((2 * Real.pi * 20 ^ 10 * ((k : ℝ) / (20 : ℕ)) ^ 10 : ℝ) : ℂ)) = 1 := by
  have := Complex.exp_nat_mul_two_pi_mul_I (k ^ 10)
  rw [← this]
  congr 1
  push_cast
  ring

theorem accel_center : psfValue (fun p _ => badCoeff * p ^ 10) 0 0 20 40 = angularFraction 40 ^ 2 := by
  have ht : (fun φ => trapezoid 20 fun p => pupilField (fun p _ => badCoeff * p ^ 10) 0 0 p φ) = fun _ => (1 / 2 : ℂ) := by
    funext φ
    rw [← trapezoid_id 20 (by norm_num)]
    apply trapezoid_congr 20 (by norm_num)
    intro k _
    unfold pupilField badCoeff
    have := exp_node k
    simp only [zero_mul, sub_zero]
    rw [this, one_mul]
  unfold psfValue psfField
  have hf := fraction_pos 40 (by norm_num)
  have hpi := Real.pi_pos
  rw [ht, angularRule_const 40 (by norm_num), norm_mul, Complex.norm_real, Real.norm_of_nonneg (by positivity)]
  simp
  field_simp

theorem plain_center : psfValue (fun p φ => badCoeff * zernike (-10) 10 p φ) 0 0 20 40 < angularFraction 40 ^ 2 := by
  have hpi := Real.pi_pos
  have hz : ∀ p φ, zernike (-10) 10 p φ = Real.sqrt 22 * p ^ 10 * Real.sin (10 * φ) := by
    intro p φ
    unfold zernike
    rw [spec_radial_eq _ _ _ (by decide), RR_diag (-10) 10 (by decide) (by decide)]
    have h22 : Spec.norm (-10) 10 = Real.sqrt 22 := by unfold Spec.norm; norm_num
    have ha : angular (-10) φ = Real.sin (10 * φ) := by unfold angular; norm_num
    rw [h22, ha]
    rfl
  have hle : ∀ φ, ‖trapezoid 20 fun p => pupilField (fun p φ => badCoeff * zernike (-10) 10 p φ) 0 0 p φ‖ ≤ 1 / 2 :=
    fun φ => trapezoid_field_le _ _ _ _ _ (by norm_num)
  have h0 : (trapezoid 20 fun p => pupilField (fun p φ => badCoeff * zernike (-10) 10 p φ) 0 0 p 0) = 1 / 2 := by
    rw [← trapezoid_id 20 (by norm_num)]
    apply trapezoid_congr 20 (by norm_num)
    intro k _
    unfold pupilField
    simp [hz]
  set T := trapezoid 20 fun p => pupilField (fun p φ => badCoeff * zernike (-10) 10 p φ) 0 0 p (1 * (2 * Real.pi / (40 : ℕ))) with hT
  have hre : T.re < 1 / 2 := by
    have e : T.re = (1 / 20 : ℝ) * ((0 : ℝ) + ∑ k ∈ Finset.Ioo (0 : ℕ) 20, ((k : ℝ) / 20) * Real.cos (2 * Real.pi * Real.sqrt 22 * (k : ℝ) ^ 10)
        + Real.cos (2 * Real.pi * Real.sqrt 22 * 20 ^ 10) / 2) := by
      have hs : Real.sin (10 * (2 * Real.pi / 40)) = 1 := by
        rw [show 10 * (2 * Real.pi / 40) = Real.pi / 2 by ring, Real.sin_pi_div_two]
      have hf : ∀ p, (pupilField (fun p φ => badCoeff * zernike (-10) 10 p φ) 0 0 p (1 * (2 * Real.pi / (40 : ℕ)))).re =
          p * Real.cos (badCoeff * (Real.sqrt 22 * p ^ 10)) := by
        intro p
        unfold pupilField
        rw [mul_comm Complex.I, Complex.re_mul_ofReal, Complex.exp_ofReal_mul_I_re]
        simp only [hz, one_mul, Nat.cast_ofNat, hs, mul_one, zero_mul, sub_zero]
        ring
      rw [hT]
      unfold trapezoid
      rw [show (1 / ((20 : ℕ) : ℂ)) = ((1 / 20 : ℝ) : ℂ) by push_cast; rfl, Complex.re_ofReal_mul]
      simp only [Complex.add_re, Complex.re_sum, hf]
      congr 2
      · congr 1
        · simp only [Complex.div_ofNat_re, hf]; simp
        · apply Finset.sum_congr rfl
          intro k _
          push_cast
          congr 2
          unfold badCoeff; ring
      · simp only [Complex.div_ofNat_re, hf]
        unfold badCoeff
        rw [one_mul]
        congr 2; ring
    have hc1 : Real.cos (2 * Real.pi * Real.sqrt 22) < 1 := by
      rcases (Real.cos_le_one (2 * Real.pi * Real.sqrt 22)).lt_or_eq with h | h
      · exact h
      · exfalso
        obtain ⟨n, hn⟩ := (Real.cos_eq_one_iff _).1 h
        have h1 : Real.sqrt 22 = n := by
          have : (n : ℝ) * (2 * Real.pi) = Real.sqrt 22 * (2 * Real.pi) := by rw [hn]; ring
          exact (mul_right_cancel₀ (by positivity) this).symm
        have h2 : (22 : ℝ) = (n : ℝ) ^ 2 := by rw [← h1, Real.sq_sqrt (by norm_num)]
        have h3 : (22 : ℤ) = n ^ 2 := by exact_mod_cast h2
        have h4 : n < 5 := by nlinarith
        have h5 : -5 < n := by nlinarith
        interval_cases n <;> omega
    have hmem : 1 ∈ Finset.Ioo (0 : ℕ) 20 := by simp
    have hs : ∑ k ∈ Finset.Ioo (0 : ℕ) 20, ((k : ℝ) / 20) * Real.cos (2 * Real.pi * Real.sqrt 22 * (k : ℝ) ^ 10) <
        ∑ k ∈ Finset.Ioo (0 : ℕ) 20, ((k : ℝ) / 20) := by
      apply Finset.sum_lt_sum
      · intro k _
        have := Real.cos_le_one (2 * Real.pi * Real.sqrt 22 * (k : ℝ) ^ 10)
        have : (0 : ℝ) ≤ (k : ℝ) / 20 := by positivity
        nlinarith
      · exact ⟨1, hmem, by simp; linarith⟩
    have hsum : ∑ k ∈ Finset.Ioo (0 : ℕ) 20, ((k : ℝ) / 20) = 19 / 2 := by
      rw [← Finset.sum_div]
      have : ∑ k ∈ Finset.Ioo (0 : ℕ) 20, (k : ℝ) = ((∑ k ∈ Finset.Ioo (0 : ℕ) 20, k : ℕ) : ℝ) := by push_cast; rfl
      rw [this, show (∑ k ∈ Finset.Ioo (0 : ℕ) 20, k : ℕ) = 190 by decide]
      norm_num
    have := Real.cos_le_one (2 * Real.pi * Real.sqrt 22 * 20 ^ 10)
    rw [e]
    have fin : ∀ s c : ℝ, s < 19 / 2 → c ≤ 1 → 1 / 20 * (0 + s + c / 2) < 1 / 2 := by intros; linarith
    exact fin _ _ (by rw [← hsum]; exact hs) this
  have hnT : ‖T‖ ≤ 1 / 2 := hle _
  have key : ‖(1 / 2 : ℂ) + 4 * T‖ < 5 * (1 / 2) := by
    rw [Complex.norm_def, Real.sqrt_lt' (by norm_num), Complex.normSq_apply]
    have hT2 : T.re * T.re + T.im * T.im ≤ 1 / 4 := by
      have := pow_le_pow_left₀ (norm_nonneg T) hnT 2
      rw [← Complex.normSq_eq_norm_sq, Complex.normSq_apply] at this
      linarith
    have r : ((1 / 2 : ℂ) + 4 * T).re = 1 / 2 + 4 * T.re := by simp
    have i : ((1 / 2 : ℂ) + 4 * T).im = 4 * T.im := by simp
    rw [r, i]
    nlinarith
  have hlt := angularRule_norm_lt 40 (by norm_num) _ (1 / 2) hle (by rw [h0, ← hT]; exact key)
  have hf := fraction_pos 40 (by norm_num)
  unfold psfValue psfField
  rw [div_lt_iff₀ (by positivity)]
  calc _ < (angularFraction 40 * Real.pi) ^ 2 := by
        apply pow_lt_pow_left₀ _ (norm_nonneg _) (by norm_num)
        linarith
    _ = _ := by ring

/-- The negation of C35: for `Z_10^{-10}` the accelerated calculation accepts the polynomial and gives another kernel than the plain one. -/
theorem accelerated_differs (h h' : List Call) (fuel : Nat) (hf : 12 ≤ fuel) (j1 : ℝ → ℝ) :
    ∃ g g', (getPsfKernelComp badPol badCoeff badParams (afterCalls h)).1 = .ok g ∧
      (getPsfKernel fuel j1 badPol badCoeff badParams false (afterCalls h')).1 = .ok g' ∧ g'.entry 1 1 < g.entry 1 1 := by
  have hS : OddSize badParams.kernelSize 3 := ⟨rfl, Or.inl rfl⟩
  have hph : PhaseOk (compPhase (-10) 10 (badCoeff / 1)) fun p _ => badCoeff * p ^ 10 := by
    have hz := accelerated_phase_wrong (-10) 10 (by norm_num) (by norm_num) (by norm_num)
    rw [div_one]
    constructor
    · intro p phi _ _
      exact Ret.bind (ret_lift hz) (ret_pure _)
    · intro ps phi _ _
      refine Ret.bind (ret_lift hz) ?_
      have : (applyArg (fun r _ => r ^ (10 : Int).toNat) (.arr [ps.length] ps) phi).smul badCoeff =
          .array [ps.length] (ps.map fun p => badCoeff * p ^ 10) := by
        simp [applyArg, Num.smul, Num.map, Function.comp_def]
      rw [this]
      exact ret_pure _
  have hq : PointsOk badParams := ⟨by simp [badParams], by simp [badParams]⟩
  have hbo : OpticsOk badParams := ⟨by simp [badParams], by simp [badParams]⟩
  have e1 : (getPsfKernelComp badPol badCoeff badParams (afterCalls h)).1 = idealKernel (fun p _ => badCoeff * p ^ 10) badParams 3 := by
    have hu : compUnsupported badPol.m badPol.n = false := by decide
    unfold getPsfKernelComp
    have hn : ¬ (((3 : ℕ) : Int) < 0) := by norm_num
    simp only [oddSize_makeOdd hS, hu, Bool.false_eq_true, if_false, hn, hbo.1.ne']
    exact kernel_res _ _ hph badParams hq hbo 3 rfl _ (afterCalls_good h)
  have e2 := single_res _ (afterCalls_good h') fuel j1 badPol (by decide) (by simp [badPol]; omega) badCoeff badParams hq hbo (by simp [badParams]) 3 hS
  rw [e1, e2]
  refine ⟨_, _, rfl, rfl, ?_⟩
  have c1 := pixelPsf_center (fun p _ => badCoeff * p ^ 10) (opticalScale 1 1 (1 / 5)) 3 20 40 rfl
  have c2 := pixelPsf_center (fun p φ => badCoeff * zernike (-10) 10 p φ) (opticalScale 1 1 (1 / 5)) 3 20 40 rfl
  have hlt := plain_center
  rw [← accel_center, ← c1, ← c2] at hlt
  have hp : phaseOne badPol badCoeff badParams.wavelength = fun p φ => badCoeff * zernike (-10) 10 p φ := by
    funext p φ
    simp [phaseOne, badPol, badParams]
  rw [hp]
  simpa [badParams] using hlt

theorem zernike_piston (p φ : ℝ) : zernike 0 0 p φ = 1 := by
  unfold zernike
  rw [spec_radial_eq 0 0 p (by decide)]
  have : RR 0 0 p = 1 := by
    have := RR_diag 0 0 (by decide) (by decide) p
    simpa using this
  rw [this]
  simp [Spec.norm, angular]

/-- C35, the piston: the plain calculation uses the Airy formula (1 in the centre up to `10^-20`), the accelerated one the integration, which gives
0.98671... in the centre with the default number of angular points. -/
theorem accelerated_piston_differs (h h' : List Call) (fuel : Nat) (coeff : ℝ) (q : KernelParams) (hR : 2 ≤ q.nR) (hPhi : q.nPhi = 300)
    (hopt : OpticsOk q) (h3 : 3 ≤ q.kernelSize) (hn : q.normalize = false) (S : ℕ) (hS : OddSize q.kernelSize S) (shown : Bool) :
    ∃ g g', (getPsfKernelComp ⟨0, 0, shown⟩ coeff q (afterCalls h)).1 = .ok g ∧
      (getPsfKernel fuel besselJ1 ⟨0, 0, shown⟩ coeff q true (afterCalls h')).1 = .ok g' ∧
      g.entry (S / 2) (S / 2) = 22201 / 22500 ∧ 1 - 1e-20 ≤ g'.entry (S / 2) (S / 2) := by
  obtain ⟨g', e', _, _, _, hc, _⟩ := airy_kernel_bounded h' fuel ⟨0, 0, shown⟩ coeff q hopt h3 S hS
  have e := comp_res _ (afterCalls_good h) ⟨0, 0, shown⟩ (by refine ⟨?_, ?_, ?_⟩ <;> simp [ValidOrders]) coeff q ⟨hR, by omega⟩ hopt S hS
  have hS1 := hS.1
  obtain ⟨g, e2, hg⟩ := pureKernel_of S (by omega) (pixelPsf (phaseOne ⟨0, 0, shown⟩ coeff q.wavelength)
    (opticalScale q.wavelength q.NA q.len2pixels) S q.nR.toNat q.nPhi.toNat) q.normalize
  refine ⟨g, g', by rw [e]; exact e2, e', ?_, hc⟩
  rw [hn] at hg
  simp only [KernelOf, Bool.false_eq_true, if_false] at hg
  rw [hg.2.2 _ _ (by omega) (by omega), pixelPsf_center _ _ _ _ _ hS1]
  have ez : phaseOne ⟨0, 0, shown⟩ coeff q.wavelength = fun (_ _ : ℝ) => coeff / q.wavelength * 1 := by
    funext p φ
    unfold phaseOne
    rw [zernike_piston]
  rw [ez, psfValue_center _ _ (by omega) (by omega), hPhi]
  have : angularFraction (300 : Int).toNat = 149 / 150 := by
    rw [show (300 : Int).toNat = 300 from rfl]; unfold angularFraction; norm_num
  rw [this]
  norm_num

end Verif.Props
