import Verif.Proofs.PsfConverge
import Verif.Proofs.Ortho
import Verif.Proofs.Surface
import Mathlib.MeasureTheory.Integral.IntervalIntegral.Periodic

/-! # The Strehl ratio and the variance of the phase -/

namespace Verif.Proofs
open Verif.Spec MeasureTheory Set

/-- Integration over the unit disk in polar coordinates, for a continuous function with the period 2π of the angle. -/
theorem integral_disk_continuous (F : ℝ → ℝ → ℝ) (hF : Continuous (Function.uncurry F)) (hper : ∀ r t, F r (t + 2 * Real.pi) = F r t) :
    ∫ p in unitDisk, F (radius p) (angle p) = ∫ t in (0 : ℝ)..2 * Real.pi, ∫ r in (0 : ℝ)..1, F r t * r := by
  have hpi := Real.pi_pos
  have hG : Continuous fun q : ℝ × ℝ => F q.1 q.2 * q.1 := (show Continuous fun q : ℝ × ℝ => F q.1 q.2 from hF).mul continuous_fst
  rw [← integral_indicator unitDisk_measurable, ← integral_comp_polarCoord_symm]
  have e : ∀ p ∈ polarCoord.target,
      p.1 • unitDisk.indicator (fun p => F (radius p) (angle p)) (polarCoord.symm p) =
      (Iic (1 : ℝ) ×ˢ univ).indicator (fun q : ℝ × ℝ => F q.1 q.2 * q.1) p := by
    intro p hp
    have hq := polarCoord.right_inv hp
    have h1 : radius (polarCoord.symm p) = p.1 := congrArg Prod.fst hq
    have h2 : angle (polarCoord.symm p) = p.2 := congrArg Prod.snd hq
    have hp1 : 0 < p.1 := hp.1
    have hmem : polarCoord.symm p ∈ unitDisk ↔ p ∈ Iic (1 : ℝ) ×ˢ (univ : Set ℝ) := by
      simp only [mem_prod, mem_univ, and_true, mem_Iic]
      unfold unitDisk
      rw [mem_ofPred_eq]
      have h3 : radius (polarCoord.symm p) ^ 2 = (polarCoord.symm p).1 ^ 2 + (polarCoord.symm p).2 ^ 2 := by
        unfold radius
        rw [Real.sq_sqrt (by positivity)]
      rw [← h3, h1]
      constructor
      · intro h; nlinarith
      · intro h; nlinarith
    by_cases h : polarCoord.symm p ∈ unitDisk
    · rw [indicator_of_mem h, indicator_of_mem (hmem.1 h), h1, h2, smul_eq_mul, mul_comm]
    · rw [indicator_of_notMem h, indicator_of_notMem (fun h' => h (hmem.2 h')), smul_zero]
  rw [setIntegral_congr_fun polarCoord.open_target.measurableSet e, setIntegral_indicator (measurableSet_Iic.prod MeasurableSet.univ)]
  have hset : polarCoord.target ∩ Iic (1 : ℝ) ×ˢ univ = Ioc (0 : ℝ) 1 ×ˢ Ioo (-Real.pi) Real.pi := by
    ext q
    simp only [polarCoord_target, mem_inter_iff, mem_prod, mem_Ioi, mem_Ioo, mem_Iic, mem_univ, and_true, mem_Ioc]
    tauto
  rw [hset]
  have hint : IntegrableOn (fun q : ℝ × ℝ => F q.1 q.2 * q.1) (Ioc (0 : ℝ) 1 ×ˢ Ioo (-Real.pi) Real.pi) (volume.prod volume) := by
    have := (hG.continuousOn (s := Icc (0 : ℝ) 1 ×ˢ Icc (-Real.pi) Real.pi)).integrableOn_compact (μ := volume) (isCompact_Icc.prod isCompact_Icc)
    exact this.mono_set (prod_mono Ioc_subset_Icc_self Ioo_subset_Icc_self)
  have hint' : IntegrableOn (fun q : ℝ × ℝ => F q.2 q.1 * q.2) (Ioo (-Real.pi) Real.pi ×ˢ Ioc (0 : ℝ) 1) (volume.prod volume) := hint.swap
  rw [show (volume : Measure (ℝ × ℝ)) = (volume : Measure ℝ).prod volume from rfl, ← setIntegral_prod_swap]
  simp only [Prod.fst_swap, Prod.snd_swap]
  rw [setIntegral_prod _ hint']
  have hp : Function.Periodic (fun t => ∫ r in (0 : ℝ)..1, F r t * r) (2 * Real.pi) := by
    intro t
    simp only [hper]
  have := hp.intervalIntegral_add_eq (-Real.pi) 0
  rw [zero_add, show -Real.pi + 2 * Real.pi = Real.pi by ring] at this
  rw [← this, intervalIntegral.integral_of_le (by linarith), ← integral_Ioc_eq_integral_Ioo]
  simp only [intervalIntegral.integral_of_le zero_le_one]

theorem exactField_lower (Φ : ℝ → ℝ → ℝ) (hΦ : Continuous (Function.uncurry Φ)) (μ : ℝ) :
    Real.pi - (∫ t in (0 : ℝ)..2 * Real.pi, ∫ r in (0 : ℝ)..1, (Φ r t - μ) ^ 2 * r) / 2 ≤ ‖exactField Φ 0 0‖ := by
  have hpi := Real.pi_pos
  have hΦ' : Continuous fun q : ℝ × ℝ => Φ q.1 q.2 := hΦ
  have hF := field_continuous Φ hΦ 0 0
  have hp : ∀ φ, Continuous fun p => pupilFieldXY Φ 0 0 p φ := fun φ => hF.comp (by fun_prop : Continuous fun p : ℝ => (p, φ))
  have hI : Continuous fun φ => ∫ p in (0 : ℝ)..1, pupilFieldXY Φ 0 0 p φ :=
    intervalIntegral.continuous_parametric_intervalIntegral_of_continuous' (f := fun φ p => pupilFieldXY Φ 0 0 p φ) (hF.comp continuous_swap) 0 1
  have hcos : Continuous (Function.uncurry fun φ p => Real.cos (Φ p φ - μ) * p) := by
    have : Continuous fun q : ℝ × ℝ => Φ q.2 q.1 := hΦ'.comp continuous_swap
    unfold Function.uncurry
    fun_prop
  have hsq : Continuous (Function.uncurry fun φ p => (Φ p φ - μ) ^ 2 * p) := by
    have : Continuous fun q : ℝ × ℝ => Φ q.2 q.1 := hΦ'.comp continuous_swap
    unfold Function.uncurry
    fun_prop
  have hIc : Continuous fun φ => ∫ p in (0 : ℝ)..1, Real.cos (Φ p φ - μ) * p := intervalIntegral.continuous_parametric_intervalIntegral_of_continuous' hcos 0 1
  have hIs : Continuous fun φ => ∫ p in (0 : ℝ)..1, (Φ p φ - μ) ^ 2 * p := intervalIntegral.continuous_parametric_intervalIntegral_of_continuous' hsq 0 1
  -- the real part after a rotation of the phase
  have hre : (Complex.exp (((-μ : ℝ) : ℂ) * Complex.I) * exactField Φ 0 0).re = ∫ φ in (0 : ℝ)..2 * Real.pi, ∫ p in (0 : ℝ)..1, Real.cos (Φ p φ - μ) * p := by
    unfold exactField
    rw [← intervalIntegral.integral_const_mul]
    have a := Complex.reCLM.intervalIntegral_comp_comm (a := 0) (b := 2 * Real.pi) (μ := volume)
      (f := fun φ => Complex.exp (((-μ : ℝ) : ℂ) * Complex.I) * ∫ p in (0 : ℝ)..1, pupilFieldXY Φ 0 0 p φ)
      ((continuous_const.mul hI).intervalIntegrable _ _)
    simp only [Complex.reCLM_apply] at a
    rw [← a]
    congr 1
    funext φ
    rw [← intervalIntegral.integral_const_mul]
    have b := Complex.reCLM.intervalIntegral_comp_comm (a := 0) (b := 1) (μ := volume)
      (f := fun p => Complex.exp (((-μ : ℝ) : ℂ) * Complex.I) * pupilFieldXY Φ 0 0 p φ) ((continuous_const.mul (hp φ)).intervalIntegrable _ _)
    simp only [Complex.reCLM_apply] at b
    rw [← b]
    congr 1
    funext p
    unfold pupilFieldXY
    have : Complex.exp (((-μ : ℝ) : ℂ) * Complex.I) * (Complex.exp (Complex.I * ((Φ p φ - p * (0 * Real.cos φ + 0 * Real.sin φ) : ℝ) : ℂ)) * (p : ℂ)) =
        Complex.exp (((Φ p φ - μ : ℝ) : ℂ) * Complex.I) * (p : ℂ) := by
      rw [← mul_assoc, ← Complex.exp_add]
      congr 2
      push_cast
      ring
    rw [this, Complex.re_mul_ofReal, Complex.exp_ofReal_mul_I_re]
  have hle : (Complex.exp (((-μ : ℝ) : ℂ) * Complex.I) * exactField Φ 0 0).re ≤ ‖exactField Φ 0 0‖ := by
    have := Complex.re_le_norm (Complex.exp (((-μ : ℝ) : ℂ) * Complex.I) * exactField Φ 0 0)
    rwa [norm_mul, Complex.norm_exp_ofReal_mul_I, one_mul] at this
  refine le_trans ?_ hle
  rw [hre]
  have inner : ∀ φ, 1 / 2 - (∫ p in (0 : ℝ)..1, (Φ p φ - μ) ^ 2 * p) / 2 ≤ ∫ p in (0 : ℝ)..1, Real.cos (Φ p φ - μ) * p := by
    intro φ
    have c1 : Continuous fun p => (Φ p φ - μ) ^ 2 * p := hsq.comp (by fun_prop : Continuous fun p : ℝ => (φ, p))
    have c2 : Continuous fun p => Real.cos (Φ p φ - μ) * p := hcos.comp (by fun_prop : Continuous fun p : ℝ => (φ, p))
    have e : 1 / 2 - (∫ p in (0 : ℝ)..1, (Φ p φ - μ) ^ 2 * p) / 2 = ∫ p in (0 : ℝ)..1, (p - (Φ p φ - μ) ^ 2 * p / 2) := by
      rw [intervalIntegral.integral_sub (continuous_id'.intervalIntegrable _ _) ((c1.div_const 2).intervalIntegrable _ _), integral_id,
        intervalIntegral.integral_div]
      norm_num
    rw [e]
    apply intervalIntegral.integral_mono_on zero_le_one ((continuous_id'.sub (c1.div_const 2)).intervalIntegrable _ _) (c2.intervalIntegrable _ _)
    intro p hp
    have := Real.one_sub_sq_div_two_le_cos (x := Φ p φ - μ)
    show p - (Φ p φ - μ) ^ 2 * p / 2 ≤ _
    nlinarith [hp.1]
  have e : Real.pi - (∫ t in (0 : ℝ)..2 * Real.pi, ∫ r in (0 : ℝ)..1, (Φ r t - μ) ^ 2 * r) / 2 =
      ∫ φ in (0 : ℝ)..2 * Real.pi, (1 / 2 - (∫ p in (0 : ℝ)..1, (Φ p φ - μ) ^ 2 * p) / 2) := by
    rw [intervalIntegral.integral_sub (continuous_const.intervalIntegrable _ _) ((hIs.div_const 2).intervalIntegrable _ _),
      intervalIntegral.integral_const, intervalIntegral.integral_div]
    simp
    ring
  rw [e]
  exact intervalIntegral.integral_mono_on (by positivity) ((continuous_const.sub (hIs.div_const 2)).intervalIntegrable _ _)
    (hIc.intervalIntegrable _ _) fun φ _ => inner φ

theorem exactPsf_le_one (Φ : ℝ → ℝ → ℝ) (x y : ℝ) : exactPsf Φ x y ≤ 1 := by
  have hpi := Real.pi_pos
  have inner : ∀ φ, ‖∫ p in (0 : ℝ)..1, pupilFieldXY Φ x y p φ‖ ≤ 1 / 2 := by
    intro φ
    have := intervalIntegral.norm_integral_le_of_norm_le (μ := volume) (a := 0) (b := 1) zero_le_one
      (f := fun p => pupilFieldXY Φ x y p φ) (g := fun p => p) (by
        filter_upwards with t ht
        exact (norm_pupilFieldXY _ _ _ _ _ ht.1.le).le) (continuous_id'.intervalIntegrable _ _)
    rw [integral_id] at this
    norm_num at this ⊢
    exact this
  have h : ‖exactField Φ x y‖ ≤ Real.pi := by
    have := intervalIntegral.norm_integral_le_of_norm_le_const (a := 0) (b := 2 * Real.pi) (C := 1 / 2)
      (f := fun φ => ∫ p in (0 : ℝ)..1, pupilFieldXY Φ x y p φ) fun φ _ => inner φ
    rw [sub_zero, abs_of_nonneg (by positivity)] at this
    unfold exactField
    linarith
  unfold exactPsf
  rw [div_le_one (by positivity)]
  exact pow_le_pow_left₀ (norm_nonneg _) h 2

/-- The non-piston part of a combination. -/
theorem combination_split (cs : List ℝ) (os : List (Int × Int)) (h : ∀ p ∈ os, ValidOrders p.1 p.2) :
    ∃ μ : ℝ, ∀ r t, combination cs os r t - μ = combination (((cs.zip os).filter fun q => q.2.2 ≠ 0).map Prod.fst)
      (((cs.zip os).filter fun q => q.2.2 ≠ 0).map Prod.snd) r t := by
  induction os generalizing cs with
  | nil => exact ⟨0, fun r t => by simp [combination]⟩
  | cons o os ih =>
    cases cs with
    | nil => exact ⟨0, fun r t => by simp [combination]⟩
    | cons c cs =>
      obtain ⟨μ, hμ⟩ := ih cs (fun p hp => h p (List.mem_cons_of_mem _ hp))
      by_cases hn : o.2 = 0
      · refine ⟨c + μ, fun r t => ?_⟩
        have hv := h o List.mem_cons_self
        have hm : o.1 = 0 := by
          obtain ⟨_, h2, _⟩ := hv
          rw [hn] at h2
          exact abs_eq_zero.1 (le_antisymm h2 (abs_nonneg _))
        have h1 : zernike o.1 o.2 r t = 1 := by rw [hm, hn]; simp [zernike, Spec.norm, Spec.radial, angular]
        have e : combination (c :: cs) (o :: os) r t = c * zernike o.1 o.2 r t + combination cs os r t := by simp [combination]
        rw [List.zip_cons_cons, List.filter_cons_of_neg (by simpa using hn), ← hμ, e, h1]
        ring
      · refine ⟨μ, fun r t => ?_⟩
        have e : ∀ (c : ℝ) (cs : List ℝ) o os, combination (c :: cs) (o :: os) r t = c * zernike o.1 o.2 r t + combination cs os r t := by
          intros; simp [combination]
        rw [List.zip_cons_cons, List.filter_cons_of_pos (by simpa using hn), List.map_cons, List.map_cons, e, e, ← hμ]
        ring

theorem disk_eq_polar (cs : List ℝ) (os : List (Int × Int)) :
    Real.pi * diskMean (fun r t => combination cs os r t ^ 2) = ∫ t in (0 : ℝ)..2 * Real.pi, ∫ r in (0 : ℝ)..1, combination cs os r t ^ 2 * r := by
  have hpi := Real.pi_pos
  unfold diskMean
  rw [← mul_assoc, mul_one_div_cancel hpi.ne', one_mul]
  refine integral_disk_continuous (fun r t => combination cs os r t ^ 2) ((combination_continuous cs os).pow 2) fun r t => ?_
  have hz : ∀ m n, zernike m n r (t + 2 * Real.pi) = zernike m n r t := by
    intro m n
    unfold zernike angular
    congr 1
    split_ifs
    · rw [mul_add]; exact Real.cos_add_int_mul_two_pi _ m
    · rw [mul_add]; exact Real.sin_add_int_mul_two_pi _ |m|
  simp only [combination, hz]

/-- Lower bound of the exact PSF in the centre. -/
theorem exactPsf_lower (cs : List ℝ) (os : List (Int × Int)) (hl : cs.length = os.length) (hd : os.Nodup) (h : ∀ p ∈ os, ValidOrders p.1 p.2)
    (V : ℝ) (hV : V = (((cs.zip os).filter fun q => q.2.2 ≠ 0).map fun q => q.1 ^ 2).sum) (h2 : V ≤ 2) :
    (1 - V / 2) ^ 2 ≤ exactPsf (combination cs os) 0 0 := by
  have hpi := Real.pi_pos
  obtain ⟨μ, hμ⟩ := combination_split cs os h
  have a := exactField_lower _ (combination_continuous cs os) μ
  simp only [hμ] at a
  have hsub : ((cs.zip os).map Prod.snd) = os := by rw [List.map_snd_zip]; omega
  rw [← disk_eq_polar, diskMean_sq, List.map_map] at a
  · have e : ((fun c : ℝ => c ^ 2) ∘ Prod.fst : ℝ × (Int × Int) → ℝ) = fun q => q.1 ^ 2 := rfl
    rw [e, ← hV] at a
    unfold exactPsf
    rw [le_div_iff₀ (by positivity), ← mul_pow]
    refine pow_le_pow_left₀ (by nlinarith) ?_ 2
    linarith
  · simp
  · have : (((cs.zip os).filter fun q => q.2.2 ≠ 0).map Prod.snd).Sublist os := by
      conv_rhs => rw [← hsub]
      exact (List.filter_sublist).map _
    exact this.nodup hd
  · intro p hp
    obtain ⟨q, hq, rfl⟩ := List.mem_map.1 hp
    exact h _ (List.of_mem_zip (List.mem_of_mem_filter hq)).2

end Verif.Proofs
