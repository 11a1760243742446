import Verif.Proofs.Strehl
import Mathlib.Analysis.Fourier.AddCircleMulti
import Mathlib.MeasureTheory.Measure.Lebesgue.VolumeOfBalls

/-! # The total of the PSF over all pixels (Parseval's identity) -/

namespace Verif.Proofs
open Verif.Spec MeasureTheory Set

attribute [local instance 2000] instMeasureSpaceUnitAddCircle

local instance circleProbability : IsProbabilityMeasure (volume : Measure UnitAddCircle) :=
  inferInstanceAs (IsProbabilityMeasure AddCircle.haarAddCircle)

/-- Integration over the unit disk in polar coordinates, for a continuous complex function with the period 2π of the angle. -/
theorem integral_disk_complex (F : ℝ → ℝ → ℂ) (hF : Continuous (Function.uncurry F)) (hper : ∀ r t, F r (t + 2 * Real.pi) = F r t) :
    ∫ p in unitDisk, F (radius p) (angle p) = ∫ t in (0 : ℝ)..2 * Real.pi, ∫ r in (0 : ℝ)..1, F r t * (r : ℂ) := by
  have hpi := Real.pi_pos
  have hG : Continuous fun q : ℝ × ℝ => F q.1 q.2 * (q.1 : ℂ) :=
    (show Continuous fun q : ℝ × ℝ => F q.1 q.2 from hF).mul (Complex.continuous_ofReal.comp continuous_fst)
  rw [← integral_indicator unitDisk_measurable, ← integral_comp_polarCoord_symm]
  have e : ∀ p ∈ polarCoord.target,
      p.1 • unitDisk.indicator (fun p => F (radius p) (angle p)) (polarCoord.symm p) =
      (Iic (1 : ℝ) ×ˢ univ).indicator (fun q : ℝ × ℝ => F q.1 q.2 * (q.1 : ℂ)) p := by
    intro p hp
    have hq := polarCoord.right_inv hp
    have h1 : radius (polarCoord.symm p) = p.1 := congrArg Prod.fst hq
    have h2 : angle (polarCoord.symm p) = p.2 := congrArg Prod.snd hq
    have hp1 : 0 < p.1 := hp.1
    have hmem : polarCoord.symm p ∈ unitDisk ↔ p ∈ Iic (1 : ℝ) ×ˢ (univ : Set ℝ) := by
      simp only [mem_prod, mem_univ, and_true, mem_Iic]
      unfold unitDisk
      rw [mem_ofPred_eq]
      have h3 : radius (polarCoord.symm p) ^ 2 = (polarCoord.symm p).1 ^ 2 + (polarCoord.symm p).2 ^ 2 := by
        unfold radius
        rw [Real.sq_sqrt (by positivity)]
      rw [← h3, h1]
      constructor
      · intro h; nlinarith
      · intro h; nlinarith
    by_cases h : polarCoord.symm p ∈ unitDisk
    · rw [indicator_of_mem h, indicator_of_mem (hmem.1 h), h1, h2, Complex.real_smul, mul_comm]
    · rw [indicator_of_notMem h, indicator_of_notMem (fun h' => h (hmem.2 h')), smul_zero]
  rw [setIntegral_congr_fun polarCoord.open_target.measurableSet e, setIntegral_indicator (measurableSet_Iic.prod MeasurableSet.univ)]
  have hset : polarCoord.target ∩ Iic (1 : ℝ) ×ˢ univ = Ioc (0 : ℝ) 1 ×ˢ Ioo (-Real.pi) Real.pi := by
    ext q
    simp only [polarCoord_target, mem_inter_iff, mem_prod, mem_Ioi, mem_Ioo, mem_Iic, mem_univ, and_true, mem_Ioc]
    tauto
  rw [hset]
  have hint : IntegrableOn (fun q : ℝ × ℝ => F q.1 q.2 * (q.1 : ℂ)) (Ioc (0 : ℝ) 1 ×ˢ Ioo (-Real.pi) Real.pi) (volume.prod volume) := by
    have := (hG.continuousOn (s := Icc (0 : ℝ) 1 ×ˢ Icc (-Real.pi) Real.pi)).integrableOn_compact (μ := volume) (isCompact_Icc.prod isCompact_Icc)
    exact this.mono_set (prod_mono Ioc_subset_Icc_self Ioo_subset_Icc_self)
  have hint' : IntegrableOn (fun q : ℝ × ℝ => F q.2 q.1 * (q.2 : ℂ)) (Ioo (-Real.pi) Real.pi ×ˢ Ioc (0 : ℝ) 1) (volume.prod volume) := hint.swap
  rw [show (volume : Measure (ℝ × ℝ)) = (volume : Measure ℝ).prod volume from rfl, ← setIntegral_prod_swap]
  simp only [Prod.fst_swap, Prod.snd_swap]
  rw [setIntegral_prod _ hint']
  have hp : Function.Periodic (fun t => ∫ r in (0 : ℝ)..1, F r t * (r : ℂ)) (2 * Real.pi) := by
    intro t
    simp only [hper]
  have := hp.intervalIntegral_add_eq (-Real.pi) 0
  rw [zero_add, show -Real.pi + 2 * Real.pi = Real.pi by ring] at this
  rw [← this, intervalIntegral.integral_of_le (by linarith), ← integral_Ioc_eq_integral_Ioo]
  simp only [intervalIntegral.integral_of_le zero_le_one]

theorem radius_cos_angle (p : ℝ × ℝ) : radius p * Real.cos (angle p) = p.1 ∧ radius p * Real.sin (angle p) = p.2 := by
  have hn : radius p = ‖(⟨p.1, p.2⟩ : ℂ)‖ := by
    rw [Complex.norm_def, Complex.normSq_mk]
    unfold radius
    congr 1
    ring
  unfold angle
  rw [hn]
  exact ⟨Complex.norm_mul_cos_arg _, Complex.norm_mul_sin_arg _⟩

/-- The phase factor of the pupil at a point of the plane. -/
noncomputable def pupilFactor (Φ : ℝ → ℝ → ℝ) (p : ℝ × ℝ) : ℂ := Complex.exp (Complex.I * ((Φ (radius p) (angle p) : ℝ) : ℂ))

/-- The diffraction integral as an integral over the unit disk. -/
theorem exactField_disk (Φ : ℝ → ℝ → ℝ) (hΦ : Continuous (Function.uncurry Φ)) (hper : ∀ r t, Φ r (t + 2 * Real.pi) = Φ r t) (x y : ℝ) :
    exactField Φ x y = ∫ p in unitDisk, pupilFactor Φ p * Complex.exp (-(Complex.I * ((x * p.1 + y * p.2 : ℝ) : ℂ))) := by
  have hΦ' : Continuous fun q : ℝ × ℝ => Φ q.1 q.2 := hΦ
  have h := integral_disk_complex (fun r t => Complex.exp (Complex.I * ((Φ r t - r * (x * Real.cos t + y * Real.sin t) : ℝ) : ℂ))) (by
    unfold Function.uncurry
    fun_prop) (fun r t => by rw [hper, Real.cos_add_two_pi, Real.sin_add_two_pi])
  unfold exactField pupilFieldXY
  rw [← h]
  congr 1
  funext p
  unfold pupilFactor
  rw [← Complex.exp_add]
  congr 1
  obtain ⟨h1, h2⟩ := radius_cos_angle p
  have : radius p * (x * Real.cos (angle p) + y * Real.sin (angle p)) = x * p.1 + y * p.2 := by
    linear_combination x * h1 + y * h2
  rw [this]
  push_cast
  ring

theorem radius_measurable : Measurable radius := by unfold radius; fun_prop

theorem angle_measurable : Measurable angle := by
  unfold angle
  exact Complex.measurable_arg.comp (Complex.measurableEquivRealProd.symm.measurable)

theorem pupilFactor_measurable (Φ : ℝ → ℝ → ℝ) (hΦ : Continuous (Function.uncurry Φ)) : Measurable (pupilFactor Φ) := by
  have h : Measurable fun p : ℝ × ℝ => Φ (radius p) (angle p) := hΦ.measurable.comp (radius_measurable.prodMk angle_measurable)
  unfold pupilFactor
  exact Complex.continuous_exp.measurable.comp ((Complex.measurable_ofReal.comp h).const_mul Complex.I)

theorem pupilFactor_norm (Φ : ℝ → ℝ → ℝ) (p : ℝ × ℝ) : ‖pupilFactor Φ p‖ = 1 := by
  unfold pupilFactor
  rw [mul_comm]
  exact Complex.norm_exp_ofReal_mul_I _

/-- The pupil, reduced to a disk of radius `ρ` in the plane; zero outside. -/
noncomputable def smallPupil (Φ : ℝ → ℝ → ℝ) (ρ : ℝ) (u : Fin 2 → ℝ) : ℂ := unitDisk.indicator (pupilFactor Φ) (ρ⁻¹ * u 0, ρ⁻¹ * u 1)

theorem smallPupil_measurable (Φ : ℝ → ℝ → ℝ) (hΦ : Continuous (Function.uncurry Φ)) (ρ : ℝ) : Measurable (smallPupil Φ ρ) := by
  unfold smallPupil
  exact ((pupilFactor_measurable Φ hΦ).indicator unitDisk_measurable).comp (by fun_prop)

theorem smallPupil_norm_le (Φ : ℝ → ℝ → ℝ) (ρ : ℝ) (u : Fin 2 → ℝ) : ‖smallPupil Φ ρ u‖ ≤ 1 := by
  unfold smallPupil indicator
  split_ifs
  · exact (pupilFactor_norm Φ _).le
  · rw [norm_zero]; exact zero_le_one

/-- It is in the square of the side 1. -/
theorem smallPupil_outside (Φ : ℝ → ℝ → ℝ) (ρ : ℝ) (h0 : 0 < ρ) (h1 : ρ < 1 / 2) (u : Fin 2 → ℝ) (hu : ¬ ∀ i, u i ∈ Ioc (-(1 / 2) : ℝ) (-(1 / 2) + 1)) :
    smallPupil Φ ρ u = 0 := by
  unfold smallPupil
  apply indicator_of_notMem
  intro hm
  apply hu
  have hm : (ρ⁻¹ * u 0) ^ 2 + (ρ⁻¹ * u 1) ^ 2 ≤ 1 := hm
  have key : u 0 ^ 2 + u 1 ^ 2 ≤ ρ ^ 2 := by
    have : (ρ⁻¹ * u 0) ^ 2 + (ρ⁻¹ * u 1) ^ 2 = (u 0 ^ 2 + u 1 ^ 2) / ρ ^ 2 := by field_simp
    rw [this, div_le_one (by positivity)] at hm
    exact hm
  intro i
  have hi : u i ^ 2 ≤ ρ ^ 2 := by fin_cases i <;> simp <;> nlinarith [sq_nonneg (u 0), sq_nonneg (u 1)]
  have := abs_le_of_sq_le_sq' hi h0.le
  constructor <;> linarith [this.1, this.2]

/-- Integration over the plane in the coordinates of the unit disk. -/
theorem integral_small (ρ : ℝ) (h0 : 0 < ρ) {E : Type} [NormedAddCommGroup E] [NormedSpace ℝ E] (g : ℝ × ℝ → E) :
    ∫ u : Fin 2 → ℝ, g (ρ⁻¹ * u 0, ρ⁻¹ * u 1) = ρ ^ 2 • ∫ p, g p := by
  have h := (volume_preserving_finTwoArrow ℝ).integral_comp (MeasurableEquiv.finTwoArrow (α := ℝ)).measurableEmbedding (fun p : ℝ × ℝ => g (ρ⁻¹ * p.1, ρ⁻¹ * p.2))
  have h' : ∫ u : Fin 2 → ℝ, g (ρ⁻¹ * u 0, ρ⁻¹ * u 1) = ∫ p : ℝ × ℝ, g (ρ⁻¹ * p.1, ρ⁻¹ * p.2) := h
  rw [h']
  have := Measure.integral_comp_smul (volume : Measure (ℝ × ℝ)) g ρ⁻¹
  simp only [Module.finrank_prod, Module.finrank_self] at this
  rw [show (fun p : ℝ × ℝ => g (ρ⁻¹ * p.1, ρ⁻¹ * p.2)) = fun p => g (ρ⁻¹ • p) from rfl, this]
  congr 1
  rw [inv_pow, inv_inv, abs_of_nonneg (by positivity)]

theorem disk_area : ∫ p : ℝ × ℝ, unitDisk.indicator (fun _ => (1 : ℝ)) p = Real.pi := by
  rw [integral_indicator unitDisk_measurable]
  have h := integral_disk_continuous (fun _ _ => 1) (by unfold Function.uncurry; fun_prop) (fun _ _ => rfl)
  rw [h]
  simp
  ring

/-- The small pupil on the torus. -/
noncomputable def torusPupil (Φ : ℝ → ℝ → ℝ) (ρ : ℝ) (t : UnitAddTorus (Fin 2)) : ℂ :=
  smallPupil Φ ρ (UnitAddTorus.measurableEquivPiIoc (fun _ : Fin 2 => (-(1 / 2) : ℝ)) t).1

theorem torusPupil_coe (Φ : ℝ → ℝ → ℝ) (ρ : ℝ) (u : Fin 2 → ℝ) (hu : ∀ i, u i ∈ Ioc (-(1 / 2) : ℝ) (-(1 / 2) + 1)) :
    torusPupil Φ ρ (fun i => (u i : UnitAddCircle)) = smallPupil Φ ρ u := by
  unfold torusPupil
  congr 1
  have := (UnitAddTorus.measurableEquivPiIoc (fun _ : Fin 2 => (-(1 / 2) : ℝ))).apply_symm_apply ⟨u, hu⟩
  exact congrArg Subtype.val this

theorem torusPupil_memLp (Φ : ℝ → ℝ → ℝ) (hΦ : Continuous (Function.uncurry Φ)) (ρ : ℝ) : MemLp (torusPupil Φ ρ) 2 volume := by
  have hm : Measurable (torusPupil Φ ρ) :=
    (smallPupil_measurable Φ hΦ ρ).comp (measurable_subtype_coe.comp (UnitAddTorus.measurableEquivPiIoc (fun _ : Fin 2 => (-(1 / 2) : ℝ))).measurable)
  exact MemLp.of_bound hm.aestronglyMeasurable 1 (Filter.Eventually.of_forall fun t => smallPupil_norm_le Φ ρ _)

theorem box_integral (Φ : ℝ → ℝ → ℝ) (ρ : ℝ) (h0 : 0 < ρ) (h1 : ρ < 1 / 2) {E : Type} [NormedAddCommGroup E] [NormedSpace ℝ E]
    (k : UnitAddTorus (Fin 2) → ℂ → E) (hk : ∀ t, k t 0 = 0) :
    ∫ t, k t (torusPupil Φ ρ t) = ∫ u : Fin 2 → ℝ, k (fun i => (u i : UnitAddCircle)) (smallPupil Φ ρ u) := by
  rw [UnitAddTorus.integral_preimage _ (fun _ => (-(1 / 2) : ℝ))]
  have hbox : MeasurableSet {x : Fin 2 → ℝ | ∀ i, x i ∈ Ioc (-(1 / 2) : ℝ) (-(1 / 2) + 1)} := MeasurableSet.univ_pi' (fun i => measurableSet_Ioc)
  rw [setIntegral_congr_fun (g := fun u : Fin 2 → ℝ => k (fun i => (u i : UnitAddCircle)) (smallPupil Φ ρ u)) hbox
    (fun u hu => by simp only; rw [torusPupil_coe Φ ρ u hu])]
  apply setIntegral_eq_integral_of_forall_compl_eq_zero
  intro u hu
  rw [smallPupil_outside Φ ρ h0 h1 u hu, hk]

theorem torusPupil_coeff (Φ : ℝ → ℝ → ℝ) (hΦ : Continuous (Function.uncurry Φ)) (hper : ∀ r t, Φ r (t + 2 * Real.pi) = Φ r t) (ρ : ℝ) (h0 : 0 < ρ) (h1 : ρ < 1 / 2)
    (n : Fin 2 → ℤ) : UnitAddTorus.mFourierCoeff (torusPupil Φ ρ) n = ((ρ ^ 2 : ℝ) : ℂ) * exactField Φ (2 * Real.pi * ρ * n 0) (2 * Real.pi * ρ * n 1) := by
  unfold UnitAddTorus.mFourierCoeff
  rw [box_integral Φ ρ h0 h1 (fun t z => UnitAddTorus.mFourier (-n) t • z) (fun t => smul_zero _)]
  rw [exactField_disk Φ hΦ hper, ← integral_indicator unitDisk_measurable]
  have h := integral_small ρ h0 (unitDisk.indicator fun p => pupilFactor Φ p *
    Complex.exp (-(Complex.I * ((2 * Real.pi * ρ * n 0 * p.1 + 2 * Real.pi * ρ * n 1 * p.2 : ℝ) : ℂ))))
  rw [Complex.real_smul] at h
  rw [← h]
  congr 1
  funext u
  unfold smallPupil indicator
  split_ifs
  · rw [smul_eq_mul, mul_comm]
    congr 1
    rw [show UnitAddTorus.mFourier (-n) (fun i => (u i : UnitAddCircle)) = ∏ i, fourier ((-n) i) (u i : UnitAddCircle) from rfl, Fin.prod_univ_two, fourier_coe_apply,
      fourier_coe_apply, ← Complex.exp_add]
    congr 1
    have : ρ ≠ 0 := h0.ne'
    push_cast
    have hρ : (ρ : ℂ) ≠ 0 := by exact_mod_cast this
    simp only [Pi.neg_apply]
    push_cast
    field_simp
    ring
  · exact smul_zero _

/-- Parseval's identity for the PSF. -/
theorem psf_hasSum (Φ : ℝ → ℝ → ℝ) (hΦ : Continuous (Function.uncurry Φ)) (hper : ∀ r t, Φ r (t + 2 * Real.pi) = Φ r t) (s : ℝ) (h0 : 0 < s) (h1 : s < Real.pi) :
    HasSum (fun n : ℤ × ℤ => exactPsf Φ (s * n.1) (s * n.2)) (4 * Real.pi / s ^ 2) := by
  have hpi := Real.pi_pos
  obtain ⟨ρ, hρ⟩ : ∃ ρ, ρ = s / (2 * Real.pi) := ⟨_, rfl⟩
  have hs : s = 2 * Real.pi * ρ := by rw [hρ]; field_simp
  have r0 : 0 < ρ := by rw [hρ]; positivity
  have r1 : ρ < 1 / 2 := by rw [hρ, div_lt_iff₀ (by positivity)]; linarith
  have hL := torusPupil_memLp Φ hΦ ρ
  have h := UnitAddTorus.hasSum_sq_mFourierCoeff (hL.toLp (torusPupil Φ ρ))
  have hc : ∀ n, UnitAddTorus.mFourierCoeff (hL.toLp (torusPupil Φ ρ)) n = UnitAddTorus.mFourierCoeff (torusPupil Φ ρ) n := by
    intro n
    apply integral_congr_ae
    filter_upwards [hL.coeFn_toLp] with t ht
    rw [ht]
  have ht : ∫ t, ‖hL.toLp (torusPupil Φ ρ) t‖ ^ 2 = Real.pi * ρ ^ 2 := by
    have e : ∫ t, ‖hL.toLp (torusPupil Φ ρ) t‖ ^ 2 = ∫ t, ‖torusPupil Φ ρ t‖ ^ 2 := by
      apply integral_congr_ae
      filter_upwards [hL.coeFn_toLp] with t ht
      rw [ht]
    rw [e, box_integral Φ ρ r0 r1 (fun _ z => ‖z‖ ^ 2) (fun _ => by simp)]
    have := integral_small ρ r0 (unitDisk.indicator fun _ => (1 : ℝ))
    rw [disk_area, smul_eq_mul, mul_comm] at this
    rw [← this]
    congr 1
    funext u
    unfold smallPupil indicator
    split_ifs
    · rw [pupilFactor_norm, one_pow]
    · simp
  rw [ht] at h
  simp only [hc, torusPupil_coeff Φ hΦ hper ρ r0 r1, ← hs] at h
  have h2 := h.mul_left ((Real.pi ^ 2 * ρ ^ 4)⁻¹)
  have h3 := (Equiv.hasSum_iff (finTwoArrowEquiv ℤ).symm).2 h2
  have e4 : (Real.pi ^ 2 * ρ ^ 4)⁻¹ * (Real.pi * ρ ^ 2) = 4 * Real.pi / s ^ 2 := by
    rw [hs]
    field_simp
    norm_num
  rw [e4] at h3
  refine HasSum.congr_fun h3 fun n => ?_
  show exactPsf Φ (s * n.1) (s * n.2) = (Real.pi ^ 2 * ρ ^ 4)⁻¹ * ‖((ρ ^ 2 : ℝ) : ℂ) * exactField Φ (s * n.1) (s * n.2)‖ ^ 2
  unfold exactPsf
  rw [norm_mul, Complex.norm_real, Real.norm_of_nonneg (by positivity)]
  field_simp

end Verif.Proofs
