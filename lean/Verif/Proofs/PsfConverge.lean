import Verif.Proofs.Quadrature
import Mathlib.Topology.UniformSpace.HeineCantor
import Mathlib.Topology.MetricSpace.Basic
import Mathlib.Analysis.SpecialFunctions.Exp

/-! # The numerical PSF converges to the exact one -/

namespace Verif.Proofs
open Verif.Spec MeasureTheory Filter Topology

theorem field_continuous (Φ : ℝ → ℝ → ℝ) (hΦ : Continuous (Function.uncurry Φ)) (x y : ℝ) :
    Continuous (Function.uncurry fun p φ => pupilFieldXY Φ x y p φ) := by
  have h : Continuous fun q : ℝ × ℝ => Φ q.1 q.2 := hΦ
  unfold pupilFieldXY Function.uncurry
  have : Continuous fun q : ℝ × ℝ => Φ q.1 q.2 - q.1 * (x * Real.cos q.2 + y * Real.sin q.2) := by fun_prop
  exact (Complex.continuous_exp.comp (continuous_const.mul (Complex.continuous_ofReal.comp this))).mul
    (Complex.continuous_ofReal.comp continuous_fst)

/-- Error of the field for given oscillations of the integrand. -/
theorem field_error (Φ : ℝ → ℝ → ℝ) (hΦ : Continuous (Function.uncurry Φ)) (x y : ℝ) (nR nPhi : ℕ) (hR : 0 < nR) (hPhi : 4 ≤ nPhi) (ε : ℝ)
    (h1 : ∀ p p' φ, 0 ≤ p → p ≤ 1 → 0 ≤ p' → p' ≤ 1 → 0 ≤ φ → φ ≤ 2 * Real.pi → |p - p'| ≤ 1 / (nR : ℝ) →
      ‖pupilFieldXY Φ x y p φ - pupilFieldXY Φ x y p' φ‖ ≤ ε)
    (h2 : ∀ p φ φ', 0 ≤ p → p ≤ 1 → 0 ≤ φ → φ ≤ 2 * Real.pi → 0 ≤ φ' → φ' ≤ 2 * Real.pi → |φ - φ'| ≤ 2 * (2 * Real.pi / (nPhi : ℝ)) →
      ‖pupilFieldXY Φ x y p φ - pupilFieldXY Φ x y p φ'‖ ≤ ε) :
    ‖(angularRule nPhi fun φ => trapezoid nR fun p => pupilFieldXY Φ x y p φ) - exactField Φ x y‖ ≤
      4 * Real.pi * ε + 6 * Real.pi / nPhi := by
  have hpi := Real.pi_pos
  have hF := field_continuous Φ hΦ x y
  have hε : 0 ≤ ε := (norm_nonneg _).trans (h1 0 0 0 le_rfl zero_le_one le_rfl zero_le_one le_rfl (by positivity) (by simp))
  have hp : ∀ φ, Continuous fun p => pupilFieldXY Φ x y p φ := fun φ =>
    hF.comp (by fun_prop : Continuous fun p : ℝ => (p, φ))
  have hI : Continuous fun φ => ∫ p in (0 : ℝ)..1, pupilFieldXY Φ x y p φ :=
    intervalIntegral.continuous_parametric_intervalIntegral_of_continuous' (f := fun φ p => pupilFieldXY Φ x y p φ)
      (hF.comp continuous_swap) 0 1
  have a := angularRule_sub_le nPhi (by omega) (fun φ => trapezoid nR fun p => pupilFieldXY Φ x y p φ)
    (fun φ => ∫ p in (0 : ℝ)..1, pupilFieldXY Φ x y p φ) ε hε (fun φ hφ0 hφ1 =>
      trapezoid_error nR hR _ (hp φ) ε fun s t hs0 hs1 ht0 ht1 hst => h1 s t φ hs0 hs1 ht0 ht1 hφ0 hφ1 hst)
  have b := rule_error nPhi hPhi (fun φ => ∫ p in (0 : ℝ)..1, pupilFieldXY Φ x y p φ) hI ε 1 (fun φ _ _ => by
      have := intervalIntegral.norm_integral_le_of_norm_le_const (a := 0) (b := 1) (C := 1) (f := fun p => pupilFieldXY Φ x y p φ) (by
        intro t ht
        rw [Set.uIoc_of_le zero_le_one] at ht
        rw [norm_pupilFieldXY _ _ _ _ _ ht.1.le]
        exact ht.2)
      simpa using this) (fun s t hs0 hs1 ht0 ht1 hst => by
      rw [← intervalIntegral.integral_sub ((hp s).intervalIntegrable _ _) ((hp t).intervalIntegrable _ _)]
      have := intervalIntegral.norm_integral_le_of_norm_le_const (a := 0) (b := 1) (C := ε)
        (f := fun p => pupilFieldXY Φ x y p s - pupilFieldXY Φ x y p t) (by
        intro p hp
        rw [Set.uIoc_of_le zero_le_one] at hp
        exact h2 p s t hp.1.le hp.2 hs0 hs1 ht0 ht1 hst)
      simpa using this)
  unfold exactField
  have := norm_sub_le_norm_sub_add_norm_sub (angularRule nPhi fun φ => trapezoid nR fun p => pupilFieldXY Φ x y p φ)
    (angularRule nPhi fun φ => ∫ p in (0 : ℝ)..1, pupilFieldXY Φ x y p φ) (∫ φ in (0 : ℝ)..2 * Real.pi, ∫ p in (0 : ℝ)..1, pupilFieldXY Φ x y p φ)
  have e : 3 * (2 * Real.pi / (nPhi : ℝ)) * 1 = 6 * Real.pi / nPhi := by ring
  rw [e] at b
  linarith

theorem field_tendsto (Φ : ℝ → ℝ → ℝ) (hΦ : Continuous (Function.uncurry Φ)) (x y : ℝ) :
    Tendsto (fun N : ℕ × ℕ => angularRule N.2 fun φ => trapezoid N.1 fun p => pupilFieldXY Φ x y p φ) atTop (𝓝 (exactField Φ x y)) := by
  have hpi := Real.pi_pos
  rw [Metric.tendsto_atTop]
  intro ε hε
  have hu := (isCompact_Icc.prod isCompact_Icc : IsCompact (Set.Icc (0 : ℝ) 1 ×ˢ Set.Icc (0 : ℝ) (2 * Real.pi))).uniformContinuousOn_of_continuous
    (field_continuous Φ hΦ x y).continuousOn
  rw [Metric.uniformContinuousOn_iff] at hu
  obtain ⟨δ, hδ, hu⟩ := hu (ε / (8 * Real.pi)) (by positivity)
  obtain ⟨N1, hN1⟩ := exists_nat_gt (1 / δ)
  obtain ⟨N2, hN2⟩ := exists_nat_gt (4 * Real.pi / δ)
  obtain ⟨N3, hN3⟩ := exists_nat_gt (12 * Real.pi / ε)
  refine ⟨(N1 + 1, N2 + N3 + 4), fun N hN => ?_⟩
  obtain ⟨hNa, hNb⟩ := hN
  simp only at hNa hNb
  have ca : (N1 : ℝ) + 1 ≤ N.1 := by exact_mod_cast hNa
  have cb : (N2 : ℝ) + N3 + 4 ≤ N.2 := by exact_mod_cast hNb
  have n2 : (0 : ℝ) ≤ N2 := by positivity
  have n3 : (0 : ℝ) ≤ N3 := by positivity
  have n1 : (0 : ℝ) ≤ N1 := by positivity
  rw [dist_eq_norm]
  have key := field_error Φ hΦ x y N.1 N.2 (by omega) (by omega) (ε / (8 * Real.pi)) (by
      intro p p' φ h0 h1 h0' h1' hφ0 hφ1 hd
      have := hu (p, φ) ⟨⟨h0, h1⟩, hφ0, hφ1⟩ (p', φ) ⟨⟨h0', h1'⟩, hφ0, hφ1⟩ (by
        rw [Prod.dist_eq, dist_self, max_eq_left dist_nonneg, Real.dist_eq]
        refine lt_of_le_of_lt hd ?_
        rw [div_lt_iff₀ (by linarith)]
        rw [div_lt_iff₀ hδ] at hN1
        nlinarith)
      rw [dist_eq_norm] at this
      exact this.le) (by
      intro p φ φ' h0 h1 hφ0 hφ1 hφ0' hφ1' hd
      have := hu (p, φ) ⟨⟨h0, h1⟩, hφ0, hφ1⟩ (p, φ') ⟨⟨h0, h1⟩, hφ0', hφ1'⟩ (by
        rw [Prod.dist_eq, dist_self, max_eq_right dist_nonneg, Real.dist_eq]
        refine lt_of_le_of_lt hd ?_
        rw [mul_div_assoc', div_lt_iff₀ (by linarith)]
        rw [div_lt_iff₀ hδ] at hN2
        nlinarith)
      rw [dist_eq_norm] at this
      exact this.le)
  refine lt_of_le_of_lt key ?_
  have e1 : 4 * Real.pi * (ε / (8 * Real.pi)) = ε / 2 := by field_simp; norm_num
  have e2 : 6 * Real.pi / (N.2 : ℝ) < ε / 2 := by
    rw [div_lt_iff₀ (by linarith)]
    rw [div_lt_iff₀ hε] at hN3
    nlinarith
  linarith

theorem psf_tendsto (Φ : ℝ → ℝ → ℝ) (hΦ : Continuous (Function.uncurry Φ)) (x y : ℝ) :
    Tendsto (fun N : ℕ × ℕ => psfXY Φ x y N.1 N.2) atTop (𝓝 (exactPsf Φ x y)) :=
  ((field_tendsto Φ hΦ x y).norm.pow 2).div_const _

theorem zernike_continuous (m n : Int) : Continuous (Function.uncurry (zernike m n)) := by
  unfold Function.uncurry zernike Spec.radial angular
  split_ifs <;> fun_prop

theorem combination_continuous (cs : List ℝ) (os : List (Int × Int)) : Continuous (Function.uncurry (combination cs os)) := by
  have : Function.uncurry (combination cs os) = fun q : ℝ × ℝ => ((cs.zip os).map fun p => p.1 * Function.uncurry (zernike p.2.1 p.2.2) q).sum := rfl
  rw [this]
  apply continuous_list_sum
  intro p _
  exact continuous_const.mul (zernike_continuous _ _)

end Verif.Proofs
