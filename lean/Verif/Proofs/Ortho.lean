import Verif.Spec.Zernike
import Verif.Proofs.RadialOrtho
import Mathlib.Analysis.SpecialFunctions.PolarCoord
import Mathlib.MeasureTheory.Integral.Prod

/-! # Orthonormality of the Zernike polynomials on the unit disk -/

namespace Verif.Proofs
open Verif.Spec Verif.Model MeasureTheory Set

/-! ### Angular part -/

theorem integral_cos_int (k : Int) : ∫ t in (-Real.pi)..Real.pi, Real.cos ((k : ℝ) * t) = if k = 0 then 2 * Real.pi else 0 := by
  split_ifs with h
  · subst h; simp; ring
  · have hk : (k : ℝ) ≠ 0 := by exact_mod_cast h
    rw [intervalIntegral.integral_comp_mul_left (fun x => Real.cos x) hk, integral_cos]
    rw [mul_neg, Real.sin_neg, Real.sin_int_mul_pi]; simp

theorem integral_sin_int (k : Int) : ∫ t in (-Real.pi)..Real.pi, Real.sin ((k : ℝ) * t) = 0 := by
  by_cases h : k = 0
  · subst h; simp
  · have hk : (k : ℝ) ≠ 0 := by exact_mod_cast h
    rw [intervalIntegral.integral_comp_mul_left (fun x => Real.sin x) hk, integral_sin]
    rw [mul_neg, Real.cos_neg]; simp

theorem angular_cases (m : Int) : (0 ≤ m ∧ ∀ t, angular m t = Real.cos ((m : ℝ) * t)) ∨
    (m < 0 ∧ ∀ t, angular m t = -Real.sin ((m : ℝ) * t)) := by
  rcases lt_or_ge m 0 with h | h
  · right
    refine ⟨h, fun t => ?_⟩
    unfold angular
    rw [if_neg (by omega), abs_of_neg h]; push_cast; rw [neg_mul, Real.sin_neg]
  · left
    refine ⟨h, fun t => ?_⟩
    unfold angular; rw [if_pos h]

theorem angular_orth (m m' : Int) : ∫ t in (-Real.pi)..Real.pi, angular m t * angular m' t =
    if m = m' then (if m = 0 then 2 * Real.pi else Real.pi) else 0 := by
  have hc : ∀ k : Int, IntervalIntegrable (fun t : ℝ => Real.cos ((k : ℝ) * t) / 2) volume (-Real.pi) Real.pi :=
    fun k => Continuous.intervalIntegrable (by fun_prop) _ _
  have hs : ∀ k : Int, IntervalIntegrable (fun t : ℝ => Real.sin ((k : ℝ) * t) / 2) volume (-Real.pi) Real.pi :=
    fun k => Continuous.intervalIntegrable (by fun_prop) _ _
  rcases angular_cases m with ⟨h, e⟩ | ⟨h, e⟩ <;> rcases angular_cases m' with ⟨h', e'⟩ | ⟨h', e'⟩
  · have : ∀ t, angular m t * angular m' t = Real.cos (((m - m' : Int) : ℝ) * t) / 2 + Real.cos (((m + m' : Int) : ℝ) * t) / 2 := by
      intro t
      rw [e, e']; push_cast; rw [sub_mul, add_mul, Real.cos_sub, Real.cos_add]; ring
    simp only [this]
    rw [intervalIntegral.integral_add (hc _) (hc _), intervalIntegral.integral_div, intervalIntegral.integral_div,
      integral_cos_int, integral_cos_int]
    split_ifs <;> first | omega | ring
  · have : ∀ t, angular m t * angular m' t = Real.sin (((m - m' : Int) : ℝ) * t) / 2 - Real.sin (((m + m' : Int) : ℝ) * t) / 2 := by
      intro t
      rw [e, e']; push_cast; rw [sub_mul, add_mul, Real.sin_sub, Real.sin_add]; ring
    simp only [this]
    rw [intervalIntegral.integral_sub (hs _) (hs _), intervalIntegral.integral_div, intervalIntegral.integral_div,
      integral_sin_int, integral_sin_int, if_neg (by omega)]
    ring
  · have : ∀ t, angular m t * angular m' t = Real.sin (((m' - m : Int) : ℝ) * t) / 2 - Real.sin (((m' + m : Int) : ℝ) * t) / 2 := by
      intro t
      rw [e, e']; push_cast; rw [sub_mul, add_mul, Real.sin_sub, Real.sin_add]; ring
    simp only [this]
    rw [intervalIntegral.integral_sub (hs _) (hs _), intervalIntegral.integral_div, intervalIntegral.integral_div,
      integral_sin_int, integral_sin_int, if_neg (by omega)]
    ring
  · have : ∀ t, angular m t * angular m' t = Real.cos (((m - m' : Int) : ℝ) * t) / 2 - Real.cos (((m + m' : Int) : ℝ) * t) / 2 := by
      intro t
      rw [e, e']; push_cast; rw [sub_mul, add_mul, Real.cos_sub, Real.cos_add]; ring
    simp only [this]
    rw [intervalIntegral.integral_sub (hc _) (hc _), intervalIntegral.integral_div, intervalIntegral.integral_div,
      integral_cos_int, integral_cos_int]
    split_ifs <;> first | omega | ring

/-! ### Radial part -/

theorem RR_orth (m n n' : Int) (h : ValidOrders m n) (h' : ValidOrders m n') :
    ∫ r in (0 : ℝ)..1, RR m n r * RR m n' r * r = if n = n' then 1 / (2 * ((n : ℝ) + 1)) else 0 := by
  have key : ∀ (m : Int), 0 ≤ m → ∀ n n' : Int, ValidOrders m n → ValidOrders m n' → n' < n →
      ∫ r in (0 : ℝ)..1, RR m n r * RR m n' r * r = 0 := by
    intro m hm n n' h h' hlt
    rw [valid_iff] at h h'
    unfold RR
    obtain ⟨t, ht⟩ : ∃ t : Nat, n = n' + 2 * t := ⟨((n - n') / 2).toNat, by omega⟩
    rw [show ((n + m) / 2).toNat = ((n' + m) / 2).toNat + t by omega, show ((n - m) / 2).toNat = ((n' - m) / 2).toNat + t by omega]
    exact Rab_orth _ _ _ (by omega) (by omega)
  have nrm : ∀ (m : Int), 0 ≤ m → ∀ n : Int, ValidOrders m n →
      ∫ r in (0 : ℝ)..1, RR m n r * RR m n r * r = 1 / (2 * ((n : ℝ) + 1)) := by
    intro m hm n h
    rw [valid_iff] at h
    unfold RR
    rw [Rab_norm _ _ (by omega)]
    have : ((((n + m) / 2).toNat : ℝ) + (((n - m) / 2).toNat : ℝ)) = n := by
      have : ((((n + m) / 2).toNat : ℤ) + (((n - m) / 2).toNat : ℤ)) = n := by omega
      exact_mod_cast congrArg (fun z : ℤ => (z : ℝ)) this
    rw [this]
  have hv := valid_pyAbs h
  have hv' := valid_pyAbs h'
  have hp : 0 ≤ pyAbs m := by unfold pyAbs; split_ifs <;> omega
  simp only [← RR_abs m]
  rcases lt_trichotomy n n' with hl | rfl | hl
  · rw [if_neg (by omega)]
    exact Eq.trans (intervalIntegral.integral_congr fun r _ => by ring_nf) (key _ hp n' n hv' hv hl)
  · rw [if_pos rfl]; exact nrm _ hp n hv
  · rw [if_neg (by omega)]; exact key _ hp n n' hv hv' hl

/-! ### The disk -/

theorem unitDisk_measurable : MeasurableSet unitDisk := by
  unfold unitDisk
  exact (isClosed_le (by fun_prop) continuous_const).measurableSet

/-- Integral over the disk of a product of a radial and an angular function. -/
theorem integral_disk (f g : ℝ → ℝ) : ∫ p in unitDisk, f (radius p) * g (angle p) =
    (∫ r in (0 : ℝ)..1, f r * r) * ∫ t in (-Real.pi)..Real.pi, g t := by
  rw [← integral_indicator unitDisk_measurable, ← integral_comp_polarCoord_symm]
  have e : ∀ p ∈ polarCoord.target,
      p.1 • unitDisk.indicator (fun p => f (radius p) * g (angle p)) (polarCoord.symm p) =
      (Iic (1 : ℝ)).indicator (fun r => f r * r) p.1 * g p.2 := by
    intro p hp
    have hq := polarCoord.right_inv hp
    have h1 : radius (polarCoord.symm p) = p.1 := congrArg Prod.fst hq
    have h2 : angle (polarCoord.symm p) = p.2 := congrArg Prod.snd hq
    have hp1 : 0 < p.1 := hp.1
    have hmem : polarCoord.symm p ∈ unitDisk ↔ p.1 ∈ Iic (1 : ℝ) := by
      unfold unitDisk
      rw [mem_ofPred_eq, mem_Iic, ← h1]
      unfold radius
      rw [Real.sqrt_le_one]
    by_cases hm : p.1 ∈ Iic (1 : ℝ)
    · rw [indicator_of_mem (hmem.2 hm), indicator_of_mem hm, h1, h2, smul_eq_mul]; ring
    · rw [indicator_of_notMem (fun h => hm (hmem.1 h)), indicator_of_notMem hm]; simp
  rw [setIntegral_congr_fun polarCoord.open_target.measurableSet e]
  rw [show polarCoord.target = Ioi (0 : ℝ) ×ˢ Ioo (-Real.pi) Real.pi from rfl]
  rw [Measure.volume_eq_prod, setIntegral_prod_mul ((Iic (1 : ℝ)).indicator (fun r => f r * r)) g]
  rw [setIntegral_indicator measurableSet_Iic, Ioi_inter_Iic,
    intervalIntegral.integral_of_le zero_le_one, intervalIntegral.integral_of_le (by linarith [Real.pi_pos]),
    integral_Ioc_eq_integral_Ioo]
  congr 1
  exact integral_Ioc_eq_integral_Ioo.symm

theorem norm_sq (m n : Int) (hn : 0 ≤ n) : Spec.norm m n * Spec.norm m n = if m = 0 then (n : ℝ) + 1 else 2 * ((n : ℝ) + 1) := by
  unfold Spec.norm
  have : (0 : ℝ) ≤ n := by exact_mod_cast hn
  apply Real.mul_self_sqrt
  split_ifs <;> linarith

theorem zernike_orthonormal (m n m' n' : Int) (h : ValidOrders m n) (h' : ValidOrders m' n') :
    diskMean (fun r t => zernike m n r t * zernike m' n' r t) = if m = m' ∧ n = n' then 1 else 0 := by
  unfold diskMean
  have e : ∀ p, zernike m n (radius p) (angle p) * zernike m' n' (radius p) (angle p) =
      ((Spec.norm m n * Spec.norm m' n') * (RR m n (radius p) * RR m' n' (radius p))) *
        (angular m (angle p) * angular m' (angle p)) := by
    intro p
    unfold zernike
    rw [spec_radial_eq _ _ _ h, spec_radial_eq _ _ _ h']; ring
  simp only [e]
  rw [integral_disk (fun r => (Spec.norm m n * Spec.norm m' n') * (RR m n r * RR m' n' r)) (fun t => angular m t * angular m' t),
    angular_orth]
  by_cases hm : m = m'
  · subst hm
    rw [if_pos rfl]
    have : ∀ r : ℝ, Spec.norm m n * Spec.norm m n' * (RR m n r * RR m n' r) * r =
      (Spec.norm m n * Spec.norm m n') * (RR m n r * RR m n' r * r) := fun r => by ring
    simp only [this]
    rw [intervalIntegral.integral_const_mul, RR_orth m n n' h h']
    by_cases hn : n = n'
    · subst hn
      have hnn : 0 ≤ n := h.1
      have hnr : (0 : ℝ) ≤ n := by exact_mod_cast hnn
      have hpi := Real.pi_pos.ne'
      rw [norm_sq m n hnn]
      simp only [and_self, if_true]
      split_ifs <;> field_simp
    · simp [hn]
  · simp [hm]

end Verif.Proofs
