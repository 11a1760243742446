import Verif.Proofs.Ortho
import Verif.Proofs.RadialBound
import Verif.Proofs.Methods
import Mathlib.MeasureTheory.Function.SpecialFunctions.Basic
import Mathlib.MeasureTheory.Integral.IntegrableOn
import Mathlib.MeasureTheory.Constructions.BorelSpace.Complex

/-! # Means of linear combinations of Zernike polynomials over the disk -/

namespace Verif.Proofs
open Verif.Spec MeasureTheory Set

/-- Bounded on the disk and measurable. -/
structure Tame (f : ℝ → ℝ → ℝ) : Prop where
  meas : Measurable fun p : ℝ × ℝ => f (radius p) (angle p)
  bound : ∃ B, ∀ r t, 0 ≤ r → r ≤ 1 → |f r t| ≤ B

theorem measurable_radius : Measurable radius := by
  unfold radius
  exact (by fun_prop : Continuous fun p : ℝ × ℝ => Real.sqrt (p.1 ^ 2 + p.2 ^ 2)).measurable

theorem measurable_angle : Measurable angle := by
  unfold angle
  apply Complex.measurable_arg.comp
  have : (fun p : ℝ × ℝ => (⟨p.1, p.2⟩ : ℂ)) = fun p => (p.1 : ℂ) + (p.2 : ℂ) * Complex.I := by
    funext p; apply Complex.ext <;> simp
  rw [this]
  exact (by fun_prop : Continuous fun p : ℝ × ℝ => (p.1 : ℂ) + (p.2 : ℂ) * Complex.I).measurable

theorem radius_disk {p : ℝ × ℝ} (h : p ∈ unitDisk) : 0 ≤ radius p ∧ radius p ≤ 1 := by
  refine ⟨Real.sqrt_nonneg _, ?_⟩
  unfold radius
  rw [Real.sqrt_le_one]
  exact h

theorem volume_disk_lt_top : volume unitDisk < ⊤ := by
  have : unitDisk ⊆ Icc (-1 : ℝ) 1 ×ˢ Icc (-1 : ℝ) 1 := by
    intro p hp
    have h : p.1 ^ 2 + p.2 ^ 2 ≤ 1 := hp
    have h1 := abs_le_one_iff_mul_self_le_one.2 (by nlinarith [sq_nonneg p.2] : p.1 * p.1 ≤ 1)
    have h2 := abs_le_one_iff_mul_self_le_one.2 (by nlinarith [sq_nonneg p.1] : p.2 * p.2 ≤ 1)
    exact ⟨abs_le.1 h1, abs_le.1 h2⟩
  refine lt_of_le_of_lt (measure_mono this) ?_
  exact (isCompact_Icc.prod isCompact_Icc).measure_lt_top

theorem Tame.integrable {f : ℝ → ℝ → ℝ} (h : Tame f) : IntegrableOn (fun p : ℝ × ℝ => f (radius p) (angle p)) unitDisk := by
  obtain ⟨B, hB⟩ := h.bound
  refine Measure.integrableOn_of_bounded volume_disk_lt_top.ne h.meas.aestronglyMeasurable (M := B) ?_
  filter_upwards [ae_restrict_mem unitDisk_measurable] with p hp
  obtain ⟨h1, h2⟩ := radius_disk hp
  exact hB _ _ h1 h2

theorem Tame.mul {f g : ℝ → ℝ → ℝ} (hf : Tame f) (hg : Tame g) : Tame fun r t => f r t * g r t := by
  obtain ⟨A, hA⟩ := hf.bound
  obtain ⟨B, hB⟩ := hg.bound
  refine ⟨hf.meas.mul hg.meas, |A| * |B|, fun r t h0 h1 => ?_⟩
  rw [abs_mul]
  exact mul_le_mul ((hA r t h0 h1).trans (le_abs_self _)) ((hB r t h0 h1).trans (le_abs_self _)) (abs_nonneg _) (abs_nonneg _)

theorem Tame.add {f g : ℝ → ℝ → ℝ} (hf : Tame f) (hg : Tame g) : Tame fun r t => f r t + g r t := by
  obtain ⟨A, hA⟩ := hf.bound
  obtain ⟨B, hB⟩ := hg.bound
  exact ⟨hf.meas.add hg.meas, A + B, fun r t h0 h1 => (abs_add_le _ _).trans (add_le_add (hA r t h0 h1) (hB r t h0 h1))⟩

theorem tame_const (c : ℝ) : Tame fun _ _ => c := ⟨measurable_const, |c|, fun _ _ _ _ => le_rfl⟩

theorem RR_continuous (m n : Int) : Continuous fun r : ℝ => RR m n r := by
  have := DR_hasDerivAt m n
  exact continuous_iff_continuousAt.2 fun x => (this x).continuousAt

theorem angular_continuous (m : Int) : Continuous (angular m) := by
  unfold angular
  split_ifs <;> fun_prop

theorem tame_zernike (m n : Int) (h : ValidOrders m n) : Tame (zernike m n) := by
  refine ⟨?_, Spec.norm m n, fun r t h0 h1 => ?_⟩
  · unfold zernike
    simp only [spec_radial_eq _ _ _ h]
    exact ((measurable_const.mul ((RR_continuous m n).measurable.comp measurable_radius)).mul
      ((angular_continuous m).measurable.comp measurable_angle))
  · unfold zernike
    rw [spec_radial_eq _ _ _ h, abs_mul, abs_mul]
    have a : |RR m n r| ≤ 1 := RR_abs_le _ _ _ h0 h1
    have b : |angular m t| ≤ 1 := by
      unfold angular; split_ifs
      · exact Real.abs_cos_le_one _
      · exact Real.abs_sin_le_one _
    have d : 0 ≤ Spec.norm m n := Real.sqrt_nonneg _
    rw [abs_of_nonneg d]
    calc Spec.norm m n * |RR m n r| * |angular m t| ≤ Spec.norm m n * 1 * 1 := by gcongr
      _ = _ := by ring

theorem tame_combination (cs : List ℝ) (os : List (Int × Int)) (h : ∀ p ∈ os, ValidOrders p.1 p.2) : Tame (combination cs os) := by
  induction os generalizing cs with
  | nil =>
    rw [show combination cs [] = fun _ _ => 0 by funext r t; simp [combination]]
    exact tame_const 0
  | cons o os ih =>
    cases cs with
    | nil =>
      rw [show combination [] (o :: os) = fun _ _ => 0 by funext r t; simp [combination]]
      exact tame_const 0
    | cons c cs =>
      have e : combination (c :: cs) (o :: os) = fun r t => c * zernike o.1 o.2 r t + combination cs os r t := by
        funext r t; simp [combination]
      rw [e]
      exact ((tame_const c).mul (tame_zernike _ _ (h o (by simp)))).add (ih cs fun p hp => h p (by simp [hp]))

theorem diskMean_add {f g : ℝ → ℝ → ℝ} (hf : Tame f) (hg : Tame g) :
    diskMean (fun r t => f r t + g r t) = diskMean f + diskMean g := by
  unfold diskMean
  rw [integral_add hf.integrable hg.integrable]; ring

theorem diskMean_smul (c : ℝ) (f : ℝ → ℝ → ℝ) : diskMean (fun r t => c * f r t) = c * diskMean f := by
  unfold diskMean
  rw [integral_const_mul]; ring

theorem diskMean_zero : diskMean (fun _ _ => 0) = 0 := by simp [diskMean]

/-- The mean of a product with a linear combination. -/
theorem diskMean_mul_combination (F : ℝ → ℝ → ℝ) (hF : Tame F) (cs : List ℝ) (os : List (Int × Int)) (h : ∀ p ∈ os, ValidOrders p.1 p.2) :
    diskMean (fun r t => F r t * combination cs os r t) =
      ((cs.zip os).map fun q => q.1 * diskMean fun r t => F r t * zernike q.2.1 q.2.2 r t).sum := by
  induction os generalizing cs with
  | nil => simp [combination, diskMean_zero]
  | cons o os ih =>
    cases cs with
    | nil => simp [combination, diskMean_zero]
    | cons c cs =>
      have e : (fun r t => F r t * combination (c :: cs) (o :: os) r t) =
          fun r t => c * (F r t * zernike o.1 o.2 r t) + F r t * combination cs os r t := by
        funext r t; simp [combination]; ring
      have ho := tame_zernike _ _ (h o (by simp))
      have hos : ∀ p ∈ os, ValidOrders p.1 p.2 := fun p hp => h p (by simp [hp])
      rw [e, diskMean_add ((tame_const c).mul (hF.mul ho)) (hF.mul (tame_combination cs os hos)), diskMean_smul, ih cs hos]
      simp

theorem sum_ite_zip (cs : List ℝ) (os : List (Int × Int)) (hl : cs.length = os.length) (hn : os.Nodup) (i : ℕ) (hi : i < os.length) :
    ((cs.zip os).map fun q => q.1 * if os[i] = q.2 then (1 : ℝ) else 0).sum = cs[i]'(by omega) := by
  induction os generalizing cs i with
  | nil => simp at hi
  | cons o os ih =>
    cases cs with
    | nil => simp at hl
    | cons c cs =>
      have hl' : cs.length = os.length := by simpa using hl
      rw [List.nodup_cons] at hn
      cases i with
      | zero =>
        simp only [List.getElem_cons_zero, List.zip_cons_cons, List.map_cons, if_true, List.sum_cons, mul_one]
        have : ((cs.zip os).map fun q => q.1 * if o = q.2 then (1 : ℝ) else 0).sum = 0 := by
          apply List.sum_eq_zero
          intro x hx
          obtain ⟨q, hq, rfl⟩ := List.mem_map.1 hx
          have := (List.of_mem_zip hq).2
          rw [if_neg (by rintro rfl; exact hn.1 this)]; ring
        rw [this]; ring
      | succ i =>
        have hi' : i < os.length := by simpa using hi
        simp only [List.getElem_cons_succ, List.zip_cons_cons, List.map_cons, List.sum_cons]
        rw [ih cs hl' hn.2 i hi', if_neg (by rintro e; exact hn.1 (e ▸ List.getElem_mem hi'))]
        ring

/-- Projection on one polynomial. -/
theorem diskMean_project (cs : List ℝ) (os : List (Int × Int)) (hl : cs.length = os.length) (hn : os.Nodup)
    (h : ∀ p ∈ os, ValidOrders p.1 p.2) (i : ℕ) (hi : i < os.length) :
    diskMean (fun r t => combination cs os r t * zernike os[i].1 os[i].2 r t) = cs[i]'(by omega) := by
  have hv := h _ (List.getElem_mem hi)
  have e : (fun r t => combination cs os r t * zernike os[i].1 os[i].2 r t) =
      fun r t => zernike os[i].1 os[i].2 r t * combination cs os r t := by funext r t; ring
  rw [e, diskMean_mul_combination _ (tame_zernike _ _ hv) cs os h, ← sum_ite_zip cs os hl hn i hi]
  congr 1
  apply List.map_congr_left
  intro q hq
  rw [zernike_orthonormal _ _ _ _ hv (h _ (List.of_mem_zip hq).2)]
  simp [Prod.ext_iff]

theorem diskMean_sq (cs : List ℝ) (os : List (Int × Int)) (hl : cs.length = os.length) (hn : os.Nodup)
    (h : ∀ p ∈ os, ValidOrders p.1 p.2) :
    diskMean (fun r t => combination cs os r t ^ 2) = (cs.map fun c => c ^ 2).sum := by
  have e : (fun r t => combination cs os r t ^ 2) = fun r t => combination cs os r t * combination cs os r t := by funext r t; ring
  rw [e, diskMean_mul_combination _ (tame_combination cs os h) cs os h]
  have : ((cs.zip os).map fun q => q.1 * diskMean fun r t => combination cs os r t * zernike q.2.1 q.2.2 r t) = cs.map fun c => c ^ 2 := by
    apply List.ext_getElem
    · simp [hl]
    · intro i h1 h2
      simp only [List.length_map, List.length_zip] at h1
      have := diskMean_project cs os hl hn h i (by omega)
      simp only [List.getElem_map, List.getElem_zip, this]; ring
  rw [this]

end Verif.Proofs
