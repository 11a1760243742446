import Verif.Proofs.QuadratureRate
import Verif.Proofs.Methods
import Verif.Proofs.FloatPsfPhase
import Verif.Spec.PsfRate

/-!
# The rate of convergence of the PSF
-/

namespace Verif.Proofs
open Verif.Model Verif.Spec MeasureTheory Polynomial

/-! ### The two rules together -/

theorem trapezoid_sub (N : ℕ) (f g : ℝ → ℂ) : trapezoid N f - trapezoid N g = trapezoid N fun p => f p - g p := by
  unfold trapezoid
  rw [Finset.sum_sub_distrib]
  ring

theorem rule_trapezoid (N K : ℕ) (F : ℝ → ℝ → ℂ) : (angularRule K fun φ => trapezoid N fun p => F p φ) = trapezoid N fun p => angularRule K fun φ => F p φ := by
  unfold angularRule trapezoid
  simp only [Finset.sum_add_distrib, ← Finset.mul_sum, ← Finset.sum_div]
  rw [Finset.sum_comm (s := Finset.Ioo 0 N), Finset.sum_comm (s := Finset.Ioo 0 N)]
  ring

theorem integral_trapezoid (N : ℕ) (F : ℝ → ℝ → ℂ) (a b : ℝ) (h : ∀ p, Continuous fun φ => F p φ) :
    (∫ φ in a..b, trapezoid N fun p => F p φ) = trapezoid N fun p => ∫ φ in a..b, F p φ := by
  unfold trapezoid
  have hi : ∀ p, IntervalIntegrable (fun φ => F p φ) volume a b := fun p => (h p).intervalIntegrable _ _
  have hs : IntervalIntegrable (fun φ => ∑ k ∈ Finset.Ioo 0 N, F ((k : ℝ) / N) φ) volume a b :=
    (continuous_finsetSum _ fun k _ => h _).intervalIntegrable _ _
  rw [intervalIntegral.integral_const_mul, intervalIntegral.integral_add (((hi 0).div_const 2).add hs) ((hi 1).div_const 2),
    intervalIntegral.integral_add ((hi 0).div_const 2) hs, intervalIntegral.integral_finsetSum fun k _ => hi _]
  simp only [intervalIntegral.integral_div]

theorem field_rate (F : ℝ → ℝ → ℂ) (hF : Continuous (Function.uncurry F)) (hn : ∀ p φ, 0 ≤ p → ‖F p φ‖ = p) (nR nPhi : ℕ) (hR : 0 < nR) (hPhi : 4 ≤ nPhi)
    {Mr Mφ : ℝ} (h1 : ∀ φ, C2Bound (fun p => F p φ) 0 1 Mr) (h2 : ∀ p, 0 ≤ p → p ≤ 1 → C2Bound (fun φ => F p φ) 0 (2 * Real.pi) (Mφ * p)) :
    ‖(angularRule nPhi fun φ => trapezoid nR fun p => F p φ) - ∫ φ in (0 : ℝ)..2 * Real.pi, ∫ p in (0 : ℝ)..1, F p φ‖ ≤
      Real.pi * (2 / nPhi + 8 * Real.pi ^ 2 / 9 * Mφ / (nPhi : ℝ) ^ 2 + Mr / (6 * (nR : ℝ) ^ 2)) := by
  have hpi := Real.pi_pos
  have hN' : (0 : ℝ) < nPhi := by exact_mod_cast (by omega : 0 < nPhi)
  have hcp : ∀ p, Continuous fun φ => F p φ := fun p => hF.comp (by fun_prop : Continuous fun φ : ℝ => (p, φ))
  have hcφ : ∀ φ, Continuous fun p => F p φ := fun φ => hF.comp (by fun_prop : Continuous fun p : ℝ => (p, φ))
  have hI : Continuous fun φ => ∫ p in (0 : ℝ)..1, F p φ :=
    intervalIntegral.continuous_parametric_intervalIntegral_of_continuous' (f := fun φ p => F p φ) (hF.comp continuous_swap) 0 1
  have hT : Continuous fun φ => trapezoid nR fun p => F p φ := by
    unfold trapezoid
    exact continuous_const.mul ((((hcp 0).div_const 2).add (continuous_finsetSum _ fun k _ => hcp _)).add ((hcp 1).div_const 2))
  have a : ‖(angularRule nPhi fun φ => trapezoid nR fun p => F p φ) - ∫ φ in (0 : ℝ)..2 * Real.pi, trapezoid nR fun p => F p φ‖ ≤
      (2 * Real.pi * (2 / 9 * Mφ * (2 * Real.pi / nPhi) ^ 2) + 2 * (2 * Real.pi / nPhi)) / 2 := by
    rw [rule_trapezoid, integral_trapezoid nR F _ _ hcp, trapezoid_sub]
    set C := 2 * Real.pi * (2 / 9 * Mφ * (2 * Real.pi / nPhi) ^ 2) + 2 * (2 * Real.pi / nPhi) with hC
    have hd : ∀ p, 0 ≤ p → p ≤ 1 → ‖(angularRule nPhi fun φ => F p φ) - ∫ φ in (0 : ℝ)..2 * Real.pi, F p φ‖ ≤ C * p := by
      intro p p0 p1
      refine (rule_rate nPhi hPhi (h2 p p0 p1) (B := p) fun t _ _ => (hn p t p0).le).trans (le_of_eq ?_)
      rw [hC]; ring
    refine (trapezoid_norm_le nR _ (fun p => C * p) hd).trans ?_
    have e : (trapezoid nR fun p => ((C * p : ℝ) : ℂ)) = (C : ℂ) * trapezoid nR fun p => (p : ℂ) := by
      unfold trapezoid
      push_cast
      rw [← Finset.mul_sum]
      ring
    rw [e, trapezoid_id nR hR, norm_mul, Complex.norm_real]
    have hC0 : 0 ≤ C := by
      have := (norm_nonneg _).trans (hd 1 zero_le_one le_rfl)
      linarith
    rw [Real.norm_of_nonneg hC0]
    norm_num
    linarith
  have b : ‖(∫ φ in (0 : ℝ)..2 * Real.pi, trapezoid nR fun p => F p φ) - ∫ φ in (0 : ℝ)..2 * Real.pi, ∫ p in (0 : ℝ)..1, F p φ‖ ≤
      Mr / (12 * (nR : ℝ) ^ 2) * (2 * Real.pi) := by
    rw [← intervalIntegral.integral_sub (hT.intervalIntegrable _ _) (hI.intervalIntegrable _ _)]
    have := intervalIntegral.norm_integral_le_of_norm_le_const (a := 0) (b := 2 * Real.pi) (C := Mr / (12 * (nR : ℝ) ^ 2))
      (f := fun φ => (trapezoid nR fun p => F p φ) - ∫ p in (0 : ℝ)..1, F p φ) fun φ _ => trapezoid_rate nR hR (h1 φ)
    rwa [sub_zero, abs_of_nonneg (by positivity)] at this
  refine (norm_sub_le_norm_sub_add_norm_sub _ (∫ φ in (0 : ℝ)..2 * Real.pi, trapezoid nR fun p => F p φ) _).trans ((add_le_add a b).trans (le_of_eq ?_))
  field_simp
  ring

/-! ### The derivatives of the integrand -/

/-- Twice continuously differentiable, with bounds of the derivatives on the interval. -/
def R2Bound (f : ℝ → ℝ) (a b B1 B2 : ℝ) : Prop :=
  ∃ f' f'' : ℝ → ℝ, (∀ x, HasDerivAt f (f' x) x) ∧ (∀ x, HasDerivAt f' (f'' x) x) ∧ Continuous f'' ∧ ∀ x, a ≤ x → x ≤ b → |f' x| ≤ B1 ∧ |f'' x| ≤ B2

theorem R2Bound.add {f g : ℝ → ℝ} {a b B1 B2 C1 C2 : ℝ} (hf : R2Bound f a b B1 B2) (hg : R2Bound g a b C1 C2) :
    R2Bound (fun x => f x + g x) a b (B1 + C1) (B2 + C2) := by
  obtain ⟨f', f'', e1, e2, e3, e4⟩ := hf
  obtain ⟨g', g'', d1, d2, d3, d4⟩ := hg
  exact ⟨fun x => f' x + g' x, fun x => f'' x + g'' x, fun x => (e1 x).add (d1 x), fun x => (e2 x).add (d2 x), e3.add d3, fun x h1 h2 =>
    ⟨(abs_add_le _ _).trans (add_le_add (e4 x h1 h2).1 (d4 x h1 h2).1), (abs_add_le _ _).trans (add_le_add (e4 x h1 h2).2 (d4 x h1 h2).2)⟩⟩

theorem R2Bound.const_mul {f : ℝ → ℝ} {a b B1 B2 : ℝ} (hf : R2Bound f a b B1 B2) (c : ℝ) : R2Bound (fun x => c * f x) a b (|c| * B1) (|c| * B2) := by
  obtain ⟨f', f'', e1, e2, e3, e4⟩ := hf
  refine ⟨fun x => c * f' x, fun x => c * f'' x, fun x => (e1 x).const_mul c, fun x => (e2 x).const_mul c, continuous_const.mul e3, fun x h1 h2 => ?_⟩
  rw [abs_mul, abs_mul]
  exact ⟨mul_le_mul_of_nonneg_left (e4 x h1 h2).1 (abs_nonneg _), mul_le_mul_of_nonneg_left (e4 x h1 h2).2 (abs_nonneg _)⟩

theorem R2Bound.zero (a b : ℝ) : R2Bound (fun _ => 0) a b 0 0 :=
  ⟨fun _ => 0, fun _ => 0, fun x => hasDerivAt_const x 0, fun x => hasDerivAt_const x 0, continuous_const, fun x _ _ => by simp⟩

theorem R2Bound.mono {f : ℝ → ℝ} {a b B1 B2 C1 C2 : ℝ} (hf : R2Bound f a b B1 B2) (h1 : B1 ≤ C1) (h2 : B2 ≤ C2) : R2Bound f a b C1 C2 := by
  obtain ⟨f', f'', e1, e2, e3, e4⟩ := hf
  exact ⟨f', f'', e1, e2, e3, fun x a b => ⟨(e4 x a b).1.trans h1, (e4 x a b).2.trans h2⟩⟩

theorem expI_deriv {ψ : ℝ → ℝ} {d x : ℝ} (h : HasDerivAt ψ d x) : HasDerivAt (fun t => Complex.exp (Complex.I * (ψ t : ℂ))) (Complex.I * d * Complex.exp (Complex.I * (ψ x : ℂ))) x := by
  refine ((h.ofReal_comp.const_mul Complex.I).cexp).congr_deriv ?_
  ring

theorem norm_expI (t : ℝ) : ‖Complex.exp (Complex.I * (t : ℂ))‖ = 1 := by
  rw [mul_comm, Complex.norm_exp_ofReal_mul_I]

/-- The wave along the radius. -/
theorem wave_radial {ψ : ℝ → ℝ} {B1 B2 : ℝ} (h : R2Bound ψ 0 1 B1 B2) : C2Bound (fun p => Complex.exp (Complex.I * (ψ p : ℂ)) * (p : ℂ)) 0 1 (B2 + 2 * B1 + B1 ^ 2) := by
  obtain ⟨f', f'', e1, e2, e3, e4⟩ := h
  have c1 : Continuous f' := continuous_iff_continuousAt.2 fun x => (e2 x).continuousAt
  have c0 : Continuous ψ := continuous_iff_continuousAt.2 fun x => (e1 x).continuousAt
  refine ⟨fun p => Complex.exp (Complex.I * (ψ p : ℂ)) * (1 + Complex.I * f' p * p),
    fun p => Complex.exp (Complex.I * (ψ p : ℂ)) * (2 * (Complex.I * f' p) - f' p ^ 2 * p + Complex.I * f'' p * p), fun p => ?_, fun p => ?_, by fun_prop, fun p p0 p1 => ?_⟩
  · have hid : HasDerivAt (fun p : ℝ => (p : ℂ)) 1 p := (hasDerivAt_id p).ofReal_comp
    refine ((expI_deriv (e1 p)).mul hid).congr_deriv ?_
    ring
  · have hid : HasDerivAt (fun p : ℝ => (p : ℂ)) 1 p := (hasDerivAt_id p).ofReal_comp
    have hd : HasDerivAt (fun p : ℝ => 1 + Complex.I * (f' p : ℂ) * (p : ℂ)) (Complex.I * f'' p * p + Complex.I * f' p * 1) p :=
      (((e2 p).ofReal_comp.const_mul Complex.I).mul hid).const_add 1
    refine ((expI_deriv (e1 p)).mul hd).congr_deriv ?_
    ring_nf
    rw [Complex.I_sq]
    ring
  · obtain ⟨b1, b2⟩ := e4 p p0 p1
    rw [norm_mul, norm_expI, one_mul]
    have n1 : ‖2 * (Complex.I * (f' p : ℂ))‖ ≤ 2 * B1 := by
      rw [norm_mul, norm_mul, Complex.norm_I, Complex.norm_real, Real.norm_eq_abs]; norm_num; exact b1
    have n2 : ‖(f' p : ℂ) ^ 2 * (p : ℂ)‖ ≤ B1 ^ 2 := by
      rw [norm_mul, norm_pow, Complex.norm_real, Complex.norm_real, Real.norm_eq_abs, Real.norm_of_nonneg p0]
      have := pow_le_pow_left₀ (abs_nonneg _) b1 2
      calc |f' p| ^ 2 * p ≤ |f' p| ^ 2 * 1 := mul_le_mul_of_nonneg_left p1 (by positivity)
        _ ≤ _ := by linarith
    have n3 : ‖Complex.I * (f'' p : ℂ) * (p : ℂ)‖ ≤ B2 := by
      rw [norm_mul, norm_mul, Complex.norm_I, Complex.norm_real, Complex.norm_real, Real.norm_eq_abs, Real.norm_of_nonneg p0, one_mul]
      calc |f'' p| * p ≤ |f'' p| * 1 := mul_le_mul_of_nonneg_left p1 (abs_nonneg _)
        _ ≤ _ := by linarith
    have := norm_add_le (2 * (Complex.I * (f' p : ℂ)) - (f' p : ℂ) ^ 2 * (p : ℂ)) (Complex.I * (f'' p : ℂ) * (p : ℂ))
    have := norm_sub_le (2 * (Complex.I * (f' p : ℂ))) ((f' p : ℂ) ^ 2 * (p : ℂ))
    linarith

/-- The wave along the angle. -/
theorem wave_angular {ψ : ℝ → ℝ} {a b B1 B2 p : ℝ} (hp : 0 ≤ p) (h : R2Bound ψ a b B1 B2) :
    C2Bound (fun φ => Complex.exp (Complex.I * (ψ φ : ℂ)) * (p : ℂ)) a b ((B2 + B1 ^ 2) * p) := by
  obtain ⟨f', f'', e1, e2, e3, e4⟩ := h
  have c1 : Continuous f' := continuous_iff_continuousAt.2 fun x => (e2 x).continuousAt
  have c0 : Continuous ψ := continuous_iff_continuousAt.2 fun x => (e1 x).continuousAt
  refine ⟨fun t => Complex.exp (Complex.I * (ψ t : ℂ)) * (Complex.I * f' t) * (p : ℂ),
    fun t => Complex.exp (Complex.I * (ψ t : ℂ)) * (Complex.I * f'' t - f' t ^ 2) * (p : ℂ), fun t => ?_, fun t => ?_, by fun_prop, fun t t0 t1 => ?_⟩
  · refine ((expI_deriv (e1 t)).mul_const (p : ℂ)).congr_deriv ?_
    ring
  · have hd : HasDerivAt (fun t : ℝ => Complex.I * (f' t : ℂ)) (Complex.I * f'' t) t := (e2 t).ofReal_comp.const_mul Complex.I
    refine (((expI_deriv (e1 t)).mul hd).mul_const (p : ℂ)).congr_deriv ?_
    ring_nf
    rw [Complex.I_sq]
    ring
  · obtain ⟨b1, b2⟩ := e4 t t0 t1
    rw [norm_mul, norm_mul, norm_expI, one_mul, Complex.norm_real, Real.norm_of_nonneg hp]
    refine mul_le_mul_of_nonneg_right ((norm_sub_le _ _).trans ?_) hp
    rw [norm_mul, norm_pow, Complex.norm_I, Complex.norm_real, Complex.norm_real, Real.norm_eq_abs, Real.norm_eq_abs, one_mul]
    have := pow_le_pow_left₀ (abs_nonneg _) b1 2
    linarith

/-! ### The derivatives of the phase -/

theorem radial_R2 (m n : Int) (hv : ValidOrders m n) : R2Bound (Spec.radial m n) 0 1 (rimSlope m n) (rimCurvature m n) := by
  obtain ⟨a, b, hn, hm, e1, e2, _⟩ := ab_of_valid hv
  have hP : RP m n = PX a b := by
    unfold RP RR PX
    rw [e1, e2, Int.toNat_natCast, Int.toNat_natCast]
  have e0 : Spec.radial m n = fun r => ev r (RP m n) := by
    funext r
    rw [spec_radial_eq m n r hv, ev_RP]
  have hd : ∀ (q : ℤ[X]) (x : ℝ), HasDerivAt (fun r : ℝ => ev r q) (ev x (derivative q)) x := by
    intro q x
    have h := (q.map (Int.castRingHom ℝ)).hasDerivAt x
    rw [derivative_map, eval_map] at h
    have e : (fun r : ℝ => ev r q) = fun r => (q.map (Int.castRingHom ℝ)).eval r := by
      funext y
      rw [eval_map]; rfl
    rw [e]
    exact h
  have r1 : rim1 a b = rimSlope m n := by
    unfold rim1 rimSlope
    rw [hn, hm]; push_cast; ring
  have r2 : rim2 a b = rimCurvature m n := by
    unfold rim2 rimCurvature
    rw [r1, hm]; push_cast; ring
  rw [e0, hP]
  refine ⟨fun r => ev r (derivative (PX a b)), fun r => ev r (derivative (derivative (PX a b))), hd _, hd _, ?_, fun x h0 h1 => ⟨?_, ?_⟩⟩
  · exact continuous_iff_continuousAt.2 fun x => (hd _ x).continuousAt
  · rw [← r1]; exact D1_abs_le a b x h0 h1
  · rw [← r2]; exact D2_abs_le a b x h0 h1

theorem angular_R2 (m : Int) (a b : ℝ) : R2Bound (angular m) a b |(m : ℝ)| ((m : ℝ) ^ 2) := by
  have hc : ∀ k : ℝ, R2Bound (fun t => Real.cos (k * t)) a b |k| (k ^ 2) := by
    intro k
    refine ⟨fun t => -Real.sin (k * t) * k, fun t => -(Real.cos (k * t) * k) * k, fun t => ?_, fun t => ?_, by fun_prop, fun t _ _ => ?_⟩
    · exact (((hasDerivAt_id t).const_mul k).cos).congr_deriv (by simp)
    · exact ((((hasDerivAt_id t).const_mul k).sin.neg).mul_const k).congr_deriv (by simp)
    · rw [abs_mul, abs_neg, abs_mul, abs_neg, abs_mul, ← sq_abs k]
      have h1 := Real.abs_sin_le_one (k * t)
      have h2 := Real.abs_cos_le_one (k * t)
      have h3 := abs_nonneg k
      exact ⟨mul_le_of_le_one_left h3 h1, by nlinarith [mul_nonneg h3 h3]⟩
  have hs : ∀ k : ℝ, R2Bound (fun t => Real.sin (k * t)) a b |k| (k ^ 2) := by
    intro k
    refine ⟨fun t => Real.cos (k * t) * k, fun t => -(Real.sin (k * t) * k) * k, fun t => ?_, fun t => ?_, by fun_prop, fun t _ _ => ?_⟩
    · exact (((hasDerivAt_id t).const_mul k).sin).congr_deriv (by simp)
    · exact ((((hasDerivAt_id t).const_mul k).cos).mul_const k).congr_deriv (by simp)
    · rw [abs_mul, abs_mul, abs_neg, abs_mul, ← sq_abs k]
      have h1 := Real.abs_sin_le_one (k * t)
      have h2 := Real.abs_cos_le_one (k * t)
      have h3 := abs_nonneg k
      exact ⟨mul_le_of_le_one_left h3 h2, by nlinarith [mul_nonneg h3 h3]⟩
  unfold angular
  split_ifs
  · exact hc m
  · have := hs ((|m| : ℤ) : ℝ)
    have e : |((|m| : ℤ) : ℝ)| = |(m : ℝ)| := by rw [Int.cast_abs, abs_abs]
    have e2 : ((|m| : ℤ) : ℝ) ^ 2 = (m : ℝ) ^ 2 := by rw [Int.cast_abs, sq_abs]
    rwa [e, e2] at this

/-- The derivative at the rim. -/
theorem radial_deriv_rim (m n : Int) (hv : ValidOrders m n) : HasDerivAt (Spec.radial m n) (((n : ℝ) * (n + 2) - (m : ℝ) ^ 2) / 2) 1 := by
  obtain ⟨a, b, hn, hm, e1, e2, _⟩ := ab_of_valid hv
  have hP : RP m n = PX a b := by
    unfold RP RR PX
    rw [e1, e2, Int.toNat_natCast, Int.toNat_natCast]
  have e0 : Spec.radial m n = fun r => ((PX a b).map (Int.castRingHom ℝ)).eval r := by
    funext r
    rw [spec_radial_eq m n r hv, ← ev_RP, hP, eval_map]; rfl
  have h := ((PX a b).map (Int.castRingHom ℝ)).hasDerivAt 1
  rw [e0]
  refine h.congr_deriv ?_
  rw [derivative_map, eval_map]
  refine (D1_rim a b).trans ?_
  unfold rim1
  rw [hn, hm]; push_cast; ring

theorem R2Bound.lipschitz {f : ℝ → ℝ} {a b B1 B2 x y : ℝ} (hf : R2Bound f a b B1 B2) (hx : a ≤ x ∧ x ≤ b) (hy : a ≤ y ∧ y ≤ b) : |f x - f y| ≤ B1 * |x - y| := by
  obtain ⟨f', _, e1, _, _, e4⟩ := hf
  have := (convex_Icc a b).norm_image_sub_le_of_norm_hasDerivWithin_le (f := f) (f' := f') (C := B1) (fun z _ => (e1 z).hasDerivWithinAt)
    (fun z hz => (e4 z hz.1 hz.2).1) (x := y) (y := x) hy hx
  simpa using this

theorem lipschitz_ge_deriv {f : ℝ → ℝ} {d L : ℝ} (hd : HasDerivAt f d 1) (h : ∀ x, 0 ≤ x → x ≤ 1 → |f 1 - f x| ≤ L * |1 - x|) : d ≤ L := by
  have ht := (hasDerivAt_iff_tendsto_slope.1 hd).mono_left (nhdsWithin_mono 1 (fun x (hx : x ∈ Set.Iio 1) => ne_of_lt hx))
  refine le_of_tendsto ht ?_
  have : Set.Ioo (0 : ℝ) 1 ∈ nhdsWithin 1 (Set.Iio 1) := Ioo_mem_nhdsLT zero_lt_one
  filter_upwards [this] with x hx
  have hk := h x hx.1.le hx.2.le
  rw [slope_def_field, ← neg_sub (f 1), ← neg_sub 1 x, neg_div_neg_eq, div_le_iff₀ (by linarith [hx.2])]
  rw [abs_of_pos (show 0 < 1 - x by linarith [hx.2])] at hk
  exact (le_abs_self _).trans hk

theorem rim_nonneg (m n : Int) (hv : ValidOrders m n) : 0 ≤ rimSlope m n ∧ 0 ≤ rimCurvature m n := by
  obtain ⟨f', f'', _, _, _, e⟩ := radial_R2 m n hv
  have := e 0 le_rfl zero_le_one
  exact ⟨(abs_nonneg _).trans this.1, (abs_nonneg _).trans this.2⟩

theorem zernike_R2_radial (m n : Int) (hv : ValidOrders m n) (φ : ℝ) :
    R2Bound (fun p => zernike m n p φ) 0 1 (Spec.norm m n * rimSlope m n) (Spec.norm m n * rimCurvature m n) := by
  have h := (radial_R2 m n hv).const_mul (Spec.norm m n * angular m φ)
  have e : (fun p => zernike m n p φ) = fun p => Spec.norm m n * angular m φ * Spec.radial m n p := by
    funext p; unfold zernike; ring
  rw [e]
  have hn0 : 0 ≤ Spec.norm m n := Real.sqrt_nonneg _
  have hc : |Spec.norm m n * angular m φ| ≤ Spec.norm m n := by
    rw [abs_mul, abs_of_nonneg hn0]
    exact mul_le_of_le_one_right hn0 (angular_le m φ)
  obtain ⟨r1, r2⟩ := rim_nonneg m n hv
  exact h.mono (mul_le_mul_of_nonneg_right hc r1) (mul_le_mul_of_nonneg_right hc r2)

theorem zernike_R2_angular (m n : Int) (hv : ValidOrders m n) (p : ℝ) (h0 : 0 ≤ p) (h1 : p ≤ 1) (a b : ℝ) :
    R2Bound (fun φ => zernike m n p φ) a b (Spec.norm m n * |(m : ℝ)|) (Spec.norm m n * (m : ℝ) ^ 2) := by
  have h := (angular_R2 m a b).const_mul (Spec.norm m n * Spec.radial m n p)
  have e : (fun φ => zernike m n p φ) = fun φ => Spec.norm m n * Spec.radial m n p * angular m φ := by
    funext φ; unfold zernike; rfl
  rw [e]
  have hn0 : 0 ≤ Spec.norm m n := Real.sqrt_nonneg _
  have hc : |Spec.norm m n * Spec.radial m n p| ≤ Spec.norm m n := by
    rw [abs_mul, abs_of_nonneg hn0, spec_radial_eq m n p hv]
    exact mul_le_of_le_one_right hn0 (RR_abs_le m n p h0 h1)
  exact h.mono (mul_le_mul_of_nonneg_right hc (abs_nonneg _)) (mul_le_mul_of_nonneg_right hc (sq_nonneg _))

theorem combination_R2_radial (cs : List ℝ) (os : List (Int × Int)) (hv : ∀ o ∈ os, ValidOrders o.1 o.2) (φ : ℝ) :
    R2Bound (fun p => combination cs os p φ) 0 1 (weighted rimSlope cs os) (weighted rimCurvature cs os) := by
  unfold combination weighted
  have : ∀ l : List (ℝ × Int × Int), (∀ t ∈ l, ValidOrders t.2.1 t.2.2) → R2Bound (fun p => (l.map fun t => t.1 * zernike t.2.1 t.2.2 p φ).sum) 0 1
      ((l.map fun t => |t.1| * Spec.norm t.2.1 t.2.2 * rimSlope t.2.1 t.2.2).sum) ((l.map fun t => |t.1| * Spec.norm t.2.1 t.2.2 * rimCurvature t.2.1 t.2.2).sum) := by
    intro l
    induction l with
    | nil => intro _; simpa using R2Bound.zero 0 1
    | cons t l ih =>
      intro h
      have h1 := (zernike_R2_radial t.2.1 t.2.2 (h t (by simp)) φ).const_mul t.1
      have h2 := h1.add (ih fun x hx => h x (by simp [hx]))
      simp only [List.map_cons, List.sum_cons]
      rw [mul_assoc, mul_assoc]
      exact h2
  exact this _ fun t ht => hv _ (List.of_mem_zip ht).2

theorem combination_R2_angular (cs : List ℝ) (os : List (Int × Int)) (hv : ∀ o ∈ os, ValidOrders o.1 o.2) (p : ℝ) (h0 : 0 ≤ p) (h1 : p ≤ 1) (a b : ℝ) :
    R2Bound (fun φ => combination cs os p φ) a b (weighted (fun m _ => |(m : ℝ)|) cs os) (weighted (fun m _ => (m : ℝ) ^ 2) cs os) := by
  unfold combination weighted
  have : ∀ l : List (ℝ × Int × Int), (∀ t ∈ l, ValidOrders t.2.1 t.2.2) → R2Bound (fun φ => (l.map fun t => t.1 * zernike t.2.1 t.2.2 p φ).sum) a b
      ((l.map fun t => |t.1| * Spec.norm t.2.1 t.2.2 * |(t.2.1 : ℝ)|).sum) ((l.map fun t => |t.1| * Spec.norm t.2.1 t.2.2 * (t.2.1 : ℝ) ^ 2).sum) := by
    intro l
    induction l with
    | nil => intro _; simpa using R2Bound.zero a b
    | cons t l ih =>
      intro h
      have h1 := (zernike_R2_angular t.2.1 t.2.2 (h t (by simp)) p h0 h1 a b).const_mul t.1
      have h2 := h1.add (ih fun x hx => h x (by simp [hx]))
      simp only [List.map_cons, List.sum_cons]
      rw [mul_assoc, mul_assoc]
      exact h2
  exact this _ fun t ht => hv _ (List.of_mem_zip ht).2

/-! ### The PSF -/

theorem scalar_le (x y c s : ℝ) (h : c ^ 2 + s ^ 2 = 1) : |x * c + y * s| ≤ Real.sqrt (x ^ 2 + y ^ 2) := by
  apply Real.abs_le_sqrt
  have : (x * c + y * s) ^ 2 + (x * s - y * c) ^ 2 = (x ^ 2 + y ^ 2) * (c ^ 2 + s ^ 2) := by ring
  rw [h] at this
  nlinarith [sq_nonneg (x * s - y * c)]

theorem tilt_radial (x y φ : ℝ) : R2Bound (fun p => -(p * (x * Real.cos φ + y * Real.sin φ))) 0 1 (Real.sqrt (x ^ 2 + y ^ 2)) 0 := by
  refine ⟨fun _ => -(x * Real.cos φ + y * Real.sin φ), fun _ => 0, fun p => ?_, fun p => hasDerivAt_const _ _, continuous_const, fun p _ _ => ?_⟩
  · exact (((hasDerivAt_id p).mul_const _).neg).congr_deriv (by simp)
  · rw [abs_neg]
    exact ⟨scalar_le x y _ _ (Real.cos_sq_add_sin_sq φ), by simp⟩

theorem tilt_angular (x y p : ℝ) (h0 : 0 ≤ p) (h1 : p ≤ 1) (a b : ℝ) :
    R2Bound (fun φ => -(p * (x * Real.cos φ + y * Real.sin φ))) a b (Real.sqrt (x ^ 2 + y ^ 2)) (Real.sqrt (x ^ 2 + y ^ 2)) := by
  refine ⟨fun φ => -(p * (x * -Real.sin φ + y * Real.cos φ)), fun φ => -(p * (x * -Real.cos φ + y * -Real.sin φ)), fun φ => ?_, fun φ => ?_, by fun_prop, fun φ _ _ => ?_⟩
  · exact ((((Real.hasDerivAt_cos φ).const_mul x).add ((Real.hasDerivAt_sin φ).const_mul y)).const_mul p).neg
  · exact ((((Real.hasDerivAt_sin φ).neg.const_mul x).add ((Real.hasDerivAt_cos φ).const_mul y)).const_mul p).neg
  · have hs := Real.sin_sq_add_cos_sq φ
    have hρ := Real.sqrt_nonneg (x ^ 2 + y ^ 2)
    rw [abs_neg, abs_mul, abs_of_nonneg h0, abs_neg, abs_mul, abs_of_nonneg h0]
    exact ⟨(mul_le_of_le_one_left (abs_nonneg _) h1).trans (scalar_le x y _ _ (by linarith)),
      (mul_le_of_le_one_left (abs_nonneg _) h1).trans (scalar_le x y _ _ (by linarith))⟩

theorem psf_rate (cs : List ℝ) (os : List (Int × Int)) (hv : ∀ o ∈ os, ValidOrders o.1 o.2) (x y : ℝ) (nR nPhi : ℕ) (hR : 0 < nR) (hPhi : 4 ≤ nPhi) :
    |psfXY (combination cs os) x y nR nPhi - exactPsf (combination cs os) x y| ≤ quadratureError cs os (Real.sqrt (x ^ 2 + y ^ 2)) nR nPhi := by
  have hpi := Real.pi_pos
  set ρ := Real.sqrt (x ^ 2 + y ^ 2) with hρ
  set Φ := combination cs os with hΦ
  have e : ∀ p φ, pupilFieldXY Φ x y p φ = Complex.exp (Complex.I * ((Φ p φ + -(p * (x * Real.cos φ + y * Real.sin φ)) : ℝ) : ℂ)) * (p : ℂ) := by
    intro p φ; unfold pupilFieldXY; rw [← sub_eq_add_neg]
  have key := field_rate (fun p φ => pupilFieldXY Φ x y p φ) (field_continuous Φ (combination_continuous cs os) x y)
    (fun p φ hp => norm_pupilFieldXY Φ x y p φ hp) nR nPhi hR hPhi
    (Mr := weighted rimCurvature cs os + 0 + 2 * (weighted rimSlope cs os + ρ) + (weighted rimSlope cs os + ρ) ^ 2)
    (Mφ := (weighted (fun m _ => (m : ℝ) ^ 2) cs os + ρ) + (weighted (fun m _ => |(m : ℝ)|) cs os + ρ) ^ 2)
    (fun φ => by
      simp only [e]
      exact wave_radial ((combination_R2_radial cs os hv φ).add (tilt_radial x y φ)))
    (fun p p0 p1 => by
      simp only [e]
      exact wave_angular p0 ((combination_R2_angular cs os hv p p0 p1 _ _).add (tilt_angular x y p p0 p1 _ _)))
  set A := angularRule nPhi fun φ => trapezoid nR fun p => pupilFieldXY Φ x y p φ with hA
  have hAn : ‖A‖ ≤ Real.pi := by
    have h := angularRule_norm_le nPhi (by omega) (fun φ => trapezoid nR fun p => pupilFieldXY Φ x y p φ) (1 / 2) fun φ => by
      have := trapezoid_norm_le nR (fun p => pupilFieldXY Φ x y p φ) (fun p => p) fun p hp _ => (norm_pupilFieldXY Φ x y p φ hp).le
      rw [trapezoid_id nR hR] at this
      simpa using this
    have h1 := fraction_lt_one nPhi (by omega)
    nlinarith
  have hEn : ‖exactField Φ x y‖ ≤ Real.pi := by
    have := intervalIntegral.norm_integral_le_of_norm_le_const (a := 0) (b := 2 * Real.pi) (C := 1 / 2)
      (f := fun φ => ∫ p in (0 : ℝ)..1, pupilFieldXY Φ x y p φ) (by
        intro φ _
        have := intervalIntegral.norm_integral_le_of_norm_le (μ := volume) (a := 0) (b := 1) zero_le_one (f := fun p => pupilFieldXY Φ x y p φ) (g := fun p => p)
          (Filter.Eventually.of_forall fun p hp => (norm_pupilFieldXY Φ x y p φ hp.1.le).le) (continuous_id.intervalIntegrable _ _)
        refine this.trans (le_of_eq ?_)
        simp)
    unfold exactField
    rw [sub_zero, abs_of_nonneg (by positivity)] at this
    linarith
  unfold psfXY exactPsf
  rw [← hA, ← sub_div, abs_div, abs_of_nonneg (by positivity : (0 : ℝ) ≤ Real.pi ^ 2), div_le_iff₀ (by positivity)]
  have hk : ‖A - exactField Φ x y‖ ≤ Real.pi * (quadratureError cs os ρ nR nPhi / 2) := by
    refine key.trans (le_of_eq ?_)
    unfold quadratureError
    field_simp
    ring
  have hd : ‖A‖ ^ 2 - ‖exactField Φ x y‖ ^ 2 = (‖A‖ + ‖exactField Φ x y‖) * (‖A‖ - ‖exactField Φ x y‖) := by ring
  rw [hd, abs_mul, abs_of_nonneg (by positivity)]
  have h1 := abs_norm_sub_norm_le A (exactField Φ x y)
  calc (‖A‖ + ‖exactField Φ x y‖) * |‖A‖ - ‖exactField Φ x y‖| ≤ (2 * Real.pi) * (Real.pi * (quadratureError cs os ρ nR nPhi / 2)) :=
        mul_le_mul (by linarith) (h1.trans hk) (abs_nonneg _) (by positivity)
    _ = _ := by ring

end Verif.Proofs
