import Verif.Proofs.PsfConverge
import Verif.Proofs.RadialSlope
import Mathlib.Analysis.SpecialFunctions.Integrals.Basic

/-!
# Rates of the errors of the two quadrature rules
-/

namespace Verif.Proofs
open Verif.Spec MeasureTheory

/-- Twice continuously differentiable, with a bound of the second derivative on the interval. -/
def C2Bound (f : ℝ → ℂ) (a b M : ℝ) : Prop :=
  ∃ f' f'' : ℝ → ℂ, (∀ x, HasDerivAt f (f' x) x) ∧ (∀ x, HasDerivAt f' (f'' x) x) ∧ Continuous f'' ∧ ∀ x, a ≤ x → x ≤ b → ‖f'' x‖ ≤ M

theorem C2Bound.mono {f : ℝ → ℂ} {a b c d M : ℝ} (h : C2Bound f a b M) (h1 : a ≤ c) (h2 : d ≤ b) : C2Bound f c d M := by
  obtain ⟨f', f'', e1, e2, e3, e4⟩ := h
  exact ⟨f', f'', e1, e2, e3, fun x hx hx' => e4 x (by linarith) (by linarith)⟩

theorem C2Bound.continuous {f : ℝ → ℂ} {a b M : ℝ} (h : C2Bound f a b M) : Continuous f := by
  obtain ⟨f', f'', e1, _⟩ := h
  exact continuous_iff_continuousAt.2 fun x => (e1 x).continuousAt

/-- One panel of the trapezoidal rule. -/
theorem trapezoid_panel {f : ℝ → ℂ} {a b M : ℝ} (hab : a ≤ b) (h : C2Bound f a b M) :
    ‖((b - a : ℝ) : ℂ) / 2 * (f a + f b) - ∫ x in a..b, f x‖ ≤ M * (b - a) ^ 3 / 12 := by
  have hfc := h.continuous
  obtain ⟨f', f'', e1, e2, e3, e4⟩ := h
  set w : ℝ → ℝ := fun x => (x - a) * (b - x) / 2 with hw
  have hwd : ∀ x, HasDerivAt w ((a + b - 2 * x) / 2) x := by
    intro x
    have h1 : HasDerivAt (fun x : ℝ => (x - a) * (b - x) / 2) ((1 * (b - x) + (x - a) * (-1)) / 2) x :=
      ((((hasDerivAt_id x).sub_const a).mul ((hasDerivAt_id x).const_sub b)).div_const 2)
    exact h1.congr_deriv (by ring)
  have hF : ∀ x, HasDerivAt (fun x => (w x : ℂ) * f' x - (((a + b - 2 * x) / 2 : ℝ) : ℂ) * f x) ((w x : ℂ) * f'' x + f x) x := by
    intro x
    have h1 := (hwd x).ofReal_comp.mul (e2 x)
    have h2 : HasDerivAt (fun x : ℝ => (a + b - 2 * x) / 2) (-1) x := by
      have := (((hasDerivAt_id x).const_mul 2).const_sub (a + b)).div_const 2
      exact this.congr_deriv (by norm_num)
    have h3 := h1.sub (h2.ofReal_comp.mul (e1 x))
    refine h3.congr_deriv ?_
    push_cast
    ring
  have hwc : Continuous w := by rw [hw]; fun_prop
  have hi1 : Continuous fun x => (w x : ℂ) * f'' x := (Complex.continuous_ofReal.comp hwc).mul e3
  have key := intervalIntegral.integral_eq_sub_of_hasDerivAt (a := a) (b := b) (fun x _ => hF x) ((hi1.add hfc).intervalIntegrable _ _)
  rw [intervalIntegral.integral_add (hi1.intervalIntegrable _ _) (hfc.intervalIntegrable _ _)] at key
  have e : ((b - a : ℝ) : ℂ) / 2 * (f a + f b) - ∫ x in a..b, f x = ∫ x in a..b, (w x : ℂ) * f'' x := by
    rw [eq_sub_iff_add_eq.2 key]
    simp only [hw]
    push_cast
    ring
  rw [e]
  have hw0 : ∀ x, a ≤ x → x ≤ b → 0 ≤ w x := fun x h1 h2 => by
    simp only [hw]
    have := mul_nonneg (sub_nonneg.2 h1) (sub_nonneg.2 h2)
    linarith
  refine (intervalIntegral.norm_integral_le_of_norm_le hab (g := fun x => M * w x) (Filter.Eventually.of_forall fun x hx => ?_)
    ((continuous_const.mul hwc).intervalIntegrable _ _)).trans (le_of_eq ?_)
  · rw [norm_mul, Complex.norm_real, Real.norm_of_nonneg (hw0 x hx.1.le hx.2), mul_comm]
    exact mul_le_mul_of_nonneg_right (e4 x hx.1.le hx.2) (hw0 x hx.1.le hx.2)
  · have hI : ∀ x, HasDerivAt (fun x : ℝ => M * ((a + b) * x ^ 2 / 4 - x ^ 3 / 6 - a * b * x / 2)) (M * w x) x := by
      intro x
      have h1 := ((((hasDerivAt_pow 2 x).const_mul (a + b)).div_const 4).sub ((hasDerivAt_pow 3 x).div_const 6)).sub (((hasDerivAt_id x).const_mul (a * b)).div_const 2)
      refine (h1.const_mul M).congr_deriv ?_
      simp only [hw]
      push_cast
      ring
    rw [intervalIntegral.integral_eq_sub_of_hasDerivAt (fun x _ => hI x) ((continuous_const.mul hwc).intervalIntegrable _ _)]
    ring

/-- The trapezoidal rule on `[0, 1]`. -/
theorem trapezoid_rate (N : ℕ) (hN : 0 < N) {f : ℝ → ℂ} {M : ℝ} (h : C2Bound f 0 1 M) :
    ‖trapezoid N f - ∫ p in (0 : ℝ)..1, f p‖ ≤ M / (12 * (N : ℝ) ^ 2) := by
  have hN' : (0 : ℝ) < N := by exact_mod_cast hN
  have hf := h.continuous
  have split := intervalIntegral.sum_integral_adjacent_intervals (f := f) (μ := volume) (a := fun k : ℕ => (k : ℝ) / N) (n := N)
    (fun k _ => hf.intervalIntegrable _ _)
  simp only [Nat.cast_zero, zero_div, div_self hN'.ne'] at split
  rw [← split, trapezoid_panels N hN f, ← Finset.sum_sub_distrib]
  refine (norm_sum_le _ _).trans ?_
  have : ∀ k ∈ Finset.range N, ‖(1 / (N : ℂ)) * ((f ((k : ℝ) / N) + f (((k + 1 : ℕ) : ℝ) / N)) / 2) -
      ∫ t in ((k : ℝ) / N)..(((k + 1 : ℕ) : ℝ) / N), f t‖ ≤ M * (1 / N) ^ 3 / 12 := by
    intro k hk
    have hk' : (k : ℝ) + 1 ≤ N := by exact_mod_cast Finset.mem_range.1 hk
    have w : ((k + 1 : ℕ) : ℝ) / N - (k : ℝ) / N = 1 / N := by push_cast; ring
    have h0 : 0 ≤ (k : ℝ) / N := by positivity
    have h1 : ((k + 1 : ℕ) : ℝ) / N ≤ 1 := by rw [div_le_one hN']; push_cast; exact hk'
    have hw : 0 < 1 / (N : ℝ) := by positivity
    have key := trapezoid_panel (by linarith : (k : ℝ) / N ≤ ((k + 1 : ℕ) : ℝ) / N) (h.mono h0 h1)
    rw [w] at key
    refine le_trans (le_of_eq ?_) key
    congr 2
    push_cast
    ring
  refine (Finset.sum_le_sum this).trans (le_of_eq ?_)
  rw [Finset.sum_const, Finset.card_range, nsmul_eq_mul]
  field_simp

/-- One double panel of Simpson's rule. -/
theorem simpson_panel {g : ℝ → ℂ} {x w M : ℝ} (hw : 0 ≤ w) (h : C2Bound g x (x + 2 * w) M) :
    ‖(w : ℂ) / 3 * (g x + 4 * g (x + w) + g (x + 2 * w)) - ∫ t in x..x + 2 * w, g t‖ ≤ 4 / 9 * M * w ^ 3 := by
  have hc := h.continuous
  have t1 := trapezoid_panel (by linarith : x ≤ x + w) (h.mono le_rfl (by linarith))
  have t2 := trapezoid_panel (by linarith : x + w ≤ x + 2 * w) (h.mono (by linarith) le_rfl)
  have t3 := trapezoid_panel (by linarith : x ≤ x + 2 * w) h
  have s := intervalIntegral.integral_add_adjacent_intervals (hc.intervalIntegrable (μ := volume) x (x + w)) (hc.intervalIntegrable (x + w) (x + 2 * w))
  rw [show x + w - x = w by ring] at t1
  rw [show x + 2 * w - (x + w) = w by ring] at t2
  rw [show x + 2 * w - x = 2 * w by ring] at t3
  set I1 := ∫ t in x..x + w, g t
  set I2 := ∫ t in (x + w)..(x + 2 * w), g t
  set I3 := ∫ t in x..x + 2 * w, g t
  have e : (w : ℂ) / 3 * (g x + 4 * g (x + w) + g (x + 2 * w)) - I3 =
      (4 / 3 : ℂ) * ((w : ℂ) / 2 * (g x + g (x + w)) - I1) + (4 / 3 : ℂ) * ((w : ℂ) / 2 * (g (x + w) + g (x + 2 * w)) - I2) -
        (1 / 3 : ℂ) * (((2 * w : ℝ) : ℂ) / 2 * (g x + g (x + 2 * w)) - I3) := by
    push_cast
    linear_combination (4 / 3 : ℂ) * s
  rw [e]
  refine (norm_sub_le _ _).trans ((add_le_add_left (norm_add_le _ _) _).trans ?_)
  rw [norm_mul, norm_mul, norm_mul, show ‖(4 / 3 : ℂ)‖ = 4 / 3 by norm_num, show ‖(1 / 3 : ℂ)‖ = 1 / 3 by norm_num]
  nlinarith

/-- For an odd number of steps the rule covers all steps but the last, where only the difference of the values at the ends is added. -/
theorem rule_panels_odd (N : ℕ) (hN : 5 ≤ N) (ho : N % 2 = 1) (g : ℝ → ℂ) (B : ℝ) (hB : ∀ t, 0 ≤ t → t ≤ 2 * Real.pi → ‖g t‖ ≤ B) :
    ‖angularRule N g - ((2 * Real.pi / N : ℝ) : ℂ) / 3 * panels (fun k => g ((k : ℝ) * (2 * Real.pi / N))) (N / 2)‖ ≤
      2 / 3 * (2 * Real.pi / N) * B := by
  have hpi := Real.pi_pos
  have hN' : (0 : ℝ) < N := by exact_mod_cast (by omega : 0 < N)
  have node : ∀ k : ℕ, k ≤ N → ‖g ((k : ℝ) * (2 * Real.pi / N))‖ ≤ B := by
    intro k hk
    have hk' : (k : ℝ) ≤ N := by exact_mod_cast hk
    apply hB
    · positivity
    · rw [mul_div_assoc', div_le_iff₀ hN']; nlinarith
  have last : (N : ℝ) * (2 * Real.pi / N) = 2 * Real.pi := by field_simp
  set a : ℕ → ℂ := fun k => g ((k : ℝ) * (2 * Real.pi / N)) with ha
  have h0 : g 0 = a 0 := by simp [ha]
  have hl : g (2 * Real.pi) = a N := by simp only [ha]; rw [last]
  unfold angularRule
  rw [sum_even (fun k => g ((k : ℝ) * (2 * Real.pi / N))), sum_odd (fun k => g ((k : ℝ) * (2 * Real.pi / N))), h0, hl, ← mul_sub, norm_mul]
  have e : ‖((2 * Real.pi / N : ℝ) : ℂ) / 3‖ = (2 * Real.pi / N) / 3 := by
    rw [norm_div, Complex.norm_real, Real.norm_of_nonneg (by positivity)]; norm_num
  rw [e]
  have main : ‖a 0 + a N + 2 * ∑ j ∈ Finset.range ((N - 2 - 1) / 2), a (2 * j + 2) + 4 * ∑ j ∈ Finset.range ((N - 1) / 2), a (2 * j + 1) -
      panels a (N / 2)‖ ≤ 2 * B := by
    obtain ⟨K, hK⟩ : ∃ K, N / 2 = K + 1 := ⟨N / 2 - 1, by omega⟩
    rw [show (N - 2 - 1) / 2 = K by omega, show (N - 1) / 2 = K + 1 by omega, hK, panels_eq]
    have r : a 0 + a N + 2 * ∑ j ∈ Finset.range K, a (2 * j + 2) + 4 * ∑ j ∈ Finset.range (K + 1), a (2 * j + 1) -
        (a 0 + a (2 * K + 2) + 2 * ∑ j ∈ Finset.range K, a (2 * j + 2) +
          4 * ∑ j ∈ Finset.range (K + 1), a (2 * j + 1)) = a N - a (2 * K + 2) := by ring
    rw [r]
    refine (norm_sub_le _ _).trans ?_
    have n1 := node (2 * K + 2) (by omega)
    have n2 := node N le_rfl
    linarith
  calc _ ≤ (2 * Real.pi / N) / 3 * (2 * B) := mul_le_mul_of_nonneg_left main (by positivity)
    _ = _ := by ring

/-- The rate of the angular rule: of the second order, and a term of the first order from the missing nodes. -/
theorem rule_rate (N : ℕ) (hN : 4 ≤ N) {g : ℝ → ℂ} {M B : ℝ} (h : C2Bound g 0 (2 * Real.pi) M) (hB : ∀ t, 0 ≤ t → t ≤ 2 * Real.pi → ‖g t‖ ≤ B) :
    ‖angularRule N g - ∫ t in (0 : ℝ)..2 * Real.pi, g t‖ ≤ 2 * Real.pi * (2 / 9 * M * (2 * Real.pi / N) ^ 2) + 2 * (2 * Real.pi / N) * B := by
  have hpi := Real.pi_pos
  have hg := h.continuous
  have hN' : (0 : ℝ) < N := by exact_mod_cast (by omega : 0 < N)
  set w : ℝ := 2 * Real.pi / N with hw
  have hwpos : 0 < w := by positivity
  have last : (N : ℝ) * w = 2 * Real.pi := by rw [hw]; field_simp
  set J := N / 2 with hJ
  have hJN : (2 : ℝ) * J ≤ N := by exact_mod_cast (by omega : 2 * J ≤ N)
  have hJN' : (N : ℝ) ≤ 2 * J + 1 := by exact_mod_cast (by omega : N ≤ 2 * J + 1)
  have hB0 : 0 ≤ B := (norm_nonneg _).trans (hB 0 le_rfl (by positivity))
  have hM0 : 0 ≤ M := by
    obtain ⟨f', f'', _, _, _, e⟩ := h
    exact (norm_nonneg _).trans (e 0 le_rfl (by positivity))
  have split := intervalIntegral.sum_integral_adjacent_intervals (f := g) (μ := volume) (a := fun j : ℕ => ((2 * j : ℕ) : ℝ) * w) (n := J)
    (fun k _ => hg.intervalIntegrable _ _)
  simp only [mul_zero, Nat.cast_zero, zero_mul] at split
  have p1 : ‖((w : ℝ) : ℂ) / 3 * panels (fun k => g ((k : ℝ) * w)) J - ∫ t in (0 : ℝ)..((2 * J : ℕ) : ℝ) * w, g t‖ ≤ 2 * Real.pi * (2 / 9 * M * w ^ 2) := by
    rw [← split]
    unfold panels
    rw [Finset.mul_sum, ← Finset.sum_sub_distrib]
    refine (norm_sum_le _ _).trans ?_
    have : ∀ j ∈ Finset.range J, ‖((w : ℝ) : ℂ) / 3 * (g (((2 * j : ℕ) : ℝ) * w) + 4 * g (((2 * j + 1 : ℕ) : ℝ) * w) +
        g (((2 * j + 2 : ℕ) : ℝ) * w)) - ∫ t in (((2 * j : ℕ) : ℝ) * w)..(((2 * (j + 1) : ℕ) : ℝ) * w), g t‖ ≤ 4 / 9 * M * w ^ 3 := by
      intro j hj
      have hj' : (j : ℝ) + 1 ≤ J := by exact_mod_cast Finset.mem_range.1 hj
      have c0 : 0 ≤ ((2 * j : ℕ) : ℝ) * w := by positivity
      have e1 : ((2 * (j + 1) : ℕ) : ℝ) * w = ((2 * j : ℕ) : ℝ) * w + 2 * w := by push_cast; ring
      have e2 : ((2 * j + 1 : ℕ) : ℝ) * w = ((2 * j : ℕ) : ℝ) * w + w := by push_cast; ring
      have e3 : ((2 * j + 2 : ℕ) : ℝ) * w = ((2 * j : ℕ) : ℝ) * w + 2 * w := by push_cast; ring
      have c2 : ((2 * j : ℕ) : ℝ) * w + 2 * w ≤ 2 * Real.pi := by
        rw [← last, ← e3]
        exact mul_le_mul_of_nonneg_right (by push_cast; linarith) hwpos.le
      rw [e1, e2, e3]
      exact simpson_panel hwpos.le (h.mono c0 c2)
    refine (Finset.sum_le_sum this).trans ?_
    rw [Finset.sum_const, Finset.card_range, nsmul_eq_mul]
    have : (2 * (J : ℝ)) * w ≤ N * w := mul_le_mul_of_nonneg_right hJN hwpos.le
    rw [last] at this
    calc (J : ℝ) * (4 / 9 * M * w ^ 3) = (2 * J * w) * (2 / 9 * M * w ^ 2) := by ring
      _ ≤ _ := mul_le_mul_of_nonneg_right this (by positivity)
  have p4 := intervalIntegral.integral_add_adjacent_intervals (f := g) (μ := volume) (hg.intervalIntegrable 0 (((2 * J : ℕ) : ℝ) * w))
    (hg.intervalIntegrable (((2 * J : ℕ) : ℝ) * w) (2 * Real.pi))
  rcases Nat.mod_two_eq_zero_or_one N with he | ho
  · have p3 := rule_panels N hN g B hB
    rw [← hw, ← hJ] at p3
    have e : ((2 * J : ℕ) : ℝ) * w = 2 * Real.pi := by
      rw [← last, show 2 * J = N by omega]
    rw [e] at p1
    have := norm_sub_le_norm_sub_add_norm_sub (angularRule N g) ((w : ℂ) / 3 * panels (fun k => g ((k : ℝ) * w)) J) (∫ t in (0 : ℝ)..2 * Real.pi, g t)
    linarith
  · have p3 := rule_panels_odd N (by omega) ho g B hB
    rw [← hw, ← hJ] at p3
    have p2 : ‖∫ t in (((2 * J : ℕ) : ℝ) * w)..2 * Real.pi, g t‖ ≤ w * B := by
      have c0 : 0 ≤ ((2 * J : ℕ) : ℝ) * w := by positivity
      have c1 : ((2 * J : ℕ) : ℝ) * w ≤ 2 * Real.pi := by
        rw [← last]; push_cast; exact mul_le_mul_of_nonneg_right hJN hwpos.le
      have := intervalIntegral.norm_integral_le_of_norm_le_const (a := ((2 * J : ℕ) : ℝ) * w) (b := 2 * Real.pi) (C := B) (f := g) (by
        intro t ht
        rw [Set.uIoc_of_le c1] at ht
        exact hB t (by linarith [ht.1]) ht.2)
      refine this.trans ?_
      rw [abs_of_nonneg (by linarith), mul_comm]
      apply mul_le_mul_of_nonneg_right _ hB0
      rw [← last]; push_cast
      nlinarith
    rw [← p4]
    have e : angularRule N g - ((∫ t in (0 : ℝ)..((2 * J : ℕ) : ℝ) * w, g t) + ∫ t in (((2 * J : ℕ) : ℝ) * w)..2 * Real.pi, g t) =
        (angularRule N g - (w : ℂ) / 3 * panels (fun k => g ((k : ℝ) * w)) J) +
        ((w : ℂ) / 3 * panels (fun k => g ((k : ℝ) * w)) J - ∫ t in (0 : ℝ)..((2 * J : ℕ) : ℝ) * w, g t) +
        (- ∫ t in (((2 * J : ℕ) : ℝ) * w)..2 * Real.pi, g t) := by ring
    rw [e]
    refine norm_add₃_le.trans ?_
    rw [norm_neg]
    have := mul_nonneg hwpos.le hB0
    linarith

end Verif.Proofs
