import Verif.Spec.Diffraction
import Verif.Proofs.PsfBound
import Verif.Proofs.Psf
import Mathlib.MeasureTheory.Integral.DominatedConvergence
import Mathlib.MeasureTheory.Integral.IntervalIntegral.FundThmCalculus

/-! # Errors of the trapezoidal rule and of the angular rule for continuous functions -/

namespace Verif.Proofs
open Verif.Spec MeasureTheory

/-- A function close to a constant on an interval. -/
theorem integral_near_const (f : ℝ → ℂ) (hf : Continuous f) (a b ε : ℝ) (hab : a ≤ b) (c : ℂ) (h : ∀ t, a ≤ t → t ≤ b → ‖f t - c‖ ≤ ε) :
    ‖(∫ t in a..b, f t) - ((b - a : ℝ) : ℂ) * c‖ ≤ ε * (b - a) := by
  have e : (∫ t in a..b, f t) - ((b - a : ℝ) : ℂ) * c = ∫ t in a..b, (f t - c) := by
    rw [intervalIntegral.integral_sub (hf.intervalIntegrable _ _) intervalIntegrable_const, intervalIntegral.integral_const]
    simp
  rw [e]
  have := intervalIntegral.norm_integral_le_of_norm_le_const (a := a) (b := b) (C := ε) (f := fun t => f t - c) (by
    intro t ht
    rw [Set.uIoc_of_le hab] at ht
    exact h t ht.1.le ht.2)
  rwa [abs_of_nonneg (by linarith)] at this

theorem trapezoid_panels (N : ℕ) (hN : 0 < N) (f : ℝ → ℂ) : trapezoid N f =
    ∑ k ∈ Finset.range N, (1 / (N : ℂ)) * ((f ((k : ℝ) / N) + f (((k + 1 : ℕ) : ℝ) / N)) / 2) := by
  obtain ⟨M, rfl⟩ : ∃ M, N = M + 1 := ⟨N - 1, by omega⟩
  unfold trapezoid
  rw [← Finset.mul_sum, ← Finset.sum_div, Finset.sum_add_distrib,
    Finset.sum_range_succ' (fun k => f ((k : ℝ) / ((M + 1 : ℕ) : ℝ))),
    Finset.sum_range_succ (fun k => f (((k + 1 : ℕ) : ℝ) / ((M + 1 : ℕ) : ℝ)))]
  have := sum_Ioo (M + 1) fun k => f ((k : ℝ) / ((M + 1 : ℕ) : ℝ))
  rw [Nat.add_sub_cancel] at this
  rw [← this]
  have h1 : (((M + 1 : ℕ) : ℝ)) / ((M + 1 : ℕ) : ℝ) = 1 := div_self (by positivity)
  rw [h1]
  simp only [Nat.cast_zero, zero_div]
  ring

/-- The trapezoidal rule on `[0, 1]`: the error is at most the oscillation over one panel. -/
theorem trapezoid_error (N : ℕ) (hN : 0 < N) (f : ℝ → ℂ) (hf : Continuous f) (ε : ℝ)
    (h : ∀ s t, 0 ≤ s → s ≤ 1 → 0 ≤ t → t ≤ 1 → |s - t| ≤ 1 / (N : ℝ) → ‖f s - f t‖ ≤ ε) :
    ‖trapezoid N f - ∫ p in (0 : ℝ)..1, f p‖ ≤ ε := by
  have hN' : (0 : ℝ) < N := by exact_mod_cast hN
  have split := intervalIntegral.sum_integral_adjacent_intervals (f := f) (μ := volume) (a := fun k : ℕ => (k : ℝ) / N) (n := N)
    (fun k _ => hf.intervalIntegrable _ _)
  simp only [Nat.cast_zero, zero_div, div_self hN'.ne'] at split
  rw [← split, trapezoid_panels N hN f, ← Finset.sum_sub_distrib]
  refine (norm_sum_le _ _).trans ?_
  have : ∀ k ∈ Finset.range N, ‖(1 / (N : ℂ)) * ((f ((k : ℝ) / N) + f (((k + 1 : ℕ) : ℝ) / N)) / 2) -
      ∫ t in ((k : ℝ) / N)..(((k + 1 : ℕ) : ℝ) / N), f t‖ ≤ ε / N := by
    intro k hk
    have hk' : (k : ℝ) + 1 ≤ N := by exact_mod_cast Finset.mem_range.1 hk
    have w : ((k + 1 : ℕ) : ℝ) / N - (k : ℝ) / N = 1 / N := by push_cast; ring
    have h0 : 0 ≤ (k : ℝ) / N := by positivity
    have h1 : ((k + 1 : ℕ) : ℝ) / N ≤ 1 := by rw [div_le_one hN']; push_cast; exact hk'
    have hw : 0 < 1 / (N : ℝ) := by positivity
    have key := integral_near_const f hf ((k : ℝ) / N) (((k + 1 : ℕ) : ℝ) / N) ε (by linarith)
      ((f ((k : ℝ) / N) + f (((k + 1 : ℕ) : ℝ) / N)) / 2) (by
        intro t ht1 ht2
        have e : f t - (f ((k : ℝ) / N) + f (((k + 1 : ℕ) : ℝ) / N)) / 2 =
            ((f t - f ((k : ℝ) / N)) + (f t - f (((k + 1 : ℕ) : ℝ) / N))) / 2 := by ring
        rw [e, norm_div]
        have a1 := h t ((k : ℝ) / N) (by linarith) (by linarith) h0 (by linarith) (by rw [abs_of_nonneg (by linarith)]; linarith)
        have a2 := h t (((k + 1 : ℕ) : ℝ) / N) (by linarith) (by linarith) (by linarith) h1 (by rw [abs_of_nonpos (by linarith)]; linarith)
        have := norm_add_le (f t - f ((k : ℝ) / N)) (f t - f (((k + 1 : ℕ) : ℝ) / N))
        rw [show ‖(2 : ℂ)‖ = 2 by norm_num]
        linarith)
    rw [w] at key
    rw [norm_sub_rev]
    have c : ((1 / (N : ℝ) : ℝ) : ℂ) = 1 / (N : ℂ) := by push_cast; rfl
    rw [c] at key
    refine key.trans (le_of_eq ?_)
    ring
  refine (Finset.sum_le_sum this).trans ?_
  rw [Finset.sum_const, Finset.card_range, nsmul_eq_mul]
  apply le_of_eq
  field_simp

theorem sum_even (f : ℕ → ℂ) (M : ℕ) : ∑ k ∈ (Finset.Ioo 0 M).filter (fun k => k % 2 = 0), f k =
    ∑ j ∈ Finset.range ((M - 1) / 2), f (2 * j + 2) := by
  induction M with
  | zero => rfl
  | succ M ih =>
    rcases Nat.eq_zero_or_pos M with rfl | h
    · rfl
    · have : Finset.Ioo 0 (M + 1) = insert M (Finset.Ioo 0 M) := by ext k; simp; omega
      rw [this, Finset.filter_insert]
      split_ifs with hp
      · rw [Finset.sum_insert (by simp), ih, show (M + 1 - 1) / 2 = (M - 1) / 2 + 1 by omega, Finset.sum_range_succ,
          show 2 * ((M - 1) / 2) + 2 = M by omega]
        ring
      · rw [ih, show (M + 1 - 1) / 2 = (M - 1) / 2 by omega]

theorem sum_odd (f : ℕ → ℂ) (M : ℕ) : ∑ k ∈ (Finset.Ioo 0 M).filter (fun k => k % 2 = 1), f k =
    ∑ j ∈ Finset.range (M / 2), f (2 * j + 1) := by
  induction M with
  | zero => rfl
  | succ M ih =>
    rcases Nat.eq_zero_or_pos M with rfl | h
    · rfl
    · have : Finset.Ioo 0 (M + 1) = insert M (Finset.Ioo 0 M) := by ext k; simp; omega
      rw [this, Finset.filter_insert]
      split_ifs with hp
      · rw [Finset.sum_insert (by simp), ih, show (M + 1) / 2 = M / 2 + 1 by omega, Finset.sum_range_succ,
          show 2 * (M / 2) + 1 = M by omega]
        ring
      · rw [ih, show (M + 1) / 2 = M / 2 by omega]

/-- The panels of Simpson's rule. -/
noncomputable def panels (a : ℕ → ℂ) (J : ℕ) : ℂ := ∑ j ∈ Finset.range J, (a (2 * j) + 4 * a (2 * j + 1) + a (2 * j + 2))

theorem panels_eq (a : ℕ → ℂ) (J : ℕ) : panels a (J + 1) = a 0 + a (2 * J + 2) + 2 * ∑ j ∈ Finset.range J, a (2 * j + 2) +
    4 * ∑ j ∈ Finset.range (J + 1), a (2 * j + 1) := by
  induction J with
  | zero => simp [panels]; ring
  | succ J ih =>
    unfold panels at ih ⊢
    rw [Finset.sum_range_succ, ih, Finset.sum_range_succ (fun j => a (2 * j + 2)), Finset.sum_range_succ _ (J + 1)]
    rw [show 2 * (J + 1) = 2 * J + 2 by ring]
    ring

/-- The difference between the rule of the code and Simpson's panels is a bounded number of terms. -/
theorem rule_panels (N : ℕ) (hN : 4 ≤ N) (g : ℝ → ℂ) (B : ℝ) (hB : ∀ t, 0 ≤ t → t ≤ 2 * Real.pi → ‖g t‖ ≤ B) :
    ‖angularRule N g - ((2 * Real.pi / N : ℝ) : ℂ) / 3 * panels (fun k => g ((k : ℝ) * (2 * Real.pi / N))) (N / 2)‖ ≤
      2 * (2 * Real.pi / N) * B := by
  have hpi := Real.pi_pos
  have hN' : (0 : ℝ) < N := by exact_mod_cast (by omega : 0 < N)
  have node : ∀ k : ℕ, k ≤ N → ‖g ((k : ℝ) * (2 * Real.pi / N))‖ ≤ B := by
    intro k hk
    have hk' : (k : ℝ) ≤ N := by exact_mod_cast hk
    apply hB
    · positivity
    · rw [mul_div_assoc', div_le_iff₀ hN']; nlinarith
  have last : (N : ℝ) * (2 * Real.pi / N) = 2 * Real.pi := by field_simp
  set a : ℕ → ℂ := fun k => g ((k : ℝ) * (2 * Real.pi / N)) with ha
  have h0 : g 0 = a 0 := by simp [ha]
  have hl : g (2 * Real.pi) = a N := by simp only [ha]; rw [last]
  have hB0 : 0 ≤ B := (norm_nonneg _).trans (node 0 (by omega))
  unfold angularRule
  rw [sum_even (fun k => g ((k : ℝ) * (2 * Real.pi / N))), sum_odd (fun k => g ((k : ℝ) * (2 * Real.pi / N))), h0, hl, ← mul_sub, norm_mul]
  have e : ‖((2 * Real.pi / N : ℝ) : ℂ) / 3‖ = (2 * Real.pi / N) / 3 := by
    rw [norm_div, Complex.norm_real, Real.norm_of_nonneg (by positivity)]; norm_num
  rw [e]
  have main : ‖a 0 + a N + 2 * ∑ j ∈ Finset.range ((N - 2 - 1) / 2), a (2 * j + 2) + 4 * ∑ j ∈ Finset.range ((N - 1) / 2), a (2 * j + 1) -
      panels a (N / 2)‖ ≤ 6 * B := by
    rcases Nat.even_or_odd' N with ⟨J, hJ | hJ⟩
    · obtain ⟨K, rfl⟩ : ∃ K, J = K + 2 := ⟨J - 2, by omega⟩
      rw [show (N - 2 - 1) / 2 = K by omega, show (N - 1) / 2 = K + 1 by omega, show N / 2 = K + 1 + 1 by omega, panels_eq,
        Finset.sum_range_succ (fun j => a (2 * j + 2)), Finset.sum_range_succ _ (K + 1), show 2 * (K + 1) + 2 = N by omega]
      have r : a 0 + a N + 2 * ∑ j ∈ Finset.range K, a (2 * j + 2) + 4 * ∑ j ∈ Finset.range (K + 1), a (2 * j + 1) -
          (a 0 + a N + 2 * (∑ j ∈ Finset.range K, a (2 * j + 2) + a (2 * K + 2)) +
            4 * (∑ j ∈ Finset.range (K + 1), a (2 * j + 1) + a (2 * (K + 1) + 1))) = -(2 * a (2 * K + 2) + 4 * a (2 * (K + 1) + 1)) := by ring
      rw [r, norm_neg]
      refine (norm_add_le _ _).trans ?_
      rw [norm_mul, norm_mul, show ‖(2 : ℂ)‖ = 2 by norm_num, show ‖(4 : ℂ)‖ = 4 by norm_num]
      have n1 := node (2 * K + 2) (by omega)
      have n2 := node (2 * (K + 1) + 1) (by omega)
      linarith
    · obtain ⟨K, rfl⟩ : ∃ K, J = K + 1 := ⟨J - 1, by omega⟩
      rw [show (N - 2 - 1) / 2 = K by omega, show (N - 1) / 2 = K + 1 by omega, show N / 2 = K + 1 by omega, panels_eq]
      have r : a 0 + a N + 2 * ∑ j ∈ Finset.range K, a (2 * j + 2) + 4 * ∑ j ∈ Finset.range (K + 1), a (2 * j + 1) -
          (a 0 + a (2 * K + 2) + 2 * ∑ j ∈ Finset.range K, a (2 * j + 2) +
            4 * ∑ j ∈ Finset.range (K + 1), a (2 * j + 1)) = a N - a (2 * K + 2) := by ring
      rw [r]
      refine (norm_sub_le _ _).trans ?_
      have n1 := node (2 * K + 2) (by omega)
      have n2 := node N le_rfl
      linarith
  calc _ ≤ (2 * Real.pi / N) / 3 * (6 * B) := mul_le_mul_of_nonneg_left main (by positivity)
    _ = _ := by ring

/-- Error of the angular rule: oscillation over two steps, and a term that vanishes with the step. -/
theorem rule_error (N : ℕ) (hN : 4 ≤ N) (g : ℝ → ℂ) (hg : Continuous g) (ε B : ℝ) (hB : ∀ t, 0 ≤ t → t ≤ 2 * Real.pi → ‖g t‖ ≤ B)
    (h : ∀ s t, 0 ≤ s → s ≤ 2 * Real.pi → 0 ≤ t → t ≤ 2 * Real.pi → |s - t| ≤ 2 * (2 * Real.pi / N) → ‖g s - g t‖ ≤ ε) :
    ‖angularRule N g - ∫ t in (0 : ℝ)..2 * Real.pi, g t‖ ≤ 2 * Real.pi * ε + 3 * (2 * Real.pi / N) * B := by
  have hpi := Real.pi_pos
  have hN' : (0 : ℝ) < N := by exact_mod_cast (by omega : 0 < N)
  set w : ℝ := 2 * Real.pi / N with hw
  have hwpos : 0 < w := by positivity
  have last : (N : ℝ) * w = 2 * Real.pi := by rw [hw]; field_simp
  set J := N / 2 with hJ
  have hJN : (2 : ℝ) * J ≤ N := by exact_mod_cast (by omega : 2 * J ≤ N)
  have hJN' : (N : ℝ) ≤ 2 * J + 1 := by exact_mod_cast (by omega : N ≤ 2 * J + 1)
  have hε : 0 ≤ ε := (norm_nonneg _).trans (h 0 0 le_rfl (by positivity) le_rfl (by positivity) (by simp; positivity))
  have hB0 : 0 ≤ B := (norm_nonneg _).trans (hB 0 le_rfl (by positivity))
  have split := intervalIntegral.sum_integral_adjacent_intervals (f := g) (μ := volume) (a := fun j : ℕ => ((2 * j : ℕ) : ℝ) * w) (n := J)
    (fun k _ => hg.intervalIntegrable _ _)
  simp only [mul_zero, Nat.cast_zero, zero_mul] at split
  have p1 : ‖((w : ℝ) : ℂ) / 3 * panels (fun k => g ((k : ℝ) * w)) J - ∫ t in (0 : ℝ)..((2 * J : ℕ) : ℝ) * w, g t‖ ≤ 2 * Real.pi * ε := by
    rw [← split]
    unfold panels
    rw [Finset.mul_sum, ← Finset.sum_sub_distrib]
    refine (norm_sum_le _ _).trans ?_
    have : ∀ j ∈ Finset.range J, ‖((w : ℝ) : ℂ) / 3 * (g (((2 * j : ℕ) : ℝ) * w) + 4 * g (((2 * j + 1 : ℕ) : ℝ) * w) +
        g (((2 * j + 2 : ℕ) : ℝ) * w)) - ∫ t in (((2 * j : ℕ) : ℝ) * w)..(((2 * (j + 1) : ℕ) : ℝ) * w), g t‖ ≤ ε * (2 * w) := by
      intro j hj
      have hj' : (j : ℝ) + 1 ≤ J := by exact_mod_cast Finset.mem_range.1 hj
      have e1 : ((2 * (j + 1) : ℕ) : ℝ) * w - ((2 * j : ℕ) : ℝ) * w = 2 * w := by push_cast; ring
      have c0 : 0 ≤ ((2 * j : ℕ) : ℝ) * w := by positivity
      have c2 : ((2 * j + 2 : ℕ) : ℝ) * w ≤ 2 * Real.pi := by
        rw [← last]
        apply mul_le_mul_of_nonneg_right _ hwpos.le
        push_cast; linarith
      have c1 : ((2 * j + 1 : ℕ) : ℝ) * w = ((2 * j : ℕ) : ℝ) * w + w := by push_cast; ring
      have c3 : ((2 * j + 2 : ℕ) : ℝ) * w = ((2 * j : ℕ) : ℝ) * w + 2 * w := by push_cast; ring
      rw [show 2 * (j + 1) = 2 * j + 2 by ring] at e1 ⊢
      set x : ℝ := ((2 * j : ℕ) : ℝ) * w
      rw [c3] at c2
      rw [c1, c3]
      have key := integral_near_const g hg x (x + 2 * w) ε (by linarith) ((g x + 4 * g (x + w) + g (x + 2 * w)) / 6) (by
        intro t ht1 ht2
        have e : g t - (g x + 4 * g (x + w) + g (x + 2 * w)) / 6 =
            ((g t - g x) + 4 * (g t - g (x + w)) + (g t - g (x + 2 * w))) / 6 := by ring
        have a1 := h t x (by linarith) (by linarith) c0 (by linarith) (by rw [abs_of_nonneg (by linarith)]; linarith)
        have a2 := h t (x + w) (by linarith) (by linarith) (by linarith) (by linarith) (by rw [abs_le]; constructor <;> linarith)
        have a3 := h t (x + 2 * w) (by linarith) (by linarith) (by linarith) c2 (by rw [abs_of_nonpos (by linarith)]; linarith)
        have := norm_add₃_le (a := g t - g x) (b := 4 * (g t - g (x + w))) (c := g t - g (x + 2 * w))
        rw [e, norm_div, show ‖(6 : ℂ)‖ = 6 by norm_num]
        rw [norm_mul, show ‖(4 : ℂ)‖ = 4 by norm_num] at this
        linarith)
      rw [norm_sub_rev]
      rw [show x + 2 * w - x = 2 * w by ring] at key
      have c : ((2 * w : ℝ) : ℂ) * ((g x + 4 * g (x + w) + g (x + 2 * w)) / 6) = (w : ℂ) / 3 * (g x + 4 * g (x + w) + g (x + 2 * w)) := by
        push_cast; ring
      rw [c] at key
      exact key
    refine (Finset.sum_le_sum this).trans ?_
    rw [Finset.sum_const, Finset.card_range, nsmul_eq_mul]
    have : (2 * (J : ℝ)) * w ≤ N * w := mul_le_mul_of_nonneg_right hJN hwpos.le
    rw [last] at this
    calc (J : ℝ) * (ε * (2 * w)) = (2 * J * w) * ε := by ring
      _ ≤ _ := mul_le_mul_of_nonneg_right this hε
  have p2 : ‖∫ t in (((2 * J : ℕ) : ℝ) * w)..2 * Real.pi, g t‖ ≤ w * B := by
    have c0 : 0 ≤ ((2 * J : ℕ) : ℝ) * w := by positivity
    have c1 : ((2 * J : ℕ) : ℝ) * w ≤ 2 * Real.pi := by
      rw [← last]; push_cast; exact mul_le_mul_of_nonneg_right hJN hwpos.le
    have := intervalIntegral.norm_integral_le_of_norm_le_const (a := ((2 * J : ℕ) : ℝ) * w) (b := 2 * Real.pi) (C := B) (f := g) (by
      intro t ht
      rw [Set.uIoc_of_le c1] at ht
      exact hB t (by linarith [ht.1]) ht.2)
    refine this.trans ?_
    rw [abs_of_nonneg (by linarith), mul_comm]
    apply mul_le_mul_of_nonneg_right _ hB0
    rw [← last]; push_cast
    nlinarith
  have p3 := rule_panels N hN g B hB
  rw [← hw, ← hJ] at p3
  have p4 := intervalIntegral.integral_add_adjacent_intervals (f := g) (μ := volume) (hg.intervalIntegrable 0 (((2 * J : ℕ) : ℝ) * w))
    (hg.intervalIntegrable (((2 * J : ℕ) : ℝ) * w) (2 * Real.pi))
  rw [← p4]
  have e : angularRule N g - ((∫ t in (0 : ℝ)..((2 * J : ℕ) : ℝ) * w, g t) + ∫ t in (((2 * J : ℕ) : ℝ) * w)..2 * Real.pi, g t) =
      (angularRule N g - (w : ℂ) / 3 * panels (fun k => g ((k : ℝ) * w)) J) +
      ((w : ℂ) / 3 * panels (fun k => g ((k : ℝ) * w)) J - ∫ t in (0 : ℝ)..((2 * J : ℕ) : ℝ) * w, g t) +
      (- ∫ t in (((2 * J : ℕ) : ℝ) * w)..2 * Real.pi, g t) := by ring
  rw [e]
  refine norm_add₃_le.trans ?_
  rw [norm_neg]
  linarith

/-- The rule only looks at `[0, 2π]`. -/
theorem angularRule_congr (N : ℕ) (hN : 0 < N) (g g' : ℝ → ℂ) (h : ∀ t, 0 ≤ t → t ≤ 2 * Real.pi → g t = g' t) : angularRule N g = angularRule N g' := by
  have hpi := Real.pi_pos
  have hN' : (0 : ℝ) < N := by exact_mod_cast hN
  have node : ∀ k : ℕ, k ≤ N → g ((k : ℝ) * (2 * Real.pi / N)) = g' ((k : ℝ) * (2 * Real.pi / N)) := by
    intro k hk
    have hk' : (k : ℝ) ≤ N := by exact_mod_cast hk
    apply h
    · positivity
    · rw [mul_div_assoc', div_le_iff₀ hN']; nlinarith
  unfold angularRule
  rw [h 0 le_rfl (by positivity), h _ (by positivity) le_rfl]
  congr 2
  · congr 2
    apply Finset.sum_congr rfl
    intro k hk
    simp only [Finset.mem_filter, Finset.mem_Ioo] at hk
    exact node k (by omega)
  · congr 1
    apply Finset.sum_congr rfl
    intro k hk
    simp only [Finset.mem_filter, Finset.mem_Ioo] at hk
    exact node k (by omega)

theorem angularRule_sub_le (N : ℕ) (hN : 0 < N) (g g' : ℝ → ℂ) (B : ℝ) (hB : 0 ≤ B) (h : ∀ t, 0 ≤ t → t ≤ 2 * Real.pi → ‖g t - g' t‖ ≤ B) :
    ‖angularRule N g - angularRule N g'‖ ≤ 2 * Real.pi * B := by
  have hpi := Real.pi_pos
  classical
  set d : ℝ → ℂ := fun t => if 0 ≤ t ∧ t ≤ 2 * Real.pi then g t - g' t else 0 with hd
  have e : angularRule N g - angularRule N g' = angularRule N d := by
    rw [angularRule_congr N hN d (fun t => g t - g' t) (by intro t h0 h1; simp only [hd]; rw [if_pos ⟨h0, h1⟩])]
    unfold angularRule
    rw [Finset.sum_sub_distrib, Finset.sum_sub_distrib]
    ring
  rw [e]
  refine (angularRule_norm_le N hN d B ?_).trans ?_
  · intro φ
    simp only [hd]
    split_ifs with hc
    · exact h _ hc.1 hc.2
    · simpa using hB
  · have := fraction_lt_one N hN
    have := fraction_pos N hN
    apply mul_le_mul_of_nonneg_right _ hB
    nlinarith

end Verif.Proofs
