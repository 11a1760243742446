import Verif.Proofs.Psf

/-! # Bounds and symmetries of the numerical PSF -/

namespace Verif.Proofs
open Verif.Model Verif.Spec

theorem trapezoid_id (N : ℕ) (hN : 0 < N) : trapezoid N (fun p => (p : ℂ)) = 1 / 2 := by
  have hN' : (N : ℂ) ≠ 0 := by exact_mod_cast hN.ne'
  have h : ∀ M : ℕ, ∑ k ∈ Finset.range M, ((k : ℂ) + 1) = (M : ℂ) * (M + 1) / 2 := by
    intro M
    induction M with
    | zero => simp
    | succ M ih => rw [Finset.sum_range_succ, ih]; push_cast; ring
  unfold trapezoid
  have e : ∑ k ∈ Finset.Ioo 0 N, ((((k : ℝ) / (N : ℝ) : ℝ)) : ℂ) = ((N : ℂ) - 1) / 2 := by
    rw [← sum_Ioo N fun k => ((((k : ℝ) / (N : ℝ) : ℝ)) : ℂ)]
    have : ∀ i ∈ Finset.range (N - 1), (((((i + 1 : ℕ) : ℝ) / (N : ℝ) : ℝ)) : ℂ) = ((i : ℂ) + 1) * (1 / N) := by
      intro i _; push_cast; ring
    rw [Finset.sum_congr rfl this, ← Finset.sum_mul, h, Nat.cast_sub hN]
    push_cast
    field_simp
    ring
  rw [e]
  push_cast
  field_simp
  ring

theorem trapezoid_norm_le (N : ℕ) (f : ℝ → ℂ) (g : ℝ → ℝ) (h : ∀ p, 0 ≤ p → p ≤ 1 → ‖f p‖ ≤ g p) :
    ‖trapezoid N f‖ ≤ ‖trapezoid N fun p => (g p : ℂ)‖ := by
  have e : trapezoid N (fun p => (g p : ℂ)) = (((1 / (N : ℝ)) * (g 0 / 2 + ∑ k ∈ Finset.Ioo 0 N, g ((k : ℝ) / (N : ℝ)) + g 1 / 2) : ℝ) : ℂ) := by
    unfold trapezoid; push_cast; rfl
  have h0 := h 0 le_rfl zero_le_one
  have h1 := h 1 zero_le_one le_rfl
  have hs : ‖∑ k ∈ Finset.Ioo 0 N, f ((k : ℝ) / (N : ℝ))‖ ≤ ∑ k ∈ Finset.Ioo 0 N, g ((k : ℝ) / (N : ℝ)) := by
    refine (norm_sum_le _ _).trans (Finset.sum_le_sum fun k hk => ?_)
    rw [Finset.mem_Ioo] at hk
    apply h _ (by positivity)
    have : (k : ℝ) ≤ N := by exact_mod_cast hk.2.le
    exact div_le_one_of_le₀ this (by positivity)
  rw [e, Complex.norm_real, Real.norm_eq_abs]
  refine le_trans ?_ (le_abs_self _)
  unfold trapezoid
  rw [norm_mul]
  have : ‖(1 / (N : ℂ))‖ = 1 / (N : ℝ) := by simp
  rw [this]
  apply mul_le_mul_of_nonneg_left _ (by positivity)
  refine (norm_add₃_le ..).trans ?_
  have a : ‖f 0 / 2‖ = ‖f 0‖ / 2 := by simp
  have b : ‖f 1 / 2‖ = ‖f 1‖ / 2 := by simp
  rw [a, b]
  linarith

theorem norm_pupilField (Φ : ℝ → ℝ → ℝ) (r θ p φ : ℝ) (hp : 0 ≤ p) : ‖pupilField Φ r θ p φ‖ = p := by
  unfold pupilField
  rw [norm_mul, mul_comm Complex.I, Complex.norm_exp_ofReal_mul_I, one_mul, Complex.norm_real, Real.norm_of_nonneg hp]

theorem norm_pupilFieldXY (Φ : ℝ → ℝ → ℝ) (x y p φ : ℝ) (hp : 0 ≤ p) : ‖pupilFieldXY Φ x y p φ‖ = p := by
  unfold pupilFieldXY
  rw [norm_mul, mul_comm Complex.I, Complex.norm_exp_ofReal_mul_I, one_mul, Complex.norm_real, Real.norm_of_nonneg hp]

theorem trapezoid_field_le (Φ : ℝ → ℝ → ℝ) (r θ φ : ℝ) (N : ℕ) (hN : 0 < N) :
    ‖trapezoid N fun p => pupilField Φ r θ p φ‖ ≤ 1 / 2 := by
  have := trapezoid_norm_le N (fun p => pupilField Φ r θ p φ) (fun p => p) fun p hp _ => (norm_pupilField Φ r θ p φ hp).le
  rw [trapezoid_id N hN] at this
  simpa using this

theorem card_even (M : ℕ) : ((Finset.Ioo 0 M).filter (fun k => k % 2 = 0)).card = (M - 1) / 2 := by
  induction M with
  | zero => rfl
  | succ M ih =>
    rcases Nat.eq_zero_or_pos M with rfl | h
    · decide
    · have : Finset.Ioo 0 (M + 1) = insert M (Finset.Ioo 0 M) := by ext k; simp; omega
      rw [this, Finset.filter_insert]
      split_ifs with hp
      · rw [Finset.card_insert_of_notMem (by simp), ih]; omega
      · rw [ih]; omega

theorem card_odd (M : ℕ) : ((Finset.Ioo 0 M).filter (fun k => k % 2 = 1)).card = M / 2 := by
  induction M with
  | zero => rfl
  | succ M ih =>
    rcases Nat.eq_zero_or_pos M with rfl | h
    · decide
    · have : Finset.Ioo 0 (M + 1) = insert M (Finset.Ioo 0 M) := by ext k; simp; omega
      rw [this, Finset.filter_insert]
      split_ifs with hp
      · rw [Finset.card_insert_of_notMem (by simp), ih]; omega
      · rw [ih]; omega

theorem fraction_eq (N : ℕ) (hN : 0 < N) :
    (2 * Real.pi / N) / 3 * (2 + 2 * ((N - 2 - 1) / 2 : ℕ) + 4 * ((N - 1) / 2 : ℕ)) = 2 * Real.pi * angularFraction N := by
  unfold angularFraction
  split_ifs with a b c
  · subst b; norm_num; ring
  · obtain ⟨k, hk⟩ : ∃ k, N = 2 * k + 3 := ⟨(N - 3) / 2, by omega⟩
    subst hk
    rw [show (2 * k + 3 - 2 - 1) / 2 = k by omega, show (2 * k + 3 - 1) / 2 = k + 1 by omega]
    push_cast; field_simp; ring
  · subst c; norm_num; ring
  · obtain ⟨k, hk⟩ : ∃ k, N = 2 * k + 4 := ⟨(N - 4) / 2, by omega⟩
    subst hk
    rw [show (2 * k + 4 - 2 - 1) / 2 = k by omega, show (2 * k + 4 - 1) / 2 = k + 1 by omega]
    push_cast; field_simp; ring

theorem fraction_pos (N : ℕ) (hN : 0 < N) : 0 < angularFraction N := by
  unfold angularFraction
  split_ifs with a b c
  · norm_num
  · have : (1 : ℝ) < N := by exact_mod_cast (by omega : 1 < N)
    have := (div_lt_one (by linarith)).2 this
    linarith
  · norm_num
  · have : (2 : ℝ) < N := by exact_mod_cast (by omega : 2 < N)
    have := (div_lt_one (by linarith)).2 this
    linarith

theorem fraction_lt_one (N : ℕ) (hN : 0 < N) : angularFraction N < 1 := by
  have h : (0 : ℝ) < N := by exact_mod_cast hN
  unfold angularFraction
  split_ifs with a b c
  · norm_num
  · have : 0 < 1 / (N : ℝ) := by positivity
    linarith
  · norm_num
  · have : 0 < 2 / (N : ℝ) := by positivity
    linarith

theorem angularRule_const (N : ℕ) (hN : 0 < N) (c : ℂ) : angularRule N (fun _ => c) = ((2 * Real.pi * angularFraction N : ℝ) : ℂ) * c := by
  rw [← fraction_eq N hN]
  unfold angularRule
  simp only [Finset.sum_const, card_even, card_odd, nsmul_eq_mul]
  push_cast
  ring

theorem angularRule_norm_le (N : ℕ) (hN : 0 < N) (g : ℝ → ℂ) (B : ℝ) (h : ∀ φ, ‖g φ‖ ≤ B) :
    ‖angularRule N g‖ ≤ 2 * Real.pi * angularFraction N * B := by
  have hpi := Real.pi_pos
  rw [← fraction_eq N hN]
  unfold angularRule
  rw [norm_mul]
  have e : ‖((2 * Real.pi / N : ℝ) : ℂ) / 3‖ = (2 * Real.pi / N) / 3 := by
    rw [norm_div, Complex.norm_real, Real.norm_of_nonneg (by positivity)]; norm_num
  rw [e, mul_assoc]
  apply mul_le_mul_of_nonneg_left _ (by positivity)
  have s1 : ‖∑ k ∈ (Finset.Ioo 0 (N - 2)).filter (fun k => k % 2 = 0), g ((k : ℝ) * (2 * Real.pi / N))‖ ≤ ((N - 2 - 1) / 2 : ℕ) * B := by
    refine (norm_sum_le _ _).trans ((Finset.sum_le_sum fun k _ => h _).trans ?_)
    rw [Finset.sum_const, card_even, nsmul_eq_mul]
  have s2 : ‖∑ k ∈ (Finset.Ioo 0 (N - 1)).filter (fun k => k % 2 = 1), g ((k : ℝ) * (2 * Real.pi / N))‖ ≤ ((N - 1) / 2 : ℕ) * B := by
    refine (norm_sum_le _ _).trans ((Finset.sum_le_sum fun k _ => h _).trans ?_)
    rw [Finset.sum_const, card_odd, nsmul_eq_mul]
  refine (norm_add_le _ _).trans ?_
  refine (add_le_add_left (norm_add₃_le ..) _).trans ?_
  rw [norm_mul, norm_mul]
  have a1 := h 0
  have a2 := h (2 * Real.pi)
  have n2 : ‖(2 : ℂ)‖ = 2 := by norm_num
  have n4 : ‖(4 : ℂ)‖ = 4 := by norm_num
  rw [n2, n4]
  linarith

theorem psfValue_le (Φ : ℝ → ℝ → ℝ) (r θ : ℝ) (nR nPhi : ℕ) (hR : 0 < nR) (hPhi : 0 < nPhi) :
    psfValue Φ r θ nR nPhi ≤ angularFraction nPhi ^ 2 := by
  have h := angularRule_norm_le nPhi hPhi _ (1 / 2) fun φ => trapezoid_field_le Φ r θ φ nR hR
  have hpi := Real.pi_pos
  unfold psfValue psfField
  rw [div_le_iff₀ (by positivity)]
  have h' : ‖angularRule nPhi fun φ => trapezoid nR fun p => pupilField Φ r θ p φ‖ ≤ angularFraction nPhi * Real.pi := by linarith
  calc _ ≤ (angularFraction nPhi * Real.pi) ^ 2 := by
        apply pow_le_pow_left₀ (norm_nonneg _) h'
    _ = _ := by ring

theorem psfValue_nonneg (Φ : ℝ → ℝ → ℝ) (r θ : ℝ) (nR nPhi : ℕ) : 0 ≤ psfValue Φ r θ nR nPhi := by
  unfold psfValue; positivity

theorem psfValue_center (nR nPhi : ℕ) (hR : 0 < nR) (hPhi : 0 < nPhi) (c θ : ℝ) :
    psfValue (fun _ _ => c) 0 θ nR nPhi = angularFraction nPhi ^ 2 := by
  unfold psfValue psfField
  have e : (fun φ => trapezoid nR fun p => pupilField (fun _ _ => c) 0 θ p φ) = fun _ => Complex.exp (Complex.I * (c : ℝ)) * (1 / 2) := by
    funext φ
    rw [← trapezoid_id nR hR]
    unfold trapezoid pupilField
    simp only [zero_mul, sub_zero]
    rw [← Finset.mul_sum]
    ring
  rw [e, angularRule_const nPhi hPhi, norm_mul, norm_mul, Complex.norm_exp, Complex.norm_real, Real.norm_of_nonneg]
  · simp
    have := Real.pi_ne_zero
    field_simp
  · have := fraction_pos nPhi hPhi
    have := Real.pi_pos
    positivity

/-- Phases below a quarter of a period cannot extinguish the centre. -/
theorem psfValue_pos (Φ : ℝ → ℝ → ℝ) (hΦ : ∀ p φ, 0 ≤ p → p ≤ 1 → |Φ p φ| < Real.pi / 2) (θ : ℝ) (nR nPhi : ℕ) (hR : 0 < nR)
    (hPhi : 0 < nPhi) : 0 < psfValue Φ 0 θ nR nPhi := by
  have hpi := Real.pi_pos
  have hf : ∀ p φ, (pupilField Φ 0 θ p φ).re = p * Real.cos (Φ p φ) := by
    intro p φ
    unfold pupilField
    rw [mul_comm Complex.I, Complex.re_mul_ofReal, Complex.exp_ofReal_mul_I_re]
    simp [mul_comm]
  have hc : ∀ p φ, 0 ≤ p → p ≤ 1 → 0 < Real.cos (Φ p φ) := by
    intro p φ h0 h1
    have := abs_lt.1 (hΦ p φ h0 h1)
    exact Real.cos_pos_of_mem_Ioo ⟨by linarith, this.2⟩
  have ht : ∀ φ, 0 < (trapezoid nR fun p => pupilField Φ 0 θ p φ).re := by
    intro φ
    have e : (trapezoid nR fun p => pupilField Φ 0 θ p φ).re = (1 / (nR : ℝ)) * ((pupilField Φ 0 θ 0 φ).re / 2 +
        ∑ k ∈ Finset.Ioo 0 nR, (pupilField Φ 0 θ ((k : ℝ) / nR) φ).re + (pupilField Φ 0 θ 1 φ).re / 2) := by
      unfold trapezoid
      rw [show (1 / (nR : ℂ)) = ((1 / (nR : ℝ) : ℝ) : ℂ) by push_cast; rfl, Complex.re_ofReal_mul]
      simp [Complex.add_re, Complex.re_sum]
    rw [e]
    have s : 0 ≤ ∑ k ∈ Finset.Ioo 0 nR, (pupilField Φ 0 θ ((k : ℝ) / nR) φ).re := by
      apply Finset.sum_nonneg
      intro k hk
      rw [Finset.mem_Ioo] at hk
      have : (k : ℝ) ≤ nR := by exact_mod_cast hk.2.le
      have h0 : (0 : ℝ) ≤ (k : ℝ) / nR := by positivity
      rw [hf]
      exact mul_nonneg h0 (hc _ φ h0 (div_le_one_of_le₀ this (by positivity))).le
    have h1 := hc 1 φ zero_le_one le_rfl
    rw [hf, hf]
    have : (0 : ℝ) < nR := by exact_mod_cast hR
    have : 0 < 1 / (nR : ℝ) := by positivity
    apply mul_pos this
    linarith
  have ha : 0 < (psfField Φ 0 θ nR nPhi).re := by
    unfold psfField angularRule
    rw [show ((2 * Real.pi / nPhi : ℝ) : ℂ) / 3 = ((2 * Real.pi / nPhi / 3 : ℝ) : ℂ) by push_cast; rfl, Complex.re_ofReal_mul]
    have : (0 : ℝ) < nPhi := by exact_mod_cast hPhi
    apply mul_pos (by positivity)
    rw [show (2 : ℂ) = ((2 : ℝ) : ℂ) by norm_num, show (4 : ℂ) = ((4 : ℝ) : ℂ) by norm_num]
    simp only [Complex.add_re, Complex.re_ofReal_mul, Complex.re_sum]
    have s1 := Finset.sum_nonneg (s := (Finset.Ioo 0 (nPhi - 2)).filter (fun k => k % 2 = 0))
      (f := fun (k : ℕ) => (trapezoid nR fun p => pupilField Φ 0 θ p ((k : ℝ) * (2 * Real.pi / nPhi))).re) fun k _ => (ht _).le
    have s2 := Finset.sum_nonneg (s := (Finset.Ioo 0 (nPhi - 1)).filter (fun k => k % 2 = 1))
      (f := fun (k : ℕ) => (trapezoid nR fun p => pupilField Φ 0 θ p ((k : ℝ) * (2 * Real.pi / nPhi))).re) fun k _ => (ht _).le
    have a := ht 0
    have b := ht (2 * Real.pi)
    linarith
  have hn : 0 < ‖psfField Φ 0 θ nR nPhi‖ := by
    rw [norm_pos_iff]
    intro h
    rw [h] at ha
    simp at ha
  unfold psfValue
  positivity

/-- A global phase changes nothing. -/
theorem psfValue_piston (Φ : ℝ → ℝ → ℝ) (c r θ : ℝ) (nR nPhi : ℕ) :
    psfValue (fun p φ => Φ p φ + c) r θ nR nPhi = psfValue Φ r θ nR nPhi := by
  have hf : ∀ p φ, pupilField (fun p φ => Φ p φ + c) r θ p φ = Complex.exp (Complex.I * (c : ℝ)) * pupilField Φ r θ p φ := by
    intro p φ
    unfold pupilField
    rw [← mul_assoc, ← Complex.exp_add]
    congr 2
    push_cast; ring
  have ht : ∀ φ, (trapezoid nR fun p => pupilField (fun p φ => Φ p φ + c) r θ p φ) =
      Complex.exp (Complex.I * (c : ℝ)) * trapezoid nR fun p => pupilField Φ r θ p φ := by
    intro φ
    unfold trapezoid
    simp only [hf]
    rw [← Finset.mul_sum]; ring
  unfold psfValue psfField
  have ha : (angularRule nPhi fun φ => trapezoid nR fun p => pupilField (fun p φ => Φ p φ + c) r θ p φ) =
      Complex.exp (Complex.I * (c : ℝ)) * angularRule nPhi fun φ => trapezoid nR fun p => pupilField Φ r θ p φ := by
    unfold angularRule
    simp only [ht]
    rw [← Finset.mul_sum, ← Finset.mul_sum]; ring
  rw [ha, norm_mul, Complex.norm_exp]
  simp

theorem psfValue_xy (Φ : ℝ → ℝ → ℝ) (r θ : ℝ) (nR nPhi : ℕ) :
    psfValue Φ r θ nR nPhi = psfXY Φ (r * Real.cos θ) (r * Real.sin θ) nR nPhi := by
  have hf : ∀ p φ, pupilField Φ r θ p φ = pupilFieldXY Φ (r * Real.cos θ) (r * Real.sin θ) p φ := by
    intro p φ
    unfold pupilField pupilFieldXY
    rw [Real.cos_sub]
    congr 5
    ring
  unfold psfValue psfField psfXY
  simp only [hf]

theorem psfXY_conj (Φ : ℝ → ℝ → ℝ) (x y : ℝ) (nR nPhi : ℕ) :
    psfXY (fun p φ => -Φ p φ) (-x) (-y) nR nPhi = psfXY Φ x y nR nPhi := by
  have hf : ∀ p φ, pupilFieldXY (fun p φ => -Φ p φ) (-x) (-y) p φ = (starRingEnd ℂ) (pupilFieldXY Φ x y p φ) := by
    intro p φ
    unfold pupilFieldXY
    rw [map_mul, ← Complex.exp_conj, map_mul, Complex.conj_I, Complex.conj_ofReal, Complex.conj_ofReal]
    congr 2
    push_cast; ring
  have ht : ∀ φ, (trapezoid nR fun p => pupilFieldXY (fun p φ => -Φ p φ) (-x) (-y) p φ) =
      (starRingEnd ℂ) (trapezoid nR fun p => pupilFieldXY Φ x y p φ) := by
    intro φ
    unfold trapezoid
    simp only [hf]
    have c2 : (starRingEnd ℂ) 2 = 2 := map_ofNat _ 2
    simp [map_sum, c2]
  unfold psfXY
  have ha : (angularRule nPhi fun φ => trapezoid nR fun p => pupilFieldXY (fun p φ => -Φ p φ) (-x) (-y) p φ) =
      (starRingEnd ℂ) (angularRule nPhi fun φ => trapezoid nR fun p => pupilFieldXY Φ x y p φ) := by
    unfold angularRule
    simp only [ht]
    have c2 : (starRingEnd ℂ) 2 = 2 := map_ofNat _ 2
    have c3 : (starRingEnd ℂ) 3 = 3 := map_ofNat _ 3
    have c4 : (starRingEnd ℂ) 4 = 4 := map_ofNat _ 4
    simp [map_sum, c2, c3, c4]
  rw [ha, Complex.norm_conj]

theorem simpson_const (N : ℕ) (hN : 0 < N) (he : N % 2 = 0) (c : ℂ) : simpson N (fun _ => c) = ((2 * Real.pi : ℝ) : ℂ) * c := by
  unfold simpson
  simp only [Finset.sum_const, card_even, card_odd, nsmul_eq_mul]
  obtain ⟨k, hk⟩ : ∃ k, N = 2 * k + 2 := ⟨(N - 2) / 2, by omega⟩
  subst hk
  rw [show (2 * k + 2 - 1) / 2 = k by omega, show (2 * k + 2) / 2 = k + 1 by omega]
  have : ((k : ℂ) + 1) ≠ 0 := by exact_mod_cast (by omega : k + 1 ≠ 0)
  have h2 : ((2 : ℂ) * k + 2) ≠ 0 := by
    rw [show (2 : ℂ) * k + 2 = 2 * (k + 1) by ring]; exact mul_ne_zero two_ne_zero this
  push_cast
  field_simp
  ring

theorem simpson_sub_rule (N : ℕ) (hN : 4 ≤ N) (he : N % 2 = 0) (g : ℝ → ℂ) :
    simpson N g - angularRule N g = ((2 * Real.pi / N : ℝ) : ℂ) / 3 *
      (2 * g (((N - 2 : ℕ) : ℝ) * (2 * Real.pi / N)) + 4 * g (((N - 1 : ℕ) : ℝ) * (2 * Real.pi / N))) := by
  have e1 : (Finset.Ioo 0 N).filter (fun k => k % 2 = 0) = insert (N - 2) ((Finset.Ioo 0 (N - 2)).filter (fun k => k % 2 = 0)) := by
    ext k; simp only [Finset.mem_filter, Finset.mem_Ioo, Finset.mem_insert]; omega
  have e2 : (Finset.Ioo 0 N).filter (fun k => k % 2 = 1) = insert (N - 1) ((Finset.Ioo 0 (N - 1)).filter (fun k => k % 2 = 1)) := by
    ext k; simp only [Finset.mem_filter, Finset.mem_Ioo, Finset.mem_insert]; omega
  unfold simpson angularRule
  rw [e1, e2, Finset.sum_insert (by simp), Finset.sum_insert (by simp)]
  ring

end Verif.Proofs
