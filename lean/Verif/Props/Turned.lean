import Verif.Props.PsfSymmetry
import Verif.Props.PsfRate

/-!
# C115: turning and mirroring an aberration
-/

namespace Verif.Props
open Verif.Model Verif.Spec Verif.Proofs

/-- Specification: the polynomials of a turned wavefront, each one with its partner of the opposite `m`. -/
def turnedPols (os : List PolObj) : List PolObj := os.flatMap fun o => [o, ⟨-o.m, o.n, o.slowShown⟩]

/-- Specification: the amplitudes of a wavefront turned by the angle `δ`. -/
noncomputable def turnedCoeffs (δ : ℝ) (cs : List ℝ) (os : List PolObj) : List ℝ :=
  (cs.zip os).flatMap fun t => [t.1 * Real.cos (t.2.m * δ), t.1 * Real.sin (t.2.m * δ)]

/-- Specification: the amplitudes of a wavefront mirrored about the horizontal axis. -/
noncomputable def mirroredCoeffs (cs : List ℝ) (os : List PolObj) : List ℝ :=
  List.zipWith (fun c o => if o.m < 0 then -c else c) cs os

theorem angular_turned (m : Int) (φ δ : ℝ) :
    angular m (φ - δ) = Real.cos (m * δ) * angular m φ + Real.sin (m * δ) * angular (-m) φ := by
  rcases lt_trichotomy m 0 with h | h | h
  · obtain ⟨k, rfl⟩ : ∃ k, m = -k := ⟨-m, by omega⟩
    have hk : 0 < k := by omega
    unfold angular
    rw [if_neg (by omega), if_neg (by omega), if_pos (by omega), abs_neg, abs_of_pos hk, neg_neg, mul_sub, Real.sin_sub]
    push_cast
    rw [neg_mul, Real.cos_neg, Real.sin_neg]
    ring
  · subst h; simp [angular]
  · unfold angular
    rw [if_pos h.le, if_pos h.le, if_neg (by omega), abs_neg, abs_of_pos h, mul_sub, Real.cos_sub]
    ring

theorem zernike_turned (m n : Int) (p φ δ : ℝ) :
    zernike m n p (φ - δ) = Real.cos (m * δ) * zernike m n p φ + Real.sin (m * δ) * zernike (-m) n p φ := by
  have hn : Spec.norm (-m) n = Spec.norm m n := by unfold Spec.norm; simp
  have hr : Spec.radial (-m) n p = Spec.radial m n p := by unfold Spec.radial; simp
  unfold zernike
  rw [angular_turned, hn, hr]
  ring

theorem combination_cons (c : ℝ) (cs : List ℝ) (o : Int × Int) (os : List (Int × Int)) (p φ : ℝ) :
    combination (c :: cs) (o :: os) p φ = c * zernike o.1 o.2 p φ + combination cs os p φ := by
  simp [combination]

theorem combination_turned (δ : ℝ) (cs : List ℝ) : ∀ (os : List PolObj) (p φ : ℝ),
    combination (turnedCoeffs δ cs os) (ordersOf (turnedPols os)) p φ = combination cs (ordersOf os) p (φ - δ) := by
  induction cs with
  | nil => intro os p φ; simp [turnedCoeffs, combination]
  | cons c cs ih =>
    intro os p φ
    cases os with
    | nil => simp [turnedCoeffs, combination, ordersOf]
    | cons o os =>
      have e1 : turnedCoeffs δ (c :: cs) (o :: os) = (c * Real.cos (o.m * δ)) :: (c * Real.sin (o.m * δ)) :: turnedCoeffs δ cs os := by
        simp [turnedCoeffs]
      have e2 : ordersOf (turnedPols (o :: os)) = (o.m, o.n) :: (-o.m, o.n) :: ordersOf (turnedPols os) := by
        simp [turnedPols, ordersOf]
      have e3 : ordersOf (o :: os) = (o.m, o.n) :: ordersOf os := by simp [ordersOf]
      rw [e1, e2, e3, combination_cons, combination_cons, combination_cons, ih os p φ, zernike_turned]
      ring

theorem combination_mirrored (cs : List ℝ) : ∀ (os : List PolObj) (p φ : ℝ),
    combination (mirroredCoeffs cs os) (ordersOf os) p φ = combination cs (ordersOf os) p (-φ) := by
  induction cs with
  | nil => intro os p φ; simp [mirroredCoeffs, combination]
  | cons c cs ih =>
    intro os p φ
    cases os with
    | nil => simp [mirroredCoeffs, combination, ordersOf]
    | cons o os =>
      have e1 : mirroredCoeffs (c :: cs) (o :: os) = (if o.m < 0 then -c else c) :: mirroredCoeffs cs os := rfl
      have e3 : ordersOf (o :: os) = (o.m, o.n) :: ordersOf os := by simp [ordersOf]
      rw [e1, e3, combination_cons, combination_cons, ih os p φ]
      congr 1
      unfold zernike angular
      simp only
      split_ifs
      · omega
      · rw [mul_neg _ φ, Real.sin_neg]; ring
      · rw [mul_neg _ φ, Real.cos_neg]
      · omega

theorem turned_lengths (δ : ℝ) (cs : List ℝ) (os : List PolObj) (hl : cs.length = os.length) :
    (turnedCoeffs δ cs os).length = (turnedPols os).length := by
  simp [turnedCoeffs, turnedPols, hl]

theorem turned_ne_nil {os : List PolObj} (h0 : os ≠ []) : turnedPols os ≠ [] := by
  cases os with
  | nil => exact absurd rfl h0
  | cons o os => simp [turnedPols]

theorem turned_ok {fuel : Nat} {os : List PolObj} (hv : PolsOk fuel os) : PolsOk fuel (turnedPols os) := by
  intro o ho
  obtain ⟨o', h', hm⟩ := List.mem_flatMap.1 ho
  obtain ⟨hv', hf'⟩ := hv o' h'
  simp only [List.mem_cons, List.not_mem_nil, or_false] at hm
  rcases hm with rfl | rfl
  · exact ⟨hv', hf'⟩
  · refine ⟨?_, hf'⟩
    unfold ValidOrders at hv' ⊢
    simp only [abs_neg] at hv' ⊢
    refine ⟨hv'.1, hv'.2.1, ?_⟩
    have := hv'.2.2
    omega

/-- C115. Turned amplitudes: `sum_zernikes` at the angle `t` gives what the original amplitudes give at `t - δ`, for every turn `δ`, all
polynomials and points, after any histories. -/
theorem turned_sum (h h' : List Call) (fuel : Nat) (cs : List ℝ) (os : List PolObj) (hl : cs.length = os.length) (h0 : os ≠ [])
    (hv : PolsOk fuel os) (δ r t : ℝ) (hr0 : 0 ≤ r) (hr1 : r ≤ 1) (g : Bool) :
    ∃ v, (sumZernikes fuel cs (os.map .pol) (.num r) (.num (t - δ)) g (afterCalls h)).1 = .ok (.points (.scalar v)) ∧
      (sumZernikes fuel (turnedCoeffs δ cs os) ((turnedPols os).map .pol) (.num r) (.num t) g (afterCalls h')).1 = .ok (.points (.scalar v)) := by
  refine ⟨_, sum_at_point h fuel cs os hl h0 hv r (t - δ) hr0 hr1 g, ?_⟩
  rw [sum_at_point h' fuel _ _ (turned_lengths δ cs os hl) (turned_ne_nil h0) (turned_ok hv) r t hr0 hr1 g, combination_turned]

/-- C115. Mirrored amplitudes: the value at `-t`. -/
theorem mirrored_sum (h h' : List Call) (fuel : Nat) (cs : List ℝ) (os : List PolObj) (hl : cs.length = os.length) (h0 : os ≠ [])
    (hv : PolsOk fuel os) (r t : ℝ) (hr0 : 0 ≤ r) (hr1 : r ≤ 1) (g : Bool) :
    ∃ v, (sumZernikes fuel cs (os.map .pol) (.num r) (.num (-t)) g (afterCalls h)).1 = .ok (.points (.scalar v)) ∧
      (sumZernikes fuel (mirroredCoeffs cs os) (os.map .pol) (.num r) (.num t) g (afterCalls h')).1 = .ok (.points (.scalar v)) := by
  refine ⟨_, sum_at_point h fuel cs os hl h0 hv r (-t) hr0 hr1 g, ?_⟩
  rw [sum_at_point h' fuel _ _ (by simp [mirroredCoeffs, hl]) h0 hv r t hr0 hr1 g, combination_mirrored]

/-- C115. Turning keeps the sum of the squares of the amplitudes (the square of the RMS error without the piston and for different
polynomials, C48). -/
theorem turned_squares (δ : ℝ) (cs : List ℝ) (os : List PolObj) (hl : cs.length = os.length) :
    ((turnedCoeffs δ cs os).map fun c => c ^ 2).sum = (cs.map fun c => c ^ 2).sum := by
  induction cs generalizing os with
  | nil => simp [turnedCoeffs]
  | cons c cs ih =>
    cases os with
    | nil => simp at hl
    | cons o os =>
      have e1 : turnedCoeffs δ (c :: cs) (o :: os) = (c * Real.cos (o.m * δ)) :: (c * Real.sin (o.m * δ)) :: turnedCoeffs δ cs os := by
        simp [turnedCoeffs]
      rw [e1, List.map_cons, List.map_cons, List.map_cons, List.sum_cons, List.sum_cons, List.sum_cons, ih os (by simpa using hl)]
      have := Real.sin_sq_add_cos_sq (o.m * δ)
      linear_combination c ^ 2 * this

/-- C115. The exact PSF of a turned aberration is the turned PSF. -/
theorem turned_exact_psf (δ : ℝ) (cs : List ℝ) (os : List PolObj) (x y : ℝ) :
    exactPsf (combination (turnedCoeffs δ cs os) (ordersOf (turnedPols os))) (x * Real.cos δ - y * Real.sin δ) (x * Real.sin δ + y * Real.cos δ) =
      exactPsf (combination cs (ordersOf os)) x y := by
  rw [← exactPsf_rotated _ (sum_periodic cs os) δ x y]
  congr 1
  funext p φ
  exact combination_turned δ cs os p φ

/-- C115. The exact PSF of a mirrored aberration is the mirrored PSF. -/
theorem mirrored_exact_psf (cs : List ℝ) (os : List PolObj) (x y : ℝ) :
    exactPsf (combination (mirroredCoeffs cs os) (ordersOf os)) x (-y) = exactPsf (combination cs (ordersOf os)) x y := by
  rw [← exactPsf_mirrored _ (sum_periodic cs os) x y]
  congr 1
  funext p φ
  exact combination_mirrored cs os p φ

/-! ### The calculated kernels -/

theorem quarter_abs (m : Int) : |Real.cos (m * (Real.pi / 2))| + |Real.sin (m * (Real.pi / 2))| = 1 := by
  obtain ⟨k, hk | hk⟩ : ∃ k, m = 2 * k ∨ m = 2 * k + 1 := ⟨m / 2, by omega⟩
  · have e : (m : ℝ) * (Real.pi / 2) = k * Real.pi := by rw [hk]; push_cast; ring
    rw [e, Real.sin_int_mul_pi, abs_zero, add_zero, Real.abs_cos_int_mul_pi]
  · have e : (m : ℝ) * (Real.pi / 2) = k * Real.pi + Real.pi / 2 := by rw [hk]; push_cast; ring
    rw [e, Real.sin_add_pi_div_two, Real.cos_add_pi_div_two, Real.sin_int_mul_pi, neg_zero, abs_zero, zero_add, Real.abs_cos_int_mul_pi]

theorem weighted_cons (f : Int → Int → ℝ) (c : ℝ) (cs : List ℝ) (o : Int × Int) (os : List (Int × Int)) :
    weighted f (c :: cs) (o :: os) = |c| * Spec.norm o.1 o.2 * f o.1 o.2 + weighted f cs os := by
  simp [weighted]

theorem weighted_quarter (f : Int → Int → ℝ) (hf : ∀ m n, f (-m) n = f m n) (cs : List ℝ) : ∀ os : List PolObj,
    weighted f (turnedCoeffs (Real.pi / 2) cs os) (ordersOf (turnedPols os)) = weighted f cs (ordersOf os) := by
  induction cs with
  | nil => intro os; simp [turnedCoeffs, weighted]
  | cons c cs ih =>
    intro os
    cases os with
    | nil => simp [turnedCoeffs, weighted, ordersOf]
    | cons o os =>
      have e1 : turnedCoeffs (Real.pi / 2) (c :: cs) (o :: os) =
          (c * Real.cos (o.m * (Real.pi / 2))) :: (c * Real.sin (o.m * (Real.pi / 2))) :: turnedCoeffs (Real.pi / 2) cs os := by
        simp [turnedCoeffs]
      have e2 : ordersOf (turnedPols (o :: os)) = (o.m, o.n) :: (-o.m, o.n) :: ordersOf (turnedPols os) := by
        simp [turnedPols, ordersOf]
      have e3 : ordersOf (o :: os) = (o.m, o.n) :: ordersOf os := by simp [ordersOf]
      have hn : Spec.norm (-o.m) o.n = Spec.norm o.m o.n := by unfold Spec.norm; simp
      rw [e1, e2, e3, weighted_cons, weighted_cons, weighted_cons, ih os, hn, hf, abs_mul, abs_mul]
      linear_combination |c| * Spec.norm o.m o.n * f o.m o.n * quarter_abs o.m

theorem weighted_mirrored (f : Int → Int → ℝ) (cs : List ℝ) : ∀ os : List PolObj,
    weighted f (mirroredCoeffs cs os) (ordersOf os) = weighted f cs (ordersOf os) := by
  induction cs with
  | nil => intro os; simp [mirroredCoeffs, weighted]
  | cons c cs ih =>
    intro os
    cases os with
    | nil => simp [mirroredCoeffs, weighted, ordersOf]
    | cons o os =>
      have e1 : mirroredCoeffs (c :: cs) (o :: os) = (if o.m < 0 then -c else c) :: mirroredCoeffs cs os := rfl
      have e3 : ordersOf (o :: os) = (o.m, o.n) :: ordersOf os := by simp [ordersOf]
      rw [e1, e3, weighted_cons, weighted_cons, ih os]
      split_ifs
      · rw [abs_neg]
      · rfl

theorem quadratureError_quarter (cs : List ℝ) (os : List PolObj) (ρ : ℝ) (nR nPhi : ℕ) :
    quadratureError (turnedCoeffs (Real.pi / 2) cs os) (ordersOf (turnedPols os)) ρ nR nPhi = quadratureError cs (ordersOf os) ρ nR nPhi := by
  unfold quadratureError
  rw [weighted_quarter _ (by simp), weighted_quarter _ (by simp), weighted_quarter _ (by intro m n; simp [rimCurvature, rimSlope]),
    weighted_quarter _ (by intro m n; simp [rimSlope])]

theorem quadratureError_mirrored (cs : List ℝ) (os : List PolObj) (ρ : ℝ) (nR nPhi : ℕ) :
    quadratureError (mirroredCoeffs cs os) (ordersOf os) ρ nR nPhi = quadratureError cs (ordersOf os) ρ nR nPhi := by
  unfold quadratureError
  simp only [weighted_mirrored]

theorem pixel_opposite (S i : ℕ) (hi : i < S) : ((S : ℝ) - 1) / 2 - ((S - 1 - i : ℕ) : ℝ) = -(((S : ℝ) - 1) / 2 - i) := by
  rw [Nat.cast_sub (by omega), Nat.cast_sub (by omega)]
  push_cast; ring

theorem exactPixel_turned (cs : List ℝ) (os : List PolObj) (κ : ℝ) (S i j : ℕ) (hi : i < S) :
    exactPixel (combination (turnedCoeffs (Real.pi / 2) cs os) (ordersOf (turnedPols os))) κ S j (S - 1 - i) =
      exactPixel (combination cs (ordersOf os)) κ S i j := by
  have := turned_exact_psf (Real.pi / 2) cs os (κ * (((S : ℝ) - 1) / 2 - j)) (κ * (((S : ℝ) - 1) / 2 - i))
  rw [Real.cos_pi_div_two, Real.sin_pi_div_two, mul_zero, mul_one, mul_one, mul_zero, zero_sub, add_zero] at this
  unfold exactPixel
  rw [pixel_opposite S i hi, mul_neg, this]

theorem exactPixel_mirrored (cs : List ℝ) (os : List PolObj) (κ : ℝ) (S i j : ℕ) (hi : i < S) :
    exactPixel (combination (mirroredCoeffs cs os) (ordersOf os)) κ S (S - 1 - i) j = exactPixel (combination cs (ordersOf os)) κ S i j := by
  unfold exactPixel
  rw [pixel_opposite S i hi, mul_neg, mirrored_exact_psf]

theorem exactTop_turned {cs : List ℝ} {os : List PolObj} {q : KernelParams} {S : ℕ} {top : ℝ} (h : ExactTop (combination cs (ordersOf os)) q S top) :
    ExactTop (combination (turnedCoeffs (Real.pi / 2) cs os) (ordersOf (turnedPols os))) q S top := by
  obtain ⟨h0, ⟨i, j, hi, hj, e⟩, hm⟩ := h
  refine ⟨h0, ⟨j, S - 1 - i, hj, by omega, by rw [exactPixel_turned cs os _ S i j hi, e]⟩, fun a b ha hb => ?_⟩
  have := exactPixel_turned cs os (opticalScale q.wavelength q.NA q.len2pixels) S (S - 1 - b) a (by omega)
  rw [show S - 1 - (S - 1 - b) = b by omega] at this
  rw [this]
  exact hm _ _ (by omega) ha

theorem exactTop_mirrored {cs : List ℝ} {os : List PolObj} {q : KernelParams} {S : ℕ} {top : ℝ} (h : ExactTop (combination cs (ordersOf os)) q S top) :
    ExactTop (combination (mirroredCoeffs cs os) (ordersOf os)) q S top := by
  obtain ⟨h0, ⟨i, j, hi, hj, e⟩, hm⟩ := h
  refine ⟨h0, ⟨S - 1 - i, j, by omega, hj, by rw [exactPixel_mirrored cs os _ S i j hi, e]⟩, fun a b ha hb => ?_⟩
  have := exactPixel_mirrored cs os (opticalScale q.wavelength q.NA q.len2pixels) S (S - 1 - a) b (by omega)
  rw [show S - 1 - (S - 1 - a) = a by omega] at this
  rw [this]
  exact hm _ _ (by omega) hb

/-- C115. The calculated kernels: with the amplitudes turned by a quarter, pixel `(j, S-1-i)` holds what pixel `(i, j)` of the original kernel
holds, and with the mirrored amplitudes pixel `(S-1-i, j)` does, up to twice the bound `E` of the integration error (C72), `2E / (top - E)` for normalised
kernels, where `top` is the greatest value of the exact PSF in the pixels. -/
theorem turned_kernel (h h' h'' : List Call) (fuel : Nat) (cs : List ℝ) (os : List PolObj) (hl : cs.length = os.length) (h0 : os ≠ [])
    (hv : PolsOk fuel os) (q : KernelParams) (nR nPhi : ℕ) (hR : q.nR = nR) (hPhi : q.nPhi = nPhi) (hR2 : 2 ≤ nR) (hPhi4 : 4 ≤ nPhi)
    (hopt : OpticsOk q) (S : ℕ) (hS : OddSize q.kernelSize S) (R : ℝ)
    (hr : |opticalScale q.wavelength q.NA q.len2pixels| * S ≤ R) (E : ℝ) (hE : E = quadratureError cs (ordersOf os) R nR nPhi) :
    ∃ g gTurned gMirrored, (getPsfKernelZerns fuel (cs.zip os) q (afterCalls h)).1 = .ok g ∧
      (getPsfKernelZerns fuel ((turnedCoeffs (Real.pi / 2) cs os).zip (turnedPols os)) q (afterCalls h')).1 = .ok gTurned ∧
      (getPsfKernelZerns fuel ((mirroredCoeffs cs os).zip os) q (afterCalls h'')).1 = .ok gMirrored ∧
      (q.normalize = false → ∀ i j : ℕ, i < S → j < S →
        |gTurned.entry j (S - 1 - i) - g.entry i j| ≤ 2 * E ∧ |gMirrored.entry (S - 1 - i) j - g.entry i j| ≤ 2 * E) ∧
      (q.normalize = true → ∀ top, ExactTop (combination cs (ordersOf os)) q S top → E < top → ∀ i j : ℕ, i < S → j < S →
        |gTurned.entry j (S - 1 - i) - g.entry i j| ≤ 2 * (2 * E / (top - E)) ∧
        |gMirrored.entry (S - 1 - i) j - g.entry i j| ≤ 2 * (2 * E / (top - E))) := by
  obtain ⟨g, e1, k1, l1⟩ := sum_kernel_quadrature_error h fuel cs os hl h0 hv q nR nPhi hR hPhi hR2 hPhi4 hopt S hS R hr E hE
  obtain ⟨g', e2, k2, l2⟩ := sum_kernel_quadrature_error h' fuel (turnedCoeffs (Real.pi / 2) cs os) (turnedPols os) (turned_lengths _ cs os hl)
    (turned_ne_nil h0) (turned_ok hv) q nR nPhi hR hPhi hR2 hPhi4 hopt S hS R hr E (by rw [hE, quadratureError_quarter])
  obtain ⟨g'', e3, k3, l3⟩ := sum_kernel_quadrature_error h'' fuel (mirroredCoeffs cs os) os (by simp [mirroredCoeffs, hl])
    h0 hv q nR nPhi hR hPhi hR2 hPhi4 hopt S hS R hr E (by rw [hE, quadratureError_mirrored])
  refine ⟨g, g', g'', e1, e2, e3, fun hn i j hi hj => ?_, fun hn top ht hlt i j hi hj => ?_⟩
  · have a := (k1 hn).2.2 i j hi hj
    have b := (k2 hn).2.2 j (S - 1 - i) hj (by omega)
    have c := (k3 hn).2.2 (S - 1 - i) j (by omega) hj
    rw [exactPixel_turned cs os _ S i j hi] at b
    rw [exactPixel_mirrored cs os _ S i j hi] at c
    rw [abs_le] at a b c ⊢
    rw [abs_le]
    exact ⟨⟨by linarith, by linarith⟩, ⟨by linarith, by linarith⟩⟩
  · have a := (l1 hn top ht hlt).2.2 i j hi hj
    have b := (l2 hn top (exactTop_turned ht) hlt).2.2 j (S - 1 - i) hj (by omega)
    have c := (l3 hn top (exactTop_mirrored ht) hlt).2.2 (S - 1 - i) j (by omega) hj
    dsimp only at a b c
    rw [exactPixel_turned cs os _ S i j hi] at b
    rw [exactPixel_mirrored cs os _ S i j hi] at c
    rw [abs_le] at a b c ⊢
    rw [abs_le]
    exact ⟨⟨by linarith, by linarith⟩, ⟨by linarith, by linarith⟩⟩

/-- A quarter turn of one coma gives the other one; mirroring negates the sine terms. -/
example : turnedPols [⟨1, 3, false⟩] = [⟨1, 3, false⟩, ⟨-1, 3, false⟩] ∧ turnedCoeffs (Real.pi / 2) [2] [⟨1, 3, false⟩] = [0, 2] ∧
    turnedCoeffs (Real.pi / 2) [2] [⟨-1, 3, false⟩] = [0, -2] ∧ mirroredCoeffs [2, 3] [⟨-1, 3, false⟩, ⟨0, 2, false⟩] = [-2, 3] ∧
    PolsOk 100 [⟨1, 3, false⟩, ⟨0, 2, false⟩] := by
  refine ⟨rfl, by simp [turnedCoeffs], ?_, by simp [mirroredCoeffs], ?_⟩
  · simp [turnedCoeffs]
  · intro o ho
    fin_cases ho <;> exact ⟨by decide, by decide⟩

end Verif.Props
