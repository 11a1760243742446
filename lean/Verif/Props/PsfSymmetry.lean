import Verif.Proofs.PsfSym
import Verif.Props.PsfExact
import Verif.Props.Surface

/-!
# C56: symmetries of the PSF
-/

namespace Verif.Props
open Verif.Model Verif.Spec Verif.Proofs

theorem combination_congr_angle (cs : List ℝ) (os : List PolObj) (p φ φ' : ℝ) (h : ∀ o ∈ os, angular o.m φ = angular o.m φ') :
    combination cs (ordersOf os) p φ = combination cs (ordersOf os) p φ' := by
  unfold combination
  congr 1
  apply List.map_congr_left
  intro q hq
  obtain ⟨o, ho, e⟩ := List.mem_map.1 (List.of_mem_zip hq).2
  unfold zernike
  rw [← e, h o ho]

theorem angular_periodic (m : Int) (φ : ℝ) : angular m (φ + 2 * Real.pi) = angular m φ := by
  unfold angular
  split_ifs
  · rw [mul_add]; exact Real.cos_add_int_mul_two_pi _ m
  · rw [mul_add]; exact Real.sin_add_int_mul_two_pi _ |m|

theorem sum_periodic (cs : List ℝ) (os : List PolObj) (p φ : ℝ) :
    combination cs (ordersOf os) p (φ + 2 * Real.pi) = combination cs (ordersOf os) p φ :=
  combination_congr_angle cs os p _ _ fun o _ => angular_periodic o.m φ

/-- All polynomials are even in the angle (`m ≥ 0`: cosines): mirror symmetry about the horizontal axis. -/
def MirrorRows (os : List PolObj) : Prop := ∀ o ∈ os, 0 ≤ o.m

/-- Cosines with even `m` and sines with odd `m`: mirror symmetry about the vertical axis. -/
def MirrorCols (os : List PolObj) : Prop := ∀ o ∈ os, (0 ≤ o.m ∧ o.m % 2 = 0) ∨ (o.m < 0 ∧ o.m % 2 = 1)

/-- `q`-fold rotational symmetry. -/
def RotFold (q : ℕ) (os : List PolObj) : Prop := ∀ o ∈ os, (q : Int) ∣ o.m

/-- C56. Mirror symmetry of the exact PSF about the horizontal axis. -/
theorem exact_mirror_rows (cs : List ℝ) (os : List PolObj) (h : MirrorRows os) (x y : ℝ) :
    exactPsf (combination cs (ordersOf os)) x (-y) = exactPsf (combination cs (ordersOf os)) x y := by
  conv_rhs => rw [← exactPsf_mirrored _ (sum_periodic cs os) x y]
  congr 1
  funext p φ
  refine combination_congr_angle cs os p _ _ fun o ho => ?_
  unfold angular
  rw [if_pos (h o ho), if_pos (h o ho), mul_neg, Real.cos_neg]

/-- C56. `q`-fold rotational symmetry of the exact PSF: unchanged by the rotation by `k / q` of a turn. -/
theorem exact_rotation (cs : List ℝ) (os : List PolObj) (q : ℕ) (hq : 0 < q) (h : RotFold q os) (k : Int) (α : ℝ)
    (hα : α = 2 * Real.pi * k / q) (x y : ℝ) :
    exactPsf (combination cs (ordersOf os)) (x * Real.cos α - y * Real.sin α) (x * Real.sin α + y * Real.cos α) =
      exactPsf (combination cs (ordersOf os)) x y := by
  conv_rhs => rw [← exactPsf_rotated _ (sum_periodic cs os) α x y]
  congr 1
  funext p φ
  refine combination_congr_angle cs os p _ _ fun o ho => ?_
  obtain ⟨c, hc⟩ := h o ho
  have hq' : (q : ℝ) ≠ 0 := by positivity
  unfold angular
  split_ifs with h0
  · rw [mul_sub, hα, show (o.m : ℝ) * (2 * Real.pi * k / q) = ((c * k : Int) : ℝ) * (2 * Real.pi) by rw [hc]; push_cast; field_simp]
    exact (Real.cos_sub_int_mul_two_pi _ _).symm
  · rw [mul_sub, hα, abs_of_neg (by omega), show ((-o.m : Int) : ℝ) * (2 * Real.pi * k / q) = ((-(c * k) : Int) : ℝ) * (2 * Real.pi) by
      rw [hc]; push_cast; field_simp]
    exact (Real.sin_sub_int_mul_two_pi _ _).symm

/-- C56. Mirror symmetry of the exact PSF about the vertical axis. -/
theorem exact_mirror_cols (cs : List ℝ) (os : List PolObj) (h : MirrorCols os) (x y : ℝ) :
    exactPsf (combination cs (ordersOf os)) (-x) y = exactPsf (combination cs (ordersOf os)) x y := by
  have a := exactPsf_rotated _ (sum_periodic cs os) Real.pi x y
  rw [Real.cos_pi, Real.sin_pi, mul_neg_one, mul_neg_one, mul_zero, mul_zero, sub_zero, zero_add] at a
  have hper : ∀ p φ, (fun p φ => combination cs (ordersOf os) p (φ - Real.pi)) p (φ + 2 * Real.pi) =
      (fun p φ => combination cs (ordersOf os) p (φ - Real.pi)) p φ := by
    intro p φ
    beta_reduce
    rw [show φ + 2 * Real.pi - Real.pi = (φ - Real.pi) + 2 * Real.pi by ring, sum_periodic]
  rw [← a, ← exactPsf_mirrored (fun p φ => combination cs (ordersOf os) p (φ - Real.pi)) hper, neg_neg]
  congr 1
  funext p φ
  refine combination_congr_angle cs os p _ _ fun o ho => ?_
  have e : angular o.m (-φ - Real.pi) = angular o.m (Real.pi - φ) := by
    rw [← angular_periodic o.m (-φ - Real.pi)]; congr 1; ring
  rw [e]
  unfold angular
  rcases h o ho with ⟨h0, h1⟩ | ⟨h0, h1⟩
  · obtain ⟨c, hc⟩ : ∃ c, o.m = 2 * c := ⟨o.m / 2, by omega⟩
    rw [if_pos h0, if_pos h0, mul_sub, hc]
    have : ((2 * c : Int) : ℝ) * Real.pi = (c : ℝ) * (2 * Real.pi) := by push_cast; ring
    rw [this, Real.cos_int_mul_two_pi_sub]
  · obtain ⟨c, hc⟩ : ∃ c, |o.m| = 2 * c + 1 := ⟨|o.m| / 2, by rw [abs_of_neg h0]; omega⟩
    rw [if_neg (by omega), if_neg (by omega), mul_sub, hc]
    have : ((2 * c + 1 : Int) : ℝ) * Real.pi - ((2 * c + 1 : Int) : ℝ) * φ = Real.pi - ((2 * c + 1 : Int) : ℝ) * φ + (c : ℝ) * (2 * Real.pi) := by
      push_cast; ring
    rw [this, Real.sin_add_int_mul_two_pi, Real.sin_pi_sub]

/-- C56. Polynomials without angular dependence (`m = 0`: piston, defocus, spherical aberrations) give a PSF that depends only on the distance to
the centre. -/
theorem exact_radial (cs : List ℝ) (os : List PolObj) (h : ∀ o ∈ os, o.m = 0) (x y x' y' : ℝ) (hd : x ^ 2 + y ^ 2 = x' ^ 2 + y' ^ 2) :
    exactPsf (combination cs (ordersOf os)) x y = exactPsf (combination cs (ordersOf os)) x' y' := by
  have key : ∀ ρ θ, exactPsf (combination cs (ordersOf os)) (ρ * Real.cos θ) (ρ * Real.sin θ) = exactPsf (combination cs (ordersOf os)) ρ 0 := by
    intro ρ θ
    have := exactPsf_rotated _ (sum_periodic cs os) θ ρ 0
    rw [zero_mul, zero_mul, sub_zero, add_zero] at this
    rw [← this]
    congr 1
    funext p φ
    refine combination_congr_angle cs os p _ _ fun o ho => ?_
    simp [angular, h o ho]
  obtain ⟨θ, h1, h2⟩ := polar_exists x y
  obtain ⟨θ', h1', h2'⟩ := polar_exists x' y'
  have A := key (Real.sqrt (x ^ 2 + y ^ 2)) θ
  have B := key (Real.sqrt (x' ^ 2 + y' ^ 2)) θ'
  rw [← h1, ← h2] at A
  rw [← h1', ← h2'] at B
  rw [A, B, hd]

/-! The computed kernels -/

/-- C56. The computed kernel has the symmetries of the aberrations up to any `ε`, if enough integration points are used. -/
theorem kernel_symmetries (cs : List ℝ) (os : List PolObj) (hl : cs.length = os.length) (h0 : os ≠ []) (q : KernelParams) (hopt : OpticsOk q)
    (S : ℕ) (hS : OddSize q.kernelSize S) (top : ℝ) (htop : q.normalize = true → ExactTop (combination cs (ordersOf os)) q S top) (ε : ℝ) (hε : 0 < ε) :
    ∃ N : ℕ, ∀ nR nPhi : ℕ, N ≤ nR → N ≤ nPhi → ∀ (h : List Call) (fuel : Nat), PolsOk fuel os →
      ∃ g, (getPsfKernelZerns fuel (cs.zip os) { q with nR := nR, nPhi := nPhi } (afterCalls h)).1 = .ok g ∧ g.rows = S ∧ g.cols = S ∧
        (MirrorRows os → ∀ i j : ℕ, i < S → j < S → |g.entry (S - 1 - i) j - g.entry i j| ≤ ε) ∧
        (MirrorCols os → ∀ i j : ℕ, i < S → j < S → |g.entry i (S - 1 - j) - g.entry i j| ≤ ε) ∧
        (RotFold 2 os → ∀ i j : ℕ, i < S → j < S → |g.entry (S - 1 - i) (S - 1 - j) - g.entry i j| ≤ ε) ∧
        (RotFold 4 os → ∀ i j : ℕ, i < S → j < S → |g.entry j (S - 1 - i) - g.entry i j| ≤ ε) ∧
        ((∀ o ∈ os, o.m = 0) → ∀ i j i' j' : ℕ, i < S → j < S → i' < S → j' < S →
          (2 * (i : Int) - (S - 1)) ^ 2 + (2 * (j : Int) - (S - 1)) ^ 2 = (2 * (i' : Int) - (S - 1)) ^ 2 + (2 * (j' : Int) - (S - 1)) ^ 2 →
          |g.entry i' j' - g.entry i j| ≤ ε) := by
  obtain ⟨N, hN⟩ := sum_kernel_converges cs os hl h0 q hopt S hS top htop (ε / 2) (by linarith)
  refine ⟨N, fun nR nPhi h1 h2 h fuel hv => ?_⟩
  obtain ⟨g, e, r, c, hg⟩ := hN nR nPhi h1 h2 h fuel hv
  have hS1 := hS.1
  have key : ∀ i j i' j' : ℕ, i < S → j < S → i' < S → j' < S →
      exactPixel (combination cs (ordersOf os)) (opticalScale q.wavelength q.NA q.len2pixels) S i' j' =
        exactPixel (combination cs (ordersOf os)) (opticalScale q.wavelength q.NA q.len2pixels) S i j → |g.entry i' j' - g.entry i j| ≤ ε := by
    intro i j i' j' hi hj hi' hj' he
    have a := hg i j hi hj
    have b := hg i' j' hi' hj'
    have he' : exactKernel (combination cs (ordersOf os)) q S top i' j' = exactKernel (combination cs (ordersOf os)) q S top i j := by
      unfold exactKernel
      rw [he]
    rw [he'] at b
    rw [abs_le] at a b ⊢
    constructor <;> linarith
  have hc : ∀ i : ℕ, i < S → ((S : ℝ) - 1) / 2 - ((S - 1 - i : ℕ) : ℝ) = -(((S : ℝ) - 1) / 2 - i) := by
    intro i hi
    rw [Nat.cast_sub (by omega), Nat.cast_sub (by omega)]
    push_cast; ring
  refine ⟨g, e, r, c, fun hm i j hi hj => ?_, fun hm i j hi hj => ?_, fun hm i j hi hj => ?_, fun hm i j hi hj => ?_, fun hm i j i' j' hi hj hi' hj' hd => ?_⟩
  · refine key i j _ _ hi hj (by omega) hj ?_
    unfold exactPixel
    rw [hc i hi, mul_neg, exact_mirror_rows cs os hm]
  · refine key i j _ _ hi hj hi (by omega) ?_
    unfold exactPixel
    rw [hc j hj, mul_neg, exact_mirror_cols cs os hm]
  · refine key i j _ _ hi hj (by omega) (by omega) ?_
    unfold exactPixel
    rw [hc i hi, hc j hj, mul_neg, mul_neg]
    have := exact_rotation cs os 2 (by norm_num) hm 1 Real.pi (by push_cast; ring) (opticalScale q.wavelength q.NA q.len2pixels * (((S : ℝ) - 1) / 2 - j))
      (opticalScale q.wavelength q.NA q.len2pixels * (((S : ℝ) - 1) / 2 - i))
    rwa [Real.cos_pi, Real.sin_pi, mul_neg_one, mul_neg_one, mul_zero, mul_zero, sub_zero, zero_add] at this
  · refine key i j _ _ hi hj hj (by omega) ?_
    unfold exactPixel
    rw [hc i hi, mul_neg]
    have := exact_rotation cs os 4 (by norm_num) hm 1 (Real.pi / 2) (by push_cast; ring) (opticalScale q.wavelength q.NA q.len2pixels * (((S : ℝ) - 1) / 2 - j))
      (opticalScale q.wavelength q.NA q.len2pixels * (((S : ℝ) - 1) / 2 - i))
    rwa [Real.cos_pi_div_two, Real.sin_pi_div_two, mul_zero, mul_one, mul_one, mul_zero, zero_sub, add_zero] at this
  · refine key i j _ _ hi hj hi' hj' ?_
    unfold exactPixel
    refine exact_radial cs os hm _ _ _ _ ?_
    have hd' : (2 * (i : ℝ) - (S - 1)) ^ 2 + (2 * (j : ℝ) - (S - 1)) ^ 2 = (2 * (i' : ℝ) - (S - 1)) ^ 2 + (2 * (j' : ℝ) - (S - 1)) ^ 2 := by
      exact_mod_cast hd
    rw [mul_pow, mul_pow, mul_pow, mul_pow, ← mul_add, ← mul_add]
    congr 1
    linear_combination (-1 / 4) * hd'

/-- The conditions are met: e.g. astigmatism with `m = 2` and defocus have both mirror symmetries and twofold rotational symmetry; the quadrafoil
with `m = 4` fourfold symmetry; the tilt with `m = -1` mirror symmetry about the vertical axis only. -/
example : MirrorRows [⟨2, 2, true⟩, ⟨0, 2, true⟩] ∧ MirrorCols [⟨2, 2, true⟩, ⟨0, 2, true⟩] ∧ RotFold 2 [⟨2, 2, true⟩, ⟨0, 2, true⟩] ∧
    RotFold 4 [⟨4, 4, true⟩] ∧ MirrorCols [⟨-1, 1, true⟩] ∧ ¬ MirrorRows [⟨-1, 1, true⟩] := by
  simp [MirrorRows, MirrorCols, RotFold]

theorem exp_I_real (a : ℝ) : Complex.exp (Complex.I * (a : ℂ)) = (Real.cos a : ℂ) + (Real.sin a : ℂ) * Complex.I := by
  rw [mul_comm, Complex.exp_mul_I, Complex.ofReal_cos, Complex.ofReal_sin]

theorem trap_two (x y φ s : ℝ) (hs : s = 1 ∨ s = -1) (h : x * Real.cos φ + y * Real.sin φ = s * Real.pi) :
    (trapezoid 2 fun p => pupilFieldXY (fun _ _ => 0) x y p φ) = -(1 + s * Complex.I) / 4 := by
  have h12 : Finset.Ioo 0 2 = {1} := by decide
  unfold trapezoid pupilFieldXY
  rw [h12, Finset.sum_singleton, h]
  simp only [exp_I_real]
  rcases hs with rfl | rfl
  · have a : (0 - ((1 : ℕ) : ℝ) / ((2 : ℕ) : ℝ) * (1 * Real.pi)) = -(Real.pi / 2) := by push_cast; ring
    have b : (0 - 1 * (1 * Real.pi)) = -Real.pi := by ring
    rw [a, b, Real.cos_neg, Real.sin_neg, Real.cos_neg, Real.sin_neg, Real.cos_pi_div_two, Real.sin_pi_div_two, Real.cos_pi, Real.sin_pi]
    push_cast
    ring
  · have a : (0 - ((1 : ℕ) : ℝ) / ((2 : ℕ) : ℝ) * (-1 * Real.pi)) = Real.pi / 2 := by push_cast; ring
    have b : (0 - 1 * (-1 * Real.pi)) = Real.pi := by ring
    rw [a, b, Real.cos_pi_div_two, Real.sin_pi_div_two, Real.cos_pi, Real.sin_pi]
    push_cast
    ring

theorem rule_four (g : ℝ → ℂ) : angularRule 4 g = ((2 * Real.pi / 4 : ℝ) : ℂ) / 3 * (g 0 + g (2 * Real.pi) + 4 * g (Real.pi / 2)) := by
  have h1 : (Finset.Ioo 0 (4 - 2)).filter (fun k => k % 2 = 0) = ∅ := by decide
  have h2 : (Finset.Ioo 0 (4 - 1)).filter (fun k => k % 2 = 1) = {1} := by decide
  unfold angularRule
  rw [h1, h2, Finset.sum_empty, Finset.sum_singleton]
  push_cast
  rw [show (1 : ℝ) * (2 * Real.pi / 4) = Real.pi / 2 by ring]
  ring

/-- The symmetry of the computed kernels is only approximate: for the piston, which has all symmetries, a kernel calculated with 4 angular points
differs in the pixels (0, 0) and (2, 0). -/
theorem computed_mirror_not_exact (h : List Call) (fuel : Nat) (hf : 1 < fuel) : ∃ (q : KernelParams) (g : Grid), OpticsOk q ∧
    (getPsfKernelZerns fuel [(0, ⟨0, 0, true⟩)] q (afterCalls h)).1 = .ok g ∧ g.entry 2 0 ≠ g.entry 0 0 := by
  set q : KernelParams := { kernelSize := 3, len2pixels := 0.5, wavelength := 1, NA := 1, nR := 2, nPhi := 4, normalize := false } with hq
  have hopt : OpticsOk q := by unfold OpticsOk; norm_num [hq]
  obtain ⟨g, e, hg⟩ := kernel_samples_psf_sum h fuel [0] [⟨0, 0, true⟩] rfl (by simp)
    (by intro o ho; simp at ho; rw [ho]; exact ⟨by decide, by simpa using hf⟩) q (by norm_num [hq]) (by norm_num [hq]) hopt 3 (by simp [hq, OddSize])
  refine ⟨q, g, hopt, e, ?_⟩
  have hn : q.normalize = false := rfl
  rw [hn] at hg
  simp only [KernelOf, Bool.false_eq_true, if_false] at hg
  rw [hg.2.2 2 0 (by norm_num) (by norm_num), hg.2.2 0 0 (by norm_num) (by norm_num)]
  have hΦ : combination [0] (ordersOf [⟨0, 0, true⟩]) = fun _ _ => 0 := by
    funext r t
    simp [combination, ordersOf]
  have hs : opticalScale q.wavelength q.NA q.len2pixels = Real.pi := by
    simp only [opticalScale, hq]; ring
  have h1 : q.nR.toNat = 2 := rfl
  have h2 : q.nPhi.toNat = 4 := rfl
  rw [hΦ, hs, h1, h2]
  unfold pixelPsf psfXY
  have hpi := Real.pi_pos
  have A : ∀ y s : ℝ, (s = 1 ∨ s = -1) → y = s * Real.pi → ‖angularRule 4 fun φ => trapezoid 2 fun p => pupilFieldXY (fun _ _ => 0) Real.pi y p φ‖ ^ 2 =
      (Real.pi / 6) ^ 2 * ((3 / 2 : ℝ) ^ 2 + (1 / 2 + s) ^ 2) := by
    intro y s hs hy
    rw [rule_four, trap_two _ _ 0 1 (Or.inl rfl) (by simp), trap_two _ _ (2 * Real.pi) 1 (Or.inl rfl) (by simp),
      trap_two _ _ (Real.pi / 2) s hs (by rw [Real.cos_pi_div_two, Real.sin_pi_div_two, hy]; ring)]
    have : ((2 * Real.pi / 4 : ℝ) : ℂ) / 3 * (-(1 + ((1 : ℝ) : ℂ) * Complex.I) / 4 + -(1 + ((1 : ℝ) : ℂ) * Complex.I) / 4 + 4 * (-(1 + (s : ℂ) * Complex.I) / 4)) =
        ((Real.pi / 6 : ℝ) : ℂ) * (((-(3 / 2) : ℝ) : ℂ) + ((-(1 / 2 + s) : ℝ) : ℂ) * Complex.I) := by
      push_cast; ring
    rw [this, norm_mul, mul_pow, Complex.norm_real, Real.norm_eq_abs, sq_abs, Complex.sq_norm, Complex.normSq_add_mul_I]
    ring
  have e1 : Real.pi * ((((3 : ℕ) : ℝ) - 1) / 2 - ((0 : ℕ) : ℝ)) = Real.pi := by push_cast; ring
  have e2 : Real.pi * ((((3 : ℕ) : ℝ) - 1) / 2 - ((2 : ℕ) : ℝ)) = -1 * Real.pi := by push_cast; ring
  beta_reduce
  rw [e1, e2, A _ (-1) (Or.inr rfl) rfl, A Real.pi 1 (Or.inl rfl) (by ring)]
  intro h
  rw [div_left_inj' (by positivity)] at h
  have h3 : (0 : ℝ) < (Real.pi / 6) ^ 2 := by positivity
  have := mul_left_cancel₀ h3.ne' h
  norm_num at this

end Verif.Props
