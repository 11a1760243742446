import Verif.Proofs.AiryExact
import Verif.Props.Psf

/-!
# C51, C52: the numerical kernels converge to the exact diffraction integral; for no aberrations that is the Airy pattern
-/

namespace Verif.Props
open Verif.Model Verif.Spec Verif.Proofs Filter Topology

/-- The `S × S` array `g` deviates from `v` by at most `ε` in each pixel. -/
def KernelWithin (ε : ℝ) (S : ℕ) (v : ℕ → ℕ → ℝ) (g : Grid) : Prop :=
  g.rows = S ∧ g.cols = S ∧ ∀ i j, i < S → j < S → |g.entry i j - v i j| ≤ ε

/-- What the kernel should be: the exact PSF at the pixels; normalised, divided by its greatest value `top`. -/
noncomputable def exactKernel (Φ : ℝ → ℝ → ℝ) (q : KernelParams) (S : ℕ) (top : ℝ) (i j : ℕ) : ℝ :=
  if q.normalize then exactPixel Φ (opticalScale q.wavelength q.NA q.len2pixels) S i j / top
  else exactPixel Φ (opticalScale q.wavelength q.NA q.len2pixels) S i j

/-- `top` is the greatest exact value in the kernel, and positive. -/
def ExactTop (Φ : ℝ → ℝ → ℝ) (q : KernelParams) (S : ℕ) (top : ℝ) : Prop :=
  0 < top ∧ (∃ i j, i < S ∧ j < S ∧ exactPixel Φ (opticalScale q.wavelength q.NA q.len2pixels) S i j = top) ∧
    ∀ i j, i < S → j < S → exactPixel Φ (opticalScale q.wavelength q.NA q.len2pixels) S i j ≤ top

theorem pixels_close (Φ : ℝ → ℝ → ℝ) (hΦ : Continuous (Function.uncurry Φ)) (κ : ℝ) (S : ℕ) (ε : ℝ) (hε : 0 < ε) :
    ∃ N : ℕ, ∀ nR nPhi : ℕ, N ≤ nR → N ≤ nPhi → ∀ i j, i < S → j < S → |pixelPsf Φ κ S nR nPhi i j - exactPixel Φ κ S i j| ≤ ε := by
  have h : ∀ q : ℕ × ℕ, ∃ N : ℕ, ∀ nR nPhi : ℕ, N ≤ nR → N ≤ nPhi → |pixelPsf Φ κ S nR nPhi q.1 q.2 - exactPixel Φ κ S q.1 q.2| ≤ ε := by
    intro q
    have := psf_tendsto Φ hΦ (κ * (((S : ℝ) - 1) / 2 - q.2)) (κ * (((S : ℝ) - 1) / 2 - q.1))
    rw [Metric.tendsto_atTop] at this
    obtain ⟨⟨a, b⟩, hN⟩ := this ε hε
    refine ⟨max a b, fun nR nPhi h1 h2 => ?_⟩
    have := hN (nR, nPhi) ⟨(le_max_left _ _).trans h1, (le_max_right _ _).trans h2⟩
    rw [Real.dist_eq] at this
    exact this.le
  choose N hN using h
  refine ⟨(Finset.range S ×ˢ Finset.range S).sup N, fun nR nPhi h1 h2 i j hi hj => ?_⟩
  have hm : (i, j) ∈ Finset.range S ×ˢ Finset.range S := by simp [hi, hj]
  have := Finset.le_sup (f := N) hm
  exact hN (i, j) nR nPhi (this.trans h1) (this.trans h2)

theorem exactPixel_nonneg (Φ : ℝ → ℝ → ℝ) (κ : ℝ) (S i j : ℕ) : 0 ≤ exactPixel Φ κ S i j := by
  unfold exactPixel exactPsf; positivity

theorem kernels_close (Φ : ℝ → ℝ → ℝ) (hΦ : Continuous (Function.uncurry Φ)) (q : KernelParams) (S : ℕ) (top : ℝ) (htop : q.normalize = true → ExactTop Φ q S top)
    (ε : ℝ) (hε : 0 < ε) :
    ∃ N : ℕ, ∀ nR nPhi : ℕ, N ≤ nR → N ≤ nPhi → ∀ g,
      KernelOf q.normalize S (fun i j => pixelPsf Φ (opticalScale q.wavelength q.NA q.len2pixels) S nR nPhi i j) g →
      KernelWithin ε S (exactKernel Φ q S top) g := by
  by_cases hn : q.normalize = true
  swap
  · obtain ⟨N, hN⟩ := pixels_close Φ hΦ (opticalScale q.wavelength q.NA q.len2pixels) S ε hε
    refine ⟨N, fun nR nPhi h1 h2 g hg => ?_⟩
    unfold KernelOf at hg
    unfold KernelWithin exactKernel
    rw [if_neg hn] at hg
    obtain ⟨r1, r2, h6⟩ := hg
    refine ⟨r1, r2, fun i j hi hj => ?_⟩
    rw [h6 i j hi hj, if_neg hn]
    exact hN nR nPhi h1 h2 i j hi hj
  obtain ⟨ht, ⟨a0, b0, ha0, hb0, e0⟩, hle⟩ := htop hn
  have hδ : 0 < min (ε * top / 4) (top / 2) := by positivity
  obtain ⟨N, hN⟩ := pixels_close Φ hΦ (opticalScale q.wavelength q.NA q.len2pixels) S _ hδ
  refine ⟨N, fun nR nPhi h1 h2 g hg => ?_⟩
  have hc := hN nR nPhi h1 h2
  generalize hκ : opticalScale q.wavelength q.NA q.len2pixels = κ at *
  generalize hd : min (ε * top / 4) (top / 2) = δ at *
  have d1 : δ ≤ ε * top / 4 := hd ▸ min_le_left _ _
  have d2 : δ ≤ top / 2 := hd ▸ min_le_right _ _
  unfold KernelOf at hg
  unfold KernelWithin exactKernel
  rw [hκ]
  rw [if_pos hn] at hg
  · obtain ⟨a, b, ha, hb, hm, r1, r2, h6⟩ := hg
    refine ⟨r1, r2, fun i j hi hj => ?_⟩
    rw [h6 i j hi hj, if_pos hn]
    have u1 := abs_le.1 (hc i j hi hj)
    have u2 := abs_le.1 (hc a b ha hb)
    have u3 := abs_le.1 (hc a0 b0 ha0 hb0)
    have m1 := hm a0 b0 ha0 hb0
    have l1 := hle i j hi hj
    have l2 := hle a b ha hb
    have n1 := exactPixel_nonneg Φ κ S i j
    rw [e0] at u3
    simp only at m1 ⊢
    generalize pixelPsf Φ κ S nR nPhi i j = v at *
    generalize pixelPsf Φ κ S nR nPhi a b = w at *
    generalize pixelPsf Φ κ S nR nPhi a0 b0 = w0 at *
    generalize exactPixel Φ κ S i j = e at *
    generalize exactPixel Φ κ S a b = e1 at *
    have hw : top / 2 ≤ w := by linarith
    have hw0 : 0 < w := by linarith
    have hwt : |top - w| ≤ δ := by rw [abs_le]; constructor <;> linarith
    have hve : |v - e| ≤ δ := by rw [abs_le]; constructor <;> linarith
    rw [div_sub_div _ _ hw0.ne' ht.ne', abs_div, abs_of_pos (mul_pos hw0 ht), div_le_iff₀ (mul_pos hw0 ht)]
    have e3 : v * top - w * e = (v - e) * top + e * (top - w) := by ring
    have k1 : |(v - e) * top| ≤ δ * top := by rw [abs_mul, abs_of_pos ht]; exact mul_le_mul_of_nonneg_right hve ht.le
    have k2 : |e * (top - w)| ≤ top * δ := by rw [abs_mul, abs_of_nonneg n1]; exact mul_le_mul l1 hwt (abs_nonneg _) ht.le
    rw [e3]
    calc _ ≤ |(v - e) * top| + |e * (top - w)| := abs_add_le _ _
      _ ≤ δ * top + top * δ := add_le_add k1 k2
      _ = 2 * δ * top := by ring
      _ ≤ (ε * w) * top := by
        apply mul_le_mul_of_nonneg_right _ ht.le
        nlinarith
      _ = _ := by ring

/-! ### C51: convergence -/

/-- C51. One polynomial: with enough integration points, the kernel deviates from the exact diffraction integral by as little as you like, in
all its pixels, whatever has been called before (if normalised: provided the exact kernel is not zero everywhere). -/
theorem kernel_converges (o : PolObj) (hv : ValidOrders o.m o.n) (coeff : ℝ) (q : KernelParams) (hopt : OpticsOk q) (h3 : 3 ≤ q.kernelSize)
    (S : ℕ) (hS : OddSize q.kernelSize S) (top : ℝ) (htop : q.normalize = true → ExactTop (fun p φ => coeff / q.wavelength * zernike o.m o.n p φ) q S top)
    (ε : ℝ) (hε : 0 < ε) :
    ∃ N : ℕ, ∀ nR nPhi : ℕ, N ≤ nR → N ≤ nPhi → ∀ (h : List Call) (fuel : Nat) (j1 : ℝ → ℝ), o.n.toNat + 1 < fuel →
      ∃ g, (getPsfKernel fuel j1 o coeff { q with nR := nR, nPhi := nPhi } false (afterCalls h)).1 = .ok g ∧
        KernelWithin ε S (exactKernel (fun p φ => coeff / q.wavelength * zernike o.m o.n p φ) q S top) g := by
  have hc : Continuous (Function.uncurry fun p φ => coeff / q.wavelength * zernike o.m o.n p φ) :=
    continuous_const.mul (zernike_continuous o.m o.n)
  obtain ⟨N, hN⟩ := kernels_close _ hc q S top htop ε hε
  refine ⟨N + 2, fun nR nPhi h1 h2 h fuel j1 hf => ?_⟩
  obtain ⟨g, e, hg⟩ := kernel_samples_psf h fuel j1 o hv hf coeff { q with nR := nR, nPhi := nPhi } (by simp only; omega)
    (by simp only; omega) hopt h3 S hS
  exact ⟨g, e, hN nR nPhi (by omega) (by omega) g hg⟩

/-- C51. The same for a sum of polynomials. -/
theorem sum_kernel_converges (cs : List ℝ) (os : List PolObj) (hl : cs.length = os.length) (h0 : os ≠ [])
    (q : KernelParams) (hopt : OpticsOk q) (S : ℕ) (hS : OddSize q.kernelSize S) (top : ℝ)
    (htop : q.normalize = true → ExactTop (combination cs (ordersOf os)) q S top) (ε : ℝ) (hε : 0 < ε) :
    ∃ N : ℕ, ∀ nR nPhi : ℕ, N ≤ nR → N ≤ nPhi → ∀ (h : List Call) (fuel : Nat), PolsOk fuel os →
      ∃ g, (getPsfKernelZerns fuel (cs.zip os) { q with nR := nR, nPhi := nPhi } (afterCalls h)).1 = .ok g ∧
        KernelWithin ε S (exactKernel (combination cs (ordersOf os)) q S top) g := by
  obtain ⟨N, hN⟩ := kernels_close _ (combination_continuous cs (ordersOf os)) q S top htop ε hε
  refine ⟨N + 2, fun nR nPhi h1 h2 h fuel hv => ?_⟩
  obtain ⟨g, e, hg⟩ := kernel_samples_psf_sum h fuel cs os hl h0 hv { q with nR := nR, nPhi := nPhi } (by simp only; omega)
    (by simp only; omega) hopt S hS
  exact ⟨g, e, hN nR nPhi (by omega) (by omega) g hg⟩

/-! ### C52: the Airy pattern -/

/-- C52. Without aberrations (a uniform phase) the exact PSF at the distance `ρ` from the centre is `(2 J_1(ρ) / ρ)^2`, and 1 in the centre. -/
theorem exact_psf_airy (c x y : ℝ) :
    exactPsf (fun _ _ => c) x y = if x = 0 ∧ y = 0 then 1 else
      (2 * besselJ1 (Real.sqrt (x ^ 2 + y ^ 2)) / Real.sqrt (x ^ 2 + y ^ 2)) ^ 2 := by
  split_ifs with h
  · rw [h.1, h.2, exactPsf_center]
  · rw [exactPsf_airy c x y h]; ring

theorem exactPsf_const_le (c x y : ℝ) : exactPsf (fun _ _ => c) x y ≤ 1 := by
  by_cases h : x = 0 ∧ y = 0
  · rw [h.1, h.2, exactPsf_center]
  · have hρ : Real.sqrt (x ^ 2 + y ^ 2) ≠ 0 := by
      intro h0
      rw [Real.sqrt_eq_zero (by positivity)] at h0
      exact h ⟨pow_eq_zero_iff two_ne_zero |>.1 (by nlinarith [sq_nonneg x, sq_nonneg y]),
        pow_eq_zero_iff two_ne_zero |>.1 (by nlinarith [sq_nonneg x, sq_nonneg y])⟩
    rw [exactPsf_airy c x y h]
    exact ratio_sq_le _ hρ

theorem exactPsf_radial (c x y x' y' : ℝ) (h : x ^ 2 + y ^ 2 = x' ^ 2 + y' ^ 2) : exactPsf (fun _ _ => c) x y = exactPsf (fun _ _ => c) x' y' := by
  rw [exact_psf_airy, exact_psf_airy, h]
  have : (x = 0 ∧ y = 0) ↔ (x' = 0 ∧ y' = 0) := by
    constructor
    · rintro ⟨rfl, rfl⟩
      constructor <;> nlinarith [sq_nonneg x', sq_nonneg y']
    · rintro ⟨rfl, rfl⟩
      constructor <;> nlinarith [sq_nonneg x, sq_nonneg y]
  simp only [this]

theorem airyRef_near (r : ℝ) : |airyRef besselJ1 r - exactPsf (fun _ _ => 0) r 0| ≤ 1e-10 := by
  have hn := npRound_near 12 r
  have e : ∀ x : ℝ, x ≠ 0 → 4 * (besselJ1 x / x) ^ 2 = exactPsf (fun _ _ => 0) x 0 := by
    intro x hx
    have : exactPsf (fun _ _ => 0) x 0 = exactPsf (fun _ _ => 0) |x| 0 := exactPsf_radial _ _ _ _ _ (by simp)
    have hs : Real.sqrt (x ^ 2 + 0 ^ 2) = |x| := by rw [← Real.sqrt_sq_eq_abs]; simp
    rw [exactPsf_airy 0 x 0 (fun h => hx h.1), hs]
    have hneg : besselJ1 (-x) = -besselJ1 x := by
      rw [j1_sin, j1_sin]
      simp [neg_mul, Real.sin_neg, intervalIntegral.integral_neg]
    rcases abs_choice x with h | h <;> rw [h]
    rw [hneg, neg_div_neg_eq]
  have e12 : (10 : ℝ) ^ (12 : ℤ) = 1000000000000 := by norm_num
  rw [e12] at hn
  unfold airyRef
  dsimp only
  split_ifs with h
  · rw [e _ (by norm_num)]
    rw [h] at hn
    refine (exactPsf_lipschitz _ _).trans ?_
    have : |1e-11 - r| ≤ 1.1e-11 := by
      rw [abs_le] at hn ⊢
      constructor <;> norm_num at hn ⊢ <;> linarith
    norm_num at this ⊢
    linarith
  · rw [e _ h]
    refine (exactPsf_lipschitz _ _).trans ?_
    norm_num at hn ⊢
    linarith

/-- C52. The Airy kernel, from every state of the coefficient tables. -/
theorem airy_kernel_exact_from (s : CoefState) (hs : Good s) (fuel : Nat) (o : PolObj) (coeff c : ℝ) (q : KernelParams) (hopt : OpticsOk q) (h3 : 3 ≤ q.kernelSize) (S : ℕ)
    (hS : OddSize q.kernelSize S) (hn : q.normalize = false) :
    ∃ g, (getPsfKernel fuel besselJ1 o coeff q true s).1 = .ok g ∧
      KernelWithin 1e-10 S (exactPixel (fun _ _ => c) (opticalScale q.wavelength q.NA q.len2pixels) S) g := by
  rw [airy_res _ hs fuel o coeff q hopt h3 S hS]
  have hS1 := hS.1
  obtain ⟨g, e, hg⟩ := pureKernel_of S (by omega)
    (fun i j => airyRef besselJ1 (kernelDist S (2 * Real.pi / q.wavelength) q.NA q.len2pixels i j)) q.normalize
  refine ⟨g, e, ?_⟩
  rw [hn] at hg
  obtain ⟨r1, r2, h6⟩ := hg
  refine ⟨r1, r2, fun i j hi hj => ?_⟩
  rw [h6 i j hi hj]
  have := airyRef_near (kernelDist S (2 * Real.pi / q.wavelength) q.NA q.len2pixels i j)
  unfold exactPixel
  rw [exactPsf_const, exactPsf_radial 0 _ _ (kernelDist S (2 * Real.pi / q.wavelength) q.NA q.len2pixels i j) 0]
  · exact this
  · have hs : (((S : Int) / 2 : Int) : ℝ) = ((S : ℝ) - 1) / 2 := by
      obtain ⟨k, hk⟩ : ∃ k, S = 2 * k + 1 := ⟨S / 2, by omega⟩
      subst hk
      rw [show (((2 * k + 1 : ℕ) : Int) / 2 : Int) = (k : Int) by omega]
      push_cast; ring
    unfold kernelDist opticalScale
    rw [hs, mul_pow _ (Real.sqrt _), Real.sq_sqrt (by positivity)]
    ring

/-- C52. The kernel of the piston computed from the Bessel function deviates from the exact diffraction integral by at most `10^-10` in each
pixel (the result is not normalised). -/
theorem airy_kernel_exact (h : List Call) (fuel : Nat) (o : PolObj) (coeff c : ℝ) (q : KernelParams) (hopt : OpticsOk q) (h3 : 3 ≤ q.kernelSize) (S : ℕ)
    (hS : OddSize q.kernelSize S) (hn : q.normalize = false) :
    ∃ g, (getPsfKernel fuel besselJ1 o coeff q true (afterCalls h)).1 = .ok g ∧
      KernelWithin 1e-10 S (exactPixel (fun _ _ => c) (opticalScale q.wavelength q.NA q.len2pixels) S) g :=
  airy_kernel_exact_from _ (afterCalls_good h) fuel o coeff c q hopt h3 S hS hn

/-- C52. The numerical kernel of the piston and the Airy kernel agree up to `10^-10` plus any `ε` if enough integration points are used. -/
theorem piston_kernel_converges_airy (o : PolObj) (ho : o.m = 0 ∧ o.n = 0) (coeff : ℝ) (q : KernelParams) (hopt : OpticsOk q) (h3 : 3 ≤ q.kernelSize)
    (S : ℕ) (hS : OddSize q.kernelSize S) (hn : q.normalize = false) (ε : ℝ) (hε : 0 < ε) :
    ∃ N : ℕ, ∀ nR nPhi : ℕ, N ≤ nR → N ≤ nPhi → ∀ (h h' : List Call) (fuel : Nat), 1 < fuel →
      ∃ g g', (getPsfKernel fuel besselJ1 o coeff { q with nR := nR, nPhi := nPhi } false (afterCalls h)).1 = .ok g ∧
        (getPsfKernel fuel besselJ1 o coeff { q with nR := nR, nPhi := nPhi } true (afterCalls h')).1 = .ok g' ∧
        KernelWithin (ε + 1e-10) S g'.entry g := by
  have hv : ValidOrders o.m o.n := by rw [ho.1, ho.2]; decide
  have hΦ : (fun p φ => coeff / q.wavelength * zernike o.m o.n p φ) = fun _ _ => coeff / q.wavelength := by
    funext p φ
    rw [ho.1, ho.2]
    simp [zernike, Spec.radial, Spec.norm, angular]
  have htop : q.normalize = true → ExactTop (fun p φ => coeff / q.wavelength * zernike o.m o.n p φ) q S 1 := by
    intro _
    have hS1 := hS.1
    refine ⟨one_pos, ⟨S / 2, S / 2, by omega, by omega, ?_⟩, fun i j _ _ => ?_⟩
    · have : ((S / 2 : ℕ) : ℝ) = ((S : ℝ) - 1) / 2 := by
        obtain ⟨k, hk⟩ : ∃ k, S = 2 * k + 1 := ⟨S / 2, by omega⟩
        subst hk
        rw [show (2 * k + 1) / 2 = k by omega]; push_cast; ring
      unfold exactPixel
      rw [hΦ, this, sub_self, mul_zero, exactPsf_center]
    · rw [hΦ]
      exact exactPsf_const_le _ _ _
  obtain ⟨N, hN⟩ := kernel_converges o hv coeff q hopt h3 S hS 1 htop ε hε
  refine ⟨N, fun nR nPhi h1 h2 h h' fuel hf => ?_⟩
  obtain ⟨g, e, hg⟩ := hN nR nPhi h1 h2 h fuel besselJ1 (by rw [ho.2]; simpa using hf)
  obtain ⟨g', e', hg'⟩ := airy_kernel_exact h' fuel o coeff (coeff / q.wavelength) { q with nR := nR, nPhi := nPhi } hopt h3 S hS hn
  refine ⟨g, g', e, e', hg.1, hg.2.1, fun i j hi hj => ?_⟩
  have a := hg.2.2 i j hi hj
  have b := hg'.2.2 i j hi hj
  unfold exactKernel at a
  rw [hn, hΦ] at a
  simp only [Bool.false_eq_true, if_false] at a b
  rw [abs_le] at a b ⊢
  constructor <;> linarith

/-- The conditions of `kernel_converges` are met by the piston, with `top = 1` (the proof of `piston_kernel_converges_airy`); here the
parameters. -/
example : ∃ q : KernelParams, OpticsOk q ∧ 3 ≤ q.kernelSize ∧ OddSize q.kernelSize 19 ∧
    (∃ top, ExactTop (fun _ _ => 0.5) q 1 top) :=
  ⟨{ kernelSize := 19, len2pixels := 0.1, wavelength := 0.55, NA := 0.95, nR := 250, nPhi := 300, normalize := false },
    by unfold OpticsOk; norm_num, by norm_num, by simp [OddSize], 1, one_pos, ⟨0, 0, by omega, by omega, by
      unfold exactPixel; simp [exactPsf_center]⟩, fun i j hi hj => by
      obtain rfl : i = 0 := by omega
      obtain rfl : j = 0 := by omega
      unfold exactPixel; simp [exactPsf_center]⟩

end Verif.Props
