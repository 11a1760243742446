import Verif.Props.PsfExact
import Verif.Props.Surface
import Verif.Proofs.Strehl

/-!
# C54: tilt moves the PSF; C55: the Strehl ratio
-/

namespace Verif.Props
open Verif.Model Verif.Spec Verif.Proofs

theorem zernike_tilt_x (p φ : ℝ) : zernike 1 1 p φ = 2 * (p * Real.cos φ) := by
  unfold zernike
  rw [spec_radial_eq 1 1 p (by decide), RR_diag 1 1 (by decide) (by decide)]
  have h : Spec.norm 1 1 = 2 := by
    unfold Spec.norm
    rw [if_neg (by decide), show (2 * (((1 : Int) : ℝ) + 1)) = 2 ^ 2 by norm_num, Real.sqrt_sq (by norm_num)]
  rw [h]
  simp [angular]
  ring

theorem zernike_tilt_y (p φ : ℝ) : zernike (-1) 1 p φ = 2 * (p * Real.sin φ) := by
  unfold zernike
  rw [spec_radial_eq (-1) 1 p (by decide), RR_diag (-1) 1 (by decide) (by decide)]
  have h : Spec.norm (-1) 1 = 2 := by
    unfold Spec.norm
    rw [if_neg (by decide), show (2 * (((1 : Int) : ℝ) + 1)) = 2 ^ 2 by norm_num, Real.sqrt_sq (by norm_num)]
  rw [h]
  simp [angular]
  ring

/-- Adding tilts to a phase moves the PSF. -/
theorem psfXY_tilt (Φ : ℝ → ℝ → ℝ) (a b x y : ℝ) (nR nPhi : ℕ) :
    psfXY (fun p φ => Φ p φ + a * zernike 1 1 p φ + b * zernike (-1) 1 p φ) x y nR nPhi = psfXY Φ (x - 2 * a) (y - 2 * b) nR nPhi := by
  unfold psfXY
  have : (fun p φ => pupilFieldXY (fun p φ => Φ p φ + a * zernike 1 1 p φ + b * zernike (-1) 1 p φ) x y p φ) =
      fun p φ => pupilFieldXY Φ (x - 2 * a) (y - 2 * b) p φ := by
    funext p φ
    unfold pupilFieldXY
    beta_reduce
    rw [zernike_tilt_x, zernike_tilt_y]
    congr 4
    ring
  have h : ∀ p φ, pupilFieldXY (fun p φ => Φ p φ + a * zernike 1 1 p φ + b * zernike (-1) 1 p φ) x y p φ = pupilFieldXY Φ (x - 2 * a) (y - 2 * b) p φ :=
    fun p φ => congrFun (congrFun this p) φ
  simp only [h]

/-- The change of the phase by a tilt (horizontal: `m = 1`, vertical: `m = -1`) anywhere in the list. -/
theorem termSum_tilt (l₁ l₂ : List (ℝ × PolObj)) (a : ℝ) (o : PolObj) (ho : o.n = 1) (hm : o.m = 1 ∨ o.m = -1) :
    termSum (l₁ ++ (a, o) :: l₂) = fun p φ => termSum (l₁ ++ l₂) p φ + (if o.m = 1 then a else 0) * zernike 1 1 p φ +
      (if o.m = 1 then 0 else a) * zernike (-1) 1 p φ := by
  funext p φ
  rcases hm with h | h
  · rw [if_pos h, if_pos h]
    simp [termSum, ho, h]
    ring
  · rw [if_neg (by omega), if_neg (by omega)]
    simp [termSum, ho, h]
    ring

/-- C54. A tilt (with the orders (1, 1) or (-1, 1)) with the phase coefficient `π · NA · pixel size · s / wavelength`, inserted at any place into a non-empty list of aberrations, moves the kernel by exactly `s` pixels
along the columns or the rows. Not normalised kernels; pixels that come from outside of the kernel are not determined by it. -/
theorem tilt_moves_kernel (h h' : List Call) (fuel : Nat) (l₁ l₂ : List (ℝ × PolObj)) (hl : l₁ ++ l₂ ≠ []) (o : PolObj) (ho : o.n = 1)
    (hm : o.m = 1 ∨ o.m = -1) (s : Int) (q : KernelParams) (a : ℝ) (ha : a = Real.pi * q.NA * q.len2pixels * s / q.wavelength)
    (hv : ∀ x ∈ l₁ ++ (a, o) :: l₂, ValidOrders x.2.m x.2.n ∧ x.2.n.toNat + 1 < fuel)
    (hn : q.normalize = false) (hR : 2 ≤ q.nR) (hPhi : 0 < q.nPhi) (hopt : OpticsOk q) (S : ℕ) (hS : OddSize q.kernelSize S) :
    ∃ g g', (getPsfKernelZerns fuel (l₁ ++ l₂) q (afterCalls h)).1 = .ok g ∧
      (getPsfKernelZerns fuel (l₁ ++ (a, o) :: l₂) q (afterCalls h')).1 = .ok g' ∧
      ∀ i j i₀ j₀ : ℕ, i < S → j < S → i₀ < S → j₀ < S →
        ((i₀ : Int), (j₀ : Int)) = (if o.m = 1 then ((i : Int), (j : Int) + s) else ((i : Int) + s, (j : Int))) → g'.entry i j = g.entry i₀ j₀ := by
  have r := several_res _ (afterCalls_good h) fuel (l₁ ++ l₂) hl (fun x hx => hv x (by simp at hx ⊢; tauto)) q ⟨hR, hPhi⟩ hopt S hS
  have r' := several_res _ (afterCalls_good h') fuel (l₁ ++ (a, o) :: l₂) (by simp) hv q ⟨hR, hPhi⟩ hopt S hS
  have hS0 : 0 < S := by have := hS.1; omega
  obtain ⟨g, e, hg⟩ := pureKernel_of S hS0 (pixelPsf (termSum (l₁ ++ l₂)) (opticalScale q.wavelength q.NA q.len2pixels) S q.nR.toNat q.nPhi.toNat) q.normalize
  obtain ⟨g', e', hg'⟩ := pureKernel_of S hS0 (pixelPsf (termSum (l₁ ++ (a, o) :: l₂)) (opticalScale q.wavelength q.NA q.len2pixels) S q.nR.toNat q.nPhi.toNat)
    q.normalize
  rw [hn] at hg hg'
  simp only [KernelOf, Bool.false_eq_true, if_false] at hg hg'
  refine ⟨g, g', r.trans e, r'.trans e', fun i j i₀ j₀ hi hj hi₀ hj₀ hij => ?_⟩
  rw [hg'.2.2 i j hi hj, hg.2.2 i₀ j₀ hi₀ hj₀]
  unfold pixelPsf
  rw [termSum_tilt l₁ l₂ a o ho hm, psfXY_tilt]
  have hwl := hopt.1.ne'
  rcases hm with hm | hm
  · rw [if_pos hm] at hij
    simp only [Prod.mk.injEq] at hij
    have hi' : (i₀ : ℝ) = i := by exact_mod_cast hij.1
    have hj' : (j₀ : ℝ) = j + s := by exact_mod_cast hij.2
    rw [if_pos hm, if_pos hm, hi', hj', ha]
    unfold opticalScale
    congr 1
    · field_simp; ring
    · ring
  · rw [if_neg (by omega)] at hij
    simp only [Prod.mk.injEq] at hij
    have hi' : (i₀ : ℝ) = i + s := by exact_mod_cast hij.1
    have hj' : (j₀ : ℝ) = j := by exact_mod_cast hij.2
    rw [if_neg (by omega), if_neg (by omega), hi', hj', ha]
    unfold opticalScale
    congr 1
    · ring
    · field_simp; ring

/-- The conditions of `tilt_moves_kernel` are met, e.g. by a tilt that moves the kernel of defocus by 3 pixels. -/
example : ∃ (l₁ l₂ : List (ℝ × PolObj)) (o : PolObj) (s : Int) (q : KernelParams) (a : ℝ), l₁ ++ l₂ ≠ [] ∧ o.n = 1 ∧ (o.m = 1 ∨ o.m = -1) ∧ s = 3 ∧
    a = Real.pi * q.NA * q.len2pixels * s / q.wavelength ∧ (∀ x ∈ l₁ ++ (a, o) :: l₂, ValidOrders x.2.m x.2.n ∧ x.2.n.toNat + 1 < 10) ∧
    q.normalize = false ∧ 2 ≤ q.nR ∧ 0 < q.nPhi ∧ OpticsOk q ∧ OddSize q.kernelSize 19 :=
  ⟨[(0.2, ⟨0, 2, true⟩)], [], ⟨1, 1, true⟩, 3,
    { kernelSize := 19, len2pixels := 0.1, wavelength := 0.55, NA := 0.95, nR := 250, nPhi := 300, normalize := false }, _, by simp, rfl,
    Or.inl rfl, rfl, rfl, by
      intro x hx
      simp at hx
      rcases hx with rfl | rfl
      · exact ⟨by decide, by decide⟩
      · exact ⟨by decide, by decide⟩, rfl, by norm_num, by norm_num, by unfold OpticsOk; norm_num, by simp [OddSize]⟩

/-! ### C55: the Strehl ratio -/

/-- Variance of the phase over the pupil: the squares of all coefficients but that of the piston. -/
def phaseVariance (cs : List ℝ) (os : List PolObj) : ℝ := (((cs.zip os).filter fun q => q.2.n ≠ 0).map fun q => q.1 ^ 2).sum

theorem phaseVariance_eq (cs : List ℝ) (os : List PolObj) :
    phaseVariance cs os = (((cs.zip (ordersOf os)).filter fun q => q.2.2 ≠ 0).map fun q => q.1 ^ 2).sum := by
  unfold phaseVariance ordersOf
  induction os generalizing cs with
  | nil => simp
  | cons o os ih =>
    cases cs with
    | nil => simp
    | cons c cs =>
      simp only [List.map_cons, List.zip_cons_cons]
      by_cases hn : o.n = 0
      · rw [List.filter_cons_of_neg (by simpa using hn), List.filter_cons_of_neg (by simpa using hn)]
        exact ih cs
      · rw [List.filter_cons_of_pos (by simpa using hn), List.filter_cons_of_pos (by simpa using hn), List.map_cons, List.map_cons, List.sum_cons,
          List.sum_cons, ih cs]

/-- C55. `phaseVariance` is the variance: the mean over the pupil of the square of the deviation of the phase from its mean. -/
theorem phaseVariance_is_variance (fuel : Nat) (cs : List ℝ) (os : List PolObj) (hl : cs.length = os.length) (hv : PolsOk fuel os)
    (hd : DifferentOrders os) :
    diskMean (fun r t => (combination cs (ordersOf os) r t - diskMean (combination cs (ordersOf os))) ^ 2) = phaseVariance cs os := by
  have hv' := orders_valid hv
  have hl' : cs.length = (ordersOf os).length := by simp [ordersOf, hl]
  have hpi := Real.pi_pos
  set l := (cs.zip (ordersOf os)).filter fun q => q.2.2 ≠ 0 with hldef
  obtain ⟨μ, hμ⟩ := combination_split cs (ordersOf os) hv'
  rw [← hldef] at hμ
  have hsub : (l.map Prod.snd).Sublist (ordersOf os) := by
    have : (cs.zip (ordersOf os)).map Prod.snd = ordersOf os := by rw [List.map_snd_zip]; omega
    conv_rhs => rw [← this]
    exact (List.filter_sublist).map _
  have hv'' : ∀ p ∈ l.map Prod.snd, ValidOrders p.1 p.2 := fun p hp => hv' p (hsub.subset hp)
  have one : ∀ r t, zernike 0 0 r t = 1 := by intro r t; simp [zernike, Spec.norm, Spec.radial, angular]
  have h0 : diskMean (combination (l.map Prod.fst) (l.map Prod.snd)) = 0 := by
    have e : (combination (l.map Prod.fst) (l.map Prod.snd)) = fun r t => zernike 0 0 r t * combination (l.map Prod.fst) (l.map Prod.snd) r t := by
      funext r t; rw [one, one_mul]
    rw [e, diskMean_mul_combination _ (tame_zernike _ _ (by decide)) _ _ hv'']
    apply List.sum_eq_zero
    intro x hx
    obtain ⟨q, hq, rfl⟩ := List.mem_map.1 hx
    have hq2 := (List.of_mem_zip hq).2
    rw [zernike_orthonormal _ _ _ _ (by decide) (hv'' _ hq2)]
    obtain ⟨o, ho, e3⟩ := List.mem_map.1 hq2
    rw [if_neg, mul_zero]
    rintro ⟨_, h5⟩
    rw [← e3] at h5
    have := (List.mem_filter.1 ho).2
    simp at this
    exact this h5.symm
  have hc : diskMean (fun _ _ => μ) = μ := by
    have e : (fun _ _ : ℝ => μ) = fun r t => μ * (zernike 0 0 r t * zernike 0 0 r t) := by funext r t; rw [one]; ring
    rw [e, diskMean_smul, zernike_orthonormal _ _ _ _ (by decide) (by decide)]
    simp
  have hm : diskMean (combination cs (ordersOf os)) = μ := by
    have e : combination cs (ordersOf os) = fun r t => combination (l.map Prod.fst) (l.map Prod.snd) r t + μ := by
      funext r t; rw [← hμ]; ring
    rw [e, diskMean_add (tame_combination _ _ hv'') (tame_const μ), h0, hc, zero_add]
  rw [hm]
  simp only [hμ]
  rw [diskMean_sq _ _ (by simp) (hsub.nodup hd) hv'', phaseVariance_eq, List.map_map]
  rfl

/-- C55. The exact PSF is at most 1 everywhere, and in its centre (the Strehl ratio) at least `(1 - V / 2)²`, hence at least `1 - V`,
where `V ≤ 2` is the variance of the phase (in radians²). -/
theorem strehl_exact (fuel : Nat) (cs : List ℝ) (os : List PolObj) (hl : cs.length = os.length) (hv : PolsOk fuel os) (hd : DifferentOrders os)
    (hV : phaseVariance cs os ≤ 2) :
    (1 - phaseVariance cs os / 2) ^ 2 ≤ exactPsf (combination cs (ordersOf os)) 0 0 ∧
      1 - phaseVariance cs os ≤ exactPsf (combination cs (ordersOf os)) 0 0 ∧ ∀ x y, exactPsf (combination cs (ordersOf os)) x y ≤ 1 := by
  have a := exactPsf_lower cs (ordersOf os) (by simp [ordersOf, hl]) hd (orders_valid hv) _ (phaseVariance_eq cs os) hV
  exact ⟨a, by nlinarith [sq_nonneg (phaseVariance cs os)], fun x y => exactPsf_le_one _ x y⟩

/-- C55. The computed (not normalised) kernel: with enough integration points no pixel is greater than `1 + ε`, and the central one is at least
`(1 - V / 2)² - ε`. -/
theorem strehl_kernel (cs : List ℝ) (os : List PolObj) (hl : cs.length = os.length) (h0 : os ≠ []) (hd : DifferentOrders os)
    (hV : phaseVariance cs os ≤ 2) (q : KernelParams) (hopt : OpticsOk q) (hn : q.normalize = false) (S : ℕ) (hS : OddSize q.kernelSize S)
    (ε : ℝ) (hε : 0 < ε) :
    ∃ N : ℕ, ∀ nR nPhi : ℕ, N ≤ nR → N ≤ nPhi → ∀ (h : List Call) (fuel : Nat), PolsOk fuel os →
      ∃ g, (getPsfKernelZerns fuel (cs.zip os) { q with nR := nR, nPhi := nPhi } (afterCalls h)).1 = .ok g ∧ g.rows = S ∧ g.cols = S ∧
        (1 - phaseVariance cs os / 2) ^ 2 - ε ≤ g.entry (S / 2) (S / 2) ∧ ∀ i j, i < S → j < S → g.entry i j ≤ 1 + ε := by
  obtain ⟨N, hN⟩ := sum_kernel_converges cs os hl h0 q hopt S hS 1 (by rw [hn]; intro h; cases h) ε hε
  refine ⟨N, fun nR nPhi h1 h2 h fuel hv => ?_⟩
  obtain ⟨g, e, r, c, hg⟩ := hN nR nPhi h1 h2 h fuel hv
  obtain ⟨b1, -, b3⟩ := strehl_exact fuel cs os hl hv hd hV
  have hS1 := hS.1
  refine ⟨g, e, r, c, ?_, fun i j hi hj => ?_⟩
  · have := hg (S / 2) (S / 2) (by omega) (by omega)
    unfold exactKernel exactPixel at this
    have hs : ((S / 2 : ℕ) : ℝ) = ((S : ℝ) - 1) / 2 := by
      obtain ⟨k, hk⟩ : ∃ k, S = 2 * k + 1 := ⟨S / 2, by omega⟩
      subst hk
      rw [show (2 * k + 1) / 2 = k by omega]; push_cast; ring
    rw [hn, if_neg (by simp), hs, sub_self, mul_zero, abs_le] at this
    linarith [this.1]
  · have := hg i j hi hj
    unfold exactKernel exactPixel at this
    rw [hn, if_neg (by simp), abs_le] at this
    linarith [this.2, b3 (opticalScale q.wavelength q.NA q.len2pixels * (((S : ℝ) - 1) / 2 - j)) (opticalScale q.wavelength q.NA q.len2pixels * (((S : ℝ) - 1) / 2 - i))]

/-- The conditions are met by two aberrations with coefficients 0.5 and 1; the piston does not count. -/
example : ∃ (cs : List ℝ) (os : List PolObj), cs.length = os.length ∧ os ≠ [] ∧ DifferentOrders os ∧ PolsOk 10 os ∧ phaseVariance cs os = 1.25 ∧
    phaseVariance cs os ≤ 2 :=
  ⟨[0.5, 7, 1], [⟨0, 2, true⟩, ⟨0, 0, true⟩, ⟨-3, 3, true⟩], rfl, by simp, by simp [DifferentOrders, ordersOf],
    by intro o ho; simp at ho; rcases ho with rfl | rfl | rfl <;> exact ⟨by decide, by decide⟩,
    by simp [phaseVariance]; norm_num, by simp [phaseVariance]; norm_num⟩

end Verif.Props
