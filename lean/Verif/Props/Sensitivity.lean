import Verif.Proofs.Sensitivity
import Verif.Props.PsfRate

/-!
# C81: nearly equal amplitudes and optical parameters give nearly equal kernels

`amplitudeDistance` weighs the differences of the amplitudes by the greatest value of each polynomial on the disk, `pixelOffset` is the distance of a pixel from the centre of the kernel
in pixels.
-/

namespace Verif.Props
open Verif.Model Verif.Spec Verif.Proofs

/-- `Σ |c_i - d_i| N_i`, where `N_i` is the greatest absolute value of the polynomial `i` on the disk. -/
noncomputable def amplitudeDistance (cs ds : List ℝ) (orders : List (Int × Int)) : ℝ :=
  (((cs.zip ds).zip orders).map fun t => |t.1.1 - t.1.2| * Spec.norm t.2.1 t.2.2).sum

/-- Distance (in pixels) of the pixel `(i, j)` from the centre of a kernel of `S × S` pixels. -/
noncomputable def pixelOffset (S i j : ℕ) : ℝ := Real.sqrt ((((S : ℝ) - 1) / 2 - j) ^ 2 + (((S : ℝ) - 1) / 2 - i) ^ 2)

theorem combination_distance (cs ds : List ℝ) (orders : List (Int × Int)) (hl : cs.length = ds.length) (hv : ∀ o ∈ orders, ValidOrders o.1 o.2) (p φ : ℝ)
    (h0 : 0 ≤ p) (h1 : p ≤ 1) : |combination cs orders p φ - combination ds orders p φ| ≤ amplitudeDistance cs ds orders := by
  induction cs generalizing ds orders with
  | nil => cases ds <;> simp [combination, amplitudeDistance] at *
  | cons c cs ih =>
    cases ds with
    | nil => simp at hl
    | cons d ds =>
      cases orders with
      | nil => simp [combination, amplitudeDistance]
      | cons o orders =>
        have := ih ds orders (by simpa using hl) fun o ho => hv o (List.mem_cons_of_mem _ ho)
        simp only [combination, amplitudeDistance, List.zip_cons_cons, List.map_cons, List.sum_cons] at this ⊢
        have e : ∀ z A B : ℝ, c * z + A - (d * z + B) = (c - d) * z + (A - B) := fun z A B => by ring
        rw [e]
        refine (abs_add_le _ _).trans (add_le_add ?_ this)
        rw [abs_mul]
        exact mul_le_mul_of_nonneg_left (zernike_le o.1 o.2 (hv o (by simp)) φ h0 h1) (abs_nonneg _)

/-- Two pixels of two kernels. -/
theorem pixel_sensitive (Φ Ψ : ℝ → ℝ → ℝ) (κ κ' δ : ℝ) (S nR nPhi i j : ℕ) (hR : 0 < nR) (hPhi : 0 < nPhi)
    (h : ∀ p φ, 0 ≤ p → p ≤ 1 → |Φ p φ - Ψ p φ| ≤ δ) :
    |pixelPsf Φ κ S nR nPhi i j - pixelPsf Ψ κ' S nR nPhi i j| ≤ 2 * (δ + |κ - κ'| * pixelOffset S i j) := by
  unfold pixelPsf
  refine (psfXY_sensitive Φ Ψ _ _ _ _ nR nPhi hR hPhi δ h).trans (le_of_eq ?_)
  unfold pixelOffset
  rw [← Real.sqrt_sq_eq_abs, ← Real.sqrt_mul (sq_nonneg _)]
  congr 3
  ring

theorem kernel_sensitive (nrm : Bool) (S : ℕ) (v w : ℕ → ℕ → ℝ) (g g' : Grid) (hg : KernelOf nrm S v g) (hg' : KernelOf nrm S w g') (E : ℕ → ℕ → ℝ)
    (hE : ∀ i j, i < S → j < S → |v i j - w i j| ≤ E i j) :
    (nrm = false → ∀ i j, i < S → j < S → |g.entry i j - g'.entry i j| ≤ E i j) ∧
    (nrm = true → (∀ i j, i < S → j < S → 0 ≤ v i j ∧ 0 ≤ w i j) → ∀ top e, 0 < top → (∀ i j, i < S → j < S → E i j ≤ e) → (∃ i j, i < S ∧ j < S ∧ v i j = top) →
      (∀ i j, i < S → j < S → v i j ≤ top) → e < top → ∀ i j, i < S → j < S → |g.entry i j - g'.entry i j| ≤ 2 * e / top) := by
  refine ⟨fun hn => ?_, fun hn hpos top e ht he h1 h2 het => ?_⟩
  · subst hn
    unfold KernelOf at hg hg'
    rw [if_neg (by simp)] at hg hg'
    intro i j hi hj
    rw [hg.2.2 i j hi hj, hg'.2.2 i j hi hj]
    exact hE i j hi hj
  · subst hn
    unfold KernelOf at hg hg'
    rw [if_pos rfl] at hg hg'
    obtain ⟨a0, b0, ha0, hb0, e0⟩ := h1
    obtain ⟨a, b, ha, hb, hm, _, _, k1⟩ := hg
    obtain ⟨a', b', ha', hb', hm', _, _, k2⟩ := hg'
    intro i j hi hj
    rw [k1 i j hi hj, k2 i j hi hj]
    have t1 : v a b = top := le_antisymm (h2 a b ha hb) (e0 ▸ hm a0 b0 ha0 hb0)
    rw [t1]
    have hw := hm' i j hi hj
    have hw2 := hm' a b ha hb
    have q1 := abs_le.1 ((hE i j hi hj).trans (he i j hi hj))
    have q2 := abs_le.1 ((hE a b ha hb).trans (he a b ha hb))
    have q3 := abs_le.1 ((hE a' b' ha' hb').trans (he a' b' ha' hb'))
    have q4 := h2 a' b' ha' hb'
    have q5 := (hpos i j hi hj).2
    rw [t1] at q2
    simp only at hw hw2 ⊢
    generalize w a' b' = M at *
    generalize w i j = y at *
    generalize v i j = x at *
    have hM : 0 < M := by linarith
    have hMt : |M - top| ≤ e := by rw [abs_le]; constructor <;> linarith
    have hxy : |x - y| ≤ e := by rw [abs_le]; exact q1
    rw [div_sub_div _ _ ht.ne' hM.ne', abs_div, abs_of_pos (mul_pos ht hM), div_le_div_iff₀ (mul_pos ht hM) ht]
    have e3 : x * M - top * y = (x - y) * M + y * (M - top) := by ring
    have u1 : |(x - y) * M| ≤ e * M := by rw [abs_mul, abs_of_pos hM]; exact mul_le_mul_of_nonneg_right hxy hM.le
    have u2 : |y * (M - top)| ≤ M * e := by rw [abs_mul, abs_of_nonneg q5]; exact mul_le_mul hw hMt (abs_nonneg _) hM.le
    rw [e3]
    have := (abs_add_le ((x - y) * M) (y * (M - top))).trans (add_le_add u1 u2)
    nlinarith

/-- C81. Two calculations with the same polynomials, the same numbers of points and size, not normalised, after any histories: each pixel differs by at most twice the
`amplitudeDistance` (amplitudes in units of the wavelength) plus twice the change of the place of the pixel. -/
theorem kernel_sensitivity (h h' : List Call) (fuel : Nat) (cs ds : List ℝ) (os : List PolObj) (hl : cs.length = os.length) (hl' : ds.length = os.length) (h0 : os ≠ [])
    (hv : PolsOk fuel os) (q q' : KernelParams) (hR : 2 ≤ q.nR) (hPhi : 0 < q.nPhi) (hopt : OpticsOk q) (hopt' : OpticsOk q')
    (hsame : q'.nR = q.nR ∧ q'.nPhi = q.nPhi ∧ q'.kernelSize = q.kernelSize) (hn : q.normalize = false ∧ q'.normalize = false) (S : ℕ)
    (hS : OddSize q.kernelSize S) :
    ∃ g g', (getPsfKernelZerns fuel (cs.zip os) q (afterCalls h)).1 = .ok g ∧ (getPsfKernelZerns fuel (ds.zip os) q' (afterCalls h')).1 = .ok g' ∧
      ∀ i j, i < S → j < S → |g.entry i j - g'.entry i j| ≤ 2 * (amplitudeDistance cs ds (ordersOf os) +
        |opticalScale q.wavelength q.NA q.len2pixels - opticalScale q'.wavelength q'.NA q'.len2pixels| * pixelOffset S i j) := by
  obtain ⟨s1, s2, s3⟩ := hsame
  obtain ⟨g, e, hg⟩ := kernel_samples_psf_sum h fuel cs os hl h0 hv q hR hPhi hopt S hS
  obtain ⟨g', e', hg'⟩ := kernel_samples_psf_sum h' fuel ds os hl' h0 hv q' (by omega) (by omega) hopt' S (by rw [s3]; exact hS)
  refine ⟨g, g', e, e', ?_⟩
  rw [hn.1] at hg
  rw [hn.2, s1, s2] at hg'
  refine (kernel_sensitive false S _ _ g g' hg hg' _ fun i j _ _ => pixel_sensitive _ _ _ _ _ S q.nR.toNat q.nPhi.toNat i j (by omega) (by omega) fun p φ p0 p1 => ?_).1 rfl
  exact combination_distance cs ds _ (hl.trans hl'.symm) (fun o ho => by obtain ⟨o', ho', rfl⟩ := List.mem_map.1 ho; exact (hv o' ho').1) p φ p0 p1

/-- C81. One polynomial, with coefficients in units of length and (possibly) different wavelengths, apertures and pixel sizes. -/
theorem single_kernel_sensitivity (h h' : List Call) (fuel : Nat) (j1 : ℝ → ℝ) (o : PolObj) (hv : ValidOrders o.m o.n) (hf : o.n.toNat + 1 < fuel) (coeff coeff' : ℝ)
    (q q' : KernelParams) (hR : 2 ≤ q.nR) (hPhi : 0 < q.nPhi) (hopt : OpticsOk q) (hopt' : OpticsOk q')
    (hsame : q'.nR = q.nR ∧ q'.nPhi = q.nPhi ∧ q'.kernelSize = q.kernelSize) (hn : q.normalize = false ∧ q'.normalize = false) (h3 : 3 ≤ q.kernelSize) (S : ℕ)
    (hS : OddSize q.kernelSize S) :
    ∃ g g', (getPsfKernel fuel j1 o coeff q false (afterCalls h)).1 = .ok g ∧ (getPsfKernel fuel j1 o coeff' q' false (afterCalls h')).1 = .ok g' ∧
      ∀ i j, i < S → j < S → |g.entry i j - g'.entry i j| ≤ 2 * (|coeff / q.wavelength - coeff' / q'.wavelength| * Spec.norm o.m o.n +
        |opticalScale q.wavelength q.NA q.len2pixels - opticalScale q'.wavelength q'.NA q'.len2pixels| * pixelOffset S i j) := by
  obtain ⟨s1, s2, s3⟩ := hsame
  obtain ⟨g, e, hg⟩ := kernel_samples_psf h fuel j1 o hv hf coeff q hR hPhi hopt h3 S hS
  obtain ⟨g', e', hg'⟩ := kernel_samples_psf h' fuel j1 o hv hf coeff' q' (by omega) (by omega) hopt' (by omega) S (by rw [s3]; exact hS)
  refine ⟨g, g', e, e', ?_⟩
  rw [hn.1] at hg
  rw [hn.2, s1, s2] at hg'
  refine (kernel_sensitive false S _ _ g g' hg hg' _ fun i j _ _ => pixel_sensitive _ _ _ _ _ S q.nR.toNat q.nPhi.toNat i j (by omega) (by omega) fun p φ p0 p1 => ?_).1 rfl
  rw [← sub_mul, abs_mul]
  exact mul_le_mul_of_nonneg_left (zernike_le o.m o.n hv φ p0 p1) (abs_nonneg _)

/-- C81. Normalised kernels: with `u` the kernel of the first parameters that is not normalised and `top` its greatest element, a change of every pixel of the PSF by at most `e < top` changes
the normalised kernel by at most `2 e / top`. -/
theorem normalized_kernel_sensitivity (h h' : List Call) (fuel : Nat) (cs ds : List ℝ) (os : List PolObj) (hl : cs.length = os.length) (hl' : ds.length = os.length) (h0 : os ≠ [])
    (hv : PolsOk fuel os) (q q' : KernelParams) (hR : 2 ≤ q.nR) (hPhi : 0 < q.nPhi) (hopt : OpticsOk q) (hopt' : OpticsOk q')
    (hsame : q'.nR = q.nR ∧ q'.nPhi = q.nPhi ∧ q'.kernelSize = q.kernelSize) (hn : q.normalize = true ∧ q'.normalize = true) (S : ℕ)
    (hS : OddSize q.kernelSize S) :
    ∃ u g g', (getPsfKernelZerns fuel (cs.zip os) { q with normalize := false } (afterCalls h)).1 = .ok u ∧
      (getPsfKernelZerns fuel (cs.zip os) q (afterCalls h)).1 = .ok g ∧ (getPsfKernelZerns fuel (ds.zip os) q' (afterCalls h')).1 = .ok g' ∧
      ∀ top e, IsMax u S top → (∀ i j, i < S → j < S → 2 * (amplitudeDistance cs ds (ordersOf os) +
        |opticalScale q.wavelength q.NA q.len2pixels - opticalScale q'.wavelength q'.NA q'.len2pixels| * pixelOffset S i j) ≤ e) → e < top →
        ∀ i j, i < S → j < S → |g.entry i j - g'.entry i j| ≤ 2 * e / top := by
  obtain ⟨s1, s2, s3⟩ := hsame
  obtain ⟨u, eu, hu⟩ := kernel_samples_psf_sum h fuel cs os hl h0 hv { q with normalize := false } hR hPhi hopt S hS
  obtain ⟨g, e, hg⟩ := kernel_samples_psf_sum h fuel cs os hl h0 hv q hR hPhi hopt S hS
  obtain ⟨g', e', hg'⟩ := kernel_samples_psf_sum h' fuel ds os hl' h0 hv q' (by omega) (by omega) hopt' S (by rw [s3]; exact hS)
  refine ⟨u, g, g', eu, e, e', ?_⟩
  rw [hn.1] at hg
  rw [hn.2, s1, s2] at hg'
  simp only [KernelOf, Bool.false_eq_true, if_false] at hu
  intro top x htop hx hxt i j hi hj
  have x0 : 0 ≤ x := by
    refine le_trans ?_ (hx i j hi hj)
    have : 0 ≤ amplitudeDistance cs ds (ordersOf os) := List.sum_nonneg fun y hy => by
      obtain ⟨t, _, rfl⟩ := List.mem_map.1 hy
      exact mul_nonneg (abs_nonneg _) (Real.sqrt_nonneg _)
    have : 0 ≤ pixelOffset S i j := Real.sqrt_nonneg _
    positivity
  refine (kernel_sensitive true S _ _ g g' hg hg' _ fun i j _ _ => pixel_sensitive _ _ _ _ _ S q.nR.toNat q.nPhi.toNat i j (by omega) (by omega) fun p φ p0 p1 => ?_).2 rfl
    (fun i j hi hj => ⟨(pixelPsf_mem _ _ _ _ _ _ _ (by omega) (by omega)).1, (pixelPsf_mem _ _ _ _ _ _ _ (by omega) (by omega)).1⟩) top x (by linarith) hx ?_ ?_ hxt i j hi hj
  · exact combination_distance cs ds _ (hl.trans hl'.symm) (fun o ho => by obtain ⟨o', ho', rfl⟩ := List.mem_map.1 ho; exact (hv o' ho').1) p φ p0 p1
  · obtain ⟨⟨a, b, ha, hb, hab⟩, _⟩ := htop
    exact ⟨a, b, ha, hb, by rw [← hab, hu.2.2 a b ha hb]⟩
  · intro a b ha hb
    have := htop.2 a b ha hb
    rwa [hu.2.2 a b ha hb] at this

/-- Vertical coma and spherical aberration with amplitudes that differ by 0.001 wavelengths each, 9 × 9 pixels: the kernels differ by less than 0.011. -/
example : ∃ g g', (getPsfKernelZerns 10 ([0.3, 0.2].zip [⟨-1, 3, false⟩, ⟨0, 4, false⟩]) ⟨0.11, 0.55, 0.95, 320, 300, false, 9⟩ (afterCalls [])).1 = .ok g ∧
    (getPsfKernelZerns 10 ([0.301, 0.199].zip [⟨-1, 3, false⟩, ⟨0, 4, false⟩]) ⟨0.11, 0.55, 0.95, 320, 300, false, 9⟩ (afterCalls [])).1 = .ok g' ∧
    ∀ i j, i < 9 → j < 9 → |g.entry i j - g'.entry i j| ≤ 0.011 := by
  obtain ⟨g, g', e, e', hb⟩ := kernel_sensitivity [] [] 10 [0.3, 0.2] [0.301, 0.199] [⟨-1, 3, false⟩, ⟨0, 4, false⟩] rfl rfl (by simp)
    (by intro o ho; fin_cases ho <;> exact ⟨by decide, by decide⟩) ⟨0.11, 0.55, 0.95, 320, 300, false, 9⟩ ⟨0.11, 0.55, 0.95, 320, 300, false, 9⟩ (by norm_num) (by norm_num)
    ⟨by norm_num, by norm_num⟩ ⟨by norm_num, by norm_num⟩ ⟨rfl, rfl, rfl⟩ ⟨rfl, rfl⟩ 9 ⟨by decide, Or.inl rfl⟩
  refine ⟨g, g', e, e', fun i j hi hj => (hb i j hi hj).trans ?_⟩
  have s1 : Spec.norm (-1) 3 ≤ 3 := by
    unfold Spec.norm
    rw [Real.sqrt_le_left (by norm_num)]
    norm_num
  have s2 : Spec.norm 0 4 ≤ 2.5 := by
    unfold Spec.norm
    rw [Real.sqrt_le_left (by norm_num)]
    norm_num
  have a1 : |(0.3 : ℝ) - 0.301| = 0.001 := by norm_num [abs_of_neg]
  have a2 : |(0.2 : ℝ) - 0.199| = 0.001 := by norm_num [abs_of_pos]
  simp only [amplitudeDistance, ordersOf, List.map_cons, List.map_nil, List.zip_cons_cons, List.zip_nil_right, List.sum_cons, List.sum_nil, sub_self, abs_zero, zero_mul, add_zero, a1, a2]
  norm_num at *
  linarith

end Verif.Props
