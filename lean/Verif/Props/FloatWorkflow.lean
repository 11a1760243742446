import Verif.Model.FloatWorkflow
import Verif.Props.FloatKernelSize
import Verif.Props.FloatPsfSum
import Verif.Props.FloatNumba
import Verif.Props.FloatSurface
import Verif.Props.Sensitivity
import Verif.Props.Workflow

/-!
# C111: from the calls of a user to the physics, in double precision
-/

namespace Verif.Props
open Verif.Model Verif.Spec Verif.Proofs

/-- A library function `J_1` with a small error; for the zeros and the large arguments an absolute one, near 0 a relative one. -/
def BesselAccurate (j1 : ℝ → ℝ) : Prop := ∀ x, |x| ≤ 2000 → |j1 x - besselJ1 x| ≤ |x| / 2 ^ 40

theorem airy_exact_ratio {x : ℝ} (hx : x ≠ 0) : 4 * (besselJ1 x / x) ^ 2 = exactPsf (fun _ _ => 0) x 0 := by
  have hs : Real.sqrt (x ^ 2 + 0 ^ 2) = |x| := by rw [← Real.sqrt_sq_eq_abs]; simp
  rw [exactPsf_airy 0 x 0 (fun h => hx h.1), hs]
  have hneg : besselJ1 (-x) = -besselJ1 x := by
    rw [j1_sin, j1_sin]
    simp [neg_mul, Real.sin_neg, intervalIntegral.integral_neg]
  rcases abs_choice x with h | h <;> rw [h]
  rw [hneg, neg_div_neg_eq]

/-- The value from an accurate `J_1`, divided and squared with roundings. -/
theorem airy_ratio_double (s : List ℝ → ℝ) (hs : Sums s) {j1 : ℝ → ℝ} (hj : BesselAccurate j1) {x : ℝ} (hx : x ≠ 0) (h2 : |x| ≤ 2000) :
    |binary64 (4 * (psfDoubles s).sq (binary64 (j1 x / x))) - exactPsf (fun _ _ => 0) x 0| ≤ 5 / 10 ^ 12 := by
  have hF := psfDoubles_accurate s hs.1 hs.2
  rw [← airy_exact_ratio hx]
  obtain ⟨ρ, hρ⟩ : ∃ ρ, ρ = besselJ1 x / x := ⟨_, rfl⟩
  have hρ1 : |ρ| ≤ 1 / 2 := by
    have h1 : 4 * ρ ^ 2 ≤ 1 := by
      rw [hρ, airy_exact_ratio hx]; exact exactPsf_const_le _ _ _
    exact abs_le_of_sq_le_sq (by nlinarith) (by norm_num)
  obtain ⟨t, ht⟩ : ∃ t, t = j1 x / x := ⟨_, rfl⟩
  have e1 : |t - ρ| ≤ 1 / 2 ^ 40 := by
    rw [ht, hρ, ← sub_div, abs_div, div_le_iff₀ (abs_pos.2 hx), one_div_mul_eq_div]
    exact hj x h2
  rw [← hρ, ← ht]
  have u0 : (2⁻¹ : ℝ) ^ 53 ≤ 1 / 2 ^ 50 := by norm_num
  have t1 : |t| ≤ 1 := by
    have := abs_sub_abs_le_abs_sub t ρ
    norm_num at e1 hρ1 ⊢
    linarith
  have e2 : |binary64 t - t| ≤ 1 / 2 ^ 50 := by
    refine (binary64_error t).trans ?_
    rw [max_eq_right t1, mul_one]; exact u0
  obtain ⟨v, hv⟩ : ∃ v, v = binary64 t := ⟨_, rfl⟩
  rw [← hv] at e2 ⊢
  have v1 : |v - ρ| ≤ 1 / 2 ^ 40 + 1 / 2 ^ 50 := by
    have := abs_sub_le v t ρ
    linarith
  have v2 : |v| ≤ 51 / 100 := by
    have := abs_sub_abs_le_abs_sub v ρ
    norm_num at v1 hρ1 ⊢
    linarith
  have v3 : v ^ 2 ≤ 1 := by
    have := sq_le_sq' (by linarith [neg_abs_le v, abs_nonneg v, v2] : -(51 / 100) ≤ v) ((le_abs_self v).trans v2)
    norm_num at this ⊢
    linarith
  have e3 : |(psfDoubles s).sq v - v ^ 2| ≤ 1 / 2 ^ 50 := by
    refine (hF.sq v).trans ?_
    have : max (v ^ 2) ((2⁻¹ : ℝ) ^ 1022) ≤ 1 := max_le v3 (pow_le_one₀ (by norm_num) (by norm_num))
    have h0 : (0 : ℝ) ≤ (1 + 2⁻¹ ^ 53) ^ 1 - 1 := by norm_num
    refine (mul_le_mul_of_nonneg_left this h0).trans ?_
    norm_num
  obtain ⟨w, hw⟩ : ∃ w, w = (psfDoubles s).sq v := ⟨_, rfl⟩
  rw [← hw] at e3 ⊢
  have w1 : |4 * w| ≤ 5 := by
    rw [abs_le] at e3 ⊢
    have := sq_nonneg v
    norm_num at e3 ⊢
    constructor <;> linarith
  have e4 : |binary64 (4 * w) - 4 * w| ≤ 5 / 2 ^ 50 := by
    refine (binary64_error _).trans ?_
    have : max |4 * w| 1 ≤ 5 := max_le w1 (by norm_num)
    refine (mul_le_mul u0 this (by positivity) (by positivity)).trans (by norm_num)
  have e5 : |v ^ 2 - ρ ^ 2| ≤ 101 / 100 * (1 / 2 ^ 40 + 1 / 2 ^ 50) := by
    rw [show v ^ 2 - ρ ^ 2 = (v + ρ) * (v - ρ) by ring, abs_mul]
    refine mul_le_mul ?_ v1 (abs_nonneg _) (by norm_num)
    have := abs_add_le v ρ
    linarith
  rw [abs_le] at e3 e4 e5 ⊢
  norm_num at e3 e4 e5 ⊢
  constructor <;> linarith

theorem round12_double (s : List ℝ → ℝ) {d : ℝ} (hd : |d| ≤ 1001) : |fltRound (psfDoubles s) 12 d - d| ≤ 8 / 10 ^ 13 := by
  have e : fltRound (psfDoubles s) 12 d = binary64 ((rint (binary64 (d * 1000000000000)) : ℝ) / 1000000000000) := by
    unfold fltRound
    rw [if_pos (by norm_num), show (10 : ℝ) ^ (12 : ℤ) = 1000000000000 by norm_num]
    rfl
  rw [e]
  have u0 : (0 : ℝ) ≤ 2⁻¹ ^ 53 := by positivity
  have h1 : |binary64 (d * 1000000000000) - d * 1000000000000| ≤ 12 / 100 := by
    refine (binary64_error _).trans ?_
    have : max |d * 1000000000000| 1 ≤ 1001000000000000 := by
      rw [abs_mul, abs_of_pos (show (0 : ℝ) < 1000000000000 by norm_num)]
      exact max_le (by linarith) (by norm_num)
    refine (mul_le_mul_of_nonneg_left this u0).trans ?_
    norm_num
  have h2 := rint_near (binary64 (d * 1000000000000))
  obtain ⟨k, hk⟩ : ∃ k : ℝ, k = (rint (binary64 (d * 1000000000000)) : ℝ) := ⟨_, rfl⟩
  rw [← hk] at h2 ⊢
  have h3 : |k / 1000000000000 - d| ≤ 62 / 10 ^ 14 := by
    rw [abs_le] at h1 h2 ⊢
    constructor
    · rw [le_sub_iff_add_le, le_div_iff₀ (by norm_num)]; norm_num at h1 h2 ⊢; linarith
    · rw [sub_le_iff_le_add, div_le_iff₀ (by norm_num)]; norm_num at h1 h2 ⊢; linarith
  have h4 : |binary64 (k / 1000000000000) - k / 1000000000000| ≤ 12 / 10 ^ 14 := by
    refine (binary64_error _).trans ?_
    have : max |k / 1000000000000| 1 ≤ 1002 := by
      refine max_le ?_ (by norm_num)
      have := abs_sub_abs_le_abs_sub (k / 1000000000000) d
      norm_num at h3 hd this ⊢
      linarith
    refine (mul_le_mul_of_nonneg_left this u0).trans ?_
    norm_num
  have := abs_sub_le (binary64 (k / 1000000000000)) (k / 1000000000000) d
  norm_num at h3 h4 ⊢
  linarith

/-- The Airy pattern in double precision, at a distance `d` that is itself rounded. -/
theorem airyRef_double (s : List ℝ → ℝ) (hs : Sums s) {j1 : ℝ → ℝ} (hj : BesselAccurate j1) {d r : ℝ} (hr : |r| ≤ 1000) (hd : |d - r| ≤ 8 / 10 ^ 13) :
    |fltAiryRef (psfDoubles s) j1 d - exactPsf (fun _ _ => 0) r 0| ≤ 1 / 10 ^ 10 := by
  have hd1 : |d| ≤ 1001 := by
    have := abs_sub_abs_le_abs_sub d r
    norm_num at hd ⊢
    linarith
  have hx := round12_double s hd1
  unfold fltAiryRef
  dsimp only
  obtain ⟨x, hxe⟩ : ∃ x, x = fltRound (psfDoubles s) 12 d := ⟨_, rfl⟩
  rw [← hxe] at hx ⊢
  have hxr : |x - r| ≤ 16 / 10 ^ 13 := by
    have := abs_sub_le x d r
    norm_num at hx hd ⊢
    linarith
  have key : ∀ y, y ≠ 0 → |y - r| ≤ 117 / 10 ^ 13 → |(psfDoubles s).fl (4 * (psfDoubles s).sq ((psfDoubles s).fl (j1 y / y))) - exactPsf (fun _ _ => 0) r 0| ≤ 1 / 10 ^ 10 := by
    intro y hy0 hy
    have y2 : |y| ≤ 2000 := by
      have := abs_sub_abs_le_abs_sub y r
      norm_num at hy ⊢
      linarith
    have h1 := airy_ratio_double s hs hj hy0 y2
    have h2 := exactPsf_lipschitz y r
    have h3 := abs_sub_le (binary64 (4 * (psfDoubles s).sq (binary64 (j1 y / y)))) (exactPsf (fun _ _ => 0) y 0) (exactPsf (fun _ _ => 0) r 0)
    refine h3.trans ?_
    norm_num at h1 hy ⊢
    linarith
  by_cases h : x = 0
  · rw [if_pos h]
    rw [h] at hxr
    have hy := binary64_rel (1e-11)
    have hm : max |(1e-11 : ℝ)| (2⁻¹ ^ 1022) = 1e-11 := by
      rw [abs_of_pos (by norm_num)]
      refine max_eq_left ((pow_le_pow_of_le_one (by norm_num) (by norm_num) (show 40 ≤ 1022 by norm_num)).trans (by norm_num))
    rw [hm] at hy
    have hy' : |binary64 1e-11 - 1e-11| ≤ 1 / 10 ^ 24 := hy.trans (by norm_num)
    refine key (binary64 1e-11) ?_ ?_
    · intro h0
      rw [h0] at hy'
      norm_num at hy'
    · rw [abs_le] at hy' hxr ⊢
      norm_num at hy' hxr ⊢
      constructor <;> linarith
  · rw [if_neg h]
    refine key x h (hxr.trans (by norm_num))

/-- C111. The kernel of the piston in double precision: within `10⁻¹⁰` of the exact diffraction integral of the ideal system. -/
theorem airy_kernel_double (s : List ℝ → ℝ) (hs : Sums s) {j1 : ℝ → ℝ} (hj : BesselAccurate j1) (h : List Call) (q : KernelParams) (hopt : FloatOptics q) (S : ℕ)
    (hS : OddSize q.kernelSize S) (hr : opticalScale q.wavelength q.NA q.len2pixels * S ≤ 1000) (hnorm : q.normalize = false) :
    ∃ g, (fltAiryKernel (psfDoubles s) j1 q (afterCalls h)).1 = .ok g ∧
      KernelWithin (1 / 10 ^ 10) S (exactPixel (fun _ _ => 0) (opticalScale q.wavelength q.NA q.len2pixels) S) g := by
  have hF := psfDoubles_accurate s hs.1 hs.2
  obtain ⟨o1, o2, o3, o4⟩ := hopt
  unfold fltAiryKernel
  rw [if_neg o1.ne', hnorm]
  simp only [oddSize_makeOdd hS]
  refine afterCalls_retP ?_ h
  have hS1 := hS.1
  have hpix : ∀ i j, i < (S : Int).toNat → j < (S : Int).toNat →
      RetP (pure (fltAiryRef (psfDoubles s) j1 (fltKernelDist (psfDoubles s) S ((psfDoubles s).fl ((psfDoubles s).fl (2 * (psfDoubles s).pi) / q.wavelength)) q.NA q.len2pixels i j)) : CM ℝ)
        fun v => |v - exactPixel (fun _ _ => 0) (opticalScale q.wavelength q.NA q.len2pixels) S i j| ≤ 1 / 10 ^ 10 := by
    intro i j hi hj'
    have hd := dist_er hF o1 o2 o3 o4 (R := 1000) (by norm_num) S (by omega) (by exact_mod_cast hr) i j hi hj'
    refine retP_pure _ ?_
    have hd2 := hd.2.trans (show ((1 + (2⁻¹ : ℝ) ^ 53) ^ 7 - 1) * 1000 ≤ 8 / 10 ^ 13 by norm_num)
    have := airyRef_double s hs hj hd.1 hd2
    unfold exactPixel
    rw [exactPsf_radial 0 _ _ (kernelDist S (2 * Real.pi / q.wavelength) q.NA q.len2pixels i j) 0]
    · exact this
    · have hs : (((S : Int) / 2 : Int) : ℝ) = ((S : ℝ) - 1) / 2 := by
        obtain ⟨k, hk⟩ : ∃ k, S = 2 * k + 1 := ⟨S / 2, by omega⟩
        subst hk
        rw [show (((2 * k + 1 : ℕ) : Int) / 2 : Int) = (k : Int) by omega]
        push_cast; ring
      unfold kernelDist opticalScale
      rw [hs, mul_pow _ (Real.sqrt _), Real.sq_sqrt (by positivity)]
      ring
  have := fltKernel_raw (F := psfDoubles s) S (by omega) q.NA (lt_of_lt_of_le (by positivity) o3).ne' _ _ (1 / 10 ^ 10) hpix
  simp only [Int.toNat_natCast] at this
  exact this

/-- An object for one polynomial (with the Airy pattern for the piston), or for several. -/
def MadeFor (o : PsfObj) : Prop := (∃ z, o.zernpol = some z ∧ o.polynomials = [] ∧ o.airy = z.isPiston) ∨ (o.zernpol = none ∧ 2 ≤ o.polynomials.length)

/-- After `set_physical_props`: the given values are stored, the amplitudes are rounded quotients, the rest is the same. -/
structure Stored64 (o o₁ : PsfObj) (newNA newWl newPx : ℝ) (values : List ℝ) : Prop where
  NA : o₁.NA = newNA
  wavelength : o₁.wavelength = newWl
  pixelSize : o₁.pixelSize = newPx
  propsSet : o₁.propsSet = true
  zernpol : o₁.zernpol = o.zernpol
  polynomials : o₁.polynomials = o.polynomials
  airy : o₁.airy = o.airy
  single : o.zernpol ≠ none → values = [o₁.expansionCoeff]
  several : o.zernpol = none → o₁.amplitudes = some (values.map fun x => binary64 (x / newWl))

/-- C111. In double precision, physically allowed properties are accepted, and stored. -/
theorem set_physical_props_double (o : PsfObj) (hm : MadeFor o) (hv : ∀ z ∈ psfPols o, ValidOrders z.m z.n ∧ z.n ≤ 2 ^ 40) (NA wl px : ℝ)
    (hd : DoubleProps NA wl px) (hp : PhysicalOk NA wl px) (c : CoeffArg) (hc : CoeffFits (psfPols o).length c) (dc : ∀ x ∈ coeffValues c, binary64 x = x) :
    ∃ o₁, o.setPhysicalProps64 NA wl c px = (.ok (), o₁) ∧ Stored64 o o₁ NA wl px (coeffValues c) := by
  have hch := (checks_double hd).1 hp
  have hch0 := hch
  obtain ⟨c1, c2, c3, c4, c5⟩ := hch
  rcases hm with ⟨z, hz, hps, hai⟩ | ⟨hz, hb⟩
  · have hpols : psfPols o = [z] := by simp [psfPols, hz]
    rw [hpols] at hc hv
    obtain ⟨x, hx⟩ : ∃ x, coeffValues c = [x] := by
      cases c with
      | num x => exact ⟨x, rfl⟩
      | seq l => exact List.length_eq_one_iff.1 hc
      | bad e => exact hc.elim
    have hvz := hv z (by simp)
    obtain ⟨o', ho'⟩ := (estimated_size_double o z hz hvz.1 hvz.2 NA wl px x hd (dc x (by rw [hx]; simp))).1 hp
    have hS := (set64_num hz ho').2
    obtain ⟨S, hSe⟩ : ∃ S, S = o'.kernelSize := ⟨_, rfl⟩
    rw [← hSe] at hS
    have hst : ∀ o' : PsfObj, o'.zernpol = some z → o'.polynomials = [] → o'.storeCoeff64 c = (.ok (), o'.storeOne64 x) := by
      intro o' h1 h2
      cases c with
      | num y =>
        obtain rfl : y = x := by simpa [coeffValues] using hx
        simp [PsfObj.storeCoeff64, h1]
      | seq l =>
        obtain rfl : l = [x] := hx
        simp [PsfObj.storeCoeff64, h2]
      | bad e => exact hc.elim
    unfold PsfObj.setPhysicalProps64
    rw [if_neg (by push Not; exact ⟨c1.le, c2⟩), if_neg (not_le.2 c3)]
    simp only
    rw [if_neg c1.ne', if_neg (not_le.2 c4), if_neg (not_lt.2 c5)]
    simp only [hst, hz, hps, PsfObj.estimateSize64, PsfObj.storeOne64, hS]
    exact ⟨_, rfl, rfl, rfl, rfl, rfl, hz.symm, hps.symm, rfl, fun _ => hx, fun h => by rw [hz] at h; simp at h⟩
  · have hpols : psfPols o = o.polynomials := by simp [psfPols, hz]
    rw [hpols] at hc hv
    obtain ⟨l, rfl⟩ : ∃ l, c = .seq l := by
      cases c with
      | num y => exact absurd hc (by unfold CoeffFits; omega)
      | seq l => exact ⟨l, rfl⟩
      | bad e => exact hc.elim
    have hl : l.length = o.polynomials.length := hc
    obtain ⟨r, _, _, T, hr, _⟩ := sizeLoop64_between NA wl px hd (checks_two hch0) c4 o.polynomials l hl hv dc 0 0 0 0 le_rfl le_rfl le_rfl
    rw [binary64_zero] at hr
    obtain ⟨p, ps, hps⟩ : ∃ p ps, o.polynomials = p :: ps := by
      cases hq : o.polynomials with
      | nil => rw [hq] at hb; simp at hb
      | cons p ps => exact ⟨p, ps, rfl⟩
    obtain ⟨t, ht⟩ : ∃ t, npMax l = .ok t := by
      cases l with
      | nil => rw [hps] at hl; simp at hl
      | cons a l => exact ⟨_, rfl⟩
    unfold PsfObj.setPhysicalProps64
    rw [if_neg (by push Not; exact ⟨c1.le, c2⟩), if_neg (not_le.2 c3)]
    simp only
    rw [if_neg c1.ne', if_neg (not_le.2 c4), if_neg (not_lt.2 c5)]
    simp only [PsfObj.storeCoeff64, hl, ne_eq, not_true_eq_false, if_false, ht, PsfObj.estimateSize64, hz]
    rw [hps] at hr
    simp only [hps, Option.getD_some, hr, bind, Except.bind, pure, Except.pure]
    exact ⟨_, rfl, rfl, rfl, rfl, rfl, hz.symm, hps.symm, rfl, fun h => absurd hz h, fun _ => rfl⟩

/-- C93. Several polynomials, accelerated, in double precision with functions accurate to about 8 units: each pixel has an error below 2·10⁻⁷. -/
theorem accelerated_sum_double_error (F : PsfArith) (hF : PsfAccurate F ((2⁻¹ : ℝ) ^ 53) ((2⁻¹ : ℝ) ^ 1022) 8) (h : List Call) (cs : List ℝ) (os : List PolObj)
    (hl : cs.length = os.length) (h0 : os ≠ []) (ho : ∀ o ∈ os, Accelerable o) (hL : os.length ≤ 66) (hc : (cs.map abs).sum ≤ 1) (q : KernelParams) (hopt : FloatOptics q)
    (hpt : FloatPoints F q 320 300) (S : ℕ) (hS : OddSize q.kernelSize S) (hr : opticalScale q.wavelength q.NA q.len2pixels * S ≤ 1000) (hnorm : q.normalize = false) :
    ∃ g, (fltPsfKernelCompPols F (cs.zip os) q (afterCalls h)).1 = .ok g ∧ g.rows = S ∧ g.cols = S ∧ ∀ i j, i < S → j < S →
      |g.entry i j - pixelPsf (combination cs (ordersOf os)) (opticalScale q.wavelength q.NA q.len2pixels) S 320 300 i j| < 19 / 10 ^ 8 := by
  have hη1 : (2⁻¹ : ℝ) ^ 1022 ≤ 1 / 1000 :=
    (pow_le_pow_of_le_one (by norm_num) (by norm_num) (show 10 ≤ 1022 by norm_num)).trans (by norm_num)
  obtain ⟨g, e, r, c, b⟩ := accelerated_sum_float_error F _ _ _ hF h cs os hl h0 ho 10 (fun o hx => by exact_mod_cast (ho o hx).2.1) q hopt 320 300 hpt S hS 1000 (by norm_num) hr hnorm
  refine ⟨g, e, r, c, fun i j hi hj => ?_⟩
  have b := b i j hi hj
  have hu := hF.basic.unit
  have hZ : ∀ o ∈ os, 0 ≤ zernikeSize o.m o.n ∧ zernikeSize o.m o.n ≤ 4.7 * (7 * max ((10 : ℕ) : ℝ) 1 + (10 : ℕ)) * growth 10 := by
    intro o hx
    have hv' := (valid_iff o.m o.n).1 (ho o hx).1
    refine ⟨?_, zernikeSize_le o.m o.n (ho o hx).1 10 (by exact_mod_cast (ho o hx).2.1) 4.7 (by norm_num) (by norm_num)⟩
    have := (norm_one o.m o.n hv'.1).trans (zernikeSize_ge o.m o.n hv'.1)
    linarith
  have hsz := phaseSize_le cs os hl hL hc _ hη1 _ (by positivity) hZ
  have hsz0 : 0 ≤ ((cs.zip os).map fun x => max |x.1| ((2⁻¹ : ℝ) ^ 1022) * zernikeSize x.2.m x.2.n).sum := by
    refine List.sum_nonneg fun y hy => ?_
    obtain ⟨x, hx, rfl⟩ := List.mem_map.1 hy
    exact size_nonneg x.2 (ho _ (List.of_mem_zip hx).2).1 _ _ hF.eta_pos
  refine (b.trans (pixelError_mono hu 8 320 300 (K' := 150) (by omega) hsz le_rfl hsz0 (by norm_num))).trans_lt ?_
  rw [growth_10]
  unfold pixelError
  exact double_error_8 (by norm_num) (by norm_num)

/-- Rounded amplitudes: their sum, and their distance from the exact ones. -/
theorem rounded_amplitudes (l : List ℝ) (wl : ℝ) (orders : List (Int × Int)) (hv : ∀ o ∈ orders, ValidOrders o.1 o.2 ∧ o.2 ≤ 10) (hL : l.length ≤ 66)
    (hsum : ((l.map fun x => |x / wl|).sum) ≤ 0.99) :
    ((l.map fun x => binary64 (x / wl)).map abs).sum ≤ 1 ∧ amplitudeDistance (l.map fun x => binary64 (x / wl)) (l.map fun x => x / wl) orders ≤ 1 / 10 ^ 9 := by
  have hle : ∀ x ∈ l, |x / wl| ≤ 1 := by
    intro x hx
    have := List.single_le_sum (l := l.map fun x => |x / wl|) (by
      intro y hy
      obtain ⟨z, _, rfl⟩ := List.mem_map.1 hy
      exact abs_nonneg _) _ (List.mem_map_of_mem hx)
    norm_num at hsum this ⊢
    linarith
  have herr : ∀ x ∈ l, |binary64 (x / wl) - x / wl| ≤ 1 / 2 ^ 50 := by
    intro x hx
    refine (binary64_error _).trans ?_
    rw [max_eq_right (hle x hx)]
    norm_num
  have hLR : (l.length : ℝ) ≤ 66 := by exact_mod_cast hL
  constructor
  · have key : ∀ l : List ℝ, (∀ x ∈ l, |binary64 (x / wl) - x / wl| ≤ 1 / 2 ^ 50) →
        ((l.map fun x => binary64 (x / wl)).map abs).sum ≤ (l.map fun x => |x / wl|).sum + l.length * (1 / 2 ^ 50) := by
      intro l
      induction l with
      | nil => intro _; simp
      | cons a l ih =>
        intro h
        have i := ih fun x hx => h x (List.mem_cons_of_mem _ hx)
        have j := h a (List.mem_cons_self ..)
        have k := abs_sub_abs_le_abs_sub (binary64 (a / wl)) (a / wl)
        simp only [List.map_cons, List.sum_cons, List.length_cons]
        push_cast
        linarith
    have := key l herr
    norm_num at hsum this ⊢
    linarith
  · unfold amplitudeDistance
    rw [List.zip_map']
    have hb : ∀ y ∈ ((l.map fun x => (binary64 (x / wl), x / wl)).zip orders).map fun t => |t.1.1 - t.1.2| * Spec.norm t.2.1 t.2.2, y ≤ 1 / 2 ^ 50 * 5 := by
      intro y hy
      obtain ⟨t, ht, rfl⟩ := List.mem_map.1 hy
      obtain ⟨h1, h2⟩ := List.of_mem_zip ht
      obtain ⟨x, hx, h3⟩ := List.mem_map.1 h1
      rw [← h3]
      have hv' := (valid_iff _ _).1 (hv _ h2).1
      exact mul_le_mul (herr x hx) (norm_le_five _ _ (hv _ h2).2 hv'.1) (zero_le_one.trans (norm_one _ _ hv'.1)) (by positivity)
    refine (List.sum_le_card_nsmul _ _ hb).trans ?_
    have hlen : ((((l.map fun x => (binary64 (x / wl), x / wl)).zip orders).map fun t => |t.1.1 - t.1.2| * Spec.norm t.2.1 t.2.2).length : ℝ) ≤ 66 := by
      have : (((l.map fun x => (binary64 (x / wl), x / wl)).zip orders).map fun t => |t.1.1 - t.1.2| * Spec.norm t.2.1 t.2.2).length ≤ l.length := by
        simp
      exact_mod_cast this.trans hL
    rw [nsmul_eq_mul]
    refine (mul_le_mul_of_nonneg_right hlen (by positivity)).trans ?_
    norm_num

/-- From the quadrature with rounded amplitudes to the diffraction integral with the exact ones. -/
theorem rounded_rate (l : List ℝ) (wl κ R e : ℝ) (orders : List (Int × Int)) (hv : ∀ o ∈ orders, ValidOrders o.1 o.2 ∧ o.2 ≤ 10) (hL : l.length ≤ 66)
    (hsum : ((l.map fun x => |x / wl|).sum) ≤ 0.99) (hκ : 0 ≤ κ) (S : ℕ) (hR : κ * S ≤ R) (g : Grid) (r : g.rows = S) (c : g.cols = S)
    (b : ∀ i j, i < S → j < S → |g.entry i j - pixelPsf (combination (l.map fun x => binary64 (x / wl)) orders) κ S 320 300 i j| < e) :
    KernelWithin (quadratureError (l.map fun x => x / wl) orders R 320 300 + (e + 1 / 10 ^ 8)) S (exactPixel (combination (l.map fun x => x / wl) orders) κ S) g := by
  refine ⟨r, c, fun i j hi hj => ?_⟩
  have h1 := b i j hi hj
  have h2 := pixel_sensitive (combination (l.map fun x => binary64 (x / wl)) orders) (combination (l.map fun x => x / wl) orders) κ κ (1 / 10 ^ 9) S 320 300 i j (by norm_num)
    (by norm_num) (fun p φ h0 h1 => (combination_distance _ _ _ (by simp) (fun o ho => (hv o ho).1) p φ h0 h1).trans (rounded_amplitudes l wl orders hv hL hsum).2)
  rw [sub_self, abs_zero, zero_mul, add_zero] at h2
  have h3 := pixel_rate (l.map fun x => x / wl) orders (fun o ho => (hv o ho).1) κ R S (by rwa [abs_of_nonneg hκ]) 320 300 (by norm_num) (by norm_num) i j hi hj
  have h4 := abs_sub_le (g.entry i j) (pixelPsf (combination (l.map fun x => binary64 (x / wl)) orders) κ S 320 300 i j) (pixelPsf (combination (l.map fun x => x / wl) orders) κ S 320 300 i j)
  have h5 := abs_sub_le (g.entry i j) (pixelPsf (combination (l.map fun x => x / wl) orders) κ S 320 300 i j) (exactPixel (combination (l.map fun x => x / wl) orders) κ S i j)
  norm_num at h2 ⊢
  linarith

theorem calculateFl_eq (F F' : PsfArith) (env : Env) (o : PsfObj) (hset : o.propsSet = true) (suppress normalized : Bool) (accelerated : Option Bool) (s : CoefState) (x : CM Grid)
    (hx : o.kernelCallFl F F' env normalized accelerated = some x) (g : Grid) (hg : (x s).1 = .ok g) :
    (o.calculateFl F F' env suppress normalized accelerated s).1 = .ok g ∧ (o.calculateFl F F' env suppress normalized accelerated s).2.1 = { o with kernel := g } := by
  unfold PsfObj.calculateFl
  simp only [hset, not_true_eq_false, false_and, if_false, hx]
  generalize x s = p at hg
  obtain ⟨r, s'⟩ := p
  simp only at hg
  subst hg
  exact ⟨rfl, rfl⟩

theorem fltGetPsfKernel_size (F : PsfArith) (fuel : Nat) (j1 : ℝ → ℝ) (o : PolObj) (coeff : ℝ) (q : KernelParams) (hw : q.wavelength ≠ 0) (h3 : 3 ≤ q.kernelSize) (airy : Bool)
    (s : CoefState) :
    fltGetPsfKernel F fuel j1 o coeff q airy s = (if airy then fltAiryKernel F j1 q else fltPsfKernel F fuel o coeff q) s := by
  unfold fltGetPsfKernel
  rw [if_neg hw, if_neg (by omega)]
  cases airy <;> rfl

/-- The arguments of the calls: doubles of ordinary size (`2⁻⁴⁰` and more), physically allowed, at most 66 polynomials up to the order 10, the coefficients together below 0.99 wavelengths,
the optical radius of the kernel at most 1000. -/
structure Ordinary (zs : List ZernPol) (NA wl px : ℝ) (c : CoeffArg) (S : ℕ) : Prop where
  doubles : DoubleProps NA wl px
  allowed : PhysicalOk NA wl px
  k_min : 1 / 2 ^ 40 ≤ 2 * Real.pi / wl
  NA_min : 1 / 2 ^ 40 ≤ NA
  px_min : 1 / 2 ^ 40 ≤ px
  fits : CoeffFits zs.length c
  coeffs : ∀ x ∈ coeffValues c, binary64 x = x
  together : ((coeffValues c).map fun x => |x / wl|).sum ≤ 0.99
  count : zs.length ≤ 66
  orders : ∀ z ∈ zs, z.n ≤ 10
  radius : opticalScale wl NA px * S ≤ 1000

/-- The compiled functions compute in double precision with functions accurate to about 8 units (the radial nodes are as in C68). -/
def CompiledDoubles (F : PsfArith) : Prop :=
  PsfAccurate F ((2⁻¹ : ℝ) ^ 53) ((2⁻¹ : ℝ) ^ 1022) 8 ∧ (radialNodes F.toFloatArith 320).length = 319 ∧ ∀ x ∈ radialNodes F.toFloatArith 320, 0 ≤ x ∧ x ≤ 1

/-- The kernel that is not normalised. -/
theorem workflow_double_raw (s : List ℝ → ℝ) (hs : Sums s) (F' : PsfArith) (hF' : CompiledDoubles F') (o : PsfObj) (hm : MadeFor o) (before : List Call)
    (env : Env) (hj : BesselAccurate env.j1) (accelerated : Option Bool) (hsup : ∀ z ∈ psfPols o, Supported env accelerated z)
    (NA wl px : ℝ) (c : CoeffArg) (size : Int) (h3 : 3 ≤ size) (S : ℕ) (hS : OddSize size S) (hord : Ordinary (psfPols o) NA wl px c S) :
    ∃ (o₁ o₂ : PsfObj) (g : Grid), o.setPhysicalProps64 NA wl c px = (.ok (), o₁) ∧ o₁.setCalculationProps size 320 300 = (.ok (), o₂) ∧ o₂.propsSet = true ∧
      (∃ x, o₂.kernelCallFl (psfDoubles s) F' env false accelerated = some x ∧ (x (afterCalls before)).1 = .ok g) ∧
      KernelWithin (quadratureError ((coeffValues c).map fun x => x / wl) (objectOrders o) (kernelRadius wl NA px S) 320 300 + 2 / 10 ^ 7) S
        (exactPixel (combination ((coeffValues c).map fun x => x / wl) (objectOrders o)) (opticalScale wl NA px) S) g := by
  obtain ⟨o₁, e1, st⟩ := set_physical_props_double o hm (fun z hz => ⟨(hsup z hz).1, (hord.orders z hz).trans (by norm_num)⟩) NA wl px hord.doubles hord.allowed c hord.fits hord.coeffs
  have e₂ : o₁.setCalculationProps size 320 300 = (.ok (), { o₁ with kernelSize := makeOdd size, nR := 320, nPhi := 300 }) := by
    unfold PsfObj.setCalculationProps
    rw [if_neg (by omega), if_neg (by omega), if_neg (by omega)]
  obtain ⟨o₂, ho₂⟩ : ∃ o₂ : PsfObj, o₂ = { o₁ with kernelSize := makeOdd size, nR := 320, nPhi := 300 } := ⟨_, rfl⟩
  rw [← ho₂] at e₂
  have hmk := oddSize_makeOdd hS
  have hS3 : 3 ≤ (S : Int) := by obtain ⟨h1, h2⟩ := hS; omega
  have f5 : o₂.zernpol = o.zernpol := by rw [ho₂]; exact st.zernpol
  have f6 : o₂.polynomials = o.polynomials := by rw [ho₂]; exact st.polynomials
  have f7 : o₂.propsSet = true := by rw [ho₂]; exact st.propsSet
  have f9 : o₂.airy = o.airy := by rw [ho₂]; exact st.airy
  have hq : o₂.params false = ⟨px, wl, NA, 320, 300, false, S⟩ := by
    rw [ho₂]
    unfold PsfObj.params
    simp only [st.NA, st.wavelength, st.pixelSize, hmk]
  have hSS : OddSize (S : Int) S := ⟨hS.1, Or.inl rfl⟩
  have hopt : FloatOptics ⟨px, wl, NA, 320, 300, false, S⟩ := ⟨hord.allowed.2.2.1, hord.k_min, hord.NA_min, hord.px_min⟩
  have hκ : 0 ≤ opticalScale wl NA px := by
    obtain ⟨a1, _, a3, a4, _⟩ := hord.allowed
    unfold opticalScale
    have := Real.pi_pos
    positivity
  have hpt : FloatPoints F' ⟨px, wl, NA, 320, 300, false, S⟩ 320 300 := ⟨rfl, rfl, by norm_num, by norm_num, by norm_num, by norm_num, hF'.2.1, hF'.2.2⟩
  have hwl : wl ≠ 0 := hord.allowed.2.2.1.ne'
  have hov : ∀ x ∈ objectOrders o, ValidOrders x.1 x.2 ∧ x.2 ≤ 10 := by
    intro x hx
    obtain ⟨z, hz, rfl⟩ := List.mem_map.1 hx
    exact ⟨(hsup z hz).1, hord.orders z hz⟩
  suffices hgoal : ∃ x g, o₂.kernelCallFl (psfDoubles s) F' env false accelerated = some x ∧ (x (afterCalls before)).1 = .ok g ∧
      KernelWithin (quadratureError ((coeffValues c).map fun x => x / wl) (objectOrders o) (kernelRadius wl NA px S) 320 300 + 2 / 10 ^ 7) S
        (exactPixel (combination ((coeffValues c).map fun x => x / wl) (objectOrders o)) (opticalScale wl NA px) S) g by
    obtain ⟨x, g, hx, hg, hk⟩ := hgoal
    exact ⟨o₁, o₂, g, e1, e₂, f7, ⟨x, hx, hg⟩, hk⟩
  have hrate : ∀ i j, i < S → j < S → |pixelPsf (combination ((coeffValues c).map fun x => x / wl) (objectOrders o)) (opticalScale wl NA px) S 320 300 i j -
      exactPixel (combination ((coeffValues c).map fun x => x / wl) (objectOrders o)) (opticalScale wl NA px) S i j| ≤
      quadratureError ((coeffValues c).map fun x => x / wl) (objectOrders o) (kernelRadius wl NA px S) 320 300 := fun i j hi hj =>
    pixel_rate _ _ (fun o ho => (hov o ho).1) _ _ S (by rw [abs_of_nonneg hκ]; rfl) 320 300 (by norm_num) (by norm_num) i j hi hj
  rcases hm with ⟨z, hz, hps, hai⟩ | ⟨hz, hb⟩
  · have hpols : psfPols o = [z] := by simp [psfPols, hz]
    have hsz := hsup z (by rw [hpols]; simp)
    have hnz := hord.orders z (by rw [hpols]; simp)
    have hval := st.single (by rw [hz]; simp)
    have hx2 : o₂.expansionCoeff = o₁.expansionCoeff := by rw [ho₂]
    rw [← hx2] at hval
    obtain ⟨x, hx⟩ : ∃ x, x = o₂.expansionCoeff := ⟨_, rfl⟩
    rw [← hx] at hval
    have hα : |x / wl| ≤ 1 := by
      have := hord.together
      rw [hval] at this
      norm_num at this ⊢
      linarith
    have hoo : objectOrders o = [(z.m, z.n)] := by rw [objectOrders, hpols]; rfl
    have hcall : o₂.kernelCallFl (psfDoubles s) F' env false accelerated =
        some (if env.accelerate accelerated then fltPsfKernelComp F' z.obj x ⟨px, wl, NA, 320, 300, false, S⟩
          else fltGetPsfKernel (psfDoubles s) env.fuel env.j1 z.obj x ⟨px, wl, NA, 320, 300, false, S⟩ z.isPiston) := by
      unfold PsfObj.kernelCallFl
      simp only [f5, hz, hq, ← hx, f9, hai]
    rw [hcall, hval, hoo]
    rw [hval, hoo] at hrate
    simp only [List.map_cons, List.map_nil, combination_one] at hrate ⊢
    by_cases hacc : env.accelerate accelerated = true
    · rw [if_pos hacc]
      have hA : Accelerable z.obj := by
        have := hsz.2
        rw [if_pos hacc] at this
        exact ⟨hsz.1, this.1, this.2⟩
      obtain ⟨g, e, r, cc, b⟩ := accelerated_double_error F' hF'.1 before z.obj hA x ⟨px, wl, NA, 320, 300, false, S⟩ hopt hpt hα S hSS hord.radius rfl
      refine ⟨_, g, rfl, e, r, cc, fun i j hi hj => ?_⟩
      have h1 := (b i j hi hj _ rfl).1
      have h2 := hrate i j hi hj
      have h4 := abs_sub_le (g.entry i j) (pixelPsf (fun p φ => x / wl * zernike z.m z.n p φ) (opticalScale wl NA px) S 320 300 i j)
        (exactPixel (fun p φ => x / wl * zernike z.m z.n p φ) (opticalScale wl NA px) S i j)
      have h5 : |g.entry i j - pixelPsf (fun p φ => x / wl * zernike z.m z.n p φ) (opticalScale wl NA px) S 320 300 i j| < 1 / 10 ^ 7 := h1
      norm_num at h5 ⊢
      linarith
    · rw [if_neg hacc]
      have hf : z.n.toNat + 1 < env.fuel := by
        have := hsz.2
        rwa [if_neg hacc] at this
      by_cases hpis : z.m = 0 ∧ z.n = 0
      · have hpi : z.isPiston = true := by simp [ZernPol.isPiston, hpis]
        obtain ⟨g, e, r, cc, b⟩ := airy_kernel_double s hs hj before ⟨px, wl, NA, 320, 300, false, S⟩ hopt S hSS hord.radius rfl
        refine ⟨_, g, rfl, ?_, r, cc, fun i j hi hj => ?_⟩
        · rw [fltGetPsfKernel_size _ _ _ _ _ _ hwl hS3, hpi, if_pos rfl]; exact e
        · have h1 := b i j hi hj
          have h2 := (abs_nonneg _).trans (hrate i j hi hj)
          have h3 : exactPixel (fun p φ => x / wl * zernike z.m z.n p φ) (opticalScale wl NA px) S i j = exactPixel (fun _ _ => 0) (opticalScale wl NA px) S i j := by
            have hΦ : (fun p φ => x / wl * zernike z.m z.n p φ) = fun _ _ => x / wl := by
              funext p φ
              rw [hpis.1, hpis.2]
              simp [zernike, Spec.radial, Spec.norm, angular]
            rw [hΦ]
            exact exactPsf_const _ _ _
          rw [h3]
          refine h1.trans ?_
          norm_num
          linarith
      · have hpi : z.isPiston = false := by simp [ZernPol.isPiston, hpis]
        obtain ⟨g, e, r, cc, b⟩ := kernel_double_vs_exact s hs before env.fuel z.obj hsz.1 hf hnz x ⟨px, wl, NA, 320, 300, false, S⟩ hopt rfl rfl hα S hSS (kernelRadius wl NA px S)
          hord.radius le_rfl rfl
        refine ⟨_, g, rfl, ?_, r, cc, fun i j hi hj => ?_⟩
        · rw [fltGetPsfKernel_size _ _ _ _ _ _ hwl hS3, hpi, if_neg (by simp)]; exact e
        · refine (b i j hi hj).trans ?_
          show quadratureError [x / wl] [(z.m, z.n)] (kernelRadius wl NA px S) 320 300 + 5 / 10 ^ 8 ≤ _
          norm_num
  · have hpols : psfPols o = o.polynomials := by simp [psfPols, hz]
    have hamp : o₂.amplitudes = some ((coeffValues c).map fun x => binary64 (x / wl)) := by rw [ho₂]; exact st.several hz
    have hlen : (coeffValues c).length = o.polynomials.length := by
      have := hord.fits
      rw [hpols] at this
      cases c with
      | num y => exact absurd this (by unfold CoeffFits; omega)
      | seq l => exact this
      | bad e => exact this.elim
    have hcount : o.polynomials.length ≤ 66 := by have := hord.count; rwa [hpols] at this
    obtain ⟨l, hl⟩ : ∃ l, l = coeffValues c := ⟨_, rfl⟩
    rw [← hl] at hlen hamp hrate ⊢
    have htog := hord.together
    rw [← hl] at htog
    obtain ⟨os, hos⟩ : ∃ os, os = o.polynomials.map ZernPol.obj := ⟨_, rfl⟩
    have hoo : objectOrders o = ordersOf os := by rw [hos, objectOrders, hpols]; simp [ordersOf, ZernPol.obj, Function.comp_def]
    have hol : os.length = o.polynomials.length := by rw [hos]; simp
    have hne : os ≠ [] := by intro h; rw [h] at hol; simp at hol; omega
    have hra := rounded_amplitudes l wl (objectOrders o) hov (by omega) htog
    have hcall : o₂.kernelCallFl (psfDoubles s) F' env false accelerated =
        some (if env.accelerate accelerated then fltPsfKernelCompPols F' ((l.map fun x => binary64 (x / wl)).zip os) ⟨px, wl, NA, 320, 300, false, S⟩
          else fltPsfKernelZerns (psfDoubles s) env.fuel ((l.map fun x => binary64 (x / wl)).zip os) ⟨px, wl, NA, 320, 300, false, S⟩) := by
      obtain ⟨p, ps, hpp⟩ : ∃ p ps, o.polynomials = p :: ps := by
        cases hq : o.polynomials with
        | nil => rw [hq] at hb; simp at hb
        | cons p ps => exact ⟨p, ps, rfl⟩
      unfold PsfObj.kernelCallFl
      simp only [f5, hz, f6, hpp, hamp, hq]
      rw [if_neg (by rw [hpp] at hlen; simp [hlen]), hos, hpp]
    rw [hcall]
    by_cases hacc : env.accelerate accelerated = true
    · rw [if_pos hacc]
      have hA : ∀ w ∈ os, Accelerable w := by
        intro w hw
        rw [hos] at hw
        obtain ⟨z, hz', rfl⟩ := List.mem_map.1 hw
        have := hsup z (by rw [hpols]; exact hz')
        have h2 := this.2
        rw [if_pos hacc] at h2
        exact ⟨this.1, h2.1, h2.2⟩
      obtain ⟨g, e, r, cc, b⟩ := accelerated_sum_double_error F' hF'.1 before (l.map fun x => binary64 (x / wl)) os (by simp [hlen, hol]) hne hA (by omega) hra.1
        ⟨px, wl, NA, 320, 300, false, S⟩ hopt hpt S hSS hord.radius rfl
      rw [← hoo] at b
      obtain ⟨k1, k2, k3⟩ := rounded_rate l wl (opticalScale wl NA px) (kernelRadius wl NA px S) _ (objectOrders o) hov (by omega) htog hκ S le_rfl g r cc b
      refine ⟨_, g, rfl, e, k1, k2, fun i j hi hj => (k3 i j hi hj).trans ?_⟩
      norm_num
    · rw [if_neg hacc]
      have hA : PolsOk env.fuel os ∧ ∀ w ∈ os, w.n ≤ 10 := by
        have : ∀ w ∈ os, (ValidOrders w.m w.n ∧ w.n.toNat + 1 < env.fuel) ∧ w.n ≤ 10 := by
          intro w hw
          rw [hos] at hw
          obtain ⟨z, hz', rfl⟩ := List.mem_map.1 hw
          have := hsup z (by rw [hpols]; exact hz')
          have h2 := this.2
          rw [if_neg hacc] at h2
          exact ⟨⟨this.1, h2⟩, hord.orders z (by rw [hpols]; exact hz')⟩
        exact ⟨fun w hw => (this w hw).1, fun w hw => (this w hw).2⟩
      obtain ⟨g, e, r, cc, b⟩ := kernel_sum_double_error s hs before env.fuel (l.map fun x => binary64 (x / wl)) os (by simp [hlen, hol]) hne hA.1 hA.2 (by omega) hra.1
        ⟨px, wl, NA, 320, 300, false, S⟩ hopt rfl rfl S hSS hord.radius rfl
      rw [← hoo] at b
      obtain ⟨k1, k2, k3⟩ := rounded_rate l wl (opticalScale wl NA px) (kernelRadius wl NA px S) _ (objectOrders o) hov (by omega) htog hκ S le_rfl g r cc b
      refine ⟨_, g, rfl, e, k1, k2, fun i j hi hj => (k3 i j hi hj).trans ?_⟩
      norm_num

/-- Normalising a kernel that is close to `w` with the greatest value `t`. -/
theorem normalize_close {F : PsfArith} {u η : ℝ} {p : ℕ} (hF : PsfAccurate F u η p) (S : ℕ) (w : ℕ → ℕ → ℝ) (E : ℝ) (g : Grid) (hg : KernelWithin E S w g)
    (hw : ∀ i j, 0 ≤ w i j) (t : ℝ) (ht : ∃ a b, a < S ∧ b < S ∧ w a b = t) (hmax : ∀ i j, i < S → j < S → w i j ≤ t) (hE : E < t) :
    ∃ g', fltNormalize F g = .ok g' ∧ KernelWithin ((1 + u) * (1 + 2 * E / (t - E)) - 1) S (fun i j => w i j / t) g' := by
  obtain ⟨a, b, ha, hb, rfl⟩ := ht
  obtain ⟨hr, hc, he'⟩ := hg
  have hne : g.elems ≠ [] := by
    have : g.entry a b ∈ g.elems := (mem_elems g _).2 ⟨a, b, by omega, by omega, rfl⟩
    intro h0; rw [h0] at this; simp at this
  obtain ⟨top, h1, h2, h3⟩ := npMax_ok _ hne
  obtain ⟨c, d, hcc, hdd, e⟩ := (mem_elems g _).1 h2
  rw [hr] at hcc
  rw [hc] at hdd
  have t1 : w a b - E ≤ top := by
    have x := h3 (g.entry a b) ((mem_elems g _).2 ⟨a, b, by omega, by omega, rfl⟩)
    have y := (abs_le.1 (he' a b ha hb)).1
    linarith
  have t2 : top ≤ w a b + E := by
    have y := (abs_le.1 (he' c d hcc hdd)).2
    have z := hmax c d hcc hdd
    rw [← e]
    linarith
  have hN : fltNormalize F g = .ok { g with entry := fun i j => F.fl (g.entry i j / top) } := by
    unfold fltNormalize
    rw [h1]; rfl
  refine ⟨_, hN, hr, hc, fun i j hi hj => ?_⟩
  have ht0 : 0 < w a b - E := by linarith
  have ht : 0 < top := by linarith
  have hE0 : 0 ≤ E := (abs_nonneg _).trans (he' a b ha hb)
  have hwab : 0 < w a b := by linarith
  have x1 := he' i j hi hj
  have x2 := hmax i j hi hj
  have x3 := hw i j
  have key : |g.entry i j / top - w i j / w a b| ≤ 2 * E / (w a b - E) := by
    have e1 : g.entry i j / top - w i j / w a b = ((g.entry i j - w i j) + w i j / w a b * (w a b - top)) / top := by
      field_simp
      ring
    rw [e1, abs_div, abs_of_pos ht]
    have e2 : |w i j / w a b * (w a b - top)| ≤ 1 * E := by
      rw [abs_mul]
      refine mul_le_mul ?_ (abs_le.2 ⟨by linarith, by linarith⟩) (abs_nonneg _) zero_le_one
      rw [abs_of_nonneg (by positivity), div_le_one hwab]
      exact x2
    have e3 := abs_add_le (g.entry i j - w i j) (w i j / w a b * (w a b - top))
    calc _ ≤ 2 * E / top := div_le_div_of_nonneg_right (by linarith) ht.le
      _ ≤ _ := div_le_div_of_nonneg_left (by linarith) ht0 t1
  have q1 : |w i j / w a b| ≤ 1 := by rw [abs_of_nonneg (by positivity), div_le_one hwab]; exact x2
  have q2 := abs_add_le (g.entry i j / top - w i j / w a b) (w i j / w a b)
  rw [sub_add_cancel] at q2
  have q3 := hF.fl (g.entry i j / top)
  have q0 : 0 ≤ 2 * E / (w a b - E) := by positivity
  have q4 : max |g.entry i j / top| η ≤ 1 + 2 * E / (w a b - E) := max_le (by linarith) ((eta_le_one hF).trans (by linarith))
  have q5 := mul_le_mul_of_nonneg_left q4 hF.basic.unit
  have q6 := abs_sub_le (F.fl (g.entry i j / top)) (g.entry i j / top) (w i j / w a b)
  show |F.fl (g.entry i j / top) - w i j / w a b| ≤ _
  calc _ ≤ u * (1 + 2 * E / (w a b - E)) + 2 * E / (w a b - E) := by linarith
    _ = _ := by ring

/-- The normalised kernel is the kernel, normalised. -/
def Normalizes (F : PsfArith) (x x' : CM Grid) : Prop := ∀ s g, (x s).1 = .ok g → (x' s).1 = fltNormalize F g

theorem makeKernel_normalizes (F : PsfArith) (size : Int) (NA : ℝ) (f : ℕ → ℕ → CM ℝ) : Normalizes F (fltMakeKernel F size NA f false) (fltMakeKernel F size NA f true) := by
  intro s g h
  unfold fltMakeKernel at h ⊢
  split at h
  · simp [CM.raise] at h
  split at h
  · simp [CM.raise] at h
  rename_i h1 h2
  rw [if_neg h1, if_neg h2]
  have hl : ∀ (x : CM Grid) (f : Grid → CM Grid), (x >>= f) s = match x s with | (.error e, s') => (.error e, s') | (.ok v, s') => f v s' := by
    intro x f
    simp only [bind]
    generalize x s = p
    obtain ⟨r, s'⟩ := p
    cases r <;> rfl
  rw [hl] at h ⊢
  simp only [Bool.false_eq_true, if_false, if_true] at h ⊢
  generalize fillRows f size.toNat size.toNat 0 (Grid.zeros size.toNat size.toNat) s = p at h ⊢
  obtain ⟨r, s'⟩ := p
  cases r with
  | error e => simp at h
  | ok g0 =>
    obtain rfl : g0 = g := Except.ok.inj h
    show (CM.lift (fltNormalize F g0) s').1 = _
    cases fltNormalize F g0 <;> rfl

theorem raise_normalizes (F : PsfArith) (e : PyErr) (x' : CM Grid) : Normalizes F (CM.raise e) x' := by
  intro s g h
  simp [CM.raise] at h

theorem kernelCall_normalizes (F F' : PsfArith) (env : Env) (o : PsfObj) (accelerated : Option Bool) (x : CM Grid) (hx : o.kernelCallFl F F' env false accelerated = some x) :
    ∃ x', o.kernelCallFl F F' env true accelerated = some x' ∧ Normalizes (if env.accelerate accelerated then F' else F) x x' := by
  unfold PsfObj.kernelCallFl at hx ⊢
  have e1 : ∀ b, (o.params b).wavelength = o.wavelength := fun _ => rfl
  have e2 : ∀ b, (o.params b).kernelSize = o.kernelSize := fun _ => rfl
  cases hz : o.zernpol with
  | some z =>
    simp only [hz] at hx ⊢
    refine ⟨_, rfl, ?_⟩
    obtain rfl := Option.some.inj hx
    by_cases ha : env.accelerate accelerated = true
    · rw [if_pos ha, if_pos ha, if_pos ha]
      unfold fltPsfKernelComp
      simp only [e1, e2]
      split
      · exact raise_normalizes _ _ _
      split
      · exact raise_normalizes _ _ _
      split
      · exact raise_normalizes _ _ _
      exact makeKernel_normalizes _ _ _ _
    · rw [if_neg ha, if_neg ha, if_neg ha]
      unfold fltGetPsfKernel
      simp only [e1, e2]
      split
      · exact raise_normalizes _ _ _
      rename_i hw
      intro s g h
      have hl : ∀ (r : Res Int) (f : Int → CM Grid), (CM.lift r >>= f) s = match r with | .error e => (.error e, s) | .ok v => f v s := by
        intro r f; cases r <;> rfl
      have e3 : ∀ b, (o.params b).len2pixels = o.pixelSize := fun _ => rfl
      have e4 : ∀ b, (o.params b).NA = o.NA := fun _ => rfl
      rw [hl] at h ⊢
      simp only [e3, e4] at h ⊢
      generalize (if o.kernelSize < 3 then getKernelSize64 z.obj.m z.obj.n o.pixelSize (F.fl (o.expansionCoeff / o.wavelength)) o.wavelength o.NA else Except.ok o.kernelSize) = r at h ⊢
      cases r with
      | error e => simp at h
      | ok size =>
        simp only at h ⊢
        cases hai : o.airy with
        | true =>
          simp only [hai, if_true] at h ⊢
          unfold fltAiryKernel at h ⊢
          simp only [e1, if_neg hw] at h ⊢
          exact makeKernel_normalizes _ _ _ _ s g h
        | false =>
          simp only [hai, Bool.false_eq_true, if_false] at h ⊢
          unfold fltPsfKernel at h ⊢
          simp only [e1, if_neg hw] at h ⊢
          exact makeKernel_normalizes _ _ _ _ s g h
  | none =>
    simp only [hz] at hx ⊢
    cases hps : o.polynomials with
    | nil => simp only [hps] at hx; simp at hx
    | cons q qs =>
      simp only [hps] at hx ⊢
      cases ham : o.amplitudes with
      | none =>
        simp only [ham] at hx ⊢
        refine ⟨_, rfl, ?_⟩
        obtain rfl := Option.some.inj hx
        exact raise_normalizes _ _ _
      | some as =>
        simp only [ham] at hx ⊢
        refine ⟨_, rfl, ?_⟩
        obtain rfl := Option.some.inj hx
        by_cases hlen : as.length < (q :: qs).length
        · rw [if_pos hlen]; exact raise_normalizes _ _ _
        rw [if_neg hlen, if_neg hlen]
        split
        · unfold fltPsfKernelCompPols
          simp only [e1, e2]
          split
          · exact raise_normalizes _ _ _
          split
          · exact raise_normalizes _ _ _
          split
          · exact raise_normalizes _ _ _
          exact makeKernel_normalizes _ _ _ _
        · unfold fltPsfKernelZerns
          simp only [e1, e2]
          split
          · exact raise_normalizes _ _ _
          exact makeKernel_normalizes _ _ _ _

/-- C111. In double precision: an object (with any history) is given the properties and the numbers of integration points (320, 300), and calculates the kernel: each pixel deviates from the
exact diffraction integral of the given optics by at most the quadrature error plus `2·10⁻⁷`. One or several polynomials, the piston with the Airy pattern included, plain or accelerated.
Normalised, the deviation from the normalised exact PSF, whose greatest value is `t`, is at most `2E / (t - E)` and one more rounding. -/
theorem workflow_double (s : List ℝ → ℝ) (hs : Sums s) (F' : PsfArith) (hF' : CompiledDoubles F') (o : PsfObj) (hm : MadeFor o) (before : List Call)
    (env : Env) (hj : BesselAccurate env.j1) (suppress normalized : Bool) (accelerated : Option Bool) (hsup : ∀ z ∈ psfPols o, Supported env accelerated z)
    (NA wl px : ℝ) (c : CoeffArg) (size : Int) (h3 : 3 ≤ size) (S : ℕ) (hS : OddSize size S) (hord : Ordinary (psfPols o) NA wl px c S)
    (E : ℝ) (hE : E = quadratureError ((coeffValues c).map fun x => x / wl) (objectOrders o) (kernelRadius wl NA px S) 320 300 + 2 / 10 ^ 7)
    (w : ℕ → ℕ → ℝ) (hw : w = exactPixel (combination ((coeffValues c).map fun x => x / wl) (objectOrders o)) (opticalScale wl NA px) S)
    (t : ℝ) (ht : normalized = true → (∃ a b, a < S ∧ b < S ∧ w a b = t) ∧ (∀ i j, i < S → j < S → w i j ≤ t) ∧ E < t) :
    ∃ (o₁ o₂ : PsfObj) (g : Grid), o.setPhysicalProps64 NA wl c px = (.ok (), o₁) ∧ o₁.setCalculationProps size 320 300 = (.ok (), o₂) ∧
      (o₂.calculateFl (psfDoubles s) F' env suppress normalized accelerated (afterCalls before)).1 = .ok g ∧
      (o₂.calculateFl (psfDoubles s) F' env suppress normalized accelerated (afterCalls before)).2.1 = { o₂ with kernel := g } ∧
      (normalized = false → KernelWithin E S w g) ∧
      (normalized = true → KernelWithin ((1 + (2⁻¹ : ℝ) ^ 53) * (1 + 2 * E / (t - E)) - 1) S (fun i j => w i j / t) g) := by
  obtain ⟨o₁, o₂, g, e1, e2, f7, ⟨x, hx, hg⟩, hk⟩ := workflow_double_raw s hs F' hF' o hm before env hj accelerated hsup NA wl px c size h3 S hS hord
  rw [← hE, ← hw] at hk
  cases normalized with
  | false =>
    have := calculateFl_eq (psfDoubles s) F' env o₂ f7 suppress false accelerated (afterCalls before) x hx g hg
    exact ⟨o₁, o₂, g, e1, e2, this.1, this.2, fun _ => hk, fun h => by simp at h⟩
  | true =>
    obtain ⟨t1, t2, t3⟩ := ht rfl
    obtain ⟨x', hx', hn⟩ := kernelCall_normalizes _ _ env o₂ accelerated x hx
    have hw0 : ∀ i j, 0 ≤ w i j := fun i j => by rw [hw]; exact exactPsf_nonneg _ _ _
    obtain ⟨g', hg', hk'⟩ : ∃ g', fltNormalize (if env.accelerate accelerated then F' else psfDoubles s) g = .ok g' ∧
        KernelWithin ((1 + (2⁻¹ : ℝ) ^ 53) * (1 + 2 * E / (t - E)) - 1) S (fun i j => w i j / t) g' := by
      split
      · exact normalize_close hF'.1 S w E g hk hw0 t t1 t2 t3
      · exact normalize_close (psfDoubles_accurate s hs.1 hs.2) S w E g hk hw0 t t1 t2 t3
    have := calculateFl_eq (psfDoubles s) F' env o₂ f7 suppress true accelerated (afterCalls before) x' hx' g' (by rw [hn _ _ hg, hg'])
    exact ⟨o₁, o₂, g', e1, e2, this.1, this.2, fun h => by simp at h, fun _ => hk'⟩

/-- C111. The light in the kernel (not normalised), in double precision: at most the light through the pupil, up to `S²` times the error of a pixel. -/
theorem workflow_light_double (s : List ℝ → ℝ) (hs : Sums s) (F' : PsfArith) (hF' : CompiledDoubles F') (o : PsfObj) (hm : MadeFor o) (before : List Call)
    (env : Env) (hj : BesselAccurate env.j1) (suppress : Bool) (accelerated : Option Bool) (hsup : ∀ z ∈ psfPols o, Supported env accelerated z)
    (NA wl px : ℝ) (c : CoeffArg) (size : Int) (h3 : 3 ≤ size) (S : ℕ) (hS : OddSize size S) (hord : Ordinary (psfPols o) NA wl px c S) :
    ∃ (o₁ o₂ : PsfObj) (g : Grid), o.setPhysicalProps64 NA wl c px = (.ok (), o₁) ∧ o₁.setCalculationProps size 320 300 = (.ok (), o₂) ∧
      (o₂.calculateFl (psfDoubles s) F' env suppress false accelerated (afterCalls before)).1 = .ok g ∧
      kernelTotal S g.entry ≤ pupilEnergy wl NA px +
        S ^ 2 * (quadratureError ((coeffValues c).map fun x => x / wl) (objectOrders o) (kernelRadius wl NA px S) 320 300 + 2 / 10 ^ 7) := by
  obtain ⟨o₁, o₂, g, e1, e2, e3, -, k, -⟩ := workflow_double s hs F' hF' o hm before env hj suppress false accelerated hsup NA wl px c size h3 S hS hord _ rfl _ rfl 0 (by simp)
  refine ⟨o₁, o₂, g, e1, e2, e3, ?_⟩
  have h1 := (abs_le.1 (total_close S _ g _ (k rfl))).2
  have h2 := exact_total_le ((coeffValues c).map fun x => x / wl) ((psfPols o).map ZernPol.obj) wl NA px (physical_fine_enough hord.allowed) S hS.1
  have h4 : ordersOf ((psfPols o).map ZernPol.obj) = objectOrders o := by simp [ordersOf, objectOrders, ZernPol.obj, Function.comp_def]
  rw [h4] at h2
  linarith

/-- Every object made from a polynomial or a sequence of them is one, whatever was called on it (`set_physical_props`, `set_calculation_props`, `calculate_psf_kernel`, `crop_kernel` ...). -/
theorem made_for (arg : PsfArg) (harg : arg ≠ .other) (o₀ : PsfObj) (hi : psfInit arg = .ok o₀) (s : CoefState) (calls : List PsfCall) : MadeFor (afterPsfCalls o₀ s calls).1 := by
  have hinv := psfInit_inv _ o₀ hi
  obtain ⟨p1, p2, p3⟩ := afterPsf_pols o₀ s hinv calls
  have h0 : MadeFor o₀ := by
    rcases hinv.wf.1 with ⟨z, h1, h2⟩ | h
    · refine Or.inl ⟨z, h1, h2, ?_⟩
      unfold psfInit at hi
      split at hi
      · obtain rfl := Except.ok.inj hi
        obtain rfl := Option.some.inj h1
        rfl
      · simp at hi
      · obtain rfl := Except.ok.inj hi
        obtain rfl := Option.some.inj h1
        rfl
      · simp at hi
      · split at hi
        · simp at hi
        · split at hi
          · simp at hi
          · obtain rfl := Except.ok.inj hi
            simp at h1
      · exact absurd rfl harg
    · exact Or.inr h
  unfold MadeFor at h0 ⊢
  rw [p1, p2, p3]
  exact h0

/-- The hypotheses are met: coma, an eighth of a micrometre, with 31 pixels. -/
example : ∃ o : PsfObj, MadeFor o ∧ psfPols o = [⟨-1, 3, 7, 7, .int 7⟩] ∧ Ordinary (psfPols o) 1 (1 / 2) (1 / 8) (.num (1 / 8)) 31 ∧ OddSize 31 31 ∧ BesselAccurate besselJ1 ∧
    CompiledDoubles (psfDoubles (sumFromLeft binary64)) := by
  have b : ∀ e : ℤ, -1074 ≤ e → binary64 ((2 : ℝ) ^ e) = 2 ^ e := fun e he => by simpa using binary64_exact 1 e (by norm_num) he
  have b0 : binary64 1 = 1 := by simpa using b 0 (by norm_num)
  have b1 : binary64 (1 / 2) = 1 / 2 := by have := b (-1) (by norm_num); norm_num at this ⊢; exact this
  have b3 : binary64 (1 / 8) = 1 / 8 := by have := b (-3) (by norm_num); norm_num at this ⊢; exact this
  have big : (1 : ℝ) ≤ 2 ^ 500 := one_le_pow₀ (by norm_num)
  have small : (2 : ℝ) ^ (-500 : ℤ) ≤ 1 / 2 := (zpow_le_zpow_right₀ (by norm_num) (by norm_num : (-500 : ℤ) ≤ -1)).trans (by norm_num)
  have hpi := Real.pi_gt_three
  have hpi2 := Real.pi_lt_d2
  refine ⟨{ psfDefault with zernpol := some ⟨-1, 3, 7, 7, .int 7⟩, airy := false }, Or.inl ⟨_, rfl, rfl, by decide⟩, rfl,
    ⟨⟨b0, b1, b3, small.trans (by norm_num), small, le_trans (by norm_num) big, le_trans (by norm_num) big⟩, ?_, ?_, by norm_num, by norm_num, rfl, ?_, ?_, ?_, ?_, ?_⟩,
    ⟨by norm_num, Or.inl rfl⟩, fun x _ => by simp; positivity,
    accurate_8 (psfDoubles_accurate _ sumFromLeft_sums.1 sumFromLeft_sums.2), radial_nodes_default, nodes_unit 320 (by norm_num) (by norm_num)⟩
  · unfold PhysicalOk; norm_num
  · rw [le_div_iff₀ (by norm_num)]; norm_num; linarith
  · intro x hx
    obtain rfl : x = 1 / 8 := by simpa [coeffValues] using hx
    exact b3
  · simp only [coeffValues, List.map_cons, List.map_nil, List.sum_cons, List.sum_nil]; norm_num [abs_of_pos]
  · simp [psfPols]
  · intro z hz
    obtain rfl : z = ⟨-1, 3, 7, 7, .int 7⟩ := List.mem_singleton.1 hz
    decide
  · unfold opticalScale; norm_num at hpi2 ⊢; linarith

end Verif.Props
