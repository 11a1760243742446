import Verif.Proofs.FloatKernelSize

/-!
# C102: the physical properties, the estimated kernel size and the cropping in double precision
-/

namespace Verif.Props
open Verif.Model Verif.Spec Verif.Proofs

/-- The numerical aperture, the wavelength and the pixel size are doubles of ordinary size. -/
structure DoubleProps (NA wl px : ℝ) : Prop where
  dNA : binary64 NA = NA
  dwl : binary64 wl = wl
  dpx : binary64 px = px
  NA_min : 2 ^ (-500 : ℤ) ≤ NA
  wl_min : 2 ^ (-500 : ℤ) ≤ wl
  wl_max : wl ≤ 2 ^ 500
  px_max : px ≤ 2 ^ 500

/-- The checks of the properties passed. -/
def Checks64 (NA wl px : ℝ) : Prop := 0 < NA ∧ NA ≤ binary64 1.7 ∧ 0 < wl ∧ 0 < px ∧ px ≤ binary64 (binary64 (0.5 * 0.5 * wl) / NA)

theorem set64_num {o o' : PsfObj} {z : ZernPol} (hz : o.zernpol = some z) {NA wl px x : ℝ}
    (h : o.setPhysicalProps64 NA wl (.num x) px = (.ok (), o')) :
    Checks64 NA wl px ∧ getKernelSize64 z.m z.n px (binary64 (x / wl)) wl NA = .ok o'.kernelSize := by
  unfold PsfObj.setPhysicalProps64 at h
  by_cases h1 : NA < 0 ∨ NA > binary64 1.7
  · rw [if_pos h1] at h; simp at h
  rw [if_neg h1] at h
  by_cases h2 : wl ≤ 0
  · rw [if_pos h2] at h; simp at h
  rw [if_neg h2] at h
  simp only at h
  by_cases h3 : NA = 0
  · rw [if_pos h3] at h; simp at h
  rw [if_neg h3] at h
  by_cases h4 : px ≤ 0
  · rw [if_pos h4] at h; simp at h
  rw [if_neg h4] at h
  by_cases h5 : px > binary64 (binary64 (0.5 * 0.5 * wl) / NA)
  · rw [if_pos h5] at h; simp at h
  rw [if_neg h5] at h
  push Not at h1 h2 h4 h5
  simp only [PsfObj.storeCoeff64, hz, PsfObj.storeOne64, PsfObj.estimateSize64, reduceCtorEq, false_and, if_false] at h
  rcases hS : getKernelSize64 z.m z.n px (binary64 (x / wl)) wl NA with e | S
  · rw [hS] at h; simp at h
  · rw [hS] at h
    simp only [Prod.mk.injEq, true_and] at h
    exact ⟨⟨lt_of_le_of_ne h1.1 (Ne.symm h3), h1.2, h2, h4, h5⟩, by rw [← h]⟩

/-- C102. What a call stores, in double precision, for every object and all arguments: an accepted call stores the properties and coefficients themselves, the
rounded relative amplitudes, and sets the flag that the properties are given; a rejected one changes neither the kernel size nor the flag. Polynomials,
kernel, Airy flag and numbers of integration points are never changed. -/
theorem set_physical_props_double_stores (o : PsfObj) (NA wl px : ℝ) (c : CoeffArg) :
    (let o' := (o.setPhysicalProps64 NA wl c px).2
     o'.zernpol = o.zernpol ∧ o'.polynomials = o.polynomials ∧ o'.airy = o.airy ∧ o'.kernel = o.kernel ∧ o'.nR = o.nR ∧ o'.nPhi = o.nPhi ∧
     (∀ e, (o.setPhysicalProps64 NA wl c px).1 = .error e → o'.kernelSize = o.kernelSize ∧ o'.propsSet = o.propsSet)) ∧
    ∀ o', o.setPhysicalProps64 NA wl c px = (.ok (), o') →
      o'.NA = NA ∧ o'.wavelength = wl ∧ o'.pixelSize = px ∧ o'.propsSet = true ∧ o'.k = binary64 (2 * binary64 Real.pi / o.wavelength) ∧
      (∀ x, c = .num x → o'.expansionCoeff = x ∧ o'.alpha = binary64 (x / wl)) ∧
      (∀ l, c = .seq l → l.length = o.polynomials.length → o'.coefficients = some l ∧ o'.amplitudes = some (l.map fun x => binary64 (x / wl))) ∧
      (∀ x, c = .seq [x] → o.polynomials = [] → o'.expansionCoeff = x ∧ o'.alpha = binary64 (x / wl)) := by
  have hstore : ∀ p : PsfObj, let q := (p.storeCoeff64 c).2
      q.zernpol = p.zernpol ∧ q.polynomials = p.polynomials ∧ q.airy = p.airy ∧ q.kernel = p.kernel ∧ q.nR = p.nR ∧ q.nPhi = p.nPhi ∧
      q.kernelSize = p.kernelSize ∧ q.propsSet = p.propsSet ∧ q.NA = p.NA ∧ q.wavelength = p.wavelength ∧ q.pixelSize = p.pixelSize ∧ q.k = p.k ∧
      ((p.storeCoeff64 c).1 = .ok () →
        (∀ x, c = .num x → q.expansionCoeff = x ∧ q.alpha = binary64 (x / p.wavelength)) ∧
        (∀ l, c = .seq l → l.length = p.polynomials.length → q.coefficients = some l ∧ q.amplitudes = some (l.map fun x => binary64 (x / p.wavelength))) ∧
        (∀ x, c = .seq [x] → p.polynomials = [] → q.expansionCoeff = x ∧ q.alpha = binary64 (x / p.wavelength))) := by
    intro p
    cases c with
    | num x =>
      simp only [PsfObj.storeCoeff64]
      split
      · simp
      · simp [PsfObj.storeOne64]
    | bad e =>
      simp only [PsfObj.storeCoeff64]
      split <;> simp
    | seq l =>
      simp only [PsfObj.storeCoeff64]
      by_cases hl : l.length ≠ p.polynomials.length
      · rw [if_pos hl]
        match l, hl with
        | [], hl => simp
        | [x], hl =>
          by_cases h0 : p.polynomials.length = 0
          · simp only [if_pos h0, PsfObj.storeOne64]
            refine ⟨trivial, trivial, trivial, trivial, trivial, trivial, trivial, trivial, trivial, trivial, trivial, trivial, fun _ => ⟨by simp, ?_, by simp⟩⟩
            rintro l ⟨⟩ h
            exact absurd h hl
          · simp only [if_neg h0]
            simp
        | x :: y :: r, hl => simp
      · rw [if_neg hl]
        push Not at hl
        cases hm : npMax l with
        | error e => simp
        | ok v =>
          simp only
          refine ⟨trivial, trivial, trivial, trivial, trivial, trivial, trivial, trivial, trivial, trivial, trivial, trivial, fun _ => ⟨by simp, ?_, ?_⟩⟩
          · rintro l' ⟨⟩ _
            exact ⟨rfl, rfl⟩
          · rintro x ⟨⟩ h
            rw [h] at hl
            simp at hl
  unfold PsfObj.setPhysicalProps64
  by_cases h1 : NA < 0 ∨ NA > binary64 1.7
  · rw [if_pos h1]; simp
  rw [if_neg h1]
  by_cases h2 : wl ≤ 0
  · rw [if_pos h2]; simp
  rw [if_neg h2]
  simp only
  by_cases h3 : NA = 0
  · rw [if_pos h3]; simp
  rw [if_neg h3]
  by_cases h4 : px ≤ 0
  · rw [if_pos h4]; simp
  rw [if_neg h4]
  by_cases h5 : px > binary64 (binary64 (0.5 * 0.5 * wl) / NA)
  · rw [if_pos h5]; simp
  rw [if_neg h5]
  obtain ⟨p, hp⟩ : ∃ p : PsfObj, p = { o with k := binary64 (2 * binary64 Real.pi / o.wavelength), NA := NA, wavelength := wl, nyquist := binary64 (binary64 (0.5 * 0.5 * wl) / NA), pixelSize := px } := ⟨_, rfl⟩
  rw [← hp]
  have hs := hstore p
  rcases hq : p.storeCoeff64 c with ⟨r, q⟩
  rw [hq] at hs
  obtain ⟨s1, s2, s3, s4, s5, s6, s7, s8, s9, s10, s11, s12, s13⟩ := hs
  simp only at s1 s2 s3 s4 s5 s6 s7 s8 s9 s10 s11 s12 s13
  have hw : p.wavelength = wl := by rw [hp]
  have hpp : p.polynomials = o.polynomials := by rw [hp]
  rw [hw, hpp] at s13
  rw [hp] at s1 s2 s3 s4 s5 s6 s7 s8 s9 s10 s11 s12
  cases r with
  | error e => exact ⟨⟨s1, s2, s3, s4, s5, s6, fun _ _ => ⟨s7, s8⟩⟩, fun o' h => by simp at h⟩
  | ok u =>
    simp only
    cases hE : q.estimateSize64 with
    | error e => exact ⟨⟨s1, s2, s3, s4, s5, s6, fun _ _ => ⟨s7, s8⟩⟩, fun o' h => by simp at h⟩
    | ok S =>
      refine ⟨⟨s1, s2, s3, s4, s5, s6, fun e h => by simp at h⟩, ?_⟩
      intro o' h
      simp only [Prod.mk.injEq, true_and] at h
      rw [← h]
      obtain ⟨t1, t2, t3⟩ := s13 rfl
      exact ⟨s9, s10, s11, rfl, s12, t1, t2, t3⟩

theorem set64_num_ok {o : PsfObj} {z : ZernPol} (hz : o.zernpol = some z) {NA wl px x : ℝ} (hc : Checks64 NA wl px) {S : Int}
    (hS : getKernelSize64 z.m z.n px (binary64 (x / wl)) wl NA = .ok S) :
    ∃ o', o.setPhysicalProps64 NA wl (.num x) px = (.ok (), o') := by
  obtain ⟨c1, c2, c3, c4, c5⟩ := hc
  unfold PsfObj.setPhysicalProps64
  rw [if_neg (by push Not; exact ⟨c1.le, c2⟩), if_neg (not_le.2 c3)]
  simp only
  rw [if_neg c1.ne', if_neg (not_le.2 c4), if_neg (not_lt.2 c5)]
  simp only [PsfObj.storeCoeff64, hz, PsfObj.storeOne64, PsfObj.estimateSize64, reduceCtorEq, false_and, if_false, hS]
  exact ⟨_, rfl⟩

theorem set64_seq {o o' : PsfObj} (hz : o.zernpol = none) (hb : 2 ≤ o.polynomials.length) {NA wl px : ℝ} {l : List ℝ}
    (h : o.setPhysicalProps64 NA wl (.seq l) px = (.ok (), o')) :
    Checks64 NA wl px ∧ l.length = o.polynomials.length ∧
      ∃ r, sizeLoop64 px wl NA o.polynomials (l.map fun x => binary64 (x / wl)) (0, 0) = .ok r ∧ o'.kernelSize = enlarge64 r.1 r.2 o.polynomials.length := by
  unfold PsfObj.setPhysicalProps64 at h
  by_cases h1 : NA < 0 ∨ NA > binary64 1.7
  · rw [if_pos h1] at h; simp at h
  rw [if_neg h1] at h
  by_cases h2 : wl ≤ 0
  · rw [if_pos h2] at h; simp at h
  rw [if_neg h2] at h
  simp only at h
  by_cases h3 : NA = 0
  · rw [if_pos h3] at h; simp at h
  rw [if_neg h3] at h
  by_cases h4 : px ≤ 0
  · rw [if_pos h4] at h; simp at h
  rw [if_neg h4] at h
  by_cases h5 : px > binary64 (binary64 (0.5 * 0.5 * wl) / NA)
  · rw [if_pos h5] at h; simp at h
  rw [if_neg h5] at h
  push Not at h1 h2 h4 h5
  refine ⟨⟨lt_of_le_of_ne h1.1 (Ne.symm h3), h1.2, h2, h4, h5⟩, ?_⟩
  by_cases hl : l.length = o.polynomials.length
  · refine ⟨hl, ?_⟩
    simp only [PsfObj.storeCoeff64, hl, ne_eq, not_true_eq_false, if_false] at h
    obtain ⟨p, ps, hps⟩ : ∃ p ps, o.polynomials = p :: ps := by
      cases hp : o.polynomials with
      | nil => rw [hp] at hb; simp at hb
      | cons p ps => exact ⟨p, ps, rfl⟩
    rcases hm : npMax l with e | t
    · rw [hm] at h; simp at h
    · rw [hm] at h
      simp only [PsfObj.estimateSize64, hz, hps, Option.getD_some] at h
      rcases hr : sizeLoop64 px wl NA (p :: ps) (l.map fun x => binary64 (x / wl)) (0, 0) with e | r
      · rw [hr] at h
        exact absurd h (by simp [bind, Except.bind])
      · rw [hr] at h
        refine ⟨r, by rw [hps]; exact hr, ?_⟩
        simp only [bind, Except.bind, pure, Except.pure, Prod.mk.injEq, true_and] at h
        rw [← h, hps]
  · exfalso
    simp only [PsfObj.storeCoeff64] at h
    rw [if_pos hl] at h
    rcases l with _ | ⟨x, _ | ⟨y, l⟩⟩
    · simp at h
    · simp only at h
      rw [if_neg (by omega)] at h
      simp at h
    · simp at h

theorem two_rl : oneUlp ^ 2 ≤ 1 + 1 / 2 ^ 50 := by unfold oneUlp; norm_num

theorem quarter_normal {wl NA px : ℝ} (hd : DoubleProps NA wl px) (hNA : NA ≤ 2) : Rl 2 (binary64 (binary64 (0.5 * 0.5 * wl) / NA)) (wl / (4 * NA)) := by
  have n0 : 0 < NA := lt_of_lt_of_le (by positivity) hd.NA_min
  have w0 : 0 < wl := lt_of_lt_of_le (by positivity) hd.wl_min
  have e0 : (0.5 : ℝ) * 0.5 * wl = wl / 4 := by norm_num; ring
  have e1 : (2 : ℝ) ^ (-502 : ℤ) = 2 ^ (-500 : ℤ) / 4 := by
    rw [show (-502 : ℤ) = -500 + -2 by norm_num, zpow_add₀ (by norm_num)]; norm_num; ring
  have b1 : (2 : ℝ) ^ (-502 : ℤ) ≤ 0.5 * 0.5 * wl := by
    rw [e0, e1]; exact div_le_div_of_nonneg_right hd.wl_min (by norm_num)
  have r1 := Rl.fl (normal_of_ge b1 (tiny_le _ (by norm_num)))
  have b2 : (2 : ℝ) ^ (-503 : ℤ) ≤ binary64 (0.5 * 0.5 * wl) := by
    have h1 := r1.2.1
    rw [pow_one] at h1
    have h2 : oneUlp ≤ 2 := by unfold oneUlp; norm_num
    have h3 : (2 : ℝ) ^ (-502 : ℤ) = 2 ^ (-503 : ℤ) * 2 := by rw [← zpow_add_one₀ (by norm_num)]; norm_num
    have h5 := mul_le_mul_of_nonneg_left h2 r1.nonneg
    rw [h3] at b1
    linarith
  have b3 : (2 : ℝ) ^ (-504 : ℤ) ≤ binary64 (0.5 * 0.5 * wl) / NA := by
    rw [le_div_iff₀ n0]
    have h3 : (2 : ℝ) ^ (-503 : ℤ) = 2 ^ (-504 : ℤ) * 2 := by rw [← zpow_add_one₀ (by norm_num)]; norm_num
    rw [h3] at b2
    exact (mul_le_mul_of_nonneg_left hNA (by positivity)).trans b2
  have r2 := (r1.divExact n0).round (normal_of_ge b3 (tiny_le _ (by norm_num)))
  rw [e0, div_div] at r2
  rw [e0]
  exact r2

theorem seventeen : 1.7 ≤ binary64 1.7 * (1 + 1 / 2 ^ 52) ∧ binary64 1.7 ≤ 1.7 * (1 + 1 / 2 ^ 52) := by
  have := Rl.fl (x := (1.7 : ℝ)) (tiny_one (by norm_num))
  have h := this.2
  rw [pow_one] at h
  unfold oneUlp at h
  exact h

theorem checks_two {NA wl px : ℝ} (h : Checks64 NA wl px) : NA ≤ 2 := by
  have h1 := h.2.1
  have := seventeen.2
  norm_num at this h1 ⊢
  linarith

/-- The checks: what exact arithmetic accepts is accepted, and what is accepted is in range up to the roundings. -/
theorem checks_double {NA wl px : ℝ} (hd : DoubleProps NA wl px) :
    (PhysicalOk NA wl px → Checks64 NA wl px) ∧
      (Checks64 NA wl px → 0 < NA ∧ NA ≤ 1.7 * (1 + 1 / 2 ^ 52) ∧ 0 < wl ∧ 0 < px ∧ px ≤ wl / (4 * NA) * (1 + 1 / 2 ^ 50)) := by
  constructor
  · rintro ⟨h1, h2, h3, h4, h5⟩
    refine ⟨h1, ?_, h3, h4, ?_⟩
    · have := binary64_mono h1.le h2
      rwa [hd.dNA] at this
    · have w : binary64 (0.5 * 0.5 * wl) = wl / 4 := by
        have e0 : (0.5 : ℝ) * 0.5 * wl = wl / 4 := by norm_num; ring
        rw [e0]
        obtain ⟨k, e, k1, k2, k3⟩ := binary64_form wl
        have w0 : wl ≠ 0 := h3.ne'
        have k4 := binary64_ne w0
        have k5 : -500 ≤ Int.log 2 |wl| := le_log_of (by rw [abs_of_pos h3]; exact hd.wl_min)
        have k6 : lastBit wl = Int.log 2 |wl| - 52 := by unfold lastBit; omega
        have k7 : wl / 4 = ((rint (wl / 2 ^ lastBit wl) : ℤ) : ℝ) * 2 ^ (lastBit wl - 2) := by
          rw [zpow_sub₀ (by norm_num)]
          nth_rewrite 1 [← hd.dwl, k4]
          norm_num
          ring
        rw [k7]
        refine binary64_exact _ _ ?_ (by omega)
        have h7 := (log_bounds w0).2
        have h9 : |wl / 2 ^ lastBit wl| ≤ ((2 ^ 53 : ℤ) : ℝ) := by
          rw [abs_div, abs_of_pos (show (0 : ℝ) < 2 ^ lastBit wl by positivity), div_le_iff₀ (by positivity), k6]
          refine h7.le.trans (le_of_eq ?_)
          have : (((2 : ℤ) ^ 53 : ℤ) : ℝ) = 2 ^ (53 : ℤ) := by norm_num
          rw [this, ← zpow_add₀ (by norm_num)]
          congr 1
          ring
        rw [abs_le] at h9 ⊢
        refine ⟨le_rint ?_, rint_le h9.2⟩
        push_cast at h9 ⊢
        exact h9.1
      rw [w, div_div]
      have := binary64_mono h4.le h5
      rwa [hd.dpx] at this
  · intro h
    have h2 := checks_two h
    obtain ⟨c1, c2, c3, c4, c5⟩ := h
    refine ⟨c1, c2.trans seventeen.2, c3, c4, ?_⟩
    have r := quarter_normal hd h2
    exact c5.trans (r.2.2.trans (mul_le_mul_of_nonneg_left two_rl r.1))

/-- C102. One polynomial, in double precision. Properties that exact arithmetic accepts are accepted; accepted properties are in range up to the
roundings; the estimated size is odd and positive, and between the exact estimates for a pixel that is larger, and smaller, by the factor
`1 + 2^-48`. -/
theorem estimated_size_double (o : PsfObj) (z : ZernPol) (hz : o.zernpol = some z) (hv : ValidOrders z.m z.n) (hn : z.n ≤ 2 ^ 40) (NA wl px x : ℝ)
    (hd : DoubleProps NA wl px) (dx : binary64 x = x) :
    (PhysicalOk NA wl px → ∃ o', o.setPhysicalProps64 NA wl (.num x) px = (.ok (), o')) ∧
    ∀ o', o.setPhysicalProps64 NA wl (.num x) px = (.ok (), o') →
      (NA ≤ 1.7 * (1 + 1 / 2 ^ 52) ∧ 0 < px ∧ px ≤ wl / (4 * NA) * (1 + 1 / 2 ^ 50)) ∧ o'.kernelSize % 2 = 1 ∧ 1 ≤ o'.kernelSize ∧
      ∃ S₁ S₂, getKernelSize z.m z.n (px * (1 + 1 / 2 ^ 48)) (x / wl) wl NA = .ok S₁ ∧
        getKernelSize z.m z.n (px / (1 + 1 / 2 ^ 48)) (x / wl) wl NA = .ok S₂ ∧ S₁ ≤ o'.kernelSize ∧ o'.kernelSize ≤ S₂ := by
  obtain ⟨k1, k2⟩ := checks_double hd
  have key : Checks64 NA wl px → _ := fun hc =>
    getKernelSize64_between z.m z.n hv hn NA wl px x hd.dNA hd.dwl dx hd.NA_min (checks_two hc) hd.wl_min hc.2.2.2.1 hd.px_max
  constructor
  · intro hp
    obtain ⟨S, _, _, hS, _⟩ := key (k1 hp)
    exact set64_num_ok hz (k1 hp) hS
  · intro o' h
    obtain ⟨hc, hS⟩ := set64_num hz h
    obtain ⟨a1, a2, a3, a4, a5⟩ := k2 hc
    obtain ⟨S, S₁, S₂, e1, e2, e3, e4, e5, e6, e7⟩ := key hc
    rw [hS] at e1
    cases e1
    exact ⟨⟨a2, a4, a5⟩, e6, e7, S₁, S₂, e2, e3, e4, e5⟩

theorem makeOdd_succ (w : Int) : makeOdd (w + 1) ≤ makeOdd w + 2 := by unfold makeOdd; split_ifs <;> omega

/-- C102. The size in double precision differs from the exact estimate by 2 at most (for sizes up to `2^46`), and it is the exact estimate unless the
exact estimate itself changes with a pixel that is larger or smaller by the factor `1 + 2^-48`. -/
theorem estimated_size_double_near (o o' : PsfObj) (z : ZernPol) (hz : o.zernpol = some z) (hv : ValidOrders z.m z.n) (hn : z.n ≤ 2 ^ 40) (NA wl px x : ℝ)
    (hd : DoubleProps NA wl px) (dx : binary64 x = x) (h : o.setPhysicalProps64 NA wl (.num x) px = (.ok (), o')) (S : Int)
    (hS : getKernelSize z.m z.n px (x / wl) wl NA = .ok S) :
    (S ≤ 2 ^ 46 → |o'.kernelSize - S| ≤ 2) ∧
    (getKernelSize z.m z.n (px * (1 + 1 / 2 ^ 48)) (x / wl) wl NA = .ok S → getKernelSize z.m z.n (px / (1 + 1 / 2 ^ 48)) (x / wl) wl NA = .ok S →
      o'.kernelSize = S) := by
  obtain ⟨⟨a1, a2, a3⟩, a4, a5, S₁, S₂, e1, e2, e3, e4⟩ := (estimated_size_double o z hz hv hn NA wl px x hd dx).2 o' h
  constructor
  · intro hle
    have n0 : 0 < NA := lt_of_lt_of_le (by positivity) hd.NA_min
    have w0 : 0 < wl := lt_of_lt_of_le (by positivity) hd.wl_min
    obtain ⟨a, e, k1, k2, k3⟩ := sizeMultiplier_ok z.m z.n hv NA n0
    rw [getKernelSize_form _ _ _ _ _ _ _ _ k1] at hS e1 e2
    have i4 : 0 ≤ amplExt (x / wl) := by unfold amplExt; split_ifs <;> norm_num
    have q0 : 0 ≤ a * amplFactor (x / wl) * wl := mul_nonneg (mul_nonneg k2 (amplFactor_nonneg _)) w0.le
    obtain ⟨q, hq⟩ : ∃ q, q = a * amplFactor (x / wl) * wl / px := ⟨_, rfl⟩
    have hq0 : 0 ≤ q := by rw [hq]; exact div_nonneg q0 a2.le
    have q1 : a * amplFactor (x / wl) * wl / (px * (1 + 1 / 2 ^ 48)) = q / (1 + 1 / 2 ^ 48) := by rw [hq, div_div]
    have q2 : a * amplFactor (x / wl) * wl / (px / (1 + 1 / 2 ^ 48)) = q * (1 + 1 / 2 ^ 48) := by
      rw [hq, div_div_eq_mul_div, mul_div_right_comm]
    rw [← hq] at hS
    rw [q1] at e1
    rw [q2] at e2
    have e1 := Except.ok.inj e1
    have e2 := Except.ok.inj e2
    have hS := Except.ok.inj hS
    have hnear := abs_le.1 (rint_near q)
    have hSge := makeOdd_ge (rint q + 1 + (e + amplExt (x / wl)))
    have hq46 : q ≤ 2 ^ 46 := by
      have : rint q + 1 ≤ 2 ^ 46 := by omega
      have : ((rint q + 1 : ℤ) : ℝ) ≤ 2 ^ 46 := by exact_mod_cast this
      push_cast at this
      linarith [hnear.1]
    have up : rint (q * (1 + 1 / 2 ^ 48)) ≤ rint q + 1 := by
      have h1 := (abs_le.1 (rint_near (q * (1 + 1 / 2 ^ 48)))).2
      have : (rint (q * (1 + 1 / 2 ^ 48)) : ℝ) < ((rint q + 2 : ℤ) : ℝ) := by
        push_cast
        norm_num at h1 hq46 ⊢
        linarith [hnear.1]
      have : rint (q * (1 + 1 / 2 ^ 48)) < rint q + 2 := by exact_mod_cast this
      omega
    have lo : rint q ≤ rint (q / (1 + 1 / 2 ^ 48)) + 1 := by
      have h1 := (abs_le.1 (rint_near (q / (1 + 1 / 2 ^ 48)))).1
      have h2 : q * (1 - 1 / 2 ^ 48) ≤ q / (1 + 1 / 2 ^ 48) := by
        rw [le_div_iff₀ (by norm_num), mul_assoc]
        exact mul_le_of_le_one_right hq0 (by norm_num)
      have : (rint q : ℝ) < ((rint (q / (1 + 1 / 2 ^ 48)) + 2 : ℤ) : ℝ) := by
        push_cast
        norm_num at h1 h2 hq46 ⊢
        linarith [hnear.2]
      have : rint q < rint (q / (1 + 1 / 2 ^ 48)) + 2 := by exact_mod_cast this
      omega
    have u1 : S₂ ≤ S + 2 := by
      rw [← e2, ← hS]
      refine (makeOdd_mono (b := rint q + 1 + (e + amplExt (x / wl)) + 1) (by omega)).trans (makeOdd_succ _)
    have u2 : S ≤ S₁ + 2 := by
      rw [← e1, ← hS]
      refine (makeOdd_mono (b := rint (q / (1 + 1 / 2 ^ 48)) + 1 + (e + amplExt (x / wl)) + 1) (by omega)).trans (makeOdd_succ _)
    rw [abs_le]
    omega
  · intro h1 h2
    rw [e1] at h1
    rw [e2] at h2
    cases h1
    cases h2
    omega

theorem sizeMultiplier64_abs (m m' n : Int) (NA NA' : ℝ) (hm : |m| = |m'|) (hNA : NA = NA' ∨ ¬ (m = 0 ∧ n = 0)) :
    sizeMultiplier64 m n NA = sizeMultiplier64 m' n NA' := by
  have h0 : (m = 0 ∧ n = 0) = (m' = 0 ∧ n = 0) := by
    rw [← abs_eq_zero (a := m), ← abs_eq_zero (a := m'), hm]
  unfold sizeMultiplier64
  rw [← hm]
  rcases hNA with rfl | h
  · simp only [h0]
  · have h' : ¬ (m' = 0 ∧ n = 0) := by rw [← h0]; exact h
    simp only [if_neg h, if_neg h']

theorem sqrt64_mono {x y : ℝ} (h : x ≤ y) : sqrt64 x ≤ sqrt64 y := binary64_mono (Real.sqrt_nonneg _) (Real.sqrt_le_sqrt h)

theorem sqrt64_nonneg (x : ℝ) : 0 ≤ sqrt64 x := binary64_nonneg (Real.sqrt_nonneg _)

theorem amplMult64_mono {a x y : ℝ} (h0 : 0 ≤ a) (ha : binary64 a = a) (h : |x| ≤ |y|) (hc : |y| < 1 / 2 ∨ 1 / 2 ≤ |x|) :
    amplMult64 a x ≤ amplMult64 a y ∧ amplExt x ≤ amplExt y := by
  have e5 : (0.5 : ℝ) = 1 / 2 := by norm_num
  have one : binary64 1 = 1 := by simpa using binary64_nat 1 (by norm_num)
  have h1 : ∀ t : ℝ, t ≥ 0.25 → 1 ≤ sqrt64 (binary64 (4.25 * t)) := by
    intro t ht
    have g1 := binary64_mono (x := 1) (by norm_num) (show (1 : ℝ) ≤ 4.25 * t by norm_num at ht ⊢; linarith)
    rw [one] at g1
    have := sqrt64_mono g1
    unfold sqrt64 at this ⊢
    rwa [Real.sqrt_one, one] at this
  have h2 : ∀ c s t : ℝ, 0 ≤ c → 0 ≤ s → s ≤ t → binary64 (a * sqrt64 (binary64 (c * s))) ≤ binary64 (a * sqrt64 (binary64 (c * t))) := by
    intro c s t hc hs hst
    apply binary64_mono (mul_nonneg h0 (sqrt64_nonneg _))
    exact mul_le_mul_of_nonneg_left (sqrt64_mono (binary64_mono (mul_nonneg hc hs) (mul_le_mul_of_nonneg_left hst hc))) h0
  unfold amplMult64 amplExt
  rcases hc with hc | hc
  · have hx : ¬ |x| ≥ 0.5 := by rw [e5]; linarith
    have hy : ¬ |y| ≥ 0.5 := by rw [e5]; linarith
    simp only [if_neg hx, if_neg hy]
    by_cases h3 : |x| ≥ 0.25
    · have h4 : |y| ≥ 0.25 := le_trans h3 h
      simp only [if_pos h3, if_pos h4]
      exact ⟨h2 _ _ _ (by norm_num) (abs_nonneg _) h, le_rfl⟩
    · simp only [if_neg h3]
      by_cases h4 : |y| ≥ 0.25
      · simp only [if_pos h4]
        refine ⟨?_, by norm_num⟩
        have := binary64_mono h0 (le_mul_of_one_le_right h0 (h1 _ h4))
        rwa [ha] at this
      · simp only [if_neg h4]; exact ⟨le_rfl, le_rfl⟩
  · have hx : |x| ≥ 0.5 := by rw [e5]; linarith
    have hy : |y| ≥ 0.5 := le_trans hx h
    simp only [if_pos hx, if_pos hy]
    exact ⟨h2 _ _ _ (by norm_num) (abs_nonneg _) h, le_rfl⟩

/-- C102. One polynomial, in double precision, with no rounding left over: the estimated size does not depend on the sign of the coefficient or of
`m`, nor on `NA` (except for the piston), and does not get smaller with a smaller pixel, or with a larger coefficient on the same side of half of the
wavelength. -/
theorem estimated_size_monotone_double (o₁ o₂ o₁' o₂' : PsfObj) (z₁ z₂ : ZernPol) (hz₁ : o₁.zernpol = some z₁) (hz₂ : o₂.zernpol = some z₂)
    (hv₁ : ValidOrders z₁.m z₁.n) (hn₁ : z₁.n ≤ 2 ^ 40) (hm : |z₁.m| = |z₂.m|) (hn : z₁.n = z₂.n) (NA₁ NA₂ wl px₁ px₂ x₁ x₂ : ℝ)
    (hd₁ : DoubleProps NA₁ wl px₁) (dx₁ : binary64 x₁ = x₁) (dx₂ : binary64 x₂ = x₂) (hNA : NA₁ = NA₂ ∨ ¬ (z₁.m = 0 ∧ z₁.n = 0)) (hpx : px₂ ≤ px₁)
    (hx : |x₁| ≤ |x₂|) (hside : |x₂| < wl / 2 ∨ wl / 2 ≤ |x₁|) (h₁ : o₁.setPhysicalProps64 NA₁ wl (.num x₁) px₁ = (.ok (), o₁'))
    (h₂ : o₂.setPhysicalProps64 NA₂ wl (.num x₂) px₂ = (.ok (), o₂')) : o₁'.kernelSize ≤ o₂'.kernelSize := by
  obtain ⟨hc₁, hS₁⟩ := set64_num hz₁ h₁
  obtain ⟨hc₂, hS₂⟩ := set64_num hz₂ h₂
  obtain ⟨a, a', e, k1, k2, k3, k4, k5, k6⟩ := sizeMultiplier64_near z₁.m z₁.n hv₁ hn₁ NA₁ hd₁.dNA hd₁.NA_min (checks_two hc₁)
  have k2' := k2
  rw [sizeMultiplier64_abs _ z₂.m _ _ NA₂ hm hNA, hn] at k2'
  rw [getKernelSize64_form _ _ _ _ _ _ _ _ k2] at hS₁
  rw [getKernelSize64_form _ _ _ _ _ _ _ _ k2'] at hS₂
  rw [← Except.ok.inj hS₁, ← Except.ok.inj hS₂]
  have hwl : 0 < wl := hc₁.2.2.1
  have h900 : (2 : ℝ) ^ (-900 : ℤ) ≤ wl := le_trans (zpow_le_zpow_right₀ (by norm_num) (by norm_num)) hd₁.wl_min
  have s1 := (ampl_sides dx₁ hd₁.dwl h900).1
  have s2 := (ampl_sides dx₂ hd₁.dwl h900).1
  have e5 : (0.5 : ℝ) = 1 / 2 := by norm_num
  rw [e5] at s1 s2
  have ex : ∀ x : ℝ, |x / wl| = |x| / wl := fun x => by rw [abs_div, abs_of_pos hwl]
  obtain ⟨f1, f2⟩ := amplMult64_mono (a := a') (x := binary64 (x₁ / wl)) (y := binary64 (x₂ / wl)) k3.nonneg k4
    (by
      rw [binary64_abs, binary64_abs, ex, ex]
      exact binary64_mono (div_nonneg (abs_nonneg _) hwl.le) (div_le_div_of_nonneg_right hx hwl.le))
    (by
      rcases hside with h | h
      · left
        by_contra hc
        have := s2.1 (not_lt.1 hc)
        rw [ex, ge_iff_le, le_div_iff₀ hwl] at this
        linarith
      · right
        apply s1.2
        rw [ex, ge_iff_le, le_div_iff₀ hwl]
        linarith)
  apply makeOdd_mono
  have g0 : 0 ≤ amplMult64 a' (binary64 (x₁ / wl)) := by
    have := (amplMult64_near dx₁ hd₁.dwl h900 k3 (by norm_num at k5; linarith)).2.2
    linarith
  have g1 : binary64 (amplMult64 a' (binary64 (x₁ / wl)) * wl) ≤ binary64 (amplMult64 a' (binary64 (x₂ / wl)) * wl) :=
    binary64_mono (mul_nonneg g0 hwl.le) (mul_le_mul_of_nonneg_right f1 hwl.le)
  have g2 : 0 ≤ binary64 (amplMult64 a' (binary64 (x₁ / wl)) * wl) := binary64_nonneg (mul_nonneg g0 hwl.le)
  have g3 : binary64 (binary64 (amplMult64 a' (binary64 (x₁ / wl)) * wl) / px₁) ≤ binary64 (binary64 (amplMult64 a' (binary64 (x₂ / wl)) * wl) / px₂) :=
    binary64_mono (div_nonneg g2 hc₁.2.2.2.1.le) (div_le_div₀ (g2.trans g1) g1 hc₂.2.2.2.1 hpx)
  have := rint_mono g3
  omega

theorem max_step {t q : ℝ} (ht : 0 ≤ t) :
    (open Classical in if binary64 t < |binary64 q| then |binary64 q| else binary64 t) = binary64 (open Classical in if t < |q| then |q| else t) := by
  rw [binary64_abs]
  by_cases h : t < |q|
  · rw [if_pos h]
    have := binary64_mono ht h.le
    by_cases h' : binary64 t < binary64 |q|
    · rw [if_pos h']
    · rw [if_neg h']; linarith
  · rw [if_neg h]
    have := binary64_mono (abs_nonneg q) (not_lt.1 h)
    rw [if_neg (not_lt.2 this)]

theorem sizeLoop64_between (NA wl px : ℝ) (hd : DoubleProps NA wl px) (hNA2 : NA ≤ 2) (hpx0 : 0 < px) : ∀ (ps : List ZernPol) (cs : List ℝ)
    (_ : cs.length = ps.length) (_ : ∀ p ∈ ps, ValidOrders p.m p.n ∧ p.n ≤ 2 ^ 40) (_ : ∀ c ∈ cs, binary64 c = c) (s s₁ s₂ : Int) (t : ℝ)
    (_ : s₁ ≤ s) (_ : s ≤ s₂) (_ : 0 ≤ t),
    ∃ r r₁ r₂ T, sizeLoop64 px wl NA ps (cs.map fun c => binary64 (c / wl)) (s, binary64 t) = .ok (r, binary64 T) ∧
      sizeLoop (px * (1 + 1 / 2 ^ 48)) wl NA ps (cs.map (· / wl)) (s₁, t) = .ok (r₁, T) ∧
      sizeLoop (px / (1 + 1 / 2 ^ 48)) wl NA ps (cs.map (· / wl)) (s₂, t) = .ok (r₂, T) ∧ r₁ ≤ r ∧ r ≤ r₂ ∧ (T = t ∨ ∃ c ∈ cs, T = |c / wl|) := by
  intro ps
  induction ps with
  | nil =>
    intro cs hl _ _ s s₁ s₂ t h1 h2 _
    exact ⟨s, s₁, s₂, t, rfl, rfl, rfl, h1, h2, Or.inl rfl⟩
  | cons p ps ih =>
    intro cs hl hv hc s s₁ s₂ t h1 h2 h3
    cases cs with
    | nil => simp at hl
    | cons c cs =>
      obtain ⟨S, S₁, S₂, e1, e2, e3, e4, e5, -, -⟩ := getKernelSize64_between p.m p.n (hv p (by simp)).1 (hv p (by simp)).2 NA wl px c hd.dNA hd.dwl
        (hc c (by simp)) hd.NA_min hNA2 hd.wl_min hpx0 hd.px_max
      obtain ⟨r, r₁, r₂, T, k1, k2, k3, k4, k5, k6⟩ := ih cs (by simpa using hl) (fun q hq => hv q (by simp [hq])) (fun q hq => hc q (by simp [hq]))
        (if s < S then S else s) (if s₁ < S₁ then S₁ else s₁) (if s₂ < S₂ then S₂ else s₂) (open Classical in if t < |c / wl| then |c / wl| else t)
        (by split_ifs <;> omega) (by split_ifs <;> omega) (by split_ifs <;> positivity)
      refine ⟨r, r₁, r₂, T, ?_, ?_, ?_, k4, k5, ?_⟩
      · simp only [List.map_cons, sizeLoop64, e1, bind, Except.bind]
        rw [max_step h3]
        exact k1
      · simp only [List.map_cons, sizeLoop, e2, bind, Except.bind]
        exact k2
      · simp only [List.map_cons, sizeLoop, e3, bind, Except.bind]
        exact k3
      · rcases k6 with k6 | ⟨w, hw, k6⟩
        · by_cases h : t < |c / wl|
          · rw [if_pos h] at k6; right; exact ⟨c, by simp, k6⟩
          · rw [if_neg h] at k6; left; exact k6
        · right; exact ⟨w, by simp [hw], k6⟩

/-- A product with a count of polynomials that is not near a half-integer is rounded to the same integer. -/
theorem rint_tenths (p : ℕ) (hp : p % 2 = 0) (hp0 : 5 ≤ p) (hp1 : p ≤ 20) (n : ℕ) (hn : n ≤ 2 ^ 40) :
    rint (binary64 (binary64 ((p : ℝ) / 10) * n)) = rint ((p : ℝ) / 10 * n) := by
  obtain ⟨k, hk⟩ : ∃ k, k = rint ((p : ℝ) / 10 * n) := ⟨_, rfl⟩
  have hnear := rint_near ((p : ℝ) / 10 * n)
  rw [← hk] at hnear ⊢
  have hpR : (5 : ℝ) ≤ p := by exact_mod_cast hp0
  have hpR1 : (p : ℝ) ≤ 20 := by exact_mod_cast hp1
  have hnR : (n : ℝ) ≤ 2 ^ 40 := by exact_mod_cast hn
  have hn0 : (0 : ℝ) ≤ n := Nat.cast_nonneg n
  rcases Nat.eq_zero_or_pos n with h0 | h0
  · subst h0
    rw [hk]
    norm_num [binary64_zero]
  have hn1 : (1 : ℝ) ≤ n := by exact_mod_cast h0
  have hint : |(k : ℝ) - (p : ℝ) / 10 * n| ≤ 4 / 10 := by
    have h1 : |((10 * k - p * n : ℤ) : ℝ)| ≤ 5 := by
      have e : ((10 * k - p * n : ℤ) : ℝ) = 10 * ((k : ℝ) - (p : ℝ) / 10 * n) := by push_cast; ring
      rw [e, abs_mul, abs_of_pos (by norm_num)]
      linarith
    have h2 : |10 * k - (p : ℤ) * n| ≤ 5 := by exact_mod_cast h1
    have h3 : |10 * k - (p : ℤ) * n| ≤ 4 := by
      obtain ⟨j, hj⟩ : ∃ j : ℤ, (p : ℤ) = 2 * j := ⟨p / 2, by omega⟩
      rw [abs_le] at h2 ⊢
      rw [hj, mul_assoc] at h2 ⊢
      omega
    have h4 : |((10 * k - p * n : ℤ) : ℝ)| ≤ 4 := by exact_mod_cast h3
    have e : ((10 * k - p * n : ℤ) : ℝ) = 10 * ((k : ℝ) - (p : ℝ) / 10 * n) := by push_cast; ring
    rw [e, abs_mul, abs_of_pos (by norm_num)] at h4
    linarith
  have r1 := Rl.fl (x := (p : ℝ) / 10) (tiny_50 (by norm_num; linarith))
  have r2 := r1.mul (Rl.refl hn0)
  have g1 : 1 / 4 ≤ binary64 ((p : ℝ) / 10) * n := by
    have h1 := r1.2.1
    rw [pow_one] at h1
    unfold oneUlp at h1
    have : 1 / 4 ≤ binary64 ((p : ℝ) / 10) := by norm_num at h1 ⊢; linarith
    nlinarith
  have r3 : Rl 2 _ _ := r2.round (tiny_50 (by norm_num at g1 ⊢; linarith))
  have v1 : (p : ℝ) / 10 * n ≤ 2 ^ 41 := by
    have : (p : ℝ) / 10 * n ≤ 2 * 2 ^ 40 := mul_le_mul (by linarith) hnR hn0 (by norm_num)
    norm_num at this ⊢; linarith
  have hu := two_rl
  have w1 := r3.2.2.trans (mul_le_mul_of_nonneg_left hu r3.1)
  have w2 := r3.2.1.trans (mul_le_mul_of_nonneg_left hu r3.nonneg)
  apply rint_unique
  rw [abs_le] at hint
  rw [abs_lt]
  norm_num at w1 w2 v1 hint ⊢
  constructor <;> nlinarith

/-- The maximal amplitude is not just below three quarters. -/
def NotBelow75 (q : ℝ) : Prop := ¬ (0.75 * (1 - 1 / 2 ^ 52) < q ∧ q < 0.75)

theorem side75 {q : ℝ} (h0 : 0 ≤ q) (h : NotBelow75 q) : binary64 q < 0.75 ↔ q < 0.75 := by
  constructor
  · intro h1
    by_contra hc
    have := binary64_mono (by norm_num) (not_lt.1 hc)
    have e : binary64 0.75 = 0.75 := by
      have := binary64_exact 3 (-2) (by norm_num) (by norm_num)
      norm_num at this ⊢; exact this
    rw [e] at this
    linarith
  · intro h1
    have h2 : q ≤ 0.75 * (1 - 1 / 2 ^ 52) := by
      by_contra hc
      exact h ⟨not_le.1 hc, h1⟩
    have h3 : q ≤ ((3 * 2 ^ 51 - 1 : ℤ) : ℝ) * 2 ^ (-53 : ℤ) := by
      refine h2.trans ?_
      rw [zpow_neg]; norm_num
    have h4 := binary64_mono h0 h3
    rw [binary64_exact _ _ (by norm_num) (by norm_num)] at h4
    refine lt_of_le_of_lt h4 ?_
    rw [zpow_neg]; norm_num

theorem enlarge64_eq (s : Int) (T : ℝ) (n : ℕ) (hn : n ≤ 2 ^ 40) (h1 : binary64 T < 0.75 ↔ T < 0.75) (h2 : binary64 T < 0.5 ↔ T < 0.5)
    (h3 : 0.25 ≤ binary64 T ↔ 0.25 ≤ T) : enlarge64 s (binary64 T) n = enlarge s T n := by
  have a1 := rint_tenths 6 (by norm_num) (by norm_num) (by norm_num) n hn
  have a2 := rint_tenths 14 (by norm_num) (by norm_num) (by norm_num) n hn
  have e1 : (((6 : ℕ) : ℝ) / 10) = 0.6 := by norm_num
  have e2 : (((14 : ℕ) : ℝ) / 10) = 1.4 := by norm_num
  rw [e1] at a1
  rw [e2] at a2
  have a3 : binary64 (1.0 * (n : ℝ)) = 1.0 * n := by
    have : (1.0 : ℝ) * n = n := by norm_num
    rw [this]; exact binary64_nat n (hn.trans (by norm_num))
  have h2' : 0.5 ≤ binary64 T ↔ 0.5 ≤ T := by rw [← not_lt, ← not_lt, h2]
  have h1' : binary64 T ≥ 0.75 ↔ T ≥ 0.75 := by rw [ge_iff_le, ge_iff_le, ← not_lt, ← not_lt, h1]
  unfold enlarge64 enlarge
  simp only [h1, h2, h3, h2', h1', a1, a2, a3]

theorem enlarge_mono (s s' : Int) (h : s ≤ s') (T : ℝ) (n : ℕ) : enlarge s T n ≤ enlarge s' T n := by
  unfold enlarge
  apply makeOdd_mono
  split_ifs <;> omega

/-- C102. Several polynomials, in double precision: the estimated size is odd, and between the exact estimates (the loop over the polynomials, and the
enlargement) for a pixel that is larger, and smaller, by the factor `1 + 2^-48`, unless a coefficient is just below three quarters of the wavelength. -/
theorem estimated_size_several_double (o o' : PsfObj) (hz : o.zernpol = none) (hb : 2 ≤ o.polynomials.length) (hb' : o.polynomials.length ≤ 2 ^ 40)
    (hv : ∀ z ∈ o.polynomials, ValidOrders z.m z.n ∧ z.n ≤ 2 ^ 40) (NA wl px : ℝ) (cs : List ℝ) (hd : DoubleProps NA wl px)
    (dc : ∀ c ∈ cs, binary64 c = c) (h75 : ∀ c ∈ cs, NotBelow75 (|c| / wl))
    (h : o.setPhysicalProps64 NA wl (.seq cs) px = (.ok (), o')) :
    o'.kernelSize % 2 = 1 ∧
    ∃ r₁ r₂, sizeLoop (px * (1 + 1 / 2 ^ 48)) wl NA o.polynomials (cs.map (· / wl)) (0, 0) = .ok r₁ ∧
      sizeLoop (px / (1 + 1 / 2 ^ 48)) wl NA o.polynomials (cs.map (· / wl)) (0, 0) = .ok r₂ ∧
      enlarge r₁.1 r₁.2 o.polynomials.length ≤ o'.kernelSize ∧ o'.kernelSize ≤ enlarge r₂.1 r₂.2 o.polynomials.length := by
  obtain ⟨hc, hl, r, hr, hs⟩ := set64_seq hz hb h
  obtain ⟨R, r₁, r₂, T, k1, k2, k3, k4, k5, k6⟩ := sizeLoop64_between NA wl px hd (checks_two hc) hc.2.2.2.1 o.polynomials cs hl hv dc 0 0 0 0 le_rfl le_rfl le_rfl
  rw [binary64_zero, hr] at k1
  have k1 := Except.ok.inj k1
  subst k1
  have hwl : 0 < wl := hc.2.2.1
  have h900 : (2 : ℝ) ^ (-900 : ℤ) ≤ wl := le_trans (zpow_le_zpow_right₀ (by norm_num) (by norm_num)) hd.wl_min
  have heq : ∀ s, enlarge64 s (binary64 T) o.polynomials.length = enlarge s T o.polynomials.length := by
    intro s
    rcases k6 with rfl | ⟨c, hcm, rfl⟩
    · apply enlarge64_eq _ _ _ hb' <;> rw [binary64_zero]
    · obtain ⟨s1, s2⟩ := ampl_sides (dc c hcm) hd.dwl h900
      rw [binary64_abs] at s1 s2
      refine enlarge64_eq _ _ _ hb' ?_ ?_ s2
      · apply side75 (abs_nonneg _)
        have := h75 c hcm
        rwa [abs_div, abs_of_pos hwl]
      · rw [← not_le, ← not_le]
        exact not_congr s1
  refine ⟨?_, (r₁, T), (r₂, T), k2, k3, ?_, ?_⟩
  · rw [hs]; unfold enlarge64; exact makeOdd_odd _
  · rw [hs, heq]; exact enlarge_mono _ _ k4 _ _
  · rw [hs, heq]; exact enlarge_mono _ _ k5 _ _

/-- The wavelength of `size_double_differs`: the double nearest to `165/224`. -/
noncomputable def wl83 : ℝ := ((6634767308179749 : ℤ) : ℝ) * 2 ^ (-53 : ℤ)

theorem wl83_props : DoubleProps 1 wl83 (1 / 16) ∧ PhysicalOk 1 wl83 (1 / 16) := by
  have e : wl83 = 6634767308179749 / 2 ^ 53 := by unfold wl83; rw [zpow_neg]; norm_num
  have big : (1 : ℝ) ≤ 2 ^ 500 := one_le_pow₀ (by norm_num)
  have small : (2 : ℝ) ^ (-500 : ℤ) ≤ 2 ^ (-1 : ℤ) := zpow_le_zpow_right₀ (by norm_num) (by norm_num)
  refine ⟨⟨by simpa using binary64_nat 1 (by norm_num), binary64_exact _ _ (by norm_num) (by norm_num), ?_, ?_, ?_, ?_, ?_⟩, ?_⟩
  · have := binary64_exact 1 (-4) (by norm_num) (by norm_num)
    norm_num at this ⊢; exact this
  · exact small.trans (by norm_num)
  · refine small.trans ?_; rw [e]; norm_num
  · refine le_trans ?_ big; rw [e]; norm_num
  · exact le_trans (by norm_num) big
  · unfold PhysicalOk; rw [e]; norm_num

/-- C102. The size in double precision is not always the exact estimate: for the piston with `NA = 1`, a pixel of `1/16` and the wavelength
`0.7366...` (the double nearest to `165/224`), `set_physical_props` estimates 83 while the exact formula gives 85. -/
theorem size_double_differs : ∃ o', psfDefault.setPhysicalProps64 1 wl83 (.num 0) (1 / 16) = (.ok (), o') ∧ o'.kernelSize = 83 ∧
    psfDefault.zernpol = some pistonPol ∧ getKernelSize pistonPol.m pistonPol.n (1 / 16) (0 / wl83) wl83 1 = .ok 85 := by
  obtain ⟨hd, hp⟩ := wl83_props
  have hz : psfDefault.zernpol = some pistonPol := rfl
  have hmn : pistonPol.m = 0 ∧ pistonPol.n = 0 := ⟨rfl, rfl⟩
  obtain ⟨o', ho'⟩ := (estimated_size_double psfDefault pistonPol hz (by rw [hmn.1, hmn.2]; decide) (by rw [hmn.2]; norm_num) 1 wl83 (1 / 16) 0 hd binary64_zero).1 hp
  have hS := (set64_num hz ho').2
  rw [hmn.1, hmn.2] at hS
  have one : binary64 1 = 1 := by simpa using binary64_nat 1 (by norm_num)
  have a64 : sizeMultiplier64 0 0 1 = .ok (7, 0) := by
    unfold sizeMultiplier64
    rw [if_pos ⟨rfl, rfl⟩, if_neg (by norm_num), if_neg (by norm_num), if_neg (by norm_num)]
    have h1 : sqrt64 (binary64 (1 / 1)) = 1 := by rw [div_one, one]; unfold sqrt64; rw [Real.sqrt_one, one]
    have h2 : binary64 2.5 = 2.5 := by
      have := binary64_exact 5 (-1) (by norm_num) (by norm_num)
      norm_num at this ⊢; exact this
    have h3 : binary64 7 = 7 := by simpa using binary64_nat 7 (by norm_num)
    rw [h1, mul_one, h2]
    norm_num
    exact h3
  have a1 : sizeMultiplier 0 0 1 = .ok (7, 0) := by
    unfold sizeMultiplier
    rw [if_pos ⟨rfl, rfl⟩, if_neg (by norm_num), if_neg (by norm_num), if_neg (by norm_num)]
    norm_num
  have f0 : amplExt 0 = 0 := by unfold amplExt; rw [abs_zero, if_neg (by norm_num), if_neg (by norm_num)]
  have f1 : amplFactor 0 = 1 := by unfold amplFactor; rw [abs_zero, if_neg (by norm_num), if_neg (by norm_num)]
  have f2 : amplMult64 7 0 = 7 := by unfold amplMult64; rw [abs_zero, if_neg (by norm_num), if_neg (by norm_num)]
  have e : wl83 = 6634767308179749 / 2 ^ 53 := by unfold wl83; rw [zpow_neg]; norm_num
  have b1 : binary64 (7 * wl83) = 165 / 32 := by
    have := binary64_eq (x := 7 * wl83) 2 (165 * 2 ^ 45) (by norm_num) (by rw [e]; norm_num) (by rw [e]; norm_num) (by
      rw [e, show ((2 : ℤ) - 52) = -50 by norm_num, zpow_neg]
      norm_num [abs_lt])
    rw [this, show ((2 : ℤ) - 52) = -50 by norm_num, zpow_neg]
    norm_num
  have b2 : binary64 (165 / 32 / (1 / 16)) = 82 + 1 / 2 := by
    have := binary64_exact 165 (-1) (by norm_num) (by norm_num)
    norm_num at this ⊢; exact this
  refine ⟨o', ho', ?_, hz, ?_⟩
  · rw [zero_div, binary64_zero, getKernelSize64_form _ _ _ _ _ _ _ _ a64, f0, f2, b1, b2] at hS
    have hr : rint (82 + 1 / 2 : ℝ) = 82 := by
      unfold rint
      have : ⌊(82 + 1 / 2 : ℝ)⌋ = 82 := by rw [Int.floor_eq_iff]; norm_num
      rw [this]
      norm_num
    rw [hr] at hS
    have := Except.ok.inj hS
    rw [← this]
    decide
  · rw [hmn.1, hmn.2, zero_div, getKernelSize_form _ _ _ _ _ _ _ _ a1, f0, f1]
    have hr : rint (7 * 1 * wl83 / (1 / 16)) = 83 := by
      apply rint_unique
      rw [e]
      norm_num [abs_lt]
    rw [hr]
    rfl

/-- The rounded threshold is the exact one for a slightly different part. -/
theorem crop64_part (o : PsfObj) (n : Nat) (hr : o.kernel.rows = n) (hc : o.kernel.cols = n) (h0 : 0 < n) (hnn : ∀ i j, 0 ≤ o.kernel.entry i j)
    (top : ℝ) (hmax : IsMax o.kernel n top) (part : ℝ) (hp : 0 < part) (hp' : part < 1 / 2) (dp : binary64 part = part)
    (hn : top = 0 ∨ 2 ^ (-1022 : ℤ) ≤ part * top) :
    ∃ part', |part' - part| ≤ part / 2 ^ 53 ∧ 0 < part' ∧ part' < 1 / 2 ∧ binary64 (part * top) = part' * top ∧
      ∀ o₂ : PsfObj, npMax o₂.kernel.elems = .ok top → o₂.crop64 part = o₂.crop part' := by
  have htop : 0 ≤ top := by obtain ⟨⟨i, j, _, _, e⟩, _⟩ := hmax; rw [← e]; exact hnn i j
  have half : part ≤ 1 / 2 * (1 - 1 / 2 ^ 53) := by
    have d2 : binary64 (1 / 2) = 1 / 2 := by
      have := binary64_exact 1 (-1) (by norm_num) (by norm_num)
      norm_num at this ⊢; exact this
    exact double_gap dp d2 hp.le hp' (le_trans (zpow_le_zpow_right₀ (by norm_num) (by norm_num : (-1000 : ℤ) ≤ -1)) (by norm_num))
  have main : ∃ part', |part' - part| ≤ part / 2 ^ 53 ∧ binary64 (part * top) = part' * top := by
    rcases hn with h | h
    · exact ⟨part, by rw [sub_self, abs_zero]; positivity, by rw [h, mul_zero, binary64_zero]⟩
    · have t0 : 0 < top := by
        rcases htop.eq_or_lt with h1 | h1
        · rw [← h1, mul_zero] at h
          exact absurd h (not_le.2 (by positivity))
        · exact h1
      refine ⟨binary64 (part * top) / top, ?_, by field_simp⟩
      have e := binary64_relative h
      have u : (2 : ℝ) ^ (-53 : ℤ) = 1 / 2 ^ 53 := by rw [zpow_neg]; norm_num
      rw [u] at e
      have : binary64 (part * top) / top - part = (binary64 (part * top) - part * top) / top := by field_simp
      rw [this, abs_div, abs_of_pos t0, div_le_iff₀ t0]
      refine e.trans (le_of_eq ?_)
      ring
  obtain ⟨part', m1, m2⟩ := main
  have b := abs_le.1 m1
  have lo : 0 < part' := by
    have := b.1
    norm_num at this
    linarith
  have hi : part' < 1 / 2 := by
    have := b.2
    norm_num at this half ⊢
    linarith
  refine ⟨part', m1, lo, hi, m2, ?_⟩
  intro o₂ h2
  have g1 : ¬ part' ≥ 0.5 := by norm_num at hi ⊢; exact hi
  have g2 : ¬ part ≥ 0.5 := by norm_num at hp' ⊢; exact hp'
  unfold PsfObj.crop64 PsfObj.crop
  simp only [h2, if_neg g1, if_neg g2, if_neg (not_le.2 lo), if_neg (not_le.2 hp), m2]
  rfl

/-- C102. `crop_kernel` in double precision, on any square kernel without negative values: it succeeds and crops exactly as the exact rule does for a part
within one rounding of the requested one (so that everything removed is below `part * (1 + 2^-53)` of the maximum and the border of the rest reaches
`part * (1 - 2^-53)` of it); a second call changes nothing. -/
theorem crop_kernel_double (o : PsfObj) (n : Nat) (hr : o.kernel.rows = n) (hc : o.kernel.cols = n) (h0 : 0 < n) (hnn : ∀ i j, 0 ≤ o.kernel.entry i j)
    (top : ℝ) (hmax : IsMax o.kernel n top) (part : ℝ) (hp : 0 < part) (hp' : part < 1 / 2) (dp : binary64 part = part)
    (hn : top = 0 ∨ 2 ^ (-1022 : ℤ) ≤ part * top) (hs : 3 < o.kernelSize) :
    ∃ o' part' t, |part' - part| ≤ part / 2 ^ 53 ∧ o.crop64 part = (.ok (), o') ∧ CropBy o.kernel n part' top t ∧ IsInner o.kernel n t o'.kernel ∧
      (0 < t → o'.kernelSize = (o'.kernel.rows : Int)) ∧ (t = 0 → o' = o) ∧ o'.crop64 part = (.ok (), o') := by
  obtain ⟨part', m1, m2, m3, -, m4⟩ := crop64_part o n hr hc h0 hnn top hmax part hp hp' dp hn
  have npm : ∀ o₂ : PsfObj, ∀ n₂, o₂.kernel.rows = n₂ → o₂.kernel.cols = n₂ → 0 < n₂ → IsMax o₂.kernel n₂ top → npMax o₂.kernel.elems = .ok top := by
    intro o₂ n₂ e1 e2 e3 hm
    have hne : o₂.kernel.elems ≠ [] := by
      have : o₂.kernel.entry 0 0 ∈ o₂.kernel.elems := (mem_elems _ _).2 ⟨0, 0, by omega, by omega, rfl⟩
      intro h; rw [h] at this; simp at this
    obtain ⟨t, h1, h2, h3⟩ := npMax_ok _ hne
    obtain ⟨a, b, ha, hb, hab⟩ := (mem_elems _ _).1 h2
    rw [h1]
    congr 1
    obtain ⟨⟨i, j, hi, hj, e⟩, hle⟩ := hm
    apply le_antisymm
    · rw [← hab]; exact hle a b (by omega) (by omega)
    · rw [← e]; exact h3 _ ((mem_elems _ _).2 ⟨i, j, by omega, by omega, rfl⟩)
  obtain ⟨top', t, h1, h2, h3⟩ := crop_spec o n hr hc h0 (fun i j _ _ => hnn i j) hs part' m2 m3
  have et := isMax_unique _ _ _ _ h1 hmax
  subst et
  have h4 : o.crop64 part = _ := (m4 o (npm o n hr hc h0 h1)).trans h3
  by_cases ht : t = 0
  · rw [if_pos ht] at h4
    refine ⟨o, part', t, m1, h4, h2, ?_, by omega, fun _ => rfl, h4⟩
    subst ht
    exact ⟨by omega, by omega, fun i j => rfl⟩
  · rw [if_neg ht] at h4
    refine ⟨_, part', t, m1, h4, h2, ⟨by simp only [Grid.inner, hr], by simp only [Grid.inner, hc], fun i j => rfl⟩,
      fun _ => by simp only [Grid.inner, hr], fun h => absurd h ht, ?_⟩
    generalize ho' : ({ o with kernel := o.kernel.inner t, kernelSize := ((n - 2 * t : Nat) : Int) } : PsfObj) = o'
    have hk : o'.kernel = o.kernel.inner t := by rw [← ho']
    have hne := h2.nonempty
    have hrows : o'.kernel.rows = n - 2 * t := by rw [hk]; simp only [Grid.inner, hr]
    have hcols : o'.kernel.cols = n - 2 * t := by rw [hk]; simp only [Grid.inner, hc]
    have hmi := crop_max_inner o.kernel n hnn part' top' m3 t h1 h2
    by_cases hs' : 3 < o'.kernelSize
    · obtain ⟨top₂, t', k1, k2, k3⟩ := crop_spec o' (n - 2 * t) hrows hcols (by omega) (fun i j _ _ => by rw [hk]; exact hnn _ _) hs' part' m2 m3
      rw [m4 o' (npm o' _ hrows hcols (by omega) (by rw [hk]; exact hmi.1))]
      rw [hk] at k1 k2
      have e := isMax_unique _ _ _ _ k1 hmi.1
      subst e
      have e := cropBy_unique _ _ _ _ _ _ k2 hmi.2
      rw [k3, if_pos e]
    · unfold PsfObj.crop64
      rw [if_neg hs']

/-- The hypotheses of `estimated_size_double` and `estimated_size_double_near` are met: the vertical tilt, `NA = 1`, the wavelength 0.75, a pixel of 0.125 and the coefficient 0.5. -/
example : ∃ o o' : PsfObj, ∃ z, o.zernpol = some z ∧ ValidOrders z.m z.n ∧ z.n ≤ 2 ^ 40 ∧ DoubleProps 1 0.75 0.125 ∧ PhysicalOk 1 0.75 0.125 ∧ binary64 0.5 = 0.5 ∧
    o.setPhysicalProps64 1 0.75 (.num 0.5) 0.125 = (.ok (), o') ∧ 0.75 / 2 ≤ |(0.5 : ℝ)| := by
  have dy : ∀ (k : ℤ) (e : ℕ), |k| ≤ 2 ^ 53 → e ≤ 1000 → binary64 (k / 2 ^ e) = k / 2 ^ e := by
    intro k e hk he
    have := binary64_exact k (-(e : ℤ)) hk (by omega)
    rwa [zpow_neg, zpow_natCast, ← div_eq_mul_inv] at this
  have d1 := dy 3 2 (by norm_num) (by norm_num)
  have d2 := dy 1 3 (by norm_num) (by norm_num)
  have d3 := dy 1 1 (by norm_num) (by norm_num)
  have d4 := dy 1 0 (by norm_num) (by norm_num)
  norm_num at d1 d2 d3 d4
  have big : (1 : ℝ) ≤ 2 ^ 500 := one_le_pow₀ (by norm_num)
  have small : (2 : ℝ) ^ (-500 : ℤ) ≤ 2 ^ (-1 : ℤ) := zpow_le_zpow_right₀ (by norm_num) (by norm_num)
  have hd : DoubleProps 1 0.75 0.125 := ⟨d4, by norm_num; exact d1, by norm_num; exact d2, small.trans (by norm_num), small.trans (by norm_num),
    le_trans (by norm_num) big, le_trans (by norm_num) big⟩
  have hp : PhysicalOk 1 0.75 0.125 := by unfold PhysicalOk; norm_num
  have h5 : binary64 0.5 = 0.5 := by norm_num; exact d3
  obtain ⟨o', ho'⟩ := (estimated_size_double { psfDefault with zernpol := some ⟨-1, 1, 1, 3, .int 3⟩ } ⟨-1, 1, 1, 3, .int 3⟩ rfl (by decide) (by norm_num) 1 0.75 0.125 0.5 hd h5).1 hp
  exact ⟨_, o', _, rfl, by decide, by norm_num, hd, hp, h5, ho', by norm_num⟩

/-- The hypotheses of `crop_kernel_double` are met: a kernel of 5 x 5 with one bright pixel, and a quarter. -/
example : ∃ o : PsfObj, o.kernel.rows = 5 ∧ o.kernel.cols = 5 ∧ (∀ i j, 0 ≤ o.kernel.entry i j) ∧ IsMax o.kernel 5 1 ∧ binary64 (1 / 4) = 1 / 4 ∧
    ((1 : ℝ) = 0 ∨ 2 ^ (-1022 : ℤ) ≤ 1 / 4 * (1 : ℝ)) ∧ 3 < o.kernelSize := by
  refine ⟨{ psfDefault with kernel := ⟨5, 5, fun i j => if i = 2 ∧ j = 2 then 1 else 0⟩, kernelSize := 5 }, rfl, rfl, ?_, ?_, ?_, ?_, by norm_num⟩
  · intro i j
    show (0 : ℝ) ≤ if i = 2 ∧ j = 2 then 1 else 0
    split_ifs <;> norm_num
  · refine ⟨⟨2, 2, by norm_num, by norm_num, ?_⟩, ?_⟩
    · show (if 2 = 2 ∧ 2 = 2 then (1 : ℝ) else 0) = 1
      norm_num
    · intro i j _ _
      show (if i = 2 ∧ j = 2 then (1 : ℝ) else 0) ≤ 1
      split_ifs <;> norm_num
  · have := binary64_exact 1 (-2) (by norm_num) (by norm_num)
    norm_num at this ⊢; exact this
  · right
    refine (tiny_le (-2) (by norm_num)).trans ?_
    norm_num

/-- The hypotheses of `estimated_size_several_double` are met: the two tilts with the coefficients 0.25 and -0.5. -/
example : ∃ o o' : PsfObj, o.zernpol = none ∧ 2 ≤ o.polynomials.length ∧ o.polynomials.length ≤ 2 ^ 40 ∧ (∀ z ∈ o.polynomials, ValidOrders z.m z.n ∧ z.n ≤ 2 ^ 40) ∧
    DoubleProps 1 0.75 0.125 ∧ (∀ c ∈ ([1 / 4, -(1 / 2)] : List ℝ), binary64 c = c ∧ NotBelow75 (|c| / 0.75)) ∧
    o.setPhysicalProps64 1 0.75 (.seq [1 / 4, -(1 / 2)]) 0.125 = (.ok (), o') := by
  have dy : ∀ (k : ℤ) (e : ℕ), |k| ≤ 2 ^ 53 → e ≤ 1000 → binary64 (k / 2 ^ e) = k / 2 ^ e := by
    intro k e hk he
    have := binary64_exact k (-(e : ℤ)) hk (by omega)
    rwa [zpow_neg, zpow_natCast, ← div_eq_mul_inv] at this
  have d1 := dy 3 2 (by norm_num) (by norm_num)
  have d2 := dy 1 3 (by norm_num) (by norm_num)
  have d3 := dy (-1) 1 (by norm_num) (by norm_num)
  have d4 := dy 1 0 (by norm_num) (by norm_num)
  have d5 := dy 1 2 (by norm_num) (by norm_num)
  norm_num at d1 d2 d3 d4 d5
  have big : (1 : ℝ) ≤ 2 ^ 500 := one_le_pow₀ (by norm_num)
  have small : (2 : ℝ) ^ (-500 : ℤ) ≤ 2 ^ (-1 : ℤ) := zpow_le_zpow_right₀ (by norm_num) (by norm_num)
  have hd : DoubleProps 1 0.75 0.125 := ⟨d4, by norm_num; exact d1, by norm_num; exact d2, small.trans (by norm_num), small.trans (by norm_num),
    le_trans (by norm_num) big, le_trans (by norm_num) big⟩
  have hp : PhysicalOk 1 0.75 0.125 := by unfold PhysicalOk; norm_num
  have hc := (checks_double hd).1 hp
  have hcs : ∀ c ∈ ([1 / 4, -(1 / 2)] : List ℝ), binary64 c = c ∧ NotBelow75 (|c| / 0.75) := by
    intro c hc
    simp only [List.mem_cons, List.mem_nil_iff, or_false] at hc
    rcases hc with rfl | rfl
    · refine ⟨by rw [d5], ?_⟩
      unfold NotBelow75; norm_num [abs_of_pos]
    · refine ⟨d3, ?_⟩
      unfold NotBelow75; norm_num [abs_of_pos]
  have hv : ∀ z ∈ ([⟨-1, 1, 1, 3, .int 3⟩, ⟨1, 1, 2, 2, .int 2⟩] : List ZernPol), ValidOrders z.m z.n ∧ z.n ≤ 2 ^ 40 := by
    intro z hz
    simp only [List.mem_cons, List.mem_nil_iff, or_false] at hz
    rcases hz with rfl | rfl <;> exact ⟨by decide, by norm_num⟩
  obtain ⟨r, r₁, r₂, T, k1, -⟩ := sizeLoop64_between 1 0.75 0.125 hd (by norm_num) (by norm_num) [⟨-1, 1, 1, 3, .int 3⟩, ⟨1, 1, 2, 2, .int 2⟩] [1 / 4, -(1 / 2)] rfl hv
    (fun c h => (hcs c h).1) 0 0 0 0 le_rfl le_rfl le_rfl
  rw [binary64_zero] at k1
  obtain ⟨c1, c2, c3, c4, c5⟩ := hc
  obtain ⟨top, htop⟩ := npMax_of_ne (l := ([1 / 4, -(1 / 2)] : List ℝ)) (by simp)
  refine ⟨{ psfDefault with zernpol := none, polynomials := [⟨-1, 1, 1, 3, .int 3⟩, ⟨1, 1, 2, 2, .int 2⟩] }, ?_, rfl, by simp, by norm_num, hv, hd, hcs, ?_⟩
  rotate_left
  · unfold PsfObj.setPhysicalProps64
    rw [if_neg (by push Not; exact ⟨c1.le, c2⟩), if_neg (not_le.2 c3)]
    simp only
    rw [if_neg c1.ne', if_neg (not_le.2 c4), if_neg (not_lt.2 c5)]
    simp only [PsfObj.storeCoeff64, PsfObj.estimateSize64, List.length_cons, List.length_nil, ne_eq, not_true_eq_false, if_false, htop, Option.getD_some, k1, bind, Except.bind,
      pure, Except.pure]
    rfl

end Verif.Props
