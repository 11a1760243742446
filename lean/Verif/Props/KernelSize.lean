import Verif.Props.Json

/-!
# C67: the estimated kernel size
-/

namespace Verif.Props
open Verif.Model Verif.Spec Verif.Proofs

/-- The factor and the extension by the amplitude. -/
noncomputable def amplFactor (alpha : ℝ) : ℝ :=
  open Classical in if |alpha| ≥ 0.5 then Real.sqrt (2.5 * |alpha|) else if |alpha| ≥ 0.25 then Real.sqrt (4.25 * |alpha|) else 1
noncomputable def amplExt (alpha : ℝ) : Int := open Classical in if |alpha| ≥ 0.5 then 2 else if |alpha| ≥ 0.25 then 1 else 0

theorem getKernelSize_form (m n : Int) (px alpha wl NA : ℝ) (a : ℝ) (e : Int) (h : sizeMultiplier m n NA = .ok (a, e)) :
    getKernelSize m n px alpha wl NA = .ok (makeOdd (rint (a * amplFactor alpha * wl / px) + 1 + (e + amplExt alpha))) := by
  unfold getKernelSize amplFactor amplExt
  rw [h]
  show (pure _ : Res Int) = _
  unfold makeOdd
  by_cases h1 : |alpha| ≥ 0.5
  · simp only [if_pos h1]; rfl
  · simp only [if_neg h1]
    by_cases h2 : |alpha| ≥ 0.25
    · simp only [if_pos h2]; rfl
    · simp only [if_neg h2, mul_one, add_zero]; rfl

theorem makeOdd_mono {a b : Int} (h : a ≤ b) : makeOdd a ≤ makeOdd b := by
  unfold makeOdd; split_ifs <;> omega

theorem amplFactor_nonneg (x : ℝ) : 0 ≤ amplFactor x := by
  unfold amplFactor; split_ifs <;> positivity

theorem amplFactor_mono {x y : ℝ} (h : |x| ≤ |y|) (hc : |y| < 1 / 2 ∨ 1 / 2 ≤ |x|) : amplFactor x ≤ amplFactor y ∧ amplExt x ≤ amplExt y := by
  have e5 : (0.5 : ℝ) = 1 / 2 := by norm_num
  have h1 : ∀ t : ℝ, t ≥ 0.25 → 1 ≤ Real.sqrt (4.25 * t) := fun t ht => Real.one_le_sqrt.2 (by norm_num at *; linarith)
  unfold amplFactor amplExt
  rcases hc with hc | hc
  · have hx : ¬ |x| ≥ 0.5 := by rw [e5]; linarith
    have hy : ¬ |y| ≥ 0.5 := by rw [e5]; linarith
    simp only [if_neg hx, if_neg hy]
    by_cases h2 : |x| ≥ 0.25
    · have h3 : |y| ≥ 0.25 := le_trans h2 h
      simp only [if_pos h2, if_pos h3]
      exact ⟨Real.sqrt_le_sqrt (by linarith), le_rfl⟩
    · simp only [if_neg h2]
      by_cases h3 : |y| ≥ 0.25
      · simp only [if_pos h3]; exact ⟨h1 _ h3, by norm_num⟩
      · simp only [if_neg h3]; exact ⟨le_rfl, le_rfl⟩
  · have hx : |x| ≥ 0.5 := by rw [e5]; linarith
    have hy : |y| ≥ 0.5 := le_trans hx h
    simp only [if_pos hx, if_pos hy]
    exact ⟨Real.sqrt_le_sqrt (by linarith), le_rfl⟩

theorem sizeMultiplier_abs (m m' n : Int) (NA NA' : ℝ) (hm : |m| = |m'|) (hNA : NA = NA' ∨ ¬ (m = 0 ∧ n = 0)) :
    sizeMultiplier m n NA = sizeMultiplier m' n NA' := by
  have h0 : (m = 0 ∧ n = 0) = (m' = 0 ∧ n = 0) := by
    rw [← abs_eq_zero (a := m), ← abs_eq_zero (a := m'), hm]
  unfold sizeMultiplier
  rw [← hm]
  rcases hNA with rfl | h
  · simp only [h0]
  · have h' : ¬ (m' = 0 ∧ n = 0) := by rw [← h0]; exact h
    simp only [if_neg h, if_neg h']

theorem set_ok_physical {o o' : PsfObj} {NA wl px : ℝ} {co : CoeffArg} (h : o.setPhysicalProps NA wl co px = (.ok (), o')) : PhysicalOk NA wl px := by
  rcases setPhysical_cases o NA wl co px with ⟨_, e⟩ | ⟨_, _, e⟩ | ⟨_, _, _, _, e⟩ | ⟨h1, h2, h3, h4, h5, _⟩
  · rw [e] at h; simp at h
  · rw [e] at h; simp at h
  · rw [e] at h; simp at h
  · rw [nyquist_eq] at h5; exact ⟨h2, h3, h1, h4, h5⟩

theorem set_num_size {o o' : PsfObj} {z : ZernPol} (hz : o.zernpol = some z) (hv : ValidOrders z.m z.n) {NA wl px x : ℝ}
    (h : o.setPhysicalProps NA wl (.num x) px = (.ok (), o')) {a : ℝ} {e : Int} (hm : sizeMultiplier z.m z.n NA = .ok (a, e)) :
    o'.kernelSize = makeOdd (rint (a * amplFactor (x / wl) * wl / px) + 1 + (e + amplExt (x / wl))) := by
  obtain ⟨S, h1, h2⟩ := setPhysical_num o z hz hv NA wl px x (set_ok_physical h)
  rw [getKernelSize_form _ _ _ _ _ _ _ _ hm] at h1
  rw [h2] at h
  simp only [Prod.mk.injEq, true_and] at h
  cases h1
  rw [← h]

/-- C67. One polynomial: the estimated kernel size does not depend on the sign of the coefficient or of `m`, nor on `NA` (except for the piston); it does
not get smaller with a smaller pixel, or with a larger coefficient, as long as the coefficients are on the same side of half of the wavelength (see
`estimated_size_drops`). -/
theorem estimated_size_monotone_partial (o₁ o₂ o₁' o₂' : PsfObj) (s₁ s₂ : CoefState) (hr₁ : PsfReachable o₁ s₁) (hr₂ : PsfReachable o₂ s₂) (z₁ z₂ : ZernPol)
    (hz₁ : o₁.zernpol = some z₁) (hz₂ : o₂.zernpol = some z₂) (hv₁ : ValidOrders z₁.m z₁.n) (hm : |z₁.m| = |z₂.m|) (hn : z₁.n = z₂.n)
    (NA₁ NA₂ wl px₁ px₂ x₁ x₂ : ℝ) (hNA : NA₁ = NA₂ ∨ ¬ (z₁.m = 0 ∧ z₁.n = 0)) (hpx : px₂ ≤ px₁) (hx : |x₁| ≤ |x₂|)
    (hside : |x₂| < wl / 2 ∨ wl / 2 ≤ |x₁|) (h₁ : o₁.setPhysicalProps NA₁ wl (.num x₁) px₁ = (.ok (), o₁'))
    (h₂ : o₂.setPhysicalProps NA₂ wl (.num x₂) px₂ = (.ok (), o₂')) : o₁'.kernelSize ≤ o₂'.kernelSize := by
  have hv₂ : ValidOrders z₂.m z₂.n := by
    obtain ⟨a, b, c⟩ := hv₁
    rw [hn] at a b c
    rw [hm] at b c
    exact ⟨a, b, c⟩
  have hp₁ := set_ok_physical h₁
  have hp₂ := set_ok_physical h₂
  obtain ⟨a, e, k1, k2, k3⟩ := sizeMultiplier_ok z₁.m z₁.n hv₁ NA₁ hp₁.1
  have k1' := k1
  rw [sizeMultiplier_abs _ z₂.m _ _ NA₂ hm hNA, hn] at k1'
  rw [set_num_size hz₁ hv₁ h₁ k1, set_num_size hz₂ hv₂ h₂ k1']
  have hwl : 0 < wl := hp₁.2.2.1
  obtain ⟨f1, f2⟩ := amplFactor_mono (x := x₁ / wl) (y := x₂ / wl)
    (by rw [abs_div, abs_div]; exact div_le_div_of_nonneg_right hx (abs_nonneg _))
    (by
      rw [abs_div, abs_div, abs_of_pos hwl, div_lt_iff₀ hwl, le_div_iff₀ hwl]
      rcases hside with h | h
      · left; linarith
      · right; linarith)
  apply makeOdd_mono
  have : a * amplFactor (x₁ / wl) * wl / px₁ ≤ a * amplFactor (x₂ / wl) * wl / px₂ := by
    have g1 : a * amplFactor (x₁ / wl) * wl ≤ a * amplFactor (x₂ / wl) * wl :=
      mul_le_mul_of_nonneg_right (mul_le_mul_of_nonneg_left f1 k2) hwl.le
    have g2 : 0 ≤ a * amplFactor (x₁ / wl) * wl := mul_nonneg (mul_nonneg k2 (amplFactor_nonneg _)) hwl.le
    exact div_le_div₀ (g2.trans g1) g1 hp₂.2.2.2.1 hpx
  have := rint_mono this
  omega

theorem sizeMultiplier_ge (m n : Int) (hv : ValidOrders m n) (NA : ℝ) (a : ℝ) (e : Int) (hNA : 0 < NA) (h : sizeMultiplier m n NA = .ok (a, e)) :
    1.25 ≤ a := by
  unfold sizeMultiplier at h
  by_cases h0 : m = 0 ∧ n = 0
  · rw [if_pos h0] at h
    split_ifs at h with c1 c2 c3
    · cases h; have := c1.2; norm_num at *; linarith
    · cases h
      have := Real.sqrt_nonneg (1 / NA)
      have e1 : (2.5 : ℝ) * Real.sqrt (1 / NA) ≥ 0 := by positivity
      have e2 : (1.25 : ℝ) ≤ 4.5 := by norm_num
      linarith
  · have hn : 1 ≤ n := by
      by_contra hc
      have h1 := hv.1
      have h2 := hv.2.1
      have h3 : n = 0 := by omega
      subst h3
      exact h0 ⟨abs_eq_zero.1 (le_antisymm h2 (abs_nonneg m)), rfl⟩
    have hs : 1 ≤ Real.sqrt (n : ℝ) := Real.one_le_sqrt.2 (by exact_mod_cast hn)
    rw [if_neg h0, if_neg (by omega), if_neg (by have := hv.2.1; omega)] at h
    simp only [Except.ok.injEq, Prod.mk.injEq] at h
    rw [← h.1]
    have hp : (0 : ℝ) ≤ 0.5 * Real.sqrt ((n - |m| : ℤ) : ℝ) := by positivity
    have g1 : (1.25 : ℝ) ≤ 1.25 * Real.sqrt (n : ℝ) := le_mul_of_one_le_right (by norm_num) hs
    have g2 : (1.25 : ℝ) ≤ 1.45 * Real.sqrt (n : ℝ) := by
      have h1 : (1.45 : ℝ) ≤ 1.45 * Real.sqrt (n : ℝ) := le_mul_of_one_le_right (by norm_num) hs
      have h2 : (1.25 : ℝ) ≤ 1.45 := by norm_num
      exact h2.trans h1
    split_ifs
    · linarith
    · exact g2
    · exact g1

/-- C67 is false across half of the wavelength: for every polynomial, numerical aperture and wavelength, and pixels up to a tenth of the wavelength, the
kernel estimated for the coefficient `0.5 wavelength` is smaller than that for the smaller coefficient `0.49 wavelength`. -/
theorem estimated_size_drops (o o₁ o₂ : PsfObj) (s : CoefState) (hr : PsfReachable o s) (z : ZernPol) (hz : o.zernpol = some z)
    (hv : ValidOrders z.m z.n) (NA wl px : ℝ) (hpx : px ≤ wl / 10) (h₁ : o.setPhysicalProps NA wl (.num (0.49 * wl)) px = (.ok (), o₁))
    (h₂ : o.setPhysicalProps NA wl (.num (0.5 * wl)) px = (.ok (), o₂)) : o₂.kernelSize < o₁.kernelSize := by
  have hp := set_ok_physical h₁
  have hwl : 0 < wl := hp.2.2.1
  have hpx0 : 0 < px := hp.2.2.2.1
  obtain ⟨a, e, k1, k2, k3⟩ := sizeMultiplier_ok z.m z.n hv NA hp.1
  have ha := sizeMultiplier_ge _ _ hv _ _ _ hp.1 k1
  rw [set_num_size hz hv h₁ k1, set_num_size hz hv h₂ k1, mul_div_cancel_right₀ _ hwl.ne', mul_div_cancel_right₀ _ hwl.ne']
  have f1 : amplFactor 0.49 ≥ 1.443 := by
    unfold amplFactor
    rw [if_neg (by norm_num [abs_of_pos]), if_pos (by norm_num [abs_of_pos])]
    apply Real.le_sqrt_of_sq_le
    norm_num [abs_of_pos]
  have f2 : amplFactor 0.5 ≤ 1.1181 := by
    unfold amplFactor
    rw [if_pos (by norm_num [abs_of_pos])]
    apply Real.sqrt_le_iff.2
    norm_num [abs_of_pos]
  have f3 : amplExt 0.49 = 1 := by
    unfold amplExt
    rw [if_neg (by norm_num [abs_of_pos]), if_pos (by norm_num [abs_of_pos])]
  have f4 : amplExt 0.5 = 2 := by
    unfold amplExt
    rw [if_pos (by norm_num [abs_of_pos])]
  rw [f3, f4]
  have hq : 10 ≤ wl / px := by rw [le_div_iff₀ hpx0]; linarith
  have g : a * amplFactor 0.5 * wl / px + 4 ≤ a * amplFactor 0.49 * wl / px := by
    rw [mul_div_assoc, mul_div_assoc]
    have : 0.4 * 10 ≤ (a * amplFactor 0.49 - a * amplFactor 0.5) * (wl / px) := by
      apply mul_le_mul _ hq (by norm_num)
      · rw [← mul_sub]; have : 0.324 ≤ amplFactor 0.49 - amplFactor 0.5 := by norm_num at *; linarith
        have hd : (0:ℝ) ≤ amplFactor 0.49 - amplFactor 0.5 := le_trans (by norm_num) this
        exact mul_nonneg k2 hd
      · rw [← mul_sub]
        have h1 : 0.3248 ≤ amplFactor 0.49 - amplFactor 0.5 := by norm_num at *; linarith
        calc (0.4 : ℝ) ≤ 1.25 * 0.3248 := by norm_num
          _ ≤ a * (amplFactor 0.49 - amplFactor 0.5) := mul_le_mul ha h1 (by norm_num) k2
    norm_num at this ⊢
    nlinarith
  have n1 := abs_le.1 (rint_near (a * amplFactor 0.5 * wl / px))
  have n2 := abs_le.1 (rint_near (a * amplFactor 0.49 * wl / px))
  have n3 : (rint (a * amplFactor 0.5 * wl / px) : ℝ) + 3 ≤ rint (a * amplFactor 0.49 * wl / px) := by linarith [n1.2, n2.1]
  have n4 : rint (a * amplFactor 0.5 * wl / px) + 3 ≤ rint (a * amplFactor 0.49 * wl / px) := by exact_mod_cast n3
  unfold makeOdd
  split_ifs <;> omega

theorem sizeLoop_max (px wl NA : ℝ) (ps : List ZernPol) : ∀ (as : List ℝ) (acc r : Int × ℝ), sizeLoop px wl NA ps as acc = .ok r →
    acc.1 ≤ r.1 ∧ (∀ x ∈ ps.zip as, ∃ S, getKernelSize x.1.m x.1.n px x.2 wl NA = .ok S ∧ S ≤ r.1) ∧
      (r.1 = acc.1 ∨ ∃ x ∈ ps.zip as, getKernelSize x.1.m x.1.n px x.2 wl NA = .ok r.1) := by
  induction ps with
  | nil => intro as acc r h; cases h; simp
  | cons p ps ih =>
    intro as acc r h
    cases as with
    | nil => cases h
    | cons a as =>
      obtain ⟨x, y⟩ := acc
      unfold sizeLoop at h
      rcases hS : getKernelSize p.m p.n px a wl NA with e | S
      · rw [hS] at h; cases h
      · rw [hS] at h
        obtain ⟨h1, h2, h3⟩ := ih as _ r h
        simp only at h1 h3
        have hle : x ≤ (if x < S then S else x) ∧ S ≤ (if x < S then S else x) := by split_ifs <;> omega
        refine ⟨hle.1.trans h1, ?_, ?_⟩
        · intro w hw
          simp only [List.zip_cons_cons, List.mem_cons] at hw
          rcases hw with rfl | hw
          · exact ⟨S, hS, hle.2.trans h1⟩
          · exact h2 w hw
        · rcases h3 with h3 | ⟨w, hw, h3⟩
          · by_cases hx : x < S
            · rw [if_pos hx] at h3
              right
              exact ⟨(p, a), by simp, by rw [h3]; exact hS⟩
            · rw [if_neg hx] at h3; left; exact h3
          · right; exact ⟨w, by simp [hw], h3⟩

theorem enlarge_bounds (size : Int) (ampl : ℝ) (n : Nat) : size ≤ enlarge size ampl n ∧ (enlarge size ampl n : ℝ) ≤ size + 1.4 * n + 2 := by
  have h : ∀ c : ℝ, 0 ≤ c → c ≤ 1.4 → 0 ≤ rint (c * n) ∧ (rint (c * n) : ℝ) ≤ 1.4 * n + 1 := by
    intro c h0 h1
    have hn : (0 : ℝ) ≤ n := Nat.cast_nonneg n
    refine ⟨rint_nonneg (by positivity), ?_⟩
    have := (abs_le.1 (rint_near (c * n))).2
    have h2 : c * n ≤ 1.4 * n := mul_le_mul_of_nonneg_right h1 hn
    linarith
  have hm : ∀ w : Int, w ≤ makeOdd w ∧ (makeOdd w : ℝ) ≤ w + 1 := by
    intro w
    unfold makeOdd
    split_ifs
    · refine ⟨by omega, by push_cast; exact le_rfl⟩
    · refine ⟨le_rfl, by linarith⟩
  unfold enlarge
  generalize hg : (if 0.25 ≤ ampl ∧ ampl < 0.5 then size + rint (0.6 * n) else if 0.5 ≤ ampl ∧ ampl < 0.75 then size + rint (1.0 * n)
    else if ampl ≥ 0.75 then size + rint (1.4 * n) else size) = w
  have hw : size ≤ w ∧ (w : ℝ) ≤ size + 1.4 * n + 1 := by
    rw [← hg]
    have hn : (0 : ℝ) ≤ 1.4 * n := by positivity
    split_ifs
    · have := h 0.6 (by norm_num) (by norm_num); refine ⟨by omega, by push_cast; linarith [this.2]⟩
    · have := h 1.0 (by norm_num) (by norm_num); refine ⟨by omega, by push_cast; linarith [this.2]⟩
    · have := h 1.4 (by norm_num) (by norm_num); refine ⟨by omega, by push_cast; linarith [this.2]⟩
    · refine ⟨le_rfl, by linarith⟩
  have := hm w
  exact ⟨hw.1.trans this.1, by linarith [this.2, hw.2]⟩

/-- C67. Several polynomials: the kernel is at least as large as the kernel for each of them alone (with its coefficient and the same other
properties), and for one of them it is not more than `1.4 * (number of polynomials) + 2` larger. -/
theorem estimated_size_several (o o' : PsfObj) (s : CoefState) (hr : PsfReachable o s) (hz : o.zernpol = none)
    (hv : ∀ z ∈ o.polynomials, ValidOrders z.m z.n) (NA wl px : ℝ) (cs : List ℝ) (hl : cs.length = o.polynomials.length)
    (h : o.setPhysicalProps NA wl (.seq cs) px = (.ok (), o')) :
    (∀ x ∈ o.polynomials.zip cs, ∀ p p' t, PsfReachable p t → p.zernpol = some x.1 → p.setPhysicalProps NA wl (.num x.2) px = (.ok (), p') →
      p'.kernelSize ≤ o'.kernelSize) ∧
    ∃ x ∈ o.polynomials.zip cs, ∀ p p' t, PsfReachable p t → p.zernpol = some x.1 → p.setPhysicalProps NA wl (.num x.2) px = (.ok (), p') →
      (o'.kernelSize : ℝ) ≤ p'.kernelSize + 1.4 * o.polynomials.length + 2 := by
  have hp := set_ok_physical h
  have hb := hr.several hz
  obtain ⟨r, hr1, hr2⟩ := setPhysical_seq o hz hb hv NA wl px cs hl hp
  rw [hr2] at h
  simp only [Prod.mk.injEq, true_and] at h
  have hsize : o'.kernelSize = enlarge r.1 r.2 o.polynomials.length := by rw [← h]
  obtain ⟨m1, m2, m3⟩ := sizeLoop_max px wl NA o.polynomials _ _ _ hr1
  obtain ⟨b1, b2⟩ := enlarge_bounds r.1 r.2 o.polynomials.length
  have hzip : o.polynomials.zip (cs.map (· / wl)) = (o.polynomials.zip cs).map fun x => (x.1, x.2 / wl) := by
    rw [List.zip_map_right]; rfl
  have hone : ∀ x ∈ o.polynomials.zip cs, ∀ p p' t, PsfReachable p t → p.zernpol = some x.1 → p.setPhysicalProps NA wl (.num x.2) px = (.ok (), p') →
      getKernelSize x.1.m x.1.n px (x.2 / wl) wl NA = .ok p'.kernelSize := by
    intro x hx p p' t _ hz' hset
    obtain ⟨S, e1, e2⟩ := setPhysical_num p x.1 hz' (hv _ (List.of_mem_zip hx).1) NA wl px x.2 hp
    rw [e2] at hset
    simp only [Prod.mk.injEq, true_and] at hset
    rw [e1, ← hset]
  constructor
  · intro x hx p p' t h1 h2 h3
    obtain ⟨S, e1, e2⟩ := m2 (x.1, x.2 / wl) (by rw [hzip]; exact List.mem_map.2 ⟨x, hx, rfl⟩)
    rw [hone x hx p p' t h1 h2 h3] at e1
    cases e1
    rw [hsize]
    exact e2.trans b1
  · have hne : ∃ x, x ∈ o.polynomials.zip cs := by
      apply List.exists_mem_of_length_pos
      rw [List.length_zip]
      omega
    rcases m3 with m3 | ⟨w, hw, m3⟩
    · obtain ⟨x, hx⟩ := hne
      obtain ⟨S, e1, e2⟩ := m2 (x.1, x.2 / wl) (by rw [hzip]; exact List.mem_map.2 ⟨x, hx, rfl⟩)
      have := (getKernelSize_odd _ _ _ _ _ _ hp.2.2.2.1 hp.2.2.1.le S e1).2
      simp only at m3
      omega
    · rw [hzip] at hw
      obtain ⟨x, hx, rfl⟩ := List.mem_map.1 hw
      refine ⟨x, hx, ?_⟩
      intro p p' t h1 h2 h3
      have := hone x hx p p' t h1 h2 h3
      simp only at m3
      rw [m3] at this
      have e := Except.ok.inj this
      rw [hsize, ← e]
      exact b2

/-- The hypotheses of `estimated_size_drops` are met: the vertical tilt with the wavelength 0.6 and pixels of 0.05. -/
example : ∃ o o₁ o₂ s z, PsfReachable o s ∧ o.zernpol = some z ∧ ValidOrders z.m z.n ∧ (0.05 : ℝ) ≤ 0.6 / 10 ∧
    o.setPhysicalProps 0.95 0.6 (.num (0.49 * 0.6)) 0.05 = (.ok (), o₁) ∧ o.setPhysicalProps 0.95 0.6 (.num (0.5 * 0.6)) 0.05 = (.ok (), o₂) := by
  have hr : PsfReachable { psfDefault with zernpol := some ⟨-1, 1, 1, 3, .int 3⟩, airy := false } (afterCalls []) :=
    ⟨.pol ⟨-1, 1, 1, 3, .int 3⟩, _, [], [], rfl, rfl⟩
  have hp : PhysicalOk 0.95 0.6 0.05 := by unfold PhysicalOk; norm_num
  obtain ⟨_, _, h1⟩ := setPhysical_num { psfDefault with zernpol := some ⟨-1, 1, 1, 3, .int 3⟩, airy := false } ⟨-1, 1, 1, 3, .int 3⟩ rfl (by decide) 0.95 0.6 0.05 (0.49 * 0.6) hp
  obtain ⟨_, _, h2⟩ := setPhysical_num { psfDefault with zernpol := some ⟨-1, 1, 1, 3, .int 3⟩, airy := false } ⟨-1, 1, 1, 3, .int 3⟩ rfl (by decide) 0.95 0.6 0.05 (0.5 * 0.6) hp
  exact ⟨_, _, _, _, _, hr, rfl, by decide, by norm_num, h1, h2⟩

/-- The hypotheses of `estimated_size_several` are met: the two tilts. -/
example : ∃ o o' s, PsfReachable o s ∧ o.zernpol = none ∧ (∀ z ∈ o.polynomials, ValidOrders z.m z.n) ∧
    ([0.1, -0.3] : List ℝ).length = o.polynomials.length ∧ o.setPhysicalProps 0.95 0.6 (.seq [0.1, -0.3]) 0.15 = (.ok (), o') := by
  have hr : PsfReachable { psfDefault with zernpol := none, polynomials := [⟨-1, 1, 1, 3, .int 3⟩, ⟨1, 1, 2, 2, .int 2⟩], airy := false } (afterCalls []) :=
    ⟨.seq [.zern ⟨-1, 1, 1, 3, .int 3⟩, .zern ⟨1, 1, 2, 2, .int 2⟩], _, [], [], rfl, rfl⟩
  have hp : PhysicalOk 0.95 0.6 0.15 := by unfold PhysicalOk; norm_num
  have hv : ∀ z ∈ ([⟨-1, 1, 1, 3, .int 3⟩, ⟨1, 1, 2, 2, .int 2⟩] : List ZernPol), ValidOrders z.m z.n := by decide
  obtain ⟨_, _, h⟩ := setPhysical_seq { psfDefault with zernpol := none, polynomials := [⟨-1, 1, 1, 3, .int 3⟩, ⟨1, 1, 2, 2, .int 2⟩], airy := false } rfl
    (by simp) hv 0.95 0.6 0.15 [0.1, -0.3] rfl hp
  exact ⟨_, _, _, hr, rfl, hv, rfl, h⟩

end Verif.Props
