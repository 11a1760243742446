import Verif.Proofs.FloatPsfPhase
import Verif.Proofs.Kernel
import Verif.Proofs.Fit

/-!
# Error analysis of the PSF: the kernel, and double precision
-/

namespace Verif.Proofs
open Verif.Model Verif.Spec

/-! ### Double precision -/

theorem binary64_rel (x : ℝ) : |binary64 x - x| ≤ 2⁻¹ ^ 53 * max |x| (2⁻¹ ^ 1022) := by
  have e53 : (2⁻¹ : ℝ) ^ 53 = 2 ^ (-53 : ℤ) := by rw [zpow_neg, inv_pow]; norm_num
  have e1022 : (2⁻¹ : ℝ) ^ 1022 = 2 ^ (-1022 : ℤ) := by rw [zpow_neg, inv_pow]; rfl
  rw [e53, e1022]
  by_cases h : (2 : ℝ) ^ (-1022 : ℤ) ≤ |x|
  · have hx : x ≠ 0 := fun h0 => by
      rw [h0, abs_zero] at h
      exact absurd h (not_le.2 (by positivity))
    have hb := log_bounds hx
    refine (binary64_err (le_log_of h) hb.2).trans ?_
    rw [max_eq_left h, show Int.log 2 |x| - 53 = -53 + Int.log 2 |x| by ring, zpow_add₀ (by norm_num)]
    exact mul_le_mul_of_nonneg_left hb.1 (by positivity)
  · push Not at h
    rw [max_eq_right h.le]
    refine (binary64_err (a := -1022) le_rfl ?_).trans ?_
    · exact h.trans (by apply zpow_lt_zpow_right₀ <;> norm_num)
    · rw [← zpow_add₀ (by norm_num)]
      norm_num

/-- Summation in some order: the error. -/
theorem sumInSomeOrder_err {fl : ℝ → ℝ} {u η : ℝ} (hu : 0 ≤ u) (hη : 0 ≤ η) (hfl : ∀ x, |fl x - x| ≤ u * max |x| η) {d : ℕ} {l : List ℝ} {s : ℝ}
    (h : SumInSomeOrder fl d l s) :
    η ≤ (l.map fun x => max |x| η).sum ∧ |l.sum| ≤ (l.map fun x => max |x| η).sum ∧ |s - l.sum| ≤ ((1 + u) ^ d - 1) * (l.map fun x => max |x| η).sum := by
  induction h with
  | one x => simp
  | @add d l l' s s' _ _ h1 h2 =>
    obtain ⟨a1, b1, c1⟩ := h1
    obtain ⟨a2, b2, c2⟩ := h2
    rw [List.map_append, List.sum_append, List.sum_append]
    set M := (l.map fun x => max |x| η).sum
    set M' := (l'.map fun x => max |x| η).sum
    have hd := one_le_pow_u hu d
    have e1 : |l.sum + l'.sum| ≤ M + M' := (abs_add_le _ _).trans (add_le_add b1 b2)
    refine ⟨by linarith, e1, ?_⟩
    have e2 : |s + s' - (l.sum + l'.sum)| ≤ ((1 + u) ^ d - 1) * (M + M') := by
      rw [show s + s' - (l.sum + l'.sum) = (s - l.sum) + (s' - l'.sum) by ring, mul_add]
      exact (abs_add_le _ _).trans (add_le_add c1 c2)
    have e3 := abs_add_le (s + s' - (l.sum + l'.sum)) (l.sum + l'.sum)
    rw [sub_add_cancel] at e3
    have e4 := hfl (s + s')
    have e5 : max |s + s'| η ≤ (1 + u) ^ d * (M + M') := by
      refine max_le (by linarith) ?_
      have : 0 ≤ M + M' := by linarith
      nlinarith
    have e6 : u * max |s + s'| η ≤ u * ((1 + u) ^ d * (M + M')) := mul_le_mul_of_nonneg_left e5 hu
    have e7 := abs_sub_le (fl (s + s')) (s + s') (l.sum + l'.sum)
    rw [pow_succ]
    calc _ ≤ u * ((1 + u) ^ d * (M + M')) + ((1 + u) ^ d - 1) * (M + M') := by linarith
      _ = _ := by ring
  | @deeper d l s _ h =>
    obtain ⟨a, b, c⟩ := h
    refine ⟨a, b, c.trans (mul_le_mul_of_nonneg_right ?_ (hη.trans a))⟩
    have := pow_u_mono hu (show d ≤ d + 1 by omega)
    linarith
  | @reorder d l l' s hp _ h =>
    rw [← hp.sum_eq, ← (hp.map _).sum_eq]
    exact h

/-- A summation that adds the elements of a list in some order, with a depth below the number of elements (as all do). -/
theorem psfDoubles_accurate (s : List ℝ → ℝ) (h0 : s [] = 0) (hs : ∀ l, l ≠ [] → SumInSomeOrder binary64 l.length l (s l)) :
    PsfAccurate (psfDoubles s) (2⁻¹ ^ 53) (2⁻¹ ^ 1022) 1 where
  basic := doubles_accurate
  small := by norm_num
  eta_pos := by positivity
  eta_small := by
    rw [one_div, ← inv_pow]
    exact pow_le_pow_of_le_one (by norm_num) (by norm_num) (by norm_num)
  fl x := binary64_rel x
  zero := binary64_zero
  pi := by
    have := binary64_rel Real.pi
    rw [abs_of_pos Real.pi_pos, max_eq_left] at this
    · exact this
    · have h3 := Real.pi_gt_three
      have : (2⁻¹ : ℝ) ^ 1022 ≤ 1 := pow_le_one₀ (by norm_num) (by norm_num)
      linarith
  expRe x := by
    refine (binary64_rel (Real.cos x)).trans ?_
    have h1 : max |Real.cos x| (2⁻¹ ^ 1022) ≤ 1 := max_le (Real.abs_cos_le_one x) (pow_le_one₀ (by norm_num) (by norm_num))
    have h2 : (0 : ℝ) ≤ 2⁻¹ ^ 53 := by positivity
    rw [pow_one]
    nlinarith
  expIm x := by
    refine (binary64_rel (Real.sin x)).trans ?_
    have h1 : max |Real.sin x| (2⁻¹ ^ 1022) ≤ 1 := max_le (Real.abs_sin_le_one x) (pow_le_one₀ (by norm_num) (by norm_num))
    have h2 : (0 : ℝ) ≤ 2⁻¹ ^ 53 := by positivity
    rw [pow_one]
    nlinarith
  sum l := by
    rcases eq_or_ne l [] with rfl | hl
    · show |s [] - _| ≤ _
      rw [h0]; simp
    · exact (sumInSomeOrder_err (by positivity) (by positivity) binary64_rel (hs l hl)).2.2
  hypot a b := by
    have := binary64_rel (Real.sqrt (a ^ 2 + b ^ 2))
    rw [abs_of_nonneg (Real.sqrt_nonneg _)] at this
    rw [pow_one, add_sub_cancel_left]
    exact this
  sq x := by
    have := binary64_rel (x ^ 2)
    rw [abs_of_nonneg (sq_nonneg x)] at this
    rw [pow_one, add_sub_cancel_left]
    exact this
  atan2 y x := by
    have h := binary64_rel (arctan2 y x)
    rw [pow_one, add_sub_cancel_left]
    refine h.trans (mul_le_mul_of_nonneg_left ?_ (by positivity))
    have hp := Real.pi_lt_four
    have hm := arctan2_mem y x
    have : (2⁻¹ : ℝ) ^ 1022 ≤ 1 := pow_le_one₀ (by norm_num) (by norm_num)
    refine max_le (abs_le.2 ⟨by linarith, by linarith⟩) (by linarith)

/-- The sum from the left is such a summation. -/
theorem sumFromLeft_order (fl : ℝ → ℝ) : ∀ l, l ≠ [] → SumInSomeOrder fl l.length l (sumFromLeft fl l) := by
  have key : ∀ (t l : List ℝ) (d : ℕ) (s : ℝ), SumInSomeOrder fl d l s → SumInSomeOrder fl (d + t.length) (l ++ t) (t.foldl (fun s y => fl (s + y)) s) := by
    intro t
    induction t with
    | nil => intro l d s h; simpa using h
    | cons y t ih =>
      intro l d s h
      have h1 : SumInSomeOrder fl d [y] y := by
        clear h
        induction d with
        | zero => exact .one y
        | succ d ih => exact .deeper ih
      have := ih (l ++ [y]) (d + 1) _ (.add h h1)
      rw [List.foldl_cons, List.length_cons, show d + (t.length + 1) = d + 1 + t.length by ring]
      rwa [List.append_assoc, List.singleton_append] at this
  intro l hl
  obtain ⟨x, t, rfl⟩ := List.exists_cons_of_ne_nil hl
  have := key t [x] 0 x (.one x)
  rw [List.length_cons]
  refine .deeper ?_
  rw [zero_add] at this
  exact this

/-! ### The coordinates of a pixel -/

section
variable {F : PsfArith} {u η : ℝ} {p : ℕ}

theorem theta_er (hF : PsfAccurate F u η p) (size : Int) (i j : Nat) :
    Er ((1 + u) ^ (p + 2)) 8 (fltKernelTheta F size i j) (kernelTheta size i j) := by
  unfold fltKernelTheta kernelTheta
  have hp := Real.pi_lt_four
  have hp0 := Real.pi_pos
  set y := (i : ℝ) - ((size / 2 : Int) : ℝ)
  set x := (j : ℝ) - ((size / 2 : Int) : ℝ)
  have hm := arctan2_mem y x
  have a : Er ((1 + u) ^ p) 4 (F.atan2 y x) (arctan2 y x) := ⟨abs_le.2 ⟨by linarith, by linarith⟩, hF.atan2 y x⟩
  have b := (pi_er hF).monoK (l := p + 1) hF (by omega) hp.le
  have c := ((a.monoK (l := p + 1) hF (by omega) le_rfl).add b (u_one hF _) le_rfl).roundK hF (by have := eta_le_one hF; linarith)
  exact c.monoK hF le_rfl (by norm_num)

/-- The bound of the distance of a pixel from the centre. -/
theorem pixel_dist_le (size : Int) (hs : 1 ≤ size) (i j : Nat) (hi : i < size.toNat) (hj : j < size.toNat) :
    max (Real.sqrt (((i : ℝ) - ((size / 2 : Int) : ℝ)) ^ 2 + ((j : ℝ) - ((size / 2 : Int) : ℝ)) ^ 2)) 1 ≤ size := by
  have hs' : (1 : ℝ) ≤ size := by exact_mod_cast hs
  refine max_le ?_ hs'
  rw [Real.sqrt_le_left (by linarith)]
  have key : ∀ i : ℕ, i < size.toNat → 2 * ((i : ℝ) - ((size / 2 : Int) : ℝ)) ^ 2 ≤ (size : ℝ) ^ 2 := by
    intro i hi
    have h1 : -(size) ≤ 2 * ((i : ℤ) - size / 2) ∧ 2 * ((i : ℤ) - size / 2) ≤ size := by omega
    have h2 : |2 * ((i : ℤ) - size / 2)| ≤ size := abs_le.2 h1
    have h3 : |2 * ((i : ℝ) - ((size / 2 : Int) : ℝ))| ≤ size := by exact_mod_cast h2
    have h4 := sq_le_sq' (abs_le.1 h3).1 (abs_le.1 h3).2
    nlinarith
  have := key i hi
  have := key j hj
  linarith

theorem dist_er (hF : PsfAccurate F u η p) {wavelength NA len R : ℝ} (hw : 0 < wavelength) (hw1 : 1 / 2 ^ 40 ≤ 2 * Real.pi / wavelength)
    (hNA : 1 / 2 ^ 40 ≤ NA) (hlen : 1 / 2 ^ 40 ≤ len) (hR1 : 1 ≤ R) (size : Int) (hs : 1 ≤ size) (hR : 2 * Real.pi / wavelength * NA * len * size ≤ R)
    (i j : Nat) (hi : i < size.toNat) (hj : j < size.toNat) :
    Er ((1 + u) ^ 7) R (fltKernelDist F size (F.fl (F.fl (2 * F.pi) / wavelength)) NA len i j) (kernelDist size (2 * Real.pi / wavelength) NA len i j) := by
  have hb : (0 : ℝ) < 1 / 2 ^ 40 := by positivity
  have hη3 : η ≤ (1 / 2 ^ 40 * (1 / 2 ^ 40)) * (1 / 2 ^ 40) := eta_le hF (by norm_num)
  have k1 : Er ((1 + u) ^ 3) (2 * Real.pi / wavelength) (F.fl (F.fl (2 * F.pi) / wavelength)) (2 * Real.pi / wavelength) := by
    have := ((twoPi_er hF).mulK hF (Er.exactK u (1 / wavelength) (le_of_eq (abs_of_nonneg (by positivity))))).roundK hF (by
      rw [mul_one_div]; exact (eta_le hF (by norm_num)).trans hw1)
    rwa [mul_one_div, mul_one_div] at this
  set k := 2 * Real.pi / wavelength
  have hk0 : 0 < k := hb.trans_le hw1
  have hNA0 : 0 < NA := hb.trans_le hNA
  have hl0 : 0 < len := hb.trans_le hlen
  have m2 : 1 / 2 ^ 40 * (1 / 2 ^ 40) ≤ k * NA := mul_le_mul hw1 hNA hb.le hk0.le
  have m3 : (1 / 2 ^ 40 * (1 / 2 ^ 40)) * (1 / 2 ^ 40) ≤ k * NA * len := mul_le_mul m2 hlen hb.le (mul_pos hk0 hNA0).le
  have k2 := (k1.mulK hF (Er.exactK u NA (le_of_eq (abs_of_pos hNA0)))).roundK hF ((eta_le hF (by norm_num)).trans m2)
  have k3 := (k2.mulK hF (Er.exactK u len (le_of_eq (abs_of_pos hl0)))).roundK hF (hη3.trans m3)
  set D := ((i : ℝ) - ((size / 2 : Int) : ℝ)) ^ 2 + ((j : ℝ) - ((size / 2 : Int) : ℝ)) ^ 2 with hD
  have hD0 : 0 ≤ D := by positivity
  have d1 : Er ((1 + u) ^ 1) (max (Real.sqrt D) 1) (F.sqrt D) (Real.sqrt D) :=
    ⟨by rw [abs_of_nonneg (Real.sqrt_nonneg _)]; exact le_max_left _ _, by rw [pow_one, add_sub_cancel_left]; exact hF.basic.sqrt D hD0⟩
  have hd := pixel_dist_le size hs i j hi hj
  rw [← hD] at hd
  have hKL : 0 < k * NA * len := mul_pos (mul_pos hk0 hNA0) hl0
  have k4 := (k3.mulK hF d1).roundK hF (hη3.trans (m3.trans (le_mul_of_one_le_right hKL.le (le_max_right _ _))))
  have k5 := k4.monoK (l := 7) hF le_rfl ((mul_le_mul_of_nonneg_left hd hKL.le).trans hR)
  exact k5

/-! ### The kernel -/

theorem fillRow_okP (f : Nat → Nat → CM ℝ) (P : Nat → Nat → ℝ → Prop) (i k : Nat) : ∀ (j : Nat) (S : Grid),
    (∀ b, j ≤ b → b < j + k → RetP (f i b) (P i b)) →
    RetP (fillRow f i k j S) fun S' => S'.rows = S.rows ∧ S'.cols = S.cols ∧ ∀ a b,
      if a = i ∧ j ≤ b ∧ b < j + k then P a b (S'.entry a b) else S'.entry a b = S.entry a b := by
  induction k with
  | zero =>
    intro j S _
    exact retP_pure _ ⟨rfl, rfl, fun a b => by rw [if_neg (by omega)]⟩
  | succ k ih =>
    intro j S h
    refine RetP.bind (h j le_rfl (by omega)) fun v hv => ?_
    refine (ih (j + 1) _ fun b hb hb' => h b (by omega) (by omega)).mono ?_
    rintro S' ⟨h1, h2, h3⟩
    refine ⟨h1, h2, fun a b => ?_⟩
    have := h3 a b
    by_cases hab : a = i ∧ j ≤ b ∧ b < j + (k + 1)
    · rw [if_pos hab]
      by_cases hb : b = j
      · rw [if_neg (by omega)] at this
        simp only [] at this
        rw [if_pos (by omega)] at this
        rw [this]
        obtain ⟨rfl, _⟩ := hab
        subst hb
        exact hv
      · rw [if_pos (by omega)] at this
        exact this
    · rw [if_neg hab]
      rw [if_neg (by omega)] at this
      simp only [] at this
      rw [if_neg (by omega)] at this
      exact this

theorem fillRows_okP (f : Nat → Nat → CM ℝ) (P : Nat → Nat → ℝ → Prop) (cols k : Nat) : ∀ (i : Nat) (S : Grid),
    (∀ a b, i ≤ a → a < i + k → b < cols → RetP (f a b) (P a b)) →
    RetP (fillRows f cols k i S) fun S' => S'.rows = S.rows ∧ S'.cols = S.cols ∧ ∀ a b,
      if i ≤ a ∧ a < i + k ∧ b < cols then P a b (S'.entry a b) else S'.entry a b = S.entry a b := by
  induction k with
  | zero =>
    intro i S _
    exact retP_pure _ ⟨rfl, rfl, fun a b => by rw [if_neg (by omega)]⟩
  | succ k ih =>
    intro i S h
    refine RetP.bind (fillRow_okP f P i cols 0 S fun b _ hb => h i b le_rfl (by omega) (by omega)) ?_
    rintro S1 ⟨r1, c1, e1⟩
    refine (ih (i + 1) S1 fun a b ha ha' hb => h a b (by omega) (by omega) hb).mono ?_
    rintro S' ⟨h1, h2, h3⟩
    refine ⟨h1.trans r1, h2.trans c1, fun a b => ?_⟩
    have x1 := h3 a b
    have x2 := e1 a b
    by_cases hab : i ≤ a ∧ a < i + (k + 1) ∧ b < cols
    · rw [if_pos hab]
      by_cases ha : a = i
      · rw [if_neg (by omega)] at x1
        rw [if_pos (by omega)] at x2
        rwa [x1]
      · rw [if_pos (by omega)] at x1
        exact x1
    · rw [if_neg hab]
      rw [if_neg (by omega)] at x1
      rw [if_neg (by omega)] at x2
      rw [x1, x2]

/-- Which elements the kernel has, up to the error `E` of each pixel. -/
theorem fltKernel_raw (size : Int) (hs : 0 ≤ size) (NA : ℝ) (hNA : NA ≠ 0) (f : Nat → Nat → CM ℝ) (w : Nat → Nat → ℝ) (E : ℝ)
    (h : ∀ i j, i < size.toNat → j < size.toNat → RetP (f i j) fun v => |v - w i j| ≤ E) :
    RetP (fltMakeKernel F size NA f false) fun g => g.rows = size.toNat ∧ g.cols = size.toNat ∧
      ∀ i j, i < size.toNat → j < size.toNat → |g.entry i j - w i j| ≤ E := by
  unfold fltMakeKernel
  rw [if_neg (by omega), if_neg hNA]
  refine RetP.bind (fillRows_okP f (fun i j v => |v - w i j| ≤ E) size.toNat size.toNat 0 (Grid.zeros size.toNat size.toNat)
    fun a b _ ha hb => h a b (by simpa using ha) hb) fun g hg => ?_
  rw [if_neg (by simp)]
  refine retP_pure _ ⟨hg.1, hg.2.1, fun i j hi hj => ?_⟩
  have := hg.2.2 i j
  rwa [if_pos (by omega)] at this

/-- The normalised kernel: `t` is the exact maximum. -/
theorem fltKernel_normalized (hF : PsfAccurate F u η p) (size : Int) (hs : 1 ≤ size) (NA : ℝ) (hNA : NA ≠ 0) (f : Nat → Nat → CM ℝ) (w : Nat → Nat → ℝ) (E : ℝ)
    (h : ∀ i j, i < size.toNat → j < size.toNat → RetP (f i j) fun v => |v - w i j| ≤ E) (hw : ∀ i j, 0 ≤ w i j)
    (a b : Nat) (ha : a < size.toNat) (hb : b < size.toNat) (hmax : ∀ i j, i < size.toNat → j < size.toNat → w i j ≤ w a b) (hE : E < w a b) :
    RetP (fltMakeKernel F size NA f true) fun g => g.rows = size.toNat ∧ g.cols = size.toNat ∧
      ∀ i j, i < size.toNat → j < size.toNat → |g.entry i j - w i j / w a b| ≤ (1 + u) * (1 + 2 * E / (w a b - E)) - 1 := by
  unfold fltMakeKernel
  rw [if_neg (by omega), if_neg hNA]
  refine RetP.bind (fillRows_okP f (fun i j v => |v - w i j| ≤ E) size.toNat size.toNat 0 (Grid.zeros size.toNat size.toNat)
    fun a b _ ha hb => h a b (by simpa using ha) hb) fun g hg => ?_
  rw [if_pos rfl]
  obtain ⟨hr, hc, he⟩ := hg
  simp only [Grid.zeros] at hr hc
  have he' : ∀ i j, i < size.toNat → j < size.toNat → |g.entry i j - w i j| ≤ E := by
    intro i j hi hj
    have := he i j
    rwa [if_pos (by omega)] at this
  have hne : g.elems ≠ [] := by
    have : g.entry 0 0 ∈ g.elems := (mem_elems g _).2 ⟨0, 0, by omega, by omega, rfl⟩
    intro h0; rw [h0] at this; simp at this
  obtain ⟨top, h1, h2, h3⟩ := npMax_ok _ hne
  obtain ⟨c, d, hcc, hdd, e⟩ := (mem_elems g _).1 h2
  rw [hr] at hcc
  rw [hc] at hdd
  have t1 : w a b - E ≤ top := by
    have x := h3 (g.entry a b) ((mem_elems g _).2 ⟨a, b, by omega, by omega, rfl⟩)
    have y := (abs_le.1 (he' a b ha hb)).1
    linarith
  have t2 : top ≤ w a b + E := by
    have y := (abs_le.1 (he' c d hcc hdd)).2
    have z := hmax c d hcc hdd
    rw [← e]
    linarith
  have hN : fltNormalize F g = .ok { g with entry := fun i j => F.fl (g.entry i j / top) } := by
    unfold fltNormalize
    rw [h1]; rfl
  rw [hN]
  intro s hs
  refine ⟨⟨_, rfl, hr, hc, fun i j hi hj => ?_⟩, hs⟩
  have ht0 : 0 < w a b - E := by linarith
  have ht : 0 < top := by linarith
  have hE0 : 0 ≤ E := (abs_nonneg _).trans (he' a b ha hb)
  have hwab : 0 < w a b := by linarith
  have x1 := he' i j hi hj
  have x2 := hmax i j hi hj
  have x3 := hw i j
  have key : |g.entry i j / top - w i j / w a b| ≤ 2 * E / (w a b - E) := by
    have e1 : g.entry i j / top - w i j / w a b = ((g.entry i j - w i j) + w i j / w a b * (w a b - top)) / top := by
      field_simp
      ring
    rw [e1, abs_div, abs_of_pos ht]
    have e2 : |w i j / w a b * (w a b - top)| ≤ 1 * E := by
      rw [abs_mul]
      refine mul_le_mul ?_ (abs_le.2 ⟨by linarith, by linarith⟩) (abs_nonneg _) zero_le_one
      rw [abs_of_nonneg (by positivity), div_le_one hwab]
      exact x2
    have e3 := abs_add_le (g.entry i j - w i j) (w i j / w a b * (w a b - top))
    calc _ ≤ 2 * E / top := div_le_div_of_nonneg_right (by linarith) ht.le
      _ ≤ _ := div_le_div_of_nonneg_left (by linarith) ht0 t1
  have q1 : |w i j / w a b| ≤ 1 := by rw [abs_of_nonneg (by positivity), div_le_one hwab]; exact x2
  have q2 := abs_add_le (g.entry i j / top - w i j / w a b) (w i j / w a b)
  rw [sub_add_cancel] at q2
  have q3 := hF.fl (g.entry i j / top)
  have q0 : 0 ≤ 2 * E / (w a b - E) := by positivity
  have q4 : max |g.entry i j / top| η ≤ 1 + 2 * E / (w a b - E) := max_le (by linarith) ((eta_le_one hF).trans (by linarith))
  have q5 := mul_le_mul_of_nonneg_left q4 hF.basic.unit
  have q6 := abs_sub_le (F.fl (g.entry i j / top)) (g.entry i j / top) (w i j / w a b)
  show |F.fl (g.entry i j / top) - w i j / w a b| ≤ _
  calc _ ≤ u * (1 + 2 * E / (w a b - E)) + 2 * E / (w a b - E) := by linarith
    _ = _ := by ring

end

end Verif.Proofs
