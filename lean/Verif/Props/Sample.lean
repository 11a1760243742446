import Verif.Model.Convolve
import Verif.Proofs.Numeric

/-!
# C41: the sample image
-/

namespace Verif.Props
open Verif.Model Verif.Proofs

theorem npRound_mono {d : Int} {x y : ℝ} (h : x ≤ y) : npRound d x ≤ npRound d y := by
  unfold npRound
  have h10 : (0 : ℝ) < 10 ^ d := by positivity
  have := rint_mono (mul_le_mul_of_nonneg_right h h10.le)
  exact div_le_div_of_nonneg_right (by exact_mod_cast this) h10.le

theorem npRound_nat (d n : ℕ) : npRound d (n : ℝ) = n := by
  unfold npRound
  have : (n : ℝ) * 10 ^ (d : ℤ) = ((n * 10 ^ d : ℤ) : ℝ) := by push_cast; simp
  rw [this, rint_int]
  push_cast
  field_simp
  simp

theorem bumpRadius_ge (radius : ℝ) : 1 ≤ bumpRadius radius := by
  unfold bumpRadius; split_ifs with h
  · exact le_refl _
  · exact not_lt.1 h

theorem rint_radius (r : ℝ) (h : 1 ≤ r) : 1 ≤ rint r ∧ r * (1 + 0.25) ≤ 2 * rint r := by
  have h1 : 1 ≤ rint r := le_rint (by simpa using h)
  refine ⟨h1, ?_⟩
  have h2 := rint_near r
  rw [abs_le] at h2
  have h3 : (1 : ℝ) ≤ rint r := by exact_mod_cast h1
  norm_num
  by_cases hr : r ≤ 8 / 5
  · linarith
  · push Not at hr; linarith [h2.1]

/-- The bump function is in range and decreases. -/
theorem bump_ratio (r d : ℝ) (hr : 1 ≤ r) (h0 : 0 ≤ d) (h : d < r * (1 + 0.25)) : (d / (r + 0.25)) ^ 8 < (1 + 0.25 : ℝ) ^ 8 := by
  have : d / (r + 0.25) < 1 + 0.25 := by
    rw [div_lt_iff₀ (by linarith)]
    norm_num at h ⊢
    linarith
  exact pow_lt_pow_left₀ this (div_nonneg h0 (by linarith)) (by norm_num)

theorem bump_exp_le (r d : ℝ) (hr : 1 ≤ r) (h0 : 0 ≤ d) (h : d < r * (1 + 0.25)) :
    Real.exp 1 * Real.exp ((1 + 0.25 : ℝ) ^ 8 / ((d / (r + 0.25)) ^ 8 - (1 + 0.25 : ℝ) ^ 8)) ≤ 1 := by
  have h1 := bump_ratio r d hr h0 h
  have h2 : (0 : ℝ) ≤ (d / (r + 0.25)) ^ 8 := by positivity
  have hb : (0 : ℝ) < (1 + 0.25 : ℝ) ^ 8 := by positivity
  generalize (d / (r + 0.25)) ^ 8 = x at *
  generalize (1 + 0.25 : ℝ) ^ 8 = b at *
  rw [← Real.exp_add, Real.exp_le_one_iff]
  have : b / (x - b) ≤ -1 := by
    rw [div_le_iff_of_neg (by linarith)]
    linarith
  linarith

theorem bumpValue_mem (r d : ℝ) (hr : 1 ≤ r) (h0 : 0 ≤ d) : 0 ≤ bumpValue r d ∧ bumpValue r d ≤ 1 := by
  unfold bumpValue
  split_ifs with h1 h2
  · norm_num
  · exact ⟨by positivity, bump_exp_le r d hr h0 h2⟩
  · norm_num

theorem bumpValue_anti (r d d' : ℝ) (hr : 1 ≤ r) (h0 : 0 ≤ d) (h : d ≤ d') : bumpValue r d' ≤ bumpValue r d := by
  have hm := bumpValue_mem r d' hr (h0.trans h)
  have hm' := bumpValue_mem r d hr h0
  by_cases h1 : d < npRound 6 (0.25 * r)
  · have : bumpValue r d = 1 := by unfold bumpValue; rw [if_pos h1]
    rw [this]; exact hm.2
  · have h1' : ¬ d' < npRound 6 (0.25 * r) := fun h2 => h1 (lt_of_le_of_lt h h2)
    by_cases h2 : d' < r * (1 + 0.25)
    · have h2' : d < r * (1 + 0.25) := lt_of_le_of_lt h h2
      unfold bumpValue
      rw [if_neg h1, if_neg h1', if_pos h2, if_pos h2']
      have k1 := bump_ratio r d' hr (h0.trans h) h2
      have k2 : (d / (r + 0.25)) ^ 8 ≤ (d' / (r + 0.25)) ^ 8 :=
        pow_le_pow_left₀ (div_nonneg h0 (by linarith)) (div_le_div_of_nonneg_right h (by linarith)) 8
      have hb : (0 : ℝ) < (1 + 0.25 : ℝ) ^ 8 := by positivity
      simp only []
      generalize (d / (r + 0.25)) ^ 8 = x at *
      generalize (d' / (r + 0.25)) ^ 8 = x' at *
      generalize (1 + 0.25 : ℝ) ^ 8 = b at *
      refine mul_le_mul_of_nonneg_left (Real.exp_le_exp.2 ?_) (Real.exp_pos _).le
      rw [div_le_iff_of_neg (by linarith), div_mul_eq_mul_div, div_le_iff_of_neg (by linarith)]
      nlinarith
    · have : bumpValue r d' = 0 := by unfold bumpValue; rw [if_neg h1', if_neg h2]
      rw [this]; exact hm'.1

theorem bumpDistance_nonneg (S i j : Nat) : 0 ≤ bumpDistance S i j := by
  have := npRound_mono (d := (6 : ℕ)) (Real.sqrt_nonneg (((i : ℝ) - (S / 2 : Nat)) ^ 2 + ((j : ℝ) - (S / 2 : Nat)) ^ 2))
  have h0 := npRound_nat 6 0
  rw [Nat.cast_zero] at h0
  rw [h0] at this
  exact this

/-- The squared distance (in pixels) of the pixel `(i, j)` from the centre `(c, c)`. -/
def sqDistance (c i j : Nat) : Int := ((i : Int) - c) ^ 2 + ((j : Int) - c) ^ 2

theorem bumpDistance_mono (S i j i' j' : Nat) (h : sqDistance (S / 2) i j ≤ sqDistance (S / 2) i' j') :
    bumpDistance S i j ≤ bumpDistance S i' j' := by
  unfold bumpDistance
  refine npRound_mono (Real.sqrt_le_sqrt ?_)
  unfold sqDistance at h
  exact_mod_cast h

theorem bumpEntry (ovf : Int → ℝ) (radius : ℝ) (M : Int) (h0 : 0 ≤ M) (h1 : M ≤ 65535) (i j : Nat) :
    (getBumpedCircle ovf radius M).entry i j = rint (bumpValue (bumpRadius radius) (bumpDistance (bumpSize radius) i j) * M) := by
  have hb := bumpValue_mem (bumpRadius radius) (bumpDistance (bumpSize radius) i j) (bumpRadius_ge _) (bumpDistance_nonneg _ _ _)
  unfold getBumpedCircle
  simp only []
  generalize bumpValue (bumpRadius radius) (bumpDistance (bumpSize radius) i j) = v at hb
  have hM : (0 : ℝ) ≤ M := by exact_mod_cast h0
  have hle : rint (v * M) ≤ M := rint_le (by nlinarith)
  by_cases hv : v * M > 0
  · rw [if_pos hv, if_pos]
    split_ifs with h <;> omega
  · rw [if_neg hv]
    have : v * M = ((0 : Int) : ℝ) := by
      have : 0 ≤ v * M := mul_nonneg hb.1 hM
      push_cast; linarith
    rw [this, rint_int]; simp

/-- C41. The sample image for an intensity in the range of its type: a square with an odd size, integer values in `[0, max_intensity]`, the
maximum in the centre, 0 on the border; the value depends on the distance from the centre only and decreases with it (so the image is
symmetric). -/
theorem bumped_circle_exact (overflow : Int → ℝ) (radius : ℝ) (maxIntensity : Int) (h0 : 0 ≤ maxIntensity) (h1 : maxIntensity ≤ 65535) :
    let g := getBumpedCircle overflow radius maxIntensity
    (∃ q : ℕ, 1 ≤ q ∧ |(q : ℝ) - max radius 1| ≤ 1 / 2 ∧ g.rows = 4 * q + 1 ∧ g.cols = 4 * q + 1) ∧
    (∀ i j, ∃ v : Int, g.entry i j = v ∧ 0 ≤ v ∧ v ≤ maxIntensity) ∧
    g.entry (g.rows / 2) (g.rows / 2) = maxIntensity ∧
    (∀ i j, i < g.rows → j < g.rows → (i = 0 ∨ j = 0 ∨ i = g.rows - 1 ∨ j = g.rows - 1) → g.entry i j = 0) ∧
    (∀ i j i' j', sqDistance (g.rows / 2) i j ≤ sqDistance (g.rows / 2) i' j' → g.entry i' j' ≤ g.entry i j) := by
  intro g
  have hR : bumpRadius radius = max radius 1 := by
    unfold bumpRadius; split_ifs with h
    · exact (max_eq_right h.le).symm
    · exact (max_eq_left (not_lt.1 h)).symm
  have hr := bumpRadius_ge radius
  obtain ⟨q1, q2⟩ := rint_radius _ hr
  have hrows : g.rows = bumpSize radius := rfl
  have hcols : g.cols = bumpSize radius := rfl
  have hM : (0 : ℝ) ≤ maxIntensity := by exact_mod_cast h0
  have hent := bumpEntry overflow radius maxIntensity h0 h1
  have hval := fun i j => bumpValue_mem (bumpRadius radius) (bumpDistance (bumpSize radius) i j) hr (bumpDistance_nonneg _ _ _)
  have hsize : bumpSize radius = 4 * (rint (bumpRadius radius)).toNat + 1 := by unfold bumpSize; omega
  have mono : ∀ i j i' j', sqDistance (g.rows / 2) i j ≤ sqDistance (g.rows / 2) i' j' → g.entry i' j' ≤ g.entry i j := by
    intro i j i' j' h
    show (getBumpedCircle overflow radius maxIntensity).entry i' j' ≤ (getBumpedCircle overflow radius maxIntensity).entry i j
    rw [hent, hent]
    have := bumpValue_anti (bumpRadius radius) _ _ hr (bumpDistance_nonneg _ _ _) (bumpDistance_mono (bumpSize radius) i j i' j' h)
    exact_mod_cast rint_mono (mul_le_mul_of_nonneg_right this hM)
  refine ⟨⟨(rint (bumpRadius radius)).toNat, by omega, ?_, by omega, by omega⟩, ?_, ?_, ?_, mono⟩
  · have := rint_near (bumpRadius radius)
    rw [hR] at this ⊢
    rw [hR] at q1
    have e : (((rint (max radius 1)).toNat : ℕ) : ℝ) = (rint (max radius 1) : ℝ) := by
      have : (((rint (max radius 1)).toNat : ℕ) : Int) = rint (max radius 1) := Int.toNat_of_nonneg (by omega)
      exact_mod_cast this
    rw [e]; exact this
  · intro i j
    refine ⟨_, hent i j, ?_, ?_⟩
    · exact le_rint (by simpa using mul_nonneg (hval i j).1 hM)
    · exact rint_le (by nlinarith [(hval i j).2])
  · show (getBumpedCircle overflow radius maxIntensity).entry _ _ = _
    rw [hent, hrows]
    have hd : bumpDistance (bumpSize radius) (bumpSize radius / 2) (bumpSize radius / 2) = 0 := by
      unfold bumpDistance
      have := npRound_nat 6 0
      simp only [sub_self]
      norm_num
      simpa using this
    rw [hd]
    have : bumpValue (bumpRadius radius) 0 = 1 := by
      unfold bumpValue
      rw [if_pos]
      refine lt_of_lt_of_le (b := npRound (6 : ℕ) 0.25) ?_ (npRound_mono (by linarith))
      unfold npRound
      have : (0.25 : ℝ) * 10 ^ ((6 : ℕ) : ℤ) = ((250000 : ℤ) : ℝ) := by norm_num
      rw [this, rint_int]
      norm_num
    rw [this, one_mul, rint_int]
  · intro i j hi hj hb
    show (getBumpedCircle overflow radius maxIntensity).entry _ _ = _
    rw [hent]
    have hq : (2 * (rint (bumpRadius radius)).toNat : ℕ) = bumpSize radius / 2 := by omega
    have hge : ((bumpSize radius / 2 : ℕ) : ℝ) ≤ bumpDistance (bumpSize radius) i j := by
      rw [← npRound_nat 6 (bumpSize radius / 2)]
      refine npRound_mono (Real.le_sqrt_of_sq_le ?_)
      have hcase : ((i : ℝ) - (bumpSize radius / 2 : Nat)) ^ 2 = ((bumpSize radius / 2 : Nat) : ℝ) ^ 2 ∨
          ((j : ℝ) - (bumpSize radius / 2 : Nat)) ^ 2 = ((bumpSize radius / 2 : Nat) : ℝ) ^ 2 := by
        have last : ∀ x : ℕ, x = g.rows - 1 → ((x : ℝ) - (bumpSize radius / 2 : Nat)) ^ 2 = ((bumpSize radius / 2 : Nat) : ℝ) ^ 2 := by
          intro x hx
          have : x = bumpSize radius / 2 + bumpSize radius / 2 := by omega
          rw [this]; push_cast; ring
        rcases hb with h | h | h | h
        · left; rw [h]; push_cast; ring
        · right; rw [h]; push_cast; ring
        · left; exact last i h
        · right; exact last j h
      have p1 := sq_nonneg ((i : ℝ) - (bumpSize radius / 2 : Nat))
      have p2 := sq_nonneg ((j : ℝ) - (bumpSize radius / 2 : Nat))
      rcases hcase with h | h <;> linarith
    have e : ((bumpSize radius / 2 : ℕ) : ℝ) = 2 * rint (bumpRadius radius) := by
      have h2 : (((bumpSize radius / 2 : ℕ) : Int) : ℝ) = ((2 * rint (bumpRadius radius) : Int) : ℝ) := by
        rw [show ((bumpSize radius / 2 : ℕ) : Int) = 2 * rint (bumpRadius radius) by omega]
      rw [Int.cast_natCast] at h2
      rw [h2]; push_cast; ring
    have hfar : bumpRadius radius * (1 + 0.25) ≤ bumpDistance (bumpSize radius) i j := by
      refine q2.trans (le_trans ?_ hge)
      rw [e]
    have hz : bumpValue (bumpRadius radius) (bumpDistance (bumpSize radius) i j) = 0 := by
      unfold bumpValue
      rw [if_neg, if_neg (not_lt.2 hfar)]
      have : npRound 6 (0.25 * bumpRadius radius) ≤ npRound 6 ((bumpSize radius / 2 : ℕ) : ℝ) := by
        apply npRound_mono
        rw [e]; norm_num at q2 ⊢; linarith
      have e6 := npRound_nat 6 (bumpSize radius / 2)
      have e6' : npRound 6 ((bumpSize radius / 2 : ℕ) : ℝ) = ((bumpSize radius / 2 : ℕ) : ℝ) := e6
      rw [e6'] at this
      push Not
      exact this.trans hge
    rw [hz, zero_mul]
    have := rint_int 0
    simpa using this

/-- C41. Symmetry: transposition and reflections. -/
theorem bumped_circle_symmetric (overflow : Int → ℝ) (radius : ℝ) (maxIntensity : Int) (h0 : 0 ≤ maxIntensity) (h1 : maxIntensity ≤ 65535) (i j : Nat)
    (hi : i < (getBumpedCircle overflow radius maxIntensity).rows) (hj : j < (getBumpedCircle overflow radius maxIntensity).rows) :
    let g := getBumpedCircle overflow radius maxIntensity
    g.entry i j = g.entry j i ∧ g.entry (g.rows - 1 - i) j = g.entry i j ∧ g.entry i (g.rows - 1 - j) = g.entry i j := by
  intro g
  obtain ⟨⟨q, _, _, hr, _⟩, _, _, _, mono⟩ := bumped_circle_exact overflow radius maxIntensity h0 h1
  have key : ∀ a b c d, sqDistance (g.rows / 2) a b = sqDistance (g.rows / 2) c d → g.entry a b = g.entry c d :=
    fun a b c d h => le_antisymm (mono _ _ _ _ h.ge) (mono _ _ _ _ h.le)
  have hrow : g.rows = 4 * q + 1 := hr
  have flip : ∀ x : ℕ, x < g.rows → (((g.rows - 1 - x : ℕ) : Int) - (g.rows / 2 : ℕ)) ^ 2 = ((x : Int) - (g.rows / 2 : ℕ)) ^ 2 := by
    intro x hx
    have e : (((g.rows - 1 - x : ℕ) : Int) - (g.rows / 2 : ℕ)) = -((x : Int) - (g.rows / 2 : ℕ)) := by omega
    rw [e]; ring
  refine ⟨key _ _ _ _ (by unfold sqDistance; ring), key _ _ _ _ ?_, key _ _ _ _ ?_⟩
  · unfold sqDistance; rw [flip i hi]
  · unfold sqDistance; rw [flip j hj]

/-- C41. A negative intensity gives a black image. -/
theorem bumped_circle_negative (overflow : Int → ℝ) (radius : ℝ) (maxIntensity : Int) (h0 : maxIntensity < 0) (i j : Nat) :
    (getBumpedCircle overflow radius maxIntensity).entry i j = 0 := by
  have hb := bumpValue_mem (bumpRadius radius) (bumpDistance (bumpSize radius) i j) (bumpRadius_ge _) (bumpDistance_nonneg _ _ _)
  unfold getBumpedCircle
  simp only []
  rw [if_neg]
  have : (maxIntensity : ℝ) < 0 := by exact_mod_cast h0
  push Not
  nlinarith [hb.1]

/-- The hypotheses are met: the default intensity, with a radius of 4. -/
example : (getBumpedCircle (fun _ => 0) 4 255).rows = 17 := by
  show bumpSize 4 = 17
  unfold bumpSize bumpRadius
  rw [if_neg (by norm_num)]
  have := rint_int 4
  norm_num at this
  rw [this]; rfl

end Verif.Props
