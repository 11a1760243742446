import Verif.Proofs.FloatSample

/-!
# C104: the sample image in double precision
-/

namespace Verif.Props
open Verif.Model Verif.Proofs

/-! ### Lemmas -/

theorem binary64_mono_all {x y : ℝ} (h : x ≤ y) : binary64 x ≤ binary64 y := by
  rcases le_total 0 x with hx | hx
  · exact binary64_mono hx h
  · rcases le_total 0 y with hy | hy
    · have := binary64_nonneg (x := -x) (by linarith)
      rw [binary64_neg] at this
      exact (by linarith : binary64 x ≤ 0).trans (binary64_nonneg hy)
    · have := binary64_mono (x := -y) (y := -x) (by linarith) (by linarith)
      rw [binary64_neg, binary64_neg] at this
      linarith

theorem bumpRadius_eq (radius : ℝ) : bumpRadius radius = max radius 1 := by
  unfold bumpRadius; split_ifs with h
  · exact (max_eq_right h.le).symm
  · exact (max_eq_left (not_lt.1 h)).symm

theorem bumpRadius_le (radius : ℝ) (h : radius ≤ 2 ^ 20) : bumpRadius radius ≤ 2 ^ 20 := by
  rw [bumpRadius_eq]; exact max_le h (by norm_num)

theorem bump_size_le (radius : ℝ) (h : radius ≤ 2 ^ 20) : ∃ k : ℕ, 1 ≤ k ∧ k ≤ 2 ^ 20 ∧ bumpSize radius = 4 * k + 1 ∧ (k : ℤ) = rint (bumpRadius radius) := by
  have h1 := (rint_radius _ (bumpRadius_ge radius)).1
  have h2 : rint (bumpRadius radius) ≤ 2 ^ 20 := rint_le (by exact_mod_cast bumpRadius_le radius h)
  refine ⟨(rint (bumpRadius radius)).toNat, by omega, by omega, ?_, by omega⟩
  unfold bumpSize; omega

theorem sqDistance_nonneg (c i j : Nat) : 0 ≤ sqDistance c i j := by unfold sqDistance; positivity

theorem distance_le (k i j : ℕ) (hk : k ≤ 2 ^ 20) (hi : i < 4 * k + 1) (hj : j < 4 * k + 1) : Real.sqrt (sqDistance (2 * k) i j : ℤ) ≤ 3 * 10 ^ 6 := by
  have key : ∀ x : ℕ, x < 4 * k + 1 → ((x : ℤ) - (2 * k : ℕ)) ^ 2 ≤ (2 ^ 21) ^ 2 := by
    intro x hx
    rw [sq_le_sq, abs_of_nonneg (by positivity : (0 : ℤ) ≤ 2 ^ 21), abs_le]
    constructor <;> omega
  have h : sqDistance (2 * k) i j ≤ (3 * 10 ^ 6) ^ 2 := by
    have h1 := key i hi
    have h2 := key j hj
    unfold sqDistance
    norm_num at h1 h2 ⊢; linarith
  rw [Real.sqrt_le_left (by positivity)]
  exact_mod_cast h

theorem bumpValue64_le (A : BumpArith) (hA : BumpAccurate A) (r d : ℝ) (h1 : 1 ≤ r) (h2 : r ≤ 2 ^ 20) (h0 : 0 ≤ d) : bumpValue64 A r d ≤ 1 + 1 / 10 ^ 12 ∧ |bumpValue64 A r d| ≤ 2 := by
  unfold bumpValue64
  split_ifs with c1 c2
  · norm_num
  · obtain ⟨_, x0, x1⟩ := ratio64 r d h1 h2 h0 c2
    simp only
    generalize binary64 (d / binary64 (r + 0.25)) = x at *
    obtain ⟨e, hlt⟩ := bump_chain A hA x x0 x1
    have hb : bump (1.25 ^ 8) (x ^ 8) ≤ 1 := by
      unfold bump
      rw [Real.exp_le_one_iff]
      have : 1 ≤ (1.25 : ℝ) ^ 8 / (1.25 ^ 8 - x ^ 8) := by
        rw [le_div_iff₀ (by linarith)]
        have : 0 ≤ x ^ 8 := by positivity
        linarith
      linarith
    have hb0 := bump_nonneg (1.25 ^ 8) (x ^ 8)
    generalize bump (1.25 ^ 8) (x ^ 8) = w at *
    rw [abs_le] at e ⊢
    norm_num at e ⊢
    refine ⟨by linarith, by linarith, by linarith⟩
  · norm_num

/-- The computed intensity before it is stored. -/
noncomputable def pixel64 (A : BumpArith) (radius : ℝ) (M : Int) (i j : Nat) : ℝ :=
  binary64 (bumpValue64 A (bumpRadius radius) (bumpDistance64 (bumpSize radius) i j) * binary64 M)

theorem intensity_exact (M : Int) (h0 : 0 ≤ M) (h1 : M ≤ 65535) : binary64 M = M := binary64_int M (by rw [abs_of_nonneg h0]; omega)

theorem pixel64_le (A : BumpArith) (hA : BumpAccurate A) (radius : ℝ) (hr : radius ≤ 2 ^ 20) (M : Int) (h0 : 0 ≤ M) (h1 : M ≤ 65535) (i j : Nat) :
    rint (pixel64 A radius M i j) ≤ M ∧
    |pixel64 A radius M i j - bumpValue64 A (bumpRadius radius) (bumpDistance64 (bumpSize radius) i j) * M| ≤ 1 / 10 ^ 6 := by
  unfold pixel64
  rw [intensity_exact M h0 h1]
  obtain ⟨v1, v2⟩ := bumpValue64_le A hA (bumpRadius radius) (bumpDistance64 (bumpSize radius) i j) (bumpRadius_ge radius) (bumpRadius_le radius hr) (by
    rw [bumpDistance64_eq]; exact dist64_nonneg _)
  generalize bumpValue64 A (bumpRadius radius) (bumpDistance64 (bumpSize radius) i j) = v at *
  have hM0 : (0 : ℝ) ≤ M := by exact_mod_cast h0
  have hM1 : (M : ℝ) ≤ 65535 := by exact_mod_cast h1
  have e := err64 (v * M) (2 * 65535) (by
    rw [abs_mul, abs_of_nonneg hM0]; exact mul_le_mul v2 hM1 hM0 (by norm_num)) (by norm_num)
  have hvm : v * M ≤ M + 1 / 10 ^ 6 := by
    have := mul_le_mul_of_nonneg_right v1 hM0
    norm_num at this ⊢; linarith
  have e' : |binary64 (v * M) - v * M| ≤ 1 / 10 ^ 6 := e.trans (by norm_num)
  refine ⟨?_, e'⟩
  have hn := rint_near (binary64 (v * M))
  rw [abs_le] at hn e'
  have : (rint (binary64 (v * M)) : ℝ) < ((M + 1 : ℤ) : ℝ) := by push_cast; norm_num at hn e' hvm ⊢; linarith
  have : rint (binary64 (v * M)) < M + 1 := by exact_mod_cast this
  omega

theorem entry64 (A : BumpArith) (hA : BumpAccurate A) (overflow : Int → ℝ) (radius : ℝ) (hr : radius ≤ 2 ^ 20) (M : Int) (h0 : 0 ≤ M) (h1 : M ≤ 65535) (i j : Nat) :
    (getBumpedCircle64 A overflow radius M).entry i j = rint (max (pixel64 A radius M i j) 0) := by
  have hle := (pixel64_le A hA radius hr M h0 h1 i j).1
  unfold getBumpedCircle64
  simp only
  show (if pixel64 A radius M i j > 0 then (if rint (pixel64 A radius M i j) ≤ _ then (rint (pixel64 A radius M i j) : ℝ) else overflow (rint (pixel64 A radius M i j))) else 0) = _
  generalize pixel64 A radius M i j = v at *
  by_cases hv : v > 0
  · rw [if_pos hv, if_pos, max_eq_left hv.le]
    split_ifs with h <;> omega
  · rw [if_neg hv, max_eq_right (not_lt.1 hv)]
    have := rint_int 0
    rw [Int.cast_zero] at this
    rw [this]; simp

theorem entry64_mem (A : BumpArith) (hA : BumpAccurate A) (overflow : Int → ℝ) (radius : ℝ) (hr : radius ≤ 2 ^ 20) (M : Int) (h0 : 0 ≤ M) (h1 : M ≤ 65535) (i j : Nat) :
    ∃ v : Int, (getBumpedCircle64 A overflow radius M).entry i j = v ∧ 0 ≤ v ∧ v ≤ M := by
  refine ⟨_, entry64 A hA overflow radius hr M h0 h1 i j, rint_nonneg (le_max_right _ _), ?_⟩
  rcases le_total (pixel64 A radius M i j) 0 with h | h
  · rw [max_eq_right h]
    have := rint_int 0
    rw [Int.cast_zero] at this
    rw [this]; exact h0
  · rw [max_eq_left h]; exact (pixel64_le A hA radius hr M h0 h1 i j).1

theorem rint_close {x y : ℝ} (h : |x - y| < 1) : |(rint x : ℝ) - rint y| ≤ 1 := by
  have h1 := rint_near x
  have h2 := rint_near y
  rw [abs_le] at h1 h2
  rw [abs_lt] at h
  have a : (rint x : ℝ) < ((rint y + 2 : ℤ) : ℝ) := by push_cast; linarith
  have b : ((rint y : ℤ) : ℝ) < ((rint x + 2 : ℤ) : ℝ) := by push_cast; linarith
  have a' : rint x < rint y + 2 := by exact_mod_cast a
  have b' : rint y < rint x + 2 := by exact_mod_cast b
  have : |rint x - rint y| ≤ 1 := by rw [abs_le]; constructor <;> omega
  exact_mod_cast this

/-! ### The image -/

/-- C104. The sample image in double precision, for an intensity in the range of its type and a radius up to 2²⁰: the size of the exact image, integer values in
`[0, max_intensity]` (nothing overflows the type), exactly the maximum in the centre, 0 on the border, and values that depend on the squared distance from the centre
only, so that the image is symmetric bit for bit. -/
theorem bumped_circle_double (A : BumpArith) (hA : BumpAccurate A) (overflow : Int → ℝ) (radius : ℝ) (hr : radius ≤ 2 ^ 20) (maxIntensity : Int) (h0 : 0 ≤ maxIntensity)
    (h1 : maxIntensity ≤ 65535) :
    let g := getBumpedCircle64 A overflow radius maxIntensity
    (∃ q : ℕ, 1 ≤ q ∧ |(q : ℝ) - max radius 1| ≤ 1 / 2 ∧ g.rows = 4 * q + 1 ∧ g.cols = 4 * q + 1) ∧
    (∀ i j, ∃ v : Int, g.entry i j = v ∧ 0 ≤ v ∧ v ≤ maxIntensity) ∧
    g.entry (g.rows / 2) (g.rows / 2) = maxIntensity ∧
    (∀ i j, i < g.rows → j < g.rows → (i = 0 ∨ j = 0 ∨ i = g.rows - 1 ∨ j = g.rows - 1) → g.entry i j = 0) ∧
    (∀ i j i' j', sqDistance (g.rows / 2) i j = sqDistance (g.rows / 2) i' j' → g.entry i j = g.entry i' j') ∧
    ∀ i j, i < g.rows → j < g.rows → g.entry i j = g.entry j i ∧ g.entry (g.rows - 1 - i) j = g.entry i j ∧ g.entry i (g.rows - 1 - j) = g.entry i j := by
  intro g
  obtain ⟨k, k1, k2, k3, k4⟩ := bump_size_le radius hr
  have hrow : g.rows = 4 * k + 1 := k3
  have hcol : g.cols = 4 * k + 1 := k3
  have hhalf : bumpSize radius / 2 = 2 * k := by omega
  have hent := entry64 A hA overflow radius hr maxIntensity h0 h1
  have h1r := bumpRadius_ge radius
  have h2r := bumpRadius_le radius hr
  have key : ∀ a b c d, sqDistance (g.rows / 2) a b = sqDistance (g.rows / 2) c d → g.entry a b = g.entry c d := by
    intro a b c d h
    show (getBumpedCircle64 A overflow radius maxIntensity).entry a b = (getBumpedCircle64 A overflow radius maxIntensity).entry c d
    rw [hent, hent]
    unfold pixel64
    rw [bumpDistance64_eq, bumpDistance64_eq]
    have : sqDistance (bumpSize radius / 2) a b = sqDistance (bumpSize radius / 2) c d := h
    rw [this]
  have flip : ∀ x : ℕ, x < g.rows → (((g.rows - 1 - x : ℕ) : Int) - (g.rows / 2 : ℕ)) ^ 2 = ((x : Int) - (g.rows / 2 : ℕ)) ^ 2 := by
    intro x hx
    have e : (((g.rows - 1 - x : ℕ) : Int) - (g.rows / 2 : ℕ)) = -((x : Int) - (g.rows / 2 : ℕ)) := by omega
    rw [e]; ring
  refine ⟨⟨k, k1, ?_, hrow, hcol⟩, entry64_mem A hA overflow radius hr maxIntensity h0 h1, ?_, ?_, key, ?_⟩
  · have := rint_near (bumpRadius radius)
    rw [← k4, bumpRadius_eq] at this
    exact_mod_cast this
  · show (getBumpedCircle64 A overflow radius maxIntensity).entry _ _ = _
    rw [hent]
    have hd : bumpDistance64 (bumpSize radius) (g.rows / 2) (g.rows / 2) = 0 := by
      rw [bumpDistance64_eq]
      have : sqDistance (bumpSize radius / 2) (g.rows / 2) (g.rows / 2) = ((0 : ℕ) : ℤ) ^ 2 := by
        have : bumpSize radius / 2 = g.rows / 2 := rfl
        rw [this]; simp [sqDistance]
      rw [this, dist64_sq 0 (by norm_num)]; simp
    have hv : bumpValue64 A (bumpRadius radius) 0 = 1 := by
      unfold bumpValue64
      rw [if_pos (inner64_near _ h1r h2r).2]
    unfold pixel64
    rw [hd, hv, one_mul, intensity_exact _ h0 h1, intensity_exact _ h0 h1, max_eq_left (by exact_mod_cast h0), rint_int]
  · intro i j hi hj hb
    show (getBumpedCircle64 A overflow radius maxIntensity).entry _ _ = _
    rw [hent]
    have hge : ((2 * k : ℕ) : ℝ) ≤ bumpDistance64 (bumpSize radius) i j := by
      rw [bumpDistance64_eq, ← dist64_sq (2 * k) (by omega)]
      refine dist64_mono (by positivity) ?_
      have : (((2 * k : ℕ) : ℤ)) ^ 2 ≤ sqDistance (bumpSize radius / 2) i j := by
        unfold sqDistance
        rw [hhalf]
        have p1 := sq_nonneg ((i : ℤ) - (2 * k : ℕ))
        have p2 := sq_nonneg ((j : ℤ) - (2 * k : ℕ))
        have last : ∀ x : ℕ, x = 0 ∨ x = g.rows - 1 → ((x : ℤ) - (2 * k : ℕ)) ^ 2 = (((2 * k : ℕ) : ℤ)) ^ 2 := by
          rintro x (rfl | hx)
          · push_cast; ring
          · have : (x : ℤ) = 4 * k := by omega
            rw [this]; push_cast; ring
        rcases hb with h | h | h | h
        · rw [last i (.inl h)]; linarith
        · rw [last j (.inl h)]; linarith
        · rw [last i (.inr h)]; linarith
        · rw [last j (.inr h)]; linarith
      exact_mod_cast this
    have q2 := (rint_radius _ h1r).2
    have hk2 : (2 * rint (bumpRadius radius) : ℝ) = ((2 * k : ℕ) : ℝ) := by rw [← k4]; push_cast; ring
    rw [hk2] at q2
    have hL : binary64 (bumpRadius radius * (1 + 0.25)) ≤ ((2 * k : ℕ) : ℝ) := by
      rw [← binary64_nat (2 * k) (by omega)]
      exact binary64_mono_all q2
    have hI : bumpInner64 (bumpRadius radius) ≤ ((2 * k : ℕ) : ℝ) := by
      have := (inner64_near _ h1r h2r).1
      rw [abs_le] at this
      norm_num at this q2 ⊢; linarith
    have hv : bumpValue64 A (bumpRadius radius) (bumpDistance64 (bumpSize radius) i j) = 0 := by
      unfold bumpValue64
      rw [if_neg (not_lt.2 (hI.trans hge)), if_neg (not_lt.2 (hL.trans hge))]
    unfold pixel64
    rw [hv, zero_mul, binary64_zero, max_self]
    have := rint_int 0
    simpa using this
  · intro i j hi hj
    refine ⟨key _ _ _ _ (by unfold sqDistance; ring), key _ _ _ _ ?_, key _ _ _ _ ?_⟩
    · unfold sqDistance; rw [flip i hi]
    · unfold sqDistance; rw [flip j hj]

/-! ### Distance from the exact image -/

/-- The pixel is on the edge of the circle (5/4 of the radius) exactly, at an integer distance, or not within 2·10⁻⁶ of it. -/
def ClearOfEdge (r : ℝ) (D : ℤ) : Prop := (∃ h : ℕ, D = (h : ℤ) ^ 2 ∧ (h : ℝ) = r * 1.25) ∨ 2e-6 < |Real.sqrt D - r * 1.25|

theorem pow8_lip (a b : ℝ) (ha : 0 ≤ a) (ha' : a ≤ 1.25) (hb : 0 ≤ b) (hb' : b ≤ 1.25) : |a ^ 8 - b ^ 8| ≤ 38.15 * |a - b| := by
  have e : a ^ 8 - b ^ 8 = (a ^ 7 + a ^ 6 * b + a ^ 5 * b ^ 2 + a ^ 4 * b ^ 3 + a ^ 3 * b ^ 4 + a ^ 2 * b ^ 5 + a * b ^ 6 + b ^ 7) * (a - b) := by ring
  rw [e, abs_mul]
  refine mul_le_mul_of_nonneg_right ?_ (abs_nonneg _)
  rw [abs_of_nonneg (by positivity)]
  have t : ∀ i j : ℕ, i + j = 7 → a ^ i * b ^ j ≤ 1.25 ^ 7 := by
    intro i j h
    rw [← h, pow_add]
    exact mul_le_mul (pow_le_pow_left₀ ha ha' i) (pow_le_pow_left₀ hb hb' j) (by positivity) (by positivity)
  have t0 := t 7 0 rfl
  have t1 := t 6 1 rfl
  have t2 := t 5 2 rfl
  have t3 := t 4 3 rfl
  have t4 := t 3 4 rfl
  have t5 := t 2 5 rfl
  have t6 := t 1 6 rfl
  have t7 := t 0 7 rfl
  simp only [pow_zero, pow_one, mul_one, one_mul] at t0 t1 t2 t3 t4 t5 t6 t7
  norm_num at t0 t1 t2 t3 t4 t5 t6 t7 ⊢
  linarith

theorem middle_is_bump (r d : ℝ) : Real.exp 1 * Real.exp ((1 + 0.25 : ℝ) ^ 8 / ((d / (r + 0.25)) ^ 8 - (1 + 0.25 : ℝ) ^ 8)) = bump (1.25 ^ 8) ((d / (r + 0.25)) ^ 8) := by
  unfold bump
  rw [← Real.exp_add]
  congr 1
  have e : (1 + 0.25 : ℝ) = 1.25 := by norm_num
  rw [e, ← neg_sub ((1.25 : ℝ) ^ 8), div_neg]
  ring

/-- The relative intensities differ by less than 9·10⁻⁶ off the edge. -/
theorem bumpValue64_near (A : BumpArith) (hA : BumpAccurate A) (r : ℝ) (h1 : 1 ≤ r) (h2 : r ≤ 2 ^ 20) (D : ℤ) (h0 : 0 ≤ D) (hq : Real.sqrt D ≤ 3 * 10 ^ 6) (hc : ClearOfEdge r D) :
    |bumpValue64 A r (dist64 D) - bumpValue r (npRound 6 (Real.sqrt D))| ≤ 9e-6 := by
  have n1 := dist64_near D hq
  have n2 := npRound6_near (Real.sqrt D)
  have p1 := dist64_nonneg (D : ℝ)
  have p2 : 0 ≤ npRound 6 (Real.sqrt D) := by
    have := npRound_mono (d := (6 : ℕ)) (Real.sqrt_nonneg (D : ℝ))
    have h0 := npRound_nat 6 0
    rw [Nat.cast_zero] at h0
    rw [h0] at this
    exact this
  obtain ⟨i1, _⟩ := inner64_near r h1 h2
  have i2 := npRound6_near (0.25 * r)
  have hL := err64 (r * (1 + 0.25)) (2 ^ 21) (by rw [abs_of_nonneg (by positivity)]; norm_num at h2 ⊢; linarith) (by norm_num)
  -- the outer branch is the same
  have hout : dist64 D < binary64 (r * (1 + 0.25)) ↔ npRound 6 (Real.sqrt D) < r * (1 + 0.25) := by
    rcases hc with ⟨h, hD, hh⟩ | hc
    · have hh' : r * (1 + 0.25) = h := by rw [hh]; norm_num
      have hh2 : h ≤ 2 ^ 22 := by
        have : (h : ℝ) ≤ ((2 ^ 22 : ℕ) : ℝ) := by rw [hh]; norm_num at h2 ⊢; linarith
        exact_mod_cast this
      rw [hh', hD, dist64_sq h hh2, binary64_nat h (hh2.trans (by norm_num))]
      have : Real.sqrt (((h : ℤ) ^ 2 : ℤ) : ℝ) = h := by push_cast; exact Real.sqrt_sq (by positivity)
      rw [this]
      have := npRound_nat 6 h
      have e6 : npRound 6 (h : ℝ) = h := this
      rw [e6]
    · rw [abs_le] at n1 n2 hL
      generalize Real.sqrt (D : ℝ) = q at *
      generalize dist64 (D : ℝ) = d' at *
      generalize npRound 6 q = d at *
      generalize binary64 (r * (1 + 0.25)) = L at *
      rcases lt_abs.1 hc with hc | hc
      · have a : ¬ d' < L := by norm_num at n1 hL hc ⊢; linarith
        have b : ¬ d < r * (1 + 0.25) := by norm_num at n2 hc ⊢; linarith
        exact ⟨fun h => absurd h a, fun h => absurd h b⟩
      · have a : d' < L := by norm_num at n1 hL hc ⊢; linarith
        have b : d < r * (1 + 0.25) := by norm_num at n2 hc ⊢; linarith
        exact ⟨fun _ => b, fun _ => a⟩
  have hdd : |dist64 D - npRound 6 (Real.sqrt D)| ≤ 1.002e-6 := by
    rw [abs_le] at n1 n2 ⊢; norm_num at n1 n2 ⊢; constructor <;> linarith
  generalize Real.sqrt (D : ℝ) = q at *
  generalize dist64 (D : ℝ) = d' at *
  generalize npRound 6 q = d at *
  have hR : 1.25 ≤ r + 0.25 := by norm_num; linarith
  have hR0 : 0 < r + 0.25 := by norm_num; linarith
  -- the computed middle branch
  have mid : d' < binary64 (r * (1 + 0.25)) → ∃ x, 0 ≤ x ∧ x ≤ 1.25 ∧ x ^ 8 < 1.25 ^ 8 ∧ |x - d' / (r + 0.25)| ≤ 1e-15 ∧
      (d' ≥ bumpInner64 r → |bumpValue64 A r d' - bump (1.25 ^ 8) (x ^ 8)| ≤ 2e-13) := by
    intro h
    obtain ⟨x1, x2, x3⟩ := ratio64 r d' h1 h2 p1 h
    obtain ⟨e1, e2⟩ := bump_chain A hA _ x2 x3
    refine ⟨_, x2, x3.trans (by norm_num), e2, x1, fun hn => ?_⟩
    unfold bumpValue64
    rw [if_neg (not_lt.2 hn), if_pos h]
    exact e1
  have exactMid : d < r * (1 + 0.25) → 0 ≤ d / (r + 0.25) ∧ d / (r + 0.25) ≤ 1.25 ∧ (d / (r + 0.25)) ^ 8 < 1.25 ^ 8 := by
    intro h
    have := bump_ratio r d h1 p2 h
    have e : (1 + 0.25 : ℝ) = 1.25 := by norm_num
    rw [e] at this
    refine ⟨by positivity, ?_, this⟩
    rw [div_le_iff₀ hR0]; norm_num at h ⊢; linarith
  have small : ∀ x : ℝ, 0 ≤ x → x ≤ 0.2502 → |bump (1.25 ^ 8) (x ^ 8) - 1| ≤ 5e-6 := by
    intro x hx0 hx
    have hp : x ^ 8 ≤ 0.2502 ^ 8 := pow_le_pow_left₀ hx0 hx 8
    have hx8 : 0 ≤ x ^ 8 := by positivity
    have := bump_lip 0 (x ^ 8) (by positivity) (by norm_num at hp ⊢; linarith)
    rw [bump_zero, sub_zero, abs_of_nonneg hx8] at this
    norm_num at this hp ⊢; linarith
  rw [abs_le] at hdd i1 i2
  by_cases c1 : d' < bumpInner64 r
  · have v1 : bumpValue64 A r d' = 1 := by unfold bumpValue64; rw [if_pos c1]
    rw [v1]
    by_cases c2 : d < npRound 6 (0.25 * r)
    · unfold bumpValue; rw [if_pos c2]; norm_num
    · have c3 : d < r * (1 + 0.25) := by norm_num at hdd i1 c1 ⊢; linarith
      have v2 : bumpValue r d = bump (1.25 ^ 8) ((d / (r + 0.25)) ^ 8) := by
        unfold bumpValue; rw [if_neg c2, if_pos c3]; exact middle_is_bump r d
      rw [v2, abs_sub_comm]
      refine (small _ (by positivity) ?_).trans (by norm_num)
      rw [div_le_iff₀ hR0]; norm_num at hdd i1 c1 ⊢; linarith
  · by_cases c3 : d < r * (1 + 0.25)
    · obtain ⟨x, x0, x1, x2, x3, x4⟩ := mid (hout.2 c3)
      have x4 := x4 (not_lt.1 c1)
      by_cases c2 : d < npRound 6 (0.25 * r)
      · have v2 : bumpValue r d = 1 := by unfold bumpValue; rw [if_pos c2]
        rw [v2]
        have hx : x ≤ 0.2502 := by
          have : d' / (r + 0.25) ≤ 0.2501 := by
            rw [div_le_iff₀ hR0]; norm_num at hdd i2 c2 ⊢; linarith
          rw [abs_le] at x3; norm_num at x3 this ⊢; linarith
        have := small x x0 hx
        have e : bumpValue64 A r d' - 1 = (bumpValue64 A r d' - bump (1.25 ^ 8) (x ^ 8)) + (bump (1.25 ^ 8) (x ^ 8) - 1) := by ring
        rw [e]
        refine (abs_add_le _ _).trans ?_
        norm_num at x4 this ⊢; linarith
      · have v2 : bumpValue r d = bump (1.25 ^ 8) ((d / (r + 0.25)) ^ 8) := by
          unfold bumpValue; rw [if_neg c2, if_pos c3]; exact middle_is_bump r d
        rw [v2]
        obtain ⟨y0, y1, y2⟩ := exactMid c3
        have l1 := bump_lip _ _ y2 x2
        have l2 := pow8_lip x _ x0 x1 y0 y1
        have l3 : |x - d / (r + 0.25)| ≤ 0.8017e-6 := by
          have e : x - d / (r + 0.25) = (x - d' / (r + 0.25)) + (d' - d) / (r + 0.25) := by ring
          have e2 : |(d' - d) / (r + 0.25)| ≤ 1.002e-6 / 1.25 := by
            rw [abs_div, abs_of_pos hR0]
            refine div_le_div₀ (by norm_num) (by rw [abs_le]; exact hdd) (by norm_num) hR
          rw [e]
          refine (abs_add_le _ _).trans ?_
          norm_num at x3 e2 ⊢; linarith
        have e : bumpValue64 A r d' - bump (1.25 ^ 8) ((d / (r + 0.25)) ^ 8) = (bumpValue64 A r d' - bump (1.25 ^ 8) (x ^ 8)) +
          (bump (1.25 ^ 8) (x ^ 8) - bump (1.25 ^ 8) ((d / (r + 0.25)) ^ 8)) := by ring
        rw [e]
        refine (abs_add_le _ _).trans ?_
        norm_num at x4 l1 l2 l3 ⊢; linarith
    · have v1 : bumpValue64 A r d' = 0 := by unfold bumpValue64; rw [if_neg c1, if_neg (fun h => c3 (hout.1 h))]
      have c2 : ¬ d < npRound 6 (0.25 * r) := by norm_num at c3 i2 ⊢; linarith
      have v2 : bumpValue r d = 0 := by unfold bumpValue; rw [if_neg c2, if_neg c3]
      rw [v1, v2]; norm_num

/-- C104. Off the edge of the circle the double precision image differs from the exact one (C41) by at most 1 in each pixel. -/
theorem bumped_circle_double_near (A : BumpArith) (hA : BumpAccurate A) (overflow : Int → ℝ) (radius : ℝ) (hr : radius ≤ 2 ^ 20) (maxIntensity : Int) (h0 : 0 ≤ maxIntensity)
    (h1 : maxIntensity ≤ 65535) (i j : Nat) (hi : i < (getBumpedCircle overflow radius maxIntensity).rows) (hj : j < (getBumpedCircle overflow radius maxIntensity).rows)
    (hc : ClearOfEdge (max radius 1) (sqDistance ((getBumpedCircle overflow radius maxIntensity).rows / 2) i j)) :
    |(getBumpedCircle64 A overflow radius maxIntensity).entry i j - (getBumpedCircle overflow radius maxIntensity).entry i j| ≤ 1 := by
  obtain ⟨k, k1, k2, k3, k4⟩ := bump_size_le radius hr
  have hhalf : bumpSize radius / 2 = 2 * k := by omega
  have hrow : (getBumpedCircle overflow radius maxIntensity).rows = bumpSize radius := rfl
  rw [hrow] at hi hj hc
  rw [entry64 A hA overflow radius hr maxIntensity h0 h1, bumpEntry overflow radius maxIntensity h0 h1]
  rw [← bumpRadius_eq] at hc
  have hq := distance_le k i j k2 (by omega) (by omega)
  rw [← hhalf] at hq
  have hv := bumpValue64_near A hA (bumpRadius radius) (bumpRadius_ge radius) (bumpRadius_le radius hr) _ (sqDistance_nonneg _ i j) hq hc
  rw [← bumpDistance64_eq, ← bumpDistance_eq] at hv
  have hp := (pixel64_le A hA radius hr maxIntensity h0 h1 i j).2
  have hb := (bumpValue_mem (bumpRadius radius) (bumpDistance (bumpSize radius) i j) (bumpRadius_ge _) (bumpDistance_nonneg _ _ _)).1
  have hM0 : (0 : ℝ) ≤ maxIntensity := by exact_mod_cast h0
  have hM1 : (maxIntensity : ℝ) ≤ 65535 := by exact_mod_cast h1
  generalize bumpValue64 A (bumpRadius radius) (bumpDistance64 (bumpSize radius) i j) = v' at *
  generalize bumpValue (bumpRadius radius) (bumpDistance (bumpSize radius) i j) = v at *
  refine rint_close ?_
  have hmul : |v' * maxIntensity - v * maxIntensity| ≤ 9e-6 * 65535 := by
    rw [← sub_mul, abs_mul, abs_of_nonneg hM0]
    exact mul_le_mul hv hM1 hM0 (by norm_num)
  have hvm : 0 ≤ v * maxIntensity := mul_nonneg hb hM0
  generalize v * (maxIntensity : ℝ) = w at *
  generalize v' * (maxIntensity : ℝ) = w' at *
  generalize pixel64 A radius maxIntensity i j = p at *
  rw [abs_le] at hp hmul
  rw [abs_lt]
  norm_num at hp hmul
  rcases le_total p 0 with h | h
  · rw [max_eq_right h]; constructor <;> linarith
  · rw [max_eq_left h]; constructor <;> linarith

theorem integer_clear (radius : ℕ) (hr1 : 1 ≤ radius) (hr : radius ≤ 10 ^ 4) (D : ℤ) (hD0 : 0 ≤ D) : ClearOfEdge radius D := by
  by_cases he : 16 * D = 25 * (radius : ℤ) ^ 2
  · left
    have h4 : (4 : ℤ) ∣ radius := by
      have h16 : (4 : ℤ) ^ 2 ∣ (radius : ℤ) ^ 2 := by
        have : (4 : ℤ) ^ 2 ∣ 25 * (radius : ℤ) ^ 2 := ⟨D, by rw [← he]; norm_num⟩
        exact IsCoprime.dvd_of_dvd_mul_left (by rw [Int.isCoprime_iff_gcd_eq_one]; decide) this
      exact (Int.pow_dvd_pow_iff (by norm_num)).1 h16
    obtain ⟨c, hc⟩ := h4
    refine ⟨5 * c.toNat, ?_, ?_⟩
    · have hc0 : ((c.toNat : ℕ) : ℤ) = c := Int.toNat_of_nonneg (by omega)
      push_cast
      rw [hc0]
      rw [hc] at he
      linarith
    · have hc0 : ((c.toNat : ℕ) : ℤ) = c := Int.toNat_of_nonneg (by omega)
      have : (radius : ℤ) = 4 * (c.toNat : ℤ) := by rw [hc0]; exact hc
      have h2 : (radius : ℝ) = 4 * (c.toNat : ℝ) := by exact_mod_cast this
      rw [h2]; push_cast; norm_num; ring
  · right
    have hr1' : (1 : ℝ) ≤ radius := by exact_mod_cast hr1
    have hr' : (radius : ℝ) ≤ 10 ^ 4 := by exact_mod_cast hr
    have h1 : (1 : ℤ) ≤ |16 * D - 25 * (radius : ℤ) ^ 2| := Int.one_le_abs (sub_ne_zero.2 he)
    have h2 : (1 : ℝ) ≤ |16 * (D : ℝ) - 25 * (radius : ℝ) ^ 2| := by exact_mod_cast h1
    have hs := Real.sq_sqrt (show (0 : ℝ) ≤ D by exact_mod_cast hD0)
    have hs0 := Real.sqrt_nonneg (D : ℝ)
    generalize Real.sqrt (D : ℝ) = q at *
    rw [← hs] at h2
    by_contra hcon
    have hcon := not_lt.1 hcon
    have e : 16 * q ^ 2 - 25 * (radius : ℝ) ^ 2 = 16 * ((q - radius * 1.25) * (q + radius * 1.25)) := by norm_num; ring
    rw [e, abs_mul, abs_mul] at h2
    generalize (radius : ℝ) = ρ at *
    have hq : |q + ρ * 1.25| ≤ 25001 := by
      rw [abs_le] at hcon ⊢
      norm_num at hcon hr' ⊢
      constructor <;> linarith
    have := mul_le_mul hcon hq (abs_nonneg _) (by norm_num)
    norm_num at this h2
    linarith

/-- C104. For an integer radius up to 10⁴ this holds for every pixel. -/
theorem bumped_circle_double_integer (A : BumpArith) (hA : BumpAccurate A) (overflow : Int → ℝ) (radius : ℕ) (hr1 : 1 ≤ radius) (hr : radius ≤ 10 ^ 4) (maxIntensity : Int)
    (h0 : 0 ≤ maxIntensity) (h1 : maxIntensity ≤ 65535) (i j : Nat) (hi : i < 4 * radius + 1) (hj : j < 4 * radius + 1) :
    |(getBumpedCircle64 A overflow radius maxIntensity).entry i j - (getBumpedCircle overflow radius maxIntensity).entry i j| ≤ 1 := by
  have hr1' : (1 : ℝ) ≤ radius := by exact_mod_cast hr1
  have hr' : (radius : ℝ) ≤ 10 ^ 4 := by exact_mod_cast hr
  have hrow : (getBumpedCircle overflow radius maxIntensity).rows = 4 * radius + 1 := by
    have : bumpSize (radius : ℝ) = 4 * radius + 1 := by
      unfold bumpSize
      rw [bumpRadius_eq, max_eq_left hr1', show ((radius : ℕ) : ℝ) = ((radius : ℤ) : ℝ) by simp, rint_int]
      omega
    exact this
  refine bumped_circle_double_near A hA overflow radius (hr'.trans (by norm_num)) maxIntensity h0 h1 i j (by omega) (by omega) ?_
  rw [max_eq_left hr1']
  have hD0 := sqDistance_nonneg ((getBumpedCircle overflow radius maxIntensity).rows / 2) i j
  generalize sqDistance ((getBumpedCircle overflow radius maxIntensity).rows / 2) i j = D at *
  exact integer_clear radius hr1 hr D hD0

/-! ### Larger distances are not brighter -/

/-- `numpy.exp` and the eighth power do not decrease (true for correctly rounded ones). -/
structure BumpMonotone (A : BumpArith) : Prop where
  exp : ∀ y y', y ≤ y' → y' ≤ 0 → A.exp y ≤ A.exp y'
  pow8 : ∀ x x', 0 ≤ x → x ≤ x' → x' ≤ 5 / 4 → A.pow8 x ≤ A.pow8 x'

theorem chain_anti (A : BumpArith) (hA : BumpAccurate A) (hm : BumpMonotone A) (x x' : ℝ) (h0 : 0 ≤ x) (h : x ≤ x') (h1 : x' ≤ 1.25 - 2.9e-7) :
    binary64 (binary64 (Real.exp 1) * A.exp (binary64 (A.pow8 (1 + 0.25) / binary64 (A.pow8 x' - A.pow8 (1 + 0.25))))) ≤
    binary64 (binary64 (Real.exp 1) * A.exp (binary64 (A.pow8 (1 + 0.25) / binary64 (A.pow8 x - A.pow8 (1 + 0.25))))) := by
  have e125 : (1 + 0.25 : ℝ) = 1.25 := by norm_num
  rw [e125]
  have hb := hA.pow8 1.25 (by norm_num) (by norm_num)
  have hX := hm.pow8 x x' h0 h (h1.trans (by norm_num))
  have hx' := hA.pow8 x' (h0.trans h) (h1.trans (by norm_num))
  have hgap : x' ^ 8 ≤ 1.25 ^ 8 - 1.3e-6 := by
    have h2 : x' ^ 7 ≤ 1.25 ^ 7 := pow_le_pow_left₀ (h0.trans h) (h1.trans (by norm_num)) 7
    have h3 : x' ^ 8 = x' ^ 7 * x' := by ring
    have h4 : x' ^ 7 * x' ≤ 1.25 ^ 7 * (1.25 - 2.9e-7) := mul_le_mul h2 h1 (h0.trans h) (by positivity)
    rw [h3]
    refine h4.trans ?_
    norm_num
  generalize A.pow8 x = X at *
  generalize A.pow8 x' = X' at *
  have hB : 1 ≤ A.pow8 1.25 := by rw [abs_le] at hb; norm_num at hb ⊢; linarith
  have hneg : X' - A.pow8 1.25 ≤ -1e-6 := by rw [abs_le] at hb hx'; norm_num at hb hx' hgap ⊢; linarith
  generalize A.pow8 1.25 = B at *
  -- the denominators
  have d1 : binary64 (X - B) ≤ binary64 (X' - B) := binary64_mono_all (by linarith)
  have d2 : binary64 (X' - B) < 0 := by
    have h3 : binary64 (X' - B) ≤ binary64 (-1e-6) := binary64_mono_all hneg
    have h4 := err64 (-1e-6) 1 (by norm_num) (by norm_num)
    rw [abs_le] at h4
    norm_num at h4 h3 ⊢; linarith
  generalize binary64 (X - B) = d at *
  generalize binary64 (X' - B) = d' at *
  have q : B / d' ≤ B / d := by
    rw [div_eq_mul_one_div B d', div_eq_mul_one_div B d]
    exact mul_le_mul_of_nonneg_left (one_div_le_one_div_of_neg_of_le d2 d1) (by linarith)
  have q0 : binary64 (B / d) ≤ 0 := by
    have : B / d ≤ 0 := div_nonpos_of_nonneg_of_nonpos (by linarith) (d1.trans d2.le)
    have := binary64_mono_all this
    rw [binary64_zero] at this
    exact this
  refine binary64_mono_all (mul_le_mul_of_nonneg_left ?_ (binary64_nonneg (Real.exp_pos 1).le))
  exact hm.exp _ _ (binary64_mono_all q) q0

/-- C104. If `numpy.exp` and the power do not decrease, then the image does not get brighter with the distance from the centre, without any rounding left over. -/
theorem bumped_circle_double_decreases (A : BumpArith) (hA : BumpAccurate A) (hm : BumpMonotone A) (overflow : Int → ℝ) (radius : ℝ) (hr : radius ≤ 2 ^ 20)
    (maxIntensity : Int) (h0 : 0 ≤ maxIntensity) (h1 : maxIntensity ≤ 65535) (i j i' j' : Nat) :
    let g := getBumpedCircle64 A overflow radius maxIntensity
    sqDistance (g.rows / 2) i j ≤ sqDistance (g.rows / 2) i' j' → g.entry i' j' ≤ g.entry i j := by
  intro g h
  have h1r := bumpRadius_ge radius
  have h2r := bumpRadius_le radius hr
  have hd : bumpDistance64 (bumpSize radius) i j ≤ bumpDistance64 (bumpSize radius) i' j' := by
    rw [bumpDistance64_eq, bumpDistance64_eq]
    exact dist64_mono (by exact_mod_cast sqDistance_nonneg _ i j) (by exact_mod_cast h)
  have p1 : 0 ≤ bumpDistance64 (bumpSize radius) i j := by rw [bumpDistance64_eq]; exact dist64_nonneg _
  obtain ⟨v', hv', v0', v1'⟩ := entry64_mem A hA overflow radius hr maxIntensity h0 h1 i' j'
  obtain ⟨v, hv, v0, v1⟩ := entry64_mem A hA overflow radius hr maxIntensity h0 h1 i j
  show (getBumpedCircle64 A overflow radius maxIntensity).entry i' j' ≤ (getBumpedCircle64 A overflow radius maxIntensity).entry i j
  by_cases c1 : bumpDistance64 (bumpSize radius) i j < bumpInner64 (bumpRadius radius)
  · have : (getBumpedCircle64 A overflow radius maxIntensity).entry i j = maxIntensity := by
      rw [entry64 A hA overflow radius hr maxIntensity h0 h1]
      have hw : bumpValue64 A (bumpRadius radius) (bumpDistance64 (bumpSize radius) i j) = 1 := by unfold bumpValue64; rw [if_pos c1]
      unfold pixel64
      rw [hw, one_mul, intensity_exact _ h0 h1, intensity_exact _ h0 h1, max_eq_left (by exact_mod_cast h0), rint_int]
    rw [this, hv']
    exact_mod_cast v1'
  · by_cases c2 : bumpDistance64 (bumpSize radius) i' j' < binary64 (bumpRadius radius * (1 + 0.25))
    · rw [entry64 A hA overflow radius hr maxIntensity h0 h1, entry64 A hA overflow radius hr maxIntensity h0 h1]
      have hval : bumpValue64 A (bumpRadius radius) (bumpDistance64 (bumpSize radius) i' j') ≤ bumpValue64 A (bumpRadius radius) (bumpDistance64 (bumpSize radius) i j) := by
        unfold bumpValue64
        rw [if_neg c1, if_neg (fun hlt => c1 (lt_of_le_of_lt hd hlt)), if_pos c2, if_pos (lt_of_le_of_lt hd c2)]
        obtain ⟨_, x2, _⟩ := ratio64 _ _ h1r h2r p1 (lt_of_le_of_lt hd c2)
        obtain ⟨_, _, x3⟩ := ratio64 _ _ h1r h2r (p1.trans hd) c2
        refine chain_anti A hA hm _ _ x2 (binary64_mono_all (div_le_div_of_nonneg_right hd (binary64_nonneg (by linarith)))) x3
      have hM : (0 : ℝ) ≤ binary64 maxIntensity := binary64_nonneg (by exact_mod_cast h0)
      have hpix : pixel64 A radius maxIntensity i' j' ≤ pixel64 A radius maxIntensity i j := binary64_mono_all (mul_le_mul_of_nonneg_right hval hM)
      exact_mod_cast rint_mono (max_le_max_right 0 hpix)
    · have : (getBumpedCircle64 A overflow radius maxIntensity).entry i' j' = 0 := by
        rw [entry64 A hA overflow radius hr maxIntensity h0 h1]
        have hw : bumpValue64 A (bumpRadius radius) (bumpDistance64 (bumpSize radius) i' j') = 0 := by
          unfold bumpValue64
          rw [if_neg (fun hlt => c1 (lt_of_le_of_lt hd hlt)), if_neg c2]
        unfold pixel64
        rw [hw, zero_mul, binary64_zero, max_self]
        have := rint_int 0
        simpa using this
      rw [this, hv]
      exact_mod_cast v0

/-- C104. In double precision too a negative intensity gives a black image. -/
theorem bumped_circle_double_negative (A : BumpArith) (hm : ∀ y, 0 ≤ A.exp y) (overflow : Int → ℝ) (radius : ℝ) (maxIntensity : Int)
    (h0 : maxIntensity < 0) (i j : Nat) : (getBumpedCircle64 A overflow radius maxIntensity).entry i j = 0 := by
  have hv : 0 ≤ bumpValue64 A (bumpRadius radius) (bumpDistance64 (bumpSize radius) i j) := by
    unfold bumpValue64
    split_ifs with c1 c2
    · norm_num
    · simp only
      exact binary64_nonneg (mul_nonneg (binary64_nonneg (Real.exp_pos 1).le) (hm _))
    · norm_num
  unfold getBumpedCircle64
  simp only
  rw [if_neg]
  have h1 : binary64 maxIntensity ≤ 0 := by
    have := binary64_mono_all (show (maxIntensity : ℝ) ≤ 0 by exact_mod_cast h0.le)
    rwa [binary64_zero] at this
  have := binary64_mono_all (mul_nonpos_of_nonneg_of_nonpos hv h1)
  rw [binary64_zero] at this
  exact not_lt.2 this

/-! ### On the edge -/

/-- The radius of `bumped_circle_double_edge`: the double nearest to `1.414214/1.25`. -/
noncomputable def edgeRadius : ℝ := ((5095242914737711 : ℤ) : ℝ) * 2 ^ (-52 : ℤ)

/-- C104. The condition on the edge is needed: for the radius 1.1313712 (a double) and the intensity 255 the pixel `(1, 1)` of the exact image is bright, and black in
double precision. -/
theorem bumped_circle_double_edge (A : BumpArith) (overflow : Int → ℝ) : binary64 edgeRadius = edgeRadius ∧
    100 ≤ (getBumpedCircle overflow edgeRadius 255).entry 1 1 ∧ (getBumpedCircle64 A overflow edgeRadius 255).entry 1 1 = 0 := by
  have e : edgeRadius = 5095242914737711 / 2 ^ 52 := by unfold edgeRadius; rw [zpow_neg]; norm_num
  have hR : bumpRadius edgeRadius = edgeRadius := by rw [bumpRadius_eq, max_eq_left (by rw [e]; norm_num)]
  have hrint : rint edgeRadius = 1 := rint_unique (by rw [e]; norm_num [abs_lt])
  have hS : bumpSize edgeRadius = 5 := by unfold bumpSize; rw [hR, hrint]; rfl
  have hD : sqDistance (5 / 2) 1 1 = 2 := by unfold sqDistance; norm_num
  have s1 : (1.414213562 : ℝ) ≤ Real.sqrt 2 := Real.le_sqrt_of_sq_le (by norm_num)
  have s2 : Real.sqrt 2 ≤ 1.414213563 := by rw [Real.sqrt_le_left (by norm_num)]; norm_num
  have hd : bumpDistance 5 1 1 = 1.414214 := by
    rw [bumpDistance_eq, hD]
    have : rint (Real.sqrt ((2 : ℤ) : ℝ) * 10 ^ (6 : ℤ)) = 1414214 := by
      refine rint_unique ?_
      rw [abs_lt]
      norm_num at s1 s2 ⊢
      constructor <;> linarith
    unfold npRound
    rw [this]; norm_num
  have hd64 : bumpDistance64 5 1 1 = 6369053643422139 / 2 ^ 52 := by
    rw [bumpDistance64_eq, hD]
    unfold dist64 sqrt64
    have a1 := err64 (Real.sqrt ((2 : ℤ) : ℝ)) 2 (by
      rw [abs_of_nonneg (Real.sqrt_nonneg _)]
      push_cast
      exact s2.trans (by norm_num)) (by norm_num)
    have hc : ((2 : ℤ) : ℝ) = 2 := by norm_num
    rw [hc] at a1 ⊢
    generalize Real.sqrt 2 = q at *
    generalize binary64 q = q1 at *
    have a2 := err64 (q1 * 10 ^ 6) (2 * 10 ^ 6) (by rw [abs_le] at a1 ⊢; norm_num at a1 s1 s2 ⊢; constructor <;> linarith) (by norm_num)
    generalize binary64 (q1 * 10 ^ 6) = q2 at *
    have : rint q2 = 1414214 := by
      refine rint_unique ?_
      rw [abs_lt]
      rw [abs_le] at a1 a2
      norm_num at a1 a2 s1 s2 ⊢
      constructor <;> linarith
    rw [this]
    have := binary64_eq (x := ((1414214 : ℤ) : ℝ) / 10 ^ 6) 0 6369053643422139 (by norm_num) (by norm_num) (by norm_num) (by
      rw [show ((0 : ℤ) - 52) = -52 by norm_num, zpow_neg]
      norm_num [abs_lt])
    rw [this, show ((0 : ℤ) - 52) = -52 by norm_num, zpow_neg]
    norm_num
  have hL64 : binary64 (edgeRadius * (1 + 0.25)) = 6369053643422139 / 2 ^ 52 := by
    have := binary64_eq (x := edgeRadius * (1 + 0.25)) 0 6369053643422139 (by norm_num) (by rw [e]; norm_num) (by rw [e]; norm_num) (by
      rw [e, show ((0 : ℤ) - 52) = -52 by norm_num, zpow_neg]
      norm_num [abs_lt])
    rw [this, show ((0 : ℤ) - 52) = -52 by norm_num, zpow_neg]
    norm_num
  refine ⟨binary64_exact _ _ (by norm_num) (by norm_num), ?_, ?_⟩
  · rw [bumpEntry overflow edgeRadius 255 (by norm_num) (by norm_num), hR, hS, hd]
    have hv : 1 / 2 ≤ bumpValue edgeRadius 1.414214 := by
      have i2 := npRound6_near (0.25 * edgeRadius)
      have c2 : ¬ (1.414214 : ℝ) < npRound 6 (0.25 * edgeRadius) := by
        rw [abs_le] at i2
        generalize npRound 6 (0.25 * edgeRadius) = w at *
        rw [e] at i2
        norm_num at i2 ⊢; linarith
      unfold bumpValue
      rw [if_neg c2, if_pos (by rw [e]; norm_num)]
      simp only
      rw [middle_is_bump]
      unfold bump
      have hx : (1.414214 / (edgeRadius + 0.25) : ℝ) ≤ 1.03 := by rw [e]; norm_num
      have hx0 : (0 : ℝ) ≤ 1.414214 / (edgeRadius + 0.25) := by rw [e]; norm_num
      have hp := pow_le_pow_left₀ hx0 hx 8
      generalize (1.414214 / (edgeRadius + 0.25) : ℝ) ^ 8 = t at *
      have hs : (1.25 : ℝ) ^ 8 / (1.25 ^ 8 - t) ≤ 1.5 := by
        rw [div_le_iff₀ (by norm_num at hp ⊢; linarith)]
        norm_num at hp ⊢; linarith
      have := Real.add_one_le_exp (1 - (1.25 : ℝ) ^ 8 / (1.25 ^ 8 - t))
      norm_num at hs this ⊢; linarith
    have : (100 : ℤ) ≤ rint (bumpValue edgeRadius 1.414214 * ((255 : ℤ) : ℝ)) := le_rint (by push_cast; linarith)
    exact_mod_cast this
  · unfold getBumpedCircle64
    simp only
    rw [hS, hR, hd64]
    have c1 : ¬ ((6369053643422139 : ℝ) / 2 ^ 52) < bumpInner64 edgeRadius := by
      obtain ⟨i1, _⟩ := inner64_near edgeRadius (by rw [e]; norm_num) (by rw [e]; norm_num)
      rw [abs_le] at i1
      generalize bumpInner64 edgeRadius = w at *
      rw [e] at i1
      norm_num at i1 ⊢; linarith
    have hv : bumpValue64 A edgeRadius (6369053643422139 / 2 ^ 52) = 0 := by
      unfold bumpValue64
      rw [if_neg c1, if_neg (by rw [hL64]; exact lt_irrefl _)]
    rw [hv, zero_mul, binary64_zero, if_neg (by norm_num)]

/-! ### The hypotheses are met -/

/-- Correctly rounded functions. -/
noncomputable def roundedBump : BumpArith := ⟨fun y => binary64 (Real.exp y), fun x => binary64 (x ^ 8)⟩

theorem roundedBump_ok : BumpAccurate roundedBump ∧ BumpMonotone roundedBump := by
  refine ⟨⟨fun y hy => ?_, fun x h0 h1 => ?_⟩, ⟨fun y y' h _ => binary64_mono_all (Real.exp_le_exp.2 h), fun x x' h0 h _ => binary64_mono_all (pow_le_pow_left₀ h0 h 8)⟩⟩
  · refine (err64 (Real.exp y) 1 (by rw [Real.abs_exp]; exact Real.exp_le_one_iff.2 hy) le_rfl).trans (by norm_num)
  · refine (err64 (x ^ 8) 6 (by
      rw [abs_of_nonneg (by positivity)]
      exact (pow_le_pow_left₀ h0 h1 8).trans (by norm_num)) (by norm_num)).trans (by norm_num)

example (i j : Nat) (hi : i < 17) (hj : j < 17) (overflow : Int → ℝ) :
    |(getBumpedCircle64 roundedBump overflow (4 : ℕ) 255).entry i j - (getBumpedCircle overflow (4 : ℕ) 255).entry i j| ≤ 1 :=
  bumped_circle_double_integer roundedBump roundedBump_ok.1 overflow 4 (by norm_num) (by norm_num) 255 (by norm_num) (by norm_num) i j hi hj

end Verif.Props
