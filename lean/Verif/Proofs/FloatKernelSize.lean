import Verif.Model.FloatKernelSize
import Verif.Proofs.FloatNodes
import Verif.Proofs.FloatPsfKernel
import Verif.Proofs.CropKernel
import Verif.Props.FloatMesh
import Verif.Props.KernelSize
import Verif.Props.PsfCalc

/-!
# The kernel size in double precision: rounding of positive numbers
-/

namespace Verif.Proofs
open Verif.Model Verif.Spec Verif.Props

/-- The bound of one rounding, as a factor. -/
noncomputable def oneUlp : ℝ := 1 + 1 / 2 ^ 52

theorem oneUlp_ge : 1 ≤ oneUlp := by unfold oneUlp; norm_num

theorem oneUlp_pow_ge (k : ℕ) : 1 ≤ oneUlp ^ k := one_le_pow₀ oneUlp_ge

/-- `x` is `v` up to `k` roundings. -/
def Rl (k : ℕ) (x v : ℝ) : Prop := 0 ≤ v ∧ v ≤ x * oneUlp ^ k ∧ x ≤ v * oneUlp ^ k

theorem Rl.refl {v : ℝ} (h : 0 ≤ v) : Rl 0 v v := ⟨h, by simp, by simp⟩

theorem Rl.nonneg {k : ℕ} {x v : ℝ} (h : Rl k x v) : 0 ≤ x := by
  have h1 := h.1.trans h.2.1
  have := oneUlp_pow_ge k
  by_contra hc
  push Not at hc
  nlinarith

theorem Rl.mono {k l : ℕ} {x v : ℝ} (h : Rl k x v) (hk : k ≤ l) : Rl l x v := by
  have hm : oneUlp ^ k ≤ oneUlp ^ l := pow_le_pow_right₀ oneUlp_ge hk
  exact ⟨h.1, h.2.1.trans (mul_le_mul_of_nonneg_left hm h.nonneg), h.2.2.trans (mul_le_mul_of_nonneg_left hm h.1)⟩

theorem Rl.trans {k l : ℕ} {x y v : ℝ} (h : Rl k x y) (h' : Rl l y v) : Rl (k + l) x v := by
  refine ⟨h'.1, ?_, ?_⟩
  · calc v ≤ y * oneUlp ^ l := h'.2.1
      _ ≤ (x * oneUlp ^ k) * oneUlp ^ l := mul_le_mul_of_nonneg_right h.2.1 (by linarith [oneUlp_pow_ge l])
      _ = _ := by rw [pow_add]; ring
  · calc x ≤ y * oneUlp ^ k := h.2.2
      _ ≤ (v * oneUlp ^ l) * oneUlp ^ k := mul_le_mul_of_nonneg_right h'.2.2 (by linarith [oneUlp_pow_ge k])
      _ = _ := by rw [pow_add]; ring

theorem Rl.mul {k l : ℕ} {x y v w : ℝ} (h : Rl k x v) (h' : Rl l y w) : Rl (k + l) (x * y) (v * w) := by
  refine ⟨mul_nonneg h.1 h'.1, ?_, ?_⟩
  · calc v * w ≤ (x * oneUlp ^ k) * (y * oneUlp ^ l) := mul_le_mul h.2.1 h'.2.1 h'.1 (h.1.trans h.2.1)
      _ = _ := by rw [pow_add]; ring
  · calc x * y ≤ (v * oneUlp ^ k) * (w * oneUlp ^ l) := mul_le_mul h.2.2 h'.2.2 h'.nonneg (h.nonneg.trans h.2.2)
      _ = _ := by rw [pow_add]; ring

theorem Rl.divExact {k : ℕ} {x v c : ℝ} (h : Rl k x v) (hc : 0 < c) : Rl k (x / c) (v / c) := by
  refine ⟨div_nonneg h.1 hc.le, ?_, ?_⟩
  · rw [div_mul_eq_mul_div]; exact div_le_div_of_nonneg_right h.2.1 hc.le
  · rw [div_mul_eq_mul_div]; exact div_le_div_of_nonneg_right h.2.2 hc.le

theorem Rl.add {k : ℕ} {x y v w : ℝ} (h : Rl k x v) (h' : Rl k y w) : Rl k (x + y) (v + w) :=
  ⟨add_nonneg h.1 h'.1, by rw [add_mul]; exact add_le_add h.2.1 h'.2.1, by rw [add_mul]; exact add_le_add h.2.2 h'.2.2⟩

theorem Rl.sqrt {k : ℕ} {x v : ℝ} (h : Rl k x v) : Rl k (Real.sqrt x) (Real.sqrt v) := by
  have hp := oneUlp_pow_ge k
  have key : ∀ a b : ℝ, 0 ≤ b → a ≤ b * oneUlp ^ k → Real.sqrt a ≤ Real.sqrt b * oneUlp ^ k := by
    intro a b hb hab
    rw [Real.sqrt_le_left (mul_nonneg (Real.sqrt_nonneg _) (by linarith)), mul_pow, Real.sq_sqrt hb]
    refine hab.trans (mul_le_mul_of_nonneg_left ?_ hb)
    nlinarith
  exact ⟨Real.sqrt_nonneg _, key _ _ h.nonneg h.2.1, key _ _ h.1 h.2.2⟩

/-- Rounding. -/
theorem Rl.fl {x : ℝ} (h : x = 0 ∨ 2 ^ (-1022 : ℤ) ≤ x) : Rl 1 (binary64 x) x := by
  rcases h with rfl | h
  · rw [binary64_zero]; exact ⟨le_rfl, by simp, by simp⟩
  · have h0 : 0 < x := lt_of_lt_of_le (by positivity) h
    have e := binary64_relative h
    have u : (2 : ℝ) ^ (-53 : ℤ) = 1 / 2 ^ 53 := by rw [zpow_neg]; norm_num
    rw [u, abs_le] at e
    clear h u
    have e1 := e.1
    have e2 := e.2
    refine ⟨h0.le, ?_, ?_⟩
    · rw [pow_one]; unfold oneUlp
      have : x * (1 - 1 / 2 ^ 53) ≤ binary64 x := by linarith
      calc x ≤ (x * (1 - 1 / 2 ^ 53)) * (1 + 1 / 2 ^ 52) := by norm_num; linarith
        _ ≤ _ := mul_le_mul_of_nonneg_right this (by norm_num)
    · rw [pow_one]; unfold oneUlp
      have : binary64 x ≤ x * (1 + 1 / 2 ^ 53) := by linarith
      refine this.trans (mul_le_mul_of_nonneg_left (by norm_num) h0.le)

theorem Rl.round {k : ℕ} {x v : ℝ} (h : Rl k x v) (hx : x = 0 ∨ 2 ^ (-1022 : ℤ) ≤ x) : Rl (k + 1) (binary64 x) v := by
  have := (Rl.fl hx).trans h
  rwa [add_comm] at this

theorem oneUlp_ten : oneUlp ^ 10 ≤ 1 + 1 / 2 ^ 48 ∧ 1 ≤ oneUlp ^ 10 := by
  refine ⟨?_, oneUlp_pow_ge 10⟩
  unfold oneUlp; norm_num

/-- Two doubles that differ, differ by a rounding at least. -/
theorem double_gap {x y : ℝ} (hx : binary64 x = x) (hy : binary64 y = y) (h0 : 0 ≤ x) (h : x < y) (hn : 2 ^ (-1000 : ℤ) ≤ y) :
    x ≤ y * (1 - 1 / 2 ^ 53) := by
  have y0 : 0 < y := lt_of_le_of_lt h0 h
  rcases h0.eq_or_lt with h0 | x0
  · rw [← h0]; exact mul_nonneg y0.le (by norm_num)
  obtain ⟨L, hL⟩ : ∃ L, L = Int.log 2 |y| := ⟨_, rfl⟩
  have hLn : -1000 ≤ L := by rw [hL]; exact le_log_of (by rwa [abs_of_pos y0])
  have lb := log_bounds y0.ne'
  rw [← hL, abs_of_pos y0] at lb
  have eL : (2 : ℝ) ^ (L - 53) = 2 ^ L * (1 / 2 ^ 53) := by
    rw [zpow_sub₀ (by norm_num)]; norm_num; ring
  have eL' : (2 : ℝ) ^ (L - 52) = 2 ^ L * (1 / 2 ^ 52) := by
    rw [zpow_sub₀ (by norm_num)]; norm_num; ring
  have eL1 : (2 : ℝ) ^ (L + 1) = 2 ^ L * 2 := by rw [zpow_add_one₀ (by norm_num)]
  have mult : ∀ (z : ℝ) (a : ℤ), 0 < z → binary64 z = z → -1010 ≤ a → (2 : ℝ) ^ a ≤ z → ∃ K : ℤ, z = K * 2 ^ (a - 52) := by
    intro z a z0 hz ha hza
    have h1 := binary64_ne z0.ne'
    rw [hz] at h1
    have h2 := le_log_of (x := z) (a := a) (by rwa [abs_of_pos z0])
    have h3 : a - 52 ≤ lastBit z := by unfold lastBit; omega
    obtain ⟨d, hd⟩ := Int.eq_ofNat_of_zero_le (show 0 ≤ lastBit z - (a - 52) by omega)
    refine ⟨rint (z / 2 ^ lastBit z) * 2 ^ d, ?_⟩
    have h4 : lastBit z = (a - 52) + (d : ℤ) := by omega
    have h5 : (2 : ℝ) ^ lastBit z = 2 ^ d * 2 ^ (a - 52) := by
      rw [h4, zpow_add₀ (by norm_num), zpow_natCast]; ring
    generalize hr : rint (z / 2 ^ lastBit z) = r at h1 ⊢
    rw [h5] at h1
    rw [h1]; push_cast; ring
  by_cases c1 : (2 : ℝ) ^ L ≤ x
  · obtain ⟨J, hJ⟩ := mult y L y0 hy (by omega) lb.1
    obtain ⟨K, hK⟩ := mult x L x0 hx (by omega) c1
    have hp : (0 : ℝ) < 2 ^ (L - 52) := by positivity
    have hlt : (K : ℝ) * 2 ^ (L - 52) < J * 2 ^ (L - 52) := by rw [← hJ, ← hK]; exact h
    have hlt' : (K : ℝ) < J := lt_of_mul_lt_mul_right hlt hp.le
    have hlt'' : K + 1 ≤ J := by exact_mod_cast hlt'
    have : x + 2 ^ (L - 52) ≤ y := by
      rw [hJ, hK]
      have : ((K + 1 : ℤ) : ℝ) ≤ J := by exact_mod_cast hlt''
      push_cast at this
      nlinarith
    have lb2 := lb.2
    rw [eL1] at lb2
    rw [eL'] at this
    linarith
  · push Not at c1
    by_cases c2 : (2 : ℝ) ^ (L - 1) ≤ x
    · obtain ⟨K, hK⟩ := mult x (L - 1) x0 hx (by omega) c2
      rw [show L - 1 - 52 = L - 53 by ring] at hK
      have hp : (0 : ℝ) < 2 ^ (L - 53) := by positivity
      have e3 : (2 : ℝ) ^ L = ((2 ^ 53 : ℤ) : ℝ) * 2 ^ (L - 53) := by rw [eL]; push_cast; ring
      have hlt : (K : ℝ) * 2 ^ (L - 53) < ((2 ^ 53 : ℤ) : ℝ) * 2 ^ (L - 53) := by rw [← e3, ← hK]; exact c1
      have hlt' : (K : ℝ) < ((2 ^ 53 : ℤ) : ℝ) := lt_of_mul_lt_mul_right hlt hp.le
      have hlt'' : K + 1 ≤ 2 ^ 53 := by exact_mod_cast hlt'
      have h6 : ((K + 1 : ℤ) : ℝ) ≤ ((2 ^ 53 : ℤ) : ℝ) := by exact_mod_cast hlt''
      have : x + 2 ^ (L - 53) ≤ 2 ^ L := by
        rw [e3]
        nth_rewrite 1 [hK]
        have h7 := mul_le_mul_of_nonneg_right h6 hp.le
        push_cast at h7 ⊢
        linarith
      rw [eL] at this
      have := lb.1
      nlinarith
    · push Not at c2
      have e4 : (2 : ℝ) ^ (L - 1) = 2 ^ L / 2 := by rw [zpow_sub_one₀ (by norm_num)]; ring
      rw [e4] at c2
      have := lb.1
      norm_num
      linarith

/-- The rounded quotient of two doubles is on the same side of a power of 2 as the exact one. -/
theorem quotient_side {x y : ℝ} (hx : binary64 x = x) (hy : binary64 y = y) (h0 : 0 ≤ x) (hn : 2 ^ (-900 : ℤ) ≤ y) (k : ℕ) (hk : k ≤ 50) :
    1 / 2 ^ k ≤ binary64 (x / y) ↔ 1 / 2 ^ k ≤ x / y := by
  have y0 : 0 < y := lt_of_lt_of_le (by positivity) hn
  have hdouble : ∀ (j : ℤ) (l : ℕ), |j| ≤ 2 ^ 53 → l ≤ 1000 → binary64 (j * (1 / 2 ^ l)) = j * (1 / 2 ^ l) := by
    intro j l hj hl
    have := binary64_exact j (-(l : ℤ)) hj (by omega)
    rwa [zpow_neg, zpow_natCast, ← one_div] at this
  constructor
  · intro h
    by_contra hc
    push Not at hc
    have hlt : x < y * (1 / 2 ^ k) := by rwa [div_lt_iff₀ y0, mul_comm] at hc
    have hyd : binary64 (y * (1 / 2 ^ k)) = y * (1 / 2 ^ k) := by
      have h1 := binary64_ne y0.ne'
      rw [hy] at h1
      have h2 := le_log_of (x := y) (a := -900) (by rwa [abs_of_pos y0])
      obtain ⟨K, e, h3, h4, h5⟩ := binary64_form y
      rw [hy] at h5
      have h6 : y * (1 / 2 ^ k) = ((rint (y / 2 ^ lastBit y) : ℤ) : ℝ) * 2 ^ (lastBit y - k) := by
        rw [zpow_sub₀ (by norm_num), zpow_natCast]
        nth_rewrite 1 [h1]
        ring
      rw [h6]
      refine binary64_exact _ _ ?_ ?_
      · have h7 := (log_bounds y0.ne').2
        have h8 : lastBit y = Int.log 2 |y| - 52 := by unfold lastBit; omega
        have h9 : |y / 2 ^ lastBit y| ≤ ((2 ^ 53 : ℤ) : ℝ) := by
          rw [abs_div, abs_of_pos (show (0 : ℝ) < 2 ^ lastBit y by positivity), div_le_iff₀ (by positivity), h8]
          refine h7.le.trans (le_of_eq ?_)
          have : (((2 : ℤ) ^ 53 : ℤ) : ℝ) = 2 ^ (53 : ℤ) := by norm_num
          rw [this, ← zpow_add₀ (by norm_num)]
          congr 1
          ring
        rw [abs_le] at h9 ⊢
        refine ⟨le_rint ?_, rint_le h9.2⟩
        push_cast at h9 ⊢
        exact h9.1
      · unfold lastBit; omega
    have hgap := double_gap hx hyd h0 hlt (by
      have e1 : (2 : ℝ) ^ (-1000 : ℤ) ≤ 2 ^ (-900 : ℤ) * 2 ^ (-50 : ℤ) := by
        rw [← zpow_add₀ (by norm_num)]; exact zpow_le_zpow_right₀ (by norm_num) (by norm_num)
      have e2 : (2 : ℝ) ^ (-50 : ℤ) ≤ 1 / 2 ^ k := by
        rw [zpow_neg, ← one_div]
        exact one_div_le_one_div_of_le (by positivity) (by exact_mod_cast pow_le_pow_right₀ (by norm_num : (1:ℕ) ≤ 2) hk)
      exact e1.trans (mul_le_mul hn e2 (by positivity) y0.le))
    have hq : x / y ≤ ((2 ^ 53 - 1 : ℤ) : ℝ) * (1 / 2 ^ (53 + k)) := by
      rw [div_le_iff₀ y0]
      refine hgap.trans (le_of_eq ?_)
      rw [pow_add]
      push_cast
      have : (2 : ℝ) ^ k ≠ 0 := by positivity
      field_simp
      norm_num
    have hm := binary64_mono (div_nonneg h0 y0.le) hq
    rw [hdouble _ _ (by norm_num) (by omega)] at hm
    have : ((2 ^ 53 - 1 : ℤ) : ℝ) * (1 / 2 ^ (53 + k)) < 1 / 2 ^ k := by
      rw [pow_add]
      have hp : (0 : ℝ) < 1 / 2 ^ k := by positivity
      have e : ((2 ^ 53 - 1 : ℤ) : ℝ) * (1 / (2 ^ 53 * 2 ^ k)) = (1 - 1 / 2 ^ 53) * (1 / 2 ^ k) := by
        push_cast
        have : (2 : ℝ) ^ k ≠ 0 := by positivity
        field_simp
        norm_num
      rw [e]
      nlinarith
    linarith
  · intro h
    have hm := binary64_mono (by positivity) h
    have e := hdouble 1 k (by norm_num) (by omega)
    push_cast at e
    rw [one_mul] at e
    rwa [e] at hm


theorem rint_neg (x : ℝ) : rint (-x) = -rint x := by
  have h0 := Int.floor_le x
  have h1 := Int.lt_floor_add_one x
  by_cases hf : x = ⌊x⌋
  · rw [hf, ← Int.cast_neg, rint_int, rint_int]
  · have hfl : ⌊-x⌋ = -⌊x⌋ - 1 := by
      rw [Int.floor_eq_iff]
      push_cast
      constructor
      · linarith
      · have := lt_of_le_of_ne h0 (Ne.symm hf)
        linarith
    unfold rint
    rw [hfl]
    push_cast
    by_cases c1 : x - ⌊x⌋ < 1 / 2
    · rw [if_pos c1, if_neg (by linarith), if_pos (by linarith)]; ring
    · by_cases c2 : x - ⌊x⌋ > 1 / 2
      · rw [if_neg c1, if_pos c2, if_pos (by linarith)]; ring
      · rw [if_neg c1, if_neg c2, if_neg (by linarith), if_neg (by linarith)]
        split_ifs <;> omega

theorem binary64_neg (x : ℝ) : binary64 (-x) = -binary64 x := by
  unfold binary64
  by_cases h : x = 0
  · rw [if_pos h, if_pos (by rw [h, neg_zero]), neg_zero]
  · rw [if_neg h, if_neg (neg_ne_zero.2 h), abs_neg, neg_div, rint_neg]
    push_cast
    ring

theorem binary64_abs (x : ℝ) : |binary64 x| = binary64 |x| := by
  rcases le_total 0 x with h | h
  · rw [abs_of_nonneg h, abs_of_nonneg (binary64_nonneg h)]
  · have : binary64 x = -binary64 (-x) := by rw [binary64_neg, neg_neg]
    rw [abs_of_nonpos h, this, abs_neg, abs_of_nonneg (binary64_nonneg (by linarith))]

/-- The rounded root of an integer is rounded to the same integer. -/
theorem rint_sqrt64 (k : ℕ) (hk : k ≤ 2 ^ 41) : rint (sqrt64 (binary64 k)) = rint (Real.sqrt k) := by
  rw [binary64_nat k (hk.trans (by norm_num))]
  unfold sqrt64
  obtain ⟨s, hs⟩ : ∃ s, s = Real.sqrt k := ⟨_, rfl⟩
  obtain ⟨j, hj⟩ : ∃ j, j = rint (Real.sqrt k) := ⟨_, rfl⟩
  have hs0 : 0 ≤ s := by rw [hs]; exact Real.sqrt_nonneg _
  have hsq : s * s = k := by rw [hs]; exact Real.mul_self_sqrt (Nat.cast_nonneg k)
  have hkR : (k : ℝ) ≤ 2 ^ 41 := by exact_mod_cast hk
  have hs1 : s ≤ 2 ^ 21 := by
    by_contra hc
    push Not at hc
    have : (2 : ℝ) ^ 21 * 2 ^ 21 < s * s := mul_lt_mul hc hc.le (by positivity) hs0
    rw [hsq] at this
    norm_num at this hkR
    linarith
  have hn := rint_near s
  rw [← hj, ← hs]
  have hj' : j = rint s := by rw [hj, hs]
  rw [← hj'] at hn
  rw [abs_le] at hn
  have hj0 : 0 ≤ j := by rw [hj']; exact le_rint (by simpa using hs0)
  have hj0R : (0 : ℝ) ≤ j := by exact_mod_cast hj0
  have hj1R : (j : ℝ) ≤ 2 ^ 22 := by norm_num at hs1 ⊢; linarith [hn.2]
  have hjm : j ≤ 2 ^ 22 := by exact_mod_cast hj1R
  have e := binary64_rel s
  have hb : 2⁻¹ ^ 53 * max |s| (2⁻¹ ^ 1022) ≤ (1 : ℝ) / 2 ^ 31 := by
    have h1 : max |s| ((2⁻¹ : ℝ) ^ 1022) ≤ 2 ^ 21 := by
      apply max_le
      · rw [abs_of_nonneg hs0]; exact hs1
      · exact (pow_le_one₀ (by norm_num) (by norm_num)).trans (by norm_num)
    calc 2⁻¹ ^ 53 * max |s| (2⁻¹ ^ 1022) ≤ (2⁻¹ : ℝ) ^ 53 * 2 ^ 21 := mul_le_mul_of_nonneg_left h1 (by positivity)
      _ ≤ _ := by norm_num
  have e' := abs_le.1 (e.trans hb)
  clear hb e
  apply rint_unique
  have up : s < j + 1 / 2 - 1 / 2 ^ 30 := by
    by_contra hc
    push Not at hc
    have h1 : (j : ℝ) * j + j < k := by
      rw [← hsq]
      have : ((j : ℝ) + 1 / 2 - 1 / 2 ^ 30) * (j + 1 / 2 - 1 / 2 ^ 30) ≤ s * s := mul_self_le_mul_self (by norm_num; linarith) hc
      refine lt_of_lt_of_le ?_ this
      norm_num at hj1R ⊢
      nlinarith
    have h2 : (k : ℝ) < j * j + j + 1 := by
      rw [← hsq]
      have : s * s ≤ ((j : ℝ) + 1 / 2) * (j + 1 / 2) := mul_self_le_mul_self hs0 (by linarith [hn.1])
      nlinarith
    have h1' : j * j + j < (k : ℤ) := by exact_mod_cast h1
    have h2' : (k : ℤ) < j * j + j + 1 := by exact_mod_cast h2
    omega
  have lo : (j : ℝ) - 1 / 2 + 1 / 2 ^ 30 < s := by
    by_contra hc
    push Not at hc
    have hj1 : 1 ≤ j := by
      by_contra hj2
      have : j = 0 := by omega
      rw [this] at hc
      norm_num at hc
      linarith
    have hj1R' : (1 : ℝ) ≤ j := by exact_mod_cast hj1
    have h1 : (j : ℝ) * j - j < k := by
      rw [← hsq]
      have : ((j : ℝ) - 1 / 2) * (j - 1 / 2) ≤ s * s := mul_self_le_mul_self (by linarith) (by linarith [hn.2])
      nlinarith
    have h2 : (k : ℝ) < j * j - j + 1 := by
      rw [← hsq]
      have : s * s ≤ ((j : ℝ) - 1 / 2 + 1 / 2 ^ 30) * (j - 1 / 2 + 1 / 2 ^ 30) := mul_self_le_mul_self hs0 hc
      refine lt_of_le_of_lt this ?_
      norm_num at hj1R ⊢
      nlinarith
    have h1' : j * j - j < (k : ℤ) := by exact_mod_cast h1
    have h2' : (k : ℤ) < j * j - j + 1 := by exact_mod_cast h2
    omega
  rw [abs_lt]
  norm_num at e' up lo ⊢
  constructor <;> linarith

theorem normal_of_ge {x y : ℝ} (h : y ≤ x) (hy : 2 ^ (-1022 : ℤ) ≤ y) : x = 0 ∨ 2 ^ (-1022 : ℤ) ≤ x := Or.inr (hy.trans h)

theorem tiny_le (a : ℤ) (h : -1022 ≤ a) : (2 : ℝ) ^ (-1022 : ℤ) ≤ 2 ^ a := zpow_le_zpow_right₀ (by norm_num) h

theorem tiny_one {x : ℝ} (h : 1 ≤ x) : x = 0 ∨ 2 ^ (-1022 : ℤ) ≤ x :=
  Or.inr ((by simpa using tiny_le 0 (by norm_num) : (2 : ℝ) ^ (-1022 : ℤ) ≤ 1).trans h)

theorem tiny_50 {x : ℝ} (h : 1 / 2 ^ 60 ≤ x) : x = 0 ∨ 2 ^ (-1022 : ℤ) ≤ x := by
  refine Or.inr ((tiny_le (-60) (by norm_num)).trans (le_trans (le_of_eq ?_) h))
  rw [zpow_neg]; norm_num

/-- The rounded root of an integer. -/
theorem sqrt64_int (k : ℤ) (h0 : 0 ≤ k) (h1 : k ≤ 2 ^ 41) : Rl 1 (sqrt64 (binary64 k)) (Real.sqrt k) ∧ rint (sqrt64 (binary64 k)) = rint (Real.sqrt k) := by
  obtain ⟨n, rfl⟩ := Int.eq_ofNat_of_zero_le h0
  have hn : n ≤ 2 ^ 41 := by exact_mod_cast h1
  have e : (((n : ℤ) : ℝ)) = (n : ℝ) := by simp
  rw [e]
  refine ⟨?_, rint_sqrt64 n hn⟩
  rw [binary64_nat n (hn.trans (by norm_num))]
  apply Rl.fl
  rcases Nat.eq_zero_or_pos n with h | h
  · left; rw [h]; simp
  · exact tiny_one (Real.one_le_sqrt.2 (by exact_mod_cast h))

theorem one_le_of_Rl {k : ℕ} {x v : ℝ} (h : Rl k x v) (hk : k ≤ 10) (hv : 1 ≤ v) : 1 / 2 ≤ x := by
  have h1 := h.2.1
  have h2 := (h.mono hk).2.1
  have h3 := oneUlp_ten.1
  have h4 : x * oneUlp ^ 10 ≤ x * 2 := mul_le_mul_of_nonneg_left (h3.trans (by norm_num)) h.nonneg
  linarith

theorem sizeMultiplier64_near (m n : Int) (hv : ValidOrders m n) (hn : n ≤ 2 ^ 40) (NA : ℝ) (hd : binary64 NA = NA) (h0 : 2 ^ (-500 : ℤ) ≤ NA) (h2 : NA ≤ 2) :
    ∃ a a' e, sizeMultiplier m n NA = .ok (a, e) ∧ sizeMultiplier64 m n NA = .ok (a', e) ∧ Rl 4 a' a ∧ binary64 a' = a' ∧ 1.25 ≤ a ∧ 0 ≤ e := by
  have hNA : 0 < NA := lt_of_lt_of_le (by positivity) h0
  obtain ⟨a, e, k1, k2, k3⟩ := sizeMultiplier_ok m n hv NA hNA
  have k4 := sizeMultiplier_ge m n hv NA a e hNA k1
  suffices ∃ a', sizeMultiplier64 m n NA = .ok (a', e) ∧ Rl 4 a' a ∧ binary64 a' = a' by
    obtain ⟨a', h⟩ := this
    exact ⟨a, a', e, k1, h.1, h.2.1, h.2.2, k4, k3⟩
  clear k2 k4
  unfold sizeMultiplier at k1
  unfold sizeMultiplier64
  by_cases hp : m = 0 ∧ n = 0
  · rw [if_pos hp] at k1 ⊢
    by_cases c : 0.25 < NA ∧ NA < 1
    · rw [if_pos c] at k1 ⊢
      cases k1
      refine ⟨_, rfl, ?_, binary64_idem _⟩
      have g := double_gap hd (by simpa using binary64_nat 1 (by norm_num)) hNA.le c.2 (zpow_le_one_of_nonpos₀ (by norm_num) (by norm_num))
      have r1 := Rl.fl (x := 1 - NA) (tiny_50 (by norm_num at g ⊢; linarith))
      have g1 : 1 / 2 ^ 54 ≤ binary64 (1 - NA) := by
        have := r1.2.1
        rw [pow_one] at this
        unfold oneUlp at this
        norm_num at this g ⊢
        linarith
      have r2 := ((Rl.refl (show (0 : ℝ) ≤ 5 by norm_num)).mul r1).round (tiny_50 (by norm_num at g1 ⊢; linarith))
      have r3 := (r2.add ((Rl.refl (show (0 : ℝ) ≤ 1.5 by norm_num)).mono (by norm_num))).round
        (tiny_one (by have := r2.nonneg; norm_num at this ⊢; linarith))
      exact r3.mono (by norm_num)
    · rw [if_neg c, if_neg hNA.ne', if_neg (not_lt.2 hNA.le)] at k1 ⊢
      cases k1
      refine ⟨_, rfl, ?_, binary64_idem _⟩
      have hi : 1 / 2 ≤ 1 / NA := one_div_le_one_div_of_le hNA h2
      have r1 := Rl.fl (x := 1 / NA) (tiny_50 (by norm_num at hi ⊢; linarith))
      have g1 : 1 / 4 ≤ binary64 (1 / NA) := by
        have := r1.2.1
        rw [pow_one] at this
        unfold oneUlp at this
        norm_num at this hi ⊢
        linarith
      have g2 : 1 / 2 ≤ Real.sqrt (binary64 (1 / NA)) := Real.le_sqrt_of_sq_le (by norm_num at g1 ⊢; linarith)
      have r2 : Rl 2 (sqrt64 (binary64 (1 / NA))) (Real.sqrt (1 / NA)) := r1.sqrt.round (tiny_50 (by norm_num at g2 ⊢; linarith))
      have g3 : 1 / 4 ≤ sqrt64 (binary64 (1 / NA)) := by
        have := (Rl.fl (x := Real.sqrt (binary64 (1 / NA))) (tiny_50 (by norm_num at g2 ⊢; linarith))).2.1
        rw [pow_one] at this
        unfold sqrt64
        unfold oneUlp at this
        norm_num at this g2 ⊢
        linarith
      have r3 := ((Rl.refl (show (0 : ℝ) ≤ 2.5 by norm_num)).mul r2).round (tiny_50 (by norm_num at g3 ⊢; linarith))
      exact (((Rl.refl (show (0 : ℝ) ≤ 4.5 by norm_num)).mono (by norm_num)).add r3).round (tiny_one (by have := r3.nonneg; norm_num at this ⊢; linarith))
  · have hn0 := hv.1
    have hn1 := hv.2.1
    have hm0 := abs_nonneg m
    have hn2 : 1 ≤ n := by
      by_contra hc
      have h3 : n = 0 := by omega
      subst h3
      exact hp ⟨abs_eq_zero.1 (le_antisymm hn1 hm0), rfl⟩
    rw [if_neg hp, if_neg (by omega), if_neg (by omega)] at k1 ⊢
    simp only [Except.ok.injEq, Prod.mk.injEq] at k1 ⊢
    obtain ⟨rfl, rfl⟩ := k1
    obtain ⟨s1, -⟩ := sqrt64_int n hn0 (hn.trans (by norm_num))
    obtain ⟨s2, -⟩ := sqrt64_int (n - |m|) (by omega) (by omega)
    obtain ⟨-, s3⟩ := sqrt64_int (n + |m|) (by omega) (by omega)
    have hs : 1 ≤ Real.sqrt (n : ℝ) := Real.one_le_sqrt.2 (by exact_mod_cast hn2)
    have hs' := one_le_of_Rl s1 (by norm_num) hs
    rw [s3]
    refine ⟨_, ⟨rfl, rfl⟩, ?_, ?_⟩
    · have r1 := ((Rl.refl (show (0 : ℝ) ≤ 1.25 by norm_num)).mul s1).round (tiny_50 (by norm_num at hs' ⊢; linarith))
      split_ifs with c1 c2
      · have r2 : Rl 2 (binary64 (0.5 * sqrt64 (binary64 ((n - |m| : ℤ) : ℝ)))) (0.5 * Real.sqrt ((n - |m| : ℤ) : ℝ)) := by
          refine ((Rl.refl (show (0 : ℝ) ≤ 0.5 by norm_num)).mul s2).round ?_
          rcases eq_or_ne (n - |m|) 0 with hz | hz
          · left
            rw [hz]
            unfold sqrt64
            simp [binary64_zero]
          · have h5 : 1 ≤ Real.sqrt ((n - |m| : ℤ) : ℝ) := Real.one_le_sqrt.2 (by exact_mod_cast (by omega : 1 ≤ n - |m|))
            have := one_le_of_Rl s2 (by norm_num) h5
            exact tiny_50 (by norm_num at this ⊢; linarith)
        have h6 := r1.2.1
        have h7 : 1 / 2 ≤ binary64 (1.25 * sqrt64 (binary64 (n : ℝ))) := by
          exact one_le_of_Rl r1 (by norm_num) (hs.trans (le_mul_of_one_le_left (Real.sqrt_nonneg _) (by norm_num)))
        exact ((r1.add r2).round (tiny_50 (by have := r2.nonneg; norm_num at h7 this ⊢; linarith))).mono (by norm_num)
      · have r0 := Rl.fl (x := (1.45 : ℝ)) (tiny_one (by norm_num))
        have h7 : 1 / 2 ≤ binary64 1.45 := one_le_of_Rl r0 (by norm_num) (by norm_num)
        refine ((r0.mul s1).round (tiny_50 ?_)).mono (by norm_num)
        have : (1 / 2 : ℝ) * (1 / 2) ≤ binary64 1.45 * sqrt64 (binary64 (n : ℝ)) := mul_le_mul h7 hs' (by norm_num) (by linarith)
        norm_num at this ⊢; linarith
      · exact r1.mono (by norm_num)
    · split_ifs <;> exact binary64_idem _

/-- The factor after the amplitude is taken into account. -/
noncomputable def amplMult64 (a alpha : ℝ) : ℝ :=
  open Classical in if |alpha| ≥ 0.5 then binary64 (a * sqrt64 (binary64 (2.5 * |alpha|)))
    else if |alpha| ≥ 0.25 then binary64 (a * sqrt64 (binary64 (4.25 * |alpha|))) else a

theorem getKernelSize64_form (m n : Int) (px alpha wl NA : ℝ) (a : ℝ) (e : Int) (h : sizeMultiplier64 m n NA = .ok (a, e)) :
    getKernelSize64 m n px alpha wl NA =
      .ok (makeOdd (rint (binary64 (binary64 (amplMult64 a alpha * wl) / px)) + 1 + (e + amplExt alpha))) := by
  unfold getKernelSize64 amplMult64 amplExt
  rw [h]
  show (pure _ : Res Int) = _
  unfold makeOdd
  by_cases h1 : |alpha| ≥ 0.5
  · simp only [if_pos h1]; rfl
  · simp only [if_neg h1]
    by_cases h2 : |alpha| ≥ 0.25
    · simp only [if_pos h2]; rfl
    · simp only [if_neg h2, add_zero]; rfl

/-- The sides of the thresholds are those of the exact quotient. -/
theorem ampl_sides {c wl : ℝ} (hc : binary64 c = c) (hw : binary64 wl = wl) (h0 : 2 ^ (-900 : ℤ) ≤ wl) :
    (|binary64 (c / wl)| ≥ 0.5 ↔ |c / wl| ≥ 0.5) ∧ (|binary64 (c / wl)| ≥ 0.25 ↔ |c / wl| ≥ 0.25) := by
  have w0 : 0 < wl := lt_of_lt_of_le (by positivity) h0
  have hd : binary64 |c| = |c| := by rw [← binary64_abs, hc]
  have e : |c / wl| = |c| / wl := by rw [abs_div, abs_of_pos w0]
  have q1 := quotient_side hd hw (abs_nonneg c) h0 1 (by norm_num)
  have q2 := quotient_side hd hw (abs_nonneg c) h0 2 (by norm_num)
  rw [binary64_abs, e]
  norm_num at q1 q2 ⊢
  exact ⟨q1, q2⟩

theorem amplMult64_near {a a' c wl : ℝ} (hc : binary64 c = c) (hw : binary64 wl = wl) (h0 : 2 ^ (-900 : ℤ) ≤ wl) (h : Rl 4 a' a) (ha : 1 ≤ a) :
    Rl 8 (amplMult64 a' (binary64 (c / wl))) (a * amplFactor (c / wl)) ∧ amplExt (binary64 (c / wl)) = amplExt (c / wl) ∧
      1 / 4 ≤ amplMult64 a' (binary64 (c / wl)) := by
  obtain ⟨s1, s2⟩ := ampl_sides hc hw h0
  have ha' := one_le_of_Rl h (by norm_num) ha
  have key : ∀ t : ℝ, 2.5 ≤ t → t ≤ 5 → binary64 t = t → 0.25 ≤ |c / wl| → (t = 2.5 → 0.5 ≤ |c / wl|) → (t ≠ 2.5 → t = 4.25) →
      Rl 8 (binary64 (a' * sqrt64 (binary64 (t * |binary64 (c / wl)|)))) (a * Real.sqrt (t * |c / wl|)) ∧
        1 / 4 ≤ binary64 (a' * sqrt64 (binary64 (t * |binary64 (c / wl)|))) := by
    intro t t1 t2 _ hq hq5 ht
    have g0 : 1 ≤ t * |c / wl| := by
      by_cases h2 : t = 2.5
      · have := hq5 h2; rw [h2]; norm_num at this ⊢; linarith
      · have := ht h2; rw [this]; norm_num at hq ⊢; linarith
    have r1 : Rl 1 |binary64 (c / wl)| |c / wl| := by
      rw [binary64_abs]
      exact Rl.fl (tiny_50 (by norm_num at hq ⊢; linarith))
    have r2 := (Rl.refl (show (0 : ℝ) ≤ t by norm_num at t1; linarith)).mul r1
    have g2 := one_le_of_Rl r2 (by norm_num) g0
    have r3 := r2.round (tiny_50 (by norm_num at g2 ⊢; linarith))
    have g3 := one_le_of_Rl r3 (by norm_num) g0
    have g4 : 1 / 2 ≤ Real.sqrt (binary64 (t * |binary64 (c / wl)|)) := Real.le_sqrt_of_sq_le (by norm_num at g3 ⊢; linarith)
    have r4 : Rl 3 (sqrt64 (binary64 (t * |binary64 (c / wl)|))) (Real.sqrt (t * |c / wl|)) := r3.sqrt.round (tiny_50 (by norm_num at g4 ⊢; linarith))
    have g5 : 1 / 2 ≤ sqrt64 (binary64 (t * |binary64 (c / wl)|)) := one_le_of_Rl r4 (by norm_num) (Real.one_le_sqrt.2 g0)
    have g6 : 1 / 4 ≤ a' * sqrt64 (binary64 (t * |binary64 (c / wl)|)) := by
      have : (1 / 2 : ℝ) * (1 / 2) ≤ a' * sqrt64 (binary64 (t * |binary64 (c / wl)|)) := mul_le_mul ha' g5 (by norm_num) (by linarith)
      linarith
    have r5 := (h.mul r4).round (tiny_50 (by norm_num at g6 ⊢; linarith))
    refine ⟨r5, ?_⟩
    have := one_le_of_Rl r5 (by norm_num) (by
      have h1 := Real.one_le_sqrt.2 g0
      nlinarith)
    linarith
  have d1 : binary64 2.5 = 2.5 := by
    have := binary64_exact 5 (-1) (by norm_num) (by norm_num)
    norm_num at this ⊢; exact this
  have d2 : binary64 4.25 = 4.25 := by
    have := binary64_exact 17 (-2) (by norm_num) (by norm_num)
    norm_num at this ⊢; exact this
  unfold amplMult64 amplFactor amplExt
  by_cases c1 : |c / wl| ≥ 0.5
  · have c1' := s1.2 c1
    rw [if_pos c1, if_pos c1, if_pos c1', if_pos c1']
    obtain ⟨k1, k2⟩ := key 2.5 (by norm_num) (by norm_num) d1 (by norm_num at c1 ⊢; linarith) (fun _ => c1) (fun h => absurd rfl h)
    exact ⟨k1, rfl, k2⟩
  · have c1' : ¬ |binary64 (c / wl)| ≥ 0.5 := fun h => c1 (s1.1 h)
    rw [if_neg c1, if_neg c1, if_neg c1', if_neg c1']
    by_cases c2 : |c / wl| ≥ 0.25
    · have c2' := s2.2 c2
      rw [if_pos c2, if_pos c2, if_pos c2', if_pos c2']
      obtain ⟨k1, k2⟩ := key 4.25 (by norm_num) (by norm_num) d2 c2 (fun h => absurd h (by norm_num)) (fun _ => rfl)
      exact ⟨k1, rfl, k2⟩
    · have c2' : ¬ |binary64 (c / wl)| ≥ 0.25 := fun h => c2 (s2.1 h)
      rw [if_neg c2, if_neg c2, if_neg c2', if_neg c2', mul_one]
      exact ⟨h.mono (by norm_num), rfl, by linarith⟩

/-- The size in double precision is between the sizes with a slightly larger and a slightly smaller pixel. -/
theorem getKernelSize64_between (m n : Int) (hv : ValidOrders m n) (hn : n ≤ 2 ^ 40) (NA wl px c : ℝ) (dNA : binary64 NA = NA) (dwl : binary64 wl = wl)
    (dc : binary64 c = c) (hNA : 2 ^ (-500 : ℤ) ≤ NA) (hNA2 : NA ≤ 2) (hwl : 2 ^ (-500 : ℤ) ≤ wl) (hpx0 : 0 < px) (hpx : px ≤ 2 ^ 500) :
    ∃ S S₁ S₂, getKernelSize64 m n px (binary64 (c / wl)) wl NA = .ok S ∧ getKernelSize m n (px * (1 + 1 / 2 ^ 48)) (c / wl) wl NA = .ok S₁ ∧
      getKernelSize m n (px / (1 + 1 / 2 ^ 48)) (c / wl) wl NA = .ok S₂ ∧ S₁ ≤ S ∧ S ≤ S₂ ∧ S % 2 = 1 ∧ 1 ≤ S := by
  obtain ⟨a, a', e, k1, k2, k3, k4, k5, k6⟩ := sizeMultiplier64_near m n hv hn NA dNA hNA hNA2
  have w0 : 0 < wl := lt_of_lt_of_le (by positivity) hwl
  have h900 : (2 : ℝ) ^ (-900 : ℤ) ≤ wl := le_trans (zpow_le_zpow_right₀ (by norm_num) (by norm_num)) hwl
  obtain ⟨f1, f2, f3⟩ := amplMult64_near dc dwl h900 k3 (by norm_num at k5; linarith)
  rw [getKernelSize64_form _ _ _ _ _ _ _ _ k2, getKernelSize_form _ _ _ _ _ _ _ _ k1, getKernelSize_form _ _ _ _ _ _ _ _ k1]
  refine ⟨_, _, _, rfl, rfl, rfl, ?_⟩
  rw [f2]
  have b1 : 2 ^ (-502 : ℤ) ≤ amplMult64 a' (binary64 (c / wl)) * wl := by
    have : (2 : ℝ) ^ (-502 : ℤ) = 1 / 4 * 2 ^ (-500 : ℤ) := by
      rw [show (-502 : ℤ) = -2 + -500 by norm_num, zpow_add₀ (by norm_num)]; norm_num
    rw [this]
    exact mul_le_mul f3 hwl (by positivity) (by linarith)
  have r1 := (f1.mul (Rl.refl w0.le)).round (normal_of_ge b1 (tiny_le _ (by norm_num)))
  have b2 : 2 ^ (-503 : ℤ) ≤ binary64 (amplMult64 a' (binary64 (c / wl)) * wl) := by
    have h1 := (Rl.fl (normal_of_ge b1 (tiny_le _ (by norm_num)))).2.1
    rw [pow_one] at h1
    have h2 : oneUlp ≤ 2 := by unfold oneUlp; norm_num
    have h3 : (2 : ℝ) ^ (-502 : ℤ) = 2 ^ (-503 : ℤ) * 2 := by rw [← zpow_add_one₀ (by norm_num)]; norm_num
    have h4 := binary64_nonneg (show 0 ≤ amplMult64 a' (binary64 (c / wl)) * wl from le_trans (by positivity) b1)
    have h5 := mul_le_mul_of_nonneg_left h2 h4
    rw [h3] at b1
    linarith
  have b3 : 2 ^ (-1003 : ℤ) ≤ binary64 (amplMult64 a' (binary64 (c / wl)) * wl) / px := by
    rw [le_div_iff₀ hpx0]
    refine le_trans ?_ b2
    have : (2 : ℝ) ^ (-503 : ℤ) = 2 ^ (-1003 : ℤ) * 2 ^ 500 := by
      rw [show (-503 : ℤ) = -1003 + (500 : ℕ) by norm_num, zpow_add₀ (by norm_num), zpow_natCast]
    rw [this]
    exact mul_le_mul_of_nonneg_left hpx (by positivity)
  have r2 := (r1.divExact hpx0).round (normal_of_ge b3 (tiny_le _ (by norm_num)))
  have r2 : Rl 10 (binary64 (binary64 (amplMult64 a' (binary64 (c / wl)) * wl) / px)) (a * amplFactor (c / wl) * wl / px) := r2
  clear b1 b2 b3
  obtain ⟨u1, u2⟩ := oneUlp_ten
  have q1 : a * amplFactor (c / wl) * wl / (px * (1 + 1 / 2 ^ 48)) ≤ binary64 (binary64 (amplMult64 a' (binary64 (c / wl)) * wl) / px) := by
    rw [← div_div, div_le_iff₀ (by norm_num)]
    exact r2.2.1.trans (mul_le_mul_of_nonneg_left u1 r2.nonneg)
  have q2 : binary64 (binary64 (amplMult64 a' (binary64 (c / wl)) * wl) / px) ≤ a * amplFactor (c / wl) * wl / (px / (1 + 1 / 2 ^ 48)) := by
    rw [div_div_eq_mul_div, mul_div_right_comm]
    exact r2.2.2.trans (mul_le_mul_of_nonneg_left u1 r2.1)
  have i1 := rint_mono q1
  have i2 := rint_mono q2
  refine ⟨makeOdd_mono (by omega), makeOdd_mono (by omega), makeOdd_odd _, ?_⟩
  have i3 := rint_nonneg r2.nonneg
  have i4 : 0 ≤ amplExt (c / wl) := by unfold amplExt; split_ifs <;> norm_num
  have := makeOdd_ge (rint (binary64 (binary64 (amplMult64 a' (binary64 (c / wl)) * wl) / px)) + 1 + (e + amplExt (c / wl)))
  omega

end Verif.Proofs
