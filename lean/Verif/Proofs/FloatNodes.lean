import Verif.Model.FloatNodes
import Verif.Proofs.FloatDoubles
import Verif.Proofs.Psf

/-!
# The radial nodes in double precision
-/

namespace Verif.Proofs
open Verif.Model Verif.Spec

theorem rint_unique {x : ℝ} {k : ℤ} (h : |x - k| < 1 / 2) : rint x = k := by
  have h1 := rint_near x
  have h2 : |((rint x - k : ℤ) : ℝ)| < 1 := by
    have e : ((rint x - k : ℤ) : ℝ) = ((rint x : ℝ) - x) + (x - k) := by push_cast; ring
    rw [e]
    exact (abs_add_le _ _).trans_lt (by linarith)
  have h3 : |rint x - k| < 1 := by exact_mod_cast h2
  rw [Int.abs_lt_one_iff] at h3
  omega

/-- The exponent of the last bit. -/
noncomputable def lastBit (x : ℝ) : ℤ := max (Int.log 2 |x| - 52) (-1074)

theorem binary64_ne {x : ℝ} (hx : x ≠ 0) : binary64 x = rint (x / 2 ^ lastBit x) * 2 ^ lastBit x := by
  unfold binary64; rw [if_neg hx]; rfl

theorem binary64_zero : binary64 0 = 0 := by unfold binary64; simp

theorem log_lt_of {x : ℝ} {a : ℤ} (hx : x ≠ 0) (h : |x| < 2 ^ a) : Int.log 2 |x| < a := by
  rw [← Int.lt_zpow_iff_log_lt (by norm_num) (abs_pos.2 hx)]
  exact_mod_cast h

theorem le_log_of {x : ℝ} {a : ℤ} (h : 2 ^ a ≤ |x|) : a ≤ Int.log 2 |x| := by
  have hx : 0 < |x| := lt_of_lt_of_le (by positivity) h
  rw [← Int.zpow_le_iff_le_log (by norm_num) hx]
  exact_mod_cast h

theorem log_bounds {x : ℝ} (hx : x ≠ 0) : 2 ^ Int.log 2 |x| ≤ |x| ∧ |x| < 2 ^ (Int.log 2 |x| + 1) := by
  constructor
  · have := Int.zpow_log_le_self (b := 2) (r := |x|) (by norm_num) (abs_pos.2 hx)
    exact_mod_cast this
  · have := Int.lt_zpow_succ_log_self (b := 2) (by norm_num) |x|
    exact_mod_cast this

/-- Absolute error from an upper bound of the number. -/
theorem binary64_err {x : ℝ} {a : ℤ} (ha : -1022 ≤ a) (h : |x| < 2 ^ (a + 1)) : |binary64 x - x| ≤ 2 ^ (a - 53) := by
  by_cases hx : x = 0
  · subst hx; rw [binary64_zero]; simp; positivity
  · rw [binary64_ne hx]
    have hl := log_lt_of hx h
    have hp : (0 : ℝ) < 2 ^ lastBit x := by positivity
    have h1 := rint_near (x / 2 ^ lastBit x)
    have e : (rint (x / 2 ^ lastBit x) : ℝ) * 2 ^ lastBit x - x = ((rint (x / 2 ^ lastBit x) : ℝ) - x / 2 ^ lastBit x) * 2 ^ lastBit x := by
      rw [sub_mul, div_mul_cancel₀ _ hp.ne']
    rw [e, abs_mul, abs_of_pos hp]
    have h2 : lastBit x ≤ a - 52 := by unfold lastBit; omega
    have h3 : (2 : ℝ) ^ lastBit x ≤ 2 ^ (a - 52) := zpow_le_zpow_right₀ (by norm_num) h2
    have h4 : (2 : ℝ) ^ (a - 52) = 2 ^ (a - 53) * 2 := by
      rw [show a - 52 = a - 53 + 1 by ring, zpow_add_one₀ (by norm_num)]
    calc _ ≤ 1 / 2 * (2 : ℝ) ^ lastBit x := mul_le_mul_of_nonneg_right h1 hp.le
      _ ≤ 1 / 2 * 2 ^ (a - 52) := by linarith
      _ = _ := by rw [h4]; ring

theorem binary64_exact_lt (k e : ℤ) (hk : |k| < 2 ^ 53) (he : -1074 ≤ e) : binary64 (k * 2 ^ e) = k * 2 ^ e := by
  by_cases hx : (k : ℝ) * 2 ^ e = 0
  · rw [hx, binary64_zero]
  · rw [binary64_ne hx]
    have hk' : |(k : ℝ)| < 2 ^ (53 : ℤ) := by exact_mod_cast hk
    have hl : Int.log 2 |(k : ℝ) * 2 ^ e| < 53 + e := by
      apply log_lt_of hx
      rw [abs_mul, abs_of_pos (show (0 : ℝ) < 2 ^ e by positivity), zpow_add₀ (by norm_num)]
      exact mul_lt_mul_of_pos_right hk' (by positivity)
    set E := lastBit ((k : ℝ) * 2 ^ e) with hE
    have h0 : E ≤ e := by rw [hE]; unfold lastBit; omega
    obtain ⟨j, hj⟩ := Int.eq_ofNat_of_zero_le (show 0 ≤ e - E by omega)
    have h2 : (k : ℝ) * 2 ^ e / 2 ^ E = ((k * 2 ^ j : ℤ) : ℝ) := by
      rw [show e = (j : ℤ) + E by omega, zpow_add₀ (by norm_num), zpow_natCast]
      push_cast
      field_simp
    rw [h2, rint_int, ← h2]
    field_simp

theorem binary64_exact (k e : ℤ) (hk : |k| ≤ 2 ^ 53) (he : -1074 ≤ e) : binary64 (k * 2 ^ e) = k * 2 ^ e := by
  rcases lt_or_eq_of_le hk with h | h
  · exact binary64_exact_lt k e h he
  · have key : ∀ s : ℤ, |s| = 1 → k = s * 2 ^ 53 → binary64 (k * 2 ^ e) = k * 2 ^ e := by
      intro s hs hks
      have e1 : (k : ℝ) * 2 ^ e = ((s * 2 ^ 52 : ℤ) : ℝ) * 2 ^ (e + 1) := by
        rw [hks, zpow_add_one₀ (by norm_num)]; push_cast; ring
      rw [e1]
      apply binary64_exact_lt _ _ _ (by omega)
      rw [abs_mul, hs]; norm_num
    rcases abs_eq (show (0 : ℤ) ≤ 2 ^ 53 by norm_num) |>.1 h with h | h
    · exact key 1 (by norm_num) (by rw [h]; norm_num)
    · exact key (-1) (by norm_num) (by rw [h]; norm_num)

/-- A rounded number has the form of a binary64 number. -/
theorem binary64_form (x : ℝ) : ∃ k e : ℤ, |k| ≤ 2 ^ 53 ∧ -1074 ≤ e ∧ binary64 x = k * 2 ^ e := by
  by_cases hx : x = 0
  · exact ⟨0, 0, by norm_num, by norm_num, by rw [hx, binary64_zero]; simp⟩
  · refine ⟨rint (x / 2 ^ lastBit x), lastBit x, ?_, le_max_right _ _, binary64_ne hx⟩
    have h1 := (log_bounds hx).2
    have h2 : |x / 2 ^ lastBit x| ≤ 2 ^ 53 := by
      rw [abs_div, abs_of_pos (show (0 : ℝ) < 2 ^ lastBit x by positivity), div_le_iff₀ (by positivity)]
      refine h1.le.trans ?_
      rw [← zpow_natCast, ← zpow_add₀ (by norm_num)]
      apply zpow_le_zpow_right₀ (by norm_num)
      unfold lastBit; push_cast; omega
    rw [abs_le] at h2 ⊢
    constructor
    · apply le_rint; refine le_trans (le_of_eq ?_) h2.1; push_cast; norm_num
    · apply rint_le; refine le_trans h2.2 (le_of_eq ?_); push_cast; norm_num

theorem binary64_idem (x : ℝ) : binary64 (binary64 x) = binary64 x := by
  obtain ⟨k, e, h1, h2, h3⟩ := binary64_form x
  rw [h3]; exact binary64_exact k e h1 h2

theorem binary64_double (x : ℝ) : binary64 (binary64 x + binary64 x) = binary64 x + binary64 x := by
  obtain ⟨k, e, h1, h2, h3⟩ := binary64_form x
  have : binary64 x + binary64 x = k * 2 ^ (e + 1) := by rw [h3, zpow_add_one₀ (by norm_num)]; ring
  rw [this]; exact binary64_exact k _ h1 (by omega)

theorem binary64_nat (n : ℕ) (h : n ≤ 2 ^ 53) : binary64 n = n := by
  have := binary64_exact n 0 (by rw [Nat.abs_cast]; exact_mod_cast h) (by norm_num)
  simpa using this

theorem binary64_nonneg {x : ℝ} (h : 0 ≤ x) : 0 ≤ binary64 x := by
  by_cases hx : x = 0
  · rw [hx, binary64_zero]
  · rw [binary64_ne hx]
    have : (0 : ℤ) ≤ rint (x / 2 ^ lastBit x) := by apply le_rint; push_cast; positivity
    have : (0 : ℝ) ≤ rint (x / 2 ^ lastBit x) := by exact_mod_cast this
    positivity

/-- Rounding keeps the order. -/
theorem binary64_mono {x y : ℝ} (hx : 0 ≤ x) (h : x ≤ y) : binary64 x ≤ binary64 y := by
  rcases hx.eq_or_lt with h0 | h0
  · rw [← h0, binary64_zero]; exact binary64_nonneg (hx.trans h)
  · have hy : 0 < y := lt_of_lt_of_le h0 h
    rw [binary64_ne h0.ne', binary64_ne hy.ne']
    have hl : Int.log 2 |x| ≤ Int.log 2 |y| := by
      rw [abs_of_pos h0, abs_of_pos hy]; exact Int.log_mono_right h0 h
    have hee : lastBit x ≤ lastBit y := by unfold lastBit; omega
    rcases hee.eq_or_lt with he | he
    · rw [he]
      apply mul_le_mul_of_nonneg_right _ (by positivity)
      exact_mod_cast rint_mono (div_le_div_of_nonneg_right h (by positivity))
    · have hly : lastBit y = Int.log 2 |y| - 52 := by unfold lastBit at *; omega
      have hlx : Int.log 2 |x| + 1 ≤ Int.log 2 |y| := by
        by_contra hc
        have : Int.log 2 |x| = Int.log 2 |y| := by omega
        unfold lastBit at he
        rw [this] at he
        omega
      have b1 : x ≤ 2 ^ Int.log 2 |y| := by
        have := (log_bounds h0.ne').2
        rw [abs_of_pos h0] at this
        refine this.le.trans ?_
        rw [abs_of_pos h0] at hlx
        exact zpow_le_zpow_right₀ (by norm_num) hlx
      have b2 : 2 ^ Int.log 2 |y| ≤ y := by
        have := (log_bounds hy.ne').1
        rwa [abs_of_pos hy] at this ⊢
      have b3 : (rint (x / 2 ^ lastBit x) : ℝ) * 2 ^ lastBit x ≤ 2 ^ Int.log 2 |y| := by
        obtain ⟨j, hj⟩ := Int.eq_ofNat_of_zero_le (show 0 ≤ Int.log 2 |y| - lastBit x by omega)
        have : rint (x / 2 ^ lastBit x) ≤ 2 ^ j := by
          apply rint_le
          rw [div_le_iff₀ (by positivity)]
          refine b1.trans (le_of_eq ?_)
          push_cast
          rw [← zpow_natCast, ← zpow_add₀ (by norm_num)]
          congr 1; omega
        have : (rint (x / 2 ^ lastBit x) : ℝ) ≤ 2 ^ j := by exact_mod_cast this
        calc _ ≤ (2 : ℝ) ^ j * 2 ^ lastBit x := mul_le_mul_of_nonneg_right this (by positivity)
          _ = _ := by rw [← zpow_natCast, ← zpow_add₀ (by norm_num)]; congr 1; omega
      have b4 : 2 ^ Int.log 2 |y| ≤ (rint (y / 2 ^ lastBit y) : ℝ) * 2 ^ lastBit y := by
        have : (2 ^ 52 : ℤ) ≤ rint (y / 2 ^ lastBit y) := by
          apply le_rint
          rw [le_div_iff₀ (by positivity)]
          refine le_trans (le_of_eq ?_) b2
          rw [show ((2 ^ 52 : ℤ) : ℝ) = (2 : ℝ) ^ (52 : ℤ) by norm_num, ← zpow_add₀ (by norm_num), hly]
          congr 1; ring
        have : (2 ^ 52 : ℝ) ≤ rint (y / 2 ^ lastBit y) := by exact_mod_cast this
        calc _ = (2 : ℝ) ^ 52 * 2 ^ lastBit y := by
              rw [← zpow_natCast, ← zpow_add₀ (by norm_num)]; congr 1; rw [hly]; push_cast; ring
          _ ≤ _ := mul_le_mul_of_nonneg_right this (by positivity)
      exact b3.trans b4

/-- The rounded value from a candidate. -/
theorem binary64_eq {x : ℝ} (a k : ℤ) (ha : -1022 ≤ a) (h1 : 2 ^ a ≤ x) (h2 : x < 2 ^ (a + 1)) (h : |x / 2 ^ (a - 52) - k| < 1 / 2) :
    binary64 x = k * 2 ^ (a - 52) := by
  have hx : 0 < x := lt_of_lt_of_le (by positivity) h1
  rw [binary64_ne hx.ne']
  have : lastBit x = a - 52 := by
    have l1 := log_lt_of hx.ne' (by rwa [abs_of_pos hx] : |x| < 2 ^ (a + 1))
    have l2 := le_log_of (by rwa [abs_of_pos hx] : 2 ^ a ≤ |x|)
    unfold lastBit; omega
  rw [this, rint_unique h]

theorem node_step (n : ℕ) (h2 : 2 ≤ n) (hn : n < 2 ^ 50) :
    2 ^ (-50 : ℤ) ≤ radialStep doubles n ∧ radialStep doubles n ≤ 1 / 2 ∧ |n * radialStep doubles n - 1| ≤ 2 ^ (-52 : ℤ) := by
  unfold radialStep
  show 2 ^ (-50 : ℤ) ≤ binary64 _ ∧ binary64 _ ≤ 1 / 2 ∧ |n * binary64 _ - 1| ≤ 2 ^ (-52 : ℤ)
  have h0 : (0 : ℝ) < n := by positivity
  have hn' : (n : ℝ) ≤ 2 ^ 50 := by exact_mod_cast hn.le
  have h2' : (2 : ℝ) ≤ n := by exact_mod_cast h2
  simp only [Int.cast_natCast]
  refine ⟨?_, ?_, ?_⟩
  · have := binary64_exact 1 (-50) (by norm_num) (by norm_num)
    rw [Int.cast_one, one_mul] at this
    rw [← this]
    apply binary64_mono (by positivity)
    rw [zpow_neg, ← one_div]
    apply one_div_le_one_div_of_le h0
    exact_mod_cast hn.le
  · have := binary64_exact 1 (-1) (by norm_num) (by norm_num)
    have e : ((1 : ℤ) : ℝ) * 2 ^ (-1 : ℤ) = 1 / 2 := by norm_num
    rw [e] at this
    rw [← this]
    exact binary64_mono (by positivity) (one_div_le_one_div_of_le (by norm_num) h2')
  · have hl := log_bounds h0.ne'
    rw [abs_of_pos h0] at hl
    set c := Int.log 2 (n : ℝ) with hc
    have hc1 : c < 50 := by
      have := log_lt_of h0.ne' (a := 50) (by rw [abs_of_pos h0]; exact_mod_cast hn)
      rwa [abs_of_pos h0] at this
    have hc0 : 0 ≤ c := by
      have := le_log_of (x := (n : ℝ)) (a := 0) (by rw [abs_of_pos h0]; norm_num; linarith)
      rwa [abs_of_pos h0] at this
    have b : |1 / (n : ℝ)| < 2 ^ (-c + 1) := by
      rw [abs_of_pos (by positivity), div_lt_iff₀ h0]
      calc (1 : ℝ) < 2 := by norm_num
        _ = 2 ^ (-c + 1) * 2 ^ c := by rw [← zpow_add₀ (by norm_num)]; norm_num
        _ ≤ _ := mul_le_mul_of_nonneg_left hl.1 (by positivity)
    have e := binary64_err (by omega) b
    have : (n : ℝ) * binary64 (1 / n) - 1 = n * (binary64 (1 / n) - 1 / n) := by field_simp
    rw [this, abs_mul, abs_of_pos h0]
    calc _ ≤ (2 : ℝ) ^ (c + 1) * 2 ^ (-c - 53) := mul_le_mul hl.2.le e (abs_nonneg _) (by positivity)
      _ = 2 ^ (-52 : ℤ) := by rw [← zpow_add₀ (by norm_num)]; congr 1; ring

/-- The nodes without the special cases of `arange`. -/
theorem nodes_eq (n : ℕ) : radialNodes doubles n = (List.range ⌈binary64 (binary64 (1 - radialStep doubles n) / radialStep doubles n)⌉.toNat).map
    fun (i : Nat) => binary64 (radialStep doubles n + binary64 ((i : ℝ) * radialStep doubles n)) := by
  unfold radialNodes npArangeFl
  have hi : binary64 (radialStep doubles n) = radialStep doubles n := binary64_idem _
  have hd : binary64 (radialStep doubles n + radialStep doubles n) = radialStep doubles n + radialStep doubles n := binary64_double _
  dsimp only [doubles]
  apply List.map_congr_left
  intro i _
  change (if i = 0 then radialStep doubles n else if i = 1 then binary64 (radialStep doubles n + radialStep doubles n) else
    binary64 (radialStep doubles n + binary64 ((i : ℝ) * binary64 (binary64 (radialStep doubles n + radialStep doubles n) - radialStep doubles n)))) =
    binary64 (radialStep doubles n + binary64 ((i : ℝ) * radialStep doubles n))
  rw [hd, add_sub_cancel_right, hi]
  split_ifs with h0 h1
  · subst h0; simp [binary64_zero, hi]
  · subst h1; simp [hi, hd]
  · rfl

theorem last_bound (h : ℝ) (h0 : 0 < h) (h1 : h ≤ 1 / 2) : |binary64 (1 - h) - (1 - h)| ≤ 2 ^ (-54 : ℤ) :=
  binary64_err (a := -1) (by norm_num) (by rw [abs_of_nonneg (by linarith)]; norm_num; linarith)

theorem node_count (n : ℕ) (h2 : 2 ≤ n) (hn : n < 2 ^ 50) :
    (radialNodes doubles n).length = n - 1 ∨ (radialNodes doubles n).length = n := by
  obtain ⟨s1, s2, s3⟩ := node_step n h2 hn
  have hl : (radialNodes doubles n).length = ⌈binary64 (binary64 (1 - radialStep doubles n) / radialStep doubles n)⌉.toNat := by
    rw [nodes_eq]; simp
  rw [hl]
  set h := radialStep doubles n with hh
  have h0 : 0 < h := lt_of_lt_of_le (by positivity) s1
  have hd := last_bound h h0 s2
  set d := binary64 (1 - h) with hdd
  rw [abs_le] at s3 hd
  have hn' : (n : ℝ) ≤ 2 ^ 50 := by exact_mod_cast hn.le
  have h2' : (2 : ℝ) ≤ n := by exact_mod_cast h2
  have z1 : (2 : ℝ) ^ (-50 : ℤ) = 1 / 2 ^ 50 := by norm_num
  have z2 : (2 : ℝ) ^ (-52 : ℤ) = 1 / 2 ^ 52 := by norm_num
  have z3 : (2 : ℝ) ^ (-54 : ℤ) = 1 / 2 ^ 54 := by norm_num
  rw [z1] at s1
  rw [z2] at s3
  rw [z3] at hd
  have hd0 : 0 ≤ d := binary64_nonneg (by linarith)
  have u1 : d / h ≤ n := by
    rw [div_le_iff₀ h0]
    norm_num at *
    linarith
  have u2 : (n : ℝ) - 1 - 1 / 2 ≤ d / h := by
    rw [le_div_iff₀ h0]
    norm_num at *
    nlinarith
  have u3 : |binary64 (d / h) - d / h| ≤ 2 ^ (-3 : ℤ) := by
    apply binary64_err (a := 50) (by norm_num)
    rw [abs_of_nonneg (by positivity)]
    calc d / h ≤ n := u1
      _ ≤ 2 ^ 50 := hn'
      _ < _ := by norm_num
  have u4 : binary64 (d / h) ≤ n := by
    calc _ ≤ binary64 (n : ℝ) := binary64_mono (by positivity) u1
      _ = n := binary64_nat n (hn.le.trans (by norm_num))
  have v1 : ⌈binary64 (d / h)⌉ ≤ n := by rw [Int.ceil_le]; exact_mod_cast u4
  have v2 : (n : ℤ) - 2 < ⌈binary64 (d / h)⌉ := by
    rw [Int.lt_ceil]
    rw [abs_le] at u3
    have : (2 : ℝ) ^ (-3 : ℤ) = 1 / 8 := by norm_num
    rw [this] at u3
    push_cast
    linarith
  omega

theorem node_mem (n : ℕ) (h2 : 2 ≤ n) (hn : n < 2 ^ 50) (i : ℕ) (hi : i < (radialNodes doubles n).length) :
    0 < (radialNodes doubles n)[i] ∧ (radialNodes doubles n)[i] ≤ 1 ∧ |(radialNodes doubles n)[i] - ((i : ℝ) + 1) / n| ≤ 2 ^ (-51 : ℤ) := by
  obtain ⟨s1, s2, s3⟩ := node_step n h2 hn
  have hc := node_count n h2 hn
  have hin : i + 1 ≤ n := by omega
  have hi2 : i < ⌈binary64 (binary64 (1 - radialStep doubles n) / radialStep doubles n)⌉.toNat := by
    rw [nodes_eq] at hi; simpa using hi
  have hv : (radialNodes doubles n)[i] = binary64 (radialStep doubles n + binary64 ((i : ℝ) * radialStep doubles n)) := by
    simp only [nodes_eq, List.getElem_map, List.getElem_range]
  rw [hv]
  have h0 : 0 < radialStep doubles n := lt_of_lt_of_le (by positivity) s1
  have hd := last_bound _ h0 s2
  have hidem : binary64 (radialStep doubles n) = radialStep doubles n := binary64_idem _
  set h := radialStep doubles n with hh
  have hdi := binary64_idem (1 - h)
  set d := binary64 (1 - h) with hdd
  have hd0 : 0 ≤ d := binary64_nonneg (by linarith)
  have hn' : (n : ℝ) ≤ 2 ^ 50 := by exact_mod_cast hn.le
  have h2' : (2 : ℝ) ≤ n := by exact_mod_cast h2
  have hin' : (i : ℝ) + 1 ≤ n := by exact_mod_cast hin
  rw [abs_le] at hd
  have z3 : (2 : ℝ) ^ (-54 : ℤ) = 1 / 2 ^ 54 := by norm_num
  have hlt : (i : ℝ) * h < d := by
    by_contra hcon
    have c1 : d / h ≤ i := by rw [div_le_iff₀ h0]; linarith
    have c2 : binary64 (d / h) ≤ i := by
      have := binary64_mono (by positivity) c1
      rwa [binary64_nat i (by omega)] at this
    have c3 : ⌈binary64 (d / h)⌉ ≤ i := by rw [Int.ceil_le]; exact_mod_cast c2
    omega
  have hii : 0 ≤ (i : ℝ) * h := by positivity
  have hfl : binary64 ((i : ℝ) * h) ≤ d := by
    have := binary64_mono hii hlt.le
    rwa [hdi] at this
  have hf0 := binary64_nonneg hii
  have hy : h + binary64 ((i : ℝ) * h) ≤ 1 + 1 / 2 ^ 54 := by rw [z3] at hd; linarith
  refine ⟨?_, ?_, ?_⟩
  · have := binary64_mono h0.le (show h ≤ h + binary64 ((i : ℝ) * h) by linarith)
    rw [hidem] at this
    linarith
  · have := binary64_mono (by linarith) hy
    refine this.trans (le_of_eq ?_)
    rw [binary64_eq 0 (2 ^ 52) (by norm_num) (by norm_num) (by norm_num) (by norm_num [abs_of_nonneg])]
    norm_num
  · have e1 : |binary64 ((i : ℝ) * h) - (i : ℝ) * h| ≤ 2 ^ (-54 : ℤ) := by
      apply binary64_err (a := -1) (by norm_num)
      rw [abs_of_nonneg hii]
      have : d ≤ 1 := by
        have := binary64_mono (show 0 ≤ 1 - h by linarith) (show 1 - h ≤ 1 by linarith)
        have e : binary64 1 = 1 := by simpa using binary64_nat 1 (by norm_num)
        rwa [e] at this
      norm_num
      linarith
    have e2 : |binary64 (h + binary64 ((i : ℝ) * h)) - (h + binary64 ((i : ℝ) * h))| ≤ 2 ^ (-53 : ℤ) := by
      apply binary64_err (a := 0) (by norm_num)
      rw [abs_of_nonneg (by linarith)]
      norm_num at hy ⊢
      linarith
    have e3 : |((i : ℝ) + 1) * h - ((i : ℝ) + 1) / n| ≤ 2 ^ (-52 : ℤ) := by
      have e : ((i : ℝ) + 1) * h - ((i : ℝ) + 1) / n = (((i : ℝ) + 1) / n) * (n * h - 1) := by field_simp
      rw [e, abs_mul, abs_of_nonneg (by positivity)]
      calc _ ≤ 1 * |(n : ℝ) * h - 1| := by
            apply mul_le_mul_of_nonneg_right _ (abs_nonneg _)
            rw [div_le_one (by positivity)]
            exact hin'
        _ ≤ _ := by rw [one_mul]; exact s3
    have z1 : (2 : ℝ) ^ (-51 : ℤ) = 8 * (1 / 2 ^ 54) := by norm_num
    have z2 : (2 : ℝ) ^ (-52 : ℤ) = 4 * (1 / 2 ^ 54) := by norm_num
    have z4 : (2 : ℝ) ^ (-53 : ℤ) = 2 * (1 / 2 ^ 54) := by norm_num
    rw [z2] at e3
    rw [z3] at e1
    rw [z4] at e2
    rw [z1]
    have zp : (0 : ℝ) < 1 / 2 ^ 54 := by positivity
    rw [abs_le] at *
    constructor <;> nlinarith

end Verif.Proofs
