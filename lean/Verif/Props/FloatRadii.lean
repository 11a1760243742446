import Verif.Proofs.FloatNodes
import Verif.Props.Polar

/-!
# C69: the radii of gen_polar_coordinates in double precision
-/

namespace Verif.Props
open Verif.Model Verif.Spec Verif.Proofs

theorem radii_eq (s : ℝ) (hs : binary64 s = s) (h0 : 2 ^ (-50 : ℤ) ≤ s) (h1 : s ≤ 1 / 2) :
    let L := ⌈binary64 (binary64 (1 + s) / s)⌉.toNat
    genRadiiFl doubles s = .ok ((List.range L).map fun (i : ℕ) => min (binary64 ((i : ℝ) * s)) 1) ∧ 2 ≤ L ∧
      (∀ i : ℕ, i + 1 < L → binary64 ((i : ℝ) * s) ≤ 1) ∧ 1 - 5 / 2 * 2 ^ (-53 : ℤ) ≤ ((L : ℝ) - 1) * s ∧ L < 2 ^ 53 ∧ ((L : ℝ) - 1) * s < 2 := by
  intro L
  have hp : (0 : ℝ) < 2 ^ (-50 : ℤ) := by positivity
  have spos : 0 < s := lt_of_lt_of_le hp h0
  have z0 : (2 : ℝ) ^ (-50 : ℤ) = 1 / 2 ^ 50 := by norm_num
  have z3 : (2 : ℝ) ^ (-53 : ℤ) = 1 / 2 ^ 53 := by norm_num
  rw [z0] at h0
  have hst : |binary64 (1 + s) - (1 + s)| ≤ 2 ^ (-53 : ℤ) :=
    binary64_err (a := 0) (by norm_num) (by rw [abs_of_pos (by linarith)]; norm_num; linarith)
  set stop := binary64 (1 + s) with hstop
  rw [abs_le, z3] at hst
  have hs1 : 1 ≤ stop := by
    have := binary64_mono (show (0 : ℝ) ≤ 1 by norm_num) (show 1 ≤ 1 + s by linarith)
    have e : binary64 1 = 1 := by simpa using binary64_nat 1 (by norm_num)
    rwa [e] at this
  have hs2 : stop ≤ 2 := by norm_num at hst; linarith [hst.2]
  have hq1 : 2 ≤ stop / s := by rw [le_div_iff₀ spos]; linarith
  have hq2 : stop / s ≤ 2 ^ 51 := by
    rw [div_le_iff₀ spos]
    calc stop ≤ 2 := hs2
      _ = 2 ^ 51 * (1 / 2 ^ 50) := by norm_num
      _ ≤ _ := mul_le_mul_of_nonneg_left h0 (by norm_num)
  -- relative error of the quotient
  have hqe : |binary64 (stop / s) - stop / s| ≤ (stop / s) * 2 ^ (-53 : ℤ) := by
    have hq0 : (0 : ℝ) < stop / s := by linarith
    have hl := log_bounds hq0.ne'
    rw [abs_of_pos hq0] at hl
    set a := Int.log 2 (stop / s)
    have ha : -1 ≤ a := by
      have := le_log_of (x := stop / s) (a := 0) (by rw [abs_of_pos hq0]; norm_num; linarith)
      rw [abs_of_pos hq0] at this
      omega
    have := binary64_err (x := stop / s) (a := a) (by omega) (by rw [abs_of_pos hq0]; exact hl.2)
    refine this.trans ?_
    rw [sub_eq_add_neg, zpow_add₀ (by norm_num)]
    exact mul_le_mul_of_nonneg_right hl.1 (by positivity)
  rw [abs_le, z3] at hqe
  set q := binary64 (stop / s) with hqdef
  have hq3 : q ≤ 2 ^ 51 := by
    have := binary64_mono (by linarith) hq2
    have e : binary64 (2 ^ 51) = 2 ^ 51 := by have := binary64_nat (2 ^ 51) (by norm_num); norm_num at this ⊢; exact this
    rwa [e] at this
  have hq4 : 2 ≤ q := by
    have := binary64_mono (by norm_num) hq1
    have e : binary64 2 = 2 := by have := binary64_nat 2 (by norm_num); push_cast at this; exact this
    rwa [e] at this
  have hL0 : (2 : ℤ) ≤ ⌈q⌉ := by
    have : (1 : ℤ) < ⌈q⌉ := by rw [Int.lt_ceil]; push_cast; linarith
    omega
  have hLL : (L : ℤ) = ⌈q⌉ := by
    show ((⌈q⌉.toNat : ℕ) : ℤ) = _
    exact Int.toNat_of_nonneg (by omega)
  have hL2 : 2 ≤ L := by omega
  have hLq : q ≤ L := by
    have := Int.le_ceil q
    rw [← hLL] at this
    exact_mod_cast this
  have hLq' : (L : ℝ) < q + 1 := by
    have := Int.ceil_lt_add_one q
    rw [← hLL] at this
    exact_mod_cast this
  have hLb : L < 2 ^ 53 := by
    have : (L : ℝ) < 2 ^ 53 := by
      calc (L : ℝ) < q + 1 := hLq'
        _ ≤ 2 ^ 51 + 1 := by linarith
        _ ≤ _ := by norm_num
    exact_mod_cast this
  have hinner : ∀ i : ℕ, i + 1 < L → binary64 ((i : ℝ) * s) ≤ 1 := by
    intro i hi
    have c1 : ((i + 1 : ℕ) : ℝ) < q := by
      have : ((i + 1 : ℕ) : ℤ) < ⌈q⌉ := by omega
      rw [Int.lt_ceil] at this
      exact_mod_cast this
    have c2 : ((i + 1 : ℕ) : ℝ) < stop / s := by
      by_contra hc
      have := binary64_mono (by linarith) (not_lt.1 hc)
      rw [binary64_nat (i + 1) (by omega)] at this
      linarith
    rw [lt_div_iff₀ spos] at c2
    push_cast at c2
    have c3 : (i : ℝ) * s ≤ 1 + 1 / 2 ^ 53 := by linarith [hst.2]
    have := binary64_mono (by positivity) c3
    refine this.trans (le_of_eq ?_)
    have hx : (1 : ℝ) + 1 / 2 ^ 53 ≠ 0 := by norm_num
    rw [binary64_ne hx]
    have hl : lastBit (1 + 1 / 2 ^ 53) = -52 := by
      have l1 := log_lt_of (x := 1 + 1 / 2 ^ 53) (a := 1) hx (by norm_num [abs_of_pos])
      have l2 := le_log_of (x := 1 + 1 / 2 ^ 53) (a := 0) (by norm_num [abs_of_pos])
      unfold lastBit; omega
    rw [hl]
    have : rint ((1 + 1 / 2 ^ 53 : ℝ) / 2 ^ (-52 : ℤ)) = 2 ^ 52 := by
      have hfl : ⌊((1 + 1 / 2 ^ 53 : ℝ) / 2 ^ (-52 : ℤ))⌋ = 2 ^ 52 := by rw [Int.floor_eq_iff]; norm_num
      unfold rint
      rw [hfl]
      norm_num
    rw [this]
    norm_num
  have hlast : 1 - 5 / 2 * 2 ^ (-53 : ℤ) ≤ ((L : ℝ) - 1) * s := by
    have c : stop * (1 - 1 / 2 ^ 53) ≤ L * s := by
      have : stop / s * (1 - 1 / 2 ^ 53) ≤ L := by linarith [hqe.1]
      calc stop * (1 - 1 / 2 ^ 53) = stop / s * (1 - 1 / 2 ^ 53) * s := by field_simp
        _ ≤ _ := mul_le_mul_of_nonneg_right this spos.le
    rw [z3]
    norm_num at *
    linarith
  have hlast2 : ((L : ℝ) - 1) * s < 2 := by
    have c : ((L : ℝ) - 1) * s ≤ q * s := mul_le_mul_of_nonneg_right (by linarith) spos.le
    have d : q * s ≤ stop * (1 + 1 / 2 ^ 53) := by
      have : q ≤ stop / s * (1 + 1 / 2 ^ 53) := by linarith [hqe.2]
      calc q * s ≤ stop / s * (1 + 1 / 2 ^ 53) * s := mul_le_mul_of_nonneg_right this spos.le
        _ = _ := by field_simp
    norm_num at *
    linarith
  refine ⟨?_, hL2, hinner, hlast, hLb, hlast2⟩
  have hl : npArangeFl doubles 0 stop s = (List.range L).map fun (i : ℕ) => binary64 ((i : ℝ) * s) := by
    unfold npArangeFl
    show List.map (fun (i : ℕ) => if i = 0 then 0 else if i = 1 then binary64 (0 + s) else
      binary64 (0 + binary64 ((i : ℝ) * binary64 (binary64 (0 + s) - 0)))) (List.range ⌈binary64 (binary64 (stop - 0) / s)⌉.toNat) = _
    have e : binary64 (stop - 0) = stop := by rw [sub_zero]; exact binary64_idem _
    rw [e]
    apply List.map_congr_left
    intro i _
    rw [zero_add, sub_zero, hs, hs]
    split_ifs with a b
    · subst a; simp [binary64_zero]
    · subst b; simp [hs]
    · rw [zero_add, binary64_idem]
  unfold genRadiiFl
  show clipLast 1 (npArangeFl doubles 0 stop s) = _
  rw [hl]
  obtain ⟨M, hM⟩ : ∃ M, L = M + 1 := ⟨L - 1, by omega⟩
  have hin : (List.range M).map (fun (i : ℕ) => min (binary64 ((i : ℝ) * s)) 1) = (List.range M).map fun (i : ℕ) => binary64 ((i : ℝ) * s) := by
    apply List.map_congr_left
    intro i hi
    have := List.mem_range.1 hi
    exact min_eq_left (hinner i (by omega))
  unfold clipLast
  rw [hM, List.range_succ, List.map_append, List.map_append, hin]
  simp only [List.map_cons, List.map_nil, List.getLast?_append, List.getLast?_singleton, Option.some_or]
  congr 1
  split_ifs with hgt
  · rw [min_eq_right hgt.le]
    rw [List.length_append, List.length_map, List.length_range, List.length_singleton, Nat.add_sub_cancel,
      List.set_append_right _ _ (by simp)]
    simp
  · rw [min_eq_left (not_lt.1 hgt)]

/-- C69 (partial: the last two radii may coincide, and the last may be below 1, see `radii_repeat` and `radii_end_below_one`). For every step from
2^-50 to 0.5 in double precision, the radii start at 0, lie in `[0, 1]`, do not decrease, neighbours are at most the step and 2^-52 apart, and the last
one is at least `1 - 2^-51`. -/
theorem radii_double_partial (s : ℝ) (hs : binary64 s = s) (h0 : 2 ^ (-50 : ℤ) ≤ s) (h1 : s ≤ 1 / 2) :
    ∃ rs, genRadiiFl doubles s = .ok rs ∧ rs.head? = some 0 ∧ (∀ x ∈ rs, 0 ≤ x ∧ x ≤ 1) ∧ rs.Pairwise (· ≤ ·) ∧
      (∀ i (h : i + 1 < rs.length), rs[i + 1] - rs[i] ≤ s + 2 ^ (-52 : ℤ)) ∧ ∃ x, rs.getLast? = some x ∧ 1 - 2 ^ (-51 : ℤ) ≤ x := by
  obtain ⟨e, hL2, hin, hlast, hLb, hlast2⟩ := radii_eq s hs h0 h1
  set L := ⌈binary64 (binary64 (1 + s) / s)⌉.toNat
  have hp : (0 : ℝ) < 2 ^ (-50 : ℤ) := by positivity
  have spos : 0 < s := lt_of_lt_of_le hp h0
  obtain ⟨M, hM⟩ : ∃ M, L = M + 1 := ⟨L - 1, by omega⟩
  have hMs : (M : ℝ) * s < 2 := by rw [hM] at hlast2; push_cast at hlast2; linarith
  have herr : ∀ i : ℕ, i ≤ M → |binary64 ((i : ℝ) * s) - (i : ℝ) * s| ≤ 2 ^ (-53 : ℤ) := by
    intro i hi
    apply binary64_err (a := 0) (by norm_num)
    rw [abs_of_nonneg (by positivity)]
    have : (i : ℝ) * s ≤ M * s := mul_le_mul_of_nonneg_right (by exact_mod_cast hi) spos.le
    norm_num
    linarith
  refine ⟨_, e, ?_, ?_, ?_, ?_, min (binary64 ((M : ℝ) * s)) 1, ?_, ?_⟩
  · rw [hM, List.range_succ_eq_map]; simp [binary64_zero]
  · intro x hx
    obtain ⟨i, _, rfl⟩ := List.mem_map.1 hx
    exact ⟨le_min (binary64_nonneg (by positivity)) zero_le_one, min_le_right _ _⟩
  · rw [List.pairwise_iff_getElem]
    intro i j hi hj hij
    simp only [List.getElem_map, List.getElem_range]
    apply min_le_min_right
    apply binary64_mono (by positivity)
    exact mul_le_mul_of_nonneg_right (by exact_mod_cast hij.le) spos.le
  · intro i h
    simp only [List.length_map, List.length_range] at h
    simp only [List.getElem_map, List.getElem_range]
    rw [min_eq_left (hin i h)]
    have a := (abs_le.1 (herr i (by omega))).1
    have b := (abs_le.1 (herr (i + 1) (by omega))).2
    have c := min_le_left (binary64 (((i + 1 : ℕ) : ℝ) * s)) 1
    have z : (2 : ℝ) ^ (-52 : ℤ) = 2 * 2 ^ (-53 : ℤ) := by norm_num
    rw [z]
    push_cast at a b c ⊢
    linarith
  · rw [hM, List.range_succ]; simp
  · apply le_min
    · have a := (abs_le.1 (herr M le_rfl)).1
      have z : (2 : ℝ) ^ (-51 : ℤ) = 4 * 2 ^ (-53 : ℤ) := by norm_num
      have hz : (0 : ℝ) < 2 ^ (-53 : ℤ) := by positivity
      rw [hM] at hlast
      push_cast at hlast
      rw [add_sub_cancel_right] at hlast
      rw [z]
      generalize (2 : ℝ) ^ (-53 : ℤ) = t at *
      linarith
    · have : (0 : ℝ) < 2 ^ (-51 : ℤ) := by positivity
      linarith

/-- C69 is false: with the step 1/6 (rounded) there are 8 radii and the last two coincide. -/
theorem radii_repeat : ∃ rs, genRadiiFl doubles (binary64 (1 / 6)) = .ok rs ∧ rs.length = 8 ∧ rs[6]? = some 1 ∧ rs[7]? = some 1 := by
  have hs : binary64 (1 / 6) = 6004799503160661 * 2 ^ (-55 : ℤ) := by
    rw [binary64_eq (-3) 6004799503160661 (by norm_num) (by norm_num) (by norm_num) (by norm_num [abs_lt])]
    norm_num
  have hst : binary64 (1 + 6004799503160661 * 2 ^ (-55 : ℤ)) = 5254199565265579 * 2 ^ (-52 : ℤ) := by
    rw [binary64_eq 0 5254199565265579 (by norm_num) (by norm_num) (by norm_num) (by norm_num [abs_lt])]
    norm_num
  have hq : binary64 (5254199565265579 * 2 ^ (-52 : ℤ) / (6004799503160661 * 2 ^ (-55 : ℤ))) = 7881299347898369 * 2 ^ (-50 : ℤ) := by
    rw [binary64_eq 2 7881299347898369 (by norm_num) (by norm_num) (by norm_num) (by norm_num [abs_lt])]
    norm_num
  have hc : ⌈(7881299347898369 * 2 ^ (-50 : ℤ) : ℝ)⌉ = 8 := by
    rw [Int.ceil_eq_iff]; norm_num
  have h6 : binary64 ((6 : ℕ) * (6004799503160661 * 2 ^ (-55 : ℤ))) = 1 := by
    have ex : (((6 : ℕ) : ℝ) * (6004799503160661 * 2 ^ (-55 : ℤ))) = 1 - 1 / 2 ^ 54 := by norm_num
    have hx : (1 : ℝ) - 1 / 2 ^ 54 ≠ 0 := by norm_num
    rw [ex, binary64_ne hx]
    have hl : lastBit (1 - 1 / 2 ^ 54) = -53 := by
      have l1 := log_lt_of (x := 1 - 1 / 2 ^ 54) (a := 0) hx (by norm_num [abs_of_pos])
      have l2 := le_log_of (x := 1 - 1 / 2 ^ 54) (a := -1) (by norm_num [abs_of_pos])
      unfold lastBit; omega
    rw [hl]
    have : rint ((1 - 1 / 2 ^ 54 : ℝ) / 2 ^ (-53 : ℤ)) = 2 ^ 53 := by
      have hfl : ⌊((1 - 1 / 2 ^ 54 : ℝ) / 2 ^ (-53 : ℤ))⌋ = 2 ^ 53 - 1 := by rw [Int.floor_eq_iff]; norm_num
      unfold rint
      rw [hfl]
      norm_num
    rw [this]
    norm_num
  have h7 : 1 ≤ binary64 ((7 : ℕ) * (6004799503160661 * 2 ^ (-55 : ℤ))) := by
    rw [← h6]
    exact binary64_mono (by positivity) (by norm_num)
  obtain ⟨e, -⟩ := radii_eq (binary64 (1 / 6)) (binary64_idem _) (by rw [hs]; norm_num) (by rw [hs]; norm_num)
  simp only [hs, hst, hq, hc] at e
  rw [hs, e]
  refine ⟨_, rfl, by simp, ?_, ?_⟩
  · rw [List.getElem?_map, show (List.range (8 : ℤ).toNat)[6]? = some 6 by decide, Option.map_some, h6, min_self]
  · rw [List.getElem?_map, show (List.range (8 : ℤ).toNat)[7]? = some 7 by decide, Option.map_some, min_eq_right h7]

/-- C69 is false: with the step 1/98 (rounded) the last radius is `1 - 2^-53`, not 1. -/
theorem radii_end_below_one : ∃ rs, genRadiiFl doubles (binary64 (1 / 98)) = .ok rs ∧ rs.length = 99 ∧ rs[98]? = some (1 - 2 ^ (-53 : ℤ)) := by
  have hs : binary64 (1 / 98) = 5882252574524729 * 2 ^ (-59 : ℤ) := by
    rw [binary64_eq (-7) 5882252574524729 (by norm_num) (by norm_num) (by norm_num) (by norm_num [abs_lt])]
    norm_num
  have hst : binary64 (1 + 5882252574524729 * 2 ^ (-59 : ℤ)) = 4549554725608970 * 2 ^ (-52 : ℤ) := by
    rw [binary64_eq 0 4549554725608970 (by norm_num) (by norm_num) (by norm_num) (by norm_num [abs_lt])]
    norm_num
  have hq : binary64 (4549554725608970 * 2 ^ (-52 : ℤ) / (5882252574524729 * 2 ^ (-59 : ℤ))) = 6966505673588736 * 2 ^ (-46 : ℤ) := by
    rw [binary64_eq 6 6966505673588736 (by norm_num) (by norm_num) (by norm_num) (by norm_num [abs_lt])]
    norm_num
  have hc : ⌈(6966505673588736 * 2 ^ (-46 : ℤ) : ℝ)⌉ = 99 := by
    rw [Int.ceil_eq_iff]; norm_num
  have h98 : binary64 ((98 : ℕ) * (5882252574524729 * 2 ^ (-59 : ℤ))) = 1 - 2 ^ (-53 : ℤ) := by
    rw [binary64_eq (-1) 9007199254740991 (by norm_num) (by norm_num) (by norm_num) (by norm_num [abs_lt])]
    norm_num
  obtain ⟨e, -⟩ := radii_eq (binary64 (1 / 98)) (binary64_idem _) (by rw [hs]; norm_num) (by rw [hs]; norm_num)
  simp only [hs, hst, hq, hc] at e
  rw [hs, e]
  refine ⟨_, rfl, by simp, ?_⟩
  rw [List.getElem?_map, show (List.range (99 : ℤ).toNat)[98]? = some 98 by decide, Option.map_some, h98, min_eq_left]
  have : (0 : ℝ) < 2 ^ (-53 : ℤ) := by positivity
  linarith

end Verif.Props
