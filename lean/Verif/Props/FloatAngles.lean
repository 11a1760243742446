import Verif.Props.FloatRadii
import Mathlib.Analysis.Real.Pi.Bounds

/-!
# C95: gen_polar_coordinates in double precision
-/

namespace Verif.Props
open Verif.Model Verif.Spec Verif.Proofs

/-- `2*np.pi` as a number of the double precision. -/
theorem pi_double : binary64 Real.pi = 7074237752028440 * 2 ^ (-51 : ℤ) := by
  have h1 := Real.pi_gt_d20
  have h2 := Real.pi_lt_d20
  rw [binary64_eq 1 7074237752028440 (by norm_num) (by norm_num; linarith) (by norm_num; linarith) (by
    rw [abs_lt]; norm_num; constructor <;> linarith)]
  norm_num

theorem twoPi_double : twoPiFl doubles = 7074237752028440 * 2 ^ (-50 : ℤ) := by
  show binary64 (2 * binary64 Real.pi) = _
  rw [pi_double]
  have : (2 : ℝ) * (7074237752028440 * 2 ^ (-51 : ℤ)) = (7074237752028440 : ℤ) * 2 ^ (-50 : ℤ) := by norm_num
  rw [this, binary64_exact _ _ (by norm_num) (by norm_num)]
  norm_num

/-- `2*np.pi` is the number nearest to `2π`. -/
theorem twoPi_nearest : binary64 (2 * Real.pi) = twoPiFl doubles := by
  have h1 := Real.pi_gt_d20
  have h2 := Real.pi_lt_d20
  rw [twoPi_double, binary64_eq 2 7074237752028440 (by norm_num) (by norm_num; linarith) (by norm_num; linarith) (by
    rw [abs_lt]; norm_num; constructor <;> linarith)]
  norm_num

/-- `2*np.pi` is below `2π`, by less than `2^-51`. -/
theorem twoPi_near : twoPiFl doubles ≤ 2 * Real.pi ∧ 2 * Real.pi - 2 ^ (-51 : ℤ) ≤ twoPiFl doubles := by
  rw [twoPi_double]
  have h1 := Real.pi_gt_d20
  have h2 := Real.pi_lt_d20
  norm_num at *
  constructor <;> linarith

/-- A number that the tie of the rounding still takes to `2*np.pi`. -/
theorem twoPi_tie : binary64 (twoPiFl doubles + 2 ^ (-51 : ℤ)) = twoPiFl doubles := by
  rw [twoPi_double]
  have hx : (7074237752028440 * 2 ^ (-50 : ℤ) + 2 ^ (-51 : ℤ) : ℝ) ≠ 0 := by norm_num
  rw [binary64_ne hx]
  have hl : lastBit (7074237752028440 * 2 ^ (-50 : ℤ) + 2 ^ (-51 : ℤ)) = -50 := by
    have l1 := log_lt_of (x := 7074237752028440 * 2 ^ (-50 : ℤ) + 2 ^ (-51 : ℤ)) (a := 3) hx (by norm_num [abs_of_pos])
    have l2 := le_log_of (x := 7074237752028440 * 2 ^ (-50 : ℤ) + 2 ^ (-51 : ℤ)) (a := 2) (by norm_num [abs_of_pos])
    unfold lastBit; omega
  rw [hl]
  have : rint ((7074237752028440 * 2 ^ (-50 : ℤ) + 2 ^ (-51 : ℤ) : ℝ) / 2 ^ (-50 : ℤ)) = 7074237752028440 := by
    have hfl : ⌊((7074237752028440 * 2 ^ (-50 : ℤ) + 2 ^ (-51 : ℤ) : ℝ) / 2 ^ (-50 : ℤ))⌋ = 7074237752028440 := by rw [Int.floor_eq_iff]; norm_num
    unfold rint
    rw [hfl]
    norm_num
  rw [this]
  norm_num

/-- The numbers of the double precision in `[2, 4)` are multiples of `2^-51`. -/
theorem grid_two {s : ℝ} (hs : binary64 s = s) (h2 : 2 ≤ s) (h4 : s < 4) : ∃ k : ℤ, s = k * 2 ^ (-51 : ℤ) := by
  have hx : s ≠ 0 := by linarith
  have hl : lastBit s = -51 := by
    have l1 := log_lt_of (x := s) (a := 2) hx (by rw [abs_of_pos (by linarith)]; norm_num; linarith)
    have l2 := le_log_of (x := s) (a := 1) (by rw [abs_of_pos (by linarith)]; norm_num; linarith)
    unfold lastBit; omega
  rw [binary64_ne hx, hl] at hs
  exact ⟨_, hs.symm⟩

theorem angles_eq (s : ℝ) (hs : binary64 s = s) (h0 : 2 ^ (-48 : ℤ) ≤ s) (h1 : s ≤ Real.pi) :
    let L := ⌈binary64 (binary64 (twoPiFl doubles + s) / s)⌉.toNat
    clipLast (twoPiFl doubles) (npArangeFl doubles 0 (doubles.fl (twoPiFl doubles + s)) s) =
        .ok ((List.range L).map fun (i : ℕ) => min (binary64 ((i : ℝ) * s)) (twoPiFl doubles)) ∧ 2 ≤ L ∧
      (∀ i : ℕ, i + 1 < L → (i : ℝ) * s ≤ twoPiFl doubles + 2 ^ (-51 : ℤ) ∧ binary64 ((i : ℝ) * s) ≤ twoPiFl doubles) ∧
      twoPiFl doubles - 9 / 4 * 2 ^ (-50 : ℤ) ≤ ((L : ℝ) - 1) * s ∧ ((L : ℝ) - 1) * s < 16 := by
  have spi : s ≤ 7074237752028440 * 2 ^ (-51 : ℤ) := by
    have hp : (0 : ℝ) < 2 ^ (-48 : ℤ) := by positivity
    have := binary64_mono (by linarith) h1
    rwa [hs, pi_double] at this
  clear h1
  have hp : (0 : ℝ) < 2 ^ (-48 : ℤ) := by positivity
  have spos : 0 < s := lt_of_lt_of_le hp h0
  have htie := twoPi_tie
  have hidemT : binary64 (twoPiFl doubles) = twoPiFl doubles := binary64_idem _
  have hTv := twoPi_double
  generalize twoPiFl doubles = T at *
  intro L
  have z0 : (2 : ℝ) ^ (-48 : ℤ) = 1 / 2 ^ 48 := by norm_num
  have z3 : (2 : ℝ) ^ (-53 : ℤ) = 1 / 2 ^ 53 := by norm_num
  have z50 : (2 : ℝ) ^ (-50 : ℤ) = 1 / 2 ^ 50 := by norm_num
  have z51 : (2 : ℝ) ^ (-51 : ℤ) = 1 / 2 ^ 51 := by norm_num
  have hT1 : (62 / 10 : ℝ) < T := by rw [hTv]; norm_num
  have hT2 : T < (63 / 10 : ℝ) := by rw [hTv]; norm_num
  have sT : 2 * s ≤ T := by rw [hTv]; rw [z50]; rw [z51] at spi; linarith
  rw [z0] at h0
  have hst : |binary64 (T + s) - (T + s)| ≤ 2 ^ (-50 : ℤ) :=
    binary64_err (a := 3) (by norm_num) (by rw [abs_of_pos (by linarith)]; norm_num; linarith)
  have hst' : s ≤ 17 / 10 → |binary64 (T + s) - (T + s)| ≤ 2 ^ (-51 : ℤ) := fun h =>
    binary64_err (a := 2) (by norm_num) (by rw [abs_of_pos (by linarith)]; norm_num; linarith)
  set stop := binary64 (T + s) with hstop
  rw [abs_le, z50] at hst
  have hs1 : T ≤ stop := by
    have := binary64_mono (by linarith) (show T ≤ T + s by linarith)
    rwa [hidemT] at this
  have hs2 : stop ≤ 10 := by norm_num at hst; linarith [hst.2]
  have hq1 : 2 ≤ stop / s := by rw [le_div_iff₀ spos]; linarith
  have hq2 : stop / s ≤ 2 ^ 52 := by
    rw [div_le_iff₀ spos]
    calc stop ≤ 16 := by linarith
      _ = 2 ^ 52 * (1 / 2 ^ 48) := by norm_num
      _ ≤ _ := mul_le_mul_of_nonneg_left h0 (by norm_num)
  have hqe : |binary64 (stop / s) - stop / s| ≤ (stop / s) * 2 ^ (-53 : ℤ) := by
    have hq0 : (0 : ℝ) < stop / s := by linarith
    have hl := log_bounds hq0.ne'
    rw [abs_of_pos hq0] at hl
    set a := Int.log 2 (stop / s)
    have ha : -1 ≤ a := by
      have := le_log_of (x := stop / s) (a := 0) (by rw [abs_of_pos hq0]; norm_num; linarith)
      rw [abs_of_pos hq0] at this
      omega
    have := binary64_err (x := stop / s) (a := a) (by omega) (by rw [abs_of_pos hq0]; exact hl.2)
    refine this.trans ?_
    rw [sub_eq_add_neg, zpow_add₀ (by norm_num)]
    exact mul_le_mul_of_nonneg_right hl.1 (by positivity)
  rw [abs_le, z3] at hqe
  set q := binary64 (stop / s) with hqdef
  have hq3 : q ≤ 2 ^ 52 := by
    have := binary64_mono (by linarith) hq2
    have e : binary64 (2 ^ 52) = 2 ^ 52 := by have := binary64_nat (2 ^ 52) (by norm_num); norm_num at this ⊢; exact this
    rwa [e] at this
  have hq4 : 2 ≤ q := by
    have := binary64_mono (by norm_num) hq1
    have e : binary64 2 = 2 := by have := binary64_nat 2 (by norm_num); push_cast at this; exact this
    rwa [e] at this
  have hL0 : (2 : ℤ) ≤ ⌈q⌉ := by
    have : (1 : ℤ) < ⌈q⌉ := by rw [Int.lt_ceil]; push_cast; linarith
    omega
  have hLL : (L : ℤ) = ⌈q⌉ := by
    show ((⌈q⌉.toNat : ℕ) : ℤ) = _
    exact Int.toNat_of_nonneg (by omega)
  have hL2 : 2 ≤ L := by omega
  have hLq : q ≤ L := by
    have := Int.le_ceil q
    rw [← hLL] at this
    exact_mod_cast this
  have hLq' : (L : ℝ) < q + 1 := by
    have := Int.ceil_lt_add_one q
    rw [← hLL] at this
    exact_mod_cast this
  have hLb : L < 2 ^ 53 := by
    have : (L : ℝ) < 2 ^ 53 := by
      calc (L : ℝ) < q + 1 := hLq'
        _ ≤ 2 ^ 52 + 1 := by linarith
        _ ≤ _ := by norm_num
    exact_mod_cast this
  have hinner : ∀ i : ℕ, i + 1 < L → (i : ℝ) * s ≤ T + 2 ^ (-51 : ℤ) ∧ binary64 ((i : ℝ) * s) ≤ T := by
    intro i hi
    have c1 : ((i + 1 : ℕ) : ℝ) < q := by
      have : ((i + 1 : ℕ) : ℤ) < ⌈q⌉ := by omega
      rw [Int.lt_ceil] at this
      exact_mod_cast this
    have c2 : ((i + 1 : ℕ) : ℝ) < stop / s := by
      by_contra hc
      have := binary64_mono (by linarith) (not_lt.1 hc)
      rw [binary64_nat (i + 1) (by omega)] at this
      linarith
    rw [lt_div_iff₀ spos] at c2
    push_cast at c2
    have c3 : (i : ℝ) * s ≤ T + 2 ^ (-51 : ℤ) := by
      rcases le_or_gt s (17 / 10) with hsm | hsm
      · have := (abs_le.1 (hst' hsm)).2
        linarith
      · have c4 : (i : ℝ) * s < T + 1 / 2 ^ 50 := by linarith [hst.2]
        have hi3 : i ≤ 3 := by
          by_contra hc
          have : (4 : ℝ) ≤ i := by exact_mod_cast (not_le.1 hc)
          have := mul_le_mul_of_nonneg_right this spos.le
          norm_num at c4
          linarith
        have zp : (0 : ℝ) < 2 ^ (-51 : ℤ) := by positivity
        interval_cases i
        · norm_num; linarith
        · push_cast; linarith
        · push_cast; linarith
        · rcases lt_or_ge s 2 with h | h
          · push_cast; linarith
          · obtain ⟨k, hk⟩ := grid_two hs h (by linarith)
            rw [hTv, z50] at c4 ⊢
            rw [hk, z51] at c4 ⊢
            have c5 : (3 * k : ℝ) < 2 * 7074237752028440 + 2 := by push_cast at c4; linarith
            have c6 : 3 * k < 2 * 7074237752028440 + 2 := by exact_mod_cast c5
            have c7 : 3 * k ≤ 2 * 7074237752028440 + 1 := by omega
            have c8 : (3 * k : ℝ) ≤ 2 * 7074237752028440 + 1 := by exact_mod_cast c7
            push_cast
            linarith
    refine ⟨c3, ?_⟩
    have := binary64_mono (by positivity) c3
    rwa [htie] at this
  have hlast : T - 9 / 4 * 2 ^ (-50 : ℤ) ≤ ((L : ℝ) - 1) * s := by
    have c : stop * (1 - 1 / 2 ^ 53) ≤ L * s := by
      have : stop / s * (1 - 1 / 2 ^ 53) ≤ L := by linarith [hqe.1]
      calc stop * (1 - 1 / 2 ^ 53) = stop / s * (1 - 1 / 2 ^ 53) * s := by field_simp
        _ ≤ _ := mul_le_mul_of_nonneg_right this spos.le
    rw [z50]
    clear hTv z50 z51 z0 z3
    norm_num at *
    linarith
  have hlast2 : ((L : ℝ) - 1) * s < 16 := by
    have c : ((L : ℝ) - 1) * s ≤ q * s := mul_le_mul_of_nonneg_right (by linarith) spos.le
    have d : q * s ≤ stop * (1 + 1 / 2 ^ 53) := by
      have : q ≤ stop / s * (1 + 1 / 2 ^ 53) := by linarith [hqe.2]
      calc q * s ≤ stop / s * (1 + 1 / 2 ^ 53) * s := mul_le_mul_of_nonneg_right this spos.le
        _ = _ := by field_simp
    have e : stop * (1 + 1 / 2 ^ 53) ≤ 10 * (1 + 1 / 2 ^ 53) := mul_le_mul_of_nonneg_right hs2 (by norm_num)
    norm_num at e
    linarith
  refine ⟨?_, hL2, hinner, hlast, hlast2⟩
  have hl : npArangeFl doubles 0 stop s = (List.range L).map fun (i : ℕ) => binary64 ((i : ℝ) * s) := by
    unfold npArangeFl
    show List.map (fun (i : ℕ) => if i = 0 then 0 else if i = 1 then binary64 (0 + s) else
      binary64 (0 + binary64 ((i : ℝ) * binary64 (binary64 (0 + s) - 0)))) (List.range ⌈binary64 (binary64 (stop - 0) / s)⌉.toNat) = _
    have e : binary64 (stop - 0) = stop := by rw [sub_zero]; exact binary64_idem _
    rw [e]
    apply List.map_congr_left
    intro i _
    rw [zero_add, sub_zero, hs, hs]
    split_ifs with a b
    · subst a; simp [binary64_zero]
    · subst b; simp [hs]
    · rw [zero_add, binary64_idem]
  show clipLast T (npArangeFl doubles 0 stop s) = _
  rw [hl]
  obtain ⟨M, hM⟩ : ∃ M, L = M + 1 := ⟨L - 1, by omega⟩
  have hin : (List.range M).map (fun (i : ℕ) => min (binary64 ((i : ℝ) * s)) T) = (List.range M).map fun (i : ℕ) => binary64 ((i : ℝ) * s) := by
    apply List.map_congr_left
    intro i hi
    have := List.mem_range.1 hi
    exact min_eq_left (hinner i (by omega)).2
  unfold clipLast
  rw [hM, List.range_succ, List.map_append, List.map_append, hin]
  simp only [List.map_cons, List.map_nil, List.getLast?_append, List.getLast?_singleton, Option.some_or]
  congr 1
  split_ifs with hgt
  · rw [min_eq_right hgt.le]
    rw [List.length_append, List.length_map, List.length_range, List.length_singleton, Nat.add_sub_cancel,
      List.set_append_right _ _ (by simp)]
    simp
  · rw [min_eq_left (not_lt.1 hgt)]

/-- A list covers `[0, limit]` up to rounding: it starts at 0, stays in `[0, limit]`, does not decrease, neighbours are at most `step + e` apart,
the last number is in `[limit - d, limit]`, and all but the last two of the steps fit (there are not more numbers than needed). -/
structure NearlyCovers (l : List ℝ) (limit step e d : ℝ) : Prop where
  starts : l.head? = some 0
  inside : ∀ x ∈ l, 0 ≤ x ∧ x ≤ limit
  ordered : l.Pairwise (· ≤ ·)
  dense : ∀ i (h : i + 1 < l.length), l[i + 1] - l[i] ≤ step + e
  ends : ∃ x, l.getLast? = some x ∧ limit - d ≤ x
  economical : ((l.length : ℝ) - 2) * step ≤ limit + e

theorem radii_cover (s : ℝ) (hs : binary64 s = s) (h0 : 2 ^ (-50 : ℤ) ≤ s) (h1 : s ≤ 1 / 2) :
    ∃ rs, genRadiiFl doubles s = .ok rs ∧ NearlyCovers rs 1 s (2 ^ (-52 : ℤ)) (2 ^ (-51 : ℤ)) := by
  obtain ⟨rs, e, a, b, c, d, f⟩ := radii_double_partial s hs h0 h1
  refine ⟨rs, e, a, b, c, d, f, ?_⟩
  obtain ⟨e', hL2, hin, hlast, hLb, hlast2⟩ := radii_eq s hs h0 h1
  set L := ⌈binary64 (binary64 (1 + s) / s)⌉.toNat
  have : rs.length = L := by rw [Except.ok.inj (e.symm.trans e')]; simp
  rw [this]
  have hp : (0 : ℝ) < 2 ^ (-50 : ℤ) := by positivity
  have spos : 0 < s := lt_of_lt_of_le hp h0
  obtain ⟨M, hM⟩ : ∃ M, L = M + 2 := ⟨L - 2, by omega⟩
  have h := hin M (by omega)
  rw [hM] at hlast2 ⊢
  push_cast at hlast2 ⊢
  have hlt : (M : ℝ) * s < 2 := by linarith
  have := binary64_err (x := (M : ℝ) * s) (a := 0) (by norm_num) (by rw [abs_of_nonneg (by positivity)]; norm_num; linarith)
  rw [abs_le] at this
  have z : (2 : ℝ) ^ (-52 : ℤ) = 2 * 2 ^ (-53 : ℤ) := by norm_num
  have zp : (0 : ℝ) < 2 ^ (-53 : ℤ) := by positivity
  have z0 : ((0 : ℤ) - 53) = -53 := by norm_num
  rw [z0] at this
  rw [z]
  linarith [this.1]

theorem angles_cover (s : ℝ) (hs : binary64 s = s) (h0 : 2 ^ (-48 : ℤ) ≤ s) (h1 : s ≤ Real.pi) :
    ∃ ts, clipLast (twoPiFl doubles) (npArangeFl doubles 0 (doubles.fl (twoPiFl doubles + s)) s) = .ok ts ∧
      NearlyCovers ts (2 * Real.pi) s (2 ^ (-49 : ℤ)) (2 ^ (-48 : ℤ)) ∧ (∀ x ∈ ts, x ≤ twoPiFl doubles) := by
  obtain ⟨e, hL2, hin, hlast, hlast2⟩ := angles_eq s hs h0 h1
  generalize ⌈binary64 (binary64 (twoPiFl doubles + s) / s)⌉.toNat = L at *
  have hp : (0 : ℝ) < 2 ^ (-48 : ℤ) := by positivity
  have spos : 0 < s := lt_of_lt_of_le hp h0
  obtain ⟨hTlo, hThi⟩ := twoPi_near
  have hTpos : 0 ≤ twoPiFl doubles := by rw [twoPi_double]; positivity
  generalize twoPiFl doubles = T at *
  obtain ⟨M, hM⟩ : ∃ M, L = M + 1 := ⟨L - 1, by omega⟩
  have hMs : (M : ℝ) * s < 16 := by rw [hM] at hlast2; push_cast at hlast2; linarith
  have z49 : (2 : ℝ) ^ (-49 : ℤ) = 4 * 2 ^ (-51 : ℤ) := by norm_num
  have z50 : (2 : ℝ) ^ (-50 : ℤ) = 2 * 2 ^ (-51 : ℤ) := by norm_num
  have z48 : (2 : ℝ) ^ (-48 : ℤ) = 8 * 2 ^ (-51 : ℤ) := by norm_num
  have zp : (0 : ℝ) < 2 ^ (-51 : ℤ) := by positivity
  have herr : ∀ i : ℕ, i ≤ M → |binary64 ((i : ℝ) * s) - (i : ℝ) * s| ≤ 2 ^ (-50 : ℤ) := by
    intro i hi
    apply binary64_err (a := 3) (by norm_num)
    rw [abs_of_nonneg (by positivity)]
    have : (i : ℝ) * s ≤ M * s := mul_le_mul_of_nonneg_right (by exact_mod_cast hi) spos.le
    norm_num
    linarith
  refine ⟨_, e, ⟨?_, ?_, ?_, ?_, ⟨min (binary64 ((M : ℝ) * s)) T, ?_, ?_⟩, ?_⟩, ?_⟩
  · rw [hM, List.range_succ_eq_map]; simp [binary64_zero, hTpos]
  · intro x hx
    obtain ⟨i, _, rfl⟩ := List.mem_map.1 hx
    exact ⟨le_min (binary64_nonneg (by positivity)) hTpos, (min_le_right _ _).trans hTlo⟩
  · rw [List.pairwise_iff_getElem]
    intro i j hi hj hij
    simp only [List.getElem_map, List.getElem_range]
    apply min_le_min_right
    apply binary64_mono (by positivity)
    exact mul_le_mul_of_nonneg_right (by exact_mod_cast hij.le) spos.le
  · intro i h
    simp only [List.length_map, List.length_range] at h
    simp only [List.getElem_map, List.getElem_range]
    rw [min_eq_left (hin i h).2]
    have a := (abs_le.1 (herr i (by omega))).1
    have b := (abs_le.1 (herr (i + 1) (by omega))).2
    have c := min_le_left (binary64 (((i + 1 : ℕ) : ℝ) * s)) T
    rw [z49]
    rw [z50] at a b
    push_cast at a b c ⊢
    linarith
  · rw [hM, List.range_succ]; simp
  · apply le_min
    · have a := (abs_le.1 (herr M le_rfl)).1
      rw [hM] at hlast
      push_cast at hlast
      rw [add_sub_cancel_right] at hlast
      rw [z48]
      rw [z50] at a hlast
      generalize (2 : ℝ) ^ (-51 : ℤ) = t at *
      linarith
    · rw [z48]; linarith
  · rw [List.length_map, List.length_range]
    obtain ⟨K, hK⟩ : ∃ K, L = K + 2 := ⟨L - 2, by omega⟩
    have := (hin K (by omega)).1
    rw [hK, z49]
    push_cast
    linarith
  · intro x hx
    obtain ⟨i, _, rfl⟩ := List.mem_map.1 hx
    exact min_le_right _ _

theorem gen_polar_fl_eq (F : FloatArith) (a b : ℝ) (ha : 0 < a) (hb : 0 < b) : genPolarCoordinatesFl F a b = (do
    let rs ← genRadiiFl F a
    let ts ← clipLast (twoPiFl F) (npArangeFl F 0 (F.fl (twoPiFl F + b)) b)
    pure (rs, ts)) := by
  unfold genPolarCoordinatesFl
  rw [if_neg (by intro h; linarith [h.1]), if_neg (by intro h; linarith [h.1]), if_neg ha.ne', if_neg hb.ne']
  rfl

/-- C95. For every pair of documented steps (numbers of the double precision, not below 2^-50 and 2^-48), the computed radii cover `[0, 1]` and the
computed angles cover `[0, 2π]` up to rounding: nothing falls outside, the order is kept, no gap exceeds the step by more than 2^-49, and the last
values are at most 2^-51 below 1 and 2^-48 below 2π. -/
theorem gen_polar_double (a b : ℝ) (ha : binary64 a = a) (hb : binary64 b = b) (a0 : 2 ^ (-50 : ℤ) ≤ a) (a1 : a ≤ 1 / 2) (b0 : 2 ^ (-48 : ℤ) ≤ b)
    (b1 : b ≤ Real.pi) :
    ∃ rs ts, genPolarCoordinatesFl doubles a b = .ok (rs, ts) ∧ NearlyCovers rs 1 a (2 ^ (-52 : ℤ)) (2 ^ (-51 : ℤ)) ∧
      NearlyCovers ts (2 * Real.pi) b (2 ^ (-49 : ℤ)) (2 ^ (-48 : ℤ)) := by
  obtain ⟨rs, h1, h2⟩ := radii_cover a ha a0 a1
  obtain ⟨ts, h3, h4, -⟩ := angles_cover b hb b0 b1
  refine ⟨rs, ts, ?_, h2, h4⟩
  rw [gen_polar_fl_eq _ _ _ (lt_of_lt_of_le (by positivity) a0) (lt_of_lt_of_le (by positivity) b0), h1, h3]
  rfl

/-- The documented steps are there: the default ones are numbers of the double precision in the ranges. -/
example : ∃ a b : ℝ, binary64 a = a ∧ binary64 b = b ∧ 2 ^ (-50 : ℤ) ≤ a ∧ a ≤ 1 / 2 ∧ 2 ^ (-48 : ℤ) ≤ b ∧ b ≤ Real.pi := by
  have := Real.pi_gt_three
  refine ⟨1 / 4, 1, ?_, by simpa using binary64_nat 1 (by norm_num), by norm_num, by norm_num, by norm_num, by linarith⟩
  have := binary64_exact 1 (-2) (by norm_num) (by norm_num)
  norm_num at this ⊢
  exact this

/-- What covering up to rounding gives: below every number of the interval there is a number of the list, at most one step (and the roundings) away. -/
theorem NearlyCovers.near {l : List ℝ} {limit step e d : ℝ} (h : NearlyCovers l limit step e d) (hs : 0 ≤ step) (he : 0 ≤ e) (hd : 0 ≤ d) {x : ℝ}
    (h0 : 0 ≤ x) (h1 : x ≤ limit) : ∃ y ∈ l, y ≤ x ∧ x - y ≤ step + e + d := by
  have hne : l ≠ [] := by rintro rfl; have := h.starts; simp at this
  have hlen : 0 < l.length := List.length_pos_iff.2 hne
  have key : ∀ n : ℕ, (hn : n < l.length) → l[n] ≤ x ∨ ∃ y ∈ l, y ≤ x ∧ x - y ≤ step + e + d := by
    intro n
    induction n with
    | zero =>
      intro hn
      left
      have := h.starts
      rw [List.head?_eq_getElem?, List.getElem?_eq_getElem hn] at this
      rw [Option.some.inj this]; exact h0
    | succ k ih =>
      intro hn
      rcases ih (by omega) with hk | hk
      · by_cases hc : l[k + 1] ≤ x
        · exact Or.inl hc
        · right
          refine ⟨l[k], List.getElem_mem _, hk, ?_⟩
          have := h.dense k hn
          linarith
      · exact Or.inr hk
  rcases key (l.length - 1) (by omega) with hl | hl
  · obtain ⟨z, hz, hz2⟩ := h.ends
    rw [List.getLast?_eq_getElem?, List.getElem?_eq_getElem (by omega)] at hz
    have := Option.some.inj hz
    exact ⟨l[l.length - 1], List.getElem_mem _, hl, by rw [this]; linarith⟩
  · exact hl

/-- C95: no sector of the disk is missed. For every point (ρ, φ) of the unit disk there is a point of the grid with a radius and an angle at most one
step (and 2^-47) below. -/
theorem gen_polar_double_near (a b : ℝ) (ha : binary64 a = a) (hb : binary64 b = b) (a0 : 2 ^ (-50 : ℤ) ≤ a) (a1 : a ≤ 1 / 2) (b0 : 2 ^ (-48 : ℤ) ≤ b)
    (b1 : b ≤ Real.pi) (ρ φ : ℝ) (r0 : 0 ≤ ρ) (r1 : ρ ≤ 1) (f0 : 0 ≤ φ) (f1 : φ ≤ 2 * Real.pi) :
    ∃ rs ts, genPolarCoordinatesFl doubles a b = .ok (rs, ts) ∧ (∃ r ∈ rs, r ≤ ρ ∧ ρ - r ≤ a + 2 ^ (-47 : ℤ)) ∧
      ∃ t ∈ ts, t ≤ φ ∧ φ - t ≤ b + 2 ^ (-47 : ℤ) := by
  obtain ⟨rs, ts, h1, h2, h3⟩ := gen_polar_double a b ha hb a0 a1 b0 b1
  have ap : 0 ≤ a := le_trans (by positivity) a0
  have bp : 0 ≤ b := le_trans (by positivity) b0
  obtain ⟨r, hr, hr1, hr2⟩ := h2.near ap (by positivity) (by positivity) r0 r1
  obtain ⟨t, ht, ht1, ht2⟩ := h3.near bp (by positivity) (by positivity) f0 f1
  refine ⟨rs, ts, h1, ⟨r, hr, hr1, ?_⟩, t, ht, ht1, ?_⟩
  · norm_num at *; linarith
  · norm_num at *; linarith

/-- C95: the default call. 101 radii that end at exactly 1, 481 angles that end at exactly `2*np.pi` (the nearest number to 2π), so that the default
surfaces have 101 rows and 481 columns. `binary64 (1/100)`, `binary64 defaultThetaStep` are the literals `0.01` and `0.01309`. -/
theorem gen_polar_default : ∃ rs ts, genPolarCoordinatesFl doubles (binary64 (1 / 100)) (binary64 (1309 / 100000)) = .ok (rs, ts) ∧
    rs.length = 101 ∧ rs.getLast? = some 1 ∧ ts.length = 481 ∧ ts.getLast? = some (binary64 (2 * Real.pi)) := by
  have hr : binary64 (1 / 100) = 5764607523034235 * 2 ^ (-59 : ℤ) := by
    rw [binary64_eq (-7) 5764607523034235 (by norm_num) (by norm_num) (by norm_num) (by norm_num [abs_lt])]
    norm_num
  have hr1 : binary64 (1 + 5764607523034235 * 2 ^ (-59 : ℤ)) = 4548635623644201 * 2 ^ (-52 : ℤ) := by
    rw [binary64_eq 0 4548635623644201 (by norm_num) (by norm_num) (by norm_num) (by norm_num [abs_lt])]
    norm_num
  have hrq : binary64 (4548635623644201 * 2 ^ (-52 : ℤ) / (5764607523034235 * 2 ^ (-59 : ℤ))) = 7107243161944064 * 2 ^ (-46 : ℤ) := by
    rw [binary64_eq 6 7107243161944064 (by norm_num) (by norm_num) (by norm_num) (by norm_num [abs_lt])]
    norm_num
  have hrc : ⌈(7107243161944064 * 2 ^ (-46 : ℤ) : ℝ)⌉ = 101 := by rw [Int.ceil_eq_iff]; norm_num
  have h100 : binary64 ((100 : ℕ) * (5764607523034235 * 2 ^ (-59 : ℤ))) = 1 := by
    rw [binary64_eq 0 (2 ^ 52) (by norm_num) (by norm_num) (by norm_num) (by norm_num [abs_lt])]
    norm_num
  have hs : binary64 (1309 / 100000) = 7545871247651813 * 2 ^ (-59 : ℤ) := by
    rw [binary64_eq (-7) 7545871247651813 (by norm_num) (by norm_num) (by norm_num) (by norm_num [abs_lt])]
    norm_num
  have hs1 : binary64 (twoPiFl doubles + 7545871247651813 * 2 ^ (-59 : ℤ)) = 7088975781809010 * 2 ^ (-50 : ℤ) := by
    rw [twoPi_double]
    rw [binary64_eq 2 7088975781809010 (by norm_num) (by norm_num) (by norm_num) (by norm_num [abs_lt])]
    norm_num
  have hsq : binary64 (7088975781809010 * 2 ^ (-50 : ℤ) / (7545871247651813 * 2 ^ (-59 : ℤ))) = 8461821741082184 * 2 ^ (-44 : ℤ) := by
    rw [binary64_eq 8 8461821741082184 (by norm_num) (by norm_num) (by norm_num) (by norm_num [abs_lt])]
    norm_num
  have hsc : ⌈(8461821741082184 * 2 ^ (-44 : ℤ) : ℝ)⌉ = 481 := by rw [Int.ceil_eq_iff]; norm_num
  have h480 : twoPiFl doubles ≤ binary64 ((480 : ℕ) * (7545871247651813 * 2 ^ (-59 : ℤ))) := by
    rw [binary64_eq 2 7074254294673575 (by norm_num) (by norm_num) (by norm_num) (by norm_num [abs_lt]), twoPi_double]
    norm_num
  have hT := twoPi_nearest
  have hpi := Real.pi_gt_three
  obtain ⟨e, -⟩ := radii_eq (binary64 (1 / 100)) (binary64_idem _) (by rw [hr]; norm_num) (by rw [hr]; norm_num)
  obtain ⟨f, -⟩ := angles_eq (binary64 (1309 / 100000)) (binary64_idem _) (by rw [hs]; norm_num) (by rw [hs]; norm_num; linarith)
  simp only [hr, hr1, hrq, hrc] at e
  simp only [hs, hs1, hsq, hsc] at f
  rw [gen_polar_fl_eq _ _ _ (by rw [hr]; positivity) (by rw [hs]; positivity), hr, hs, e, f]
  refine ⟨_, _, rfl, by simp, ?_, by simp, ?_⟩
  · rw [List.getLast?_eq_getElem?, List.getElem?_map, List.length_map, List.length_range,
      show (List.range (101 : ℤ).toNat)[(101 : ℤ).toNat - 1]? = some 100 by decide, Option.map_some, h100, min_self]
  · rw [List.getLast?_eq_getElem?, List.getElem?_map, List.length_map, List.length_range,
      show (481 : ℤ).toNat = 481 from rfl, List.getElem?_range (by norm_num), Option.map_some, min_eq_right h480, hT]

/-- The angles do not always end at `2*np.pi`: for the step `2*np.pi/150` the last angle is the number before it. -/
theorem angles_end_below : ∃ ts, clipLast (twoPiFl doubles) (npArangeFl doubles 0 (doubles.fl (twoPiFl doubles + binary64 (twoPiFl doubles / 150)))
    (binary64 (twoPiFl doubles / 150))) = .ok ts ∧ ts.getLast? = some (twoPiFl doubles - 2 ^ (-50 : ℤ)) := by
  have hs : binary64 (twoPiFl doubles / 150) = 6036682881730935 * 2 ^ (-57 : ℤ) := by
    rw [twoPi_double]
    rw [binary64_eq (-5) 6036682881730935 (by norm_num) (by norm_num) (by norm_num) (by norm_num [abs_lt])]
    norm_num
  have hs1 : binary64 (twoPiFl doubles + 6036682881730935 * 2 ^ (-57 : ℤ)) = 7121399337041963 * 2 ^ (-50 : ℤ) := by
    rw [twoPi_double]
    rw [binary64_eq 2 7121399337041963 (by norm_num) (by norm_num) (by norm_num) (by norm_num [abs_lt])]
    norm_num
  have hsq : binary64 (7121399337041963 * 2 ^ (-50 : ℤ) / (6036682881730935 * 2 ^ (-57 : ℤ))) = 5312840185413632 * 2 ^ (-45 : ℤ) := by
    rw [binary64_eq 7 5312840185413632 (by norm_num) (by norm_num) (by norm_num) (by norm_num [abs_lt])]
    norm_num
  have hsc : ⌈(5312840185413632 * 2 ^ (-45 : ℤ) : ℝ)⌉ = 151 := by rw [Int.ceil_eq_iff]; norm_num
  have h150 : binary64 ((150 : ℕ) * (6036682881730935 * 2 ^ (-57 : ℤ))) = twoPiFl doubles - 2 ^ (-50 : ℤ) := by
    rw [binary64_eq 2 7074237752028439 (by norm_num) (by norm_num) (by norm_num) (by norm_num [abs_lt]), twoPi_double]
    norm_num
  have hpi := Real.pi_gt_three
  obtain ⟨f, -⟩ := angles_eq (binary64 (twoPiFl doubles / 150)) (binary64_idem _) (by rw [hs]; norm_num) (by rw [hs]; norm_num; linarith)
  simp only [hs, hs1, hsq, hsc] at f
  rw [hs, f]
  refine ⟨_, rfl, ?_⟩
  have zp : (0 : ℝ) < 2 ^ (-50 : ℤ) := by positivity
  rw [List.getLast?_eq_getElem?, List.getElem?_map, List.length_map, List.length_range,
    show (151 : ℤ).toNat = 151 from rfl, List.getElem?_range (by norm_num), Option.map_some, h150, min_eq_left (by linarith)]

/-- Neither are the angles always different: for the step `2*np.pi/12` there are 14, and the last two are both `2*np.pi`. -/
theorem angles_repeat : ∃ ts, clipLast (twoPiFl doubles) (npArangeFl doubles 0 (doubles.fl (twoPiFl doubles + binary64 (twoPiFl doubles / 12)))
    (binary64 (twoPiFl doubles / 12))) = .ok ts ∧ ts.length = 14 ∧ ts[12]? = some (twoPiFl doubles) ∧ ts[13]? = some (twoPiFl doubles) := by
  have hs : binary64 (twoPiFl doubles / 12) = 4716158501352293 * 2 ^ (-53 : ℤ) := by
    rw [twoPi_double]
    rw [binary64_eq (-1) 4716158501352293 (by norm_num) (by norm_num) (by norm_num) (by norm_num [abs_lt])]
    norm_num
  have hs1 : binary64 (twoPiFl doubles + 4716158501352293 * 2 ^ (-53 : ℤ)) = 7663757564697477 * 2 ^ (-50 : ℤ) := by
    rw [twoPi_double]
    rw [binary64_eq 2 7663757564697477 (by norm_num) (by norm_num) (by norm_num) (by norm_num [abs_lt])]
    norm_num
  have hsq : binary64 (7663757564697477 * 2 ^ (-50 : ℤ) / (4716158501352293 * 2 ^ (-53 : ℤ))) = 7318349394477057 * 2 ^ (-49 : ℤ) := by
    rw [binary64_eq 3 7318349394477057 (by norm_num) (by norm_num) (by norm_num) (by norm_num [abs_lt])]
    norm_num
  have hsc : ⌈(7318349394477057 * 2 ^ (-49 : ℤ) : ℝ)⌉ = 14 := by rw [Int.ceil_eq_iff]; norm_num
  have h13 : twoPiFl doubles ≤ binary64 ((13 : ℕ) * (4716158501352293 * 2 ^ (-53 : ℤ))) := by
    rw [← show binary64 (twoPiFl doubles) = twoPiFl doubles from binary64_idem _]
    refine binary64_mono (by rw [twoPi_double]; positivity) ?_
    rw [twoPi_double]; norm_num
  have h12 : binary64 ((12 : ℕ) * (4716158501352293 * 2 ^ (-53 : ℤ))) = twoPiFl doubles := by
    have ex : (((12 : ℕ) : ℝ) * (4716158501352293 * 2 ^ (-53 : ℤ))) = 7074237752028439.5 * 2 ^ (-50 : ℤ) := by norm_num
    have hx : (7074237752028439.5 * 2 ^ (-50 : ℤ) : ℝ) ≠ 0 := by norm_num
    rw [ex, binary64_ne hx]
    have hl : lastBit (7074237752028439.5 * 2 ^ (-50 : ℤ)) = -50 := by
      have l1 := log_lt_of (x := 7074237752028439.5 * 2 ^ (-50 : ℤ)) (a := 3) hx (by norm_num [abs_of_pos])
      have l2 := le_log_of (x := 7074237752028439.5 * 2 ^ (-50 : ℤ)) (a := 2) (by norm_num [abs_of_pos])
      unfold lastBit; omega
    rw [hl, mul_div_assoc, div_self (by positivity), mul_one, twoPi_double]
    have : rint (7074237752028439.5 : ℝ) = 7074237752028440 := by
      have hfl : ⌊(7074237752028439.5 : ℝ)⌋ = 7074237752028439 := by rw [Int.floor_eq_iff]; norm_num
      unfold rint
      rw [hfl]
      norm_num
    rw [this]
    norm_num
  have hpi := Real.pi_gt_three
  obtain ⟨f, -⟩ := angles_eq (binary64 (twoPiFl doubles / 12)) (binary64_idem _) (by rw [hs]; norm_num) (by rw [hs]; norm_num; linarith)
  simp only [hs, hs1, hsq, hsc] at f
  rw [hs, f]
  refine ⟨_, rfl, by simp, ?_, ?_⟩
  · rw [List.getElem?_map, show (List.range (14 : ℤ).toNat)[12]? = some 12 by decide, Option.map_some, h12, min_self]
  · rw [List.getElem?_map, show (List.range (14 : ℤ).toNat)[13]? = some 13 by decide, Option.map_some, min_eq_right h13]

end Verif.Props
