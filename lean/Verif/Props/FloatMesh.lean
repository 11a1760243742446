import Verif.Props.FloatAngles

/-!
# C96: gen_equal_polar_mesh in double precision
-/

namespace Verif.Props
open Verif.Model Verif.Spec Verif.Proofs

/-- The relative error of a rounding. -/
theorem binary64_relative {x : ℝ} (h : 2 ^ (-1022 : ℤ) ≤ x) : |binary64 x - x| ≤ x * 2 ^ (-53 : ℤ) := by
  have h0 : 0 < x := lt_of_lt_of_le (by positivity) h
  have hl := log_bounds h0.ne'
  have ha := le_log_of (x := x) (a := -1022) (by rwa [abs_of_pos h0])
  rw [abs_of_pos h0] at hl ha
  have := binary64_err (x := x) (a := Int.log 2 x) ha (by rw [abs_of_pos h0]; exact hl.2)
  refine this.trans ?_
  rw [sub_eq_add_neg, zpow_add₀ (by norm_num)]
  exact mul_le_mul_of_nonneg_right hl.1 (by positivity)

/-- The products of `linspace` and their errors. -/
theorem linspace_point (S : ℝ) (h1 : 1 ≤ S) (d : ℕ) (d1 : 1 ≤ d) (d2 : d ≤ 2 ^ 48) (i : ℕ) (hi : i ≤ d) :
    |binary64 ((i : ℝ) * binary64 (S / d)) - i * (S / d)| ≤ S * (3 * 2 ^ (-53 : ℤ)) := by
  have hd : (1 : ℝ) ≤ d := by exact_mod_cast d1
  have hd2 : (d : ℝ) ≤ 2 ^ 48 := by exact_mod_cast d2
  have hd0 : (0 : ℝ) < d := by linarith
  rcases Nat.eq_zero_or_pos i with rfl | hi0
  · rw [Nat.cast_zero, zero_mul, zero_mul, binary64_zero, sub_zero, abs_zero]; positivity
  have hi1 : (1 : ℝ) ≤ i := by exact_mod_cast hi0
  have hid : (i : ℝ) ≤ d := by exact_mod_cast hi
  have big : (2 : ℝ) ^ (-1022 : ℤ) ≤ 2 ^ (-49 : ℤ) := zpow_le_zpow_right₀ (by norm_num) (by norm_num)
  have x1 : (2 : ℝ) ^ (-48 : ℤ) ≤ S / d := by
    rw [le_div_iff₀ hd0, zpow_neg]
    calc ((2 : ℝ) ^ (48 : ℤ))⁻¹ * d ≤ ((2 : ℝ) ^ (48 : ℤ))⁻¹ * 2 ^ 48 := mul_le_mul_of_nonneg_left hd2 (by positivity)
      _ = 1 := by norm_num
      _ ≤ S := h1
  have z : (2 : ℝ) ^ (-48 : ℤ) = 2 * 2 ^ (-49 : ℤ) := by norm_num
  have zp : (0 : ℝ) < 2 ^ (-49 : ℤ) := by positivity
  obtain ⟨x, hx⟩ : ∃ x, x = S / d := ⟨_, rfl⟩
  have hxd : x * d = S := by rw [hx]; field_simp
  rw [← hx] at x1 ⊢
  have e1 := binary64_relative (x := x) (by linarith)
  obtain ⟨h, hh⟩ : ∃ h, h = binary64 x := ⟨_, rfl⟩
  rw [← hh] at e1 ⊢
  have xpos : 0 < x := by linarith
  have u : (2 : ℝ) ^ (-53 : ℤ) ≤ 1 / 4 := by norm_num
  have up : (0 : ℝ) < 2 ^ (-53 : ℤ) := by positivity
  rw [abs_le] at e1
  have xt : x * 2 ^ (-53 : ℤ) ≤ x * (1 / 4) := mul_le_mul_of_nonneg_left u xpos.le
  have hlo : x / 2 ≤ h := by clear big z zp x1; have := e1.1; generalize x * 2 ^ (-53 : ℤ) = w at *; linarith
  have hhi : h ≤ x + x * 2 ^ (-53 : ℤ) := by linarith [e1.2]
  have hpos : 0 < h := by linarith
  have e2 := binary64_relative (x := (i : ℝ) * h) (by
    have : h ≤ i * h := le_mul_of_one_le_left (by linarith) hi1
    linarith)
  have a1 : |(i : ℝ) * h - i * x| ≤ S * 2 ^ (-53 : ℤ) := by
    rw [← mul_sub, abs_mul, abs_of_pos (by linarith)]
    calc (i : ℝ) * |h - x| ≤ d * (x * 2 ^ (-53 : ℤ)) := mul_le_mul hid (abs_le.2 e1) (abs_nonneg _) hd0.le
      _ = _ := by rw [← hxd]; ring
  have a2 : (i : ℝ) * h * 2 ^ (-53 : ℤ) ≤ S * (2 * 2 ^ (-53 : ℤ)) := by
    have : (i : ℝ) * h ≤ d * (2 * x) := mul_le_mul hid (by clear big z zp x1; generalize x * 2 ^ (-53 : ℤ) = w at *; linarith) hpos.le hd0.le
    have e : (d : ℝ) * (2 * x) = 2 * S := by rw [← hxd]; ring
    rw [e] at this
    have := mul_le_mul_of_nonneg_right this up.le
    linarith
  calc |binary64 ((i : ℝ) * h) - i * x| ≤ |binary64 ((i : ℝ) * h) - i * h| + |(i : ℝ) * h - i * x| := abs_sub_le _ _ _
    _ ≤ S * (2 * 2 ^ (-53 : ℤ)) + S * 2 ^ (-53 : ℤ) := add_le_add (e2.trans a2) a1
    _ = _ := by ring

/-- `linspace` in double precision keeps what it promises: `d + 1` numbers that start at 0, end at exactly `S`, increase strictly, and are equidistant
up to rounding. -/
theorem linspace_double (S : ℝ) (h1 : 1 ≤ S) (h8 : S ≤ 8) (d : ℕ) (d1 : 1 ≤ d) (d2 : d ≤ 2 ^ 48) :
    (npLinspaceFl doubles S (d + 1)).length = d + 1 ∧ Covers (npLinspaceFl doubles S (d + 1)) S (S / d + 2 ^ (-47 : ℤ)) ∧
      ∀ i (h : i < (npLinspaceFl doubles S (d + 1)).length), |(npLinspaceFl doubles S (d + 1))[i] - i * (S / d)| ≤ 2 ^ (-48 : ℤ) := by
  have hd : (1 : ℝ) ≤ d := by exact_mod_cast d1
  have hd2 : (d : ℝ) ≤ 2 ^ 48 := by exact_mod_cast d2
  have hd0 : (0 : ℝ) < d := by linarith
  have hl : npLinspaceFl doubles S (d + 1) = (List.range (d + 1)).map fun (i : ℕ) => if i = d then S else binary64 ((i : ℝ) * binary64 (S / d)) := by
    unfold npLinspaceFl
    apply List.ext_getElem (by simp)
    intro i ha hb
    rw [List.getElem_set, List.getElem_map, List.getElem_map, List.getElem_range]
    have e : (((d + 1 : ℕ) : ℝ) - 1) = d := by push_cast; ring
    by_cases hc : i = d
    · rw [if_pos (by omega), if_pos hc]
    · rw [if_neg (by omega), if_neg hc, e]
      show binary64 (binary64 _ + 0) = _
      rw [add_zero, binary64_idem]
      rfl
  have herr : ∀ i : ℕ, i ≤ d → |(if i = d then S else binary64 ((i : ℝ) * binary64 (S / d))) - i * (S / d)| ≤ S * (3 * 2 ^ (-53 : ℤ)) := by
    intro i hi
    split_ifs with hc
    · rw [hc, mul_div_cancel₀ _ hd0.ne', sub_self, abs_zero]; positivity
    · exact linspace_point S h1 d d1 d2 i hi
  have hstep : S * 2 ^ (-48 : ℤ) ≤ S / d := by
    rw [div_eq_mul_inv]
    refine mul_le_mul_of_nonneg_left ?_ (by linarith)
    rw [zpow_neg]
    exact inv_anti₀ hd0 (by exact_mod_cast hd2)
  have z48 : (2 : ℝ) ^ (-48 : ℤ) = 32 * 2 ^ (-53 : ℤ) := by norm_num
  have z47 : (2 : ℝ) ^ (-47 : ℤ) = 64 * 2 ^ (-53 : ℤ) := by norm_num
  have up : (0 : ℝ) < 2 ^ (-53 : ℤ) := by positivity
  have hSu : S * 2 ^ (-53 : ℤ) ≤ 8 * 2 ^ (-53 : ℤ) := mul_le_mul_of_nonneg_right h8 up.le
  have hSp : 0 < S * 2 ^ (-53 : ℤ) := by positivity
  rw [hl]
  refine ⟨by simp, ⟨?_, ?_, ?_, ?_⟩, ?_⟩
  · rw [List.range_succ_eq_map]
    simp [binary64_zero, (show ¬ 0 = d by omega)]
  · rw [List.range_succ]; simp
  · have step : ∀ i, (h : i + 1 < d + 1) → (if i = d then S else binary64 ((i : ℝ) * binary64 (S / d))) <
        (if i + 1 = d then S else binary64 (((i + 1 : ℕ) : ℝ) * binary64 (S / d))) := by
      intro i h
      have a := (abs_le.1 (herr i (by omega))).2
      have b := (abs_le.1 (herr (i + 1) (by omega))).1
      push_cast at a b ⊢
      rw [z48] at hstep
      generalize (2 : ℝ) ^ (-53 : ℤ) = t at *
      nlinarith
    rw [← List.isChain_iff_pairwise, List.isChain_iff_getElem]
    intro i h
    simp only [List.length_map, List.length_range] at h
    simp only [List.getElem_map, List.getElem_range]
    exact step i h
  · intro i h
    simp only [List.length_map, List.length_range] at h
    simp only [List.getElem_map, List.getElem_range]
    have a := (abs_le.1 (herr i (by omega))).1
    have b := (abs_le.1 (herr (i + 1) (by omega))).2
    rw [z47]
    push_cast at a b ⊢
    generalize (2 : ℝ) ^ (-53 : ℤ) = t at *
    nlinarith
  · intro i h
    simp only [List.length_map, List.length_range] at h
    simp only [List.getElem_map, List.getElem_range]
    refine (herr i (by omega)).trans ?_
    rw [z48]
    linarith

/-- C96. For every number of points up to 2^48 the computed mesh has `max(n, 4)` radii and as many angles; both start at 0, increase strictly and end at
exactly 1 and exactly `2*np.pi`; the steps differ from `1/(n-1)` and `2*np.pi/(n-1)` by at most 2^-47, and no value differs from the exact one by more
than 2^-48. -/
theorem gen_equal_mesh_double (n : Int) (hn : n ≤ 2 ^ 48) :
    let N := (max n 4).toNat
    let g := genEqualPolarMeshFl doubles n
    let T := twoPiFl doubles
    (g.1.length = N ∧ Covers g.1 1 (1 / ((N : ℝ) - 1) + 2 ^ (-47 : ℤ)) ∧
      ∀ i (h : i < g.1.length), |g.1[i] - i * (1 / ((N : ℝ) - 1))| ≤ 2 ^ (-48 : ℤ)) ∧
    g.2.length = N ∧ Covers g.2 T (T / ((N : ℝ) - 1) + 2 ^ (-47 : ℤ)) ∧
      ∀ i (h : i < g.2.length), |g.2[i] - i * (T / ((N : ℝ) - 1))| ≤ 2 ^ (-48 : ℤ) := by
  intro N g T
  obtain ⟨d, hd⟩ : ∃ d : ℕ, N = d + 1 := ⟨(max n 4).toNat - 1, by omega⟩
  have hN : (if n < 4 then 4 else n).toNat = d + 1 := by
    rw [← hd]; show _ = (max n 4).toNat; congr 1; split_ifs <;> omega
  have e : ((N : ℝ) - 1) = d := by rw [hd]; push_cast; ring
  have g1 : g.1 = npLinspaceFl doubles 1 (d + 1) := by show npLinspaceFl doubles 1 (if n < 4 then 4 else n).toNat = _; rw [hN]
  have g2 : g.2 = npLinspaceFl doubles T (d + 1) := by show npLinspaceFl doubles T (if n < 4 then 4 else n).toNat = _; rw [hN]
  have d1 : 1 ≤ d := by omega
  have d2 : d ≤ 2 ^ 48 := by omega
  have hT : (1 : ℝ) ≤ T ∧ T ≤ 8 := by
    show 1 ≤ twoPiFl doubles ∧ twoPiFl doubles ≤ 8
    rw [twoPi_double]; norm_num
  rw [e, hd, g1, g2]
  exact ⟨linspace_double 1 le_rfl (by norm_num) d d1 d2, linspace_double T hT.1 hT.2 d d1 d2⟩

/-- The default number of points is in the range. -/
example : (250 : Int) ≤ 2 ^ 48 := by norm_num

/-- C96: all points of the computed mesh are on the unit disk, the angles in `[0, 2π]`, and the first and last angle are 0 and the number nearest to 2π. -/
theorem gen_equal_mesh_double_on_disk (n : Int) (hn : n ≤ 2 ^ 48) :
    (∀ x ∈ (genEqualPolarMeshFl doubles n).1, 0 ≤ x ∧ x ≤ 1) ∧ (∀ y ∈ (genEqualPolarMeshFl doubles n).2, 0 ≤ y ∧ y ≤ 2 * Real.pi) ∧
      (genEqualPolarMeshFl doubles n).2.getLast? = some (binary64 (2 * Real.pi)) := by
  obtain ⟨⟨-, a, -⟩, -, b, -⟩ := gen_equal_mesh_double n hn
  refine ⟨a.mem.2, fun y hy => ⟨(b.mem.2 y hy).1, (b.mem.2 y hy).2.trans twoPi_near.1⟩, ?_⟩
  rw [b.ends, twoPi_nearest]

end Verif.Props
