import Verif.Proofs.NodeRule
import Verif.Props.Sums

/-!
# C68: the radial integration nodes in double precision
-/

namespace Verif.Props
open Verif.Model Verif.Spec Verif.Proofs

/-- C68 (partial: the number of nodes may be one too many, see `radial_nodes_extra`). In double precision the integration over the radius with `n`
points uses `n - 1` or `n` inner nodes; the i-th is within 2^-51 of `i/n`, all are on the pupil (so that no node is rejected) and they increase. -/
theorem radial_nodes_partial (n : ℕ) (h2 : 2 ≤ n) (hn : n < 2 ^ 50) :
    ((radialNodes doubles n).length = n - 1 ∨ (radialNodes doubles n).length = n) ∧
    (∀ i (hi : i < (radialNodes doubles n).length), 0 < (radialNodes doubles n)[i] ∧ (radialNodes doubles n)[i] ≤ 1 ∧
      |(radialNodes doubles n)[i] - ((i : ℝ) + 1) / n| ≤ 2 ^ (-51 : ℤ)) ∧
    (radialNodes doubles n).Pairwise (· < ·) := by
  refine ⟨node_count n h2 hn, node_mem n h2 hn, ?_⟩
  rw [List.pairwise_iff_getElem]
  intro i j hi hj hij
  have a := (abs_le.1 (node_mem n h2 hn i hi).2.2).2
  have b := (abs_le.1 (node_mem n h2 hn j hj).2.2).1
  have h0 : (0 : ℝ) < n := by positivity
  have hn' : (n : ℝ) < 2 ^ 50 := by exact_mod_cast hn
  have c : ((i : ℝ) + 1) / n + 1 / n ≤ ((j : ℝ) + 1) / n := by
    rw [← add_div]
    apply div_le_div_of_nonneg_right _ h0.le
    have : (i : ℝ) + 1 ≤ j := by exact_mod_cast hij
    linarith
  have d : (1 : ℝ) / 2 ^ 50 < 1 / n := one_div_lt_one_div_of_lt h0 hn'
  have e : (2 : ℝ) ^ (-51 : ℤ) = 1 / 2 * (1 / 2 ^ 50) := by norm_num
  rw [e] at a b
  linarith

/-- With a power of 2 the nodes are exact. -/
theorem radial_nodes_power_of_two (k : ℕ) (h1 : 1 ≤ k) (hk : k < 50) :
    radialNodes doubles (2 ^ k : ℕ) = (List.range (2 ^ k - 1)).map fun (i : ℕ) => ((i : ℝ) + 1) / 2 ^ k := by
  have hp : (0 : ℝ) < 2 ^ k := by positivity
  have hn53 : (2 : ℕ) ^ k ≤ 2 ^ 53 := Nat.pow_le_pow_right (by norm_num) (by omega)
  have hfr : ∀ i : ℕ, i ≤ 2 ^ 53 → binary64 ((i : ℝ) / 2 ^ k) = (i : ℝ) / 2 ^ k := by
    intro i hi
    have := binary64_exact i (-(k : ℤ)) (by rw [Nat.abs_cast]; exact_mod_cast hi) (by omega)
    rw [zpow_neg, zpow_natCast, ← div_eq_mul_inv] at this
    simpa using this
  have hs : radialStep doubles (2 ^ k : ℕ) = 1 / 2 ^ k := by
    have := hfr 1 (by norm_num)
    unfold radialStep
    show binary64 _ = _
    push_cast at this ⊢
    exact this
  have hone : 1 ≤ 2 ^ k := Nat.one_le_two_pow
  rw [nodes_eq, hs]
  have e1 : binary64 (1 - 1 / 2 ^ k) = ((2 ^ k - 1 : ℕ) : ℝ) / 2 ^ k := by
    rw [← hfr (2 ^ k - 1) (by omega)]
    congr 1
    push_cast [Nat.cast_sub hone]
    field_simp
  have e2 : ((2 ^ k - 1 : ℕ) : ℝ) / 2 ^ k / (1 / 2 ^ k) = ((2 ^ k - 1 : ℕ) : ℝ) := by field_simp
  rw [e1, e2, binary64_nat _ (by omega), Int.ceil_natCast, Int.toNat_natCast]
  apply List.map_congr_left
  intro i hi
  have hi' : i < 2 ^ k - 1 := List.mem_range.1 hi
  have e3 : (i : ℝ) * (1 / 2 ^ k) = (i : ℝ) / 2 ^ k := by ring
  have e4 : (1 : ℝ) / 2 ^ k + (i : ℝ) / 2 ^ k = ((i + 1 : ℕ) : ℝ) / 2 ^ k := by push_cast; ring
  rw [e3, hfr i (by omega), e4, hfr (i + 1) (by omega)]
  push_cast
  rfl

/-- With the default number of points (320) the number of nodes is right. -/
theorem radial_nodes_default : (radialNodes doubles 320).length = 319 := by
  have hc := node_count 320 (by norm_num) (by norm_num)
  have hs : radialStep doubles (320 : ℕ) = 7205759403792794 * 2 ^ (-61 : ℤ) := by
    have : radialStep doubles (320 : ℕ) = binary64 (1 / 320) := by
      unfold radialStep; show binary64 _ = _; norm_num
    rw [this, binary64_eq (-9) 7205759403792794 (by norm_num) (by norm_num) (by norm_num) (by norm_num [abs_lt])]
    norm_num
  have hl : (radialNodes doubles (320 : ℕ)).length =
      ⌈binary64 (binary64 (1 - radialStep doubles (320 : ℕ)) / radialStep doubles (320 : ℕ))⌉.toNat := by
    rw [nodes_eq]; simp
  rw [hs] at hl
  have hd : binary64 (1 - 7205759403792794 * 2 ^ (-61 : ℤ)) = 8979051757069926 * 2 ^ (-53 : ℤ) := by
    rw [binary64_eq (-1) 8979051757069926 (by norm_num) (by norm_num) (by norm_num) (by norm_num [abs_lt])]
    norm_num
  rw [hd] at hl
  have hle : binary64 (8979051757069926 * 2 ^ (-53 : ℤ) / (7205759403792794 * 2 ^ (-61 : ℤ))) ≤ 319 := by
    have := binary64_mono (x := 8979051757069926 * 2 ^ (-53 : ℤ) / (7205759403792794 * 2 ^ (-61 : ℤ))) (y := (319 : ℕ)) (by positivity) (by norm_num)
    rw [binary64_nat 319 (by norm_num)] at this
    exact_mod_cast this
  have : ⌈binary64 (8979051757069926 * 2 ^ (-53 : ℤ) / (7205759403792794 * 2 ^ (-61 : ℤ)))⌉ ≤ 319 := by
    rw [Int.ceil_le]; exact_mod_cast hle
  change (radialNodes doubles (320 : ℕ)).length = 319
  omega

/-- C68 is false: with `n_int_r_points = 24`, which `set_calculation_props` accepts, there are 24 inner nodes instead of 23, the last one almost on
the rim. -/
theorem radial_nodes_extra : (radialNodes doubles 24).length = 24 ∧ (radialNodes doubles 24)[23]? = some (1 - 2 ^ (-53 : ℤ)) := by
  have hs : radialStep doubles (24 : ℕ) = 6004799503160661 * 2 ^ (-57 : ℤ) := by
    have : radialStep doubles (24 : ℕ) = binary64 (1 / 24) := by
      unfold radialStep; show binary64 _ = _; norm_num
    rw [this, binary64_eq (-5) 6004799503160661 (by norm_num) (by norm_num) (by norm_num) (by norm_num [abs_lt])]
    norm_num
  have hd : binary64 (1 - 6004799503160661 * 2 ^ (-57 : ℤ)) = 8631899285793451 * 2 ^ (-53 : ℤ) := by
    rw [binary64_eq (-1) 8631899285793451 (by norm_num) (by norm_num) (by norm_num) (by norm_num [abs_lt])]
    norm_num
  have hq : binary64 (8631899285793451 * 2 ^ (-53 : ℤ) / (6004799503160661 * 2 ^ (-57 : ℤ))) = 6473924464345089 * 2 ^ (-48 : ℤ) := by
    rw [binary64_eq 4 6473924464345089 (by norm_num) (by norm_num) (by norm_num) (by norm_num [abs_lt])]
    norm_num
  have hc : ⌈(6473924464345089 * 2 ^ (-48 : ℤ) : ℝ)⌉ = 24 := by
    rw [Int.ceil_eq_iff]; norm_num
  have hi : binary64 ((23 : ℕ) * (6004799503160661 * 2 ^ (-57 : ℤ))) = 8631899285793450 * 2 ^ (-53 : ℤ) := by
    rw [binary64_eq (-1) 8631899285793450 (by norm_num) (by norm_num) (by norm_num) (by norm_num [abs_lt])]
    norm_num
  have hv : binary64 (6004799503160661 * 2 ^ (-57 : ℤ) + 8631899285793450 * 2 ^ (-53 : ℤ)) = 1 - 2 ^ (-53 : ℤ) := by
    rw [binary64_eq (-1) 9007199254740991 (by norm_num) (by norm_num) (by norm_num) (by norm_num [abs_lt])]
    norm_num
  have e := nodes_eq 24
  rw [hs, hd, hq, hc] at e
  change (radialNodes doubles (24 : ℕ)).length = 24 ∧ (radialNodes doubles (24 : ℕ))[23]? = _
  rw [e]
  refine ⟨by simp, ?_⟩
  rw [List.getElem?_map]
  have : (List.range (24 : ℤ).toNat)[23]? = some 23 := by decide
  rw [this, Option.map_some, hi, hv]

/-! ### What this does to the PSF -/

/-- The weight of the extra node relative to the radial integral of an unaberrated pupil. -/
noncomputable def extraWeight (n : ℕ) : ℝ := if (radialNodes doubles n).length = n then 2 / n else 0

theorem sum_ofReal (l : List ℝ) : (l.map fun (p : ℝ) => (p : ℂ)).sum = ((l.sum : ℝ) : ℂ) := by
  induction l with
  | nil => simp
  | cons a t ih => rw [List.map_cons, List.sum_cons, List.sum_cons, ih, Complex.ofReal_add]

theorem rule_id (n : ℕ) (h2 : 2 ≤ n) (hn : n < 2 ^ 50) :
    |radialStep doubles n * ((radialNodes doubles n).sum + 1 / 2) - (1 + extraWeight n) / 2| ≤ 2 ^ (-49 : ℤ) := by
  have := nodeRule_close n h2 hn (fun p => (p : ℂ)) 1 zero_le_one (fun p h0 h1 => by rw [Complex.norm_real, Real.norm_of_nonneg h0]; exact h1)
    (fun p q _ _ _ _ => by rw [← Complex.ofReal_sub, Complex.norm_real, Real.norm_eq_abs, one_mul])
  rw [trapezoid_id n (by omega)] at this
  have e : nodeRule (radialStep doubles n) (radialNodes doubles n) (fun p => (p : ℂ)) -
      (1 / 2 + if (radialNodes doubles n).length = n then ((1 : ℝ) : ℂ) / n else 0) =
      ((radialStep doubles n * ((radialNodes doubles n).sum + 1 / 2) - (1 + extraWeight n) / 2 : ℝ) : ℂ) := by
    unfold nodeRule extraWeight
    rw [sum_ofReal]
    split_ifs <;> push_cast <;> ring
  rw [e, Complex.norm_real, Real.norm_eq_abs] at this
  refine this.trans (le_of_eq ?_)
  norm_num

theorem nodeRule_field_le (Φ : ℝ → ℝ → ℝ) (r θ φ : ℝ) (n : ℕ) (h2 : 2 ≤ n) (hn : n < 2 ^ 50) :
    ‖nodeRule (radialStep doubles n) (radialNodes doubles n) fun p => pupilField Φ r θ p φ‖ ≤ (1 + extraWeight n) / 2 + 2 ^ (-49 : ℤ) := by
  have hs := lt_of_lt_of_le (show (0 : ℝ) < 2 ^ (-50 : ℤ) by positivity) (node_step n h2 hn).1
  have h := (abs_le.1 (rule_id n h2 hn)).2
  refine le_trans ?_ (show radialStep doubles n * ((radialNodes doubles n).sum + 1 / 2) ≤ _ by linarith)
  unfold nodeRule
  rw [norm_mul, Complex.norm_real, Real.norm_of_nonneg hs.le]
  apply mul_le_mul_of_nonneg_left _ hs.le
  have hsum : ∀ l : List ℝ, (∀ p ∈ l, 0 ≤ p ∧ p ≤ 1) → ‖(l.map fun p => pupilField Φ r θ p φ).sum‖ ≤ l.sum := by
    intro l hl
    induction l with
    | nil => simp
    | cons a t ih =>
      rw [List.map_cons, List.sum_cons, List.sum_cons]
      refine (norm_add_le _ _).trans (add_le_add ?_ (ih fun p hp => hl p (by simp [hp])))
      rw [norm_pupilField _ _ _ _ _ (hl a (by simp)).1]
  refine (norm_add_le _ _).trans (add_le_add (hsum _ (nodes_unit n h2 hn)) ?_)
  rw [norm_div]
  have a := norm_add_le (pupilField Φ r θ 0 φ) (pupilField Φ r θ 1 φ)
  rw [norm_pupilField _ _ _ _ _ le_rfl, norm_pupilField _ _ _ _ _ zero_le_one] at a
  norm_num
  linarith

theorem psf_double_point (ph : Phase) (Φ : ℝ → ℝ → ℝ) (hp : PhaseOk ph Φ) (s : CoefState) (hs : Good s) (r θ : ℝ) (n nPhi : ℕ) (h2 : 2 ≤ n)
    (hn : n < 2 ^ 50) (hPhi : 0 < nPhi) :
    ∃ v, (psfPointFl doubles ph r θ n nPhi s).1 = .ok v ∧ 0 ≤ v ∧ v ≤ (angularFraction nPhi * (1 + extraWeight n + 2 ^ (-48 : ℤ))) ^ 2 := by
  refine ⟨_, (psfPointFl_ok doubles ph Φ hp r θ n nPhi (by omega) hPhi (nodes_nonempty n h2 hn) (nodes_unit n h2 hn) s hs).1, by positivity, ?_⟩
  have hpi := Real.pi_pos
  have hb := angularRule_norm_le nPhi hPhi _ _ fun φ => nodeRule_field_le Φ r θ φ n h2 hn
  rw [div_le_iff₀ (by positivity), ← mul_pow]
  apply pow_le_pow_left₀ (norm_nonneg _)
  refine hb.trans (le_of_eq ?_)
  rw [show (-48 : ℤ) = -49 + 1 by norm_num, zpow_add_one₀ (by norm_num)]
  ring

/-- With the nodes of double precision the PSF of any polynomial is calculated without an exception for every number of integration points, after any
calls; if the number of nodes is right (`n - 1`), its values stay in `[0, 1 + 2^-46]`, and one node too many can raise them by a factor of at most about
`(1 + 2/n)^2`. -/
theorem psf_double_bounded (h : List Call) (fuel : Nat) (o : PolObj) (hv : ValidOrders o.m o.n) (hf : o.n.toNat + 1 < fuel) (alpha r θ : ℝ) (n nPhi : ℕ)
    (h2 : 2 ≤ n) (hn : n < 2 ^ 50) (hPhi : 0 < nPhi) :
    ∃ v, (psfPointFl doubles (singlePhase fuel o alpha) r θ n nPhi (afterCalls h)).1 = .ok v ∧ 0 ≤ v ∧
      v ≤ (1 + 2 / n) ^ 2 + 2 ^ (-45 : ℤ) ∧ ((radialNodes doubles n).length = n - 1 → v ≤ 1 + 2 ^ (-46 : ℤ)) := by
  obtain ⟨v, h1, h3, h4⟩ := psf_double_point _ _ (singlePhase_ok fuel o hv hf alpha) _ (afterCalls_good h) r θ n nPhi h2 hn hPhi
  refine ⟨v, h1, h3, ?_, ?_⟩
  · refine h4.trans ?_
    have a := fraction_pos nPhi hPhi
    have b := (fraction_lt_one nPhi hPhi).le
    have hn' : (2 : ℝ) ≤ n := by exact_mod_cast h2
    have c : (0 : ℝ) ≤ 2 / n := by positivity
    have c' : (2 : ℝ) / n ≤ 1 := by rw [div_le_one (by linarith)]; exact hn'
    have d : extraWeight n ≤ 2 / n := by unfold extraWeight; split_ifs <;> simp [c]
    have d0 : 0 ≤ extraWeight n := by unfold extraWeight; split_ifs <;> simp [c]
    have z : (2 : ℝ) ^ (-48 : ℤ) = 1 / 8 * 2 ^ (-45 : ℤ) := by norm_num
    have zp : (0 : ℝ) < 2 ^ (-45 : ℤ) := by positivity
    have zq : (2 : ℝ) ^ (-45 : ℤ) ≤ 1 := by norm_num
    rw [z]
    set t := (2 : ℝ) ^ (-45 : ℤ)
    have : angularFraction nPhi * (1 + extraWeight n + 1 / 8 * t) ≤ 1 + 2 / n + 1 / 8 * t := by
      calc _ ≤ 1 * (1 + extraWeight n + 1 / 8 * t) := mul_le_mul_of_nonneg_right b (by linarith)
        _ ≤ _ := by linarith
    calc _ ≤ (1 + 2 / (n : ℝ) + 1 / 8 * t) ^ 2 := pow_le_pow_left₀ (by positivity) this 2
      _ ≤ _ := by nlinarith
  · intro hl
    refine h4.trans ?_
    have e : extraWeight n = 0 := by unfold extraWeight; rw [if_neg (by omega)]
    rw [e, add_zero]
    have a := fraction_pos nPhi hPhi
    have b := (fraction_lt_one nPhi hPhi).le
    calc _ ≤ (1 * (1 + 2 ^ (-48 : ℤ)) : ℝ) ^ 2 := pow_le_pow_left₀ (by positivity) (mul_le_mul_of_nonneg_right b (by positivity)) 2
      _ ≤ _ := by norm_num

/-- The consequence of the extra node: without aberrations (any polynomial, coefficient 0), with 24 radial and the default 300 angular points, the
central value of the PSF exceeds 1.15 (it should be 1). -/
theorem psf_double_exceeds_one (h : List Call) (fuel : Nat) (o : PolObj) (hv : ValidOrders o.m o.n) (hf : o.n.toNat + 1 < fuel) (θ : ℝ) :
    ∃ v, (psfPointFl doubles (singlePhase fuel o 0) 0 θ 24 300 (afterCalls h)).1 = .ok v ∧ 1.15 < v := by
  have hok := (psfPointFl_ok doubles _ _ (singlePhase_ok fuel o hv hf 0) 0 θ 24 300 (by norm_num) (by norm_num) (nodes_nonempty 24 (by norm_num) (by norm_num))
    (nodes_unit 24 (by norm_num) (by norm_num)) _ (afterCalls_good h)).1
  refine ⟨_, hok, ?_⟩
  have hid := (abs_le.1 (rule_id 24 (by norm_num) (by norm_num))).1
  have hw : extraWeight 24 = 1 / 12 := by
    unfold extraWeight
    rw [if_pos (by exact_mod_cast radial_nodes_extra.1)]
    norm_num
  rw [hw] at hid
  set R := radialStep doubles (24 : ℕ) * ((radialNodes doubles (24 : ℕ)).sum + 1 / 2) with hR
  have hR1 : 0.5416 < R := by norm_num at hid ⊢; linarith
  have e : (fun φ => nodeRule (radialStep doubles (24 : ℕ)) (radialNodes doubles (24 : ℕ)) fun p =>
      pupilField (fun p φ => 0 * zernike o.m o.n p φ) 0 θ p φ) = fun _ => (R : ℂ) := by
    funext φ
    unfold nodeRule pupilField
    simp only [zero_mul, sub_zero, Complex.ofReal_zero, mul_zero, Complex.exp_zero, one_mul]
    rw [sum_ofReal, hR]
    push_cast
    ring
  rw [e, angularRule_const 300 (by norm_num), norm_mul, Complex.norm_real, Complex.norm_real]
  have hf : angularFraction 300 = 149 / 150 := by unfold angularFraction; norm_num
  have hpi := Real.pi_pos
  rw [hf, Real.norm_of_nonneg (by positivity), Real.norm_of_nonneg (by norm_num at hR1; linarith), lt_div_iff₀ (by positivity)]
  have : (2 * Real.pi * (149 / 150) * R) ^ 2 = (2 * (149 / 150) * R) ^ 2 * Real.pi ^ 2 := by ring
  rw [this]
  apply mul_lt_mul_of_pos_right _ (by positivity)
  norm_num at hR1 ⊢
  nlinarith

/-- The arithmetic without roundings. -/
noncomputable def noRounding : FloatArith := ⟨id, fun x k => x ^ k, Real.sqrt, Real.cos, Real.sin⟩

/-- Without roundings the number of nodes is right for every `n`, the nodes are `i/n`, and the PSF is that of the exact model (Model/Psf), to which
C32, C33, C44, C45 and C51 refer. -/
theorem exact_nodes (ph : Phase) (r θ : ℝ) (n : ℕ) (h2 : 2 ≤ n) (nPhi : Int) :
    radialNodes noRounding n = ((List.range (n - 1)).map fun (i : ℕ) => ((i : ℝ) + 1) / n) ∧
    psfPointFl noRounding ph r θ n nPhi = psfPoint ph r θ n nPhi := by
  have hn : radialNodes noRounding n = npArangeFrom (1 / ((n : ℤ) : ℝ)) 1 (1 / ((n : ℤ) : ℝ)) := by
    unfold radialNodes npArangeFl npArangeFrom radialStep noRounding
    simp only [id]
    apply List.map_congr_left
    intro i _
    split_ifs with h0 h1
    · subst h0; simp
    · subst h1; simp
    · simp
  have hr : ∀ φ, radialIntegralFl noRounding ph r θ φ n = radialIntegral ph r θ φ n := by
    intro φ
    unfold radialIntegralFl radialIntegral
    rw [hn]
    rfl
  have ha : ∀ h l acc, angleSumFl noRounding ph r θ h n l acc = angleSum ph r θ h n l acc := by
    intro h l
    induction l with
    | nil => intro acc; rfl
    | cons i t ih =>
      intro acc
      show (radialIntegralFl noRounding ph r θ _ n >>= fun v => angleSumFl noRounding ph r θ h n t (acc + v)) = _
      rw [hr]
      simp only [ih]
      rfl
  refine ⟨by rw [hn, arange_eq n h2], ?_⟩
  unfold psfPointFl psfPoint
  simp only [ha, hr]

/-- The hypotheses are met: the vertical tilt with the default numbers of points. -/
example : ∃ v, (psfPointFl doubles (singlePhase 100 ⟨-1, 1, false⟩ 0.3) 0.5 1 (320 : ℕ) (300 : ℕ) (afterCalls [])).1 = .ok v ∧ 0 ≤ v ∧ v ≤ 1 + 2 ^ (-46 : ℤ) := by
  obtain ⟨v, h1, h2, _, h3⟩ := psf_double_bounded [] 100 ⟨-1, 1, false⟩ (by decide) (by decide) 0.3 0.5 1 320 300 (by norm_num) (by norm_num) (by norm_num)
  exact ⟨v, h1, h2, h3 radial_nodes_default⟩

end Verif.Props
