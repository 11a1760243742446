import Verif.Proofs.Methods
import Verif.Proofs.RadialBound
import Verif.Proofs.Ortho

/-!
# C15–C22, C40, C42: evaluation of Zernike polynomials

`afterCalls h` is the state of the process-wide coefficient tables after any history `h` of calls, so every theorem holds whatever was
computed before. `o.n.toNat + 1 < fuel` says that the Python recursion limit (1000 by default) is not smaller than needed; a constructed
polynomial has `n ≤ 54` (C07, C08), so a budget of 56 nested calls suffices.
-/

namespace Verif.Props
open Verif.Model Verif.Spec Verif.Proofs

/-- Non-vacuity: a polynomial above the 12th order, as made by the constructor. -/
def pol38 : PolObj := { m := -2, n := 38, slowShown := false }

theorem pol38_valid : ValidOrders pol38.m pol38.n := by decide

example : ∃ z, zernPolInit [("m", .int (-2)), ("n", .int 38)] = .ok z ∧ z.obj = pol38 := by
  refine ⟨_, rfl, ?_⟩
  rfl

/-! ## C15 -/

/-- C15. `radial(r)` by the default path is the textbook radial polynomial, for numbers, arrays, lists and tuples. -/
theorem radial_is_zernike (h : List Call) (fuel : Nat) (o : PolObj) (hv : ValidOrders o.m o.n) (hf : o.n.toNat + 1 < fuel) :
    (∀ x, 0 ≤ x → x ≤ 1 →
      (Model.radial fuel o (.num x) false (afterCalls h)).res = .ok (.scalar (Spec.radial o.m o.n x))) ∧
    (∀ sh d, d ≠ [] → (∀ x ∈ d, 0 ≤ x ∧ x ≤ 1) →
      (Model.radial fuel o (.arr sh d) false (afterCalls h)).res = .ok (.array sh (d.map (Spec.radial o.m o.n))) ∧
      (Model.radial fuel o (.seq sh d) false (afterCalls h)).res = .ok (.array sh (d.map (Spec.radial o.m o.n)))) := by
  have e : (fun y : ℝ => if (false : Bool) = true ∧ 40 < o.n then 0 else RR o.m o.n y) = Spec.radial o.m o.n := by
    funext y; rw [if_neg (by simp), spec_radial_eq _ _ _ hv]
  refine ⟨fun x h0 h1 => ?_, fun sh d hd hr => ⟨?_, ?_⟩⟩
  · rw [radial_ok _ _ _ _ _ (afterCalls_good h) hv hf _ (checkRadii_num x h0 h1), e]; rfl
  · rw [radial_ok _ _ _ _ _ (afterCalls_good h) hv hf _ (checkRadii_arr sh d hd hr).1, e]; rfl
  · rw [radial_ok _ _ _ _ _ (afterCalls_good h) hv hf _ (checkRadii_arr sh d hd hr).2, e]; rfl

example : (Model.radial 56 pol38 (.num (1 / 2)) false (afterCalls [])).res = .ok (.scalar (Spec.radial (-2) 38 (1 / 2))) :=
  (radial_is_zernike [] 56 pol38 pol38_valid (by decide)).1 _ (by norm_num) (by norm_num)

/-- The formula is the usual one: e.g. `R_4^0 = 6 r⁴ - 6 r² + 1` (a check of the specification). -/
example (r : ℝ) : Spec.radial 0 4 r = 6 * r ^ 4 - 6 * r ^ 2 + 1 := by
  simp [Spec.radial, Finset.sum_range_succ, Nat.factorial]; ring

/-- C15, C17. The coefficient dictionaries returned by `find_coeffs_orders` after any history are those of the textbook polynomial. -/
theorem coefficients_are_zernike (h : List Call) (fuel : Nat) (explicit : Bool) (m n : Int) (hv : ValidOrders m n)
    (hf : n.toNat < fuel) :
    ∃ d, (findCoeffs fuel explicit m n (afterCalls h)).1 = .ok d ∧
      ∀ r : ℝ, ∑ i ∈ Finset.range d.length, (d.getD i 0 : ℝ) * r ^ i = Spec.radial m n r := by
  obtain ⟨_, h2, h3⟩ := (findCoeffs_tr fuel explicit m n).app _ (afterCalls_good h)
  obtain ⟨d, hd⟩ := h3 ⟨hv, hf⟩
  refine ⟨d, hd, fun r => ?_⟩
  have := eval_CorrectV (h2 d hd).2 r
  rw [evalLoop_eq] at this
  rw [spec_radial_eq _ _ _ hv, ← this]
  simp

/-- C18. The same for the derivative dictionaries of `find_coeffs_orders_dr`, for the orders above the precalculated ones. -/
theorem coefficients_dr_are_derivative (h : List Call) (fuel : Nat) (explicit : Bool) (m n : Int) (hv : ValidOrders m n)
    (h9 : 9 ≤ n) (hf : n.toNat < fuel) :
    ∃ d, (findCoeffsDr fuel explicit m n (afterCalls h)).1 = .ok d ∧
      ∀ r : ℝ, HasDerivAt (Spec.radial m n) (∑ i ∈ Finset.range d.length, (d.getD i 0 : ℝ) * r ^ i) r := by
  obtain ⟨_, h2, h3⟩ := (findCoeffsDr_tr fuel explicit m n).app _ (afterCalls_good h)
  obtain ⟨d, hd⟩ := h3 ⟨hv, h9, hf⟩
  refine ⟨d, hd, fun r => ?_⟩
  have := eval_CorrectD ((h2 d hd).2 h9) r
  rw [evalLoop_eq] at this
  have e : ∑ i ∈ Finset.range d.length, (d.getD i 0 : ℝ) * r ^ i = DR m n r := by rw [← this]; simp
  rw [e]
  have e2 : Spec.radial m n = fun y => RR m n y := funext fun y => spec_radial_eq _ _ _ hv
  rw [e2]
  exact DR_hasDerivAt m n r

/-! ## C16 -/

/-- C16. Up to the order 40 (38 for the derivative) the exact equations give the same result as the default path, for every argument
(including the same exception for a rejected one), whatever the two histories. -/
theorem exact_agrees (h h' : List Call) (fuel : Nat) (o : PolObj) (hv : ValidOrders o.m o.n) (hf : o.n.toNat + 1 < fuel)
    (a : Arg) :
    (o.n ≤ 40 → (Model.radial fuel o a true (afterCalls h)).res = (Model.radial fuel o a false (afterCalls h')).res) ∧
    (o.n ≤ 38 → (Model.radialDr fuel o a true (afterCalls h)).res = (Model.radialDr fuel o a false (afterCalls h')).res) := by
  constructor
  · intro hn
    cases hx : checkRadii a with
    | error e => unfold Model.radial; rw [hx]
    | ok x =>
      rw [radial_ok _ _ _ _ _ (afterCalls_good h) hv hf x hx, radial_ok _ _ _ _ _ (afterCalls_good h') hv hf x hx]
      simp [not_lt.2 hn]
  · intro hn
    cases hx : checkRadii a with
    | error e => unfold Model.radialDr; rw [hx]
    | ok x =>
      rw [radialDr_ok _ _ _ _ _ (afterCalls_good h) hv hf x hx, radialDr_ok _ _ _ _ _ (afterCalls_good h') hv hf x hx]
      have hn' := (valid_iff _ _).1 hv
      have e : ∀ y : ℝ, drVal fuel o.m o.n y = DR o.m o.n y := fun y =>
        drVal_correct fuel _ _ y hv (by omega) (by unfold pyAbs; split_ifs <;> omega)
      simp [not_lt.2 hn, e]

/-- C16. Above that order the exact path never returns silently: an accepted call emits the high-order warning, and so does `radial_dr`;
the value returned with it is 0. -/
theorem exact_not_silent (s : CoefState) (fuel : Nat) (o : PolObj) (a : Arg) :
    (40 < o.n → ∀ v, (Model.radial fuel o a true s).res = .ok v →
      .highOrder ∈ (Model.radial fuel o a true s).warns) ∧
    (38 < o.n → ∀ v, (Model.radialDr fuel o a true s).res = .ok v →
      .highOrder ∈ (Model.radialDr fuel o a true s).warns) ∧
    (40 < o.n → ∀ t v, (polynomialValue fuel o a t true s).res = .ok v →
      .highOrder ∈ (polynomialValue fuel o a t true s).warns) := by
  refine ⟨fun hn v hv => ?_, fun hn v hv => ?_, fun hn t v hv => ?_⟩
  · unfold Model.radial at *
    cases hx : checkRadii a with
    | error e => rw [hx] at hv; cases hv
    | ok x => simp [highWarn, maxRadialOrderCoeffs, hn]
  · unfold Model.radialDr at *
    cases hx : checkRadii a with
    | error e => rw [hx] at hv; cases hv
    | ok x => simp [highWarn, maxRadialOrderCoeffsDr, hn]
  · unfold polynomialValue at *
    cases hx : checkRadii a with
    | error e => rw [hx] at hv; cases hv
    | ok x =>
      rw [hx] at hv
      cases ht : checkAngles t with
      | error e => rw [ht] at hv; cases hv
      | ok t' =>
        rw [ht] at hv
        dsimp only at *
        split_ifs at * with c1 c2
        · cases hv
          simp [highWarn, maxRadialOrderCoeffs, hn]
        · exact absurd ⟨rfl, hn⟩ c2

/-- C16. Conversely no such warning comes with a value that agrees with the default path: without the warning the value is right. -/
theorem exact_unwarned_is_right (h : List Call) (fuel : Nat) (o : PolObj) (hv : ValidOrders o.m o.n)
    (hf : o.n.toNat + 1 < fuel) (x : ℝ) (h0 : 0 ≤ x) (h1 : x ≤ 1)
    (hw : .highOrder ∉ (Model.radial fuel o (.num x) true (afterCalls h)).warns) :
    (Model.radial fuel o (.num x) true (afterCalls h)).res = .ok (.scalar (Spec.radial o.m o.n x)) := by
  by_cases hn : o.n ≤ 40
  · rw [(exact_agrees h h fuel o hv hf (.num x)).1 hn]
    exact (radial_is_zernike h fuel o hv hf).1 x h0 h1
  · exfalso
    apply hw
    exact (exact_not_silent _ fuel o (.num x)).1 (by omega) _
      (radial_ok _ _ _ _ _ (afterCalls_good h) hv hf _ (checkRadii_num x h0 h1))

example : ∃ o : PolObj, ValidOrders o.m o.n ∧ 40 < o.n ∧ o.n ≤ 54 := ⟨⟨1, 41, false⟩, by decide, by decide, by decide⟩

/-! ## C17 -/

/-- C17. What was computed before (in any order, by any polynomial, including calls that ended in an exception) does not change any result. -/
theorem history_irrelevant (h h' : List Call) (fuel : Nat) (o : PolObj) (hf : o.n.toNat + 1 < fuel) (r theta : Arg)
    (exact : Bool) :
    (Model.radial fuel o r exact (afterCalls h)).res = (Model.radial fuel o r exact (afterCalls h')).res ∧
    (Model.radialDr fuel o r exact (afterCalls h)).res = (Model.radialDr fuel o r exact (afterCalls h')).res ∧
    (polynomialValue fuel o r theta exact (afterCalls h)).res = (polynomialValue fuel o r theta exact (afterCalls h')).res :=
  ⟨radial_indep _ _ _ _ _ _ (afterCalls_good h) (afterCalls_good h') hf,
   radialDr_indep _ _ _ _ _ _ (afterCalls_good h) (afterCalls_good h') hf,
   polynomialValue_indep _ _ _ _ _ _ _ (afterCalls_good h) (afterCalls_good h') hf⟩

/-! ## C18 -/

/-- C18, the part that holds. `radial_dr(r)` is the derivative of the radial polynomial when `n - |m| ≤ 38` (for every `n` up to 39 in
particular), by the default path and, up to the order 38, by the exact one.
Missing (false of the code, see `radial_dr_wrong`): the default path for `n - |m| ≥ 40`. -/
theorem radial_dr_is_derivative_partial (h : List Call) (fuel : Nat) (o : PolObj) (hv : ValidOrders o.m o.n)
    (hf : o.n.toNat + 1 < fuel) (exact : Bool) (hn : if exact then o.n ≤ 38 else o.n - |o.m| ≤ 38) :
    (∀ x, 0 ≤ x → x ≤ 1 → ∃ v, (Model.radialDr fuel o (.num x) exact (afterCalls h)).res = .ok (.scalar v) ∧
      HasDerivAt (Spec.radial o.m o.n) v x) ∧
    (∀ sh d, d ≠ [] → (∀ x ∈ d, 0 ≤ x ∧ x ≤ 1) → ∃ v,
      (Model.radialDr fuel o (.arr sh d) exact (afterCalls h)).res = .ok (.array sh v) ∧
      (Model.radialDr fuel o (.seq sh d) exact (afterCalls h)).res = .ok (.array sh v) ∧
      List.Forall₂ (fun x y => HasDerivAt (Spec.radial o.m o.n) y x) d v) := by
  have hn' := (valid_iff _ _).1 hv
  have e2 : Spec.radial o.m o.n = fun y => RR o.m o.n y := funext fun y => spec_radial_eq _ _ _ hv
  have e : (fun y : ℝ => if exact then (if 38 < o.n then 0 else DR o.m o.n y) else if o.n ≤ 12 then DR o.m o.n y
      else drVal fuel o.m o.n y) = DR o.m o.n := by
    funext y
    cases exact
    · simp only [Bool.false_eq_true, if_false] at *
      split_ifs
      · rfl
      · exact drVal_correct fuel _ _ y hv (by omega) (by rw [abs_eq_max_neg] at hn; unfold pyAbs; split_ifs <;> omega)
    · simp only [if_true] at *
      rw [if_neg (by omega)]
  rw [e2]
  refine ⟨fun x h0 h1 => ⟨DR o.m o.n x, ?_, DR_hasDerivAt _ _ x⟩, fun sh d hd hr => ⟨d.map (DR o.m o.n), ?_, ?_, ?_⟩⟩
  · rw [radialDr_ok _ _ _ _ _ (afterCalls_good h) hv hf _ (checkRadii_num x h0 h1), e]; rfl
  · rw [radialDr_ok _ _ _ _ _ (afterCalls_good h) hv hf _ (checkRadii_arr sh d hd hr).1, e]; rfl
  · rw [radialDr_ok _ _ _ _ _ (afterCalls_good h) hv hf _ (checkRadii_arr sh d hd hr).2, e]; rfl
  · rw [List.forall₂_map_right_iff]
    exact List.forall₂_same.2 fun x _ => DR_hasDerivAt _ _ x

example : ∃ v, (Model.radialDr 56 pol38 (.num 1) false (afterCalls [])).res = .ok (.scalar v) ∧
    HasDerivAt (Spec.radial (-2) 38) v 1 :=
  (radial_dr_is_derivative_partial [] 56 pol38 pol38_valid (by decide) false (by decide)).1 1 (by norm_num) (by norm_num)

/-- C18 in terms of the methods only: any function that `radial` computes on `[0, 1]` has, within `[0, 1]`, the derivative computed
by `radial_dr`. -/
theorem radial_dr_is_derivative_of_radial_partial (h : List Call) (fuel : Nat) (o : PolObj) (hv : ValidOrders o.m o.n)
    (hf : o.n.toNat + 1 < fuel) (hn : o.n - |o.m| ≤ 38) (F : ℝ → ℝ)
    (hF : ∀ x, 0 ≤ x → x ≤ 1 → (Model.radial fuel o (.num x) false (afterCalls h)).res = .ok (.scalar (F x)))
    (x : ℝ) (h0 : 0 ≤ x) (h1 : x ≤ 1) :
    ∃ v, (Model.radialDr fuel o (.num x) false (afterCalls h)).res = .ok (.scalar v) ∧
      HasDerivWithinAt F v (Set.Icc 0 1) x := by
  obtain ⟨v, hv1, hv2⟩ := (radial_dr_is_derivative_partial h fuel o hv hf false (by simpa using hn)).1 x h0 h1
  refine ⟨v, hv1, ?_⟩
  have e : ∀ y ∈ Set.Icc (0 : ℝ) 1, F y = Spec.radial o.m o.n y := by
    intro y hy
    have := hF y hy.1 hy.2
    rw [(radial_is_zernike h fuel o hv hf).1 y hy.1 hy.2] at this
    injection this with this; injection this with this; exact this.symm
  exact hv2.hasDerivWithinAt.congr e (e x ⟨h0, h1⟩)

/-- C18 is false: for every polynomial with `n - |m| ≥ 40` the value `radial_dr(1)` is not the derivative (the branch `m == 0` of
`radial_polynomial_coeffs_dr` uses the derivative in the place of the value). -/
theorem radial_dr_wrong (h : List Call) (fuel : Nat) (o : PolObj) (hv : ValidOrders o.m o.n) (hf : o.n.toNat + 1 < fuel)
    (hn : 40 ≤ o.n - |o.m|) :
    ∃ v, (Model.radialDr fuel o (.num 1) false (afterCalls h)).res = .ok (.scalar v) ∧
      ¬ HasDerivAt (Spec.radial o.m o.n) v 1 := by
  have hn' := (valid_iff _ _).1 hv
  have hp : 40 ≤ o.n - pyAbs o.m := by rw [abs_eq_max_neg] at hn; unfold pyAbs; split_ifs <;> omega
  refine ⟨drVal fuel o.m o.n 1, ?_, fun hd => ?_⟩
  · rw [radialDr_ok _ _ _ _ _ (afterCalls_good h) hv hf _ (checkRadii_num 1 (by norm_num) (by norm_num))]
    have h12 : ¬ o.n ≤ 12 := by unfold pyAbs at hp; split_ifs at hp <;> omega
    simp [Num.map, h12]
  · have e2 : Spec.radial o.m o.n = fun y => RR o.m o.n y := funext fun y => spec_radial_eq _ _ _ hv
    rw [e2] at hd
    exact drVal_wrong fuel _ _ hv (by omega) hp (hd.unique (DR_hasDerivAt _ _ 1))

example : ∃ z, zernPolInit [("m", .int 0), ("n", .int 40)] = .ok z ∧ ValidOrders z.obj.m z.obj.n ∧ 40 ≤ z.obj.n - |z.obj.m| :=
  ⟨_, rfl, by decide, by decide⟩

/-! ## C19 -/

/-- C19. The radial polynomial is 1 at the rim. -/
theorem radial_at_rim (h : List Call) (fuel : Nat) (o : PolObj) (hv : ValidOrders o.m o.n) (hf : o.n.toNat + 1 < fuel) :
    (Model.radial fuel o (.num 1) false (afterCalls h)).res = .ok (.scalar 1) := by
  rw [(radial_is_zernike h fuel o hv hf).1 1 (by norm_num) le_rfl, spec_radial_eq _ _ _ hv]
  unfold RR; rw [Rab_at_one]

/-- C19. The radial polynomial is at most 1 in absolute value on the unit disk. -/
theorem radial_bounded (h : List Call) (fuel : Nat) (o : PolObj) (hv : ValidOrders o.m o.n) (hf : o.n.toNat + 1 < fuel)
    (x : ℝ) (h0 : 0 ≤ x) (h1 : x ≤ 1) :
    ∃ v, (Model.radial fuel o (.num x) false (afterCalls h)).res = .ok (.scalar v) ∧ |v| ≤ 1 := by
  refine ⟨_, (radial_is_zernike h fuel o hv hf).1 x h0 h1, ?_⟩
  rw [spec_radial_eq _ _ _ hv]
  exact RR_abs_le _ _ x h0 h1

/-- C19. Hence the polynomial itself is bounded by its normalisation factor, for every angle. -/
theorem value_bounded (h : List Call) (fuel : Nat) (o : PolObj) (hv : ValidOrders o.m o.n) (hf : o.n.toNat + 1 < fuel)
    (x t : ℝ) (h0 : 0 ≤ x) (h1 : x ≤ 1) :
    ∃ v, (polynomialValue fuel o (.num x) (.num t) false (afterCalls h)).res = .ok (.scalar v) ∧ |v| ≤ normf o := by
  obtain ⟨w, hw, _⟩ := checkAngles_num t
  refine ⟨_, polynomialValue_ok fuel o (.num x) (.num t) false _ (afterCalls_good h) hv hf _ _ w (checkRadii_num x h0 h1) hw
    (by intro _ _ _ _ h; cases h), ?_⟩
  have hN : 0 ≤ normalizationFactor o.m o.n := by unfold normalizationFactor; split_ifs <;> exact Real.sqrt_nonneg _
  have hR := RR_abs_le o.m o.n x h0 h1
  have hT : |triangularFunction o.m t| ≤ 1 := by
    unfold triangularFunction
    split_ifs
    · exact Real.abs_cos_le_one _
    · rw [abs_neg]; exact Real.abs_sin_le_one _
  show |normalizationFactor o.m o.n * triangularFunction o.m t * RR o.m o.n x| ≤ normalizationFactor o.m o.n
  rw [abs_mul, abs_mul, abs_of_nonneg hN, mul_assoc]
  exact mul_le_of_le_one_right hN (mul_le_one₀ hT (abs_nonneg _) hR)

/-! ## C20 -/

/-- C20. The triangular part, elementwise. -/
theorem triangular_is_angular (o : PolObj) :
    (∀ t, ∃ w, triangular o (.num t) = .ok (.scalar (Spec.angular o.m t), w)) ∧
    (∀ sh d, d ≠ [] → ∃ w, triangular o (.arr sh d) = .ok (.array sh (d.map (Spec.angular o.m)), w) ∧
      triangular o (.seq sh d) = .ok (.array sh (d.map (Spec.angular o.m)), w)) := by
  have e : triangularFunction o.m = Spec.angular o.m := funext fun t => triangularFunction_eq _ t
  constructor
  · intro t
    obtain ⟨w, hw, _⟩ := checkAngles_num t
    exact ⟨w, by unfold triangular; rw [hw, e]; rfl⟩
  · intro sh d hd
    obtain ⟨w, hw, _⟩ := checkAnglesArray_ok sh d hd
    refine ⟨w, ?_, ?_⟩
    · unfold triangular; rw [show checkAngles (.arr sh d) = _ from hw, e]; rfl
    · unfold triangular; rw [show checkAngles (.seq sh d) = _ from hw, e]; rfl

/-- C20. `triangular_dtheta` is the derivative of the triangular part at every angle. -/
theorem triangular_dtheta_is_derivative (o : PolObj) :
    (∀ t, ∃ w v, triangularDtheta o (.num t) = .ok (.scalar v, w) ∧ HasDerivAt (Spec.angular o.m) v t) ∧
    (∀ sh d, d ≠ [] → ∃ w v, triangularDtheta o (.arr sh d) = .ok (.array sh v, w) ∧
      triangularDtheta o (.seq sh d) = .ok (.array sh v, w) ∧
      List.Forall₂ (fun t y => HasDerivAt (Spec.angular o.m) y t) d v) := by
  have hd : ∀ t, HasDerivAt (Spec.angular o.m) (triangularDerivative o.m t) t := by
    intro t
    have e : Spec.angular o.m = fun t => triangularFunction o.m t := funext fun t => (triangularFunction_eq _ t).symm
    rw [e]
    unfold triangularFunction triangularDerivative
    split_ifs
    · have := ((hasDerivAt_id t).const_mul (o.m : ℝ)).cos
      simp only [id_eq] at this
      convert this using 1; ring
    · have := ((hasDerivAt_id t).const_mul (o.m : ℝ)).sin.neg
      simp only [id_eq] at this
      convert! this using 1; ring
  constructor
  · intro t
    obtain ⟨w, hw, _⟩ := checkAngles_num t
    exact ⟨w, _, by unfold triangularDtheta; rw [hw]; rfl, hd t⟩
  · intro sh d hne
    obtain ⟨w, hw, _⟩ := checkAnglesArray_ok sh d hne
    refine ⟨w, d.map (triangularDerivative o.m), ?_, ?_, ?_⟩
    · unfold triangularDtheta; rw [show checkAngles (.arr sh d) = _ from hw]; rfl
    · unfold triangularDtheta; rw [show checkAngles (.seq sh d) = _ from hw]; rfl
    · rw [List.forall₂_map_right_iff]
      exact List.forall₂_same.2 fun t _ => hd t

/-! ## C21 -/

/-- `polynomial_value` at a point of the disk is the normalised Zernike polynomial. -/
theorem value_is_zernike (h : List Call) (fuel : Nat) (o : PolObj) (hv : ValidOrders o.m o.n) (hf : o.n.toNat + 1 < fuel)
    (x t : ℝ) (h0 : 0 ≤ x) (h1 : x ≤ 1) :
    (polynomialValue fuel o (.num x) (.num t) false (afterCalls h)).res = .ok (.scalar (Spec.zernike o.m o.n x t)) := by
  obtain ⟨w, hw, _⟩ := checkAngles_num t
  rw [polynomialValue_ok fuel o (.num x) (.num t) false _ (afterCalls_good h) hv hf _ _ w (checkRadii_num x h0 h1) hw
    (by intro _ _ _ _ h; cases h), if_neg (by simp), ← value_eq _ _ hv]
  rfl

/-- C21. `normf` is the normalisation factor of the standard, it is positive, and `polynomial_value` is `normf` times the radial part times the angular
part. -/
theorem normf_exact (h : List Call) (fuel : Nat) (o : PolObj) (hv : ValidOrders o.m o.n) (hf : o.n.toNat + 1 < fuel) (r t : ℝ) (h0 : 0 ≤ r)
    (h1 : r ≤ 1) : normf o = Spec.norm o.m o.n ∧ 0 < normf o ∧
      (polynomialValue fuel o (.num r) (.num t) false (afterCalls h)).res = .ok (.scalar (normf o * (Spec.radial o.m o.n r * angular o.m t))) := by
  have e : normf o = Spec.norm o.m o.n := normalizationFactor_eq o.m o.n
  refine ⟨e, ?_, ?_⟩
  · rw [e]
    unfold Spec.norm
    have : (0 : ℝ) ≤ o.n := by exact_mod_cast hv.1
    apply Real.sqrt_pos.2
    split_ifs <;> linarith
  · rw [value_is_zernike h fuel o hv hf r t h0 h1, e, zernike, mul_assoc]

/-- C21. Any two functions computed by `polynomial_value` on the disk are orthonormal: mean of the product over the unit disk 1 for the
same polynomial, 0 for different ones. -/
theorem orthonormal (h : List Call) (fuel : Nat) (o o' : PolObj) (hv : ValidOrders o.m o.n) (hv' : ValidOrders o'.m o'.n)
    (hf : o.n.toNat + 1 < fuel) (hf' : o'.n.toNat + 1 < fuel) (F F' : ℝ → ℝ → ℝ)
    (hF : ∀ x t, 0 ≤ x → x ≤ 1 →
      (polynomialValue fuel o (.num x) (.num t) false (afterCalls h)).res = .ok (.scalar (F x t)))
    (hF' : ∀ x t, 0 ≤ x → x ≤ 1 →
      (polynomialValue fuel o' (.num x) (.num t) false (afterCalls h)).res = .ok (.scalar (F' x t))) :
    diskMean (fun r t => F r t * F' r t) = if o.m = o'.m ∧ o.n = o'.n then 1 else 0 := by
  rw [← zernike_orthonormal _ _ _ _ hv hv']
  unfold diskMean
  congr 1
  apply MeasureTheory.setIntegral_congr_fun unitDisk_measurable
  intro p hp
  have hr0 : 0 ≤ radius p := Real.sqrt_nonneg _
  have hr1 : radius p ≤ 1 := Real.sqrt_le_one.2 hp
  have e := hF _ (angle p) hr0 hr1
  have e' := hF' _ (angle p) hr0 hr1
  rw [value_is_zernike h fuel o hv hf _ _ hr0 hr1] at e
  rw [value_is_zernike h fuel o' hv' hf' _ _ hr0 hr1] at e'
  injection e with e; injection e with e
  injection e' with e'; injection e' with e'
  simp only [← e, ← e']

/-- The hypotheses of `orthonormal` are met: the functions exist. -/
example : ∃ F : ℝ → ℝ → ℝ, ∀ x t, 0 ≤ x → x ≤ 1 →
    (polynomialValue 56 pol38 (.num x) (.num t) false (afterCalls [])).res = .ok (.scalar (F x t)) :=
  ⟨_, fun x t h0 h1 => value_is_zernike [] 56 pol38 pol38_valid (by decide) x t h0 h1⟩

/-! ## C42 -/

/-- C42. `radial` and `radial_dr` depend on `|m|` only, for every argument and path. -/
theorem radial_abs_m (h h' : List Call) (fuel : Nat) (o o' : PolObj) (hv : ValidOrders o.m o.n) (hf : o.n.toNat + 1 < fuel)
    (hm : o'.m = -o.m) (hn : o'.n = o.n) (a : Arg) (exact : Bool) :
    (Model.radial fuel o' a exact (afterCalls h')).res = (Model.radial fuel o a exact (afterCalls h)).res ∧
    (Model.radialDr fuel o' a exact (afterCalls h')).res = (Model.radialDr fuel o a exact (afterCalls h)).res := by
  have hv' : ValidOrders o'.m o'.n := by rw [hm, hn]; unfold ValidOrders at *; rwa [abs_neg]
  have hf' : o'.n.toNat + 1 < fuel := by rw [hn]; exact hf
  cases hx : checkRadii a with
  | error e => unfold Model.radial Model.radialDr; rw [hx]; exact ⟨rfl, rfl⟩
  | ok x =>
    rw [radial_ok _ _ _ _ _ (afterCalls_good h) hv hf x hx, radial_ok _ _ _ _ _ (afterCalls_good h') hv' hf' x hx,
      radialDr_ok _ _ _ _ _ (afterCalls_good h) hv hf x hx, radialDr_ok _ _ _ _ _ (afterCalls_good h') hv' hf' x hx]
    simp only [hm, hn, RR_neg, DR_neg, drVal_neg, and_self]

end Verif.Props
