import Verif.Proofs.PsfRate
import Verif.Props.Evaluate

/-!
# C71: the radial polynomials are steepest at the rim
-/

namespace Verif.Props
open Verif.Model Verif.Spec Verif.Proofs

/-- C71. `radial_dr(1.0)` is `(n(n+2) - m²)/2`, and nowhere in the pupil is the computed derivative greater in absolute value. Proved where `radial_dr` is right (C18):
up to `n - |m| = 38` (with `use_exact_eq=True`: up to `n = 38`). -/
theorem slope_greatest_at_rim_partial (h : List Call) (fuel : Nat) (o : PolObj) (hv : ValidOrders o.m o.n) (hf : o.n.toNat + 1 < fuel) (exact : Bool)
    (hn : if exact then o.n ≤ 38 else o.n - |o.m| ≤ 38) :
    (Model.radialDr fuel o (.num 1) exact (afterCalls h)).res = .ok (.scalar (((o.n : ℝ) * (o.n + 2) - (o.m : ℝ) ^ 2) / 2)) ∧
    ∀ x, 0 ≤ x → x ≤ 1 → ∃ v, (Model.radialDr fuel o (.num x) exact (afterCalls h)).res = .ok (.scalar v) ∧ |v| ≤ ((o.n : ℝ) * (o.n + 2) - (o.m : ℝ) ^ 2) / 2 := by
  have key := (radial_dr_is_derivative_partial h fuel o hv hf exact hn).1
  obtain ⟨f', _, e1, _, _, e4⟩ := radial_R2 o.m o.n hv
  refine ⟨?_, fun x h0 h1 => ?_⟩
  · obtain ⟨v, r, hd⟩ := key 1 zero_le_one le_rfl
    rw [r, hd.unique (radial_deriv_rim o.m o.n hv)]
  · obtain ⟨v, r, hd⟩ := key x h0 h1
    exact ⟨v, r, by rw [hd.unique (e1 x)]; exact (e4 x h0 h1).1⟩

/-- C71 is false of the code: for every polynomial with `n - |m| ≥ 40` the value of `radial_dr(1.0)` is another one. -/
theorem rim_slope_wrong (h : List Call) (fuel : Nat) (o : PolObj) (hv : ValidOrders o.m o.n) (hf : o.n.toNat + 1 < fuel) (hn : 40 ≤ o.n - |o.m|) :
    ∃ v, (Model.radialDr fuel o (.num 1) false (afterCalls h)).res = .ok (.scalar v) ∧ v ≠ ((o.n : ℝ) * (o.n + 2) - (o.m : ℝ) ^ 2) / 2 := by
  obtain ⟨v, r, hd⟩ := radial_dr_wrong h fuel o hv hf hn
  exact ⟨v, r, fun e => hd (by rw [e]; exact radial_deriv_rim o.m o.n hv)⟩

/-- C71, for all orders: two radii that differ by `d` give values of `radial` that differ by at most `d (n(n+2) - m²)/2`. -/
theorem radial_sensitivity (h h' : List Call) (fuel : Nat) (o : PolObj) (hv : ValidOrders o.m o.n) (hf : o.n.toNat + 1 < fuel) (x y : ℝ)
    (hx : 0 ≤ x ∧ x ≤ 1) (hy : 0 ≤ y ∧ y ≤ 1) :
    ∃ v w, (Model.radial fuel o (.num x) false (afterCalls h)).res = .ok (.scalar v) ∧ (Model.radial fuel o (.num y) false (afterCalls h')).res = .ok (.scalar w) ∧
      |v - w| ≤ ((o.n : ℝ) * (o.n + 2) - (o.m : ℝ) ^ 2) / 2 * |x - y| := by
  refine ⟨_, _, (radial_is_zernike h fuel o hv hf).1 x hx.1 hx.2, (radial_is_zernike h' fuel o hv hf).1 y hy.1 hy.2, ?_⟩
  exact (radial_R2 o.m o.n hv).lipschitz hx hy

/-- C71. The constant is sharp: it is the limit of the difference quotients at the rim, so no smaller one will do. -/
theorem radial_sensitivity_sharp (fuel : Nat) (o : PolObj) (hv : ValidOrders o.m o.n) (hf : o.n.toNat + 1 < fuel) (L : ℝ)
    (hL : ∀ x y v w, 0 ≤ x → x ≤ 1 → 0 ≤ y → y ≤ 1 → (Model.radial fuel o (.num x) false (afterCalls [])).res = .ok (.scalar v) →
      (Model.radial fuel o (.num y) false (afterCalls [])).res = .ok (.scalar w) → |v - w| ≤ L * |x - y|) :
    ((o.n : ℝ) * (o.n + 2) - (o.m : ℝ) ^ 2) / 2 ≤ L := by
  refine lipschitz_ge_deriv (radial_deriv_rim o.m o.n hv) fun x h0 h1 => ?_
  exact hL 1 x _ _ zero_le_one le_rfl h0 h1 ((radial_is_zernike [] fuel o hv hf).1 1 zero_le_one le_rfl) ((radial_is_zernike [] fuel o hv hf).1 x h0 h1)

/-- C71. The sensitivity of `polynomial_value` to the radius and the angle. -/
theorem value_sensitivity (h h' : List Call) (fuel : Nat) (o : PolObj) (hv : ValidOrders o.m o.n) (hf : o.n.toNat + 1 < fuel) (x y t t' : ℝ)
    (hx : 0 ≤ x ∧ x ≤ 1) (hy : 0 ≤ y ∧ y ≤ 1) :
    ∃ v w, (polynomialValue fuel o (.num x) (.num t) false (afterCalls h)).res = .ok (.scalar v) ∧
      (polynomialValue fuel o (.num y) (.num t') false (afterCalls h')).res = .ok (.scalar w) ∧
      |v - w| ≤ Spec.norm o.m o.n * (((o.n : ℝ) * (o.n + 2) - (o.m : ℝ) ^ 2) / 2 * |x - y| + |(o.m : ℝ)| * |t - t'|) := by
  refine ⟨_, _, value_is_zernike h fuel o hv hf x t hx.1 hx.2, value_is_zernike h' fuel o hv hf y t' hy.1 hy.2, ?_⟩
  have h1 := (zernike_R2_radial o.m o.n hv t).lipschitz hx hy
  have h2 := (zernike_R2_angular o.m o.n hv y hy.1 hy.2 (min t t') (max t t')).lipschitz (x := t) (y := t') ⟨min_le_left _ _, le_max_left _ _⟩ ⟨min_le_right _ _, le_max_right _ _⟩
  have := abs_sub_le (zernike o.m o.n x t) (zernike o.m o.n y t) (zernike o.m o.n y t')
  refine this.trans ((add_le_add h1 h2).trans (le_of_eq ?_))
  unfold rimSlope
  ring

/-- Vertical coma of the 3rd order: slope 7 at the rim. -/
example : (Model.radialDr 10 ⟨-1, 3, false⟩ (.num 1) false (afterCalls [])).res = .ok (.scalar 7) := by
  have := (slope_greatest_at_rim_partial [] 10 ⟨-1, 3, false⟩ (by decide) (by decide) false (by decide)).1
  norm_num at this
  exact this

/-- The orders of `rim_slope_wrong`. -/
example : ValidOrders 0 40 ∧ 40 ≤ (40 : Int) - |0| := by decide

end Verif.Props
