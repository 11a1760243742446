import Verif.Spec.Float
import Verif.Proofs.Methods
import Verif.Proofs.RadialBound

/-!
# Error analysis: values with a majorant
-/

namespace Verif.Proofs
open Verif.Model Verif.Spec

/-- `x` approximates `v`: `M` bounds `|v|`, and the error is at most `((1+u)^k - 1) M`. -/
def Ap {F : FloatArith} (u : ℝ) (k : ℕ) (M : ℝ) (x : Fl F) (v : ℝ) : Prop := |v| ≤ M ∧ |x.val - v| ≤ ((1 + u) ^ k - 1) * M

section
variable {F : FloatArith} {u : ℝ} {p : ℕ}

theorem one_le_pow_u (hu : 0 ≤ u) (k : ℕ) : 1 ≤ (1 + u) ^ k := one_le_pow₀ (by linarith)

theorem pow_u_mono (hu : 0 ≤ u) {k l : ℕ} (h : k ≤ l) : (1 + u) ^ k ≤ (1 + u) ^ l := pow_le_pow_right₀ (by linarith) h

theorem Ap.nonneg {k : ℕ} {M : ℝ} {x : Fl F} {v : ℝ} (h : Ap u k M x v) : 0 ≤ M := (abs_nonneg _).trans h.1

theorem Ap.mono (hu : 0 ≤ u) {k l : ℕ} {M N : ℝ} {x : Fl F} {v : ℝ} (h : Ap u k M x v) (hk : k ≤ l) (hM : M ≤ N) : Ap u l N x v := by
  refine ⟨h.1.trans hM, h.2.trans ?_⟩
  have := one_le_pow_u hu k
  have := pow_u_mono hu hk
  exact mul_le_mul (by linarith) hM h.nonneg (by linarith)

theorem Ap.abs_val {k : ℕ} {M : ℝ} {x : Fl F} {v : ℝ} (h : Ap u k M x v) : |x.val| ≤ (1 + u) ^ k * M := by
  have := abs_add_le (x.val - v) v
  rw [sub_add_cancel] at this
  have := h.1; have := h.2
  linarith

/-- Rounding an approximate value. -/
theorem Ap.round (hF : Accurate F u p) {k : ℕ} {M : ℝ} {a v : ℝ} (h1 : 1 ≤ M) (hv : |v| ≤ M) (h : |a - v| ≤ ((1 + u) ^ k - 1) * M) :
    Ap u (k + 1) M (⟨F.fl a⟩ : Fl F) v := by
  refine ⟨hv, ?_⟩
  have hu := hF.unit
  have h2 := hF.fl a
  have h3 : |a| ≤ (1 + u) ^ k * M := by
    have := abs_add_le (a - v) v
    rw [sub_add_cancel] at this
    linarith
  have h4 : (1 : ℝ) ≤ (1 + u) ^ k * M := by
    have := one_le_pow_u hu k
    nlinarith
  have h5 : max |a| 1 ≤ (1 + u) ^ k * M := max_le h3 h4
  have h6 := abs_sub_le (F.fl a) a v
  have h7 : u * max |a| 1 ≤ u * ((1 + u) ^ k * M) := mul_le_mul_of_nonneg_left h5 hu
  show |F.fl a - v| ≤ _
  calc |F.fl a - v| ≤ u * ((1 + u) ^ k * M) + ((1 + u) ^ k - 1) * M := by linarith
    _ = ((1 + u) ^ (k + 1) - 1) * M := by rw [pow_succ]; ring

theorem Ap.add (hF : Accurate F u p) {k l : ℕ} {M N : ℝ} {x y : Fl F} {v w : ℝ} (hx : Ap u k M x v) (hy : Ap u l N y w) (h1 : 1 ≤ M + N) :
    Ap u (max k l + 1) (M + N) (x + y) (v + w) := by
  have hx := hx.mono hF.unit (le_max_left k l) le_rfl
  have hy := hy.mono hF.unit (le_max_right k l) le_rfl
  refine Ap.round hF h1 ((abs_add_le _ _).trans (add_le_add hx.1 hy.1)) ?_
  rw [show x.val + y.val - (v + w) = (x.val - v) + (y.val - w) by ring, mul_add]
  exact (abs_add_le _ _).trans (add_le_add hx.2 hy.2)

theorem Ap.sub (hF : Accurate F u p) {k l : ℕ} {M N : ℝ} {x y : Fl F} {v w : ℝ} (hx : Ap u k M x v) (hy : Ap u l N y w) (h1 : 1 ≤ M + N) :
    Ap u (max k l + 1) (M + N) (x - y) (v - w) := by
  have hx := hx.mono hF.unit (le_max_left k l) le_rfl
  have hy := hy.mono hF.unit (le_max_right k l) le_rfl
  refine Ap.round hF h1 ((abs_sub _ _).trans (add_le_add hx.1 hy.1)) ?_
  rw [show x.val - y.val - (v - w) = (x.val - v) - (y.val - w) by ring, mul_add]
  exact (abs_sub _ _).trans (add_le_add hx.2 hy.2)

theorem mul_err {a b v w A B M N : ℝ} (hA : 1 ≤ A) (hB : 1 ≤ B) (h1 : |v| ≤ M) (h2 : |w| ≤ N) (h3 : |a - v| ≤ (A - 1) * M)
    (h4 : |b - w| ≤ (B - 1) * N) : |v * w| ≤ M * N ∧ |a * b - v * w| ≤ (A * B - 1) * (M * N) := by
  have hM : 0 ≤ M := (abs_nonneg _).trans h1
  have hN : 0 ≤ N := (abs_nonneg _).trans h2
  have hb : |b| ≤ B * N := by
    have := abs_add_le (b - w) w
    rw [sub_add_cancel] at this
    linarith
  refine ⟨by rw [abs_mul]; exact mul_le_mul h1 h2 (abs_nonneg _) hM, ?_⟩
  rw [show a * b - v * w = (a - v) * b + v * (b - w) by ring]
  refine (abs_add_le _ _).trans ?_
  rw [abs_mul, abs_mul]
  have e1 : |a - v| * |b| ≤ ((A - 1) * M) * (B * N) := mul_le_mul h3 hb (abs_nonneg _) (mul_nonneg (by linarith) hM)
  have e2 : |v| * |b - w| ≤ M * ((B - 1) * N) := mul_le_mul h1 h4 (abs_nonneg _) hM
  calc _ ≤ ((A - 1) * M) * (B * N) + M * ((B - 1) * N) := add_le_add e1 e2
    _ = _ := by ring

theorem Ap.mul (hF : Accurate F u p) {k l : ℕ} {M N : ℝ} {x y : Fl F} {v w : ℝ} (hx : Ap u k M x v) (hy : Ap u l N y w) (h1 : 1 ≤ M * N) :
    Ap u (k + l + 1) (M * N) (x * y) (v * w) := by
  have := mul_err (one_le_pow_u hF.unit k) (one_le_pow_u hF.unit l) hx.1 hy.1 hx.2 hy.2
  exact Ap.round hF h1 this.1 (by rw [pow_add]; exact this.2)

theorem Ap.int (hF : Accurate F u p) (n : Int) (hn : n ≠ 0) : Ap u 1 |(n : ℝ)| (n : Fl F) (n : ℝ) := by
  have h1 : (1 : ℝ) ≤ |(n : ℝ)| := by exact_mod_cast Int.one_le_abs hn
  refine Ap.round (k := 0) hF h1 le_rfl ?_
  simp

theorem Ap.ofNat (hF : Accurate F u p) (n : ℕ) [n.AtLeastTwo] : Ap u 1 (OfNat.ofNat n : ℝ) (OfNat.ofNat n : Fl F) (OfNat.ofNat n : ℝ) := by
  have h2 : 2 ≤ n := Nat.AtLeastTwo.prop
  have h1 : (1 : ℝ) ≤ (n : ℝ) := by exact_mod_cast (by omega : 1 ≤ n)
  have e : (OfNat.ofNat n : ℝ) = (n : ℝ) := rfl
  rw [e]
  refine Ap.round (k := 0) hF h1 (by rw [abs_of_nonneg (by linarith)]) ?_
  simp

theorem Ap.rat (hF : Accurate F u p) (q : ℚ) (hq : 1 ≤ q) : Ap u 1 (q : ℝ) (scal q : Fl F) (q : ℝ) := by
  have h1 : (1 : ℝ) ≤ (q : ℝ) := by exact_mod_cast hq
  refine Ap.round (k := 0) hF h1 (by rw [abs_of_nonneg (by linarith)]) ?_
  simp

theorem Ap.one : Ap u 0 1 (1 : Fl F) 1 := by
  refine ⟨by simp, ?_⟩
  show |(1 : ℝ) - 1| ≤ _
  simp

theorem Ap.zero : Ap u 0 0 (0 : Fl F) 0 := by
  refine ⟨by simp, ?_⟩
  show |(0 : ℝ) - 0| ≤ _
  simp

theorem Ap.self {r : Fl F} (h0 : 0 ≤ r.val) (h1 : r.val ≤ 1) : Ap u 0 1 r r.val :=
  ⟨by rw [abs_of_nonneg h0]; exact h1, by simp⟩

theorem Ap.pow (hF : Accurate F u p) {r : Fl F} (h0 : 0 ≤ r.val) (h1 : r.val ≤ 1) (k : ℕ) : Ap u p 1 (r ^ k) (r.val ^ k) := by
  refine ⟨by rw [abs_of_nonneg (by positivity)]; exact pow_le_one₀ h0 h1, ?_⟩
  rw [mul_one]
  exact hF.pow r.val k h0 h1

theorem fl_step {q : Prop} [Decidable q] {x y : Fl F} {v w : ℝ} {t : Option (Fl F)} {t' : Option ℝ} {Q : Fl F → ℝ → Prop}
    (h : (if q then some x else t) = some y) (h' : (if q then some v else t') = some w) (hq : q → Q x v)
    (ht : t = some y → t' = some w → Q y w) : Q y w := by
  split_ifs at h h' with c
  · cases h; cases h'; exact hq c
  · exact ht h h'

/-- Exponent for the radial polynomials of the order `n`. -/
abbrev expo (p : ℕ) (n : Int) : ℕ := 4 * n.toNat + p + 5

set_option maxHeartbeats 4000000 in
theorem table_fl (hF : Accurate F u p) (m n : Int) (r : Fl F) (h0 : 0 ≤ r.val) (h1 : r.val ≤ 1) (y : Fl F) (w : ℝ)
    (h : radialTable m n r = some y) (h' : radialTable m n r.val = some w) : Ap u (expo p n) (growth n.toNat) y w := by
  unfold radialTable at h h'
  iterate 33
    refine fl_step h h' (fun hp => ?_) (fun h h' => ?_)
    · clear h h'
      apply Ap.mono hF.unit
      · repeat any_goals first
          | with_reducible exact Ap.pow hF h0 h1 _
          | with_reducible exact Ap.self h0 h1
          | with_reducible exact Ap.one
          | with_reducible exact Ap.ofNat hF _
          | with_reducible apply Ap.mul hF
          | with_reducible apply Ap.sub hF
          | with_reducible apply Ap.add hF
        all_goals norm_num
      · casesm* _ ∨ _, _ ∧ _ <;> subst_vars <;> simp only [expo, Int.reduceToNat] <;> omega
      · casesm* _ ∨ _, _ ∧ _ <;> subst_vars <;> simp only [Int.reduceToNat, growth] <;> norm_num
    clear * - h h' h0 h1 hF
  exact absurd h (by simp)

theorem table_none_fl (m n : Int) (r : Fl F) (hv : ValidOrders m n) (hn : n ≤ 10) (h : radialTable m n r = none) : n > 7 ∧ pyAbs m = n := by
  rw [valid_iff] at hv
  obtain ⟨h0, h1, h2, h3⟩ := hv
  interval_cases n <;> interval_cases m <;> first | omega | (simp [radialTable] at h; done) | (simp [pyAbs]; done)

theorem some_step {q : Prop} [Decidable q] {β γ : Type} {x y : β} {v : γ} {t : Option β} {t' : Option γ} (h : (if q then some x else t) = some y)
    (ht : t = some y → ∃ w, t' = some w) : ∃ w, (if q then some v else t') = some w := by
  split_ifs at h ⊢ with c
  · exact ⟨_, rfl⟩
  · exact ht h

theorem table_some_fl (m n : Int) (r : Fl F) (y : Fl F) (h : radialTable m n r = some y) : ∃ w, radialTable m n r.val = some w := by
  unfold radialTable at h ⊢
  iterate 33
    refine some_step h (fun h => ?_)
  exact absurd h (by simp)

theorem growth_step (n : Int) (hn : 2 ≤ n) : (growth n.toNat : ℝ) = 2 * growth (n - 1).toNat + growth (n - 2).toNat := by
  obtain ⟨k, rfl⟩ : ∃ k : ℕ, n = k + 2 := ⟨(n - 2).toNat, by omega⟩
  rw [show ((k : Int) + 2).toNat = k + 2 by omega, show ((k : Int) + 2 - 1).toNat = k + 1 by omega, show ((k : Int) + 2 - 2).toNat = k by omega, growth]
  push_cast; ring

theorem growth_pos (n : ℕ) : 1 ≤ growth n := by
  induction n using growth.induct with
  | case1 => simp [growth]
  | case2 => simp [growth]
  | case3 n h1 h2 => rw [growth]; omega

theorem growth_one (n : ℕ) : (1 : ℝ) ≤ growth n := by exact_mod_cast growth_pos n

theorem growth_linear (n : ℕ) (hn : 2 ≤ n) : 2 * n - 1 ≤ growth n := by
  induction n using growth.induct with
  | case1 => omega
  | case2 => omega
  | case3 n h1 h2 =>
    rw [growth]
    have := growth_pos n
    have := growth_pos (n + 1)
    rcases Nat.lt_or_ge (n + 1) 2 with h | h
    · have : n = 0 := by omega
      subst this; simp [growth]
    · have := h1 h; omega

/-- One step of the general recurrence. -/
theorem step_fl (hF : Accurate F u p) (m n : Int) (hv : ValidOrders m n) (hne : pyAbs m ≠ n) (r : Fl F) (h0 : 0 ≤ r.val) (h1 : r.val ≤ 1) (x y z : Fl F)
    (hx : Ap u (expo p (n - 1)) (growth (n - 1).toNat) x (RR (m - 1) (n - 1) r.val))
    (hy : Ap u (expo p (n - 1)) (growth (n - 1).toNat) y (RR (m + 1) (n - 1) r.val))
    (hz : Ap u (expo p (n - 2)) (growth (n - 2).toNat) z (RR m (n - 2) r.val)) :
    Ap u (expo p n) (growth n.toNat) (r * (x + y) - z) (RR m n r.val) := by
  have hn : 2 ≤ n := by
    rw [valid_iff] at hv; unfold pyAbs at hne; split_ifs at hne <;> omega
  have g1 := growth_one (n - 1).toNat
  have g2 := growth_one (n - 2).toNat
  rw [RR_rec m n hv hne]
  refine ((((Ap.self h0 h1).mul hF (hx.add hF hy (by linarith)) (by linarith)).sub hF hz (by linarith)).mono hF.unit ?_ ?_)
  · simp only [expo]; omega
  · rw [growth_step n hn]; linarith

/-- One step of the recurrence for `m = 0`. -/
theorem step0_fl (hF : Accurate F u p) (n : Int) (hv : ValidOrders 0 n) (hn0 : 0 < n) (r : Fl F) (h0 : 0 ≤ r.val) (h1 : r.val ≤ 1) (x y : Fl F)
    (hx : Ap u (expo p (n - 1)) (growth (n - 1).toNat) x (RR 1 (n - 1) r.val))
    (hy : Ap u (expo p (n - 2)) (growth (n - 2).toNat) y (RR 0 (n - 2) r.val)) :
    Ap u (expo p n) (growth n.toNat) (2 * r * x - y) (RR 0 n r.val) := by
  have hn : 2 ≤ n := by rw [valid_iff] at hv; omega
  have g1 := growth_one (n - 1).toNat
  have g2 := growth_one (n - 2).toNat
  rw [RR_zero_rec n hv hn0, growth_step n hn]
  generalize (growth (n - 1).toNat : ℝ) = A at *
  generalize (growth (n - 2).toNat : ℝ) = B at *
  have e : (1 : ℝ) ≤ (OfNat.ofNat 2 : ℝ) * 1 * A := by norm_num; linarith
  refine ((((Ap.ofNat hF 2).mul hF (Ap.self h0 h1) (by norm_num)).mul hF hx e).sub hF hy (by linarith)).mono hF.unit ?_ ?_
  · simp only [expo]; omega
  · norm_num

/-- Power and closed form next to the diagonal. -/
theorem diag_fl (hF : Accurate F u p) (m n : Int) (hv : ValidOrders m n) (he : pyAbs m = n) (r : Fl F) (h0 : 0 ≤ r.val) (h1 : r.val ≤ 1) :
    Ap u (expo p n) (growth n.toNat) (r ^ n.toNat) (RR m n r.val) := by
  rw [RR_diag m n hv he]
  exact (Ap.pow hF h0 h1 _).mono hF.unit (by simp only [expo]; omega) (growth_one _)

theorem subdiag_fl (hF : Accurate F u p) (m n : Int) (hv : ValidOrders m n) (he : pyAbs m = n - 2) (h2 : 2 ≤ n) (r : Fl F) (h0 : 0 ≤ r.val) (h1 : r.val ≤ 1) :
    Ap u (expo p n) (growth n.toNat) ((n : Fl F) * r ^ n.toNat - ((n - 1 : Int) : Fl F) * r ^ (n - 2).toNat) (RR m n r.val) := by
  rw [RR_subdiag m n hv he]
  have a1 : |(n : ℝ)| = n := abs_of_nonneg (by exact_mod_cast (by omega : (0 : Int) ≤ n))
  have a2 : |((n - 1 : Int) : ℝ)| = ((n - 1 : Int) : ℝ) := abs_of_nonneg (by exact_mod_cast (by omega : (0 : Int) ≤ n - 1))
  have b1 : (1 : ℝ) ≤ n := by exact_mod_cast (by omega : (1 : Int) ≤ n)
  have b2 : (1 : ℝ) ≤ ((n - 1 : Int) : ℝ) := by exact_mod_cast (by omega : (1 : Int) ≤ n - 1)
  refine (((Ap.int hF n (by omega)).mul hF (Ap.pow hF h0 h1 _) (by rw [a1]; linarith)).sub hF
    ((Ap.int hF (n - 1) (by omega)).mul hF (Ap.pow hF h0 h1 _) (by rw [a2]; linarith)) (by rw [a1, a2]; linarith)).mono hF.unit ?_ ?_
  · simp only [expo]; omega
  · rw [a1, a2, mul_one, mul_one]
    have := growth_linear n.toNat (by omega)
    have e : n + (n - 1) ≤ ((growth n.toNat : ℕ) : Int) := by omega
    exact_mod_cast e

theorem radialPolynomial_fl (hF : Accurate F u p) (fuel : Nat) (m n : Int) (r : Fl F) (h0 : 0 ≤ r.val) (h1 : r.val ≤ 1) (hv : ValidOrders m n)
    (hf : n.toNat < fuel) : ∃ y, radialPolynomial fuel m n r = .ok y ∧ Ap u (expo p n) (growth n.toNat) y (RR m n r.val) := by
  induction fuel generalizing m n with
  | zero => omega
  | succ fuel ih =>
    unfold radialPolynomial
    cases ht : radialTable m n r with
    | some y =>
      obtain ⟨w, hw⟩ := table_some_fl m n r y ht
      refine ⟨y, rfl, ?_⟩
      rw [← radialTable_correct m n r.val w hw]
      exact table_fl hF m n r h0 h1 y w ht hw
    | none =>
      simp only
      have hn := (valid_iff m n).1 hv
      by_cases h10 : n ≤ 10
      · have := table_none_fl m n r hv h10 ht
        rw [if_pos this]
        exact ⟨_, rfl, diag_fl hF m n hv this.2 r h0 h1⟩
      · by_cases c1 : pyAbs m = n
        · rw [if_pos ⟨by omega, c1⟩]
          exact ⟨_, rfl, diag_fl hF m n hv c1 r h0 h1⟩
        · obtain ⟨v1, v2, v3⟩ := valid_down hv c1
          rw [if_neg (by tauto)]
          by_cases c2 : m = 0
          · subst c2
            rw [if_pos ⟨by omega, rfl⟩]
            obtain ⟨x, ex, hx⟩ := ih 1 (n - 1) (by simpa using v2) (by omega)
            obtain ⟨y, ey, hy⟩ := ih 0 (n - 2) v3 (by omega)
            rw [ex, ey]
            exact ⟨_, rfl, step0_fl hF n hv (by omega) r h0 h1 x y hx hy⟩
          · rw [if_neg (by tauto)]
            by_cases c3 : pyAbs m = n - 2
            · rw [if_pos ⟨by omega, c3⟩]
              exact ⟨_, rfl, subdiag_fl hF m n hv c3 (by omega) r h0 h1⟩
            · rw [if_neg (by tauto)]
              obtain ⟨x, ex, hx⟩ := ih _ _ (valid_pyAbs v1) (by omega)
              obtain ⟨y, ey, hy⟩ := ih _ _ v2 (by omega)
              obtain ⟨z, ez, hz⟩ := ih _ _ v3 (by omega)
              rw [ex, ey, ez]
              rw [RR_abs] at hx
              exact ⟨_, rfl, step_fl hF m n hv c1 r h0 h1 x y z hx hy hz⟩

/-! ### Sums over the coefficients -/

open Polynomial Finset in
/-- Sum of the absolute values of the first `N` coefficients. -/
noncomputable def l1 (N : ℕ) (q : ℤ[X]) : ℤ := ∑ i ∈ range N, |q.coeff i|

open Polynomial Finset in
theorem l1_X_mul (N : ℕ) (q : ℤ[X]) : l1 N (X * q) ≤ l1 N q := by
  unfold l1
  cases N with
  | zero => simp
  | succ N =>
    rw [sum_range_succ', sum_range_succ]
    simp only [coeff_X_mul, mul_coeff_zero, coeff_X_zero, zero_mul, abs_zero, add_zero]
    have := abs_nonneg (q.coeff N)
    linarith

open Polynomial Finset in
theorem l1_add (N : ℕ) (q q' : ℤ[X]) : l1 N (q + q') ≤ l1 N q + l1 N q' := by
  unfold l1
  rw [← sum_add_distrib]
  exact sum_le_sum fun i _ => by rw [coeff_add]; exact abs_add_le _ _

open Polynomial Finset in
theorem l1_sub (N : ℕ) (q q' : ℤ[X]) : l1 N (q - q') ≤ l1 N q + l1 N q' := by
  unfold l1
  rw [← sum_add_distrib]
  exact sum_le_sum fun i _ => by rw [coeff_sub]; exact abs_sub _ _

open Polynomial Finset in
theorem l1_X_pow (N k : ℕ) : l1 N (X ^ k) ≤ 1 := by
  unfold l1
  simp only [coeff_X_pow]
  calc ∑ i ∈ range N, |if i = k then (1 : ℤ) else 0| = ∑ i ∈ range N, if i = k then (1 : ℤ) else 0 := by
        refine sum_congr rfl fun i _ => ?_
        split_ifs <;> simp
    _ ≤ 1 := by
        rw [sum_ite_eq']
        split_ifs <;> simp

open Polynomial in
theorem l1_Rab (N a b : ℕ) : l1 N (Rab a b (X : ℤ[X])) ≤ growth (a + b) := by
  induction a generalizing b with
  | zero =>
    rw [Rab]
    exact (l1_X_pow N b).trans (by exact_mod_cast growth_pos _)
  | succ a ih =>
    induction b with
    | zero =>
      rw [Rab]
      exact (l1_X_pow N _).trans (by exact_mod_cast growth_pos _)
    | succ b ihb =>
      rw [Rab]
      have e1 := l1_sub N (X * (Rab a (b + 1) (X : ℤ[X]) + Rab (a + 1) b X)) (Rab a b X)
      have e2 := l1_X_mul N (Rab a (b + 1) (X : ℤ[X]) + Rab (a + 1) b X)
      have e3 := l1_add N (Rab a (b + 1) (X : ℤ[X])) (Rab (a + 1) b X)
      have i1 := ih (b + 1)
      have i2 := ih b
      rw [show a + (b + 1) = a + b + 1 by omega] at i1
      rw [show a + 1 + b = a + b + 1 by omega] at ihb
      rw [show a + 1 + (b + 1) = a + b + 2 by omega, growth]
      push_cast
      linarith

theorem l1_RP (N : ℕ) (m n : Int) (hv : ValidOrders m n) : l1 N (RP m n) ≤ growth n.toNat := by
  have h := (valid_iff m n).1 hv
  refine (l1_Rab N _ _).trans (le_of_eq ?_)
  congr 2
  omega

/-- Accumulation of `value * r ** key`. -/
theorem evalLoop_fl (hF : Accurate F u p) (r : Fl F) (h0 : 0 ≤ r.val) (h1 : r.val ≤ 1) (d : Coeffs) (j k : ℕ) (hk : p + 2 ≤ k) (A : ℝ) (acc : Fl F) (v : ℝ)
    (h : Ap u k A acc v) :
    Ap u (k + d.length) (A + ∑ i ∈ Finset.range d.length, |(d.getD i 0 : ℝ)|) (evalLoop r (itemsFrom j d) acc) (evalLoop r.val (itemsFrom j d) v) := by
  induction d generalizing j k A acc v with
  | nil => simpa [itemsFrom, evalLoop] using h
  | cons c t ih =>
    unfold itemsFrom evalLoop
    rw [List.length_cons, Finset.sum_range_succ']
    simp only [List.getD_cons_succ, List.getD_cons_zero]
    have hA := h.nonneg
    have key : Ap u (k + 1) (A + |(c : ℝ)|) (if c ≠ 0 then acc + (c : Fl F) * r ^ (j : Int).toNat else acc)
        (if c ≠ 0 then v + (c : ℝ) * r.val ^ (j : Int).toNat else v) := by
      by_cases hc : c = 0
      · subst hc
        simp only [ne_eq, not_true, if_false]
        exact h.mono hF.unit (by omega) (by simp)
      · rw [if_pos hc, if_pos hc]
        have hc1 : (1 : ℝ) ≤ |(c : ℝ)| := by exact_mod_cast Int.one_le_abs hc
        refine (h.add hF ((Ap.int hF c hc).mul hF (Ap.pow hF h0 h1 _) (by linarith)) (by linarith)).mono hF.unit ?_ (by linarith)
        have : max k (1 + p + 1) = k := by omega
        omega
    have := ih (j + 1) (k + 1) (by omega) _ _ _ key
    refine this.mono hF.unit (by omega) (by linarith)

theorem eval_fl (hF : Accurate F u p) (m n : Int) (hv : ValidOrders m n) (d : Coeffs) (hd : CorrectV m n d) (r : Fl F) (h0 : 0 ≤ r.val) (h1 : r.val ≤ 1) :
    Ap u (expo p n) (growth n.toNat) (evalLoop r (itemsFrom 0 d) 0) (RR m n r.val) := by
  have h := evalLoop_fl hF r h0 h1 d 0 (p + 2) le_rfl 0 0 0 (Ap.zero.mono hF.unit (by omega) le_rfl)
  rw [eval_CorrectV hd] at h
  have hl := hd.2.1
  have hn := (valid_iff m n).1 hv
  refine h.mono hF.unit (by simp only [expo]; omega) ?_
  rw [zero_add]
  have e := l1_RP d.length m n hv
  unfold l1 at e
  have e2 : ∑ i ∈ Finset.range d.length, |(d.getD i 0 : ℝ)| = ((∑ i ∈ Finset.range d.length, |(RP m n).coeff i| : ℤ) : ℝ) := by
    push_cast
    exact Finset.sum_congr rfl fun i _ => by rw [hd.2.2 i]
  rw [e2]
  exact_mod_cast e

theorem radialPolynomialCoeffs_fl (hF : Accurate F u p) (fuel : Nat) (m n : Int) (r : Fl F) (h0 : 0 ≤ r.val) (h1 : r.val ≤ 1) :
    Tr (ValidOrders m n ∧ n.toNat + 1 < fuel) (radialPolynomialCoeffs fuel m n r)
      (fun v => ValidOrders m n → Ap u (expo p n) (growth n.toNat) v (RR m n r.val)) := by
  induction fuel generalizing m n with
  | zero => exact Tr.raise (by omega)
  | succ fuel ih =>
    unfold radialPolynomialCoeffs
    split_ifs with h40 c1 c0 c2
    · refine Tr.bind ((findCoeffs_tr fuel false m n).mono (fun h => ⟨h.1, by omega⟩) fun _ h => h) ?_
      intro d hd
      exact Tr.pure fun hv => eval_fl hF m n hv d hd.2 r h0 h1
    · exact Tr.pure fun hv => diag_fl hF m n hv c1 r h0 h1
    · subst c0
      by_cases hv : ValidOrders 0 n
      · have hn := (valid_iff 0 n).1 hv
        have h40' : 40 < n := by simpa [maxRadialOrderCoeffs] using h40
        obtain ⟨v1, v2, v3⟩ := valid_down hv c1
        rw [zero_add] at v2
        refine Tr.bind ((ih 1 (n - 1)).mono (fun h => ⟨v2, by omega⟩) fun _ h => h) ?_
        intro x hx
        refine Tr.bind ((ih 0 (n - 2)).mono (fun h => ⟨v3, by omega⟩) fun _ h => h) ?_
        intro y hy
        exact Tr.pure fun _ => step0_fl hF n hv (by omega) r h0 h1 x y (hx v2) (hy v3)
      · refine Tr.bind ((ih 1 (n - 1)).mono (fun h => absurd h.1 hv) fun _ h => h) fun x _ => ?_
        refine Tr.bind ((ih 0 (n - 2)).mono (fun h => absurd h.1 hv) fun _ h => h) fun y _ => ?_
        exact Tr.pure fun h => absurd h hv
    · refine Tr.pure fun hv => subdiag_fl hF m n hv c2 ?_ r h0 h1
      simp only [maxRadialOrderCoeffs] at h40
      omega
    · by_cases hv : ValidOrders m n
      · have hn := (valid_iff m n).1 hv
        have h40' : 40 < n := by simpa [maxRadialOrderCoeffs] using h40
        obtain ⟨v1, v2, v3⟩ := valid_down hv c1
        refine Tr.bind ((ih (pyAbs (m - 1)) (n - 1)).mono (fun h => ⟨valid_pyAbs v1, by omega⟩) fun _ h => h) ?_
        intro x hx
        refine Tr.bind ((ih (m + 1) (n - 1)).mono (fun h => ⟨v2, by omega⟩) fun _ h => h) ?_
        intro y hy
        refine Tr.bind ((ih m (n - 2)).mono (fun h => ⟨v3, by omega⟩) fun _ h => h) ?_
        intro z hz
        refine Tr.pure fun _ => step_fl hF m n hv c1 r h0 h1 x y z ?_ (hy v2) (hz v3)
        have := hx (valid_pyAbs v1)
        rwa [RR_abs] at this
      · refine Tr.bind ((ih (pyAbs (m - 1)) (n - 1)).mono (fun h => absurd h.1 hv) fun _ h => h) fun x _ => ?_
        refine Tr.bind ((ih (m + 1) (n - 1)).mono (fun h => absurd h.1 hv) fun _ h => h) fun y _ => ?_
        refine Tr.bind ((ih m (n - 2)).mono (fun h => absurd h.1 hv) fun _ h => h) fun z _ => ?_
        exact Tr.pure fun h => absurd h hv

end

end Verif.Proofs
