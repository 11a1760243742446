import Verif.Proofs.Coeffs
import Mathlib.Data.Real.Basic
import Mathlib.Tactic.Linarith

/-! Invalid orders, and what the recurrences of `radial_polynomial_coeffs_dr` compute above the 38th order. -/

namespace Verif.Proofs
open Verif.Spec Verif.Model Finset Polynomial

theorem cachedVal_invalid {m n : Int} (hv : ¬ ValidOrders m n) (b : Bool) (body : CM Coeffs) (s : CoefState) (hs : Good s)
    (h : (body s).1 = .error .recursionError) : (cachedVal ((m, n), b) body s).1 = .error .recursionError := by
  unfold cachedVal
  cases hl : s.lru.lookup ((m, n), b) with
  | some d => exact absurd (hs.lru _ _ _ _ (lookup_mem _ _ _ hl)).1 hv
  | none =>
    rcases hx : body s with ⟨r, s'⟩
    rw [hx] at h; simp only at h; subst h; rfl

theorem cachedDr_invalid {m n : Int} (hv : ¬ ValidOrders m n) (b : Bool) (body : CM Coeffs) (s : CoefState) (hs : Good s)
    (h : (body s).1 = .error .recursionError) : (cachedDr ((m, n), b) body s).1 = .error .recursionError := by
  unfold cachedDr
  cases hl : s.lruDr.lookup ((m, n), b) with
  | some d => exact absurd (hs.lruDr _ _ _ _ (lookup_mem _ _ _ hl)).1 hv
  | none =>
    rcases hx : body s with ⟨r, s'⟩
    rw [hx] at h; simp only at h; subst h; rfl

theorem bind_error {β γ : Type} {x : CM β} {f : β → CM γ} {s : CoefState} {e : PyErr} (h : (x s).1 = .error e) :
    ((x >>= f) s).1 = .error e := by
  show (match x s with | (.ok v, s') => f v s' | (.error e, s') => (.error e, s')).1 = _
  rcases hx : x s with ⟨r, s'⟩
  rw [hx] at h; simp only at h; subst h; rfl

theorem lift_bind {β γ : Type} {x : Res β} {f : β → CM γ} {s : CoefState} {v : β} (h : x = .ok v) :
    (CM.lift x >>= f) s = f v s := by subst h; rfl

/-- Orders that are not valid end in a recursion error, whatever was computed before. -/
theorem findCoeffs_invalid (fuel : Nat) (b : Bool) (m n : Int) (hv : ¬ ValidOrders m n) (s : CoefState) (hs : Good s) :
    (findCoeffs fuel b m n s).1 = .error .recursionError := by
  induction fuel generalizing b m n s with
  | zero => rfl
  | succ fuel ih =>
    unfold findCoeffs
    refine cachedVal_invalid hv b _ s hs ?_
    cases hl : s.vals.lookup (m, n) with
    | some d => exact absurd (hs.vals _ _ _ (lookup_mem _ _ _ hl)).1 hv
    | none =>
      simp only
      rw [lift_bind (special_none m n hv)]
      exact bind_error (ih true _ _ (invalid_down hv) s hs)

theorem findCoeffsDr_invalid (fuel : Nat) (b : Bool) (m n : Int) (hv : ¬ ValidOrders m n) (s : CoefState) (hs : Good s) :
    (findCoeffsDr fuel b m n s).1 = .error .recursionError := by
  cases fuel with
  | zero => rfl
  | succ fuel =>
    unfold findCoeffsDr
    refine cachedDr_invalid hv b _ s hs ?_
    cases hl : s.drs.lookup (m, n) with
    | some d => exact absurd (hs.drs _ _ _ (lookup_mem _ _ _ hl)).1 hv
    | none =>
      simp only
      rw [lift_bind (special_none_dr m n hv)]
      exact bind_error (findCoeffs_invalid fuel true _ _ (invalid_down hv) s hs)

section
variable {α : Type} [CommRing α]

theorem radialPolynomialCoeffs_invalid (fuel : Nat) (m n : Int) (r : α) (hv : ¬ ValidOrders m n) (s : CoefState)
    (hs : Good s) : (radialPolynomialCoeffs fuel m n r s).1 = .error .recursionError := by
  induction fuel generalizing m n s with
  | zero => rfl
  | succ fuel ih =>
    have hv' := hv
    rw [valid_iff] at hv'
    unfold radialPolynomialCoeffs
    split_ifs with h40 h1 h0 h2
    · exact bind_error (findCoeffs_invalid fuel false m n hv s hs)
    · exfalso; unfold pyAbs at h1; split_ifs at h1 <;> omega
    · subst h0
      exact bind_error (ih 1 (n - 1) (by rw [valid_iff]; omega) s hs)
    · exfalso; unfold pyAbs at h2; split_ifs at h2 <;> omega
    · exact bind_error (ih _ _ (invalid_down hv) s hs)

theorem radialPolynomialCoeffsDr_invalid (fuel : Nat) (m n : Int) (r : α) (hv : ¬ ValidOrders m n) (s : CoefState)
    (hs : Good s) : (radialPolynomialCoeffsDr fuel m n r s).1 = .error .recursionError := by
  induction fuel generalizing m n s with
  | zero => rfl
  | succ fuel ih =>
    have hv' := hv
    rw [valid_iff] at hv'
    unfold radialPolynomialCoeffsDr
    split_ifs with h40 h1 h0 h2
    · exact bind_error (findCoeffsDr_invalid fuel false m n hv s hs)
    · exfalso; unfold pyAbs at h1; split_ifs at h1 <;> omega
    · subst h0
      exact bind_error (ih 1 (n - 1) (by rw [valid_iff]; omega) s hs)
    · exfalso; unfold pyAbs at h2; split_ifs at h2 <;> omega
    · exact bind_error (radialPolynomialCoeffs_invalid fuel _ _ r (invalid_down hv) s hs)

/-! ### The derivative above the 38th order -/

theorem drVal_correct (fuel : Nat) (m n : Int) (r : α) (hv : ValidOrders m n) (hf : n.toNat < fuel)
    (hd : n - pyAbs m ≤ 38) : drVal fuel m n r = DR m n r := by
  induction fuel generalizing m n with
  | zero => omega
  | succ fuel ih =>
    have hn := (valid_iff m n).1 hv
    unfold drVal
    split_ifs with h38 h1 h0 h2
    · rfl
    · rfl
    · exfalso; subst h0; simp [pyAbs] at hd; omega
    · rfl
    · obtain ⟨v1, v2, v3⟩ := valid_down hv h1
      have w3 := (valid_iff _ _).1 v3
      rw [ih _ _ (valid_pyAbs v1) (by omega) (by unfold pyAbs at *; split_ifs at * <;> omega),
        ih _ _ v2 (by omega) (by unfold pyAbs at *; split_ifs at * <;> omega),
        ih _ _ v3 (by omega) (by unfold pyAbs at *; split_ifs at * <;> omega), DR_abs, ← DR_rec m n hv h1]

theorem drVal_neg (fuel : Nat) (m n : Int) (r : α) : drVal fuel (-m) n r = drVal fuel m n r := by
  induction fuel generalizing m n with
  | zero => rfl
  | succ fuel ih =>
    have ea : pyAbs (-m) = pyAbs m := by unfold pyAbs; split_ifs <;> omega
    unfold drVal
    rw [ea, DR_neg]
    by_cases h0 : m = 0
    · subst h0; simp
    · have h0' : -m ≠ 0 := by omega
      rw [if_neg h0', if_neg h0]
      have e1 : RR (-m - 1) (n - 1) r = RR (m + 1) (n - 1) r := by rw [← RR_neg]; congr 1; ring
      have e2 : RR (-m + 1) (n - 1) r = RR (m - 1) (n - 1) r := by rw [← RR_neg]; congr 1; ring
      have habs : ∀ k : Int, drVal fuel (pyAbs k) (n - 1) r = drVal fuel k (n - 1) r := by
        intro k; unfold pyAbs; split_ifs
        · exact ih k _
        · rfl
      have e3 : drVal fuel (pyAbs (-m - 1)) (n - 1) r = drVal fuel (m + 1) (n - 1) r := by
        rw [habs, ← ih]; congr 1; ring
      have e4 : drVal fuel (-m + 1) (n - 1) r = drVal fuel (pyAbs (m - 1)) (n - 1) r := by
        rw [habs, ← ih]; congr 1; ring
      rw [e1, e2, e3, e4, ih]
      split_ifs <;> ring

theorem drVal_abs (fuel : Nat) (m n : Int) (r : α) : drVal fuel (pyAbs m) n r = drVal fuel m n r := by
  unfold pyAbs; split_ifs
  · exact drVal_neg ..
  · rfl

theorem DR_at_one (m n : Int) (h : ValidOrders m n) : 2 * DR m n (1 : α) = ((n * (n + 2) - m * m : Int) : α) := by
  have key : ∀ N : Nat, ∀ m n : Int, n.toNat ≤ N → ValidOrders m n →
      2 * DR m n (1 : α) = ((n * (n + 2) - m * m : Int) : α) := by
    intro N
    induction N using Nat.strong_induction_on with
    | _ N ih =>
      intro m n hN hv
      have hn := (valid_iff m n).1 hv
      by_cases h1 : pyAbs m = n
      · have hm : m * m = n * n := by unfold pyAbs at h1; split_ifs at h1 <;> (subst h1; ring)
        by_cases h0 : n = 0
        · subst h0
          have : m = 0 := by omega
          subst this; rw [DR_zero]; simp
        · rw [DR_diag m n hv h1 (by omega), hm]; push_cast; simp; ring
      · obtain ⟨v1, v2, v3⟩ := valid_down hv h1
        have w3 := (valid_iff _ _).1 v3
        have a1 := ih (n - 1).toNat (by omega) (m - 1) (n - 1) le_rfl v1
        have a2 := ih (n - 1).toNat (by omega) (m + 1) (n - 1) le_rfl v2
        have a3 := ih (n - 2).toNat (by omega) m (n - 2) le_rfl v3
        have o1 : RR (m - 1) (n - 1) (1 : α) = 1 := Rab_at_one _ _
        have o2 : RR (m + 1) (n - 1) (1 : α) = 1 := Rab_at_one _ _
        rw [DR_rec m n hv h1, o1, o2]
        have e : (2 : α) * (1 + 1 + 1 * (DR (m - 1) (n - 1) 1 + DR (m + 1) (n - 1) 1) - DR m (n - 2) 1) =
            4 + 2 * DR (m - 1) (n - 1) 1 + 2 * DR (m + 1) (n - 1) 1 - 2 * DR m (n - 2) 1 := by ring
        rw [e, a1, a2, a3]; push_cast; ring
  exact key n.toNat m n le_rfl h

end

/-- Error of the derivative at the rim for `n - |m| = 38 + 2 d`. -/
noncomputable def drErr : Nat → ℝ
  | 0 => 0
  | d + 1 => 2 * (DR 1 (39 + 2 * (d : Int)) (1 : ℝ) - 1) + 3 * drErr d

theorem drErr_pos (d : Nat) : 0 < drErr (d + 1) := by
  induction d with
  | zero =>
    have := DR_at_one (α := ℝ) 1 39 (by rw [valid_iff]; omega)
    unfold drErr
    norm_num at this ⊢
    simp only [drErr]
    linarith
  | succ d ih =>
    have := DR_at_one (α := ℝ) 1 (39 + 2 * ((d + 1 : Nat) : Int)) (by rw [valid_iff]; omega)
    unfold drErr
    push_cast at this ⊢
    have hd : (0 : ℝ) ≤ d := Nat.cast_nonneg d
    nlinarith

/-- Exactly how far off the computed derivative is at the rim. -/
theorem drVal_error (fuel : Nat) (m n : Int) (d : Nat) (hv : ValidOrders m n) (hm : 0 ≤ m) (hf : n.toNat < fuel)
    (hd : n - m = 38 + 2 * d) : drVal fuel m n (1 : ℝ) = DR m n (1 : ℝ) + drErr d := by
  induction fuel generalizing m n d with
  | zero => omega
  | succ fuel ih =>
    have hn := (valid_iff m n).1 hv
    have habs : pyAbs m = m := by unfold pyAbs; split_ifs <;> omega
    rcases d with _ | d
    · rw [drVal_correct (fuel + 1) m n 1 hv hf (by rw [habs]; omega)]; simp [drErr]
    · have h1 : pyAbs m ≠ n := by omega
      obtain ⟨v1, v2, v3⟩ := valid_down hv h1
      have o : ∀ a b, RR a b (1 : ℝ) = 1 := fun a b => Rab_at_one _ _
      unfold drVal
      rw [if_neg (by omega), if_neg h1]
      by_cases h0 : m = 0
      · subst h0
        rw [zero_add] at v2
        rw [if_pos rfl, ih 1 (n - 1) d v2 (by omega) (by omega) (by omega), ih 0 (n - 2) d v3 le_rfl (by omega) (by omega),
          DR_zero_rec n hv (by omega), o]
        have en : n - 1 = 39 + 2 * (d : Int) := by omega
        simp only [drErr, en]
        ring
      · rw [if_neg h0, if_neg (by omega)]
        have e1 : pyAbs (m - 1) = m - 1 := by unfold pyAbs; split_ifs <;> omega
        rw [e1, ih (m - 1) (n - 1) (d + 1) v1 (by omega) (by omega) (by omega),
          ih (m + 1) (n - 1) d v2 (by omega) (by omega) (by omega), ih m (n - 2) d v3 hm (by omega) (by omega),
          DR_rec m n hv h1]
        ring

/-- Above `n - |m| = 38` the computed derivative is wrong. -/
theorem drVal_wrong (fuel : Nat) (m n : Int) (hv : ValidOrders m n) (hf : n.toNat < fuel) (hd : 40 ≤ n - pyAbs m) :
    drVal fuel m n (1 : ℝ) ≠ DR m n (1 : ℝ) := by
  rw [← drVal_abs, ← DR_abs]
  have hv' := valid_pyAbs hv
  have hn := (valid_iff _ _).1 hv'
  obtain ⟨d, hd'⟩ : ∃ d : Nat, n - pyAbs m = 38 + 2 * ((d + 1 : Nat) : Int) :=
    ⟨((n - pyAbs m - 40) / 2).toNat, by omega⟩
  have h0 : 0 ≤ pyAbs m := by unfold pyAbs; split_ifs <;> omega
  rw [drVal_error fuel (pyAbs m) n (d + 1) hv' h0 hf hd']
  have := drErr_pos d
  intro h; linarith

end Verif.Proofs
