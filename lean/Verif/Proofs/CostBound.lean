import Verif.Proofs.Cost

/-!
# Polynomial bounds for the accesses to the tables made by `find_coeffs_orders` and `find_coeffs_orders_dr`
-/

namespace Verif.Proofs
open Verif.Model Verif.Spec

/-- Orders of a polynomial from the order 9 on. -/
def High (m n : Int) : Prop := 9 ≤ n ∧ -n ≤ m ∧ m ≤ n ∧ (n - m) % 2 = 0

theorem high_of_valid {m n : Int} (h : ValidOrders m n) (hn : 9 ≤ n) : High m n := by
  obtain ⟨_, h2, h3⟩ := h
  obtain ⟨h4, h5⟩ := abs_le.1 h2
  refine ⟨hn, h4, h5, ?_⟩
  rcases abs_cases m with ⟨e, _⟩ | ⟨e, _⟩ <;> rw [e] at h3 <;> omega

theorem initVals_low {m n : Int} (h : High m n) (hn : n ≤ 10) : (pyAbs m = n ∨ pyAbs m = n - 2) ∨ (initVals.lookup (m, n)).isSome := by
  have key : ∀ n ∈ Finset.Icc (9 : Int) 10, ∀ m ∈ Finset.Icc (-10 : Int) 10, -n ≤ m → m ≤ n → (n - m) % 2 = 0 →
      (pyAbs m = n ∨ pyAbs m = n - 2) ∨ (initVals.lookup (m, n)).isSome := by decide +kernel
  obtain ⟨h1, h2, h3, h4⟩ := h
  exact key n (Finset.mem_Icc.2 ⟨h1, hn⟩) m (Finset.mem_Icc.2 ⟨by omega, by omega⟩) h2 h3 h4

theorem initDrs_low {m n : Int} (h : High m n) (hn : n ≤ 10) : (pyAbs m = n ∨ pyAbs m = n - 2) ∨ (initDrs.lookup (m, n)).isSome := by
  have key : ∀ n ∈ Finset.Icc (9 : Int) 10, ∀ m ∈ Finset.Icc (-10 : Int) 10, -n ≤ m → m ≤ n → (n - m) % 2 = 0 →
      (pyAbs m = n ∨ pyAbs m = n - 2) ∨ (initDrs.lookup (m, n)).isSome := by decide +kernel
  obtain ⟨h1, h2, h3, h4⟩ := h
  exact key n (Finset.mem_Icc.2 ⟨h1, hn⟩) m (Finset.mem_Icc.2 ⟨by omega, by omega⟩) h2 h3 h4

theorem FAt.easy {fuel : Nat} {b : Bool} {m n : Int} {s : CoefState} (hv : High m n) (h : Easy m n ∨ HasV s (m, n)) : FAt 5 fuel b m n s := by
  rcases h with (h | h) | h
  · exact FAt.quick ((initVals_low hv h).imp id .inr)
  · exact FAt.quick (.inl h)
  · exact FAt.quick (.inr (.inl h))

theorem DAt.easy {fuel : Nat} {b : Bool} {m n : Int} {s : CoefState} (hv : High m n) (h : Easy m n ∨ HasD s (m, n)) : DAt 5 fuel b m n s := by
  rcases h with (h | h) | h
  · exact DAt.quick ((initDrs_low hv h).imp id .inr)
  · exact DAt.quick (.inl h)
  · exact DAt.quick (.inr (.inl h))

/-- A bound written with a natural number. -/
theorem FAt.cast {fuel : Nat} {b : Bool} {m n : Int} {s : CoefState} {c : ℕ∞} {N : ℕ} (h : FAt c fuel b m n s) (hc : c ≤ (N : ℕ∞)) :
    FAt (N : ℕ∞) fuel b m n s := CAt.le h hc

theorem DAt.cast {fuel : Nat} {b : Bool} {m n : Int} {s : CoefState} {c : ℕ∞} {N : ℕ} (h : DAt c fuel b m n s) (hc : c ≤ (N : ℕ∞)) :
    DAt (N : ℕ∞) fuel b m n s := CAt.le h hc

theorem five_le {N : ℕ} (h : 5 ≤ N) : (5 : ℕ∞) ≤ (N : ℕ∞) := by exact_mod_cast h

theorem not_easy {m n : Int} (h : ¬ Easy m n) : 10 < n ∧ pyAbs m ≠ n ∧ pyAbs m ≠ n - 2 := by
  unfold Easy at h
  push Not at h
  exact h

/-- The same as `FAt.node` with natural numbers. -/
theorem FAt.step {fuel : Nat} {b : Bool} {m n a : Int} {s : CoefState} {c1 c2 c3 N : ℕ} (ha : pyAbs (m - 1) = a)
    (h1 : ∀ t, KeysLe s t → FAt c1 fuel true a (n - 1) t)
    (h2 : ∀ t, KeysLe s t → Done t a (n - 1) → FAt c2 fuel true (m + 1) (n - 1) t)
    (h3 : ∀ t, KeysLe s t → Done t a (n - 1) → Done t (m + 1) (n - 1) → FAt c3 fuel true m (n - 2) t) (hN : c1 + c2 + c3 + 7 ≤ N) :
    FAt N (fuel + 1) b m n s := by
  subst ha
  exact (FAt.node h1 h2 h3).cast (by exact_mod_cast hN)

theorem DAt.step {fuel : Nat} {b : Bool} {m n a : Int} {s : CoefState} {c1 c2 e1 e2 e3 N : ℕ} (ha : pyAbs (m - 1) = a)
    (h1 : ∀ t, KeysLe s t → FAt c1 fuel true a (n - 1) t)
    (h2 : ∀ t, KeysLe s t → Done t a (n - 1) → FAt c2 fuel true (m + 1) (n - 1) t)
    (k1 : ∀ t, KeysLe s t → Done t a (n - 1) → Done t (m + 1) (n - 1) → DAt e1 fuel true a (n - 1) t)
    (k2 : ∀ t, KeysLe s t → Done t a (n - 1) → Done t (m + 1) (n - 1) → DoneD t a (n - 1) → DAt e2 fuel true (m + 1) (n - 1) t)
    (k3 : ∀ t, KeysLe s t → Done t a (n - 1) → Done t (m + 1) (n - 1) → DoneD t a (n - 1) → DoneD t (m + 1) (n - 1) → DAt e3 fuel true m (n - 2) t)
    (hN : c1 + c2 + e1 + e2 + e3 + 11 ≤ N) : DAt N (fuel + 1) b m n s := by
  subst ha
  exact (DAt.node h1 h2 k1 k2 k3).cast (by exact_mod_cast hN)

theorem FAt.five {fuel : Nat} {b : Bool} {m n : Int} {s : CoefState} (hv : High m n) (h : Easy m n ∨ HasV s (m, n)) : FAt ((5 : ℕ) : ℕ∞) fuel b m n s :=
  FAt.easy hv h

theorem DAt.five {fuel : Nat} {b : Bool} {m n : Int} {s : CoefState} (hv : High m n) (h : Easy m n ∨ HasD s (m, n)) : DAt ((5 : ℕ) : ℕ∞) fuel b m n s :=
  DAt.easy hv h

/-- Coefficients computed before, but no longer cached, are computed again with a number of accesses linear in the order. -/
theorem FAt.again (k : Nat) {fuel : Nat} {b : Bool} {m n : Int} {s : CoefState} (hv : High m n) (hk : n ≤ 10 + k) (hd : Done s m n) :
    FAt ((5 + 17 * k : ℕ) : ℕ∞) fuel b m n s := by
  induction k generalizing fuel b m n s with
  | zero => exact (FAt.easy hv (.inl (.inl (by omega)))).cast (five_le (by omega))
  | succ k ih =>
    by_cases he : Easy m n
    · exact (FAt.easy hv (.inl he)).cast (five_le (by omega))
    · cases fuel with
      | zero => exact FAt.zero _ _ _ _ _
      | succ fuel =>
        cases hd with
        | easy e => exact absurd e he
        | node v1 v2 d1 d2 d3 =>
          obtain ⟨e1, e2, e3⟩ := not_easy he
          obtain ⟨w1, w2, w3, w4⟩ := hv
          have hp : High (pyAbs (m - 1)) (n - 1) := by
            unfold pyAbs at e2 e3 ⊢
            unfold High
            split_ifs at e2 e3 ⊢ <;> omega
          have hq : High (m + 1) (n - 1) ∧ High m (n - 2) := by
            unfold pyAbs at e2 e3
            unfold High
            split_ifs at e2 e3 <;> omega
          exact FAt.step rfl (fun t hl => FAt.five hp (.inr (v1.later hl))) (fun t hl _ => FAt.five hq.1 (.inr (v2.later hl)))
            (fun t hl _ _ => ih hq.2 (by omega) (d3.later hl)) (by omega)

/-- The orders `(m, n)` when `(m - 1, n - 1)` is in the table. -/
theorem FAt.right (k : Nat) {fuel : Nat} {b : Bool} {m n : Int} {s : CoefState} (hv : High m n) (hm : 1 ≤ m) (hk : n ≤ 10 + k)
    (h1 : HasV s (m - 1, n - 1)) (hd : Done s (m - 1) (n - 1)) : FAt ((5 + 17 * k : ℕ) : ℕ∞) fuel b m n s := by
  induction k generalizing fuel b m n s with
  | zero => exact (FAt.easy hv (.inl (.inl (by omega)))).cast (five_le (by omega))
  | succ k ih =>
    by_cases he : Easy m n
    · exact (FAt.easy hv (.inl he)).cast (five_le (by omega))
    · cases fuel with
      | zero => exact FAt.zero _ _ _ _ _
      | succ fuel =>
        obtain ⟨e1, e2, e3⟩ := not_easy he
        obtain ⟨w1, w2, w3, w4⟩ := hv
        have ea : pyAbs m = m := by unfold pyAbs; split_ifs <;> omega
        have ea' : pyAbs (m - 1) = m - 1 := by unfold pyAbs; split_ifs <;> omega
        rw [ea] at e2 e3
        have hp : High (m - 1) (n - 1) ∧ High (m + 1) (n - 1) ∧ High m (n - 2) := by unfold High; omega
        cases hd with
        | easy e =>
          have hn : n = 11 := by
            rcases e with e | e | e
            · omega
            · rw [ea'] at e; omega
            · rw [ea'] at e; omega
          exact FAt.step ea' (fun t hl => FAt.five hp.1 (.inr (h1.later hl))) (fun t hl _ => FAt.five hp.2.1 (.inl (.inl (by omega))))
            (fun t hl _ _ => FAt.five hp.2.2 (.inl (.inl (by omega)))) (by omega)
        | node v1 v2 d1 d2 d3 =>
          rw [show m - 1 + 1 = m by ring, show n - 1 - 1 = n - 2 by ring] at v2 d2
          exact FAt.step ea' (fun t hl => FAt.five hp.1 (.inr (h1.later hl)))
            (fun t hl _ => ih hp.2.1 (by omega) (by omega) (by rw [show m + 1 - 1 = m by ring, show n - 1 - 1 = n - 2 by ring]; exact v2.later hl)
              (by rw [show m + 1 - 1 = m by ring, show n - 1 - 1 = n - 2 by ring]; exact d2.later hl))
            (fun t hl _ _ => FAt.five hp.2.2 (.inr (v2.later hl))) (by omega)

/-- `m ≥ 0`: the number of accesses is at most quadratic in the order. -/
theorem FAt.nonneg (k : Nat) {fuel : Nat} {b : Bool} {m n : Int} {s : CoefState} (hv : High m n) (hm : 0 ≤ m) (hk : n ≤ 10 + k) :
    FAt ((5 + 9 * k ^ 2 + 9 * k : ℕ) : ℕ∞) fuel b m n s := by
  induction k generalizing fuel b m n s with
  | zero => exact (FAt.easy hv (.inl (.inl (by omega)))).cast (five_le (by omega))
  | succ k ih =>
    by_cases he : Easy m n
    · exact (FAt.easy hv (.inl he)).cast (five_le (by omega))
    · cases fuel with
      | zero => exact FAt.zero _ _ _ _ _
      | succ fuel =>
        obtain ⟨e1, e2, e3⟩ := not_easy he
        obtain ⟨w1, w2, w3, w4⟩ := hv
        have ea : pyAbs m = m := by unfold pyAbs; split_ifs <;> omega
        rw [ea] at e2 e3
        have hp : High (m + 1) (n - 1) ∧ High m (n - 2) := by unfold High; omega
        by_cases h0 : m = 0
        · subst h0
          have ea' : pyAbs ((0 : Int) - 1) = 1 := by decide
          have h1 : High 1 (n - 1) := by unfold High; omega
          refine FAt.step ea' (fun t hl => ih h1 (by omega) (by omega)) (fun t hl d => FAt.again k hp.1 (by omega) (by simpa using d))
            (fun t hl d _ => FAt.five hp.2 ?_) (by ring_nf; omega)
          cases d with
          | easy e =>
            refine .inl (.inl ?_)
            rcases e with e | e | e
            · omega
            · rw [show pyAbs 1 = 1 by decide] at e; omega
            · rw [show pyAbs 1 = 1 by decide] at e; omega
          | node v1 v2 d1 d2 d3 =>
            refine .inr ?_
            rw [show pyAbs ((1 : Int) - 1) = 0 by decide, show n - 1 - 1 = n - 2 by ring] at v1
            exact v1
        · have ea' : pyAbs (m - 1) = m - 1 := by unfold pyAbs; split_ifs <;> omega
          have h1 : High (m - 1) (n - 1) := by unfold High; omega
          have hd : ∀ t, Done t (m - 1) (n - 1) → n = 11 ∨ (HasV t (m, n - 2) ∧ Done t m (n - 2)) := by
            intro t d
            cases d with
            | easy e =>
              refine .inl ?_
              rcases e with e | e | e
              · omega
              · rw [ea'] at e; omega
              · rw [ea'] at e; omega
            | node v1 v2 d1 d2 d3 =>
              rw [show m - 1 + 1 = m by ring, show n - 1 - 1 = n - 2 by ring] at v2 d2
              exact .inr ⟨v2, d2⟩
          refine FAt.step (c2 := 5 + 17 * k) (c3 := 5) ea' (fun t hl => ih h1 (by omega) (by omega)) (fun t hl d => ?_) (fun t hl d _ => ?_) (by ring_nf; omega)
          · rcases hd t d with hn | ⟨v, d'⟩
            · exact (FAt.easy hp.1 (.inl (.inl (by omega)))).cast (five_le (by omega))
            · exact FAt.right k hp.1 (by omega) (by omega) (by rw [show m + 1 - 1 = m by ring, show n - 1 - 1 = n - 2 by ring]; exact v)
                (by rw [show m + 1 - 1 = m by ring, show n - 1 - 1 = n - 2 by ring]; exact d')
          · rcases hd t d with hn | ⟨v, _⟩
            · exact FAt.five hp.2 (.inl (.inl (by omega)))
            · exact FAt.five hp.2 (.inr v)

theorem Done.down {s : CoefState} {m n : Int} (h : Done s m n) (hm : pyAbs m ≤ n - 2) : Done s m (n - 2) := by
  cases h with
  | easy e =>
    rcases e with e | e | e
    · exact .easy (.inl (by omega))
    · omega
    · exact .easy (.inr (.inl e))
  | node _ _ _ _ d => exact d

theorem DoneD.down {s : CoefState} {m n : Int} (h : DoneD s m n) (hm : pyAbs m ≤ n - 2) : DoneD s m (n - 2) := by
  cases h with
  | easy e =>
    rcases e with e | e | e
    · exact .easy (.inl (by omega))
    · omega
    · exact .easy (.inr (.inl e))
  | node _ _ _ _ _ _ _ _ d => exact d

/-- `m < 0`, when the orders on both sides of the previous degree have been computed. -/
theorem FAt.down (k : Nat) {fuel : Nat} {b : Bool} {m n : Int} {s : CoefState} (hv : High m n) (hm : m < 0) (hk : n ≤ 10 + k)
    (h1 : Done s (1 - m) (n - 1)) (h2 : Done s (m + 1) (n - 1)) : FAt ((5 + 17 * k ^ 2 : ℕ) : ℕ∞) fuel b m n s := by
  induction k using Nat.strong_induction_on generalizing fuel b m n s with
  | _ k ih =>
    by_cases he : Easy m n
    · exact (FAt.easy hv (.inl he)).cast (five_le (by omega))
    · cases fuel with
      | zero => exact FAt.zero _ _ _ _ _
      | succ fuel =>
        obtain ⟨e1, e2, e3⟩ := not_easy he
        obtain ⟨w1, w2, w3, w4⟩ := hv
        have ea : pyAbs m = -m := by unfold pyAbs; split_ifs <;> omega
        rw [ea] at e2 e3
        have ea' : pyAbs (m - 1) = 1 - m := by unfold pyAbs; split_ifs <;> omega
        have hp : High (1 - m) (n - 1) ∧ High (m + 1) (n - 1) ∧ High m (n - 2) := by unfold High; omega
        obtain ⟨j, rfl⟩ : ∃ j, k = j + 1 := ⟨k - 1, by omega⟩
        have g1 : Done s (1 - m) (n - 2 - 1) := by
          have := h1.down (by unfold pyAbs; split_ifs <;> omega)
          rwa [show n - 1 - 2 = n - 2 - 1 by ring] at this
        have g2 : Done s (m + 1) (n - 2 - 1) := by
          have := h2.down (by unfold pyAbs; split_ifs <;> omega)
          rwa [show n - 1 - 2 = n - 2 - 1 by ring] at this
        refine FAt.step (c1 := 5 + 17 * j) (c2 := 5 + 17 * j) (c3 := 5 + 17 * (j - 1) ^ 2) ea' (fun t hl => FAt.again j hp.1 (by omega) (h1.later hl))
          (fun t hl _ => FAt.again j hp.2.1 (by omega) (h2.later hl))
          (fun t hl _ _ => ih (j - 1) (by omega) hp.2.2 hm (by omega) (g1.later hl) (g2.later hl)) ?_
        cases j with
        | zero => norm_num
        | succ j => simp only [Nat.add_sub_cancel]; ring_nf; omega

/-- All orders: the number of accesses is at most cubic in the order. -/
theorem FAt.all (k : Nat) {fuel : Nat} {b : Bool} {m n : Int} {s : CoefState} (hv : High m n) (hk : n ≤ 10 + k) :
    FAt ((5 + 18 * k ^ 3 : ℕ) : ℕ∞) fuel b m n s := by
  induction k generalizing fuel b m n s with
  | zero => exact (FAt.easy hv (.inl (.inl (by omega)))).cast (five_le (by omega))
  | succ k ih =>
    by_cases h0 : 0 ≤ m
    · refine (FAt.nonneg (k + 1) hv h0 hk).cast ?_
      have : 9 * (k + 1) ^ 2 + 9 * (k + 1) ≤ 18 * (k + 1) ^ 3 := by ring_nf; nlinarith [sq_nonneg k, Nat.zero_le (k ^ 3)]
      exact_mod_cast (by omega : 5 + 9 * (k + 1) ^ 2 + 9 * (k + 1) ≤ 5 + 18 * (k + 1) ^ 3)
    by_cases he : Easy m n
    · exact (FAt.easy hv (.inl he)).cast (five_le (by omega))
    · cases fuel with
      | zero => exact FAt.zero _ _ _ _ _
      | succ fuel =>
        obtain ⟨e1, e2, e3⟩ := not_easy he
        obtain ⟨w1, w2, w3, w4⟩ := hv
        have ea : pyAbs m = -m := by unfold pyAbs; split_ifs <;> omega
        rw [ea] at e2 e3
        have ea' : pyAbs (m - 1) = 1 - m := by unfold pyAbs; split_ifs <;> omega
        have hp : High (1 - m) (n - 1) ∧ High (m + 1) (n - 1) ∧ High m (n - 2) := by unfold High; omega
        have fin : ∀ t, Done t (1 - m) (n - 1) → Done t (m + 1) (n - 1) → FAt ((5 + 17 * (k - 1) ^ 2 : ℕ) : ℕ∞) fuel true m (n - 2) t := by
          intro t d1 d2
          have g1 : Done t (1 - m) (n - 2 - 1) := by
            have := d1.down (by unfold pyAbs; split_ifs <;> omega)
            rwa [show n - 1 - 2 = n - 2 - 1 by ring] at this
          have g2 : Done t (m + 1) (n - 2 - 1) := by
            have := d2.down (by unfold pyAbs; split_ifs <;> omega)
            rwa [show n - 1 - 2 = n - 2 - 1 by ring] at this
          exact FAt.down (k - 1) hp.2.2 (by omega) (by omega) g1 g2
        refine FAt.step ea' (fun t hl => FAt.nonneg k hp.1 (by omega) (by omega)) (fun t hl _ => ih hp.2.1 (by omega)) (fun t hl d1 d2 => fin t d1 d2) ?_
        have : (k - 1) ^ 2 ≤ k ^ 2 := Nat.pow_le_pow_left (Nat.sub_le k 1) 2
        ring_nf
        ring_nf at this
        nlinarith

/-- Derivatives computed before. -/
theorem DAt.again (k : Nat) {fuel : Nat} {b : Bool} {m n : Int} {s : CoefState} (hv : High m n) (hk : n ≤ 10 + k) (hd : DoneD s m n) :
    DAt ((5 + 31 * k : ℕ) : ℕ∞) fuel b m n s := by
  induction k generalizing fuel b m n s with
  | zero => exact (DAt.easy hv (.inl (.inl (by omega)))).cast (five_le (by omega))
  | succ k ih =>
    by_cases he : Easy m n
    · exact (DAt.easy hv (.inl he)).cast (five_le (by omega))
    · cases fuel with
      | zero => exact DAt.zero _ _ _ _ _
      | succ fuel =>
        cases hd with
        | easy e => exact absurd e he
        | node v1 v2 d1 d2 u1 u2 f1 f2 f3 =>
          obtain ⟨e1, e2, e3⟩ := not_easy he
          obtain ⟨w1, w2, w3, w4⟩ := hv
          have hp : High (pyAbs (m - 1)) (n - 1) := by
            unfold pyAbs at e2 e3 ⊢
            unfold High
            split_ifs at e2 e3 ⊢ <;> omega
          have hq : High (m + 1) (n - 1) ∧ High m (n - 2) := by
            unfold pyAbs at e2 e3
            unfold High
            split_ifs at e2 e3 <;> omega
          exact DAt.step rfl (fun t hl => FAt.five hp (.inr (v1.later hl))) (fun t hl _ => FAt.five hq.1 (.inr (v2.later hl)))
            (fun t hl _ _ => DAt.five hp (.inr (u1.later hl))) (fun t hl _ _ _ => DAt.five hq.1 (.inr (u2.later hl)))
            (fun t hl _ _ _ _ => ih hq.2 (by omega) (f3.later hl)) (by omega)

/-- The derivative of the orders `(m, n)` when `(m - 1, n - 1)` is in both tables. -/
theorem DAt.right (k : Nat) {fuel : Nat} {b : Bool} {m n : Int} {s : CoefState} (hv : High m n) (hm : 1 ≤ m) (hk : n ≤ 10 + k)
    (h1 : HasV s (m - 1, n - 1)) (g1 : HasD s (m - 1, n - 1)) (hd : DoneD s (m - 1) (n - 1)) :
    DAt ((5 + 9 * k ^ 2 + 23 * k : ℕ) : ℕ∞) fuel b m n s := by
  induction k generalizing fuel b m n s with
  | zero => exact (DAt.easy hv (.inl (.inl (by omega)))).cast (five_le (by omega))
  | succ k ih =>
    by_cases he : Easy m n
    · exact (DAt.easy hv (.inl he)).cast (five_le (by omega))
    · cases fuel with
      | zero => exact DAt.zero _ _ _ _ _
      | succ fuel =>
        obtain ⟨e1, e2, e3⟩ := not_easy he
        obtain ⟨w1, w2, w3, w4⟩ := hv
        have ea : pyAbs m = m := by unfold pyAbs; split_ifs <;> omega
        have ea' : pyAbs (m - 1) = m - 1 := by unfold pyAbs; split_ifs <;> omega
        rw [ea] at e2 e3
        have hp : High (m - 1) (n - 1) ∧ High (m + 1) (n - 1) ∧ High m (n - 2) := by unfold High; omega
        cases hd with
        | easy e =>
          have hn : n = 11 := by
            rcases e with e | e | e
            · omega
            · rw [ea'] at e; omega
            · rw [ea'] at e; omega
          exact DAt.step ea' (fun t hl => FAt.five hp.1 (.inr (h1.later hl))) (fun t hl _ => FAt.five hp.2.1 (.inl (.inl (by omega))))
            (fun t hl _ _ => DAt.five hp.1 (.inr (g1.later hl))) (fun t hl _ _ _ => DAt.five hp.2.1 (.inl (.inl (by omega))))
            (fun t hl _ _ _ _ => DAt.five hp.2.2 (.inl (.inl (by omega)))) (by ring_nf; omega)
        | node v1 v2 d1 d2 u1 u2 f1 f2 f3 =>
          rw [show m - 1 + 1 = m by ring, show n - 1 - 1 = n - 2 by ring] at v2 d2 u2 f2
          have em : m + 1 - 1 = m := by ring
          have en : n - 1 - 1 = n - 2 := by ring
          refine DAt.step ea' (fun t hl => FAt.five hp.1 (.inr (h1.later hl)))
            (fun t hl _ => FAt.right k hp.2.1 (by omega) (by omega) (by rw [em, en]; exact v2.later hl) (by rw [em, en]; exact d2.later hl))
            (fun t hl _ _ => DAt.five hp.1 (.inr (g1.later hl)))
            (fun t hl _ _ _ => ih hp.2.1 (by omega) (by omega) (by rw [em, en]; exact v2.later hl) (by rw [em, en]; exact u2.later hl)
              (by rw [em, en]; exact f2.later hl))
            (fun t hl _ _ _ _ => DAt.five hp.2.2 (.inr (u2.later hl))) ?_
          ring_nf
          omega

/-- `m ≥ 0`: the number of accesses for the derivative is at most cubic in the order. -/
theorem DAt.nonneg (k : Nat) {fuel : Nat} {b : Bool} {m n : Int} {s : CoefState} (hv : High m n) (hm : 0 ≤ m) (hk : n ≤ 10 + k) :
    DAt ((5 + 31 * k ^ 3 : ℕ) : ℕ∞) fuel b m n s := by
  induction k generalizing fuel b m n s with
  | zero => exact (DAt.easy hv (.inl (.inl (by omega)))).cast (five_le (by omega))
  | succ k ih =>
    by_cases he : Easy m n
    · exact (DAt.easy hv (.inl he)).cast (five_le (by omega))
    · cases fuel with
      | zero => exact DAt.zero _ _ _ _ _
      | succ fuel =>
        obtain ⟨e1, e2, e3⟩ := not_easy he
        obtain ⟨w1, w2, w3, w4⟩ := hv
        have ea : pyAbs m = m := by unfold pyAbs; split_ifs <;> omega
        rw [ea] at e2 e3
        have hp : High (m + 1) (n - 1) ∧ High m (n - 2) := by unfold High; omega
        by_cases h0 : m = 0
        · subst h0
          have ea' : pyAbs ((0 : Int) - 1) = 1 := by decide
          have h1 : High 1 (n - 1) := by unfold High; omega
          refine DAt.step ea' (fun t hl => FAt.nonneg k h1 (by omega) (by omega)) (fun t hl d => FAt.again k hp.1 (by omega) (by simpa using d))
            (fun t hl _ _ => ih h1 (by omega) (by omega)) (fun t hl _ _ d => DAt.again k hp.1 (by omega) (by simpa using d))
            (fun t hl _ _ d _ => DAt.five hp.2 ?_) (by ring_nf; nlinarith [sq_nonneg k, Nat.zero_le (k ^ 3)])
          cases d with
          | easy e =>
            refine .inl (.inl ?_)
            rcases e with e | e | e
            · omega
            · rw [show pyAbs 1 = 1 by decide] at e; omega
            · rw [show pyAbs 1 = 1 by decide] at e; omega
          | node v1 v2 d1 d2 u1 u2 f1 f2 f3 =>
            refine .inr ?_
            rw [show pyAbs ((1 : Int) - 1) = 0 by decide, show n - 1 - 1 = n - 2 by ring] at u1
            exact u1
        · have ea' : pyAbs (m - 1) = m - 1 := by unfold pyAbs; split_ifs <;> omega
          have h1 : High (m - 1) (n - 1) := by unfold High; omega
          have em : m + 1 - 1 = m := by ring
          have en : n - 1 - 1 = n - 2 := by ring
          have hd : ∀ t, Done t (m - 1) (n - 1) → n = 11 ∨ (HasV t (m, n - 2) ∧ Done t m (n - 2)) := by
            intro t d
            cases d with
            | easy e =>
              refine .inl ?_
              rcases e with e | e | e
              · omega
              · rw [ea'] at e; omega
              · rw [ea'] at e; omega
            | node v1 v2 d1 d2 d3 =>
              rw [show m - 1 + 1 = m by ring, show n - 1 - 1 = n - 2 by ring] at v2 d2
              exact .inr ⟨v2, d2⟩
          have hd' : ∀ t, DoneD t (m - 1) (n - 1) → n = 11 ∨ (HasV t (m, n - 2) ∧ HasD t (m, n - 2) ∧ DoneD t m (n - 2)) := by
            intro t d
            cases d with
            | easy e =>
              refine .inl ?_
              rcases e with e | e | e
              · omega
              · rw [ea'] at e; omega
              · rw [ea'] at e; omega
            | node v1 v2 d1 d2 u1 u2 f1 f2 f3 =>
              rw [show m - 1 + 1 = m by ring, show n - 1 - 1 = n - 2 by ring] at v2 u2 f2
              exact .inr ⟨v2, u2, f2⟩
          refine DAt.step (c2 := 5 + 17 * k) (e2 := 5 + 9 * k ^ 2 + 23 * k) (e3 := 5) ea' (fun t hl => FAt.nonneg k h1 (by omega) (by omega)) (fun t hl d => ?_)
            (fun t hl _ _ => ih h1 (by omega) (by omega)) (fun t hl _ _ d => ?_) (fun t hl _ _ d _ => ?_) (by ring_nf; nlinarith [sq_nonneg k, Nat.zero_le (k ^ 3)])
          · rcases hd t d with hn | ⟨v, d'⟩
            · exact (FAt.easy hp.1 (.inl (.inl (by omega)))).cast (five_le (by omega))
            · exact FAt.right k hp.1 (by omega) (by omega) (by rw [em, en]; exact v) (by rw [em, en]; exact d')
          · rcases hd' t d with hn | ⟨v, u, d'⟩
            · exact (DAt.easy hp.1 (.inl (.inl (by omega)))).cast (five_le (by omega))
            · exact DAt.right k hp.1 (by omega) (by omega) (by rw [em, en]; exact v) (by rw [em, en]; exact u) (by rw [em, en]; exact d')
          · rcases hd' t d with hn | ⟨_, u, _⟩
            · exact DAt.five hp.2 (.inl (.inl (by omega)))
            · exact DAt.five hp.2 (.inr u)

/-- The derivative for `m < 0`, when the orders on both sides of the previous degree have been computed. -/
theorem DAt.down (k : Nat) {fuel : Nat} {b : Bool} {m n : Int} {s : CoefState} (hv : High m n) (hm : m < 0) (hk : n ≤ 10 + k)
    (h1 : Done s (1 - m) (n - 1)) (h2 : Done s (m + 1) (n - 1)) (k1 : DoneD s (1 - m) (n - 1)) (k2 : DoneD s (m + 1) (n - 1)) :
    DAt ((5 + 40 * k ^ 2 : ℕ) : ℕ∞) fuel b m n s := by
  induction k using Nat.strong_induction_on generalizing fuel b m n s with
  | _ k ih =>
    by_cases he : Easy m n
    · exact (DAt.easy hv (.inl he)).cast (five_le (by omega))
    · cases fuel with
      | zero => exact DAt.zero _ _ _ _ _
      | succ fuel =>
        obtain ⟨e1, e2, e3⟩ := not_easy he
        obtain ⟨w1, w2, w3, w4⟩ := hv
        have ea : pyAbs m = -m := by unfold pyAbs; split_ifs <;> omega
        rw [ea] at e2 e3
        have ea' : pyAbs (m - 1) = 1 - m := by unfold pyAbs; split_ifs <;> omega
        have hp : High (1 - m) (n - 1) ∧ High (m + 1) (n - 1) ∧ High m (n - 2) := by unfold High; omega
        obtain ⟨j, rfl⟩ : ∃ j, k = j + 1 := ⟨k - 1, by omega⟩
        have en : n - 1 - 2 = n - 2 - 1 := by ring
        have a1 : pyAbs (1 - m) ≤ n - 1 - 2 := by unfold pyAbs; split_ifs <;> omega
        have a2 : pyAbs (m + 1) ≤ n - 1 - 2 := by unfold pyAbs; split_ifs <;> omega
        refine DAt.step (c1 := 5 + 17 * j) (c2 := 5 + 17 * j) (e1 := 5 + 31 * j) (e2 := 5 + 31 * j) (e3 := 5 + 40 * (j - 1) ^ 2) ea'
          (fun t hl => FAt.again j hp.1 (by omega) (h1.later hl)) (fun t hl _ => FAt.again j hp.2.1 (by omega) (h2.later hl))
          (fun t hl _ _ => DAt.again j hp.1 (by omega) (k1.later hl)) (fun t hl _ _ _ => DAt.again j hp.2.1 (by omega) (k2.later hl))
          (fun t hl _ _ _ _ => ih (j - 1) (by omega) hp.2.2 hm (by omega) (en ▸ (h1.down a1).later hl) (en ▸ (h2.down a2).later hl)
            (en ▸ (k1.down a1).later hl) (en ▸ (k2.down a2).later hl)) ?_
        cases j with
        | zero => norm_num
        | succ j => simp only [Nat.add_sub_cancel]; ring_nf; omega

/-- All orders: the number of accesses for the derivative is at most of the fourth degree in the order. -/
theorem DAt.all (k : Nat) {fuel : Nat} {b : Bool} {m n : Int} {s : CoefState} (hv : High m n) (hk : n ≤ 10 + k) :
    DAt ((5 + 31 * k ^ 4 : ℕ) : ℕ∞) fuel b m n s := by
  induction k generalizing fuel b m n s with
  | zero => exact (DAt.easy hv (.inl (.inl (by omega)))).cast (five_le (by omega))
  | succ k ih =>
    by_cases h0 : 0 ≤ m
    · refine (DAt.nonneg (k + 1) hv h0 hk).cast ?_
      have : (k + 1) ^ 3 ≤ (k + 1) ^ 4 := Nat.pow_le_pow_right (by omega) (by omega)
      exact_mod_cast (by omega : 5 + 31 * (k + 1) ^ 3 ≤ 5 + 31 * (k + 1) ^ 4)
    by_cases he : Easy m n
    · exact (DAt.easy hv (.inl he)).cast (five_le (by omega))
    · cases fuel with
      | zero => exact DAt.zero _ _ _ _ _
      | succ fuel =>
        obtain ⟨e1, e2, e3⟩ := not_easy he
        obtain ⟨w1, w2, w3, w4⟩ := hv
        have ea : pyAbs m = -m := by unfold pyAbs; split_ifs <;> omega
        rw [ea] at e2 e3
        have ea' : pyAbs (m - 1) = 1 - m := by unfold pyAbs; split_ifs <;> omega
        have hp : High (1 - m) (n - 1) ∧ High (m + 1) (n - 1) ∧ High m (n - 2) := by unfold High; omega
        have en : n - 1 - 2 = n - 2 - 1 := by ring
        have a1 : pyAbs (1 - m) ≤ n - 1 - 2 := by unfold pyAbs; split_ifs <;> omega
        have a2 : pyAbs (m + 1) ≤ n - 1 - 2 := by unfold pyAbs; split_ifs <;> omega
        refine DAt.step ea' (fun t hl => FAt.nonneg k hp.1 (by omega) (by omega)) (fun t hl _ => FAt.all k hp.2.1 (by omega))
          (fun t hl _ _ => DAt.nonneg k hp.1 (by omega) (by omega)) (fun t hl _ _ _ => ih hp.2.1 (by omega))
          (fun t hl d1 d2 f1 f2 => DAt.down (k - 1) hp.2.2 (by omega) (by omega) (en ▸ d1.down a1) (en ▸ d2.down a2) (en ▸ f1.down a1) (en ▸ f2.down a2)) ?_
        have h1 : (k - 1) ^ 2 ≤ k ^ 2 := Nat.pow_le_pow_left (Nat.sub_le k 1) 2
        have e4 : (k + 1) ^ 4 = k ^ 4 + 4 * k ^ 3 + 6 * k ^ 2 + 4 * k + 1 := by ring
        rw [e4]
        nlinarith [Nat.zero_le (k ^ 3), Nat.zero_le (k ^ 2)]

end Verif.Proofs
