import Verif.Spec.Orders
import Verif.Model.Index
import Mathlib.Tactic.Linarith
import Mathlib.Tactic.Ring
import Mathlib.Tactic.Push

/-! Helper lemmas about the index arithmetic. -/

namespace Verif.Proofs
open Verif.Spec Verif.Model

theorem pyAbs_eq (m : Int) : pyAbs m = |m| := by
  unfold pyAbs; split
  · rw [abs_of_neg (by assumption)]
  · rw [abs_of_nonneg (by omega)]

/-- Linear description of valid orders. -/
theorem valid_iff (m n : Int) : ValidOrders m n ↔ 0 ≤ n ∧ -n ≤ m ∧ m ≤ n ∧ (n - m) % 2 = 0 := by
  unfold ValidOrders
  rw [abs_le]
  rcases le_or_gt 0 m with h | h
  · rw [abs_of_nonneg h]; omega
  · rw [abs_of_neg h]; omega

/-- Twice a triangular number. -/
theorem tri_even (n : Int) : n * (n + 1) % 2 = 0 := by
  rcases Int.emod_two_eq_zero_or_one n with h | h
  · rw [Int.mul_emod, h]; simp
  · rw [Int.mul_emod, Int.add_emod, h]; simp

/-- The triangular number below block `n`. -/
def tri (n : Int) : Int := n * (n + 1) / 2

theorem two_tri (n : Int) : 2 * tri n = n * (n + 1) := by
  have := tri_even n; unfold tri; omega

theorem tri_succ (n : Int) : tri (n + 1) = tri n + n + 1 := by
  have h1 := two_tri n; have h2 := two_tri (n + 1); nlinarith

theorem tri_lt {a b : Int} (ha : 0 ≤ a) (h : a < b) : tri a + a + 1 ≤ tri b := by
  have h1 := two_tri a; have h2 := two_tri b; nlinarith

theorem tri_exists (i : Int) (hi : 0 ≤ i) : ∃ n : Int, 0 ≤ n ∧ tri n ≤ i ∧ i ≤ tri n + n := by
  obtain ⟨k, rfl⟩ := Int.eq_ofNat_of_zero_le hi
  clear hi
  induction k with
  | zero => exact ⟨0, by decide, by decide, by decide⟩
  | succ k ih =>
    obtain ⟨n, hn, h1, h2⟩ := ih
    by_cases h : (k : Int) + 1 ≤ tri n + n
    · exact ⟨n, hn, by push_cast; omega, by push_cast; omega⟩
    · refine ⟨n + 1, by omega, ?_, ?_⟩ <;> rw [tri_succ] <;> push_cast <;> omega

theorem tri_unique {a b i : Int} (ha : 0 ≤ a) (hb : 0 ≤ b) (h1 : tri a ≤ i) (h2 : i ≤ tri a + a)
    (h3 : tri b ≤ i) (h4 : i ≤ tri b + b) : a = b := by
  rcases lt_trichotomy a b with h | h | h
  · have := tri_lt ha h; omega
  · exact h
  · have := tri_lt hb h; omega

/-- OSA index relative to its block. -/
theorem osa_eq {m n : Int} (h : ValidOrders m n) : 2 * (getOsaIndex m n - tri n) = n + m := by
  rw [valid_iff] at h
  have h2 := two_tri n
  have h1 : n * (n + 2) = n * (n + 1) + n := by ring
  have h3 := tri_even n
  unfold getOsaIndex; omega

theorem osa_block {m n : Int} (h : ValidOrders m n) :
    tri n ≤ getOsaIndex m n ∧ getOsaIndex m n ≤ tri n + n := by
  have := osa_eq h; rw [valid_iff] at h; omega

theorem noll_block {m n : Int} (h : ValidOrders m n) :
    tri n + 1 ≤ getNollIndex m n ∧ getNollIndex m n ≤ tri n + n + 1 := by
  rw [valid_iff] at h
  unfold getNollIndex pyAbs
  show tri n + 1 ≤ tri n + _ + _ ∧ tri n + _ + _ ≤ _
  generalize tri n = t
  split_ifs <;> omega

theorem noll_inj_same {m m' n : Int} (h : ValidOrders m n) (h' : ValidOrders m' n)
    (he : getNollIndex m n = getNollIndex m' n) : m = m' := by
  rw [valid_iff] at h h'
  unfold getNollIndex pyAbs at he
  simp only at he
  revert he
  generalize n * (n + 1) / 2 = t
  split_ifs <;> omega

theorem osa_bijOn : Set.BijOn (fun p : Int × Int => getOsaIndex p.1 p.2) validPairs (Set.Ici 0) := by
  refine ⟨?_, ?_, ?_⟩
  · rintro ⟨m, n⟩ h
    have hb := osa_block h
    have hn := ((valid_iff _ _).1 h).1
    have := two_tri n
    simp only [Set.mem_Ici] at *
    nlinarith
  · rintro ⟨m, n⟩ h ⟨m', n'⟩ h' he
    simp only at he
    have hv := (valid_iff _ _).1 h
    have hv' := (valid_iff _ _).1 h'
    have b := osa_block h; have b' := osa_block h'
    simp only at b b' hv hv'
    have hnn : n = n' := tri_unique hv.1 hv'.1 b.1 b.2 (he ▸ b'.1) (he ▸ b'.2)
    subst hnn
    have e := osa_eq h; have e' := osa_eq h'
    simp only at e e'
    have : m = m' := by omega
    rw [this]
  · intro i hi
    obtain ⟨n, hn, h1, h2⟩ := tri_exists i hi
    have hv : ValidOrders (2 * (i - tri n) - n) n := by rw [valid_iff]; omega
    refine ⟨(2 * (i - tri n) - n, n), hv, ?_⟩
    have := osa_eq hv
    simp only; omega

theorem noll_surj_block (n k : Int) (hn : 0 ≤ n) (hk : 0 ≤ k) (hkn : k ≤ n) :
    ∃ m, ValidOrders m n ∧ getNollIndex m n = tri n + 1 + k := by
  suffices ∃ a : Int, 0 ≤ a ∧ ((ValidOrders a n ∧ getNollIndex a n = tri n + 1 + k) ∨
      (ValidOrders (-a) n ∧ getNollIndex (-a) n = tri n + 1 + k)) by
    obtain ⟨a, _, h | h⟩ := this
    · exact ⟨a, h⟩
    · exact ⟨-a, h⟩
  have ht : n * (n + 1) / 2 = tri n := rfl
  simp only [valid_iff, getNollIndex, pyAbs, ht]
  generalize tri n = t
  rcases Int.emod_two_eq_zero_or_one n with h0 | h0
  · refine ⟨2 * ((k + 1) / 2), by omega, ?_⟩
    split_ifs <;> omega
  · refine ⟨2 * (k / 2) + 1, by omega, ?_⟩
    split_ifs <;> omega

theorem noll_bijOn : Set.BijOn (fun p : Int × Int => getNollIndex p.1 p.2) validPairs (Set.Ici 1) := by
  refine ⟨?_, ?_, ?_⟩
  · rintro ⟨m, n⟩ h
    have hb := noll_block h
    have hn := ((valid_iff _ _).1 h).1
    have := two_tri n
    simp only [Set.mem_Ici] at *
    nlinarith
  · rintro ⟨m, n⟩ h ⟨m', n'⟩ h' he
    simp only at he
    have hv := (valid_iff _ _).1 h
    have hv' := (valid_iff _ _).1 h'
    have b := noll_block h; have b' := noll_block h'
    simp only at b b' hv hv'
    have hnn : n = n' := tri_unique (i := getNollIndex m n - 1) hv.1 hv'.1 (by omega) (by omega)
      (by omega) (by omega)
    subst hnn
    have hm : m = m' := noll_inj_same h h' he
    rw [hm]
  · intro i hi
    simp only [Set.mem_Ici] at hi
    obtain ⟨n, hn, h1, h2⟩ := tri_exists (i - 1) (by omega)
    obtain ⟨m, hm, he⟩ := noll_surj_block n (i - 1 - tri n) hn (by omega) (by omega)
    exact ⟨(m, n), hm, by simp only; omega⟩

/-! Fringe -/

theorem sq_exists (i : Int) (hi : 1 ≤ i) : ∃ s : Int, 0 ≤ s ∧ s ^ 2 + 1 ≤ i ∧ i ≤ (1 + s) ^ 2 := by
  obtain ⟨k, rfl⟩ : ∃ k : Nat, i = (k : Int) + 1 := ⟨(i - 1).toNat, by omega⟩
  clear hi
  induction k with
  | zero => exact ⟨0, by decide, by decide, by decide⟩
  | succ k ih =>
    obtain ⟨s, hs, h1, h2⟩ := ih
    by_cases h : (k : Int) + 1 + 1 ≤ (1 + s) ^ 2
    · exact ⟨s, hs, by push_cast; omega, by push_cast; omega⟩
    · refine ⟨s + 1, by omega, ?_, ?_⟩
      · have : (s + 1) ^ 2 = (1 + s) ^ 2 := by ring
        push_cast; omega
      · have : (1 + (s + 1)) ^ 2 = (1 + s) ^ 2 + 2 * s + 3 := by ring
        push_cast; omega

theorem sq_unique {a b i : Int} (ha : 0 ≤ a) (hb : 0 ≤ b) (h1 : a ^ 2 + 1 ≤ i) (h2 : i ≤ (1 + a) ^ 2)
    (h3 : b ^ 2 + 1 ≤ i) (h4 : i ≤ (1 + b) ^ 2) : a = b := by
  rcases lt_trichotomy a b with h | h | h
  · nlinarith
  · exact h
  · nlinarith

theorem fringe_block {m n : Int} (h : ValidOrders m n) :
    ((n + |m|) / 2) ^ 2 + 1 ≤ getFringeIndex m n ∧ getFringeIndex m n ≤ (1 + (n + |m|) / 2) ^ 2 := by
  rw [← pyAbs_eq]
  rw [valid_iff] at h
  unfold getFringeIndex
  have hs : (1 + (n + pyAbs m) / 2) ^ 2 = ((n + pyAbs m) / 2) ^ 2 + 2 * ((n + pyAbs m) / 2) + 1 := by ring
  rw [hs]
  generalize ((n + pyAbs m) / 2) ^ 2 = q
  unfold pyAbs npSign
  split_ifs <;> omega

theorem fringe_bijOn :
    Set.BijOn (fun p : Int × Int => getFringeIndex p.1 p.2) validPairs (Set.Ici 1) := by
  refine ⟨?_, ?_, ?_⟩
  · rintro ⟨m, n⟩ h
    have hb := fringe_block h
    simp only [Set.mem_Ici] at *
    nlinarith [sq_nonneg ((n + |m|) / 2)]
  · rintro ⟨m, n⟩ h ⟨m', n'⟩ h' he
    simp only at he
    have hv := (valid_iff _ _).1 h
    have hv' := (valid_iff _ _).1 h'
    have b := fringe_block h; have b' := fringe_block h'
    simp only at b b' hv hv'
    have ha : 0 ≤ |m| := abs_nonneg m
    have ha' : 0 ≤ |m'| := abs_nonneg m'
    have hss : (n + |m|) / 2 = (n' + |m'|) / 2 :=
      sq_unique (i := getFringeIndex m n) (by omega) (by omega) b.1 b.2 (he ▸ b'.1) (he ▸ b'.2)
    rw [← pyAbs_eq, ← pyAbs_eq] at hss
    unfold getFringeIndex at he
    rw [hss] at he
    have : m = m' ∧ n = n' := by
      revert he hss
      generalize (1 + (n' + pyAbs m') / 2) ^ 2 = q
      unfold pyAbs npSign
      split_ifs <;> omega
    rw [this.1, this.2]
  · intro i hi
    obtain ⟨s, hs, h1, h2⟩ := sq_exists i hi
    have hq : s ^ 2 = (1 + s) ^ 2 - 2 * s - 1 := by ring
    suffices ∃ a : Int, 0 ≤ a ∧ ((ValidOrders a (2 * s - a) ∧ getFringeIndex a (2 * s - a) = i) ∨
        (ValidOrders (-a) (2 * s - a) ∧ getFringeIndex (-a) (2 * s - a) = i)) by
      obtain ⟨a, _, h | h⟩ := this
      · exact ⟨(a, _), h.1, h.2⟩
      · exact ⟨(-a, _), h.1, h.2⟩
    refine ⟨((1 + s) ^ 2 - i + 1) / 2, by omega, ?_⟩
    rw [hq] at h1
    obtain ⟨q, hqe⟩ : ∃ q, q = (1 + s) ^ 2 := ⟨_, rfl⟩
    rw [← hqe] at h1 h2 ⊢
    have ha0 : 0 ≤ (q - i + 1) / 2 := by omega
    have ha1 : (q - i + 1) / 2 ≤ s := by omega
    have key : ∀ a : Int, 0 ≤ a → a ≤ s → ((2 * s - a) + a) / 2 = s := by intros; omega
    have p1 : pyAbs ((q - i + 1) / 2) = (q - i + 1) / 2 := by unfold pyAbs; split_ifs <;> omega
    have p2 : pyAbs (-((q - i + 1) / 2)) = (q - i + 1) / 2 := by unfold pyAbs; split_ifs <;> omega
    have hp1 : ValidOrders ((q - i + 1) / 2) (2 * s - (q - i + 1) / 2) := by rw [valid_iff]; omega
    have hp2 : ValidOrders (-((q - i + 1) / 2)) (2 * s - (q - i + 1) / 2) := by rw [valid_iff]; omega
    simp only [hp1, hp2, true_and]
    unfold getFringeIndex
    rw [p1, p2, key _ ha0 ha1, ← hqe]
    unfold npSign
    split_ifs <;> omega

theorem osa_nonneg {m n : Int} (h : ValidOrders m n) : 0 ≤ getOsaIndex m n :=
  osa_bijOn.mapsTo (show (m, n) ∈ validPairs from h)

theorem noll_pos {m n : Int} (h : ValidOrders m n) : 1 ≤ getNollIndex m n :=
  noll_bijOn.mapsTo (show (m, n) ∈ validPairs from h)

theorem fringe_pos {m n : Int} (h : ValidOrders m n) : 1 ≤ getFringeIndex m n := by
  have hb := fringe_block h
  nlinarith [sq_nonneg ((n + |m|) / 2)]

/-! The search loop of `index2orders`. -/

theorem inner_none (test : Int → Int → Bool) (n : Int) (k : Nat) (m : Int)
    (h : ∀ j : Nat, j < k → test (m + 2 * j) n = false) :
    innerLoop test n k m = (m + 2 * k, false) := by
  induction k generalizing m with
  | zero => simp [innerLoop]
  | succ k ih =>
    have h0 := h 0 (by omega)
    simp only [Nat.cast_zero, mul_zero, add_zero] at h0
    simp only [innerLoop, h0]
    rw [ih (m + 2)]
    · simp; ring
    · intro j hj
      have := h (j + 1) (by omega)
      rw [← this]; congr 1; push_cast; ring

theorem inner_some (test : Int → Int → Bool) (n : Int) (k : Nat) (m : Int) (j : Nat) (hj : j < k)
    (ht : test (m + 2 * j) n = true) (h : ∀ i : Nat, i < j → test (m + 2 * i) n = false) :
    innerLoop test n k m = (m + 2 * j, true) := by
  induction k generalizing m j with
  | zero => omega
  | succ k ih =>
    cases j with
    | zero => simp at ht; simp [innerLoop, ht]
    | succ j =>
      have h0 := h 0 (by omega)
      simp only [Nat.cast_zero, mul_zero, add_zero] at h0
      simp only [innerLoop, h0]
      rw [ih (m + 2) j (by omega)]
      · simp; ring
      · rw [← ht]; congr 1; push_cast; ring
      · intro i hi
        have := h (i + 1) (by omega)
        rw [← this]; congr 1; push_cast; ring

theorem outer_none (test : Int → Int → Bool) (k order : Nat) (cur : Int × Int) (hk : 0 < k)
    (h : ∀ m n : Int, ValidOrders m n → (order : Int) ≤ n → n < order + k → test m n = false) :
    outerLoop test k order cur = ((order : Int) + k + 1, (order : Int) + k - 1) := by
  induction k generalizing order cur with
  | zero => omega
  | succ k ih =>
    have hi := inner_none test order (order + 1) (-(order : Int)) (by
      intro j hj
      refine h _ _ ?_ (by omega) (by push_cast; omega)
      rw [valid_iff]; omega)
    simp only [outerLoop, hi]
    cases k with
    | zero => simp [outerLoop]; omega
    | succ k =>
      simp only [Bool.false_eq_true, if_false]
      rw [ih (order + 1) _ (by omega)]
      · push_cast; simp only [Prod.mk.injEq]; omega
      · intro m n hv h1 h2
        exact h m n hv (by push_cast at h1; omega) (by push_cast at h2 ⊢; omega)

theorem outer_some (test : Int → Int → Bool) (k order : Nat) (cur : Int × Int) (m n : Int)
    (hv : ValidOrders m n) (h1 : (order : Int) ≤ n) (h2 : n < order + k) (ht : test m n = true)
    (hu : ∀ m' n' : Int, ValidOrders m' n' → test m' n' = true → m' = m ∧ n' = n) :
    outerLoop test k order cur = (m, n) := by
  induction k generalizing order cur with
  | zero => push_cast at h2; omega
  | succ k ih =>
    by_cases hn : n = order
    · have hv' := (valid_iff _ _).1 hv
      obtain ⟨j, hj⟩ : ∃ j : Nat, m = -(order : Int) + 2 * j := ⟨((m + order) / 2).toNat, by omega⟩
      have hi := inner_some test order (order + 1) (-(order : Int)) j (by omega)
        (by rw [← hj, ← hn]; exact ht) (by
          intro i hi
          by_contra hc
          have := hu (-(order : Int) + 2 * i) order (by rw [valid_iff]; omega) (by simpa using hc)
          omega)
      simp only [outerLoop, hi, if_true, hj, hn]
    · have hi := inner_none test order (order + 1) (-(order : Int)) (by
        intro j hj
        by_contra hc
        have := hu (-(order : Int) + 2 * j) order (by rw [valid_iff]; omega) (by simpa using hc)
        omega)
      simp only [outerLoop, hi, Bool.false_eq_true, if_false]
      exact ih (order + 1) _ (by push_cast; omega) (by push_cast at h2 ⊢; omega)

end Verif.Proofs
