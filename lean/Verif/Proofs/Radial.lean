import Verif.Spec.Radial
import Verif.Model.Radial
import Verif.Proofs.Index
import Mathlib.Data.Nat.Choose.Basic
import Mathlib.Data.Nat.Choose.Sum
import Mathlib.Algebra.BigOperators.Intervals
import Mathlib.Algebra.BigOperators.Ring.Finset
import Mathlib.Tactic.FieldSimp
import Mathlib.Tactic.NormNum
import Mathlib.Tactic.IntervalCases
import Mathlib.Data.Nat.Choose.Cast
import Mathlib.Data.Nat.Cast.Field
import Mathlib.Algebra.Ring.Hom.Defs
import Mathlib.Tactic.Tauto

/-! The radial polynomial as a function of `a = (n+m)/2` and `b = (n-m)/2`, its recurrence and its closed form. -/

namespace Verif.Proofs
open Verif.Spec Verif.Model Finset

section
variable {α : Type} [CommRing α]

/-- Radial polynomial by the two-index recurrence. -/
def Rab : Nat → Nat → α → α
  | 0, b, r => r ^ b
  | a + 1, 0, r => r ^ (a + 1)
  | a + 1, b + 1, r => r * (Rab a (b + 1) r + Rab (a + 1) b r) - Rab a b r

theorem Rab_zero_right (a : Nat) (r : α) : Rab a 0 r = r ^ a := by cases a <;> simp [Rab]

theorem Rab_comm (a b : Nat) (r : α) : Rab a b r = Rab b a r := by
  induction a generalizing b with
  | zero => rw [Rab_zero_right]; simp [Rab]
  | succ a ih =>
    induction b with
    | zero => simp [Rab]
    | succ b ihb =>
      rw [Rab, Rab, ih (b + 1), ihb, ih b]
      ring

theorem Rab_one (a : Nat) (r : α) : Rab (a + 1) 1 r = (a + 2) * r ^ (a + 2) - (a + 1) * r ^ a := by
  induction a with
  | zero => simp [Rab]; ring
  | succ a ih =>
    rw [Rab, ih, Rab_zero_right, Rab_zero_right]
    push_cast; ring

theorem Rab_at_one (a b : Nat) : Rab a b (1 : α) = 1 := by
  induction a generalizing b with
  | zero => simp [Rab]
  | succ a ih =>
    induction b with
    | zero => simp [Rab]
    | succ b ihb => rw [Rab, ih, ihb, ih]; ring

/-- Trinomial coefficient `(k+x+y)! / (k! x! y!)`. -/
def trino (k x y : Nat) : Nat := (k + x + y).choose k * (x + y).choose x

/-- Signed coefficient of `r ^ (a + b - 2k)`. -/
def coefT (a b k : Nat) : Int := if k ≤ a ∧ k ≤ b then (-1) ^ k * (trino k (a - k) (b - k) : Int) else 0

theorem trino_succ (k x y : Nat) : trino (k + 1) (x + 1) (y + 1) =
    trino k (x + 1) (y + 1) + trino (k + 1) x (y + 1) + trino (k + 1) (x + 1) y := by
  unfold trino
  have e1 : k + 1 + (x + 1) + (y + 1) = (k + x + y + 2) + 1 := by ring
  have e2 : k + (x + 1) + (y + 1) = k + x + y + 2 := by ring
  have e3 : k + 1 + x + (y + 1) = k + x + y + 2 := by ring
  have e4 : k + 1 + (x + 1) + y = k + x + y + 2 := by ring
  have e5 : x + 1 + (y + 1) = (x + y + 1) + 1 := by ring
  have e6 : x + (y + 1) = x + y + 1 := by ring
  have e7 : x + 1 + y = x + y + 1 := by ring
  rw [e1, e2, e3, e4, e5, e6, e7, Nat.choose_succ_succ (k + x + y + 2) k, Nat.choose_succ_succ (x + y + 1) x]
  ring

theorem trino_zero_k (x y : Nat) : trino 0 (x + 1) (y + 1) = trino 0 x (y + 1) + trino 0 (x + 1) y := by
  unfold trino
  have e5 : x + 1 + (y + 1) = (x + y + 1) + 1 := by ring
  have e6 : x + (y + 1) = x + y + 1 := by ring
  have e7 : x + 1 + y = x + y + 1 := by ring
  simp only [Nat.choose_zero_right, one_mul]
  rw [e5, e6, e7, Nat.choose_succ_succ]

theorem trino_zero_x (k y : Nat) : trino (k + 1) 0 (y + 1) = trino k 0 (y + 1) + trino (k + 1) 0 y := by
  unfold trino
  simp only [add_zero, zero_add, Nat.choose_zero_right, mul_one]
  rw [show k + 1 + (y + 1) = (k + y + 1) + 1 by ring, show k + (y + 1) = k + y + 1 by ring,
    show k + 1 + y = k + y + 1 by ring, Nat.choose_succ_succ]

theorem trino_zero_y (k x : Nat) : trino (k + 1) (x + 1) 0 = trino k (x + 1) 0 + trino (k + 1) x 0 := by
  unfold trino
  simp only [add_zero, Nat.choose_self, mul_one]
  rw [show k + 1 + (x + 1) = (k + x + 1) + 1 by ring, show k + (x + 1) = k + x + 1 by ring,
    show k + 1 + x = k + x + 1 by ring, Nat.choose_succ_succ]

theorem trino_zero_xy (k : Nat) : trino (k + 1) 0 0 = trino k 0 0 := by simp [trino]

theorem coefT_zero (a b : Nat) : coefT (a + 1) (b + 1) 0 = coefT a (b + 1) 0 + coefT (a + 1) b 0 := by
  simp only [coefT, Nat.zero_le, and_self, if_true, pow_zero, one_mul, Nat.sub_zero]
  rw [trino_zero_k]; push_cast; ring

theorem coefT_succ (a b k : Nat) : coefT (a + 1) (b + 1) (k + 1) =
    coefT a (b + 1) (k + 1) + coefT (a + 1) b (k + 1) - coefT a b k := by
  unfold coefT
  by_cases ha : k ≤ a
  · by_cases hb : k ≤ b
    · obtain ⟨x, rfl⟩ := Nat.exists_eq_add_of_le ha
      obtain ⟨y, rfl⟩ := Nat.exists_eq_add_of_le hb
      rw [if_pos ⟨by omega, by omega⟩]
      rw [if_pos (show k ≤ k + x ∧ k ≤ k + y from ⟨by omega, by omega⟩)]
      have s1 : k + x + 1 - (k + 1) = x := by omega
      have s2 : k + y + 1 - (k + 1) = y := by omega
      have s3 : k + x - k = x := by omega
      have s4 : k + y - k = y := by omega
      rw [s1, s2, s3, s4]
      cases x with
      | zero =>
        rw [if_neg (by omega)]
        cases y with
        | zero => rw [if_neg (by omega), trino_zero_xy]; ring
        | succ y =>
          rw [if_pos ⟨by omega, by omega⟩, show k + (y + 1) - (k + 1) = y by omega, trino_zero_x]
          push_cast; ring
      | succ x =>
        rw [if_pos ⟨by omega, by omega⟩, show k + (x + 1) - (k + 1) = x by omega]
        cases y with
        | zero =>
          rw [if_neg (by omega), trino_zero_y]; push_cast; ring
        | succ y =>
          rw [if_pos ⟨by omega, by omega⟩, show k + (y + 1) - (k + 1) = y by omega, trino_succ]
          push_cast; ring
    · rw [if_neg (by omega), if_neg (by omega), if_neg (by omega), if_neg (by omega)]; ring
  · rw [if_neg (by omega), if_neg (by omega), if_neg (by omega), if_neg (by omega)]; ring

theorem coefT_eq_zero {a b k : Nat} (h : ¬ (k ≤ a ∧ k ≤ b)) : coefT a b k = 0 := by simp only [coefT, h, if_false]

/-- Closed form of the radial polynomial, with integer coefficients. -/
theorem Rab_eq_sum (a b N : Nat) (hN : min a b < N) (r : α) :
    Rab a b r = ∑ k ∈ range N, (coefT a b k : α) * r ^ (a + b - 2 * k) := by
  -- the sum does not depend on N
  have trunc : ∀ (a b N : Nat), min a b < N →
      ∑ k ∈ range N, (coefT a b k : α) * r ^ (a + b - 2 * k) =
        ∑ k ∈ range (min a b + 1), (coefT a b k : α) * r ^ (a + b - 2 * k) := by
    intro a b N hN
    symm
    apply Finset.sum_subset
    · intro x hx; simp only [mem_range] at *; omega
    · intro x _ hx2
      simp only [mem_range, not_lt] at hx2
      rw [coefT_eq_zero (by omega)]; simp
  induction a generalizing b N with
  | zero =>
    rw [trunc 0 b N hN]
    simp [Rab, coefT, trino]
  | succ a iha =>
    induction b generalizing N with
    | zero => rw [trunc (a + 1) 0 N hN]; simp [Rab, coefT, trino]
    | succ b ihb =>
      rw [trunc _ _ N hN, ← trunc (a + 1) (b + 1) (a + b + 3) (by omega)]
      rw [Rab, iha (b + 1) (a + b + 3) (by omega), ihb (a + b + 3) (by omega), iha b (a + b + 2) (by omega)]
      rw [Finset.sum_range_succ', Finset.sum_range_succ' (n := a + b + 2), Finset.sum_range_succ' (n := a + b + 2)]
      have hp0 : a + 1 + (b + 1) - 2 * 0 = a + b + 2 := by omega
      have hp1 : a + (b + 1) - 2 * 0 = a + b + 1 := by omega
      have hp2 : a + 1 + b - 2 * 0 = a + b + 1 := by omega
      rw [hp0, hp1, hp2, coefT_zero]
      have key : ∀ k ∈ range (a + b + 2), (coefT (a + 1) (b + 1) (k + 1) : α) * r ^ (a + 1 + (b + 1) - 2 * (k + 1)) =
          r * ((coefT a (b + 1) (k + 1) : α) * r ^ (a + (b + 1) - 2 * (k + 1))) +
          r * ((coefT (a + 1) b (k + 1) : α) * r ^ (a + 1 + b - 2 * (k + 1))) -
          (coefT a b k : α) * r ^ (a + b - 2 * k) := by
        intro k _
        rw [coefT_succ]
        have e : a + 1 + (b + 1) - 2 * (k + 1) = a + b - 2 * k := by omega
        rw [e]
        have h1 : r * ((coefT a (b + 1) (k + 1) : α) * r ^ (a + (b + 1) - 2 * (k + 1))) =
            (coefT a (b + 1) (k + 1) : α) * r ^ (a + b - 2 * k) := by
          by_cases hk : k + 1 ≤ a ∧ k + 1 ≤ b + 1
          · have : a + b - 2 * k = (a + (b + 1) - 2 * (k + 1)) + 1 := by omega
            rw [this]; ring
          · rw [coefT_eq_zero hk]; simp
        have h2 : r * ((coefT (a + 1) b (k + 1) : α) * r ^ (a + 1 + b - 2 * (k + 1))) =
            (coefT (a + 1) b (k + 1) : α) * r ^ (a + b - 2 * k) := by
          by_cases hk : k + 1 ≤ a + 1 ∧ k + 1 ≤ b
          · have : a + b - 2 * k = (a + 1 + b - 2 * (k + 1)) + 1 := by omega
            rw [this]; ring
          · rw [coefT_eq_zero hk]; simp
        rw [h1, h2]; push_cast; ring
      rw [Finset.sum_congr rfl key]
      simp only [Finset.sum_add_distrib, Finset.sum_sub_distrib, ← Finset.mul_sum]
      push_cast
      ring

/-- The radial polynomial of orders `(m, n)`. -/
def RR (m n : Int) (r : α) : α := Rab ((n + m) / 2).toNat ((n - m) / 2).toNat r

theorem RR_neg (m n : Int) (r : α) : RR (-m) n r = RR m n r := by
  unfold RR
  rw [Rab_comm]
  congr 2 <;> ring_nf

theorem RR_abs (m n : Int) (r : α) : RR (pyAbs m) n r = RR m n r := by
  unfold pyAbs; split_ifs
  · exact RR_neg m n r
  · rfl

/-- The general recurrence. -/
theorem RR_rec (m n : Int) (h : ValidOrders m n) (hlt : pyAbs m ≠ n) (r : α) :
    RR m n r = r * (RR (m - 1) (n - 1) r + RR (m + 1) (n - 1) r) - RR m (n - 2) r := by
  rw [valid_iff] at h
  obtain ⟨a, ha⟩ : ∃ a : Nat, (n + m) / 2 = a + 1 :=
    ⟨((n + m) / 2 - 1).toNat, by unfold pyAbs at hlt; split_ifs at hlt <;> omega⟩
  obtain ⟨b, hb⟩ : ∃ b : Nat, (n - m) / 2 = b + 1 :=
    ⟨((n - m) / 2 - 1).toNat, by unfold pyAbs at hlt; split_ifs at hlt <;> omega⟩
  unfold RR
  rw [show ((n + m) / 2).toNat = a + 1 by omega, show ((n - m) / 2).toNat = b + 1 by omega,
    show ((n - 1 + (m - 1)) / 2).toNat = a by omega, show ((n - 1 - (m - 1)) / 2).toNat = b + 1 by omega,
    show ((n - 1 + (m + 1)) / 2).toNat = a + 1 by omega, show ((n - 1 - (m + 1)) / 2).toNat = b by omega,
    show ((n - 2 + m) / 2).toNat = a by omega, show ((n - 2 - m) / 2).toNat = b by omega, Rab]

theorem RR_diag (m n : Int) (h : ValidOrders m n) (he : pyAbs m = n) (r : α) : RR m n r = r ^ n.toNat := by
  rw [valid_iff] at h
  rw [← RR_abs, he]
  unfold RR
  rw [show ((n - n) / 2).toNat = 0 by omega, show ((n + n) / 2).toNat = n.toNat by omega, Rab_zero_right]

theorem RR_subdiag (m n : Int) (h : ValidOrders m n) (he : pyAbs m = n - 2) (r : α) :
    RR m n r = (n : α) * r ^ n.toNat - ((n - 1 : Int) : α) * r ^ (n - 2).toNat := by
  have hn : 2 ≤ n := by unfold pyAbs at he; split_ifs at he <;> omega
  rw [← RR_abs, he]
  obtain ⟨a, rfl⟩ : ∃ a : Nat, n = a + 2 := ⟨(n - 2).toNat, by omega⟩
  unfold RR
  rw [show (((a : Int) + 2 - (a + 2 - 2)) / 2).toNat = 1 by omega,
    show (((a : Int) + 2 + (a + 2 - 2)) / 2).toNat = a + 1 by omega, Rab_one,
    show ((a : Int) + 2).toNat = a + 2 by omega, show ((a : Int) + 2 - 2).toNat = a by omega]
  push_cast; ring

omit [CommRing α] in
theorem ite_some_step {p : Prop} [Decidable p] {x v R : α} {t : Option α}
    (h : (if p then some x else t) = some v) (hp : p → x = R) (ht : t = some v → v = R) : v = R := by
  split_ifs at h with c
  · rw [← Option.some.inj h]; exact hp c
  · exact ht h

theorem Rab_red (a b : Nat) (r : α) :
    Rab a b r = ∑ k ∈ range (min a b + 1), (coefT a b k : α) * r ^ (a + b - 2 * k) :=
  Rab_eq_sum a b _ (Nat.lt_succ_self _) r

/-- The table of `radial_polynomial`. -/
theorem radialTable_correct (m n : Int) (r : α) (v : α) (h : radialTable m n r = some v) : v = RR m n r := by
  unfold radialTable at h
  iterate 33
    refine ite_some_step h (fun hp => ?_) (fun h => ?_)
    · clear h
      casesm* _ ∨ _, _ ∧ _ <;> subst_vars <;> unfold RR <;>
        simp only [Int.reduceAdd, Int.reduceSub, Int.reduceDiv, Int.reduceToNat, Int.reduceNeg] <;>
        rw [Rab_red] <;> simp [Finset.sum_range_succ, coefT, trino, Nat.choose] <;> try ring
    clear * - h
  exact absurd h (by simp)

/-- Orders up to 10 that the table leaves out are the diagonal ones. -/
theorem radialTable_none (m n : Int) (r : α) (hv : ValidOrders m n) (hn : n ≤ 10) (h : radialTable m n r = none) :
    n > 7 ∧ pyAbs m = n := by
  rw [valid_iff] at hv
  obtain ⟨h0, h1, h2, h3⟩ := hv
  interval_cases n <;> interval_cases m <;> first | omega | (simp [radialTable] at h; done) | (simp [pyAbs]; done)

theorem valid_down {m n : Int} (h : ValidOrders m n) (hne : pyAbs m ≠ n) :
    ValidOrders (m - 1) (n - 1) ∧ ValidOrders (m + 1) (n - 1) ∧ ValidOrders m (n - 2) := by
  simp only [valid_iff] at *
  unfold pyAbs at hne
  split_ifs at hne <;> refine ⟨⟨?_, ?_, ?_, ?_⟩, ⟨?_, ?_, ?_, ?_⟩, ?_, ?_, ?_, ?_⟩ <;> omega

theorem valid_pyAbs {m n : Int} (h : ValidOrders m n) : ValidOrders (pyAbs m) n := by
  simp only [valid_iff] at *
  unfold pyAbs; split_ifs <;> refine ⟨?_, ?_, ?_, ?_⟩ <;> omega

/-- Naturality of the radial polynomials in the ring. -/
theorem map_Rab {β : Type} [CommRing β] (f : α →+* β) (a b : Nat) (r : α) : f (Rab a b r) = Rab a b (f r) := by
  induction a generalizing b with
  | zero => simp [Rab]
  | succ a ih =>
    induction b with
    | zero => simp [Rab]
    | succ b ihb => simp only [Rab, map_sub, map_mul, map_add, ih, ihb]

theorem map_RR {β : Type} [CommRing β] (f : α →+* β) (m n : Int) (r : α) : f (RR m n r) = RR m n (f r) :=
  map_Rab f _ _ r

theorem RR_zero_rec (n : Int) (h : ValidOrders 0 n) (hn : 0 < n) (r : α) :
    RR 0 n r = 2 * r * RR 1 (n - 1) r - RR 0 (n - 2) r := by
  rw [RR_rec 0 n h (by simp [pyAbs]; omega), zero_sub, RR_neg, zero_add]; ring

/-- `radial_polynomial` computes the radial polynomial. -/
theorem radialPolynomial_correct (fuel : Nat) (m n : Int) (r : α) (hv : ValidOrders m n) (hf : n.toNat < fuel) :
    radialPolynomial fuel m n r = .ok (RR m n r) := by
  induction fuel generalizing m n with
  | zero => omega
  | succ fuel ih =>
    unfold radialPolynomial
    cases ht : radialTable m n r with
    | some v => simp only [radialTable_correct m n r v ht]
    | none =>
      simp only
      have hn := (valid_iff m n).1 hv
      by_cases h10 : n ≤ 10
      · have := radialTable_none m n r hv h10 ht
        rw [if_pos this, RR_diag m n hv this.2]
      · by_cases c1 : pyAbs m = n
        · rw [if_pos ⟨by omega, c1⟩, RR_diag m n hv c1]
        · obtain ⟨v1, v2, v3⟩ := valid_down hv c1
          rw [if_neg (by tauto)]
          by_cases c2 : m = 0
          · subst c2
            rw [if_pos ⟨by omega, rfl⟩]
            have w1 := (valid_iff 1 (n - 1)).1 (by simpa using v2)
            have w3 := (valid_iff 0 (n - 2)).1 v3
            rw [ih 1 (n - 1) (by simpa using v2) (by omega), ih 0 (n - 2) v3 (by omega)]
            rw [RR_zero_rec n hv (by omega)]; rfl
          · rw [if_neg (by tauto)]
            by_cases c3 : pyAbs m = n - 2
            · rw [if_pos ⟨by omega, c3⟩, RR_subdiag m n hv c3]
            · rw [if_neg (by tauto)]
              have w1 := (valid_iff _ _).1 v1
              have w3 := (valid_iff _ _).1 v3
              rw [ih _ _ (valid_pyAbs v1) (by omega), ih _ _ v2 (by omega), ih _ _ v3 (by omega), RR_abs,
                RR_rec m n hv c1]
              rfl

end
end Verif.Proofs
