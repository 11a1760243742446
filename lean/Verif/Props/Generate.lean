import Verif.Model.Generate
import Verif.Props.ZernPol

/-!
# C13 for every argument: floats, numpy integers, strings, other values; the warnings

`Denotes a k` says in words of Python which integer an argument stands for: the number itself for `int`, `bool` and `numpy.int64`, the
number with its fraction dropped for a `float`, the integer spelled by a string.
-/

namespace Verif.Props
open Verif Verif.Model Verif.Spec

/-- The argument `a` stands for the integer `k`. A `float` stands for the integer between it and zero, less than one away. -/
def Denotes : MaxOrder → Int → Prop
  | .int i, k => k = i
  | .bool b, k => (b = true ∧ k = 1) ∨ (b = false ∧ k = 0)
  | .npInt64 i, k => k = i
  | .float (.fin x), k => |x - k| < 1 ∧ |(k : ℝ)| ≤ |x| ∧ 0 ≤ k * x
  | .text v, k => v = some k
  | _, _ => False

open Classical in
theorem trunc_denotes (x : ℝ) : Denotes (.float (.fin x)) (if x < 0 then ⌈x⌉ else ⌊x⌋) := by
  simp only [Denotes]
  split_ifs with h
  · have h1 := Int.le_ceil x
    have h2 := Int.ceil_lt_add_one x
    have h3 : (⌈x⌉ : ℝ) ≤ 0 := by exact_mod_cast Int.ceil_le.2 (by simpa using h.le)
    refine ⟨by rw [abs_lt]; constructor <;> linarith, ?_, by nlinarith⟩
    rw [abs_of_nonpos h3, abs_of_neg h]; linarith
  · push Not at h
    have h1 := Int.floor_le x
    have h2 := Int.lt_floor_add_one x
    have h3 : (0 : ℝ) ≤ ⌊x⌋ := by exact_mod_cast Int.floor_nonneg.2 h
    refine ⟨by rw [abs_lt]; constructor <;> linarith, ?_, by positivity⟩
    rw [abs_of_nonneg h3, abs_of_nonneg h]; exact h1

theorem denotes_float_unique {x : ℝ} {j k : Int} (hj : Denotes (.float (.fin x)) j) (hk : Denotes (.float (.fin x)) k) : j = k := by
  obtain ⟨a1, a2, a3⟩ := hj
  obtain ⟨b1, b2, b3⟩ := hk
  rw [abs_lt] at a1 b1
  rcases lt_trichotomy x 0 with h | h | h
  · have aj : (j : ℝ) ≤ 0 := by by_contra hc; push Not at hc; nlinarith
    have bk : (k : ℝ) ≤ 0 := by by_contra hc; push Not at hc; nlinarith
    rw [abs_of_nonpos aj, abs_of_neg h] at a2
    rw [abs_of_nonpos bk, abs_of_neg h] at b2
    have p : (j : ℝ) < k + 1 := by linarith
    have q : (k : ℝ) < j + 1 := by linarith
    have p' : j < k + 1 := by exact_mod_cast p
    have q' : k < j + 1 := by exact_mod_cast q
    omega
  · subst h
    rw [abs_zero] at a2 b2
    have p : (j : ℝ) = 0 := abs_nonpos_iff.1 a2
    have q : (k : ℝ) = 0 := abs_nonpos_iff.1 b2
    exact_mod_cast p.trans q.symm
  · have aj : (0 : ℝ) ≤ j := by by_contra hc; push Not at hc; nlinarith
    have bk : (0 : ℝ) ≤ k := by by_contra hc; push Not at hc; nlinarith
    rw [abs_of_nonneg aj, abs_of_pos h] at a2
    rw [abs_of_nonneg bk, abs_of_pos h] at b2
    have p : (j : ℝ) < k + 1 := by linarith
    have q : (k : ℝ) < j + 1 := by linarith
    have p' : j < k + 1 := by exact_mod_cast p
    have q' : k < j + 1 := by exact_mod_cast q
    omega

theorem toInt_ok_iff (a : MaxOrder) (k : Int) : a.toInt = .ok k ↔ Denotes a k := by
  match a with
  | .int i => simp [MaxOrder.toInt, Denotes, eq_comm]
  | .bool true => simp [MaxOrder.toInt, Denotes, eq_comm]
  | .bool false => simp [MaxOrder.toInt, Denotes, eq_comm]
  | .npInt64 i => simp [MaxOrder.toInt, Denotes, eq_comm]
  | .float (.fin x) =>
    constructor
    · intro h; rw [← Except.ok.inj h]; exact trunc_denotes x
    · intro h; exact congrArg _ (denotes_float_unique (trunc_denotes x) h)
  | .float (.inf _) => simp [MaxOrder.toInt, Denotes]
  | .float .nan => simp [MaxOrder.toInt, Denotes]
  | .text (some i) => simp [MaxOrder.toInt, Denotes]
  | .text none => simp [MaxOrder.toInt, Denotes]
  | .other => simp [MaxOrder.toInt, Denotes]

/-- C13. `generate_polynomials` returns for exactly the arguments that stand for an integer `0 ≤ k ≤ 54`, and returns then the
`(k+1)(k+2)/2` polynomials up to order `k`, the `i`-th with OSA index `i`, every valid one once. -/
theorem generate_any_returns_iff (a : MaxOrder) (l : List ZernPol) :
    (generatePolynomialsAny a).2 = .ok l ↔
      ∃ k : Int, Denotes a k ∧ 0 ≤ k ∧ k ≤ 54 ∧ generatePolynomials k = .ok l := by
  constructor
  · intro h
    unfold generatePolynomialsAny at h
    rcases ha : a.toInt with e | k
    · simp [ha] at h
    · simp only [ha] at h
      by_cases h0 : k < 0
      · rw [if_pos h0] at h; cases h
      · rw [if_neg h0] at h
        replace h : generatePolynomials k = .ok l := h
        refine ⟨k, (toInt_ok_iff a k).1 ha, by omega, ?_, h⟩
        by_contra hc
        rw [generate_polynomials_rejects k (Or.inr (by omega))] at h
        cases h
  · rintro ⟨k, hk, h0, -, h⟩
    unfold generatePolynomialsAny
    rw [(toInt_ok_iff a k).2 hk]
    simp only
    rw [if_neg (by omega)]
    exact h

/-- C13. What is returned, in full: for an argument standing for `0 ≤ k ≤ 54`. -/
theorem generate_any_enumerates (a : MaxOrder) (k : Int) (ha : Denotes a k) (h0 : 0 ≤ k) (h1 : k ≤ 54) :
    ∃ l, (generatePolynomialsAny a).2 = .ok l ∧ 2 * (l.length : Int) = (k + 1) * (k + 2) ∧
      (∀ i (h : i < l.length), l[i].osa = i ∧ ValidOrders l[i].m l[i].n ∧ l[i].n ≤ k) ∧
      (∀ m n, ValidOrders m n → n ≤ k → ∃ z ∈ l, z.m = m ∧ z.n = n) := by
  obtain ⟨l, hl, h2, h3, h4⟩ := generate_polynomials_enumerates k h0 h1
  exact ⟨l, (generate_any_returns_iff a l).2 ⟨k, ha, h0, h1, hl⟩, h2, fun i h => ⟨(h3 i h).1, (h3 i h).2.1, (h3 i h).2.2.1⟩, h4⟩

/-- C13. A `float` is accepted exactly between -1 and 55 (both excluded): everything above -1 and below 1 gives the piston alone. -/
theorem generate_float_accepted_iff (x : ℝ) :
    (∃ l, (generatePolynomialsAny (.float (.fin x))).2 = .ok l) ↔ -1 < x ∧ x < 55 := by
  constructor
  · rintro ⟨l, hl⟩
    obtain ⟨k, ⟨d1, d2, d3⟩, h0, h1, -⟩ := (generate_any_returns_iff _ l).1 hl
    rw [abs_lt] at d1
    have p0 : (0 : ℝ) ≤ k := by exact_mod_cast h0
    have p1 : (k : ℝ) ≤ 54 := by exact_mod_cast h1
    constructor <;> linarith
  · rintro ⟨hx, hy⟩
    have hd := trunc_denotes x
    have h0 : 0 ≤ (if x < 0 then ⌈x⌉ else ⌊x⌋) := by
      split_ifs with h
      · have : -1 < ⌈x⌉ := Int.lt_ceil.2 (by push_cast; linarith)
        omega
      · exact Int.floor_nonneg.2 (not_lt.1 h)
    have h1 : (if x < 0 then ⌈x⌉ else ⌊x⌋) ≤ 54 := by
      split_ifs with h
      · exact Int.ceil_le.2 (by push_cast; linarith)
      · have : ⌊x⌋ < 55 := Int.floor_lt.2 (by push_cast; linarith)
        omega
    obtain ⟨l, hl, -⟩ := generate_any_enumerates _ _ hd h0 h1
    exact ⟨l, hl⟩

/-- C13. The exceptions: `TypeError` exactly for values without conversion, an overflow error exactly for the infinities, `ValueError` for
everything else that is not accepted. -/
theorem generate_any_raises (a : MaxOrder) (e : PyErr) (h : (generatePolynomialsAny a).2 = .error e) :
    (a = .other ∧ e = .typeError) ∨ ((∃ s, a = .float (.inf s)) ∧ e = .otherError) ∨
      (a ≠ .other ∧ (∀ s, a ≠ .float (.inf s)) ∧ e = .valueError) := by
  have key : ∀ k, a.toInt = .ok k → e = .valueError := by
    intro k hk
    unfold generatePolynomialsAny at h
    simp only [hk] at h
    by_cases h0 : k < 0
    · simp [h0] at h; exact h.symm
    · rw [if_neg h0] at h
      simp only at h
      by_cases h1 : k ≤ 54
      · obtain ⟨l, hl, -⟩ := generate_polynomials_enumerates k (by omega) h1
        rw [hl] at h; cases h
      · rw [generate_polynomials_rejects k (Or.inr (by omega))] at h; cases h; rfl
  match a with
  | .other => left; exact ⟨rfl, by simp [generatePolynomialsAny, MaxOrder.toInt] at h; exact h.symm⟩
  | .float (.inf s) => right; left; exact ⟨⟨s, rfl⟩, by simp [generatePolynomialsAny, MaxOrder.toInt] at h; exact h.symm⟩
  | .float .nan =>
    right; right; exact ⟨by simp, by simp, by simp [generatePolynomialsAny, MaxOrder.toInt] at h; exact h.symm⟩
  | .text none =>
    right; right; exact ⟨by simp, by simp, by simp [generatePolynomialsAny, MaxOrder.toInt] at h; exact h.symm⟩
  | .int i => right; right; exact ⟨by simp, by simp, key _ rfl⟩
  | .bool b => right; right; exact ⟨by simp, by simp, key _ rfl⟩
  | .npInt64 i => right; right; exact ⟨by simp, by simp, key _ rfl⟩
  | .text (some i) => right; right; exact ⟨by simp, by simp, key _ rfl⟩
  | .float (.fin x) => right; right; exact ⟨by simp, by simp, key _ rfl⟩

/-- C13. The warnings: "not as integer" exactly when the argument is neither an `int` nor a `bool` (also for values that are then rejected),
"really slow" exactly when it stands for an integer above 30 (also for orders above 54, which are then rejected); at most one of each, in
this order. -/
theorem generate_any_warnings (a : MaxOrder) :
    (GenWarning.notInteger ∈ (generatePolynomialsAny a).1 ↔ (∀ i, a ≠ .int i) ∧ ∀ b, a ≠ .bool b) ∧
    (GenWarning.slow ∈ (generatePolynomialsAny a).1 ↔ ∃ k, Denotes a k ∧ 30 < k) ∧
    (generatePolynomialsAny a).1.Sublist [GenWarning.notInteger, GenWarning.slow] := by
  have hi : a.isInt = true ↔ ¬ ((∀ i, a ≠ .int i) ∧ ∀ b, a ≠ .bool b) := by
    cases a <;> simp [MaxOrder.isInt]
  rcases ha : a.toInt with e | k
  · have hs : ¬ ∃ k, Denotes a k ∧ 30 < k := by
      rintro ⟨k, hk, -⟩; rw [(toInt_ok_iff a k).2 hk] at ha; cases ha
    have hw : (generatePolynomialsAny a).1 = if a.isInt then [] else [GenWarning.notInteger] := by
      simp [generatePolynomialsAny, ha]
    rw [hw]
    by_cases hb : a.isInt = true
    · have := hi.1 hb
      simp only [hb, if_true]
      refine ⟨⟨fun h => by simp at h, fun h => absurd h this⟩, ⟨fun h => by simp at h, fun h => absurd h hs⟩, by simp⟩
    · have := not_not.1 (mt hi.2 hb)
      simp only [hb]
      refine ⟨⟨fun _ => this, fun _ => by simp⟩, ⟨fun h => by simp at h, fun h => absurd h hs⟩, by simp⟩
  · have hs : (∃ k, Denotes a k ∧ 30 < k) ↔ 30 < k := by
      constructor
      · rintro ⟨j, hj, h⟩
        rw [(toInt_ok_iff a j).2 hj] at ha
        rw [← Except.ok.inj ha]; exact h
      · intro h; exact ⟨k, (toInt_ok_iff a k).1 ha, h⟩
    rw [hs]
    have hw : (generatePolynomialsAny a).1 =
        (if a.isInt then [] else [GenWarning.notInteger]) ++ (if k > 30 then [GenWarning.slow] else []) := by
      simp only [generatePolynomialsAny, ha]
      by_cases h0 : k < 0
      · rw [if_pos h0, if_neg (by omega : ¬ k > 30)]; simp
      · rw [if_neg h0]
    rw [hw]
    by_cases hb : a.isInt = true
    · have := hi.1 hb
      by_cases hk : 30 < k <;> simp only [hb, hk, if_true, gt_iff_lt, if_false] <;>
        exact ⟨⟨fun h => by simp at h, fun h => absurd h this⟩, by simp, by simp⟩
    · have := not_not.1 (mt hi.2 hb)
      by_cases hk : 30 < k <;> simp only [hb, hk, if_true, gt_iff_lt, if_false] <;>
        exact ⟨⟨fun _ => this, fun _ => by simp⟩, by simp, by simp⟩

/-- The hypotheses are met: `-0.5` gives the piston with a warning, `2.9` and `"2"` the six polynomials up to order 2. -/
example : Denotes (.float (.fin (-0.5))) 0 ∧ Denotes (.float (.fin 2.9)) 2 ∧ Denotes (.text (some 2)) 2 := by
  refine ⟨⟨?_, ?_, ?_⟩, ⟨?_, ?_, ?_⟩, rfl⟩ <;> norm_num [abs_of_pos, abs_of_neg]

example : ∃ l, (generatePolynomialsAny (.float (.fin (-0.5)))).2 = .ok l ∧ 2 * (l.length : Int) = 2 := by
  obtain ⟨l, h, h2, -⟩ := generate_any_enumerates (.float (.fin (-0.5))) 0
    (by refine ⟨?_, ?_, ?_⟩ <;> norm_num [abs_of_pos, abs_of_neg]) (by norm_num) (by norm_num)
  exact ⟨l, h, by omega⟩

end Verif.Props
