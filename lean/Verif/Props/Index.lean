import Verif.Proofs.Index

/-!
# C01 - C06: index schemes, their inverses and conversions
-/

namespace Verif.Props
open Verif.Spec Verif.Model Verif.Proofs

/-! ## C01: the OSA/ANSI index -/

/-- C01. The OSA index is a bijection from the valid orders onto `{0, 1, 2, ...}`. -/
theorem osa_index_bijective :
    Set.BijOn (fun p : Int × Int => getOsaIndex p.1 p.2) {p | ValidOrders p.1 p.2} (Set.Ici 0) :=
  osa_bijOn

/-- C01. It enumerates the polynomials by radial order, then by azimuthal order. -/
theorem osa_index_order (m n m' n' : Int) (h : ValidOrders m n) (h' : ValidOrders m' n') :
    getOsaIndex m n < getOsaIndex m' n' ↔ n < n' ∨ (n = n' ∧ m < m') := by
  have b := osa_block h; have b' := osa_block h'
  have e := osa_eq h; have e' := osa_eq h'
  have hv := (valid_iff _ _).1 h; have hv' := (valid_iff _ _).1 h'
  rcases lt_trichotomy n n' with hn | hn | hn
  · have := tri_lt hv.1 hn; constructor <;> intro <;> omega
  · subst hn; omega
  · have := tri_lt hv'.1 hn; constructor <;> intro <;> omega

example : ValidOrders (-3) 3 ∧ ValidOrders 1 3 ∧ getOsaIndex (-3) 3 = 6 ∧ getOsaIndex 1 3 = 8 := by decide

/-! ## C02: the Noll index -/

/-- C02. The Noll index is a bijection from the valid orders onto `{1, 2, ...}`. -/
theorem noll_index_bijective :
    Set.BijOn (fun p : Int × Int => getNollIndex p.1 p.2) {p | ValidOrders p.1 p.2} (Set.Ici 1) :=
  noll_bijOn

/-- C02. Cosine polynomials (`m > 0`) have even Noll indices, sine polynomials (`m < 0`) odd ones. -/
theorem noll_index_parity (m n : Int) (h : ValidOrders m n) :
    (0 < m → getNollIndex m n % 2 = 0) ∧ (m < 0 → getNollIndex m n % 2 = 1) := by
  rw [valid_iff] at h
  obtain ⟨q, r, hr0, hr3, hn⟩ : ∃ q r : Int, 0 ≤ r ∧ r ≤ 3 ∧ n = 4 * q + r :=
    ⟨n / 4, n % 4, by omega, by omega, by omega⟩
  have ht := two_tri n
  have ht' : n * (n + 1) / 2 = tri n := rfl
  have key : tri n = 2 * (4 * q * q + 2 * q * r + q) + tri r := by
    have h2 := two_tri r
    rw [hn] at ht ⊢
    nlinarith
  have hr : tri r = if r = 0 then 0 else if r = 1 then 1 else if r = 2 then 3 else 6 := by
    have : r = 0 ∨ r = 1 ∨ r = 2 ∨ r = 3 := by omega
    rcases this with h | h | h | h <;> subst h <;> decide
  unfold getNollIndex pyAbs
  rw [ht', key]
  generalize 4 * q * q + 2 * q * r + q = w
  simp only
  rw [hr]
  constructor <;> intro hm <;> split_ifs <;> omega

/-- C02. The Noll indices of one radial order form one contiguous block, sorted by `|m|`. -/
theorem noll_index_order (m n m' n' : Int) (h : ValidOrders m n) (h' : ValidOrders m' n')
    (hlt : n < n' ∨ (n = n' ∧ |m| < |m'|)) : getNollIndex m n < getNollIndex m' n' := by
  have b := noll_block h; have b' := noll_block h'
  have hv := (valid_iff _ _).1 h; have hv' := (valid_iff _ _).1 h'
  rcases hlt with hn | ⟨hn, hm⟩
  · have := tri_lt hv.1 hn; omega
  · subst hn
    rw [← pyAbs_eq, ← pyAbs_eq] at hm
    revert hm
    unfold getNollIndex pyAbs
    simp only
    generalize n * (n + 1) / 2 = t
    split_ifs <;> omega

example : ValidOrders 1 3 ∧ getNollIndex 1 3 = 8 ∧ getNollIndex (-1) 3 = 7 ∧ getNollIndex 3 3 = 10 := by
  decide

/-! ## C03: the Fringe index -/

/-- C03. The Fringe index is a bijection from the valid orders onto `{1, 2, ...}`. -/
theorem fringe_index_bijective :
    Set.BijOn (fun p : Int × Int => getFringeIndex p.1 p.2) {p | ValidOrders p.1 p.2} (Set.Ici 1) :=
  fringe_bijOn

/-- C03. Fringe ordering: by `n + |m|`, then by decreasing `|m|`, the cosine term before the sine term. -/
theorem fringe_index_order (m n m' n' : Int) (h : ValidOrders m n) (h' : ValidOrders m' n')
    (hlt : n + |m| < n' + |m'| ∨ (n + |m| = n' + |m'| ∧ |m'| < |m|) ∨ (n = n' ∧ 0 < m ∧ m' = -m)) :
    getFringeIndex m n < getFringeIndex m' n' := by
  have hb := fringe_block h; have hb' := fringe_block h'
  have hv := (valid_iff _ _).1 h; have hv' := (valid_iff _ _).1 h'
  rw [← pyAbs_eq, ← pyAbs_eq] at *
  rcases hlt with hn | hn
  · have : (n + pyAbs m) / 2 + 1 ≤ (n' + pyAbs m') / 2 := by
      revert hn; unfold pyAbs; split_ifs <;> omega
    have h0 : 0 ≤ (n + pyAbs m) / 2 := by unfold pyAbs; split_ifs <;> omega
    nlinarith
  · have hs : (n + pyAbs m) / 2 = (n' + pyAbs m') / 2 := by
      revert hn; unfold pyAbs; split_ifs <;> omega
    unfold getFringeIndex
    rw [hs]
    revert hn
    generalize (1 + (n' + pyAbs m') / 2) ^ 2 = q
    unfold pyAbs npSign
    split_ifs <;> omega

example : ValidOrders 2 2 ∧ getFringeIndex 2 2 = 5 ∧ getFringeIndex (-2) 2 = 6 ∧ getFringeIndex 0 2 = 4 := by
  decide

/-! ## C04: `index2orders` -/

/-- C04. `index2orders(osa_index=i)` inverts the OSA index for every polynomial with `n < 56`, whatever
other keyword arguments are present. -/
theorem index2orders_osa (m n : Int) (h : ValidOrders m n) (hn : n < 56) (noll fringe : Option Int) :
    index2orders (some (getOsaIndex m n)) noll fringe = (m, n) := by
  have hpos : 0 ≤ getOsaIndex m n := osa_nonneg h
  have hv := (valid_iff _ _).1 h
  unfold index2orders
  simp only [ge_iff_le, hpos, if_true]
  refine outer_some _ 56 0 _ m n h (by simpa using hv.1) (by simpa using hn) (by simp) ?_
  intro m' n' h' ht
  have := osa_bijOn.injOn (x₁ := (m, n)) (x₂ := (m', n')) h h' (by simpa using ht)
  simp only [Prod.mk.injEq] at this; omega

/-- C04. The OSA indices of the polynomials with `n < 56` are exactly `0 .. 1595`; for every other integer the
result is the pair `(57, 55)`, which is not a pair of valid orders. -/
theorem index2orders_osa_range (i : Int) (noll fringe : Option Int) :
    (0 ≤ i → i < 1596 → ∃ m n, ValidOrders m n ∧ n < 56 ∧ getOsaIndex m n = i ∧
      index2orders (some i) noll fringe = (m, n)) ∧
    ((i < 0 ∨ 1596 ≤ i) → index2orders (some i) noll fringe = (57, 55)) ∧ ¬ ValidOrders 57 55 := by
  refine ⟨?_, ?_, by decide⟩
  · intro h0 h1
    obtain ⟨⟨m, n⟩, hv, he⟩ := osa_bijOn.surjOn h0
    simp only at he
    have hb := osa_block hv
    simp only at hb
    have hn : n < 56 := by
      by_contra hc
      have h55 := tri_lt (a := 55) (b := n) (by omega) (by omega)
      have e55 : tri 55 = 1540 := by decide
      omega
    exact ⟨m, n, hv, hn, he, by rw [← he]; exact index2orders_osa m n hv hn _ _⟩
  · intro hi
    unfold index2orders
    refine outer_none _ 56 0 _ (by omega) ?_
    intro m n hv h0 h1
    by_cases hp : i ≥ 0
    · simp only [hp, if_true]
      have hb := osa_block hv
      have hvv := (valid_iff _ _).1 hv
      have h55 : n = 55 ∨ n < 55 := by push_cast at h1; omega
      have e55 : tri 55 = 1540 := by decide
      have : getOsaIndex m n < 1596 := by
        rcases h55 with h | h
        · subst h; omega
        · have := tri_lt (a := n) (b := 55) hvv.1 h; omega
      simp; omega
    · simp [hp]

/-- C04. `index2orders(noll_index=i)` inverts the Noll index for every polynomial with `n < 56`. -/
theorem index2orders_noll (m n : Int) (h : ValidOrders m n) (hn : n < 56) (fringe : Option Int) :
    index2orders none (some (getNollIndex m n)) fringe = (m, n) := by
  have hpos : 1 ≤ getNollIndex m n := noll_pos h
  have hv := (valid_iff _ _).1 h
  have hpos' : 0 ≤ getNollIndex m n := by omega
  unfold index2orders
  simp only [ge_iff_le, hpos', if_true]
  refine outer_some _ 56 0 _ m n h (by simpa using hv.1) (by simpa using hn) (by simp) ?_
  intro m' n' h' ht
  have := noll_bijOn.injOn (x₁ := (m, n)) (x₂ := (m', n')) h h' (by simpa using ht)
  simp only [Prod.mk.injEq] at this; omega

/-- C04. Noll indices of the polynomials with `n < 56` are exactly `1 .. 1596`; otherwise `(57, 55)`. -/
theorem index2orders_noll_range (i : Int) (fringe : Option Int) :
    (1 ≤ i → i ≤ 1596 → ∃ m n, ValidOrders m n ∧ n < 56 ∧ getNollIndex m n = i ∧
      index2orders none (some i) fringe = (m, n)) ∧
    ((i < 1 ∨ 1596 < i) → index2orders none (some i) fringe = (57, 55)) := by
  refine ⟨?_, ?_⟩
  · intro h0 h1
    obtain ⟨⟨m, n⟩, hv, he⟩ := noll_bijOn.surjOn h0
    simp only at he
    have hb := noll_block hv
    simp only at hb
    have hn : n < 56 := by
      by_contra hc
      have h55 := tri_lt (a := 55) (b := n) (by omega) (by omega)
      have e55 : tri 55 = 1540 := by decide
      omega
    exact ⟨m, n, hv, hn, he, by rw [← he]; exact index2orders_noll m n hv hn _⟩
  · intro hi
    unfold index2orders
    refine outer_none _ 56 0 _ (by omega) ?_
    intro m n hv h0 h1
    by_cases hp : i ≥ 0
    · have hb := noll_block hv
      have hvv := (valid_iff _ _).1 hv
      have h55 : n = 55 ∨ n < 55 := by push_cast at h1; omega
      have e55 : tri 55 = 1540 := by decide
      have e0 := two_tri n
      have hge : 0 ≤ tri n := by nlinarith
      have : getNollIndex m n < 1597 := by
        rcases h55 with h | h
        · subst h; omega
        · have := tri_lt (a := n) (b := 55) hvv.1 h; omega
      simp [hp]; omega
    · simp [hp]

/-- C04. `index2orders(fringe_index=i)` inverts the Fringe index for every polynomial with `n < 250`. -/
theorem index2orders_fringe (m n : Int) (h : ValidOrders m n) (hn : n < 250) :
    index2orders none none (some (getFringeIndex m n)) = (m, n) := by
  have hpos : 1 ≤ getFringeIndex m n := fringe_pos h
  have hv := (valid_iff _ _).1 h
  have hpos' : 0 ≤ getFringeIndex m n := by omega
  unfold index2orders
  simp only [ge_iff_le, hpos', if_true]
  refine outer_some _ 250 0 _ m n h (by simpa using hv.1) (by simpa using hn) (by simp) ?_
  intro m' n' h' ht
  have := fringe_bijOn.injOn (x₁ := (m, n)) (x₂ := (m', n')) h h' (by simpa using ht)
  simp only [Prod.mk.injEq] at this; omega

/-- C04. For a Fringe index of a polynomial with `n ≥ 250`, or one below 1, the result is `(251, 249)`,
not a pair of valid orders; the Fringe indices `1 .. 15875` are all found. -/
theorem index2orders_fringe_range (i : Int) :
    (1 ≤ i → i ≤ 15875 → ∃ m n, ValidOrders m n ∧ n < 250 ∧ getFringeIndex m n = i ∧
      index2orders none none (some i) = (m, n)) ∧
    ((∀ m n, ValidOrders m n → n < 250 → getFringeIndex m n ≠ i) →
      index2orders none none (some i) = (251, 249)) ∧ ¬ ValidOrders 251 249 := by
  refine ⟨?_, ?_, by decide⟩
  · intro h0 h1
    obtain ⟨⟨m, n⟩, hv, he⟩ := fringe_bijOn.surjOn h0
    simp only at he
    have hb := fringe_block hv
    simp only at hb
    have ha : 0 ≤ |m| := abs_nonneg m
    have hpar : (2 : Int) ∣ n - |m| := hv.2.2
    have hs : (n + |m|) / 2 ≤ 125 := by
      by_contra hc
      nlinarith
    have hn : n < 250 := by
      by_contra hc
      have h0m : |m| = 0 := by omega
      have hn250 : n = 250 := by omega
      have hm0 : m = 0 := abs_eq_zero.1 h0m
      have : getFringeIndex 0 250 = 15876 := by decide
      rw [hm0, hn250] at he
      omega
    exact ⟨m, n, hv, hn, he, by rw [← he]; exact index2orders_fringe m n hv hn⟩
  · intro hi
    unfold index2orders
    refine outer_none _ 250 0 _ (by omega) ?_
    intro m n hv h0 h1
    have := hi m n hv (by push_cast at h1; omega)
    by_cases hp : i ≥ 0
    · simp [hp]; omega
    · simp [hp]

/-- C04. With no recognised keyword the result is the sentinel `(57, 55)`. -/
theorem index2orders_none : index2orders none none none = (57, 55) := by
  unfold index2orders
  exact outer_none _ 56 0 _ (by omega) (by intro m n hv h0 h1; simp)

example : ValidOrders (-3) 5 ∧ (5 : Int) < 56 ∧ index2orders (some 16) none none = (-3, 5) := by decide +kernel
example : ValidOrders 0 248 ∧ index2orders none none (some (getFringeIndex 0 248)) = (0, 248) :=
  ⟨by decide, index2orders_fringe 0 248 (by decide) (by decide)⟩

/-! ## C05: conversions between schemes

The full property (for *every* index) is false: the search is bounded (orders < 56, resp. < 250), and the
result of `osa2fringe` is a `numpy.int64`, which `fringe2osa` rejects because it tests `isinstance(_, int)`. -/

/-- C05, partial: for OSA indices `0 .. 1595` the conversions give the index of the same polynomial. -/
theorem osa2noll_same_polynomial_partial (i : Int) (h0 : 0 ≤ i) (h1 : i < 1596) :
    ∃ m n, ValidOrders m n ∧ getOsaIndex m n = i ∧ osa2noll (.int i) = .ok (.int (getNollIndex m n)) ∧
      osa2fringe (.int i) = .ok (.npInt64 (getFringeIndex m n)) := by
  obtain ⟨m, n, hv, hn, he, hr⟩ := (index2orders_osa_range i none none).1 h0 h1
  refine ⟨m, n, hv, he, ?_, ?_⟩
  · simp [osa2noll, PyVal.isInt?, h0, hr]
  · simp [osa2fringe, PyVal.isInt?, h0, hr, getFringeIndexPy]

/-- C05, partial: for Noll indices `1 .. 1596`. -/
theorem noll2osa_same_polynomial_partial (i : Int) (h0 : 1 ≤ i) (h1 : i ≤ 1596) :
    ∃ m n, ValidOrders m n ∧ getNollIndex m n = i ∧ noll2osa (.int i) = .ok (.int (getOsaIndex m n)) := by
  obtain ⟨m, n, hv, hn, he, hr⟩ := (index2orders_noll_range i none).1 h0 h1
  exact ⟨m, n, hv, he, by simp [noll2osa, PyVal.isInt?, h0, hr]⟩

/-- C05, partial: for Fringe indices of polynomials with `n < 250`. -/
theorem fringe2osa_same_polynomial_partial (m n : Int) (h : ValidOrders m n) (hn : n < 250) :
    fringe2osa (.int (getFringeIndex m n)) = .ok (.int (getOsaIndex m n)) := by
  have h1 : 1 ≤ getFringeIndex m n := fringe_pos h
  simp [fringe2osa, PyVal.isInt?, h1, index2orders_fringe m n h hn]

/-- C05, partial: OSA -> Noll -> OSA is the identity on `0 .. 1595`. -/
theorem osa_noll_round_trip_partial (i : Int) (h0 : 0 ≤ i) (h1 : i < 1596) :
    (osa2noll (.int i)).bind noll2osa = .ok (.int i) := by
  obtain ⟨m, n, hv, hn, he, hr⟩ := (index2orders_osa_range i none none).1 h0 h1
  have h2 : 1 ≤ getNollIndex m n := noll_pos hv
  simp [osa2noll, noll2osa, PyVal.isInt?, h0, hr, Except.bind, h2, index2orders_noll m n hv hn, he]

/-- C05, partial: Noll -> OSA -> Noll is the identity on `1 .. 1596`. -/
theorem noll_osa_round_trip_partial (i : Int) (h0 : 1 ≤ i) (h1 : i ≤ 1596) :
    (noll2osa (.int i)).bind osa2noll = .ok (.int i) := by
  obtain ⟨m, n, hv, hn, he, hr⟩ := (index2orders_noll_range i none).1 h0 h1
  have h2 : 0 ≤ getOsaIndex m n := osa_nonneg hv
  simp [osa2noll, noll2osa, PyVal.isInt?, h0, hr, Except.bind, h2, index2orders_osa m n hv hn, he]

/-- C05, partial: OSA -> Fringe -> OSA is the identity on `0 .. 1595` if the user converts the returned
`numpy.int64` to `int` in between. -/
theorem osa_fringe_round_trip_partial (i : Int) (h0 : 0 ≤ i) (h1 : i < 1596) :
    ∃ f, osa2fringe (.int i) = .ok (.npInt64 f) ∧ fringe2osa (.int f) = .ok (.int i) := by
  obtain ⟨m, n, hv, hn, he, hr⟩ := (index2orders_osa_range i none none).1 h0 h1
  refine ⟨getFringeIndex m n, ?_, ?_⟩
  · simp [osa2fringe, PyVal.isInt?, h0, hr, getFringeIndexPy]
  · rw [fringe2osa_same_polynomial_partial m n hv (by omega), he]

/-- C05 is false: every OSA index above 1595 converts to the same Noll index 1598 and the same Fringe
index 3135, every Noll index above 1596 to the OSA index 1596. -/
theorem conversions_not_inverse :
    (∀ i, 1596 ≤ i → osa2noll (.int i) = .ok (.int 1598) ∧ osa2fringe (.int i) = .ok (.npInt64 3135)) ∧
    (∀ i, 1596 < i → noll2osa (.int i) = .ok (.int 1596)) := by
  refine ⟨fun i hi => ?_, fun i hi => ?_⟩
  · have h0 : 0 ≤ i := by omega
    have := (index2orders_osa_range i none none).2.1 (Or.inr hi)
    simp only [osa2noll, osa2fringe, PyVal.isInt?, ge_iff_le, h0, if_true, this]
    decide
  · have h0 : 1 ≤ i := by omega
    have := (index2orders_noll_range i none).2 (Or.inr hi)
    simp only [noll2osa, PyVal.isInt?, ge_iff_le, h0, if_true, this]
    decide

/-- C05 is false: feeding the result of `osa2fringe` directly to `fringe2osa` raises `ValueError` for every
index, because `osa2fringe` returns a `numpy.int64`. -/
theorem osa_fringe_direct_round_trip_raises (i : Int) (h0 : 0 ≤ i) :
    (osa2fringe (.int i)).bind fringe2osa = .error .valueError := by
  simp [osa2fringe, fringe2osa, PyVal.isInt?, h0, Except.bind, getFringeIndexPy]

example : (osa2noll (.int 1595)).bind noll2osa = .ok (.int 1595) :=
  osa_noll_round_trip_partial 1595 (by decide) (by decide)

/-! ## C06: rejection of bad arguments -/

/-- The Python values that are integers (`int` or `bool`) not less than `k`. -/
def IsIntAtLeast (k : Int) : PyVal → Prop
  | .int i => k ≤ i
  | .bool b => k ≤ (if b then 1 else 0)
  | _ => False

/-- C06. The conversions raise `ValueError` exactly for values that are not integers not less than the minimal index,
nothing else is raised, and otherwise a number is returned. -/
theorem conversions_reject (v : PyVal) :
    (IsIntAtLeast 0 v → (∃ j, osa2noll v = .ok (.int j)) ∧ ∃ j, osa2fringe v = .ok (.npInt64 j)) ∧
    (¬ IsIntAtLeast 0 v → osa2noll v = .error .valueError ∧ osa2fringe v = .error .valueError) ∧
    (IsIntAtLeast 1 v → (∃ j, noll2osa v = .ok (.int j)) ∧ ∃ j, fringe2osa v = .ok (.int j)) ∧
    (¬ IsIntAtLeast 1 v → noll2osa v = .error .valueError ∧ fringe2osa v = .error .valueError) := by
  cases v <;>
    simp_all [IsIntAtLeast, osa2noll, osa2fringe, noll2osa, fringe2osa, PyVal.isInt?, getFringeIndexPy]

example : IsIntAtLeast 0 (.int 0) ∧ ¬ IsIntAtLeast 1 (.int 0) ∧ ¬ IsIntAtLeast 0 (.npInt64 4) ∧
    ¬ IsIntAtLeast 0 (.other "2.0") := by simp [IsIntAtLeast]

end Verif.Props
