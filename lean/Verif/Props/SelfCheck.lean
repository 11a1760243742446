import Verif.Proofs.SelfCheck
import Verif.Props.Threads

/-!
# C116: the self-checks of the package
-/

namespace Verif.Props
open Verif.Model Verif.Spec Verif.Proofs

/-- The orders that the comparisons with the argument `max_order` test. -/
def comparedOrders (maxOrder : Int) : List (Int × Int) := (0, 0) :: checkedOrders 1 maxOrder

/-- **C116.** The comparisons test each polynomial that exists with n below `max_order` (and always the piston), and no other. -/
theorem compared_orders (N m n : Int) : (m, n) ∈ comparedOrders N ↔ ValidOrders m n ∧ (n < N ∨ n = 0) := by
  unfold comparedOrders
  rw [List.mem_cons, mem_checkedOrders 1 N (by omega)]
  constructor
  · rintro (h | ⟨v, h1, h2⟩)
    · cases h; exact ⟨valid_zero, Or.inr rfl⟩
    · exact ⟨v, Or.inl h2⟩
  · rintro ⟨v, h⟩
    have hv := (valid_iff m n).1 v
    by_cases h0 : n = 0
    · left
      subst h0
      have : m = 0 := by omega
      subst this; rfl
    · right; exact ⟨v, by omega, by omega⟩

/-- **C116.** None of them is compared twice. -/
theorem compared_once (N : Int) : (comparedOrders N).Nodup := by
  refine List.nodup_cons.2 ⟨fun h => ?_, nodup_checkedOrders 1 N⟩
  have := (mem_checkedOrders 1 N (by omega) 0 0).1 h
  omega

theorem compared_length (N : Int) (hN : 1 ≤ N) : 2 * ((comparedOrders N).length : Int) = N * (N + 1) := by
  have h := length_checkedOrders 1 (by omega) (N - 1).toNat
  have e : (1 : Int) + ((N - 1).toNat : Int) = N := by omega
  have e' : (((N - 1).toNat : ℕ) : Int) = N - 1 := by omega
  rw [e, e'] at h
  unfold comparedOrders
  rw [List.length_cons]
  push_cast
  linarith

theorem compared_length_low (N : Int) (hN : N ≤ 1) : (comparedOrders N).length = 1 := by
  have h : checkedOrders 1 N = [] := by
    rw [List.eq_nil_iff_forall_not_mem]
    rintro ⟨m, n⟩ hm
    have := (mem_checkedOrders 1 N (by omega) m n).1 hm
    omega
  unfold comparedOrders
  rw [h]; rfl

/-- **C116.** `compare_radial_calculations` and `compare_radial_derivatives` with an integer `max_order` (within the recursion limit) never fail their assertion,
whatever was called before, and return a matrix of zeros: one row for each of the N (N + 1) / 2 polynomials of orders below N = `max_order` (one row for N below 1). -/
theorem comparisons_pass (fuel : Nat) (h : List Call) (N : Int) (hf : N ≤ fuel) (h0 : 0 < fuel) :
    ∃ rows : ℕ, (1 ≤ N → 2 * (rows : Int) = N * (N + 1)) ∧ (N ≤ 1 → rows = 1) ∧
      (compareRadialCalculations fuel (.int N) (afterCalls h)).1 = .ok (List.replicate rows 0) ∧
      (compareRadialDerivatives fuel (.int N) (afterCalls h)).1 = .ok (List.replicate rows 0) :=
  ⟨(comparedOrders N).length, compared_length N, compared_length_low N,
    (tr_result (compareCalculations_tr fuel (.int N) N rfl hf h0) _ (afterCalls_good h)).1,
    (tr_result (compareDerivatives_tr fuel (.int N) N rfl hf h0) _ (afterCalls_good h)).1⟩

/-- **C116.** The documented reading of `max_order` ("maximum order of tested polynomials, not less than 2") fails: no polynomial of the order `max_order` itself is
compared, and an `int` below 2 is not raised to 2. -/
theorem max_order_not_tested_partial : (∀ N m : Int, 1 ≤ N → (m, N) ∉ comparedOrders N) ∧
    (∀ fuel : Nat, 2 ≤ fuel → ∀ h : List Call, (compareRadialCalculations fuel (.int 1) (afterCalls h)).1 = .ok (List.replicate 1 0) ∧
      (compareRadialCalculations fuel (.npInt 1) (afterCalls h)).1 = .ok (List.replicate 3 0)) := by
  refine ⟨fun N m hN hm => ?_, fun fuel hf h => ⟨?_, ?_⟩⟩
  · have := ((compared_orders N m N).1 hm).2
    omega
  · exact (tr_result (compareCalculations_tr fuel (.int 1) 1 rfl (by omega) (by omega)) _ (afterCalls_good h)).1
  · exact (tr_result (compareCalculations_tr fuel (.npInt 1) 2 rfl (by omega) (by omega)) _ (afterCalls_good h)).1

/-- **C116.** A `float` of at least 2 is a `TypeError`, also when it is a whole number; below 2 it is replaced by 2. -/
theorem comparisons_float (fuel : Nat) (x : ℝ) (h : List Call) :
    (2 ≤ x → (compareRadialCalculations fuel (.float x) (afterCalls h)).1 = .error .typeError ∧
      (compareRadialDerivatives fuel (.float x) (afterCalls h)).1 = .error .typeError) ∧
    (x < 2 → 2 ≤ fuel → (compareRadialCalculations fuel (.float x) (afterCalls h)).1 = .ok (List.replicate 3 0) ∧
      (compareRadialDerivatives fuel (.float x) (afterCalls h)).1 = .ok (List.replicate 3 0)) := by
  constructor
  · intro hx
    have e : (CompareOrder.float x).stop = .error .typeError := if_neg (not_lt.2 hx)
    unfold compareRadialCalculations compareRadialDerivatives
    rw [e]
    exact ⟨rfl, rfl⟩
  · intro hx hf
    have e : (CompareOrder.float x).stop = .ok 2 := if_pos hx
    exact ⟨(tr_result (compareCalculations_tr fuel _ 2 e (by omega) (by omega)) _ (afterCalls_good h)).1,
      (tr_result (compareDerivatives_tr fuel _ 2 e (by omega) (by omega)) _ (afterCalls_good h)).1⟩

theorem length_15_42 : (checkedOrders 15 42).length = 783 := by
  have h := length_checkedOrders 15 (by omega) 27
  norm_num at h
  omega

theorem length_15_40 : (checkedOrders 15 40).length = 700 := by
  have h := length_checkedOrders 15 (by omega) 25
  norm_num at h
  omega

theorem length_41_46 : (checkedOrders 41 46).length = 220 := by
  have h := length_checkedOrders 41 (by omega) 5
  norm_num at h
  omega

/-- **C116.** The comparisons of the coefficient tables with the exact equation pass after every history of calls, with 783 rows (orders 15 to 41) and 700 rows
(orders 15 to 39) of zeros. -/
theorem coefficient_comparisons_pass (fuel : Nat) (hf : 43 ≤ fuel) (h : List Call) :
    (compareRecursiveCoeffsRadials fuel (afterCalls h)).1 = .ok (List.replicate 783 0) ∧
    (compareRecursiveCoeffsRadialsDr fuel (afterCalls h)).1 = .ok (List.replicate 700 0) := by
  have a := (tr_result (compareCoeffs_tr fuel hf) _ (afterCalls_good h)).1
  have b := (tr_result (compareCoeffsDr_tr fuel (by omega)) _ (afterCalls_good h)).1
  rw [length_15_42] at a
  rw [length_15_40] at b
  exact ⟨a, b⟩

/-- **C116.** `check_high_orders_recursion` passes after every history of calls: it returns one row for each of the 220 polynomials of orders 41 to 45, which holds
the values of the radial polynomial at the 51 radii, rounded to 6 digits, none above 1 in magnitude. -/
theorem high_orders_pass (fuel : Nat) (hf : 47 ≤ fuel) (h : List Call) :
    ∃ orders : List (Int × Int), orders.length = 220 ∧ (∀ m n : Int, (m, n) ∈ orders ↔ ValidOrders m n ∧ 41 ≤ n ∧ n ≤ 45) ∧
      (checkHighOrdersRecursion fuel (afterCalls h)).1 = .ok (orders.map fun x i => npRound 6 (RR x.1 x.2 (npRound 4 ((i : ℝ) / 50)))) ∧
      ∀ x ∈ orders, ∀ i : Fin 51, |npRound 6 (RR x.1 x.2 (npRound 4 ((i : ℝ) / 50)))| ≤ 1 := by
  have e : ∀ i : Fin 51, checkedRadii 51 i = npRound 4 ((i : ℝ) / 50) := by
    intro i
    unfold checkedRadii
    norm_num
  have a := (tr_result (highOrders_tr fuel hf) _ (afterCalls_good h)).1
  simp only [e] at a
  refine ⟨checkedOrders 41 46, length_41_46, fun m n => ?_, a, fun x hx i => ?_⟩
  · rw [mem_checkedOrders 41 46 (by omega)]
    constructor <;> rintro ⟨v, h1, h2⟩ <;> exact ⟨v, h1, by omega⟩
  · rw [← e]
    exact rounded_radial_le _ _ _ (checkedRadii_mem 51 i).1 (checkedRadii_mem 51 i).2

/-- The self-checks of calc_zernike_pol.py. -/
inductive SelfCheck where
  | calculations (maxOrder : CompareOrder)
  | derivatives (maxOrder : CompareOrder)
  | coeffs
  | coeffsDr
  | highOrders

/-- The tables after the self-check. -/
noncomputable def SelfCheck.after (fuel : Nat) (s : CoefState) : SelfCheck → CoefState
  | .calculations a => (compareRadialCalculations fuel a s).2
  | .derivatives a => (compareRadialDerivatives fuel a s).2
  | .coeffs => (compareRecursiveCoeffsRadials fuel s).2
  | .coeffsDr => (compareRecursiveCoeffsRadialsDr fuel s).2
  | .highOrders => (checkHighOrdersRecursion fuel s).2

/-- **C116.** Running self-checks, whether they pass or raise, each with any recursion limit (the number that stands before the check), does not change what later
calls return: every evaluation of an existing polynomial gives what it gives in a fresh process. -/
theorem after_self_checks (h : List Call) (checks : List (Nat × SelfCheck)) (fuel : Nat) (c : ThreadCall) (hv : c.Valid fuel) :
    c.single fuel (checks.foldl (fun s x => x.2.after x.1 s) (afterCalls h)) = c.single fuel initState := by
  have g : ∀ s, Good s → Good (checks.foldl (fun s x => x.2.after x.1 s) s) := by
    induction checks with
    | nil => exact fun s hs => hs
    | cons x l ih =>
      intro s hs
      refine ih _ ?_
      obtain ⟨f, x⟩ := x
      cases x with
      | calculations a => exact (compareCalculations_safe f a s hs).1
      | derivatives a => exact (compareDerivatives_safe f a s hs).1
      | coeffs => exact (compareCoeffs_safe f s hs).1
      | coeffsDr => exact (compareCoeffsDr_safe f s hs).1
      | highOrders => exact (highOrders_safe f s hs).1
  exact single_good fuel c hv _ (g _ (afterCalls_good h))

/-! ### `check_equal_coeffs` -/

theorem lookup_isSome_iff (d : List (Int × Int)) (k : Int) : (d.lookup k).isSome ↔ k ∈ d.map Prod.fst := by
  induction d with
  | nil => simp
  | cons x l ih =>
    obtain ⟨a, b⟩ := x
    rw [List.lookup_cons]
    by_cases e : k = a
    · subst e; simp
    · have : (k == a) = false := by simpa using e
      simp [this, ih, e]

theorem lookup_mem_iff (d : List (Int × Int)) (hd : (d.map Prod.fst).Nodup) (x : Int × Int) : x ∈ d ↔ d.lookup x.1 = some x.2 := by
  induction d with
  | nil => simp
  | cons y l ih =>
    obtain ⟨a, b⟩ := y
    obtain ⟨k, v⟩ := x
    rw [List.map_cons, List.nodup_cons] at hd
    rw [List.lookup_cons, List.mem_cons, ih hd.2]
    by_cases e : k = a
    · subst e
      simp only [beq_self_eq_true, Prod.mk.injEq, true_and, Option.some.injEq]
      constructor
      · rintro (h | h)
        · exact h.symm
        · exact absurd ((lookup_isSome_iff l k).1 (by simp [h])) hd.1
      · exact fun h => Or.inl h.symm
    · have : (k == a) = false := by simpa using e
      simp [this, e]

/-- **C116.** `check_equal_coeffs` is true of two dictionaries exactly when they have the same keys with the same values, in whatever order they were inserted. -/
theorem equal_coeffs_true (d1 d2 : List (Int × Int)) (h1 : (d1.map Prod.fst).Nodup) (h2 : (d2.map Prod.fst).Nodup) :
    checkEqualCoeffs d1 d2 = .ok true ↔ ∀ k, d1.lookup k = d2.lookup k := by
  unfold checkEqualCoeffs
  constructor
  · intro h
    split_ifs at h with hl
    · rw [equalLoop_true] at h
      have sub : d1 ⊆ d2 := fun x hx => (lookup_mem_iff d2 h2 x).2 (h x hx)
      have nd1 : d1.Nodup := h1.of_map _
      have perm : d1.Perm d2 := (nd1.subperm sub).perm_of_length_le hl.ge
      intro k
      have key : ∀ v, d1.lookup k = some v ↔ d2.lookup k = some v := fun v => by
        rw [← lookup_mem_iff d1 h1 (k, v), ← lookup_mem_iff d2 h2 (k, v)]; exact perm.mem_iff
      exact Option.ext key
    · cases h
  · intro h
    have mem : ∀ x, x ∈ d1 ↔ x ∈ d2 := fun x => by rw [lookup_mem_iff d1 h1, lookup_mem_iff d2 h2, h]
    have perm : d1.Perm d2 := (List.perm_ext_iff_of_nodup (h1.of_map _) (h2.of_map _)).2 mem
    rw [if_pos perm.length_eq, equalLoop_true]
    intro x hx
    rw [← h]; exact (lookup_mem_iff d1 h1 x).1 hx

/-- **C116.** It raises nothing when the dictionaries differ in length or the keys of the first are all keys of the second … -/
theorem equal_coeffs_total (d1 d2 : List (Int × Int)) (hk : d1.length = d2.length → ∀ k ∈ d1.map Prod.fst, k ∈ d2.map Prod.fst) :
    ∃ b, checkEqualCoeffs d1 d2 = .ok b := by
  unfold checkEqualCoeffs
  split_ifs with hl
  · refine equalLoop_error d2 d1 fun x hx => ?_
    rw [lookup_isSome_iff]
    exact hk hl _ (List.mem_map_of_mem hx)
  · exact ⟨false, rfl⟩

/-- **C116.** … but two dictionaries of the same length with different keys, which are not equal, are a `KeyError` and not `False`. -/
theorem equal_coeffs_keys_partial : checkEqualCoeffs [(0, 1)] [(1, 1)] = .error .keyError := rfl

theorem keys_itemsFrom (c : Coeffs) : ∀ k : Nat, (itemsFrom k c).map Prod.fst = (List.range' k c.length).map fun i : ℕ => (i : Int) := by
  induction c with
  | nil => intro k; rfl
  | cons v t ih =>
    intro k
    show (k : Int) :: (itemsFrom (k + 1) t).map Prod.fst = _
    rw [ih, List.length_cons, List.range'_succ, List.map_cons]

theorem length_itemsFrom (c : Coeffs) (k : Nat) : (itemsFrom k c).length = c.length := by
  have := congrArg List.length (keys_itemsFrom c k)
  simpa using this

theorem itemsFrom_inj (c : Coeffs) : ∀ (c' : Coeffs) (k : Nat), (∀ x, x ∈ itemsFrom k c → x ∈ itemsFrom k c') → c.length = c'.length → c = c' := by
  induction c with
  | nil => intro c' k _ hl; exact (List.length_eq_zero_iff.1 hl.symm).symm
  | cons v t ih =>
    intro c' k h hl
    cases c' with
    | nil => simp at hl
    | cons w u =>
      have out : ∀ (x : Int × Int) (t : Coeffs), x ∈ itemsFrom (k + 1) t → ((k : ℕ) : Int) < x.1 := by
        intro x t hx
        have : x.1 ∈ (itemsFrom (k + 1) t).map Prod.fst := List.mem_map_of_mem hx
        rw [keys_itemsFrom, List.mem_map] at this
        obtain ⟨i, hi, e⟩ := this
        rw [List.mem_range'_1] at hi
        omega
      have hv : v = w := by
        rcases List.mem_cons.1 (h ((k : Int), v) (List.mem_cons_self ..)) with e | e
        · exact (Prod.mk.inj e).2
        · exact absurd (out _ _ e) (lt_irrefl _)
      have ht : t = u := by
        refine ih u (k + 1) (fun x hx => ?_) (by simpa using hl)
        rcases List.mem_cons.1 (h x (List.mem_cons_of_mem _ hx)) with e | e
        · have := out x t hx
          rw [e] at this
          exact absurd this (lt_irrefl _)
        · exact e
      rw [hv, ht]

/-- **C116.** On dictionaries of coefficients (keys 0, 1, 2, …) it never raises, and is true exactly when the coefficients are the same. -/
theorem equal_coeffs_dicts (c c' : Coeffs) : (∃ b, checkEqualCoeffs (itemsFrom 0 c) (itemsFrom 0 c') = .ok b) ∧
    (checkEqualCoeffs (itemsFrom 0 c) (itemsFrom 0 c') = .ok true ↔ c = c') := by
  have nd : ∀ c : Coeffs, ((itemsFrom 0 c).map Prod.fst).Nodup := by
    intro c
    rw [keys_itemsFrom]
    exact List.Nodup.map (fun a b h => by exact_mod_cast h) (List.nodup_range' (h := by norm_num))
  constructor
  · refine equal_coeffs_total _ _ fun hl k hk => ?_
    rw [length_itemsFrom, length_itemsFrom] at hl
    rw [keys_itemsFrom] at hk ⊢
    rwa [← hl]
  · constructor
    · intro h
      have hl : (itemsFrom 0 c).length = (itemsFrom 0 c').length := by
        by_contra hne
        unfold checkEqualCoeffs at h
        rw [if_neg hne] at h
        cases h
      rw [equal_coeffs_true _ _ (nd c) (nd c')] at h
      rw [length_itemsFrom, length_itemsFrom] at hl
      refine itemsFrom_inj c c' 0 (fun x hx => ?_) hl
      rw [lookup_mem_iff _ (nd c'), ← h]
      exact (lookup_mem_iff _ (nd c) x).1 hx
    · rintro rfl
      exact (equal_coeffs_true _ _ (nd c) (nd c)).2 fun k => rfl

/-- Non-trivial instances: the comparison up to 10 after a call, with 55 rows; dictionaries in different order are equal, with a differing value they are not. -/
example (fuel : Nat) (hf : 10 ≤ fuel) (h : List Call) : (compareRadialCalculations fuel (.int 10) (afterCalls h)).1 = .ok (List.replicate 55 0) := by
  obtain ⟨k, h1, -, h2, -⟩ := comparisons_pass fuel h 10 (by omega) (by omega)
  have := h1 (by omega)
  have e : k = 55 := by omega
  rwa [e] at h2

example : (3, 9) ∈ comparedOrders 10 ∧ (2, 10) ∉ comparedOrders 10 := by
  constructor
  · exact (compared_orders 10 3 9).2 ⟨by unfold ValidOrders; decide, by omega⟩
  · exact max_order_not_tested_partial.1 10 2 (by omega)

example : checkEqualCoeffs [(0, 3), (2, 1)] [(2, 1), (0, 3)] = .ok true ∧ checkEqualCoeffs [(0, 3), (2, 1)] [(2, 1), (0, 4)] = .ok false :=
  ⟨by decide, by decide⟩

example (h : List Call) : (ThreadCall.value 2 14 (.num 0.5) (.num 1) false).single 1000
    ([(1000, SelfCheck.calculations (.int 20)), (20, .coeffs), (1000, .derivatives (.float 3)), (1000, .highOrders)].foldl (fun s x => x.2.after x.1 s) (afterCalls h)) =
    (ThreadCall.value 2 14 (.num 0.5) (.num 1) false).single 1000 initState :=
  after_self_checks h _ 1000 _ ⟨by unfold ValidOrders; decide, by decide⟩

end Verif.Props
