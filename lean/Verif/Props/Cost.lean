import Verif.Proofs.CostCalls
import Verif.Props.Threads

/-!
# C80: the work of an evaluation: accesses to the coefficient tables
-/

namespace Verif.Props
open Verif.Model Verif.Spec Verif.Proofs

/-- The number of accesses to the shared coefficient tables and caches made by a call, in a process that has made the calls `h` before. -/
noncomputable def accesses (fuel : Nat) (h : List Call) (c : ThreadCall) : ℕ := (c.prog fuel).actions (afterCalls h)

/-- The radial order of the polynomial of a call. -/
def _root_.Verif.Model.ThreadCall.order : ThreadCall → ℕ
  | .radial _ n _ _ => n.toNat
  | .radialDr _ n _ _ => n.toNat
  | .value _ n _ _ _ => n.toNat

/-- The azimuthal order of the polynomial of a call. -/
def _root_.Verif.Model.ThreadCall.azimuthal : ThreadCall → ℤ
  | .radial m _ _ _ => m
  | .radialDr m _ _ _ => m
  | .value m _ _ _ _ => m

/-- The polynomial of the call exists, and its coefficients are taken from the tables (up to the order 40, for derivatives up to 38) or not needed. -/
def _root_.Verif.Model.ThreadCall.Tabulated : ThreadCall → Prop
  | .radial m n _ exact => ValidOrders m n ∧ (n ≤ 40 ∨ exact = true)
  | .radialDr m n _ exact => ValidOrders m n ∧ (n ≤ 38 ∨ exact = true)
  | .value m n _ _ exact => ValidOrders m n ∧ (n ≤ 40 ∨ exact = true)

/-- The call computes a derivative. -/
def _root_.Verif.Model.ThreadCall.isDr : ThreadCall → Bool
  | .radialDr _ _ _ _ => true
  | _ => false

/-- The flag `use_exact_eq` of a call. -/
def _root_.Verif.Model.ThreadCall.exactEq : ThreadCall → Bool
  | .radial _ _ _ exact => exact
  | .radialDr _ _ _ exact => exact
  | .value _ _ _ _ exact => exact

/-- A bound for the accesses of a call, for all orders. -/
def _root_.Verif.Model.ThreadCall.bound (c : ThreadCall) : ℕ := if c.isDr then 31 * c.order ^ 4 else 18 * c.order ^ 3

/-- A bound for the accesses of a call with `m ≥ 0`. -/
def _root_.Verif.Model.ThreadCall.boundNonneg (c : ThreadCall) : ℕ := if c.isDr then 31 * c.order ^ 3 else 9 * c.order ^ 2

theorem value_bound {n : ℤ} {k : ℕ} (hk : n = 10 + (k : ℤ)) (h3 : 3 ≤ k) : 5 + 18 * k ^ 3 ≤ 18 * n.toNat ^ 3 := by
  obtain e : n.toNat = k + 10 := by omega
  rw [e]; ring_nf; nlinarith [Nat.zero_le (k ^ 2)]

theorem call_bound (fuel : Nat) (c : ThreadCall) (hc : c.Tabulated) (s : CoefState) : CAt (fun _ t => c.Computed t) (c.bound : ℕ∞) (c.prog fuel) s := by
  refine call_cost fuel c s _ fun t _ => ?_
  have key : ∀ m n : ℤ, ValidOrders m n → 12 < n → ∃ k : ℕ, n = 10 + (k : ℤ) ∧ 3 ≤ k ∧ High m n :=
    fun m n hv hn => ⟨(n - 10).toNat, by omega, by omega, high_of_valid hv (by omega)⟩
  cases c with
  | radial m n r exact =>
    intro he hn α _ y
    obtain ⟨k, hk, h3, hh⟩ := key m n hc.1 hn
    exact (radialCoeffs_le (hc.2.resolve_right (by rw [he]; decide)) fun _ => FAt.all k hh (by omega)).le (by exact_mod_cast value_bound hk h3)
  | value m n r theta exact =>
    intro he hn α _ y
    obtain ⟨k, hk, h3, hh⟩ := key m n hc.1 hn
    exact (radialCoeffs_le (hc.2.resolve_right (by rw [he]; decide)) fun _ => FAt.all k hh (by omega)).le (by exact_mod_cast value_bound hk h3)
  | radialDr m n r exact =>
    intro he hn α _ y
    obtain ⟨k, hk, h3, hh⟩ := key m n hc.1 hn
    refine (radialCoeffsDr_le (hc.2.resolve_right (by rw [he]; decide)) fun _ => DAt.all k hh (by omega)).le ?_
    have e : n.toNat = k + 10 := by omega
    have : 5 + 31 * k ^ 4 ≤ 31 * n.toNat ^ 4 := by rw [e]; ring_nf; nlinarith [Nat.zero_le (k ^ 2), Nat.zero_le (k ^ 3)]
    exact_mod_cast this

/-- **C80.** Whatever was called before, and whatever is in the caches: an evaluation of a polynomial up to the order 40 makes at most `18 n³` accesses to the
coefficient tables, a derivative up to the order 38 at most `31 n⁴`. Missing: higher orders, where this is false (`evaluation_cost_not_polynomial`). -/
theorem evaluation_cost_partial (fuel : Nat) (h : List Call) (c : ThreadCall) (hc : c.Tabulated) : accesses fuel h c ≤ c.bound :=
  (call_bound fuel c hc _).count (afterCalls_tab h)

/-- **C80.** For `m ≥ 0` at most `9 n²`, for a derivative at most `31 n³`. -/
theorem evaluation_cost_nonneg (fuel : Nat) (h : List Call) (c : ThreadCall) (hc : c.Tabulated) (hm : 0 ≤ c.azimuthal) : accesses fuel h c ≤ c.boundNonneg := by
  refine CAt.count (call_cost fuel c (afterCalls h) _ fun t _ => ?_) (afterCalls_tab h)
  have key : ∀ m n : ℤ, ValidOrders m n → 12 < n → ∃ k : ℕ, n = 10 + (k : ℤ) ∧ 3 ≤ k ∧ High m n :=
    fun m n hv hn => ⟨(n - 10).toNat, by omega, by omega, high_of_valid hv (by omega)⟩
  have two : ∀ (n : ℤ) (k : ℕ), n = 10 + (k : ℤ) → 5 + 9 * k ^ 2 + 9 * k ≤ 9 * n.toNat ^ 2 := by
    intro n k hk
    obtain e : n.toNat = k + 10 := by omega
    rw [e]; ring_nf; omega
  cases c with
  | radial m n r exact =>
    intro he hn α _ y
    obtain ⟨k, hk, h3, hh⟩ := key m n hc.1 hn
    exact (radialCoeffs_le (hc.2.resolve_right (by rw [he]; decide)) fun _ => FAt.nonneg k hh hm (by omega)).le (by exact_mod_cast two n k hk)
  | value m n r theta exact =>
    intro he hn α _ y
    obtain ⟨k, hk, h3, hh⟩ := key m n hc.1 hn
    exact (radialCoeffs_le (hc.2.resolve_right (by rw [he]; decide)) fun _ => FAt.nonneg k hh hm (by omega)).le (by exact_mod_cast two n k hk)
  | radialDr m n r exact =>
    intro he hn α _ y
    obtain ⟨k, hk, h3, hh⟩ := key m n hc.1 hn
    refine (radialCoeffsDr_le (hc.2.resolve_right (by rw [he]; decide)) fun _ => DAt.nonneg k hh hm (by omega)).le ?_
    have e : n.toNat = k + 10 := by omega
    have : 5 + 31 * k ^ 3 ≤ 31 * n.toNat ^ 3 := by rw [e]; ring_nf; nlinarith [Nat.zero_le (k ^ 2), Nat.zero_le (k ^ 3)]
    exact_mod_cast this

/-- **C80.** The orders up to 12, and all orders with the exact formula, do not use the tables. -/
theorem evaluation_cost_none (fuel : Nat) (h : List Call) (c : ThreadCall)
    (hc : c.order ≤ 12 ∨ c.exactEq = true) : accesses fuel h c = 0 := by
  refine Nat.le_zero.1 (CAt.count (N := 0) (call_cost fuel c (afterCalls h) _ fun t _ => ?_) (afterCalls_tab h))
  cases c with
  | radial m n r exact =>
    intro he hn
    refine absurd hc (not_or.2 ⟨by show ¬ n.toNat ≤ 12; omega, by simp [he, ThreadCall.exactEq]⟩)
  | value m n r theta exact =>
    intro he hn
    refine absurd hc (not_or.2 ⟨by show ¬ n.toNat ≤ 12; omega, by simp [he, ThreadCall.exactEq]⟩)
  | radialDr m n r exact =>
    intro he hn
    refine absurd hc (not_or.2 ⟨by show ¬ n.toNat ≤ 12; omega, by simp [he, ThreadCall.exactEq]⟩)

/-- The history entry of a call on an object that has (not) shown the warning before. -/
def _root_.Verif.Model.ThreadCall.entry (fuel : Nat) (b : Bool) : ThreadCall → Call
  | .radial m n r exact => .radial fuel ⟨m, n, b⟩ r exact
  | .radialDr m n r exact => .radialDr fuel ⟨m, n, b⟩ r exact
  | .value m n r theta exact => .value fuel ⟨m, n, b⟩ r theta exact

theorem entry_computed (fuel : Nat) (b : Bool) (c : ThreadCall) (s : CoefState) (hs : TabInv s) {v : Num} (hr : c.single fuel s = .ok v) :
    c.Computed ((c.entry fuel b).run s) := by
  have h := (CAt.actions (call_any fuel c s) hs).2.2
  cases c with
  | radial m n r exact =>
    rw [show (ThreadCall.radial m n r exact).prog fuel = radialT fuel m n r exact from rfl] at h
    have h1 := h v (by rw [radialT_alone fuel m n r exact false s]; exact hr)
    rw [radialT_alone fuel m n r exact b s] at h1
    exact h1
  | radialDr m n r exact =>
    rw [show (ThreadCall.radialDr m n r exact).prog fuel = radialDrT fuel m n r exact from rfl] at h
    have h1 := h v (by rw [radialDrT_alone fuel m n r exact false s]; exact hr)
    rw [radialDrT_alone fuel m n r exact b s] at h1
    exact h1
  | value m n r theta exact =>
    rw [show (ThreadCall.value m n r theta exact).prog fuel = polynomialValueT fuel m n r theta exact from rfl] at h
    have h1 := h v (by rw [polynomialValueT_alone fuel m n r theta exact false s]; exact hr)
    rw [polynomialValueT_alone fuel m n r theta exact b s] at h1
    exact h1

/-- **C80.** Once a value (or a derivative) of a polynomial has been computed from the tables, every later value (derivative) of it, whatever is called in between
and whatever the caches have forgotten, makes at most `31 n` accesses. -/
theorem evaluation_cost_again (fuel fuel' : Nat) (b : Bool) (h h' : List Call) (c c' : ThreadCall) (hc : c.Tabulated)
    (hsame : c'.azimuthal = c.azimuthal ∧ c'.order = c.order ∧ c'.isDr = c.isDr)
    (hv : c'.exactEq = false) {v : Num} (hr : c'.single fuel' (afterCalls h) = .ok v) :
    accesses fuel (h ++ c'.entry fuel' b :: h') c ≤ 31 * c.order := by
  have e : afterCalls (h ++ c'.entry fuel' b :: h') = h'.foldl Call.run ((c'.entry fuel' b).run (afterCalls h)) := by
    unfold afterCalls; rw [List.foldl_append]; rfl
  have h1 := entry_computed fuel' b c' (afterCalls h) (afterCalls_tab h) hr
  obtain ⟨_, h2⟩ := calls_tab h' _ (call_tab _ (afterCalls_tab h) (c'.entry fuel' b)).1
  have h3 := afterCalls_tab (h ++ c'.entry fuel' b :: h')
  unfold accesses
  rw [e] at h3 ⊢
  generalize h'.foldl Call.run ((c'.entry fuel' b).run (afterCalls h)) = s at h2 h3
  generalize (c'.entry fuel' b).run (afterCalls h) = s0 at h1 h2
  have val : ∀ m n : ℤ, ValidOrders m n → 12 < n → n ≤ 40 → Done s0 m n → ∀ t, KeysLe s t → ∀ (α : Type) [CommRing α] (r : α),
      CAt (fun _ t => n ≤ 40 → Done t m n) ((31 * n.toNat : ℕ) : ℕ∞) (radialPolynomialCoeffsT fuel m n r) t := by
    intro m n hv h12 h40 hd t hl α _ r
    refine (radialCoeffs_le h40 fun _ => FAt.again (n - 10).toNat (high_of_valid hv (by omega)) (by omega) (hd.later (h2.trans hl))).le ?_
    have : 5 + 17 * (n - 10).toNat ≤ 31 * n.toNat := by omega
    exact_mod_cast this
  have nat : ∀ a b : ℤ, a.toNat = b.toNat → 12 < a → b = a := by intro a b h1 h2; omega
  refine CAt.count (call_cost fuel c s _ fun t hl => ?_) h3
  cases c with
  | radial m n r exact =>
    intro he hn α _ y
    refine val m n hc.1 hn (hc.2.resolve_right (by rw [he]; decide)) ?_ t hl α y
    have h40 : n ≤ 40 := hc.2.resolve_right (by rw [he]; decide)
    cases c' with
    | radial m' n' r' e' =>
      obtain ⟨hm', hn', _⟩ := hsame
      have hm' : m' = m := hm'
      obtain rfl := nat n n' hn'.symm hn
      subst hm'
      exact h1 hv hn h40
    | value m' n' r' t' e' =>
      obtain ⟨hm', hn', _⟩ := hsame
      have hm' : m' = m := hm'
      obtain rfl := nat n n' hn'.symm hn
      subst hm'
      exact h1 hv hn h40
    | radialDr m' n' r' e' => exact absurd hsame.2.2 (by simp [ThreadCall.isDr])
  | value m n r theta exact =>
    intro he hn α _ y
    refine val m n hc.1 hn (hc.2.resolve_right (by rw [he]; decide)) ?_ t hl α y
    have h40 : n ≤ 40 := hc.2.resolve_right (by rw [he]; decide)
    cases c' with
    | radial m' n' r' e' =>
      obtain ⟨hm', hn', _⟩ := hsame
      have hm' : m' = m := hm'
      obtain rfl := nat n n' hn'.symm hn
      subst hm'
      exact h1 hv hn h40
    | value m' n' r' t' e' =>
      obtain ⟨hm', hn', _⟩ := hsame
      have hm' : m' = m := hm'
      obtain rfl := nat n n' hn'.symm hn
      subst hm'
      exact h1 hv hn h40
    | radialDr m' n' r' e' => exact absurd hsame.2.2 (by simp [ThreadCall.isDr])
  | radialDr m n r exact =>
    intro he hn α _ y
    have h38 : n ≤ 38 := hc.2.resolve_right (by rw [he]; decide)
    have hd : DoneD s0 m n := by
      cases c' with
      | radial m' n' r' e' => exact absurd hsame.2.2 (by simp [ThreadCall.isDr])
      | value m' n' r' t' e' => exact absurd hsame.2.2 (by simp [ThreadCall.isDr])
      | radialDr m' n' r' e' =>
        obtain ⟨hm', hn', _⟩ := hsame
        have hm' : m' = m := hm'
        obtain rfl := nat n n' hn'.symm hn
        subst hm'
        exact h1 hv hn h38
    refine (radialCoeffsDr_le h38 fun _ => DAt.again (n - 10).toNat (high_of_valid hc.1 (by omega)) (by omega) (hd.later (h2.trans hl))).le ?_
    have : 5 + 31 * (n - 10).toNat ≤ 31 * n.toNat := by omega
    exact_mod_cast this

/-- **C80.** The same bounds hold with other threads in the process: a thread that evaluates polynomials up to the order 40 (38 for derivatives) has finished, with the
right results, when the interpreter has switched to it as often as the sum of the bounds says, whatever the other threads do in between. Missing: higher orders. -/
theorem thread_finishes_within_partial (fuel : Nat) (h : List Call) (calls : List (List ThreadCall)) (schedule : List Nat)
    (i : Nat) (cs : List ThreadCall) (hi : calls[i]? = some cs) (hv : ∀ c ∈ cs, c.Valid fuel) (ht : ∀ c ∈ cs, c.Tabulated) (hcount : (cs.map ThreadCall.bound).sum ≤ schedule.count i) :
    ((startThreads fuel h calls).run schedule).threads[i]? = some (.done (.ok (cs.map fun c => c.single fuel initState))) := by
  have hinv : CostInv (startThreads fuel h calls) := by
    refine ⟨afterCalls_tab h, fun j x hj => ?_⟩
    unfold startThreads at hj
    rw [List.getElem?_map] at hj
    cases hc : calls[j]? with
    | none => rw [hc] at hj; cases hj
    | some l => rw [hc] at hj; cases hj; exact thread_any fuel l _
  have hthr : (startThreads fuel h calls).threads[i]? = some (threadProg fuel cs) := by simp [startThreads, hi]
  obtain ⟨r, hr⟩ := run_finished hinv hthr (thread_cost fuel cs ThreadCall.bound (fun c hc s => call_bound fuel c (ht c hc) s) _) hcount (hinv.run schedule)
  rw [hr, threads_results fuel h calls schedule i cs hi hv r hr]

/-- **C80.** Above the order 40 the number of accesses grows exponentially: a value with `|m| ≤ 38` makes at least `2 ^ ⌊(n - 39) / 2⌋` of them, whatever has been
computed before. -/
theorem evaluation_cost_exponential (fuel : Nat) (h : List Call) (m n : ℤ) (r theta : Arg) (hv : ValidOrders m n) (hf : n.toNat + 1 < fuel) (hn : 40 < n) (hm : |m| ≤ 38) :
    (∀ v, (ThreadCall.radial m n r false).single fuel (afterCalls h) = .ok v → 2 ^ ((n.toNat - 39) / 2) ≤ accesses fuel h (.radial m n r false)) ∧
    (∀ v, (ThreadCall.value m n r theta false).single fuel (afterCalls h) = .ok v → 2 ^ ((n.toNat - 39) / 2) ≤ accesses fuel h (.value m n r theta false)) := by
  have key : ∀ (x : Num), 2 ^ ((n.toNat - 39) / 2) ≤ (evalNumT (fun α _ _ y => radialValueT (α := α) fuel false m n y) x).actions (afterCalls h) := by
    have one : ∀ (α : Type) [CommRing α] [Algebra ℚ α] (y : α), 2 ^ ((n.toNat - 39) / 2) ≤ (radialValueT fuel false m n y).actions (afterCalls h) := by
      intro α _ _ y
      unfold radialValueT
      simp only [Bool.not_false, if_true]
      rw [if_neg (by omega)]
      exact radialCoeffs_actions _ fuel m n y _ (afterCalls_good h) hv hf hm (by omega)
    intro x
    cases x with
    | scalar x => exact le_trans (one ℝ x) (by unfold evalNumT; rw [actions_bind]; exact Nat.le_add_right _ _)
    | array sh d => exact le_trans (one _ (asFun d)) (by unfold evalNumT; rw [actions_bind]; exact Nat.le_add_right _ _)
  constructor
  · intro v hr
    cases hx : checkRadii r with
    | error e => simp only [ThreadCall.single, Model.radial, hx] at hr; cases hr
    | ok x =>
      have e1 : (ThreadCall.radial m n r false).prog fuel = evalNumT (fun α _ _ y => radialValueT (α := α) fuel false m n y) x := by
        show radialT fuel m n r false = _; unfold radialT; rw [hx]; rfl
      unfold accesses
      rw [e1]
      exact key x
  · intro v hr
    cases hx : checkRadii r with
    | error e => simp only [ThreadCall.single, Model.polynomialValue, hx] at hr; cases hr
    | ok x =>
      cases ht : checkAngles theta with
      | error e => simp only [ThreadCall.single, Model.polynomialValue, hx, ht] at hr; cases hr
      | ok tw =>
        obtain ⟨t, w⟩ := tw
        by_cases hsh : shapesDiffer x t = true
        · simp only [ThreadCall.single, Model.polynomialValue, hx, ht, hsh, if_true] at hr; cases hr
        · have e1 : (ThreadCall.value m n r theta false).prog fuel = (do
              let v ← evalNumT (fun α _ _ y => radialValueT (α := α) fuel false m n y) x
              pure ((t.map (fun a => normalizationFactor m n * triangularFunction m a)).mul v)) := by
            show polynomialValueT fuel m n r theta false = _
            unfold polynomialValueT
            rw [hx, ht]
            show (if shapesDiffer x t = true then _ else _) = _
            rw [if_neg hsh, if_neg (by simp)]
          unfold accesses
          rw [e1, actions_bind]
          exact le_trans (key x) (Nat.le_add_right _ _)

/-- **C80.** The same above the order 38 for derivatives with `|m| ≤ 36`. -/
theorem derivative_cost_exponential (fuel : Nat) (h : List Call) (m n : ℤ) (r : Arg) (hv : ValidOrders m n) (hf : n.toNat + 1 < fuel) (hn : 38 < n) (hm : |m| ≤ 36)
    (v : Num) (hr : (ThreadCall.radialDr m n r false).single fuel (afterCalls h) = .ok v) : 2 ^ ((n.toNat - 37) / 2) ≤ accesses fuel h (.radialDr m n r false) := by
  have one : ∀ (α : Type) [CommRing α] [Algebra ℚ α] (y : α), 2 ^ ((n.toNat - 37) / 2) ≤ (radialDrValueT fuel false m n y).actions (afterCalls h) := by
    intro α _ _ y
    unfold radialDrValueT
    simp only [Bool.not_false, if_true]
    rw [if_neg (by omega)]
    exact radialCoeffsDr_actions _ fuel m n y _ (afterCalls_good h) hv (by omega) hf hm (by omega)
  cases hx : checkRadii r with
  | error e => simp only [ThreadCall.single, Model.radialDr, hx] at hr; cases hr
  | ok x =>
    have e1 : (ThreadCall.radialDr m n r false).prog fuel = evalNumT (fun α _ _ y => radialDrValueT (α := α) fuel false m n y) x := by
      show radialDrT fuel m n r false = _; unfold radialDrT; rw [hx]; rfl
    unfold accesses
    rw [e1]
    cases x with
    | scalar x => exact le_trans (one ℝ x) (by unfold evalNumT; rw [actions_bind]; exact Nat.le_add_right _ _)
    | array sh d => exact le_trans (one _ (asFun d)) (by unfold evalNumT; rw [actions_bind]; exact Nat.le_add_right _ _)

/-- **C80, the full property is false.** No polynomial in the order bounds the accesses of the evaluations of all orders. -/
theorem evaluation_cost_not_polynomial :
    ¬ ∃ C d : ℕ, ∀ (fuel : Nat) (h : List Call) (c : ThreadCall), c.Valid fuel → accesses fuel h c ≤ C * c.order ^ d := by
  rintro ⟨C, d, hb⟩
  have lim : ∃ k : ℕ, C * (2 * k + 42) ^ d < 2 ^ k := by
    have h0 : Filter.Tendsto (fun k : ℕ => (k : ℝ) ^ d / 2 ^ k) Filter.atTop (nhds 0) := tendsto_pow_const_div_const_pow_of_one_lt d (by norm_num)
    have h1 : Filter.Tendsto (fun k : ℕ => (C * 44 ^ d : ℝ) * ((k : ℝ) ^ d / 2 ^ k)) Filter.atTop (nhds 0) := by simpa using h0.const_mul (C * 44 ^ d : ℝ)
    obtain ⟨k, hk, hk1⟩ := ((h1.eventually (gt_mem_nhds (show (0 : ℝ) < 1 by norm_num))).and (Filter.eventually_ge_atTop 1)).exists
    refine ⟨k, ?_⟩
    have h2 : (C : ℝ) * 44 ^ d * (k : ℝ) ^ d < 2 ^ k := by
      have : (0 : ℝ) < 2 ^ k := by positivity
      rw [← mul_div_assoc, div_lt_one this] at hk
      exact hk
    have h3 : C * (44 * k) ^ d < 2 ^ k := by
      rw [mul_pow, ← mul_assoc]; exact_mod_cast h2
    refine lt_of_le_of_lt ?_ h3
    gcongr
    omega
  obtain ⟨k, hk⟩ := lim
  have hv : ValidOrders 0 (2 * (k : ℤ) + 42) := by
    refine ⟨by omega, by simp; omega, ⟨(k : ℤ) + 21, by simp; ring⟩⟩
  have hx : checkRadii (.num 0.5) = .ok (.scalar 0.5) := checkRadii_num _ (by norm_num) (by norm_num)
  have hf : (2 * (k : ℤ) + 42).toNat + 1 < 2 * k + 50 := by omega
  have h1 := (evaluation_cost_exponential (2 * k + 50) [] 0 (2 * (k : ℤ) + 42) (.num 0.5) (.num 0) hv hf (by omega) (by norm_num)).1 _
    (radial_ok (2 * k + 50) ⟨0, 2 * (k : ℤ) + 42, false⟩ (.num 0.5) false (afterCalls []) (afterCalls_good []) hv hf _ hx)
  have h2 := hb (2 * k + 50) [] (.radial 0 (2 * (k : ℤ) + 42) (.num 0.5) false) ⟨hv, hf⟩
  have e1 : ThreadCall.order (.radial 0 (2 * (k : ℤ) + 42) (.num 0.5) false) = 2 * k + 42 := by show (2 * (k : ℤ) + 42).toNat = _; omega
  have e2 : ((2 * (k : ℤ) + 42).toNat - 39) / 2 = k + 1 := by omega
  rw [e1] at h2
  rw [e2] at h1
  have h3 : 2 ^ k ≤ 2 ^ (k + 1) := Nat.pow_le_pow_right (by norm_num) (by omega)
  omega

/-- Orders 14 with negative azimuthal order, and the derivative of the order 38, meet the hypotheses of the bounds. -/
example : (ThreadCall.value (-2) 14 (.num 0.5) (.num 1) false).Tabulated ∧ (ThreadCall.radialDr 4 38 (.num 0.5) false).Tabulated :=
  ⟨⟨by unfold ValidOrders; decide, .inl (by decide)⟩, ⟨by unfold ValidOrders; decide, .inl (by decide)⟩⟩

/-- An evaluation of the order 60 returns, as `evaluation_cost_exponential` asks: at least `2 ^ 10` accesses. -/
example (h : List Call) : 2 ^ 10 ≤ accesses 100 h (.radial 2 60 (.num 0.5) false) :=
  (evaluation_cost_exponential 100 h 2 60 (.num 0.5) (.num 0) (by unfold ValidOrders; decide) (by decide) (by norm_num) (by norm_num)).1 _
    (radial_ok 100 ⟨2, 60, false⟩ (.num 0.5) false (afterCalls h) (afterCalls_good h) (by unfold ValidOrders; decide) (by decide) _
      (checkRadii_num _ (by norm_num) (by norm_num)))

/-- An evaluation of the order 30, a history of any length, and a further evaluation meet the hypotheses of `evaluation_cost_again`. -/
example (h h' : List Call) : accesses 100 (h ++ (ThreadCall.radial (-4) 30 (.num 0.5) false).entry 100 false :: h') (.value (-4) 30 (.num 0.1) (.num 1) false) ≤ 31 * 30 :=
  evaluation_cost_again 100 100 false h h' (.value (-4) 30 (.num 0.1) (.num 1) false) (.radial (-4) 30 (.num 0.5) false)
    ⟨by unfold ValidOrders; decide, .inl (by decide)⟩ ⟨rfl, rfl, rfl⟩ rfl
    (radial_ok 100 ⟨-4, 30, false⟩ (.num 0.5) false (afterCalls h) (afterCalls_good h) (by unfold ValidOrders; decide) (by decide) _
      (checkRadii_num _ (by norm_num) (by norm_num)))

end Verif.Props
