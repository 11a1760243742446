import Verif.Model.Performance
import Verif.Props.SelfCheck
import Verif.Props.ZernPol

/-!
# C119: the number of polynomials reported by `compare_performances`
-/

namespace Verif.Props
open Verif.Model Verif.Spec Verif.Proofs

theorem makePols_ok (l : List (Int × Int)) (h : ∀ x ∈ l, ValidOrders x.1 x.2 ∧ x.2 ≤ 54) : makePols l = .ok (l.map fun x => ⟨x.1, x.2, false⟩) := by
  induction l with
  | nil => rfl
  | cons x l ih =>
    obtain ⟨m, n⟩ := x
    obtain ⟨hv, hn⟩ := h _ (List.mem_cons_self ..)
    unfold makePols
    rw [ctor_orders_accepts_valid m n hv hn, ih fun y hy => h y (List.mem_cons_of_mem _ hy)]
    rfl

theorem makePols_error (l : List (Int × Int)) (hl : ∀ x ∈ l, |x.1| ≤ |x.2|) (h : ∃ x ∈ l, ¬ (ValidOrders x.1 x.2 ∧ x.2 ≤ 54)) :
    makePols l = .error .valueError := by
  induction l with
  | nil => obtain ⟨x, hx, -⟩ := h; cases hx
  | cons x l ih =>
    obtain ⟨m, n⟩ := x
    unfold makePols
    by_cases c : ValidOrders m n ∧ n ≤ 54
    · rw [ctor_orders_accepts_valid m n c.1 c.2]
      have : ∃ x ∈ l, ¬ (ValidOrders x.1 x.2 ∧ x.2 ≤ 54) := by
        obtain ⟨y, hy, hn⟩ := h
        rcases List.mem_cons.1 hy with rfl | hy
        · exact absurd c hn
        · exact ⟨y, hy, hn⟩
      rw [ih (fun y hy => hl y (List.mem_cons_of_mem _ hy)) this]
    · by_cases hle : |m| ≤ n
      · rw [(ctor_orders_accepts_only_valid_partial m n hle).2 c]
      · have hn : n < 0 := by
          have := hl _ (List.mem_cons_self ..)
          simp only at this
          rcases abs_cases n with ⟨a, b⟩ | ⟨a, b⟩ <;> omega
        have e : zernPolInit [("n", .int n), ("m", .int m)] = .error .valueError := by
          simp [zernPolInit, initOrders, Kwargs.has, Kwargs.get, List.lookup, PyVal.isInt?, hn]
        rw [e]

theorem performanceRadii_ok : ∃ x, checkRadii performanceRadii = .ok x := by
  refine ⟨_, (checkRadii_arr [251] _ ?_ fun x hx => ?_).1⟩
  · intro h
    have := congrArg List.length h
    simp at this
  · obtain ⟨i, hi, rfl⟩ := List.mem_map.1 hx
    have h1 : (i : ℝ) ≤ 250 := by
      have := List.mem_range.1 hi
      exact_mod_cast (by omega : i ≤ 250)
    refine ⟨npRound_nonneg 6 (by positivity), ?_⟩
    calc npRound 6 ((i : ℝ) / 250) ≤ npRound 6 1 := npRound_mono 6 (by rw [div_le_one (by norm_num)]; exact h1)
      _ = 1 := by simpa using npRound_int 6 1

theorem timedLoop_tr (fuel : Nat) (exact : Bool) (l : List PolObj) (h : ∀ o ∈ l, ValidOrders o.m o.n ∧ o.n.toNat + 1 < fuel) : ∀ k i : Nat,
    Tr True (timedLoop fuel exact k i l) fun j => j = if l = [] then i else k + l.length - 1 := by
  induction l with
  | nil => intro k i; exact Tr.pure rfl
  | cons o l ih =>
    intro k i
    obtain ⟨hv, hf⟩ := h _ (List.mem_cons_self ..)
    unfold timedLoop
    have one : Tr True (fun s => ((Model.radial fuel o performanceRadii exact s).res, (Model.radial fuel o performanceRadii exact s).st) : CM Num) fun _ => True := by
      intro s hs
      obtain ⟨x, hx⟩ := performanceRadii_ok
      exact ⟨radial_st _ _ _ _ _ hs, fun _ _ => trivial, fun _ => ⟨_, radial_ok fuel o _ exact s hs hv hf x hx⟩⟩
    refine Tr.bind one fun _ _ => (ih (fun y hy => h y (List.mem_cons_of_mem _ hy)) (k + 1) k).mono id fun j hj => ?_
    rw [hj, if_neg (List.cons_ne_nil _ _), List.length_cons]
    split_ifs with e
    · subst e; simp
    · omega

/-- **C119.** For orders from 0 to 54 `compare_performances` evaluates every existing polynomial with min_order ≤ n ≤ max_order (there are
(max - min + 1)(max + min + 2)/2 of them) and reports one less than their number; if there are none, it reports 250. -/
theorem performance_reported (fuel : Nat) (h : List Call) (a b : Int) (ha : 0 ≤ a) (hb : b ≤ 54) (hf : 56 ≤ fuel) :
    (a ≤ b → ∃ k : ℕ, 2 * ((k : Int) + 1) = (b - a + 1) * (a + b + 2) ∧ (comparePerformances fuel a b (afterCalls h)).1 = .ok k) ∧
    (b < a → (comparePerformances fuel a b (afterCalls h)).1 = .ok 250) := by
  have mem : ∀ x ∈ checkedOrders a (b + 1), ValidOrders x.1 x.2 ∧ x.2 ≤ 54 := by
    rintro ⟨m, n⟩ hx
    obtain ⟨v, -, h2⟩ := (mem_checkedOrders a (b + 1) ha m n).1 hx
    exact ⟨v, by simp only; omega⟩
  have tr : Tr True (comparePerformances fuel a b) fun j => j = if checkedOrders a (b + 1) = [] then 250 else (checkedOrders a (b + 1)).length - 1 := by
    have ok : ∀ o ∈ (checkedOrders a (b + 1)).map (fun x : Int × Int => (⟨x.1, x.2, false⟩ : PolObj)), ValidOrders o.m o.n ∧ o.n.toNat + 1 < fuel := by
      intro o ho
      obtain ⟨x, hx, rfl⟩ := List.mem_map.1 ho
      have := mem x hx
      exact ⟨this.1, by have := this.2; simp only; omega⟩
    refine Tr.bind (lift_tr (makePols_ok _ mem)) fun pols hp => ?_
    subst hp
    refine Tr.bind (timedLoop_tr fuel false _ ok 0 250) fun i hi => (timedLoop_tr fuel true _ ok 0 i).mono id fun j hj => ?_
    rw [hj, hi]
    simp only [List.map_eq_nil_iff, List.length_map, Nat.zero_add]
    split_ifs <;> rfl
  have r := (tr_result tr _ (afterCalls_good h)).1
  constructor
  · intro hab
    have hl := length_checkedOrders a ha (b + 1 - a).toNat
    have e : a + ((b + 1 - a).toNat : Int) = b + 1 := by omega
    have e' : (((b + 1 - a).toNat : ℕ) : Int) = b + 1 - a := by omega
    rw [e, e'] at hl
    have hpos : 0 < (b + 1 - a) * (2 * a + (b + 1 - a) + 1) := mul_pos (by omega) (by omega)
    have hlen : 0 < (checkedOrders a (b + 1)).length := by
      by_contra hc
      have : (checkedOrders a (b + 1)).length = 0 := by omega
      rw [this] at hl
      simp only [Nat.cast_zero, mul_zero] at hl
      omega
    refine ⟨(checkedOrders a (b + 1)).length - 1, ?_, ?_⟩
    · have : (((checkedOrders a (b + 1)).length - 1 : ℕ) : Int) + 1 = ((checkedOrders a (b + 1)).length : Int) := by omega
      rw [this, hl]; ring
    · rw [r, if_neg (List.length_pos_iff.1 hlen)]
  · intro hab
    have : checkedOrders a (b + 1) = [] := by
      rw [List.eq_nil_iff_forall_not_mem]
      rintro ⟨m, n⟩ hm
      have := (mem_checkedOrders a (b + 1) ha m n).1 hm
      omega
    rw [r, if_pos this]

/-- **C119.** A negative minimum or a maximum above 54 (with min ≤ max) is a `ValueError`, nothing is measured. -/
theorem performance_rejected (fuel : Nat) (s : CoefState) (a b : Int) (hab : a ≤ b) (h : a < 0 ∨ 54 < b) :
    comparePerformances fuel a b s = (.error .valueError, s) := by
  have e : makePols (checkedOrders a (b + 1)) = .error .valueError := by
    refine makePols_error _ (fun x hx => ?_) ?_
    · obtain ⟨m, n⟩ := x
      unfold checkedOrders at hx
      obtain ⟨o, -, hm⟩ := List.mem_flatMap.1 hx
      rw [List.mem_cons, mem_azimuthLoop] at hm
      rcases hm with h | ⟨rfl, j, hj, rfl⟩
      · cases h; simp
      · simp only
        rw [abs_of_nonneg (by omega : 0 ≤ n)]
        exact abs_le.2 ⟨by omega, by omega⟩
    · have ex : ∃ o : Int, a ≤ o ∧ o ≤ b ∧ (o < 0 ∨ 54 < o) := by
        rcases h with h | h
        · exact ⟨a, le_rfl, hab, Or.inl h⟩
        · exact ⟨b, hab, le_rfl, Or.inr h⟩
      obtain ⟨o, h1, h2, h3⟩ := ex
      refine ⟨(-o, o), ?_, fun hc => ?_⟩
      · unfold checkedOrders
        exact List.mem_flatMap.2 ⟨o, (mem_pyRange_one _ _ _).2 ⟨h1, by omega⟩, List.mem_cons_self ..⟩
      · have := (valid_iff _ _).1 hc.1
        have := hc.2
        simp only at this
        omega
  show (CM.lift (makePols (checkedOrders a (b + 1))) >>= _) s = _
  rw [e]
  rfl

/-- **C119.** The reported number is never the number of polynomials in the range: of every list that holds each of them once, it is not the length. -/
theorem performance_count_wrong_partial (fuel : Nat) (h : List Call) (a b : Int) (k : ℕ) (ha : 0 ≤ a) (hb : b ≤ 54) (hf : 56 ≤ fuel)
    (hk : (comparePerformances fuel a b (afterCalls h)).1 = .ok k) (used : List (Int × Int)) (hu : used.Nodup)
    (hm : ∀ m n : Int, (m, n) ∈ used ↔ ValidOrders m n ∧ a ≤ n ∧ n ≤ b) : k ≠ used.length := by
  have perm : used.Perm (checkedOrders a (b + 1)) := (List.perm_ext_iff_of_nodup hu (nodup_checkedOrders a (b + 1))).2 fun x => by
    obtain ⟨m, n⟩ := x
    rw [hm, mem_checkedOrders a (b + 1) ha, Int.lt_add_one_iff]
  rw [perm.length_eq]
  rcases le_or_gt a b with hab | hab
  · obtain ⟨k', e, hk'⟩ := (performance_reported fuel h a b ha hb hf).1 hab
    rw [hk] at hk'
    cases hk'
    have hl := length_checkedOrders a ha (b + 1 - a).toNat
    have e1 : a + ((b + 1 - a).toNat : Int) = b + 1 := by omega
    have e2 : (((b + 1 - a).toNat : ℕ) : Int) = b + 1 - a := by omega
    rw [e1, e2] at hl
    have e3 : (b - a + 1) * (a + b + 2) = (b + 1 - a) * (2 * a + (b + 1 - a) + 1) := by ring
    rw [e3, ← hl] at e
    omega
  · have h0 : checkedOrders a (b + 1) = [] := by
      rw [List.eq_nil_iff_forall_not_mem]
      rintro ⟨m, n⟩ hm
      have := (mem_checkedOrders a (b + 1) ha m n).1 hm
      omega
    rw [(performance_reported fuel h a b ha hb hf).2 hab] at hk
    cases hk
    rw [h0]
    decide

/-- Orders 0 to 3: 10 polynomials are used, 9 is reported; for the empty range from 3 to 2 the report is 250. -/
example (fuel : Nat) (hf : 56 ≤ fuel) (h : List Call) : (comparePerformances fuel 0 3 (afterCalls h)).1 = .ok 9 ∧
    (comparePerformances fuel 3 2 (afterCalls h)).1 = .ok 250 := by
  constructor
  · obtain ⟨k, e, hk⟩ := (performance_reported fuel h 0 3 le_rfl (by omega) hf).1 (by omega)
    have : k = 9 := by omega
    rwa [this] at hk
  · exact (performance_reported fuel h 3 2 (by omega) (by omega) hf).2 (by omega)

end Verif.Props
