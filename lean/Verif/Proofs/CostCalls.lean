import Verif.Model.Cost
import Verif.Proofs.CostBound

/-!
# The number of accesses made by the methods, by threads, and the exponential growth for high orders
-/

namespace Verif.Proofs
open Verif.Model Verif.Spec

/-- Without other threads: the number of accesses. -/
theorem CAt.count {β : Type} {Q : β → CoefState → Prop} {N : ℕ} {x : Prog β} {s : CoefState} (h : CAt Q (N : ℕ∞) x s) (hs : TabInv s) : x.actions s ≤ N := by
  suffices ∀ c : ℕ∞, CAt Q c x s → (x.actions s : ℕ∞) ≤ c by exact_mod_cast this N h
  clear h
  intro c h
  induction x generalizing s c with
  | done r => simp [Prog.actions]
  | step u k ih =>
    obtain ⟨a, _, d, hd, e⟩ := h s hs (KeysLe.refl _)
    have := ih s a d e
    calc ((Prog.step u k).actions s : ℕ∞) = ((k s).actions (u s) : ℕ∞) + 1 := by simp [Prog.actions]
      _ ≤ d + 1 := by gcongr
      _ ≤ c := hd

section
variable {α : Type} [CommRing α]

theorem radialCoeffs_any (fuel : Nat) (m n : Int) (r : α) (s : CoefState) :
    CAt (fun _ t => n ≤ 40 → Done t m n) ⊤ (radialPolynomialCoeffsT fuel m n r) s := by
  induction fuel generalizing m n s with
  | zero => trivial
  | succ fuel ih =>
    unfold radialPolynomialCoeffsT
    rw [show maxRadialOrderCoeffs = 40 from rfl]
    split_ifs with h
    · exact CAt.le ((FAt.any fuel false m n s).bind (d := 0) fun d t _ hd => CAt.pure fun _ => hd) le_top
    · exact CAt.pure fun h' => absurd h' h
    · exact CAt.le ((ih 1 (n - 1) s).bind (d := ⊤) fun x t _ _ => CAt.le ((ih 0 (n - 2) t).bind (d := 0) fun y t' _ _ => CAt.pure fun h' => absurd h' h) le_top) le_top
    · exact CAt.pure fun h' => absurd h' h
    · exact CAt.le ((ih _ (n - 1) s).bind (d := ⊤) fun x t _ _ => CAt.le ((ih _ (n - 1) t).bind (d := ⊤) fun y t' _ _ =>
        CAt.le ((ih _ (n - 2) t').bind (d := 0) fun z t'' _ _ => CAt.pure fun h' => absurd h' h) le_top) le_top) le_top

theorem radialCoeffsDr_any (fuel : Nat) (m n : Int) (r : α) (s : CoefState) :
    CAt (fun _ t => n ≤ 38 → DoneD t m n) ⊤ (radialPolynomialCoeffsDrT fuel m n r) s := by
  induction fuel generalizing m n s with
  | zero => trivial
  | succ fuel ih =>
    unfold radialPolynomialCoeffsDrT
    rw [show maxRadialOrderCoeffsDr = 38 from rfl]
    split_ifs with h
    · exact CAt.le ((DAt.any fuel false m n s).bind (d := 0) fun d t _ hd => CAt.pure fun _ => hd) le_top
    · exact CAt.pure fun h' => absurd h' h
    · exact CAt.le ((ih 1 (n - 1) s).bind (d := ⊤) fun x t _ _ => CAt.le ((ih 1 (n - 1) t).bind (d := ⊤) fun y t' _ _ =>
        CAt.le ((ih 0 (n - 2) t').bind (d := 0) fun z t'' _ _ => CAt.pure fun h' => absurd h' h) le_top) le_top) le_top
    · exact CAt.pure fun h' => absurd h' h
    · exact CAt.le ((radialCoeffs_any fuel _ (n - 1) r s).bind (d := ⊤) fun x t _ _ => CAt.le ((radialCoeffs_any fuel _ (n - 1) r t).bind (d := ⊤) fun y t1 _ _ =>
        CAt.le ((ih _ (n - 1) t1).bind (d := ⊤) fun x t2 _ _ => CAt.le ((ih _ (n - 1) t2).bind (d := ⊤) fun y t3 _ _ =>
        CAt.le ((ih _ (n - 2) t3).bind (d := 0) fun z t4 _ _ => CAt.pure fun h' => absurd h' h) le_top) le_top) le_top) le_top) le_top

theorem CAt.forget {β : Type} {Q : β → CoefState → Prop} {c : ℕ∞} {x : Prog β} {s : CoefState} (h : CAt Q c x s) : CAt (fun _ _ => True) c x s :=
  h.mono le_rfl fun _ _ _ _ => trivial

/-- `radial_polynomial_coeffs` costs what `find_coeffs_orders` costs, up to the order 40. -/
theorem radialCoeffs_le {N fuel : Nat} {m n : Int} {r : α} {s : CoefState} (hn : n ≤ 40) (h : ∀ fuel, FAt (N : ℕ∞) fuel false m n s) :
    CAt (fun _ t => n ≤ 40 → Done t m n) (N : ℕ∞) (radialPolynomialCoeffsT fuel m n r) s := by
  cases fuel with
  | zero => trivial
  | succ fuel =>
    unfold radialPolynomialCoeffsT
    rw [show maxRadialOrderCoeffs = 40 from rfl, if_pos hn]
    exact CAt.le ((h fuel).bind (d := 0) fun d t _ hd => CAt.pure fun _ => hd) (by rw [add_zero])

theorem radialCoeffsDr_le {N fuel : Nat} {m n : Int} {r : α} {s : CoefState} (hn : n ≤ 38) (h : ∀ fuel, DAt (N : ℕ∞) fuel false m n s) :
    CAt (fun _ t => n ≤ 38 → DoneD t m n) (N : ℕ∞) (radialPolynomialCoeffsDrT fuel m n r) s := by
  cases fuel with
  | zero => trivial
  | succ fuel =>
    unfold radialPolynomialCoeffsDrT
    rw [show maxRadialOrderCoeffsDr = 38 from rfl, if_pos hn]
    exact CAt.le ((h fuel).bind (d := 0) fun d t _ hd => CAt.pure fun _ => hd) (by rw [add_zero])

variable [Algebra ℚ α]

/-- The cost of the choice of the function: none for the orders up to 12 and with the exact formula. -/
theorem radialValue_cost {fuel : Nat} {exact : Bool} {m n : Int} {r : α} {s : CoefState} {c : ℕ∞}
    (h : exact = false → 12 < n → CAt (fun _ t => n ≤ 40 → Done t m n) c (radialPolynomialCoeffsT fuel m n r) s) :
    CAt (fun _ t => exact = false → 12 < n → n ≤ 40 → Done t m n) c (radialValueT fuel exact m n r) s := by
  unfold radialValueT
  cases exact
  · simp only [Bool.not_false, if_true]
    split_ifs with h12
    · exact (CAt.lift (c := c) (radialPolynomial fuel m n r) s).mono le_rfl fun _ _ _ _ _ h' => by omega
    · exact (h rfl (by omega)).mono le_rfl fun _ _ _ hd _ _ => hd
  · simp only [Bool.not_true, Bool.false_eq_true, if_false]
    split_ifs
    · exact CAt.pure fun h => by cases h
    · exact (CAt.lift (c := c) (radialPolynomialEq m n r) s).mono le_rfl fun _ _ _ _ h => by cases h

theorem radialDrValue_cost {fuel : Nat} {exact : Bool} {m n : Int} {r : α} {s : CoefState} {c : ℕ∞}
    (h : exact = false → 12 < n → CAt (fun _ t => n ≤ 38 → DoneD t m n) c (radialPolynomialCoeffsDrT fuel m n r) s) :
    CAt (fun _ t => exact = false → 12 < n → n ≤ 38 → DoneD t m n) c (radialDrValueT fuel exact m n r) s := by
  unfold radialDrValueT
  cases exact
  · simp only [Bool.not_false, if_true]
    split_ifs with h12
    · exact (CAt.lift (c := c) (radialDerivative fuel m n r) s).mono le_rfl fun _ _ _ _ _ h' => by omega
    · exact (h rfl (by omega)).mono le_rfl fun _ _ _ hd _ _ => hd
  · simp only [Bool.not_true, Bool.false_eq_true, if_false]
    split_ifs
    · exact CAt.pure fun h => by cases h
    · exact (CAt.lift (c := c) (radialDerivativeEq m n r) s).mono le_rfl fun _ _ _ _ h => by cases h

end

theorem evalNum_cost {f : (α : Type) → [CommRing α] → [Algebra ℚ α] → α → Prog α} {P : CoefState → Prop} {c : ℕ∞} {s : CoefState}
    (h : ∀ (α : Type) [CommRing α] [Algebra ℚ α] (r : α), CAt (fun _ t => P t) c (f α r) s) (x : Num) : CAt (fun _ t => P t) c (evalNumT f x) s := by
  cases x with
  | scalar x => exact CAt.le ((h ℝ x).bind (d := 0) fun v t _ hp => CAt.pure hp) (by rw [add_zero])
  | array sh d => exact CAt.le ((h _ _).bind (d := 0) fun v t _ hp => CAt.pure hp) (by rw [add_zero])

/-- What has been computed after a call. -/
def _root_.Verif.Model.ThreadCall.Computed (t : CoefState) : ThreadCall → Prop
  | .radial m n _ exact => exact = false → 12 < n → n ≤ 40 → Done t m n
  | .radialDr m n _ exact => exact = false → 12 < n → n ≤ 38 → DoneD t m n
  | .value m n _ _ exact => exact = false → 12 < n → n ≤ 40 → Done t m n

/-- The cost of a call of a method is the cost of the coefficients. -/
theorem call_cost (fuel : Nat) (c : ThreadCall) (s : CoefState) (N : ℕ∞)
    (h : ∀ t, KeysLe s t → match c with
      | .radial m n _ exact => exact = false → 12 < n → ∀ (α : Type) [CommRing α] (r : α),
          CAt (fun _ t => n ≤ 40 → Done t m n) N (radialPolynomialCoeffsT fuel m n r) t
      | .radialDr m n _ exact => exact = false → 12 < n → ∀ (α : Type) [CommRing α] (r : α),
          CAt (fun _ t => n ≤ 38 → DoneD t m n) N (radialPolynomialCoeffsDrT fuel m n r) t
      | .value m n _ _ exact => exact = false → 12 < n → ∀ (α : Type) [CommRing α] (r : α),
          CAt (fun _ t => n ≤ 40 → Done t m n) N (radialPolynomialCoeffsT fuel m n r) t) :
    CAt (fun _ t => c.Computed t) N (c.prog fuel) s := by
  cases c with
  | radial m n r exact =>
    refine CAt.le (c := 0 + N) ((CAt.lift (checkRadii r) s).bind fun x t hl _ => ?_) (by rw [zero_add])
    exact evalNum_cost (P := fun t => exact = false → 12 < n → n ≤ 40 → Done t m n) (fun α _ _ y => radialValue_cost fun e h12 => h t hl e h12 α y) x
  | radialDr m n r exact =>
    refine CAt.le (c := 0 + N) ((CAt.lift (checkRadii r) s).bind fun x t hl _ => ?_) (by rw [zero_add])
    exact evalNum_cost (P := fun t => exact = false → 12 < n → n ≤ 38 → DoneD t m n) (fun α _ _ y => radialDrValue_cost fun e h12 => h t hl e h12 α y) x
  | value m n r theta exact =>
    refine CAt.le (c := 0 + (0 + N)) ((CAt.lift (checkRadii r) s).bind fun x t hl _ => (CAt.lift (checkAngles theta) t).bind fun tw t' hl' _ => ?_)
      (by rw [zero_add, zero_add])
    obtain ⟨a, w⟩ := tw
    simp only []
    split_ifs with h1 h2
    · trivial
    · exact CAt.pure fun e => by rw [e] at h2; exact absurd h2.1 (by decide)
    · refine CAt.le (c := N + 0) (CAt.bind (Q := fun _ t => exact = false → 12 < n → n ≤ 40 → Done t m n) ?_ fun v t'' _ hp => CAt.pure hp) (by rw [add_zero])
      exact evalNum_cost (P := fun t => exact = false → 12 < n → n ≤ 40 → Done t m n)
        (fun α _ _ y => radialValue_cost fun e h12 => h t' (hl.trans hl') e h12 α y) x

/-- Every call keeps the invariant of the tables. -/
theorem call_any (fuel : Nat) (c : ThreadCall) (s : CoefState) : CAt (fun _ t => c.Computed t) ⊤ (c.prog fuel) s := by
  refine call_cost fuel c s ⊤ fun t _ => ?_
  cases c with
  | radial m n r exact => exact fun _ _ α _ y => radialCoeffs_any fuel m n y t
  | radialDr m n r exact => exact fun _ _ α _ y => radialCoeffsDr_any fuel m n y t
  | value m n r theta exact => exact fun _ _ α _ y => radialCoeffs_any fuel m n y t

theorem attempt_cost {β : Type} {Q : β → CoefState → Prop} {c : ℕ∞} {x : Prog β} {s : CoefState} (h : CAt Q c x s) : CAt (fun _ _ => True) c x.attempt s := by
  induction x generalizing s c with
  | done r => trivial
  | step u k ih =>
    intro t ht hl
    obtain ⟨a, b, d, hd, e⟩ := h t ht hl
    exact ⟨a, b, d, hd, ih t e⟩

theorem thread_cost (fuel : Nat) (cs : List ThreadCall) (N : ThreadCall → ℕ) (h : ∀ c ∈ cs, ∀ s, CAt (fun _ t => c.Computed t) (N c : ℕ∞) (c.prog fuel) s)
    (s : CoefState) : CAt (fun _ _ => True) (((cs.map N).sum : ℕ) : ℕ∞) (threadProg fuel cs) s := by
  induction cs generalizing s with
  | nil => exact CAt.pure trivial
  | cons c rest ih =>
    refine CAt.le (c := (N c : ℕ∞) + ((((rest.map N).sum : ℕ) : ℕ∞) + 0)) ?_ (by simp)
    exact (attempt_cost (h c (List.mem_cons_self ..) s)).bind fun x t _ _ => (ih (fun c' h' => h c' (List.mem_cons_of_mem _ h')) t).bind fun xs t' _ _ => CAt.pure trivial

theorem thread_any (fuel : Nat) (cs : List ThreadCall) (s : CoefState) : CAt (fun _ _ => True) ⊤ (threadProg fuel cs) s := by
  induction cs generalizing s with
  | nil => exact CAt.pure trivial
  | cons c rest ih =>
    exact CAt.le (c := ⊤ + (⊤ + 0)) ((attempt_cost (call_any fuel c s)).bind fun x t _ _ => (ih t).bind fun xs t' _ _ => CAt.pure trivial) le_top

theorem CAt.later {β : Type} {c : ℕ∞} {x : Prog β} {s s' : CoefState} (h : CAt (fun _ _ => True) c x s) (hl : KeysLe s s') : CAt (fun _ _ => True) c x s' := by
  cases x with
  | done r => cases r <;> trivial
  | step u k => exact fun t ht hl' => h t ht (hl.trans hl')

/-- The invariant of a process for the accesses: all threads keep the tables closed. -/
structure CostInv {β : Type} (p : Process β) : Prop where
  tab : TabInv p.st
  thr : ∀ (i : Nat) (x : Prog β), p.threads[i]? = some x → CAt (fun _ _ => True) ⊤ x p.st

theorem CostInv.step {β : Type} {p : Process β} (h : CostInv p) (i : Nat) : CostInv (p.step i) ∧ KeysLe p.st (p.step i).st := by
  unfold Process.step
  split
  next u k hi =>
    obtain ⟨a, b, d, _, e⟩ := h.thr i _ hi p.st h.tab (KeysLe.refl _)
    refine ⟨⟨a, fun j x hj => ?_⟩, b⟩
    rw [List.getElem?_set] at hj
    split_ifs at hj with h1 h2
    · cases hj; exact e.le le_top
    · exact (h.thr j x hj).later b
  · exact ⟨h, KeysLe.refl _⟩

/-- The thread `i` has used up at least the number of times it was switched to, or it has finished. -/
theorem run_cost {β : Type} (schedule : List Nat) (p : Process β) (h : CostInv p) (i : Nat) (x : Prog β) (N : ℕ) (hi : p.threads[i]? = some x)
    (hx : CAt (fun _ _ => True) (N : ℕ∞) x p.st) :
    ∃ x', (p.run schedule).threads[i]? = some x' ∧
      ((∃ r, x' = .done r) ∨ ∃ c : ℕ∞, c + (schedule.count i : ℕ) ≤ (N : ℕ∞) ∧ CAt (fun _ _ => True) c x' (p.run schedule).st) := by
  suffices ∀ (c : ℕ∞), CAt (fun _ _ => True) c x p.st → ∃ x', (p.run schedule).threads[i]? = some x' ∧
      ((∃ r, x' = .done r) ∨ ∃ c' : ℕ∞, c' + (schedule.count i : ℕ) ≤ c ∧ CAt (fun _ _ => True) c' x' (p.run schedule).st) from this _ hx
  clear hx
  intro c hx
  induction schedule generalizing p x c with
  | nil => exact ⟨x, hi, .inr ⟨c, by simp, hx⟩⟩
  | cons j l ih =>
    obtain ⟨h', hk⟩ := h.step j
    have e : p.run (j :: l) = (p.step j).run l := rfl
    rw [e]
    by_cases hj : j = i
    · subst hj
      cases x with
      | done r =>
        have hs : p.step j = p := by unfold Process.step; rw [hi]
        rw [hs]
        refine ⟨.done r, ?_, .inl ⟨r, rfl⟩⟩
        have : ∀ (l : List Nat) (q : Process β), q.threads[j]? = some (.done r) → (q.run l).threads[j]? = some (.done r) := by
          intro l
          induction l with
          | nil => exact fun q hq => hq
          | cons a l ihl =>
            intro q hq
            refine ihl (q.step a) ?_
            by_cases ha : a = j
            · subst ha
              unfold Process.step
              rw [hq]
              exact hq
            · rw [step_other q j a ha]; exact hq
        exact this l p hi
      | step u k =>
        obtain ⟨_, _, d, hd, e'⟩ := hx p.st h.tab (KeysLe.refl _)
        have hl : j < p.threads.length := (List.getElem?_eq_some_iff.1 hi).1
        have hs : p.step j = ⟨p.threads.set j (k p.st), u p.st⟩ := by unfold Process.step; rw [hi]
        have hi' : (p.step j).threads[j]? = some (k p.st) := by rw [hs]; simp [hl]
        obtain ⟨x', hx', hr⟩ := ih (p.step j) h' (k p.st) hi' d (by rw [hs]; exact e')
        refine ⟨x', hx', hr.imp id fun ⟨c', hc, hc'⟩ => ⟨c', ?_, hc'⟩⟩
        rw [List.count_cons_self]
        push_cast
        rw [← add_assoc]
        exact le_trans (by gcongr) hd
    · obtain ⟨x', hx', hr⟩ := ih (p.step j) h' x (by rw [step_other p i j hj]; exact hi) c (hx.later hk)
      refine ⟨x', hx', ?_⟩
      rwa [List.count_cons_of_ne hj]

theorem run_finished {β : Type} {schedule : List Nat} {p : Process β} (h : CostInv p) {i : Nat} {x : Prog β} {N : ℕ} (hi : p.threads[i]? = some x)
    (hx : CAt (fun _ _ => True) (N : ℕ∞) x p.st) (hN : N ≤ schedule.count i) (hp : CostInv (p.run schedule)) :
    ∃ r, (p.run schedule).threads[i]? = some (.done r) := by
  obtain ⟨x', hx', ⟨r, rfl⟩ | ⟨c, hc, hc'⟩⟩ := run_cost schedule p h i x N hi hx
  · exact ⟨r, hx'⟩
  · cases x' with
    | done r => exact ⟨r, hx'⟩
    | step u k =>
      exfalso
      obtain ⟨_, _, d, hd, _⟩ := hc' _ hp.tab (KeysLe.refl _)
      have h1 : d + 1 + (schedule.count i : ℕ∞) ≤ (schedule.count i : ℕ∞) := by
        calc d + 1 + (schedule.count i : ℕ∞) ≤ c + (schedule.count i : ℕ∞) := by gcongr
          _ ≤ N := hc
          _ ≤ schedule.count i := by exact_mod_cast hN
      have h2 : (1 : ℕ∞) + (schedule.count i : ℕ∞) ≤ (schedule.count i : ℕ∞) := le_trans (by gcongr; exact le_add_self) h1
      have h3 : 1 + schedule.count i ≤ schedule.count i := by exact_mod_cast h2
      omega

theorem CostInv.run {β : Type} {p : Process β} (h : CostInv p) (l : List Nat) : CostInv (p.run l) := by
  unfold Process.run
  induction l generalizing p with
  | nil => exact h
  | cons i l ih => exact ih (h.step i).1

/-! ### The tables after any history of calls -/

theorem call_tab (s : CoefState) (h : TabInv s) (c : Call) : TabInv (c.run s) ∧ KeysLe s (c.run s) := by
  cases c with
  | radial fuel o r exact =>
    have := CAt.actions (call_any fuel (.radial o.m o.n r exact) s) h
    rw [show ((ThreadCall.radial o.m o.n r exact).prog fuel) = radialT fuel o.m o.n r exact from rfl, radialT_alone fuel o.m o.n r exact o.slowShown s] at this
    exact ⟨this.1, this.2.1⟩
  | radialDr fuel o r exact =>
    have := CAt.actions (call_any fuel (.radialDr o.m o.n r exact) s) h
    rw [show ((ThreadCall.radialDr o.m o.n r exact).prog fuel) = radialDrT fuel o.m o.n r exact from rfl, radialDrT_alone fuel o.m o.n r exact o.slowShown s] at this
    exact ⟨this.1, this.2.1⟩
  | value fuel o r theta exact =>
    have := CAt.actions (call_any fuel (.value o.m o.n r theta exact) s) h
    rw [show ((ThreadCall.value o.m o.n r theta exact).prog fuel) = polynomialValueT fuel o.m o.n r theta exact from rfl,
      polynomialValueT_alone fuel o.m o.n r theta exact o.slowShown s] at this
    exact ⟨this.1, this.2.1⟩
  | coeffs fuel b m n =>
    have := CAt.actions (FAt.any fuel b m n s) h
    rw [findCoeffsT_alone] at this
    exact ⟨this.1, this.2.1⟩
  | coeffsDr fuel b m n =>
    have := CAt.actions (DAt.any fuel b m n s) h
    rw [findCoeffsDrT_alone] at this
    exact ⟨this.1, this.2.1⟩

theorem calls_tab (l : List Call) (s : CoefState) (h : TabInv s) : TabInv (l.foldl Call.run s) ∧ KeysLe s (l.foldl Call.run s) := by
  induction l generalizing s with
  | nil => exact ⟨h, KeysLe.refl _⟩
  | cons c l ih =>
    obtain ⟨h1, h2⟩ := call_tab s h c
    obtain ⟨h3, h4⟩ := ih _ h1
    exact ⟨h3, h2.trans h4⟩

theorem afterCalls_tab (l : List Call) : TabInv (afterCalls l) := (calls_tab l _ tabInv_init).1

/-! ### Lower bounds -/

theorem actions_bind {β γ : Type} (x : Prog β) (f : β → Prog γ) (s : CoefState) :
    (x >>= f).actions s = x.actions s + (match x.alone s with | (.ok v, t) => (f v).actions t | (.error _, _) => 0) := by
  show (x.andThen f).actions s = _
  induction x generalizing s with
  | done r => cases r <;> simp [Prog.andThen, Prog.actions, Prog.alone]
  | step u k ih =>
    show ((k s).andThen f).actions (u s) + 1 = (k s).actions (u s) + 1 + _
    rw [ih]
    show _ = (k s).actions (u s) + 1 + (match (k s).alone (u s) with | (.ok v, t) => (f v).actions t | (.error _, _) => 0)
    ring

theorem TrT.ok {β : Type} {c : Prop} {x : Prog β} {Q : β → Prop} (h : TrT c x Q) (hc : c) {s : CoefState} (hs : Good s) :
    ∃ v t, x.alone s = (.ok v, t) ∧ Good t ∧ Q v := by
  have : ∀ s, TrAt c Q x s → Good s → ∃ v t, x.alone s = (.ok v, t) ∧ Good t ∧ Q v := by
    clear h hs s
    induction x with
    | done r =>
      intro s h hs
      cases r with
      | ok v => exact ⟨v, s, rfl, hs, h⟩
      | error e => exact absurd hc h
    | step u k ih =>
      intro s h hs
      obtain ⟨g, _, t⟩ := h s hs (KeysLe.refl _)
      exact ih s (u s) t g
  exact this s (h s) hs

theorem actions_then {β γ : Type} {c : Prop} {x : Prog β} {f : β → Prog γ} {Q : β → Prop} (h : TrT c x Q) (hc : c) {s : CoefState} (hs : Good s) {a b : ℕ}
    (h1 : a ≤ x.actions s) (h2 : ∀ v t, Good t → Q v → b ≤ (f v).actions t) : a + b ≤ (x >>= f).actions s := by
  obtain ⟨v, t, e, g, q⟩ := h.ok hc hs
  rw [actions_bind, e]
  exact Nat.add_le_add h1 (h2 v t g q)

theorem find_actions_pos (fuel : Nat) (b : Bool) (m n : Int) (s : CoefState) : 1 ≤ (findCoeffsT (fuel + 1) b m n).actions s := by
  unfold findCoeffsT cachedValT
  exact Nat.le_add_left 1 _

theorem findDr_actions_pos (fuel : Nat) (b : Bool) (m n : Int) (s : CoefState) : 1 ≤ (findCoeffsDrT (fuel + 1) b m n).actions s := by
  unfold findCoeffsDrT cachedDrT
  exact Nat.le_add_left 1 _

section
variable {α : Type} [CommRing α]

/-- The number of accesses for orders above 40 doubles with every two orders. -/
theorem radialCoeffs_actions (k fuel : Nat) (m n : Int) (r : α) (s : CoefState) (hs : Good s) (hv : ValidOrders m n) (hf : n.toNat + 1 < fuel)
    (hm : |m| ≤ 38) (hk : 2 * (k : Int) ≤ n - 39) : 2 ^ k ≤ (radialPolynomialCoeffsT fuel m n r).actions s := by
  induction fuel generalizing k m n s with
  | zero => omega
  | succ fuel ih =>
    have hvi := (valid_iff m n).1 hv
    have hmn := abs_le.1 hm
    unfold radialPolynomialCoeffsT
    rw [show maxRadialOrderCoeffs = 40 from rfl]
    by_cases h40 : n ≤ 40
    · rw [if_pos h40, actions_bind]
      obtain ⟨f, rfl⟩ : ∃ f, fuel = f + 1 := ⟨fuel - 1, by omega⟩
      have := find_actions_pos f false m n s
      have hk0 : k = 0 := by omega
      subst hk0
      exact le_trans (by simpa using this) (Nat.le_add_right _ _)
    · rw [if_neg h40]
      have ha : pyAbs m = |m| := by
        unfold pyAbs
        split_ifs with h
        · rw [abs_of_neg h]
        · rw [abs_of_nonneg (by omega)]
      rw [ha]
      rw [if_neg (show ¬ (|m| = n) by omega)]
      obtain ⟨v1, v2, v3⟩ := valid_down hv (by rw [ha]; omega)
      have hf1 : (n - 1).toNat + 1 < fuel := by omega
      have hf2 : (n - 2).toNat + 1 < fuel := by omega
      by_cases h0 : m = 0
      · subst h0
        rw [if_pos rfl]
        rw [zero_add] at v2
        cases k with
        | zero =>
          refine le_trans ?_ (actions_then (radialPolynomialCoeffsT_tr fuel 1 (n - 1) r) ⟨v2, hf1⟩ hs (a := 2 ^ 0) (b := 0)
            (ih 0 1 (n - 1) s hs v2 hf1 (by norm_num) (by omega)) fun _ _ _ _ => Nat.zero_le _)
          norm_num
        | succ k =>
          refine le_trans ?_ (actions_then (radialPolynomialCoeffsT_tr fuel 1 (n - 1) r) ⟨v2, hf1⟩ hs (a := 2 ^ k) (b := 2 ^ k + 0)
            (ih k 1 (n - 1) s hs v2 hf1 (by norm_num) (by omega)) fun x t ht _ =>
            actions_then (radialPolynomialCoeffsT_tr fuel 0 (n - 2) r) ⟨v3, hf2⟩ ht (ih k 0 (n - 2) t ht v3 hf2 (by norm_num) (by omega)) fun _ _ _ _ => Nat.zero_le _)
          rw [pow_succ]; omega
      · rw [if_neg h0]
        have v1' := valid_pyAbs v1
        rw [if_neg (show ¬ (|m| = n - 2) by omega)]
        -- the call that goes towards `m = 0`
        by_cases hpos : 0 < m
        · have e1 : pyAbs (m - 1) = m - 1 := by unfold pyAbs; split_ifs <;> omega
          have b1 : |pyAbs (m - 1)| ≤ 38 := by rw [e1]; exact abs_le.2 (by omega)
          cases k with
          | zero =>
            refine le_trans ?_ (actions_then (radialPolynomialCoeffsT_tr fuel _ (n - 1) r) ⟨v1', hf1⟩ hs (a := 2 ^ 0) (b := 0)
              (ih 0 _ (n - 1) s hs v1' hf1 b1 (by omega)) fun _ _ _ _ => Nat.zero_le _)
            norm_num
          | succ k =>
            refine le_trans ?_ (actions_then (radialPolynomialCoeffsT_tr fuel _ (n - 1) r) ⟨v1', hf1⟩ hs (a := 2 ^ k) (b := 0 + (2 ^ k + 0))
              (ih k _ (n - 1) s hs v1' hf1 b1 (by omega)) fun x t ht _ =>
              actions_then (radialPolynomialCoeffsT_tr fuel (m + 1) (n - 1) r) ⟨v2, hf1⟩ ht (Nat.zero_le _) fun y t' ht' _ =>
              actions_then (radialPolynomialCoeffsT_tr fuel m (n - 2) r) ⟨v3, hf2⟩ ht' (ih k m (n - 2) t' ht' v3 hf2 hm (by omega)) fun _ _ _ _ => Nat.zero_le _)
            rw [pow_succ]; omega
        · have b1 : |m + 1| ≤ 38 := abs_le.2 (by omega)
          cases k with
          | zero =>
            refine le_trans ?_ (actions_then (radialPolynomialCoeffsT_tr fuel _ (n - 1) r) ⟨v1', hf1⟩ hs (a := 0) (b := 2 ^ 0 + 0) (Nat.zero_le _) fun x t ht _ =>
              actions_then (radialPolynomialCoeffsT_tr fuel (m + 1) (n - 1) r) ⟨v2, hf1⟩ ht (ih 0 _ (n - 1) t ht v2 hf1 b1 (by omega)) fun _ _ _ _ => Nat.zero_le _)
            norm_num
          | succ k =>
            refine le_trans ?_ (actions_then (radialPolynomialCoeffsT_tr fuel _ (n - 1) r) ⟨v1', hf1⟩ hs (a := 0) (b := 2 ^ k + (2 ^ k + 0)) (Nat.zero_le _) fun x t ht _ =>
              actions_then (radialPolynomialCoeffsT_tr fuel (m + 1) (n - 1) r) ⟨v2, hf1⟩ ht (ih k _ (n - 1) t ht v2 hf1 b1 (by omega)) fun y t' ht' _ =>
              actions_then (radialPolynomialCoeffsT_tr fuel m (n - 2) r) ⟨v3, hf2⟩ ht' (ih k m (n - 2) t' ht' v3 hf2 hm (by omega)) fun _ _ _ _ => Nat.zero_le _)
            rw [pow_succ]; omega

/-- The number of accesses for the derivative of orders above 38 doubles with every two orders. -/
theorem radialCoeffsDr_actions (k fuel : Nat) (m n : Int) (r : α) (s : CoefState) (hs : Good s) (hv : ValidOrders m n) (hn9 : 9 ≤ n) (hf : n.toNat + 1 < fuel)
    (hm : |m| ≤ 36) (hk : 2 * (k : Int) ≤ n - 37) : 2 ^ k ≤ (radialPolynomialCoeffsDrT fuel m n r).actions s := by
  induction fuel generalizing k m n s with
  | zero => omega
  | succ fuel ih =>
    have hvi := (valid_iff m n).1 hv
    have hmn := abs_le.1 hm
    unfold radialPolynomialCoeffsDrT
    rw [show maxRadialOrderCoeffsDr = 38 from rfl]
    by_cases h40 : n ≤ 38
    · rw [if_pos h40, actions_bind]
      obtain ⟨f, rfl⟩ : ∃ f, fuel = f + 1 := ⟨fuel - 1, by omega⟩
      have := findDr_actions_pos f false m n s
      have hk0 : k = 0 := by omega
      subst hk0
      exact le_trans (by simpa using this) (Nat.le_add_right _ _)
    · rw [if_neg h40]
      have ha : pyAbs m = |m| := by
        unfold pyAbs
        split_ifs with h
        · rw [abs_of_neg h]
        · rw [abs_of_nonneg (by omega)]
      rw [ha]
      rw [if_neg (show ¬ (|m| = n) by omega)]
      obtain ⟨v1, v2, v3⟩ := valid_down hv (by rw [ha]; omega)
      have hf1 : (n - 1).toNat + 1 < fuel := by omega
      have hf2 : (n - 2).toNat + 1 < fuel := by omega
      have h91 : 9 ≤ n - 1 := by omega
      have h92 : 9 ≤ n - 2 := by omega
      by_cases h0 : m = 0
      · subst h0
        rw [if_pos rfl]
        rw [zero_add] at v2
        cases k with
        | zero =>
          refine le_trans ?_ (actions_then (radialPolynomialCoeffsDrT_tr fuel 1 (n - 1) r) ⟨v2, h91, hf1⟩ hs (a := 2 ^ 0) (b := 0)
            (ih 0 1 (n - 1) s hs v2 h91 hf1 (by norm_num) (by omega)) fun _ _ _ _ => Nat.zero_le _)
          norm_num
        | succ k =>
          refine le_trans ?_ (actions_then (radialPolynomialCoeffsDrT_tr fuel 1 (n - 1) r) ⟨v2, h91, hf1⟩ hs (a := 2 ^ k) (b := 2 ^ k + 0)
            (ih k 1 (n - 1) s hs v2 h91 hf1 (by norm_num) (by omega)) fun x t ht _ =>
            actions_then (radialPolynomialCoeffsDrT_tr fuel 1 (n - 1) r) ⟨v2, h91, hf1⟩ ht (ih k 1 (n - 1) t ht v2 h91 hf1 (by norm_num) (by omega))
              fun _ _ _ _ => Nat.zero_le _)
          rw [pow_succ]; omega
      · rw [if_neg h0]
        have v1' := valid_pyAbs v1
        rw [if_neg (show ¬ (|m| = n - 2) by omega)]
        by_cases hpos : 0 < m
        · have e1 : pyAbs (m - 1) = m - 1 := by unfold pyAbs; split_ifs <;> omega
          have b1 : |pyAbs (m - 1)| ≤ 36 := by rw [e1]; exact abs_le.2 (by omega)
          cases k with
          | zero =>
            refine le_trans ?_ (actions_then (radialPolynomialCoeffsT_tr fuel _ (n - 1) r) ⟨v1', hf1⟩ hs (a := 0) (b := 0 + (2 ^ 0 + 0)) (Nat.zero_le _) fun _ t0 g0 _ =>
              actions_then (radialPolynomialCoeffsT_tr fuel _ (n - 1) r) ⟨v2, hf1⟩ g0 (Nat.zero_le _) fun _ t1 g1 _ =>
              actions_then (radialPolynomialCoeffsDrT_tr fuel _ (n - 1) r) ⟨v1', h91, hf1⟩ g1 (ih 0 _ (n - 1) t1 g1 v1' h91 hf1 b1 (by omega)) fun _ _ _ _ => Nat.zero_le _)
            norm_num
          | succ k =>
            refine le_trans ?_ (actions_then (radialPolynomialCoeffsT_tr fuel _ (n - 1) r) ⟨v1', hf1⟩ hs (a := 0) (b := 0 + (2 ^ k + (0 + (2 ^ k + 0)))) (Nat.zero_le _)
              fun _ t0 g0 _ =>
              actions_then (radialPolynomialCoeffsT_tr fuel _ (n - 1) r) ⟨v2, hf1⟩ g0 (Nat.zero_le _) fun _ t1 g1 _ =>
              actions_then (radialPolynomialCoeffsDrT_tr fuel _ (n - 1) r) ⟨v1', h91, hf1⟩ g1 (ih k _ (n - 1) t1 g1 v1' h91 hf1 b1 (by omega)) fun x t ht _ =>
              actions_then (radialPolynomialCoeffsDrT_tr fuel (m + 1) (n - 1) r) ⟨v2, h91, hf1⟩ ht (Nat.zero_le _) fun y t' ht' _ =>
              actions_then (radialPolynomialCoeffsDrT_tr fuel m (n - 2) r) ⟨v3, h92, hf2⟩ ht' (ih k m (n - 2) t' ht' v3 h92 hf2 hm (by omega))
                fun _ _ _ _ => Nat.zero_le _)
            rw [pow_succ]; omega
        · have b1 : |m + 1| ≤ 36 := abs_le.2 (by omega)
          cases k with
          | zero =>
            refine le_trans ?_ (actions_then (radialPolynomialCoeffsT_tr fuel _ (n - 1) r) ⟨v1', hf1⟩ hs (a := 0) (b := 0 + (0 + (2 ^ 0 + 0))) (Nat.zero_le _) fun _ t0 g0 _ =>
              actions_then (radialPolynomialCoeffsT_tr fuel _ (n - 1) r) ⟨v2, hf1⟩ g0 (Nat.zero_le _) fun _ t1 g1 _ =>
              actions_then (radialPolynomialCoeffsDrT_tr fuel _ (n - 1) r) ⟨v1', h91, hf1⟩ g1 (Nat.zero_le _) fun x t ht _ =>
              actions_then (radialPolynomialCoeffsDrT_tr fuel (m + 1) (n - 1) r) ⟨v2, h91, hf1⟩ ht (ih 0 _ (n - 1) t ht v2 h91 hf1 b1 (by omega)) fun _ _ _ _ => Nat.zero_le _)
            norm_num
          | succ k =>
            refine le_trans ?_ (actions_then (radialPolynomialCoeffsT_tr fuel _ (n - 1) r) ⟨v1', hf1⟩ hs (a := 0) (b := 0 + (0 + (2 ^ k + (2 ^ k + 0)))) (Nat.zero_le _)
              fun _ t0 g0 _ =>
              actions_then (radialPolynomialCoeffsT_tr fuel _ (n - 1) r) ⟨v2, hf1⟩ g0 (Nat.zero_le _) fun _ t1 g1 _ =>
              actions_then (radialPolynomialCoeffsDrT_tr fuel _ (n - 1) r) ⟨v1', h91, hf1⟩ g1 (Nat.zero_le _) fun x t ht _ =>
              actions_then (radialPolynomialCoeffsDrT_tr fuel (m + 1) (n - 1) r) ⟨v2, h91, hf1⟩ ht (ih k _ (n - 1) t ht v2 h91 hf1 b1 (by omega)) fun y t' ht' _ =>
              actions_then (radialPolynomialCoeffsDrT_tr fuel m (n - 2) r) ⟨v3, h92, hf2⟩ ht' (ih k m (n - 2) t' ht' v3 h92 hf2 hm (by omega))
                fun _ _ _ _ => Nat.zero_le _)
            rw [pow_succ]; omega

end

end Verif.Proofs
