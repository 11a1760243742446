import Verif.Model.FloatPsf
import Verif.Proofs.Sums

/-! # Evaluation does not depend on the state of the tables, in any arithmetic -/

namespace Verif.Proofs
open Verif.Model Verif.Spec

/-- In all good states `x` and `x'` give one and the same result (or exception) and leave a good state. -/
def Same {β : Type} (x x' : CM β) : Prop :=
  ∃ y : Res β, ∀ s, Good s → ((x s).1 = y ∧ Good (x s).2) ∧ ((x' s).1 = y ∧ Good (x' s).2)

theorem Same.lift {β : Type} {y y' : Res β} (h : y = y') : Same (CM.lift y) (CM.lift y') := by
  subst h; exact ⟨y, fun s hs => ⟨⟨rfl, hs⟩, rfl, hs⟩⟩

theorem Same.pure {β : Type} {y y' : β} (h : y = y') : Same (Pure.pure y : CM β) (Pure.pure y') := by
  subst h; exact ⟨.ok y, fun s hs => ⟨⟨rfl, hs⟩, rfl, hs⟩⟩

theorem Same.raise {β : Type} (e : PyErr) : Same (CM.raise e : CM β) (CM.raise e) :=
  ⟨.error e, fun _ hs => ⟨⟨rfl, hs⟩, rfl, hs⟩⟩

theorem good_bind {β γ : Type} {x : CM β} {f : β → CM γ} {s : CoefState} {v : β} (h1 : (x s).1 = .ok v) :
    (x >>= f) s = f v (x s).2 := by
  rw [cm_bind]
  rcases hc : x s with ⟨r, s'⟩
  rw [hc] at h1
  simp only at h1
  subst h1
  rfl

theorem good_bind_error {β γ : Type} {x : CM β} {f : β → CM γ} {s : CoefState} {e : PyErr} (h1 : (x s).1 = .error e) :
    (x >>= f) s = (.error e, (x s).2) := by
  rw [cm_bind]
  rcases hc : x s with ⟨r, s'⟩
  rw [hc] at h1
  simp only at h1
  subst h1
  rfl

theorem Same.bind {β γ : Type} {x x' : CM β} {f f' : β → CM γ} (hx : Same x x') (hf : ∀ v, Same (f v) (f' v)) :
    Same (x >>= f) (x' >>= f') := by
  obtain ⟨y, hy⟩ := hx
  cases y with
  | error e =>
    refine ⟨.error e, fun s hs => ?_⟩
    obtain ⟨⟨a, b⟩, c, d⟩ := hy s hs
    rw [good_bind_error a, good_bind_error c]
    exact ⟨⟨rfl, b⟩, rfl, d⟩
  | ok v =>
    obtain ⟨z, hz⟩ := hf v
    refine ⟨z, fun s hs => ?_⟩
    obtain ⟨⟨a, b⟩, c, d⟩ := hy s hs
    rw [good_bind a, good_bind c]
    exact ⟨(hz _ b).1, (hz _ d).2⟩

/-- The consequence: equal results from any two good states. -/
theorem Same.eq {β : Type} {x x' : CM β} (h : Same x x') {s s' : CoefState} (hs : Good s) (hs' : Good s') : (x s).1 = (x' s').1 := by
  obtain ⟨y, hy⟩ := h
  rw [(hy s hs).1.1, (hy s' hs').2.1]

/-- In all good states `x` and `x'` return one and the same value. -/
def Both {β : Type} (x x' : CM β) : Prop := ∃ v, Ret x v ∧ Ret x' v

theorem Both.same {β : Type} {x x' : CM β} (h : Both x x') : Same x x' := by
  obtain ⟨v, a, b⟩ := h
  exact ⟨.ok v, fun s hs => ⟨a s hs, b s hs⟩⟩

theorem Both.pure {β : Type} {y y' : β} (h : y = y') : Both (Pure.pure y : CM β) (Pure.pure y') := by
  subst h; exact ⟨y, ret_pure y, ret_pure y⟩

theorem Both.bind {β γ : Type} {x x' : CM β} {f f' : β → CM γ} (hx : Both x x') (hf : ∀ v, Both (f v) (f' v)) : Both (x >>= f) (x' >>= f') := by
  obtain ⟨v, a, b⟩ := hx
  obtain ⟨w, c, d⟩ := hf v
  exact ⟨w, a.bind c, b.bind d⟩

/-- Two computations in the one and the other order. -/
theorem Both.bind_swap {β γ : Type} {x1 x2 x1' x2' : CM β} {f f' : β → β → CM γ} (h1 : Both x1 x2') (h2 : Both x2 x1') (hf : ∀ v w, Both (f v w) (f' w v)) :
    Both (x1 >>= fun v => x2 >>= fun w => f v w) (x1' >>= fun v => x2' >>= fun w => f' v w) := by
  obtain ⟨v, a, b⟩ := h1
  obtain ⟨w, c, d⟩ := h2
  obtain ⟨z, e, g⟩ := hf v w
  exact ⟨z, a.bind (c.bind e), d.bind (b.bind g)⟩

section
variable {α : Type} [Zero α] [One α] [Add α] [Sub α] [Mul α] [NatCast α] [IntCast α] [Pow α ℕ] [OfRat α]

theorem evalLoop_zeros (r : α) (d : Coeffs) (k : ℕ) (acc : α) (h : ∀ i : ℕ, d.getD i 0 = 0) : evalLoop r (itemsFrom k d) acc = acc := by
  induction d generalizing k acc with
  | nil => rfl
  | cons v t ih =>
    have h0 : v = 0 := by simpa using h 0
    unfold itemsFrom evalLoop
    rw [if_neg (by simp [h0])]
    exact ih _ _ fun i => by simpa using h (i + 1)

theorem evalLoop_congr (r : α) (d d' : Coeffs) (k : ℕ) (acc : α) (h : ∀ i : ℕ, d.getD i 0 = d'.getD i 0) :
    evalLoop r (itemsFrom k d) acc = evalLoop r (itemsFrom k d') acc := by
  induction d generalizing d' k acc with
  | nil => rw [evalLoop_zeros r d' k acc (fun i => by rw [← h]; simp)]; rfl
  | cons v t ih =>
    cases d' with
    | nil => rw [evalLoop_zeros r (v :: t) k acc (fun i => by rw [h]; simp)]; rfl
    | cons v' t' =>
      have h0 : v = v' := by simpa using h 0
      subst h0
      unfold itemsFrom evalLoop
      exact ih _ _ _ fun i => by simpa using h (i + 1)

theorem RP_abs (m n : Int) : RP (pyAbs m) n = RP m n := by unfold RP; rw [RR_abs]

theorem RP_of_abs {m m' n : Int} (h : pyAbs m = pyAbs m') : RP m n = RP m' n := by rw [← RP_abs m, h, RP_abs]

theorem pyAbs_cases {m m' : Int} (h : pyAbs m = pyAbs m') : m' = m ∨ m' = -m := by
  unfold pyAbs at h; split_ifs at h <;> omega

theorem valid_of_abs {m m' n : Int} (h : pyAbs m = pyAbs m') (hv : ValidOrders m n) : ValidOrders m' n := by
  rw [valid_iff] at *
  rcases pyAbs_cases h with rfl | rfl
  · exact hv
  · omega

theorem coeffs_both (fuel fuel' : Nat) (m m' n : Int) (r : α) (h : pyAbs m = pyAbs m') (hv : ValidOrders m n) (hf : n.toNat < fuel) (hf' : n.toNat < fuel') :
    Both (do let d ← findCoeffs fuel false m n; pure (evalLoop r (itemsFrom 0 d) 0) : CM α)
      (do let d ← findCoeffs fuel' false m' n; pure (evalLoop r (itemsFrom 0 d) 0)) := by
  have t := findCoeffs_tr fuel false m n
  have t' := findCoeffs_tr fuel' false m' n
  obtain ⟨d0, e0⟩ := (t _ good_init).2.2 ⟨hv, hf⟩
  have c0 := ((t _ good_init).2.1 _ e0).2
  refine ⟨evalLoop r (itemsFrom 0 d0) 0, fun s hs => ?_, fun s hs => ?_⟩
  · obtain ⟨d, e⟩ := (t s hs).2.2 ⟨hv, hf⟩
    have c := ((t s hs).2.1 _ e).2
    rw [good_bind e]
    exact ⟨congrArg Except.ok (evalLoop_congr r _ _ _ _ fun i => by rw [c.2.2, c0.2.2]), (t s hs).1⟩
  · obtain ⟨d, e⟩ := (t' s hs).2.2 ⟨valid_of_abs h hv, hf'⟩
    have c := ((t' s hs).2.1 _ e).2
    rw [good_bind e]
    exact ⟨congrArg Except.ok (evalLoop_congr r _ _ _ _ fun i => by rw [c.2.2, c0.2.2, RP_of_abs h]), (t' s hs).1⟩

theorem coeffsDr_both (fuel fuel' : Nat) (m m' n : Int) (r : α) (h : pyAbs m = pyAbs m') (hv : ValidOrders m n) (h9 : 9 ≤ n) (hf : n.toNat < fuel)
    (hf' : n.toNat < fuel') :
    Both (do let d ← findCoeffsDr fuel false m n; pure (evalLoop r (itemsFrom 0 d) 0) : CM α)
      (do let d ← findCoeffsDr fuel' false m' n; pure (evalLoop r (itemsFrom 0 d) 0)) := by
  have t := findCoeffsDr_tr fuel false m n
  have t' := findCoeffsDr_tr fuel' false m' n
  obtain ⟨d0, e0⟩ := (t _ good_init).2.2 ⟨hv, h9, hf⟩
  have c0 := ((t _ good_init).2.1 _ e0).2 h9
  refine ⟨evalLoop r (itemsFrom 0 d0) 0, fun s hs => ?_, fun s hs => ?_⟩
  · obtain ⟨d, e⟩ := (t s hs).2.2 ⟨hv, h9, hf⟩
    have c := ((t s hs).2.1 _ e).2 h9
    rw [good_bind e]
    exact ⟨congrArg Except.ok (evalLoop_congr r _ _ _ _ fun i => by rw [c.2.2, c0.2.2]), (t s hs).1⟩
  · obtain ⟨d, e⟩ := (t' s hs).2.2 ⟨valid_of_abs h hv, h9, hf'⟩
    have c := ((t' s hs).2.1 _ e).2 h9
    rw [good_bind e]
    exact ⟨congrArg Except.ok (evalLoop_congr r _ _ _ _ fun i => by rw [c.2.2, c0.2.2, RP_of_abs h]), (t' s hs).1⟩

/-- The children of `-m` are those of `m`, in the other order. -/
theorem abs_children (m : Int) : pyAbs (pyAbs (m - 1)) = pyAbs (-m + 1) ∧ pyAbs (m + 1) = pyAbs (pyAbs (-m - 1)) := by
  unfold pyAbs; constructor <;> split_ifs <;> omega

theorem radialPolynomialCoeffs_both (hc : ∀ x y : α, x + y = y + x) (fuel fuel' : Nat) (m m' n : Int) (r : α) (h : pyAbs m = pyAbs m')
    (hv : ValidOrders m n) (hf : n.toNat + 1 < fuel) (hf' : n.toNat + 1 < fuel') :
    Both (radialPolynomialCoeffs fuel m n r) (radialPolynomialCoeffs fuel' m' n r) := by
  induction fuel generalizing fuel' m m' n with
  | zero => omega
  | succ fuel ih =>
    cases fuel' with
    | zero => omega
    | succ fuel' =>
      have hn := (valid_iff m n).1 hv
      have hm0 : m' = 0 ↔ m = 0 := by rcases pyAbs_cases h with rfl | rfl <;> omega
      unfold radialPolynomialCoeffs
      rw [← h]
      by_cases h40 : n ≤ maxRadialOrderCoeffs
      · rw [if_pos h40, if_pos h40]
        exact coeffs_both fuel fuel' m m' n r h hv (by omega) (by omega)
      rw [if_neg h40, if_neg h40]
      have h40' : 40 < n := by simpa [maxRadialOrderCoeffs] using h40
      by_cases h1 : pyAbs m = n
      · rw [if_pos h1, if_pos h1]; exact Both.pure rfl
      rw [if_neg h1, if_neg h1]
      obtain ⟨v1, v2, v3⟩ := valid_down hv h1
      by_cases h0 : m = 0
      · rw [if_pos h0, if_pos (hm0.2 h0)]
        subst h0
        rw [zero_add] at v2
        exact (ih fuel' 1 1 (n - 1) rfl v2 (by omega) (by omega)).bind fun x => (ih fuel' 0 0 (n - 2) rfl v3 (by omega) (by omega)).bind fun y => Both.pure rfl
      rw [if_neg h0, if_neg (mt hm0.1 h0)]
      by_cases h2 : pyAbs m = n - 2
      · rw [if_pos h2, if_pos h2]; exact Both.pure rfl
      rw [if_neg h2, if_neg h2]
      have s1 := fun b (hb : pyAbs (pyAbs (m - 1)) = pyAbs b) => ih fuel' (pyAbs (m - 1)) b (n - 1) hb (valid_pyAbs v1) (by omega) (by omega)
      have s2 := fun b (hb : pyAbs (m + 1) = pyAbs b) => ih fuel' (m + 1) b (n - 1) hb v2 (by omega) (by omega)
      have s3 := ih fuel' m m' (n - 2) h v3 (by omega) (by omega)
      rcases pyAbs_cases h with e | e
      · subst e
        exact (s1 _ rfl).bind fun x => (s2 _ rfl).bind fun y => s3.bind fun z => Both.pure rfl
      · subst e
        exact (s1 _ (abs_children m).1).bind_swap (s2 _ (abs_children m).2) fun x y => s3.bind fun z => Both.pure (by rw [hc y x])

theorem radialPolynomialCoeffsDr_both (hc : ∀ x y : α, x + y = y + x) (fuel fuel' : Nat) (m m' n : Int) (r : α) (h : pyAbs m = pyAbs m')
    (hv : ValidOrders m n) (h9 : 9 ≤ n) (hf : n.toNat + 1 < fuel) (hf' : n.toNat + 1 < fuel') :
    Both (radialPolynomialCoeffsDr fuel m n r) (radialPolynomialCoeffsDr fuel' m' n r) := by
  induction fuel generalizing fuel' m m' n with
  | zero => omega
  | succ fuel ih =>
    cases fuel' with
    | zero => omega
    | succ fuel' =>
      have hn := (valid_iff m n).1 hv
      have hm0 : m' = 0 ↔ m = 0 := by rcases pyAbs_cases h with rfl | rfl <;> omega
      unfold radialPolynomialCoeffsDr
      rw [← h]
      by_cases h38 : n ≤ maxRadialOrderCoeffsDr
      · rw [if_pos h38, if_pos h38]
        exact coeffsDr_both fuel fuel' m m' n r h hv h9 (by omega) (by omega)
      rw [if_neg h38, if_neg h38]
      have h38' : 38 < n := by simpa [maxRadialOrderCoeffsDr] using h38
      by_cases h1 : pyAbs m = n
      · rw [if_pos h1, if_pos h1]; exact Both.pure rfl
      rw [if_neg h1, if_neg h1]
      obtain ⟨v1, v2, v3⟩ := valid_down hv h1
      by_cases h0 : m = 0
      · rw [if_pos h0, if_pos (hm0.2 h0)]
        subst h0
        rw [zero_add] at v2
        have s1 := ih fuel' 1 1 (n - 1) rfl v2 (by omega) (by omega) (by omega)
        exact s1.bind fun x => s1.bind fun x' => (ih fuel' 0 0 (n - 2) rfl v3 (by omega) (by omega) (by omega)).bind fun y => Both.pure rfl
      rw [if_neg h0, if_neg (mt hm0.1 h0)]
      by_cases h2 : pyAbs m = n - 2
      · rw [if_pos h2, if_pos h2]; exact Both.pure rfl
      rw [if_neg h2, if_neg h2]
      have p1 := fun b (hb : pyAbs (pyAbs (m - 1)) = pyAbs b) =>
        radialPolynomialCoeffs_both hc fuel fuel' (pyAbs (m - 1)) b (n - 1) r hb (valid_pyAbs v1) (by omega) (by omega)
      have p2 := fun b (hb : pyAbs (m + 1) = pyAbs b) => radialPolynomialCoeffs_both hc fuel fuel' (m + 1) b (n - 1) r hb v2 (by omega) (by omega)
      have s1 := fun b (hb : pyAbs (pyAbs (m - 1)) = pyAbs b) => ih fuel' (pyAbs (m - 1)) b (n - 1) hb (valid_pyAbs v1) (by omega) (by omega) (by omega)
      have s2 := fun b (hb : pyAbs (m + 1) = pyAbs b) => ih fuel' (m + 1) b (n - 1) hb v2 (by omega) (by omega) (by omega)
      have s3 := ih fuel' m m' (n - 2) h v3 (by omega) (by omega) (by omega)
      rcases pyAbs_cases h with e | e
      · subst e
        exact (p1 _ rfl).bind fun x => (p2 _ rfl).bind fun y => (s1 _ rfl).bind fun x => (s2 _ rfl).bind fun y => s3.bind fun z => Both.pure rfl
      · subst e
        exact (p1 _ (abs_children m).1).bind_swap (p2 _ (abs_children m).2) fun a b =>
          (s1 _ (abs_children m).1).bind_swap (s2 _ (abs_children m).2) fun x y => s3.bind fun z => Both.pure (by rw [hc y x, hc b a])

theorem radialTable_neg (m n : Int) (r : α) : radialTable (-m) n r = radialTable m n r := by
  unfold radialTable
  simp only [neg_eq_zero, neg_inj, neg_eq_iff_eq_neg]
  repeat (first | rfl | (refine if_congr (or_comm) rfl ?_) | (refine if_congr Iff.rfl rfl ?_))

theorem radialDerivTable_neg (m n : Int) (r : α) : radialDerivTable (-m) n r = radialDerivTable m n r := by
  unfold radialDerivTable
  simp only [neg_eq_zero, neg_inj, neg_eq_iff_eq_neg]
  repeat (first | rfl | (refine if_congr (or_comm) rfl ?_) | (refine if_congr Iff.rfl rfl ?_))

theorem radialTable_abs {m m' : Int} (h : pyAbs m = pyAbs m') (n : Int) (r : α) : radialTable m' n r = radialTable m n r := by
  rcases pyAbs_cases h with rfl | rfl
  · rfl
  · exact radialTable_neg m n r

theorem radialDerivTable_abs {m m' : Int} (h : pyAbs m = pyAbs m') (n : Int) (r : α) : radialDerivTable m' n r = radialDerivTable m n r := by
  rcases pyAbs_cases h with rfl | rfl
  · rfl
  · exact radialDerivTable_neg m n r

theorem table_none (m n : Int) (r : α) (hv : ValidOrders m n) (hn : n ≤ 10) (h : radialTable m n r = none) : n > 7 ∧ pyAbs m = n := by
  rw [valid_iff] at hv
  obtain ⟨h0, g1, g2, g3⟩ := hv
  interval_cases n <;> interval_cases m <;> first | omega | (simp [radialTable] at h; done) | (simp [pyAbs]; done)

theorem derivTable_none (m n : Int) (r : α) (hv : ValidOrders m n) (hn : n ≤ 10) (h : radialDerivTable m n r = none) :
    (n > 7 ∧ pyAbs m = n) ∨ (n > 8 ∧ pyAbs m = n - 2) := by
  rw [valid_iff] at hv
  obtain ⟨h0, g1, g2, g3⟩ := hv
  interval_cases n <;> interval_cases m <;> first | omega | (simp [radialDerivTable] at h; done) | (simp [pyAbs]; done)

/-- Both computations succeed with the same value. -/
def BothR {β : Type} (x x' : Res β) : Prop := ∃ v, x = .ok v ∧ x' = .ok v

theorem BothR.bind {β γ : Type} {x x' : Res β} {f f' : β → Res γ} (hx : BothR x x') (hf : ∀ v, BothR (f v) (f' v)) : BothR (x >>= f) (x' >>= f') := by
  obtain ⟨v, rfl, rfl⟩ := hx
  exact hf v

theorem BothR.bind_swap {β γ : Type} {x1 x2 x1' x2' : Res β} {f f' : β → β → Res γ} (h1 : BothR x1 x2') (h2 : BothR x2 x1')
    (hf : ∀ v w, BothR (f v w) (f' w v)) :
    BothR (x1 >>= fun v => x2 >>= fun w => f v w) (x1' >>= fun v => x2' >>= fun w => f' v w) := by
  obtain ⟨v, rfl, rfl⟩ := h1
  obtain ⟨w, rfl, rfl⟩ := h2
  exact hf v w

theorem BothR.ok {β : Type} {y y' : β} (h : y = y') : BothR (.ok y) (.ok y') := by subst h; exact ⟨y, rfl, rfl⟩

theorem BothR.lift {β : Type} {x x' : Res β} (h : BothR x x') : Both (CM.lift x) (CM.lift x') := by
  obtain ⟨v, rfl, rfl⟩ := h
  exact Both.pure rfl

theorem radialPolynomial_both (hc : ∀ x y : α, x + y = y + x) (fuel fuel' : Nat) (m m' n : Int) (r : α) (h : pyAbs m = pyAbs m')
    (hv : ValidOrders m n) (hf : n.toNat < fuel) (hf' : n.toNat < fuel') :
    BothR (radialPolynomial fuel m n r) (radialPolynomial fuel' m' n r) := by
  induction fuel generalizing fuel' m m' n with
  | zero => omega
  | succ fuel ih =>
    cases fuel' with
    | zero => omega
    | succ fuel' =>
      have hn := (valid_iff m n).1 hv
      have hm0 : m' = 0 ↔ m = 0 := by rcases pyAbs_cases h with rfl | rfl <;> omega
      unfold radialPolynomial
      rw [radialTable_abs h, ← h]
      cases ht : radialTable m n r with
      | some v => exact BothR.ok rfl
      | none =>
        simp only
        by_cases h1 : n > 7 ∧ pyAbs m = n
        · rw [if_pos h1, if_pos h1]; exact BothR.ok rfl
        rw [if_neg h1, if_neg h1]
        have h10 : 10 < n := by
          by_contra hn10
          exact h1 (table_none m n r hv (by omega) ht)
        obtain ⟨v1, v2, v3⟩ := valid_down hv (fun e => h1 ⟨by omega, e⟩)
        by_cases h0 : m = 0
        · rw [if_pos ⟨by omega, h0⟩, if_pos ⟨by omega, hm0.2 h0⟩]
          subst h0
          rw [zero_add] at v2
          exact (ih fuel' 1 1 (n - 1) rfl v2 (by omega) (by omega)).bind fun x => (ih fuel' 0 0 (n - 2) rfl v3 (by omega) (by omega)).bind fun y => BothR.ok rfl
        rw [if_neg (show ¬ (n > 10 ∧ m = 0) by tauto), if_neg (show ¬ (n > 10 ∧ m' = 0) by tauto)]
        by_cases h2 : pyAbs m = n - 2
        · rw [if_pos ⟨by omega, h2⟩, if_pos ⟨by omega, h2⟩]; exact BothR.ok rfl
        rw [if_neg (by tauto), if_neg (by tauto)]
        have s1 := fun b (hb : pyAbs (pyAbs (m - 1)) = pyAbs b) => ih fuel' (pyAbs (m - 1)) b (n - 1) hb (valid_pyAbs v1) (by omega) (by omega)
        have s2 := fun b (hb : pyAbs (m + 1) = pyAbs b) => ih fuel' (m + 1) b (n - 1) hb v2 (by omega) (by omega)
        have s3 := ih fuel' m m' (n - 2) h v3 (by omega) (by omega)
        rcases pyAbs_cases h with e | e
        · subst e
          exact (s1 _ rfl).bind fun x => (s2 _ rfl).bind fun y => s3.bind fun z => BothR.ok rfl
        · subst e
          exact (s1 _ (abs_children m).1).bind_swap (s2 _ (abs_children m).2) fun x y => s3.bind fun z => BothR.ok (by rw [hc y x])

theorem radialDerivative_both (hc : ∀ x y : α, x + y = y + x) (fuel fuel' : Nat) (m m' n : Int) (r : α) (h : pyAbs m = pyAbs m')
    (hv : ValidOrders m n) (hf : n.toNat < fuel) (hf' : n.toNat < fuel') :
    BothR (radialDerivative fuel m n r) (radialDerivative fuel' m' n r) := by
  induction fuel generalizing fuel' m m' n with
  | zero => omega
  | succ fuel ih =>
    cases fuel' with
    | zero => omega
    | succ fuel' =>
      have hn := (valid_iff m n).1 hv
      have hm0 : m' = 0 ↔ m = 0 := by rcases pyAbs_cases h with rfl | rfl <;> omega
      unfold radialDerivative
      rw [radialDerivTable_abs h, ← h]
      cases ht : radialDerivTable m n r with
      | some v => exact BothR.ok rfl
      | none =>
        simp only
        by_cases h1 : n > 7 ∧ pyAbs m = n
        · rw [if_pos h1, if_pos h1]; exact BothR.ok rfl
        rw [if_neg h1, if_neg h1]
        by_cases h2 : n > 8 ∧ pyAbs m = n - 2
        · rw [if_pos h2, if_pos h2]; exact BothR.ok rfl
        rw [if_neg h2, if_neg h2]
        have h10 : 10 < n := by
          by_contra hn10
          rcases derivTable_none m n r hv (by omega) ht with c | c
          · exact h1 c
          · exact h2 c
        obtain ⟨v1, v2, v3⟩ := valid_down hv (fun e => h1 ⟨by omega, e⟩)
        by_cases h0 : m = 0
        · rw [if_pos ⟨by omega, h0⟩, if_pos ⟨by omega, hm0.2 h0⟩]
          subst h0
          rw [zero_add] at v2
          exact (radialPolynomial_both hc fuel fuel' 1 1 (n - 1) r rfl v2 (by omega) (by omega)).bind fun x =>
            (ih fuel' 1 1 (n - 1) rfl v2 (by omega) (by omega)).bind fun y => (ih fuel' 0 0 (n - 2) rfl v3 (by omega) (by omega)).bind fun y => BothR.ok rfl
        rw [if_neg (by tauto), if_neg (by tauto)]
        have p1 := fun b (hb : pyAbs (pyAbs (m - 1)) = pyAbs b) =>
          radialPolynomial_both hc fuel fuel' (pyAbs (m - 1)) b (n - 1) r hb (valid_pyAbs v1) (by omega) (by omega)
        have p2 := fun b (hb : pyAbs (m + 1) = pyAbs b) => radialPolynomial_both hc fuel fuel' (m + 1) b (n - 1) r hb v2 (by omega) (by omega)
        have s1 := fun b (hb : pyAbs (pyAbs (m - 1)) = pyAbs b) => ih fuel' (pyAbs (m - 1)) b (n - 1) hb (valid_pyAbs v1) (by omega) (by omega)
        have s2 := fun b (hb : pyAbs (m + 1) = pyAbs b) => ih fuel' (m + 1) b (n - 1) hb v2 (by omega) (by omega)
        have s3 := ih fuel' m m' (n - 2) h v3 (by omega) (by omega)
        rcases pyAbs_cases h with e | e
        · subst e
          exact (p1 _ rfl).bind fun x => (p2 _ rfl).bind fun y => (s1 _ rfl).bind fun x => (s2 _ rfl).bind fun y => s3.bind fun z => BothR.ok rfl
        · subst e
          exact (p1 _ (abs_children m).1).bind_swap (p2 _ (abs_children m).2) fun a b =>
            (s1 _ (abs_children m).1).bind_swap (s2 _ (abs_children m).2) fun x y => s3.bind fun z => BothR.ok (by rw [hc y x, hc b a])

theorem factorial_ok {i : Int} (h : 0 ≤ i) : pyFactorial i = .ok (i.toNat.factorial : Int) := by
  unfold pyFactorial; rw [if_neg (by omega)]

theorem radialEqLoop_both (m n : Int) (r : α) (j : ℕ) (k : Int) (value : α) (hk : 0 ≤ k) (hj : k + j ≤ (n - pyAbs m) / 2 + 1) (hn : pyAbs m ≤ n) :
    BothR (radialEqLoop m n r j k value) (radialEqLoop (-m) n r j k value) := by
  induction j generalizing k value with
  | zero => exact BothR.ok rfl
  | succ j ih =>
    unfold radialEqLoop
    have h0 : (n + -m) / 2 = (n - m) / 2 := rfl
    have h1 : (n - -m) / 2 = (n + m) / 2 := by rw [sub_neg_eq_add]
    simp only [h0, h1]
    have b0 : pyAbs m = m ∨ pyAbs m = -m := by unfold pyAbs; split_ifs <;> simp
    have b1 : 0 ≤ pyAbs m := by unfold pyAbs; split_ifs <;> omega
    push_cast at hj
    rw [factorial_ok (show 0 ≤ n - k by omega), factorial_ok hk, factorial_ok (show 0 ≤ (n + m) / 2 - k by omega), factorial_ok (show 0 ≤ (n - m) / 2 - k by omega)]
    have e : ∀ a b c : Int, a * b * c = a * c * b := fun a b c => by ring
    simp only [bind, Except.bind]
    rw [e (k.toNat.factorial : Int) ((((n + m) / 2 - k).toNat).factorial : Int)]
    exact ih _ _ (by omega) (by omega)

theorem radialDerivEqLoop_both (m n : Int) (r : α) (j : ℕ) (k : Int) (value : α) (hk : 0 ≤ k) (hj : k + j ≤ (n - pyAbs m) / 2 + 1) (hn : pyAbs m ≤ n) :
    BothR (radialDerivEqLoop m n r j k value) (radialDerivEqLoop (-m) n r j k value) := by
  induction j generalizing k value with
  | zero => exact BothR.ok rfl
  | succ j ih =>
    unfold radialDerivEqLoop
    have h0 : (n + -m) / 2 = (n - m) / 2 := rfl
    have h1 : (n - -m) / 2 = (n + m) / 2 := by rw [sub_neg_eq_add]
    simp only [h0, h1]
    have b0 : pyAbs m = m ∨ pyAbs m = -m := by unfold pyAbs; split_ifs <;> simp
    have b1 : 0 ≤ pyAbs m := by unfold pyAbs; split_ifs <;> omega
    push_cast at hj
    by_cases hp : n - 2 * k > 0
    · rw [if_pos hp, if_pos hp]
      rw [factorial_ok (show 0 ≤ n - k by omega), factorial_ok hk, factorial_ok (show 0 ≤ (n + m) / 2 - k by omega), factorial_ok (show 0 ≤ (n - m) / 2 - k by omega)]
      have e : ∀ a b c : Int, a * b * c = a * c * b := fun a b c => by ring
      simp only [bind, Except.bind]
      rw [e (k.toNat.factorial : Int) ((((n + m) / 2 - k).toNat).factorial : Int)]
      exact ih _ _ (by omega) (by omega)
    · rw [if_neg hp, if_neg hp]
      exact ih _ _ (by omega) (by omega)

theorem radialEq_both (m m' n : Int) (r : α) (h : pyAbs m = pyAbs m') (hv : ValidOrders m n) :
    BothR (radialPolynomialEq m n r) (radialPolynomialEq m' n r) := by
  have hn := (valid_iff m n).1 hv
  have hb : pyAbs m ≤ n := by unfold pyAbs; split_ifs <;> omega
  unfold radialPolynomialEq
  rw [← h]
  have t := radialEqLoop_both m n r ((n - pyAbs m) / 2 + 1).toNat 0 0 le_rfl (by omega) hb
  rcases pyAbs_cases h with rfl | rfl
  · obtain ⟨v, e, -⟩ := t
    exact ⟨v, e, e⟩
  · exact t

theorem radialDerivEq_both (m m' n : Int) (r : α) (h : pyAbs m = pyAbs m') (hv : ValidOrders m n) :
    BothR (radialDerivativeEq m n r) (radialDerivativeEq m' n r) := by
  have hn := (valid_iff m n).1 hv
  have hb : pyAbs m ≤ n := by unfold pyAbs; split_ifs <;> omega
  unfold radialDerivativeEq
  rw [← h]
  by_cases h0 : n > 0
  · rw [if_pos h0, if_pos h0]
    have t := radialDerivEqLoop_both m n r ((n - pyAbs m) / 2 + 1).toNat 0 0 le_rfl (by omega) hb
    rcases pyAbs_cases h with rfl | rfl
    · obtain ⟨v, e, -⟩ := t
      exact ⟨v, e, e⟩
    · exact t
  · rw [if_neg h0, if_neg h0]
    exact BothR.ok rfl

theorem radialValue_both (hc : ∀ x y : α, x + y = y + x) (fuel fuel' : Nat) (exact : Bool) (m m' n : Int) (r : α) (h : pyAbs m = pyAbs m')
    (hv : ValidOrders m n) (hf : n.toNat + 1 < fuel) (hf' : n.toNat + 1 < fuel') :
    Both (radialValue fuel exact m n r) (radialValue fuel' exact m' n r) := by
  unfold radialValue
  cases exact with
  | false =>
    simp only [Bool.not_false, if_true]
    by_cases h12 : n ≤ 12
    · rw [if_pos h12, if_pos h12]
      exact (radialPolynomial_both hc fuel fuel' m m' n r h hv (by omega) (by omega)).lift
    · rw [if_neg h12, if_neg h12]
      exact radialPolynomialCoeffs_both hc fuel fuel' m m' n r h hv hf hf'
  | true =>
    simp only [Bool.not_true, Bool.false_eq_true, if_false]
    by_cases h40 : n > maxRadialOrderCoeffs
    · rw [if_pos h40, if_pos h40]; exact Both.pure rfl
    · rw [if_neg h40, if_neg h40]
      exact (radialEq_both m m' n r h hv).lift

theorem radialDrValue_both (hc : ∀ x y : α, x + y = y + x) (fuel fuel' : Nat) (exact : Bool) (m m' n : Int) (r : α) (h : pyAbs m = pyAbs m')
    (hv : ValidOrders m n) (hf : n.toNat + 1 < fuel) (hf' : n.toNat + 1 < fuel') :
    Both (radialDrValue fuel exact m n r) (radialDrValue fuel' exact m' n r) := by
  unfold radialDrValue
  cases exact with
  | false =>
    simp only [Bool.not_false, if_true]
    by_cases h12 : n ≤ 12
    · rw [if_pos h12, if_pos h12]
      exact (radialDerivative_both hc fuel fuel' m m' n r h hv (by omega) (by omega)).lift
    · rw [if_neg h12, if_neg h12]
      exact radialPolynomialCoeffsDr_both hc fuel fuel' m m' n r h hv (by omega) hf hf'
  | true =>
    simp only [Bool.not_true, Bool.false_eq_true, if_false]
    by_cases h40 : n > maxRadialOrderCoeffsDr
    · rw [if_pos h40, if_pos h40]; exact Both.pure rfl
    · rw [if_neg h40, if_neg h40]
      exact (radialDerivEq_both m m' n r h hv).lift

end

end Verif.Proofs
