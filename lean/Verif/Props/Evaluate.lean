import Verif.Props.Radial

/-!
# C22, C40: argument checks, elementwise evaluation, warnings
-/

namespace Verif.Props
open Verif.Model Verif.Spec Verif.Proofs

/-- Radii the documentation allows: a number in `[0, 1]`, or a non-empty array, list or tuple of such numbers. -/
def RadiiOk : Arg → Prop
  | .num x => 0 ≤ x ∧ x ≤ 1
  | .arr _ d => d ≠ [] ∧ ∀ x ∈ d, 0 ≤ x ∧ x ≤ 1
  | .seq _ d => d ≠ [] ∧ ∀ x ∈ d, 0 ≤ x ∧ x ≤ 1
  | _ => False

/-- Angles the documentation allows: a number, or a non-empty array, list or tuple of numbers. -/
def AnglesOk : Arg → Prop
  | .num _ => True
  | .arr _ d => d ≠ []
  | .seq _ d => d ≠ []
  | _ => False

/-- The shape of an argument, `none` for a number. -/
def shapeOf : Arg → Option (List Nat)
  | .arr sh _ => some sh
  | .seq sh _ => some sh
  | _ => none

/-- Two arrays must have the same shape. -/
def ShapesOk (r t : Arg) : Prop := ∀ sh sh', shapeOf r = some sh → shapeOf t = some sh' → sh = sh'

theorem checkRadii_ok_iff (a : Arg) : (∃ x, checkRadii a = .ok x) ↔ RadiiOk a := by
  have arr : ∀ sh d, (∃ x, checkRadiiArray sh d = .ok x) ↔ (d ≠ [] ∧ ∀ x ∈ d, 0 ≤ x ∧ x ≤ 1) := by
    intro sh d
    rw [checkRadiiArray_eq]
    split_ifs with h
    · exact ⟨fun _ => h, fun _ => ⟨_, rfl⟩⟩
    · exact ⟨fun ⟨x, hx⟩ => (by cases hx), fun h' => absurd h' h⟩
  cases a with
  | num x =>
    show (∃ y, (if x > 1 ∨ x < 0 then Except.error PyErr.valueError else Except.ok (Num.scalar x)) = .ok y) ↔ 0 ≤ x ∧ x ≤ 1
    split_ifs with h
    · constructor
      · rintro ⟨_, h⟩; cases h
      · rintro ⟨h0, h1⟩; rcases h with h | h <;> linarith
    · push Not at h; exact ⟨fun _ => ⟨h.2, h.1⟩, fun _ => ⟨_, rfl⟩⟩
  | arr sh d => exact arr sh d
  | seq sh d => exact arr sh d
  | set => exact ⟨fun ⟨x, hx⟩ => (by cases hx), fun h => h.elim⟩
  | ragged => exact ⟨fun ⟨x, hx⟩ => (by cases hx), fun h => h.elim⟩
  | notFloat e => exact ⟨fun ⟨x, hx⟩ => (by cases hx), fun h => h.elim⟩

theorem checkRadii_error (a : Arg) (h : ¬ RadiiOk a) : ∃ e, checkRadii a = .error e := by
  cases hc : checkRadii a with
  | error e => exact ⟨e, rfl⟩
  | ok x => exact absurd ((checkRadii_ok_iff a).1 ⟨x, hc⟩) h

/-- Which exception: `ValueError` for numbers and for arrays, lists and tuples (also ragged ones). -/
theorem checkRadii_valueError (a : Arg) (h : ¬ RadiiOk a) (hs : a ≠ .set) (hn : ∀ e, a ≠ .notFloat e) :
    checkRadii a = .error .valueError := by
  cases a with
  | num x =>
    show (if x > 1 ∨ x < 0 then Except.error PyErr.valueError else Except.ok (Num.scalar x)) = _
    rw [if_pos]
    by_contra hc
    push Not at hc
    exact h ⟨hc.2, hc.1⟩
  | arr sh d => exact (checkRadiiArray_eq sh d).trans (if_neg h)
  | seq sh d => exact (checkRadiiArray_eq sh d).trans (if_neg h)
  | set => exact absurd rfl hs
  | ragged => rfl
  | notFloat e => exact absurd rfl (hn e)

/-! ## C22 -/

/-- C22. Radii outside `[0, 1]` (or empty, or ragged) are rejected by all three methods with `ValueError`, before anything else happens:
no warning, object and tables unchanged. -/
theorem bad_radii_raise (fuel : Nat) (o : PolObj) (a t : Arg) (exact : Bool) (s : CoefState) (h : ¬ RadiiOk a)
    (hs : a ≠ .set) (hn : ∀ e, a ≠ .notFloat e) :
    Model.radial fuel o a exact s = ⟨.error .valueError, o, [], s⟩ ∧
    Model.radialDr fuel o a exact s = ⟨.error .valueError, o, [], s⟩ ∧
    polynomialValue fuel o a t exact s = ⟨.error .valueError, o, [], s⟩ := by
  have e := checkRadii_valueError a h hs hn
  unfold Model.radial Model.radialDr polynomialValue
  rw [e]
  exact ⟨rfl, rfl, rfl⟩

example : ¬ RadiiOk (.num (-1 / 2)) ∧ ¬ RadiiOk (.arr [3] [0, 1, 5 / 4]) ∧ ¬ RadiiOk (.seq [0] []) := by
  refine ⟨?_, ?_, ?_⟩ <;> norm_num [RadiiOk]

/-- C22, the exact acceptance: the methods of a polynomial with valid orders succeed on exactly the documented radii. -/
theorem radial_succeeds_iff (h : List Call) (fuel : Nat) (o : PolObj) (hv : ValidOrders o.m o.n) (hf : o.n.toNat + 1 < fuel)
    (a : Arg) (exact : Bool) :
    ((∃ v, (Model.radial fuel o a exact (afterCalls h)).res = .ok v) ↔ RadiiOk a) ∧
    ((∃ v, (Model.radialDr fuel o a exact (afterCalls h)).res = .ok v) ↔ RadiiOk a) := by
  by_cases hr : RadiiOk a
  · obtain ⟨x, hx⟩ := (checkRadii_ok_iff a).2 hr
    exact ⟨⟨fun _ => hr, fun _ => ⟨_, radial_ok _ _ _ _ _ (afterCalls_good h) hv hf x hx⟩⟩,
      ⟨fun _ => hr, fun _ => ⟨_, radialDr_ok _ _ _ _ _ (afterCalls_good h) hv hf x hx⟩⟩⟩
  · obtain ⟨e, he⟩ := checkRadii_error a hr
    refine ⟨⟨fun ⟨v, hv'⟩ => ?_, fun h => absurd h hr⟩, ⟨fun ⟨v, hv'⟩ => ?_, fun h => absurd h hr⟩⟩
    · unfold Model.radial at hv'; rw [he] at hv'; cases hv'
    · unfold Model.radialDr at hv'; rw [he] at hv'; cases hv'

/-- C22 is false for a Python `set` (documented as accepted) and for objects that `float()` rejects with another exception, such as
`None`: the error is not a `ValueError`. -/
theorem set_raises_type_error (fuel : Nat) (o : PolObj) (exact : Bool) (s : CoefState) :
    (Model.radial fuel o .set exact s).res = .error .typeError ∧
    (Model.radialDr fuel o .set exact s).res = .error .typeError ∧
    (∀ t, (polynomialValue fuel o .set t exact s).res = .error .typeError) ∧
    (Model.radial fuel o (.notFloat .typeError) exact s).res = .error .typeError := ⟨rfl, rfl, fun _ => rfl, rfl⟩

theorem checkAngles_ok_iff (t : Arg) : (∃ x w, checkAngles t = .ok (x, w)) ↔ AnglesOk t := by
  have arr : ∀ sh d, (∃ x w, checkAnglesArray sh d = .ok (x, w)) ↔ d ≠ [] := by
    intro sh d
    cases d with
    | nil => simp [checkAnglesArray, npMax, Bind.bind, Except.bind]
    | cons x l =>
      obtain ⟨w, h, _⟩ := checkAnglesArray_ok sh (x :: l) (by simp)
      simp only [ne_eq, reduceCtorEq, not_false_eq_true, iff_true]
      exact ⟨_, _, h⟩
  cases t with
  | num x => exact ⟨fun _ => trivial, fun _ => ⟨_, _, rfl⟩⟩
  | arr sh d => exact arr sh d
  | seq sh d => exact arr sh d
  | set => exact ⟨fun ⟨x, w, hx⟩ => (by cases hx), fun h => h.elim⟩
  | ragged => exact ⟨fun ⟨x, w, hx⟩ => (by cases hx), fun h => h.elim⟩
  | notFloat e => exact ⟨fun ⟨x, w, hx⟩ => (by cases hx), fun h => h.elim⟩

theorem checkRadii_shape (a : Arg) (x : Num) (h : checkRadii a = .ok x) (sh : List Nat) (d : List ℝ) (hx : x = .array sh d) :
    shapeOf a = some sh := by
  subst hx
  have arr : ∀ sh' d', checkRadiiArray sh' d' = .ok (.array sh d) → sh' = sh := by
    intro sh' d' h
    rw [checkRadiiArray_eq] at h
    split_ifs at h
    injection h with h; injection h
  cases a with
  | num x =>
    have : (if x > 1 ∨ x < 0 then Except.error PyErr.valueError else Except.ok (Num.scalar x)) = Except.ok (.array sh d) := h
    split_ifs at this
    injection this with this; cases this
  | arr sh' d' => exact congrArg some (arr _ _ h)
  | seq sh' d' => exact congrArg some (arr _ _ h)
  | set => cases h
  | ragged => cases h
  | notFloat e => cases h

theorem checkAngles_shape (a : Arg) (x : Num) (w : List Warn) (h : checkAngles a = .ok (x, w)) (sh : List Nat) (d : List ℝ)
    (hx : x = .array sh d) : shapeOf a = some sh := by
  subst hx
  have arr : ∀ sh' d', checkAnglesArray sh' d' = .ok (.array sh d, w) → sh' = sh := by
    intro sh' d' h
    cases d' with
    | nil => simp [checkAnglesArray, npMax, Bind.bind, Except.bind] at h
    | cons y l =>
      obtain ⟨w', h', _⟩ := checkAnglesArray_ok sh' (y :: l) (by simp)
      rw [h'] at h; cases h; rfl
  cases a with
  | num x => cases h
  | arr sh' d' => exact congrArg some (arr _ _ h)
  | seq sh' d' => exact congrArg some (arr _ _ h)
  | set => cases h
  | ragged => cases h
  | notFloat e => cases h

/-- The shape check of the code is the documented one. -/
theorem mismatch_iff (r t : Arg) (x y : Num) (w : List Warn) (hx : checkRadii r = .ok x) (hy : checkAngles t = .ok (y, w)) :
    shapesDiffer x y = true ↔ ¬ ShapesOk r t := by
  have hr : ∀ sh, shapeOf r = some sh → ∃ d, x = .array sh d := by
    have arr : ∀ sh' d', checkRadiiArray sh' d' = .ok x → ∃ d, x = .array sh' d := by
      intro sh' d' h
      rw [checkRadiiArray_eq] at h
      split_ifs at h
      injection h with h; exact ⟨_, h.symm⟩
    intro sh h
    cases r with
    | num x => cases h
    | arr sh' d' => cases h; exact arr _ d' hx
    | seq sh' d' => cases h; exact arr _ d' hx
    | set => cases h
    | ragged => cases h
    | notFloat e => cases h
  have ht : ∀ sh, shapeOf t = some sh → ∃ d, y = .array sh d := by
    have arr : ∀ sh' d', checkAnglesArray sh' d' = .ok (y, w) → ∃ d, y = .array sh' d := by
      intro sh' d' h
      cases d' with
      | nil => simp [checkAnglesArray, npMax, Bind.bind, Except.bind] at h
      | cons z l =>
        obtain ⟨w', h', _⟩ := checkAnglesArray_ok sh' (z :: l) (by simp)
        rw [h'] at h; cases h; exact ⟨_, rfl⟩
    intro sh h
    cases t with
    | num x => cases h
    | arr sh' d' => cases h; exact arr _ d' hy
    | seq sh' d' => cases h; exact arr _ d' hy
    | set => cases h
    | ragged => cases h
    | notFloat e => cases h
  constructor
  · intro h hs
    cases x with
    | scalar v => simp [shapesDiffer] at h
    | array a b =>
      cases y with
      | scalar v => simp [shapesDiffer] at h
      | array c d =>
        have := hs _ _ (checkRadii_shape r _ hx a b rfl) (checkAngles_shape t _ w hy c d rfl)
        simp [shapesDiffer, this] at h
  · intro hs
    unfold ShapesOk at hs
    push Not at hs
    obtain ⟨sh, sh', h1, h2, hne⟩ := hs
    obtain ⟨d, rfl⟩ := hr _ h1
    obtain ⟨d', rfl⟩ := ht _ h2
    simp [shapesDiffer, hne]

/-- C22. Arrays of radii and angles of different shapes are rejected with `ValueError`. -/
theorem shape_mismatch_raises (fuel : Nat) (o : PolObj) (r t : Arg) (exact : Bool) (s : CoefState) (hr : RadiiOk r)
    (ht : AnglesOk t) (hsh : ¬ ShapesOk r t) : (polynomialValue fuel o r t exact s).res = .error .valueError := by
  obtain ⟨x, hx⟩ := (checkRadii_ok_iff r).2 hr
  obtain ⟨y, w, hy⟩ := (checkAngles_ok_iff t).2 ht
  unfold polynomialValue
  rw [hx, hy]
  dsimp only
  rw [if_pos ((mismatch_iff r t x y w hx hy).2 hsh)]

example : RadiiOk (.arr [2] [0, 1]) ∧ AnglesOk (.arr [3] [0, 1, 7]) ∧ ¬ ShapesOk (.arr [2] [0, 1]) (.arr [3] [0, 1, 7]) := by
  refine ⟨⟨by simp, by norm_num⟩, by simp [AnglesOk], fun h => ?_⟩
  have := h _ _ rfl rfl
  simp at this

/-- C22. On arrays every element of the result is the Zernike polynomial at the corresponding radius and angle (a number is used for all
elements); the shape is that of the arrays. -/
theorem value_elementwise (h : List Call) (fuel : Nat) (o : PolObj) (hv : ValidOrders o.m o.n) (hf : o.n.toNat + 1 < fuel)
    (sh : List Nat) :
    (∀ d t, d ≠ [] → t ≠ [] → (∀ x ∈ d, 0 ≤ x ∧ x ≤ 1) →
      (polynomialValue fuel o (.arr sh d) (.arr sh t) false (afterCalls h)).res =
        .ok (.array sh (List.zipWith (Spec.zernike o.m o.n) d t))) ∧
    (∀ d t, d ≠ [] → (∀ x ∈ d, 0 ≤ x ∧ x ≤ 1) →
      (polynomialValue fuel o (.arr sh d) (.num t) false (afterCalls h)).res =
        .ok (.array sh (d.map fun x => Spec.zernike o.m o.n x t))) ∧
    (∀ x t, t ≠ [] → 0 ≤ x → x ≤ 1 →
      (polynomialValue fuel o (.num x) (.arr sh t) false (afterCalls h)).res =
        .ok (.array sh (t.map fun y => Spec.zernike o.m o.n x y))) := by
  refine ⟨fun d t hd ht hr => ?_, fun d t hd hr => ?_, fun x t ht h0 h1 => ?_⟩
  · obtain ⟨w, hw, _⟩ := checkAnglesArray_ok sh t ht
    rw [polynomialValue_ok fuel o _ (.arr sh t) false _ (afterCalls_good h) hv hf _ _ w (checkRadii_arr sh d hd hr).1 hw
      (by intro a b c e h1 h2; cases h1; cases h2; rfl), if_neg (by simp)]
    simp only [Num.map, Num.mul, Except.ok.injEq, Num.array.injEq, true_and]
    rw [List.zipWith_map, List.zipWith_comm]
    congr 1
    funext x y
    exact value_eq _ _ hv _ _
  · obtain ⟨w, hw, _⟩ := checkAngles_num t
    rw [polynomialValue_ok fuel o _ (.num t) false _ (afterCalls_good h) hv hf _ _ w (checkRadii_arr sh d hd hr).1 hw
      (by intro a b c e h1 h2; cases h2), if_neg (by simp)]
    simp only [Num.map, Num.mul, Except.ok.injEq, Num.array.injEq, true_and, List.map_map]
    exact List.map_congr_left fun x _ => value_eq _ _ hv _ _
  · obtain ⟨w, hw, _⟩ := checkAnglesArray_ok sh t ht
    rw [polynomialValue_ok fuel o _ (.arr sh t) false _ (afterCalls_good h) hv hf _ _ w (checkRadii_num x h0 h1) hw
      (by intro a b c e h1 h2; cases h1), if_neg (by simp)]
    simp only [Num.map, Num.mul, Except.ok.injEq, Num.array.injEq, true_and, List.map_map]
    exact List.map_congr_left fun x _ => value_eq _ _ hv _ _

/-- C22, the exact acceptance of `polynomial_value`. -/
theorem value_succeeds_iff (h : List Call) (fuel : Nat) (o : PolObj) (hv : ValidOrders o.m o.n) (hf : o.n.toNat + 1 < fuel)
    (r t : Arg) (exact : Bool) :
    (∃ v, (polynomialValue fuel o r t exact (afterCalls h)).res = .ok v) ↔ RadiiOk r ∧ AnglesOk t ∧ ShapesOk r t := by
  constructor
  · rintro ⟨v, hv'⟩
    have hr : RadiiOk r := by
      by_contra hr
      obtain ⟨e, he⟩ := checkRadii_error r hr
      unfold polynomialValue at hv'; rw [he] at hv'; cases hv'
    obtain ⟨x, hx⟩ := (checkRadii_ok_iff r).2 hr
    have ht : AnglesOk t := by
      by_contra ht
      unfold polynomialValue at hv'; rw [hx] at hv'
      cases hc : checkAngles t with
      | error e => rw [hc] at hv'; cases hv'
      | ok p => exact ht ((checkAngles_ok_iff t).1 ⟨p.1, p.2, hc⟩)
    refine ⟨hr, ht, ?_⟩
    by_contra hs
    rw [shape_mismatch_raises _ _ _ _ _ _ hr ht hs] at hv'; cases hv'
  · rintro ⟨hr, ht, hs⟩
    obtain ⟨x, hx⟩ := (checkRadii_ok_iff r).2 hr
    obtain ⟨y, w, hy⟩ := (checkAngles_ok_iff t).2 ht
    exact ⟨_, polynomialValue_ok fuel o r t exact _ (afterCalls_good h) hv hf x y w hx hy fun a b c e h1 h2 =>
      hs _ _ (checkRadii_shape r x hx a b h1) (checkAngles_shape t y w hy c e h2)⟩

/-- C22. Whole turns never change the value, although they cause a warning. -/
theorem angle_periodic (h : List Call) (fuel : Nat) (o : PolObj) (hv : ValidOrders o.m o.n) (hf : o.n.toNat + 1 < fuel)
    (x t : ℝ) (k : Int) (h0 : 0 ≤ x) (h1 : x ≤ 1) :
    (polynomialValue fuel o (.num x) (.num (t + k * (2 * Real.pi))) false (afterCalls h)).res =
      (polynomialValue fuel o (.num x) (.num t) false (afterCalls h)).res := by
  rw [value_is_zernike h fuel o hv hf _ _ h0 h1, value_is_zernike h fuel o hv hf _ _ h0 h1]
  have : Spec.angular o.m (t + k * (2 * Real.pi)) = Spec.angular o.m t := by
    unfold Spec.angular
    split_ifs
    · rw [mul_add, ← mul_assoc, show (o.m : ℝ) * (k : ℝ) = ((o.m * k : Int) : ℝ) by push_cast; ring, Real.cos_add_int_mul_two_pi]
    · rw [mul_add, ← mul_assoc, show ((|o.m| : ℤ) : ℝ) * (k : ℝ) = ((|o.m| * k : Int) : ℝ) by push_cast; ring,
        Real.sin_add_int_mul_two_pi]
  unfold Spec.zernike; rw [this]

/-- C22 is false for the exact path above the 40th order: with a number `r` and an array `theta` one gets the number 0. -/
theorem exact_high_order_shape (h : List Call) (fuel : Nat) (o : PolObj) (hv : ValidOrders o.m o.n) (hf : o.n.toNat + 1 < fuel)
    (hn : 40 < o.n) (x : ℝ) (h0 : 0 ≤ x) (h1 : x ≤ 1) (sh : List Nat) (t : List ℝ) (ht : t ≠ []) :
    (polynomialValue fuel o (.num x) (.arr sh t) true (afterCalls h)).res = .ok (.scalar 0) := by
  obtain ⟨w, hw, _⟩ := checkAnglesArray_ok sh t ht
  rw [polynomialValue_ok fuel o _ (.arr sh t) true _ (afterCalls_good h) hv hf _ _ w (checkRadii_num x h0 h1) hw
      (by intro a b c e h1 h2; cases h1), if_pos ⟨rfl, hn⟩]
  rfl

/-! ## C40 -/

/-- A call that asks for a slow calculation: accepted arguments, default path, order above 50 (48 for the derivative). -/
def IsSlow (n : Int) : ObjCall → Prop
  | .radial _ r exact => exact = false ∧ RadiiOk r ∧ 50 < n
  | .radialDr _ r exact => exact = false ∧ RadiiOk r ∧ 48 < n
  | .value _ r t exact => exact = false ∧ RadiiOk r ∧ AnglesOk t ∧ ShapesOk r t ∧ 50 < n

theorem slow_notin_high (l n : Int) (e : Bool) : (highWarn l n e).count .slow = 0 := by
  unfold highWarn; split_ifs <;> simp

theorem slowWarn_count (l n : Int) (hl : 12 ≤ l) (e f : Bool) :
    slowWarn l n e f = if e = false ∧ l < n then (true, if f then [] else [.slow]) else (f, []) := by
  unfold slowWarn
  cases e <;> cases f <;> by_cases h : l < n <;> by_cases h12 : n ≤ 12 <;> simp [h, h12] <;> omega

open Classical in
theorem run_slow (o : PolObj) (s : CoefState) (c : ObjCall) :
    (c.run o s).1.m = o.m ∧ (c.run o s).1.n = o.n ∧
    (c.run o s).1.slowShown = (o.slowShown || decide (IsSlow o.n c)) ∧
    (c.run o s).2.2.count .slow = if o.slowShown = false ∧ IsSlow o.n c then 1 else 0 := by
  cases c with
  | radial fuel r exact =>
    simp only [ObjCall.run, IsSlow]
    by_cases hr : RadiiOk r
    · obtain ⟨x, hx⟩ := (checkRadii_ok_iff r).2 hr
      unfold Model.radial; rw [hx]
      dsimp only
      rw [slowWarn_count 50 o.n (by norm_num)]
      cases exact <;> cases hf : o.slowShown <;> by_cases hn : 50 < o.n <;> simp [hr, hn, slow_notin_high]
    · obtain ⟨e, he⟩ := checkRadii_error r hr
      unfold Model.radial; rw [he]
      simp [hr]
  | radialDr fuel r exact =>
    simp only [ObjCall.run, IsSlow]
    by_cases hr : RadiiOk r
    · obtain ⟨x, hx⟩ := (checkRadii_ok_iff r).2 hr
      unfold Model.radialDr; rw [hx]
      dsimp only
      rw [slowWarn_count 48 o.n (by norm_num)]
      cases exact <;> cases hf : o.slowShown <;> by_cases hn : 48 < o.n <;> simp [hr, hn, slow_notin_high]
    · obtain ⟨e, he⟩ := checkRadii_error r hr
      unfold Model.radialDr; rw [he]
      simp [hr]
  | value fuel r t exact =>
    simp only [ObjCall.run, IsSlow]
    have cnt : ∀ w : List Warn, (∀ y ∈ w, y = .angles) → w.count .slow = 0 := by
      intro w hw
      rw [List.count_eq_zero]
      intro hm; have := hw _ hm; cases this
    by_cases hr : RadiiOk r
    swap
    · obtain ⟨e, he⟩ := checkRadii_error r hr
      unfold polynomialValue; rw [he]
      simp [hr]
    obtain ⟨x, hx⟩ := (checkRadii_ok_iff r).2 hr
    by_cases ht : AnglesOk t
    swap
    · unfold polynomialValue; rw [hx]
      cases hc : checkAngles t with
      | ok p => exact absurd ((checkAngles_ok_iff t).1 ⟨p.1, p.2, hc⟩) ht
      | error e => simp [ht]
    obtain ⟨y, w, hy⟩ := (checkAngles_ok_iff t).2 ht
    have hw := cnt w (checkAngles_warns t y w hy)
    by_cases hs : ShapesOk r t
    swap
    · unfold polynomialValue; rw [hx, hy]
      dsimp only
      rw [if_pos ((mismatch_iff r t x y w hx hy).2 hs)]
      simp [hs, hw]
    · unfold polynomialValue; rw [hx, hy]
      dsimp only
      rw [if_neg, slowWarn_count 50 o.n (by norm_num)]
      · by_cases hc : exact = true ∧ o.n > maxRadialOrderCoeffs
        · rw [if_pos hc]
          simp [hc.1, hw, slow_notin_high]
        · rw [if_neg hc]
          cases exact <;> cases hf : o.slowShown <;> by_cases hn : 50 < o.n <;> simp [hr, ht, hs, hn, hw, slow_notin_high]
      · exact fun h => (mismatch_iff r t x y w hx hy).1 h hs

open Classical in
/-- C40. Over the life of a polynomial object (any sequence of evaluation calls, accepted or rejected) the slow-calculation warning is
emitted once if some accepted call asked for a slow calculation, and never otherwise. -/
theorem slow_warning_once (o : PolObj) (ho : o.slowShown = false) (s : CoefState) (calls : List ObjCall) :
    (objWarnings o s calls).count .slow = if ∃ c ∈ calls, IsSlow o.n c then 1 else 0 := by
  have gen : ∀ (calls : List ObjCall) (o : PolObj) (s : CoefState), (objWarnings o s calls).count .slow =
      if o.slowShown = false ∧ ∃ c ∈ calls, IsSlow o.n c then 1 else 0 := by
    intro calls
    induction calls with
    | nil => intro o s; simp [objWarnings]
    | cons c t ih =>
      intro o s
      obtain ⟨_, h2, h3, h4⟩ := run_slow o s c
      simp only [objWarnings, List.count_append, ih, h2, h3, h4]
      by_cases hs : o.slowShown = false <;> by_cases hc : IsSlow o.n c <;> simp [hs, hc]
  rw [gen]; simp [ho]

example : IsSlow 51 (.radial 56 (.num 1) false) ∧ ¬ IsSlow 50 (.radial 56 (.num 1) false) ∧
    IsSlow 49 (.radialDr 56 (.num 1) false) := by
  refine ⟨?_, ?_, ?_⟩ <;> norm_num [IsSlow, RadiiOk]

end Verif.Props
