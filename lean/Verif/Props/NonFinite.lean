import Verif.Proofs.NonFinite
import Verif.Proofs.FloatMethods
import Verif.Proofs.PsfObj
import Verif.Props.PsfObj
import Verif.Props.Radial

/-!
# C62: NaN and infinite arguments
-/

namespace Verif.Props
open Verif.Spec Verif.Model Verif.Proofs

/-- NaN or an infinity. -/
def NotNumber (x : XFloat) : Prop := ∀ a : ℝ, x ≠ .fin a

/-- A number of the interval `[0, 1]`. -/
def UnitNumber (x : XFloat) : Prop := ∃ y : ℝ, x = .fin y ∧ 0 ≤ y ∧ y ≤ 1

/-- The elements of an argument. -/
def XNum.elems : XNum → List XFloat
  | .scalar x => [x]
  | .array _ data => data

theorem checkRadiiX_error_iff (r : XNum) :
    checkRadiiX r = .error .valueError ∨ checkRadiiX r = .ok r := by
  classical
  cases r with
  | scalar x => rw [checkRadiiX_scalar]; split_ifs <;> simp
  | array sh d => rw [checkRadiiX_array]; split_ifs <;> simp

theorem radialX_of_ok {fuel : Nat} {m n : Int} {r : XNum} {exact : Bool} {s : CoefState} (hs : Good s) (hv : ValidOrders m n)
    (hf : n.toNat + 1 < fuel) (h : checkRadiiX r = .ok r) :
    ∃ v, (radialX fuel m n r exact s).1 = .ok v ∧ List.Forall₂ (fun x y => (radialValue fuel exact m n x s).1 = .ok y) (XNum.elems r) (XNum.elems v) := by
  cases r with
  | scalar x =>
    obtain ⟨v, hv'⟩ := radialValue_any fuel exact m n s hs hv hf x
    refine ⟨.scalar v, ?_, .cons hv' .nil⟩
    unfold radialX
    rw [h]
    show ((radialValue fuel exact m n x >>= fun v => pure (XNum.scalar v)) s).1 = _
    rw [(CM.bind_pure_fst _ _ s).1, hv']
    rfl
  | array sh d =>
    obtain ⟨g, hg, hi⟩ := radialValue_elt fuel exact m n s hs hv hf (asFunX d)
    refine ⟨.array sh (List.ofFn g), ?_, ?_⟩
    · unfold radialX
      rw [h]
      show ((radialValue fuel exact m n (asFunX d) >>= fun v => pure (XNum.array sh (List.ofFn v))) s).1 = _
      rw [(CM.bind_pure_fst _ _ s).1, hg]
      rfl
    · rw [List.forall₂_iff_get]
      refine ⟨by simp [XNum.elems], fun i h1 h2 => ?_⟩
      simp only [XNum.elems, List.get_eq_getElem, List.getElem_ofFn]
      exact hi ⟨i, h1⟩

theorem radialDrX_of_ok {fuel : Nat} {m n : Int} {r : XNum} {exact : Bool} {s : CoefState} (hs : Good s) (hv : ValidOrders m n)
    (hf : n.toNat + 1 < fuel) (h : checkRadiiX r = .ok r) :
    ∃ v, (radialDrX fuel m n r exact s).1 = .ok v ∧ List.Forall₂ (fun x y => (radialDrValue fuel exact m n x s).1 = .ok y) (XNum.elems r) (XNum.elems v) := by
  cases r with
  | scalar x =>
    obtain ⟨v, hv'⟩ := radialDrValue_any fuel exact m n s hs hv hf x
    refine ⟨.scalar v, ?_, .cons hv' .nil⟩
    unfold radialDrX
    rw [h]
    show ((radialDrValue fuel exact m n x >>= fun v => pure (XNum.scalar v)) s).1 = _
    rw [(CM.bind_pure_fst _ _ s).1, hv']
    rfl
  | array sh d =>
    obtain ⟨g, hg, hi⟩ := radialDrValue_elt fuel exact m n s hs hv hf (asFunX d)
    refine ⟨.array sh (List.ofFn g), ?_, ?_⟩
    · unfold radialDrX
      rw [h]
      show ((radialDrValue fuel exact m n (asFunX d) >>= fun v => pure (XNum.array sh (List.ofFn v))) s).1 = _
      rw [(CM.bind_pure_fst _ _ s).1, hg]
      rfl
    · rw [List.forall₂_iff_get]
      refine ⟨by simp [XNum.elems], fun i h1 h2 => ?_⟩
      simp only [XNum.elems, List.get_eq_getElem, List.getElem_ofFn]
      exact hi ⟨i, h1⟩

theorem radialX_of_error {fuel : Nat} {m n : Int} {r : XNum} {exact : Bool} {s : CoefState} (h : checkRadiiX r = .error .valueError) :
    (radialX fuel m n r exact s).1 = .error .valueError ∧ (radialDrX fuel m n r exact s).1 = .error .valueError := by
  unfold radialX radialDrX
  rw [h]
  exact ⟨rfl, rfl⟩

theorem checkRadiiX_iff (r : XNum) : checkRadiiX r = .error .valueError ↔
    XNum.elems r = [] ∨ (XFloat.nan ∉ XNum.elems r ∧ ∃ x ∈ XNum.elems r, ¬ UnitNumber x) := by
  classical
  cases r with
  | scalar x =>
    rw [checkRadiiX_scalar]
    split_ifs with h
    · simp only [XNum.elems, true_iff]
      exact Or.inr ⟨by simpa using h.1.symm, x, by simp, h.2⟩
    · simp only [reduceCtorEq, false_iff, XNum.elems]
      rintro (h' | ⟨h', y, hy, h''⟩)
      · simp at h'
      · obtain rfl := List.mem_singleton.1 hy
        exact h ⟨by simpa using Ne.symm (by simpa using h'), h''⟩
  | array sh d =>
    rw [checkRadiiX_array]
    split_ifs with h
    · simp only [XNum.elems, true_iff]; exact h
    · simp only [reduceCtorEq, false_iff, XNum.elems]; exact h

/-- C62. What `radial` and `radial_dr` accept, for every `float` and every array, NaN and infinities included, after every history of calls: `ValueError`
exactly for an empty array and for an argument without NaN with an element outside `[0, 1]`. -/
theorem nonfinite_radii_rejected_iff (h : List Call) (fuel : Nat) (m n : Int) (hv : ValidOrders m n) (hf : n.toNat + 1 < fuel) (r : XNum)
    (exact : Bool) :
    (((radialX fuel m n r exact (afterCalls h)).1 = .error .valueError ↔
      XNum.elems r = [] ∨ (XFloat.nan ∉ XNum.elems r ∧ ∃ x ∈ XNum.elems r, ¬ UnitNumber x)) ∧
     ((radialX fuel m n r exact (afterCalls h)).1 ≠ .error .valueError → ∃ v, (radialX fuel m n r exact (afterCalls h)).1 = .ok v)) ∧
    (((radialDrX fuel m n r exact (afterCalls h)).1 = .error .valueError ↔
      XNum.elems r = [] ∨ (XFloat.nan ∉ XNum.elems r ∧ ∃ x ∈ XNum.elems r, ¬ UnitNumber x)) ∧
     ((radialDrX fuel m n r exact (afterCalls h)).1 ≠ .error .valueError → ∃ v, (radialDrX fuel m n r exact (afterCalls h)).1 = .ok v)) := by
  rw [← checkRadiiX_iff]
  have hs := afterCalls_good h
  rcases checkRadiiX_error_iff r with he | he
  · obtain ⟨h1, h2⟩ := radialX_of_error (fuel := fuel) (m := m) (n := n) (exact := exact) (s := afterCalls h) he
    exact ⟨⟨by simp [h1, he], fun h' => absurd h1 h'⟩, ⟨by simp [h2, he], fun h' => absurd h2 h'⟩⟩
  · obtain ⟨v, h1, -⟩ := radialX_of_ok (exact := exact) hs hv hf he
    obtain ⟨w, h2, -⟩ := radialDrX_of_ok (exact := exact) hs hv hf he
    exact ⟨⟨by simp [h1, he], fun _ => ⟨v, h1⟩⟩, ⟨by simp [h2, he], fun _ => ⟨w, h2⟩⟩⟩

/-- C62. "Radii outside `[0, 1]` are rejected" is false: one NaN in an array disables the check for all other elements, also infinite ones. -/
theorem nan_disables_the_check (h : List Call) (fuel : Nat) (m n : Int) (hv : ValidOrders m n) (hf : n.toNat + 1 < fuel) (exact : Bool)
    (shape : List Nat) (data : List XFloat) (hn : XFloat.nan ∈ data) :
    ∃ v, (radialX fuel m n (.array shape data) exact (afterCalls h)).1 = .ok v := by
  have hne : data ≠ [] := by rintro rfl; simp at hn
  refine (nonfinite_radii_rejected_iff h fuel m n hv hf (.array shape data) exact).1.2 ?_
  rw [Ne, (nonfinite_radii_rejected_iff h fuel m n hv hf (.array shape data) exact).1.1]
  simp [XNum.elems, hn, hne]

/-- The array `[nan, 5, -inf]` is accepted. -/
example : ∃ v, (radialX 20 1 3 (.array [3] [.nan, .fin 5, .inf true]) false (afterCalls [])).1 = .ok v :=
  nan_disables_the_check [] 20 1 3 (by decide) (by decide) false [3] _ (by simp)

/-- C62. `radial` element by element, for accepted arguments: a finite element gives the value of the radial polynomial (also outside `[0, 1]`, see above),
NaN gives NaN for all polynomials but the piston, which gives 1; an infinity that was let through never gives a number (but for the piston). (The exact
equations are replaced by 0 above the order 40.) -/
theorem radial_elementwise (h : List Call) (fuel : Nat) (m n : Int) (hv : ValidOrders m n) (hf : n.toNat + 1 < fuel) (r v : XNum)
    (exact : Bool) (hr : (radialX fuel m n r exact (afterCalls h)).1 = .ok v) (he : exact = true → n ≤ 40) :
    List.Forall₂ (fun x y => (∀ a : ℝ, x = .fin a → y = .fin (Spec.radial m n a)) ∧
      (x = .nan → y = if n = 0 then .fin 1 else .nan) ∧ (∀ b, x = .inf b → 1 ≤ n → NotNumber y)) (XNum.elems r) (XNum.elems v) := by
  have hs := afterCalls_good h
  rcases checkRadiiX_error_iff r with hc | hc
  · rw [(radialX_of_error hc).1] at hr
    cases hr
  · obtain ⟨v', h1, h2⟩ := radialX_of_ok (exact := exact) hs hv hf hc
    rw [hr] at h1
    obtain rfl : v = v' := by injection h1
    refine h2.imp fun x y hxy => ⟨?_, ?_, ?_⟩
    rotate_right
    · rintro b rfl hn
      obtain ⟨w, h3, h4⟩ := radialValue_nf fuel exact m n _ hs hv hf (.inf b) (fun a h => by cases h) hn he
      rw [h3] at hxy
      obtain rfl : w = y := by injection hxy
      exact h4
    · rintro a rfl
      rw [radialValue_fin fuel exact m n _ hs hv hf, if_neg (by rintro ⟨h3, h4⟩; have := he h3; omega)] at hxy
      rw [spec_radial_eq m n a hv]
      injection hxy with hxy
      exact hxy.symm
    · rintro rfl
      by_cases hn : n = 0
      · subst hn
        obtain rfl : m = 0 := by
          have := hv.2.1
          simpa using this
        rw [if_pos rfl]
        have e : (radialValue fuel exact 0 0 XFloat.nan (afterCalls h)).1 = .ok (.fin 1) := by
          unfold radialValue
          cases exact
          · simp only [Bool.not_false, if_true]
            obtain ⟨f, rfl⟩ : ∃ f, fuel = f + 1 := ⟨fuel - 1, by omega⟩
            rfl
          · simp only [Bool.not_true, Bool.false_eq_true, if_false]
            rw [if_neg (by decide)]
            show radialPolynomialEq 0 0 XFloat.nan = _
            have ef : pyFactorial 0 = .ok 1 := by decide
            simp only [radialPolynomialEq, pyAbs, radialEqLoop, ef, bind, Except.bind, sub_zero, Int.zero_ediv, lt_irrefl, if_false, zero_add,
              Int.toNat_one, Int.toNat_zero, pow_zero]
            show Except.ok (XFloat.fin (0 + ((1 : ℤ) : ℝ) * ((((1 : ℤ) : ℚ) / ((1 * 1 * 1 : ℤ) : ℚ) : ℚ) * (1 : ℝ)))) = _
            norm_num
        rw [e] at hxy
        injection hxy with hxy
        exact hxy.symm
      · rw [radialValue_nan fuel exact m n _ hs hv hf (by have := hv.1; omega) he] at hxy
        rw [if_neg hn]
        injection hxy with hxy
        exact hxy.symm

/-- C62. `radial_dr` gives NaN for NaN, and no number for an infinity, if the derivative is not constant, for all orders (the exact equations are replaced by 0 above
the order 38). -/
theorem radial_dr_nonfinite (h : List Call) (fuel : Nat) (m n : Int) (hv : ValidOrders m n) (hf : n.toNat + 1 < fuel) (r v : XNum)
    (exact : Bool) (hr : (radialDrX fuel m n r exact (afterCalls h)).1 = .ok v) (hn : 2 ≤ n) (he : exact = true → n ≤ 38) :
    List.Forall₂ (fun x y => (x = .nan → y = .nan) ∧ ∀ b, x = .inf b → NotNumber y) (XNum.elems r) (XNum.elems v) := by
  have hs := afterCalls_good h
  rcases checkRadiiX_error_iff r with hc | hc
  · rw [(radialX_of_error hc).2] at hr
    cases hr
  · obtain ⟨v', h1, h2⟩ := radialDrX_of_ok (exact := exact) hs hv hf hc
    rw [hr] at h1
    obtain rfl : v = v' := by injection h1
    refine h2.imp fun x y hxy => ⟨?_, ?_⟩
    · rintro rfl
      rw [radialDrValue_nan fuel exact m n _ hs hv hf hn he] at hxy
      injection hxy with hxy
      exact hxy.symm
    · rintro b rfl
      obtain ⟨w, h3, h4⟩ := radialDrValue_nf fuel exact m n _ hs hv hf (.inf b) (fun a h => by cases h) hn he
      rw [h3] at hxy
      obtain rfl : w = y := by injection hxy
      exact h4

/-- The array `[0.5, nan]`. -/
example : ∃ v, (radialDrX 20 1 3 (.array [2] [.fin (1/2), .nan]) false (afterCalls [])).1 = .ok v := by
  refine (nonfinite_radii_rejected_iff [] 20 1 3 (by decide) (by decide) _ false).2.2 ?_
  rw [Ne, (nonfinite_radii_rejected_iff [] 20 1 3 (by decide) (by decide) _ false).2.1]
  simp [XNum.elems]

/-! ## `polynomial_value` and `sum_zernikes` -/

theorem polynomialX_bind {fuel : Nat} {m n : Int} {r t : XFloat} {exact : Bool} {s : CoefState} (hr : r = .nan ∨ UnitNumber r)
    (he : ¬ (exact = true ∧ 40 < n)) {v : XFloat} (hv : (radialValue fuel exact m n r s).1 = .ok v) :
    (polynomialX fuel m n r t exact s).1 = .ok (XFloat.fin (normalizationFactor m n) * triangularX m t * v) ∧
    (polynomialX fuel m n r t exact s).2 = (radialValue fuel exact m n r s).2 := by
  classical
  have hc : checkRadiiX (.scalar r) = .ok (.scalar r) := by
    rw [checkRadiiX_scalar, if_neg]
    rintro ⟨h1, h2⟩
    exact hr.elim h1 h2
  have e : polynomialX fuel m n r t exact s = (radialValue fuel exact m n r >>= fun v =>
      pure (XFloat.fin (normalizationFactor m n) * triangularX m t * v)) s := by
    unfold polynomialX
    rw [hc]
    show (if exact = true ∧ n > maxRadialOrderCoeffs then (pure 0 : CM XFloat) else _) s = _
    rw [if_neg (by simpa [maxRadialOrderCoeffs] using he)]
  rw [e, (CM.bind_pure_fst _ _ s).1, (CM.bind_pure_fst _ _ s).2, hv]
  exact ⟨rfl, rfl⟩

theorem triangularX_fin (m : Int) (t : ℝ) : triangularX m (.fin t) = .fin (angular m t) := by
  rw [← triangularFunction_eq]
  unfold triangularX triangularFunction
  split_ifs <;> rfl

theorem triangularX_nan (m : Int) : triangularX m .nan = .nan := by
  unfold triangularX
  rw [show ((m : XFloat) * XFloat.nan) = .nan from XFloat.mul_nan _]
  split_ifs <;> rfl

theorem triangularX_inf (m : Int) (b : Bool) : triangularX m (.inf b) = .nan := by
  classical
  unfold triangularX
  have h : ((m : XFloat) * XFloat.inf b) = .nan ∨ ∃ b', ((m : XFloat) * XFloat.inf b) = .inf b' := by
    rw [show ((m : XFloat) * XFloat.inf b) = XFloat.fin (m : ℝ) * XFloat.inf b from rfl, XFloat.fin_mul_inf]
    split_ifs
    · exact Or.inl rfl
    · exact Or.inr ⟨_, rfl⟩
    · exact Or.inr ⟨_, rfl⟩
  rcases h with h | ⟨b', h⟩ <;> rw [h] <;> split_ifs <;> rfl

/-- C62. `polynomial_value` of two `float`s: the value of the polynomial for finite arguments; NaN if the angle is NaN or infinite; NaN if the radius is NaN and
the polynomial is not the piston, which gives 1 there. -/
theorem polynomial_nonfinite (h : List Call) (fuel : Nat) (m n : Int) (hv : ValidOrders m n) (hf : n.toNat + 1 < fuel)
    (exact : Bool) (he : exact = true → n ≤ 40) :
    (∀ r t : ℝ, 0 ≤ r → r ≤ 1 → (polynomialX fuel m n (.fin r) (.fin t) exact (afterCalls h)).1 = .ok (.fin (zernike m n r t))) ∧
    (∀ r, r = .nan ∨ UnitNumber r → ∀ t, NotNumber t → (polynomialX fuel m n r t exact (afterCalls h)).1 = .ok .nan) ∧
    (∀ t, 1 ≤ n → (polynomialX fuel m n .nan t exact (afterCalls h)).1 = .ok .nan) := by
  have hs := afterCalls_good h
  have he' : ¬ (exact = true ∧ 40 < n) := by rintro ⟨h1, h2⟩; have := he h1; omega
  refine ⟨fun r t h0 h1 => ?_, fun r hr t ht => ?_, fun t hn => ?_⟩
  · rw [(polynomialX_bind (Or.inr ⟨r, rfl, h0, h1⟩) he' (radialValue_fin fuel exact m n _ hs hv hf r)).1, if_neg he', triangularX_fin,
      ← spec_radial_eq m n r hv, normalizationFactor_eq, XFloat.fin_mul, XFloat.fin_mul]
    unfold zernike
    congr 2
    ring
  · obtain ⟨v, h1⟩ := radialValue_any fuel exact m n _ hs hv hf r
    have e : triangularX m t = .nan := by
      cases t with
      | fin a => exact absurd rfl (ht a)
      | inf b => exact triangularX_inf m b
      | nan => exact triangularX_nan m
    rw [(polynomialX_bind hr he' h1).1, e, XFloat.mul_nan, XFloat.nan_mul]
  · rw [(polynomialX_bind (Or.inl rfl) he' (radialValue_nan fuel exact m n _ hs hv hf hn he)).1, XFloat.mul_nan]

example : (polynomialX 20 (-1) 3 .nan (.fin 1) false (afterCalls [])).1 = .ok .nan :=
  (polynomial_nonfinite [] 20 (-1) 3 (by decide) (by decide) false (by decide)).2.2 _ (by decide)

/-- A coefficient with NaN replaced by 0. -/
def dropNan : XFloat → ℝ
  | .fin a => a
  | _ => 0

theorem sumRestX_ok {fuel : Nat} {r t : ℝ} (h0 : 0 ≤ r) (h1 : r ≤ 1) (l : List (XFloat × PolObj))
    (hl : ∀ p ∈ l, (p.1 = .nan ∨ ∃ a, p.1 = .fin a) ∧ ValidOrders p.2.m p.2.n ∧ p.2.n.toNat + 1 < fuel) (S : XFloat) (s : CoefState) (hs : Good s) :
    (sumRestX fuel (.fin r) (.fin t) l S s).1 =
      .ok (S + .fin (combination (l.map fun p => dropNan p.1) (l.map fun p => (p.2.m, p.2.n)) r t)) := by
  induction l generalizing S s with
  | nil =>
    have : combination [] [] r t = 0 := by simp [combination]
    simp only [List.map_nil, this]
    show Except.ok S = .ok (S + .fin 0)
    cases S with
    | nan => rfl
    | inf b => rfl
    | fin a => rw [XFloat.fin_add, add_zero]
  | cons p l ih =>
    obtain ⟨c, o⟩ := p
    obtain ⟨hc, hv, hf⟩ := hl (c, o) (by simp)
    have hl' := fun q hq => hl q (List.mem_cons_of_mem _ hq)
    have hcomb : combination (((c, o) :: l).map fun p => dropNan p.1) (((c, o) :: l).map fun p => (p.2.m, p.2.n)) r t =
        dropNan c * zernike o.m o.n r t + combination (l.map fun p => dropNan p.1) (l.map fun p => (p.2.m, p.2.n)) r t := by
      simp [combination]
    rw [hcomb]
    unfold sumRestX
    by_cases hlt : (XFloat.fin 0).lt c.abs
    · rw [if_pos hlt]
      obtain ⟨a, rfl⟩ : ∃ a, c = .fin a := by
        rcases hc with rfl | h
        · exact hlt.elim
        · exact h
      have he' : ¬ (false = true ∧ 40 < o.n) := by simp
      have hp := polynomialX_bind (t := .fin t) (Or.inr ⟨r, rfl, h0, h1⟩) he' (radialValue_fin fuel false o.m o.n s hs hv hf r)
      have hg : Good (radialValue fuel false o.m o.n (XFloat.fin r) s).2 := by
        have e := (radialValue_rel finRel (r := .fin r) (r' := r) rfl fuel false o.m o.n s).2
        rw [e]
        exact radialValue_good fuel false o.m o.n r s hs
      rcases hq : polynomialX fuel o.m o.n (.fin r) (.fin t) false s with ⟨q1, q2⟩
      rw [hq] at hp
      obtain ⟨rfl, rfl⟩ := hp
      rw [bind_ok hq, ih hl' _ _ hg, if_neg he', triangularX_fin, ← spec_radial_eq o.m o.n r hv, normalizationFactor_eq]
      simp only [XFloat.fin_mul]
      have ez : Spec.norm o.m o.n * angular o.m t * Spec.radial o.m o.n r = zernike o.m o.n r t := by unfold zernike; ring
      rw [ez]
      show Except.ok _ = Except.ok _
      congr 1
      simp only [dropNan]
      cases S with
      | nan => rfl
      | inf b => rfl
      | fin x => simp only [XFloat.fin_add]; congr 1; ring
    · rw [if_neg hlt, ih hl' S s hs]
      have : dropNan c = 0 := by
        rcases hc with rfl | ⟨a, rfl⟩
        · rfl
        · simp only [XFloat.abs, XFloat.lt, abs_pos, not_not] at hlt
          exact hlt
      rw [this, zero_mul, zero_add]

open Classical in
/-- C62. "A NaN coefficient makes the sum NaN" is false: `sum_zernikes` skips a NaN coefficient silently, as if it were 0, unless it is the first one; the
first one gives NaN. (Two `float`s `r`, `theta`, every list of polynomials and of finite or NaN coefficients.) -/
theorem sum_nan_coefficients (h : List Call) (fuel : Nat) (c : XFloat) (o : PolObj) (l : List (XFloat × PolObj)) (r t : ℝ) (h0 : 0 ≤ r) (h1 : r ≤ 1)
    (hl : ∀ p ∈ (c, o) :: l, (p.1 = .nan ∨ ∃ a, p.1 = .fin a) ∧ ValidOrders p.2.m p.2.n ∧ p.2.n.toNat + 1 < fuel) :
    (sumZernikesX fuel ((c, o) :: l) (.fin r) (.fin t) (afterCalls h)).1 = .ok (if c = .nan then .nan
      else .fin (combination (((c, o) :: l).map fun p => dropNan p.1) (((c, o) :: l).map fun p => (p.2.m, p.2.n)) r t)) := by
  classical
  have hs := afterCalls_good h
  obtain ⟨hc, hv, hf⟩ := hl (c, o) (by simp)
  have he' : ¬ (false = true ∧ 40 < o.n) := by simp
  have hp := polynomialX_bind (t := .fin t) (Or.inr ⟨r, rfl, h0, h1⟩) he' (radialValue_fin fuel false o.m o.n _ hs hv hf r)
  have hg : Good (radialValue fuel false o.m o.n (XFloat.fin r) (afterCalls h)).2 := by
    have e := (radialValue_rel finRel (r := .fin r) (r' := r) rfl fuel false o.m o.n (afterCalls h)).2
    rw [e]
    exact radialValue_good fuel false o.m o.n r _ hs
  unfold sumZernikesX
  rcases hq : polynomialX fuel o.m o.n (.fin r) (.fin t) false (afterCalls h) with ⟨q1, q2⟩
  rw [hq] at hp
  obtain ⟨rfl, rfl⟩ := hp
  simp only
  rw [bind_ok hq, sumRestX_ok h0 h1 l (fun q hq => hl q (List.mem_cons_of_mem _ hq)) _ _ hg, if_neg he', triangularX_fin, ← spec_radial_eq o.m o.n r hv,
    normalizationFactor_eq]
  have ez : Spec.norm o.m o.n * angular o.m t * Spec.radial o.m o.n r = zernike o.m o.n r t := by unfold zernike; ring
  simp only [XFloat.fin_mul, ez]
  rcases hc with rfl | ⟨a, rfl⟩
  · rw [if_pos rfl, XFloat.nan_mul, XFloat.nan_add]
  · rw [if_neg (by simp), XFloat.fin_mul, XFloat.fin_add]
    simp [combination, dropNan]

theorem polynomialX_step {fuel : Nat} {r t : ℝ} (h0 : 0 ≤ r) (h1 : r ≤ 1) (o : PolObj) (hv : ValidOrders o.m o.n) (hf : o.n.toNat + 1 < fuel)
    (s : CoefState) (hs : Good s) : ∃ v s', polynomialX fuel o.m o.n (.fin r) (.fin t) false s = (.ok v, s') ∧ Good s' := by
  have hp := polynomialX_bind (t := .fin t) (Or.inr ⟨r, rfl, h0, h1⟩) (by simp) (radialValue_fin fuel false o.m o.n s hs hv hf r)
  have hg : Good (radialValue fuel false o.m o.n (XFloat.fin r) s).2 := by
    have e := (radialValue_rel finRel (r := .fin r) (r' := r) rfl fuel false o.m o.n s).2
    rw [e]
    exact radialValue_good fuel false o.m o.n r s hs
  rcases hq : polynomialX fuel o.m o.n (.fin r) (.fin t) false s with ⟨q1, q2⟩
  rw [hq] at hp
  obtain ⟨rfl, rfl⟩ := hp
  exact ⟨_, _, rfl, hg⟩

theorem sumRestX_nf {fuel : Nat} {r t : ℝ} (h0 : 0 ≤ r) (h1 : r ≤ 1) (l : List (XFloat × PolObj))
    (hl : ∀ p ∈ l, ValidOrders p.2.m p.2.n ∧ p.2.n.toNat + 1 < fuel) (S : XFloat) (hS : NotNumber S ∨ ∃ p ∈ l, ∃ b, p.1 = .inf b) (s : CoefState) (hs : Good s) :
    ∃ v, (sumRestX fuel (.fin r) (.fin t) l S s).1 = .ok v ∧ NotNumber v := by
  induction l generalizing S s with
  | nil =>
    rcases hS with hS | ⟨p, hp, -⟩
    · exact ⟨S, rfl, hS⟩
    · simp at hp
  | cons p l ih =>
    obtain ⟨c, o⟩ := p
    obtain ⟨hv, hf⟩ := hl (c, o) (by simp)
    have hl' := fun q hq => hl q (List.mem_cons_of_mem _ hq)
    unfold sumRestX
    by_cases hlt : (XFloat.fin 0).lt c.abs
    · rw [if_pos hlt]
      obtain ⟨v, s', hq, hg⟩ := polynomialX_step (fuel := fuel) (t := t) h0 h1 o hv hf s hs
      rw [bind_ok hq]
      refine ih hl' _ ?_ s' hg
      rcases hS with hS | ⟨p, hp, b, hb⟩
      · exact Or.inl (XFloat.nf_add hS _).1
      · rcases List.mem_cons.1 hp with rfl | hp
        · left
          simp only at hb
          subst hb
          exact (XFloat.nf_add (XFloat.nf_mul (x := .inf b) (fun a h => by cases h) _).1 _).2
        · exact Or.inr ⟨p, hp, b, hb⟩
    · rw [if_neg hlt]
      refine ih hl' S ?_ s hs
      rcases hS with hS | ⟨p, hp, b, hb⟩
      · exact Or.inl hS
      · rcases List.mem_cons.1 hp with rfl | hp
        · simp only at hb
          subst hb
          exact absurd (show (XFloat.fin 0).lt (XFloat.inf b).abs from rfl) hlt
        · exact Or.inr ⟨p, hp, b, hb⟩

/-- C62. An infinite coefficient, at any place and together with any others (also NaN), never gives a number. -/
theorem sum_infinite_coefficient (h : List Call) (fuel : Nat) (l : List (XFloat × PolObj)) (r t : ℝ) (h0 : 0 ≤ r) (h1 : r ≤ 1)
    (hl : ∀ p ∈ l, ValidOrders p.2.m p.2.n ∧ p.2.n.toNat + 1 < fuel) (hi : ∃ p ∈ l, ∃ b, p.1 = .inf b) :
    ∃ v, (sumZernikesX fuel l (.fin r) (.fin t) (afterCalls h)).1 = .ok v ∧ NotNumber v := by
  cases l with
  | nil => simp at hi
  | cons p l =>
    obtain ⟨c, o⟩ := p
    obtain ⟨hv, hf⟩ := hl (c, o) (by simp)
    have hl' := fun q hq => hl q (List.mem_cons_of_mem _ hq)
    obtain ⟨v, s', hq, hg⟩ := polynomialX_step (fuel := fuel) (t := t) h0 h1 o hv hf _ (afterCalls_good h)
    unfold sumZernikesX
    simp only
    rw [bind_ok hq]
    refine sumRestX_nf h0 h1 l hl' _ ?_ s' hg
    obtain ⟨p, hp, b, hb⟩ := hi
    rcases List.mem_cons.1 hp with rfl | hp
    · left
      simp only at hb
      subst hb
      exact (XFloat.nf_mul (x := .inf b) (fun a h => by cases h) _).1
    · exact Or.inr ⟨p, hp, b, hb⟩

example : ∃ v, (sumZernikesX 20 [(.nan, ⟨0, 0, false⟩), (.inf true, ⟨0, 2, false⟩)] (.fin (1 / 2)) (.fin 0) (afterCalls [])).1 = .ok v ∧ NotNumber v := by
  refine sum_infinite_coefficient [] 20 _ _ _ (by norm_num) (by norm_num) ?_ ⟨(.inf true, ⟨0, 2, false⟩), by simp, true, rfl⟩
  intro p hp
  simp only [List.mem_cons, List.not_mem_nil, or_false] at hp
  rcases hp with rfl | rfl <;> decide

/-- `sum_zernikes([1.0, nan], [piston, defocus], 0.5, 0.0)` is the piston alone. -/
example : (sumZernikesX 20 [(.fin 1, ⟨0, 0, false⟩), (.nan, ⟨0, 2, false⟩)] (.fin (1 / 2)) (.fin 0) (afterCalls [])).1 =
    .ok (.fin (zernike 0 0 (1 / 2) 0)) := by
  rw [sum_nan_coefficients [] 20 _ _ _ _ _ (by norm_num) (by norm_num) (by
    intro p hp
    simp only [List.mem_cons, List.not_mem_nil, or_false] at hp
    rcases hp with rfl | rfl
    · exact ⟨Or.inr ⟨1, rfl⟩, by decide, by decide⟩
    · exact ⟨Or.inl rfl, by decide, by decide⟩), if_neg (by simp)]
  simp [combination, dropNan]

/-! ## `set_physical_props` -/

theorem sizeMultX_pos (m n : Int) (hv : ValidOrders m n) (NA : XFloat) (hNA : (∃ A, NA = .fin A ∧ 0 < A) ∨ NA = .nan) :
    (∃ M, sizeMultX m n NA = .fin M ∧ 0 < M ∧ ¬ (NA = .nan ∧ n = 0)) ∨ (sizeMultX m n NA = .nan ∧ NA = .nan ∧ n = 0) := by
  classical
  have hn := hv.1
  have hm := hv.2.1
  unfold sizeMultX
  by_cases h0 : m = 0 ∧ n = 0
  · simp only [if_pos h0]
    rcases hNA with ⟨A, rfl, hA⟩ | rfl
    · left
      by_cases h : (XFloat.fin 0.25).lt (.fin A) ∧ (XFloat.fin A).lt (.fin 1)
      · rw [if_pos h]
        refine ⟨5 * (1 - A) + 1.5, by rw [XFloat.fin_sub]; rfl, ?_, by simp⟩
        have := h.2
        simp only [XFloat.lt] at this
        norm_num
        linarith
      · rw [if_neg h]
        refine ⟨4.5 + 2.5 * Real.sqrt (1 / A), rfl, by positivity, by simp⟩
    · right
      rw [if_neg (by simp [XFloat.lt])]
      exact ⟨rfl, rfl, h0.2⟩
  · simp only [if_neg h0]
    left
    have hpos : 0 < n := by
      rcases lt_or_eq_of_le hn with h | h
      · exact h
      · exfalso
        apply h0
        rw [← h] at hm
        exact ⟨by simpa using hm, h.symm⟩
    have hs : 0 < Real.sqrt n := Real.sqrt_pos.2 (by exact_mod_cast hpos)
    have hs' := Real.sqrt_nonneg ((n - |m| : ℤ) : ℝ)
    have hnn : ¬ (NA = .nan ∧ n = 0) := by rintro ⟨-, h⟩; omega
    split_ifs
    · exact ⟨_, rfl, by positivity, hnn⟩
    · exact ⟨_, rfl, by positivity, hnn⟩
    · exact ⟨_, rfl, by positivity, hnn⟩

theorem getKernelSizeX_iff (m n : Int) (px alpha wl NA : XFloat) :
    (∃ size, getKernelSizeX m n px alpha wl NA = .ok size) ↔ ∃ x, (amplMultX (sizeMultX m n NA) alpha * wl).div px = .fin x := by
  unfold getKernelSizeX
  simp only []
  cases h : (amplMultX (sizeMultX m n NA) alpha * wl).div px with
  | fin x => simp [xRound, bind, Except.bind, pure, Except.pure]
  | inf b => simp [xRound, bind, Except.bind]
  | nan => simp [xRound, bind, Except.bind]

theorem amplMultX_fin (M a : ℝ) (hM : 0 < M) : ∃ M', amplMultX (.fin M) (.fin a) = .fin M' ∧ 0 < M' := by
  unfold amplMultX
  change ∃ M', (@ite _ ((0.5 : ℝ) ≤ |a|) (Classical.propDecidable _) (XFloat.fin M * (XFloat.fin 2.5 * XFloat.fin |a|).sqrt)
    (@ite _ ((0.25 : ℝ) ≤ |a|) (Classical.propDecidable _) (XFloat.fin M * (XFloat.fin 4.25 * XFloat.fin |a|).sqrt) (XFloat.fin M))) = XFloat.fin M' ∧ 0 < M'
  by_cases h1 : (0.5 : ℝ) ≤ |a|
  · rw [if_pos h1]
    have : 0 < |a| := lt_of_lt_of_le (by norm_num) h1
    exact ⟨M * Real.sqrt (2.5 * |a|), rfl, by positivity⟩
  · rw [if_neg h1]
    by_cases h2 : (0.25 : ℝ) ≤ |a|
    · rw [if_pos h2]
      have : 0 < |a| := lt_of_lt_of_le (by norm_num) h2
      exact ⟨M * Real.sqrt (4.25 * |a|), rfl, by positivity⟩
    · rw [if_neg h2]
      exact ⟨M, rfl, hM⟩

theorem amplMultX_nan (x : XFloat) : amplMultX x .nan = x := by
  unfold amplMultX
  rw [if_neg (by simp [XFloat.abs, XFloat.le]), if_neg (by simp [XFloat.abs, XFloat.le])]

theorem amplMultX_inf (x : XFloat) (b : Bool) (hx : x = .nan ∨ ∃ M, x = .fin M ∧ 0 < M) :
    amplMultX x (.inf b) = .nan ∨ amplMultX x (.inf b) = .inf false := by
  unfold amplMultX
  rw [if_pos (by simp [XFloat.abs, XFloat.le])]
  have e : (XFloat.fin 2.5 * XFloat.abs (.inf b)).sqrt = .inf false := by
    show (XFloat.fin 2.5 * XFloat.inf false).sqrt = _
    rw [XFloat.pos_mul_inf _ (by norm_num)]
    rfl
  rw [e]
  rcases hx with rfl | ⟨M, rfl, hM⟩
  · left; rfl
  · right
    exact XFloat.pos_mul_inf M hM

/-- What `set_physical_props` accepts. -/
def AcceptedNonFinite (n : Int) (NA wavelength coeff px : XFloat) : Prop :=
  (coeff = .nan ∨ ∃ a, coeff = .fin a) ∧
  ((∃ A w p, NA = .fin A ∧ wavelength = .fin w ∧ px = .fin p ∧ PhysicalOk A w p) ∨
   (NA = .nan ∧ n ≠ 0 ∧ (∃ w, wavelength = .fin w ∧ 0 < w) ∧ ((∃ p, px = .fin p ∧ 0 < p) ∨ px = .inf false)))

set_option maxHeartbeats 1000000 in
/-- C62. What `set_physical_props` accepts when NaN and infinities are allowed (one polynomial, a `float` coefficient): besides the values of C30 also
a NaN coefficient, and NaN as NA for every polynomial but the piston, then with any positive pixel size, also infinity. -/
theorem physical_props_nonfinite_iff (m n : Int) (hv : ValidOrders m n) (NA wl c px : XFloat) :
    (∃ size, setPhysicalPropsX m n NA wl c px = .ok size) ↔ AcceptedNonFinite n NA wl c px := by
  classical
  unfold setPhysicalPropsX AcceptedNonFinite
  -- the coefficient and the wavelength
  have key : ∀ (w : ℝ), 0 < w → ∀ NA : XFloat, ((∃ A, NA = .fin A ∧ 0 < A) ∨ NA = .nan) → ∀ px : XFloat,
      ((∃ p, px = .fin p ∧ 0 < p) ∨ px = .inf false ∨ px = .nan) →
      ((∃ size, getKernelSizeX m n px (c.div (.fin w)) (.fin w) NA = .ok size) ↔
        (c = .nan ∨ ∃ a, c = .fin a) ∧ ¬ (NA = .nan ∧ n = 0) ∧ ((∃ p, px = .fin p ∧ 0 < p) ∨ px = .inf false)) := by
    intro w hw NA hNA px hpx
    rw [getKernelSizeX_iff]
    rcases sizeMultX_pos m n hv NA hNA with ⟨M, hM, hM0, hno⟩ | ⟨hM, h1, h2⟩
    · rw [hM]
      have hok : ∀ M' : ℝ, (∃ x, (XFloat.fin M' * XFloat.fin w).div px = .fin x) ↔ ((∃ p, px = .fin p ∧ 0 < p) ∨ px = .inf false) := by
        intro M'
        rcases hpx with ⟨p, rfl, hp⟩ | rfl | rfl
        · exact ⟨fun _ => Or.inl ⟨p, rfl, hp⟩, fun _ => ⟨M' * w / p, rfl⟩⟩
        · exact ⟨fun _ => Or.inr rfl, fun _ => ⟨0, rfl⟩⟩
        · simp [XFloat.fin_mul, XFloat.div]
      cases c with
      | nan =>
        rw [show XFloat.div .nan (.fin w) = .nan from rfl, amplMultX_nan, hok]
        simp [hno]
      | fin a =>
        obtain ⟨M', h1, h2⟩ := amplMultX_fin M (a / w) hM0
        rw [show XFloat.div (.fin a) (.fin w) = .fin (a / w) from rfl, h1, hok]
        simp [hno]
      | inf b =>
        obtain ⟨b', hb'⟩ : ∃ b', XFloat.div (.inf b) (.fin w) = .inf b' := ⟨_, rfl⟩
        rw [hb']
        have hnot : ¬ ∃ x, (amplMultX (.fin M) (.inf b') * XFloat.fin w).div px = .fin x := by
          rcases amplMultX_inf (.fin M) b' (Or.inr ⟨M, rfl, hM0⟩) with e | e
          · rw [e, XFloat.nan_mul]
            rintro ⟨x, hx⟩
            cases px <;> cases hx
          · rw [e]
            rw [XFloat.inf_mul_pos w hw]
            rintro ⟨x, hx⟩
            cases px <;> cases hx
        exact ⟨fun h => absurd h hnot, by simp⟩
    · rw [hM]
      have hnan : amplMultX XFloat.nan (c.div (.fin w)) = .nan := by
        unfold amplMultX
        simp only [XFloat.nan_mul, ite_self]
      rw [hnan, XFloat.nan_mul]
      constructor
      · rintro ⟨x, hx⟩
        cases px <;> cases hx
      · rintro ⟨-, h3, -⟩
        exact absurd ⟨h1, h2⟩ h3
  -- no other wavelength
  have key2 : ∀ wl : XFloat, (wl = .nan ∨ wl = .inf false) → ∀ NA : XFloat, ((∃ A, NA = .fin A ∧ 0 < A) ∨ NA = .nan) → ∀ px : XFloat,
      ((∃ p, px = .fin p ∧ 0 < p) ∨ px = .inf false ∨ px = .nan) → ¬ ∃ size, getKernelSizeX m n px (c.div wl) wl NA = .ok size := by
    intro wl hwl NA hNA px hpx
    rw [getKernelSizeX_iff]
    have hne : ∀ y : XFloat, (y = .nan ∨ ∃ b, y = .inf b) → ¬ ∃ x, y.div px = .fin x := by
      rintro y (rfl | ⟨b, rfl⟩) ⟨x, hx⟩
      · cases px <;> cases hx
      · cases px <;> cases hx
    apply hne
    rcases hwl with rfl | rfl
    · left; exact XFloat.mul_nan _
    · generalize amplMultX (sizeMultX m n NA) (c.div (.inf false)) = y
      cases y with
      | nan => left; rfl
      | inf b => right; exact ⟨_, rfl⟩
      | fin x =>
        rw [XFloat.fin_mul_inf]
        split_ifs
        · left; rfl
        · right; exact ⟨_, rfl⟩
        · right; exact ⟨_, rfl⟩
  -- the checks
  by_cases c1 : NA.lt (.fin 0) ∨ (XFloat.fin 1.7).lt NA
  · rw [if_pos c1]
    refine ⟨fun ⟨_, h⟩ => (by cases h), ?_⟩
    rintro ⟨-, ⟨A, w, p, rfl, -, -, h⟩ | ⟨rfl, -⟩⟩
    · exfalso
      rcases c1 with h' | h' <;> simp only [XFloat.lt] at h'
      · exact absurd h.1 (not_lt.2 h'.le)
      · exact absurd h.2.1 (not_le.2 h')
    · simp [XFloat.lt] at c1
  rw [if_neg c1]
  have hNA : (∃ A, NA = .fin A ∧ 0 ≤ A ∧ A ≤ 1.7) ∨ NA = .nan := by
    cases NA with
    | nan => right; rfl
    | inf b => exfalso; apply c1; cases b <;> simp [XFloat.lt]
    | fin A =>
      left
      simp only [XFloat.lt, not_or, not_lt] at c1
      exact ⟨A, rfl, c1⟩
  by_cases c2 : wl.le (.fin 0)
  · rw [if_pos c2]
    refine ⟨fun ⟨_, h⟩ => (by cases h), ?_⟩
    rintro ⟨-, ⟨A, w, p, -, rfl, -, h⟩ | ⟨-, -, ⟨w, rfl, h⟩, -⟩⟩
    · exact absurd h.2.2.1 (not_lt.2 c2)
    · exact absurd h (not_lt.2 c2)
  rw [if_neg c2]
  have hwl : (∃ w, wl = .fin w ∧ 0 < w) ∨ (wl = .nan ∨ wl = .inf false) := by
    cases wl with
    | nan => right; left; rfl
    | inf b =>
      cases b
      · right; right; rfl
      · exact absurd (by simp [XFloat.le]) c2
    | fin w => left; exact ⟨w, rfl, not_le.1 c2⟩
  by_cases c3 : NA = .fin 0
  · rw [if_pos c3]
    refine ⟨fun ⟨_, h⟩ => (by cases h), ?_⟩
    subst c3
    rintro ⟨-, ⟨A, w, p, h', -, -, h⟩ | ⟨h, -⟩⟩
    · injection h' with h'
      exact absurd h.1 (by rw [← h']; exact lt_irrefl 0)
    · cases h
  rw [if_neg c3]
  have hNA' : (∃ A, NA = .fin A ∧ 0 < A) ∨ NA = .nan := by
    rcases hNA with ⟨A, rfl, h1, -⟩ | h
    · left
      exact ⟨A, rfl, lt_of_le_of_ne h1 fun h => c3 (by rw [← h])⟩
    · right; exact h
  by_cases c4 : px.le (.fin 0)
  · rw [if_pos c4]
    refine ⟨fun ⟨_, h⟩ => (by cases h), ?_⟩
    rintro ⟨-, ⟨A, w, p, -, -, rfl, h⟩ | ⟨-, -, -, ⟨p, rfl, h⟩ | rfl⟩⟩
    · exact absurd h.2.2.2.1 (not_lt.2 c4)
    · exact absurd h (not_lt.2 c4)
    · simp [XFloat.le] at c4
  rw [if_neg c4]
  have hpx : (∃ p, px = .fin p ∧ 0 < p) ∨ px = .inf false ∨ px = .nan := by
    cases px with
    | nan => right; right; rfl
    | inf b =>
      cases b
      · right; left; rfl
      · exact absurd (by simp [XFloat.le]) c4
    | fin p => left; exact ⟨p, rfl, not_le.1 c4⟩
  by_cases c5 : ((XFloat.fin (0.5 * 0.5) * wl).div NA).lt px
  · rw [if_pos c5]
    refine ⟨fun ⟨_, h⟩ => (by cases h), ?_⟩
    rintro ⟨-, ⟨A, w, p, rfl, rfl, rfl, h⟩ | ⟨rfl, -⟩⟩
    · exfalso
      have h5 : 0.5 * 0.5 * w / A < p := c5
      have h6 := h.2.2.2.2
      have hA := h.1
      rw [le_div_iff₀ (by positivity)] at h6
      rw [div_lt_iff₀ hA] at h5
      norm_num at h5
      linarith
    · exfalso
      generalize XFloat.fin (0.5 * 0.5) * wl = y at c5
      cases y <;> exact c5
  rw [if_neg c5]
  rcases hwl with ⟨w, rfl, hw⟩ | hwl
  · rw [key w hw NA hNA' px hpx]
    constructor
    · rintro ⟨h1, h2, h3⟩
      refine ⟨h1, ?_⟩
      rcases hNA' with ⟨A, rfl, hA⟩ | rfl
      · left
        rcases h3 with ⟨p, rfl, hp⟩ | rfl
        · refine ⟨A, w, p, rfl, rfl, rfl, hA, ?_, hw, hp, ?_⟩
          · rcases hNA with ⟨A', h, h'⟩ | h
            · injection h with h
              rw [h]; exact h'.2
            · cases h
          · have h5 : ¬ (0.5 * 0.5 * w / A < p) := c5
            rw [div_lt_iff₀ hA] at h5
            rw [le_div_iff₀ (by positivity)]
            norm_num at h5
            linarith
        · exact absurd rfl c5
      · right
        exact ⟨rfl, fun h => h2 ⟨rfl, h⟩, ⟨w, rfl, hw⟩, h3⟩
    · rintro ⟨h1, ⟨A, w', p, rfl, -, rfl, h⟩ | ⟨rfl, h2, -, h3⟩⟩
      · exact ⟨h1, by simp, Or.inl ⟨p, rfl, h.2.2.2.1⟩⟩
      · exact ⟨h1, fun h => h2 h.2, h3⟩
  · refine ⟨fun h => absurd h (key2 wl hwl NA hNA' px hpx), ?_⟩
    rintro ⟨-, ⟨A, w, p, -, rfl, -⟩ | ⟨-, -, ⟨w, rfl, -⟩, -⟩⟩
    · rcases hwl with h | h <;> cases h
    · rcases hwl with h | h <;> cases h

/-- Nonsense that is accepted: NaN as NA and as coefficient, an infinite pixel. -/
example : ∃ size, setPhysicalPropsX (-1) 3 .nan (.fin 0.5) .nan (.inf false) = .ok size :=
  (physical_props_nonfinite_iff (-1) 3 (by decide) _ _ _ _).2
    ⟨Or.inl rfl, Or.inr ⟨rfl, by decide, ⟨0.5, rfl, by norm_num⟩, Or.inr rfl⟩⟩

theorem sizeMultX_fin (m n : Int) (hv : ValidOrders m n) (NA : ℝ) (hNA : 0 < NA) :
    ∃ a, sizeMultiplier m n NA = .ok (a, sizeExtX m n) ∧ sizeMultX m n (.fin NA) = .fin a := by
  classical
  have hn := hv.1
  have hm := hv.2.1
  unfold sizeMultiplier sizeMultX sizeExtX
  by_cases h0 : m = 0 ∧ n = 0
  · simp only [if_pos h0]
    by_cases h : (0.25 : ℝ) < NA ∧ NA < 1
    · rw [if_pos h, if_pos (show (XFloat.fin 0.25).lt (.fin NA) ∧ (XFloat.fin NA).lt (.fin 1) from h)]
      exact ⟨_, rfl, by rw [XFloat.fin_sub]; rfl⟩
    · rw [if_neg h, if_neg (show ¬ ((XFloat.fin 0.25).lt (.fin NA) ∧ (XFloat.fin NA).lt (.fin 1)) from h), if_neg hNA.ne', if_neg (not_lt.2 hNA.le)]
      exact ⟨_, rfl, rfl⟩
  · simp only [if_neg h0]
    rw [if_neg (by omega), if_neg (by omega)]
    split_ifs <;> exact ⟨_, rfl, rfl⟩

theorem getKernelSizeX_fin (m n : Int) (hv : ValidOrders m n) (px alpha wl NA : ℝ) (hNA : 0 < NA) :
    getKernelSizeX m n (.fin px) (.fin alpha) (.fin wl) (.fin NA) = getKernelSize m n px alpha wl NA := by
  classical
  obtain ⟨a, h1, h2⟩ := sizeMultX_fin m n hv NA hNA
  unfold getKernelSizeX getKernelSize
  rw [h1, h2]
  have e5 : (XFloat.fin 0.5).le (XFloat.fin alpha).abs ↔ |alpha| ≥ 0.5 := Iff.rfl
  have e25 : (XFloat.fin 0.25).le (XFloat.fin alpha).abs ↔ |alpha| ≥ 0.25 := Iff.rfl
  have em : amplMultX (.fin a) (.fin alpha) = .fin (if |alpha| ≥ 0.5 then a * Real.sqrt (2.5 * |alpha|)
    else if |alpha| ≥ 0.25 then a * Real.sqrt (4.25 * |alpha|) else a) := by
    unfold amplMultX
    simp only [e5, e25]
    split_ifs <;> rfl
  simp only [em, e5, e25]
  rfl

/-- C62. On finite arguments the model with NaN and infinities is the model of Verif.Model.PsfObj: for an object with one polynomial, both accept the same
arguments with the same kernel size, and raise the same exception for the others. -/
theorem physical_props_agree (o : PsfObj) (z : ZernPol) (hz : o.zernpol = some z) (hv : ValidOrders z.m z.n) (NA wl c px : ℝ) :
    match setPhysicalPropsX z.m z.n (.fin NA) (.fin wl) (.fin c) (.fin px) with
    | .ok size => (o.setPhysicalProps NA wl (.num c) px).1 = .ok () ∧ (o.setPhysicalProps NA wl (.num c) px).2.kernelSize = size
    | .error e => (o.setPhysicalProps NA wl (.num c) px).1 = .error e := by
  classical
  unfold setPhysicalPropsX PsfObj.setPhysicalProps
  simp only []
  by_cases c1 : NA < 0 ∨ NA > 1.7
  · rw [if_pos (show (XFloat.fin NA).lt (.fin 0) ∨ (XFloat.fin 1.7).lt (.fin NA) from c1), if_pos c1]
  rw [if_neg (show ¬ ((XFloat.fin NA).lt (.fin 0) ∨ (XFloat.fin 1.7).lt (.fin NA)) from c1), if_neg c1]
  by_cases c2 : wl ≤ 0
  · rw [if_pos (show (XFloat.fin wl).le (.fin 0) from c2), if_pos c2]
  rw [if_neg (show ¬ (XFloat.fin wl).le (.fin 0) from c2), if_neg c2]
  by_cases c3 : NA = 0
  · rw [if_pos (show XFloat.fin NA = .fin 0 by rw [c3]), if_pos c3]
  rw [if_neg (show ¬ XFloat.fin NA = .fin 0 from fun h => c3 (by injection h)), if_neg c3]
  by_cases c4 : px ≤ 0
  · rw [if_pos (show (XFloat.fin px).le (.fin 0) from c4), if_pos c4]
  rw [if_neg (show ¬ (XFloat.fin px).le (.fin 0) from c4), if_neg c4]
  by_cases c5 : px > 0.5 * 0.5 * wl / NA
  · rw [if_pos (show ((XFloat.fin (0.5 * 0.5) * XFloat.fin wl).div (.fin NA)).lt (.fin px) from c5), if_pos c5]
  rw [if_neg (show ¬ ((XFloat.fin (0.5 * 0.5) * XFloat.fin wl).div (.fin NA)).lt (.fin px) from c5), if_neg c5]
  have hNA : 0 < NA := lt_of_le_of_ne (not_lt.1 fun h => c1 (Or.inl h)) (Ne.symm c3)
  have hsize : getKernelSizeX z.m z.n (.fin px) (XFloat.div (.fin c) (.fin wl)) (.fin wl) (.fin NA) =
      getKernelSize z.m z.n px (c / wl) wl NA := getKernelSizeX_fin z.m z.n hv px (c / wl) wl NA hNA
  rw [hsize]
  unfold PsfObj.storeCoeff PsfObj.storeOne PsfObj.estimateSize
  simp only [hz, reduceCtorEq, false_and, if_false]
  cases getKernelSize z.m z.n px (c / wl) wl NA <;> simp

end Verif.Props
