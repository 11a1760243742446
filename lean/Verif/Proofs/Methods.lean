import Verif.Model.History
import Verif.Proofs.CoeffsDr
import Verif.Proofs.RadialEq
import Verif.Spec.Zernike
import Mathlib.Analysis.Calculus.Deriv.Polynomial

/-! # The evaluation methods in any state of the coefficient tables -/

namespace Verif.Proofs
open Verif.Model Verif.Spec Polynomial

section
variable {α : Type} [CommRing α] [Algebra ℚ α]

theorem radialValue_good (fuel : Nat) (exact : Bool) (m n : Int) (r : α) (s : CoefState) (hs : Good s) :
    Good (radialValue fuel exact m n r s).2 := by
  unfold radialValue
  split_ifs
  · exact hs
  · exact ((radialPolynomialCoeffs_tr fuel m n r).app s hs).1
  · exact hs
  · exact hs

theorem radialDrValue_good (fuel : Nat) (exact : Bool) (m n : Int) (r : α) (s : CoefState) (hs : Good s) :
    Good (radialDrValue fuel exact m n r s).2 := by
  unfold radialDrValue
  split_ifs
  · exact hs
  · exact ((radialPolynomialCoeffsDr_tr fuel m n r).app s hs).1
  · exact hs
  · exact hs

theorem radialValue_ok (fuel : Nat) (exact : Bool) (m n : Int) (r : α) (s : CoefState) (hs : Good s)
    (hv : ValidOrders m n) (hf : n.toNat + 1 < fuel) :
    (radialValue fuel exact m n r s).1 = .ok (if exact ∧ 40 < n then 0 else RR m n r) := by
  unfold radialValue
  cases exact
  · simp only [Bool.not_false, if_true, Bool.false_eq_true, false_and, if_false]
    split_ifs
    · show radialPolynomial fuel m n r = _
      exact radialPolynomial_correct fuel m n r hv (by omega)
    · obtain ⟨_, h2, h3⟩ := (radialPolynomialCoeffs_tr fuel m n r).app s hs
      obtain ⟨v, hv'⟩ := h3 ⟨hv, hf⟩
      rw [hv', h2 v hv' hv]
  · simp only [Bool.not_true, Bool.false_eq_true, if_false, true_and]
    rw [show maxRadialOrderCoeffs = 40 from rfl]
    split_ifs
    · rfl
    · exact radialPolynomialEq_correct m n r hv

theorem radialDrValue_ok (fuel : Nat) (exact : Bool) (m n : Int) (r : α) (s : CoefState) (hs : Good s)
    (hv : ValidOrders m n) (hf : n.toNat + 1 < fuel) :
    (radialDrValue fuel exact m n r s).1 =
      .ok (if exact then (if 38 < n then 0 else DR m n r) else if n ≤ 12 then DR m n r else drVal fuel m n r) := by
  unfold radialDrValue
  cases exact
  · simp only [Bool.not_false, if_true, Bool.false_eq_true, if_false]
    split_ifs
    · show radialDerivative fuel m n r = _
      exact radialDerivative_correct fuel m n r hv (by omega)
    · obtain ⟨_, h2, h3⟩ := (radialPolynomialCoeffsDr_tr fuel m n r).app s hs
      obtain ⟨v, hv'⟩ := h3 ⟨hv, by omega, hf⟩
      rw [hv', h2 v hv' hv (by omega)]
  · simp only [Bool.not_true, Bool.false_eq_true, if_false, if_true]
    rw [show maxRadialOrderCoeffsDr = 38 from rfl]
    split_ifs
    · rfl
    · exact radialDerivativeEq_correct m n r hv

theorem radialValue_indep (fuel : Nat) (exact : Bool) (m n : Int) (r : α) (s s' : CoefState) (hs : Good s)
    (hs' : Good s') (hf : n.toNat + 1 < fuel) :
    (radialValue fuel exact m n r s).1 = (radialValue fuel exact m n r s').1 := by
  by_cases hv : ValidOrders m n
  · rw [radialValue_ok _ _ _ _ _ _ hs hv hf, radialValue_ok _ _ _ _ _ _ hs' hv hf]
  · unfold radialValue
    split_ifs
    · rfl
    · rw [radialPolynomialCoeffs_invalid _ _ _ _ hv _ hs, radialPolynomialCoeffs_invalid _ _ _ _ hv _ hs']
    · rfl
    · rfl

theorem radialDrValue_indep (fuel : Nat) (exact : Bool) (m n : Int) (r : α) (s s' : CoefState) (hs : Good s)
    (hs' : Good s') (hf : n.toNat + 1 < fuel) :
    (radialDrValue fuel exact m n r s).1 = (radialDrValue fuel exact m n r s').1 := by
  by_cases hv : ValidOrders m n
  · rw [radialDrValue_ok _ _ _ _ _ _ hs hv hf, radialDrValue_ok _ _ _ _ _ _ hs' hv hf]
  · unfold radialDrValue
    split_ifs
    · rfl
    · rw [radialPolynomialCoeffsDr_invalid _ _ _ _ hv _ hs, radialPolynomialCoeffsDr_invalid _ _ _ _ hv _ hs']
    · rfl
    · rfl

end

theorem CM.bind_pure_fst {β γ : Type} (x : CM β) (f : β → γ) (s : CoefState) :
    ((x >>= fun v => pure (f v)) s).1 = (x s).1.map f ∧ ((x >>= fun v => pure (f v)) s).2 = (x s).2 := by
  show ((match x s with | (.ok v, s') => (pure (f v) : CM γ) s' | (.error e, s') => (.error e, s')) : Res γ × CoefState).1 = _ ∧
    ((match x s with | (.ok v, s') => (pure (f v) : CM γ) s' | (.error e, s') => (.error e, s')) : Res γ × CoefState).2 = _
  rcases x s with ⟨_ | _, _⟩ <;> exact ⟨rfl, rfl⟩

/-- The polymorphic functions evaluated by the methods. -/
abbrev PolyFun := (α : Type) → [CommRing α] → [Algebra ℚ α] → α → CM α

theorem evalNum_st (f : PolyFun) (hg : ∀ (α : Type) [CommRing α] [Algebra ℚ α] (r : α) (s : CoefState), Good s → Good (f α r s).2)
    (x : Num) (s : CoefState) (hs : Good s) : Good (evalNum f x s).2 := by
  cases x with
  | scalar x => unfold evalNum; rw [(CM.bind_pure_fst _ _ s).2]; exact hg _ _ _ hs
  | array sh d => unfold evalNum; rw [(CM.bind_pure_fst _ _ s).2]; exact hg _ _ _ hs

theorem evalNum_indep (f : PolyFun) (s s' : CoefState)
    (h : ∀ (α : Type) [CommRing α] [Algebra ℚ α] (r : α), (f α r s).1 = (f α r s').1) (x : Num) :
    (evalNum f x s).1 = (evalNum f x s').1 := by
  cases x with
  | scalar x => unfold evalNum; rw [(CM.bind_pure_fst _ _ s).1, (CM.bind_pure_fst _ _ s').1, h]
  | array sh d => unfold evalNum; rw [(CM.bind_pure_fst _ _ s).1, (CM.bind_pure_fst _ _ s').1, h]

theorem evalNum_ok (f : PolyFun) (s : CoefState) (g : (α : Type) → [CommRing α] → [Algebra ℚ α] → α → α)
    (h : ∀ (α : Type) [CommRing α] [Algebra ℚ α] (r : α), (f α r s).1 = .ok (g α r))
    (hnat : ∀ (N : Nat) (r : Fin N → ℝ) (i : Fin N), g (Fin N → ℝ) r i = g ℝ (r i)) (x : Num) :
    (evalNum f x s).1 = .ok (x.map (g ℝ)) := by
  cases x with
  | scalar x => unfold evalNum; rw [(CM.bind_pure_fst _ _ s).1, h]; rfl
  | array sh d =>
    unfold evalNum; rw [(CM.bind_pure_fst _ _ s).1, h]
    simp only [Except.map, Num.map, Except.ok.injEq, Num.array.injEq, true_and]
    apply List.ext_getElem
    · simp
    · intro i h1 h2
      simp [hnat, asFun]

theorem RR_pi (N : Nat) (m n : Int) (r : Fin N → ℝ) (i : Fin N) : RR m n r i = RR m n (r i) :=
  map_RR (Pi.evalRingHom (fun _ : Fin N => ℝ) i) m n r

section
variable {α : Type} [CommRing α]

theorem map_ev {β : Type} [CommRing β] (f : α →+* β) (r : α) (p : ℤ[X]) : f (ev r p) = ev (f r) p := by
  have : (f.comp (ev r)) = ev (f r) := by
    ext <;> simp [ev]
  exact congrArg (fun g => g p) this

theorem map_DR {β : Type} [CommRing β] (f : α →+* β) (m n : Int) (r : α) : f (DR m n r) = DR m n (f r) := map_ev f r _

theorem map_drVal {β : Type} [CommRing β] (f : α →+* β) (fuel : Nat) (m n : Int) (r : α) :
    f (drVal fuel m n r) = drVal fuel m n (f r) := by
  induction fuel generalizing m n with
  | zero => simp [drVal]
  | succ fuel ih =>
    unfold drVal
    split_ifs <;> simp [map_DR, map_RR, ih, show f 2 = 2 from map_ofNat f 2]
end

theorem DR_pi (N : Nat) (m n : Int) (r : Fin N → ℝ) (i : Fin N) : DR m n r i = DR m n (r i) :=
  map_DR (Pi.evalRingHom (fun _ : Fin N => ℝ) i) m n r

theorem drVal_pi (N fuel : Nat) (m n : Int) (r : Fin N → ℝ) (i : Fin N) : drVal fuel m n r i = drVal fuel m n (r i) :=
  map_drVal (Pi.evalRingHom (fun _ : Fin N => ℝ) i) fuel m n r

/-! ### Methods -/

theorem radial_st (fuel : Nat) (o : PolObj) (r : Arg) (exact : Bool) (s : CoefState) (hs : Good s) :
    Good (Model.radial fuel o r exact s).st := by
  unfold Model.radial
  cases checkRadii r with
  | error e => exact hs
  | ok x => exact evalNum_st _ (fun α _ _ r s hs => radialValue_good _ _ _ _ _ _ hs) _ _ hs

theorem radialDr_st (fuel : Nat) (o : PolObj) (r : Arg) (exact : Bool) (s : CoefState) (hs : Good s) :
    Good (radialDr fuel o r exact s).st := by
  unfold radialDr
  cases checkRadii r with
  | error e => exact hs
  | ok x => exact evalNum_st _ (fun α _ _ r s hs => radialDrValue_good _ _ _ _ _ _ hs) _ _ hs

theorem polynomialValue_st (fuel : Nat) (o : PolObj) (r theta : Arg) (exact : Bool) (s : CoefState) (hs : Good s) :
    Good (polynomialValue fuel o r theta exact s).st := by
  unfold polynomialValue
  cases checkRadii r with
  | error e => exact hs
  | ok x =>
    cases checkAngles theta with
    | error e => exact hs
    | ok t =>
      dsimp only
      split_ifs
      · exact hs
      · exact hs
      · exact evalNum_st _ (fun α _ _ r s hs => radialValue_good _ _ _ _ _ _ hs) _ _ hs

theorem run_good (s : CoefState) (hs : Good s) (c : Call) : Good (c.run s) := by
  cases c with
  | radial fuel o r exact => exact radial_st _ _ _ _ _ hs
  | radialDr fuel o r exact => exact radialDr_st _ _ _ _ _ hs
  | value fuel o r theta exact => exact polynomialValue_st _ _ _ _ _ _ hs
  | coeffs fuel e m n => exact ((findCoeffs_tr fuel e m n).app s hs).1
  | coeffsDr fuel e m n => exact ((findCoeffsDr_tr fuel e m n).app s hs).1

theorem afterCalls_good (h : List Call) : Good (afterCalls h) := by
  unfold afterCalls
  have : ∀ s, Good s → Good (h.foldl Call.run s) := by
    induction h with
    | nil => exact fun s hs => hs
    | cons c t ih => exact fun s hs => ih _ (run_good s hs c)
  exact this _ good_init

theorem radial_ok (fuel : Nat) (o : PolObj) (r : Arg) (exact : Bool) (s : CoefState) (hs : Good s)
    (hv : ValidOrders o.m o.n) (hf : o.n.toNat + 1 < fuel) (x : Num) (hx : checkRadii r = .ok x) :
    (Model.radial fuel o r exact s).res = .ok (x.map fun y => if exact ∧ 40 < o.n then 0 else RR o.m o.n y) := by
  unfold Model.radial
  rw [hx]
  refine evalNum_ok _ s (fun α _ _ y => if exact ∧ 40 < o.n then 0 else RR o.m o.n y)
    (fun α _ _ r => radialValue_ok _ _ _ _ _ _ hs hv hf) (fun N r i => ?_) x
  split_ifs
  · rfl
  · exact RR_pi N _ _ r i

theorem radialDr_ok (fuel : Nat) (o : PolObj) (r : Arg) (exact : Bool) (s : CoefState) (hs : Good s)
    (hv : ValidOrders o.m o.n) (hf : o.n.toNat + 1 < fuel) (x : Num) (hx : checkRadii r = .ok x) :
    (radialDr fuel o r exact s).res = .ok (x.map fun y =>
      if exact then (if 38 < o.n then 0 else DR o.m o.n y) else if o.n ≤ 12 then DR o.m o.n y else drVal fuel o.m o.n y) := by
  unfold radialDr
  rw [hx]
  refine evalNum_ok _ s (fun α _ _ y => if exact then (if 38 < o.n then 0 else DR o.m o.n y) else
      if o.n ≤ 12 then DR o.m o.n y else drVal fuel o.m o.n y)
    (fun α _ _ r => radialDrValue_ok _ _ _ _ _ _ hs hv hf) (fun N r i => ?_) x
  split_ifs
  · rfl
  · exact DR_pi N _ _ r i
  · exact DR_pi N _ _ r i
  · exact drVal_pi N _ _ _ r i

theorem DR_hasDerivAt (m n : Int) (x : ℝ) : HasDerivAt (fun y => RR m n y) (DR m n x) x := by
  have h := ((RP m n).map (Int.castRingHom ℝ)).hasDerivAt x
  have e1 : (fun y : ℝ => RR m n y) = fun y => ((RP m n).map (Int.castRingHom ℝ)).eval y := by
    funext y
    rw [← ev_RP, eval_map]; rfl
  rw [e1]
  unfold DR
  rw [show ev x (derivative (RP m n)) = (((RP m n).map (Int.castRingHom ℝ)).derivative).eval x by
    rw [derivative_map, eval_map]; rfl]
  exact h

/-! ### Accepted radii -/

theorem foldl_min_ge (l : List ℝ) (x c : ℝ) : c ≤ l.foldl min x ↔ c ≤ x ∧ ∀ y ∈ l, c ≤ y := by
  induction l generalizing x with
  | nil => simp
  | cons a t ih => simp [ih, and_assoc]

theorem foldl_max_le (l : List ℝ) (x c : ℝ) : l.foldl max x ≤ c ↔ x ≤ c ∧ ∀ y ∈ l, y ≤ c := by
  induction l generalizing x with
  | nil => simp
  | cons a t ih => simp [ih, and_assoc]

theorem checkRadiiArray_eq (sh : List Nat) (d : List ℝ) :
    checkRadiiArray sh d = if d ≠ [] ∧ ∀ x ∈ d, 0 ≤ x ∧ x ≤ 1 then .ok (.array sh d) else .error .valueError := by
  unfold checkRadiiArray
  cases d with
  | nil => simp [npMin, Bind.bind, Except.bind]
  | cons x t =>
    simp only [npMin, npMax, Bind.bind, Except.bind]
    have h1 := foldl_min_ge t x 0
    have h2 := foldl_max_le t x 1
    by_cases hc : (x :: t) ≠ [] ∧ ∀ y ∈ x :: t, 0 ≤ y ∧ y ≤ 1
    · rw [if_pos hc, if_neg (not_lt.2 (h1.2 ⟨(hc.2 x (by simp)).1, fun y hy => (hc.2 y (by simp [hy])).1⟩)),
        if_neg (not_lt.2 (h2.2 ⟨(hc.2 x (by simp)).2, fun y hy => (hc.2 y (by simp [hy])).2⟩))]
    · rw [if_neg hc]
      split_ifs with g1 g2
      · rfl
      · rfl
      · exfalso
        apply hc
        have g1 := h1.1 (not_lt.1 g1)
        have g2 := h2.1 (not_lt.1 g2)
        refine ⟨by simp, fun y hy => ?_⟩
        rcases List.mem_cons.1 hy with rfl | hy
        · exact ⟨g1.1, g2.1⟩
        · exact ⟨g1.2 y hy, g2.2 y hy⟩

end Verif.Proofs

namespace Verif.Proofs
open Verif.Model Verif.Spec

/-! ### Checked arguments -/

theorem checkRadii_arr (sh : List Nat) (d : List ℝ) (hd : d ≠ []) (h : ∀ x ∈ d, 0 ≤ x ∧ x ≤ 1) :
    checkRadii (.arr sh d) = .ok (.array sh d) ∧ checkRadii (.seq sh d) = .ok (.array sh d) := by
  have e := checkRadiiArray_eq sh d
  rw [if_pos ⟨hd, h⟩] at e
  exact ⟨e, e⟩

theorem checkRadii_num (x : ℝ) (h0 : 0 ≤ x) (h1 : x ≤ 1) : checkRadii (.num x) = .ok (.scalar x) := by
  exact if_neg (by push Not; exact ⟨h1, h0⟩)

theorem checkAngles_num (x : ℝ) : ∃ w, checkAngles (.num x) = .ok (.scalar x, w) ∧ ∀ y ∈ w, y = .angles := by
  refine ⟨_, rfl, ?_⟩
  split_ifs <;> simp

theorem checkAnglesArray_ok (sh : List Nat) (d : List ℝ) (hd : d ≠ []) :
    ∃ w, checkAnglesArray sh d = .ok (.array sh d, w) ∧ ∀ y ∈ w, y = .angles := by
  unfold checkAnglesArray
  cases d with
  | nil => exact absurd rfl hd
  | cons x t =>
    simp only [npMin, npMax, Bind.bind, Except.bind]
    split_ifs
    · exact ⟨_, rfl, by simp⟩
    · exact ⟨_, rfl, by simp⟩
    · exact ⟨_, rfl, by simp⟩

theorem checkAngles_warns (a : Arg) (t : Num) (w : List Warn) (h : checkAngles a = .ok (t, w)) : ∀ y ∈ w, y = .angles := by
  have arr : ∀ sh d, checkAnglesArray sh d = .ok (t, w) → ∀ y ∈ w, y = .angles := by
    intro sh d h
    cases d with
    | nil => simp [checkAnglesArray, npMax, Bind.bind, Except.bind] at h
    | cons x l =>
      obtain ⟨w', h', hw⟩ := checkAnglesArray_ok sh (x :: l) (by simp)
      rw [h'] at h; cases h; exact hw
  cases a with
  | num x => obtain ⟨w', h', hw⟩ := checkAngles_num x; rw [h'] at h; cases h; exact hw
  | arr sh d => exact arr sh d h
  | seq sh d => exact arr sh d h
  | set => simp [checkAngles] at h
  | ragged => simp [checkAngles] at h
  | notFloat e => simp [checkAngles] at h

theorem polynomialValue_ok (fuel : Nat) (o : PolObj) (r theta : Arg) (exact : Bool) (s : CoefState) (hs : Good s)
    (hv : ValidOrders o.m o.n) (hf : o.n.toNat + 1 < fuel) (x t : Num) (w : List Warn) (hx : checkRadii r = .ok x)
    (ht : checkAngles theta = .ok (t, w)) (hsh : ∀ sh d sh' d', x = .array sh d → t = .array sh' d' → sh = sh') :
    (polynomialValue fuel o r theta exact s).res = .ok (if exact ∧ 40 < o.n then x.zerosLike else
      (t.map fun a => normalizationFactor o.m o.n * triangularFunction o.m a).mul (x.map (RR o.m o.n))) := by
  unfold polynomialValue
  rw [hx, ht]
  dsimp only
  rw [if_neg]
  · by_cases hc : exact ∧ 40 < o.n
    · rw [if_pos (by exact hc), if_pos hc]
    · rw [if_neg (by exact hc), if_neg hc]
      dsimp only
      rw [evalNum_ok _ s (fun α _ _ y => RR o.m o.n y)
        (fun α _ _ r => by rw [radialValue_ok _ _ _ _ _ _ hs hv hf, if_neg hc]) (fun N r i => RR_pi N _ _ r i) x]
      rfl
  · cases x with
    | scalar x => simp [shapesDiffer]
    | array sh d =>
      cases t with
      | scalar y => simp [shapesDiffer]
      | array sh' d' => simp [shapesDiffer, hsh sh d sh' d' rfl rfl]

theorem triangularFunction_eq (m : Int) (t : ℝ) : triangularFunction m t = angular m t := by
  unfold triangularFunction angular
  split_ifs
  · rfl
  · rw [abs_of_neg (by omega)]; push_cast; rw [neg_mul, Real.sin_neg]

theorem normalizationFactor_eq (m n : Int) : normalizationFactor m n = Spec.norm m n := by
  unfold normalizationFactor Spec.norm
  split_ifs <;> push_cast <;> rfl

/-- `nTr * radial` is the Zernike polynomial. -/
theorem value_eq (m n : Int) (h : ValidOrders m n) (r t : ℝ) :
    normalizationFactor m n * triangularFunction m t * RR m n r = zernike m n r t := by
  unfold zernike
  rw [triangularFunction_eq, normalizationFactor_eq, spec_radial_eq _ _ _ h]; ring

/-! ### Independence of the tables -/

theorem radial_indep (fuel : Nat) (o : PolObj) (r : Arg) (exact : Bool) (s s' : CoefState) (hs : Good s) (hs' : Good s')
    (hf : o.n.toNat + 1 < fuel) :
    (Model.radial fuel o r exact s).res = (Model.radial fuel o r exact s').res := by
  unfold Model.radial
  cases checkRadii r with
  | error e => rfl
  | ok x => exact evalNum_indep _ s s' (fun α _ _ r => radialValue_indep _ _ _ _ _ _ _ hs hs' hf) x

theorem radialDr_indep (fuel : Nat) (o : PolObj) (r : Arg) (exact : Bool) (s s' : CoefState) (hs : Good s) (hs' : Good s')
    (hf : o.n.toNat + 1 < fuel) :
    (Model.radialDr fuel o r exact s).res = (Model.radialDr fuel o r exact s').res := by
  unfold Model.radialDr
  cases checkRadii r with
  | error e => rfl
  | ok x => exact evalNum_indep _ s s' (fun α _ _ r => radialDrValue_indep _ _ _ _ _ _ _ hs hs' hf) x

theorem polynomialValue_indep (fuel : Nat) (o : PolObj) (r theta : Arg) (exact : Bool) (s s' : CoefState) (hs : Good s)
    (hs' : Good s') (hf : o.n.toNat + 1 < fuel) :
    (polynomialValue fuel o r theta exact s).res = (polynomialValue fuel o r theta exact s').res := by
  unfold polynomialValue
  cases checkRadii r with
  | error e => rfl
  | ok x =>
    cases checkAngles theta with
    | error e => rfl
    | ok t =>
      dsimp only
      split_ifs
      · rfl
      · rfl
      · dsimp only
        rw [evalNum_indep _ s s' (fun α _ _ r => radialValue_indep _ _ _ _ _ _ _ hs hs' hf) x]

end Verif.Proofs
