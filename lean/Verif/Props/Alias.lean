import Verif.Proofs.Alias
import Verif.Props.PsfObj
import Verif.Props.Json
import Verif.Props.Radial

/-!
# C63: arrays and lists shared with the caller
-/

namespace Verif.Props
open Verif.Spec Verif.Model Verif.Proofs

/-! ## The evaluation methods -/

theorem radiiFine_iff (l : List ℝ) : radiiFine l = true ↔ l ≠ [] ∧ ∀ x ∈ l, 0 ≤ x ∧ x ≤ 1 := by unfold radiiFine; simp

/-- The array `b` of the heap `h'` is a new one with the elements `l`, and no array or list of `h` was changed. -/
structure NewArray (h h' : PyHeap) (b : ℕ) (l : List ℝ) : Prop where
  fresh : h.next ≤ b
  content : h'.vecs b = l
  vecs : ∀ a < h.next, h'.vecs a = h.vecs a
  lists : h'.lists = h.lists
  mats : h'.mats = h.mats

theorem newVec_newArray (h : PyHeap) (l : List ℝ) : NewArray h (h.newVec l).1 (h.newVec l).2 l where
  fresh := le_refl _
  content := by simp [PyHeap.newVec]
  vecs a ha := by simp [PyHeap.newVec, Function.update_of_ne ha.ne]
  lists := rfl
  mats := rfl

theorem ofFn_RR (m n : Int) (l : List ℝ) (hv : ValidOrders m n) : List.ofFn (RR m n (fun i => l.get i : Fin l.length → ℝ)) = l.map (Spec.radial m n) := by
  apply List.ext_getElem
  · simp
  · intro i h1 h2
    simp only [List.getElem_ofFn, List.getElem_map]
    rw [RR_pi, spec_radial_eq m n _ hv]
    rfl

/-- C63. `radial` of an array (accepted radii, default path) gives a new array with the values of the radial polynomial and changes nothing, for every polynomial
except (1, 1) and (-1, 1), after every history of calls. -/
theorem radial_new_array (hist : List Call) (fuel : Nat) (m n : Int) (hv : ValidOrders m n) (hf : n.toNat + 1 < fuel) (h : PyHeap) (a : ℕ)
    (ha : h.vecs a ≠ [] ∧ ∀ x ∈ h.vecs a, 0 ≤ x ∧ x ≤ 1) (exact : Bool) (he : exact = true → n ≤ 40) (hne : exact = true ∨ n ≠ 1) :
    ∃ h' b, (radialH fuel m n h a exact (afterCalls hist)).1 = .ok (h', b) ∧ NewArray h h' b ((h.vecs a).map (Spec.radial m n)) := by
  obtain ⟨v, h1, h2, h3⟩ := radialValue_tracked fuel exact m n _ (afterCalls_good hist) hv hf (argOf (h.vecs a))
  refine ⟨_, _, ?_, newVec_newArray h _⟩
  unfold radialH
  rw [if_pos ((radiiFine_iff _).2 ha)]
  rw [(CM.bind_pure_fst _ _ (afterCalls hist)).1, h1]
  have hb : v.isArg = false := by
    rw [h3]
    rcases hne with h | h
    · simp [h]
    · simp [h]
  simp only [Except.map, PyHeap.give, hb, Bool.false_eq_true, if_false]
  rw [h2, if_neg (by rintro ⟨h4, h5⟩; have := he h4; omega)]
  rw [show (argOf (h.vecs a)).val = (fun i => (h.vecs a).get i : Fin (h.vecs a).length → ℝ) from rfl, ofFn_RR m n _ hv]

/-- C63. "`radial` returns a new array" is false: for (1, 1) and (-1, 1) the default path returns the argument itself. -/
theorem radial_returns_argument (hist : List Call) (fuel : Nat) (m : Int) (hm : m = 1 ∨ m = -1) (hf : 2 < fuel) (h : PyHeap) (a : ℕ)
    (ha : h.vecs a ≠ [] ∧ ∀ x ∈ h.vecs a, 0 ≤ x ∧ x ≤ 1) : (radialH fuel m 1 h a false (afterCalls hist)).1 = .ok (h, a) := by
  have hv : ValidOrders m 1 := by rcases hm with rfl | rfl <;> decide
  obtain ⟨v, h1, h2, h3⟩ := radialValue_tracked fuel false m 1 _ (afterCalls_good hist) hv (by simpa using hf) (argOf (h.vecs a))
  unfold radialH
  rw [if_pos ((radiiFine_iff _).2 ha), (CM.bind_pure_fst _ _ (afterCalls hist)).1, h1]
  have hb : v.isArg = true := by
    rw [h3]
    rcases hm with rfl | rfl <;> simp [argOf]
  simp only [Except.map, PyHeap.give, hb, if_true]

/-- C63. The consequence: a number written into the array of radii after the call changes the result that was returned before. -/
theorem radial_result_changes (hist : List Call) (fuel : Nat) (hf : 2 < fuel) (h : PyHeap) (a : ℕ)
    (ha : h.vecs a ≠ [] ∧ ∀ x ∈ h.vecs a, 0 ≤ x ∧ x ≤ 1) (l : List ℝ) (hl : l ≠ h.vecs a) :
    ∃ h' b, (radialH fuel 1 1 h a false (afterCalls hist)).1 = .ok (h', b) ∧ h'.vecs b = (h.vecs a).map (Spec.radial 1 1) ∧
      (Function.update h'.vecs a l) b ≠ (h.vecs a).map (Spec.radial 1 1) := by
  have e : (h.vecs a).map (Spec.radial 1 1) = h.vecs a := by
    conv_rhs => rw [← List.map_id (h.vecs a)]
    apply List.map_congr_left
    intro x _
    rw [spec_radial_eq 1 1 x (by decide)]
    simp [RR, Rab]
  refine ⟨h, a, radial_returns_argument hist fuel 1 (Or.inl rfl) hf h a ha, e.symm, ?_⟩
  rw [e, Function.update_self]
  exact hl

example : ∃ (h : PyHeap) (a : ℕ) (l : List ℝ), (h.vecs a ≠ [] ∧ ∀ x ∈ h.vecs a, 0 ≤ x ∧ x ≤ 1) ∧ l ≠ h.vecs a :=
  ⟨⟨fun _ => [1 / 2], fun _ => [], fun _ => ⟨1, 1, fun _ _ => 1⟩, 1⟩, 0, [1], ⟨by simp, by intro x hx; simp at hx; subst hx; norm_num⟩, by simp⟩

/-- C63. `radial_dr` and `polynomial_value` always return a new array and change no array of the caller. -/
theorem radial_dr_polynomial_new_array (hist : List Call) (fuel : Nat) (m n : Int) (hv : ValidOrders m n) (hf : n.toNat + 1 < fuel) (h : PyHeap) (a : ℕ)
    (ha : h.vecs a ≠ [] ∧ ∀ x ∈ h.vecs a, 0 ≤ x ∧ x ≤ 1) (exact : Bool) :
    (∃ h' b l, (radialDrH fuel m n h a exact (afterCalls hist)).1 = .ok (h', b) ∧ NewArray h h' b l) ∧
    (∀ theta, ∃ h' b l, (polynomialH fuel m n h a theta exact (afterCalls hist)).1 = .ok (h', b) ∧ NewArray h h' b l ∧
      ((exact = true → n ≤ 40) → l = (h.vecs a).map fun r => zernike m n r theta)) := by
  constructor
  · obtain ⟨v, h1, h2, h3⟩ := radialDrValue_tracked fuel exact m n _ (afterCalls_good hist) hv hf (argOf (h.vecs a))
    refine ⟨_, _, _, ?_, newVec_newArray h (List.ofFn v.val)⟩
    unfold radialDrH
    rw [if_pos ((radiiFine_iff _).2 ha), (CM.bind_pure_fst _ _ (afterCalls hist)).1, h1]
    simp only [Except.map, PyHeap.give, h3, Bool.false_eq_true, if_false]
  · intro theta
    by_cases hc : exact = true ∧ n > maxRadialOrderCoeffs
    · refine ⟨_, _, _, ?_, newVec_newArray h (List.ofFn (0 : Fin (h.vecs a).length → ℝ)), ?_⟩
      · unfold polynomialH
        rw [if_pos ((radiiFine_iff _).2 ha), if_pos hc]
        rfl
      · intro he
        have := he hc.1
        simp only [maxRadialOrderCoeffs] at hc
        omega
    · obtain ⟨v, h1, h2, h3⟩ := radialValue_tracked fuel exact m n _ (afterCalls_good hist) hv hf (argOf (h.vecs a))
      refine ⟨_, _, _, ?_, newVec_newArray h (List.ofFn (fun i => normalizationFactor m n * triangularFunction m theta * v.val i)), ?_⟩
      · unfold polynomialH
        rw [if_pos ((radiiFine_iff _).2 ha), if_neg hc, (CM.bind_pure_fst _ _ (afterCalls hist)).1, h1]
        rfl
      · intro _
        rw [h2, if_neg (by simpa [maxRadialOrderCoeffs] using hc)]
        apply List.ext_getElem
        · simp
        · intro i h4 h5
          simp only [List.getElem_ofFn, List.getElem_map]
          rw [RR_pi, value_eq m n hv]
          rfl

/-! ## `ZernPSF` objects -/

/-- The call with the contents of the arguments, as a call of Verif.Model.PsfObj; nothing for a change made by the caller. -/
def _root_.Verif.Model.HeapCall.asPsfCall (h : PyHeap) : HeapCall → Option PsfCall
  | .setPhysicalProps NA wl c px => some (.setPhysicalProps NA wl (c.arg h) px)
  | .setCalculationProps size nR nPhi => some (.setCalculationProps size nR nPhi)
  | .calculate env suppress normalized accelerated => some (.calculate env suppress normalized accelerated)
  | .crop part => some (.crop part)
  | _ => none

theorem inner_zero (g : Grid) : g.inner 0 = g := by cases g; simp [Grid.inner]

theorem inner_inner (g : Grid) (a b : ℕ) : (g.inner a).inner b = g.inner (a + b) := by
  simp only [Grid.inner, Grid.mk.injEq]
  refine ⟨by omega, by omega, ?_⟩
  funext i j
  congr 1 <;> omega

theorem crop_step (o : PsfObj) (part : ℝ) : (o.crop part).2.kernel = o.kernel.inner (o.cropStep part) ∧ (o.crop part).2.polynomials = o.polynomials ∧
    (o.crop part).2.coefficients = o.coefficients := by
  classical
  unfold PsfObj.crop PsfObj.cropStep
  by_cases h1 : o.kernelSize > 3
  · rw [if_pos h1]
    cases h2 : npMax o.kernel.elems with
    | error e => simp [inner_zero]
    | ok top =>
      simp only
      by_cases h3 : part ≤ 0
      · rw [if_pos h3, if_neg (by tauto)]; simp [inner_zero]
      · rw [if_neg h3]
        by_cases h4 : part ≥ 0.5
        · rw [if_pos h4, if_neg (by tauto)]; simp [inner_zero]
        · rw [if_neg h4, if_pos ⟨h1, h3, h4⟩]
          cases h5 : cropSteps o.kernel (part * top) (o.kernel.rows + 1) 0 with
          | error e => simp [inner_zero, Except.toOption]
          | ok step =>
            simp only [Except.toOption, Option.getD_some]
            split_ifs with h6
            · simp
            · have : step = 0 := by omega
              subst this
              simp [inner_zero]
  · rw [if_neg h1, if_neg (by tauto)]; simp [inner_zero]

/-- The sequence, when the argument is one. -/
def _root_.Verif.Model.CoeffArg.seqOf : CoeffArg → Option (List ℝ)
  | .seq l => some l
  | _ => none

theorem setPhysical_frame (o : PsfObj) (NA wl px : ℝ) (c : CoeffArg) :
    (o.setPhysicalProps NA wl c px).2.kernel = o.kernel ∧ (o.setPhysicalProps NA wl c px).2.polynomials = o.polynomials ∧
    (o.setPhysicalProps NA wl c px).2.coefficients = if o.storesSeq NA wl px c then c.seqOf else o.coefficients := by
  classical
  have hst : ∀ {l : List ℝ}, (¬ (NA < 0 ∨ NA > 1.7) ∧ ¬ wl ≤ 0 ∧ NA ≠ 0 ∧ ¬ px ≤ 0 ∧ ¬ px > 0.5 * 0.5 * wl / NA → False) → o.storesSeq NA wl px (.seq l) = false := by
    intro l h
    unfold PsfObj.storesSeq
    simp only [decide_eq_false_iff_not]
    rintro ⟨h1, h2, h3, h4, h5, -⟩
    exact h ⟨h1, h2, h3, h4, h5⟩
  have hrej : (¬ (NA < 0 ∨ NA > 1.7) ∧ ¬ wl ≤ 0 ∧ NA ≠ 0 ∧ ¬ px ≤ 0 ∧ ¬ px > 0.5 * 0.5 * wl / NA → False) → o.storesSeq NA wl px c = false := by
    intro h
    cases c with
    | seq l => exact hst h
    | num x => rfl
    | bad e => rfl
  rcases setPhysical_cases o NA wl c px with ⟨h1, e⟩ | ⟨h2, h3, e⟩ | ⟨h2, h3, h4, h5, e⟩ | ⟨h2, h3, h4, h5, h6, e⟩
  · rw [e, hrej (by rintro ⟨a1, a2, -⟩; tauto)]; simp
  · rw [e, hrej (by rintro ⟨a1, a2, a3, -⟩; tauto)]; simp
  · rw [e, hrej (by rintro ⟨a1, a2, a3, a4, a5⟩; tauto)]; simp
  · rw [e]
    have hb : (physBase o NA wl px).polynomials = o.polynomials ∧ (physBase o NA wl px).kernel = o.kernel ∧
      (physBase o NA wl px).coefficients = o.coefficients := ⟨rfl, rfl, rfl⟩
    generalize physBase o NA wl px = b at hb
    obtain ⟨b1, b2, b3⟩ := hb
    have hs : (b.storeCoeff c).2.kernel = b.kernel ∧ (b.storeCoeff c).2.polynomials = b.polynomials ∧
        (b.storeCoeff c).2.coefficients = if o.storesSeq NA wl px c then c.seqOf else b.coefficients := by
      cases c with
      | num x =>
        unfold PsfObj.storeCoeff PsfObj.storesSeq
        simp only
        split_ifs <;> simp_all [PsfObj.storeOne]
      | bad er =>
        unfold PsfObj.storeCoeff PsfObj.storesSeq
        simp only
        split_ifs <;> simp_all
      | seq l =>
        have hl : o.storesSeq NA wl px (.seq l) = decide (l.length = b.polynomials.length) := by
          unfold PsfObj.storesSeq
          simp only [b1]
          rw [decide_eq_decide]
          constructor
          · rintro ⟨-, -, -, -, -, h⟩; exact h
          · intro h
            exact ⟨by push Not; exact ⟨h3.le, h4⟩, not_le.2 h2, h3.ne', not_le.2 h5, not_lt.2 h6, h⟩
        rw [hl]
        unfold PsfObj.storeCoeff
        by_cases hlen : l.length = b.polynomials.length
        · simp only [hlen, ne_eq, not_true, if_false, decide_true, if_true]
          cases npMax l <;> simp [CoeffArg.seqOf]
        · simp only [ne_eq, hlen, not_false_eq_true, if_true, decide_false, Bool.false_eq_true, if_false]
          rcases l with _ | ⟨x, _ | ⟨y, l⟩⟩
          · simp
          · simp only
            split_ifs <;> simp [PsfObj.storeOne]
          · simp
    unfold physRest
    rcases hc : b.storeCoeff c with ⟨r, b'⟩
    rw [hc] at hs
    obtain ⟨s1, s2, s3⟩ := hs
    rw [← b1, ← b2, ← b3, ← s3]
    simp only at s1 s2
    cases r with
    | error er => exact ⟨s1, s2, rfl⟩
    | ok u =>
      simp only
      cases b'.estimateSize with
      | error er => exact ⟨s1, s2, rfl⟩
      | ok size => exact ⟨s1, s2, rfl⟩

theorem kernelCall_isSome (env : Env) (o : PsfObj) (normalized : Bool) (accelerated : Option Bool) :
    (o.kernelCall env normalized accelerated).isSome = (o.zernpol.isSome || !o.polynomials.isEmpty) := by
  unfold PsfObj.kernelCall
  cases o.zernpol with
  | some z => rfl
  | none =>
    simp only
    cases o.polynomials with
    | nil => rfl
    | cons p ps =>
      simp only
      cases o.amplitudes <;> rfl

theorem calculate_frame (env : Env) (o : PsfObj) (suppress normalized : Bool) (accelerated : Option Bool) (s : CoefState) :
    (o.calculate env suppress normalized accelerated s).2.1.polynomials = o.polynomials ∧
    (o.calculate env suppress normalized accelerated s).2.1.coefficients = o.coefficients ∧
    (o.calculate env suppress normalized accelerated s).2.1.kernel =
      (match (o.calculate env suppress normalized accelerated s).1, o.kernelCall env normalized accelerated with
        | .ok g, some _ => g
        | _, _ => o.kernel) := by
  have hu : o.calculate env suppress normalized accelerated s = (match (calcStart o suppress).kernelCall env normalized accelerated with
    | none => (.ok (calcStart o suppress).kernel, calcStart o suppress, s)
    | some x =>
      match x s with
      | (.error e, s') => (.error e, calcStart o suppress, s')
      | (.ok g, s') => (.ok g, { calcStart o suppress with kernel := g }, s')) := rfl
  have hc : (calcStart o suppress).polynomials = o.polynomials ∧ (calcStart o suppress).coefficients = o.coefficients ∧
      (calcStart o suppress).kernel = o.kernel ∧ ((calcStart o suppress).kernelCall env normalized accelerated).isSome =
        (o.kernelCall env normalized accelerated).isSome := by
    unfold calcStart
    split_ifs
    · exact ⟨rfl, rfl, rfl, by rw [kernelCall_isSome, kernelCall_isSome]⟩
    · exact ⟨rfl, rfl, rfl, rfl⟩
  obtain ⟨c1, c2, c3, c4⟩ := hc
  rw [hu]
  cases h1 : (calcStart o suppress).kernelCall env normalized accelerated with
  | none =>
    rw [h1] at c4
    cases h2 : o.kernelCall env normalized accelerated with
    | some x => rw [h2] at c4; cases c4
    | none => exact ⟨c1, c2, c3⟩
  | some x =>
    rw [h1] at c4
    cases h2 : o.kernelCall env normalized accelerated with
    | none => rw [h2] at c4; cases c4
    | some y =>
      simp only
      rcases x s with ⟨_ | g, s'⟩
      · exact ⟨c1, c2, c3⟩
      · exact ⟨c1, c2, rfl⟩

theorem setCalculation_frame (o : PsfObj) (size nR nPhi : Int) :
    (o.setCalculationProps size nR nPhi).2.kernel = o.kernel ∧ (o.setCalculationProps size nR nPhi).2.polynomials = o.polynomials ∧
    (o.setCalculationProps size nR nPhi).2.coefficients = o.coefficients := by
  unfold PsfObj.setCalculationProps
  split_ifs <;> exact ⟨rfl, rfl, rfl⟩

/-- An object is given by the attributes and what the three references refer to. -/
theorem view_ext (o : PsfRefs) (h : PyHeap) (p : PsfObj) (ha : o.attrs = p) (h1 : (h.mats o.kernelAt).inner o.margin = p.kernel)
    (h2 : (o.polsAt.map h.lists).getD [] = p.polynomials) (h3 : o.coeffAt.map h.vecs = p.coefficients) : o.view h = p := by
  unfold PsfRefs.view
  rw [h1, h2, h3, ha]

/-- C63. A method uses the contents that the arrays and lists have at the time of the call: the object seen after the call is the one that
Verif.Model.PsfObj computes from the object seen before. -/
theorem method_uses_current_contents (x : HeapState) (c : HeapCall) (pc : PsfCall) (hc : c.asPsfCall x.heap = some pc) :
    ((c.run x).obj.view (c.run x).heap, (c.run x).tables) = pc.run (x.obj.view x.heap, x.tables) := by
  cases c with
  | setPhysicalProps NA wl co px =>
    simp only [HeapCall.asPsfCall, Option.some.injEq] at hc
    subst hc
    obtain ⟨f1, f2, f3⟩ := setPhysical_frame (x.obj.view x.heap) NA wl px (co.arg x.heap)
    simp only [HeapCall.run, PsfCall.run]
    by_cases hs : (x.obj.view x.heap).storesSeq NA wl px (co.arg x.heap) = true
    · rw [if_pos hs] at f3
      rw [if_pos hs]
      refine Prod.ext ?_ rfl
      refine view_ext _ _ _ rfl ?_ ?_ ?_
      · rw [f1]
        cases co with
        | array a => rfl
        | value v => cases v <;> rfl
      · rw [f2]
        cases co with
        | array a => rfl
        | value v => cases v <;> rfl
      · rw [f3]
        cases co with
        | array a => rfl
        | value v =>
          cases v with
          | seq l => simp [CoeffObj.asArray, PyHeap.newVec, CoeffObj.arg, CoeffArg.seqOf]
          | num y => simp [CoeffObj.arg, PsfObj.storesSeq] at hs
          | bad e => simp [CoeffObj.arg, PsfObj.storesSeq] at hs
    · rw [if_neg hs] at f3
      rw [if_neg hs]
      refine Prod.ext ?_ rfl
      exact view_ext _ _ _ rfl (by rw [f1]; rfl) (by rw [f2]; rfl) (by rw [f3]; rfl)
  | setCalculationProps size nR nPhi =>
    simp only [HeapCall.asPsfCall, Option.some.injEq] at hc
    subst hc
    obtain ⟨f1, f2, f3⟩ := setCalculation_frame (x.obj.view x.heap) size nR nPhi
    refine Prod.ext ?_ rfl
    exact view_ext _ _ _ rfl f1.symm f2.symm f3.symm
  | calculate env suppress normalized accelerated =>
    simp only [HeapCall.asPsfCall, Option.some.injEq] at hc
    subst hc
    obtain ⟨f2, f3, f1⟩ := calculate_frame env (x.obj.view x.heap) suppress normalized accelerated x.tables
    simp only [HeapCall.run, PsfCall.run]
    rcases h1 : ((x.obj.view x.heap).calculate env suppress normalized accelerated x.tables) with ⟨r, o', s'⟩
    rw [h1] at f1 f2 f3
    cases r with
    | error e =>
      simp only at f1 f2 f3 ⊢
      refine Prod.ext ?_ rfl
      exact view_ext _ _ _ rfl (by rw [f1]; rfl) (by rw [f2]; rfl) (by rw [f3]; rfl)
    | ok g =>
      cases h2 : (x.obj.view x.heap).kernelCall env normalized accelerated with
      | none =>
        rw [h2] at f1
        simp only at f1 f2 f3 ⊢
        refine Prod.ext ?_ rfl
        exact view_ext _ _ _ rfl (by rw [f1]; rfl) (by rw [f2]; rfl) (by rw [f3]; rfl)
      | some y =>
        rw [h2] at f1
        simp only at f1 f2 f3 ⊢
        refine Prod.ext ?_ rfl
        refine view_ext _ _ _ rfl ?_ (by rw [f2]; rfl) (by rw [f3]; rfl)
        rw [f1]
        simp [PyHeap.newMat, inner_zero]
  | crop part =>
    simp only [HeapCall.asPsfCall, Option.some.injEq] at hc
    subst hc
    obtain ⟨f1, f2, f3⟩ := crop_step (x.obj.view x.heap) part
    refine Prod.ext ?_ rfl
    refine view_ext _ _ _ rfl (Eq.trans ?_ f1.symm) f2.symm f3.symm
    show (x.heap.mats x.obj.kernelAt).inner (x.obj.margin + _) = ((x.heap.mats x.obj.kernelAt).inner x.obj.margin).inner _
    rw [inner_inner]
  | writeVec a l => cases hc
  | writeList a l => cases hc
  | writeMat a g => cases hc

/-- The state after several calls. -/
noncomputable def _root_.Verif.Model.HeapState.after (x : HeapState) (calls : List HeapCall) : HeapState := calls.foldl HeapCall.run x

/-- No array or list that existed before was changed. -/
structure NothingChanged (h h' : PyHeap) : Prop where
  vecs : ∀ a < h.next, h'.vecs a = h.vecs a
  lists : ∀ a < h.next, h'.lists a = h.lists a
  mats : ∀ a < h.next, h'.mats a = h.mats a
  next : h.next ≤ h'.next

theorem NothingChanged.refl (h : PyHeap) : NothingChanged h h := ⟨fun _ _ => rfl, fun _ _ => rfl, fun _ _ => rfl, le_refl _⟩

theorem NothingChanged.trans {h h' h'' : PyHeap} (a : NothingChanged h h') (b : NothingChanged h' h'') : NothingChanged h h'' :=
  ⟨fun i hi => (b.vecs i (hi.trans_le a.next)).trans (a.vecs i hi), fun i hi => (b.lists i (hi.trans_le a.next)).trans (a.lists i hi),
    fun i hi => (b.mats i (hi.trans_le a.next)).trans (a.mats i hi), a.next.trans b.next⟩

theorem nothing_newVec (h : PyHeap) (l : List ℝ) : NothingChanged h (h.newVec l).1 :=
  ⟨fun a ha => by simp [PyHeap.newVec, Function.update_of_ne ha.ne], fun _ _ => rfl, fun _ _ => rfl, Nat.le_succ _⟩

theorem nothing_newMat (h : PyHeap) (g : Grid) : NothingChanged h (h.newMat g).1 :=
  ⟨fun _ _ => rfl, fun _ _ => rfl, fun a ha => by simp [PyHeap.newMat, Function.update_of_ne ha.ne], Nat.le_succ _⟩

theorem nothing_asArray (h : PyHeap) (c : CoeffObj) : NothingChanged h (c.asArray h).1 := by
  cases c with
  | array a => exact .refl h
  | value v => cases v <;> first | exact .refl h | exact nothing_newVec h _

theorem method_changes_nothing (x : HeapState) (c : HeapCall) (hc : c.isMethod = true) : NothingChanged x.heap (c.run x).heap := by
  cases c with
  | setPhysicalProps NA wl co px =>
    simp only [HeapCall.run]
    split_ifs
    · exact nothing_asArray _ _
    · exact .refl _
  | setCalculationProps size nR nPhi => exact .refl _
  | calculate env suppress normalized accelerated =>
    simp only [HeapCall.run]
    split
    · exact nothing_newMat _ _
    · exact .refl _
  | crop part => exact .refl _
  | writeVec a l => cases hc
  | writeList a l => cases hc
  | writeMat a g => cases hc

/-- C63. Calls of methods, in any number and order, change no array and no list that existed before: not the arrays of coefficients and the list of
polynomials of the caller, and not the kernels that were returned by earlier calls. -/
theorem methods_change_nothing (x : HeapState) (calls : List HeapCall) (hc : ∀ c ∈ calls, c.isMethod = true) : NothingChanged x.heap (x.after calls).heap := by
  induction calls generalizing x with
  | nil => exact .refl _
  | cons c cs ih =>
    exact (method_changes_nothing x c (hc c (by simp))).trans (ih (c.run x) fun c' h => hc c' (by simp [h]))

theorem run_next_le (x : HeapState) (c : HeapCall) : x.heap.next ≤ (c.run x).heap.next := by
  cases hm : c.isMethod with
  | true => exact (method_changes_nothing x c hm).next
  | false => cases c <;> first | exact le_refl _ | cases hm

/-- C63. A kernel returned by `calculate_psf_kernel` keeps its values whatever is called afterwards on the object and whatever the caller writes into other
arrays; only a write into this array changes it. -/
theorem returned_kernel_kept (x : HeapState) (calls : List HeapCall) (b : ℕ) (hb : b < x.heap.next) (hw : ∀ c ∈ calls, ∀ g, c ≠ .writeMat b g) :
    (x.after calls).heap.mats b = x.heap.mats b := by
  induction calls generalizing x with
  | nil => rfl
  | cons c cs ih =>
    have h1 : (c.run x).heap.mats b = x.heap.mats b := by
      cases hm : c.isMethod with
      | true => exact (method_changes_nothing x c hm).mats b hb
      | false =>
        cases c with
        | writeVec a l => rfl
        | writeList a l => rfl
        | writeMat a g =>
          have : b ≠ a := by rintro rfl; exact hw _ (by simp) g rfl
          simp [HeapCall.run, Function.update_of_ne this]
        | setPhysicalProps => cases hm
        | setCalculationProps => cases hm
        | calculate => cases hm
        | crop => cases hm
    exact (ih (c.run x) (hb.trans_le (run_next_le x c)) fun c' h => hw c' (by simp [h])).trans h1

/-- C63. A calculated kernel is a new array: no array of the caller, no earlier kernel. It is both returned and stored: writing into the returned array changes
the kernel of the object. -/
theorem calculated_kernel_new_but_stored (x : HeapState) (env : Env) (suppress normalized : Bool) (accelerated : Option Bool) (g : Grid)
    (hg : ((x.obj.view x.heap).calculate env suppress normalized accelerated x.tables).1 = .ok g)
    (hp : x.obj.attrs.zernpol ≠ none ∨ (x.obj.view x.heap).polynomials ≠ []) :
    let x' := HeapCall.run x (.calculate env suppress normalized accelerated)
    x.heap.next ≤ x'.obj.kernelAt ∧ x'.obj.kernelAt < x'.heap.next ∧ x'.heap.mats x'.obj.kernelAt = g ∧ (x'.obj.view x'.heap).kernel = g ∧
      ∀ g', ((HeapCall.run x' (.writeMat x'.obj.kernelAt g')).obj.view (HeapCall.run x' (.writeMat x'.obj.kernelAt g')).heap).kernel = g' := by
  have hk : ((x.obj.view x.heap).kernelCall env normalized accelerated).isSome = true := by
    rw [kernelCall_isSome]
    rcases hp with h | h
    · have : (x.obj.view x.heap).zernpol.isSome = true := by
        show x.obj.attrs.zernpol.isSome = true
        cases h' : x.obj.attrs.zernpol with
        | none => exact absurd h' h
        | some z => rfl
      simp [this]
    · cases h' : (x.obj.view x.heap).polynomials with
      | nil => exact absurd h' h
      | cons p ps => simp
  obtain ⟨y, hy⟩ := Option.isSome_iff_exists.1 hk
  simp only [HeapCall.run, hg, hy]
  refine ⟨le_refl _, Nat.lt_succ_self _, ?_, ?_, fun g' => ?_⟩
  · simp [PyHeap.newMat]
  · simp [PsfRefs.view, PyHeap.newMat, inner_zero]
  · simp [PsfRefs.view, PyHeap.newMat, inner_zero]

/-- C63. The kernel that is calculated does not depend on what the caller writes into the array of coefficients after `set_physical_props`. -/
theorem calculate_ignores_written_coefficients (x : HeapState) (writes : List (ℕ × List ℝ)) (env : Env) (suppress normalized : Bool)
    (accelerated : Option Bool) :
    let x' := x.after (writes.map fun w => .writeVec w.1 w.2)
    ((x'.obj.view x'.heap).calculate env suppress normalized accelerated x'.tables).1 =
      ((x.obj.view x.heap).calculate env suppress normalized accelerated x.tables).1 := by
  have h1 : ∀ (ws : List (ℕ × List ℝ)) (y : HeapState), (y.after (ws.map fun w => .writeVec w.1 w.2)).obj = y.obj ∧
      (y.after (ws.map fun w => .writeVec w.1 w.2)).tables = y.tables ∧ (y.after (ws.map fun w => .writeVec w.1 w.2)).heap.mats = y.heap.mats ∧
      (y.after (ws.map fun w => .writeVec w.1 w.2)).heap.lists = y.heap.lists := by
    intro ws
    induction ws with
    | nil => intro y; exact ⟨rfl, rfl, rfl, rfl⟩
    | cons w ws ih => intro y; exact ih (HeapCall.run y (.writeVec w.1 w.2))
  obtain ⟨e1, e2, e3, e4⟩ := h1 writes x
  intro x'
  have hv : x'.obj.view x'.heap = { x.obj.view x.heap with coefficients := (x'.obj.view x'.heap).coefficients } := by
    unfold PsfRefs.view
    show _ = _
    simp only [x', e1, e3, e4]
  rw [hv, show x'.tables = x.tables from e2]
  generalize (x'.obj.view x'.heap).coefficients = co
  generalize x.obj.view x.heap = o
  have hc : calcStart { o with coefficients := co } suppress = { calcStart o suppress with coefficients := co } := by
    unfold calcStart; split_ifs <;> rfl
  have hk : ∀ p : PsfObj, PsfObj.kernelCall env { p with coefficients := co } normalized accelerated = p.kernelCall env normalized accelerated := by
    intro p; rfl
  have hu : ∀ p : PsfObj, (p.calculate env suppress normalized accelerated x.tables).1 = (match (calcStart p suppress).kernelCall env normalized accelerated with
    | none => .ok (calcStart p suppress).kernel
    | some y => (y x.tables).1) := by
    intro p
    have : p.calculate env suppress normalized accelerated x.tables = (match (calcStart p suppress).kernelCall env normalized accelerated with
      | none => (.ok (calcStart p suppress).kernel, calcStart p suppress, x.tables)
      | some y =>
        match y x.tables with
        | (.error e, s') => (.error e, calcStart p suppress, s')
        | (.ok g, s') => (.ok g, { calcStart p suppress with kernel := g }, s')) := rfl
    rw [this]
    cases (calcStart p suppress).kernelCall env normalized accelerated with
    | none => rfl
    | some y =>
      simp only
      rcases y x.tables with ⟨_ | g, s'⟩ <;> rfl
  rw [hu, hu, hc, hk]

/-- C63. "The coefficients of the object are those passed to `set_physical_props`" is false for an array: the array itself is stored. After a write by the
caller the attribute, and so the document written by `save_json`, has the new numbers, while kernels are still calculated with the amplitudes of
the old ones. -/
theorem coefficients_follow_caller (x : HeapState) (a : ℕ) (NA wl px : ℝ) (hz : x.obj.attrs.zernpol = none)
    (hn : 2 ≤ (x.obj.view x.heap).polynomials.length) (hv : ∀ z ∈ (x.obj.view x.heap).polynomials, ValidOrders z.m z.n)
    (hl : (x.heap.vecs a).length = (x.obj.view x.heap).polynomials.length) (hp : PhysicalOk NA wl px) (l' : List ℝ) :
    let x' := HeapCall.run x (.setPhysicalProps NA wl (.array a) px)
    let x'' := HeapCall.run x' (.writeVec a l')
    (x'.obj.view x'.heap).coefficients = some (x.heap.vecs a) ∧ (x''.obj.view x''.heap).coefficients = some l' ∧
    (∃ doc, (x''.obj.view x''.heap).document = .ok doc ∧ JsonItem.amplitudes l' ∈ doc) ∧
    (x''.obj.view x''.heap).amplitudes = some ((x.heap.vecs a).map (· / wl)) := by
  obtain ⟨r, -, hr⟩ := setPhysical_seq (x.obj.view x.heap) hz hn hv NA wl px (x.heap.vecs a) hl hp
  have hs : (x.obj.view x.heap).storesSeq NA wl px (.seq (x.heap.vecs a)) = true := by
    unfold PsfObj.storesSeq
    obtain ⟨a1, a2, a3, a4, a5⟩ := hp
    rw [← nyquist_eq] at a5
    simp only [decide_eq_true_eq]
    exact ⟨by push Not; exact ⟨a1.le, a2⟩, not_le.2 a3, a1.ne', not_le.2 a4, not_lt.2 a5, hl⟩
  have hc : (CoeffObj.array a).arg x.heap = .seq (x.heap.vecs a) := rfl
  intro x' x''
  have hx : x' = { x with obj := { x.obj with attrs := ((x.obj.view x.heap).setPhysicalProps NA wl (.seq (x.heap.vecs a)) px).2, coeffAt := some a } } := by
    show HeapCall.run x _ = _
    simp only [HeapCall.run]
    rw [hc, if_pos hs]
    rfl
  have hxx : x'' = HeapCall.run x' (.writeVec a l') := rfl
  have e2 : (x''.obj.view x''.heap).coefficients = some l' := by
    rw [hxx, hx]; simp [HeapCall.run, PsfRefs.view]
  have e4 : (x''.obj.view x''.heap).zernpol = none := by
    rw [hxx, hx, hr]; exact hz
  refine ⟨by rw [hx]; rfl, e2, ?_, by rw [hxx, hx, hr]; rfl⟩
  unfold PsfObj.document
  rw [e2, e4]
  exact ⟨_, rfl, by simp⟩

/-- C63. With a list or a tuple of coefficients the object has its own array: writes of the caller into any object that existed before change nothing. -/
theorem coefficients_of_list_kept (x : HeapState) (l : List ℝ) (NA wl px : ℝ) (hz : x.obj.attrs.zernpol = none)
    (hn : 2 ≤ (x.obj.view x.heap).polynomials.length) (hv : ∀ z ∈ (x.obj.view x.heap).polynomials, ValidOrders z.m z.n)
    (hl : l.length = (x.obj.view x.heap).polynomials.length) (hp : PhysicalOk NA wl px) (a : ℕ) (ha : a < x.heap.next) (l' : List ℝ) :
    let x' := HeapCall.run x (.setPhysicalProps NA wl (.value (.seq l)) px)
    let x'' := HeapCall.run x' (.writeVec a l')
    (x'.obj.view x'.heap).coefficients = some l ∧ x''.obj.view x''.heap = x'.obj.view x'.heap := by
  have hs : (x.obj.view x.heap).storesSeq NA wl px (.seq l) = true := by
    unfold PsfObj.storesSeq
    obtain ⟨a1, a2, a3, a4, a5⟩ := hp
    rw [← nyquist_eq] at a5
    simp only [decide_eq_true_eq]
    exact ⟨by push Not; exact ⟨a1.le, a2⟩, not_le.2 a3, a1.ne', not_le.2 a4, not_lt.2 a5, hl⟩
  have hc : (CoeffObj.value (.seq l)).arg x.heap = .seq l := rfl
  intro x' x''
  have hx : x' = { x with heap := (x.heap.newVec l).1, obj := { x.obj with attrs := ((x.obj.view x.heap).setPhysicalProps NA wl (.seq l) px).2, coeffAt := some x.heap.next } } := by
    show HeapCall.run x _ = _
    simp only [HeapCall.run]
    rw [hc, if_pos hs]
    rfl
  have hxx : x'' = HeapCall.run x' (.writeVec a l') := rfl
  constructor
  · rw [hx]; simp [PsfRefs.view, PyHeap.newVec]
  · rw [hxx, hx]
    simp [HeapCall.run, PsfRefs.view, PyHeap.newVec, Function.update_of_ne ha.ne']

theorem psfInitH_several (h : PyHeap) (a : ℕ) (hn : 2 ≤ (h.lists a).length) (hd : ((h.lists a).map ZernPol.osa).Nodup) :
    ∃ o, psfInitH h a = .ok o ∧ o.view h = { psfDefault with kernel := h.mats 0, polynomials := h.lists a, zernpol := none, airy := (h.lists a).any ZernPol.isPiston } ∧
      o.polsAt = some a ∧ o.kernelAt = 0 ∧ o.margin = 0 := by
  have e : psfInit (.seq ((h.lists a).map Operand.zern)) =
      .ok { psfDefault with polynomials := h.lists a, zernpol := none, airy := (h.lists a).any ZernPol.isPiston } := by
    rcases hq : h.lists a with _ | ⟨p, _ | ⟨q, t⟩⟩
    · rw [hq] at hn; simp at hn
    · rw [hq] at hn; simp at hn
    · rw [hq] at hd
      simp only [psfInit, List.map_cons]
      have : allPols (Operand.zern p :: Operand.zern q :: t.map Operand.zern) = some (p :: q :: t) := (allPols_some _ _).2 rfl
      rw [this]
      simp only
      rw [if_neg]
      · rw [dedup_short]; exact not_not.2 hd
  unfold psfInitH
  rw [e, if_neg (by omega)]
  exact ⟨_, rfl, by simp [PsfRefs.view, inner_zero, psfDefault], rfl, rfl, rfl⟩

/-- C63. A list of two or more polynomials is stored itself: after the construction the caller can make the object hold any polynomials, also repeated ones, which
the constructor rejects. -/
theorem polynomials_follow_caller (h : PyHeap) (a : ℕ) (hn : 2 ≤ (h.lists a).length) (hd : ((h.lists a).map ZernPol.osa).Nodup) (s : CoefState) (l' : List ZernPol) :
    ∃ o, psfInitH h a = .ok o ∧ (o.view h).polynomials = h.lists a ∧
      (((HeapCall.run ⟨h, o, s⟩ (.writeList a l')).obj.view (HeapCall.run ⟨h, o, s⟩ (.writeList a l')).heap).polynomials = l') := by
  obtain ⟨o, h1, h2, h3, -, -⟩ := psfInitH_several h a hn hd
  refine ⟨o, h1, by rw [h2], ?_⟩
  simp [HeapCall.run, PsfRefs.view, h3]

/-- C63. The consequence: after an `append` to the list every calculation raises, although the properties were set. -/
theorem appended_polynomial_breaks (x : HeapState) (a : ℕ) (hz : x.obj.attrs.zernpol = none) (hp : x.obj.polsAt = some a) (as : List ℝ)
    (ha : x.obj.attrs.amplitudes = some as) (hl : as.length = (x.heap.lists a).length) (z : ZernPol) (env : Env) (suppress normalized : Bool)
    (accelerated : Option Bool) :
    let x' := HeapCall.run x (.writeList a (x.heap.lists a ++ [z]))
    ∃ e, ((x'.obj.view x'.heap).calculate env suppress normalized accelerated x'.tables).1 = .error e := by
  intro x'
  have h1 : (x'.obj.view x'.heap).polynomials = x.heap.lists a ++ [z] := by
    simp [x', HeapCall.run, PsfRefs.view, hp]
  have h2 : (x'.obj.view x'.heap).zernpol = none := hz
  have h3 : (x'.obj.view x'.heap).amplitudes = some as := ha
  generalize x'.obj.view x'.heap = o at h1 h2 h3
  have c : (calcStart o suppress).polynomials = x.heap.lists a ++ [z] ∧ (calcStart o suppress).zernpol = none ∧ (calcStart o suppress).amplitudes = some as := by
    unfold calcStart; split_ifs <;> exact ⟨h1, h2, h3⟩
  have hu : o.calculate env suppress normalized accelerated x'.tables = (match (calcStart o suppress).kernelCall env normalized accelerated with
    | none => (.ok (calcStart o suppress).kernel, calcStart o suppress, x'.tables)
    | some y =>
      match y x'.tables with
      | (.error e, s') => (.error e, calcStart o suppress, s')
      | (.ok g, s') => (.ok g, { calcStart o suppress with kernel := g }, s')) := rfl
  rw [hu]
  generalize calcStart o suppress = q at c
  obtain ⟨c1, c2, c3⟩ := c
  have hk : q.kernelCall env normalized accelerated = some (CM.raise (q.amplitudeError (env.accelerate accelerated))) := by
    unfold PsfObj.kernelCall
    rw [c2, c1, c3]
    cases hq : x.heap.lists a ++ [z] with
    | nil => simp at hq
    | cons p ps =>
      simp only
      rw [if_pos]
      have := congrArg List.length hq
      rw [List.length_append] at this
      simp only [List.length_cons, List.length_nil] at this ⊢
      omega
  rw [hk]
  exact ⟨_, rfl⟩

/-- C63. New objects share one kernel array, that of the class: writing into the kernel of one object before its first calculation changes the kernel of
every other new object. -/
theorem new_objects_share_kernel (h : PyHeap) (a b : ℕ) (o1 o2 : PsfRefs) (h1 : psfInitH h a = .ok o1) (h2 : psfInitH h b = .ok o2) (s : CoefState) (g : Grid) :
    (o2.view (HeapCall.run ⟨h, o1, s⟩ (.writeMat o1.kernelAt g)).heap).kernel = g := by
  have key : ∀ (c : ℕ) (o : PsfRefs), psfInitH h c = .ok o → o.kernelAt = 0 ∧ o.margin = 0 := by
    intro c o hc
    unfold psfInitH at hc
    split at hc
    · cases hc
    · cases hc; exact ⟨rfl, rfl⟩
  obtain ⟨e1, -⟩ := key a o1 h1
  obtain ⟨e2, e3⟩ := key b o2 h2
  simp [HeapCall.run, PsfRefs.view, e1, e2, e3, inner_zero]

/-- The hypotheses are met: two polynomials in the list 1, two coefficients in the array 2. -/
example : ∃ (h : PyHeap) (o : PsfRefs), psfInitH h 1 = .ok o ∧ 2 ≤ (h.lists 1).length ∧ ((h.lists 1).map ZernPol.osa).Nodup ∧ o.attrs.zernpol = none ∧
    2 ≤ (o.view h).polynomials.length ∧ (∀ z ∈ (o.view h).polynomials, ValidOrders z.m z.n) ∧ (h.vecs 2).length = (o.view h).polynomials.length ∧
    PhysicalOk 1 0.5 0.1 := by
  let h : PyHeap := ⟨fun _ => [0.1, 0.2], fun _ => [⟨-1, 1, 1, 3, .int 3⟩, ⟨1, 1, 2, 2, .int 2⟩], fun _ => ⟨1, 1, fun _ _ => 1⟩, 3⟩
  have hn : 2 ≤ (h.lists 1).length := by simp [h]
  have hd : ((h.lists 1).map ZernPol.osa).Nodup := by simp [h]
  obtain ⟨o, h1, h2, h3, h4, h5⟩ := psfInitH_several h 1 hn hd
  refine ⟨h, o, h1, hn, hd, ?_, ?_, ?_, ?_, ?_⟩
  · have := congrArg PsfObj.zernpol h2
    exact this
  · rw [h2]; exact hn
  · rw [h2]
    intro z hz
    simp only [h, List.mem_cons, List.not_mem_nil, or_false] at hz
    rcases hz with rfl | rfl <;> decide
  · rw [h2]; simp [h]
  · unfold PhysicalOk; norm_num

end Verif.Props
