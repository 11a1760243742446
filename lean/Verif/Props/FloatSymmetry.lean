import Verif.Proofs.FloatSymmetry

/-!
# C105: symmetries hold to the last bit

In double precision (and in every arithmetic with symmetric operations) the mirror symmetry of the polynomials, the symmetry of revolution for `m = 0` and the change of the sign
of all amplitudes hold exactly, not only up to rounding errors. As C78 the theorems allow any histories `h`, `h'`.
-/

namespace Verif.Props
open Verif.Model Verif.Spec Verif.Proofs

/-- An arithmetic with symmetric operations: rounding does not depend on the sign, `cos` is even and `sin` is odd. -/
structure SymmetricArith (F : FloatArith) : Prop where
  fl : ∀ x, F.fl (-x) = -F.fl x
  cos : ∀ x, F.cos (-x) = F.cos x
  sin : ∀ x, F.sin (-x) = -F.sin x

/-- Double precision is such an arithmetic. -/
theorem doubles_symmetric : SymmetricArith doubles where
  fl := binary64_neg
  cos x := by simp only [doubles, Real.cos_neg]
  sin x := by simp only [doubles, Real.sin_neg, binary64_neg]

theorem SymmetricArith.fl_zero {F : FloatArith} (hF : SymmetricArith F) : F.fl 0 = 0 := by
  have := hF.fl 0
  rw [neg_zero] at this
  linarith

theorem triangular_mirror {F : FloatArith} (hF : SymmetricArith F) (m : Int) (t : ℝ) :
    triangularFl F m ⟨-t⟩ = if m < 0 then ⟨-(triangularFl F m ⟨t⟩).val⟩ else triangularFl F m ⟨t⟩ := by
  have e : ((m : Fl F) * (⟨-t⟩ : Fl F)).val = -((m : Fl F) * (⟨t⟩ : Fl F)).val := by
    show F.fl ((m : Fl F).val * -t) = -F.fl ((m : Fl F).val * t)
    rw [mul_neg, hF.fl]
  unfold triangularFl
  by_cases hm : m < 0
  · rw [if_pos hm, if_neg (by omega), if_neg (by omega)]
    show (⟨-F.sin ((m : Fl F) * (⟨-t⟩ : Fl F)).val⟩ : Fl F) = ⟨-(-F.sin ((m : Fl F) * (⟨t⟩ : Fl F)).val)⟩
    rw [e, hF.sin]
  · rw [if_neg hm, if_pos (by omega), if_pos (by omega), e, hF.cos]

theorem product_mirror {F : FloatArith} (hF : SymmetricArith F) (a b w : Fl F) : (a * ⟨-b.val⟩ * w).val = -(a * b * w).val := by
  show F.fl (F.fl (a.val * -b.val) * w.val) = -F.fl (F.fl (a.val * b.val) * w.val)
  rw [mul_neg, hF.fl, neg_mul, hF.fl]

theorem triangular_revolution {F : FloatArith} (hF : SymmetricArith F) (t t' : ℝ) : triangularFl F 0 ⟨t⟩ = triangularFl F 0 ⟨t'⟩ := by
  have e : ∀ t, ((0 : Int) : Fl F) * (⟨t⟩ : Fl F) = ⟨0⟩ := by
    intro t
    show (⟨F.fl (F.fl ((0 : Int) : ℝ) * t)⟩ : Fl F) = ⟨0⟩
    rw [Int.cast_zero, hF.fl_zero, zero_mul, hF.fl_zero]
  unfold triangularFl
  rw [e, e]

/-- C105. `polynomial_value(r, -θ)` is `polynomial_value(r, θ)` for the cosine polynomials (`m ≥ 0`) and its negative for the sine polynomials (`m < 0`), to the last bit. -/
theorem value_mirrored_exactly (F : FloatArith) (hF : SymmetricArith F) (h h' : List Call) (fuel : Nat) (exact : Bool) (m n : Int) (hv : ValidOrders m n) (hf : n.toNat + 1 < fuel)
    (r : Fl F) (t : ℝ) :
    ∃ y : ℝ, (polynomialFl F fuel exact m n r ⟨t⟩ (afterCalls h)).1 = .ok ⟨y⟩ ∧
      (polynomialFl F fuel exact m n r ⟨-t⟩ (afterCalls h')).1 = .ok ⟨if m < 0 then -y else y⟩ := by
  unfold polynomialFl
  by_cases hc : exact ∧ n > maxRadialOrderCoeffs
  · rw [if_pos hc, if_pos hc]
    exact ⟨0, rfl, by rw [neg_zero, ite_self]; rfl⟩
  · rw [if_neg hc, if_neg hc]
    obtain ⟨w, hw, -⟩ := radialValue_both (fl_add_comm (F := F)) fuel fuel exact m m n r rfl hv hf hf
    have hw : Ret (radialFl F fuel exact m n r) w := hw
    have out : ∀ x k, ((radialFl F fuel exact m n r >>= fun v => (pure (normalizationFl F m n * triangularFl F m x * v) : CM (Fl F))) (afterCalls k)).1 =
        .ok (normalizationFl F m n * triangularFl F m x * w) := fun x k => (Ret.bind hw (ret_pure (normalizationFl F m n * triangularFl F m x * w)) _ (afterCalls_good k)).1
    refine ⟨_, out ⟨t⟩ h, (out ⟨-t⟩ h').trans ?_⟩
    rw [triangular_mirror hF]
    congr 1
    by_cases hm : m < 0
    · rw [if_pos hm, if_pos hm]
      exact congrArg Fl.mk (product_mirror hF (normalizationFl F m n) (triangularFl F m ⟨t⟩) w)
    · rw [if_neg hm, if_neg hm]
      rfl

/-- C105. For `m = 0` the value does not depend on the angle, to the last bit. -/
theorem value_of_revolution (F : FloatArith) (hF : SymmetricArith F) (h h' : List Call) (fuel : Nat) (exact : Bool) (n : Int) (hv : ValidOrders 0 n) (hf : n.toNat + 1 < fuel)
    (r : Fl F) (t t' : ℝ) :
    ∃ y, (polynomialFl F fuel exact 0 n r ⟨t⟩ (afterCalls h)).1 = .ok y ∧ (polynomialFl F fuel exact 0 n r ⟨t'⟩ (afterCalls h')).1 = .ok y := by
  unfold polynomialFl
  by_cases hc : exact ∧ n > maxRadialOrderCoeffs
  · rw [if_pos hc, if_pos hc]
    exact ⟨0, rfl, rfl⟩
  · rw [if_neg hc, if_neg hc, triangular_revolution hF t t']
    obtain ⟨w, hw, -⟩ := radialValue_both (fl_add_comm (F := F)) fuel fuel exact 0 0 n r rfl hv hf hf
    have hw : Ret (radialFl F fuel exact 0 n r) w := hw
    refine ⟨_, (Ret.bind hw (ret_pure (normalizationFl F 0 n * triangularFl F 0 ⟨t'⟩ * w)) _ (afterCalls_good h)).1, (Ret.bind hw (ret_pure (normalizationFl F 0 n * triangularFl F 0 ⟨t'⟩ * w)) _ (afterCalls_good h')).1⟩

theorem termVal_mirror (F : PsfArith) (hF : SymmetricArith F.toFloatArith) (fuel : Nat) (c : ℝ) (o : PolObj) (hv : ValidOrders o.m o.n) (hf : o.n.toNat + 1 < fuel)
    (r t : ℝ) : termVal F fuel c o r (-t) = if o.m < 0 then -termVal F fuel c o r t else termVal F fuel c o r t := by
  obtain ⟨w, hw⟩ := termVal_radial F fuel o hv hf r
  rw [hw, hw, triangular_mirror hF]
  by_cases hm : o.m < 0
  · rw [if_pos hm, if_pos hm, product_mirror hF, mul_neg]
    exact hF.fl _
  · rw [if_neg hm, if_neg hm]

theorem restVal_mirror (F : PsfArith) (hF : SymmetricArith F.toFloatArith) (fuel : Nat) (l : List (ℝ × PolObj)) (h : Usable fuel l) (r t S : ℝ) :
    ((∀ q ∈ l, 0 ≤ q.2.m) → restVal F fuel r (-t) l S = restVal F fuel r t l S) ∧
      ((∀ q ∈ l, q.2.m < 0) → restVal F fuel r (-t) l (-S) = -restVal F fuel r t l S) := by
  induction l generalizing S with
  | nil => exact ⟨fun _ => rfl, fun _ => rfl⟩
  | cons q l ih =>
    obtain ⟨c, o⟩ := q
    have ho := h (c, o) List.mem_cons_self
    have hm := termVal_mirror F hF fuel c o ho.1 ho.2 r t
    have ih := fun S => ih h.tail S
    unfold restVal at ih ⊢
    simp only [List.foldl_cons]
    constructor
    · intro hp
      have h0 : ¬ o.m < 0 := not_lt.2 (hp (c, o) List.mem_cons_self)
      rw [if_neg h0] at hm
      rw [hm]
      exact (ih _).1 fun q hq => hp q (List.mem_cons_of_mem _ hq)
    · intro hp
      have h0 : o.m < 0 := hp (c, o) List.mem_cons_self
      rw [if_pos h0] at hm
      rw [hm]
      have ih := fun S => (ih S).2 fun q hq => hp q (List.mem_cons_of_mem _ hq)
      by_cases hc : |c| > 0
      · rw [if_pos hc, if_pos hc, ← neg_add]
        rw [show F.fl (-(S + termVal F fuel c o r t)) = -F.fl (S + termVal F fuel c o r t) from hF.fl _]
        exact ih _
      · rw [if_neg hc, if_neg hc]
        exact ih _

/-- C105. The sum of cosine polynomials is the same at `-θ`, the sum of sine polynomials is negated, to the last bit. -/
theorem sum_mirrored (F : PsfArith) (hF : SymmetricArith F.toFloatArith) (h h' : List Call) (fuel : Nat) (l : List (ℝ × PolObj)) (hne : l ≠ [])
    (hl : ∀ q ∈ l, ValidOrders q.2.m q.2.n ∧ q.2.n.toNat + 1 < fuel) (r t : ℝ) :
    ∃ y y', (fltSumPoint F fuel r t l (afterCalls h)).1 = .ok y ∧ (fltSumPoint F fuel r (-t) l (afterCalls h')).1 = .ok y' ∧
      ((∀ q ∈ l, 0 ≤ q.2.m) → y' = y) ∧ ((∀ q ∈ l, q.2.m < 0) → y' = -y) := by
  obtain ⟨⟨c, o⟩, l, rfl⟩ := List.exists_cons_of_ne_nil hne
  refine ⟨_, _, (fltSumPoint_ret F fuel c o l hl r t _ (afterCalls_good h)).1, (fltSumPoint_ret F fuel c o l hl r (-t) _ (afterCalls_good h')).1, ?_⟩
  have ho := hl (c, o) List.mem_cons_self
  have hu : Usable fuel ((c, o) :: l) := hl
  have hm := termVal_mirror F hF fuel c o ho.1 ho.2 r t
  constructor
  · intro hp
    have h0 : ¬ o.m < 0 := not_lt.2 (hp (c, o) List.mem_cons_self)
    rw [if_neg h0] at hm
    rw [hm]
    exact (restVal_mirror F hF fuel l hu.tail r t _).1 fun q hq => hp q (List.mem_cons_of_mem _ hq)
  · intro hp
    have h0 : o.m < 0 := hp (c, o) List.mem_cons_self
    rw [if_pos h0] at hm
    rw [hm]
    exact (restVal_mirror F hF fuel l hu.tail r t _).2 fun q hq => hp q (List.mem_cons_of_mem _ hq)

/-- C105. All amplitudes with the other sign: `sum_zernikes` returns the negative sum, to the last bit. -/
theorem sum_negated (F : PsfArith) (hF : SymmetricArith F.toFloatArith) (h h' : List Call) (fuel : Nat) (l : List (ℝ × PolObj)) (hne : l ≠ [])
    (hl : ∀ q ∈ l, ValidOrders q.2.m q.2.n ∧ q.2.n.toNat + 1 < fuel) (r t : ℝ) :
    ∃ y : ℝ, (fltSumPoint F fuel r t l (afterCalls h)).1 = .ok y ∧ (fltSumPoint F fuel r t (l.map fun q => (-q.1, q.2)) (afterCalls h')).1 = .ok (-y) := by
  obtain ⟨⟨c, o⟩, l, rfl⟩ := List.exists_cons_of_ne_nil hne
  have hu : Usable fuel ((c, o) :: l) := hl
  have ho := hl (c, o) List.mem_cons_self
  refine ⟨_, (fltSumPoint_ret F fuel c o l hl r t _ (afterCalls_good h)).1, ?_⟩
  rw [← restVal_neg F hF.fl fuel l hu.tail, ← termVal_neg F hF.fl fuel c o ho.1 ho.2]
  exact (fltSumPoint_ret F fuel (-c) o (negated l) (negated_usable hu) r t _ (afterCalls_good h')).1

/-- C105. The same for the surfaces of `sum_zernikes(..., get_surface=True)` and the sums on a mesh. -/
theorem surface_negated (F : PsfArith) (hF : SymmetricArith F.toFloatArith) (h h' : List Call) (fuel : Nat) (l : List (ℝ × PolObj)) (hne : l ≠ [])
    (hl : ∀ q ∈ l, ValidOrders q.2.m q.2.n ∧ q.2.n.toNat + 1 < fuel) (r t : List ℝ) :
    (∃ g g', (fltSumSurface F fuel r t l (afterCalls h)).1 = .ok g ∧ (fltSumSurface F fuel r t (l.map fun q => (-q.1, q.2)) (afterCalls h')).1 = .ok g' ∧
      g'.rows = g.rows ∧ g'.cols = g.cols ∧ ∀ i j, i < g.rows → j < g.cols → g'.entry i j = -g.entry i j) ∧
    (∃ g g', (fltSumMesh F fuel r t l (afterCalls h)).1 = .ok g ∧ (fltSumMesh F fuel r t (l.map fun q => (-q.1, q.2)) (afterCalls h')).1 = .ok g' ∧
      g'.rows = g.rows ∧ g'.cols = g.cols ∧ ∀ i j, i < g.rows → j < g.cols → g'.entry i j = -g.entry i j) := by
  have hu : Usable fuel l := hl
  have hz : Fills r t (Grid.zeros r.length t.length) fun _ _ => 0 := ⟨rfl, rfl, fun _ _ _ _ => rfl⟩
  have hz' : Fills r t (Grid.zeros r.length t.length) fun _ _ => -0 := by rw [neg_zero]; exact hz
  have hlen : 0 < l.length := List.length_pos_iff.2 hne
  constructor
  · obtain ⟨⟨g, e, a1, a2, a3⟩, -⟩ := surfaceLoop_ret F fuel _ hl r t _ _ hz _ (afterCalls_good h)
    obtain ⟨⟨g', e', b1, b2, b3⟩, -⟩ := surfaceLoop_ret F fuel _ (negated_usable hu) r t _ _ hz' _ (afterCalls_good h')
    refine ⟨g, g', ?_, ?_, b1.trans a1.symm, b2.trans a2.symm, fun i j hi hj => ?_⟩
    · unfold fltSumSurface
      rw [if_neg (by omega)]
      exact e
    · unfold fltSumSurface
      rw [if_neg (by rw [List.length_map]; omega)]
      exact e'
    · rw [a1] at hi
      rw [a2] at hj
      rw [a3 i hi j hj, b3 i hi j hj]
      exact restVal_neg F hF.fl fuel l hu _ _ 0
  · obtain ⟨⟨g, e, a1, a2, a3⟩, -⟩ := meshLoop_ret F fuel _ hl r t _ _ hz _ (afterCalls_good h)
    obtain ⟨⟨g', e', b1, b2, b3⟩, -⟩ := meshLoop_ret F fuel _ (negated_usable hu) r t _ _ hz' _ (afterCalls_good h')
    refine ⟨g, g', e, e', b1.trans a1.symm, b2.trans a2.symm, fun i j hi hj => ?_⟩
    rw [a1] at hi
    rw [a2] at hj
    rw [a3 i hi j hj, b3 i hi j hj]
    exact restVal_neg F hF.fl fuel l hu _ _ 0

/-- C105. The same for the images of `generate_phases_image` in double precision. -/
theorem image_negated (s : List ℝ → ℝ) (h h' : List Call) (fuel : Nat) (l : List (ℝ × PolObj)) (hne : l ≠ [])
    (hl : ∀ q ∈ l, ValidOrders q.2.m q.2.n ∧ q.2.n.toNat + 1 < fuel) (width height : Nat) (hw : 0 < width) (hR : min width height ≤ 2 ^ 25) :
    ∃ g g', (generatePhasesImageFl (psfDoubles s) fuel l width height (afterCalls h)).1 = .ok g ∧
      (generatePhasesImageFl (psfDoubles s) fuel (l.map fun q => (-q.1, q.2)) width height (afterCalls h')).1 = .ok g' ∧
      g.rows = height ∧ g.cols = width ∧ g'.rows = height ∧ g'.cols = width ∧ ∀ i j, i < height → j < width → g'.entry i j = -g.entry i j := by
  obtain ⟨⟨c, o⟩, l, rfl⟩ := List.exists_cons_of_ne_nil hne
  have hu : Usable fuel ((c, o) :: l) := hl
  have ho := hl (c, o) List.mem_cons_self
  obtain ⟨⟨g, e, a1, a2, a3⟩, -⟩ := image_pixels s fuel c o l hl height width hw hR height 0 (Grid.zeros height width) _ (afterCalls_good h)
  obtain ⟨⟨g', e', b1, b2, b3⟩, -⟩ := image_pixels s fuel (-c) o (negated l) (negated_usable hu) height width hw hR height 0 (Grid.zeros height width) _ (afterCalls_good h')
  refine ⟨g, g', e, e', a1, a2, b1, b2, fun i j hi hj => ?_⟩
  rw [a3 i j hj, b3 i j hj, if_pos (show 0 ≤ i ∧ i < 0 + height by omega), if_pos (show 0 ≤ i ∧ i < 0 + height by omega)]
  split_ifs
  · rw [neg_zero]
  · rw [termVal_neg (psfDoubles s) binary64_neg fuel c o ho.1 ho.2, restVal_neg (psfDoubles s) binary64_neg fuel l hu.tail]

theorem termVal_revolution (F : PsfArith) (hF : SymmetricArith F.toFloatArith) (fuel : Nat) (c : ℝ) (o : PolObj) (hv : ValidOrders o.m o.n) (hf : o.n.toNat + 1 < fuel)
    (h0 : o.m = 0) (r t t' : ℝ) : termVal F fuel c o r t = termVal F fuel c o r t' := by
  obtain ⟨w, hw⟩ := termVal_radial F fuel o hv hf r
  rw [hw, hw, h0, triangular_revolution hF t t']

theorem restVal_revolution (F : PsfArith) (hF : SymmetricArith F.toFloatArith) (fuel : Nat) (l : List (ℝ × PolObj)) (h : Usable fuel l) (h0 : ∀ q ∈ l, q.2.m = 0)
    (r t t' S : ℝ) : restVal F fuel r t l S = restVal F fuel r t' l S := by
  induction l generalizing S with
  | nil => rfl
  | cons q l ih =>
    have ih := ih h.tail fun q hq => h0 q (List.mem_cons_of_mem _ hq)
    have ho := h q List.mem_cons_self
    unfold restVal at ih ⊢
    simp only [List.foldl_cons]
    rw [termVal_revolution F hF fuel q.1 q.2 ho.1 ho.2 (h0 q List.mem_cons_self) r t t']
    exact ih _

theorem imgDistFl_same (F : PsfArith) (height width i j i' j' : Nat)
    (hd : ((i' : ℤ) - (height / 2 : Nat)) ^ 2 + ((j' : ℤ) - (width / 2 : Nat)) ^ 2 = ((i : ℤ) - (height / 2 : Nat)) ^ 2 + ((j : ℤ) - (width / 2 : Nat)) ^ 2) :
    imgDistFl F height width i' j' = imgDistFl F height width i j := by
  unfold imgDistFl
  generalize height / 2 = a at *
  generalize width / 2 = b at *
  congr 1
  have := congrArg (Int.cast (R := ℝ)) hd
  push_cast at this ⊢
  linarith

/-- C105. An image of polynomials with `m = 0` (piston, defocus, spherical aberrations): pixels at the same distance from the centre are the same number, to the last bit. -/
theorem image_of_revolution (s : List ℝ → ℝ) (h : List Call) (fuel : Nat) (l : List (ℝ × PolObj)) (hne : l ≠ [])
    (hl : ∀ q ∈ l, ValidOrders q.2.m q.2.n ∧ q.2.n.toNat + 1 < fuel) (h0 : ∀ q ∈ l, q.2.m = 0) (width height : Nat) (hw : 0 < width) (hR : min width height ≤ 2 ^ 25) :
    ∃ g, (generatePhasesImageFl (psfDoubles s) fuel l width height (afterCalls h)).1 = .ok g ∧ g.rows = height ∧ g.cols = width ∧
      ∀ i j i' j', i < height → j < width → i' < height → j' < width →
        ((i' : ℤ) - (height / 2 : Nat)) ^ 2 + ((j' : ℤ) - (width / 2 : Nat)) ^ 2 = ((i : ℤ) - (height / 2 : Nat)) ^ 2 + ((j : ℤ) - (width / 2 : Nat)) ^ 2 →
        g.entry i' j' = g.entry i j := by
  obtain ⟨⟨c, o⟩, l, rfl⟩ := List.exists_cons_of_ne_nil hne
  obtain ⟨⟨g, e, a1, a2, a3⟩, -⟩ := image_pixels s fuel c o l hl height width hw hR height 0 (Grid.zeros height width) _ (afterCalls_good h)
  refine ⟨g, e, a1, a2, fun i j i' j' hi hj hi' hj' hd => ?_⟩
  have hd' := imgDistFl_same (psfDoubles s) height width i j i' j' hd
  have hr : imgRFl (psfDoubles s) height width i' j' = imgRFl (psfDoubles s) height width i j := by
    unfold imgRFl
    rw [hd']
  rw [a3 i j hj, a3 i' j' hj', if_pos (show 0 ≤ i ∧ i < 0 + height by omega), if_pos (show 0 ≤ i' ∧ i' < 0 + height by omega), hd', hr]
  have hu : Usable fuel ((c, o) :: l) := hl
  have ho := hl (c, o) List.mem_cons_self
  have hS : SymmetricArith (psfDoubles s).toFloatArith := doubles_symmetric
  generalize imgThetaFl (psfDoubles s) height width i j = t
  generalize imgThetaFl (psfDoubles s) height width i' j' = t'
  generalize imgRFl (psfDoubles s) height width i j = r
  generalize psfDoubles s = F at *
  rw [termVal_revolution F hS fuel c o ho.1 ho.2 (h0 (c, o) List.mem_cons_self) r t' t,
    restVal_revolution F hS fuel l hu.tail (fun q hq => h0 q (List.mem_cons_of_mem _ hq)) r t' t]

/-- The symmetry of the operations is needed: an arithmetic that rounds down gives different bits at `θ` and `-θ`. -/
theorem rounding_down_not_symmetric : ∃ F : FloatArith, (∀ x, F.cos (-x) = F.cos x) ∧ (∀ x, F.sin (-x) = -F.sin x) ∧ (∀ x, |F.fl x - x| ≤ 1) ∧
    ¬ ∃ y : ℝ, (polynomialFl F 10 false (-1) 1 ⟨1⟩ ⟨1⟩ (afterCalls [])).1 = .ok ⟨y⟩ ∧ (polynomialFl F 10 false (-1) 1 ⟨1⟩ ⟨-1⟩ (afterCalls [])).1 = .ok ⟨-y⟩ := by
  refine ⟨⟨fun x => ⌊x⌋, fun x k => x ^ k, fun _ => 1, fun _ => 1, fun x => x / 2⟩, fun _ => rfl, fun x => neg_div 2 x, fun x => ?_, ?_⟩
  · rw [abs_sub_comm, abs_le]
    constructor <;> have := Int.floor_le x <;> have := Int.lt_floor_add_one x <;> simp only <;> linarith
  · rintro ⟨y, h1, h2⟩
    have r1 : ∀ t : ℝ, (polynomialFl (⟨fun x => ⌊x⌋, fun x k => x ^ k, fun _ => 1, fun _ => 1, fun x => x / 2⟩ : FloatArith) 10 false (-1) 1 ⟨1⟩ ⟨t⟩ (afterCalls [])).1 =
        .ok ⟨⌊((⌊((1 : ℝ) * -((⌊((⌊((-1 : ℤ) : ℝ)⌋ : ℤ) : ℝ) * t⌋ : ℝ) / 2))⌋ : ℤ) : ℝ) * 1⌋⟩ := fun t => rfl
    rw [r1] at h1 h2
    injection h1 with h1
    injection h2 with h2
    injection h1 with h1
    injection h2 with h2
    rw [← h1] at h2
    norm_num at h2

/-- Oblique astigmatism and coma in double precision: mirrored angles give negated values. -/
example (h h' : List Call) (r : Fl doubles) : ∃ y : ℝ, (polynomialFl doubles 10 false (-2) 4 r ⟨0.7⟩ (afterCalls h)).1 = .ok ⟨y⟩ ∧
    (polynomialFl doubles 10 false (-2) 4 r ⟨-0.7⟩ (afterCalls h')).1 = .ok ⟨-y⟩ :=
  value_mirrored_exactly doubles doubles_symmetric h h' 10 false (-2) 4 (by decide) (by decide) r 0.7

/-- Defocus on an image of 5 by 7 pixels: the four neighbours of the centre are the same number. -/
example (s : List ℝ → ℝ) : ∃ g, (generatePhasesImageFl (psfDoubles s) 10 [(0.5, ⟨0, 2, false⟩)] 7 5 (afterCalls [])).1 = .ok g ∧
    g.entry 2 4 = g.entry 2 2 ∧ g.entry 1 3 = g.entry 3 3 ∧ g.entry 1 3 = g.entry 2 4 := by
  obtain ⟨g, e, -, -, hg⟩ := image_of_revolution s [] 10 [(0.5, ⟨0, 2, false⟩)] (by simp) (by simp; decide) (by simp) 7 5 (by norm_num) (by norm_num)
  exact ⟨g, e, hg 2 2 2 4 (by norm_num) (by norm_num) (by norm_num) (by norm_num) (by norm_num), hg 3 3 1 3 (by norm_num) (by norm_num) (by norm_num) (by norm_num) (by norm_num),
    hg 2 4 1 3 (by norm_num) (by norm_num) (by norm_num) (by norm_num) (by norm_num)⟩

end Verif.Props
