import Verif.Proofs.Sums
import Verif.Props.Evaluate

/-!
# C23, C24: sums of polynomials, polar grids
-/

namespace Verif.Props
open Verif.Model Verif.Spec Verif.Proofs

/-- Polynomials with valid orders, within the recursion budget. -/
def PolsOk (fuel : Nat) (os : List PolObj) : Prop := ∀ o ∈ os, ValidOrders o.m o.n ∧ o.n.toNat + 1 < fuel

/-- The orders `(m, n)` of the polynomials. -/
def ordersOf (os : List PolObj) : List (Int × Int) := os.map fun o => (o.m, o.n)

theorem zip_pol (cs : List ℝ) (os : List PolObj) :
    cs.zip (os.map PolItem.pol) = (cs.zip os).map fun p => (p.1, .pol p.2) := List.zip_map_right

theorem termSum_eq (cs : List ℝ) (os : List PolObj) : termSum (cs.zip os) = combination cs (ordersOf os) := by
  funext r t
  simp [termSum, combination, ordersOf, List.zip_map_right, Function.comp_def]

theorem pols_zip {fuel : Nat} {os : List PolObj} (h : PolsOk fuel os) (cs : List ℝ) :
    ∀ p ∈ cs.zip os, ValidOrders p.2.m p.2.n ∧ p.2.n.toNat + 1 < fuel := fun _ hp => h _ (List.of_mem_zip hp).2

theorem zip_ne_nil {cs : List ℝ} {os : List PolObj} (hl : cs.length = os.length) (h0 : os ≠ []) : cs.zip os ≠ [] := by
  intro h
  have := congrArg List.length h
  rw [List.length_zip, hl, Nat.min_self] at this
  exact h0 (List.length_eq_zero_iff.1 this)

/-- Everything about a sum at points, in terms of the checked arguments. -/
theorem sum_points_checked (h : List Call) (fuel : Nat) (cs : List ℝ) (os : List PolObj) (hl : cs.length = os.length)
    (h0 : os ≠ []) (hv : PolsOk fuel os) (r t : Arg) (g : Bool) (hg : g = true → ∀ a b c d, ¬ (r = .arr a b ∧ t = .arr c d))
    (x y : Num) (w : List Warn) (hx : checkRadii r = .ok x) (hy : checkAngles t = .ok (y, w)) (hs : shapesDiffer x y = false) :
    (sumZernikes fuel cs (os.map .pol) r t g (afterCalls h)).1 =
      .ok (.points (Num.pt (combination cs (ordersOf os)) x y)) := by
  have hlen : cs.length ≠ 0 := by rw [hl]; simpa using h0
  have key : Ret (do let v ← sumPoints fuel r t (cs.zip (os.map .pol)); pure (SumOut.points v))
      (.points (Num.pt (combination cs (ordersOf os)) x y)) := by
    rw [zip_pol, ← termSum_eq]
    exact Ret.bind (sumPoints_ok fuel r t x y w hx hy hs _ (zip_ne_nil hl h0) (pols_zip hv cs)) (ret_pure _)
  have key := (key _ (afterCalls_good h)).1
  rw [← key]
  unfold sumZernikes
  rw [if_neg (by simp [hl]), if_neg hlen]
  cases g with
  | false => rfl
  | true =>
    rw [if_pos rfl]
    have hg := hg rfl
    split
    · exact absurd ⟨rfl, rfl⟩ (hg _ _ _ _)
    · exact absurd ⟨rfl, rfl⟩ (hg _ _ _ _)
    · rfl

/-- C23. At one point `sum_zernikes` is `Σ c_i Z_i(r, theta)` (with or without `get_surface`), after any history of calls. -/
theorem sum_at_point (h : List Call) (fuel : Nat) (cs : List ℝ) (os : List PolObj) (hl : cs.length = os.length)
    (h0 : os ≠ []) (hv : PolsOk fuel os) (r t : ℝ) (hr0 : 0 ≤ r) (hr1 : r ≤ 1) (g : Bool) :
    (sumZernikes fuel cs (os.map .pol) (.num r) (.num t) g (afterCalls h)).1 =
      .ok (.points (.scalar (combination cs (ordersOf os) r t))) := by
  obtain ⟨w, hw, _⟩ := checkAngles_num t
  exact sum_points_checked h fuel cs os hl h0 hv _ _ g (by intro _ a b c d h; cases h.1) _ _ w (checkRadii_num r hr0 hr1) hw rfl

/-- C23. On arrays of the same shape, or an array and a number, the sum is taken point by point. -/
theorem sum_at_points (h : List Call) (fuel : Nat) (cs : List ℝ) (os : List PolObj) (hl : cs.length = os.length)
    (h0 : os ≠ []) (hv : PolsOk fuel os) (sh : List Nat) :
    (∀ d t, d ≠ [] → t ≠ [] → (∀ x ∈ d, 0 ≤ x ∧ x ≤ 1) →
      (sumZernikes fuel cs (os.map .pol) (.arr sh d) (.arr sh t) false (afterCalls h)).1 =
        .ok (.points (.array sh (List.zipWith (combination cs (ordersOf os)) d t)))) ∧
    (∀ d t g, d ≠ [] → (∀ x ∈ d, 0 ≤ x ∧ x ≤ 1) →
      (sumZernikes fuel cs (os.map .pol) (.arr sh d) (.num t) g (afterCalls h)).1 =
        .ok (.points (.array sh (d.map fun x => combination cs (ordersOf os) x t)))) ∧
    (∀ x t g, t ≠ [] → 0 ≤ x → x ≤ 1 →
      (sumZernikes fuel cs (os.map .pol) (.num x) (.arr sh t) g (afterCalls h)).1 =
        .ok (.points (.array sh (t.map fun y => combination cs (ordersOf os) x y)))) := by
  refine ⟨fun d t hd ht hr => ?_, fun d t g hd hr => ?_, fun x t g ht hx0 hx1 => ?_⟩
  · obtain ⟨w, hw, _⟩ := checkAnglesArray_ok sh t ht
    exact sum_points_checked h fuel cs os hl h0 hv _ (.arr sh t) false (by simp) _ _ w (checkRadii_arr sh d hd hr).1 hw
      (by simp [shapesDiffer])
  · obtain ⟨w, hw, _⟩ := checkAngles_num t
    exact sum_points_checked h fuel cs os hl h0 hv _ _ g (by intro _ a b c d h; cases h.2) _ _ w (checkRadii_arr sh d hd hr).1 hw rfl
  · obtain ⟨w, hw, _⟩ := checkAnglesArray_ok sh t ht
    exact sum_points_checked h fuel cs os hl h0 hv _ (.arr sh t) g (by intro _ a b c d h; cases h.1) _ _ w
      (checkRadii_num x hx0 hx1) hw rfl

/-- A surface has one row per radius, one column per angle, and element `[i, j]` is `f(r_i, theta_j)`. -/
def IsSurface (g : Grid) (r t : List ℝ) (f : ℝ → ℝ → ℝ) : Prop :=
  g.rows = r.length ∧ g.cols = t.length ∧
    ∀ i (hi : i < r.length) j (hj : j < t.length), g.entry i j = f r[i] t[j]

theorem isSurface_of (g : Grid) (r t : List ℝ) (f : ℝ → ℝ → ℝ) (h : SameGrid r t g f) : IsSurface g r t f := by
  refine ⟨h.1, h.2.1, fun i hi j hj => ?_⟩
  rw [h.2.2 i hi j hj]; simp [hi, hj]

theorem zeros_sameGrid (r t : List ℝ) : SameGrid r t (Grid.zeros r.length t.length) fun _ _ => 0 :=
  ⟨rfl, rfl, fun _ _ _ _ => rfl⟩

/-- C23. The surface: for any numbers of radii and angles (so for both loop orders), any history. -/
theorem sum_surface (h : List Call) (fuel : Nat) (cs : List ℝ) (os : List PolObj) (hl : cs.length = os.length)
    (h0 : os ≠ []) (hv : PolsOk fuel os) (r t : List ℝ) (hr0 : r ≠ []) (ht : t ≠ []) (hr : ∀ x ∈ r, 0 ≤ x ∧ x ≤ 1) (a b : Nat) :
    ∃ g, (sumZernikes fuel cs (os.map .pol) (.arr [a] r) (.arr [b] t) true (afterCalls h)).1 = .ok (.surface g) ∧
      IsSurface g r t (combination cs (ordersOf os)) := by
  have hlen : cs.length ≠ 0 := by rw [hl]; simpa using h0
  have key : RetP (do let g ← sumSurface fuel r t (cs.zip (os.map .pol)) (Grid.zeros r.length t.length); pure (SumOut.surface g))
      fun o => ∃ g, o = .surface g ∧ IsSurface g r t (combination cs (ordersOf os)) := by
    rw [zip_pol]
    refine RetP.bind (sumSurface_ok fuel r t hr0 ht hr _ (pols_zip hv cs) _ _ (zeros_sameGrid r t)) fun g hg =>
      retP_pure _ ⟨g, rfl, ?_⟩
    rw [← termSum_eq]
    simpa using isSurface_of _ _ _ _ hg
  obtain ⟨⟨v, h1, g, rfl, h2⟩, _⟩ := key _ (afterCalls_good h)
  refine ⟨g, ?_, h2⟩
  rw [← h1]
  unfold sumZernikes
  rw [if_neg (by simp [hl]), if_neg hlen, if_pos rfl]

/-- C23. The mesh variant computes the same surface. -/
theorem sum_meshgrid_surface (h : List Call) (fuel : Nat) (cs : List ℝ) (os : List PolObj) (hl : cs.length = os.length)
    (hv : PolsOk fuel os) (r t : List ℝ) (hr0 : r ≠ []) (ht : t ≠ []) (hr : ∀ x ∈ r, 0 ≤ x ∧ x ≤ 1) (a b : Nat) :
    ∃ g, (sumZernikesMeshgrid fuel cs (os.map .pol) (.arr [a] r) (.arr [b] t) (afterCalls h)).1 = .ok (.surface g) ∧
      IsSurface g r t (combination cs (ordersOf os)) := by
  have key : RetP (do let g ← sumMesh fuel r t (cs.zip (os.map .pol)) (Grid.zeros r.length t.length); pure (SumOut.surface g))
      fun o => ∃ g, o = .surface g ∧ IsSurface g r t (combination cs (ordersOf os)) := by
    rw [zip_pol]
    refine RetP.bind (sumMesh_ok fuel r t hr0 ht hr _ (pols_zip hv cs) _ _ (zeros_sameGrid r t)) fun g hg =>
      retP_pure _ ⟨g, rfl, ?_⟩
    rw [← termSum_eq]
    simpa using isSurface_of _ _ _ _ hg
  obtain ⟨⟨v, h1, g, rfl, h2⟩, _⟩ := key _ (afterCalls_good h)
  refine ⟨g, ?_, h2⟩
  rw [← h1]
  unfold sumZernikesMeshgrid
  rw [if_neg (by simp [hl])]

example : ∃ (fuel : Nat) (cs : List ℝ) (os : List PolObj), cs.length = os.length ∧ os ≠ [] ∧ PolsOk fuel os ∧
    combination cs (ordersOf os) 1 0 = 2 * zernike 0 2 1 0 - zernike (-3) 3 1 0 := by
  refine ⟨100, [2, -1], [⟨0, 2, false⟩, ⟨-3, 3, false⟩], rfl, by simp, ?_, ?_⟩
  · intro o ho
    fin_cases ho <;> exact ⟨by decide, by decide⟩
  · simp [combination, ordersOf]; ring

/-- C23. Different lengths and empty lists raise `ValueError`. -/
theorem sum_bad_lists (fuel : Nat) (cs : List ℝ) (ps : List PolItem) (r t : Arg) (g : Bool) (s : CoefState)
    (hb : cs.length ≠ ps.length ∨ ps = []) : (sumZernikes fuel cs ps r t g s).1 = .error .valueError := by
  unfold sumZernikes
  split_ifs with h1 h2
  · rfl
  · rfl
  · rcases hb with hb | hb
    · exact absurd hb h1
    · subst hb; exact absurd (by simpa using h1) h2
  · rcases hb with hb | hb
    · exact absurd hb h1
    · subst hb; exact absurd (by simpa using h1) h2

/-- C23. A list with something that is not a polynomial raises `ValueError`, at points and on a surface, wherever it stands. -/
theorem sum_not_polynomial (h : List Call) (fuel : Nat) (cs : List ℝ) (os : List PolObj) (rest : List PolItem)
    (hl : cs.length = os.length + 1 + rest.length) (hv : PolsOk fuel os) :
    (∀ r t, RadiiOk r → AnglesOk t → ShapesOk r t →
      (sumZernikes fuel cs (os.map .pol ++ .other :: rest) r t false (afterCalls h)).1 = .error .valueError) ∧
    (∀ (r t : List ℝ) (a b : Nat), r ≠ [] → t ≠ [] → (∀ x ∈ r, 0 ≤ x ∧ x ≤ 1) →
      (sumZernikes fuel cs (os.map .pol ++ .other :: rest) (.arr [a] r) (.arr [b] t) true (afterCalls h)).1 = .error .valueError) := by
  obtain ⟨cs1, c, cs2, rfl, hc⟩ : ∃ cs1 c cs2, cs = cs1 ++ c :: cs2 ∧ cs1.length = os.length := by
    refine ⟨cs.take os.length, cs[os.length]'(by omega), cs.drop (os.length + 1), ?_, by simp; omega⟩
    rw [← List.drop_eq_getElem_cons (by omega), List.take_append_drop]
  have e : (cs1 ++ c :: cs2).zip (os.map PolItem.pol ++ .other :: rest) =
      (cs1.zip os).map (fun p => (p.1, .pol p.2)) ++ (c, .other) :: cs2.zip rest := by
    rw [List.zip_append (by simpa using hc), zip_pol]; rfl
  have hn : ¬ ((cs1 ++ c :: cs2).length ≠ (os.map PolItem.pol ++ .other :: rest).length) := by
    push Not; rw [hl]; simp; omega
  have hn0 : ¬ ((cs1 ++ c :: cs2).length = 0) := by simp
  refine ⟨fun r t hr ht hs => ?_, fun r t a b hr0 ht hr => ?_⟩
  · obtain ⟨x, hx⟩ := (checkRadii_ok_iff r).2 hr
    obtain ⟨y, w, hy⟩ := (checkAngles_ok_iff t).2 ht
    have hsd : shapesDiffer x y = false := by
      rw [Bool.eq_false_iff]; intro hd; exact (mismatch_iff r t x y w hx hy).1 hd hs
    unfold sumZernikes
    rw [if_neg hn, if_neg hn0, e]
    have := Fails.bind (f := fun v => pure (SumOut.points v))
      (sumPoints_fails fuel r t x y w hx hy hsd (cs1.zip os) (pols_zip hv cs1) c (cs2.zip rest))
    exact this _ (afterCalls_good h)
  · unfold sumZernikes
    rw [if_neg hn, if_neg hn0, e, if_pos rfl]
    have := Fails.bind (f := fun v => pure (SumOut.surface v))
      (sumSurface_fails fuel r t hr0 ht hr (cs1.zip os) (pols_zip hv cs1) c (cs2.zip rest) (Grid.zeros r.length t.length))
    exact this _ (afterCalls_good h)

end Verif.Props
