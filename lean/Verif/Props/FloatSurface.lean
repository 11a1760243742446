import Verif.Model.FloatSurface
import Verif.Props.FloatMesh
import Verif.Props.FloatSums
import Verif.Props.RoundTrip

/-!
# C97: gen_zernikes_surface in double precision
-/

namespace Verif.Props
open Verif.Model Verif.Spec Verif.Proofs

/-- The parameters of the grid of `gen_zernikes_surface`: a number of points, or steps (of the double precision) in the documented ranges. -/
def GridSteps (rStep thetaStep : ℝ) (equalN : Bool) (nPoints : Int) : Prop :=
  if equalN then nPoints ≤ 2 ^ 48
  else binary64 rStep = rStep ∧ binary64 thetaStep = thetaStep ∧ 2 ^ (-50 : ℤ) ≤ rStep ∧ rStep ≤ 1 / 2 ∧ 2 ^ (-48 : ℤ) ≤ thetaStep ∧ thetaStep ≤ Real.pi

/-- What every grid has: it starts at the centre and the angle 0, lies on the disk, and its last angle is 2π up to 2^-48. -/
structure DiskGrid (rs ts : List ℝ) : Prop where
  centre : rs.head? = some 0
  zero : ts.head? = some 0
  radii : ∀ x ∈ rs, 0 ≤ x ∧ x ≤ 1
  angles : ∀ y ∈ ts, 0 ≤ y ∧ y ≤ 2 * Real.pi
  full : ∃ y, ts.getLast? = some y ∧ 2 * Real.pi - 2 ^ (-48 : ℤ) ≤ y

theorem grid_steps_ok {rStep thetaStep : ℝ} {equalN : Bool} {nPoints : Int} (h : GridSteps rStep thetaStep equalN nPoints) :
    ∃ rs ts, (if equalN then .ok (genEqualPolarMeshFl doubles nPoints) else genPolarCoordinatesFl doubles rStep thetaStep) = Except.ok (ε := PyErr) (rs, ts) ∧
      DiskGrid rs ts := by
  unfold GridSteps at h
  cases equalN with
  | true =>
    rw [if_pos rfl] at h
    obtain ⟨⟨-, a, -⟩, -, b, -⟩ := gen_equal_mesh_double nPoints h
    obtain ⟨c, d, -⟩ := gen_equal_mesh_double_on_disk nPoints h
    refine ⟨_, _, rfl, a.starts, b.starts, c, d, _, b.ends, ?_⟩
    have := twoPi_near.2
    have z : (2 : ℝ) ^ (-48 : ℤ) = 8 * 2 ^ (-51 : ℤ) := by norm_num
    have zp : (0 : ℝ) < 2 ^ (-51 : ℤ) := by positivity
    rw [z]; linarith
  | false =>
    rw [if_neg (by decide)] at h
    obtain ⟨h1, h2, h3, h4, h5, h6⟩ := h
    obtain ⟨rs, ts, e, a, b⟩ := gen_polar_double rStep thetaStep h1 h2 h3 h4 h5 h6
    exact ⟨rs, ts, e, a.starts, b.starts, a.inside, b.inside, b.ends⟩

/-- The sizes of the coefficients (0 counts as the smallest normal number). -/
noncomputable def coefficientSize (l : List (ℝ × PolObj)) : ℝ := (l.map fun q => max |q.1| (2⁻¹ ^ 1022)).sum

/-- The exact value of the combination. -/
noncomputable def exactSum (l : List (ℝ × PolObj)) (r t : ℝ) : ℝ := (l.map fun q => q.1 * zernike q.2.m q.2.n r t).sum

theorem coefficientSize_nonneg (l : List (ℝ × PolObj)) : 0 ≤ coefficientSize l := by
  refine List.sum_nonneg fun x hx => ?_
  obtain ⟨q, -, rfl⟩ := List.mem_map.1 hx
  exact (abs_nonneg _).trans (le_max_left _ _)

theorem norm_le_five (m n : Int) (hn : n ≤ 10) (h0 : 0 ≤ n) : Spec.norm m n ≤ 5 := by
  have h1 : (n : ℝ) ≤ 10 := by exact_mod_cast hn
  have h2 : (0 : ℝ) ≤ n := by exact_mod_cast h0
  unfold Spec.norm
  rw [show (5 : ℝ) = Real.sqrt 25 by rw [show (25 : ℝ) = 5 ^ 2 by norm_num, Real.sqrt_sq (by norm_num)]]
  apply Real.sqrt_le_sqrt
  split_ifs <;> linarith

/-- The exact combination changes little with the angle. -/
theorem exactSum_angle (l : List (ℝ × PolObj)) (hv : ∀ q ∈ l, ValidOrders q.2.m q.2.n) (h10 : ∀ q ∈ l, q.2.n ≤ 10) (r : ℝ) (h0 : 0 ≤ r) (h1 : r ≤ 1) (s t : ℝ) :
    |exactSum l r s - exactSum l r t| ≤ 50 * |s - t| * coefficientSize l := by
  unfold exactSum coefficientSize
  induction l with
  | nil => simp
  | cons q l ih =>
    simp only [List.map_cons, List.sum_cons]
    have i1 := ih (fun q hq => hv q (List.mem_cons_of_mem _ hq)) (fun q hq => h10 q (List.mem_cons_of_mem _ hq))
    have hq := hv q List.mem_cons_self
    have hn := (valid_iff q.2.m q.2.n).1 hq
    have hn10 := h10 q List.mem_cons_self
    have a := zernike_lip q.2.m q.2.n hq (s := s) (t := t) h0 h1 h0 h1
    rw [sub_self, abs_zero, mul_zero, zero_add] at a
    have b := norm_le_five q.2.m q.2.n hn10 hn.1
    have b0 : 0 ≤ Spec.norm q.2.m q.2.n := Real.sqrt_nonneg _
    have c : |(q.2.m : ℝ)| ≤ 10 := by
      have h2 := hq.2.1
      have : |q.2.m| ≤ 10 := h2.trans hn10
      exact_mod_cast this
    have d : Spec.norm q.2.m q.2.n * (|(q.2.m : ℝ)| * |s - t|) ≤ 5 * (10 * |s - t|) :=
      mul_le_mul b (mul_le_mul_of_nonneg_right c (abs_nonneg _)) (by positivity) (by norm_num)
    have e : |q.1 * zernike q.2.m q.2.n r s - q.1 * zernike q.2.m q.2.n r t| ≤ 50 * |s - t| * max |q.1| (2⁻¹ ^ 1022) := by
      rw [← mul_sub, abs_mul]
      have f : |q.1| * |zernike q.2.m q.2.n r s - zernike q.2.m q.2.n r t| ≤ max |q.1| (2⁻¹ ^ 1022) * (5 * (10 * |s - t|)) :=
        mul_le_mul (le_max_left _ _) (a.trans d) (abs_nonneg _) ((abs_nonneg _).trans (le_max_left _ _))
      linarith
    generalize max |q.1| (2⁻¹ ^ 1022) = M at *
    generalize (l.map fun q => max |q.1| (2⁻¹ ^ 1022)).sum = W at *
    calc _ = |(q.1 * zernike q.2.m q.2.n r s - q.1 * zernike q.2.m q.2.n r t) + ((l.map fun q => q.1 * zernike q.2.m q.2.n r s).sum - (l.map fun q => q.1 * zernike q.2.m q.2.n r t).sum)| := by
          congr 1; ring
      _ ≤ _ := (abs_add_le _ _).trans (by linarith)

/-- At the same point of the disk the exact combination has one value. -/
theorem exactSum_same (l : List (ℝ × PolObj)) (hv : ∀ q ∈ l, ValidOrders q.2.m q.2.n) (r t t' : ℝ) (h0 : 0 ≤ r) (hx : r * Real.cos t = r * Real.cos t')
    (hy : r * Real.sin t = r * Real.sin t') : exactSum l r t = exactSum l r t' := by
  unfold exactSum
  congr 1
  apply List.map_congr_left
  intro q hq
  rw [zernike_same_point _ _ (hv q hq) r t r t' h0 h0 hx hy]

theorem surface_bind {F : PsfArith} {fuel : Nat} {l : List (ℝ × PolObj)} {rs ts : List ℝ} {g : Grid} {st : CoefState} (h : (fltSumSurface F fuel rs ts l st).1 = .ok g) :
    ((do
      let v ← CM.lift (.ok (rs, ts))
      let s ← fltSumSurface F fuel v.1 v.2 l
      pure (s, v.1, v.2) : CM (Grid × List ℝ × List ℝ)) st).1 = .ok (g, rs, ts) := by
  obtain ⟨st', h'⟩ : ∃ st', fltSumSurface F fuel rs ts l st = (.ok g, st') := ⟨(fltSumSurface F fuel rs ts l st).2, by rw [← h]⟩
  show ((do
    let s ← fltSumSurface F fuel rs ts l
    pure (s, rs, ts) : CM (Grid × List ℝ × List ℝ)) st).1 = _
  simp only [bind, h']
  rfl

/-- C97. `gen_zernikes_surface` in double precision, for every list of up to 66 polynomials up to the order 10, with steps or with a number of points, after any
calls: it returns a surface with a row for each radius and a column for each angle of a grid on the disk; each element differs from the exact sum at its radius and
angle by at most 2·10⁻⁸ times the sum of the absolute coefficients; the elements of a row at the angles 0 and 2π differ by at most 5·10⁻⁸ times this sum (the surface
closes), and so do the elements of the first row (it has one value in the centre). -/
theorem gen_surface_double (s : List ℝ → ℝ) (hs : Sums s) (h : List Call) (fuel : Nat) (l : List (ℝ × PolObj)) (hne : l ≠ [])
    (hl : ∀ q ∈ l, ValidOrders q.2.m q.2.n ∧ q.2.n.toNat + 1 < fuel) (h10 : ∀ q ∈ l, q.2.n ≤ 10) (h66 : l.length ≤ 66) (rStep thetaStep : ℝ) (equalN : Bool)
    (nPoints : Int) (hg : GridSteps rStep thetaStep equalN nPoints) :
    ∃ g rs ts, (genZernikesSurfaceFl (psfDoubles s) fuel l rStep thetaStep equalN nPoints (afterCalls h)).1 = .ok (g, rs, ts) ∧
      DiskGrid rs ts ∧ g.rows = rs.length ∧ g.cols = ts.length ∧
      (∀ i j x y, rs[i]? = some x → ts[j]? = some y → |g.entry i j - exactSum l x y| ≤ 2 / 10 ^ 8 * coefficientSize l) ∧
      (∀ i, i < g.rows → |g.entry i 0 - g.entry i (g.cols - 1)| ≤ 5 / 10 ^ 8 * coefficientSize l) ∧
      (∀ j k, j < g.cols → k < g.cols → |g.entry 0 j - g.entry 0 k| ≤ 5 / 10 ^ 8 * coefficientSize l) := by
  obtain ⟨rs, ts, hgrid, hd⟩ := grid_steps_ok hg
  obtain ⟨g, g', e1, -, hr, hc, -, -, hpt⟩ := surface_is_points s h h fuel l hne hl rs ts
  have hval : ∀ i j x y, rs[i]? = some x → ts[j]? = some y → |g.entry i j - exactSum l x y| ≤ 2 / 10 ^ 8 * coefficientSize l := by
    intro i j x y hx hy
    have hx' := hd.radii x (List.mem_of_getElem? hx)
    have hy' := hd.angles y (List.mem_of_getElem? hy)
    obtain ⟨v, ev, hv, -⟩ := sum_double_error s hs h fuel l hne hl x y hx'.1 hx'.2 (by rw [abs_of_nonneg hy'.1]; exact hy'.2)
    rw [(hpt i j x y hx hy).1] at ev
    rw [Except.ok.inj ev]
    exact hv h10 h66
  have hV : ∀ q ∈ l, ValidOrders q.2.m q.2.n := fun q hq => (hl q hq).1
  have hW := coefficientSize_nonneg l
  have t0 : ts[0]? = some 0 := by rw [← List.head?_eq_getElem?]; exact hd.zero
  have r0 : rs[0]? = some 0 := by rw [← List.head?_eq_getElem?]; exact hd.centre
  refine ⟨g, rs, ts, ?_, hd, hr, hc, hval, ?_, ?_⟩
  · unfold genZernikesSurfaceFl
    have : (if equalN then .ok (genEqualPolarMeshFl (psfDoubles s).toFloatArith nPoints) else genPolarCoordinatesFl (psfDoubles s).toFloatArith rStep thetaStep) =
      Except.ok (ε := PyErr) (rs, ts) := hgrid
    rw [this]
    exact surface_bind e1
  · intro i hi
    rw [hr] at hi
    obtain ⟨y, hy, hy2⟩ := hd.full
    rw [List.getLast?_eq_getElem?] at hy
    have hxi : rs[i]? = some rs[i] := List.getElem?_eq_getElem hi
    have hx' := hd.radii _ (List.mem_of_getElem? hxi)
    have hy' := hd.angles y (List.mem_of_getElem? hy)
    have a := hval i 0 _ _ hxi t0
    have b := hval i _ _ _ hxi hy
    have c := exactSum_angle l hV h10 rs[i] hx'.1 hx'.2 (2 * Real.pi) y
    rw [exactSum_same l hV rs[i] (2 * Real.pi) 0 hx'.1 (by rw [Real.cos_two_pi, Real.cos_zero]) (by rw [Real.sin_two_pi, Real.sin_zero])] at c
    have d : |2 * Real.pi - y| ≤ 2 ^ (-48 : ℤ) := by rw [abs_of_nonneg (by linarith [hy'.2])]; linarith
    have e : 50 * |2 * Real.pi - y| * coefficientSize l ≤ 1 / 10 ^ 8 * coefficientSize l := by
      refine mul_le_mul_of_nonneg_right ?_ hW
      exact (mul_le_mul_of_nonneg_left d (by norm_num)).trans (by norm_num)
    rw [hc]
    have := c.trans e
    generalize coefficientSize l = W at *
    rw [abs_le] at *
    constructor <;> linarith [a.1, a.2, b.1, b.2, this.1, this.2]
  · intro j k hj hk
    rw [hc] at hj hk
    have a := hval 0 j _ _ r0 (List.getElem?_eq_getElem hj)
    have b := hval 0 k _ _ r0 (List.getElem?_eq_getElem hk)
    rw [exactSum_same l hV 0 ts[j] ts[k] le_rfl (by simp) (by simp)] at a
    generalize coefficientSize l = W at *
    rw [abs_le] at *
    constructor <;> linarith [a.1, a.2, b.1, b.2]

/-- C97: the default call (steps `0.01` and `round(np.pi/180, 7)`, that is `0.0174533`) gives a surface with 101 rows and 361 columns. -/
theorem gen_surface_default_shape (s : List ℝ → ℝ) (h : List Call) (fuel : Nat) (l : List (ℝ × PolObj)) (hne : l ≠ [])
    (hl : ∀ q ∈ l, ValidOrders q.2.m q.2.n ∧ q.2.n.toNat + 1 < fuel) (nPoints : Int) :
    ∃ g rs ts, (genZernikesSurfaceFl (psfDoubles s) fuel l (binary64 (1 / 100)) (binary64 (174533 / 10 ^ 7)) false nPoints (afterCalls h)).1 = .ok (g, rs, ts) ∧
      g.rows = 101 ∧ g.cols = 361 ∧ rs.getLast? = some 1 ∧ ts.getLast? = some (binary64 (2 * Real.pi)) := by
  have hs : binary64 (174533 / 10 ^ 7) = 5030571224088671 * 2 ^ (-58 : ℤ) := by
    rw [binary64_eq (-6) 5030571224088671 (by norm_num) (by norm_num) (by norm_num) (by norm_num [abs_lt])]
    norm_num
  have hs1 : binary64 (twoPiFl doubles + 5030571224088671 * 2 ^ (-58 : ℤ)) = 7093888420872536 * 2 ^ (-50 : ℤ) := by
    rw [twoPi_double]
    rw [binary64_eq 2 7093888420872536 (by norm_num) (by norm_num) (by norm_num) (by norm_num [abs_lt])]
    norm_num
  have hsq : binary64 (7093888420872536 * 2 ^ (-50 : ℤ) / (5030571224088671 * 2 ^ (-58 : ℤ))) = 6350776447785425 * 2 ^ (-44 : ℤ) := by
    rw [binary64_eq 8 6350776447785425 (by norm_num) (by norm_num) (by norm_num) (by norm_num [abs_lt])]
    norm_num
  have hsc : ⌈(6350776447785425 * 2 ^ (-44 : ℤ) : ℝ)⌉ = 361 := by rw [Int.ceil_eq_iff]; norm_num
  have h360 : twoPiFl doubles ≤ binary64 ((360 : ℕ) * (5030571224088671 * 2 ^ (-58 : ℤ))) := by
    rw [binary64_eq 2 7074240783874694 (by norm_num) (by norm_num) (by norm_num) (by norm_num [abs_lt]), twoPi_double]
    norm_num
  have hpi := Real.pi_gt_three
  obtain ⟨f, -⟩ := angles_eq (binary64 (174533 / 10 ^ 7)) (binary64_idem _) (by rw [hs]; norm_num) (by rw [hs]; norm_num; linarith)
  simp only [hs, hs1, hsq, hsc] at f
  obtain ⟨rs, ts0, e, hr1, hr2, -, -⟩ := gen_polar_default
  have hr : binary64 (1 / 100) = 5764607523034235 * 2 ^ (-59 : ℤ) := by
    rw [binary64_eq (-7) 5764607523034235 (by norm_num) (by norm_num) (by norm_num) (by norm_num [abs_lt])]
    norm_num
  have hr0 : 0 < binary64 (1 / 100) := by rw [hr]; positivity
  have hrad : genRadiiFl doubles (binary64 (1 / 100)) = .ok rs := by
    rw [gen_polar_fl_eq _ _ _ hr0 (by
      rw [binary64_eq (-7) 7545871247651813 (by norm_num) (by norm_num) (by norm_num) (by norm_num [abs_lt])]; positivity)] at e
    cases h1 : genRadiiFl doubles (binary64 (1 / 100)) with
    | error x => rw [h1] at e; cases e
    | ok a =>
      rw [h1] at e
      cases h2 : clipLast (twoPiFl doubles) (npArangeFl doubles 0 (doubles.fl (twoPiFl doubles + binary64 (1309 / 100000))) (binary64 (1309 / 100000))) with
      | error x => rw [h2] at e; cases e
      | ok b => rw [h2] at e; cases e; rfl
  obtain ⟨ts, hts⟩ : ∃ ts : List ℝ, ts = (List.range (361 : ℤ).toNat).map fun (i : ℕ) => min (binary64 ((i : ℝ) * (5030571224088671 * 2 ^ (-58 : ℤ)))) (twoPiFl doubles) := ⟨_, rfl⟩
  rw [← hts] at f
  have hpol : genPolarCoordinatesFl doubles (binary64 (1 / 100)) (binary64 (174533 / 10 ^ 7)) = .ok (rs, ts) := by
    rw [gen_polar_fl_eq _ _ _ hr0 (by rw [hs]; positivity), hrad, hs, f]
    rfl
  obtain ⟨g, g', e1, -, hgr, hgc, -⟩ := surface_is_points s h h fuel l hne hl rs ts
  refine ⟨g, rs, ts, ?_, by rw [hgr, hr1], by rw [hgc, hts]; simp, hr2, ?_⟩
  · unfold genZernikesSurfaceFl
    have : (if false = true then .ok (genEqualPolarMeshFl (psfDoubles s).toFloatArith nPoints) else
      genPolarCoordinatesFl (psfDoubles s).toFloatArith (binary64 (1 / 100)) (binary64 (174533 / 10 ^ 7))) = Except.ok (ε := PyErr) (rs, ts) := hpol
    rw [this]
    exact surface_bind e1
  · rw [hts, List.getLast?_eq_getElem?, List.getElem?_map, List.length_map, List.length_range,
      show (361 : ℤ).toNat = 361 from rfl, List.getElem?_range (by norm_num), Option.map_some, min_eq_right h360, twoPi_nearest]

/-- The hypotheses are met: 0.3 defocus and 0.1 coma on the equal mesh of 250 points. -/
example : ∃ l : List (ℝ × PolObj), l ≠ [] ∧ (∀ q ∈ l, ValidOrders q.2.m q.2.n ∧ q.2.n.toNat + 1 < 100) ∧ (∀ q ∈ l, q.2.n ≤ 10) ∧ l.length ≤ 66 ∧
    GridSteps 0 0 true 250 := by
  refine ⟨[(0.3, ⟨0, 2, false⟩), (0.1, ⟨1, 3, false⟩)], by simp, ?_, ?_, by simp, ?_⟩
  · intro q hq
    simp only [List.mem_cons, List.not_mem_nil, or_false] at hq
    rcases hq with rfl | rfl <;> exact ⟨by unfold ValidOrders; decide, by decide⟩
  · intro q hq
    simp only [List.mem_cons, List.not_mem_nil, or_false] at hq
    rcases hq with rfl | rfl <;> decide
  · unfold GridSteps; rw [if_pos rfl]; norm_num

end Verif.Props
