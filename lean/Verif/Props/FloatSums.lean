import Verif.Proofs.FloatSums
import Verif.Proofs.FloatNodes
import Verif.Props.FloatPsf

/-!
# C79: sums of polynomials in floating-point arithmetic

`fltSumPoint` is `sum_zernikes` at a point, `fltSumSurface` is `sum_zernikes(..., get_surface=True)` on vectors of radii and angles, `fltSumMesh` is `_sum_zernikes_meshgrid`; the
list holds the coefficients with their polynomials.
-/

namespace Verif.Props
open Verif.Model Verif.Spec Verif.Proofs

/-- C79. The rounding errors of `sum_zernikes` at a point are bounded. -/
theorem sum_float_error (F : PsfArith) (u η : ℝ) (p : ℕ) (hF : PsfAccurate F u η p) (h : List Call) (fuel : Nat) (N : ℕ) (l : List (ℝ × PolObj)) (hne : l ≠ [])
    (hl : ∀ q ∈ l, ValidOrders q.2.m q.2.n ∧ q.2.n.toNat + 1 < fuel ∧ q.2.n ≤ N) (r t : ℝ) (h0 : 0 ≤ r) (h1 : r ≤ 1) (ht : |t| ≤ 2 * Real.pi) :
    ∃ y, (fltSumPoint F fuel r t l (afterCalls h)).1 = .ok y ∧
      |y - (l.map fun q => q.1 * zernike q.2.m q.2.n r t).sum| ≤
        ((1 + u) ^ (4 * N + 2 * p + 15 + l.length) - 1) * (l.map fun q => max |q.1| η * zernikeSize q.2.m q.2.n).sum := by
  obtain ⟨⟨c, o⟩, l, rfl⟩ := List.exists_cons_of_ne_nil hne
  have hu : Usable fuel ((c, o) :: l) := fun q hq => ⟨(hl q hq).1, (hl q hq).2.1⟩
  refine ⟨_, (fltSumPoint_ret F fuel c o l hu r t _ (afterCalls_good h)).1, ?_⟩
  obtain ⟨hv, hf, hN⟩ := hl (c, o) (by simp)
  have hα : Er ((1 + u) ^ 0) (max |c| η) c c := Er.exactK u c (le_max_left _ _)
  obtain ⟨⟨y, e1, hy⟩, -⟩ := singlePhase_er hF fuel o hv hf hα r r t t h0 h1 h0 h1
    ((Er.exactK u r (by rw [abs_of_nonneg h0]; exact h1)).monoK hF (by omega) le_rfl) ((Er.exactK u t ht).monoK hF (by omega) le_rfl) _ good_init
  rw [(termVal_ret F fuel c o hv hf r t _ good_init).1] at e1
  cases e1
  have hy' := hy.monoK (l := 4 * N + 2 * p + 16) hF (by simp only at hN; omega) le_rfl
  have e := sumRest_er hF fuel N l hu.tail (fun x hx => by have := (hl x (by simp [hx])).2.2; omega) h0 h1 ht _ le_rfl _ _ _ hy'
  simp only [List.length_cons, List.map_cons, List.sum_cons]
  rw [show 4 * N + 2 * p + 15 + (l.length + 1) = 4 * N + 2 * p + 16 + l.length by ring]
  exact e.2

/-- C79. Every element of the surface is, bit for bit, the sum at its point; the same holds for the sum on a mesh. -/
theorem surface_is_points (s : List ℝ → ℝ) (h h' : List Call) (fuel : Nat) (l : List (ℝ × PolObj)) (hne : l ≠ [])
    (hl : ∀ q ∈ l, ValidOrders q.2.m q.2.n ∧ q.2.n.toNat + 1 < fuel) (r t : List ℝ) :
    ∃ g g', (fltSumSurface (psfDoubles s) fuel r t l (afterCalls h)).1 = .ok g ∧ (fltSumMesh (psfDoubles s) fuel r t l (afterCalls h)).1 = .ok g' ∧
      g.rows = r.length ∧ g.cols = t.length ∧ g'.rows = r.length ∧ g'.cols = t.length ∧
      ∀ i j : Nat, ∀ x y, r[i]? = some x → t[j]? = some y →
        (fltSumPoint (psfDoubles s) fuel x y l (afterCalls h')).1 = .ok (g.entry i j) ∧ g'.entry i j = g.entry i j := by
  obtain ⟨⟨c, o⟩, l, rfl⟩ := List.exists_cons_of_ne_nil hne
  have hz : Fills r t (Grid.zeros r.length t.length) fun _ _ => 0 := ⟨rfl, rfl, fun _ _ _ _ => rfl⟩
  obtain ⟨⟨g, e, a1, a2, a3⟩, -⟩ := surfaceLoop_ret (psfDoubles s) fuel _ hl r t _ _ hz _ (afterCalls_good h)
  obtain ⟨⟨g', e', b1, b2, b3⟩, -⟩ := meshLoop_ret (psfDoubles s) fuel _ hl r t _ _ hz _ (afterCalls_good h)
  refine ⟨g, g', ?_, e', a1, a2, b1, b2, fun i j x y hx hy => ?_⟩
  · unfold fltSumSurface
    rw [if_neg (by simp)]
    exact e
  · obtain ⟨hi, rfl⟩ := List.getElem?_eq_some_iff.1 hx
    obtain ⟨hj, rfl⟩ := List.getElem?_eq_some_iff.1 hy
    have g1 : r.getD i 0 = r[i] := by simp [List.getD_eq_getElem?_getD, hi]
    have g2 : t.getD j 0 = t[j] := by simp [List.getD_eq_getElem?_getD, hj]
    rw [a3 i hi j hj, b3 i hi j hj, g1, g2]
    refine ⟨?_, rfl⟩
    show _ = Except.ok (restVal (psfDoubles s) fuel r[i] t[j] ((c, o) :: l) 0)
    rw [restVal_zero (psfDoubles s) fuel binary64_idem (by simp [psfDoubles, doubles, binary64]) c o l hl]
    exact (fltSumPoint_ret (psfDoubles s) fuel c o l hl _ _ _ (afterCalls_good h')).1

/-- C79. Polynomials with the coefficient 0 do not change a bit of the sum, wherever they stand in the list. -/
theorem zero_coefficients_ignored (s : List ℝ → ℝ) (h h' : List Call) (fuel : Nat) (l : List (ℝ × PolObj)) (hne : (l.filter fun q => q.1 ≠ 0) ≠ [])
    (hl : ∀ q ∈ l, ValidOrders q.2.m q.2.n ∧ q.2.n.toNat + 1 < fuel) (r t : ℝ) :
    ∃ y, (fltSumPoint (psfDoubles s) fuel r t l (afterCalls h)).1 = .ok y ∧
      (fltSumPoint (psfDoubles s) fuel r t (l.filter fun q => q.1 ≠ 0) (afterCalls h')).1 = .ok y := by
  have h0 : (psfDoubles s).fl 0 = 0 := by simp [psfDoubles, doubles, binary64]
  have hl' : Usable fuel (l.filter fun q => q.1 ≠ 0) := fun q hq => hl q (List.mem_filter.1 hq).1
  have key : ∀ l' : List (ℝ × PolObj), l' ≠ [] → Usable fuel l' → ∀ k, (fltSumPoint (psfDoubles s) fuel r t l' (afterCalls k)).1 = .ok (restVal (psfDoubles s) fuel r t l' 0) := by
    intro l' hn hu k
    obtain ⟨⟨c, o⟩, l', rfl⟩ := List.exists_cons_of_ne_nil hn
    rw [restVal_zero (psfDoubles s) fuel binary64_idem h0 c o l' hu]
    exact (fltSumPoint_ret (psfDoubles s) fuel c o l' hu _ _ _ (afterCalls_good k)).1
  refine ⟨_, key l (fun e => hne (by rw [e]; rfl)) hl h, ?_⟩
  rw [key _ hne hl' h', restVal_skip]

/-- C79. Another order of the polynomials changes the sum by no more than the rounding errors. -/
theorem order_of_sum (F : PsfArith) (u η : ℝ) (p : ℕ) (hF : PsfAccurate F u η p) (h h' : List Call) (fuel : Nat) (N : ℕ) (l l' : List (ℝ × PolObj)) (hp : l.Perm l')
    (hne : l ≠ []) (hl : ∀ q ∈ l, ValidOrders q.2.m q.2.n ∧ q.2.n.toNat + 1 < fuel ∧ q.2.n ≤ N) (r t : ℝ) (h0 : 0 ≤ r) (h1 : r ≤ 1) (ht : |t| ≤ 2 * Real.pi) :
    ∃ y y', (fltSumPoint F fuel r t l (afterCalls h)).1 = .ok y ∧ (fltSumPoint F fuel r t l' (afterCalls h')).1 = .ok y' ∧
      |y - y'| ≤ 2 * (((1 + u) ^ (4 * N + 2 * p + 15 + l.length) - 1) * (l.map fun q => max |q.1| η * zernikeSize q.2.m q.2.n).sum) := by
  obtain ⟨y, e, b⟩ := sum_float_error F u η p hF h fuel N l hne hl r t h0 h1 ht
  obtain ⟨y', e', b'⟩ := sum_float_error F u η p hF h' fuel N l' (fun k => hne (by rw [k] at hp; exact hp.eq_nil)) (fun q hq => hl q (hp.mem_iff.2 hq)) r t h0 h1 ht
  rw [← (hp.map _).sum_eq, ← hp.length_eq, ← (hp.map _).sum_eq] at b'
  refine ⟨y, y', e, e', ?_⟩
  rw [abs_le] at *
  constructor <;> linarith [b.1, b.2, b'.1, b'.2]

theorem sum_error_le (s : List ℝ → ℝ) (hs : Sums s) (h : List Call) (fuel : Nat) (N L : ℕ) (l : List (ℝ × PolObj)) (hne : l ≠ [])
    (hl : ∀ q ∈ l, ValidOrders q.2.m q.2.n ∧ q.2.n.toNat + 1 < fuel) (hN : ∀ q ∈ l, q.2.n ≤ N) (hL : l.length ≤ L) (r t : ℝ) (h0 : 0 ≤ r) (h1 : r ≤ 1)
    (ht : |t| ≤ 2 * Real.pi) (c ε : ℝ) (hc : 0 ≤ c) (hc2 : 2 * ((N : ℝ) + 1) ≤ c ^ 2)
    (hε : ((1 + (2⁻¹ : ℝ) ^ 53) ^ (4 * N + 17 + L) - 1) * (c * (7 * max (N : ℝ) 1 + N) * growth N) ≤ ε) :
    ∃ y, (fltSumPoint (psfDoubles s) fuel r t l (afterCalls h)).1 = .ok y ∧
      |y - (l.map fun q => q.1 * zernike q.2.m q.2.n r t).sum| ≤ ε * (l.map fun q => max |q.1| (2⁻¹ ^ 1022)).sum := by
  have hF := psfDoubles_accurate s hs.1 hs.2
  have hu := hF.basic.unit
  have hη := hF.eta_pos
  obtain ⟨y, e, b⟩ := sum_float_error (psfDoubles s) _ _ _ hF h fuel N l hne (fun q hq => ⟨(hl q hq).1, (hl q hq).2, hN q hq⟩) r t h0 h1 ht
  refine ⟨y, e, b.trans ?_⟩
  generalize (2⁻¹ : ℝ) ^ 1022 = η at *
  have hZ : ∀ q ∈ l, zernikeSize q.2.m q.2.n ≤ c * (7 * max (N : ℝ) 1 + N) * growth N := fun q hq => zernikeSize_le _ _ (hl q hq).1 N (hN q hq) c hc hc2
  generalize c * (7 * max (N : ℝ) 1 + N) * (growth N : ℝ) = Z at *
  have hsum : (l.map fun q => max |q.1| η * zernikeSize q.2.m q.2.n).sum ≤ Z * (l.map fun q => max |q.1| η).sum := by
    clear b hε hl hne hL hN e
    induction l with
    | nil => simp
    | cons q l ih =>
      simp only [List.map_cons, List.sum_cons]
      have i1 := ih (fun q hq => hZ q (List.mem_cons_of_mem _ hq))
      have i2 := mul_le_mul_of_nonneg_left (hZ q List.mem_cons_self) (hη.le.trans (le_max_right |q.1| η))
      linarith
  have hpos : 0 ≤ (l.map fun q => max |q.1| η).sum := List.sum_nonneg (by
    intro x hx
    obtain ⟨q, -, rfl⟩ := List.mem_map.1 hx
    exact hη.le.trans (le_max_right _ _))
  have hk := pow_u_mono hu (show 4 * N + 2 * 1 + 15 + l.length ≤ 4 * N + 17 + L by omega)
  have hk1 := one_le_pow_u hu (4 * N + 2 * 1 + 15 + l.length)
  have hk2 := one_le_pow_u hu (4 * N + 17 + L)
  have hZ0 : 0 ≤ Z := by
    obtain ⟨q, l', rfl⟩ := List.exists_cons_of_ne_nil hne
    have hv := (hl q List.mem_cons_self).1
    have := (norm_one q.2.m q.2.n ((valid_iff q.2.m q.2.n).1 hv).1).trans (zernikeSize_ge q.2.m q.2.n ((valid_iff q.2.m q.2.n).1 hv).1)
    linarith [hZ q List.mem_cons_self]
  generalize (1 + (2⁻¹ : ℝ) ^ 53) ^ (4 * N + 2 * 1 + 15 + l.length) = A at *
  generalize (1 + (2⁻¹ : ℝ) ^ 53) ^ (4 * N + 17 + L) = B at *
  generalize (l.map fun q => max |q.1| η).sum = W at *
  calc _ ≤ (A - 1) * (Z * W) := mul_le_mul_of_nonneg_left hsum (by linarith)
    _ ≤ (B - 1) * (Z * W) := mul_le_mul_of_nonneg_right (by linarith) (mul_nonneg hZ0 hpos)
    _ = (B - 1) * Z * W := by ring
    _ ≤ ε * W := mul_le_mul_of_nonneg_right hε hpos

/-- C79. In double precision: up to 66 polynomials up to the order 10 the error is below 2·10⁻⁸ times the sum of the absolute coefficients, up to 15 polynomials up to the order 4
below 10⁻¹¹ times this sum (a coefficient below 2⁻¹⁰²² counts as 2⁻¹⁰²²). -/
theorem sum_double_error (s : List ℝ → ℝ) (hs : Sums s) (h : List Call) (fuel : Nat) (l : List (ℝ × PolObj)) (hne : l ≠ [])
    (hl : ∀ q ∈ l, ValidOrders q.2.m q.2.n ∧ q.2.n.toNat + 1 < fuel) (r t : ℝ) (h0 : 0 ≤ r) (h1 : r ≤ 1) (ht : |t| ≤ 2 * Real.pi) :
    ∃ y, (fltSumPoint (psfDoubles s) fuel r t l (afterCalls h)).1 = .ok y ∧
      ((∀ q ∈ l, q.2.n ≤ 10) → l.length ≤ 66 → |y - (l.map fun q => q.1 * zernike q.2.m q.2.n r t).sum| ≤ 2 / 10 ^ 8 * (l.map fun q => max |q.1| (2⁻¹ ^ 1022)).sum) ∧
      ((∀ q ∈ l, q.2.n ≤ 4) → l.length ≤ 15 → |y - (l.map fun q => q.1 * zernike q.2.m q.2.n r t).sum| ≤ 1 / 10 ^ 11 * (l.map fun q => max |q.1| (2⁻¹ ^ 1022)).sum) := by
  obtain ⟨⟨c, o⟩, l, rfl⟩ := List.exists_cons_of_ne_nil hne
  have e := (fltSumPoint_ret (psfDoubles s) fuel c o l hl r t _ (afterCalls_good h)).1
  refine ⟨_, e, fun hn hlen => ?_, fun hn hlen => ?_⟩
  · obtain ⟨y, e', b⟩ := sum_error_le s hs h fuel 10 66 _ hne hl (fun q hq => by exact_mod_cast hn q hq) hlen r t h0 h1 ht 4.7 (2 / 10 ^ 8) (by norm_num) (by norm_num)
      (by rw [growth_10]; norm_num)
    rw [e] at e'
    cases e'
    exact b
  · obtain ⟨y, e', b⟩ := sum_error_le s hs h fuel 4 15 _ hne hl (fun q hq => by exact_mod_cast hn q hq) hlen r t h0 h1 ht 3.2 (1 / 10 ^ 11) (by norm_num) (by norm_num)
      (by rw [growth_4]; norm_num)
    rw [e] at e'
    cases e'
    exact b

/-- Three polynomials, the second with the coefficient 0: the hypotheses of the theorems are met. -/
example (h : List Call) : ∃ y, (fltSumPoint (psfDoubles (sumFromLeft binary64)) 10 (1 / 2) 1 [(0.5, ⟨1, 3, false⟩), (0, ⟨0, 2, false⟩), (-0.25, ⟨-4, 4, false⟩)] (afterCalls h)).1 = .ok y ∧
    |y - (0.5 * zernike 1 3 (1 / 2) 1 + (0 * zernike 0 2 (1 / 2) 1 + (-0.25) * zernike (-4) 4 (1 / 2) 1))| ≤ 1 / 10 ^ 11 := by
  obtain ⟨y, e, -, b⟩ := sum_double_error _ sumFromLeft_sums h 10 [(0.5, ⟨1, 3, false⟩), (0, ⟨0, 2, false⟩), (-0.25, ⟨-4, 4, false⟩)] (by simp)
    (by simp; refine ⟨by decide, by decide, by decide⟩) (1 / 2) 1 (by norm_num) (by norm_num) (by rw [abs_one]; linarith [Real.pi_gt_three])
  have b' := b (by simp) (by simp)
  refine ⟨y, e, le_trans ?_ (b'.trans ?_)⟩
  · simp
  · have hη1 : (2⁻¹ : ℝ) ^ 1022 ≤ 1 / 10 := by
      refine (pow_le_pow_of_le_one (by norm_num) (by norm_num) (show 4 ≤ 1022 by norm_num)).trans ?_
      norm_num
    generalize (2⁻¹ : ℝ) ^ 1022 = η at *
    simp only [List.map_cons, List.map_nil, List.sum_cons, List.sum_nil, abs_zero]
    have e1 : max |(0.5 : ℝ)| η ≤ 0.5 := max_le (by norm_num) (by linarith)
    have e2 : max (0 : ℝ) η ≤ 0.1 := max_le (by norm_num) (by linarith)
    have e3 : max |(-0.25 : ℝ)| η ≤ 0.25 := max_le (by norm_num [abs_le]) (by linarith)
    linarith

/-- A surface of 2 radii and 3 angles: its elements are the sums at the points. -/
example (h : List Call) : ∃ g g', (fltSumSurface (psfDoubles (sumFromLeft binary64)) 10 [0, 1] [0, 1, 2] [(0, ⟨0, 2, false⟩), (-0.25, ⟨-4, 4, false⟩)] (afterCalls h)).1 = .ok g ∧
    (fltSumMesh (psfDoubles (sumFromLeft binary64)) 10 [0, 1] [0, 1, 2] [(0, ⟨0, 2, false⟩), (-0.25, ⟨-4, 4, false⟩)] (afterCalls h)).1 = .ok g' ∧
    (fltSumPoint (psfDoubles (sumFromLeft binary64)) 10 1 2 [(0, ⟨0, 2, false⟩), (-0.25, ⟨-4, 4, false⟩)] (afterCalls [])).1 = .ok (g.entry 1 2) ∧ g'.entry 1 2 = g.entry 1 2 := by
  obtain ⟨g, g', e, e', -, -, -, -, b⟩ := surface_is_points (sumFromLeft binary64) h [] 10 [(0, ⟨0, 2, false⟩), (-0.25, ⟨-4, 4, false⟩)] (by simp)
    (by simp; refine ⟨by decide, by decide⟩) [0, 1] [0, 1, 2]
  exact ⟨g, g', e, e', b 1 2 1 2 rfl rfl⟩

end Verif.Props
