import Verif.Proofs.SamplePoints
import Verif.Props.FitResponse
import Verif.Props.Polar
import Mathlib.Analysis.Real.Pi.Bounds

/-!
# C88: enough points determine the coefficients
-/

namespace Verif.Props
open Verif.Model Verif.Spec Verif.Proofs

/-- C88. Enough points on circles: polynomials of orders up to `N` are linearly independent on a mesh with more than `N/2` positive radii
and more than `2N` different directions. -/
theorem mesh_independent (os : List PolObj) (fuel : Nat) (hv : PolsOk fuel os) (hd : (ordersOf os).Nodup) (N : ℕ) (hN : ∀ o ∈ os, o.n ≤ N)
    (radii thetas : List ℝ) (hne : radii.length ≠ thetas.length) (rs ts : Finset ℝ) (hrs : N / 2 < rs.card) (hts : 2 * N < ts.card)
    (hr : ∀ r ∈ rs, r ∈ radii ∧ 0 < r) (ht : ∀ t ∈ ts, t ∈ thetas ∧ 0 ≤ t ∧ t < 2 * Real.pi) :
    IndependentOn (ordersOf os) (samplePoints radii thetas) := by
  classical
  refine independent_circles (ordersOf os) hd (orders_valid hv) N ?_ _ rs hrs (fun r h => (hr r h).2) fun r h => ?_
  · intro p hp
    simp only [ordersOf, List.mem_map] at hp
    obtain ⟨o, ho, rfl⟩ := hp
    exact hN o ho
  · refine ⟨ts.image fun t : ℝ => Complex.exp (t * Complex.I), ?_, fun z hz => ?_⟩
    · rw [Finset.card_image_of_injOn]
      · exact hts
      · intro a ha b hb e
        have e1 := congrArg Complex.re e
        have e2 := congrArg Complex.im e
        simp only [Complex.exp_ofReal_mul_I_re, Complex.exp_ofReal_mul_I_im] at e1 e2
        obtain ⟨k, hk⟩ := angle_of_same e1 e2
        obtain ⟨_, a1, a2⟩ := ht a ha
        obtain ⟨_, b1, b2⟩ := ht b hb
        have hpi := Real.pi_pos
        have k1 : (-1 : ℝ) < k := by
          by_contra hc
          have : (k : ℝ) * (2 * Real.pi) ≤ (-1) * (2 * Real.pi) := by
            apply mul_le_mul_of_nonneg_right _ (by positivity); linarith
          linarith
        have k2 : (k : ℝ) < 1 := by
          by_contra hc
          have : 1 * (2 * Real.pi) ≤ (k : ℝ) * (2 * Real.pi) := by
            apply mul_le_mul_of_nonneg_right _ (by positivity); linarith
          linarith
        have k3 : -1 < k := by exact_mod_cast k1
        have k4 : k < 1 := by exact_mod_cast k2
        have k5 : k = 0 := by omega
        rw [k5] at hk
        simpa using hk
    · rw [Finset.mem_image] at hz
      obtain ⟨t, htm, rfl⟩ := hz
      refine ⟨t, rfl, ?_⟩
      unfold samplePoints
      rw [if_neg hne, List.mem_flatMap]
      exact ⟨r, (hr r h).1, List.mem_map_of_mem (ht t htm).1⟩

theorem Covers.count {l : List ℝ} {L s : ℝ} (h : Covers l L s) (K : ℕ) (hs : 0 < s) (hK : s * K ≤ L) : K + 1 ≤ l.length := by
  have hne := h.mem.1
  have hlen : 0 < l.length := List.length_pos_of_ne_nil hne
  have h0 : l[0] = 0 := by
    have := h.starts
    rw [List.head?_eq_getElem?, List.getElem?_eq_getElem hlen] at this
    simpa using this
  have step : ∀ i (hi : i < l.length), l[i] ≤ s * i := by
    intro i
    induction i with
    | zero => intro _; rw [h0]; simp
    | succ i ih =>
      intro hi
      have a := ih (by omega)
      have b := h.dense i hi
      push_cast
      linarith
  have hl : l[l.length - 1] = L := by
    have := h.ends
    rw [List.getLast?_eq_getElem?, List.getElem?_eq_getElem (by omega)] at this
    simpa using this
  have h1 := step (l.length - 1) (by omega)
  rw [hl] at h1
  have h2 : (K : ℝ) ≤ ((l.length - 1 : ℕ) : ℝ) := le_of_mul_le_mul_left (hK.trans h1) hs
  have h3 : K ≤ l.length - 1 := by exact_mod_cast h2
  omega

/-- The elements after the first one are positive and different. -/
theorem Covers.positive {l : List ℝ} {L s : ℝ} (h : Covers l L s) :
    ∃ f : Finset ℝ, f.card = l.length - 1 ∧ ∀ x ∈ f, x ∈ l ∧ 0 < x := by
  classical
  obtain ⟨a, t, rfl⟩ := List.exists_cons_of_ne_nil h.mem.1
  have h0 := h.starts
  simp only [List.head?_cons, Option.some.injEq] at h0
  subst h0
  have hp := List.pairwise_cons.1 h.increasing
  refine ⟨t.toFinset, ?_, fun x hx => ?_⟩
  · rw [List.toFinset_card_of_nodup (hp.2.imp fun hab => ne_of_lt hab)]; simp
  · rw [List.mem_toFinset] at hx
    exact ⟨by simp [hx], hp.1 x hx⟩

/-- The elements before the last one are below the end and different. -/
theorem Covers.below {l : List ℝ} {L s : ℝ} (h : Covers l L s) :
    ∃ f : Finset ℝ, f.card = l.length - 1 ∧ ∀ x ∈ f, x ∈ l ∧ 0 ≤ x ∧ x < L := by
  classical
  have hm := h.mem.2
  obtain ⟨t, a, rfl⟩ : ∃ t a, l = t ++ [a] := ⟨_, _, (List.dropLast_append_getLast h.mem.1).symm⟩
  have h1 := h.ends
  simp at h1
  subst h1
  have hp := List.pairwise_append.1 h.increasing
  refine ⟨t.toFinset, ?_, fun x hx => ?_⟩
  · rw [List.toFinset_card_of_nodup (hp.1.imp fun hab => ne_of_lt hab)]; simp
  · rw [List.mem_toFinset] at hx
    exact ⟨by simp [hx], (hm x (by simp [hx])).1, hp.2.2 x hx a (by simp)⟩

/-- `surface.ravel()`: the elements of a matrix row by row. -/
def rowMajor (g : Grid) : List ℝ := (List.range g.rows).flatMap fun i => (List.range g.cols).map fun j => g.entry i j

theorem range_map_getElem (l : List ℝ) : (List.range l.length).map (fun j => l.getD j 0) = l := by
  apply List.ext_getElem
  · simp
  · intro i h1 h2; simp [h2]

theorem rowMajor_surface (g : Grid) (rs ts : List ℝ) (f : ℝ → ℝ → ℝ) (h : IsSurface g rs ts f) (hne : rs.length ≠ ts.length) :
    rowMajor g = (samplePoints rs ts).map fun p => f p.1 p.2 := by
  obtain ⟨h1, h2, h3⟩ := h
  unfold rowMajor samplePoints
  rw [if_neg hne, List.map_flatMap]
  conv_rhs => rw [← range_map_getElem rs]
  rw [List.flatMap_map, h1]
  apply List.flatMap_congr
  intro i hi
  rw [List.mem_range] at hi
  conv_rhs => rw [← range_map_getElem ts]
  rw [List.map_map, List.map_map, h2]
  apply List.map_congr_left
  intro j hj
  rw [List.mem_range] at hj
  rw [h3 i hi j hj]
  simp [hi, hj]

theorem clipLast_length {L : ℝ} {x y : List ℝ} (h : clipLast L x = .ok y) : y.length = x.length := by
  unfold clipLast at h
  rcases hx : x.getLast? with _ | v
  · rw [hx] at h; cases h
  · rw [hx] at h
    simp only [Except.ok.injEq] at h
    rw [← h]
    split_ifs <;> simp

theorem npArange_length {L s : ℝ} {x : List ℝ} (hs : 0 < s) (hL : 0 < L) (h : npArange (L + s) s = .ok x) : x.length = ⌈L / s⌉.toNat + 1 := by
  unfold npArange at h
  rw [if_neg hs.ne'] at h
  cases h
  rw [List.length_map, List.length_range, ceil_add_step L s hs hL]

theorem gen_polar_lengths {a b : ℝ} (ha : 0 < a) (hb : 0 < b) {rs ts : List ℝ} (h : genPolarCoordinates a b = .ok (rs, ts)) :
    rs.length = ⌈1 / a⌉.toNat + 1 ∧ ts.length = ⌈2 * Real.pi / b⌉.toNat + 1 := by
  rw [gen_polar_eq] at h
  cases h1 : npArange (1 + a) a with
  | error e => rw [h1] at h; cases h
  | ok x =>
    cases h2 : npArange (2 * Real.pi + b) b with
    | error e => rw [h1, h2] at h; cases h
    | ok y =>
      rw [h1, h2] at h
      have h : (do let rs ← clipLast 1 x; let ts ← clipLast (2 * Real.pi) y; pure (rs, ts)) = (Except.ok (rs, ts) : Res _) := h
      cases h3 : clipLast 1 x with
      | error e => rw [h3] at h; cases h
      | ok x' =>
        cases h4 : clipLast (2 * Real.pi) y with
        | error e => rw [h3, h4] at h; cases h
        | ok y' =>
          rw [h3, h4] at h
          have h : (Except.ok (x', y') : Res _) = .ok (rs, ts) := h
          cases h
          rw [clipLast_length h3, clipLast_length h4, npArange_length ha one_pos h1, npArange_length hb Real.two_pi_pos h2]
          exact ⟨rfl, rfl⟩

/-- C88. A surface computed by `gen_zernikes_surface`, flattened (row by row) and fitted by `fit_polynomials_vectors` on the returned polar
coordinates, gives the amplitudes back (rounded), if the steps are small enough for the orders of the polynomials (and the numbers of radii
and angles are different, see `surface_fit_equal_mesh`). -/
theorem surface_fit_roundtrip (h h' : List Call) (fuel : Nat) (lstsq : Lstsq) (hl : LstsqContract lstsq) (cs : List ℝ) (os : List PolObj)
    (hc : cs.length = os.length) (h0 : os ≠ []) (hv : PolsOk fuel os) (hd : (ordersOf os).Nodup) (N : ℕ) (hN : ∀ o ∈ os, o.n ≤ N)
    (rStep thetaStep : ℝ) (hr : 0 < rStep) (ht : 0 < thetaStep) (hr1 : rStep * ((N / 2 + 1 : ℕ) : ℝ) ≤ 1)
    (ht1 : thetaStep * ((2 * N + 1 : ℕ) : ℝ) ≤ 2 * Real.pi) (hne : ⌈1 / rStep⌉ ≠ ⌈2 * Real.pi / thetaStep⌉) (n : Int) (digits : Int) :
    ∃ g rs ts, (genZernikesSurface fuel cs (os.map .pol) rStep thetaStep false n (afterCalls h)).1 = .ok (.surface g, rs, ts) ∧
      fitted h' fuel lstsq os (rowMajor g) rs ts digits = .ok (cs.map (npRound digits)) := by
  obtain ⟨rs, ts, e1, c1, c2⟩ := gen_polar_covers rStep thetaStep hr ht
  obtain ⟨g, hg, hsurf⟩ := sum_surface h fuel cs os hc h0 hv rs ts c1.mem.1 c2.mem.1 c1.mem.2 rs.length ts.length
  have hne : rs.length ≠ ts.length := by
    obtain ⟨l1, l2⟩ := gen_polar_lengths hr ht e1
    have p1 : 0 ≤ ⌈1 / rStep⌉ := Int.ceil_nonneg (by positivity)
    have p2 : 0 ≤ ⌈2 * Real.pi / thetaStep⌉ := Int.ceil_nonneg (by positivity)
    omega
  refine ⟨g, rs, ts, ?_, ?_⟩
  · unfold genZernikesSurface
    rw [show (if false = true then Except.ok (genEqualPolarMesh n) else genPolarCoordinates rStep thetaStep) =
      (Except.ok (rs, ts) : Res _) from e1]
    simp only [cm_bind, CM.lift]
    rcases hc : sumZernikes fuel cs (os.map .pol) (.arr [rs.length] rs) (.arr [ts.length] ts) true (afterCalls h) with ⟨x, s⟩
    rw [hc] at hg
    simp only at hg
    subst hg
    rfl
  · rw [rowMajor_surface g rs ts _ hsurf hne]
    obtain ⟨fr, r1, r2⟩ := c1.positive
    obtain ⟨ft, t1, t2⟩ := c2.below
    have n1 := c1.count (N / 2 + 1) hr hr1
    have n2 := c2.count (2 * N + 1) ht ht1
    exact (fit_vectors_recovers h' fuel lstsq hl os h0 hv hd rs ts c1.mem.1 c2.mem.1 c1.mem.2
      (mesh_independent os fuel hv hd N hN rs ts hne fr ft (by omega) (by omega) r2 t2) cs hc digits).1

/-- C88. The default steps (0.01 and `round(pi/180, 7)`) are small enough for all polynomials of orders up to 179. -/
theorem surface_fit_default_steps (h h' : List Call) (fuel : Nat) (lstsq : Lstsq) (hl : LstsqContract lstsq) (cs : List ℝ) (os : List PolObj)
    (hc : cs.length = os.length) (h0 : os ≠ []) (hv : PolsOk fuel os) (hd : (ordersOf os).Nodup) (hN : ∀ o ∈ os, o.n ≤ 179)
    (n : Int) (digits : Int) :
    ∃ g rs ts, (genZernikesSurface fuel cs (os.map .pol) (1 / 100) (174533 / 10 ^ 7) false n (afterCalls h)).1 = .ok (.surface g, rs, ts) ∧
      fitted h' fuel lstsq os (rowMajor g) rs ts digits = .ok (cs.map (npRound digits)) := by
  have hp := Real.pi_gt_d6
  refine surface_fit_roundtrip h h' fuel lstsq hl cs os hc h0 hv hd 179 (by exact_mod_cast hN) _ _ (by norm_num) (by norm_num) (by norm_num) ?_ ?_ n digits
  · norm_num
    linarith
  · have e : ⌈(1 : ℝ) / (1 / 100)⌉ = 100 := by rw [Int.ceil_eq_iff]; norm_num
    have e2 : 100 < ⌈2 * Real.pi / (174533 / 10 ^ 7)⌉ := by
      rw [Int.lt_ceil, lt_div_iff₀ (by norm_num)]; norm_num; linarith
    rw [e]
    exact ne_of_lt e2

/-- C88. A surface on as many radii as angles (`equal_n_coordinates=True`) cannot be fitted this way: the vectors are then taken for the
coordinates of single points, and the fit raises `ValueError`. -/
theorem surface_fit_equal_mesh (h h' : List Call) (fuel : Nat) (lstsq : Lstsq) (cs : List ℝ) (os : List PolObj)
    (hc : cs.length = os.length) (h0 : os ≠ []) (hv : PolsOk fuel os) (hd : (ordersOf os).Nodup)
    (rStep thetaStep : ℝ) (n : Int) (digits : Int) :
    ∃ g rs ts, (genZernikesSurface fuel cs (os.map .pol) rStep thetaStep true n (afterCalls h)).1 = .ok (.surface g, rs, ts) ∧
      fitted h' fuel lstsq os (rowMajor g) rs ts digits = .error .valueError := by
  obtain ⟨l1, l2, c1, c2⟩ := gen_equal_mesh_covers n
  obtain ⟨rs, ts, e⟩ : ∃ rs ts, genEqualPolarMesh n = (rs, ts) := ⟨_, _, rfl⟩
  rw [e] at l1 l2 c1 c2
  simp only at l1 l2 c1 c2
  obtain ⟨g, hg, hsurf⟩ := sum_surface h fuel cs os hc h0 hv rs ts c1.mem.1 c2.mem.1 c1.mem.2 rs.length ts.length
  refine ⟨g, rs, ts, ?_, ?_⟩
  · unfold genZernikesSurface
    rw [e]
    simp only [cm_bind, CM.lift]
    rcases hc : sumZernikes fuel cs (os.map .pol) (.arr [rs.length] rs) (.arr [ts.length] ts) true (afterCalls h) with ⟨x, s⟩
    rw [hc] at hg
    simp only at hg
    subst hg
    simp only [if_true, hc]
    rfl
  · obtain ⟨g1, g2, hrest⟩ := hsurf
    have hlen : (rowMajor g).length = rs.length * ts.length := by
      simp [rowMajor, g1, g2]
    have hbig : 4 ≤ rs.length := by omega
    have hsame : rs.length = ts.length := by omega
    have htake : takePols (os.map .pol) = .ok os := by
      clear h0 hv hd hc hg hlen g1 g2 hrest
      induction os with
      | nil => rfl
      | cons o os ih => simp [takePols, ih, Except.map]
    obtain ⟨o, rest, rfl⟩ := List.exists_cons_of_ne_nil h0
    have hov := hv o (by simp)
    have key : Fails (fitMatrix fuel rs ts (o :: rest) 0 (Grid.zeros (rowMajor g).length ((o :: rest).map PolItem.pol).length)) .valueError := by
      unfold fitMatrix
      rw [if_pos hsame]
      obtain ⟨w, hw, _⟩ := checkAnglesArray_ok [ts.length] ts c2.mem.1
      refine Ret.bindFails (polVal_ok fuel o hov.1 hov.2 _ (.arr [ts.length] ts) _ _ w (checkRadii_arr [rs.length] rs c1.mem.1 c1.mem.2).1 hw
        (by simp [shapesDiffer, hsame])) ?_
      refine Fails.bind (fails_lift ?_)
      unfold assignSlice
      rw [if_neg]
      simp only [fitsSlice, Grid.zeros, hlen, ← hsame]
      have : rs.length * 4 ≤ rs.length * rs.length := Nat.mul_le_mul_left _ hbig
      simp
      omega
    have : Fails (fitPolynomialsVectors fuel lstsq ((o :: rest).map .pol) (rowMajor g) rs ts (1, 1, 1) digits) .valueError := by
      unfold fitPolynomialsVectors
      rw [if_neg (by simp)]
      refine Fails.bind ?_
      unfold fitZernikes
      rw [if_neg (by simp)]
      refine Ret.bindFails (ret_lift htake) ?_
      rw [if_pos (show ((o :: rest).map fun o => (o.m, o.n)).Nodup from hd)]
      exact Fails.bind key
    exact this _ (afterCalls_good h')

end Verif.Props
