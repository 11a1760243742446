import Verif.Proofs.FitLinear
import Verif.Props.Fit

/-!
# C87: the fitted coefficients follow the phases
-/

namespace Verif.Props
open Verif.Model Verif.Spec Verif.Proofs

/-- What `fit_polynomials_vectors` returns (1-dimensional arrays), or its exception, after any calls of the process. -/
noncomputable def fitted (h : List Call) (fuel : Nat) (lstsq : Lstsq) (os : List PolObj) (phases radii thetas : List ℝ) (digits : Int) :
    Res (List ℝ) :=
  (fitPolynomialsVectors fuel lstsq (os.map .pol) phases radii thetas (1, 1, 1) digits (afterCalls h)).1

/-- What `fit_polynomials` returns for an image (without the cropped image), or its exception, after any calls of the process. -/
noncomputable def fittedImage (h : List Call) (fuel : Nat) (lstsq : Lstsq) (os : List PolObj) (img : Grid) (crop : ℝ) (strict : Bool)
    (digits : Int) : Res (List ℝ) :=
  ((fitPolynomials fuel lstsq (.img img) (os.map .pol) crop strict digits false (afterCalls h)).1).map Prod.fst

/-- The conditions under which a fit is defined: a solver, a non-empty list of different valid polynomials, radii in `[0, 1]`. -/
structure FitInput (fuel : Nat) (lstsq : Lstsq) (os : List PolObj) (radii thetas : List ℝ) : Prop where
  solver : LstsqContract lstsq
  nonempty : os ≠ []
  valid : PolsOk fuel os
  different : (ordersOf os).Nodup
  radii_nonempty : radii ≠ []
  thetas_nonempty : thetas ≠ []
  radii_range : ∀ x ∈ radii, 0 ≤ x ∧ x ≤ 1

theorem fitted_ok {fuel : Nat} {lstsq : Lstsq} {os : List PolObj} {radii thetas : List ℝ} (hf : FitInput fuel lstsq os radii thetas)
    (h : List Call) (phases : List ℝ) (hp : phases.length = (samplePoints radii thetas).length) (digits : Int) :
    ∃ x, fitted h fuel lstsq os phases radii thetas digits = .ok (x.map (npRound digits)) ∧
      LeastSquares (ordersOf os) (samplePoints radii thetas) phases x :=
  fit_vectors_least_squares h fuel lstsq hf.solver os hf.nonempty hf.valid hf.different phases radii thetas hf.radii_nonempty
    hf.thetas_nonempty hf.radii_range hp digits

theorem ordersOf_length (os : List PolObj) : (ordersOf os).length = os.length := by simp [ordersOf]

theorem getD_round (x : List ℝ) (d : Int) (j : Nat) (hj : j < x.length) :
    |(x.map (npRound d)).getD j 0 - x.getD j 0| ≤ 1 / 2 / 10 ^ d := by
  simp only [List.getD_eq_getElem?_getD, List.getElem?_map, List.getElem?_eq_getElem hj, Option.map_some, Option.getD_some]
  exact npRound_near d _

theorem getD_zipWith (f : ℝ → ℝ → ℝ) (x y : List ℝ) (j : Nat) (hx : j < x.length) (hy : j < y.length) :
    (List.zipWith f x y).getD j 0 = f (x.getD j 0) (y.getD j 0) := by
  simp [List.getD_eq_getElem?_getD, List.getElem?_zipWith, hx, hy]

/-- C87. The fit is linear: the phases `a·u + b·v` have the coefficients `a·A + b·B`, up to the rounding of the three results. -/
theorem fit_linear (fuel : Nat) (lstsq : Lstsq) (os : List PolObj) (radii thetas : List ℝ) (hf : FitInput fuel lstsq os radii thetas)
    (hi : IndependentOn (ordersOf os) (samplePoints radii thetas)) (h1 h2 h3 : List Call) (u v : List ℝ)
    (hu : u.length = (samplePoints radii thetas).length) (hv : v.length = (samplePoints radii thetas).length) (a b : ℝ) (digits : Int) :
    ∃ A B C, fitted h1 fuel lstsq os u radii thetas digits = .ok A ∧ fitted h2 fuel lstsq os v radii thetas digits = .ok B ∧
      fitted h3 fuel lstsq os (List.zipWith (fun s t => a * s + b * t) u v) radii thetas digits = .ok C ∧
      A.length = os.length ∧ B.length = os.length ∧ C.length = os.length ∧
      ∀ j, j < os.length → |C.getD j 0 - (a * A.getD j 0 + b * B.getD j 0)| ≤ (1 + |a| + |b|) / 2 / 10 ^ digits := by
  obtain ⟨x, ex, lx⟩ := fitted_ok hf h1 u hu digits
  obtain ⟨y, ey, ly⟩ := fitted_ok hf h2 v hv digits
  obtain ⟨z, ez, lz⟩ := fitted_ok hf h3 (List.zipWith (fun s t => a * s + b * t) u v) (by simp [hu, hv]) digits
  have hz : z = List.zipWith (fun s t => a * s + b * t) x y :=
    leastSquares_unique _ _ hi _ (by simp [hu, hv]) _ _ lz (leastSquares_lin a b _ _ u v (hu.trans hv.symm) x y lx ly)
  have nx : x.length = os.length := lx.1.trans (ordersOf_length os)
  have ny : y.length = os.length := ly.1.trans (ordersOf_length os)
  have nz : z.length = os.length := lz.1.trans (ordersOf_length os)
  refine ⟨_, _, _, ex, ey, ez, by simp [nx], by simp [ny], by simp [nz], fun j hj => ?_⟩
  have r1 := getD_round x digits j (by omega)
  have r2 := getD_round y digits j (by omega)
  have r3 := getD_round z digits j (by omega)
  have e : z.getD j 0 = a * x.getD j 0 + b * y.getD j 0 := by rw [hz, getD_zipWith _ _ _ _ (by omega) (by omega)]
  generalize (x.map (npRound digits)).getD j 0 = X at *
  generalize (y.map (npRound digits)).getD j 0 = Y at *
  generalize (z.map (npRound digits)).getD j 0 = Z at *
  generalize x.getD j 0 = x0 at *
  generalize y.getD j 0 = y0 at *
  rw [e] at r3
  rw [show Z - (a * X + b * Y) = (Z - (a * x0 + b * y0)) + (-(a * (X - x0)) + -(b * (Y - y0))) by ring]
  calc _ ≤ |Z - (a * x0 + b * y0)| + (|a| * |X - x0| + |b| * |Y - y0|) := by
        refine (abs_add_le _ _).trans ?_
        gcongr
        refine (abs_add_le _ _).trans ?_
        rw [abs_neg, abs_neg, abs_mul, abs_mul]
    _ ≤ 1 / 2 / 10 ^ digits + (|a| * (1 / 2 / 10 ^ digits) + |b| * (1 / 2 / 10 ^ digits)) := by gcongr
    _ = _ := by ring

/-- C87. Adding a combination of the polynomials to the phases adds its coefficients to the result, up to the rounding; for instance, a
constant phase changes only the coefficient of the piston. -/
theorem fit_add_combination (fuel : Nat) (lstsq : Lstsq) (os : List PolObj) (radii thetas : List ℝ) (hf : FitInput fuel lstsq os radii thetas)
    (hi : IndependentOn (ordersOf os) (samplePoints radii thetas)) (h1 h2 : List Call) (u : List ℝ)
    (hu : u.length = (samplePoints radii thetas).length) (cs : List ℝ) (hc : cs.length = os.length) (digits : Int) :
    ∃ A C, fitted h1 fuel lstsq os u radii thetas digits = .ok A ∧
      fitted h2 fuel lstsq os (List.zipWith (fun v p => v + combination cs (ordersOf os) p.1 p.2) u (samplePoints radii thetas)) radii thetas
        digits = .ok C ∧ A.length = os.length ∧ C.length = os.length ∧
      (∀ j, j < os.length → |C.getD j 0 - (A.getD j 0 + cs.getD j 0)| ≤ 1 / 10 ^ digits) ∧
      ∀ j, j < os.length → cs.getD j 0 = 0 → C.getD j 0 = A.getD j 0 := by
  obtain ⟨x, ex, lx⟩ := fitted_ok hf h1 u hu digits
  obtain ⟨w, hw⟩ : ∃ w, w = List.zipWith (fun v p => v + combination cs (ordersOf os) p.1 p.2) u (samplePoints radii thetas) := ⟨_, rfl⟩
  rw [← hw]
  have hw' : w = List.zipWith (fun s t => 1 * s + 1 * t) u ((samplePoints radii thetas).map fun p => combination cs (ordersOf os) p.1 p.2) := by
    rw [hw, List.zipWith_map_right]; congr 1; funext v p; ring
  obtain ⟨z, ez, lz⟩ := fitted_ok hf h2 w (by simp [hw, hu]) digits
  have hc' : cs.length = (ordersOf os).length := hc.trans (ordersOf_length os).symm
  have ll : LeastSquares (ordersOf os) (samplePoints radii thetas) w (List.zipWith (fun s t => 1 * s + 1 * t) x cs) := by
    rw [hw']
    have hlen : u.length = ((samplePoints radii thetas).map fun p => combination cs (ordersOf os) p.1 p.2).length := by
      rw [List.length_map]; exact hu
    exact leastSquares_lin 1 1 (ordersOf os) (samplePoints radii thetas) u _ hlen x cs lx (leastSquares_self _ _ cs hc')
  have hz := leastSquares_unique _ _ hi w (by simp [hw, hu]) _ _ lz ll
  have nx : x.length = os.length := lx.1.trans (ordersOf_length os)
  have nz : z.length = os.length := lz.1.trans (ordersOf_length os)
  have e : ∀ j, j < os.length → z.getD j 0 = x.getD j 0 + cs.getD j 0 := by
    intro j hj; rw [hz, getD_zipWith _ _ _ _ (by omega) (by omega)]; ring
  refine ⟨_, _, ex, ez, by simp [nx], by simp [nz], fun j hj => ?_, fun j hj h0 => ?_⟩
  · have r1 := getD_round x digits j (by omega)
    have r3 := getD_round z digits j (by omega)
    rw [e j hj] at r3
    generalize (x.map (npRound digits)).getD j 0 = X at *
    generalize (z.map (npRound digits)).getD j 0 = Z at *
    rw [show Z - (X + cs.getD j 0) = (Z - (x.getD j 0 + cs.getD j 0)) - (X - x.getD j 0) by ring]
    calc _ ≤ 1 / 2 / 10 ^ digits + 1 / 2 / 10 ^ digits := (abs_sub _ _).trans (add_le_add r3 r1)
      _ = _ := by ring
  · have e1 := e j hj
    rw [h0, add_zero] at e1
    have m : ∀ l : List ℝ, j < l.length → (l.map (npRound digits)).getD j 0 = npRound digits (l.getD j 0) := by
      intro l hl; simp [List.getD_eq_getElem?_getD, hl]
    rw [m z (by omega), m x (by omega), e1]

/-- C87. Nothing is left to fit: after the returned combination is subtracted from the phases, the fit of the rest returns zeros only. -/
theorem fit_residual_zero (fuel : Nat) (lstsq : Lstsq) (os : List PolObj) (radii thetas : List ℝ) (hf : FitInput fuel lstsq os radii thetas)
    (hi : IndependentOn (ordersOf os) (samplePoints radii thetas)) (h1 h2 : List Call) (u : List ℝ)
    (hu : u.length = (samplePoints radii thetas).length) (digits : Int) :
    ∃ A, fitted h1 fuel lstsq os u radii thetas digits = .ok A ∧
      fitted h2 fuel lstsq os (List.zipWith (fun v p => v - combination A (ordersOf os) p.1 p.2) u (samplePoints radii thetas)) radii thetas
        digits = .ok (os.map fun _ => 0) := by
  obtain ⟨x, ex, lx⟩ := fitted_ok hf h1 u hu digits
  refine ⟨_, ex, ?_⟩
  obtain ⟨cs, hcs⟩ : ∃ cs, cs = x.map (npRound digits) := ⟨_, rfl⟩
  rw [← hcs]
  obtain ⟨w, hw⟩ : ∃ w, w = List.zipWith (fun v p => v - combination cs (ordersOf os) p.1 p.2) u (samplePoints radii thetas) := ⟨_, rfl⟩
  rw [← hw]
  have hw' : w = List.zipWith (fun s t => 1 * s + (-1) * t) u ((samplePoints radii thetas).map fun p => combination cs (ordersOf os) p.1 p.2) := by
    rw [hw, List.zipWith_map_right]; congr 1; funext v p; ring
  obtain ⟨z, ez, lz⟩ := fitted_ok hf h2 w (by simp [hw, hu]) digits
  have hc' : cs.length = (ordersOf os).length := by rw [hcs, List.length_map]; exact lx.1
  have ll : LeastSquares (ordersOf os) (samplePoints radii thetas) w (List.zipWith (fun s t => 1 * s + (-1) * t) x cs) := by
    rw [hw']
    have hlen : u.length = ((samplePoints radii thetas).map fun p => combination cs (ordersOf os) p.1 p.2).length := by
      rw [List.length_map]; exact hu
    exact leastSquares_lin 1 (-1) (ordersOf os) (samplePoints radii thetas) u _ hlen x cs lx (leastSquares_self _ _ cs hc')
  have hz := leastSquares_unique _ _ hi w (by simp [hw, hu]) _ _ lz ll
  rw [ez]
  have nx : x.length = os.length := lx.1.trans (ordersOf_length os)
  congr 1
  apply List.ext_getElem
  · simp [hz, hcs, nx]
  · intro i a b
    simp only [List.getElem_map]
    have hi : i < x.length := by simp at b; omega
    have e : z[i]'(by simpa using a) = x[i] - npRound digits x[i] := by
      simp only [hz, hcs, List.getElem_zipWith, List.getElem_map]; ring
    rw [e]
    apply npRound_small
    rw [abs_sub_comm]
    exact npRound_near digits _

theorem coefficient_error {κ : ℝ} (hκ : 0 < κ) {x y : List ℝ} {E : ℝ} (h : κ * energy (List.zipWith (fun s t => s - t) x y) ≤ E)
    (j : Nat) (hx : j < x.length) (hy : j < y.length) : |x.getD j 0 - y.getD j 0| ≤ Real.sqrt (E / κ) := by
  apply Real.abs_le_sqrt
  rw [le_div_iff₀ hκ]
  have hm : x.getD j 0 - y.getD j 0 ∈ List.zipWith (fun s t => s - t) x y := by
    rw [List.mem_iff_getElem]
    exact ⟨j, by simp [hx, hy], by simp [List.getD_eq_getElem?_getD, hx, hy]⟩
  have := sq_le_energy _ _ hm
  nlinarith

/-- C87. Noise of the phases changes no coefficient by more than the root of the sum of the squares of the noise, divided by `κ` (see
`Spec.Conditioned`), up to the rounding of the results. -/
theorem fit_noise (fuel : Nat) (lstsq : Lstsq) (os : List PolObj) (radii thetas : List ℝ) (hf : FitInput fuel lstsq os radii thetas)
    (κ : ℝ) (hκ : 0 < κ) (hi : Conditioned κ (ordersOf os) (samplePoints radii thetas)) (h1 h2 : List Call) (u v : List ℝ)
    (hu : u.length = (samplePoints radii thetas).length) (hv : v.length = (samplePoints radii thetas).length) (digits : Int) :
    ∃ A B, fitted h1 fuel lstsq os u radii thetas digits = .ok A ∧ fitted h2 fuel lstsq os v radii thetas digits = .ok B ∧
      A.length = os.length ∧ B.length = os.length ∧
      ∀ j, j < os.length → |A.getD j 0 - B.getD j 0| ≤
        Real.sqrt (energy (List.zipWith (fun s t => s - t) u v) / κ) + 1 / 10 ^ digits := by
  obtain ⟨x, ex, lx⟩ := fitted_ok hf h1 u hu digits
  obtain ⟨y, ey, ly⟩ := fitted_ok hf h2 v hv digits
  have nx : x.length = os.length := lx.1.trans (ordersOf_length os)
  have ny : y.length = os.length := ly.1.trans (ordersOf_length os)
  refine ⟨_, _, ex, ey, by simp [nx], by simp [ny], fun j hj => ?_⟩
  have r0 := coefficient_error hκ (leastSquares_noise κ _ _ hi u v hu hv x y lx ly) j (by omega) (by omega)
  have r1 := getD_round x digits j (by omega)
  have r2 := getD_round y digits j (by omega)
  generalize (x.map (npRound digits)).getD j 0 = X at *
  generalize (y.map (npRound digits)).getD j 0 = Y at *
  rw [show X - Y = (x.getD j 0 - y.getD j 0) + ((X - x.getD j 0) - (Y - y.getD j 0)) by ring]
  have r3 := (abs_add_le (x.getD j 0 - y.getD j 0) ((X - x.getD j 0) - (Y - y.getD j 0)))
  have r4 := abs_sub (X - x.getD j 0) (Y - y.getD j 0)
  have r5 : (1 : ℝ) / 10 ^ digits = 1 / 2 / 10 ^ digits + 1 / 2 / 10 ^ digits := by ring
  linarith

/-- C87. Phases that are a combination of the polynomials plus noise give its coefficients back up to the effect of the noise and the
rounding. -/
theorem fit_recovers_with_noise (fuel : Nat) (lstsq : Lstsq) (os : List PolObj) (radii thetas : List ℝ)
    (hf : FitInput fuel lstsq os radii thetas) (κ : ℝ) (hκ : 0 < κ) (hi : Conditioned κ (ordersOf os) (samplePoints radii thetas))
    (h : List Call) (cs : List ℝ) (hc : cs.length = os.length) (noise : List ℝ) (hn : noise.length = (samplePoints radii thetas).length)
    (digits : Int) :
    ∃ A, fitted h fuel lstsq os (List.zipWith (fun v p => combination cs (ordersOf os) p.1 p.2 + v) noise (samplePoints radii thetas))
        radii thetas digits = .ok A ∧ A.length = os.length ∧
      ∀ j, j < os.length → |A.getD j 0 - cs.getD j 0| ≤ Real.sqrt (energy noise / κ) + 1 / 2 / 10 ^ digits := by
  obtain ⟨w, hw⟩ : ∃ w, w = List.zipWith (fun v p => combination cs (ordersOf os) p.1 p.2 + v) noise (samplePoints radii thetas) := ⟨_, rfl⟩
  rw [← hw]
  obtain ⟨x, ex, lx⟩ := fitted_ok hf h w (by simp [hw, hn]) digits
  have nx : x.length = os.length := lx.1.trans (ordersOf_length os)
  have hc' : cs.length = (ordersOf os).length := hc.trans (ordersOf_length os).symm
  refine ⟨_, ex, by simp [nx], fun j hj => ?_⟩
  have ll := leastSquares_noise κ _ _ hi w _ (by simp [hw, hn]) (by simp) x cs lx (leastSquares_self _ _ cs hc')
  have e : List.zipWith (fun s t => s - t) w ((samplePoints radii thetas).map fun p => combination cs (ordersOf os) p.1 p.2) = noise := by
    apply List.ext_getElem
    · simp [hw, hn]
    · intro i a b; simp [hw]
  rw [e] at ll
  have r0 := coefficient_error hκ ll j (by omega) (by omega)
  have r1 := getD_round x digits j (by omega)
  generalize (x.map (npRound digits)).getD j 0 = X at *
  rw [show X - cs.getD j 0 = (x.getD j 0 - cs.getD j 0) + (X - x.getD j 0) by ring]
  exact (abs_add_le _ _).trans (add_le_add r0 r1)

/-- C87. Such a `κ` exists whenever the polynomials are linearly independent on the points. -/
theorem fit_noise_constant (os : List PolObj) (radii thetas : List ℝ) (hi : IndependentOn (ordersOf os) (samplePoints radii thetas)) :
    ∃ κ : ℝ, 0 < κ ∧ Conditioned κ (ordersOf os) (samplePoints radii thetas) := independent_conditioned _ _ hi

/-- C87. The order in which the points are listed (each with its phase) does not matter. -/
theorem fit_order_of_points (fuel : Nat) (lstsq : Lstsq) (os : List PolObj) (radii thetas radii' thetas' : List ℝ)
    (hf : FitInput fuel lstsq os radii thetas) (hf' : FitInput fuel lstsq os radii' thetas')
    (hi : IndependentOn (ordersOf os) (samplePoints radii thetas)) (h1 h2 : List Call) (u u' : List ℝ)
    (hu : u.length = (samplePoints radii thetas).length) (hu' : u'.length = (samplePoints radii' thetas').length)
    (hp : ((samplePoints radii thetas).zip u).Perm ((samplePoints radii' thetas').zip u')) (digits : Int) :
    ∃ A, fitted h1 fuel lstsq os u radii thetas digits = .ok A ∧ fitted h2 fuel lstsq os u' radii' thetas' digits = .ok A := by
  obtain ⟨x, ex, lx⟩ := fitted_ok hf h1 u hu digits
  obtain ⟨y, ey, ly⟩ := fitted_ok hf' h2 u' hu' digits
  have := leastSquares_unique _ _ hi u hu _ _ lx (leastSquares_points hp.symm ly)
  exact ⟨_, ex, by rw [ey, this]⟩

/-- C87. The order of the polynomials does not matter: each polynomial gets the same coefficient. -/
theorem fit_order_of_polynomials (fuel : Nat) (lstsq : Lstsq) (os os' : List PolObj) (hos : os.Perm os') (radii thetas : List ℝ)
    (hf : FitInput fuel lstsq os radii thetas) (hi : IndependentOn (ordersOf os) (samplePoints radii thetas)) (h1 h2 : List Call)
    (u : List ℝ) (hu : u.length = (samplePoints radii thetas).length) (digits : Int) :
    ∃ A A', fitted h1 fuel lstsq os u radii thetas digits = .ok A ∧ fitted h2 fuel lstsq os' u radii thetas digits = .ok A' ∧
      A.length = os.length ∧ A'.length = os'.length ∧ ((ordersOf os).zip A).Perm ((ordersOf os').zip A') := by
  have hperm : (ordersOf os).Perm (ordersOf os') := hos.map _
  have hf' : FitInput fuel lstsq os' radii thetas :=
    ⟨hf.solver, by rintro rfl; exact hf.nonempty hos.eq_nil, fun o ho => hf.valid o (hos.mem_iff.2 ho), hperm.nodup_iff.1 hf.different,
      hf.radii_nonempty, hf.thetas_nonempty, hf.radii_range⟩
  obtain ⟨x, ex, lx⟩ := fitted_ok hf h1 u hu digits
  obtain ⟨y, ey, ly⟩ := fitted_ok hf' h2 u hu digits
  obtain ⟨x', n1, n2⟩ := perm_zip hperm x lx.1
  have := leastSquares_unique _ _ (independent_orders hperm hi) u hu _ _ ly (leastSquares_orders hperm n1 n2 lx)
  subst this
  refine ⟨_, _, ex, ey, by simpa using lx.1.trans (ordersOf_length os), by simpa using ly.1.trans (ordersOf_length os'), ?_⟩
  rw [List.zip_map_right, List.zip_map_right]
  exact n2.map _

theorem cropLoop_same (img img' : Grid) (hr : img.rows = img'.rows) (hc : img.cols = img'.cols) (crop eps : ℝ) (strict : Bool) :
    (cropLoop img crop eps strict).mask = (cropLoop img' crop eps strict).mask ∧
    (cropLoop img crop eps strict).radii = (cropLoop img' crop eps strict).radii ∧
    (cropLoop img crop eps strict).thetas = (cropLoop img' crop eps strict).thetas ∧
    (cropLoop img crop eps strict).recalibrate = (cropLoop img' crop eps strict).recalibrate ∧
    (cropLoop img crop eps strict).coeff = (cropLoop img' crop eps strict).coeff := by
  let R : CropState → CropState → Prop := fun s s' => s.mask = s'.mask ∧ s.radii = s'.radii ∧ s.thetas = s'.thetas ∧
    s.recalibrate = s'.recalibrate ∧ s.coeff = s'.coeff
  have hpix : ∀ i j s s', R s s' → R (cropPixel img crop eps strict i j s) (cropPixel img' crop eps strict i j s') := by
    rintro i j s s' ⟨e1, e2, e3, e4, e5⟩
    unfold cropPixel
    simp only [← hr, ← hc]
    by_cases hx : pixRadius img.rows img.cols i j - crop < eps
    · rw [if_pos hx, if_pos hx]
      refine ⟨?_, ?_, ?_, ?_, ?_⟩
      · simp only [e1]
      · simp only [e2]
      · simp only [e3]
      · simp only [e4]
      · simp only [e5]
    · rw [if_neg hx, if_neg hx]; exact ⟨e1, e2, e3, e4, e5⟩
  have hrow : ∀ (l : List Nat) i s s', R s s' → R (l.foldl (fun s j => cropPixel img crop eps strict i j s) s)
      (l.foldl (fun s j => cropPixel img' crop eps strict i j s) s') := by
    intro l i
    induction l with
    | nil => intro s s' h; exact h
    | cons j l ih => intro s s' h; exact ih _ _ (hpix i j s s' h)
  have hall : ∀ (l l2 : List Nat) s s', R s s' →
      R (l.foldl (fun s i => l2.foldl (fun s j => cropPixel img crop eps strict i j s) s) s)
        (l.foldl (fun s i => l2.foldl (fun s j => cropPixel img' crop eps strict i j s) s) s') := by
    intro l l2
    induction l with
    | nil => intro s s' h; exact h
    | cons i l ih => intro s s' h; exact ih _ _ (hrow l2 i s s' h)
  unfold cropLoop
  rw [← hr, ← hc]
  exact hall _ _ _ _ ⟨rfl, rfl, rfl, rfl, rfl⟩

theorem crop_same_shape (img img' : Grid) (hr : img.rows = img'.rows) (hc : img.cols = img'.cols) (crop : ℝ) (strict : Bool) (out out' : Cropped)
    (ho : cropPhasesImg (.img img) crop strict = .ok out) (ho' : cropPhasesImg (.img img') crop strict = .ok out') :
    out.mask = out'.mask ∧ out.radii = out'.radii ∧ out.thetas = out'.thetas := by
  obtain ⟨e1, e2, e3, e4, e5⟩ := cropLoop_same img img' hr hc (npRound 4 crop) (cropEps img.rows img.cols strict) strict
  unfold cropPhasesImg at ho ho'
  simp only [← hr, ← hc] at ho'
  simp only [← e2, ← e4, ← e5] at ho'
  by_cases h1 : ¬ (0.5 ≤ npRound 4 crop ∧ npRound 4 crop ≤ 1)
  · simp only [] at ho; rw [if_pos h1] at ho; cases ho
  · simp only [] at ho ho'
    rw [if_neg h1] at ho ho'
    by_cases h2 : (if img.rows ≠ img.cols then min img.rows img.cols else img.rows) < 3
    · rw [if_pos h2] at ho; cases ho
    · rw [if_neg h2] at ho ho'
      generalize cropLoop img (npRound 4 crop) (cropEps img.rows img.cols strict) strict = S at *
      generalize cropLoop img' (npRound 4 crop) (cropEps img.rows img.cols strict) strict = S' at *
      rcases hm : npMax (if S.recalibrate then S.radii.map (fun x => npRound 4 (x / S.coeff)) else S.radii) with e | top
      · rw [hm] at ho; cases ho
      · rw [hm] at ho ho'
        cases ho; cases ho'
        exact ⟨e1, rfl, e3⟩

theorem fittedImage_ok (h : List Call) (fuel : Nat) (lstsq : Lstsq) (hl : LstsqContract lstsq) (os : List PolObj) (h0 : os ≠ [])
    (hv : PolsOk fuel os) (hd : (ordersOf os).Nodup) (img : Grid) (crop : ℝ) (strict : Bool) (hsize : 3 ≤ min img.rows img.cols)
    (hlo : 0.5 ≤ crop) (hhi : crop ≤ 1) (digits : Int) :
    ∃ out x, cropPhasesImg (.img img) crop strict = .ok out ∧ CropSpec img crop strict out ∧
      fittedImage h fuel lstsq os img crop strict digits = .ok (x.map (npRound digits)) ∧
      LeastSquares (ordersOf os) (out.radii.zip out.thetas) out.phases x := by
  obtain ⟨out, x, pic, e1, e2, e3, e4, _⟩ := fit_image_least_squares h fuel lstsq hl os h0 hv hd img crop strict hsize hlo hhi digits false
  exact ⟨out, x, e1, e2, by rw [fittedImage, e3]; rfl, e4⟩

/-- C87. `fit_polynomials` on two images of the same shape: the same pixels and coordinates are taken from both, the results are the fits
of the combined image up to the rounding, and differ by at most the effect of the differences of the pixels. -/
theorem fit_image_response (fuel : Nat) (lstsq : Lstsq) (hl : LstsqContract lstsq) (os : List PolObj) (h0 : os ≠ [])
    (hv : PolsOk fuel os) (hd : (ordersOf os).Nodup) (img img' : Grid) (hr : img'.rows = img.rows) (hcols : img'.cols = img.cols) (crop : ℝ)
    (strict : Bool) (hsize : 3 ≤ min img.rows img.cols) (hlo : 0.5 ≤ crop) (hhi : crop ≤ 1) (a b : ℝ) (digits : Int) (h1 h2 h3 : List Call)
    (out : Cropped) (ho : cropPhasesImg (.img img) crop strict = .ok out) (κ : ℝ) (hκ : 0 < κ)
    (hi : Conditioned κ (ordersOf os) (out.radii.zip out.thetas)) :
    ∃ A B C, fittedImage h1 fuel lstsq os img crop strict digits = .ok A ∧ fittedImage h2 fuel lstsq os img' crop strict digits = .ok B ∧
      fittedImage h3 fuel lstsq os { img with entry := fun i j => a * img.entry i j + b * img'.entry i j } crop strict digits = .ok C ∧
      A.length = os.length ∧ B.length = os.length ∧ C.length = os.length ∧
      (∀ j, j < os.length → |C.getD j 0 - (a * A.getD j 0 + b * B.getD j 0)| ≤ (1 + |a| + |b|) / 2 / 10 ^ digits) ∧
      ∀ j, j < os.length → |A.getD j 0 - B.getD j 0| ≤
        Real.sqrt (((selected out.mask).map fun p => (img.entry p.1 p.2 - img'.entry p.1 p.2) ^ 2).sum / κ) + 1 / 10 ^ digits := by
  obtain ⟨o1, x, p1, s1, ex, lx⟩ := fittedImage_ok h1 fuel lstsq hl os h0 hv hd img crop strict hsize hlo hhi digits
  obtain ⟨o2, y, p2, s2, ey, ly⟩ := fittedImage_ok h2 fuel lstsq hl os h0 hv hd img' crop strict (by rw [hr, hcols]; exact hsize) hlo hhi digits
  obtain ⟨o3, z, p3, s3, ez, lz⟩ := fittedImage_ok h3 fuel lstsq hl os h0 hv hd
    { img with entry := fun i j => a * img.entry i j + b * img'.entry i j } crop strict hsize hlo hhi digits
  rw [ho] at p1
  cases p1
  obtain ⟨m2, r2, t2⟩ := crop_same_shape img img' hr.symm hcols.symm crop strict out o2 ho p2
  obtain ⟨m3, r3, t3⟩ := crop_same_shape img { img with entry := fun i j => a * img.entry i j + b * img'.entry i j } rfl rfl crop strict out o3 ho p3
  have f1 := s1.phases
  have f2 := s2.phases
  have f3 := s3.phases
  rw [← m2] at f2
  rw [← m3] at f3
  rw [← r2, ← t2] at ly
  rw [← r3, ← t3] at lz
  have hpts : (out.radii.zip out.thetas).length = (selected out.mask).length := by simp [s1.lengths.1, s1.lengths.2]
  have n1 : out.phases.length = (out.radii.zip out.thetas).length := by rw [f1, hpts]; simp
  have n2 : o2.phases.length = (out.radii.zip out.thetas).length := by rw [f2, hpts]; simp
  have n3 : o3.phases.length = (out.radii.zip out.thetas).length := by rw [f3, hpts]; simp
  have e3 : o3.phases = List.zipWith (fun s t => a * s + b * t) out.phases o2.phases := by
    rw [f1, f2, f3]
    apply List.ext_getElem
    · simp
    · intro i _ _; simp
  have hz : z = List.zipWith (fun s t => a * s + b * t) x y := by
    refine leastSquares_unique _ _ (Conditioned.independent hκ hi) _ n3 _ _ lz ?_
    rw [e3]
    exact leastSquares_lin a b _ _ _ _ (n1.trans n2.symm) x y lx ly
  have nx : x.length = os.length := lx.1.trans (ordersOf_length os)
  have ny : y.length = os.length := ly.1.trans (ordersOf_length os)
  have nz : z.length = os.length := lz.1.trans (ordersOf_length os)
  refine ⟨_, _, _, ex, ey, ez, by simp [nx], by simp [ny], by simp [nz], fun j hj => ?_, fun j hj => ?_⟩
  · have r1 := getD_round x digits j (by omega)
    have r2 := getD_round y digits j (by omega)
    have r3 := getD_round z digits j (by omega)
    have e : z.getD j 0 = a * x.getD j 0 + b * y.getD j 0 := by rw [hz, getD_zipWith _ _ _ _ (by omega) (by omega)]
    generalize (x.map (npRound digits)).getD j 0 = X at *
    generalize (y.map (npRound digits)).getD j 0 = Y at *
    generalize (z.map (npRound digits)).getD j 0 = Z at *
    generalize x.getD j 0 = x0 at *
    generalize y.getD j 0 = y0 at *
    rw [e] at r3
    rw [show Z - (a * X + b * Y) = (Z - (a * x0 + b * y0)) + (-(a * (X - x0)) + -(b * (Y - y0))) by ring]
    calc _ ≤ |Z - (a * x0 + b * y0)| + (|a| * |X - x0| + |b| * |Y - y0|) := by
          refine (abs_add_le _ _).trans ?_
          gcongr
          refine (abs_add_le _ _).trans ?_
          rw [abs_neg, abs_neg, abs_mul, abs_mul]
      _ ≤ 1 / 2 / 10 ^ digits + (|a| * (1 / 2 / 10 ^ digits) + |b| * (1 / 2 / 10 ^ digits)) := by gcongr
      _ = _ := by ring
  · have hE : energy (List.zipWith (fun s t => s - t) out.phases o2.phases) =
        ((selected out.mask).map fun p => (img.entry p.1 p.2 - img'.entry p.1 p.2) ^ 2).sum := by
      unfold energy
      rw [f1, f2]
      congr 1
      apply List.ext_getElem
      · simp
      · intro i _ _; simp
    have r0 := coefficient_error hκ (leastSquares_noise κ _ _ hi _ _ n1 n2 x y lx ly) j (by omega) (by omega)
    rw [hE] at r0
    have r1 := getD_round x digits j (by omega)
    have r2 := getD_round y digits j (by omega)
    generalize (x.map (npRound digits)).getD j 0 = X at *
    generalize (y.map (npRound digits)).getD j 0 = Y at *
    rw [show X - Y = (x.getD j 0 - y.getD j 0) + ((X - x.getD j 0) - (Y - y.getD j 0)) by ring]
    have r3 := (abs_add_le (x.getD j 0 - y.getD j 0) ((X - x.getD j 0) - (Y - y.getD j 0)))
    have r4 := abs_sub (X - x.getD j 0) (Y - y.getD j 0)
    have r5 : (1 : ℝ) / 10 ^ digits = 1 / 2 / 10 ^ digits + 1 / 2 / 10 ^ digits := by ring
    linarith

/-- Piston and vertical tilt at four points (radius 1, angles 0, π/2, π, 3π/2): `κ = 4`, and twice that for the tilt. -/
example : Conditioned 4 (ordersOf [⟨0, 0, false⟩, ⟨-1, 1, false⟩])
    (samplePoints [1, 1, 1, 1] [0, Real.pi / 2, Real.pi, Real.pi / 2 + Real.pi]) := by
  intro ds hd
  obtain ⟨a, b, rfl⟩ : ∃ a b, ds = [a, b] := List.length_eq_two.1 hd
  have z00 : ∀ r t, zernike 0 0 r t = 1 := by
    intro r t; simp [zernike, Spec.norm, Spec.radial, angular]
  have z11 : ∀ r t, zernike (-1) 1 r t = 2 * r * Real.sin t := by
    intro r t
    have : Real.sqrt (2 * (1 + 1)) = 2 := by rw [show (2 * (1 + 1) : ℝ) = 2 ^ 2 by norm_num]; exact Real.sqrt_sq (by norm_num)
    simp [zernike, Spec.norm, Spec.radial, angular, this]
  simp [combination, ordersOf, z00, z11, samplePoints, energy, Real.sin_add]
  nlinarith [sq_nonneg a, sq_nonneg b]

end Verif.Props
