import Verif.Proofs.Fit
import Verif.Props.Sums
import Verif.Props.Crop
import Mathlib.Analysis.InnerProductSpace.Projection.Minimal
import Mathlib.Analysis.InnerProductSpace.PiL2

/-!
# C26: fitting
-/

namespace Verif.Props
open Verif.Model Verif.Spec Verif.Proofs

/-- The contract of `numpy.linalg.lstsq`: for a matrix with as many rows as the right side has elements the result has one element per column
and minimises the squared 2-norm of `A x - b`. -/
def LstsqContract (lstsq : Lstsq) : Prop :=
  ∀ A b, b.length = A.rows → (lstsq A b).length = A.cols ∧
    ∀ y : List ℝ, y.length = A.cols → sqError A b (lstsq A b) ≤ sqError A b y

theorem sum_map_range (n : Nat) (f : Nat → ℝ) : ((List.range n).map f).sum = ∑ i : Fin n, f i := by
  rw [← Finset.sum_range]
  induction n with
  | zero => rfl
  | succ n ih => rw [List.range_succ, List.map_append, List.sum_append, ih, Finset.sum_range_succ]; simp

/-- The contract can be met: a linear least-squares problem has a solution. -/
theorem lstsq_exists : ∃ lstsq, LstsqContract lstsq := by
  have key : ∀ (A : Grid) (b : List ℝ), ∃ x : List ℝ, b.length = A.rows → x.length = A.cols ∧
      ∀ y : List ℝ, y.length = A.cols → sqError A b x ≤ sqError A b y := by
    intro A b
    let L : (Fin A.cols → ℝ) →ₗ[ℝ] EuclideanSpace ℝ (Fin A.rows) :=
      (WithLp.linearEquiv 2 ℝ (Fin A.rows → ℝ)).symm.toLinearMap ∘ₗ
        Matrix.mulVecLin (Matrix.of fun (k : Fin A.rows) (j : Fin A.cols) => A.entry k j)
    let v : EuclideanSpace ℝ (Fin A.rows) := WithLp.toLp 2 fun k => b.getD k 0
    have hres : ∀ y : Fin A.cols → ℝ, sqError A b (List.ofFn y) = ‖v - L y‖ ^ 2 := by
      intro y
      rw [EuclideanSpace.norm_sq_eq]
      unfold sqError
      rw [sum_map_range]
      refine Finset.sum_congr rfl fun k _ => ?_
      rw [sum_map_range, Real.norm_eq_abs, sq_abs]
      have : (L y) k = ∑ j : Fin A.cols, A.entry k j * y j := rfl
      have e : (v - L y) k = b.getD k 0 - ∑ j : Fin A.cols, A.entry k j * y j := rfl
      rw [e]
      have : ∑ i : Fin A.cols, A.entry k i * (List.ofFn y).getD i 0 = ∑ j : Fin A.cols, A.entry k j * y j := by
        refine Finset.sum_congr rfl fun j _ => ?_
        simp
      rw [this]; ring
    obtain ⟨w, hw, hmin⟩ := Submodule.exists_norm_eq_iInf_of_complete_subspace (LinearMap.range L)
      (LinearMap.range L).complete_of_finiteDimensional v
    obtain ⟨x, rfl⟩ := hw
    refine ⟨List.ofFn x, fun _ => ⟨by simp, fun y hy => ?_⟩⟩
    obtain ⟨z, rfl⟩ : ∃ z : Fin A.cols → ℝ, y = List.ofFn z := by
      refine ⟨fun j => y[j]'(by rw [hy]; exact j.2), ?_⟩
      apply List.ext_getElem
      · simp [hy]
      · intro i h1 h2; simp
    rw [hres, hres]
    have : ‖v - L x‖ ≤ ‖v - L z‖ := by
      rw [hmin]
      have hb : BddBelow (Set.range fun q : ((LinearMap.range L : Submodule ℝ _) : Set (EuclideanSpace ℝ (Fin A.rows))) => ‖v - q‖) :=
        ⟨0, by rintro _ ⟨q, rfl⟩; exact norm_nonneg _⟩
      exact ciInf_le hb ⟨L z, z, rfl⟩
    gcongr
  choose f hf using key
  exact ⟨f, fun A b h => hf A b h⟩

/-- The fit of phases at given points before rounding. -/
theorem fitZernikes_ok (fuel : Nat) (lstsq : Lstsq) (hl : LstsqContract lstsq) (os : List PolObj) (h0 : os ≠ []) (hv : PolsOk fuel os)
    (hd : (ordersOf os).Nodup) (phases radii thetas : List ℝ) (hr0 : radii ≠ []) (ht0 : thetas ≠ [])
    (hr : ∀ x ∈ radii, 0 ≤ x ∧ x ≤ 1) (hp : phases.length = (samplePoints radii thetas).length) :
    RetP (fitZernikes fuel lstsq phases radii thetas (os.map .pol)) fun x =>
      LeastSquares (ordersOf os) (samplePoints radii thetas) phases x := by
  have hlen : ¬ (os.map PolItem.pol).length = 0 := by simpa using h0
  have htake : takePols (os.map .pol) = .ok os := by
    clear h0 hv hd hlen
    induction os with
    | nil => rfl
    | cons o os ih => simp [takePols, ih, Except.map]
  unfold fitZernikes
  rw [if_neg hlen]
  refine Ret.bindP (ret_lift htake) ?_
  rw [if_pos (show (os.map fun o => (o.m, o.n)).Nodup from hd)]
  refine RetP.bind (fitMatrix_ok fuel radii thetas hr0 ht0 hr os hv 0 (Grid.zeros phases.length (os.map PolItem.pol).length) hp)
    fun A hA => retP_pure _ ?_
  obtain ⟨a1, a2, a3, _⟩ := hA
  have hval : IsValues os (samplePoints radii thetas) A :=
    ⟨a1.trans hp, a2.trans (by simp [Grid.zeros]), fun a p i o h1 h2 => by simpa using a3 a p i o h1 h2⟩
  obtain ⟨l1, l2⟩ := hl A phases (by rw [hval.1]; exact hp)
  rw [hval.2.1] at l1 l2
  refine ⟨by simpa [ordersOf] using l1, fun ds hds => ?_⟩
  have hds' : ds.length = os.length := by simpa [ordersOf] using hds
  have := l2 ds hds'
  rw [sqError_eq os _ A hval phases _ hp l1, sqError_eq os _ A hval phases _ hp hds'] at this
  exact this

/-- C26. `fit_polynomials_vectors`: the result is a least-squares fit, rounded. -/
theorem fit_vectors_least_squares (h : List Call) (fuel : Nat) (lstsq : Lstsq) (hl : LstsqContract lstsq) (os : List PolObj) (h0 : os ≠ [])
    (hv : PolsOk fuel os) (hd : (ordersOf os).Nodup) (phases radii thetas : List ℝ) (hr0 : radii ≠ []) (ht0 : thetas ≠ [])
    (hr : ∀ x ∈ radii, 0 ≤ x ∧ x ≤ 1) (hp : phases.length = (samplePoints radii thetas).length) (digits : Int) :
    ∃ x, (fitPolynomialsVectors fuel lstsq (os.map .pol) phases radii thetas (1, 1, 1) digits (afterCalls h)).1 = .ok (x.map (npRound digits)) ∧
      LeastSquares (ordersOf os) (samplePoints radii thetas) phases x := by
  have : RetP (fitPolynomialsVectors fuel lstsq (os.map .pol) phases radii thetas (1, 1, 1) digits) fun y => ∃ x : List ℝ,
      y = x.map (npRound digits) ∧ LeastSquares (ordersOf os) (samplePoints radii thetas) phases x := by
    unfold fitPolynomialsVectors
    rw [if_neg (by simp)]
    exact RetP.bind (fitZernikes_ok fuel lstsq hl os h0 hv hd phases radii thetas hr0 ht0 hr hp) fun x hx => retP_pure _ ⟨x, rfl, hx⟩
  obtain ⟨⟨y, h1, x, rfl, h2⟩, _⟩ := this _ (afterCalls_good h)
  exact ⟨x, h1, h2⟩

theorem combination_sub (cs ds : List ℝ) (orders : List (Int × Int)) (hl : cs.length = ds.length) (r t : ℝ) :
    combination (List.zipWith (· - ·) cs ds) orders r t = combination cs orders r t - combination ds orders r t := by
  induction cs generalizing ds orders with
  | nil => cases ds <;> simp [combination] at *
  | cons c cs ih =>
    cases ds with
    | nil => simp at hl
    | cons d ds =>
      cases orders with
      | nil => simp [combination]
      | cons o orders =>
        have := ih ds orders (by simpa using hl)
        simp only [combination, List.zipWith_cons_cons, List.zip_cons_cons, List.map_cons, List.sum_cons] at this ⊢
        rw [this]; ring

theorem misfit_zero_iff (orders : List (Int × Int)) (points : List (ℝ × ℝ)) (cs ds : List ℝ) :
    misfit orders points (points.map fun p => combination cs orders p.1 p.2) ds = 0 ↔
      ∀ p ∈ points, combination ds orders p.1 p.2 = combination cs orders p.1 p.2 := by
  unfold misfit
  induction points with
  | nil => simp
  | cons p t ih =>
    simp only [List.map_cons, List.zipWith_cons_cons, List.sum_cons, List.mem_cons, forall_eq_or_imp]
    have h1 : 0 ≤ (combination ds orders p.1 p.2 - combination cs orders p.1 p.2) ^ 2 := sq_nonneg _
    have h2 : 0 ≤ (List.zipWith (fun (p : ℝ × ℝ) v => (combination ds orders p.1 p.2 - v) ^ 2) t
        (List.map (fun p => combination cs orders p.1 p.2) t)).sum := by
      apply List.sum_nonneg
      intro x hx
      rw [List.mem_iff_getElem] at hx
      obtain ⟨i, hi, rfl⟩ := hx
      rw [List.getElem_zipWith]; exact sq_nonneg _
    rw [add_eq_zero_iff_of_nonneg h1 h2, ih, sq_eq_zero_iff, sub_eq_zero]

/-- Least squares on phases that are a combination of polynomials independent on the points gives back its coefficients. -/
theorem least_squares_unique (orders : List (Int × Int)) (points : List (ℝ × ℝ)) (hi : IndependentOn orders points) (cs x : List ℝ)
    (hc : cs.length = orders.length) (hx : LeastSquares orders points (points.map fun p => combination cs orders p.1 p.2) x) : x = cs := by
  have h0 : misfit orders points (points.map fun p => combination cs orders p.1 p.2) cs = 0 := (misfit_zero_iff _ _ _ _).2 fun _ _ => rfl
  have h1 : misfit orders points (points.map fun p => combination cs orders p.1 p.2) x = 0 := by
    apply le_antisymm
    · rw [← h0]; exact hx.2 cs hc
    · unfold misfit
      apply List.sum_nonneg
      intro y hy
      rw [List.mem_iff_getElem] at hy
      obtain ⟨i, hi, rfl⟩ := hy
      rw [List.getElem_zipWith]; exact sq_nonneg _
  have h2 := (misfit_zero_iff _ _ _ _).1 h1
  have hl : x.length = cs.length := hx.1.trans hc.symm
  have h3 := hi (List.zipWith (· - ·) x cs) (by simp [hl, hc]) (fun p hp => by
    rw [combination_sub x cs orders hl, h2 p hp, sub_self])
  apply List.ext_getElem hl
  intro i h4 h5
  have := h3 (x[i] - cs[i]) (List.mem_iff_getElem.2 ⟨i, by simp [h4, h5], by rw [List.getElem_zipWith]⟩)
  linarith

/-- C26. `fit_polynomials_vectors` recovers the coefficients of a combination, up to the rounding. -/
theorem fit_vectors_recovers (h : List Call) (fuel : Nat) (lstsq : Lstsq) (hl : LstsqContract lstsq) (os : List PolObj) (h0 : os ≠ [])
    (hv : PolsOk fuel os) (hd : (ordersOf os).Nodup) (radii thetas : List ℝ) (hr0 : radii ≠ []) (ht0 : thetas ≠ [])
    (hr : ∀ x ∈ radii, 0 ≤ x ∧ x ≤ 1) (hi : IndependentOn (ordersOf os) (samplePoints radii thetas)) (cs : List ℝ)
    (hc : cs.length = os.length) (digits : Int) :
    (fitPolynomialsVectors fuel lstsq (os.map .pol)
      ((samplePoints radii thetas).map fun p => combination cs (ordersOf os) p.1 p.2) radii thetas (1, 1, 1) digits (afterCalls h)).1 =
        .ok (cs.map (npRound digits)) ∧ ∀ c ∈ cs, |npRound digits c - c| ≤ 1 / 2 / 10 ^ digits := by
  obtain ⟨x, h1, h2⟩ := fit_vectors_least_squares h fuel lstsq hl os h0 hv hd
    ((samplePoints radii thetas).map fun p => combination cs (ordersOf os) p.1 p.2) radii thetas hr0 ht0 hr (by simp) digits
  have := least_squares_unique _ _ hi cs x (by simpa [ordersOf] using hc) h2
  rw [h1, this]
  exact ⟨rfl, fun c _ => npRound_near digits c⟩

/-- Two polynomials, piston and tilt, at two points: the hypotheses of `fit_vectors_recovers` hold. -/
example : PolsOk 100 [⟨0, 0, false⟩, ⟨-1, 1, false⟩] ∧ (ordersOf [⟨0, 0, false⟩, ⟨-1, 1, false⟩]).Nodup ∧
    IndependentOn (ordersOf [⟨0, 0, false⟩, ⟨-1, 1, false⟩]) (samplePoints [0, 1] [0, Real.pi / 2]) := by
  refine ⟨?_, by decide, ?_⟩
  · intro o ho
    fin_cases ho <;> exact ⟨by decide, by decide⟩
  · intro ds hd h
    obtain ⟨a, b, rfl⟩ : ∃ a b, ds = [a, b] := List.length_eq_two.1 hd
    have z00 : ∀ r t, zernike 0 0 r t = 1 := by
      intro r t; simp [zernike, Spec.norm, Spec.radial, angular]
    have z11 : ∀ r t, zernike (-1) 1 r t = 2 * r * Real.sin t := by
      intro r t
      have : Real.sqrt (2 * (1 + 1)) = 2 := by rw [show (2 * (1 + 1) : ℝ) = 2 ^ 2 by norm_num]; exact Real.sqrt_sq (by norm_num)
      simp [zernike, Spec.norm, Spec.radial, angular, this]
    have h1 := h (0, 0) (by simp [samplePoints])
    have h2 := h (1, Real.pi / 2) (by simp [samplePoints])
    simp [combination, ordersOf, z00, z11] at h1 h2
    intro x hx
    simp at hx
    rcases hx with rfl | rfl
    · exact h1
    · linarith

/-- C26. `fit_polynomials`: the phases are cropped as in C25, the result is a least-squares fit of the cropped phases at their polar
coordinates; the cropped image is the image on the selected pixels and zero elsewhere. -/
theorem fit_image_least_squares (h : List Call) (fuel : Nat) (lstsq : Lstsq) (hl : LstsqContract lstsq) (os : List PolObj) (h0 : os ≠ [])
    (hv : PolsOk fuel os) (hd : (ordersOf os).Nodup) (img : Grid) (crop : ℝ) (strict : Bool) (hsize : 3 ≤ min img.rows img.cols)
    (hlo : 0.5 ≤ crop) (hhi : crop ≤ 1) (digits : Int) (ret : Bool) :
    ∃ out x pic, cropPhasesImg (.img img) crop strict = .ok out ∧ CropSpec img crop strict out ∧
      (fitPolynomials fuel lstsq (.img img) (os.map .pol) crop strict digits ret (afterCalls h)).1 = .ok (x.map (npRound digits), pic) ∧
      LeastSquares (ordersOf os) (out.radii.zip out.thetas) out.phases x ∧
      (ret = false → pic = none) ∧ (ret = true → ∃ g, pic = some g ∧ g.rows = img.rows ∧ g.cols = img.cols ∧ ∀ i j,
        (out.mask.entry i j = 1 → g.entry i j = img.entry i j) ∧ (out.mask.entry i j = 0 → g.entry i j = 0)) := by
  obtain ⟨b1, b2⟩ := crop_range crop hlo hhi
  obtain ⟨out, ho, hs⟩ := crop_correct img crop strict hsize b1 b2
  have hlen : out.radii.length = out.thetas.length := hs.lengths.1.trans hs.lengths.2.symm
  have hpts : samplePoints out.radii out.thetas = out.radii.zip out.thetas := by unfold samplePoints; rw [if_pos hlen]
  have hne : 0 < (selected out.mask).length := List.length_pos_of_ne_nil hs.nonempty
  have hfit := fitZernikes_ok fuel lstsq hl os h0 hv hd out.phases out.radii out.thetas
    (by intro e; have := hs.lengths.1; rw [e] at this; simp at this; omega)
    (by intro e; have := hs.lengths.2; rw [e] at this; simp at this; omega) hs.radii_mem
    (by rw [hpts, hs.phases]; simp [hs.lengths.1, hs.lengths.2])
  rw [hpts] at hfit
  have key : RetP (fitPolynomials fuel lstsq (.img img) (os.map .pol) crop strict digits ret) fun y => ∃ x : List ℝ,
      y = (x.map (npRound digits), if ret then some { img with entry := fun i j => out.mask.entry i j * img.entry i j } else none) ∧
      LeastSquares (ordersOf os) (out.radii.zip out.thetas) out.phases x := by
    unfold fitPolynomials
    exact Ret.bindP (ret_lift ho) (RetP.bind hfit fun x hx => retP_pure _ ⟨x, rfl, hx⟩)
  obtain ⟨⟨y, h1, x, rfl, h2⟩, _⟩ := key _ (afterCalls_good h)
  refine ⟨out, x, _, ho, hs, h1, h2, fun hr => by simp [hr], fun hr => ?_⟩
  refine ⟨{ img with entry := fun i j => out.mask.entry i j * img.entry i j }, by simp [hr], rfl, rfl, fun i j => ⟨fun e => ?_, fun e => ?_⟩⟩
  · simp [e]
  · simp [e]

/-- C26. If the cropped phases are a combination of the polynomials, independent on the cropped points, `fit_polynomials` returns its
coefficients (rounded). -/
theorem fit_image_recovers (h : List Call) (fuel : Nat) (lstsq : Lstsq) (hl : LstsqContract lstsq) (os : List PolObj) (h0 : os ≠ [])
    (hv : PolsOk fuel os) (hd : (ordersOf os).Nodup) (img : Grid) (crop : ℝ) (strict : Bool) (hsize : 3 ≤ min img.rows img.cols)
    (hlo : 0.5 ≤ crop) (hhi : crop ≤ 1) (digits : Int) (ret : Bool) (out : Cropped) (ho : cropPhasesImg (.img img) crop strict = .ok out)
    (cs : List ℝ) (hc : cs.length = os.length) (hi : IndependentOn (ordersOf os) (out.radii.zip out.thetas))
    (hph : out.phases = (out.radii.zip out.thetas).map fun p => combination cs (ordersOf os) p.1 p.2) :
    ∃ pic, (fitPolynomials fuel lstsq (.img img) (os.map .pol) crop strict digits ret (afterCalls h)).1 =
      .ok (cs.map (npRound digits), pic) := by
  obtain ⟨out', x, pic, e1, _, e3, e4, _⟩ := fit_image_least_squares h fuel lstsq hl os h0 hv hd img crop strict hsize hlo hhi digits ret
  rw [ho] at e1
  cases e1
  rw [hph] at e4
  have := least_squares_unique _ _ hi cs x (by simpa [ordersOf] using hc) e4
  rw [this] at e3
  exact ⟨pic, e3⟩

/-- C26. An empty list and repeated polynomials raise `ValueError`, an element without orders `AttributeError`, arrays that are not
1-dimensional `TypeError`. -/
theorem fit_rejects (fuel : Nat) (lstsq : Lstsq) (phases radii thetas : List ℝ) (digits : Int) (s : CoefState) :
    (fitPolynomialsVectors fuel lstsq [] phases radii thetas (1, 1, 1) digits s).1 = .error .valueError ∧
    (∀ os : List PolObj, ¬ (ordersOf os).Nodup →
      (fitPolynomialsVectors fuel lstsq (os.map .pol) phases radii thetas (1, 1, 1) digits s).1 = .error .valueError) ∧
    (∀ ps : List PolItem, .other ∈ ps →
      (fitPolynomialsVectors fuel lstsq ps phases radii thetas (1, 1, 1) digits s).1 = .error .attributeError) ∧
    (∀ ps dims, dims.1 > 1 ∨ dims.2.1 > 1 ∨ dims.2.2 > 1 →
      (fitPolynomialsVectors fuel lstsq ps phases radii thetas dims digits s).1 = .error .typeError) := by
  refine ⟨rfl, fun os hn => ?_, fun ps hp => ?_, fun ps dims hd => ?_⟩
  · have htake : takePols (os.map .pol) = .ok os := by
      clear hn
      induction os with
      | nil => rfl
      | cons o os ih => simp [takePols, ih, Except.map]
    have h0 : os ≠ [] := by rintro rfl; simp [ordersOf] at hn
    unfold fitPolynomialsVectors fitZernikes
    rw [if_neg (by simp), if_neg (by simpa using h0)]
    simp only [cm_bind, CM.lift, htake]
    rw [if_neg (show ¬ (os.map fun o => (o.m, o.n)).Nodup from hn)]; rfl
  · have htake : takePols ps = .error .attributeError := by
      induction ps with
      | nil => simp at hp
      | cons p ps ih =>
        cases p with
        | other => rfl
        | pol o =>
          have : PolItem.other ∈ ps := by simpa using hp
          simp [takePols, ih this, Except.map]
    have h0 : ps ≠ [] := by rintro rfl; simp at hp
    unfold fitPolynomialsVectors fitZernikes
    rw [if_neg (by simp), if_neg (by simpa using h0)]
    simp only [cm_bind, CM.lift, htake]
  · unfold fitPolynomialsVectors
    rw [if_pos hd]; rfl

end Verif.Props
