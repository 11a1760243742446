import Verif.Spec.Fit
import Verif.Proofs.Numeric
import Mathlib.Analysis.Normed.Module.FiniteDimension
import Mathlib.Analysis.InnerProductSpace.PiL2

/-! # Least squares: normal equations, linearity, stability -/

namespace Verif.Proofs
open Verif.Spec

theorem combination_lin (a b : ℝ) (cs ds : List ℝ) (orders : List (Int × Int)) (hl : cs.length = ds.length) (r t : ℝ) :
    combination (List.zipWith (fun x y => a * x + b * y) cs ds) orders r t = a * combination cs orders r t + b * combination ds orders r t := by
  induction cs generalizing ds orders with
  | nil => cases ds <;> simp [combination] at *
  | cons c cs ih =>
    cases ds with
    | nil => simp at hl
    | cons d ds =>
      cases orders with
      | nil => simp [combination]
      | cons o orders =>
        have := ih ds orders (by simpa using hl)
        simp only [combination, List.zipWith_cons_cons, List.zip_cons_cons, List.map_cons, List.sum_cons] at this ⊢
        rw [this]; ring

/-- The misfit as a sum over pairs of a point and a phase. -/
theorem misfit_map (orders : List (Int × Int)) (points : List (ℝ × ℝ)) (phases : List ℝ) (cs : List ℝ) :
    misfit orders points phases cs =
      ((points.zip phases).map fun q => (combination cs orders q.1.1 q.1.2 - q.2) ^ 2).sum := by
  unfold misfit
  rw [List.zip, List.map_zipWith]

/-- The normal equations: the residual is orthogonal to all combinations. -/
def Normal (orders : List (Int × Int)) (Z : List ((ℝ × ℝ) × ℝ)) (cs : List ℝ) : Prop :=
  cs.length = orders.length ∧ ∀ ds : List ℝ, ds.length = orders.length →
    (Z.map fun q => (combination cs orders q.1.1 q.1.2 - q.2) * combination ds orders q.1.1 q.1.2).sum = 0

theorem sum_expand {α : Type} (Z : List α) (f g : α → ℝ) (t : ℝ) :
    (Z.map fun q => (f q + t * g q) ^ 2).sum = (Z.map fun q => f q ^ 2).sum + 2 * t * (Z.map fun q => f q * g q).sum +
      t ^ 2 * (Z.map fun q => g q ^ 2).sum := by
  induction Z with
  | nil => simp
  | cons z Z ih => simp only [List.map_cons, List.sum_cons, ih]; ring

theorem sum_sq_nonneg {α : Type} (Z : List α) (f : α → ℝ) : 0 ≤ (Z.map fun q => f q ^ 2).sum := by
  induction Z with
  | nil => simp
  | cons z Z ih => simp only [List.map_cons, List.sum_cons]; positivity

theorem sum_sq_zero {α : Type} (Z : List α) (f : α → ℝ) (h : (Z.map fun q => f q ^ 2).sum = 0) : ∀ z ∈ Z, f z = 0 := by
  induction Z with
  | nil => simp
  | cons z Z ih =>
    simp only [List.map_cons, List.sum_cons] at h
    have h1 := sum_sq_nonneg Z f
    have h2 := sq_nonneg (f z)
    have h3 : f z ^ 2 = 0 := by linarith
    have h4 := ih (by linarith)
    simp only [List.mem_cons, forall_eq_or_imp]
    exact ⟨by simpa using h3, h4⟩

theorem leastSquares_iff (orders : List (Int × Int)) (points : List (ℝ × ℝ)) (phases : List ℝ) (cs : List ℝ) :
    LeastSquares orders points phases cs ↔ Normal orders (points.zip phases) cs := by
  have key : ∀ (hc : cs.length = orders.length) (ds : List ℝ) (hd : ds.length = orders.length) (t : ℝ),
      misfit orders points phases (List.zipWith (fun x y => 1 * x + t * y) cs ds) = misfit orders points phases cs +
        2 * t * ((points.zip phases).map fun q => (combination cs orders q.1.1 q.1.2 - q.2) * combination ds orders q.1.1 q.1.2).sum +
        t ^ 2 * ((points.zip phases).map fun q => combination ds orders q.1.1 q.1.2 ^ 2).sum := by
    intro hc ds hd t
    rw [misfit_map, misfit_map, ← sum_expand]
    congr 2
    funext q
    rw [combination_lin _ _ _ _ _ (hc.trans hd.symm)]; ring
  constructor
  · rintro ⟨hc, hmin⟩
    refine ⟨hc, fun ds hd => ?_⟩
    set S := ((points.zip phases).map fun q => (combination cs orders q.1.1 q.1.2 - q.2) * combination ds orders q.1.1 q.1.2).sum with hS
    set Q := ((points.zip phases).map fun q => combination ds orders q.1.1 q.1.2 ^ 2).sum with hQ
    have hq : 0 ≤ Q := sum_sq_nonneg _ _
    have h1 : ∀ t : ℝ, 0 ≤ 2 * t * S + t ^ 2 * Q := by
      intro t
      have h2 := hmin (List.zipWith (fun x y => 1 * x + t * y) cs ds) (by simp [hc, hd])
      rw [key hc ds hd t] at h2
      linarith
    have h3 := h1 (-S / (Q + 1))
    have h4 : 2 * (-S / (Q + 1)) * S + (-S / (Q + 1)) ^ 2 * Q = - (S ^ 2 * (Q + 2)) / (Q + 1) ^ 2 := by
      field_simp; ring
    rw [h4] at h3
    have h5 : 0 < (Q + 1) ^ 2 := by positivity
    rw [le_div_iff₀ h5, zero_mul] at h3
    have h6 : 0 ≤ S ^ 2 * (Q + 1) := by positivity
    have h7 : S ^ 2 ≤ 0 := by linarith
    have := sq_nonneg S
    have h8 : S ^ 2 = 0 := by linarith
    simpa using h8
  · rintro ⟨hc, hn⟩
    refine ⟨hc, fun ds hd => ?_⟩
    have h1 := key hc (List.zipWith (fun x y => 1 * x + (-1) * y) ds cs) (by simp [hc, hd]) 1
    rw [hn _ (by simp [hc, hd])] at h1
    have h2 : List.zipWith (fun x y : ℝ => 1 * x + 1 * y) cs (List.zipWith (fun x y => 1 * x + (-1) * y) ds cs) = ds := by
      apply List.ext_getElem
      · simp [hc, hd]
      · intro i a b; simp
    rw [h2] at h1
    have h3 := sum_sq_nonneg (points.zip phases) fun q => combination (List.zipWith (fun x y => 1 * x + (-1) * y) ds cs) orders q.1.1 q.1.2
    rw [h1]
    linarith

/-- Points with two phases each. -/
theorem zip_left {α β γ : Type} (p : List α) (u : List β) (v : List γ) (h : u.length = v.length) :
    p.zip u = (p.zip (u.zip v)).map fun q => (q.1, q.2.1) := by
  induction p generalizing u v with
  | nil => simp
  | cons a p ih =>
    cases u with
    | nil => simp
    | cons b u =>
      cases v with
      | nil => simp at h
      | cons c v => simp only [List.zip_cons_cons, List.map_cons]; rw [ih u v (by simpa using h)]

theorem zip_right {α β γ : Type} (p : List α) (u : List β) (v : List γ) (h : u.length = v.length) :
    p.zip v = (p.zip (u.zip v)).map fun q => (q.1, q.2.2) := by
  induction p generalizing u v with
  | nil => simp
  | cons a p ih =>
    cases u with
    | nil => cases v <;> simp at h ⊢
    | cons b u =>
      cases v with
      | nil => simp
      | cons c v => simp only [List.zip_cons_cons, List.map_cons]; rw [ih u v (by simpa using h)]

theorem zip_both {α β γ δ : Type} (p : List α) (u : List β) (v : List γ) (f : β → γ → δ) :
    p.zip (List.zipWith f u v) = (p.zip (u.zip v)).map fun q => (q.1, f q.2.1 q.2.2) := by
  induction p generalizing u v with
  | nil => simp
  | cons a p ih =>
    cases u with
    | nil => simp
    | cons b u =>
      cases v with
      | nil => simp
      | cons c v => simp only [List.zipWith_cons_cons, List.zip_cons_cons, List.map_cons]; rw [ih u v]

theorem sum_lin {α : Type} (Z : List α) (a b : ℝ) (f g : α → ℝ) :
    (Z.map fun q => a * f q + b * g q).sum = a * (Z.map f).sum + b * (Z.map g).sum := by
  induction Z with
  | nil => simp
  | cons z Z ih => simp only [List.map_cons, List.sum_cons, ih]; ring

/-- Least-squares fits of two lists of phases combine linearly. -/
theorem leastSquares_lin (a b : ℝ) (orders : List (Int × Int)) (points : List (ℝ × ℝ)) (u v : List ℝ) (huv : u.length = v.length)
    (x y : List ℝ) (hx : LeastSquares orders points u x) (hy : LeastSquares orders points v y) :
    LeastSquares orders points (List.zipWith (fun s t => a * s + b * t) u v) (List.zipWith (fun s t => a * s + b * t) x y) := by
  rw [leastSquares_iff] at *
  obtain ⟨x1, x2⟩ := hx
  obtain ⟨y1, y2⟩ := hy
  refine ⟨by simp [x1, y1], fun ds hd => ?_⟩
  have e1 := x2 ds hd
  have e2 := y2 ds hd
  rw [zip_left _ u v huv, List.map_map] at e1
  rw [zip_right _ u v huv, List.map_map] at e2
  rw [zip_both, List.map_map]
  have := sum_lin (points.zip (u.zip v)) a b
    ((fun q : (ℝ × ℝ) × ℝ => (combination x orders q.1.1 q.1.2 - q.2) * combination ds orders q.1.1 q.1.2) ∘ fun q => (q.1, q.2.1))
    ((fun q : (ℝ × ℝ) × ℝ => (combination y orders q.1.1 q.1.2 - q.2) * combination ds orders q.1.1 q.1.2) ∘ fun q => (q.1, q.2.2))
  rw [e1, e2] at this
  rw [show (0 : ℝ) = a * 0 + b * 0 by ring, ← this]
  congr 2
  funext q
  simp only [Function.comp]
  rw [combination_lin _ _ _ _ _ (x1.trans y1.symm)]; ring

/-- The combination itself is a fit of its values. -/
theorem leastSquares_self (orders : List (Int × Int)) (points : List (ℝ × ℝ)) (cs : List ℝ) (hc : cs.length = orders.length) :
    LeastSquares orders points (points.map fun p => combination cs orders p.1 p.2) cs := by
  rw [leastSquares_iff]
  refine ⟨hc, fun ds _ => ?_⟩
  rw [List.zip_map_right, List.map_map]
  apply List.sum_eq_zero
  intro z hz
  rw [List.mem_map] at hz
  obtain ⟨q, hq, rfl⟩ := hz
  have : q.1 = q.2 := by
    obtain ⟨i, hi, rfl⟩ := List.mem_iff_getElem.1 hq
    simp
  simp [this]

/-- The values of a fit have at most the energy of the phases. -/
theorem leastSquares_energy (orders : List (Int × Int)) (points : List (ℝ × ℝ)) (u : List ℝ) (hu : u.length = points.length)
    (x : List ℝ) (hx : LeastSquares orders points u x) :
    energy (points.map fun p => combination x orders p.1 p.2) ≤ energy u := by
  rw [leastSquares_iff] at hx
  obtain ⟨x1, x2⟩ := hx
  have e := x2 x x1
  have h1 : energy (points.map fun p => combination x orders p.1 p.2) =
      ((points.zip u).map fun q => combination x orders q.1.1 q.1.2 ^ 2).sum := by
    unfold energy
    rw [List.map_map]
    conv_lhs => rw [← List.map_fst_zip (l₁ := points) (l₂ := u) (by omega)]
    rw [List.map_map]; rfl
  have h2 : energy u = ((points.zip u).map fun q => q.2 ^ 2).sum := by
    unfold energy
    conv_lhs => rw [← List.map_snd_zip (l₁ := points) (l₂ := u) (by omega)]
    rw [List.map_map]; rfl
  have h3 := sum_expand (points.zip u) (fun q => combination x orders q.1.1 q.1.2)
    (fun q => (combination x orders q.1.1 q.1.2 - q.2)) (-1)
  have h4 := sum_sq_nonneg (points.zip u) fun q => (combination x orders q.1.1 q.1.2 - q.2)
  have h5 : ((points.zip u).map fun q => (combination x orders q.1.1 q.1.2) * (combination x orders q.1.1 q.1.2 - q.2)).sum = 0 := by
    rw [← e]; congr 2; funext q; ring
  rw [h5] at h3
  have h6 : ((points.zip u).map fun q => (combination x orders q.1.1 q.1.2 + -1 * (combination x orders q.1.1 q.1.2 - q.2)) ^ 2).sum =
      ((points.zip u).map fun q => q.2 ^ 2).sum := by
    congr 2; funext q; ring
  rw [h6] at h3
  rw [h1, h2, h3]
  linarith

theorem zipWith_sub_zero (x y : List ℝ) (hl : x.length = y.length)
    (h : ∀ z ∈ List.zipWith (fun s t => 1 * s + (-1) * t) x y, z = 0) : x = y := by
  apply List.ext_getElem hl
  intro i h4 h5
  have := h (1 * x[i] + (-1) * y[i]) (List.mem_iff_getElem.2 ⟨i, by simp [h4, h5], by rw [List.getElem_zipWith]⟩)
  linarith

/-- Fits at points where the polynomials are independent are unique. -/
theorem leastSquares_unique (orders : List (Int × Int)) (points : List (ℝ × ℝ)) (hi : IndependentOn orders points) (u : List ℝ)
    (hu : u.length = points.length) (x y : List ℝ) (hx : LeastSquares orders points u x) (hy : LeastSquares orders points u y) : x = y := by
  have h1 := leastSquares_lin 1 (-1) orders points u u rfl x y hx hy
  have h2 := leastSquares_energy orders points _ (by simp [hu]) _ h1
  have h3 : energy (List.zipWith (fun s t => 1 * s + (-1) * t) u u) = 0 := by
    unfold energy
    apply List.sum_eq_zero
    intro z hz
    rw [List.mem_map] at hz
    obtain ⟨w, hw, rfl⟩ := hz
    rw [List.mem_iff_getElem] at hw
    obtain ⟨i, hi, rfl⟩ := hw
    simp
  rw [h3] at h2
  unfold energy at h2
  rw [List.map_map] at h2
  have h4 := sum_sq_zero points (fun p => combination (List.zipWith (fun s t => 1 * s + (-1) * t) x y) orders p.1 p.2)
    (le_antisymm h2 (sum_sq_nonneg _ _))
  exact zipWith_sub_zero x y (hx.1.trans hy.1.symm) (hi _ (by simp [hx.1, hy.1]) h4)

theorem energy_nonneg (l : List ℝ) : 0 ≤ energy l := sum_sq_nonneg l id

theorem sq_le_energy (l : List ℝ) (x : ℝ) (hx : x ∈ l) : x ^ 2 ≤ energy l := by
  unfold energy
  exact List.single_le_sum (by intro y hy; rw [List.mem_map] at hy; obtain ⟨z, _, rfl⟩ := hy; exact sq_nonneg z) _
    (List.mem_map_of_mem hx)

/-- Well-conditioned points are points of independence. -/
theorem Conditioned.independent {κ : ℝ} (hκ : 0 < κ) {orders : List (Int × Int)} {points : List (ℝ × ℝ)}
    (h : Conditioned κ orders points) : IndependentOn orders points := by
  intro ds hd h0 x hx
  have h1 := h ds hd
  have h2 : energy (points.map fun p => combination ds orders p.1 p.2) = 0 := by
    unfold energy
    rw [List.map_map]
    apply List.sum_eq_zero
    intro z hz
    rw [List.mem_map] at hz
    obtain ⟨p, hp, rfl⟩ := hz
    simp [h0 p hp]
  rw [h2] at h1
  have h3 := sq_le_energy ds x hx
  have h4 : x ^ 2 ≤ 0 := by nlinarith
  have := sq_nonneg x
  have h5 : x ^ 2 = 0 := by linarith
  simpa using h5

/-- Noise of the phases and error of the fit. -/
theorem leastSquares_noise (κ : ℝ) (orders : List (Int × Int)) (points : List (ℝ × ℝ)) (hκ : Conditioned κ orders points)
    (u v : List ℝ) (hu : u.length = points.length) (hv : v.length = points.length) (x y : List ℝ)
    (hx : LeastSquares orders points u x) (hy : LeastSquares orders points v y) :
    κ * energy (List.zipWith (fun s t => s - t) x y) ≤ energy (List.zipWith (fun s t => s - t) u v) := by
  have e : (fun s t : ℝ => 1 * s + (-1) * t) = fun s t => s - t := by funext s t; ring
  have h1 := leastSquares_lin 1 (-1) orders points u v (hu.trans hv.symm) x y hx hy
  rw [e] at h1
  have h2 := leastSquares_energy orders points _ (by simp [hu, hv]) _ h1
  exact (hκ _ h1.1).trans h2

/-- Permuted points with their phases have the same fits. -/
theorem leastSquares_points {orders : List (Int × Int)} {points points' : List (ℝ × ℝ)} {u u' : List ℝ}
    (h : (points.zip u).Perm (points'.zip u')) {x : List ℝ} (hx : LeastSquares orders points u x) : LeastSquares orders points' u' x := by
  rw [leastSquares_iff] at *
  exact ⟨hx.1, fun ds hd => by rw [← (h.map _).sum_eq]; exact hx.2 ds hd⟩

/-- A permutation of the keys carries the values along. -/
theorem perm_zip {α β : Type} {l l' : List α} (h : l.Perm l') (x : List β) (hx : x.length = l.length) :
    ∃ x' : List β, x'.length = l'.length ∧ (l.zip x).Perm (l'.zip x') := by
  induction h generalizing x with
  | nil => exact ⟨x, hx, by simp⟩
  | cons a _ ih =>
    cases x with
    | nil => simp at hx
    | cons b x =>
      obtain ⟨x', h1, h2⟩ := ih x (by simpa using hx)
      exact ⟨b :: x', by simp [h1], by simpa using h2⟩
  | swap a b l =>
    cases x with
    | nil => simp at hx
    | cons c x =>
      cases x with
      | nil => simp at hx
      | cons d x => exact ⟨d :: c :: x, by simpa using hx, by simpa using List.Perm.swap _ _ _⟩
  | trans _ _ ih1 ih2 =>
    obtain ⟨y, h1, h2⟩ := ih1 x hx
    obtain ⟨z, h3, h4⟩ := ih2 y h1
    exact ⟨z, h3, h2.trans h4⟩

theorem combination_perm {cs cs' : List ℝ} {orders orders' : List (Int × Int)} (h : (orders.zip cs).Perm (orders'.zip cs')) (r t : ℝ) :
    combination cs orders r t = combination cs' orders' r t := by
  have key : ∀ (cs : List ℝ) (orders : List (Int × Int)), combination cs orders r t =
      ((orders.zip cs).map fun p => p.2 * zernike p.1.1 p.1.2 r t).sum := by
    intro cs orders
    unfold combination
    rw [← List.zip_swap, List.map_map]; rfl
  rw [key, key]
  exact (h.map _).sum_eq

/-- The fits with a permuted list of polynomials are the permuted fits. -/
theorem leastSquares_orders {orders orders' : List (Int × Int)} (hperm : orders.Perm orders') {points : List (ℝ × ℝ)} {u : List ℝ} {x x' : List ℝ}
    (hx' : x'.length = orders'.length) (hz : (orders.zip x).Perm (orders'.zip x')) (hx : LeastSquares orders points u x) :
    LeastSquares orders' points u x' := by
  refine ⟨hx', fun ds' hd' => ?_⟩
  obtain ⟨ds, h1, h2⟩ := perm_zip hperm.symm ds' hd'
  have h3 := hx.2 ds h1
  have e : ∀ {a b : List ℝ}, (orders.zip a).Perm (orders'.zip b) → misfit orders points u a = misfit orders' points u b := by
    intro a b hab
    rw [misfit_map, misfit_map]
    congr 2
    funext q
    rw [combination_perm hab]
  rw [← e hz, ← e h2.symm]
  exact h3

theorem independent_orders {orders orders' : List (Int × Int)} (hperm : orders.Perm orders') {points : List (ℝ × ℝ)}
    (hi : IndependentOn orders points) : IndependentOn orders' points := by
  intro ds' hd' h0 x hx
  obtain ⟨ds, h1, h2⟩ := perm_zip hperm.symm ds' hd'
  have h3 := hi ds h1 fun p hp => by rw [combination_perm h2.symm]; exact h0 p hp
  have h4 : ∃ o, (o, x) ∈ orders'.zip ds' := by
    obtain ⟨i, hi, rfl⟩ := List.mem_iff_getElem.1 hx
    exact ⟨orders'[i], List.mem_iff_getElem.2 ⟨i, by simp; omega, by simp⟩⟩
  obtain ⟨o, ho⟩ := h4
  exact h3 x (List.of_mem_zip (h2.mem_iff.1 ho)).2

theorem energy_ofFn {n : Nat} (x : EuclideanSpace ℝ (Fin n)) : energy (List.ofFn x) = ‖x‖ ^ 2 := by
  rw [EuclideanSpace.norm_sq_eq]
  unfold energy
  rw [List.map_ofFn, List.sum_ofFn]
  refine Finset.sum_congr rfl fun i _ => ?_
  simp [Function.comp]

/-- Points of independence are well conditioned, with some positive constant. -/
theorem independent_conditioned (orders : List (Int × Int)) (points : List (ℝ × ℝ)) (hi : IndependentOn orders points) :
    ∃ κ : ℝ, 0 < κ ∧ Conditioned κ orders points := by
  have lin : ∀ (a b : ℝ) (x y : EuclideanSpace ℝ (Fin orders.length)) (p : ℝ × ℝ),
      combination (List.ofFn (a • x + b • y)) orders p.1 p.2 =
        a * combination (List.ofFn x) orders p.1 p.2 + b * combination (List.ofFn y) orders p.1 p.2 := by
    intro a b x y p
    rw [← combination_lin _ _ _ _ _ (by simp)]
    congr 1
    apply List.ext_getElem
    · simp
    · intro i h1 h2; simp
  let L : EuclideanSpace ℝ (Fin orders.length) →ₗ[ℝ] EuclideanSpace ℝ (Fin points.length) :=
    { toFun := fun x => WithLp.toLp 2 fun k => combination (List.ofFn x) orders points[k].1 points[k].2
      map_add' := fun x y => by
        ext k
        have := lin 1 1 x y points[k]
        simpa using this
      map_smul' := fun a x => by
        ext k
        have := lin a 0 x 0 points[k]
        simpa using this }
  have hval : ∀ x : EuclideanSpace ℝ (Fin orders.length), energy (points.map fun p => combination (List.ofFn x) orders p.1 p.2) = ‖L x‖ ^ 2 := by
    intro x
    rw [← energy_ofFn]
    congr 1
    apply List.ext_getElem
    · simp
    · intro i h1 h2; simp [L]
  have hker : LinearMap.ker L = ⊥ := by
    rw [LinearMap.ker_eq_bot']
    intro x hx
    have h0 := hi (List.ofFn x) (by simp) (fun p hp => by
      obtain ⟨i, hi, rfl⟩ := List.mem_iff_getElem.1 hp
      have := congrArg (fun v : EuclideanSpace ℝ (Fin points.length) => v ⟨i, hi⟩) hx
      simpa [L] using this)
    ext i
    exact h0 _ (by simp)
  obtain ⟨K, hK, hA⟩ := L.exists_antilipschitzWith hker
  have hK' : (0 : ℝ) < K := by exact_mod_cast hK
  refine ⟨1 / (K : ℝ) ^ 2, by positivity, fun ds hd => ?_⟩
  obtain ⟨x, rfl⟩ : ∃ x : EuclideanSpace ℝ (Fin orders.length), ds = List.ofFn x := by
    refine ⟨WithLp.toLp 2 fun j => ds[j]'(by rw [hd]; exact j.2), ?_⟩
    apply List.ext_getElem
    · simp [hd]
    · intro i h1 h2; simp
  rw [hval, energy_ofFn]
  have h1 := hA.le_mul_dist x 0
  rw [map_zero, dist_zero_right, dist_zero_right] at h1
  rw [div_mul_eq_mul_div, one_mul, div_le_iff₀ (by positivity), mul_comm, ← mul_pow]
  exact pow_le_pow_left₀ (norm_nonneg _) h1 2

theorem rint_small (x : ℝ) (h : |x| ≤ 1 / 2) : Model.rint x = 0 := by
  obtain ⟨h1, h2⟩ := abs_le.1 h
  have h3 : (-1 : ℤ) ≤ ⌊x⌋ := Int.le_floor.2 (by push_cast; linarith)
  have h4 : ⌊x⌋ ≤ 0 := by
    have : ⌊x⌋ < 1 := Int.floor_lt.2 (by push_cast; linarith)
    omega
  unfold Model.rint
  rcases (show ⌊x⌋ = -1 ∨ ⌊x⌋ = 0 by omega) with e | e
  · rw [e]
    rw [if_neg (by push_cast; linarith)]
    split_ifs <;> omega
  · rw [e]
    push_cast
    split_ifs <;> first | rfl | (exfalso; linarith) | (exfalso; omega)

theorem npRound_small (d : ℤ) (x : ℝ) (h : |x| ≤ 1 / 2 / 10 ^ d) : Model.npRound d x = 0 := by
  have hp : (0 : ℝ) < 10 ^ d := by positivity
  unfold Model.npRound
  rw [rint_small]
  · simp
  · rw [abs_mul, abs_of_pos hp]
    calc _ ≤ 1 / 2 / 10 ^ d * (10 : ℝ) ^ d := by gcongr
      _ = 1 / 2 := by field_simp

end Verif.Proofs
