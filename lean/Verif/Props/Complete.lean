import Verif.Proofs.Approximation
import Verif.Props.Surface
import Verif.Props.Sampling
import Verif.Props.SamplingImage
import Verif.Props.ZernPol

/-!
# C90: every polynomial surface is exactly one sum of Zernike polynomials
-/

namespace Verif.Props
open Verif.Model Verif.Spec Verif.Proofs

/-- All polynomials with orders up to `N` are in the list. -/
def AllOrders (N : ℕ) (os : List PolObj) : Prop := ∀ m n, ValidOrders m n → n ≤ N → ∃ o ∈ os, o.m = m ∧ o.n = n

theorem AllOrders.mem {N : ℕ} {os : List PolObj} (h : AllOrders N os) (m n : Int) (hv : ValidOrders m n) (hn : n ≤ N) : (m, n) ∈ ordersOf os := by
  obtain ⟨o, ho, rfl, rfl⟩ := h m n hv hn
  exact List.mem_map.2 ⟨o, ho, rfl⟩

theorem AllOrders.ne {N : ℕ} {os : List PolObj} (h : AllOrders N os) : os ≠ [] := by
  rintro rfl
  obtain ⟨o, ho, _⟩ := h 0 0 (by decide) (by omega)
  simp at ho

/-- C90. `sum_zernikes` reaches every polynomial `P(x, y)` of degree at most `N` with exactly one list of amplitudes of the polynomials up to the
order `N` (in any order, and other polynomials may be among them). -/
theorem polynomial_surface_unique_sum (h : List Call) (fuel : Nat) (os : List PolObj) (hv : PolsOk fuel os) (hd : DifferentOrders os) (N : ℕ)
    (hall : AllOrders N os) (P : MvPolynomial (Fin 2) ℝ) (hP : P.totalDegree ≤ N) :
    ∃! cs : List ℝ, cs.length = os.length ∧ IsSumSurface h fuel cs os (polynomialAt P) := by
  obtain ⟨cs, h1, h2⟩ := span_combination N (ordersOf os) hd hall.mem _ (polarEval_mem P N hP)
  have hl : cs.length = os.length := by rw [h1]; simp [ordersOf]
  refine ⟨cs, ⟨hl, fun r t hr0 hr1 => ?_⟩, ?_⟩
  · rw [sum_at_point h fuel cs os hl hall.ne hv r t hr0 hr1 false, h2]
  · rintro ds ⟨hl', hds⟩
    refine amplitudes_unique h h fuel ds cs os hl' hl hall.ne hv hd fun r t hr0 hr1 => ?_
    rw [hds r t hr0 hr1, sum_at_point h fuel cs os hl hall.ne hv r t hr0 hr1 false, h2]

/-- C90. Conversely each sum of polynomials with orders up to `N` is a polynomial of degree at most `N` in the Cartesian coordinates. -/
theorem sum_surface_is_polynomial (fuel : Nat) (os : List PolObj) (h0 : os ≠ []) (hv : PolsOk fuel os) (N : ℕ) (hN : ∀ o ∈ os, o.n ≤ N)
    (cs : List ℝ) (hl : cs.length = os.length) :
    ∃ P : MvPolynomial (Fin 2) ℝ, P.totalDegree ≤ N ∧ ∀ h, IsSumSurface h fuel cs os (polynomialAt P) := by
  obtain ⟨P, h1, h2⟩ := combination_cartesian N cs (ordersOf os) (orders_valid hv) (by
    intro p hp
    obtain ⟨o, ho, rfl⟩ := List.mem_map.1 hp
    exact hN o ho)
  refine ⟨P, h1, fun h r t hr0 hr1 => ?_⟩
  rw [sum_at_point h fuel cs os hl h0 hv r t hr0 hr1 false, h2]

/-- C90. No polynomial can be left out: if the polynomial with the orders `(m, n)` is not in the list, there is a polynomial surface of degree at
most `n` that is not a sum of the polynomials of the list. -/
theorem left_out_not_reached (h : List Call) (fuel : Nat) (os : List PolObj) (h0 : os ≠ []) (hv : PolsOk fuel os) (m n : Int)
    (hmn : ValidOrders m n) (hout : ∀ o ∈ os, ¬ (o.m = m ∧ o.n = n)) :
    ∃ P : MvPolynomial (Fin 2) ℝ, P.totalDegree ≤ n.toNat ∧
      ∀ cs : List ℝ, cs.length = os.length → ¬ IsSumSurface h fuel cs os (polynomialAt P) := by
  obtain ⟨P, h1, h2⟩ := zernike_cartesian m n hmn
  refine ⟨P, h1, fun cs hl hs => ?_⟩
  have e : diskMean (fun r t => zernike m n r t * combination cs (ordersOf os) r t) = diskMean fun r t => zernike m n r t * zernike m n r t :=
    diskMean_congr fun r t hr0 hr1 => by rw [← surface_eq hl h0 hv hs r t hr0 hr1, h2]
  rw [zernike_orthonormal _ _ _ _ hmn hmn, if_pos ⟨rfl, rfl⟩, diskMean_mul_combination _ (tame_zernike _ _ hmn) _ _ (orders_valid hv)] at e
  have : ((cs.zip (ordersOf os)).map fun q => q.1 * diskMean fun r t => zernike m n r t * zernike q.2.1 q.2.2 r t).sum = 0 := by
    apply List.sum_eq_zero
    intro x hx
    obtain ⟨q, hq, rfl⟩ := List.mem_map.1 hx
    have hq2 := (List.of_mem_zip hq).2
    rw [zernike_orthonormal _ _ _ _ hmn (orders_valid hv _ hq2), if_neg, mul_zero]
    obtain ⟨o, ho, e3⟩ := List.mem_map.1 hq2
    rintro ⟨h4, h5⟩
    rw [← e3] at h4 h5
    exact hout o ho ⟨h4.symm, h5.symm⟩
  rw [this] at e
  exact zero_ne_one e

/-- The polynomials of `generate_polynomials(k)` meet the hypotheses of the theorems. -/
theorem generated_all_orders (k : ℕ) (hk : k ≤ 54) (fuel : Nat) (hf : k + 1 < fuel) :
    ∃ l, generatePolynomials k = .ok l ∧ PolsOk fuel (l.map ZernPol.obj) ∧ DifferentOrders (l.map ZernPol.obj) ∧ AllOrders k (l.map ZernPol.obj) ∧
      ∀ o ∈ l.map ZernPol.obj, o.n ≤ k := by
  obtain ⟨l, h1, h2, h3, h4⟩ := generate_polynomials_enumerates k (by omega) (by omega)
  have h5 : ∀ o ∈ l.map ZernPol.obj, ∃ i, ∃ h : i < l.length, o = l[i].obj := by
    intro o ho
    obtain ⟨z, hz, rfl⟩ := List.mem_map.1 ho
    obtain ⟨i, hi, rfl⟩ := List.mem_iff_getElem.1 hz
    exact ⟨i, hi, rfl⟩
  refine ⟨l, h1, ?_, ?_, ?_, ?_⟩
  · intro o ho
    obtain ⟨i, hi, rfl⟩ := h5 o ho
    obtain ⟨_, h7, h8, _⟩ := h3 i hi
    exact ⟨h7, by have := h7.1; simp only [ZernPol.obj]; omega⟩
  · unfold DifferentOrders
    rw [List.nodup_iff_injective_getElem]
    intro i j hij
    have hi : i.1 < l.length := by have := i.2; simpa [ordersOf] using this
    have hj : j.1 < l.length := by have := j.2; simpa [ordersOf] using this
    obtain ⟨a1, _, _, a2⟩ := h3 i.1 hi
    obtain ⟨b1, _, _, b2⟩ := h3 j.1 hj
    simp only [ordersOf, List.getElem_map, ZernPol.obj, Prod.mk.injEq] at hij
    rw [hij.1, hij.2, ← b2] at a2
    rw [a1, b1] at a2
    exact Fin.ext (by omega)
  · intro m n hmn hn
    obtain ⟨z, hz, e1, e2⟩ := h4 m n hmn hn
    exact ⟨z.obj, List.mem_map.2 ⟨z, hz, rfl⟩, e1, e2⟩
  · intro o ho
    obtain ⟨i, hi, rfl⟩ := h5 o ho
    exact (h3 i hi).2.2.1

/-- C90. With the polynomials of `generate_polynomials(k)` the sums of `sum_zernikes` are exactly the polynomials of degree at most `k`. -/
theorem generated_sums_are_polynomials (h : List Call) (k : ℕ) (hk : k ≤ 54) (fuel : Nat) (hf : k + 1 < fuel) (F : ℝ → ℝ → ℝ) :
    ∃ l, generatePolynomials k = .ok l ∧
      ((∃ cs : List ℝ, cs.length = l.length ∧ IsSumSurface h fuel cs (l.map ZernPol.obj) F) ↔
        ∃ P : MvPolynomial (Fin 2) ℝ, P.totalDegree ≤ k ∧ ∀ r t, 0 ≤ r → r ≤ 1 → F r t = polynomialAt P r t) := by
  obtain ⟨l, h1, h2, h3, h4, h5⟩ := generated_all_orders k hk fuel hf
  refine ⟨l, h1, ?_, ?_⟩
  · rintro ⟨cs, hl, hs⟩
    have hl' : cs.length = (l.map ZernPol.obj).length := by simpa using hl
    obtain ⟨P, p1, p2⟩ := sum_surface_is_polynomial fuel _ h4.ne h2 k h5 cs hl'
    refine ⟨P, p1, fun r t hr0 hr1 => ?_⟩
    rw [surface_eq hl' h4.ne h2 hs r t hr0 hr1, surface_eq hl' h4.ne h2 (p2 h) r t hr0 hr1]
  · rintro ⟨P, p1, p2⟩
    obtain ⟨cs, ⟨hl, hs⟩, _⟩ := polynomial_surface_unique_sum h fuel _ h2 h3 k h4 P p1
    refine ⟨cs, by simpa using hl, fun r t hr0 hr1 => ?_⟩
    rw [hs r t hr0 hr1, p2 r t hr0 hr1]

/-- C90. A fit of samples of a polynomial surface returns the amplitudes of this surface (rounded), for vectors of polar coordinates that give
more than `M/2` circles with more than `2M` angles each, where `M` is the largest order of the polynomials. -/
theorem fit_polynomial_surface (h : List Call) (fuel : Nat) (lstsq : Lstsq) (hl : LstsqContract lstsq) (os : List PolObj)
    (hv : PolsOk fuel os) (hd : DifferentOrders os) (N : ℕ) (hall : AllOrders N os) (P : MvPolynomial (Fin 2) ℝ) (hP : P.totalDegree ≤ N)
    (M : ℕ) (hM : ∀ o ∈ os, o.n ≤ M) (radii thetas : List ℝ) (hr1 : ∀ x ∈ radii, 0 ≤ x ∧ x ≤ 1)
    (hne : radii.length ≠ thetas.length) (rs ts : Finset ℝ) (hrs : M / 2 < rs.card) (hts : 2 * M < ts.card)
    (hr : ∀ r ∈ rs, r ∈ radii ∧ 0 < r) (ht : ∀ t ∈ ts, t ∈ thetas ∧ 0 ≤ t ∧ t < 2 * Real.pi) (digits : Int) (cs : List ℝ)
    (hc : cs.length = os.length) (hs : IsSumSurface h fuel cs os (polynomialAt P)) :
    fitted h fuel lstsq os ((samplePoints radii thetas).map fun p => polynomialAt P p.1 p.2) radii thetas digits = .ok (cs.map (npRound digits)) := by
  have hr0 : radii ≠ [] := by
    rintro rfl
    obtain ⟨x, hx⟩ := Finset.card_pos.1 (by omega : 0 < rs.card)
    simpa using (hr x hx).1
  have ht0 : thetas ≠ [] := by
    rintro rfl
    obtain ⟨x, hx⟩ := Finset.card_pos.1 (by omega : 0 < ts.card)
    simpa using (ht x hx).1
  obtain ⟨ds, d1, d2⟩ := span_combination N (ordersOf os) hd hall.mem _ (polarEval_mem P N hP)
  have hl' : ds.length = os.length := by rw [d1]; simp [ordersOf]
  have e : cs = ds := amplitudes_unique h h fuel cs ds os hc hl' hall.ne hv hd fun r t a b => by
    rw [hs r t a b, sum_at_point h fuel ds os hl' hall.ne hv r t a b false, d2]
  have := (fit_vectors_recovers h fuel lstsq hl os hall.ne hv hd radii thetas hr0 ht0 hr1
    (mesh_independent os fuel hv hd M hM radii thetas hne rs ts hrs hts hr ht) ds hl' digits).1
  unfold fitted
  rw [e, ← this]
  simp only [d2]

/-- C90. The same for an image: if the phases of the cropped pixels are the values of a polynomial surface, `fit_polynomials` returns the amplitudes of
this surface (rounded). -/
theorem fit_image_polynomial_surface (h : List Call) (fuel : Nat) (lstsq : Lstsq) (hl : LstsqContract lstsq) (os : List PolObj)
    (hv : PolsOk fuel os) (hd : DifferentOrders os) (N : ℕ) (hall : AllOrders N os) (P : MvPolynomial (Fin 2) ℝ) (hP : P.totalDegree ≤ N)
    (M : ℕ) (hM : ∀ o ∈ os, o.n ≤ M)
    (img : Grid) (crop : ℝ) (strict : Bool) (hsize : 3 ≤ min img.rows img.cols) (hlo : 0.5 ≤ crop) (hhi : crop ≤ 1)
    (hbig : (((M + 1) * (M + 3) : ℕ) : ℝ) ≤ crop * (((min img.rows img.cols : Nat) : ℝ) - 1))
    (hmax : M ≤ 36 ∨ max img.rows img.cols ≤ 9000) (digits : Int) (out : Cropped) (ho : cropPhasesImg (.img img) crop strict = .ok out)
    (hph : out.phases = (out.radii.zip out.thetas).map fun p => polynomialAt P p.1 p.2) (cs : List ℝ)
    (hc : cs.length = os.length) (hs : IsSumSurface h fuel cs os (polynomialAt P)) :
    fittedImage h fuel lstsq os img crop strict digits = .ok (cs.map (npRound digits)) := by
  obtain ⟨ds, d1, d2⟩ := span_combination N (ordersOf os) hd hall.mem _ (polarEval_mem P N hP)
  have hl' : ds.length = os.length := by rw [d1]; simp [ordersOf]
  have e : cs = ds := amplitudes_unique h h fuel cs ds os hc hl' hall.ne hv hd fun r t a b => by
    rw [hs r t a b, sum_at_point h fuel ds os hl' hall.ne hv r t a b false, d2]
  rw [e]
  exact fit_image_exact h fuel lstsq hl os hall.ne hv hd M hM img crop strict hsize hlo hhi hbig hmax digits out ho ds hl' (by simpa only [d2] using hph)

/-- An example: `x² + 2y`, of degree 2, and the polynomials of `generate_polynomials(2)`. -/
example (h : List Call) : ∃ l, generatePolynomials 2 = .ok l ∧
    ∃! cs : List ℝ, cs.length = (l.map ZernPol.obj).length ∧
      IsSumSurface h 100 cs (l.map ZernPol.obj) fun r θ => (r * Real.cos θ) ^ 2 + 2 * (r * Real.sin θ) := by
  obtain ⟨l, h1, h2, h3, h4, _⟩ := generated_all_orders 2 (by norm_num) 100 (by norm_num)
  refine ⟨l, h1, ?_⟩
  have := polynomial_surface_unique_sum h 100 _ h2 h3 2 h4 (MvPolynomial.X 0 ^ 2 + MvPolynomial.C 2 * MvPolynomial.X 1)
    ((MvPolynomial.totalDegree_add _ _).trans (max_le (by simp) ((MvPolynomial.totalDegree_mul _ _).trans (by simp))))
  have e : polynomialAt (MvPolynomial.X 0 ^ 2 + MvPolynomial.C 2 * MvPolynomial.X 1) =
      fun r θ => (r * Real.cos θ) ^ 2 + 2 * (r * Real.sin θ) := by
    funext r θ
    simp [polynomialAt]
  rwa [e] at this

/-- Example: meshes and images for `generate_polynomials(2)`. -/
example : ∃ radii thetas : List ℝ, ∃ rs ts : Finset ℝ, (∀ x ∈ radii, 0 ≤ x ∧ x ≤ 1) ∧ radii.length ≠ thetas.length ∧ 2 / 2 < rs.card ∧ 2 * 2 < ts.card ∧
    (∀ r ∈ rs, r ∈ radii ∧ 0 < r) ∧ ∀ t ∈ ts, t ∈ thetas ∧ 0 ≤ t ∧ t < 2 * Real.pi := by
  refine ⟨[1/2, 1], [0, 1, 2, 3, 4], {1/2, 1}, {0, 1, 2, 3, 4}, by intro x hx; simp at hx; rcases hx with rfl | rfl <;> norm_num, by simp, ?_, ?_, ?_, ?_⟩
  · rw [Finset.card_pair (by norm_num)]; norm_num
  · rw [Finset.card_insert_of_notMem (by norm_num), Finset.card_insert_of_notMem (by norm_num), Finset.card_insert_of_notMem (by norm_num),
      Finset.card_insert_of_notMem (by norm_num)]
    norm_num
  · intro r hr
    simp at hr
    rcases hr with rfl | rfl <;> norm_num
  · intro t ht
    have := Real.pi_gt_three
    simp at ht
    rcases ht with rfl | rfl | rfl | rfl | rfl <;> refine ⟨by simp, by norm_num, by linarith⟩

end Verif.Props
