import Verif.Proofs.Surface
import Verif.Props.Sums

/-!
# C48–C50: amplitudes, RMS value and symmetries of a surface
-/

namespace Verif.Props
open Verif.Model Verif.Spec Verif.Proofs

/-- `F` is the surface that `sum_zernikes` computes on the unit disk (point by point, after the history `h`). -/
def IsSumSurface (h : List Call) (fuel : Nat) (cs : List ℝ) (os : List PolObj) (F : ℝ → ℝ → ℝ) : Prop :=
  ∀ r t, 0 ≤ r → r ≤ 1 →
    (sumZernikes fuel cs (os.map .pol) (.num r) (.num t) false (afterCalls h)).1 = .ok (.points (.scalar (F r t)))

/-- No polynomial is given twice. -/
def DifferentOrders (os : List PolObj) : Prop := (ordersOf os).Nodup

theorem surface_eq {h : List Call} {fuel : Nat} {cs : List ℝ} {os : List PolObj} (hl : cs.length = os.length) (h0 : os ≠ [])
    (hv : PolsOk fuel os) {F : ℝ → ℝ → ℝ} (hF : IsSumSurface h fuel cs os F) (r t : ℝ) (hr0 : 0 ≤ r) (hr1 : r ≤ 1) :
    F r t = combination cs (ordersOf os) r t := by
  have e := hF r t hr0 hr1
  rw [sum_at_point h fuel cs os hl h0 hv r t hr0 hr1 false] at e
  injection e with e; injection e with e; injection e with e; exact e.symm

theorem diskMean_congr {f g : ℝ → ℝ → ℝ} (h : ∀ r t, 0 ≤ r → r ≤ 1 → f r t = g r t) : diskMean f = diskMean g := by
  unfold diskMean
  congr 1
  apply MeasureTheory.setIntegral_congr_fun unitDisk_measurable
  intro p hp
  obtain ⟨h1, h2⟩ := radius_disk hp
  exact h _ _ h1 h2

theorem orders_valid {fuel : Nat} {os : List PolObj} (hv : PolsOk fuel os) : ∀ p ∈ ordersOf os, ValidOrders p.1 p.2 := by
  intro p hp
  obtain ⟨o, ho, rfl⟩ := List.mem_map.1 hp
  exact (hv o ho).1

/-! ### C48: RMS value and mean -/

/-- C48. The mean square of the surface `Σ c_i Z_i` over the unit disk is `Σ c_i²`: with the normalisation used by the package the RMS value of
an aberration is the Euclidean length of its amplitudes. -/
theorem surface_rms (h : List Call) (fuel : Nat) (cs : List ℝ) (os : List PolObj) (hl : cs.length = os.length) (h0 : os ≠ [])
    (hv : PolsOk fuel os) (hd : DifferentOrders os) (F : ℝ → ℝ → ℝ) (hF : IsSumSurface h fuel cs os F) :
    diskMean (fun r t => F r t ^ 2) = (cs.map fun c => c ^ 2).sum := by
  rw [← diskMean_sq cs (ordersOf os) (by simp [ordersOf, hl]) hd (orders_valid hv)]
  exact diskMean_congr fun r t h0' h1' => by rw [surface_eq hl h0 hv hF r t h0' h1']

/-- C48. The mean of the surface over the disk is the amplitude of the piston: 0 if there is no piston among the polynomials. -/
theorem surface_mean (h : List Call) (fuel : Nat) (cs : List ℝ) (os : List PolObj) (hl : cs.length = os.length) (h0 : os ≠ [])
    (hv : PolsOk fuel os) (hd : DifferentOrders os) (F : ℝ → ℝ → ℝ) (hF : IsSumSurface h fuel cs os F) :
    (∀ i (hi : i < os.length), os[i].n = 0 → diskMean F = cs[i]'(by omega)) ∧ ((∀ o ∈ os, o.n ≠ 0) → diskMean F = 0) := by
  have hv' := orders_valid hv
  have hl' : cs.length = (ordersOf os).length := by simp [ordersOf, hl]
  have one : ∀ r t, zernike 0 0 r t = 1 := by intro r t; simp [zernike, Spec.norm, Spec.radial, angular]
  have e : diskMean F = diskMean fun r t => combination cs (ordersOf os) r t * zernike 0 0 r t :=
    diskMean_congr fun r t h0' h1' => by rw [surface_eq hl h0 hv hF r t h0' h1', one]; ring
  refine ⟨fun i hi hn => ?_, fun hn => ?_⟩
  · have hm : os[i].m = 0 := by
      have := (hv _ (List.getElem_mem hi)).1
      obtain ⟨_, h2, _⟩ := this
      rw [hn] at h2
      exact abs_eq_zero.1 (le_antisymm h2 (abs_nonneg _))
    have hi' : i < (ordersOf os).length := by simpa [ordersOf] using hi
    have := diskMean_project cs (ordersOf os) hl' hd hv' i hi'
    rw [e, ← this]
    simp [ordersOf, hm, hn]
  · rw [e]
    have e2 : (fun r t => combination cs (ordersOf os) r t * zernike 0 0 r t) =
        fun r t => zernike 0 0 r t * combination cs (ordersOf os) r t := by funext r t; ring
    rw [e2, diskMean_mul_combination _ (tame_zernike _ _ (by decide)) _ _ hv']
    apply List.sum_eq_zero
    intro x hx
    obtain ⟨q, hq, rfl⟩ := List.mem_map.1 hx
    have hq2 := (List.of_mem_zip hq).2
    rw [zernike_orthonormal _ _ _ _ (by decide) (hv' _ hq2)]
    obtain ⟨o, ho, e3⟩ := List.mem_map.1 hq2
    rw [if_neg, mul_zero]
    rintro ⟨_, h5⟩
    rw [← e3] at h5
    exact hn o ho h5.symm

/-! ### C49: the amplitudes are determined by the surface -/

/-- C49. The amplitude of each polynomial is the mean over the disk of the product of the surface and this polynomial. -/
theorem surface_projection (h : List Call) (fuel : Nat) (cs : List ℝ) (os : List PolObj) (hl : cs.length = os.length) (h0 : os ≠ [])
    (hv : PolsOk fuel os) (hd : DifferentOrders os) (F : ℝ → ℝ → ℝ) (hF : IsSumSurface h fuel cs os F) (i : ℕ) (hi : i < os.length)
    (Z : ℝ → ℝ → ℝ) (h' : List Call)
    (hZ : ∀ r t, 0 ≤ r → r ≤ 1 → (polynomialValue fuel os[i] (.num r) (.num t) false (afterCalls h')).res = .ok (.scalar (Z r t))) :
    diskMean (fun r t => F r t * Z r t) = cs[i]'(by omega) := by
  have hv' := orders_valid hv
  have hi' : i < (ordersOf os).length := by simpa [ordersOf] using hi
  have := diskMean_project cs (ordersOf os) (by simp [ordersOf, hl]) hd hv' i hi'
  rw [← this]
  refine diskMean_congr fun r t h0' h1' => ?_
  rw [surface_eq hl h0 hv hF r t h0' h1']
  have hz := hZ r t h0' h1'
  obtain ⟨a, b⟩ := hv _ (List.getElem_mem hi)
  rw [value_is_zernike h' fuel os[i] a b r t h0' h1'] at hz
  injection hz with hz; injection hz with hz
  rw [← hz]
  simp [ordersOf]

/-- C49. Two sums of the same (different) polynomials that give the same surface on the disk have the same amplitudes: an aberration has only one
decomposition. -/
theorem amplitudes_unique (h h' : List Call) (fuel : Nat) (cs ds : List ℝ) (os : List PolObj) (hl : cs.length = os.length)
    (hl' : ds.length = os.length) (h0 : os ≠ []) (hv : PolsOk fuel os) (hd : DifferentOrders os)
    (hsame : ∀ r t, 0 ≤ r → r ≤ 1 → (sumZernikes fuel cs (os.map .pol) (.num r) (.num t) false (afterCalls h)).1 =
      (sumZernikes fuel ds (os.map .pol) (.num r) (.num t) false (afterCalls h')).1) : cs = ds := by
  have hv' := orders_valid hv
  apply List.ext_getElem (by omega)
  intro i h1 h2
  have hi' : i < (ordersOf os).length := by simp only [ordersOf, List.length_map]; omega
  rw [← diskMean_project cs (ordersOf os) (by simp [ordersOf, hl]) hd hv' i hi',
    ← diskMean_project ds (ordersOf os) (by simp [ordersOf, hl']) hd hv' i hi']
  refine diskMean_congr fun r t h0' h1' => ?_
  have e := hsame r t h0' h1'
  rw [sum_at_point h fuel cs os hl h0 hv r t h0' h1' false, sum_at_point h' fuel ds os hl' h0 hv r t h0' h1' false] at e
  injection e with e; injection e with e; injection e with e
  rw [e]

/-! ### C50: symmetries -/

theorem angular_add_pi (m : Int) (t : ℝ) : angular m (t + Real.pi) = (-1) ^ m.natAbs * angular m t := by
  unfold angular
  split_ifs with hm
  · obtain ⟨k, rfl⟩ := Int.eq_ofNat_of_zero_le hm
    have : ((k : Int) : ℝ) * (t + Real.pi) = (k : ℝ) * t + k * Real.pi := by push_cast; ring
    rw [this, Real.cos_add_nat_mul_pi]
    simp
  · have : ((|m| : Int) : ℝ) * (t + Real.pi) = ((|m| : Int) : ℝ) * t + (m.natAbs : ℝ) * Real.pi := by
      rw [show ((m.natAbs : ℕ) : ℝ) = ((|m| : Int) : ℝ) by rw [← Int.natCast_natAbs m]; rfl]; ring
    rw [this, Real.sin_add_nat_mul_pi]

/-- C50. Opposite points of the disk: `Z(r, θ + π) = (-1)^m Z(r, θ)`. -/
theorem value_opposite_point (h h' : List Call) (fuel : Nat) (o : PolObj) (hv : ValidOrders o.m o.n) (hf : o.n.toNat + 1 < fuel) (r t : ℝ)
    (h0 : 0 ≤ r) (h1 : r ≤ 1) : ∃ v,
    (polynomialValue fuel o (.num r) (.num t) false (afterCalls h)).res = .ok (.scalar v) ∧
    (polynomialValue fuel o (.num r) (.num (t + Real.pi)) false (afterCalls h')).res = .ok (.scalar ((-1) ^ o.m.natAbs * v)) := by
  refine ⟨_, value_is_zernike h fuel o hv hf r t h0 h1, ?_⟩
  rw [value_is_zernike h' fuel o hv hf r _ h0 h1]
  unfold zernike
  rw [angular_add_pi]
  congr 2; ring

/-- C50. Reflection at the horizontal axis: polynomials with `m ≥ 0` keep their values, polynomials with `m < 0` change the sign. -/
theorem value_mirrored (h h' : List Call) (fuel : Nat) (o : PolObj) (hv : ValidOrders o.m o.n) (hf : o.n.toNat + 1 < fuel) (r t : ℝ)
    (h0 : 0 ≤ r) (h1 : r ≤ 1) : ∃ v,
    (polynomialValue fuel o (.num r) (.num t) false (afterCalls h)).res = .ok (.scalar v) ∧
    (polynomialValue fuel o (.num r) (.num (-t)) false (afterCalls h')).res = .ok (.scalar (if 0 ≤ o.m then v else -v)) := by
  refine ⟨_, value_is_zernike h fuel o hv hf r t h0 h1, ?_⟩
  rw [value_is_zernike h' fuel o hv hf r _ h0 h1]
  unfold zernike angular
  split_ifs
  · rw [mul_neg, Real.cos_neg]
  · rw [mul_neg, Real.sin_neg]; congr 2; ring

/-- C50. Rotation by `2π/|m|` does not change the values; polynomials with `m = 0` do not depend on the angle at all. -/
theorem value_rotated (h h' : List Call) (fuel : Nat) (o : PolObj) (hv : ValidOrders o.m o.n) (hf : o.n.toNat + 1 < fuel) (r t : ℝ)
    (h0 : 0 ≤ r) (h1 : r ≤ 1) :
    (o.m ≠ 0 → (polynomialValue fuel o (.num r) (.num (t + 2 * Real.pi / |(o.m : ℝ)|)) false (afterCalls h)).res =
      (polynomialValue fuel o (.num r) (.num t) false (afterCalls h')).res) ∧
    (o.m = 0 → ∀ t', (polynomialValue fuel o (.num r) (.num t') false (afterCalls h)).res =
      (polynomialValue fuel o (.num r) (.num t) false (afterCalls h')).res) := by
  refine ⟨fun hm => ?_, fun hm t' => ?_⟩
  · rw [value_is_zernike h fuel o hv hf r _ h0 h1, value_is_zernike h' fuel o hv hf r _ h0 h1]
    have : angular o.m (t + 2 * Real.pi / |(o.m : ℝ)|) = angular o.m t := by
      have hm' : (o.m : ℝ) ≠ 0 := by exact_mod_cast hm
      unfold angular
      split_ifs with hs
      · have hs' : (0 : ℝ) ≤ o.m := by exact_mod_cast hs
        rw [abs_of_nonneg hs', mul_add, mul_div_cancel₀ _ hm', Real.cos_add_two_pi]
      · rw [Int.cast_abs, mul_add, mul_div_cancel₀ _ (abs_ne_zero.2 hm'), Real.sin_add_two_pi]
    unfold zernike
    rw [this]
  · rw [value_is_zernike h fuel o hv hf r _ h0 h1, value_is_zernike h' fuel o hv hf r _ h0 h1]
    unfold zernike angular
    rw [hm]; simp

/-- The hypotheses hold for a concrete sum of a defocus, a coma and a piston, with its surface. -/
example : ∃ (cs : List ℝ) (os : List PolObj) (F : ℝ → ℝ → ℝ), cs.length = os.length ∧ os ≠ [] ∧ PolsOk 100 os ∧ DifferentOrders os ∧
    IsSumSurface [] 100 cs os F ∧ (cs.map fun c => c ^ 2).sum = 14 := by
  have hv : PolsOk 100 [⟨0, 2, false⟩, ⟨-1, 3, false⟩, ⟨0, 0, false⟩] := by
    intro o ho
    fin_cases ho <;> exact ⟨by decide, by decide⟩
  refine ⟨[2, -1, 3], [⟨0, 2, false⟩, ⟨-1, 3, false⟩, ⟨0, 0, false⟩], combination [2, -1, 3] (ordersOf [⟨0, 2, false⟩, ⟨-1, 3, false⟩, ⟨0, 0, false⟩]), rfl, by simp, hv, ?_, ?_, by norm_num⟩
  · unfold DifferentOrders ordersOf; decide
  · intro r t h0 h1
    exact sum_at_point [] 100 _ _ rfl (by simp) hv r t h0 h1 false

end Verif.Props
