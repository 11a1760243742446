import Verif.Props.Complete
import Mathlib.Topology.TietzeExtension
import Mathlib.MeasureTheory.Measure.OpenPos

/-!
# C91: continuous wavefronts and sums of Zernike polynomials
-/

namespace Verif.Props
open Verif.Model Verif.Spec Verif.Proofs MeasureTheory

/-- The values of a surface, given in the Cartesian coordinates, as a function of the polar coordinates. -/
noncomputable def polar (F : ℝ × ℝ → ℝ) (r θ : ℝ) : ℝ := F (r * Real.cos θ, r * Real.sin θ)

/-- The amplitude of a surface in one Zernike polynomial: the mean over the disk of the product. -/
noncomputable def amplitude (F : ℝ × ℝ → ℝ) (o : PolObj) : ℝ := diskMean fun r θ => polar F r θ * zernike o.m o.n r θ

theorem extend_surface (F : ℝ × ℝ → ℝ) (hF : ContinuousOn F unitDisk) : ∃ G : ℝ × ℝ → ℝ, Continuous G ∧ ∀ p ∈ unitDisk, G p = F p := by
  obtain ⟨g, _, hg⟩ := ContinuousMap.exists_restrict_eq_forall_mem_of_closed (s := unitDisk) (t := Set.univ) ⟨unitDisk.restrict F, hF.restrict⟩
    (fun _ => trivial) ⟨0, trivial⟩ unitDisk_compact.isClosed
  refine ⟨g, g.continuous, fun p hp => ?_⟩
  have := congrArg (fun f : C(unitDisk, ℝ) => f ⟨p, hp⟩) hg
  exact this

/-- A function that agrees on the disk with a measurable and bounded one. -/
theorem polar_tame (F : ℝ × ℝ → ℝ) (hF : ContinuousOn F unitDisk) : ∃ G, Tame G ∧ ∀ r θ, 0 ≤ r → r ≤ 1 → polar F r θ = G r θ := by
  obtain ⟨G, h1, h2⟩ := extend_surface F hF
  exact ⟨_, tame_of_continuous G h1, fun r θ h0 h1 => (h2 _ (polar_in_disk r θ h0 h1)).symm⟩

/-- C91. Every continuous surface on the disk is, to any accuracy at every point, a sum of Zernike polynomials: there is an order `N` such
that with any polynomials including all up to this order, some amplitudes do it. -/
theorem continuous_surface_approximated (h : List Call) (F : ℝ × ℝ → ℝ) (hF : ContinuousOn F unitDisk) (ε : ℝ) (hε : 0 < ε) :
    ∃ N : ℕ, ∀ (fuel : Nat) (os : List PolObj), PolsOk fuel os → DifferentOrders os → AllOrders N os →
      ∃ (cs : List ℝ) (S : ℝ → ℝ → ℝ), cs.length = os.length ∧ IsSumSurface h fuel cs os S ∧ ∀ r θ, 0 ≤ r → r ≤ 1 → |S r θ - polar F r θ| < ε := by
  obtain ⟨N, hN⟩ := approximate_combination F hF ε hε
  refine ⟨N, fun fuel os hv hd hall => ?_⟩
  obtain ⟨cs, h1, h2⟩ := hN (ordersOf os) hd hall.mem
  have hl : cs.length = os.length := by rw [h1]; simp [ordersOf]
  exact ⟨cs, combination cs (ordersOf os), hl, fun r t hr0 hr1 => sum_at_point h fuel cs os hl hall.ne hv r t hr0 hr1 false, h2⟩

/-- C91. Among all sums of the given polynomials the one whose amplitudes are the means of the products has the smallest RMS difference from
the surface. -/
theorem amplitudes_best (h : List Call) (F : ℝ × ℝ → ℝ) (hF : ContinuousOn F unitDisk) (fuel : Nat) (os : List PolObj) (h0 : os ≠ [])
    (hv : PolsOk fuel os) (hd : DifferentOrders os) (ds : List ℝ) (hl : ds.length = os.length) (S T : ℝ → ℝ → ℝ)
    (hS : IsSumSurface h fuel (os.map (amplitude F)) os S) (hT : IsSumSurface h fuel ds os T) :
    diskMean (fun r θ => (polar F r θ - S r θ) ^ 2) ≤ diskMean (fun r θ => (polar F r θ - T r θ) ^ 2) := by
  obtain ⟨G, hG, e⟩ := polar_tame F hF
  have e1 : diskMean (fun r θ => (polar F r θ - S r θ) ^ 2) = diskMean fun r θ => (G r θ - combination (os.map (amplitude F)) (ordersOf os) r θ) ^ 2 :=
    diskMean_congr fun r θ hr0 hr1 => by rw [e r θ hr0 hr1, surface_eq (by simp) h0 hv hS r θ hr0 hr1]
  have e2 : diskMean (fun r θ => (polar F r θ - T r θ) ^ 2) = diskMean fun r θ => (G r θ - combination ds (ordersOf os) r θ) ^ 2 :=
    diskMean_congr fun r θ hr0 hr1 => by rw [e r θ hr0 hr1, surface_eq hl h0 hv hT r θ hr0 hr1]
  rw [e1, e2]
  refine projection_best G hG (ordersOf os) hd (orders_valid hv) _ (by simp [ordersOf]) (fun i hi => ?_) ds (by simp [ordersOf, hl])
  simp only [List.getElem_map, ordersOf]
  exact diskMean_congr fun r θ hr0 hr1 => by rw [e r θ hr0 hr1]

/-- The mean square of the difference from the sum with these amplitudes. -/
theorem amplitudes_error (h : List Call) (F : ℝ × ℝ → ℝ) (hF : ContinuousOn F unitDisk) (fuel : Nat) (os : List PolObj) (h0 : os ≠ [])
    (hv : PolsOk fuel os) (hd : DifferentOrders os) (S : ℝ → ℝ → ℝ) (hS : IsSumSurface h fuel (os.map (amplitude F)) os S) :
    diskMean (fun r θ => (polar F r θ - S r θ) ^ 2) = diskMean (fun r θ => polar F r θ ^ 2) - (os.map fun o => amplitude F o ^ 2).sum := by
  obtain ⟨G, hG, e⟩ := polar_tame F hF
  have e1 : diskMean (fun r θ => (polar F r θ - S r θ) ^ 2) = diskMean fun r θ => (G r θ - combination (os.map (amplitude F)) (ordersOf os) r θ) ^ 2 :=
    diskMean_congr fun r θ hr0 hr1 => by rw [e r θ hr0 hr1, surface_eq (by simp) h0 hv hS r θ hr0 hr1]
  have e2 : diskMean (fun r θ => polar F r θ ^ 2) = diskMean fun r θ => G r θ ^ 2 := diskMean_congr fun r θ hr0 hr1 => by rw [e r θ hr0 hr1]
  have e3 : ∀ o : PolObj, amplitude F o = diskMean fun r θ => G r θ * zernike o.m o.n r θ :=
    fun o => diskMean_congr fun r θ hr0 hr1 => by rw [e r θ hr0 hr1]
  rw [e1, e2, diskMean_diff_sq G hG _ _ (by simp [ordersOf]) hd (orders_valid hv)]
  congr 1
  clear hS hd hv h0 e1
  induction os with
  | nil => simp [ordersOf]
  | cons o os ih =>
    simp only [ordersOf, List.map_cons, List.zip_cons_cons, List.sum_cons] at ih ⊢
    rw [ih, ← e3 o]
    ring

theorem diskMean_nonneg {f : ℝ → ℝ → ℝ} (hf : ∀ r θ, 0 ≤ f r θ) : 0 ≤ diskMean f := by
  unfold diskMean
  exact mul_nonneg (by positivity) (integral_nonneg fun p => hf _ _)

/-- C91. The RMS difference of a continuous surface from the sum with these amplitudes goes to zero: it is smaller than any `ε` as soon as the
polynomials up to some order are included. The squares of the amplitudes sum up to the mean square of the surface: never more, and
for enough polynomials as close to it as required. -/
theorem amplitudes_converge (h : List Call) (F : ℝ × ℝ → ℝ) (hF : ContinuousOn F unitDisk) :
    (∀ ε > 0, ∃ N : ℕ, ∀ (fuel : Nat) (os : List PolObj), PolsOk fuel os → DifferentOrders os → AllOrders N os →
      ∀ S, IsSumSurface h fuel (os.map (amplitude F)) os S → Real.sqrt (diskMean fun r θ => (polar F r θ - S r θ) ^ 2) ≤ ε) ∧
    (∀ (fuel : Nat) (os : List PolObj), PolsOk fuel os → DifferentOrders os → (os.map fun o => amplitude F o ^ 2).sum ≤ diskMean fun r θ => polar F r θ ^ 2) ∧
    (∀ ε > 0, ∃ N : ℕ, ∀ (fuel : Nat) (os : List PolObj), PolsOk fuel os → DifferentOrders os → AllOrders N os →
      (diskMean fun r θ => polar F r θ ^ 2) - ε ≤ (os.map fun o => amplitude F o ^ 2).sum) := by
  have key : ∀ ε > 0, ∃ N : ℕ, ∀ (fuel : Nat) (os : List PolObj), PolsOk fuel os → DifferentOrders os → AllOrders N os →
      ∀ S, IsSumSurface h fuel (os.map (amplitude F)) os S → (diskMean fun r θ => (polar F r θ - S r θ) ^ 2) ≤ ε ^ 2 := by
    intro ε hε
    obtain ⟨N, hN⟩ := continuous_surface_approximated h F hF ε hε
    refine ⟨N, fun fuel os hv hd hall S hS => ?_⟩
    obtain ⟨cs, T, hl, hT, hTF⟩ := hN fuel os hv hd hall
    refine (amplitudes_best h F hF fuel os hall.ne hv hd cs hl S T hS hT).trans ?_
    obtain ⟨G, hG, e⟩ := polar_tame F hF
    have ht := tame_combination cs (ordersOf os) (orders_valid hv)
    have e2 : diskMean (fun r θ => (polar F r θ - T r θ) ^ 2) = diskMean fun r θ => (G r θ + (-1) * combination cs (ordersOf os) r θ) * (G r θ + (-1) * combination cs (ordersOf os) r θ) :=
      diskMean_congr fun r θ hr0 hr1 => by rw [e r θ hr0 hr1, surface_eq hl hall.ne hv hT r θ hr0 hr1]; ring
    have htame : Tame fun r θ => G r θ + (-1) * combination cs (ordersOf os) r θ := hG.add ((tame_const (-1)).mul ht)
    rw [e2]
    have hc : diskMean (fun _ _ => ε ^ 2) = ε ^ 2 := by
      have h1 : ∀ r t, zernike 0 0 r t = 1 := by intro r t; simp [zernike, Spec.norm, Spec.radial, angular]
      have h2 := zernike_orthonormal 0 0 0 0 (by decide) (by decide)
      rw [if_pos ⟨rfl, rfl⟩] at h2
      have h3 := diskMean_smul (ε ^ 2) (fun r t => zernike 0 0 r t * zernike 0 0 r t)
      rw [h2, mul_one] at h3
      simpa [h1] using h3
    rw [← hc]
    unfold diskMean
    apply mul_le_mul_of_nonneg_left _ (by positivity)
    apply setIntegral_mono_on (htame.mul htame).integrable (tame_const _).integrable unitDisk_measurable
    intro p hp
    obtain ⟨h1, h2⟩ := radius_disk hp
    have h3 := hTF (radius p) (angle p) h1 h2
    rw [e _ _ h1 h2, surface_eq hl hall.ne hv hT _ _ h1 h2] at h3
    have h4 := abs_lt.1 h3
    nlinarith [h4.1, h4.2]
  have sumS : ∀ (fuel : Nat) (os : List PolObj), os ≠ [] → PolsOk fuel os → IsSumSurface h fuel (os.map (amplitude F)) os
      (combination (os.map (amplitude F)) (ordersOf os)) :=
    fun fuel os h0 hv r t hr0 hr1 => sum_at_point h fuel _ os (by simp) h0 hv r t hr0 hr1 false
  refine ⟨fun ε hε => ?_, fun fuel os hv hd => ?_, fun ε hε => ?_⟩
  · obtain ⟨N, hN⟩ := key ε hε
    refine ⟨N, fun fuel os hv hd hall S hS => ?_⟩
    rw [show ε = Real.sqrt (ε ^ 2) by rw [Real.sqrt_sq hε.le]]
    exact Real.sqrt_le_sqrt (hN fuel os hv hd hall S hS)
  · rcases eq_or_ne os [] with rfl | h0
    · simpa using diskMean_nonneg fun r θ => sq_nonneg _
    · have := amplitudes_error h F hF fuel os h0 hv hd _ (sumS fuel os h0 hv)
      have h2 : 0 ≤ diskMean fun r θ => (polar F r θ - combination (os.map (amplitude F)) (ordersOf os) r θ) ^ 2 := diskMean_nonneg fun r θ => sq_nonneg _
      linarith
  · obtain ⟨N, hN⟩ := key (Real.sqrt ε) (Real.sqrt_pos.2 hε)
    refine ⟨N, fun fuel os hv hd hall => ?_⟩
    have h1 := hN fuel os hv hd hall _ (sumS fuel os hall.ne hv)
    rw [amplitudes_error h F hF fuel os hall.ne hv hd _ (sumS fuel os hall.ne hv), Real.sq_sqrt hε.le] at h1
    linarith

theorem unitDisk_closure : unitDisk ⊆ closure (interior unitDisk) := by
  intro p hp
  have hp' : p.1 ^ 2 + p.2 ^ 2 ≤ 1 := hp
  have hopen : IsOpen {q : ℝ × ℝ | q.1 ^ 2 + q.2 ^ 2 < 1} := isOpen_lt (by fun_prop) continuous_const
  have hsub : {q : ℝ × ℝ | q.1 ^ 2 + q.2 ^ 2 < 1} ⊆ interior unitDisk := interior_maximal (fun q (hq : q.1 ^ 2 + q.2 ^ 2 < 1) => (le_of_lt hq : q.1 ^ 2 + q.2 ^ 2 ≤ 1)) hopen
  have hlim : Filter.Tendsto (fun n : ℕ => (1 - 1 / ((n : ℝ) + 1)) • p) Filter.atTop (nhds ((1 - 0 : ℝ) • p)) :=
    ((tendsto_const_nhds.sub tendsto_one_div_add_atTop_nhds_zero_nat).smul_const p)
  rw [sub_zero, one_smul] at hlim
  refine mem_closure_of_tendsto hlim (Filter.Eventually.of_forall fun n => hsub ?_)
  show ((1 - 1 / ((n : ℝ) + 1)) * p.1) ^ 2 + ((1 - 1 / ((n : ℝ) + 1)) * p.2) ^ 2 < 1
  have hpos : (0 : ℝ) < 1 / ((n : ℝ) + 1) := by positivity
  have hle : 1 / ((n : ℝ) + 1) ≤ 1 := by
    rw [div_le_one (by positivity)]
    have : (0 : ℝ) ≤ n := by positivity
    linarith
  generalize 1 / ((n : ℝ) + 1) = a at hpos hle
  have : ((1 - a) * p.1) ^ 2 + ((1 - a) * p.2) ^ 2 = (1 - a) ^ 2 * (p.1 ^ 2 + p.2 ^ 2) := by ring
  rw [this]
  have h1 : (1 - a) ^ 2 < 1 := by nlinarith
  have h2 : 0 ≤ (1 - a) ^ 2 := sq_nonneg _
  nlinarith

/-- C91. A continuous surface is determined by its amplitudes: two continuous surfaces with the same amplitudes in all Zernike polynomials
are the same at every point of the disk. -/
theorem amplitudes_determine (F G : ℝ × ℝ → ℝ) (hF : ContinuousOn F unitDisk) (hG : ContinuousOn G unitDisk)
    (hsame : ∀ o : PolObj, ValidOrders o.m o.n → amplitude F o = amplitude G o) : ∀ p ∈ unitDisk, F p = G p := by
  have hD : ContinuousOn (fun p => F p - G p) unitDisk := hF.sub hG
  obtain ⟨F', hF', eF⟩ := polar_tame F hF
  obtain ⟨G', hG', eG⟩ := polar_tame G hG
  have hzero : ∀ o : PolObj, ValidOrders o.m o.n → amplitude (fun p => F p - G p) o = 0 := by
    intro o ho
    have e : amplitude (fun p => F p - G p) o = diskMean fun r θ => F' r θ * zernike o.m o.n r θ + (-1) * (G' r θ * zernike o.m o.n r θ) :=
      diskMean_congr fun r θ h0 h1 => by
        have a := eF r θ h0 h1
        have b := eG r θ h0 h1
        unfold polar at *
        simp only [a, b]; ring
    have tz := tame_zernike _ _ ho
    rw [e, diskMean_add (hF'.mul tz) ((tame_const (-1)).mul (hG'.mul tz)), diskMean_smul]
    have := hsame o ho
    have e1 : amplitude F o = diskMean fun r θ => F' r θ * zernike o.m o.n r θ := diskMean_congr fun r θ h0 h1 => by rw [eF r θ h0 h1]
    have e2 : amplitude G o = diskMean fun r θ => G' r θ * zernike o.m o.n r θ := diskMean_congr fun r θ h0 h1 => by rw [eG r θ h0 h1]
    rw [← e1, ← e2, this]; ring
  have hms : diskMean (fun r θ => polar (fun p => F p - G p) r θ ^ 2) = 0 := by
    refine le_antisymm (le_of_forall_pos_le_add fun ε hε => ?_) (diskMean_nonneg fun r θ => sq_nonneg _)
    obtain ⟨N, hN⟩ := (amplitudes_converge [] _ hD).2.2 ε hε
    -- all polynomials up to `N`
    let os : List PolObj := (((Finset.Icc (-(N : ℤ)) N ×ˢ Finset.Icc (0 : ℤ) N).filter fun p => ValidOrders p.1 p.2).toList).map fun p => ⟨p.1, p.2, false⟩
    have hmem : ∀ o ∈ os, ValidOrders o.m o.n ∧ o.n ≤ N := by
      intro o ho
      obtain ⟨p, hp, rfl⟩ := List.mem_map.1 ho
      rw [Finset.mem_toList, Finset.mem_filter, Finset.mem_product, Finset.mem_Icc, Finset.mem_Icc] at hp
      exact ⟨hp.2, hp.1.2.2⟩
    have := hN (N + 2) os (fun o ho => ⟨(hmem o ho).1, by have := (hmem o ho).2; omega⟩) (by
      unfold DifferentOrders ordersOf
      rw [List.map_map]
      exact (Finset.nodup_toList _).map fun p q hpq => hpq) (by
      intro m n hmn hn
      refine ⟨⟨m, n, false⟩, List.mem_map.2 ⟨(m, n), ?_, rfl⟩, rfl, rfl⟩
      rw [Finset.mem_toList, Finset.mem_filter, Finset.mem_product, Finset.mem_Icc, Finset.mem_Icc]
      obtain ⟨a, b, c⟩ := hmn
      refine ⟨⟨?_, a, hn⟩, a, b, c⟩
      have := abs_le.1 (b.trans hn)
      exact ⟨this.1, this.2⟩)
    have hs : (os.map fun o => amplitude (fun p => F p - G p) o ^ 2).sum = 0 := by
      apply List.sum_eq_zero
      intro x hx
      obtain ⟨o, ho, rfl⟩ := List.mem_map.1 hx
      rw [hzero o (hmem o ho).1]; simp
    rw [hs] at this
    linarith
  -- the integral of the square vanishes
  have hint : ∫ p in unitDisk, (F p - G p) ^ 2 = 0 := by
    unfold diskMean polar at hms
    simp only [polar_point] at hms
    rcases mul_eq_zero.1 hms with h | h
    · exact absurd h (by positivity)
    · exact h
  have hci : IntegrableOn (fun p => (F p - G p) ^ 2) unitDisk := (hD.pow 2).integrableOn_compact unitDisk_compact
  have hae : (fun p => (F p - G p) ^ 2) =ᵐ[volume.restrict unitDisk] 0 := (integral_eq_zero_iff_of_nonneg (fun p => sq_nonneg _) hci).1 hint
  have := Measure.eqOn_of_ae_eq hae (hD.pow 2) continuousOn_const unitDisk_closure
  intro p hp
  have h1 := this hp
  simp only [Pi.zero_apply] at h1
  have h2 := pow_eq_zero_iff (two_ne_zero) |>.1 h1
  linarith

/-- An example of a continuous surface that is no polynomial: `|x|`. Its amplitudes are not all zero. -/
example : ContinuousOn (fun p : ℝ × ℝ => |p.1|) unitDisk ∧ ∃ o : PolObj, ValidOrders o.m o.n ∧ amplitude (fun p => |p.1|) o ≠ 0 := by
  refine ⟨by fun_prop, ?_⟩
  by_contra hno
  push Not at hno
  have := amplitudes_determine (fun p => |p.1|) (fun _ => 0) (by fun_prop) (by fun_prop) (fun o ho => by
    rw [hno o ho]
    unfold amplitude polar diskMean
    simp) (1, 0) (by show (1 : ℝ) ^ 2 + 0 ^ 2 ≤ 1; norm_num)
  simp at this

end Verif.Props
