import Verif.Props.FloatCrop
import Verif.Props.RoundTrip

/-!
# C101: recovering decimal amplitudes from noisy phases and from generated images in double precision
-/

namespace Verif.Props
open Verif.Model Verif.Spec Verif.Proofs

/-- C101. Noise below about 1/30 of the last decimal does not change the result: if every phase is within `δ` of the combination with the amplitudes `cs`, which have at most `d`
decimals, the fit with `round_digits = d` returns `cs`, bit for bit. -/
theorem recover_doubles (s : List ℝ → ℝ) (hs : Sums s) (h : List Call) (fuel : Nat) (lstsq : Lstsq) (os : List PolObj) (radii thetas : List ℝ)
    (hf : DoubleFit lstsq fuel os radii thetas) (d : Int) (hd : 0 ≤ d) (hd' : d ≤ 22) (ks : List ℤ) (cs : List ℝ) (hcs : cs = ks.map fun (k : ℤ) => binary64 ((k : ℝ) / 10 ^ d))
    (hlen : cs.length = os.length) (phases : List ℝ) (δ : ℝ)
    (hsmall : (11 * δ + 1.1 / 10 ^ 6 * (cs.map fun c => |c|).sum) * 10 ^ d ≤ 0.4)
    (hph : List.Forall₂ (fun (q : ℝ × ℝ) v => |v - combination cs (ordersOf os) q.1 q.2| ≤ δ) (samplePoints radii thetas) phases) :
    (fltFitVectors (psfDoubles s) fuel lstsq os phases radii thetas d (afterCalls h)).1 = .ok cs := by
  obtain ⟨x, e, xl, b⟩ := double_solution s h fuel lstsq os radii thetas hf phases hph.length_eq.symm cs hlen d
  rw [e]
  congr 1
  have hpne : samplePoints radii thetas ≠ [] := samplePoints_ne hf.radii_nonempty hf.thetas_nonempty
  have hδ : 0 ≤ δ := by
    obtain ⟨q, l, hl⟩ := List.exists_cons_of_ne_nil hpne
    rw [hl] at hph
    obtain ⟨v, -, h1, -, -⟩ := List.forall₂_cons_left_iff.1 hph
    exact (abs_nonneg _).trans h1
  obtain ⟨W, hW⟩ : ∃ W, W = (cs.map fun c => |c|).sum := ⟨_, rfl⟩
  have hW0 : 0 ≤ W := by rw [hW]; exact (Real.sqrt_nonneg _).trans (sqrt_energy_le cs)
  have hβ : ∀ o ∈ os, Spec.norm o.m o.n ≤ 4.7 := fun o ho => by
    unfold Spec.norm
    have hn' : (o.n : ℝ) ≤ 10 := by exact_mod_cast hf.orders o ho
    have hn'' : (0 : ℝ) ≤ o.n := by exact_mod_cast ((valid_iff _ _).1 (hf.valid o ho).1).1
    rw [Real.sqrt_le_left (by norm_num)]
    split_ifs <;> norm_num <;> linarith
  have r1 : rms (differences phases ((samplePoints radii thetas).map fun p => combination cs (ordersOf os) p.1 p.2)) ≤ δ := by
    refine rms_le hδ fun y hy => ?_
    obtain ⟨q, -, v, hv, rfl⟩ := forall2_differences hph (fun p => combination cs (ordersOf os) p.1 p.2) y hy
    exact hv
  have r2 : rms phases ≤ 4.7 * W + δ := by
    refine rms_le (by positivity) fun y hy => ?_
    obtain ⟨q, hq, c1⟩ := forall2_map_right hph y hy
    have c2 := combination_le os hf.valid 4.7 hβ cs hlen q.2 (hf.radii_range _ (samplePoints_mem hq).1).1 (hf.radii_range _ (samplePoints_mem hq).1).2
    rw [← hW] at c2
    have c3 := abs_add_le (y - combination cs (ordersOf os) q.1 q.2) (combination cs (ordersOf os) q.1 q.2)
    rw [sub_add_cancel] at c3
    linarith
  have r3 := sqrt_energy_le cs
  rw [← hW] at r3 hsmall
  have T1 : (1 : ℝ) ≤ 10 ^ d := one_le_zpow₀ (by norm_num) hd
  apply List.ext_getElem
  · simp [xl, hlen]
  · intro j h1 h2
    rw [List.getElem_map]
    have hj : j < os.length := by omega
    have bj := b j hj
    have e1 : x.getD j 0 = x[j]'(by omega) := by simp [List.getD_eq_getElem?_getD, show j < x.length by omega]
    have e2 : cs.getD j 0 = cs[j] := by simp [List.getD_eq_getElem?_getD, h2]
    rw [e1, e2] at bj
    obtain ⟨k, hk⟩ : ∃ k : ℤ, cs[j] = binary64 (k / 10 ^ d) := by
      have hkl : j < ks.length := by rw [hcs] at h2; simpa using h2
      refine ⟨ks[j], ?_⟩
      simp only [hcs, List.getElem_map]
    have hcW : |cs[j]| ≤ W := by
      rw [hW]
      have hm : |cs[j]| ∈ cs.map fun c => |c| := List.mem_map.2 ⟨cs[j], List.getElem_mem h2, rfl⟩
      exact List.single_le_sum (by intro z hz; obtain ⟨w, -, rfl⟩ := List.mem_map.1 hz; exact abs_nonneg _) _ hm
    rw [hk] at hcW bj ⊢
    refine fltRound_decimal s hs d hd k _ ?_ ?_ hd'
    · generalize (10 : ℝ) ^ d = T at *
      have hT : 0 < T := by linarith
      have b2 : |x[j]'(by omega) - binary64 (k / T)| ≤ 11 * δ + 1.1 / 10 ^ 6 * W := by
        refine bj.trans ?_
        norm_num at *
        linarith
      exact (mul_le_mul_of_nonneg_right b2 hT.le).trans hsmall
    · generalize (10 : ℝ) ^ d = T at *
      have hT : 0 < T := by linarith
      have := mul_le_mul_of_nonneg_right hcW hT.le
      have : 0 ≤ δ * T := by positivity
      norm_num at *
      linarith

/-- Polar coordinates computed in double precision for a pixel of a generated image: near to coordinates of the pixel relative to the circle of the generation. -/
def NearGenerator (height width : Nat) (p : Nat × Nat) (r t : ℝ) : Prop :=
  p.1 < height ∧ p.2 < width ∧ 0 ≤ r ∧ r ≤ 1 ∧ ∃ r' t', GeneratorCoordinates height width p r' t' ∧ |r - r'| ≤ 1 / 10 ^ 10 ∧ |t - t'| ≤ 1 / 10 ^ 10

theorem coefficientSize_le (cs : List ℝ) (os : List PolObj) (h : cs.length = os.length) : coefficientSize (cs.zip os) ≤ (cs.map fun c => |c|).sum + os.length * 2⁻¹ ^ 1022 := by
  have hη0 : (0 : ℝ) < 2⁻¹ ^ 1022 := by positivity
  unfold coefficientSize
  generalize (2⁻¹ : ℝ) ^ 1022 = η at *
  induction cs generalizing os with
  | nil => simp; positivity
  | cons c l ih =>
    cases os with
    | nil => simp at h
    | cons o l' =>
      have i1 := ih l' (by simpa using h)
      simp only [List.zip_cons_cons, List.map_cons, List.sum_cons, List.length_cons]
      have i2 : max |c| η ≤ |c| + η := max_le (by linarith) (by linarith [abs_nonneg c])
      push_cast
      linarith

theorem exactSum_combination (cs : List ℝ) (os : List PolObj) (r t : ℝ) : exactSum (cs.zip os) r t = combination cs (ordersOf os) r t := by
  unfold exactSum combination ordersOf
  rw [List.zip_map_right, List.map_map]
  rfl

theorem forall2_of_getElem {α β : Type} {R : α → β → Prop} {l : List α} {l' : List β} (hl : l.length = l'.length)
    (h : ∀ k (h1 : k < l.length) (h2 : k < l'.length), R l[k] l'[k]) : List.Forall₂ R l l' :=
  List.forall₂_iff_get.2 ⟨hl, fun k h1 h2 => h k h1 h2⟩

/-- C101. The round trip through a generated image in double precision: `generate_phases_image` with amplitudes of at most `d` decimals, the values of any of its pixels fitted by
`fit_polynomials_vectors` with polar coordinates of these pixels in double precision (relative to the circle of the generation, within 10⁻¹⁰ of the exact ones): the amplitudes are returned
bit for bit, if the polynomials are independent at these points. -/
theorem roundtrip_image_doubles (s : List ℝ → ℝ) (hs : Sums s) (h h' : List Call) (fuel : Nat) (lstsq : Lstsq) (os : List PolObj) (radii thetas : List ℝ)
    (hf : DoubleFit lstsq fuel os radii thetas) (d : Int) (hd : 0 ≤ d) (hd' : d ≤ 22) (ks : List ℤ) (cs : List ℝ) (hcs : cs = ks.map fun (k : ℤ) => binary64 ((k : ℝ) / 10 ^ d))
    (hlen : cs.length = os.length) (hsum : (cs.map fun c => |c|).sum * 10 ^ d ≤ 2 * 10 ^ 5) (width height : Nat) (hR : min width height ≤ 2 ^ 25)
    (ps : List (Nat × Nat)) (hr : radii.length = ps.length) (ht : thetas.length = ps.length)
    (hp : ∀ (k : Nat) p r t, ps[k]? = some p → radii[k]? = some r → thetas[k]? = some t → NearGenerator height width p r t) :
    ∃ g, (generatePhasesImageFl (psfDoubles s) fuel (cs.zip os) width height (afterCalls h)).1 = .ok g ∧ g.rows = height ∧ g.cols = width ∧
      (fltFitVectors (psfDoubles s) fuel lstsq os (ps.map fun p => g.entry p.1 p.2) radii thetas d (afterCalls h')).1 = .ok cs := by
  have hn := List.length_pos_of_ne_nil hf.radii_nonempty
  have hw : 0 < width := by
    have := hp 0 (ps[0]'(by omega)) radii[0] (thetas[0]'(by omega)) (by simp) (by simp) (by simp)
    have := this.2.1
    omega
  have hzip : ∀ q ∈ cs.zip os, q.2 ∈ os := fun q hq => (List.of_mem_zip hq).2
  have hne : cs.zip os ≠ [] := by
    intro c
    have := congrArg List.length c
    simp only [List.length_zip, List.length_nil, hlen, min_self] at this
    exact hf.nonempty (List.length_eq_zero_iff.1 this)
  obtain ⟨g, e, g1, g2, hg⟩ := phases_image_double s hs h fuel (cs.zip os) hne (fun q hq => hf.valid _ (hzip q hq)) (fun q hq => hf.orders _ (hzip q hq)) (by simp [hf.number])
    width height hw hR
  refine ⟨g, e, g1, g2, ?_⟩
  have hsp : samplePoints radii thetas = radii.zip thetas := if_pos (by omega)
  refine recover_doubles s hs h' fuel lstsq os radii thetas hf d hd hd' ks cs hcs hlen _ (7 / 10 ^ 8 * coefficientSize (cs.zip os)) ?_ ?_
  · have hc := coefficientSize_le cs os hlen
    have hW0 : 0 ≤ (cs.map fun c => |c|).sum := (Real.sqrt_nonneg _).trans (sqrt_energy_le cs)
    have hη : (2⁻¹ : ℝ) ^ 1022 ≤ 2⁻¹ ^ 100 := pow_le_pow_of_le_one (by norm_num) (by norm_num) (by norm_num)
    have hη0 : (0 : ℝ) < 2⁻¹ ^ 1022 := by positivity
    have T1 : (1 : ℝ) ≤ 10 ^ d := one_le_zpow₀ (by norm_num) hd
    have T2 : (10 : ℝ) ^ d ≤ 10 ^ (22 : ℤ) := zpow_le_zpow_right₀ (by norm_num) hd'
    have hl66 : (os.length : ℝ) ≤ 66 := by exact_mod_cast hf.number
    generalize (2⁻¹ : ℝ) ^ 1022 = η at *
    generalize coefficientSize (cs.zip os) = C at *
    generalize (cs.map fun c => |c|).sum = W at *
    generalize (10 : ℝ) ^ d = T at *
    have hT : 0 < T := by linarith
    have m4 : η * T ≤ 1 / 1000 := by
      calc η * T ≤ 2⁻¹ ^ 100 * 10 ^ (22 : ℤ) := mul_le_mul hη T2 hT.le (by positivity)
        _ ≤ _ := by norm_num
    have c1 : C ≤ W + 66 * η := hc.trans (by nlinarith)
    have c2 : C * T ≤ W * T + 66 * (η * T) := (mul_le_mul_of_nonneg_right c1 hT.le).trans (by linarith)
    have e3 : (11 * (7 / 10 ^ 8 * C) + 1.1 / 10 ^ 6 * W) * T = 77 / 10 ^ 8 * (C * T) + 1.1 / 10 ^ 6 * (W * T) := by ring
    rw [e3]
    norm_num at *
    linarith
  · rw [hsp]
    apply forall2_of_getElem
    · simp; omega
    intro k h1 h2
    have hk : k < ps.length := by simpa using h2
    simp only [List.getElem_zip, List.getElem_map]
    obtain ⟨a1, a2, a3, a4, r', t', hG, b1, b2⟩ := hp k ps[k] (radii[k]'(by omega)) (thetas[k]'(by omega)) (by simp) (by simp) (by simp)
    have hpix := (hg ps[k].1 ps[k].2 a1 a2).1 r' t' hG
    have hnear := exactSum_near (cs.zip os) (fun q hq => (hf.valid _ (hzip q hq)).1) (fun q hq => hf.orders _ (hzip q hq)) r' (radii[k]'(by omega)) ⟨hG.2.2.1, hG.2.2.2.1⟩ ⟨a3, a4⟩ t'
      (thetas[k]'(by omega))
    rw [← exactSum_combination]
    have hC := coefficientSize_nonneg (cs.zip os)
    rw [abs_sub_comm r' , abs_sub_comm t'] at hnear
    have small : (300 * |radii[k]'(by omega) - r'| + 50 * |thetas[k]'(by omega) - t'|) * coefficientSize (cs.zip os) ≤ 4 / 10 ^ 8 * coefficientSize (cs.zip os) := by
      refine mul_le_mul_of_nonneg_right ?_ hC
      norm_num at *
      linarith
    have := abs_sub_le (g.entry ps[k].1 ps[k].2) (exactSum (cs.zip os) r' t') (exactSum (cs.zip os) (radii[k]'(by omega)) (thetas[k]'(by omega)))
    refine this.trans ((add_le_add hpix (hnear.trans small)).trans (le_of_eq ?_))
    ring

/-- The polar coordinates that `generate_phases_image` computes itself in double precision are such coordinates, for every pixel of the circle. -/
theorem own_nearGenerator (s : List ℝ → ℝ) (height width i j : Nat) (hi : i < height) (hj : j < width) (hR : min width height ≤ 2 ^ 25)
    (hc : ((j : ℝ) - ((width / 2 : Nat) : ℝ)) ^ 2 + (((height / 2 : Nat) : ℝ) - (i : ℝ)) ^ 2 ≤ (1 + ((min width height / 2 : Nat) : ℝ)) ^ 2) :
    NearGenerator height width (i, j) (imgRFl (psfDoubles s) height width i j) (imgThetaFl (psfDoubles s) height width i j) := by
  have hd : imgDist height width i j ≤ imgRadius height width := (imgDist_le_iff _ _ _ _).2 hc
  obtain ⟨f0, f1, fe⟩ := imgRFl_near s height width i j hR
  obtain ⟨t0, t1, t', tc, ts, te⟩ := imgThetaFl_near s height width i j hR hd
  obtain ⟨m0, m1⟩ := imgR_mem height width i j
  obtain ⟨pc, ps⟩ := img_polar height width i j hd
  have hreq : imgRadius height width = 1 + ((min width height / 2 : Nat) : ℝ) := by unfold imgRadius; push_cast; rfl
  refine ⟨hi, hj, f0, f1, imgR height width i j, t', ⟨hi, hj, m0, m1, ?_, ?_⟩, fe.trans (by norm_num), te.trans (by norm_num)⟩
  · rw [tc, ← hreq]; exact pc
  · rw [ts, ← hreq]; exact ps

/-! ### Cases that meet the conditions -/

theorem sample_combination (a b r : ℝ) : combination [a, b] (ordersOf [⟨0, 0, false⟩, ⟨1, 1, false⟩]) r 0 = a + 2 * b * r := by
  simp [combination, ordersOf, zernike, Spec.norm, Spec.radial, angular]
  have : Real.sqrt (1 + 1) * Real.sqrt 2 = 2 := by rw [show (1 : ℝ) + 1 = 2 by norm_num, Real.mul_self_sqrt (by norm_num)]
  linear_combination b * r * this

/-- Piston 3 and tilt -2 (no decimals), and noise of ±0.01 at the three points: the fit returns 3 and -2 exactly. -/
example {lstsq : Lstsq} (hl : BackwardStable lstsq (1 / 10 ^ 10)) (h : List Call) :
    (fltFitVectors (psfDoubles (sumFromLeft binary64)) 10 lstsq [⟨0, 0, false⟩, ⟨1, 1, false⟩] [3.01, -1.01, 0.99] [0, 1, 1 / 2] [0, 0, 0] 0 (afterCalls h)).1 = .ok [3, -2] := by
  have h1 : binary64 (3 / 10 ^ (0 : ℤ)) = 3 := by simpa using binary64_int 3 (by norm_num)
  have h2 : binary64 (-2 / 10 ^ (0 : ℤ)) = -2 := by simpa using binary64_int (-2) (by norm_num)
  refine recover_doubles _ sumFromLeft_sums h 10 lstsq _ _ _ (sample_doubleFit hl) 0 le_rfl (by norm_num) [3, -2] _ (by simpa using And.intro h1.symm h2.symm) (by simp) _ 0.0101 ?_ ?_
  · norm_num
  · refine List.Forall₂.cons ?_ (List.Forall₂.cons ?_ (List.Forall₂.cons ?_ List.Forall₂.nil)) <;> rw [sample_combination] <;> norm_num [abs_of_pos, abs_of_neg]

/-- Piston and tilt at the centre of an image of 7 by 7 pixels and two pixels to the right of it. -/
theorem sample_imageFit {lstsq : Lstsq} (hl : BackwardStable lstsq (1 / 10 ^ 10)) : DoubleFit lstsq 10 [⟨0, 0, false⟩, ⟨1, 1, false⟩] [0, 1 / 2] [0, 0] where
  nonempty := by simp
  valid := (sample_doubleFit hl).valid
  different := (sample_doubleFit hl).different
  radii_nonempty := by simp
  thetas_nonempty := by simp
  radii_range := by intro x hx; simp at hx; rcases hx with rfl | rfl <;> norm_num
  orders := (sample_doubleFit hl).orders
  number := by simp
  angles := by intro t ht; simp at ht; subst ht; simpa using Real.pi_pos.le
  solver := hl
  independent := by
    intro ds hds
    obtain ⟨a, b, rfl⟩ : ∃ a b, ds = [a, b] := by
      match ds, hds with
      | [a, b], _ => exact ⟨a, b, rfl⟩
    have e : samplePoints [0, 1 / 2] [0, 0] = [((0 : ℝ), (0 : ℝ)), (1 / 2, 0)] := rfl
    rw [e]
    simp only [List.map_cons, List.map_nil, sample_combination]
    simp [energy]
    nlinarith [sq_nonneg (a + b), sq_nonneg a, sq_nonneg b, sq_nonneg (2 * a + b)]

/-- Amplitudes 0.5 and -0.1234, an image of 7 by 7 pixels in double precision: the fit at two of its pixels returns them, bit for bit. -/
example {lstsq : Lstsq} (hl : BackwardStable lstsq (1 / 10 ^ 10)) (h h' : List Call) :
    ∃ g, (generatePhasesImageFl (psfDoubles (sumFromLeft binary64)) 10 ([binary64 (5000 / 10 ^ (4 : ℤ)), binary64 (-1234 / 10 ^ (4 : ℤ))].zip [⟨0, 0, false⟩, ⟨1, 1, false⟩]) 7 7
        (afterCalls h)).1 = .ok g ∧ g.rows = 7 ∧ g.cols = 7 ∧
      (fltFitVectors (psfDoubles (sumFromLeft binary64)) 10 lstsq [⟨0, 0, false⟩, ⟨1, 1, false⟩] [g.entry 3 3, g.entry 3 5] [0, 1 / 2] [0, 0] 4 (afterCalls h')).1 =
        .ok [binary64 (5000 / 10 ^ (4 : ℤ)), binary64 (-1234 / 10 ^ (4 : ℤ))] := by
  refine roundtrip_image_doubles _ sumFromLeft_sums h h' 10 lstsq _ _ _ (sample_imageFit hl) 4 (by norm_num) (by norm_num) [5000, -1234] _ (by simp) (by simp) ?_ 7 7 (by norm_num)
    [(3, 3), (3, 5)] rfl rfl ?_
  · have h1 := binary64_error (5000 / 10 ^ (4 : ℤ))
    have h2 := binary64_error (-1234 / 10 ^ (4 : ℤ))
    have b1 : |binary64 (5000 / 10 ^ (4 : ℤ))| ≤ 2 := by
      have := abs_add_le (binary64 (5000 / 10 ^ (4 : ℤ)) - 5000 / 10 ^ (4 : ℤ)) (5000 / 10 ^ (4 : ℤ))
      rw [sub_add_cancel] at this
      norm_num [abs_of_pos] at *
      linarith
    have b2 : |binary64 (-1234 / 10 ^ (4 : ℤ))| ≤ 2 := by
      have := abs_add_le (binary64 (-1234 / 10 ^ (4 : ℤ)) - (-1234 / 10 ^ (4 : ℤ))) (-1234 / 10 ^ (4 : ℤ))
      rw [sub_add_cancel] at this
      norm_num [abs_of_neg, abs_of_pos] at *
      linarith
    simp only [List.map_cons, List.map_nil, List.sum_cons, List.sum_nil]
    norm_num at *
    linarith
  · intro k p r t hp hr ht
    have hk : k < 2 := by have := List.getElem?_eq_some_iff.1 hp; simpa using this.1
    interval_cases k
    · simp at hp hr ht; subst hp hr ht
      refine ⟨by norm_num, by norm_num, by norm_num, by norm_num, 0, 0, ?_, by norm_num, by norm_num⟩
      norm_num [GeneratorCoordinates]
    · simp at hp hr ht; subst hp hr ht
      refine ⟨by norm_num, by norm_num, by norm_num, by norm_num, 1 / 2, 0, ?_, by norm_num, by norm_num⟩
      norm_num [GeneratorCoordinates]

end Verif.Props
