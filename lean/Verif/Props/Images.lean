import Verif.Model.Images
import Verif.Props.Sums
import Verif.Props.Crop
import Verif.Props.ZernPol

/-!
# C27, C28: generated phase images
-/

namespace Verif.Props
open Verif.Model Verif.Spec Verif.Proofs

/-- The value a pixel of a generated image must have. The centre is pixel `(height // 2, width // 2)`, the radius of the unit circle is
`1 + min(width, height) // 2` pixels; `(r, θ)` are the polar coordinates of the pixel in the unit circle; outside of it the value is 0. -/
def PixelValue (height width i j : Nat) (f : ℝ → ℝ → ℝ) (v : ℝ) : Prop :=
  let x : ℝ := (j : ℝ) - ((width / 2 : Nat) : ℝ)
  let y : ℝ := ((height / 2 : Nat) : ℝ) - (i : ℝ)
  let R : ℝ := 1 + ((min width height / 2 : Nat) : ℝ)
  (x ^ 2 + y ^ 2 ≤ R ^ 2 → ∃ r t, 0 ≤ r ∧ r ≤ 1 ∧ 0 ≤ t ∧ t < 2 * Real.pi ∧ R * r * Real.cos t = x ∧ R * r * Real.sin t = y ∧ v = f r t) ∧
  (R ^ 2 < x ^ 2 + y ^ 2 → v = 0)

theorem imgRadius_pos (h w : Nat) : 0 < imgRadius h w := by unfold imgRadius; positivity

theorem imgDist_le_iff (h w i j : Nat) : imgDist h w i j ≤ imgRadius h w ↔
    ((j : ℝ) - ((w / 2 : Nat) : ℝ)) ^ 2 + (((h / 2 : Nat) : ℝ) - (i : ℝ)) ^ 2 ≤ (1 + ((min w h / 2 : Nat) : ℝ)) ^ 2 := by
  unfold imgDist
  rw [Real.sqrt_le_left (imgRadius_pos h w).le]
  unfold imgRadius
  push_cast
  constructor <;> intro hh <;> linarith [hh, show (((w / 2 : Nat) : ℝ) - j) ^ 2 = ((j : ℝ) - ((w / 2 : Nat) : ℝ)) ^ 2 by ring]

theorem imgR_mem (h w i j : Nat) : 0 ≤ imgR h w i j ∧ imgR h w i j ≤ 1 := by
  have hp := imgRadius_pos h w
  unfold imgR
  split_ifs with hd
  · exact ⟨div_nonneg (Real.sqrt_nonneg _) hp.le, (div_le_one hp).2 hd⟩
  · exact ⟨le_rfl, zero_le_one⟩

theorem imgTheta_mem (h w i j : Nat) : 0 ≤ imgTheta h w i j ∧ imgTheta h w i j < 2 * Real.pi := by
  have hp := Real.pi_pos
  obtain ⟨h1, h2⟩ := arctan2_mem (((h / 2 : Nat) : ℝ) - i) ((j : ℝ) - ((w / 2 : Nat) : ℝ))
  unfold imgTheta
  dsimp only
  split_ifs <;> constructor <;> linarith

theorem img_polar (h w i j : Nat) (hd : imgDist h w i j ≤ imgRadius h w) :
    imgRadius h w * imgR h w i j * Real.cos (imgTheta h w i j) = (j : ℝ) - ((w / 2 : Nat) : ℝ) ∧
    imgRadius h w * imgR h w i j * Real.sin (imgTheta h w i j) = ((h / 2 : Nat) : ℝ) - (i : ℝ) := by
  have hp := imgRadius_pos h w
  set x : ℝ := (j : ℝ) - ((w / 2 : Nat) : ℝ)
  set y : ℝ := ((h / 2 : Nat) : ℝ) - (i : ℝ)
  have e1 : imgRadius h w * imgR h w i j = imgDist h w i j := by
    unfold imgR; rw [if_pos hd]; field_simp
  have e2 : Real.cos (imgTheta h w i j) = Real.cos (arctan2 y x) ∧ Real.sin (imgTheta h w i j) = Real.sin (arctan2 y x) := by
    unfold imgTheta; rw [if_pos hd]; dsimp only; split_ifs
    · simp
      exact ⟨rfl, rfl⟩
    · exact ⟨rfl, rfl⟩
  have e3 : imgDist h w i j = ‖(⟨x, y⟩ : ℂ)‖ := by
    rw [Complex.norm_eq_sqrt_sq_add_sq]
    unfold imgDist; congr 1; simp only [x, y]; ring
  rw [e1, e2.1, e2.2, e3]
  exact ⟨Complex.norm_mul_cos_arg ⟨x, y⟩, Complex.norm_mul_sin_arg ⟨x, y⟩⟩

theorem sum_points_ret (fuel : Nat) (cs : List ℝ) (os : List PolObj) (hl : cs.length = os.length) (h0 : os ≠ [])
    (hv : PolsOk fuel os) (r t : Arg) (x y : Num) (w : List Warn) (hx : checkRadii r = .ok x) (hy : checkAngles t = .ok (y, w))
    (hs : shapesDiffer x y = false) :
    Ret (sumZernikes fuel cs (os.map .pol) r t false) (.points (Num.pt (combination cs (ordersOf os)) x y)) := by
  have hlen : cs.length ≠ 0 := by rw [hl]; simpa using h0
  unfold sumZernikes
  rw [if_neg (by simp [hl]), if_neg hlen, if_neg (by simp), zip_pol, ← termSum_eq]
  exact Ret.bind (sumPoints_ok fuel r t x y w hx hy hs _ (zip_ne_nil hl h0) (pols_zip hv cs)) (ret_pure _)

theorem imageRow_ok (fuel : Nat) (cs : List ℝ) (os : List PolObj) (hl : cs.length = os.length) (h0 : os ≠ [])
    (hv : PolsOk fuel os) (h w : Nat) (hw : 0 < w) (i : Nat) :
    RetP (imageRow fuel cs (os.map .pol) h w i) fun row => ∀ j, j < w →
      PixelValue h w i j (combination cs (ordersOf os)) (row j) := by
  set r := (List.range w).map (imgR h w i) with hr
  set t := (List.range w).map (imgTheta h w i) with ht
  have hr0 : r ≠ [] := by simp [hr, hw.ne']
  have ht0 : t ≠ [] := by simp [ht, hw.ne']
  have hrm : ∀ x ∈ r, 0 ≤ x ∧ x ≤ 1 := by
    intro x hx; obtain ⟨j, _, rfl⟩ := List.mem_map.1 hx; exact imgR_mem h w i j
  obtain ⟨wn, hwn, _⟩ := checkAnglesArray_ok [w] t ht0
  refine Ret.bindP (sum_points_ret fuel cs os hl h0 hv (.arr [w] r) (.arr [w] t) _ _ wn (checkRadii_arr [w] r hr0 hrm).1 hwn
    (by simp [shapesDiffer])) ?_
  refine retP_pure _ fun j hj => ?_
  dsimp only
  refine ⟨fun hd => ?_, fun hd => ?_⟩
  · have hd' := (imgDist_le_iff h w i j).2 hd
    obtain ⟨hc, hs⟩ := img_polar h w i j hd'
    obtain ⟨a, b⟩ := imgR_mem h w i j
    obtain ⟨c, d⟩ := imgTheta_mem h w i j
    refine ⟨imgR h w i j, imgTheta h w i j, a, b, c, d, ?_, ?_, ?_⟩
    · rw [← hc]; unfold imgRadius; push_cast; rfl
    · rw [← hs]; unfold imgRadius; push_cast; rfl
    · rw [if_neg (not_lt.2 hd')]
      simp [Num.pt, Num.item, hr, ht, hj, List.getElem?_zipWith]
  · rw [if_pos]
    rw [gt_iff_lt, ← not_le, imgDist_le_iff]
    exact not_le.2 hd

theorem imageRows_ok (fuel : Nat) (cs : List ℝ) (os : List PolObj) (hl : cs.length = os.length) (h0 : os ≠ [])
    (hv : PolsOk fuel os) (h w : Nat) (hw : 0 < w) (k i : Nat) (S : Grid)
    (hS : ∀ a, a < i → ∀ j, j < w → PixelValue h w a j (combination cs (ordersOf os)) (S.entry a j)) :
    RetP (imageRows fuel cs (os.map .pol) h w k i S) fun g => g.rows = S.rows ∧ g.cols = S.cols ∧
      ∀ a, a < i + k → ∀ j, j < w → PixelValue h w a j (combination cs (ordersOf os)) (g.entry a j) := by
  induction k generalizing i S with
  | zero => exact retP_pure _ ⟨rfl, rfl, by simpa using hS⟩
  | succ k ih =>
    refine RetP.bind (imageRow_ok fuel cs os hl h0 hv h w hw i) fun row hrow => ?_
    have := ih (i + 1) { S with entry := fun a b => if a = i then row b else S.entry a b } (by
      intro a ha j hj
      dsimp only
      split_ifs with he
      · subst he; exact hrow j hj
      · exact hS a (by omega) j hj)
    rw [show i + (k + 1) = i + 1 + k by omega]
    exact this

/-- C27. `generate_phases_image` returns an image of the requested size, each pixel being the sum of the polynomials at its polar coordinates
in the unit circle, zero outside. -/
theorem phases_image_correct (h : List Call) (fuel : Nat) (cs : List ℝ) (os : List PolObj) (hl : cs.length = os.length) (h0 : os ≠ [])
    (hv : PolsOk fuel os) (width height : Nat) (hw : 0 < width) :
    ∃ g, (generatePhasesImage fuel (os.map .pol) cs width height (afterCalls h)).1 = .ok g ∧ g.rows = height ∧ g.cols = width ∧
      ∀ i j, i < height → j < width → PixelValue height width i j (combination cs (ordersOf os)) (g.entry i j) := by
  obtain ⟨⟨g, h1, h2, h3, h4⟩, _⟩ := imageRows_ok fuel cs os hl h0 hv height width hw height 0 (Grid.zeros height width)
    (fun a ha => absurd ha (Nat.not_lt_zero a)) _ (afterCalls_good h)
  exact ⟨g, h1, h2, h3, fun i j hi hj => h4 i (by omega) j hj⟩

/-- The centre pixel of a 5 by 7 image lies on the disk at radius 0, its corner outside: both cases of `PixelValue` occur. -/
example (f : ℝ → ℝ → ℝ) (v w : ℝ) (h1 : PixelValue 5 7 2 3 f v) (h2 : PixelValue 5 7 0 0 f w) : (∃ t, v = f 0 t) ∧ w = 0 := by
  constructor
  · obtain ⟨r, t, _, _, _, _, hc, hs, hv⟩ := h1.1 (by norm_num)
    norm_num at hc hs
    refine ⟨t, ?_⟩
    have : r = 0 := by
      rcases hc with h | h
      · exact h
      · rcases hs with h' | h'
        · exact h'
        · have := Real.sin_sq_add_cos_sq t; rw [h, h'] at this; norm_num at this
    rw [hv, this]
  · exact h2.2 (by norm_num)

/-- The defaults `polynomials=()`, `polynomials_amplitudes=()` do not give an image but a `ValueError`. -/
theorem phases_image_default_raises (fuel : Nat) (width height : Nat) (hh : 0 < height) (s : CoefState) :
    (generatePhasesImage fuel [] [] width height s).1 = .error .valueError := by
  obtain ⟨k, rfl⟩ : ∃ k, height = k + 1 := ⟨height - 1, by omega⟩
  rfl

/-! ## C28 -/

/-- Possible outcomes of the random generator: `random.uniform(a, b)` is in `[a, b]`, `random.choice` takes an element. -/
structure Draws.Possible (d : Draws) (len : Nat) : Prop where
  ampl : ∀ i, -1.5 ≤ d.ampl i ∧ d.ampl i ≤ 1.5
  index : d.index < len
  again : -1.5 ≤ d.again ∧ d.again ≤ 1.5
  shifted : 0.25 ≤ d.shifted ∧ d.shifted ≤ 1.5

theorem round_le_dec (d : Nat) (hd : 1 ≤ d) (x : ℝ) (h0 : -1.5 ≤ x) (h1 : x ≤ 1.5) : -1.5 ≤ npRound d x ∧ npRound d x ≤ 1.5 := by
  have e : ((15 * 10 ^ (d - 1) : ℤ) : ℝ) / 10 ^ (d : ℤ) = 1.5 := by
    obtain ⟨k, rfl⟩ : ∃ k, d = k + 1 := ⟨d - 1, by omega⟩
    push_cast
    have : (10 : ℝ) ^ ((k : ℤ) + 1) = 10 ^ k * 10 := by
      rw [zpow_add₀ (by norm_num)]; norm_cast
    rw [this]; field_simp; norm_num
  have e' : ((-(15 * 10 ^ (d - 1)) : ℤ) : ℝ) / 10 ^ (d : ℤ) = -1.5 := by
    rw [← e]; push_cast; ring
  constructor
  · have := npRound_mono d (show ((-(15 * 10 ^ (d - 1)) : ℤ) : ℝ) / 10 ^ (d : ℤ) ≤ x by rw [e']; exact h0)
    rw [npRound_dec, e'] at this; exact this
  · have := npRound_mono d (show x ≤ ((15 * 10 ^ (d - 1) : ℤ) : ℝ) / 10 ^ (d : ℤ) by rw [e]; exact h1)
    rw [npRound_dec, e] at this; exact this

/-- C28, the amplitudes: whatever the random generator returned, there is one per polynomial, some amplitude is at least 0.08 in modulus; and
with at least one decimal all of them are in `[-1.5, 1.5]`. -/
theorem random_amplitudes (d : Draws) (len : Nat) (hlen : 0 < len) (digits : Int) (hd : Draws.Possible d len) :
    ∃ a, randomAmplitudes d len digits = .ok a ∧ a.length = len ∧ (∃ x ∈ a, 0.08 ≤ |x|) ∧
      (1 ≤ digits → ∀ x ∈ a, |x| ≤ 1.5) := by
  unfold randomAmplitudes
  set a := (List.range len).map fun i => npRound digits (if d.choose i then d.ampl i else 0) with ha
  have hane : a.map (fun x => |x|) ≠ [] := by simp [ha, hlen.ne']
  obtain ⟨top, h1, h2, h3⟩ := npMax_spec _ hane
  have hal : a.length = len := by simp [ha]
  have hbound : 1 ≤ digits → ∀ x ∈ a, |x| ≤ 1.5 := by
    intro hdig x hx
    obtain ⟨i, _, rfl⟩ := List.mem_map.1 hx
    obtain ⟨k, rfl⟩ : ∃ k : Nat, digits = k := ⟨digits.toNat, by omega⟩
    have := hd.ampl i
    obtain ⟨b1, b2⟩ := round_le_dec k (by omega) (if d.choose i then d.ampl i else 0)
      (by split_ifs; exact this.1; norm_num) (by split_ifs; exact this.2; norm_num)
    exact abs_le.2 ⟨b1, b2⟩
  dsimp only
  rw [h1]
  dsimp only
  by_cases hs : top < 0.08
  · rw [if_pos hs]
    set z := if |d.again| < 0.08 then d.shifted else d.again with hz
    have hzb : 0.08 ≤ |z| ∧ |z| ≤ 1.5 := by
      rw [hz]
      split_ifs with hc
      · have := hd.shifted
        rw [abs_of_nonneg (by norm_num at *; linarith)]
        constructor <;> norm_num at * <;> linarith
      · exact ⟨not_lt.1 hc, abs_le.2 ⟨hd.again.1, hd.again.2⟩⟩
    refine ⟨_, rfl, by simp [hal], ⟨z, ?_, hzb.1⟩, fun hdig x hx => ?_⟩
    · exact List.mem_set (by rw [hal]; exact hd.index) _
    · rcases List.mem_or_eq_of_mem_set hx with hx | rfl
      · exact hbound hdig x hx
      · exact hzb.2
  · rw [if_neg hs]
    obtain ⟨x, hx, rfl⟩ := List.mem_map.1 h2
    exact ⟨_, rfl, hal, ⟨x, hx, not_lt.1 hs⟩, hbound⟩

example : Draws.Possible ⟨fun _ => false, fun _ => 0, 2, 0, 1⟩ 6 := by
  constructor <;> norm_num

/-- The bound 1.5 fails when rounding to integers: an amplitude 1.5 becomes 2. -/
theorem random_amplitudes_round_zero : ∃ d, Draws.Possible d 1 ∧ randomAmplitudes d 1 0 = .ok [2] := by
  refine ⟨⟨fun _ => true, fun _ => 1.5, 0, 0, 1⟩, by constructor <;> norm_num, ?_⟩
  have h : npRound 0 1.5 = 2 := by
    unfold npRound rint
    have : ⌊(1.5 : ℝ) * 10 ^ (0 : ℤ)⌋ = 1 := by rw [Int.floor_eq_iff]; norm_num
    rw [this]; norm_num
  unfold randomAmplitudes
  simp only [List.range_one, List.map_cons, List.map_nil, if_true, h, npMax, List.foldl_nil]
  rw [if_neg (by norm_num)]

/-- C28. `generate_random_phases` for every order up to 54, all sizes, any outcome of the random generator. -/
theorem random_phases (h : List Call) (fuel : Nat) (hf : 56 ≤ fuel) (d : Draws) (k : Int) (hk0 : 0 ≤ k) (hk1 : k ≤ 54) (width height : Nat)
    (hw : 0 < width) (digits : Int) (pols : List ZernPol) (hp : generatePolynomials k = .ok pols) (hd : Draws.Possible d pols.length) :
    ∃ g a, (generateRandomPhases fuel d k width height digits (afterCalls h)).1 = .ok (g, a, pols) ∧
      a.length = pols.length ∧ (∃ x ∈ a, 0.08 ≤ |x|) ∧ (1 ≤ digits → ∀ x ∈ a, |x| ≤ 1.5) ∧
      g.rows = height ∧ g.cols = width ∧ ∀ i j, i < height → j < width →
        PixelValue height width i j (combination a (pols.map fun z => (z.m, z.n))) (g.entry i j) := by
  obtain ⟨l, hl, h2, h3, _⟩ := generate_polynomials_enumerates k hk0 hk1
  rw [hp] at hl
  cases hl
  have hlen : 0 < pols.length := by
    have : 2 ≤ (k + 1) * (k + 2) := by nlinarith
    omega
  obtain ⟨a, ha1, ha2, ha3, ha4⟩ := random_amplitudes d pols.length hlen digits hd
  set os := pols.map ZernPol.obj with hos
  have hosne : os ≠ [] := by rw [hos]; intro h; rw [List.map_eq_nil_iff] at h; rw [h] at hlen; simp at hlen
  have hv : PolsOk fuel os := by
    intro o ho
    obtain ⟨z, hz, rfl⟩ := List.mem_map.1 ho
    obtain ⟨i, hi, rfl⟩ := List.getElem_of_mem hz
    obtain ⟨_, hv, hn, _⟩ := h3 i hi
    refine ⟨hv, ?_⟩
    show (pols[i].n).toNat + 1 < fuel
    have := hv.1
    omega
  have hord : ordersOf os = pols.map fun z => (z.m, z.n) := by
    simp [ordersOf, hos, ZernPol.obj, Function.comp_def]
  obtain ⟨⟨g, h1, h2, h3, h4⟩, _⟩ := imageRows_ok fuel a os (by simp [ha2, hos]) hosne hv height width hw height 0
    (Grid.zeros height width) (fun a ha => absurd ha (Nat.not_lt_zero a)) _ (afterCalls_good h)
  refine ⟨g, a, ?_, ha2, ha3, ha4, h2, h3, fun i j hi hj => ?_⟩
  · unfold generateRandomPhases
    rw [hp]
    simp only [cm_bind, CM.lift, ha1]
    have e : (pols.map fun z => PolItem.pol z.obj) = os.map .pol := by simp [hos, Function.comp_def]
    rw [e]
    rcases hc : imageRows fuel a (os.map .pol) height width height 0 (Grid.zeros height width) (afterCalls h) with ⟨x, s⟩
    rw [hc] at h1
    simp only at h1
    subst h1
    rfl
  · rw [← hord]; exact h4 i (by omega) j hj

end Verif.Props
