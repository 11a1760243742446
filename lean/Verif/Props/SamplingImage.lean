import Verif.Props.Sampling
import Verif.Props.RoundTrip

/-!
# C88, second part: the pixels of an image
-/

namespace Verif.Props
open Verif.Model Verif.Spec Verif.Proofs

theorem inscribed_le (rows cols : Nat) (h : 3 ≤ min rows cols) :
    0 < inscribedRadius rows cols ∧ ((min rows cols : Nat) : ℝ) - 1 ≤ 2 * inscribedRadius rows cols ∧
      2 * inscribedRadius rows cols ≤ ((min rows cols : Nat) : ℝ) ∧ 2 * inscribedRadius rows cols ≤ ((max rows cols : Nat) : ℝ) - 1 := by
  have key : ∃ k : ℕ, inscribedRadius rows cols = ((k : ℝ) - 1) / 2 ∧ min rows cols ≤ k ∧ k ≤ min rows cols + 1 ∧ k ≤ max rows cols := by
    refine ⟨_, rfl, ?_, ?_, ?_⟩ <;> split_ifs <;> omega
  obtain ⟨k, e, a, b, c⟩ := key
  rw [e]
  have a' : ((min rows cols : ℕ) : ℝ) ≤ k := by exact_mod_cast a
  have b' : (k : ℝ) ≤ ((min rows cols : ℕ) : ℝ) + 1 := by exact_mod_cast b
  have c' : (k : ℝ) ≤ ((max rows cols : ℕ) : ℝ) := by exact_mod_cast c
  have h' : (3 : ℝ) ≤ ((min rows cols : ℕ) : ℝ) := by exact_mod_cast h
  refine ⟨by linarith, by linarith, by linarith, by linarith⟩

open Classical in
/-- A pixel with given (doubled) coordinates inside of the circle is selected. -/
theorem selected_pixel (img : Grid) (crop : ℝ) (strict : Bool) (out : Cropped) (hs : CropSpec img crop strict out)
    (hsize : 3 ≤ min img.rows img.cols) (hlo : 0 ≤ crop) (hhi : crop ≤ 1) (X Y : ℤ) (hX : 2 ∣ (img.cols : ℤ) - 1 + X)
    (hY : 2 ∣ (img.rows : ℤ) - 1 - Y) (hd : ((X : ℝ)) ^ 2 + (Y : ℝ) ^ 2 ≤ (crop * (((min img.rows img.cols : Nat) : ℝ) - 1)) ^ 2) :
    ∃ p ∈ selected out.mask, pixelX img.cols p = X / 2 ∧ pixelY img.rows p = Y / 2 := by
  obtain ⟨R0, R1, _, _⟩ := inscribed_le img.rows img.cols hsize
  set m : ℕ := min img.rows img.cols with hm
  have hm3 : (3 : ℝ) ≤ (m : ℝ) := by exact_mod_cast hsize
  have hB : 0 ≤ crop * ((m : ℝ) - 1) := by apply mul_nonneg hlo; linarith
  have hB1 : crop * ((m : ℝ) - 1) ≤ (m : ℝ) - 1 := by nlinarith
  have hXa : |(X : ℝ)| ≤ crop * ((m : ℝ) - 1) := abs_le_of_sq_le_sq (by nlinarith [sq_nonneg (Y : ℝ)]) hB
  have hYa : |(Y : ℝ)| ≤ crop * ((m : ℝ) - 1) := abs_le_of_sq_le_sq (by nlinarith [sq_nonneg (X : ℝ)]) hB
  have hXi : |X| ≤ (m : ℤ) - 1 := by
    have : ((|X| : ℤ) : ℝ) ≤ (((m : ℤ) - 1 : ℤ) : ℝ) := by push_cast; linarith
    exact_mod_cast this
  have hYi : |Y| ≤ (m : ℤ) - 1 := by
    have : ((|Y| : ℤ) : ℝ) ≤ (((m : ℤ) - 1 : ℤ) : ℝ) := by push_cast; linarith
    exact_mod_cast this
  obtain ⟨x1, x2⟩ := abs_le.1 hXi
  obtain ⟨y1, y2⟩ := abs_le.1 hYi
  have hmr : m ≤ img.rows := Nat.min_le_left _ _
  have hmc : m ≤ img.cols := Nat.min_le_right _ _
  obtain ⟨a, ha⟩ := hX
  obtain ⟨b, hb⟩ := hY
  obtain ⟨a', ha'⟩ : ∃ a' : ℕ, (a' : ℤ) = a := ⟨a.toNat, Int.toNat_of_nonneg (by omega)⟩
  obtain ⟨b', hb'⟩ : ∃ b' : ℕ, (b' : ℤ) = b := ⟨b.toNat, Int.toNat_of_nonneg (by omega)⟩
  have hpx : pixelX img.cols (b', a') = X / 2 := by
    unfold pixelX
    have : ((img.cols : ℤ) - 1 + X : ℤ) = 2 * (a' : ℤ) := by omega
    have : ((img.cols : ℝ) - 1 + X) = 2 * (a' : ℝ) := by exact_mod_cast this
    simp only
    linarith
  have hpy : pixelY img.rows (b', a') = Y / 2 := by
    unfold pixelY
    have : ((img.rows : ℤ) - 1 - Y : ℤ) = 2 * (b' : ℤ) := by omega
    have : ((img.rows : ℝ) - 1 - Y) = 2 * (b' : ℝ) := by exact_mod_cast this
    simp only
    linarith
  have hall : (b', a') ∈ allPixels img.rows img.cols := by
    unfold allPixels
    rw [List.mem_flatMap]
    refine ⟨b', List.mem_range.2 (by omega), List.mem_map.2 ⟨a', List.mem_range.2 (by omega), rfl⟩⟩
  have hdist : pixelDist img.rows img.cols (b', a') ≤ crop * inscribedRadius img.rows img.cols := by
    unfold pixelDist
    rw [hpx, hpy]
    apply Real.sqrt_le_iff.2
    constructor
    · positivity
    · have h1 : crop * ((m : ℝ) - 1) ≤ 2 * (crop * inscribedRadius img.rows img.cols) := by nlinarith
      have h2 := pow_le_pow_left₀ hB h1 2
      nlinarith
  have hmask : out.mask.entry b' a' = 1 := by
    apply hs.takes (b', a') hall
    refine hdist.trans ?_
    have hf : (0 : ℝ) ≤ if LooseBorder img.rows img.cols strict then 0.0548 else 0.0008 := by split_ifs <;> norm_num
    nlinarith
  refine ⟨(b', a'), ?_, hpx, hpy⟩
  unfold selected
  rw [List.mem_filter]
  refine ⟨by rw [hs.shape.1, hs.shape.2]; exact hall, by simpa using hmask⟩

/-- The scale of the pattern of points. -/
theorem odd_scale (N rows cols : ℕ) (crop : ℝ) (hsize : 3 ≤ min rows cols) (hlo : 0.5 ≤ crop) (hhi : crop ≤ 1)
    (hbig : (((N + 1) * (N + 3) : ℕ) : ℝ) ≤ crop * (((min rows cols : Nat) : ℝ) - 1)) (hN : N ≤ 36 ∨ max rows cols ≤ 9000) :
    ∃ g : ℤ, g % 2 = 1 ∧ 0 < g ∧ (g : ℝ) * (((N + 1) * (N + 3) : ℕ) : ℝ) ≤ crop * (((min rows cols : Nat) : ℝ) - 1) ∧
      inscribedRadius rows cols * 0.000211 < g := by
  obtain ⟨R0, R1, R2, R3⟩ := inscribed_le rows cols hsize
  rcases le_or_gt (min rows cols) 9000 with h1 | h1
  · refine ⟨1, rfl, one_pos, by push_cast at *; linarith, ?_⟩
    have h9 : ((min rows cols : ℕ) : ℝ) ≤ 9000 := by exact_mod_cast h1
    generalize ((min rows cols : ℕ) : ℝ) = M at *
    generalize inscribedRadius rows cols = R at *
    clear hN h1 hbig
    norm_num
    linarith
  · have hN' : N ≤ 36 := by
      rcases hN with h | h
      · exact h
      · have := min_le_max (a := rows) (b := cols); omega
    have hA : (((N + 1) * (N + 3) : ℕ) : ℝ) ≤ 1443 := by
      have : (N + 1) * (N + 3) ≤ 37 * 39 := Nat.mul_le_mul (by omega) (by omega)
      exact_mod_cast this
    have h1' : (9001 : ℝ) ≤ ((min rows cols : ℕ) : ℝ) := by exact_mod_cast h1
    have hc : (((min rows cols : ℕ) : ℝ) - 1) / 2 ≤ crop * (((min rows cols : Nat) : ℝ) - 1) := by norm_num at hlo; nlinarith
    generalize (((N + 1) * (N + 3) : ℕ) : ℝ) = A at *
    generalize ((min rows cols : ℕ) : ℝ) = M at *
    generalize inscribedRadius rows cols = R at *
    rcases le_or_gt M 27000 with h2 | h2
    · refine ⟨3, rfl, by norm_num, ?_, ?_⟩
      · push_cast; linarith
      · push_cast; norm_num; linarith
    · have f1 := Int.floor_le (M * 0.00005275)
      have f2 := Int.lt_floor_add_one (M * 0.00005275)
      generalize ⌊M * 0.00005275⌋ = q at *
      have hq : (-1 : ℝ) < q := by
        have : 0 ≤ M * 0.00005275 := by apply mul_nonneg <;> [linarith; norm_num]
        linarith
      have hq' : -1 < q := by exact_mod_cast hq
      refine ⟨2 * q + 3, by omega, by omega, ?_, ?_⟩
      · push_cast
        have : (2 * (q : ℝ) + 3) * A ≤ (2 * (q : ℝ) + 3) * 1443 := by
          apply mul_le_mul_of_nonneg_left hA; linarith
        norm_num at *
        linarith
      · push_cast
        norm_num at *
        linarith

/-- The doubled direction of the line number `c` in an image of the given parities. -/
def lineDirection (rows cols : ℕ) (c : ℤ) : ℤ × ℤ :=
  if rows % 2 = 0 then (if cols % 2 = 0 then (1, 2 * c + 1) else (1, 2 * c)) else (if cols % 2 = 0 then (2 * c, 1) else (2, 2 * c))

theorem lineDirection_parity (rows cols : ℕ) (c r : ℤ) (hr : r % 2 = 1) :
    2 ∣ (cols : ℤ) - 1 + r * (lineDirection rows cols c).2 ∧ 2 ∣ (rows : ℤ) - 1 - r * (lineDirection rows cols c).1 := by
  obtain ⟨k, rfl⟩ : ∃ k, r = 2 * k + 1 := ⟨r / 2, by omega⟩
  unfold lineDirection
  split_ifs with h1 h2 h2
  · refine ⟨?_, ?_⟩
    · rw [show (cols : ℤ) - 1 + (2 * k + 1) * (1, 2 * c + 1).2 = (cols : ℤ) + 2 * (2 * k * c + k + c) by simp only; ring]; omega
    · rw [show (rows : ℤ) - 1 - (2 * k + 1) * (1, 2 * c + 1).1 = (rows : ℤ) - 2 - 2 * k by simp only; ring]; omega
  · refine ⟨?_, ?_⟩
    · rw [show (cols : ℤ) - 1 + (2 * k + 1) * (1, 2 * c).2 = (cols : ℤ) - 1 + 2 * (2 * k * c + c) by simp only; ring]; omega
    · rw [show (rows : ℤ) - 1 - (2 * k + 1) * (1, 2 * c).1 = (rows : ℤ) - 2 - 2 * k by simp only; ring]; omega
  · refine ⟨?_, ?_⟩
    · rw [show (cols : ℤ) - 1 + (2 * k + 1) * (2 * c, 1).2 = (cols : ℤ) + 2 * k by simp only; ring]; omega
    · rw [show (rows : ℤ) - 1 - (2 * k + 1) * (2 * c, 1).1 = (rows : ℤ) - 1 - 2 * (2 * k * c + c) by simp only; ring]; omega
  · refine ⟨?_, ?_⟩
    · rw [show (cols : ℤ) - 1 + (2 * k + 1) * (2, 2 * c).2 = (cols : ℤ) - 1 + 2 * (2 * k * c + c) by simp only; ring]; omega
    · rw [show (rows : ℤ) - 1 - (2 * k + 1) * (2, 2 * c).1 = (rows : ℤ) - 1 - 2 * (2 * k + 1) by simp only; ring]; omega

theorem lineDirection_different (rows cols : ℕ) (c c' : ℤ) (h : c ≠ c') :
    (lineDirection rows cols c).1 * (lineDirection rows cols c').2 - (lineDirection rows cols c).2 * (lineDirection rows cols c').1 ≠ 0 := by
  unfold lineDirection
  split_ifs <;> simp only <;> intro e <;> apply h <;> linarith

theorem lineDirection_size (rows cols : ℕ) (c : ℤ) (N : ℕ) (h1 : -((N : ℤ)) ≤ 2 * c) (h2 : 2 * c ≤ N + 1) :
    1 ≤ (lineDirection rows cols c).1 ^ 2 + (lineDirection rows cols c).2 ^ 2 ∧
      (lineDirection rows cols c).1 ^ 2 + (lineDirection rows cols c).2 ^ 2 ≤ ((N : ℤ) + 3) ^ 2 := by
  unfold lineDirection
  split_ifs <;> simp only <;> constructor <;> nlinarith

theorem mem_zip_radii {out : Cropped} {k : ℕ} {x t : ℝ} (h1 : out.radii[k]? = some x) (h2 : out.thetas[k]? = some t) :
    (x, t) ∈ out.radii.zip out.thetas := by
  rw [List.mem_iff_getElem?]
  exact ⟨k, by rw [List.getElem?_zip_eq_some]; exact ⟨h1, h2⟩⟩

/-- C88. Polynomials of orders up to `N` are linearly independent on the pixels that `fit_polynomials` takes from an image, if the image is
large enough: `(N + 1)(N + 3)` pixels in diameter (and, for `N > 36`, at most 9000, because the radii are rounded to 4 decimals). -/
theorem image_independent (os : List PolObj) (fuel : Nat) (hv : PolsOk fuel os) (hd : (ordersOf os).Nodup) (N : ℕ) (hN : ∀ o ∈ os, o.n ≤ N)
    (img : Grid) (crop : ℝ) (strict : Bool) (hsize : 3 ≤ min img.rows img.cols) (hlo : 0.5 ≤ crop) (hhi : crop ≤ 1)
    (hbig : (((N + 1) * (N + 3) : ℕ) : ℝ) ≤ crop * (((min img.rows img.cols : Nat) : ℝ) - 1))
    (hmax : N ≤ 36 ∨ max img.rows img.cols ≤ 9000) (out : Cropped) (ho : cropPhasesImg (.img img) crop strict = .ok out) :
    IndependentOn (ordersOf os) (out.radii.zip out.thetas) := by
  obtain ⟨b1, b2⟩ := crop_range crop hlo hhi
  obtain ⟨out', ho', hs⟩ := crop_correct img crop strict hsize b1 b2
  rw [ho] at ho'
  cases ho'
  have hlo' : (0.5 : ℝ) ≤ crop := hlo
  have hlo0 : 0 ≤ crop := le_trans (by norm_num) hlo
  obtain ⟨g, g1, g2, g3, g4⟩ := odd_scale N img.rows img.cols crop hsize hlo hhi hbig hmax
  obtain ⟨R0, _, _, _⟩ := inscribed_le img.rows img.cols hsize
  obtain ⟨κ, k1, k2, k3⟩ := hs.radii
  have k2' : κ ≤ 1.055 := k2.trans (by split_ifs <;> norm_num)
  have hgR : (0 : ℝ) < g := by exact_mod_cast g2
  have hRκ : 0 < inscribedRadius img.rows img.cols * κ := by positivity
  have hsep : 0.0002 * (inscribedRadius img.rows img.cols * κ) < g := by
    have h2 : inscribedRadius img.rows img.cols * κ ≤ inscribedRadius img.rows img.cols * 1.055 := by gcongr
    norm_num at *
    linarith
  -- directions and multipliers
  let d : Fin (N + 1) → ℤ × ℤ := fun i => lineDirection img.rows img.cols ((i : ℤ) - (N / 2 : ℕ))
  let ρ : Fin (N + 1) → ℤ := fun j => g * (2 * (j : ℤ) - (2 * ((N / 2 : ℕ) : ℤ) + 1))
  have hdn : ∀ i, 1 ≤ (d i).1 ^ 2 + (d i).2 ^ 2 ∧ (d i).1 ^ 2 + (d i).2 ^ 2 ≤ ((N : ℤ) + 3) ^ 2 := by
    intro i
    have := i.2
    exact lineDirection_size _ _ _ N (by omega) (by omega)
  have hρodd : ∀ j, ρ j % 2 = 1 := by
    intro j
    simp only [ρ]
    obtain ⟨q, rfl⟩ : ∃ q, g = 2 * q + 1 := ⟨g / 2, by omega⟩
    rw [show (2 * q + 1) * (2 * ((j : ℕ) : ℤ) - (2 * ((N / 2 : ℕ) : ℤ) + 1)) =
      2 * ((2 * q + 1) * (((j : ℕ) : ℤ) - ((N / 2 : ℕ) : ℤ)) - q) - 1 by ring]
    omega
  have hρle : ∀ j, ((ρ j : ℤ) : ℝ) ^ 2 ≤ ((g : ℝ) * ((N : ℝ) + 1)) ^ 2 := by
    intro j
    have hj := j.2
    have h1 : |2 * ((j : ℕ) : ℤ) - (2 * ((N / 2 : ℕ) : ℤ) + 1)| ≤ (N : ℤ) + 1 := by rw [abs_le]; omega
    have h2 : (2 * ((j : ℕ) : ℤ) - (2 * ((N / 2 : ℕ) : ℤ) + 1)) ^ 2 ≤ ((N : ℤ) + 1) ^ 2 := by
      rw [← sq_abs]; exact pow_le_pow_left₀ (abs_nonneg _) h1 2
    have h3 : (((2 * ((j : ℕ) : ℤ) - (2 * ((N / 2 : ℕ) : ℤ) + 1)) ^ 2 : ℤ) : ℝ) ≤ ((((N : ℤ) + 1) ^ 2 : ℤ) : ℝ) := by exact_mod_cast h2
    have e : ((ρ j : ℤ) : ℝ) ^ 2 = (g : ℝ) ^ 2 * (((2 * ((j : ℕ) : ℤ) - (2 * ((N / 2 : ℕ) : ℤ) + 1)) ^ 2 : ℤ) : ℝ) := by
      simp only [ρ]; push_cast; ring
    rw [e, mul_pow]
    push_cast at h3 ⊢
    gcongr
  -- the point number `j` on the line number `i`
  have hpt : ∀ i j, ∃ p ∈ out.radii.zip out.thetas, ∃ y : ℝ,
      p.1 * Real.cos p.2 = y * Real.cos (Complex.arg ⟨(d i).2, (d i).1⟩) ∧ p.1 * Real.sin p.2 = y * Real.sin (Complex.arg ⟨(d i).2, (d i).1⟩) ∧
      |y - (ρ j : ℝ) * (Real.sqrt (((d i).2 : ℝ) ^ 2 + ((d i).1 : ℝ) ^ 2) / (2 * (inscribedRadius img.rows img.cols * κ)))| ≤ 0.0001 := by
    intro i j
    obtain ⟨pX, pY⟩ := lineDirection_parity img.rows img.cols ((i : ℤ) - (N / 2 : ℕ)) (ρ j) (hρodd j)
    have hn2 : (((d i).2 : ℝ)) ^ 2 + ((d i).1 : ℝ) ^ 2 ≤ ((N : ℝ) + 3) ^ 2 := by
      have := (hdn i).2
      have : (((d i).1 ^ 2 + (d i).2 ^ 2 : ℤ) : ℝ) ≤ ((((N : ℤ) + 3) ^ 2 : ℤ) : ℝ) := by exact_mod_cast this
      push_cast at this; linarith
    obtain ⟨p, hp, ex, ey⟩ := selected_pixel img crop strict out hs hsize hlo0 hhi (ρ j * (d i).2) (ρ j * (d i).1) pX pY (by
      push_cast
      calc ((ρ j : ℝ) * (d i).2) ^ 2 + ((ρ j : ℝ) * (d i).1) ^ 2 = (ρ j : ℝ) ^ 2 * (((d i).2 : ℝ) ^ 2 + ((d i).1 : ℝ) ^ 2) := by ring
        _ ≤ ((g : ℝ) * ((N : ℝ) + 1)) ^ 2 * ((N : ℝ) + 3) ^ 2 := mul_le_mul (hρle j) hn2 (by positivity) (by positivity)
        _ = ((g : ℝ) * (((N + 1) * (N + 3) : ℕ) : ℝ)) ^ 2 := by push_cast; ring
        _ ≤ _ := by
          apply pow_le_pow_left₀ (by positivity)
          push_cast at g3 ⊢; exact g3)
    obtain ⟨k, hk, hkp⟩ := List.mem_iff_getElem.1 hp
    have hk1 : (selected out.mask)[k]? = some p := by rw [List.getElem?_eq_getElem hk, hkp]
    have hr : k < out.radii.length := by rw [hs.lengths.1]; exact hk
    have ht : k < out.thetas.length := by rw [hs.lengths.2]; exact hk
    have er : out.radii[k]? = some out.radii[k] := List.getElem?_eq_getElem hr
    have et : out.thetas[k]? = some out.thetas[k] := List.getElem?_eq_getElem ht
    obtain ⟨_, _, c1, c2⟩ := hs.angles k p _ hk1 et
    obtain ⟨q1, _⟩ := k3 k p _ hk1 er
    refine ⟨(out.radii[k], out.thetas[k]), mem_zip_radii er et, ?_⟩
    have hρ0 : ρ j ≠ 0 := by have := hρodd j; omega
    have hρ0' : (ρ j : ℝ) ≠ 0 := by exact_mod_cast hρ0
    set L := Real.sqrt (((d i).2 : ℝ) ^ 2 + ((d i).1 : ℝ) ^ 2) with hL
    have hLpos : 0 < L := by
      apply Real.sqrt_pos.2
      have := (hdn i).1
      have : (1 : ℝ) ≤ (((d i).1 ^ 2 + (d i).2 ^ 2 : ℤ) : ℝ) := by exact_mod_cast this
      push_cast at this; linarith
    have hnorm : ‖(⟨(d i).2, (d i).1⟩ : ℂ)‖ = L := by
      rw [hL, Complex.norm_def, Complex.normSq_mk]; congr 1; ring
    have hcos : L * Real.cos (Complex.arg ⟨(d i).2, (d i).1⟩) = (d i).2 := by
      rw [← hnorm]; exact Complex.norm_mul_cos_arg _
    have hsin : L * Real.sin (Complex.arg ⟨(d i).2, (d i).1⟩) = (d i).1 := by
      rw [← hnorm]; exact Complex.norm_mul_sin_arg _
    have hdist : pixelDist img.rows img.cols p = |(ρ j : ℝ)| * L / 2 := by
      unfold pixelDist
      rw [ex, ey]
      rw [show ((((ρ j * (d i).2 : ℤ)) : ℝ) / 2) ^ 2 + ((((ρ j * (d i).1 : ℤ)) : ℝ) / 2) ^ 2 =
        ((ρ j : ℝ) / 2) ^ 2 * (((d i).2 : ℝ) ^ 2 + ((d i).1 : ℝ) ^ 2) by push_cast; ring, Real.sqrt_mul (sq_nonneg _), Real.sqrt_sq_eq_abs,
        abs_div, abs_of_pos (two_pos : (0 : ℝ) < 2)]
      ring
    rw [hdist, ex] at c1
    rw [hdist, ey] at c2
    push_cast at c1 c2
    rw [hdist] at q1
    have e3 : |(ρ j : ℝ)| * L / 2 / (inscribedRadius img.rows img.cols * κ) =
        |(ρ j : ℝ)| * (L / (2 * (inscribedRadius img.rows img.cols * κ))) := by
      field_simp
    rw [e3] at q1
    rcases lt_or_gt_of_ne hρ0' with hneg | hpos
    · rw [abs_of_neg hneg] at c1 c2 q1
      refine ⟨-out.radii[k], ?_, ?_, ?_⟩
      · have : Real.cos out.thetas[k] = -Real.cos (Complex.arg ⟨(d i).2, (d i).1⟩) := by
          have hne : (-(ρ j : ℝ)) * L ≠ 0 := mul_ne_zero (by simpa using hρ0') hLpos.ne'
          apply mul_left_cancel₀ hne
          linear_combination 2 * c1 - (ρ j : ℝ) * hcos
        simp only [this]; ring
      · have : Real.sin out.thetas[k] = -Real.sin (Complex.arg ⟨(d i).2, (d i).1⟩) := by
          have hne : (-(ρ j : ℝ)) * L ≠ 0 := mul_ne_zero (by simpa using hρ0') hLpos.ne'
          apply mul_left_cancel₀ hne
          linear_combination 2 * c2 - (ρ j : ℝ) * hsin
        simp only [this]; ring
      · rw [show -out.radii[k] - (ρ j : ℝ) * (L / (2 * (inscribedRadius img.rows img.cols * κ))) =
          -(out.radii[k] - -(ρ j : ℝ) * (L / (2 * (inscribedRadius img.rows img.cols * κ)))) by ring, abs_neg]
        exact q1
    · rw [abs_of_pos hpos] at c1 c2 q1
      refine ⟨out.radii[k], ?_, ?_, q1⟩
      · have : Real.cos out.thetas[k] = Real.cos (Complex.arg ⟨(d i).2, (d i).1⟩) := by
          have hne : (ρ j : ℝ) * L ≠ 0 := mul_ne_zero hρ0' hLpos.ne'
          apply mul_left_cancel₀ hne
          linear_combination 2 * c1 - (ρ j : ℝ) * hcos
        simp only [this]
      · have : Real.sin out.thetas[k] = Real.sin (Complex.arg ⟨(d i).2, (d i).1⟩) := by
          have hne : (ρ j : ℝ) * L ≠ 0 := mul_ne_zero hρ0' hLpos.ne'
          apply mul_left_cancel₀ hne
          linear_combination 2 * c2 - (ρ j : ℝ) * hsin
        simp only [this]
  choose pt hpt1 y hy1 hy2 hy3 using hpt
  classical
  refine independent_lines (ordersOf os) hd (orders_valid hv) N ?_ _ ?_ (fun i => Complex.arg ⟨(d i).2, (d i).1⟩) ?_ fun i => ?_
  · intro p hp
    simp only [ordersOf, List.mem_map] at hp
    obtain ⟨o, ho, rfl⟩ := hp
    exact hN o ho
  · intro p hp
    exact (hs.radii_mem p.1 (List.of_mem_zip hp).1).1
  · intro i j hij e
    have hne : ∀ i, (⟨(d i).2, (d i).1⟩ : ℂ) ≠ 0 := by
      intro i e
      have h1 := congrArg Complex.re e
      have h2 := congrArg Complex.im e
      simp at h1 h2
      have := (hdn i).1
      rw [h1, h2] at this
      norm_num at this
    have hi1 := Complex.norm_mul_cos_arg (⟨(d i).2, (d i).1⟩ : ℂ)
    have hi2 := Complex.norm_mul_sin_arg (⟨(d i).2, (d i).1⟩ : ℂ)
    have hj1 := Complex.norm_mul_cos_arg (⟨(d j).2, (d j).1⟩ : ℂ)
    have hj2 := Complex.norm_mul_sin_arg (⟨(d j).2, (d j).1⟩ : ℂ)
    simp only at hi1 hi2 hj1 hj2
    rw [Real.sin_sub] at e
    have : ((d i).1 : ℝ) * (d j).2 - (d i).2 * (d j).1 = 0 := by
      generalize ‖(⟨(d i).2, (d i).1⟩ : ℂ)‖ = p at hi1 hi2
      generalize ‖(⟨(d j).2, (d j).1⟩ : ℂ)‖ = q at hj1 hj2
      generalize Complex.arg ⟨(d i).2, (d i).1⟩ = α at hi1 hi2 e
      generalize Complex.arg ⟨(d j).2, (d j).1⟩ = β at hj1 hj2 e
      rw [← hi1, ← hi2, ← hj1, ← hj2]
      linear_combination (p * q) * e
    have h3 : (d i).1 * (d j).2 - (d i).2 * (d j).1 = 0 := by exact_mod_cast this
    exact lineDirection_different img.rows img.cols _ _ (by
      intro e; apply hij; apply Fin.ext; omega) h3
  · refine ⟨Finset.univ.image fun j => y i j, ?_, fun x hx => ?_⟩
    · rw [Finset.card_image_of_injective, Finset.card_univ, Fintype.card_fin]
      · omega
      · intro a b hab
        by_contra hne
        have ha := hy3 i a
        have hb := hy3 i b
        simp only at hab
        rw [hab] at ha
        set S := Real.sqrt (((d i).2 : ℝ) ^ 2 + ((d i).1 : ℝ) ^ 2) / (2 * (inscribedRadius img.rows img.cols * κ)) with hS
        have hL1 : 1 ≤ Real.sqrt (((d i).2 : ℝ) ^ 2 + ((d i).1 : ℝ) ^ 2) := by
          rw [Real.one_le_sqrt]
          have := (hdn i).1
          have : (1 : ℝ) ≤ (((d i).1 ^ 2 + (d i).2 ^ 2 : ℤ) : ℝ) := by exact_mod_cast this
          push_cast at this; linarith
        have hS1 : 0.0001 / (g : ℝ) < S := by
          rw [hS, div_lt_div_iff₀ hgR (by positivity)]
          calc 0.0001 * (2 * (inscribedRadius img.rows img.cols * κ)) = 0.0002 * (inscribedRadius img.rows img.cols * κ) := by ring
            _ < 1 * (g : ℝ) := by rw [one_mul]; exact hsep
            _ ≤ _ := by gcongr
        have hdiff : 2 * (g : ℝ) ≤ |(ρ a : ℝ) - ρ b| := by
          have h1 : ρ a - ρ b = 2 * g * (((a : ℕ) : ℤ) - ((b : ℕ) : ℤ)) := by simp only [ρ]; ring
          have h2 : 1 ≤ |((a : ℕ) : ℤ) - ((b : ℕ) : ℤ)| := by
            apply Int.one_le_abs
            intro e
            apply hne
            apply Fin.ext
            omega
          have h3 : (1 : ℝ) ≤ |((a : ℕ) : ℝ) - ((b : ℕ) : ℝ)| := by exact_mod_cast h2
          have h4 : (ρ a : ℝ) - ρ b = 2 * g * (((a : ℕ) : ℝ) - ((b : ℕ) : ℝ)) := by exact_mod_cast h1
          rw [h4, abs_mul, abs_of_pos (by positivity)]
          nlinarith
        have hS0 : 0 < S := lt_trans (by positivity) hS1
        have h5 : |((ρ a : ℝ) - ρ b) * S| ≤ 0.0002 := by
          have h6 := abs_sub (y i b - (ρ b : ℝ) * S) (y i b - (ρ a : ℝ) * S)
          rw [show y i b - (ρ b : ℝ) * S - (y i b - (ρ a : ℝ) * S) = ((ρ a : ℝ) - ρ b) * S by ring] at h6
          refine h6.trans ?_
          norm_num at *
          linarith
        rw [abs_mul, abs_of_pos hS0] at h5
        rw [div_lt_iff₀ hgR] at hS1
        have h7 : 2 * (g : ℝ) * S ≤ |(ρ a : ℝ) - ρ b| * S := by gcongr
        norm_num at *
        linarith
    · rw [Finset.mem_image] at hx
      obtain ⟨j, _, rfl⟩ := hx
      exact ⟨pt i j, hpt1 i j, hy1 i j, hy2 i j⟩

/-- C88. The coefficients that `fit_polynomials` returns for an image do not depend on the solver of the least squares problem, on the
history of calls or on the depth of the call stack. -/
theorem fit_image_solver_irrelevant (h h' : List Call) (fuel fuel' : Nat) (lstsq lstsq' : Lstsq) (hl : LstsqContract lstsq)
    (hl' : LstsqContract lstsq') (os : List PolObj) (h0 : os ≠ []) (hv : PolsOk fuel os) (hv' : PolsOk fuel' os) (hd : (ordersOf os).Nodup)
    (N : ℕ) (hN : ∀ o ∈ os, o.n ≤ N)
    (img : Grid) (crop : ℝ) (strict : Bool) (hsize : 3 ≤ min img.rows img.cols) (hlo : 0.5 ≤ crop) (hhi : crop ≤ 1)
    (hbig : (((N + 1) * (N + 3) : ℕ) : ℝ) ≤ crop * (((min img.rows img.cols : Nat) : ℝ) - 1))
    (hmax : N ≤ 36 ∨ max img.rows img.cols ≤ 9000) (digits : Int) :
    ∃ x, fittedImage h fuel lstsq os img crop strict digits = .ok x ∧ fittedImage h' fuel' lstsq' os img crop strict digits = .ok x := by
  obtain ⟨out, x, p1, s1, ex, lx⟩ := fittedImage_ok h fuel lstsq hl os h0 hv hd img crop strict hsize hlo hhi digits
  obtain ⟨out', y, p2, s2, ey, ly⟩ := fittedImage_ok h' fuel' lstsq' hl' os h0 hv' hd img crop strict hsize hlo hhi digits
  rw [p1] at p2
  cases p2
  have hi := image_independent os fuel hv hd N hN img crop strict hsize hlo hhi hbig hmax out p1
  have hlen : out.phases.length = (out.radii.zip out.thetas).length := by
    rw [s1.phases, List.length_zip, s1.lengths.1, s1.lengths.2]; simp
  rw [leastSquares_unique _ _ hi _ hlen y x ly lx] at ey
  exact ⟨_, ex, ey⟩

/-- C88. If the phases of the cropped pixels are a combination of the polynomials, `fit_polynomials` returns its coefficients (rounded);
the independence of the polynomials on the pixels follows from the size of the image. -/
theorem fit_image_exact (h : List Call) (fuel : Nat) (lstsq : Lstsq) (hl : LstsqContract lstsq) (os : List PolObj) (h0 : os ≠ [])
    (hv : PolsOk fuel os) (hd : (ordersOf os).Nodup) (N : ℕ) (hN : ∀ o ∈ os, o.n ≤ N)
    (img : Grid) (crop : ℝ) (strict : Bool) (hsize : 3 ≤ min img.rows img.cols) (hlo : 0.5 ≤ crop) (hhi : crop ≤ 1)
    (hbig : (((N + 1) * (N + 3) : ℕ) : ℝ) ≤ crop * (((min img.rows img.cols : Nat) : ℝ) - 1))
    (hmax : N ≤ 36 ∨ max img.rows img.cols ≤ 9000) (digits : Int) (out : Cropped) (ho : cropPhasesImg (.img img) crop strict = .ok out)
    (cs : List ℝ) (hc : cs.length = os.length)
    (hph : out.phases = (out.radii.zip out.thetas).map fun p => combination cs (ordersOf os) p.1 p.2) :
    fittedImage h fuel lstsq os img crop strict digits = .ok (cs.map (npRound digits)) := by
  have hi := image_independent os fuel hv hd N hN img crop strict hsize hlo hhi hbig hmax out ho
  obtain ⟨pic, e⟩ := fit_image_recovers h fuel lstsq hl os h0 hv hd img crop strict hsize hlo hhi digits false out ho cs hc hi hph
  rw [fittedImage, e]
  rfl

/-- The hypotheses are met: all 15 polynomials up to the order 4 on the pixels of every image of 36 by 36 pixels or more. -/
example (fuel : Nat) (hf : 5 < fuel) (img : Grid) (hr : 36 ≤ img.rows) (hc : 36 ≤ img.cols) (strict : Bool) (out : Cropped)
    (ho : cropPhasesImg (.img img) 1 strict = .ok out) :
    IndependentOn [(0, 0), (-1, 1), (1, 1), (-2, 2), (0, 2), (2, 2), (-3, 3), (-1, 3), (1, 3), (3, 3), (-4, 4), (-2, 4), (0, 4), (2, 4), (4, 4)]
      (out.radii.zip out.thetas) := by
  have hm : (36 : ℝ) ≤ ((min img.rows img.cols : Nat) : ℝ) := by exact_mod_cast le_min hr hc
  refine image_independent [⟨0, 0, false⟩, ⟨-1, 1, false⟩, ⟨1, 1, false⟩, ⟨-2, 2, false⟩, ⟨0, 2, false⟩, ⟨2, 2, false⟩, ⟨-3, 3, false⟩, ⟨-1, 3, false⟩,
    ⟨1, 3, false⟩, ⟨3, 3, false⟩, ⟨-4, 4, false⟩, ⟨-2, 4, false⟩, ⟨0, 4, false⟩, ⟨2, 4, false⟩, ⟨4, 4, false⟩] fuel ?_ (by decide) 4 (by decide) img 1 strict (by omega)
    (by norm_num) le_rfl ?_ (Or.inl (by norm_num)) out ho
  · intro o ho
    simp only [List.mem_cons, List.not_mem_nil, or_false] at ho
    rcases ho with rfl | rfl | rfl | rfl | rfl | rfl | rfl | rfl | rfl | rfl | rfl | rfl | rfl | rfl | rfl <;>
      exact ⟨by decide, by simp only; omega⟩
  · generalize ((min img.rows img.cols : ℕ) : ℝ) = M at *
    norm_num
    linarith

/-- C88. Polynomials of orders up to `N` are linearly independent on the pixels of a generated image, with the coordinates of the generation,
if the image is large enough. -/
theorem generated_independent (orders : List (Int × Int)) (hv : ∀ p ∈ orders, ValidOrders p.1 p.2) (hd : orders.Nodup) (N : ℕ)
    (hN : ∀ o ∈ orders, o.2 ≤ N) (width height : Nat) (hbig : (N + 1) ^ 2 + 4 ≤ 4 * (min width height / 2))
    (ps : List (Nat × Nat)) (radii thetas : List ℝ) (hr : radii.length = ps.length) (ht : thetas.length = ps.length)
    (hp : ∀ (k : Nat) p r t, ps[k]? = some p → radii[k]? = some r → thetas[k]? = some t → GeneratorCoordinates height width p r t)
    (hall : ∀ p r t, GeneratorCoordinates height width p r t → p ∈ ps) : IndependentOn orders (radii.zip thetas) := by
  classical
  obtain ⟨K, hK⟩ : ∃ K : ℕ, K = min width height / 2 := ⟨_, rfl⟩
  have hKw : K ≤ width / 2 := by omega
  have hKh : K ≤ height / 2 := by omega
  have hR : (0 : ℝ) < 1 + (K : ℝ) := by positivity
  let c : Fin (N + 1) → ℤ := fun i => (i : ℤ) - (N / 2 : ℕ)
  have hc : ∀ i, 2 * |c i| ≤ N + 1 := by
    intro i
    have := i.2
    have h : |c i| ≤ ((N : ℤ) + 1) / 2 := by rw [abs_le]; simp only [c]; omega
    omega
  refine independent_lines orders hd hv N hN _ ?_ (fun i => Real.arctan (c i)) ?_ fun i => ?_
  · intro p hp'
    obtain ⟨k, hk⟩ := List.mem_iff_getElem?.1 hp'
    rw [List.getElem?_zip_eq_some] at hk
    have hk' : k < ps.length := by rw [← hr]; exact (List.getElem?_eq_some_iff.1 hk.1).1
    exact (hp k _ _ _ (List.getElem?_eq_getElem hk') hk.1 hk.2).2.2.1
  · intro i j hij e
    rw [Real.sin_sub, Real.sin_arctan, Real.cos_arctan, Real.sin_arctan, Real.cos_arctan] at e
    have s1 : 0 < Real.sqrt (1 + (c i : ℝ) ^ 2) := by positivity
    have s2 : 0 < Real.sqrt (1 + (c j : ℝ) ^ 2) := by positivity
    have e' : (c i : ℝ) - c j = 0 := by
      field_simp at e
      linarith
    have e2 : c i = c j := by
      have : (c i : ℝ) = c j := by linarith
      exact_mod_cast this
    apply hij
    apply Fin.ext
    simp only [c] at e2
    omega
  · have hL : 0 < Real.sqrt (1 + (c i : ℝ) ^ 2) := by positivity
    refine ⟨Finset.univ.image fun j : Fin (N + 1) => (c j : ℝ) * (Real.sqrt (1 + (c i : ℝ) ^ 2) / (1 + K)), ?_, fun x hx => ?_⟩
    · rw [Finset.card_image_of_injective, Finset.card_univ, Fintype.card_fin]
      · omega
      · intro a b hab
        have h1 := mul_right_cancel₀ (by positivity) hab
        have h2 : c a = c b := by exact_mod_cast h1
        apply Fin.ext
        simp only [c] at h2
        omega
    · rw [Finset.mem_image] at hx
      obtain ⟨j, _, rfl⟩ := hx
      have ci := hc i
      have cj := hc j
      have hsq : 4 * (|c j| * |c i|) ≤ 4 * (K : ℤ) - 4 := by
        have h1 : (2 * |c j|) * (2 * |c i|) ≤ ((N : ℤ) + 1) * (N + 1) := mul_le_mul cj ci (by positivity) (by positivity)
        have h2 : (((N + 1) ^ 2 + 4 : ℕ) : ℤ) ≤ ((4 * K : ℕ) : ℤ) := by rw [hK]; exact_mod_cast hbig
        push_cast at h2
        nlinarith
      have hprod : |c j * c i| ≤ (K : ℤ) - 1 := by rw [abs_mul]; omega
      have hcj : |c j| ≤ (K : ℤ) - 1 := by
        have h2 : (((N + 1) ^ 2 + 4 : ℕ) : ℤ) ≤ ((4 * K : ℕ) : ℤ) := by rw [hK]; exact_mod_cast hbig
        push_cast at h2
        nlinarith [sq_nonneg ((N : ℤ) - 1)]
      obtain ⟨a1, a2⟩ := abs_le.1 hprod
      obtain ⟨b1, b2⟩ := abs_le.1 hcj
      obtain ⟨px, hpx⟩ : ∃ q : ℕ, (q : ℤ) = (width / 2 : ℕ) + c j := ⟨((width / 2 : ℕ) + c j).toNat, Int.toNat_of_nonneg (by omega)⟩
      obtain ⟨py, hpy⟩ : ∃ q : ℕ, (q : ℤ) = (height / 2 : ℕ) - c j * c i := ⟨((height / 2 : ℕ) - c j * c i).toNat, Int.toNat_of_nonneg (by omega)⟩
      have hpxr : (px : ℝ) - ((width / 2 : ℕ) : ℝ) = c j := by
        have : ((px : ℤ) : ℝ) = (((width / 2 : ℕ) : ℤ) : ℝ) + c j := by exact_mod_cast congrArg (fun z : ℤ => (z : ℝ)) hpx
        simp only [Int.cast_natCast] at this
        linarith
      have hpyr : ((height / 2 : ℕ) : ℝ) - (py : ℝ) = c j * c i := by
        have : ((py : ℤ) : ℝ) = (((height / 2 : ℕ) : ℤ) : ℝ) - c j * c i := by exact_mod_cast congrArg (fun z : ℤ => (z : ℝ)) hpy
        simp only [Int.cast_natCast] at this
        linarith
      have hgen : ∃ r t, GeneratorCoordinates height width (py, px) r t := by
        refine ⟨‖(⟨c j, c j * c i⟩ : ℂ)‖ / (1 + K), Complex.arg ⟨c j, c j * c i⟩, by simp only; omega, by simp only; omega, by positivity, ?_, ?_, ?_⟩
        · rw [div_le_one hR, Complex.norm_def, Complex.normSq_mk]
          apply Real.sqrt_le_iff.2
          refine ⟨hR.le, ?_⟩
          have h1 : ((|c j| : ℤ) : ℝ) ≤ (((K : ℤ) - 1 : ℤ) : ℝ) := by exact_mod_cast hcj
          have h2 : ((|c j * c i| : ℤ) : ℝ) ≤ (((K : ℤ) - 1 : ℤ) : ℝ) := by exact_mod_cast hprod
          push_cast at h1 h2
          have h3 : (c j : ℝ) ^ 2 ≤ K := by
            have : (4 : ℤ) * (c j) ^ 2 ≤ 4 * K := by
              have h2 : (((N + 1) ^ 2 + 4 : ℕ) : ℤ) ≤ ((4 * K : ℕ) : ℤ) := by rw [hK]; exact_mod_cast hbig
              push_cast at h2
              have := abs_nonneg (c j)
              rw [← sq_abs]
              nlinarith
            have : (c j) ^ 2 ≤ (K : ℤ) := by omega
            exact_mod_cast this
          have h4 : ((c j : ℝ) * c i) ^ 2 ≤ ((K : ℝ) - 1) ^ 2 := by
            rw [← sq_abs]; exact pow_le_pow_left₀ (abs_nonneg _) (by rw [abs_mul] at *; exact h2) 2
          nlinarith
        · rw [← hK, mul_div_cancel₀ _ hR.ne', Complex.norm_mul_cos_arg]
          exact hpxr.symm
        · rw [← hK, mul_div_cancel₀ _ hR.ne', Complex.norm_mul_sin_arg]
          exact hpyr.symm
      obtain ⟨r0, t0, hg0⟩ := hgen
      obtain ⟨k, hk⟩ := List.mem_iff_getElem?.1 (hall _ _ _ hg0)
      have hk' : k < ps.length := (List.getElem?_eq_some_iff.1 hk).1
      have er : radii[k]? = some (radii[k]'(by omega)) := List.getElem?_eq_getElem _
      have et : thetas[k]? = some (thetas[k]'(by omega)) := List.getElem?_eq_getElem _
      obtain ⟨_, _, _, _, g1, g2⟩ := hp k _ _ _ hk er et
      rw [← hK] at g1 g2
      simp only at g1 g2
      rw [hpxr] at g1
      rw [hpyr] at g2
      refine ⟨(radii[k]'(by omega), thetas[k]'(by omega)), ?_, ?_, ?_⟩
      · rw [List.mem_iff_getElem?]
        exact ⟨k, by rw [List.getElem?_zip_eq_some]; exact ⟨er, et⟩⟩
      · rw [Real.cos_arctan]
        simp only
        field_simp
        linarith
      · rw [Real.sin_arctan]
        simp only
        field_simp
        linarith

/-- C88. Generated images with the coordinates of the generation: the fit returns the amplitudes (rounded), for every image that is large
enough for the orders of the polynomials. -/
theorem roundtrip_all_pixels (h h' : List Call) (fuel : Nat) (lstsq : Lstsq) (hl : LstsqContract lstsq) (os : List PolObj) (h0 : os ≠ [])
    (hv : PolsOk fuel os) (hd : (ordersOf os).Nodup) (N : ℕ) (hN : ∀ o ∈ os, o.n ≤ N) (cs : List ℝ) (hc : cs.length = os.length)
    (width height : Nat) (hbig : (N + 1) ^ 2 + 4 ≤ 4 * (min width height / 2)) (digits : Int)
    (ps : List (Nat × Nat)) (radii thetas : List ℝ) (hr : radii.length = ps.length) (ht : thetas.length = ps.length)
    (hp : ∀ (k : Nat) p r t, ps[k]? = some p → radii[k]? = some r → thetas[k]? = some t → GeneratorCoordinates height width p r t)
    (hall : ∀ p r t, GeneratorCoordinates height width p r t → p ∈ ps) :
    ∃ g, (generatePhasesImage fuel (os.map .pol) cs width height (afterCalls h)).1 = .ok g ∧
      fitted h' fuel lstsq os (ps.map fun p => g.entry p.1 p.2) radii thetas digits = .ok (cs.map (npRound digits)) := by
  refine roundtrip_own_coordinates h h' fuel lstsq hl os h0 hv hd cs hc width height digits ps ?_ radii thetas hr ht hp
    (generated_independent _ (orders_valid hv) hd N ?_ width height hbig ps radii thetas hr ht hp hall)
  · rintro rfl
    have : 0 < min width height / 2 := by nlinarith
    have := hall (height / 2, width / 2) 0 0 ⟨by simp only; omega, by simp only; omega, le_rfl, zero_le_one, by simp, by simp⟩
    simp at this
  · intro p hp
    simp only [ordersOf, List.mem_map] at hp
    obtain ⟨o, ho, rfl⟩ := hp
    exact hN o ho

/-- The pixels and coordinates of `roundtrip_all_pixels` exist for every size of the image. -/
example (width height : Nat) : ∃ (ps : List (Nat × Nat)) (radii thetas : List ℝ), radii.length = ps.length ∧ thetas.length = ps.length ∧
    (∀ (k : Nat) p r t, ps[k]? = some p → radii[k]? = some r → thetas[k]? = some t → GeneratorCoordinates height width p r t) ∧
    ∀ p r t, GeneratorCoordinates height width p r t → p ∈ ps := by
  classical
  have key : ∀ p : Nat × Nat, ∃ q : ℝ × ℝ, (∃ r t, GeneratorCoordinates height width p r t) → GeneratorCoordinates height width p q.1 q.2 := by
    intro p
    by_cases h : ∃ r t, GeneratorCoordinates height width p r t
    · obtain ⟨r, t, h⟩ := h
      exact ⟨(r, t), fun _ => h⟩
    · exact ⟨(0, 0), fun h' => absurd h' h⟩
  choose f hf using key
  let ps := (allPixels height width).filter fun p => decide (∃ r t, GeneratorCoordinates height width p r t)
  refine ⟨ps, ps.map fun p => (f p).1, ps.map fun p => (f p).2, by simp, by simp, ?_, ?_⟩
  · intro k p r t h1 h2 h3
    rw [List.getElem?_map, h1] at h2 h3
    simp only [Option.map_some, Option.some.injEq] at h2 h3
    have := List.mem_of_getElem? h1
    rw [← h2, ← h3]
    exact hf p (by simpa using (List.mem_filter.1 this).2)
  · intro p r t hg
    refine List.mem_filter.2 ⟨?_, by simpa using ⟨r, t, hg⟩⟩
    unfold allPixels
    rw [List.mem_flatMap]
    exact ⟨p.1, List.mem_range.2 hg.1, List.mem_map.2 ⟨p.2, List.mem_range.2 hg.2.1, rfl⟩⟩

end Verif.Props
