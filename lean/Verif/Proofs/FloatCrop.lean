import Verif.Model.FloatCrop
import Verif.Proofs.Crop
import Verif.Props.FloatFit

/-! # The loop of `crop_phases_img` in floating-point arithmetic -/

namespace Verif.Proofs
open Verif.Model Verif.Props

variable (F : PsfArith)

theorem cropLoopFl_eq (img : Grid) (crop eps : ℝ) (strict : Bool) :
    cropLoopFl F img crop eps strict = (pixels img.rows img.cols).foldl (fun s p => cropPixelFl F img crop eps strict p.1 p.2 s)
      { mask := Grid.zeros img.rows img.cols, phases := [], radii := [], thetas := [], recalibrate := false, coeff := 1 } := by
  unfold cropLoopFl pixels
  rw [foldl_flatMap']
  simp only [List.foldl_map]

/-- A pixel that the loop takes. -/
def TakenFl (img : Grid) (crop eps : ℝ) (p : Nat × Nat) : Prop := F.fl (pixRadiusFl F img.rows img.cols p.1 p.2 - crop) < eps

/-- A radius for which the radii are recalibrated. -/
def Beyond (crop x : ℝ) : Prop := F.fl (x - crop) > F.fl 0.001

open Classical in
/-- The invariant of the loop after the pixels `ps`. -/
structure CropInvFl (img : Grid) (crop eps : ℝ) (strict : Bool) (ps : List (Nat × Nat)) (s : CropState) : Prop where
  rows : s.mask.rows = img.rows
  cols : s.mask.cols = img.cols
  mask : ∀ a b, s.mask.entry a b = if (a, b) ∈ ps ∧ TakenFl F img crop eps (a, b) then 1 else 0
  phases : s.phases = (ps.filter (TakenFl F img crop eps)).map fun p => img.entry p.1 p.2
  radii : s.radii = (ps.filter (TakenFl F img crop eps)).map fun p => pixRadiusFl F img.rows img.cols p.1 p.2
  thetas : s.thetas = (ps.filter (TakenFl F img crop eps)).map fun p => pixThetaFl F img.rows img.cols p.1 p.2
  one_le : 1 ≤ s.coeff
  coeff_of : s.coeff = 1 ∨ s.coeff ∈ s.radii
  recal : s.recalibrate = true → ∃ x ∈ s.radii, Beyond F crop x ∧ x ≤ s.coeff
  norecal : s.recalibrate = false → ∀ x ∈ s.radii, strict = false → ¬ Beyond F crop x
  le_coeff : ∀ x ∈ s.radii, strict = false → Beyond F crop x → x ≤ s.coeff
  strict_norecal : strict = true → s.recalibrate = false

theorem cropInvFl_init (img : Grid) (crop eps : ℝ) (strict : Bool) : CropInvFl F img crop eps strict []
    { mask := Grid.zeros img.rows img.cols, phases := [], radii := [], thetas := [], recalibrate := false, coeff := 1 } := by
  constructor <;> simp [Grid.zeros]

open Classical in
theorem cropInvFl_step (img : Grid) (crop eps : ℝ) (strict : Bool) (ps : List (Nat × Nat)) (s : CropState) (p : Nat × Nat)
    (hp : p ∉ ps) (h : CropInvFl F img crop eps strict ps s) :
    CropInvFl F img crop eps strict (ps ++ [p]) (cropPixelFl F img crop eps strict p.1 p.2 s) := by
  obtain ⟨i, j⟩ := p
  dsimp only
  unfold cropPixelFl
  by_cases ht : F.fl (pixRadiusFl F img.rows img.cols i j - crop) < eps
  · rw [if_pos ht]
    have ht' : TakenFl F img crop eps (i, j) := ht
    set x := pixRadiusFl F img.rows img.cols i j with hx
    refine ⟨h.rows, h.cols, ?_, ?_, ?_, ?_, ?_, ?_, ?_, ?_, ?_, ?_⟩
    · intro a b
      dsimp only
      rw [h.mask a b]
      by_cases hab : a = i ∧ b = j
      · obtain ⟨rfl, rfl⟩ := hab
        rw [if_pos ⟨rfl, rfl⟩, if_neg (fun h => hp h.1), if_pos ⟨by simp, ht'⟩, zero_add]
      · rw [if_neg hab]
        have : (a, b) ∈ ps ++ [(i, j)] ↔ (a, b) ∈ ps := by
          simp only [List.mem_append, List.mem_singleton, Prod.mk.injEq]
          tauto
        exact if_congr (and_congr_left' this.symm) rfl rfl
    · simp [h.phases, List.filter_append, ht']
    · simp [h.radii, List.filter_append, ht', hx]
    · simp [h.thetas, List.filter_append, ht']
    · dsimp only
      have := h.one_le
      split_ifs <;> first | exact this | linarith
    · dsimp only
      have := h.coeff_of
      split_ifs
      · right; simp
      all_goals
        rcases this with h | h
        · exact Or.inl h
        · right; simp [h]
    · dsimp only
      by_cases hr : strict = false ∧ F.fl (x - crop) > F.fl 0.001
      · rw [if_pos hr, if_pos hr]
        intro _
        refine ⟨x, by simp, hr.2, ?_⟩
        split_ifs with hc
        · exact le_rfl
        · exact not_lt.1 hc
      · rw [if_neg hr, if_neg hr]
        intro hh
        obtain ⟨y, hy, h1, h2⟩ := h.recal hh
        exact ⟨y, by simp [hy], h1, h2⟩
    · dsimp only
      by_cases hr : strict = false ∧ F.fl (x - crop) > F.fl 0.001
      · rw [if_pos hr]; intro hh; cases hh
      · rw [if_neg hr]
        intro hh y hy hs
        rcases List.mem_append.1 hy with hy | hy
        · exact h.norecal hh y hy hs
        · simp only [List.mem_singleton] at hy; subst hy
          exact fun hc => hr ⟨hs, hc⟩
    · dsimp only
      intro y hy hs hgt
      rcases List.mem_append.1 hy with hy | hy
      · have := h.le_coeff y hy hs hgt
        split_ifs <;> first | exact this | linarith
      · simp only [List.mem_singleton] at hy; subst hy
        rw [if_pos ⟨hs, hgt⟩]
        split_ifs with hc
        · exact le_rfl
        · exact not_lt.1 hc
    · intro hs
      dsimp only
      rw [if_neg (by simp [hs])]
      exact h.strict_norecal hs
  · rw [if_neg ht]
    have ht' : ¬ TakenFl F img crop eps (i, j) := ht
    have hf : ∀ {β : Type} (f : Nat × Nat → β), open Classical in
        ((ps ++ [(i, j)]).filter (TakenFl F img crop eps)).map f = (ps.filter (TakenFl F img crop eps)).map f := by
      intro β f; simp [List.filter_append, ht']
    refine ⟨h.rows, h.cols, ?_, ?_, ?_, ?_, h.one_le, h.coeff_of, h.recal, h.norecal, h.le_coeff, h.strict_norecal⟩
    · intro a b
      rw [h.mask a b]
      have : ((a, b) ∈ ps ++ [(i, j)] ∧ TakenFl F img crop eps (a, b)) ↔ ((a, b) ∈ ps ∧ TakenFl F img crop eps (a, b)) := by
        simp only [List.mem_append, List.mem_singleton, Prod.mk.injEq]
        constructor
        · rintro ⟨h1 | ⟨rfl, rfl⟩, h2⟩
          · exact ⟨h1, h2⟩
          · exact absurd h2 ht'
        · rintro ⟨h1, h2⟩; exact ⟨Or.inl h1, h2⟩
      exact if_congr this.symm rfl rfl
    · rw [h.phases]; exact (hf _).symm
    · rw [h.radii]; exact (hf _).symm
    · rw [h.thetas]; exact (hf _).symm

theorem cropInvFl_loop (img : Grid) (crop eps : ℝ) (strict : Bool) :
    CropInvFl F img crop eps strict (pixels img.rows img.cols) (cropLoopFl F img crop eps strict) := by
  rw [cropLoopFl_eq]
  have gen : ∀ (qs ps : List (Nat × Nat)) (s : CropState), (ps ++ qs).Nodup → CropInvFl F img crop eps strict ps s →
      CropInvFl F img crop eps strict (ps ++ qs) (qs.foldl (fun s p => cropPixelFl F img crop eps strict p.1 p.2 s) s) := by
    intro qs
    induction qs with
    | nil => intro ps s _ h; simpa using h
    | cons q qs ih =>
      intro ps s hn h
      have hq : q ∉ ps := by
        have := List.nodup_append.1 hn
        intro hm; exact this.2.2 q hm q (by simp) rfl
      have := ih (ps ++ [q]) _ (by simpa using hn) (cropInvFl_step F img crop eps strict ps s q hq h)
      simpa using this
  simpa using gen (pixels img.rows img.cols) [] _ (by simpa using nodup_pixels _ _) (cropInvFl_init F img crop eps strict)

/-! ### Numbers in double precision -/

variable (s : List ℝ → ℝ)

/-- `numpy.round(x, 4)` keeps the unit interval. -/
theorem fltRound4_unit {x : ℝ} (h0 : 0 ≤ x) (h1 : x ≤ 1) : 0 ≤ fltRound (psfDoubles s) 4 x ∧ fltRound (psfDoubles s) 4 x ≤ 1 ∧ (1 / 2 ≤ x → 1 / 2 ≤ fltRound (psfDoubles s) 4 x) := by
  have e : fltRound (psfDoubles s) 4 x = binary64 ((rint (binary64 (x * 10 ^ (4 : ℤ))) : ℝ) / 10 ^ (4 : ℤ)) := by
    unfold fltRound; rw [if_pos (by norm_num)]; rfl
  rw [e, show (10 : ℝ) ^ (4 : ℤ) = 10000 by norm_num]
  have b1 : binary64 1 = 1 := by have := binary64_nat 1 (by norm_num); simpa using this
  have b2 : binary64 (1 / 2) = 1 / 2 := by have := binary64_exact 1 (-1) (by norm_num) (by norm_num); norm_num at this ⊢; exact this
  have p0 : 0 ≤ x * 10000 := by positivity
  have q0 := binary64_nonneg p0
  have r0 := rint_nonneg q0
  have q1 : binary64 (x * 10000) ≤ 10000 := by
    have h := binary64_mono p0 (show x * 10000 ≤ ((10000 : ℕ) : ℝ) by push_cast; linarith)
    rw [binary64_nat 10000 (by norm_num)] at h
    simpa using h
  have r1 : rint (binary64 (x * 10000)) ≤ 10000 := by
    have h := rint_mono (show binary64 (x * 10000) ≤ ((10000 : ℤ) : ℝ) by simpa using q1)
    rwa [rint_int] at h
  have r0' : (0 : ℝ) ≤ (rint (binary64 (x * 10000)) : ℝ) := by exact_mod_cast r0
  have r1' : (rint (binary64 (x * 10000)) : ℝ) ≤ 10000 := by exact_mod_cast r1
  refine ⟨binary64_nonneg (by positivity), ?_, fun h2 => ?_⟩
  · have h := binary64_mono (show 0 ≤ (rint (binary64 (x * 10000)) : ℝ) / 10000 by positivity) ((div_le_one (by norm_num)).2 r1')
    rwa [b1] at h
  · have q2 : (5000 : ℝ) ≤ binary64 (x * 10000) := by
      have h := binary64_mono (show (0 : ℝ) ≤ ((5000 : ℕ) : ℝ) by positivity) (show ((5000 : ℕ) : ℝ) ≤ x * 10000 by push_cast; linarith)
      rw [binary64_nat 5000 (by norm_num)] at h
      simpa using h
    have r2 : 5000 ≤ rint (binary64 (x * 10000)) := by
      have h := rint_mono (show ((5000 : ℤ) : ℝ) ≤ binary64 (x * 10000) by simpa using q2)
      rwa [rint_int] at h
    have r2' : (5000 : ℝ) ≤ (rint (binary64 (x * 10000)) : ℝ) := by exact_mod_cast r2
    have h := binary64_mono (show (0 : ℝ) ≤ 1 / 2 by norm_num) (show (1 : ℝ) / 2 ≤ (rint (binary64 (x * 10000)) : ℝ) / 10000 by
      rw [le_div_iff₀ (by norm_num)]; linarith)
    rwa [b2] at h

theorem fltRound4_nonneg {x : ℝ} (h0 : 0 ≤ x) : 0 ≤ fltRound (psfDoubles s) 4 x := by
  have e : fltRound (psfDoubles s) 4 x = binary64 ((rint (binary64 (x * 10 ^ (4 : ℤ))) : ℝ) / 10 ^ (4 : ℤ)) := by
    unfold fltRound; rw [if_pos (by norm_num)]; rfl
  rw [e]
  have r0 := rint_nonneg (binary64_nonneg (show 0 ≤ x * 10 ^ (4 : ℤ) by positivity))
  have r0' : (0 : ℝ) ≤ (rint (binary64 (x * 10 ^ (4 : ℤ))) : ℝ) := by exact_mod_cast r0
  exact binary64_nonneg (by positivity)

theorem fltRound4_zero : fltRound (psfDoubles s) 4 0 = 0 := by
  have e : fltRound (psfDoubles s) 4 0 = binary64 ((rint (binary64 (0 * 10 ^ (4 : ℤ))) : ℝ) / 10 ^ (4 : ℤ)) := by
    unfold fltRound; rw [if_pos (by norm_num)]; rfl
  have r : rint (0 : ℝ) = 0 := by have := rint_int 0; simpa using this
  rw [e, zero_mul, binary64_zero, r, Int.cast_zero, zero_div, binary64_zero]

theorem fltRound4_near (x : ℝ) : |fltRound (psfDoubles s) 4 x - x| ≤ 0.00005 + 2⁻¹ ^ 53 * (3 * |x| + 4) := by
  have := fltRound_near_pos (F := psfDoubles s) doubles_accurate 4 (by norm_num) x
  calc _ ≤ _ := this
    _ = _ := by norm_num

/-- The distance of an index from the centre is a double, and so are its square and the sum of two squares. -/
theorem half_exact (n i : Nat) (hn : 1 ≤ n) (hi : i < n) (h : n ≤ 2 ^ 25) : ∃ k : ℤ, (i : ℝ) - halfSize n = k * 2 ^ (-1 : ℤ) ∧ |k| ≤ 2 ^ 25 := by
  refine ⟨2 * i - (n - 1), ?_, by rw [abs_le]; omega⟩
  rw [halfSize_eq n hn]
  push_cast
  norm_num
  ring

theorem sq_le_of_abs {k : ℤ} (h : |k| ≤ 2 ^ 25) : k ^ 2 ≤ 2 ^ 50 := by
  have := pow_le_pow_left₀ (abs_nonneg k) h 2
  rw [sq_abs] at this
  norm_num at this ⊢
  exact this

theorem pixSquare_exact (rows cols i j : Nat) (h : 3 ≤ min rows cols) (hr : rows ≤ 2 ^ 25) (hc : cols ≤ 2 ^ 25) (hi : i < rows) (hj : j < cols) :
    pixSquareFl (psfDoubles s) rows cols i j = ((i : ℝ) - halfSize rows) ^ 2 + ((j : ℝ) - halfSize cols) ^ 2 := by
  obtain ⟨k, hk, hk'⟩ := half_exact rows i (by omega) hi hr
  obtain ⟨l, hl, hl'⟩ := half_exact cols j (by omega) hj hc
  have k2 := sq_le_of_abs hk'
  have l2 := sq_le_of_abs hl'
  unfold pixSquareFl
  rw [hk, hl]
  show binary64 (binary64 (binary64 _ ^ 2) + binary64 (binary64 _ ^ 2)) = _
  rw [binary64_exact k (-1) (by omega) (by norm_num), binary64_exact l (-1) (by omega) (by norm_num)]
  have e : ∀ a : ℤ, ((a : ℝ) * 2 ^ (-1 : ℤ)) ^ 2 = ((a ^ 2 : ℤ) : ℝ) * 2 ^ (-2 : ℤ) := by intro a; push_cast; norm_num; ring
  rw [e, e, binary64_exact (k ^ 2) (-2) (by rw [abs_of_nonneg (sq_nonneg k)]; omega) (by norm_num),
    binary64_exact (l ^ 2) (-2) (by rw [abs_of_nonneg (sq_nonneg l)]; omega) (by norm_num), ← add_mul, ← Int.cast_add,
    binary64_exact (k ^ 2 + l ^ 2) (-2) (by rw [abs_of_nonneg (by positivity)]; omega) (by norm_num)]

theorem pixDiff_exact (n i : Nat) (hn : 1 ≤ n) (hi : i < n) (h : n ≤ 2 ^ 25) : binary64 ((i : ℝ) - halfSize n) = (i : ℝ) - halfSize n ∧ binary64 (halfSize n - i) = halfSize n - i := by
  obtain ⟨k, hk, hk'⟩ := half_exact n i hn hi h
  refine ⟨by rw [hk]; exact binary64_exact k (-1) (by omega) (by norm_num), ?_⟩
  have e : halfSize n - i = ((-k : ℤ) : ℝ) * 2 ^ (-1 : ℤ) := by push_cast; linarith
  rw [e]
  exact binary64_exact (-k) (-1) (by rw [abs_neg]; omega) (by norm_num)

/-- A rounded difference below a rounded bound: the difference is below the bound, up to 10⁻⁹. -/
theorem below_of {z e : ℝ} (he0 : 0 ≤ e) (he : e ≤ 1) (h : binary64 z ≤ binary64 e) : z ≤ e + 1 / 10 ^ 9 := by
  by_contra hc
  push Not at hc
  have h1 := binary64_mono (by positivity) hc.le
  have h2 := binary64_err (x := e + 1 / 10 ^ 9) (a := 0) (by norm_num) (by rw [abs_of_nonneg (by positivity)]; norm_num; linarith)
  have h3 := binary64_err (x := e) (a := 0) (by norm_num) (by rw [abs_of_nonneg he0]; norm_num; linarith)
  have z1 : (2 : ℝ) ^ ((0 : ℤ) - 53) ≤ 1 / 10 ^ 12 := by norm_num
  have h2' := abs_le.1 (h2.trans z1)
  have h3' := abs_le.1 (h3.trans z1)
  clear z1 h2 h3
  norm_num at h2' h3' hc
  norm_num at *
  linarith [h2'.1, h3'.2]

theorem lt_of_below {z e : ℝ} (he0 : 0 ≤ e) (he : e ≤ 1) (hz : -2 < z) (h : z ≤ e - 1 / 10 ^ 9) : binary64 z < binary64 e := by
  have h2 := binary64_err (x := z) (a := 0) (by norm_num) (by rw [abs_lt]; norm_num; constructor <;> linarith)
  have h3 := binary64_err (x := e) (a := 0) (by norm_num) (by rw [abs_of_nonneg he0]; norm_num; linarith)
  have z1 : (2 : ℝ) ^ ((0 : ℤ) - 53) ≤ 1 / 10 ^ 12 := by norm_num
  have h2' := abs_le.1 (h2.trans z1)
  have h3' := abs_le.1 (h3.trans z1)
  clear z1 h2 h3
  norm_num at *
  linarith [h2'.2, h3'.1]

end Verif.Proofs
