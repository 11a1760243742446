import Verif.Model.Crop
import Verif.Proofs.Numeric
import Verif.Proofs.Methods

/-! # The loop of `crop_phases_img` -/

namespace Verif.Proofs
open Verif.Model

/-- The pixels in row-major order. -/
def pixels (rows cols : Nat) : List (Nat × Nat) :=
  (List.range rows).flatMap fun i => (List.range cols).map fun j => (i, j)

theorem mem_pixels (rows cols : Nat) (p : Nat × Nat) : p ∈ pixels rows cols ↔ p.1 < rows ∧ p.2 < cols := by
  simp only [pixels, List.mem_flatMap, List.mem_range, List.mem_map]
  constructor
  · rintro ⟨i, hi, j, hj, rfl⟩; exact ⟨hi, hj⟩
  · rintro ⟨h1, h2⟩; exact ⟨p.1, h1, p.2, h2, rfl⟩

theorem nodup_pixels (rows cols : Nat) : (pixels rows cols).Nodup := by
  unfold pixels
  rw [List.nodup_flatMap]
  constructor
  · intro i _
    exact List.Nodup.map (fun a b h => by simpa using h) List.nodup_range
  · refine List.Pairwise.imp ?_ List.pairwise_lt_range
    intro a b hab p hp hq
    simp only [List.mem_map] at hp hq
    obtain ⟨_, _, rfl⟩ := hp
    obtain ⟨_, _, h⟩ := hq
    injection h with h1 _
    omega

theorem foldl_flatMap' {α β γ : Type} (l : List α) (f : α → List β) (g : γ → β → γ) (c : γ) :
    (l.flatMap f).foldl g c = l.foldl (fun c a => (f a).foldl g c) c := by
  induction l generalizing c with
  | nil => rfl
  | cons a t ih => simp [List.foldl_append, ih]

theorem cropLoop_eq (img : Grid) (crop eps : ℝ) (strict : Bool) :
    cropLoop img crop eps strict = (pixels img.rows img.cols).foldl (fun s p => cropPixel img crop eps strict p.1 p.2 s)
      { mask := Grid.zeros img.rows img.cols, phases := [], radii := [], thetas := [], recalibrate := false, coeff := 1 } := by
  unfold cropLoop pixels
  rw [foldl_flatMap']
  simp only [List.foldl_map]

/-- A pixel that the loop takes. -/
def Taken (img : Grid) (crop eps : ℝ) (p : Nat × Nat) : Prop := pixRadius img.rows img.cols p.1 p.2 - crop < eps

open Classical in
/-- The invariant of the loop after the pixels `ps`. -/
structure CropInv (img : Grid) (crop eps : ℝ) (strict : Bool) (ps : List (Nat × Nat)) (s : CropState) : Prop where
  rows : s.mask.rows = img.rows
  cols : s.mask.cols = img.cols
  mask : ∀ a b, s.mask.entry a b = if (a, b) ∈ ps ∧ Taken img crop eps (a, b) then 1 else 0
  phases : s.phases = (ps.filter (Taken img crop eps)).map fun p => img.entry p.1 p.2
  radii : s.radii = (ps.filter (Taken img crop eps)).map fun p => pixRadius img.rows img.cols p.1 p.2
  thetas : s.thetas = (ps.filter (Taken img crop eps)).map fun p => pixTheta img.rows img.cols p.1 p.2
  one_le : 1 ≤ s.coeff
  coeff_of : s.coeff = 1 ∨ s.coeff ∈ s.radii
  recal : s.recalibrate = true → ∃ x ∈ s.radii, crop + 0.001 < x ∧ x ≤ s.coeff
  norecal : s.recalibrate = false → ∀ x ∈ s.radii, strict = false → x ≤ crop + 0.001
  le_coeff : ∀ x ∈ s.radii, strict = false → crop + 0.001 < x → x ≤ s.coeff
  strict_norecal : strict = true → s.recalibrate = false

theorem cropInv_init (img : Grid) (crop eps : ℝ) (strict : Bool) : CropInv img crop eps strict []
    { mask := Grid.zeros img.rows img.cols, phases := [], radii := [], thetas := [], recalibrate := false, coeff := 1 } := by
  constructor <;> simp [Grid.zeros]

open Classical in
theorem cropInv_step (img : Grid) (crop eps : ℝ) (strict : Bool) (ps : List (Nat × Nat)) (s : CropState) (p : Nat × Nat)
    (hp : p ∉ ps) (h : CropInv img crop eps strict ps s) :
    CropInv img crop eps strict (ps ++ [p]) (cropPixel img crop eps strict p.1 p.2 s) := by
  obtain ⟨i, j⟩ := p
  dsimp only
  unfold cropPixel
  by_cases ht : pixRadius img.rows img.cols i j - crop < eps
  · rw [if_pos ht]
    have ht' : Taken img crop eps (i, j) := ht
    set x := pixRadius img.rows img.cols i j with hx
    refine ⟨h.rows, h.cols, ?_, ?_, ?_, ?_, ?_, ?_, ?_, ?_, ?_, ?_⟩
    · intro a b
      dsimp only
      rw [h.mask a b]
      by_cases hab : a = i ∧ b = j
      · obtain ⟨rfl, rfl⟩ := hab
        rw [if_pos ⟨rfl, rfl⟩, if_neg (fun h => hp h.1), if_pos ⟨by simp, ht'⟩, zero_add]
      · rw [if_neg hab]
        have : (a, b) ∈ ps ++ [(i, j)] ↔ (a, b) ∈ ps := by
          simp only [List.mem_append, List.mem_singleton, Prod.mk.injEq]
          tauto
        exact if_congr (and_congr_left' this.symm) rfl rfl
    · simp [h.phases, List.filter_append, ht']
    · simp [h.radii, List.filter_append, ht', hx]
    · simp [h.thetas, List.filter_append, ht']
    · dsimp only
      have := h.one_le
      split_ifs <;> first | exact this | linarith
    · dsimp only
      have := h.coeff_of
      split_ifs
      · right; simp
      all_goals
        rcases this with h | h
        · exact Or.inl h
        · right; simp [h]
    · dsimp only
      by_cases hr : strict = false ∧ x - crop > 0.001
      · rw [if_pos hr, if_pos hr]
        intro _
        refine ⟨x, by simp, by linarith [hr.2], ?_⟩
        split_ifs with hc
        · exact le_rfl
        · exact not_lt.1 hc
      · rw [if_neg hr, if_neg hr]
        intro hh
        obtain ⟨y, hy, h1, h2⟩ := h.recal hh
        exact ⟨y, by simp [hy], h1, h2⟩
    · dsimp only
      by_cases hr : strict = false ∧ x - crop > 0.001
      · rw [if_pos hr]; intro hh; cases hh
      · rw [if_neg hr]
        intro hh y hy hs
        rcases List.mem_append.1 hy with hy | hy
        · exact h.norecal hh y hy hs
        · simp only [List.mem_singleton] at hy; subst hy
          by_contra hc
          exact hr ⟨hs, by linarith⟩
    · dsimp only
      intro y hy hs hgt
      rcases List.mem_append.1 hy with hy | hy
      · have := h.le_coeff y hy hs hgt
        split_ifs <;> first | exact this | linarith
      · simp only [List.mem_singleton] at hy; subst hy
        rw [if_pos ⟨hs, by linarith⟩]
        split_ifs with hc
        · exact le_rfl
        · exact not_lt.1 hc
    · intro hs
      dsimp only
      rw [if_neg (by simp [hs])]
      exact h.strict_norecal hs
  · rw [if_neg ht]
    have ht' : ¬ Taken img crop eps (i, j) := ht
    have hf : ∀ {β : Type} (f : Nat × Nat → β), open Classical in
        ((ps ++ [(i, j)]).filter (Taken img crop eps)).map f = (ps.filter (Taken img crop eps)).map f := by
      intro β f; simp [List.filter_append, ht']
    refine ⟨h.rows, h.cols, ?_, ?_, ?_, ?_, h.one_le, h.coeff_of, h.recal, h.norecal, h.le_coeff, h.strict_norecal⟩
    · intro a b
      rw [h.mask a b]
      have : ((a, b) ∈ ps ++ [(i, j)] ∧ Taken img crop eps (a, b)) ↔ ((a, b) ∈ ps ∧ Taken img crop eps (a, b)) := by
        simp only [List.mem_append, List.mem_singleton, Prod.mk.injEq]
        constructor
        · rintro ⟨h1 | ⟨rfl, rfl⟩, h2⟩
          · exact ⟨h1, h2⟩
          · exact absurd h2 ht'
        · rintro ⟨h1, h2⟩; exact ⟨Or.inl h1, h2⟩
      exact if_congr this.symm rfl rfl
    · rw [h.phases]; exact (hf _).symm
    · rw [h.radii]; exact (hf _).symm
    · rw [h.thetas]; exact (hf _).symm

theorem cropInv_loop (img : Grid) (crop eps : ℝ) (strict : Bool) :
    CropInv img crop eps strict (pixels img.rows img.cols) (cropLoop img crop eps strict) := by
  rw [cropLoop_eq]
  have gen : ∀ (qs ps : List (Nat × Nat)) (s : CropState), (ps ++ qs).Nodup → CropInv img crop eps strict ps s →
      CropInv img crop eps strict (ps ++ qs) (qs.foldl (fun s p => cropPixel img crop eps strict p.1 p.2 s) s) := by
    intro qs
    induction qs with
    | nil => intro ps s _ h; simpa using h
    | cons q qs ih =>
      intro ps s hn h
      have hq : q ∉ ps := by
        have := List.nodup_append.1 hn
        intro hm; exact this.2.2 q hm q (by simp) rfl
      have := ih (ps ++ [q]) _ (by simpa using hn) (cropInv_step img crop eps strict ps s q hq h)
      simpa using this
  simpa using gen (pixels img.rows img.cols) [] _ (by simpa using nodup_pixels _ _) (cropInv_init img crop eps strict)

/-! ### Numbers -/

theorem halfSize_eq (size : Nat) (h : 1 ≤ size) : halfSize size = ((size : ℝ) - 1) / 2 := by
  unfold halfSize
  split_ifs with hp
  · obtain ⟨k, rfl⟩ : ∃ k, size = 2 * k := ⟨size / 2, by omega⟩
    rw [Nat.mul_div_cancel_left k (by norm_num)]; push_cast; norm_num; ring
  · obtain ⟨k, rfl⟩ : ∃ k, size = 2 * k + 1 := ⟨size / 2, by omega⟩
    rw [show (2 * k + 1 - 1) / 2 = k by omega]; push_cast; ring

theorem cropR_eq (rows cols : Nat) (h : 3 ≤ min rows cols) :
    cropR rows cols = (((if max rows cols - min rows cols < 2 then max rows cols else min rows cols : Nat) : ℝ) - 1) / 2 := by
  unfold cropR
  have e1 : (if rows ≠ cols then min rows cols else rows) = min rows cols := by split_ifs <;> omega
  have e2 : (if rows ≠ cols then max rows cols else rows) = max rows cols := by split_ifs <;> omega
  simp only [e1, e2]
  split_ifs
  · rw [halfSize_eq _ (by omega)]
  · rw [halfSize_eq _ (by omega)]

theorem cropR_pos (rows cols : Nat) (h : 3 ≤ min rows cols) : 1 ≤ cropR rows cols := by
  rw [cropR_eq rows cols h]
  have : (3 : ℝ) ≤ ((if max rows cols - min rows cols < 2 then max rows cols else min rows cols : Nat) : ℝ) := by
    have : 3 ≤ (if max rows cols - min rows cols < 2 then max rows cols else min rows cols) := by split_ifs <;> omega
    exact_mod_cast this
  linarith

theorem pixRadius_nonneg (rows cols i j : Nat) (h : 3 ≤ min rows cols) : 0 ≤ pixRadius rows cols i j :=
  npRound_nonneg _ (div_nonneg (Real.sqrt_nonneg _) (by linarith [cropR_pos rows cols h]))

theorem pixTheta_mem (rows cols i j : Nat) : 0 ≤ pixTheta rows cols i j ∧ pixTheta rows cols i j < 2 * Real.pi := by
  unfold pixTheta
  obtain ⟨h1, h2⟩ := arctan2_mem (halfSize rows - i) (j - halfSize cols)
  have := Real.pi_pos
  dsimp only
  split_ifs with h
  · constructor <;> linarith
  · constructor <;> linarith

/-- The pixel next to the centre is taken: the crop is never empty. -/
theorem centre_near (rows cols : Nat) (h : 3 ≤ min rows cols) :
    pixRadius rows cols ((rows - 1) / 2) ((cols - 1) / 2) ≤ 0.5 := by
  have hR := cropR_pos rows cols h
  have key : Real.sqrt (((((rows - 1) / 2 : Nat) : ℝ) - halfSize rows) ^ 2 + ((((cols - 1) / 2 : Nat) : ℝ) - halfSize cols) ^ 2)
      ≤ 0.5 * cropR rows cols := by
    have hd : ∀ n : Nat, 3 ≤ n → ((((n - 1) / 2 : Nat) : ℝ) - halfSize n) ^ 2 = if n % 2 = 0 then 0.25 else 0 := by
      intro n hn
      rw [halfSize_eq n (by omega)]
      split_ifs with hp
      · obtain ⟨k, rfl⟩ : ∃ k, n = 2 * k + 2 := ⟨n / 2 - 1, by omega⟩
        rw [show (2 * k + 2 - 1) / 2 = k by omega]; push_cast; ring_nf
      · obtain ⟨k, rfl⟩ : ∃ k, n = 2 * k + 1 := ⟨n / 2, by omega⟩
        rw [show (2 * k + 1 - 1) / 2 = k by omega]; push_cast; ring
    rw [hd rows (by omega), hd cols (by omega)]
    rw [Real.sqrt_le_left (by positivity)]
    by_cases he : rows % 2 = 0 ∧ cols % 2 = 0
    · rw [if_pos he.1, if_pos he.2]
      have : (1.5 : ℝ) ≤ cropR rows cols := by
        rw [cropR_eq rows cols h]
        have : (4 : ℝ) ≤ ((if max rows cols - min rows cols < 2 then max rows cols else min rows cols : Nat) : ℝ) := by
          have : 4 ≤ (if max rows cols - min rows cols < 2 then max rows cols else min rows cols) := by
            obtain ⟨h1, h2⟩ := he
            split_ifs <;> omega
          exact_mod_cast this
        rw [show (1.5 : ℝ) = (4 - 1) / 2 by norm_num]
        linarith
      nlinarith
    · have : (if rows % 2 = 0 then (0.25 : ℝ) else 0) + (if cols % 2 = 0 then 0.25 else 0) ≤ 0.25 := by
        split_ifs <;> first | (norm_num; done) | (exfalso; tauto)
      nlinarith
  have : Real.sqrt (((((rows - 1) / 2 : Nat) : ℝ) - halfSize rows) ^ 2 + ((((cols - 1) / 2 : Nat) : ℝ) - halfSize cols) ^ 2)
      / cropR rows cols ≤ ((5000 : ℤ) : ℝ) / 10 ^ (4 : ℤ) := by
    rw [div_le_iff₀ (by linarith)]
    calc _ ≤ _ := key
      _ = _ := by norm_num
  have := npRound_mono 4 this
  rw [npRound_dec] at this
  unfold pixRadius
  calc _ ≤ _ := this
    _ = 0.5 := by norm_num

end Verif.Proofs
