import Verif.Proofs.PsfObj

/-! # The loop of `crop_kernel` -/

namespace Verif.Proofs
open Verif.Model Verif.Spec

theorem lineBelow_ok (v : ℝ) (l : List ℝ) (h : l ≠ []) : ∃ b, lineBelow v (.ok l) = .ok b ∧ (b = true ↔ ∀ x ∈ l, x < v) := by
  obtain ⟨top, h1, h2, h3⟩ := npMax_ok l h
  refine ⟨decide (top < v), ?_, ?_⟩
  · unfold lineBelow
    show (npMax l >>= fun top => pure (decide (top < v))) = _
    rw [h1]; rfl
  · rw [decide_eq_true_iff]
    exact ⟨fun h x hx => lt_of_le_of_lt (h3 x hx) h, fun h => h top h2⟩

/-- All elements in the four lines at the distance `u` from the border are less than `v`. -/
def Below (g : Grid) (n : Nat) (v : ℝ) (u : Nat) : Prop :=
  ∀ k < n, g.entry u k < v ∧ g.entry (n - 1 - u) k < v ∧ g.entry k u < v ∧ g.entry k (n - 1 - u) < v

theorem map_range_ne {n : Nat} (h : 0 < n) (f : Nat → ℝ) : (List.range n).map f ≠ [] := by
  intro e
  have := congrArg List.length e
  simp at this
  omega

theorem bordersBelow_ok (g : Grid) (n : Nat) (hr : g.rows = n) (hc : g.cols = n) (v : ℝ) (u : Nat) (hu : u < n) :
    ∃ b, bordersBelow g v u = .ok b ∧ (b = true ↔ Below g n v u) := by
  have e1 : g.row (u : Int) = .ok ((List.range n).map (g.entry u)) := by
    unfold Grid.row; rw [if_pos ⟨by omega, by omega⟩, hc]; simp
  have e2 : g.row ((g.rows : Int) - 1 - u) = .ok ((List.range n).map (g.entry (n - 1 - u))) := by
    unfold Grid.row; rw [if_pos ⟨by omega, by omega⟩, hc, hr]
    rw [show ((n : Int) - 1 - u).toNat = n - 1 - u by omega]
  have e3 : g.col (u : Int) = .ok ((List.range n).map fun i => g.entry i u) := by
    unfold Grid.col; rw [if_pos ⟨by omega, by omega⟩, hr]; simp
  have e4 : g.col ((g.cols : Int) - 1 - u) = .ok ((List.range n).map fun i => g.entry i (n - 1 - u)) := by
    unfold Grid.col; rw [if_pos ⟨by omega, by omega⟩, hc, hr]
    rw [show ((n : Int) - 1 - u).toNat = n - 1 - u by omega]
  obtain ⟨b1, f1, g1⟩ := lineBelow_ok v _ (map_range_ne (show 0 < n by omega) (g.entry u))
  obtain ⟨b2, f2, g2⟩ := lineBelow_ok v _ (map_range_ne (show 0 < n by omega) (g.entry (n - 1 - u)))
  obtain ⟨b3, f3, g3⟩ := lineBelow_ok v _ (map_range_ne (show 0 < n by omega) (fun i => g.entry i u))
  obtain ⟨b4, f4, g4⟩ := lineBelow_ok v _ (map_range_ne (show 0 < n by omega) (fun i => g.entry i (n - 1 - u)))
  refine ⟨b1 && b2 && b3 && b4, ?_, ?_⟩
  · unfold bordersBelow
    rw [e1, e2, e3, e4, f1, f2, f3, f4]; rfl
  · simp only [Bool.and_eq_true, g1, g2, g3, g4, List.mem_map, List.mem_range, forall_exists_index, and_imp, forall_apply_eq_imp_iff₂]
    unfold Below
    constructor
    · rintro ⟨⟨⟨h1, h2⟩, h3⟩, h4⟩ k hk
      exact ⟨h1 k hk, h2 k hk, h3 k hk, h4 k hk⟩
    · intro h
      exact ⟨⟨⟨fun k hk => (h k hk).1, fun k hk => (h k hk).2.1⟩, fun k hk => (h k hk).2.2.1⟩, fun k hk => (h k hk).2.2.2⟩

theorem cropSteps_ok (g : Grid) (n : Nat) (hr : g.rows = n) (hc : g.cols = n) (v : ℝ) (a b : Nat) (ha : a < n) (hb : b < n)
    (hv : v ≤ g.entry a b) (k : Nat) : ∀ u, u ≤ a → u ≤ n - 1 - a → min a (n - 1 - a) < u + k →
    ∃ t, cropSteps g v k u = .ok t ∧ u ≤ t ∧ t ≤ a ∧ t ≤ n - 1 - a ∧ (∀ w, u ≤ w → w < t → Below g n v w) ∧ ¬ Below g n v t := by
  induction k with
  | zero => intro u h1 h2 h3; omega
  | succ k ih =>
    intro u h1 h2 h3
    obtain ⟨c, hc1, hc2⟩ := bordersBelow_ok g n hr hc v u (by omega)
    unfold cropSteps
    rw [hc1]
    cases c with
    | false =>
      have : ¬ Below g n v u := fun h => by simpa using hc2.2 h
      exact ⟨u, rfl, le_rfl, h1, h2, fun w hw hw' => by omega, this⟩
    | true =>
      have hB : Below g n v u := hc2.1 rfl
      have hne : u ≠ a := by rintro rfl; exact absurd (hB b hb).1 (not_lt.2 hv)
      have hne' : u ≠ n - 1 - a := by
        rintro e
        have := (hB b hb).2.1
        rw [e, show n - 1 - (n - 1 - a) = a by omega] at this
        exact absurd this (not_lt.2 hv)
      obtain ⟨t, e, h4, h5, h6, h7, h8⟩ := ih (u + 1) (by omega) (by omega) (by omega)
      refine ⟨t, e, by omega, h5, h6, ?_, h8⟩
      intro w hw hw'
      rcases Nat.lt_or_ge u w with h | h
      · exact h7 w (by omega) hw'
      · rw [show w = u by omega]; exact hB

theorem cropBy_of (g : Grid) (n t : Nat) (part top : ℝ) (h2 : 2 * t < n) (hb : ∀ w, w < t → Below g n (part * top) w)
    (hn : ¬ Below g n (part * top) t) : CropBy g n part top t := by
  have hrem : ∀ i j, i < n → j < n → (i < t ∨ n - t ≤ i ∨ j < t ∨ n - t ≤ j) → g.entry i j < part * top := by
    intro i j hi hj h
    rcases h with h | h | h | h
    · exact (hb i h j hj).1
    · have := (hb (n - 1 - i) (by omega) j hj).2.1
      rwa [show n - 1 - (n - 1 - i) = i by omega] at this
    · exact (hb j h i hi).2.2.1
    · have := (hb (n - 1 - j) (by omega) i hi).2.2.2
      rwa [show n - 1 - (n - 1 - j) = j by omega] at this
  refine ⟨h2, hrem, ?_⟩
  unfold Below at hn
  push Not at hn
  obtain ⟨k, hk, hn⟩ := hn
  by_cases hk1 : g.entry t k < part * top
  · by_cases hk2 : g.entry (n - 1 - t) k < part * top
    · by_cases hk3 : g.entry k t < part * top
      · have h4 := hn hk1 hk2 hk3
        have : ¬ (k < t ∨ n - t ≤ k) := fun h => absurd (hrem k (n - 1 - t) hk (by omega) (by tauto)) (not_lt.2 h4)
        exact ⟨k, n - 1 - t, by omega, by omega, by omega, by omega, by omega, h4⟩
      · have : ¬ (k < t ∨ n - t ≤ k) := fun h => hk3 (hrem k t hk (by omega) (by tauto))
        exact ⟨k, t, by omega, by omega, by omega, by omega, by omega, not_lt.1 hk3⟩
    · have : ¬ (k < t ∨ n - t ≤ k) := fun h => hk2 (hrem (n - 1 - t) k (by omega) hk (by tauto))
      exact ⟨n - 1 - t, k, by omega, by omega, by omega, by omega, by omega, not_lt.1 hk2⟩
  · have : ¬ (k < t ∨ n - t ≤ k) := fun h => hk1 (hrem t k (by omega) hk (by tauto))
    exact ⟨t, k, by omega, by omega, by omega, by omega, by omega, not_lt.1 hk1⟩

/-- The number of lines of `CropBy` is unique. -/
theorem cropBy_unique (g : Grid) (n : Nat) (part top : ℝ) (t t' : Nat) (h : CropBy g n part top t) (h' : CropBy g n part top t') : t = t' := by
  have key : ∀ t t', CropBy g n part top t → CropBy g n part top t' → t ≤ t' := by
    intro t t' h h'
    by_contra hlt
    obtain ⟨i, j, h1, h2, h3, h4, h5, h6⟩ := h'.border
    have := h.nonempty
    exact absurd (h.removed i j (by omega) (by omega) (by omega)) (not_lt.2 h6)
  exact le_antisymm (key _ _ h h') (key _ _ h' h)

theorem crop_spec (o : PsfObj) (n : Nat) (hr : o.kernel.rows = n) (hc : o.kernel.cols = n) (h0 : 0 < n)
    (hnn : ∀ i j, i < n → j < n → 0 ≤ o.kernel.entry i j) (hs : 3 < o.kernelSize) (part : ℝ) (hp : 0 < part) (hp' : part < 1 / 2) :
    ∃ top t, IsMax o.kernel n top ∧ CropBy o.kernel n part top t ∧
      o.crop part = (.ok (), if t = 0 then o else { o with kernel := o.kernel.inner t, kernelSize := ((n - 2 * t : Nat) : Int) }) := by
  have hne : o.kernel.elems ≠ [] := by
    have : o.kernel.entry 0 0 ∈ o.kernel.elems := (mem_elems _ _).2 ⟨0, 0, by omega, by omega, rfl⟩
    intro h; rw [h] at this; simp at this
  obtain ⟨top, h1, h2, h3⟩ := npMax_ok _ hne
  obtain ⟨a, b, ha, hb, hab⟩ := (mem_elems _ _).1 h2
  rw [hr] at ha
  rw [hc] at hb
  have htop : 0 ≤ top := hab ▸ hnn a b ha hb
  have hv : part * top ≤ o.kernel.entry a b := by rw [hab]; nlinarith
  obtain ⟨t, e, _, h5, h6, h7, h8⟩ := cropSteps_ok o.kernel n hr hc (part * top) a b ha hb hv (n + 1) 0 (by omega) (by omega) (by omega)
  have hC := cropBy_of o.kernel n t part top (by omega) (fun w hw => h7 w (by omega) hw) h8
  refine ⟨top, t, ⟨⟨a, b, ha, hb, hab⟩, fun i j hi hj => h3 _ ((mem_elems _ _).2 ⟨i, j, by omega, by omega, rfl⟩)⟩, hC, ?_⟩
  unfold PsfObj.crop
  rw [if_pos hs, h1]
  simp only []
  rw [if_neg (by linarith), if_neg (by norm_num; linarith), hr, e]
  simp only []
  by_cases ht : t = 0
  · rw [if_neg (by omega), if_pos ht]
  · rw [if_pos (by omega), if_neg ht]
    simp [Grid.inner, hr]

end Verif.Proofs
