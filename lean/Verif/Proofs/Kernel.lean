import Verif.Proofs.PsfBound
import Verif.Proofs.Numeric
import Verif.Spec.Kernel

/-! # Filling and normalising a PSF kernel -/

namespace Verif.Proofs
open Verif.Model Verif.Spec

theorem fillRow_ok (f : Nat → Nat → CM ℝ) (v : Nat → Nat → ℝ) (i : Nat) (k : Nat) : ∀ (j : Nat) (S : Grid),
    (∀ b, j ≤ b → b < j + k → Ret (f i b) (v i b)) →
    RetP (fillRow f i k j S) fun S' => S'.rows = S.rows ∧ S'.cols = S.cols ∧ ∀ a b,
      S'.entry a b = if a = i ∧ j ≤ b ∧ b < j + k then v a b else S.entry a b := by
  induction k with
  | zero =>
    intro j S _
    exact retP_pure _ ⟨rfl, rfl, fun a b => by rw [if_neg (by omega)]⟩
  | succ k ih =>
    intro j S h
    refine Ret.bindP (h j le_rfl (by omega)) ?_
    refine (ih (j + 1) _ fun b hb hb' => h b (by omega) (by omega)).mono ?_
    rintro S' ⟨h1, h2, h3⟩
    refine ⟨h1, h2, fun a b => ?_⟩
    rw [h3]
    simp only
    by_cases ha : a = i
    · subst ha
      by_cases hb : b = j
      · subst hb; rw [if_neg (by omega), if_pos (by simp), if_pos (by omega)]
      · by_cases hc : j + 1 ≤ b ∧ b < j + 1 + k
        · rw [if_pos (by omega), if_pos (by omega)]
        · rw [if_neg (by omega), if_neg (by omega), if_neg (by omega)]
    · rw [if_neg (by omega), if_neg (by omega), if_neg (by omega)]

theorem fillRows_ok (f : Nat → Nat → CM ℝ) (v : Nat → Nat → ℝ) (cols k : Nat) : ∀ (i : Nat) (S : Grid),
    (∀ a b, i ≤ a → a < i + k → b < cols → Ret (f a b) (v a b)) →
    RetP (fillRows f cols k i S) fun S' => S'.rows = S.rows ∧ S'.cols = S.cols ∧ ∀ a b,
      S'.entry a b = if i ≤ a ∧ a < i + k ∧ b < cols then v a b else S.entry a b := by
  induction k with
  | zero =>
    intro i S _
    exact retP_pure _ ⟨rfl, rfl, fun a b => by rw [if_neg (by omega)]⟩
  | succ k ih =>
    intro i S h
    refine RetP.bind (fillRow_ok f v i cols 0 S fun b _ hb => h i b le_rfl (by omega) (by omega)) ?_
    rintro S1 ⟨r1, c1, e1⟩
    refine (ih (i + 1) S1 fun a b ha ha' hb => h a b (by omega) (by omega) hb).mono ?_
    rintro S' ⟨h1, h2, h3⟩
    refine ⟨h1.trans r1, h2.trans c1, fun a b => ?_⟩
    rw [h3, e1]
    by_cases hb : b < cols
    · by_cases ha : a = i
      · subst ha; rw [if_neg (by omega), if_pos (by omega), if_pos (by omega)]
      · by_cases hc : i + 1 ≤ a ∧ a < i + 1 + k
        · rw [if_pos (by omega), if_pos (by omega)]
        · rw [if_neg (by omega), if_neg (by omega), if_neg (by omega)]
    · rw [if_neg (by omega), if_neg (by omega), if_neg (by omega)]

theorem mem_elems (g : Grid) (x : ℝ) : x ∈ g.elems ↔ ∃ i j, i < g.rows ∧ j < g.cols ∧ g.entry i j = x := by
  unfold Grid.elems
  simp only [List.mem_flatMap, List.mem_map, List.mem_range]
  constructor
  · rintro ⟨i, hi, j, hj, rfl⟩; exact ⟨i, j, hi, hj, rfl⟩
  · rintro ⟨i, j, hi, hj, rfl⟩; exact ⟨i, hi, j, hj, rfl⟩

theorem npMax_ok (l : List ℝ) (h : l ≠ []) : ∃ top, npMax l = .ok top ∧ top ∈ l ∧ ∀ x ∈ l, x ≤ top := by
  cases l with
  | nil => exact absurd rfl h
  | cons a t =>
    refine ⟨t.foldl max a, rfl, ?_, ?_⟩
    · clear h
      induction t generalizing a with
      | nil => simp
      | cons b t ih =>
        have := ih (max a b)
        rw [List.foldl_cons]
        rcases List.mem_cons.1 this with h | h
        · rw [h]; rcases max_cases a b with ⟨e, _⟩ | ⟨e, _⟩ <;> rw [e] <;> simp
        · simp [h]
    · have key : ∀ (t : List ℝ) (a x : ℝ), (x ≤ a ∨ x ∈ t) → x ≤ t.foldl max a := by
        intro t
        induction t with
        | nil => intro a x h; simpa using h
        | cons b t ih =>
          intro a x h
          rw [List.foldl_cons]
          apply ih
          rcases h with h | h
          · exact Or.inl (h.trans (le_max_left _ _))
          · rcases List.mem_cons.1 h with h | h
            · exact Or.inl (h ▸ le_max_right _ _)
            · exact Or.inr h
      intro x hx
      apply key
      rcases List.mem_cons.1 hx with h | h
      · exact Or.inl h.le
      · exact Or.inr h

theorem normalize_ok (g : Grid) (size : Nat) (hs : 0 < size) (v : Nat → Nat → ℝ) (h : IsKernel g size v) :
    ∃ g' a b, normalizeKernel g = .ok g' ∧ a < size ∧ b < size ∧ (∀ i j, i < size → j < size → v i j ≤ v a b) ∧
      IsKernel g' size fun i j => v i j / v a b := by
  obtain ⟨hr, hc, he⟩ := h
  have hne : g.elems ≠ [] := by
    have : g.entry 0 0 ∈ g.elems := (mem_elems g _).2 ⟨0, 0, by omega, by omega, rfl⟩
    intro h0; rw [h0] at this; simp at this
  obtain ⟨top, h1, h2, h3⟩ := npMax_ok _ hne
  obtain ⟨a, b, ha, hb, rfl⟩ := (mem_elems g _).1 h2
  rw [hr] at ha
  rw [hc] at hb
  refine ⟨{ g with entry := fun i j => g.entry i j / g.entry a b }, a, b, ?_, ha, hb, ?_, hr, hc, ?_⟩
  · unfold normalizeKernel
    rw [h1]; rfl
  · intro i j hi hj
    rw [← he i j hi hj, ← he a b ha hb]
    exact h3 _ ((mem_elems g _).2 ⟨i, j, by omega, by omega, rfl⟩)
  · intro i j hi hj
    simp only
    rw [he i j hi hj, he a b ha hb]

/-- The kernel with the given elements, as a pure function. -/
noncomputable def pureKernel (size : Nat) (v : Nat → Nat → ℝ) (nrm : Bool) : Res Grid :=
  let g : Grid := ⟨size, size, fun a b => if a < size ∧ b < size then v a b else 0⟩
  if nrm then normalizeKernel g else .ok g

theorem makeKernel_res (size : Int) (hs : 0 ≤ size) (NA : ℝ) (hNA : NA ≠ 0) (f : Nat → Nat → CM ℝ) (v : Nat → Nat → ℝ) (nrm : Bool)
    (h : ∀ i j, i < size.toNat → j < size.toNat → Ret (f i j) (v i j)) (s : CoefState) (hg : Good s) :
    (makeKernel size NA f nrm s).1 = pureKernel size.toNat v nrm := by
  have hr : Ret (fillRows f size.toNat size.toNat 0 (Grid.zeros size.toNat size.toNat))
      ⟨size.toNat, size.toNat, fun a b => if a < size.toNat ∧ b < size.toNat then v a b else 0⟩ := by
    intro s hs
    obtain ⟨⟨g, e, h1, h2, h3⟩, hg⟩ := fillRows_ok f v size.toNat size.toNat 0 (Grid.zeros size.toNat size.toNat)
      (fun a b _ ha hb => h a b (by simpa using ha) hb) s hs
    refine ⟨?_, hg⟩
    rw [e]
    obtain ⟨r, c, en⟩ := g
    simp only [Grid.zeros] at h1 h2 h3
    subst h1 h2
    congr 2
    funext a b
    rw [h3]
    by_cases hab : a < size.toNat ∧ b < size.toNat
    · rw [if_pos (by omega), if_pos hab]
    · rw [if_neg (by omega), if_neg hab]
  unfold makeKernel pureKernel
  rw [if_neg (by omega), if_neg hNA, cm_bind]
  have := (hr s hg).1
  rcases hc : fillRows f size.toNat size.toNat 0 (Grid.zeros size.toNat size.toNat) s with ⟨r, s'⟩
  rw [hc] at this
  simp only at this
  subst this
  cases nrm <;> rfl

theorem polar_arctan2 (x y : ℝ) : Real.sqrt (x ^ 2 + y ^ 2) * Real.cos (arctan2 x y) = y ∧
    Real.sqrt (x ^ 2 + y ^ 2) * Real.sin (arctan2 x y) = x := by
  have hn : Real.sqrt (x ^ 2 + y ^ 2) = ‖(⟨y, x⟩ : ℂ)‖ := by
    rw [Complex.norm_def, Complex.normSq_mk]; congr 1; ring
  unfold arctan2
  rw [hn]
  exact ⟨Complex.norm_mul_cos_arg ⟨y, x⟩, Complex.norm_mul_sin_arg ⟨y, x⟩⟩

theorem psf_pixel (Φ : ℝ → ℝ → ℝ) (size : Int) (k NA px : ℝ) (i j : Nat) (nR nPhi : ℕ) :
    psfValue Φ (kernelDist size k NA px i j) (kernelTheta size i j) nR nPhi =
      psfXY Φ (k * NA * px * (((size / 2 : Int) : ℝ) - j)) (k * NA * px * (((size / 2 : Int) : ℝ) - i)) nR nPhi := by
  rw [psfValue_xy]
  obtain ⟨h1, h2⟩ := polar_arctan2 ((i : ℝ) - ((size / 2 : Int) : ℝ)) ((j : ℝ) - ((size / 2 : Int) : ℝ))
  unfold kernelDist kernelTheta
  rw [Real.cos_add_pi, Real.sin_add_pi]
  congr 1
  · linear_combination (-(k * NA * px)) * h1
  · linear_combination (-(k * NA * px)) * h2

theorem ret_res {β γ : Type} {x : CM β} {f : β → CM γ} {v : β} {w : Res γ} (hx : Ret x v) (hf : ∀ s, Good s → (f v s).1 = w)
    (s : CoefState) (hs : Good s) : ((x >>= f) s).1 = w := by
  obtain ⟨h1, h2⟩ := hx s hs
  rw [cm_bind]
  rcases hc : x s with ⟨r, s'⟩
  rw [hc] at h1 h2
  simp only at h1 h2
  subst h1
  exact hf s' h2

theorem pureKernel_of (size : Nat) (hs : 0 < size) (v : Nat → Nat → ℝ) (nrm : Bool) :
    ∃ g, pureKernel size v nrm = .ok g ∧ KernelOf nrm size v g := by
  have hk : IsKernel ⟨size, size, fun a b => if a < size ∧ b < size then v a b else 0⟩ size v :=
    ⟨rfl, rfl, fun i j hi hj => if_pos ⟨hi, hj⟩⟩
  cases nrm with
  | false => exact ⟨_, rfl, by simpa [KernelOf] using hk⟩
  | true =>
    obtain ⟨g', a, b, e, ha, hb, hm, hg⟩ := normalize_ok _ size hs v hk
    refine ⟨g', ?_, ?_⟩
    · simpa [pureKernel] using e
    · simp only [KernelOf, if_true]
      exact ⟨a, b, ha, hb, hm, hg⟩

theorem pureKernel_congr (size : Nat) (v w : Nat → Nat → ℝ) (nrm : Bool) (h : ∀ i j, i < size → j < size → v i j = w i j) :
    pureKernel size v nrm = pureKernel size w nrm := by
  have : (fun a b => if a < size ∧ b < size then v a b else 0) = fun a b => if a < size ∧ b < size then w a b else 0 := by
    funext a b
    split_ifs with hab
    · exact h a b hab.1 hab.2
    · rfl
  unfold pureKernel
  rw [this]

theorem makeOdd_odd (s : Int) : makeOdd s % 2 = 1 := by unfold makeOdd; split_ifs <;> omega

theorem makeOdd_ge (s : Int) : s ≤ makeOdd s := by unfold makeOdd; split_ifs <;> omega

theorem rint_nonneg {x : ℝ} (h : 0 ≤ x) : 0 ≤ rint x := le_rint (by simpa using h)

theorem sizeMultiplier_ok (m n : Int) (hv : ValidOrders m n) (NA : ℝ) (hNA : 0 < NA) :
    ∃ a e, sizeMultiplier m n NA = .ok (a, e) ∧ 0 ≤ a ∧ 0 ≤ e := by
  have h := hv.1
  have h2 := hv.2.1
  unfold sizeMultiplier
  by_cases h0 : m = 0 ∧ n = 0
  · rw [if_pos h0]
    split_ifs with hn h1 h2
    · exact ⟨_, _, rfl, by linarith [hn.2], le_rfl⟩
    · linarith
    · linarith
    · exact ⟨_, _, rfl, by positivity, le_rfl⟩
  · rw [if_neg h0, if_neg (by omega), if_neg (by omega)]
    refine ⟨_, _, rfl, ?_, ?_⟩
    · split_ifs <;> positivity
    · split_ifs
      · have := rint_nonneg (Real.sqrt_nonneg ((n + |m| : ℤ) : ℝ)); omega
      · exact le_rfl

/-- The estimated kernel size is an odd positive number. -/
theorem getKernelSize_ok (m n : Int) (hv : ValidOrders m n) (px alpha wl NA : ℝ) (hpx : 0 < px) (hwl : 0 ≤ wl) (hNA : 0 < NA) :
    ∃ s, getKernelSize m n px alpha wl NA = .ok s ∧ s % 2 = 1 ∧ 1 ≤ s := by
  obtain ⟨a, e, h1, h2, h3⟩ := sizeMultiplier_ok m n hv NA hNA
  unfold getKernelSize
  rw [h1]
  have key : ∀ (x : ℝ) (y : Int), 0 ≤ x → 0 ≤ y → ∃ s : Int, (pure (if (rint (x * wl / px) + 1 + y) % 2 = 0 then rint (x * wl / px) + 1 + y + 1
      else rint (x * wl / px) + 1 + y) : Res Int) = .ok s ∧ s % 2 = 1 ∧ 1 ≤ s := by
    intro x y hx hy
    have := rint_nonneg (show 0 ≤ x * wl / px by positivity)
    refine ⟨_, rfl, ?_, ?_⟩ <;> split_ifs <;> omega
  apply key
  · split_ifs <;> positivity
  · split_ifs <;> omega

end Verif.Proofs
