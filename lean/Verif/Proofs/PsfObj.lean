import Verif.Model.PsfObj
import Verif.Proofs.Kernel

/-! # Invariants of `ZernPSF` objects -/

namespace Verif.Proofs
open Verif.Model Verif.Spec

/-- Whatever the coefficient tables: if `x` returns, its value satisfies `P`. -/
def Post {β : Type} (x : CM β) (P : β → Prop) : Prop := ∀ s v s', x s = (.ok v, s') → P v

theorem Post.bind {β γ : Type} {x : CM β} {f : β → CM γ} {P : β → Prop} {Q : γ → Prop} (hx : Post x P) (hf : ∀ v, P v → Post (f v) Q) :
    Post (x >>= f) Q := by
  intro s w s' h
  rw [cm_bind] at h
  rcases hc : x s with ⟨r, s1⟩
  rw [hc] at h
  cases r with
  | error e => simp at h
  | ok v => exact hf v (hx s v s1 hc) s1 w s' h

theorem Post.any {β : Type} (x : CM β) : Post x fun _ => True := fun _ _ _ _ => trivial

theorem Post.pure {β : Type} {P : β → Prop} (v : β) (h : P v) : Post (pure v : CM β) P := by
  intro s w s' e
  have : (Except.ok v, s) = ((Except.ok w : Res β), s') := e
  cases this
  exact h

theorem Post.raise {β : Type} {P : β → Prop} (e : PyErr) : Post (CM.raise e : CM β) P := by
  intro s w s' h
  have : (Except.error e, s) = ((Except.ok w : Res β), s') := h
  cases this

theorem Post.lift {β : Type} {P : β → Prop} {r : Res β} (h : ∀ v, r = .ok v → P v) : Post (CM.lift r) P := by
  intro s w s' e
  have : (r, s) = (.ok w, s') := e
  cases this
  exact h w rfl

theorem Post.mono {β : Type} {P Q : β → Prop} {x : CM β} (h : Post x P) (hPQ : ∀ v, P v → Q v) : Post x Q :=
  fun s v s' e => hPQ v (h s v s' e)

theorem psfPoint_post (ph : Phase) (r theta : ℝ) (nR nPhi : Int) : Post (psfPoint ph r theta nR nPhi) (0 ≤ ·) := by
  unfold psfPoint
  split_ifs
  · exact Post.raise _
  · refine Post.bind (Post.any _) fun a _ => Post.bind (Post.any _) fun b _ => Post.bind (Post.any _) fun c _ => Post.bind (Post.any _) fun d _ => ?_
    exact Post.pure _ (by positivity)

/-- All elements are non-negative. -/
def NN (g : Grid) : Prop := ∀ a b, 0 ≤ g.entry a b

theorem fillRow_post (f : Nat → Nat → CM ℝ) (hf : ∀ i j, Post (f i j) (0 ≤ ·)) (i k : Nat) : ∀ (j : Nat) (S : Grid), NN S →
    Post (fillRow f i k j S) fun S' => S'.rows = S.rows ∧ S'.cols = S.cols ∧ NN S' := by
  induction k with
  | zero => intro j S h; exact Post.pure _ ⟨rfl, rfl, h⟩
  | succ k ih =>
    intro j S h
    refine Post.bind (hf i j) fun v hv => ?_
    refine ih (j + 1) _ ?_
    intro a b
    simp only
    split_ifs
    · exact hv
    · exact h a b

theorem fillRows_post (f : Nat → Nat → CM ℝ) (hf : ∀ i j, Post (f i j) (0 ≤ ·)) (cols k : Nat) : ∀ (i : Nat) (S : Grid), NN S →
    Post (fillRows f cols k i S) fun S' => S'.rows = S.rows ∧ S'.cols = S.cols ∧ NN S' := by
  induction k with
  | zero => intro i S h; exact Post.pure _ ⟨rfl, rfl, h⟩
  | succ k ih =>
    intro i S h
    refine Post.bind (fillRow_post f hf i cols 0 S h) ?_
    rintro S1 ⟨h1, h2, h3⟩
    refine (ih (i + 1) S1 h3).mono ?_
    rintro S2 ⟨h4, h5, h6⟩
    exact ⟨h4.trans h1, h5.trans h2, h6⟩

/-- `g` is a square of `size × size` elements, none of them negative. -/
def SquareNN (size : Int) (g : Grid) : Prop := (g.rows : Int) = size ∧ (g.cols : Int) = size ∧ NN g

theorem normalize_post (g g' : Grid) (h : NN g) (e : normalizeKernel g = .ok g') : g'.rows = g.rows ∧ g'.cols = g.cols ∧ NN g' := by
  unfold normalizeKernel at e
  by_cases hne : g.elems = []
  · rw [hne] at e
    cases e
  · obtain ⟨top, h1, h2, _⟩ := npMax_ok _ hne
    rw [h1] at e
    obtain ⟨i, j, _, _, hij⟩ := (mem_elems g top).1 h2
    have ht : 0 ≤ top := hij ▸ h i j
    have e2 : ({ g with entry := fun i j => g.entry i j / top } : Grid) = g' := by
      have : (Except.ok ({ g with entry := fun i j => g.entry i j / top } : Grid) : Res Grid) = .ok g' := e
      cases this; rfl
    subst e2
    exact ⟨rfl, rfl, fun a b => div_nonneg (h a b) ht⟩

theorem makeKernel_post (size : Int) (NA : ℝ) (f : Nat → Nat → CM ℝ) (nrm : Bool) (hf : ∀ i j, Post (f i j) (0 ≤ ·)) :
    Post (makeKernel size NA f nrm) (SquareNN size) := by
  unfold makeKernel
  split_ifs with h1 h2 h3
  · exact Post.raise _
  · exact Post.raise _
  all_goals
    refine Post.bind (fillRows_post f hf _ _ 0 (Grid.zeros size.toNat size.toNat) (fun a b => le_rfl)) ?_
    rintro g ⟨hr, hc, hn⟩
    have hr' : (g.rows : Int) = size := by simp only [Grid.zeros] at hr; omega
    have hc' : (g.cols : Int) = size := by simp only [Grid.zeros] at hc; omega
    first
      | exact Post.pure _ ⟨hr', hc', hn⟩
      | refine Post.lift fun v hv => ?_
        obtain ⟨h4, h5, h6⟩ := normalize_post g v hn hv
        exact ⟨by omega, by omega, h6⟩

theorem airyRef_nonneg (j1 : ℝ → ℝ) (r : ℝ) : 0 ≤ airyRef j1 r := by
  unfold airyRef
  positivity

/-- The size of the kernel of one polynomial: the requested one, or the estimated one when less than 3 is requested. -/
def PlainSize (o : PolObj) (coeff : ℝ) (q : KernelParams) (size : Int) : Prop :=
  (3 ≤ q.kernelSize ∧ size = makeOdd q.kernelSize) ∨ (q.kernelSize < 3 ∧
    ∃ s, getKernelSize o.m o.n q.len2pixels (coeff / q.wavelength) q.wavelength q.NA = .ok s ∧ size = makeOdd s)

theorem getPsfKernel_post (fuel : Nat) (j1 : ℝ → ℝ) (o : PolObj) (coeff : ℝ) (q : KernelParams) (airy : Bool) :
    Post (getPsfKernel fuel j1 o coeff q airy) fun g => ∃ size, PlainSize o coeff q size ∧ SquareNN size g := by
  unfold getPsfKernel
  by_cases h1 : q.wavelength = 0
  · rw [if_pos h1]; exact Post.raise _
  · rw [if_neg h1]
    have hf : ∀ (size : Int) (i j : Nat), Post (if airy = true then pure (airyRef j1 (kernelDist size (2 * Real.pi / q.wavelength) q.NA q.len2pixels i j))
        else psfPoint (singlePhase fuel o (coeff / q.wavelength)) (kernelDist size (2 * Real.pi / q.wavelength) q.NA q.len2pixels i j)
          (kernelTheta size i j) q.nR q.nPhi) (0 ≤ ·) := by
      intro size i j
      cases airy with
      | true => exact Post.pure _ (airyRef_nonneg _ _)
      | false => exact psfPoint_post _ _ _ _ _
    by_cases h2 : q.kernelSize < 3
    · simp only [if_pos h2]
      refine Post.bind (P := fun s => getKernelSize o.m o.n q.len2pixels (coeff / q.wavelength) q.wavelength q.NA = .ok s)
        (Post.lift fun v hv => hv) fun s hs => ?_
      exact (makeKernel_post _ _ _ _ (hf _)).mono fun g hg => ⟨_, Or.inr ⟨h2, s, hs, rfl⟩, hg⟩
    · simp only [if_neg h2]
      refine Post.bind (P := fun s => s = q.kernelSize) (Post.lift fun v hv => by cases hv; rfl) fun s hs => ?_
      subst hs
      exact (makeKernel_post _ _ _ _ (hf _)).mono fun g hg => ⟨_, Or.inl ⟨by omega, rfl⟩, hg⟩

theorem getPsfKernelZerns_post (fuel : Nat) (l : List (ℝ × PolObj)) (q : KernelParams) :
    Post (getPsfKernelZerns fuel l q) (SquareNN (makeOdd q.kernelSize)) := by
  unfold getPsfKernelZerns
  split_ifs
  · exact Post.raise _
  · exact makeKernel_post _ _ _ _ fun i j => psfPoint_post _ _ _ _ _

theorem getPsfKernelComp_post (o : PolObj) (coeff : ℝ) (q : KernelParams) :
    Post (getPsfKernelComp o coeff q) (SquareNN (makeOdd q.kernelSize)) := by
  unfold getPsfKernelComp
  simp only []
  split_ifs
  · exact Post.raise _
  · exact Post.raise _
  · exact Post.raise _
  · exact makeKernel_post _ _ _ _ fun i j => psfPoint_post _ _ _ _ _

theorem getPsfKernelCompPols_post (l : List (ℝ × PolObj)) (q : KernelParams) :
    Post (getPsfKernelCompPols l q) (SquareNN (makeOdd q.kernelSize)) := by
  unfold getPsfKernelCompPols
  simp only []
  split_ifs
  · exact Post.raise _
  · exact Post.raise _
  · exact Post.raise _
  · exact makeKernel_post _ _ _ _ fun i j => psfPoint_post _ _ _ _ _

theorem makeOdd_of_odd {s : Int} (h : s % 2 = 1) : makeOdd s = s := by unfold makeOdd; rw [if_neg (by omega)]

theorem sizeMultiplier_nonneg (m n : Int) (NA : ℝ) (a : ℝ) (e : Int) (h : sizeMultiplier m n NA = .ok (a, e)) : 0 ≤ a ∧ 0 ≤ e := by
  unfold sizeMultiplier at h
  have hr := rint_nonneg (Real.sqrt_nonneg ((n + |m| : ℤ) : ℝ))
  split_ifs at h with h0 h1 h2 h3 h4 h5
  all_goals
    simp only [Except.ok.injEq, Prod.mk.injEq] at h
    obtain ⟨rfl, rfl⟩ := h
  · exact ⟨by linarith [h1.2], le_rfl⟩
  all_goals exact ⟨by positivity, by omega⟩

/-- An estimated kernel size is an odd positive number, for all orders. -/
theorem getKernelSize_odd (m n : Int) (px alpha wl NA : ℝ) (hpx : 0 < px) (hwl : 0 ≤ wl) (s : Int)
    (h : getKernelSize m n px alpha wl NA = .ok s) : s % 2 = 1 ∧ 1 ≤ s := by
  unfold getKernelSize at h
  rcases hc : sizeMultiplier m n NA with e | ⟨a, e⟩
  · rw [hc] at h; cases h
  · obtain ⟨h2, h3⟩ := sizeMultiplier_nonneg m n NA a e hc
    rw [hc] at h
    have key : ∀ (x : ℝ) (y : Int), 0 ≤ x → 0 ≤ y → (pure (if (rint (x * wl / px) + 1 + y) % 2 = 0 then rint (x * wl / px) + 1 + y + 1
        else rint (x * wl / px) + 1 + y) : Res Int) = .ok s → s % 2 = 1 ∧ 1 ≤ s := by
      intro x y hx hy he
      have := rint_nonneg (show 0 ≤ x * wl / px by positivity)
      have he' : (if (rint (x * wl / px) + 1 + y) % 2 = 0 then rint (x * wl / px) + 1 + y + 1 else rint (x * wl / px) + 1 + y) = s := by
        cases he; rfl
      rw [← he']
      split_ifs <;> omega
    refine key _ _ ?_ ?_ h
    · split_ifs <;> positivity
    · split_ifs <;> omega

theorem sizeLoop_nonneg (px wl NA : ℝ) (hpx : 0 < px) (hwl : 0 ≤ wl) (ps : List ZernPol) : ∀ (as : List ℝ) (acc r : Int × ℝ),
    0 ≤ acc.1 → sizeLoop px wl NA ps as acc = .ok r → 0 ≤ r.1 := by
  induction ps with
  | nil => intro as acc r h e; cases e; exact h
  | cons p ps ih =>
    intro as acc r h e
    cases as with
    | nil => cases e
    | cons a as =>
      obtain ⟨size, ampl⟩ := acc
      unfold sizeLoop at e
      rcases hc : getKernelSize p.m p.n px a wl NA with er | s
      · rw [hc] at e; cases e
      · rw [hc] at e
        have := getKernelSize_odd _ _ _ _ _ _ hpx hwl s hc
        refine ih as _ r ?_ e
        simp only at h ⊢
        split_ifs <;> omega

theorem enlarge_odd (size : Int) (ampl : ℝ) (n : Nat) (h : 0 ≤ size) : enlarge size ampl n % 2 = 1 ∧ 1 ≤ enlarge size ampl n := by
  unfold enlarge
  have h1 := rint_nonneg (show 0 ≤ (0.6 : ℝ) * n by positivity)
  have h2 := rint_nonneg (show 0 ≤ (1.0 : ℝ) * n by positivity)
  have h3 := rint_nonneg (show 0 ≤ (1.4 : ℝ) * n by positivity)
  refine ⟨makeOdd_odd _, ?_⟩
  generalize hg : (if 0.25 ≤ ampl ∧ ampl < 0.5 then size + rint (0.6 * n) else if 0.5 ≤ ampl ∧ ampl < 0.75 then size + rint (1.0 * n)
    else if ampl ≥ 0.75 then size + rint (1.4 * n) else size) = w
  have hw : 0 ≤ w := by rw [← hg]; split_ifs <;> omega
  have := makeOdd_odd w
  have := makeOdd_ge w
  omega

theorem estimateSize_odd (o : PsfObj) (hpx : 0 < o.pixelSize) (hwl : 0 < o.wavelength) (s : Int) (h : o.estimateSize = .ok s) :
    s % 2 = 1 ∧ 1 ≤ s := by
  unfold PsfObj.estimateSize at h
  split at h
  · exact getKernelSize_odd _ _ _ _ _ _ hpx hwl.le s h
  · split at h
    · cases h
    · rename_i ps as _ _
      rcases hc : sizeLoop o.pixelSize o.wavelength o.NA o.polynomials (o.amplitudes.getD []) (0, 0) with e | ⟨size, ampl⟩
      · rw [hc] at h; cases h
      · rw [hc] at h
        have := sizeLoop_nonneg _ _ _ hpx hwl.le _ _ _ _ (by simp) hc
        have he : enlarge size ampl o.polynomials.length = s := by cases h; rfl
        rw [← he]
        exact enlarge_odd _ _ _ this

end Verif.Proofs
