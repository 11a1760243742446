import Verif.Spec.EndToEnd
import Verif.Props.PsfRate
import Verif.Props.FloatConvolve
import Verif.Props.ConvolveGeometry

/-!
# C86: from the parameters of the microscope to the blurred image, in double precision
-/

namespace Verif.Props
open Verif.Model Verif.Spec Verif.Proofs

theorem reflected_index (f : ℤ → ℝ) (n : ℕ) (hn : 0 < n) (h1 : ∀ i, f (-1 - i) = f i) (h2 : ∀ i, f (2 * n - 1 - i) = f i) (x : ℤ) : f x = f (reflectIndex n x : ℕ) := by
  have per : Function.Periodic f (2 * n : ℤ) := fun y => by
    rw [← h2 (y + 2 * n), show (2 * n - 1 - (y + 2 * n) : ℤ) = -1 - y by ring, h1]
  have e : f x = f (x % (2 * n : ℕ)) := by
    have := per.int_mul (x / (2 * n : ℕ)) (x % (2 * n : ℕ))
    rw [← this]
    congr 1
    have := Int.emod_add_mul_ediv x (2 * n : ℕ)
    push_cast at this ⊢
    linarith
  rw [e]
  have p : (0 : ℤ) < (2 * n : ℕ) := by exact_mod_cast (by omega : 0 < 2 * n)
  have a := Int.emod_nonneg x p.ne'
  have b := Int.emod_lt_of_pos x p
  unfold reflectIndex
  simp only []
  split_ifs with c
  · rw [Int.toNat_of_nonneg a]
  · rw [← h2]
    congr 1
    omega

theorem reflected_entry (img : Grid) (hn : NonEmpty img) (ext : ℤ → ℤ → ℝ) (h : Reflected img.entry img.rows img.cols ext) (x y : ℤ) :
    ext x y = img.entry (reflectIndex img.rows x) (reflectIndex img.cols y) := by
  rw [reflected_index (fun x => ext x y) img.rows hn.1 (fun i => h.top i y) (fun i => h.bottom i y) x]
  rw [reflected_index (fun y => ext _ y) img.cols hn.2 (fun i => h.left _ i) (fun i => h.right _ i) y]
  exact h.inside _ _ (reflect_lt _ hn.1 _) (reflect_lt _ hn.2 _)

theorem ideal_blurred (img : Grid) (hn : NonEmpty img) (ext : ℤ → ℤ → ℝ) (h : Reflected img.entry img.rows img.cols ext) (w : ℕ → ℕ → ℝ) (S : ℕ) (hk : IsPsfKernel ⟨S, S, w⟩) (i j : ℕ) :
    (blurred img ⟨S, S, w⟩).entry i j = idealImage w S ext i j := by
  rw [blurred_entry hk]
  unfold idealImage Grid.sum
  simp only []
  congr 1
  refine Finset.sum_congr rfl fun a _ => Finset.sum_congr rfl fun b _ => ?_
  rw [reflected_entry img hn ext h]
  push_cast
  rfl

/-- The bound of the relative error of the image: the roundings of the convolution (C83), and an error `e` of the pixels of the kernel, whose exact sum is `W`. -/
noncomputable def imageError (u : ℝ) (S : ℕ) (e W : ℝ) : ℝ := blurError u (S * S) (W - S * S * e) + S * S * e / W

/-- The image is like the ideal one: not scaled, up to `d`; scaled to the maximum `M` of the image, up to `(3 d / C + 3 u) M`, with `C` the maximum of the ideal image (not scaled), if `4 d ≤ C`. -/
def LikeIdeal (conv : Bool → Res (Option Grid)) (img : Grid) (ideal : ℕ → ℕ → ℝ) (M d u : ℝ) : Prop :=
  (∃ g, conv false = .ok (some g) ∧ g.rows = img.rows ∧ g.cols = img.cols ∧ ∀ i j, i < img.rows → j < img.cols → |g.entry i j - ideal i j| ≤ d) ∧
  ∀ C, IsMax ⟨img.rows, img.cols, ideal⟩ C → 0 < C → 4 * d ≤ C →
    ∃ g, conv true = .ok (some g) ∧ g.rows = img.rows ∧ g.cols = img.cols ∧ ∀ i j, i < img.rows → j < img.cols → |g.entry i j - ideal i j * (M / C)| ≤ (3 * (d / C) + 3 * u) * M

theorem blurError_anti (u : ℝ) (n : ℕ) {K K' : ℝ} (h0 : 0 < K) (h : K ≤ K') : blurError u n K' ≤ blurError u n K := by
  unfold blurError
  gcongr

theorem like_ideal {F : PsfArith} {u η : ℝ} {p : ℕ} (hF : PsfAccurate F u η p) (overflow : ℝ → ℝ) (img k : Grid) (S : ℕ) (w : ℕ → ℕ → ℝ) (e : ℝ) (hk : KernelWithin e S w k)
    (hk0 : ∀ a b, a < S → b < S → 0 ≤ k.entry a b) (hw0 : ∀ a b, a < S → b < S → 0 ≤ w a b) (W : ℝ) (hW : W = ∑ a ∈ Finset.range S, ∑ b ∈ Finset.range S, w a b)
    (hWe : 1 / 2 ^ 50 ≤ W - S * S * e) (hsize : S * S ≤ 2 ^ 50) (hu : (1 + u) ^ (S * S + 1) ≤ 5 / 4) (M : ℝ) (hi : Within img 0 M) (hmax : IsMax img M) (hM : 1 / 2 ^ 50 ≤ M)
    (ext : ℤ → ℤ → ℝ) (hx : Reflected img.entry img.rows img.cols ext) :
    LikeIdeal (fltConvoluteImg F overflow .float img k) img (idealImage w S ext) M (imageError u S e W * M) u := by
  obtain ⟨it, jt, hit, hjt, et⟩ := hmax.2
  have hn : NonEmpty img := ⟨by omega, by omega⟩
  obtain ⟨kr, kc, ke⟩ := hk
  have hWp : 0 < W - S * S * e := lt_of_lt_of_le (by norm_num) hWe
  have hMp : 0 < M := lt_of_lt_of_le (by norm_num) hM
  have hS0 : 0 < S := by
    by_contra h
    obtain rfl : S = 0 := by omega
    rw [hW] at hWp
    norm_num at hWp
  have he0 : 0 ≤ e := (abs_nonneg _).trans (ke 0 0 hS0 hS0)
  have hW0 : 0 < W := by
    have : (0 : ℝ) ≤ S * S * e := by positivity
    linarith
  have pos_of : ∀ v : ℕ → ℕ → ℝ, 0 < ∑ a ∈ Finset.range S, ∑ b ∈ Finset.range S, v a b → ∃ a b, a < S ∧ b < S ∧ 0 < v a b := by
    intro v hv
    by_contra h
    push Not at h
    exact absurd hv (not_lt.2 (Finset.sum_nonpos fun a ha => Finset.sum_nonpos fun b hb => h a b (Finset.mem_range.1 ha) (Finset.mem_range.1 hb)))
  have hKw : IsPsfKernel ⟨S, S, w⟩ := ⟨hw0, pos_of w (hW ▸ hW0)⟩
  have hsum : W - S * S * e ≤ k.sum := by
    unfold Grid.sum
    rw [kr, kc, hW]
    have : ∑ a ∈ Finset.range S, ∑ b ∈ Finset.range S, (w a b - e) ≤ ∑ a ∈ Finset.range S, ∑ b ∈ Finset.range S, k.entry a b :=
      Finset.sum_le_sum fun a ha => Finset.sum_le_sum fun b hb => by
        have := (abs_le.1 (ke a b (Finset.mem_range.1 ha) (Finset.mem_range.1 hb))).1
        linarith
    refine le_of_eq_of_le ?_ this
    simp only [Finset.sum_sub_distrib, Finset.sum_const, Finset.card_range, nsmul_eq_mul]
    ring
  have hKk : IsPsfKernel k := by
    refine ⟨fun a b ha hb => hk0 a b (kr ▸ ha) (kc ▸ hb), ?_⟩
    have := pos_of k.entry (by have := hWp.trans_le hsum; unfold Grid.sum at this; rwa [kr, kc] at this)
    rwa [kr, kc]
  have near : ∀ i j, i < img.rows → j < img.cols → |(fltBlurred F img k).entry i j - idealImage w S ext i j| ≤ imageError u S e W * M := by
    intro i j hi' hj'
    have b1 := (blurred_float hF img k hKk hn M (fun i j hi' hj' => ⟨by linarith [(hi i j hi' hj').1], (hi i j hi' hj').2⟩) hM (hWe.trans hsum) (by rwa [kr, kc]) (by rwa [kr, kc]) i j).2
    obtain ⟨g, g', e1, e2, b2⟩ := convolution_kernel_error overflow img ⟨S, S, w⟩ k hKw hKk ⟨kr, kc⟩ hn 0 M hi e fun a b ha hb => by
      rw [abs_sub_comm]; exact ke a b ha hb
    rw [unscaled_eq] at e1 e2
    obtain rfl := Option.some.inj (Except.ok.inj e1)
    obtain rfl := Option.some.inj (Except.ok.inj e2)
    have b2 : |(blurred img ⟨S, S, w⟩).entry i j - (blurred img k).entry i j| ≤ S * S * e / W * (M - 0) := by rw [hW]; exact b2 i j hi' hj'
    rw [ideal_blurred img hn ext hx w S hKw, abs_sub_comm, sub_zero] at b2
    have b3 : blurError u (k.rows * k.cols) k.sum * M ≤ blurError u (S * S) (W - S * S * e) * M := by
      rw [kr, kc]
      exact mul_le_mul_of_nonneg_right (blurError_anti u _ hWp hsum) hMp.le
    have := abs_sub_le ((fltBlurred F img k).entry i j) ((blurred img k).entry i j) (idealImage w S ext i j)
    unfold imageError
    rw [add_mul]
    linarith
  obtain ⟨hr', hcl'⟩ := fltBlurred_rows F img k
  refine ⟨⟨_, rfl, hr', hcl', near⟩, fun C hC hC0 hd => ?_⟩
  have hd0 : 0 ≤ imageError u S e W * M := (abs_nonneg _).trans (near it jt hit hjt)
  obtain ⟨Cf, hCf⟩ := exists_isMax (fltBlurred F img k) (by rw [NonEmpty, hr', hcl']; exact hn)
  have hCC := max_near _ ⟨img.rows, img.cols, idealImage w S ext⟩ ⟨hr', hcl'⟩ Cf C _ hCf hC near
  have hCfp : 0 < Cf := by have := (abs_le.1 hCC).1; linarith
  refine ⟨_, fltScaled_eq F overflow .float img k M Cf hmax hCf hCfp.ne', hr', hcl', fun i j hi' hj' => ?_⟩
  have hbw : ∀ i j, 0 ≤ idealImage w S ext i j ∧ idealImage w S ext i j ≤ M := fun i j => by
    rw [← ideal_blurred img hn ext hx w S hKw]
    exact blurred_within hKw img hn 0 M hi i j
  obtain ⟨im, jm, _, _, em⟩ := hC.2
  have hη := hF.eta_small
  exact scale_bound hF M C Cf _ _ _ hMp (hη.trans (le_trans (by norm_num) hM)) (hη.trans (by norm_num)) hC0 (em ▸ (hbw im jm).2) hd0 hd hCC (near i j hi' hj') (hbw i j).1
    (hC.1 i j hi' hj') (hCf.1 i j (by omega) (by omega))

/-! ### The kernel has no negative pixels -/

/-- What is returned, if anything, satisfies `P`. -/
def Returns {β : Type} (x : CM β) (P : β → Prop) : Prop := ∀ s v, (x s).1 = .ok v → P v

theorem Returns.bindP {β γ : Type} {x : CM β} {f : β → CM γ} {Q : β → Prop} {P : γ → Prop} (hx : Returns x Q) (h : ∀ v, Q v → Returns (f v) P) : Returns (x >>= f) P := by
  intro s v hv
  have hv : (match x s with | (.ok v, s') => f v s' | (.error e, s') => (.error e, s')).1 = .ok v := hv
  rcases hx' : x s with ⟨r, s'⟩
  rw [hx'] at hv
  cases r with
  | error e => cases hv
  | ok a => exact h a (hx s a (by rw [hx'])) s' v hv

theorem Returns.bind {β γ : Type} {x : CM β} {f : β → CM γ} {P : γ → Prop} (h : ∀ v, Returns (f v) P) : Returns (x >>= f) P :=
  Returns.bindP (Q := fun _ => True) (fun _ _ _ => trivial) fun v _ => h v

theorem Returns.pure {β : Type} {P : β → Prop} (v : β) (h : P v) : Returns (Pure.pure v) P := fun _ w hw => by
  obtain rfl : v = w := Except.ok.inj hw
  exact h

theorem RetP.and {β : Type} {x : CM β} {P Q : β → Prop} (h : RetP x P) (h' : Returns x Q) : RetP x fun v => P v ∧ Q v := fun s hs => by
  obtain ⟨⟨v, e, hv⟩, g⟩ := h s hs
  exact ⟨⟨v, e, hv, h' s v e⟩, g⟩

/-- An arithmetic that rounds no number `≥ 0` to one below 0. -/
structure KeepsSign (F : PsfArith) : Prop where
  fl : ∀ x, 0 ≤ x → 0 ≤ F.fl x
  sq : ∀ x, 0 ≤ F.sq x

theorem doubles_keep_sign (s : List ℝ → ℝ) : KeepsSign (psfDoubles s) := by
  have h : ∀ x : ℝ, 0 ≤ x → 0 ≤ binary64 x := fun x hx => by
    have := binary64_mono le_rfl hx
    rwa [binary64_zero] at this
  exact ⟨h, fun x => h _ (sq_nonneg x)⟩

theorem point_nonneg {F : PsfArith} (hF : KeepsSign F) (ph : FltPhase) (r theta : ℝ) (nR nPhi : Int) :
    Returns (fltPsfPoint F ph r theta nR nPhi) fun v => 0 ≤ v := by
  unfold fltPsfPoint
  split_ifs
  · intro s v hv; cases hv
  · refine Returns.bind fun _ => Returns.bind fun _ => Returns.bind fun _ => Returns.bind fun _ => Returns.pure _ ?_
    exact hF.fl _ (mul_nonneg (hF.sq _) (hF.fl _ (div_nonneg zero_le_one (hF.fl _ (mul_self_nonneg _)))))

theorem row_nonneg (f : Nat → Nat → CM ℝ) (hf : ∀ i j, Returns (f i j) fun v => 0 ≤ v) (i k : Nat) : ∀ j (S : Grid), (∀ a b, 0 ≤ S.entry a b) →
    Returns (fillRow f i k j S) fun g => ∀ a b, 0 ≤ g.entry a b := by
  induction k with
  | zero => exact fun j S hS => Returns.pure S hS
  | succ k ih =>
    intro j S hS
    refine Returns.bindP (hf i j) fun v hv => ih (j + 1) _ fun a b => ?_
    simp only []
    split_ifs
    · exact hv
    · exact hS a b

theorem rows_nonneg (f : Nat → Nat → CM ℝ) (hf : ∀ i j, Returns (f i j) fun v => 0 ≤ v) (cols k : Nat) : ∀ i (S : Grid), (∀ a b, 0 ≤ S.entry a b) →
    Returns (fillRows f cols k i S) fun g => ∀ a b, 0 ≤ g.entry a b := by
  induction k with
  | zero => exact fun j S hS => Returns.pure S hS
  | succ k ih => exact fun i S hS => Returns.bindP (row_nonneg f hf i cols 0 S hS) fun S' hS' => ih (i + 1) S' hS'

theorem make_nonneg {F : PsfArith} (hF : KeepsSign F) (size : Int) (NA : ℝ) (f : Nat → Nat → CM ℝ) (hf : ∀ i j, Returns (f i j) fun v => 0 ≤ v) (norm : Bool) :
    Returns (fltMakeKernel F size NA f norm) fun g => ∀ a b, 0 ≤ g.entry a b := by
  unfold fltMakeKernel
  by_cases h1 : size < 0
  · rw [if_pos h1]; intro s v hv; cases hv
  rw [if_neg h1]
  by_cases h2 : NA = 0
  · rw [if_pos h2]; intro s v hv; cases hv
  · rw [if_neg h2]
    refine Returns.bindP (rows_nonneg f hf _ _ 0 _ fun a b => le_rfl) fun g hg => ?_
    cases norm with
    | false =>
      rw [if_neg (by simp)]
      exact Returns.pure g hg
    | true =>
      rw [if_pos rfl]
      intro s v hv
      have hv : fltNormalize F g = .ok v := hv
      unfold fltNormalize at hv
      rcases hm : npMax g.elems with e | t
      · rw [hm] at hv; cases hv
      · rw [hm] at hv
        obtain rfl := Except.ok.inj hv
        have hne : g.elems ≠ [] := by
          intro h0
          rw [h0] at hm
          cases hm
        obtain ⟨t', e1, m, _⟩ := npMax_ok g.elems hne
        rw [hm] at e1
        obtain rfl := Except.ok.inj e1
        obtain ⟨a, b, _, _, e2⟩ := (mem_elems _ _).1 m
        intro i j
        exact hF.fl _ (div_nonneg (hg i j) (e2 ▸ hg a b))

/-- The bound of the error of a pixel of the kernel: `E` if it is not normalised; after the division by the maximum, whose exact value is `t`. -/
noncomputable def kernelBound (u E t : ℝ) (normalize : Bool) : ℝ := if normalize then (1 + u) * (1 + 2 * E / (t - E)) - 1 else E

/-- The exact kernel: the PSF of the diffraction integral in the pixels, divided by its maximum `t` if it is normalised. -/
noncomputable def exactWeights (Φ : ℝ → ℝ → ℝ) (q : KernelParams) (S : ℕ) (t : ℝ) (i j : ℕ) : ℝ :=
  exactPixel Φ (opticalScale q.wavelength q.NA q.len2pixels) S i j / if q.normalize then t else 1

theorem make_within {F : PsfArith} {u η : ℝ} {p : ℕ} (hF : PsfAccurate F u η p) (hsign : KeepsSign F) (Φ : ℝ → ℝ → ℝ) (q : KernelParams) (S : ℕ) (hS : 1 ≤ S) (hNA : q.NA ≠ 0)
    (f : Nat → Nat → CM ℝ) (E t : ℝ) (ht : ExactTop Φ q S t) (hE : E < t)
    (hf : ∀ i j, i < S → j < S → RetP (f i j) fun v => |v - exactPixel Φ (opticalScale q.wavelength q.NA q.len2pixels) S i j| ≤ E) (hf0 : ∀ i j, Returns (f i j) fun v => 0 ≤ v) :
    RetP (fltMakeKernel F S q.NA f q.normalize) fun g => KernelWithin (kernelBound u E t q.normalize) S (exactWeights Φ q S t) g ∧ ∀ a b, 0 ≤ g.entry a b := by
  refine RetP.and ?_ (make_nonneg hsign S q.NA f hf0 q.normalize)
  obtain ⟨t0, ⟨a, b, ha, hb, et⟩, hmax⟩ := ht
  cases hn : q.normalize with
  | false =>
    have := fltKernel_raw (F := F) S (by omega) q.NA hNA f _ E fun i j hi hj => hf i j (by simpa using hi) (by simpa using hj)
    unfold KernelWithin kernelBound exactWeights
    simpa [hn] using this
  | true =>
    subst et
    have := fltKernel_normalized hF S (by omega) q.NA hNA f _ E (fun i j hi hj => hf i j (by simpa using hi) (by simpa using hj)) (fun i j => exactPixel_nonneg _ _ S i j) a b
      (by simpa using ha) (by simpa using hb) (fun i j hi hj => hmax i j (by simpa using hi) (by simpa using hj)) hE
    unfold KernelWithin kernelBound exactWeights
    simpa [hn] using this

theorem ideal_scale (w : ℕ → ℕ → ℝ) (S : ℕ) (ext : ℤ → ℤ → ℝ) (c : ℝ) (hc : c ≠ 0) (i j : ℕ) : idealImage (fun a b => w a b / c) S ext i j = idealImage w S ext i j := by
  unfold idealImage
  have h1 : ∀ a b, w a b / c * ext (i + S / 2 - a) (j + S / 2 - b) = w a b * ext (i + S / 2 - a) (j + S / 2 - b) / c := fun a b => by ring
  simp only [h1, ← Finset.sum_div]
  rw [div_div_div_cancel_right₀ hc]

/-- The optics and the image for which the bounds hold: `E` is a bound of the error of the pixels of the kernel that is not normalised, `t` and `W` are the exact maximum and the sum of the exact
kernel, `M` is the maximum of the image, which has no negative pixels. -/
structure EndToEnd (F : PsfArith) (u : ℝ) (q : KernelParams) (Φ : ℝ → ℝ → ℝ) (S : ℕ) (E t W : ℝ) (img : Grid) (M : ℝ) : Prop where
  top : ExactTop Φ q S t
  less : E < t
  sum : W = ∑ a ∈ Finset.range S, ∑ b ∈ Finset.range S, exactWeights Φ q S t a b
  visible : 1 / 2 ^ 50 ≤ W - S * S * kernelBound u E t q.normalize
  size : S * S ≤ 2 ^ 50
  roundings : (1 + u) ^ (S * S + 1) ≤ 5 / 4
  image : Within img 0 M
  max : IsMax img M
  bright : 1 / 2 ^ 50 ≤ M

theorem end_to_end {F : PsfArith} {u η : ℝ} {p : ℕ} (hF : PsfAccurate F u η p) (hsign : KeepsSign F) (overflow : ℝ → ℝ) (h : List Call) (q : KernelParams) (hNA : q.NA ≠ 0)
    (Φ : ℝ → ℝ → ℝ) (S : ℕ) (hS : 1 ≤ S) (E t W : ℝ) (img : Grid) (M : ℝ) (he : EndToEnd F u q Φ S E t W img M) (f : Nat → Nat → CM ℝ)
    (hf : ∀ i j, i < S → j < S → RetP (f i j) fun v => |v - exactPixel Φ (opticalScale q.wavelength q.NA q.len2pixels) S i j| ≤ E) (hf0 : ∀ i j, Returns (f i j) fun v => 0 ≤ v)
    (ext : ℤ → ℤ → ℝ) (hx : Reflected img.entry img.rows img.cols ext) :
    ∃ k, (fltMakeKernel F S q.NA f q.normalize (afterCalls h)).1 = .ok k ∧
      LikeIdeal (fltConvoluteImg F overflow .float img k) img (idealImage (exactPixel Φ (opticalScale q.wavelength q.NA q.len2pixels) S) S ext) M
        (imageError u S (kernelBound u E t q.normalize) W * M) u := by
  obtain ⟨h1, h2, h3, h4, h5, h6, h7, h8, h9⟩ := he
  obtain ⟨k, e, hk, hk0⟩ := afterCalls_retP (make_within hF hsign Φ q S hS hNA f E t h1 h2 hf hf0) h
  refine ⟨k, e, ?_⟩
  have := like_ideal hF overflow img k S (exactWeights Φ q S t) _ hk (fun a b _ _ => hk0 a b) (fun a b _ _ => ?_) W h3 h4 h5 h6 M h7 h8 h9 ext hx
  · have e : idealImage (exactWeights Φ q S t) S ext = idealImage (exactPixel Φ (opticalScale q.wavelength q.NA q.len2pixels) S) S ext := by
      funext i j
      refine ideal_scale _ S ext _ ?_ i j
      split_ifs
      · exact h1.1.ne'
      · exact one_ne_zero
    rwa [e] at this
  · refine div_nonneg (exactPixel_nonneg _ _ S a b) ?_
    split_ifs
    · exact h1.1.le
    · exact zero_le_one

theorem scale_nonneg {q : KernelParams} (hopt : FloatOptics q) : 0 ≤ opticalScale q.wavelength q.NA q.len2pixels := by
  obtain ⟨o1, o2, o3, o4⟩ := hopt
  have k1 : (0 : ℝ) < 1 / 2 ^ 40 := by positivity
  unfold opticalScale
  exact mul_nonneg (mul_nonneg (by linarith) (by linarith)) (by linarith)

/-- C86. Several polynomials, in any floating-point arithmetic: the image blurred by `convolute_img` with the calculated kernel is like the image that the exact PSF of the diffraction integral
gives, up to an explicit bound, with and without scaling. -/
theorem image_error (F : PsfArith) (u η : ℝ) (p : ℕ) (hF : PsfAccurate F u η p) (hsign : KeepsSign F) (overflow : ℝ → ℝ) (h : List Call) (fuel : Nat) (cs : List ℝ) (os : List PolObj)
    (hl : cs.length = os.length) (h0 : os ≠ []) (hv : PolsOk fuel os) (N : ℕ) (hN : ∀ o ∈ os, o.n ≤ N) (q : KernelParams) (hopt : FloatOptics q) (nR nPhi : ℕ)
    (hpt : FloatPoints F q nR nPhi) (S : ℕ) (hS : OddSize q.kernelSize S) (R : ℝ) (hR1 : 1 ≤ R) (hR : opticalScale q.wavelength q.NA q.len2pixels * S ≤ R) (E t W : ℝ)
    (hE : quadratureError cs (ordersOf os) R nR nPhi +
      pixelError u p nR nPhi (4 * N + 2 * p + os.length + 28) (((cs.zip os).map fun x => max |x.1| η * zernikeSize x.2.m x.2.n).sum) R ≤ E)
    (img : Grid) (M : ℝ) (he : EndToEnd F u q (combination cs (ordersOf os)) S E t W img M) (ext : ℤ → ℤ → ℝ) (hx : Reflected img.entry img.rows img.cols ext) :
    ∃ k, (fltPsfKernelZerns F fuel (cs.zip os) q (afterCalls h)).1 = .ok k ∧
      LikeIdeal (fltConvoluteImg F overflow .float img k) img (idealImage (exactPixel (combination cs (ordersOf os)) (opticalScale q.wavelength q.NA q.len2pixels) S) S ext) M
        (imageError u S (kernelBound u E t q.normalize) W * M) u := by
  have hz := pols_zip hv cs
  have hph := polsPhase_er hF fuel N (cs.zip os) (zip_ne_nil hl h0) fun x hx => ⟨(hz x hx).1, (hz x hx).2, by
    have := hN x.2 (List.of_mem_zip hx).2
    omega⟩
  have hlen : (cs.zip os).length = os.length := by simp [hl]
  have hterm : (fun (r φ : ℝ) => ((cs.zip os).map fun x => x.1 * zernike x.2.m x.2.n r φ).sum) = combination cs (ordersOf os) := by
    rw [← termSum_eq]; rfl
  rw [hterm] at hph
  have hsz : 0 ≤ ((cs.zip os).map fun x => max |x.1| η * zernikeSize x.2.m x.2.n).sum := by
    refine List.sum_nonneg fun y hy => ?_
    obtain ⟨x, hx, rfl⟩ := List.mem_map.1 hy
    exact size_nonneg x.2 (hz x hx).1 _ η hF.eta_pos
  have hS1 := hS.1
  have hpt' := hpt
  obtain ⟨_, _, n1, n2, n3, n4, _⟩ := hpt'
  unfold fltPsfKernelZerns
  rw [if_neg hopt.1.ne']
  simp only [oddSize_makeOdd hS]
  refine end_to_end hF hsign overflow h q (lt_of_lt_of_le (by positivity) hopt.2.2.1).ne' _ S (by omega) E t W img M he _ (fun i j hi hj => ?_)
    (fun i j => point_nonneg hsign _ _ _ _ _) ext hx
  · have a := pixel_float hF hR1 hsz (K := 4 * N + 2 * p + os.length + 28) (by omega) (by omega) hph q hopt nR nPhi hpt S hS.1 hR i j hi hj
    have b := pixel_rate cs (ordersOf os) (by
      intro x hx
      obtain ⟨o, ho, rfl⟩ := List.mem_map.1 hx
      exact (hv o ho).1) (opticalScale q.wavelength q.NA q.len2pixels) R S (by rwa [abs_of_nonneg (scale_nonneg hopt)]) nR nPhi (by omega) (by omega) i j hi hj
    intro s hs
    obtain ⟨⟨v, e, hv⟩, g⟩ := a s hs
    exact ⟨⟨v, e, (abs_sub_le v _ _).trans ((add_le_add hv b).trans (by linarith))⟩, g⟩

/-- The rounding error of a pixel with the default numbers of points, in double precision. -/
theorem pixelError_double (m n : Int) (hv : ValidOrders m n) (hn : n ≤ 10) (α R : ℝ) (hα : |α| ≤ 1) (hR0 : 0 ≤ R) (hR : R ≤ 1000) :
    pixelError (2⁻¹ ^ 53) 1 320 300 (4 * n.toNat + 2 * 1 + 28) (max |α| (2⁻¹ ^ 1022) * zernikeSize m n) R ≤ 5 / 10 ^ 8 := by
  have hη1 : (2⁻¹ : ℝ) ^ 1022 ≤ 1 := pow_le_one₀ (by norm_num) (by norm_num)
  have hv' := (valid_iff m n).1 hv
  have hz0 : 0 ≤ zernikeSize m n := by
    have := (norm_one m n hv'.1).trans (zernikeSize_ge m n hv'.1)
    linarith
  refine le_of_lt ((pixelError_mono (show (0 : ℝ) ≤ 2⁻¹ ^ 53 by positivity) 1 320 300 (K' := 70) (by omega) ((mul_le_of_le_one_left hz0 (max_le hα hη1)).trans
    (zernikeSize_le m n hv 10 (by exact_mod_cast hn) 4.7 (by norm_num) (by norm_num))) hR (mul_nonneg ((abs_nonneg _).trans (le_max_left _ _)) hz0) hR0).trans_lt ?_)
  rw [growth_10]
  unfold pixelError
  exact double_error (by norm_num) (by norm_num)

/-- C86. One polynomial, in double precision with the default numbers of integration points: the image that `convolute_img` gives with the calculated kernel is like the image that the exact PSF
of the diffraction integral gives, up to an explicit bound, with and without scaling. -/
theorem image_double_error (s : List ℝ → ℝ) (hs : Sums s) (overflow : ℝ → ℝ) (h : List Call) (fuel : Nat) (o : PolObj) (hv : ValidOrders o.m o.n) (hf : o.n.toNat + 1 < fuel)
    (hn : o.n ≤ 10) (coeff : ℝ) (q : KernelParams) (hopt : FloatOptics q) (hnR : q.nR = 320) (hnPhi : q.nPhi = 300) (hα : |coeff / q.wavelength| ≤ 1) (S : ℕ)
    (hS : OddSize q.kernelSize S) (R : ℝ) (hR1 : 1 ≤ R) (hR2 : R ≤ 1000) (hR : opticalScale q.wavelength q.NA q.len2pixels * S ≤ R) (E t W : ℝ)
    (hE : quadratureError [coeff / q.wavelength] [(o.m, o.n)] R 320 300 + 5 / 10 ^ 8 ≤ E) (img : Grid) (M : ℝ)
    (he : EndToEnd (psfDoubles s) (2⁻¹ ^ 53) q (fun r φ => coeff / q.wavelength * zernike o.m o.n r φ) S E t W img M)
    (ext : ℤ → ℤ → ℝ) (hx : Reflected img.entry img.rows img.cols ext) :
    ∃ k, (fltPsfKernel (psfDoubles s) fuel o coeff q (afterCalls h)).1 = .ok k ∧
      LikeIdeal (fltConvoluteImg (psfDoubles s) overflow .float img k) img
        (idealImage (exactPixel (fun r φ => coeff / q.wavelength * zernike o.m o.n r φ) (opticalScale q.wavelength q.NA q.len2pixels) S) S ext) M
        (imageError (2⁻¹ ^ 53) S (kernelBound (2⁻¹ ^ 53) E t q.normalize) W * M) (2⁻¹ ^ 53) := by
  have hF := psfDoubles_accurate s hs.1 hs.2
  have hsign := doubles_keep_sign s
  have hα1 : Er ((1 + 2⁻¹ ^ 53) ^ 1) (max |coeff / q.wavelength| (2⁻¹ ^ 1022)) ((psfDoubles s).fl (coeff / q.wavelength)) (coeff / q.wavelength) :=
    (Er.exactK _ _ (le_max_left _ _)).roundK hF (le_max_right _ _)
  have hpt : FloatPoints (psfDoubles s) q 320 300 :=
    ⟨hnR, hnPhi, by norm_num, by norm_num, by norm_num, by norm_num, radial_nodes_default, nodes_unit 320 (by norm_num) (by norm_num)⟩
  have hS1 := hS.1
  unfold fltPsfKernel
  rw [if_neg hopt.1.ne']
  simp only [oddSize_makeOdd hS]
  refine end_to_end hF hsign overflow h q (lt_of_lt_of_le (by positivity) hopt.2.2.1).ne' _ S (by omega) E t W img M he _ (fun i j hi hj => ?_)
    (fun i j => point_nonneg hsign _ _ _ _ _) ext hx
  have a := pixel_float hF hR1 (size_nonneg o hv (coeff / q.wavelength) _ hF.eta_pos) (K := 4 * o.n.toNat + 2 * 1 + 28) (by omega) (by omega)
    (singlePhase_er hF fuel o hv hf hα1) q hopt 320 300 hpt S hS.1 hR i j hi hj
  have b := pixel_rate [coeff / q.wavelength] [(o.m, o.n)] (by simpa using hv) (opticalScale q.wavelength q.NA q.len2pixels) R S (by rwa [abs_of_nonneg (scale_nonneg hopt)]) 320 300
    (by norm_num) (by norm_num) i j hi hj
  rw [combination_one] at b
  have c := pixelError_double o.m o.n hv hn (coeff / q.wavelength) R hα (by linarith) hR2
  intro s hs
  obtain ⟨⟨v, e, hv⟩, g⟩ := a s hs
  exact ⟨⟨v, e, (abs_sub_le v _ _).trans ((add_le_add hv b).trans (by linarith))⟩, g⟩

/-! ### An example: no aberrations, 3 × 3 pixels of 30 nm, NA 0.95, 550 nm -/

theorem spot_reflected : Reflected spotImg.entry spotImg.rows spotImg.cols fun x y => spotImg.entry (reflectIndex spotImg.rows x) (reflectIndex spotImg.cols y) where
  inside i j hi hj := by
    have h1 : i < 1 := hi
    have h2 : j < 3 := hj
    obtain rfl : i = 0 := by omega
    interval_cases j <;> rfl
  top i j := by rw [(border_reflects _ _).1]
  bottom i j := by rw [(border_reflects _ _).2]
  left i j := by rw [(border_reflects _ _).1]
  right i j := by rw [(border_reflects _ _).2]

/-- The parameters of the example. -/
noncomputable def fineParams (b : Bool) : KernelParams := ⟨0.03, 0.55, 0.95, 320, 300, b, 3⟩

theorem fine_phase (b : Bool) : (fun r φ => 0 / (fineParams b).wavelength * zernike 0 0 r φ) = fun (_ _ : ℝ) => (0 : ℝ) := by
  funext r φ; simp

theorem fine_sum (b : Bool) : (1 : ℝ) ≤ ∑ a ∈ Finset.range 3, ∑ c ∈ Finset.range 3, exactWeights (fun _ _ => 0) (fineParams b) 3 1 a c := by
  have hn : ∀ a c, 0 ≤ exactWeights (fun _ _ => 0) (fineParams b) 3 1 a c := fun a c => div_nonneg (exactPixel_nonneg _ _ 3 a c) (by split_ifs <;> norm_num)
  have h11 : exactWeights (fun _ _ => 0) (fineParams b) 3 1 1 1 = 1 := by
    unfold exactWeights exactPixel
    norm_num [exactPsf_center]
  refine le_trans (le_trans h11.ge ?_) (Finset.single_le_sum (f := fun a => ∑ c ∈ Finset.range 3, exactWeights (fun _ _ => 0) (fineParams b) 3 1 a c)
    (fun a _ => Finset.sum_nonneg fun c _ => hn a c) (Finset.mem_range.2 (by norm_num : 1 < 3)))
  exact Finset.single_le_sum (f := fun c => exactWeights (fun _ _ => 0) (fineParams b) 3 1 1 c) (fun c _ => hn 1 c) (Finset.mem_range.2 (by norm_num : 1 < 3))

theorem fine_end (b : Bool) : EndToEnd (psfDoubles (sumFromLeft binary64)) (2⁻¹ ^ 53) (fineParams b) (fun _ _ => 0) 3 0.014 1
    (∑ a ∈ Finset.range 3, ∑ c ∈ Finset.range 3, exactWeights (fun _ _ => 0) (fineParams b) 3 1 a c) spotImg 15 where
  top := ⟨one_pos, ⟨1, 1, by norm_num, by norm_num, by unfold exactPixel; norm_num [exactPsf_center]⟩, fun i j _ _ => exactPsf_const_le _ _ _⟩
  less := by norm_num
  sum := rfl
  visible := by
    have h1 := fine_sum b
    have h2 : kernelBound (2⁻¹ ^ 53) 0.014 1 (fineParams b).normalize ≤ 0.03 := by
      unfold kernelBound
      split_ifs <;> norm_num
    norm_num at h2 ⊢
    linarith
  size := by norm_num
  roundings := by norm_num
  image i j _ _ := by unfold spotImg; simp only []; split_ifs <;> norm_num
  max := ⟨fun i j _ _ => by unfold spotImg; simp only []; split_ifs <;> norm_num, ⟨0, 1, by decide, by decide, by simp [spotImg]⟩⟩
  bright := by norm_num

/-- The hypotheses hold, with and without normalisation. -/
example (overflow : ℝ → ℝ) (b : Bool) : ∃ k, (fltPsfKernel (psfDoubles (sumFromLeft binary64)) 10 ⟨0, 0, false⟩ 0 (fineParams b) (afterCalls [])).1 = .ok k ∧
    LikeIdeal (fltConvoluteImg (psfDoubles (sumFromLeft binary64)) overflow .float spotImg k) spotImg
      (idealImage (exactPixel (fun _ _ => 0) (opticalScale 0.55 0.95 0.03) 3) 3 fun x y => spotImg.entry (reflectIndex spotImg.rows x) (reflectIndex spotImg.cols y)) 15
      (imageError (2⁻¹ ^ 53) 3 (kernelBound (2⁻¹ ^ 53) 0.014 1 b) (∑ a ∈ Finset.range 3, ∑ c ∈ Finset.range 3, exactWeights (fun _ _ => 0) (fineParams b) 3 1 a c) * 15) (2⁻¹ ^ 53) := by
  have hpi := Real.pi_lt_d2
  have hpi3 := Real.pi_gt_three
  have := image_double_error _ sumFromLeft_sums overflow [] 10 ⟨0, 0, false⟩ (by decide) (by decide) (by decide) 0 (fineParams b)
    ⟨by norm_num [fineParams], (sample_optics false).2.1, by norm_num [fineParams], by norm_num [fineParams]⟩ rfl rfl (by norm_num) 3 ⟨by decide, Or.inl rfl⟩ 1 le_rfl (by norm_num)
    (by unfold opticalScale fineParams; norm_num at *; linarith) 0.014 1 _ (by
      simp only [quadratureError, weighted, rimCurvature, rimSlope, List.zip_cons_cons, List.zip_nil_right, List.map_cons, List.map_nil, List.sum_cons, List.sum_nil]
      norm_num
      nlinarith) spotImg 15 (by rw [fine_phase]; exact fine_end b) _ spot_reflected
  rw [fine_phase] at this
  exact this

/-- Also the hypotheses of the part about scaled images hold (here without normalisation). -/
example (C : ℝ) (hC : IsMax ⟨spotImg.rows, spotImg.cols, idealImage (exactPixel (fun _ _ => 0) (opticalScale 0.55 0.95 0.03) 3) 3
      fun x y => spotImg.entry (reflectIndex spotImg.rows x) (reflectIndex spotImg.cols y)⟩ C) :
    0 < C ∧ 4 * (imageError (2⁻¹ ^ 53) 3 (kernelBound (2⁻¹ ^ 53) 0.014 1 false)
      (∑ a ∈ Finset.range 3, ∑ c ∈ Finset.range 3, exactWeights (fun _ _ => 0) (fineParams false) 3 1 a c) * 15) ≤ C := by
  have hw : exactWeights (fun _ _ => 0) (fineParams false) 3 1 = exactPixel (fun _ _ => 0) (opticalScale 0.55 0.95 0.03) 3 := by
    funext i j
    unfold exactWeights fineParams
    simp
  have h1 := fine_sum false
  rw [hw] at h1 ⊢
  have h9 : ∑ a ∈ Finset.range 3, ∑ c ∈ Finset.range 3, exactPixel (fun _ _ => 0) (opticalScale 0.55 0.95 0.03) 3 a c ≤ 9 := by
    have : ∑ a ∈ Finset.range 3, ∑ c ∈ Finset.range 3, exactPixel (fun _ _ => 0) (opticalScale 0.55 0.95 0.03) 3 a c ≤ ∑ a ∈ Finset.range 3, ∑ c ∈ Finset.range 3, (1 : ℝ) :=
      Finset.sum_le_sum fun a _ => Finset.sum_le_sum fun c _ => exactPsf_const_le _ _ _
    norm_num at this ⊢
    exact this
  have hge : 15 / (∑ a ∈ Finset.range 3, ∑ c ∈ Finset.range 3, exactPixel (fun _ _ => 0) (opticalScale 0.55 0.95 0.03) 3 a c) ≤ C := by
    refine le_trans ?_ (hC.1 0 1 (by decide) (by decide))
    unfold idealImage
    refine div_le_div_of_nonneg_right ?_ (by linarith)
    have hs : ∀ x y, 0 ≤ spotImg.entry x y := fun x y => by unfold spotImg; simp only []; split_ifs <;> norm_num
    have hp : ∀ a c, 0 ≤ exactPixel (fun _ _ => 0) (opticalScale 0.55 0.95 0.03) 3 a c *
        spotImg.entry (reflectIndex spotImg.rows ((0 : ℕ) + (3 : ℕ) / 2 - (a : ℕ))) (reflectIndex spotImg.cols ((1 : ℕ) + (3 : ℕ) / 2 - (c : ℕ))) :=
      fun a c => mul_nonneg (exactPixel_nonneg _ _ 3 a c) (hs _ _)
    have e : (15 : ℝ) = exactPixel (fun _ _ => 0) (opticalScale 0.55 0.95 0.03) 3 1 1 *
        spotImg.entry (reflectIndex spotImg.rows ((0 : ℕ) + (3 : ℕ) / 2 - (1 : ℕ))) (reflectIndex spotImg.cols ((1 : ℕ) + (3 : ℕ) / 2 - (1 : ℕ))) := by
      have e1 : exactPixel (fun _ _ => 0) (opticalScale 0.55 0.95 0.03) 3 1 1 = 1 := by unfold exactPixel; norm_num [exactPsf_center]
      have e2 : spotImg.entry (reflectIndex spotImg.rows ((0 : ℕ) + (3 : ℕ) / 2 - (1 : ℕ))) (reflectIndex spotImg.cols ((1 : ℕ) + (3 : ℕ) / 2 - (1 : ℕ))) = 15 := by
        show spotImg.entry 0 1 = 15
        simp [spotImg]
      rw [e1, e2, one_mul]
    refine le_trans (e.le.trans ?_) (Finset.single_le_sum (f := fun a => ∑ c ∈ Finset.range 3, _) (fun a _ => Finset.sum_nonneg fun c _ => hp a c) (Finset.mem_range.2 (by norm_num : 1 < 3)))
    exact Finset.single_le_sum (f := fun c => exactPixel (fun _ _ => 0) (opticalScale 0.55 0.95 0.03) 3 1 c * _) (fun c _ => hp 1 c) (Finset.mem_range.2 (by norm_num : 1 < 3))
  generalize (∑ a ∈ Finset.range 3, ∑ c ∈ Finset.range 3, exactPixel (fun _ _ => 0) (opticalScale 0.55 0.95 0.03) 3 a c) = W at *
  have hq : 5 / 3 ≤ 15 / W := by rw [le_div_iff₀ (by linarith)]; linarith
  refine ⟨by linarith, le_trans ?_ hge⟩
  unfold imageError kernelBound blurError
  have hk : ((3 * 3 : ℕ) : ℝ) * (1 / 2 ^ 52) / (W - (3 : ℕ) * (3 : ℕ) * 0.014) ≤ 1 / 10 ^ 10 := by
    rw [div_le_iff₀ (by norm_num; linarith)]
    norm_num
    linarith
  have hd : ((3 : ℕ) * (3 : ℕ) * 0.014 : ℝ) / W = 0.0084 * (15 / W) := by ring
  simp only [Bool.false_eq_true, if_false]
  rw [hd]
  generalize ((3 * 3 : ℕ) : ℝ) * (1 / 2 ^ 52) / (W - (3 : ℕ) * (3 : ℕ) * 0.014) = Q at *
  generalize 15 / W = V at *
  norm_num at *
  linarith

end Verif.Props
