import Verif.Model.Warn
import Verif.Props.PsfCalc
import Verif.Proofs.CompState
import Verif.Proofs.FloatPsfPhase

/-!
# C74: `force_get_psf_compilation`
-/

namespace Verif.Props
open Verif.Model Verif.Spec Verif.Proofs

/-- C74. The accelerated calculation, whether it returns or raises, does not change the process-wide tables. -/
theorem accelerated_keeps_tables (env : Env) (o : PsfObj) (suppress normalized : Bool) (accelerated : Option Bool) (ha : env.accelerate accelerated = true)
    (s : CoefState) : (o.calculate env suppress normalized accelerated s).2.2 = s :=
  calculate_pure env o suppress normalized accelerated ha s

/-- The kernel stored in an object is a normalized PSF of the given size. -/
def NormalizedKernel (o : PsfObj) (S : ℕ) : Prop := o.kernel.rows = S ∧ o.kernel.cols = S ∧ InUnit o.kernel ∧ MaxIsOne o.kernel

theorem ideal_normalized (Φ : ℝ → ℝ → ℝ) (hΦ : ∀ p φ, 0 ≤ p → p ≤ 1 → |Φ p φ| < Real.pi / 2) (q : KernelParams) (hq : PointsOk q) (hn : q.normalize = true)
    (S : ℕ) (hS : S % 2 = 1) : ∃ g, idealKernel Φ q S = .ok g ∧ g.rows = S ∧ g.cols = S ∧ InUnit g ∧ MaxIsOne g := by
  have hR : 0 < q.nR.toNat := by have := hq.1; omega
  have hP : 0 < q.nPhi.toNat := by have := hq.2; omega
  obtain ⟨g, h1, h2⟩ := pureKernel_of S (by omega) (pixelPsf Φ (opticalScale q.wavelength q.NA q.len2pixels) S q.nR.toNat q.nPhi.toNat) q.normalize
  obtain ⟨k1, k2, k3, k4⟩ := kernelOf_unit _ _ _ _ h2 (fun i j _ _ => ⟨(pixelPsf_mem Φ _ S _ _ i j hR hP).1,
    (pixelPsf_mem Φ _ S _ _ i j hR hP).2.trans (fraction_sq_le _ hP)⟩)
    (fun _ => ⟨S / 2, S / 2, by omega, by omega, by rw [pixelPsf_center _ _ _ _ _ hS]; exact psfValue_pos Φ hΦ 0 _ _ hR hP⟩)
  exact ⟨g, h1, k1, k2, k3, k4 hn⟩

theorem compileOne_eq (env : Env) (arg : PsfArg) (o : PsfObj) (ho : psfInit arg = .ok o) (NA wl px : ℝ) (c : CoeffArg) (S : ℕ) (s : CoefState) (hs : Good s)
    (hv : ∀ z ∈ psfPols o, ValidOrders z.m z.n) (hok : PhysicalOk NA wl px) (hfit : CoeffFits (psfPols o).length c) (henv : env.numba = true) (hS : S % 2 = 1)
    (hres : ∀ o' : PsfObj, Stored o o' NA wl px (coeffValues c) → ∃ x, ({ o' with kernelSize := (S : Int) } : PsfObj).kernelCall env true (some true) = some x ∧
      ∃ g : Grid, (x s).1 = .ok g ∧ g.rows = S ∧ g.cols = S ∧ InUnit g ∧ MaxIsOne g) :
    ∃ o', compileOne env arg NA wl c px S s = (.ok o', s) ∧ NormalizedKernel o' S ∧ o'.kernelSize = S ∧ o'.zernpol = o.zernpol ∧ o'.polynomials = o.polynomials := by
  have hr : PsfReachable o (afterCalls []) := ⟨arg, o, [], [], ho, rfl⟩
  obtain ⟨o', e, st⟩ := (set_physical_props_exact_partial o _ hr hv NA wl px c).1 ⟨hok, hfit⟩
  obtain ⟨x, hx, g, hg, hk⟩ := hres o' st
  have hcs : calcStart ({ o' with kernelSize := (S : Int) } : PsfObj) true = { o' with kernelSize := (S : Int) } := if_neg (by simp)
  have hc := calculate_eq env { o' with kernelSize := (S : Int) } true true (some true) s x (by rw [hcs]; exact hx) g hg
  have hp := accelerated_keeps_tables env { o' with kernelSize := (S : Int) } true true (some true) (by simp [Env.accelerate, henv]) s
  refine ⟨{ o' with kernelSize := (S : Int), kernel := g }, ?_, hk, rfl, st.same.2.1, st.same.2.2.1⟩
  unfold compileOne
  rw [ho]
  simp only [e]
  rcases hcc : ({ o' with kernelSize := (S : Int) } : PsfObj).calculate env true true (some true) s with ⟨r, o2, s2⟩
  rw [hcc] at hc hp
  obtain ⟨h1, h2⟩ := hc
  simp only at h1 h2 hp
  subst h1 h2 hp
  simp only [hcs]

theorem makePol_ok : ∃ a b c d, makePol (-1) 1 = .ok a ∧ makePol (-2) 4 = .ok b ∧ makePol 3 3 = .ok c ∧ makePol 0 4 = .ok d ∧
    (a.m = -1 ∧ a.n = 1 ∧ a.osa = 1) ∧ (b.m = -2 ∧ b.n = 4 ∧ b.osa = 11) ∧ (c.m = 3 ∧ c.n = 3 ∧ c.osa = 9) ∧ (d.m = 0 ∧ d.n = 4 ∧ d.osa = 12) :=
  ⟨_, _, _, _, rfl, rfl, rfl, rfl, ⟨rfl, rfl, rfl⟩, ⟨rfl, rfl, rfl⟩, ⟨rfl, rfl, rfl⟩, ⟨rfl, rfl, rfl⟩⟩

theorem sqrt_le_four {x : ℝ} (h : x ≤ 16) : Real.sqrt x ≤ 4 := by
  rw [show (4 : ℝ) = Real.sqrt 16 by rw [show (16 : ℝ) = 4 ^ 2 by norm_num, Real.sqrt_sq (by norm_num)]]
  exact Real.sqrt_le_sqrt h

theorem norm_le_four (m n : Int) (hn : n ≤ 7) (h0 : 0 ≤ n) : Spec.norm m n ≤ 4 := by
  have h1 : (n : ℝ) ≤ 7 := by exact_mod_cast hn
  have h2 : (0 : ℝ) ≤ n := by exact_mod_cast h0
  unfold Spec.norm
  apply sqrt_le_four
  split_ifs <;> linarith

theorem termSum_small (l : List (ℝ × PolObj)) (hv : ∀ x ∈ l, ValidOrders x.2.m x.2.n ∧ x.2.n ≤ 7) (p φ : ℝ) (h0 : 0 ≤ p) (h1 : p ≤ 1) :
    |termSum l p φ| ≤ 4 * (l.map fun x => |x.1|).sum := by
  induction l with
  | nil => simp [termSum]
  | cons x l ih =>
    have h2 := ih fun y hy => hv y (by simp [hy])
    have hx := hv x (by simp)
    have h3 : |zernike x.2.m x.2.n p φ| ≤ 4 := (zernike_le _ _ hx.1 φ h0 h1).trans (norm_le_four _ _ hx.2 ((valid_iff _ _).1 hx.1).1)
    have e : termSum (x :: l) p φ = x.1 * zernike x.2.m x.2.n p φ + termSum l p φ := by simp [termSum]
    rw [e, List.map_cons, List.sum_cons]
    calc |x.1 * zernike x.2.m x.2.n p φ + termSum l p φ| ≤ |x.1 * zernike x.2.m x.2.n p φ| + |termSum l p φ| := abs_add_le _ _
      _ = |x.1| * |zernike x.2.m x.2.n p φ| + |termSum l p φ| := by rw [abs_mul]
      _ ≤ |x.1| * 4 + 4 * (l.map fun x => |x.1|).sum := add_le_add (mul_le_mul_of_nonneg_left h3 (abs_nonneg _)) h2
      _ = _ := by ring

theorem compile_first (env : Env) (henv : env.numba = true) (s : CoefState) (hs : Good s) (z : ZernPol) (hm : z.m = -1) (hn : z.n = 1) :
    ∃ o, compileOne env (.pol z) 0.2 0.55 (.num 0.042) (0.55 / 0.82) 1 s = (.ok o, s) ∧ NormalizedKernel o 1 ∧ o.kernelSize = 1 ∧ o.zernpol = some z := by
  have hacc : env.accelerate (some true) = true := by simp [Env.accelerate, henv]
  have hv : ValidOrders z.m z.n := by rw [hm, hn]; decide
  obtain ⟨o', h1, h2, h3, h4, -⟩ := compileOne_eq env (.pol z) { psfDefault with zernpol := some z, airy := z.isPiston } rfl 0.2 0.55 (0.55 / 0.82) (.num 0.042) 1 s hs
    (by intro y hy; simp [psfPols] at hy; rw [hy]; exact hv) (by unfold PhysicalOk; norm_num) (by simp [psfPols, CoeffFits]) henv rfl (by
      intro o' st
      have hz : o'.zernpol = some z := st.same.2.1
      have hc : o'.expansionCoeff = 0.042 := (st.single 0.042 (by simp) rfl).1
      have hR : o'.nR = 320 := st.same.2.2.2.2.1
      have hP : o'.nPhi = 300 := st.same.2.2.2.2.2
      have hw : o'.wavelength = 0.55 := st.wavelength
      have hNA : o'.NA = 0.2 := st.NA
      have hq : PointsOk (({ o' with kernelSize := ((1 : ℕ) : Int) } : PsfObj).params true) :=
        ⟨by simp only [PsfObj.params]; omega, by simp only [PsfObj.params]; omega⟩
      have hopt : OpticsOk (({ o' with kernelSize := ((1 : ℕ) : Int) } : PsfObj).params true) :=
        ⟨by simp only [PsfObj.params]; rw [hw]; norm_num, by simp only [PsfObj.params]; rw [hNA]; norm_num⟩
      refine ⟨getPsfKernelComp z.obj o'.expansionCoeff (({ o' with kernelSize := ((1 : ℕ) : Int) } : PsfObj).params true), ?_, ?_⟩
      · unfold PsfObj.kernelCall
        simp only [hz, hacc, if_true]
      · rw [comp_res s hs z.obj ⟨hv, by simp only [ZernPol.obj]; omega, by simp only [ZernPol.obj]; omega⟩ _ _ hq hopt 1 ⟨rfl, Or.inl rfl⟩]
        refine ideal_normalized _ ?_ _ hq rfl 1 rfl
        intro p φ h0 h1
        have h2 := (zernike_le z.m z.n hv φ h0 h1).trans (norm_le_four _ _ (by omega) (by omega))
        unfold phaseOne
        rw [hc]
        simp only [PsfObj.params, hw, ZernPol.obj]
        rw [abs_mul, abs_of_nonneg (show (0 : ℝ) ≤ 0.042 / 0.55 by norm_num)]
        have := Real.pi_gt_three
        have h3 : (0.042 / 0.55 : ℝ) * |zernike z.m z.n p φ| ≤ 0.042 / 0.55 * 4 := mul_le_mul_of_nonneg_left h2 (by norm_num)
        norm_num at h3 ⊢
        linarith)
  exact ⟨o', h1, h2, h3, h4⟩

theorem compile_second (env : Env) (henv : env.numba = true) (s : CoefState) (hs : Good s) (b c d : ZernPol) (hb : b.m = -2 ∧ b.n = 4 ∧ b.osa = 11)
    (hc : c.m = 3 ∧ c.n = 3 ∧ c.osa = 9) (hd : d.m = 0 ∧ d.n = 4 ∧ d.osa = 12) :
    ∃ o, compileOne env (.seq [.zern b, .zern c, .zern d]) 0.2 0.5 (.seq [-0.01, 0.043, 0.027]) (0.5 / 0.85) 3 s = (.ok o, s) ∧ NormalizedKernel o 3 ∧
      o.kernelSize = 3 ∧ o.zernpol = none ∧ o.polynomials = [b, c, d] := by
  have hacc : env.accelerate (some true) = true := by simp [Env.accelerate, henv]
  have hpols : ∀ z ∈ [b, c, d], CompSupported z.m z.n ∧ z.n ≤ 7 := by
    intro z hz
    simp only [List.mem_cons, List.not_mem_nil, or_false] at hz
    rcases hz with rfl | rfl | rfl
    · rw [hb.1, hb.2.1]; unfold CompSupported; decide
    · rw [hc.1, hc.2.1]; unfold CompSupported; decide
    · rw [hd.1, hd.2.1]; unfold CompSupported; decide
  have hinit : psfInit (.seq [.zern b, .zern c, .zern d]) =
      .ok { psfDefault with polynomials := [b, c, d], zernpol := none, airy := [b, c, d].any ZernPol.isPiston } := by
    show (if ([b, c, d].map ZernPol.osa).dedup.length < ([b, c, d].map ZernPol.osa).length then Except.error PyErr.valueError else Except.ok _) = _
    rw [if_neg]
    simp only [List.map_cons, List.map_nil, hb.2.2, hc.2.2, hd.2.2]
    decide
  obtain ⟨o', h1, h2, h3, h4, h5⟩ := compileOne_eq env (.seq [.zern b, .zern c, .zern d])
    { psfDefault with polynomials := [b, c, d], zernpol := none, airy := [b, c, d].any ZernPol.isPiston } hinit 0.2 0.5 (0.5 / 0.85) (.seq [-0.01, 0.043, 0.027]) 3 s hs
    (by intro y hy; exact (hpols y hy).1.1) (by unfold PhysicalOk; norm_num) rfl henv rfl (by
      intro o' st
      have hz : o'.zernpol = none := st.same.2.1
      have hps : o'.polynomials = [b, c, d] := st.same.2.2.1
      have ha : o'.amplitudes = some [-0.01 / 0.5, 0.043 / 0.5, 0.027 / 0.5] := (st.several rfl).2
      have hR : o'.nR = 320 := st.same.2.2.2.2.1
      have hP : o'.nPhi = 300 := st.same.2.2.2.2.2
      have hw : o'.wavelength = 0.5 := st.wavelength
      have hNA : o'.NA = 0.2 := st.NA
      have hq : PointsOk (({ o' with kernelSize := ((3 : ℕ) : Int) } : PsfObj).params true) :=
        ⟨by simp only [PsfObj.params]; omega, by simp only [PsfObj.params]; omega⟩
      have hopt : OpticsOk (({ o' with kernelSize := ((3 : ℕ) : Int) } : PsfObj).params true) :=
        ⟨by simp only [PsfObj.params]; rw [hw]; norm_num, by simp only [PsfObj.params]; rw [hNA]; norm_num⟩
      refine ⟨getPsfKernelCompPols ([-0.01 / 0.5, 0.043 / 0.5, 0.027 / 0.5].zip ([b, c, d].map ZernPol.obj)) (({ o' with kernelSize := ((3 : ℕ) : Int) } : PsfObj).params true), ?_, ?_⟩
      · unfold PsfObj.kernelCall
        simp only [hz, hps, ha, hacc, if_true]
        rw [if_neg (by simp)]
      · have hall : ∀ x ∈ ([-0.01 / 0.5, 0.043 / 0.5, 0.027 / 0.5] : List ℝ).zip ([b, c, d].map ZernPol.obj), CompSupported x.2.m x.2.n ∧ x.2.n ≤ 7 := by
          intro y hy
          obtain ⟨z, hz, hzy⟩ := List.mem_map.1 (List.of_mem_zip hy).2
          rw [← hzy]
          exact hpols z hz
        rw [comp_pols_res s hs _ (by simp) (fun x hx => (hall x hx).1) _ hq hopt 3 ⟨rfl, Or.inl rfl⟩]
        refine ideal_normalized _ ?_ _ hq rfl 3 rfl
        intro p φ h0 h1
        refine (termSum_small _ (fun x hx => ⟨(hall x hx).1.1, (hall x hx).2⟩) p φ h0 h1).trans_lt ?_
        have := Real.pi_gt_three
        have e : ((([-0.01 / 0.5, 0.043 / 0.5, 0.027 / 0.5] : List ℝ).zip ([b, c, d].map ZernPol.obj)).map fun x => |x.1|).sum = 0.16 := by
          simp only [List.map_cons, List.map_nil, List.zip_cons_cons, List.zip_nil_right, List.sum_cons, List.sum_nil]
          rw [abs_of_nonpos (by norm_num), abs_of_nonneg (by norm_num), abs_of_nonneg (by norm_num)]
          norm_num
        rw [e]
        linarith)
  exact ⟨o', h1, h2, h3, h4, h5⟩

theorem compileBoth_ok (env : Env) (henv : env.numba = true) (s : CoefState) (hs : Good s) :
    ∃ a b, compileBoth env s = (.ok (a, b), s) ∧ NormalizedKernel a 1 ∧ a.kernelSize = 1 ∧ (∃ z, a.zernpol = some z ∧ z.m = -1 ∧ z.n = 1) ∧
      NormalizedKernel b 3 ∧ b.kernelSize = 3 ∧ b.zernpol = none ∧ b.polynomials.map (fun z => (z.m, z.n)) = [(-2, 4), (3, 3), (0, 4)] := by
  obtain ⟨z, b, c, d, e1, e2, e3, e4, hz, hb, hc, hd⟩ := makePol_ok
  obtain ⟨o1, f1, f2, f3, f4⟩ := compile_first env henv s hs z hz.1 hz.2.1
  obtain ⟨o2, g1, g2, g3, g4, g5⟩ := compile_second env henv s hs b c d hb hc hd
  refine ⟨o1, o2, ?_, f2, f3, ⟨z, f4, hz.1, hz.2.1⟩, g2, g3, g4, by rw [g5]; simp [hb.1, hb.2.1, hc.1, hc.2.1, hd.1, hd.2.1]⟩
  unfold compileBoth
  rw [e1, e2, e3, e4]
  simp only [f1]
  show (match compileOne env (.seq [.zern b, .zern c, .zern d]) 0.2 0.5 (.seq [-0.01, 0.043, 0.027]) (0.5 / 0.85) 3 s with
    | (.error e, s) => (.error e, s)
    | (.ok b, s) => (.ok (o1, b), s) : Res (PsfObj × PsfObj) × CoefState) = _
  rw [g1]


/-! ### The version of numba -/

/-- The version `a.b.c` comes before `a'.b'.c'`. -/
def VersionBefore (v w : Int × Int × Int) : Prop := v.1 < w.1 ∨ (v.1 = w.1 ∧ (v.2.1 < w.2.1 ∨ (v.2.1 = w.2.1 ∧ v.2.2 < w.2.2)))

/-- C74. For a version with three or more parts of which the first three are numbers, there is no exception and no other warning; if the recommendation is
given, the version is older than 0.57.1. -/
theorem version_check_partial (a b c : Int) (ha : 0 ≤ a) (rest : VersionParts) :
    (versionWarnings (some a :: some b :: some c :: rest) = .ok [.recommended] ∧ VersionBefore (a, b, c) (0, 57, 1)) ∨
    (versionWarnings (some a :: some b :: some c :: rest) = .ok [] ∧ ¬ (a = 0 ∧ b ≤ 57 ∧ c < 1)) := by
  have e : versionOutdated (some a :: some b :: some c :: rest) = .ok (decide (a = 0 ∧ b ≤ 57 ∧ c < 1)) := by
    unfold versionOutdated
    show (if a = 0 then (if b ≤ 57 then Except.ok (decide (c < 1)) else Except.ok false) else Except.ok false) = _
    split_ifs with h1 h2 <;> simp [*]
  unfold versionWarnings
  rw [e]
  by_cases h : a = 0 ∧ b ≤ 57 ∧ c < 1
  · left
    rw [decide_eq_true h]
    refine ⟨rfl, ?_⟩
    unfold VersionBefore
    simp only
    omega
  · right
    rw [decide_eq_false h]
    exact ⟨rfl, h⟩

/-- C74 is false for the versions before 0.57 whose last part is not 0: 0.56.4 is older than 0.57.1, and there is no warning. -/
theorem old_version_not_warned : versionWarnings [some 0, some 56, some 4] = .ok [] ∧ VersionBefore (0, 56, 4) (0, 57, 1) :=
  ⟨rfl, Or.inr ⟨rfl, Or.inl (by norm_num)⟩⟩

/-- C74 is false for a version of two parts, such as `0.57`: an `IndexError` is raised, and nothing is compiled. -/
theorem short_version_raises (b : Int) (hb : b ≤ 57) (fuel : Nat) (j1 : ℝ → ℝ) (s : CoefState) :
    forceCompilation (some [some 0, some b]) fuel j1 s = (.error .indexError, [], s) := by
  have e : versionWarnings [some 0, some b] = .error .indexError := by
    unfold versionWarnings versionOutdated
    show (match (if (0 : Int) = 0 then (if b ≤ 57 then (versionPart [some 0, some b] 2 >>= fun c => pure (decide (c < 1))) else pure false) else pure false : Res Bool) with
      | .ok true => .ok [.recommended]
      | .ok false => .ok []
      | .error .valueError => .ok [.unparsed]
      | .error e => .error e : Res (List CompileWarn)) = _
    rw [if_pos rfl, if_pos hb]
    rfl
  unfold forceCompilation
  simp only [e]

/-- C74. A part that is not a number gives a warning, not an exception. -/
theorem unparsed_version (rest : VersionParts) (b : Int) (hb : b ≤ 57) :
    versionWarnings (none :: rest) = .ok [.unparsed] ∧ versionWarnings (some 0 :: none :: rest) = .ok [.unparsed] ∧
    versionWarnings (some 0 :: some b :: none :: rest) = .ok [.unparsed] := by
  refine ⟨rfl, rfl, ?_⟩
  unfold versionWarnings versionOutdated
  show (match (if (0 : Int) = 0 then (if b ≤ 57 then (versionPart (some 0 :: some b :: none :: rest) 2 >>= fun c => pure (decide (c < 1))) else pure false) else pure false : Res Bool) with
      | .ok true => .ok [.recommended]
      | .ok false => .ok []
      | .error .valueError => .ok [.unparsed]
      | .error e => .error e : Res (List CompileWarn)) = _
  rw [if_pos rfl, if_pos hb]
  rfl

/-- C74. `force_get_psf_compilation` after any calls. Without numba it returns `None` with one warning. With numba, if the check of the version does not
raise, it returns two objects, the first with the kernel `[[1]]`, the second with a normalized kernel of 3 × 3 pixels for the three polynomials. In both
cases the process-wide tables, hence the results of all later calls, are the same as if it had not been called. -/
theorem force_compilation_partial (h : List Call) (fuel : Nat) (j1 : ℝ → ℝ) :
    forceCompilation none fuel j1 (afterCalls h) = (.ok none, [.notInstalled], afterCalls h) ∧
    ∀ v w, versionWarnings v = .ok w → ∃ a b, forceCompilation (some v) fuel j1 (afterCalls h) = (.ok (some (a, b)), w, afterCalls h) ∧
      (a.kernel.rows = 1 ∧ a.kernel.cols = 1 ∧ a.kernel.entry 0 0 = 1 ∧ a.kernelSize = 1 ∧ ∃ z, a.zernpol = some z ∧ z.m = -1 ∧ z.n = 1) ∧
      (b.kernel.rows = 3 ∧ b.kernel.cols = 3 ∧ InUnit b.kernel ∧ MaxIsOne b.kernel ∧ b.kernelSize = 3 ∧ b.zernpol = none ∧
        b.polynomials.map (fun z => (z.m, z.n)) = [(-2, 4), (3, 3), (0, 4)]) := by
  refine ⟨rfl, fun v w hw => ?_⟩
  obtain ⟨a, b, e, ⟨a1, a2, a3, a4⟩, ha, hz, ⟨b1, b2, b3, b4⟩, hb, hzb, hp⟩ := compileBoth_ok ⟨true, fuel, j1⟩ rfl (afterCalls h) (afterCalls_good h)
  refine ⟨a, b, ?_, ⟨a1, a2, ?_, ha, hz⟩, ⟨b1, b2, b3, b4, hb, hzb, hp⟩⟩
  · unfold forceCompilation
    simp only [hw, e]
  · obtain ⟨i, j, hi, hj, hij⟩ := a4.1
    rw [a1] at hi
    rw [a2] at hj
    rw [show i = 0 by omega, show j = 0 by omega] at hij
    exact hij

/-- The hypothesis is met by the versions 0.61.2 and 0.57.0rc1. -/
example : versionWarnings [some 0, some 61, some 2] = .ok [] ∧ versionWarnings [some 0, some 57, none] = .ok [.unparsed] := ⟨rfl, rfl⟩

end Verif.Props
