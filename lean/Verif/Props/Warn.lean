import Verif.Model.Warn
import Verif.Props.PsfCalc
import Verif.Proofs.CropKernel

/-!
# C75: the warnings of a `ZernPSF` object
-/

namespace Verif.Props
open Verif.Model Verif.Spec Verif.Proofs

/-- The position is in the first or last row or column of an `n × n` array. -/
def OnBorder (n i j : ℕ) : Prop := i < n ∧ j < n ∧ (i = 0 ∨ i + 1 = n ∨ j = 0 ∨ j + 1 = n)

theorem borderMax_ok (g : Grid) (n : ℕ) (hn : 0 < n) (hr : g.rows = n) (hc : g.cols = n) :
    ∃ b, borderMax g = .ok b ∧ (∃ i j, OnBorder n i j ∧ g.entry i j = b) ∧ ∀ i j, OnBorder n i j → g.entry i j ≤ b := by
  have e1 : g.col 0 = .ok ((List.range n).map fun i => g.entry i 0) := by
    unfold Grid.col; rw [if_pos ⟨le_rfl, by omega⟩, hr]; rfl
  have e2 : g.row 0 = .ok ((List.range n).map (g.entry 0)) := by
    unfold Grid.row; rw [if_pos ⟨le_rfl, by omega⟩, hc]; rfl
  have e3 : g.col ((g.rows : Int) - 1) = .ok ((List.range n).map fun i => g.entry i (n - 1)) := by
    unfold Grid.col; rw [if_pos ⟨by omega, by omega⟩, hr]
    rw [show ((n : Int) - 1).toNat = n - 1 by omega]
  have e4 : g.row ((g.rows : Int) - 1) = .ok ((List.range n).map (g.entry (n - 1))) := by
    unfold Grid.row; rw [if_pos ⟨by omega, by omega⟩, hc, hr]
    rw [show ((n : Int) - 1).toNat = n - 1 by omega]
  obtain ⟨b1, f1, m1, g1⟩ := npMax_ok _ (map_range_ne hn (fun i => g.entry i 0))
  obtain ⟨b2, f2, m2, g2⟩ := npMax_ok _ (map_range_ne hn (g.entry 0))
  obtain ⟨b3, f3, m3, g3⟩ := npMax_ok _ (map_range_ne hn (fun i => g.entry i (n - 1)))
  obtain ⟨b4, f4, m4, g4⟩ := npMax_ok _ (map_range_ne hn (g.entry (n - 1)))
  obtain ⟨b, f, m, gb⟩ := npMax_ok [b1, b2, b3, b4] (by simp)
  refine ⟨b, ?_, ?_, ?_⟩
  · unfold borderMax
    rw [e1, e2, e3, e4]
    show (npMax _ >>= fun a => npMax _ >>= fun b => npMax _ >>= fun c => npMax _ >>= fun d => npMax [a, b, c, d]) = _
    rw [f1, f2, f3, f4]
    exact f
  · simp only [List.mem_map, List.mem_range] at m1 m2 m3 m4
    obtain ⟨i1, h1, rfl⟩ := m1
    obtain ⟨i2, h2, rfl⟩ := m2
    obtain ⟨i3, h3, rfl⟩ := m3
    obtain ⟨i4, h4, rfl⟩ := m4
    simp only [List.mem_cons, List.not_mem_nil, or_false] at m
    rcases m with rfl | rfl | rfl | rfl
    · exact ⟨i1, 0, ⟨h1, hn, by omega⟩, rfl⟩
    · exact ⟨0, i2, ⟨hn, h2, by omega⟩, rfl⟩
    · exact ⟨i3, n - 1, ⟨h3, by omega, by omega⟩, rfl⟩
    · exact ⟨n - 1, i4, ⟨by omega, h4, by omega⟩, rfl⟩
  · rintro i j ⟨hi, hj, h⟩
    rcases h with rfl | h | rfl | h
    · exact (g2 _ (List.mem_map.2 ⟨j, List.mem_range.2 hj, rfl⟩)).trans (gb _ (by simp))
    · rw [show i = n - 1 by omega]
      exact (g4 _ (List.mem_map.2 ⟨j, List.mem_range.2 hj, rfl⟩)).trans (gb _ (by simp))
    · exact (g1 _ (List.mem_map.2 ⟨i, List.mem_range.2 hi, rfl⟩)).trans (gb _ (by simp))
    · rw [show j = n - 1 by omega]
      exact (g3 _ (List.mem_map.2 ⟨i, List.mem_range.2 hi, rfl⟩)).trans (gb _ (by simp))

/-- The kernel is truncated: some element on its border is greater than 5 % of the greatest element. -/
def Truncated (g : Grid) : Prop := ∃ top i j, IsMax g g.rows top ∧ OnBorder g.rows i j ∧ top / 20 < g.entry i j

theorem borderWarning_iff (g : Grid) (n : ℕ) (hn : 0 < n) (hr : g.rows = n) (hc : g.cols = n) :
    (borderWarning g = [.border] ∧ Truncated g) ∨ (borderWarning g = [] ∧ ¬ Truncated g) := by
  obtain ⟨b, hb, ⟨i, j, hij, e⟩, hmax⟩ := borderMax_ok g n hn hr hc
  have hne : g.elems ≠ [] := by
    have : g.entry 0 0 ∈ g.elems := (mem_elems _ _).2 ⟨0, 0, by omega, by omega, rfl⟩
    exact List.ne_nil_of_mem this
  obtain ⟨top, h1, h2, h3⟩ := npMax_ok _ hne
  obtain ⟨x, y, hx, hy, hxy⟩ := (mem_elems _ _).1 h2
  have hm : IsMax g n top := ⟨⟨x, y, by omega, by omega, hxy⟩, fun i j hi hj => h3 _ ((mem_elems _ _).2 ⟨i, j, by omega, by omega, rfl⟩)⟩
  unfold borderWarning
  rw [hb, h1]
  simp only
  split_ifs with h
  · exact Or.inl ⟨rfl, top, i, j, by rw [hr]; exact hm, by rw [hr]; exact hij, by rw [e]; exact h⟩
  · refine Or.inr ⟨rfl, ?_⟩
    rintro ⟨top', i', j', hm', hij', hlt⟩
    rw [hr] at hm' hij'
    rw [isMax_unique g n top' top hm' hm] at hlt
    exact h (lt_of_lt_of_le hlt (hmax i' j' hij'))

theorem mem_ite (w v : PsfWarn) (p : Prop) [Decidable p] : w ∈ (if p then [v] else []) ↔ p ∧ w = v := by split_ifs with h <;> simp [h]
theorem mem_ite' (w v : PsfWarn) (p : Prop) [Decidable p] : w ∈ (if p then [] else [v]) ↔ ¬ p ∧ w = v := by split_ifs with h <;> simp [h]

/-- C75. The warnings of `calculate_psf_kernel` if it returns, with the warnings not suppressed, for an object in any state reached by any calls: each is emitted
exactly under its condition. -/
theorem calculate_warnings_exact (o : PsfObj) (s : CoefState) (hr : PsfReachable o s) (env : Env) (normalized : Bool) (accelerated : Option Bool) (g : Grid)
    (hg : (o.calculate env false normalized accelerated s).1 = .ok g) :
    (PsfWarn.border ∈ o.calculateWarnings env false normalized accelerated s ↔ Truncated g) ∧
    (PsfWarn.coarsePixels ∈ o.calculateWarnings env false normalized accelerated s ↔ 0.305 * o.wavelength / o.NA < o.pixelSize) ∧
    (PsfWarn.slowKernel ∈ o.calculateWarnings env false normalized accelerated s ↔ env.accelerate accelerated = true ∧ 85 < g.rows) ∧
    (PsfWarn.defaultProps ∈ o.calculateWarnings env false normalized accelerated s ↔ o.propsSet = false) ∧
    (PsfWarn.noNumba ∈ o.calculateWarnings env false normalized accelerated s ↔ accelerated = some true ∧ env.numba = false) ∧
    ∀ w ∈ o.calculateWarnings env false normalized accelerated s,
      w = .border ∨ w = .coarsePixels ∨ w = .slowKernel ∨ w = .defaultProps ∨ w = .noNumba := by
  have hcs := calcStart_with o false
  have hi := calcStart_inv o hr.inv false
  have hne : ¬ (o.zernpol = none ∧ o.polynomials = []) := by
    rintro ⟨h1, h2⟩
    have := hr.several h1
    rw [h2] at this
    simp at this
  rcases calculate_cases env o hr.inv false normalized accelerated s with ⟨e, h1, _⟩ | ⟨g', S, h1, h2, h3, h4, h5⟩
  · rw [h1] at hg; cases hg
  · rw [h1] at hg
    cases hg
    obtain ⟨r, c, -⟩ := h5
    have hrows : 0 < g.rows := by omega
    have hsq : g.cols = g.rows := by omega
    have hw : o.calculateWarnings env false normalized accelerated s =
        ((if o.propsSet then [] else [.defaultProps]) ++ (if accelerated = some true ∧ ¬ env.numba then [.noNumba] else [])) ++
        (if env.accelerate accelerated then slowWarning (calcStart o false).kernelSize else []) ++ coarseWarning ((calcStart o false).params normalized) ++ borderWarning g := by
      unfold PsfObj.calculateWarnings
      rcases hx : o.calculate env false normalized accelerated s with ⟨res, o', s'⟩
      rw [hx] at h1 h2
      simp only at h1 h2
      subst h1; subst h2
      simp only [Bool.false_eq_true, if_false, if_neg hne]
      rfl
    have hcoarse : coarseWarning ((calcStart o false).params normalized) = if 0.305 * o.wavelength / o.NA < o.pixelSize then [.coarsePixels] else [] := by
      have q1 : ((calcStart o false).params normalized).len2pixels = o.pixelSize := by rw [hcs]; rfl
      have q2 : ((calcStart o false).params normalized).wavelength = o.wavelength := by rw [hcs]; rfl
      have q3 : ((calcStart o false).params normalized).NA = o.NA := by rw [hcs]; rfl
      by_cases hh : 0.305 * o.wavelength / o.NA < o.pixelSize
      · rw [if_pos hh]
        refine if_pos ?_
        rw [q1, q2, q3, show (0.5 * 0.61 : ℝ) = 0.305 by norm_num]
        exact hh
      · rw [if_neg hh]
        refine if_neg ?_
        rw [q1, q2, q3, show (0.5 * 0.61 : ℝ) = 0.305 by norm_num]
        exact hh
    have hslow : (if env.accelerate accelerated then slowWarning (calcStart o false).kernelSize else []) =
        if env.accelerate accelerated = true ∧ 85 < g.rows then [.slowKernel] else [] := by
      by_cases ha : env.accelerate accelerated = true
      · have hS : S = (calcStart o false).kernelSize := by
          rcases h3 with ⟨h, _⟩ | ⟨z, _, h10, _⟩
          · exact h
          · rw [ha] at h10; cases h10
        rw [if_pos ha]
        unfold slowWarning
        rw [makeOdd_of_odd hi.size.1, ← hS]
        by_cases h85 : 85 < g.rows
        · rw [if_pos (by omega), if_pos ⟨ha, h85⟩]
        · rw [if_neg (by omega), if_neg (by tauto)]
      · rw [if_neg ha, if_neg (by tauto)]
    rw [hw, hcoarse, hslow]
    have hbo := borderWarning_iff g g.rows hrows rfl hsq
    refine ⟨?_, ?_, ?_, ?_, ?_, ?_⟩
    all_goals simp only [List.mem_append, mem_ite, mem_ite']
    all_goals rcases hbo with ⟨h, t⟩ | ⟨h, t⟩ <;> simp only [h, t]
    all_goals simp
    all_goals (intro w; tauto)

/-- C75. After a successful `set_physical_props` the calculation never warns about the pixel size, nor that no properties were set. -/
theorem no_pixel_warning_after_set (o : PsfObj) (s : CoefState) (hr : PsfReachable o s) (hv : ∀ z ∈ psfPols o, ValidOrders z.m z.n) (NA wl px : ℝ) (c : CoeffArg) (o' : PsfObj)
    (h : o.setPhysicalProps NA wl c px = (.ok (), o')) (env : Env) (normalized : Bool) (accelerated : Option Bool) (g : Grid)
    (hg : (o'.calculate env false normalized accelerated s).1 = .ok g) :
    PsfWarn.coarsePixels ∉ o'.calculateWarnings env false normalized accelerated s ∧ PsfWarn.defaultProps ∉ o'.calculateWarnings env false normalized accelerated s := by
  have hr' : PsfReachable o' s := by
    have := hr.step (.setPhysicalProps NA wl c px)
    simp only [PsfCall.run, h] at this
    exact this
  obtain ⟨k1, k2⟩ := set_physical_props_exact_partial o s hr hv NA wl px c
  have hok : PhysicalOk NA wl px ∧ CoeffFits (psfPols o).length c := by
    by_contra hn
    obtain ⟨e, o'', he, _⟩ := k2 hn
    rw [h] at he
    cases he
  obtain ⟨o'', he, st⟩ := k1 hok
  rw [h] at he
  cases he
  obtain ⟨-, e2, -, e4, -⟩ := calculate_warnings_exact o' s hr' env normalized accelerated g hg
  rw [e2, e4, st.wavelength, st.NA, st.pixelSize, st.propsSet]
  obtain ⟨h1, h2, h3, h4, h5⟩ := hok.1
  refine ⟨?_, by simp⟩
  rw [not_lt]
  refine h5.trans ?_
  rw [show wl / (4 * NA) = 0.25 * wl / NA by field_simp; norm_num]
  gcongr
  norm_num

/-- C75. With `suppress_warnings=True` nothing is emitted; once the properties are set, the kernel, the object and the tables are the same as without. -/
theorem suppress_only_silences_partial (o : PsfObj) (s : CoefState) (env : Env) (normalized : Bool) (accelerated : Option Bool) :
    o.calculateWarnings env true normalized accelerated s = [] ∧
    (o.propsSet = true → o.calculate env true normalized accelerated s = o.calculate env false normalized accelerated s) := by
  refine ⟨rfl, fun h => ?_⟩
  have e : ∀ b : Bool, (if ¬ o.propsSet ∧ ¬ b then { o with kernelSize := 19 } else o) = o := fun b => if_neg (by simp [h])
  unfold PsfObj.calculate
  rw [e true, e false]

/-- C75 is false before the properties are set: suppressing the warnings changes the size of the kernel (here of the accelerated calculation, from 19 to 1). -/
theorem suppress_changes_kernel (z : ZernPol) (hz : ¬ (z.m = 0 ∧ z.n = 0)) (o : PsfObj) (ho : psfInit (.pol z) = .ok o) (h : List Call) (env : Env) (hn : env.numba = true)
    (hs : Supported env none z) (normalized : Bool) :
    ∃ g g', (o.calculate env false normalized none (afterCalls h)).1 = .ok g ∧ g.rows = 19 ∧
      (o.calculate env true normalized none (afterCalls h)).1 = .ok g' ∧ g'.rows = 1 := by
  have hr : PsfReachable o (afterCalls h) := ⟨.pol z, o, h, [], ho, rfl⟩
  have ho' : o = { psfDefault with zernpol := some z, airy := z.isPiston } := by unfold psfInit at ho; exact (Except.ok.inj ho).symm
  have hzp : o.zernpol = some z := by rw [ho']
  have hacc : env.accelerate none = true := by simp [Env.accelerate, hn]
  have key : ∀ b, ∃ g : Grid, (o.calculate env b normalized none (afterCalls h)).1 = .ok g ∧ (g.rows : Int) = usedSize o b := by
    intro b
    obtain ⟨g, S, h1, h2, h3, h4⟩ := calculated_kernel_single o _ hr z hzp hz (by rw [ho']; norm_num [psfDefault]) env b normalized none hs (Or.inr hacc)
    refine ⟨g, h2, ?_⟩
    rw [← h1]
    unfold KernelOf at h4
    split_ifs at h4
    · obtain ⟨_, _, _, _, _, hk2⟩ := h4; exact_mod_cast hk2.1
    · exact_mod_cast h4.1
  obtain ⟨g, h1, h2⟩ := key false
  obtain ⟨g', h3, h4⟩ := key true
  have u1 : usedSize o false = 19 := by rw [ho']; rfl
  have u2 : usedSize o true = 1 := by rw [ho']; rfl
  exact ⟨g, g', h1, by omega, h3, by omega⟩

/-! ### `set_physical_props` -/

theorem sanity_num (x wl : ℝ) (hwl : 0 < wl) : sanityWarning (|x| / wl) = if 10 * wl < |x| then [.bigCoefficient] else [] := by
  unfold sanityWarning
  by_cases h : 10 * wl < |x|
  · rw [if_pos h, if_pos]
    rw [gt_iff_lt, lt_div_iff₀ hwl]; exact h
  · rw [if_neg h, if_neg]
    rw [gt_iff_lt, lt_div_iff₀ hwl]; exact h

theorem npMin_ok (l : List ℝ) (h : l ≠ []) : ∃ bot, npMin l = .ok bot ∧ bot ∈ l ∧ ∀ x ∈ l, bot ≤ x := by
  obtain ⟨a, t, rfl⟩ := List.exists_cons_of_ne_nil h
  refine ⟨t.foldl min a, rfl, ?_⟩
  clear h
  induction t generalizing a with
  | nil => simp
  | cons b t ih =>
    obtain ⟨h1, h2⟩ := ih (min a b)
    rw [List.foldl_cons]
    refine ⟨?_, fun x hx => ?_⟩
    · rcases List.mem_cons.1 h1 with h1 | h1
      · rw [h1]
        rcases min_choice a b with e | e <;> rw [e] <;> simp
      · simp [h1]
    · have h3 := h2 (min a b) (by simp)
      rcases List.mem_cons.1 hx with rfl | hx
      · exact h3.trans (min_le_left _ _)
      · rcases List.mem_cons.1 hx with rfl | hx
        · exact h3.trans (min_le_right _ _)
        · exact h2 x (by simp [hx])

open Classical in
theorem sanity_seq (l : List ℝ) (hl : l ≠ []) (wl : ℝ) (hwl : 0 < wl) :
    maxCoeffWarning wl (npMax l) (npMin l) = if ∃ c ∈ l, 10 * wl < |c| then [PsfWarn.bigCoefficient] else [] := by
  obtain ⟨top, h1, h2, h3⟩ := npMax_ok l hl
  obtain ⟨bot, g1, g2, g3⟩ := npMin_ok l hl
  rw [h1, g1]
  show sanityWarning _ = _
  rw [sanity_num _ _ hwl]
  have e : 10 * wl < abs (max top (abs bot)) ↔ ∃ c ∈ l, 10 * wl < |c| := by
    rw [abs_of_nonneg (le_max_of_le_right (abs_nonneg bot)), lt_max_iff]
    constructor
    · rintro (h | h)
      · exact ⟨top, h2, h.trans_le (le_abs_self _)⟩
      · exact ⟨bot, g2, h⟩
    · rintro ⟨c, hc, h⟩
      rcases le_or_gt 0 c with h0 | h0
      · left; rw [abs_of_nonneg h0] at h; exact h.trans_le (h3 c hc)
      · right
        rw [abs_of_neg h0] at h
        have := g3 c hc
        exact h.trans_le ((neg_le_neg this).trans (neg_le_abs bot))
  by_cases h : ∃ c ∈ l, 10 * wl < |c|
  · rw [if_pos (e.2 h), if_pos h]
  · rw [if_neg (fun x => h (e.1 x)), if_neg h]

open Classical in
/-- C75. `set_physical_props` warns exactly if it accepts its arguments and some coefficient is, in absolute value, greater than 10 wavelengths. -/
theorem coefficient_warning_exact (o : PsfObj) (s : CoefState) (hr : PsfReachable o s) (NA wl px : ℝ) (c : CoeffArg) :
    o.setPhysicalPropsWarnings NA wl c px =
      if (PhysicalOk NA wl px ∧ CoeffFits (psfPols o).length c) ∧ ∃ x ∈ coeffValues c, 10 * wl < |x| then [.bigCoefficient] else [] := by
  have hrej : ¬ PhysicalOk NA wl px → o.setPhysicalPropsWarnings NA wl c px = [] := by
    intro h
    unfold PsfObj.setPhysicalPropsWarnings
    split_ifs with h1 h2 h3 h4 h5
    any_goals rfl
    exfalso
    push Not at h1 h2 h4 h5
    rw [nyquist_eq] at h5
    exact h ⟨lt_of_le_of_ne h1.1 (Ne.symm h3), h1.2, h2, h4, h5⟩
  by_cases hp : PhysicalOk NA wl px
  · obtain ⟨h1, h2, h3, h4, h5⟩ := id hp
    have e : o.setPhysicalPropsWarnings NA wl c px = o.coeffWarnings wl c := by
      unfold PsfObj.setPhysicalPropsWarnings
      rw [if_neg (by push Not; exact ⟨h1.le, h2⟩), if_neg (not_le.2 h3), if_neg h1.ne', if_neg (not_le.2 h4), if_neg (by rw [nyquist_eq, gt_iff_lt, not_lt]; exact h5)]
    rw [e]
    rcases hr.inv.wf.1 with ⟨z, hz, hpl⟩ | ⟨hz, hpl⟩
    · have hlen : (psfPols o).length = 1 := by simp [psfPols, hz]
      rw [hlen]
      cases c with
      | num x =>
        have : o.coeffWarnings wl (.num x) = sanityWarning (|x| / wl) := by
          show (if _ then _ else _) = _
          rw [if_neg (by rw [hz]; simp)]
        rw [this, sanity_num _ _ h3]
        simp [CoeffFits, coeffValues, hp]
      | bad e => simp [PsfObj.coeffWarnings, coeffValues]
      | seq l =>
        rcases l with _ | ⟨x, _ | ⟨y, t⟩⟩
        · simp [PsfObj.coeffWarnings, hpl, npMax, CoeffFits]
          rfl
        · have : o.coeffWarnings wl (.seq [x]) = sanityWarning (|x| / wl) := by
            simp [PsfObj.coeffWarnings, hpl]
          rw [this, sanity_num _ _ h3]
          simp [CoeffFits, coeffValues, hp]
        · simp [PsfObj.coeffWarnings, hpl, CoeffFits]
    · have hlen : (psfPols o).length = o.polynomials.length := by simp [psfPols, hz]
      rw [hlen]
      cases c with
      | num x =>
        rw [if_neg]
        · show (if _ then _ else _) = _
          rw [if_pos ⟨hz, by omega⟩]
        · rintro ⟨⟨_, hf⟩, _⟩
          have hf : o.polynomials.length = 1 := hf
          omega
      | bad e => simp [PsfObj.coeffWarnings, coeffValues]
      | seq l =>
        by_cases hl : l.length = o.polynomials.length
        · have hne : l ≠ [] := by rintro rfl; simp at hl; omega
          have : o.coeffWarnings wl (.seq l) = maxCoeffWarning wl (npMax l) (npMin l) := by
            show (if _ then _ else _) = _
            rw [if_neg (by simpa using hl)]
          rw [this, sanity_seq l hne wl h3]
          simp [CoeffFits, coeffValues, hp, hl]
        · have : o.coeffWarnings wl (.seq l) = [] := by
            show (if _ then _ else _) = _
            rw [if_pos hl]
            rcases l with _ | ⟨x, _ | ⟨y, t⟩⟩
            · rfl
            · show (if _ then _ else _) = _
              rw [if_neg (by omega)]
            · rfl
          rw [this, if_neg]
          rintro ⟨⟨_, hf⟩, _⟩
          exact hl hf
  · rw [hrej hp, if_neg (by tauto)]

/-! ### `set_calculation_props` -/

/-- C75. `set_calculation_props` warns, if the size is at least 3: once the physical properties are set, exactly if the new (odd) size is less than the present one;
before, that they should be set first; and, if it succeeds, exactly if more than 500 radial and more than 400 angular points are asked for. -/
theorem calculation_props_warnings_exact (o : PsfObj) (size nR nPhi : Int) :
    (size < 3 → o.setCalculationPropsWarnings size nR nPhi = []) ∧
    (3 ≤ size →
      (PsfWarn.sizeReduced ∈ o.setCalculationPropsWarnings size nR nPhi ↔ o.propsSet = true ∧ (o.setCalculationProps size nR nPhi).2.kernelSize < o.kernelSize) ∧
      (PsfWarn.propsFirst ∈ o.setCalculationPropsWarnings size nR nPhi ↔ o.propsSet = false) ∧
      (PsfWarn.precision ∈ o.setCalculationPropsWarnings size nR nPhi ↔ 500 < nR ∧ 400 < nPhi) ∧
      ∀ w ∈ o.setCalculationPropsWarnings size nR nPhi, w = .sizeReduced ∨ w = .propsFirst ∨ w = .precision) := by
  refine ⟨fun h => by unfold PsfObj.setCalculationPropsWarnings; rw [if_pos h], fun h => ?_⟩
  have hk : (o.setCalculationProps size nR nPhi).2.kernelSize = makeOdd size := by
    unfold PsfObj.setCalculationProps
    rw [if_neg (by omega)]
    simp only
    split_ifs <;> rfl
  rw [hk]
  unfold PsfObj.setCalculationPropsWarnings
  rw [if_neg (by omega)]
  refine ⟨?_, ?_, ?_, ?_⟩
  · cases o.propsSet <;> (split_ifs <;> simp_all)
  · cases o.propsSet <;> (split_ifs <;> simp_all)
  · have : ∀ l : List PsfWarn, PsfWarn.precision ∉ l → (PsfWarn.precision ∈ l ++ (if nR < 20 then [] else if nPhi < 36 then [] else if nR > 500 ∧ nPhi > 400 then [.precision] else []) ↔ 500 < nR ∧ 400 < nPhi) := by
      intro l hl
      rw [List.mem_append, or_iff_right hl]
      split_ifs with h1 h2 h3
      · simp; omega
      · simp; omega
      · simpa using h3
      · simpa using h3
    apply this
    split_ifs <;> simp
  · cases o.propsSet <;> (split_ifs <;> simp_all)

/-- A new object for the polynomial `(-1, 3)`, calculated with numba: the kernel exists, the warning about the default properties is emitted, and that about the
pixel size is not, since the default pixel size is the Nyquist one. -/
example (j1 : ℝ → ℝ) : ∃ (o : PsfObj) (g : Grid), psfInit (.pol ⟨-1, 3, 7, 7, .int 7⟩) = .ok o ∧ (o.calculate ⟨true, 1000, j1⟩ false true none (afterCalls [])).1 = .ok g ∧
    PsfWarn.defaultProps ∈ o.calculateWarnings ⟨true, 1000, j1⟩ false true none (afterCalls []) ∧
    PsfWarn.coarsePixels ∉ o.calculateWarnings ⟨true, 1000, j1⟩ false true none (afterCalls []) ∧
    PsfWarn.slowKernel ∉ o.calculateWarnings ⟨true, 1000, j1⟩ false true none (afterCalls []) := by
  refine ⟨{ psfDefault with zernpol := some ⟨-1, 3, 7, 7, .int 7⟩, airy := false }, ?_⟩
  obtain ⟨g, -, h1, h2, -⟩ := suppress_changes_kernel ⟨-1, 3, 7, 7, .int 7⟩ (by decide) { psfDefault with zernpol := some ⟨-1, 3, 7, 7, .int 7⟩, airy := false } rfl [] ⟨true, 1000, j1⟩ rfl
    (by unfold Supported ValidOrders; simp [Env.accelerate]) true
  have hr : PsfReachable { psfDefault with zernpol := some ⟨-1, 3, 7, 7, .int 7⟩, airy := false } (afterCalls []) := ⟨.pol ⟨-1, 3, 7, 7, .int 7⟩, _, [], [], rfl, rfl⟩
  obtain ⟨-, e2, e3, e4, -⟩ := calculate_warnings_exact _ _ hr ⟨true, 1000, j1⟩ true none g h1
  refine ⟨g, rfl, h1, e4.2 rfl, ?_, ?_⟩
  · rw [e2]
    norm_num [psfDefault]
  · rw [e3]
    rintro ⟨_, h⟩
    omega

end Verif.Props
