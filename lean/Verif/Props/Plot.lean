import Verif.Model.Plot
import Verif.Props.Polar
import Verif.Props.ZernPol
import Verif.Props.Convolve
import Verif.Props.Sample

/-!
# C65: the plots show the polynomials
-/

namespace Verif.Props

open Verif.Model Verif.Spec Verif.Proofs

/-- Specification: a picture of the function `f`: a value for each node of radii that cover [0, 1] and angles that cover [0, 2 pi], equal to the function there; in space the
nodes are at their Cartesian coordinates. -/
def Pictures (d : Drawing) (title : String) (f : ℝ → ℝ → ℝ) : Prop :=
  match d with
  | .polar ts rs g t => t = title ∧ (∃ s, Covers rs 1 s) ∧ (∃ s, Covers ts (2 * Real.pi) s) ∧ IsSurface g rs ts f
  | .space x y g => ∃ rs ts, (∃ s, Covers rs 1 s) ∧ (∃ s, Covers ts (2 * Real.pi) s) ∧ IsSurface g rs ts f ∧
      IsSurface x rs ts (fun r t => r * Real.cos t) ∧ IsSurface y rs ts (fun r t => r * Real.sin t)

def _root_.Verif.Model.Drawing.isSpace : Drawing → Bool
  | .polar _ _ _ _ => false
  | .space _ _ _ => true

theorem mesh_surface (rs ts : List ℝ) (h : ℝ → ℝ → ℝ) : IsSurface ⟨rs.length, ts.length, fun i j => h (rs.getD i 0) (ts.getD j 0)⟩ rs ts h := by
  refine ⟨rfl, rfl, fun i hi j hj => ?_⟩
  simp [List.getD, List.getElem?_eq_getElem hi, List.getElem?_eq_getElem hj]

theorem sum_surface_good (fuel : Nat) (cs : List ℝ) (os : List PolObj) (hl : cs.length = os.length)
    (h0 : os ≠ []) (hv : PolsOk fuel os) (r t : List ℝ) (hr0 : r ≠ []) (ht : t ≠ []) (hr : ∀ x ∈ r, 0 ≤ x ∧ x ≤ 1) (a b : Nat) :
    RetP (sumZernikes fuel cs (os.map .pol) (.arr [a] r) (.arr [b] t) true) fun o => ∃ g, o = .surface g ∧ IsSurface g r t (combination cs (ordersOf os)) := by
  have hlen : cs.length ≠ 0 := by rw [hl]; simpa using h0
  unfold sumZernikes
  rw [if_neg (by simp [hl]), if_neg hlen, if_pos rfl, zip_pol]
  refine RetP.bind (sumSurface_ok fuel r t hr0 ht hr _ (pols_zip hv cs) _ _ (zeros_sameGrid r t)) fun g hg =>
    retP_pure _ ⟨g, rfl, ?_⟩
  rw [← termSum_eq]
  simpa using isSurface_of _ _ _ _ hg

/-- The coordinates of the default plots cover the disk. -/
theorem plotCoordinates_ok (space : Bool) : ∃ rs ts, plotCoordinates space = .ok (rs, ts) ∧ (∃ s, Covers rs 1 s) ∧ ∃ s, Covers ts (2 * Real.pi) s := by
  cases space with
  | false =>
    obtain ⟨rs, ts, h1, h2, h3⟩ := gen_polar_covers (1 / 100) defaultThetaStep (by norm_num) (by norm_num [defaultThetaStep])
    exact ⟨rs, ts, h1, ⟨_, h2⟩, ⟨_, h3⟩⟩
  | true =>
    obtain ⟨_, _, h2, h3⟩ := gen_equal_mesh_covers 250
    exact ⟨_, _, rfl, ⟨_, h2⟩, ⟨_, h3⟩⟩

theorem drawSum_pictures {space : Bool} {title : String} {rs ts : List ℝ} (h1 : ∃ s, Covers rs 1 s) (h2 : ∃ s, Covers ts (2 * Real.pi) s) {g : Grid} {f : ℝ → ℝ → ℝ}
    (hg : IsSurface g rs ts f) : ∃ d, drawSum rs ts space title (.surface g) = (pure d : CM Drawing) ∧ Drawing.isSpace d = space ∧ Pictures d title f := by
  cases space with
  | false => exact ⟨_, rfl, rfl, rfl, h1, h2, hg⟩
  | true => exact ⟨_, rfl, rfl, rs, ts, h1, h2, hg, mesh_surface rs ts fun r t => r * Real.cos t, mesh_surface rs ts fun r t => r * Real.sin t⟩

/-- C65. `plot_profile` with default coordinates shows, for every polynomial, both projections and every history, the polynomial on nodes that cover the disk, with its name as the title
of the flat picture if asked for. -/
theorem plot_profile_shows (h : List Call) (fuel : Nat) (o : PolObj) (hv : ValidOrders o.m o.n) (hf : o.n.toNat + 1 < fuel) (showTitle space : Bool) (coords : CoordArg) :
    ∃ d, (plotProfile fuel (.pol o) showTitle true space coords (afterCalls h)).1 = .ok (some d) ∧ Drawing.isSpace d = space ∧
      Pictures d (if showTitle then (polynomialNames.lookup (o.m, o.n)).getD "" else "") (zernike o.m o.n) := by
  obtain ⟨rs, ts, hc, h1, h2⟩ := plotCoordinates_ok space
  obtain ⟨s1, c1⟩ := id h1
  obtain ⟨s2, c2⟩ := id h2
  obtain ⟨g, hg, hsurf⟩ := sum_surface h fuel [1] [o] rfl (by simp) (by intro x hx; simp at hx; subst hx; exact ⟨hv, hf⟩) rs ts c1.mem.1 c2.mem.1 c1.mem.2 rs.length ts.length
  have hfun : combination [1] (ordersOf [o]) = zernike o.m o.n := by
    funext r t; simp [combination, ordersOf]
  rw [hfun] at hsurf
  obtain ⟨d, hd, hsp, hp⟩ := drawSum_pictures (space := space) (title := if showTitle then polName o else "") h1 h2 hsurf
  refine ⟨d, ?_, hsp, hp⟩
  unfold plotProfile
  simp only [if_true, hc, cm_bind, CM.lift]
  rcases hx : sumZernikes fuel [1] [.pol o] (.arr [rs.length] rs) (.arr [ts.length] ts) true (afterCalls h) with ⟨x, s⟩
  have : (sumZernikes fuel [1] ([o].map .pol) (.arr [rs.length] rs) (.arr [ts.length] ts) true (afterCalls h)).1 = x := by
    rw [show ([o].map PolItem.pol) = [.pol o] from rfl, hx]
  rw [hg] at this
  subst this
  simp only [hd]
  rfl

/-- C65. `plot_profile` with own coordinates on the disk shows the polynomial on the given nodes. -/
theorem plot_profile_own_coordinates (h : List Call) (fuel : Nat) (o : PolObj) (hv : ValidOrders o.m o.n) (hf : o.n.toNat + 1 < fuel) (showTitle : Bool) (rs ts : List ℝ)
    (hr0 : rs ≠ []) (ht0 : ts ≠ []) (hr : ∀ x ∈ rs, 0 ≤ x ∧ x ≤ 1) :
    (∃ g, (plotProfile fuel (.pol o) showTitle false false (.vectors rs ts) (afterCalls h)).1 =
        .ok (some (.polar ts rs g (if showTitle then (polynomialNames.lookup (o.m, o.n)).getD "" else ""))) ∧ IsSurface g rs ts (zernike o.m o.n)) ∧
    ∃ x y g, (plotProfile fuel (.pol o) showTitle false true (.vectors rs ts) (afterCalls h)).1 = .ok (some (.space x y g)) ∧ IsSurface g rs ts (zernike o.m o.n) ∧
      IsSurface x rs ts (fun r t => r * Real.cos t) ∧ IsSurface y rs ts (fun r t => r * Real.sin t) := by
  obtain ⟨g, hg, hsurf⟩ := sum_surface h fuel [1] [o] rfl (by simp) (by intro x hx; simp at hx; subst hx; exact ⟨hv, hf⟩) rs ts hr0 ht0 hr rs.length ts.length
  have hfun : combination [1] (ordersOf [o]) = zernike o.m o.n := by
    funext r t; simp [combination, ordersOf]
  rw [hfun] at hsurf
  rw [show ([o].map PolItem.pol) = [.pol o] from rfl] at hg
  rcases hx : sumZernikes fuel [1] [.pol o] (.arr [rs.length] rs) (.arr [ts.length] ts) true (afterCalls h) with ⟨x, s⟩
  rw [hx] at hg
  dsimp only at hg
  subst hg
  constructor
  · refine ⟨g, ?_, hsurf⟩
    unfold plotProfile
    simp only [cm_bind, CM.lift, hx, Bool.false_eq_true, if_false]
    rfl
  · refine ⟨_, _, g, ?_, hsurf, mesh_surface rs ts fun r t => r * Real.cos t, mesh_surface rs ts fun r t => r * Real.sin t⟩
    unfold plotProfile
    simp only [cm_bind, CM.lift, hx, Bool.false_eq_true, if_false]
    rfl

/-- C65. Coordinates that are not two arrays with names are rejected; for an object that is not a polynomial nothing is drawn and nothing is raised. -/
theorem plot_profile_rejections (s : CoefState) (fuel : Nat) (o : PolObj) (showTitle space : Bool) :
    (plotProfile fuel (.pol o) showTitle false space .wrongLength s).1 = .error .valueError ∧
    (plotProfile fuel (.pol o) showTitle false space .plainTuple s).1 = .error .attributeError ∧
    ∀ ud c, (plotProfile fuel .other showTitle ud space c s).1 = .ok none :=
  ⟨rfl, rfl, fun _ _ => rfl⟩

/-! ## Radii off the disk -/

theorem polVal_fails (fuel : Nat) (o : PolObj) (r t : Arg) (h : checkRadii r = .error .valueError) : Fails (polVal fuel o r t) .valueError := by
  intro s _
  show (polynomialValue fuel o r t false s).res = _
  unfold polynomialValue
  rw [h]

theorem addRows_fails (fuel : Nat) (c : ℝ) (o : PolObj) (hv : ValidOrders o.m o.n) (hf : o.n.toNat + 1 < fuel) (r t : List ℝ) (ht : t ≠ []) (k j : Nat) (hk : k + j = r.length)
    (S : Grid) (h : ∃ a, j ≤ a ∧ a < r.length ∧ ¬ (0 ≤ r.getD a 0 ∧ r.getD a 0 ≤ 1)) : Fails (addRows fuel c o r t k j S) .valueError := by
  induction k generalizing j S with
  | zero => obtain ⟨a, h1, h2, _⟩ := h; omega
  | succ k ih =>
    unfold addRows
    by_cases hj : 0 ≤ r.getD j 0 ∧ r.getD j 0 ≤ 1
    · obtain ⟨w, hw, _⟩ := checkAnglesArray_ok [t.length] t ht
      refine Ret.bindFails (polVal_ok fuel o hv hf _ (.arr [t.length] t) _ _ w (checkRadii_num _ hj.1 hj.2) hw rfl) (ih (j + 1) (by omega) _ ?_)
      obtain ⟨a, h1, h2, h3⟩ := h
      refine ⟨a, ?_, h2, h3⟩
      rcases Nat.lt_or_ge j a with h4 | h4
      · exact h4
      · exact absurd (by rw [show a = j by omega]; exact hj) h3
    · refine Fails.bind (polVal_fails _ _ _ _ ?_)
      unfold checkRadii
      refine if_pos ?_
      by_contra hc
      push Not at hc
      exact hj ⟨hc.2, hc.1⟩

theorem addCols_fails (fuel : Nat) (c : ℝ) (o : PolObj) (r t : List ℝ) (k j : Nat) (S : Grid) (h : ∃ x ∈ r, ¬ (0 ≤ x ∧ x ≤ 1)) :
    Fails (addCols fuel c o r t (k + 1) j S) .valueError := by
  unfold addCols
  refine Fails.bind (polVal_fails _ _ _ _ ?_)
  show checkRadiiArray _ _ = _
  rw [checkRadiiArray_eq, if_neg]
  rintro ⟨_, h2⟩
  obtain ⟨x, hx, hn⟩ := h
  exact hn (h2 x hx)

theorem sumSurface_fails (fuel : Nat) (r t : List ℝ) (ht : t ≠ []) (h : ∃ x ∈ r, ¬ (0 ≤ x ∧ x ≤ 1)) (l : List (ℝ × PolObj))
    (hv : ∀ p ∈ l, ValidOrders p.2.m p.2.n ∧ p.2.n.toNat + 1 < fuel) (hc : ∃ p ∈ l, p.1 ≠ 0) (S : Grid) :
    Fails (sumSurface fuel r t (l.map fun p => (p.1, .pol p.2)) S) .valueError := by
  induction l with
  | nil => obtain ⟨p, hp, _⟩ := hc; simp at hp
  | cons p l ih =>
    simp only [List.map_cons, sumSurface]
    by_cases h0 : |p.1| > 0
    · simp only [if_pos h0]
      by_cases hlen : t.length > r.length
      · simp only [if_pos hlen]
        refine Fails.bind (addRows_fails fuel p.1 p.2 (hv p (by simp)).1 (hv p (by simp)).2 r t ht _ 0 (by omega) S ?_)
        obtain ⟨x, hx, hn⟩ := h
        obtain ⟨a, ha, rfl⟩ := List.getElem_of_mem hx
        exact ⟨a, by omega, ha, by simpa [List.getD, ha] using hn⟩
      · simp only [if_neg hlen]
        obtain ⟨k, hk⟩ : ∃ k, t.length = k + 1 := ⟨t.length - 1, by have := List.length_pos_iff.2 ht; omega⟩
        rw [hk]
        exact Fails.bind (addCols_fails fuel p.1 p.2 r t k 0 S h)
    · simp only [if_neg h0]
      refine ih (fun q hq => hv q (by simp [hq])) ?_
      obtain ⟨q, hq, hq0⟩ := hc
      rcases List.mem_cons.1 hq with rfl | hq
      · exact absurd (abs_pos.2 hq0) h0
      · exact ⟨q, hq, hq0⟩

/-- C23, C65. A surface on radii of which one is off the unit disk is rejected, if some coefficient is not zero and there is an angle. -/
theorem sum_surface_off_disk (h : List Call) (fuel : Nat) (cs : List ℝ) (os : List PolObj) (hl : cs.length = os.length) (hv : PolsOk fuel os) (hc : ∃ c ∈ cs, c ≠ 0)
    (r t : List ℝ) (ht : t ≠ []) (hr : ∃ x ∈ r, ¬ (0 ≤ x ∧ x ≤ 1)) (a b : Nat) :
    (sumZernikes fuel cs (os.map .pol) (.arr [a] r) (.arr [b] t) true (afterCalls h)).1 = .error .valueError := by
  have hlen : cs.length ≠ 0 := by
    obtain ⟨c, hc, _⟩ := hc
    exact fun h => by simp [List.length_eq_zero_iff.1 h] at hc
  have key : Fails (do let g ← sumSurface fuel r t (cs.zip (os.map .pol)) (Grid.zeros r.length t.length); pure (SumOut.surface g)) .valueError := by
    rw [zip_pol]
    refine Fails.bind (sumSurface_fails fuel r t ht hr _ (pols_zip hv cs) ?_ _)
    obtain ⟨c, hc, h0⟩ := hc
    obtain ⟨i, hi, rfl⟩ := List.getElem_of_mem hc
    refine ⟨(cs[i], os[i]'(by omega)), ?_, h0⟩
    rw [List.mem_iff_getElem]
    exact ⟨i, by simp; omega, by simp⟩
  rw [← key _ (afterCalls_good h)]
  unfold sumZernikes
  rw [if_neg (by simp [hl]), if_neg hlen, if_pos rfl]

/-- C65. So `plot_profile` rejects own coordinates with a radius off the disk (and at least one angle). -/
theorem plot_profile_off_disk (h : List Call) (fuel : Nat) (o : PolObj) (hv : ValidOrders o.m o.n) (hf : o.n.toNat + 1 < fuel) (showTitle space : Bool) (rs ts : List ℝ)
    (ht : ts ≠ []) (hr : ∃ x ∈ rs, ¬ (0 ≤ x ∧ x ≤ 1)) : (plotProfile fuel (.pol o) showTitle false space (.vectors rs ts) (afterCalls h)).1 = .error .valueError := by
  have hx := sum_surface_off_disk h fuel [1] [o] rfl (by intro x hx; simp at hx; subst hx; exact ⟨hv, hf⟩) ⟨1, by simp, one_ne_zero⟩ rs ts ht hr rs.length ts.length
  rw [show ([o].map PolItem.pol) = [.pol o] from rfl] at hx
  unfold plotProfile
  simp only [cm_bind, CM.lift, Bool.false_eq_true, if_false]
  rcases hy : sumZernikes fuel [1] [.pol o] (.arr [rs.length] rs) (.arr [ts.length] ts) true (afterCalls h) with ⟨x, s⟩
  rw [hy] at hx
  dsimp only at hx
  subst hx
  rfl

/-- C65. `plot_sum_zernikes_on_fig` with default coordinates shows the linear combination of the polynomials on nodes that cover the disk, for all coefficients and polynomials. -/
theorem plot_sum_shows (h : List Call) (fuel : Nat) (cs : List ℝ) (os : List PolObj) (hl : cs.length = os.length) (h0 : os ≠ []) (hv : PolsOk fuel os)
    (space : Bool) (surface : SurfaceArg) :
    ∃ d, (plotSumOnFig fuel cs (os.map .pol) true surface space (afterCalls h)).1 = .ok d ∧ d.isSpace = space ∧ Pictures d "" (combination cs (ordersOf os)) := by
  obtain ⟨rs, ts, hc, h1, h2⟩ := plotCoordinates_ok space
  obtain ⟨s1, c1⟩ := id h1
  obtain ⟨s2, c2⟩ := id h2
  obtain ⟨g, hg, hsurf⟩ := sum_surface h fuel cs os hl h0 hv rs ts c1.mem.1 c2.mem.1 c1.mem.2 rs.length ts.length
  obtain ⟨d, hd, hsp, hp⟩ := drawSum_pictures (space := space) (title := "") h1 h2 hsurf
  refine ⟨d, ?_, hsp, hp⟩
  have hn : ¬ (cs.length = 0 ∧ (os.map PolItem.pol).length = 0) := by
    rintro ⟨-, h3⟩
    simp at h3
    exact h0 h3
  unfold plotSumOnFig
  rw [if_pos rfl, if_neg hn]
  simp only [hc, cm_bind, CM.lift]
  rcases hx : sumZernikes fuel cs (os.map .pol) (.arr [rs.length] rs) (.arr [ts.length] ts) true (afterCalls h) with ⟨x, s⟩
  rw [hx] at hg
  dsimp only at hg
  subst hg
  simp only [hd]
  rfl

/-- C65. Lists that are empty or of different lengths are rejected. -/
theorem plot_sum_bad_lists (s : CoefState) (fuel : Nat) (cs : List ℝ) (ps : List PolItem) (hb : cs.length ≠ ps.length ∨ ps = []) (space : Bool) (surface : SurfaceArg) :
    (plotSumOnFig fuel cs ps true surface space s).1 = .error .valueError := by
  obtain ⟨rs, ts, hc, -, -⟩ := plotCoordinates_ok space
  unfold plotSumOnFig
  rw [if_pos rfl]
  split_ifs with h1
  · rfl
  · simp only [hc, cm_bind, CM.lift]
    have hx := sum_bad_lists fuel cs ps (.arr [rs.length] rs) (.arr [ts.length] ts) true s hb
    rcases hy : sumZernikes fuel cs ps (.arr [rs.length] rs) (.arr [ts.length] ts) true s with ⟨x, s'⟩
    rw [hy] at hx
    dsimp only at hx
    subst hx
    rfl

/-- C65. With `use_defaults=False` exactly the given surface is drawn on the given nodes, whatever the lists are; something that is not a `zernikes_surface` is rejected. -/
theorem plot_sum_given_surface (s : CoefState) (fuel : Nat) (cs : List ℝ) (ps : List PolItem) (g : Grid) (rs ts : List ℝ) (f : ℝ → ℝ → ℝ) (hg : IsSurface g rs ts f) :
    (plotSumOnFig fuel cs ps false (.given g rs ts) false s).1 = .ok (.polar ts rs g "") ∧
    (∃ x y, (plotSumOnFig fuel cs ps false (.given g rs ts) true s).1 = .ok (.space x y g) ∧
      IsSurface x rs ts (fun r t => r * Real.cos t) ∧ IsSurface y rs ts (fun r t => r * Real.sin t)) ∧
    ∀ space, (plotSumOnFig fuel cs ps false .wrongLength space s).1 = .error .valueError ∧ (plotSumOnFig fuel cs ps false .plainTuple space s).1 = .error .attributeError :=
  ⟨rfl, ⟨_, _, rfl, mesh_surface rs ts fun r t => r * Real.cos t, mesh_surface rs ts fun r t => r * Real.sin t⟩, fun _ => ⟨rfl, rfl⟩⟩

/-- C65. The result of `gen_zernikes_surface` can be passed on to `plot_sum_zernikes_on_fig`, which shows the linear combination. -/
theorem plot_generated_surface (h : List Call) (fuel : Nat) (cs : List ℝ) (os : List PolObj) (hl : cs.length = os.length) (h0 : os ≠ []) (hv : PolsOk fuel os)
    (rStep thetaStep : ℝ) (hr : 0 < rStep) (ht : 0 < thetaStep) (equalN : Bool) (n : Int) (space : Bool) :
    ∃ g rs ts, (genZernikesSurface fuel cs (os.map .pol) rStep thetaStep equalN n (afterCalls h)).1 = .ok (.surface g, rs, ts) ∧
      ∀ s, ∃ d, (plotSumOnFig fuel [] [] false (.given g rs ts) space s).1 = .ok d ∧ d.isSpace = space ∧ Pictures d "" (combination cs (ordersOf os)) := by
  obtain ⟨g, rs, ts, h1, h2, h3, h4⟩ := gen_surface h fuel cs os hl h0 hv rStep thetaStep hr ht equalN n
  refine ⟨g, rs, ts, h1, fun s => ?_⟩
  obtain ⟨d, hd, hsp, hp⟩ := drawSum_pictures (space := space) (title := "") h3 h4 h2
  refine ⟨d, ?_, hsp, hp⟩
  show (drawSum rs ts space "" (.surface g) s).1 = _
  rw [hd]
  rfl

/-! ## The half pyramid -/

/-- The polynomial in a cell: row `i` is for `n = i + 1`, the columns are aligned to the right, `m` grows by 2. -/
def CellOf (c : Nat × Nat) (m n : Int) : Prop := ValidOrders m n ∧ 1 ≤ n ∧ n ≤ 6 ∧ (c.1 : Int) = n - 1 ∧ 2 * (6 - (c.2 : Int)) = n - m

theorem halfPyramid_cells : ∀ c ∈ halfPyramid, ∃ m ∈ Finset.Icc (-6 : ℤ) 6, ∃ n ∈ Finset.Icc (1 : ℤ) 6, (ValidOrders m n ∧ (c.1.1 : Int) = n - 1 ∧ 2 * (6 - (c.1.2 : Int)) = n - m) ∧
    (c.2 : Int) = getOsaIndex m n := by
  decide

theorem halfPyramid_all : ∀ n ∈ Finset.Icc (1 : ℤ) 6, ∀ m ∈ Finset.Icc (-6 : ℤ) 6, ValidOrders m n → ∃ c ∈ halfPyramid, (c.1.1 : Int) = n - 1 ∧ 2 * (6 - (c.1.2 : Int)) = n - m := by
  decide

theorem drawCells_ok (fuel : Nat) (hf : 7 < fuel) (l : List ((Nat × Nat) × Nat)) (hl : ∀ c ∈ l, ∃ m n, CellOf c.1 m n ∧ (c.2 : Int) = getOsaIndex m n) :
    RetP (drawCells fuel l) fun ds => ds.map Prod.fst = l.map Prod.fst ∧ ∀ x ∈ ds, ∃ m n, CellOf x.1 m n ∧ x.2.isSpace = false ∧ Pictures x.2 "" (zernike m n) := by
  induction l with
  | nil => exact retP_pure _ ⟨rfl, by simp⟩
  | cons c l ih =>
    obtain ⟨m, n, hcell, hk⟩ := hl c (by simp)
    unfold drawCells
    have hcellOk : RetP (pyramidCell fuel c) fun d => d.1 = c.1 ∧ d.2.isSpace = false ∧ Pictures d.2 "" (zernike m n) := by
      obtain ⟨_, z, _, _, _, hz, _, _, h1, _⟩ := constructions_agree m n hcell.1 (by have := hcell.2.2.1; omega)
      obtain ⟨o1, -⟩ := h1 z (by simp)
      simp only [ZernPol.getMnOrders, Prod.mk.injEq] at o1
      have hal : zernPolInit [("osa", .int c.2)] = .ok z := by
        rw [(ctor_index_aliases (.int c.2)).1 "osa" (by simp [osaKeys]), hk, hz]
      obtain ⟨rs, ts, hc, c1, c2⟩ := gen_polar_covers (1 / 100) (174533 / 10 ^ 7) (by norm_num) (by norm_num)
      have hzm : z.obj.m = m := o1.1
      have hzn : z.obj.n = n := o1.2
      have hpol : PolsOk fuel [z.obj] := by
        intro x hx
        simp at hx
        subst hx
        rw [hzm, hzn]
        exact ⟨hcell.1, by have := hcell.2.2.1; omega⟩
      intro s hs
      obtain ⟨⟨v, hv1, g, rfl, hg⟩, hv2⟩ := sum_surface_good fuel [1] [z.obj] rfl (by simp) hpol rs ts c1.mem.1 c2.mem.1 c1.mem.2 rs.length ts.length s hs
      have hfun : combination [1] (ordersOf [z.obj]) = zernike m n := by
        funext r t; simp [combination, ordersOf, hzm, hzn]
      rw [hfun] at hg
      rw [show ([z.obj].map PolItem.pol) = [.pol z.obj] from rfl] at hv1 hv2
      obtain ⟨d, hd, hsp, hp⟩ := drawSum_pictures (space := false) (title := "") ⟨_, c1⟩ ⟨_, c2⟩ hg
      rcases hy : sumZernikes fuel [1] [.pol z.obj] (.arr [rs.length] rs) (.arr [ts.length] ts) true s with ⟨x, s'⟩
      rw [hy] at hv1 hv2
      dsimp only at hv1 hv2
      subst hv1
      have e : pyramidCell fuel c s = (.ok (c.1, d), s') := by
        unfold pyramidCell genZernikesSurface
        simp only [cm_bind, CM.lift, hal, hc, Bool.false_eq_true, if_false, hy, hd]
        simp only [pure, hd]
      rw [e]
      exact ⟨⟨_, rfl, rfl, hsp, hp⟩, hv2⟩
    refine RetP.bind hcellOk fun d hd => RetP.bind (ih fun x hx => hl x (by simp [hx])) fun ds hds => retP_pure _ ⟨?_, ?_⟩
    · simp [hd.1, hds.1]
    · intro x hx
      rcases List.mem_cons.1 hx with rfl | hx
      · exact ⟨m, n, by rw [hd.1]; exact hcell, hd.2⟩
      · exact hds.2 x hx

/-- C65. The half pyramid shows in each used cell the polynomial that belongs there, and all 27 polynomials of orders 1 to 6 once, after any history of calls. -/
theorem half_pyramid_shows (h : List Call) (fuel : Nat) (hf : 7 < fuel) :
    ∃ ds, (plotHalfPyramid fuel (afterCalls h)).1 = .ok ds ∧ ds.length = 27 ∧ (ds.map Prod.fst).Nodup ∧
      (∀ x ∈ ds, ∃ m n, CellOf x.1 m n ∧ x.2.isSpace = false ∧ Pictures x.2 "" (zernike m n)) ∧
      ∀ m n, ValidOrders m n → 1 ≤ n → n ≤ 6 → ∃ x ∈ ds, CellOf x.1 m n ∧ Pictures x.2 "" (zernike m n) := by
  have hcells : ∀ c ∈ halfPyramid, ∃ m n, CellOf c.1 m n ∧ (c.2 : Int) = getOsaIndex m n := by
    intro c hc
    obtain ⟨m, _, n, hn, ⟨h1, h2, h3⟩, h4⟩ := halfPyramid_cells c hc
    rw [Finset.mem_Icc] at hn
    exact ⟨m, n, ⟨h1, hn.1, hn.2, h2, h3⟩, h4⟩
  obtain ⟨⟨ds, h1, h2, h3⟩, -⟩ := drawCells_ok fuel hf halfPyramid hcells _ (afterCalls_good h)
  refine ⟨ds, h1, ?_, ?_, h3, ?_⟩
  · have := congrArg List.length h2
    simp only [List.length_map] at this
    rw [this]; decide
  · rw [h2]; decide
  · intro m n hv h4 h5
    have hm : m ∈ Finset.Icc (-6 : ℤ) 6 := by
      have := (valid_iff _ _).1 hv
      rw [Finset.mem_Icc]; omega
    obtain ⟨c, hc, hc1, hc2⟩ := halfPyramid_all n (Finset.mem_Icc.2 ⟨h4, h5⟩) m hm hv
    have : c.1 ∈ ds.map Prod.fst := by rw [h2]; exact List.mem_map_of_mem hc
    obtain ⟨x, hx, hxc⟩ := List.mem_map.1 this
    obtain ⟨m', n', hcell, _, hp⟩ := h3 x hx
    have hcell' := hcell
    obtain ⟨_, _, _, e1, e2⟩ := hcell'
    rw [hxc] at e1 e2
    have en : n' = n := by omega
    have em : m' = m := by omega
    subst en em
    exact ⟨x, hx, hcell, hp⟩

/-- The hypotheses are met by the OSA polynomial 57 (n = 10, m = -6), alone and in a sum, and by a radius off the disk. -/
example : ValidOrders (-6) 10 ∧ PolsOk 20 [⟨-6, 10, false⟩, ⟨0, 4, false⟩] ∧ (∃ x ∈ [(0 : ℝ), 2], ¬ (0 ≤ x ∧ x ≤ 1)) ∧ CellOf (0, 5) (-1) 1 :=
  ⟨by decide, by intro o ho; simp at ho; rcases ho with rfl | rfl <;> exact ⟨by decide, by decide⟩, ⟨2, by simp, by norm_num⟩, by decide, by decide, by decide, by decide, by decide⟩

/-! ## The convolved sample -/

theorem convolution_cast (overflow : ℝ → ℝ) (dtype : DType) (img k g : Grid) (h : convoluteImgPsf overflow .float img k true = .ok (some g)) :
    convoluteImgPsf overflow dtype img k true = .ok (some (g.map (dtype.cast overflow))) := by
  revert h
  unfold convoluteImgPsf
  simp only [if_true]
  split
  · intro h; cases h
  · split
    · intro h; cases h
    · by_cases h0 : ‹ℝ› = 0
      · simp only [if_pos h0]
        intro h; cases h
      · simp only [if_neg h0]
        intro h
        simp only [Except.ok.injEq, Option.some.injEq] at h
        subst h
        rfl

/-- C37, C65. The scaled convolution of an image of integers (no negative pixel, not black) with a kernel with a positive centre: the values are integers in `[0, maximum]` and the maximum is
that of the image. -/
theorem convolution_scaled_integers (overflow : ℝ → ℝ) (hi : Int) (img k : Grid) (hk : IsPsfKernel k)
    (hcen : k.rows / 2 < k.rows ∧ k.cols / 2 < k.cols ∧ 0 < k.entry (k.rows / 2) (k.cols / 2)) (ht : HasType (.int 0 hi) img)
    (hp : ∃ i j, i < img.rows ∧ j < img.cols ∧ 0 < img.entry i j) :
    ∃ g, ∃ top : Int, convoluteImgPsf overflow (.int 0 hi) img k true = .ok (some g) ∧ g.rows = img.rows ∧ g.cols = img.cols ∧
      (∀ i j, i < img.rows → j < img.cols → img.entry i j ≤ top ∧ ∃ n : Int, g.entry i j = n ∧ 0 ≤ n ∧ n ≤ top) ∧
      (∃ i j, i < img.rows ∧ j < img.cols ∧ img.entry i j = top) ∧ (∃ i j, i < img.rows ∧ j < img.cols ∧ g.entry i j = top) := by
  have hnn : ∀ i j, i < img.rows → j < img.cols → 0 ≤ img.entry i j := by
    intro i j h1 h2
    obtain ⟨n, e, h3, _⟩ := ht i j h1 h2
    rw [e]; exact_mod_cast h3
  obtain ⟨g, _, c, top, h1, _, _, _, h5, h6, h7, ⟨it, jt, t1, t2, t3⟩, ⟨iv, jv, v1, v2, v3⟩⟩ := convolution_scaled overflow img k hk hcen hnn hp
  obtain ⟨n, e, n0, n1⟩ := ht it jt t1 t2
  have etop : top = n := by rw [← t3, e]
  subst etop
  refine ⟨_, n, convolution_cast overflow (.int 0 hi) img k g h1, h5, h6, fun i j hi' hj' => ⟨(h7 i j hi' hj').1, ?_⟩, ⟨it, jt, t1, t2, t3⟩, ⟨iv, jv, v1, v2, ?_⟩⟩
  · obtain ⟨_, a, b⟩ := h7 i j hi' hj'
    have b' : g.entry i j ≤ hi := b.trans (by exact_mod_cast n1)
    obtain ⟨x, x1, x2, _, _, x5⟩ := cast_within overflow 0 hi (g.entry i j) (by exact_mod_cast a) b'
    refine ⟨x, x1, x2, ?_⟩
    have x2' : (0 : ℝ) ≤ x := by exact_mod_cast x2
    rw [abs_of_nonneg x2', abs_of_nonneg a] at x5
    exact_mod_cast x5.trans b
  · show (DType.int 0 hi).cast overflow (g.entry iv jv) = n
    rw [v3, cast_int overflow 0 hi n n0 n1]

/-- C65. `visualize_convolution` of an object with any history whose kernel has a positive centre, for all radii and intensities from 1 to 65535: it shows the disk of C41 and an image of
the same size with the same maximum `max_intensity` and integer values between 0 and the maximum. -/
theorem visualize_convolution_shows (overflow : ℝ → ℝ) (overflowI : Int → ℝ) (o : PsfObj) (s : CoefState) (hr : PsfReachable o s)
    (hpos : 0 < o.kernel.entry (o.kernel.rows / 2) (o.kernel.cols / 2)) (radius : ℝ) (maxIntensity : Int) (h0 : 1 ≤ maxIntensity) (h1 : maxIntensity ≤ 65535) :
    ∃ g, o.visualizeConvolution overflow overflowI radius maxIntensity = .ok (getBumpedCircle overflowI radius maxIntensity, some g) ∧
      g.rows = (getBumpedCircle overflowI radius maxIntensity).rows ∧ g.cols = (getBumpedCircle overflowI radius maxIntensity).cols ∧
      (∀ i j, i < g.rows → j < g.cols → ∃ n : Int, g.entry i j = n ∧ 0 ≤ n ∧ n ≤ maxIntensity) ∧ ∃ i j, i < g.rows ∧ j < g.cols ∧ g.entry i j = maxIntensity := by
  obtain ⟨⟨q, hq, _, r1, r2⟩, hv, hc, _, _⟩ := bumped_circle_exact overflowI radius maxIntensity (by omega) h1
  obtain ⟨hk, hcen⟩ := reachable_kernel o s hr hpos
  generalize hg : getBumpedCircle overflowI radius maxIntensity = img at *
  obtain ⟨hi, hty, hle⟩ : ∃ hi, sampleType maxIntensity = .int 0 hi ∧ maxIntensity ≤ hi := by
    unfold sampleType
    split_ifs with h
    · exact ⟨_, rfl, h⟩
    · exact ⟨_, rfl, h1⟩
  have hT : HasType (.int 0 hi) img := fun i j _ _ => by
    obtain ⟨v, e, v0, v1⟩ := hv i j
    exact ⟨v, e, v0, v1.trans hle⟩
  have hcr : img.rows / 2 < img.rows := by omega
  have hcc : img.rows / 2 < img.cols := by omega
  have hM : (0 : ℝ) < maxIntensity := by exact_mod_cast h0
  obtain ⟨g, top, e1, e2, e3, e4, ⟨it, jt, t1, t2, t3⟩, ⟨iv, jv, v1, v2, v3⟩⟩ := convolution_scaled_integers overflow hi img o.kernel hk hcen hT ⟨_, _, hcr, hcc, by rw [hc]; exact hM⟩
  have etop : top = maxIntensity := by
    have a1 := (e4 _ _ hcr hcc).1
    rw [hc] at a1
    obtain ⟨v, e, v0, v1⟩ := hv it jt
    rw [t3] at e
    have a1' : maxIntensity ≤ top := by exact_mod_cast a1
    have e' : top = v := by exact_mod_cast e
    omega
  subst etop
  refine ⟨g, ?_, e2, e3, fun i j a b => (e4 i j (by omega) (by omega)).2, ⟨iv, jv, by omega, by omega, v3⟩⟩
  unfold PsfObj.visualizeConvolution PsfObj.convoluteImg
  rw [hty, hg]
  simp only [e1]
  rfl

/-- The hypotheses are met by a new object and the default arguments. -/
example : ∃ o s, PsfReachable o s ∧ 0 < o.kernel.entry (o.kernel.rows / 2) (o.kernel.cols / 2) ∧ (1 : Int) ≤ 255 ∧ (255 : Int) ≤ 65535 :=
  ⟨psfDefault, afterCalls [], ⟨.other, psfDefault, [], [], rfl, rfl⟩, by simp [psfDefault], by norm_num, by norm_num⟩

end Verif.Props
