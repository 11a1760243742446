import Verif.Model.Conformity
import Verif.Props.Sums
import Verif.Props.Optics
import Verif.Props.Evaluate

/-!
# C121: `check_conformity`
-/

namespace Verif.Props
open Verif.Model Verif.Spec Verif.Proofs

theorem conformity_indices : conformityIndices = .ok () := by decide +kernel

theorem expect_of_fails {β : Type} {x : CM β} (h : ∀ s, Good s → (x s).1 = .error .valueError ∧ Good (x s).2) : Ret (expectValueError x) () := by
  intro s hs
  obtain ⟨h1, h2⟩ := h s hs
  unfold expectValueError
  rcases hx : x s with ⟨r, s'⟩
  rw [hx] at h1 h2
  simp only at h1 h2
  subst h1
  exact ⟨rfl, h2⟩

theorem polVal_ret (fuel : Nat) (o : PolObj) (hv : ValidOrders o.m o.n) (hf : o.n.toNat + 1 < fuel) (x t : ℝ) (h0 : 0 ≤ x) (h1 : x ≤ 1) :
    Ret (polVal fuel o (.num x) (.num t)) (.scalar (Spec.zernike o.m o.n x t)) := by
  obtain ⟨w, hw, _⟩ := checkAngles_num t
  have := polVal_ok fuel o hv hf (.num x) (.num t) _ _ w (checkRadii_num x h0 h1) hw rfl
  exact this

theorem polVal_refused (fuel : Nat) (o : PolObj) (r t : Arg) (h : checkRadii r = .error .valueError) (s : CoefState) (hs : Good s) :
    (polVal fuel o r t s).1 = .error .valueError ∧ Good (polVal fuel o r t s).2 := by
  unfold polVal polynomialValue
  rw [h]
  exact ⟨rfl, hs⟩

theorem zernike_defocus (r t : ℝ) : Spec.zernike 0 2 r t = Real.sqrt 3 * (2 * r ^ 2 - 1) := by
  unfold Spec.zernike Spec.norm Spec.angular Spec.radial
  norm_num [Finset.sum_range_succ, Nat.factorial, show Int.toNat 2 = 2 from rfl]
  ring

theorem assertValue_ret (fuel : Nat) (z : ZernPol) (hv : ValidOrders z.m z.n) (hf : z.n.toNat + 1 < fuel) (r t e : ℝ) (h0 : 0 ≤ r) (h1 : r ≤ 1)
    (he : Spec.zernike z.m z.n r t = e) : Ret (assertValue fuel z r t e) () := by
  unfold assertValue
  refine Ret.bind (polVal_ret fuel z.obj hv hf r t h0 h1) (ret_lift ?_)
  have : decide (|(Num.scalar (Spec.zernike z.obj.m z.obj.n r t)).item 0 - e| < 1e-6) = true := by
    rw [decide_eq_true_iff]
    have : (Num.scalar (Spec.zernike z.obj.m z.obj.n r t)).item 0 = e := he
    rw [this, sub_self, abs_zero]
    norm_num
  unfold assertThat
  rw [if_pos this]

theorem conformity_values (fuel : Nat) (hf : 3 < fuel) : Ret (conformityValues fuel) () := by
  have i1 : zernPolInit [("m", .int 2), ("n", .int (-2))] = .error .valueError := by decide +kernel
  have i2 : ∃ z, zernPolInit [("m", .int 0), ("n", .int 2)] = .ok z ∧ z.m = 0 ∧ z.n = 2 := ⟨_, rfl, rfl, rfl⟩
  have i3 : ∃ z, zernPolInit [("m", .int (-1)), ("n", .int 1)] = .ok z ∧ z.m = -1 ∧ z.n = 1 := ⟨_, rfl, rfl, rfl⟩
  obtain ⟨z2, e2, m2, n2⟩ := i2
  obtain ⟨z3, e3, m3, n3⟩ := i3
  unfold conformityValues
  refine Ret.bind (expect_of_fails fun s hs => ?_) (Ret.bind (ret_lift e2) (Ret.bind (assertValue_ret fuel z2 ?_ ?_ _ _ _ le_rfl zero_le_one ?_)
    (Ret.bind (ret_lift e3) (Ret.bind (assertValue_ret fuel z3 ?_ ?_ _ _ _ (by norm_num) (by norm_num) ?_) (Ret.bind (expect_of_fails ?_) (expect_of_fails ?_))))))
  · rw [i1]; exact ⟨rfl, hs⟩
  · rw [m2, n2]; decide
  · rw [n2]; exact hf
  · rw [m2, n2, zernike_defocus]; ring
  · rw [m3, n3]; decide
  · rw [n3]; show 2 < fuel; omega
  · rw [m3, n3, zernike_tilt_y, Real.sin_pi_div_two]; norm_num
  · exact polVal_refused fuel _ _ _ rfl
  · refine polVal_refused fuel _ _ _ ?_
    have hbad : ¬ RadiiOk (.seq [3] [0.1, 0.2, 1 + 1e-9]) := by
      intro h
      have := h.2 (1 + 1e-9) (by simp)
      norm_num at this
    exact checkRadii_valueError _ hbad (by simp) (by simp)

/-- The polynomials that are summed. -/
def conformityOrders : List (Int × Int) := [(1, 1), (0, 2), (-1, 3), (-4, 4), (-5, 5), (-2, 2), (3, 3), (0, 4), (-3, 5), (3, 5)]

theorem conformity_pols : ∃ zs : List ZernPol, conformityPols [2, 4, 7, 10, 15, 3, 9, 12, 16, 19] = .ok zs ∧ (zs.map fun z => (z.m, z.n)) = conformityOrders := by
  have : (match conformityPols [2, 4, 7, 10, 15, 3, 9, 12, 16, 19] with
    | .ok zs => decide ((zs.map fun z => (z.m, z.n)) = conformityOrders)
    | .error _ => false) = true := by decide +kernel
  cases h : conformityPols [2, 4, 7, 10, 15, 3, 9, 12, 16, 19] with
  | error e => rw [h] at this; cases this
  | ok zs =>
    rw [h] at this
    exact ⟨zs, rfl, of_decide_eq_true this⟩

/-- A surface with one row for each thousandth of the radius and one column for each degree, of a function of radius and angle. -/
def DegreeSurface (g : Grid) (f : ℝ → ℝ → ℝ) : Prop :=
  g.rows = 1001 ∧ g.cols = 361 ∧ ∀ i < 1001, ∀ j < 361, g.entry i j = f ((i : ℝ) / 1000) ((j : ℝ) * (Real.pi / 180))

theorem conformity_sums (fuel : Nat) (hf : 6 < fuel) : RetP (conformitySums fuel) fun o => ∃ a b : Grid, o = (.surface a, .surface b) ∧
    DegreeSurface a (combination conformityAmpls conformityOrders) ∧ DegreeSurface b (combination conformityAmpls conformityOrders) := by
  obtain ⟨zs, e1, e2⟩ := conformity_pols
  have hr : npArange (1 + 0.001) 0.001 = .ok ((List.range 1001).map fun (i : Nat) => (i : ℝ) * 0.001) := by
    unfold npArange
    rw [if_neg (by norm_num)]
    have : ⌈(1 + 0.001 : ℝ) / 0.001⌉ = 1001 := by norm_num
    rw [this]; rfl
  have hpi := Real.pi_pos
  have ht : npArange (2 * Real.pi + Real.pi / 180) (Real.pi / 180) = .ok ((List.range 361).map fun (i : Nat) => (i : ℝ) * (Real.pi / 180)) := by
    unfold npArange
    rw [if_neg (by positivity)]
    have : (2 * Real.pi + Real.pi / 180) / (Real.pi / 180) = ((361 : ℤ) : ℝ) := by
      field_simp
      norm_num
    rw [this, Int.ceil_intCast]; rfl
  obtain ⟨rs, hrs⟩ : ∃ rs, rs = (List.range 1001).map fun (i : Nat) => (i : ℝ) * 0.001 := ⟨_, rfl⟩
  obtain ⟨ts, hts⟩ : ∃ ts, ts = (List.range 361).map fun (i : Nat) => (i : ℝ) * (Real.pi / 180) := ⟨_, rfl⟩
  rw [← hrs] at hr
  rw [← hts] at ht
  have lr : rs.length = 1001 := by rw [hrs]; simp
  have lt : ts.length = 361 := by rw [hts]; simp
  have gr : ∀ i < 1001, rs.getD i 0 = (i : ℝ) / 1000 := by
    intro i hi
    rw [hrs]
    simp [List.getD, hi]
    norm_num
    ring
  have gt : ∀ j < 361, ts.getD j 0 = (j : ℝ) * (Real.pi / 180) := by
    intro j hj
    rw [hts]
    simp [List.getD, hj]
  have br : ∀ x ∈ rs, 0 ≤ x ∧ x ≤ 1 := by
    intro x hx
    rw [hrs, List.mem_map] at hx
    obtain ⟨i, hi, rfl⟩ := hx
    rw [List.mem_range] at hi
    have : (i : ℝ) ≤ 1000 := by exact_mod_cast Nat.lt_succ_iff.1 hi
    constructor
    · positivity
    · linarith
  have nr : rs ≠ [] := by intro h; rw [h] at lr; cases lr
  have nt : ts ≠ [] := by intro h; rw [h] at lt; cases lt
  obtain ⟨os, hos⟩ : ∃ os, os = zs.map ZernPol.obj := ⟨_, rfl⟩
  have ho : ordersOf os = conformityOrders := by
    rw [← e2, hos]
    simp [ordersOf, ZernPol.obj, Function.comp_def]
  have hps : (zs.map fun z => PolItem.pol z.obj) = os.map .pol := by rw [hos, List.map_map]; rfl
  have hl : conformityAmpls.length = os.length := by
    have := congrArg List.length ho
    simp only [ordersOf, List.length_map] at this
    rw [this]; rfl
  have h0 : os ≠ [] := by intro h; rw [h] at hl; cases hl
  have hv : PolsOk fuel os := by
    intro o hmem
    have hm : (o.m, o.n) ∈ conformityOrders := by
      rw [← ho]
      exact List.mem_map.2 ⟨o, hmem, rfl⟩
    have key : ∀ p ∈ conformityOrders, ValidOrders p.1 p.2 ∧ p.2.toNat ≤ 5 := by decide
    have := key _ hm
    exact ⟨this.1, by have := this.2; simp only at this; omega⟩
  have fin : ∀ g : Grid, IsSurface g rs ts (combination conformityAmpls (ordersOf os)) → DegreeSurface g (combination conformityAmpls conformityOrders) := by
    intro g hg
    rw [ho] at hg
    refine ⟨hg.1.trans lr, hg.2.1.trans lt, fun i hi j hj => ?_⟩
    have hi' : i < rs.length := by rw [lr]; exact hi
    have hj' : j < ts.length := by rw [lt]; exact hj
    have := hg.2.2 i hi' j hj'
    rw [← gr i hi, ← gt j hj, this]
    simp [List.getD, hi', hj']
  unfold conformitySums
  refine Ret.bindP (ret_lift e1) (Ret.bindP (ret_lift hr) (Ret.bindP (ret_lift ht) ?_))
  simp only [hps]
  refine RetP.bind (P := fun o => ∃ g, o = .surface g ∧ IsSurface g rs ts (combination conformityAmpls (ordersOf os))) ?_ ?_
  · unfold sumZernikes
    rw [if_neg (by simp [hl]), if_neg (by rw [hl]; simpa using h0), if_pos rfl, zip_pol]
    refine RetP.bind (sumSurface_ok fuel rs ts nr nt br _ (pols_zip hv _) _ _ (zeros_sameGrid rs ts)) fun g hg => retP_pure _ ⟨g, rfl, ?_⟩
    rw [← termSum_eq]
    simpa using isSurface_of _ _ _ _ hg
  · rintro _ ⟨a, rfl, ha⟩
    refine RetP.bind (P := fun o => ∃ g, o = .surface g ∧ IsSurface g rs ts (combination conformityAmpls (ordersOf os))) ?_ ?_
    · unfold sumZernikesMeshgrid
      rw [if_neg (by simp [hl])]
      simp only [zip_pol]
      refine RetP.bind (sumMesh_ok fuel rs ts nr nt br _ (pols_zip hv _) _ _ (zeros_sameGrid rs ts)) fun g hg => retP_pure _ ⟨g, rfl, ?_⟩
      rw [← termSum_eq]
      simpa using isSurface_of _ _ _ _ hg
    · rintro _ ⟨b, rfl, hb⟩
      exact retP_pure _ ⟨a, b, rfl, fin a ha, fin b hb⟩

/-- **C121.** `check_conformity` passes, whatever was called before it: no assertion fails and no exception is raised (with any recursion limit that allows the order 5), and
the two sums it computes are equal to the linear combination, so to each other, at each of the 1001 x 361 points. -/
theorem conformity_passes (fuel : Nat) (hf : 6 < fuel) (h : List Call) : ∃ a b : Grid, (checkConformity fuel (afterCalls h)).1 = .ok (.surface a, .surface b) ∧
    DegreeSurface a (combination conformityAmpls conformityOrders) ∧ DegreeSurface b (combination conformityAmpls conformityOrders) := by
  have key : RetP (checkConformity fuel) fun o => ∃ a b : Grid, o = (.surface a, .surface b) ∧
      DegreeSurface a (combination conformityAmpls conformityOrders) ∧ DegreeSurface b (combination conformityAmpls conformityOrders) :=
    Ret.bindP (ret_lift conformity_indices) (Ret.bindP (conformity_values fuel (by omega)) (conformity_sums fuel hf))
  obtain ⟨⟨_, h1, a, b, rfl, h2, h3⟩, _⟩ := key _ (afterCalls_good h)
  exact ⟨a, b, h1, h2, h3⟩

/-- **C121.** It does not disturb later calls: every value of a polynomial calculated after it is exact. -/
theorem conformity_leaves_values (fuel : Nat) (hf : 6 < fuel) (h : List Call) (o : PolObj) (hv : ValidOrders o.m o.n) (ho : o.n.toNat + 1 < fuel) (x t : ℝ) (h0 : 0 ≤ x)
    (h1 : x ≤ 1) : (polynomialValue fuel o (.num x) (.num t) false (checkConformity fuel (afterCalls h)).2).res = .ok (.scalar (Spec.zernike o.m o.n x t)) := by
  have key : RetP (checkConformity fuel) fun _ => True :=
    Ret.bindP (ret_lift conformity_indices) (Ret.bindP (conformity_values fuel (by omega)) (RetP.mono (conformity_sums fuel hf) fun _ _ => trivial))
  exact (polVal_ret fuel o hv ho x t h0 h1 _ (key _ (afterCalls_good h)).2).1

/-- The hypotheses are met with the recursion limit 1000 and the history of one evaluation. -/
example : 6 < 1000 ∧ ValidOrders (-3) 7 ∧ (7 : Int).toNat + 1 < 1000 := by decide

end Verif.Props
