import Verif.Spec.Fit
import Verif.Model.Fit
import Verif.Proofs.Sums
import Verif.Proofs.Numeric

/-! # Fitting: the matrix of the values, least squares -/

namespace Verif.Proofs
open Verif.Model Verif.Spec

theorem RetP.mono {β : Type} {x : CM β} {P Q : β → Prop} (h : RetP x P) (hpq : ∀ v, P v → Q v) : RetP x Q := by
  intro s hs
  obtain ⟨⟨v, h1, h2⟩, h3⟩ := h s hs
  exact ⟨⟨v, h1, hpq v h2⟩, h3⟩

theorem ret_lift {β : Type} {e : Res β} {v : β} (h : e = .ok v) : Ret (CM.lift e) v := by
  intro s hs; subst h; exact ⟨rfl, hs⟩

theorem fails_lift {β : Type} {e : Res β} {v : PyErr} (h : e = .error v) : Fails (CM.lift e) v := by
  intro s hs; subst h; rfl

/-- Column `j` of `A'` consists of the values of `f` at the points, the rest is as in `A`. -/
def Column (A A' : Grid) (j : Nat) (f : Nat → ℝ) (n : Nat) : Prop :=
  A'.rows = A.rows ∧ A'.cols = A.cols ∧ (∀ a, a < n → A'.entry a j = f a) ∧ ∀ a b, b ≠ j → A'.entry a b = A.entry a b

section
variable (fuel : Nat) (o : PolObj) (radii thetas : List ℝ)

theorem fitColumn_same (hv : ValidOrders o.m o.n) (hf : o.n.toNat + 1 < fuel) (hr0 : radii ≠ []) (hr : ∀ x ∈ radii, 0 ≤ x ∧ x ≤ 1)
    (hlen : radii.length = thetas.length) (A : Grid) (hA : A.rows = radii.length) (j : Nat) :
    RetP (do let v ← polVal fuel o (.arr [radii.length] radii) (.arr [thetas.length] thetas)
             CM.lift (assignSlice A 0 A.rows j v radii.length))
      fun A' => Column A A' j (fun a => zernike o.m o.n (radii.getD a 0) (thetas.getD a 0)) radii.length := by
  have ht0 : thetas ≠ [] := by rintro rfl; simp at hlen; exact hr0 hlen
  obtain ⟨w, hw, _⟩ := checkAnglesArray_ok [thetas.length] thetas ht0
  refine Ret.bindP (polVal_ok fuel o hv hf _ (.arr [thetas.length] thetas) _ _ w (checkRadii_arr [radii.length] radii hr0 hr).1 hw
    (by simp [shapesDiffer, hlen])) ?_
  have e : ∀ v : Num, assignSlice A 0 A.rows j v radii.length = .ok { A with entry := fun a b => if b = j ∧ 0 ≤ a ∧ a < A.rows then v.item (if radii.length = 1 then 0 else a - 0) else A.entry a b } := by
    intro v; unfold assignSlice; rw [if_pos (by simp [fitsSlice, hA])]
  rw [e]
  intro s hs
  refine ⟨⟨_, rfl, rfl, rfl, fun a ha => ?_, fun a b hb => ?_⟩, hs⟩
  · dsimp only
    rw [if_pos ⟨rfl, Nat.zero_le _, by omega⟩]
    have : (if radii.length = 1 then 0 else a - 0) = a := by split_ifs <;> omega
    rw [this]
    simp [Num.pt, Num.item, List.getElem?_zipWith, ha, hlen ▸ ha]
  · dsimp only
    rw [if_neg (by tauto)]

theorem fitMeshColumn_ok (hv : ValidOrders o.m o.n) (hf : o.n.toNat + 1 < fuel) (ht0 : thetas ≠ []) (hr : ∀ x ∈ radii, 0 ≤ x ∧ x ≤ 1)
    (j k i : Nat) (hk : i + k = radii.length) (A : Grid) (hA : A.rows = radii.length * thetas.length)
    (hd : ∀ a, a < i * thetas.length → A.entry a j = zernike o.m o.n (radii.getD (a / thetas.length) 0) (thetas.getD (a % thetas.length) 0)) :
    RetP (fitMeshColumn fuel o radii thetas j k i A) fun A' =>
      Column A A' j (fun a => zernike o.m o.n (radii.getD (a / thetas.length) 0) (thetas.getD (a % thetas.length) 0))
        (radii.length * thetas.length) := by
  have hT : 0 < thetas.length := List.length_pos_of_ne_nil ht0
  induction k generalizing i A with
  | zero =>
    refine retP_pure _ ⟨rfl, rfl, fun a ha => hd a (by rw [show i = radii.length by omega]; exact ha), fun _ _ _ => rfl⟩
  | succ k ih =>
    have hi : i < radii.length := by omega
    have hm : radii.getD i 0 ∈ radii := by simp [hi]
    obtain ⟨w, hw, _⟩ := checkAnglesArray_ok [thetas.length] thetas ht0
    refine Ret.bindP (polVal_ok fuel o hv hf _ (.arr [thetas.length] thetas) _ _ w
      (checkRadii_num _ (hr _ hm).1 (hr _ hm).2) hw rfl) ?_
    have h1 : (i + 1) * thetas.length ≤ A.rows := by rw [hA]; exact Nat.mul_le_mul_right _ hi
    have h2 : (i + 1) * thetas.length = i * thetas.length + thetas.length := by ring
    refine Ret.bindP (ret_lift (by
      unfold assignSlice
      rw [if_pos]
      unfold fitsSlice
      rw [Nat.min_eq_left h1, Nat.min_eq_left (by omega)]
      simp; left; omega)) ?_
    refine (ih (i + 1) (by omega) _ ?_ ?_).mono ?_
    · exact hA
    · intro a ha
      dsimp only
      by_cases hc : a < i * thetas.length
      · rw [if_neg (by omega)]; exact hd a hc
      · rw [if_pos ⟨rfl, by omega, ha⟩]
        have e : (if thetas.length = 1 then 0 else a - i * thetas.length) = a - i * thetas.length := by split_ifs <;> omega
        rw [e]
        unfold Num.pt
        rw [item_map _ _ _ _ (by omega)]
        obtain ⟨b, rfl⟩ : ∃ b, a = i * thetas.length + b := ⟨a - i * thetas.length, by omega⟩
        have hb : b < thetas.length := by omega
        rw [Nat.add_sub_cancel_left, show (i * thetas.length + b) / thetas.length = i by
            rw [Nat.mul_comm, Nat.mul_add_div hT, Nat.div_eq_of_lt hb, Nat.add_zero],
          show (i * thetas.length + b) % thetas.length = b by
            rw [Nat.mul_comm, Nat.mul_add_mod, Nat.mod_eq_of_lt hb]]
    · rintro A' ⟨e1, e2, e3, e4⟩
      refine ⟨e1, e2, e3, fun a b hb => ?_⟩
      rw [e4 a b hb]
      dsimp only
      rw [if_neg (by tauto)]

end

theorem flatMap_pt (r : List ℝ) (t : List ℝ) (ht : t ≠ []) (a : Nat) (ha : a < r.length * t.length) :
    (r.flatMap fun x => t.map fun y => (x, y))[a]? = some (r.getD (a / t.length) 0, t.getD (a % t.length) 0) := by
  have hT : 0 < t.length := List.length_pos_of_ne_nil ht
  induction r generalizing a with
  | nil => simp at ha
  | cons x r ih =>
    rw [List.flatMap_cons]
    by_cases hc : a < t.length
    · rw [List.getElem?_append_left (by simpa using hc), Nat.div_eq_of_lt hc, Nat.mod_eq_of_lt hc]
      simp [hc]
    · rw [List.getElem?_append_right (by simpa using not_lt.1 hc), List.length_map, ih]
      · obtain ⟨b, rfl⟩ : ∃ b, a = b + t.length := ⟨a - t.length, by omega⟩
        rw [Nat.add_sub_cancel, Nat.add_div_right _ hT, Nat.add_mod_right]
        simp
      · simp only [List.length_cons] at ha
        have : (r.length + 1) * t.length = r.length * t.length + t.length := by ring
        omega

/-- The values of the polynomials at the points: row `a`, column `i`. -/
def IsValues (os : List PolObj) (points : List (ℝ × ℝ)) (A : Grid) : Prop :=
  A.rows = points.length ∧ A.cols = os.length ∧
    ∀ a p i o, points[a]? = some p → os[i]? = some o → A.entry a i = zernike o.m o.n p.1 p.2

theorem fitMatrix_ok (fuel : Nat) (radii thetas : List ℝ) (hr0 : radii ≠ []) (ht0 : thetas ≠ []) (hr : ∀ x ∈ radii, 0 ≤ x ∧ x ≤ 1)
    (os : List PolObj) (hv : ∀ o ∈ os, ValidOrders o.m o.n ∧ o.n.toNat + 1 < fuel) (j : Nat) (A : Grid)
    (hA : A.rows = (samplePoints radii thetas).length) :
    RetP (fitMatrix fuel radii thetas os j A) fun A' => A'.rows = A.rows ∧ A'.cols = A.cols ∧
      (∀ (a : Nat) p (i : Nat) o, (samplePoints radii thetas)[a]? = some p → os[i]? = some o → A'.entry a (j + i) = zernike o.m o.n p.1 p.2) ∧
      ∀ a b, b < j → A'.entry a b = A.entry a b := by
  induction os generalizing j A with
  | nil => exact retP_pure _ ⟨rfl, rfl, by simp, fun _ _ _ => rfl⟩
  | cons o os ih =>
    have hv' : ∀ o ∈ os, ValidOrders o.m o.n ∧ o.n.toNat + 1 < fuel := fun q hq => hv q (by simp [hq])
    have ho := hv o (by simp)
    have step : ∀ A', Column A A' j (fun a => zernike o.m o.n ((samplePoints radii thetas).getD a (0, 0)).1
          ((samplePoints radii thetas).getD a (0, 0)).2) (samplePoints radii thetas).length →
        RetP (fitMatrix fuel radii thetas os (j + 1) A') fun A'' => A''.rows = A.rows ∧ A''.cols = A.cols ∧
        (∀ (a : Nat) p (i : Nat) o', (samplePoints radii thetas)[a]? = some p → (o :: os)[i]? = some o' →
          A''.entry a (j + i) = zernike o'.m o'.n p.1 p.2) ∧
        ∀ a b, b < j → A''.entry a b = A.entry a b := by
      rintro A' ⟨c1, c2, c3, c4⟩
      refine (ih hv' (j + 1) A' (c1.trans hA)).mono ?_
      rintro A'' ⟨d1, d2, d3, d4⟩
      refine ⟨d1.trans c1, d2.trans c2, fun a p i o' hp hi => ?_, fun a b hb => ?_⟩
      · cases i with
        | zero =>
          simp only [List.getElem?_cons_zero, Option.some.injEq] at hi
          subst hi
          have ha : a < (samplePoints radii thetas).length := (List.getElem?_eq_some_iff.1 hp).1
          have e : (samplePoints radii thetas).getD a (0, 0) = p := by rw [List.getD_eq_getElem?_getD, hp]; rfl
          rw [Nat.add_zero, d4 a j (by omega), c3 a ha]
          simp only [e]
        | succ i =>
          rw [show j + (i + 1) = j + 1 + i by omega]
          exact d3 a p i o' hp (by simpa using hi)
      · rw [d4 a b (by omega), c4 a b (by omega)]
    unfold fitMatrix
    split_ifs with hlen
    · have hp : samplePoints radii thetas = radii.zip thetas := by unfold samplePoints; rw [if_pos hlen]
      have hn : (samplePoints radii thetas).length = radii.length := by rw [hp]; simp [hlen]
      have := fitColumn_same fuel o radii thetas ho.1 ho.2 hr0 hr hlen A (hA.trans hn) j
      have := this.bind (f := fun A' => fitMatrix fuel radii thetas os (j + 1) A') (fun A' hA' => step A' (by
        obtain ⟨c1, c2, c3, c4⟩ := hA'
        refine ⟨c1, c2, fun a ha => ?_, c4⟩
        rw [c3 a (by omega), hp]
        have : a < thetas.length := by omega
        have h' : a < radii.length := by omega
        simp [List.getElem?_zip_eq_some, List.getD_eq_getElem?_getD, List.zip, List.getElem?_zipWith, this, h']))
      intro s hs
      have h := this s hs
      simp only [cm_bind] at h ⊢
      rcases hc : polVal fuel o (.arr [radii.length] radii) (.arr [thetas.length] thetas) s with ⟨x, s'⟩
      rw [hc] at h
      cases x <;> exact h
    · have hp : samplePoints radii thetas = radii.flatMap fun r => thetas.map fun t => (r, t) := by unfold samplePoints; rw [if_neg hlen]
      have hn : (samplePoints radii thetas).length = radii.length * thetas.length := by rw [hp]; simp [List.length_flatMap]
      refine RetP.bind (fitMeshColumn_ok fuel o radii thetas ho.1 ho.2 ht0 hr j radii.length 0 (by omega) A (hA.trans hn) (by simp))
        fun A' hA' => step A' ?_
      obtain ⟨c1, c2, c3, c4⟩ := hA'
      refine ⟨c1, c2, fun a ha => ?_, c4⟩
      have e : (samplePoints radii thetas).getD a (0, 0) = (radii.getD (a / thetas.length) 0, thetas.getD (a % thetas.length) 0) := by
        rw [List.getD_eq_getElem?_getD, hp, flatMap_pt radii thetas ht0 a (by omega)]; rfl
      rw [c3 a (by omega)]
      simp only [e]

/-! ### Least squares -/

/-- `Σ_k (Σ_j A[k, j] x[j] - b[k])²`. -/
noncomputable def sqError (A : Grid) (b x : List ℝ) : ℝ :=
  ((List.range A.rows).map fun k => (((List.range A.cols).map fun j => A.entry k j * x.getD j 0).sum - b.getD k 0) ^ 2).sum

theorem combination_range (cs : List ℝ) (os : List PolObj) (hl : cs.length = os.length) (r t : ℝ) (g : Nat → ℝ)
    (hg : ∀ i o, os[i]? = some o → g i = zernike o.m o.n r t) :
    ((List.range os.length).map fun j => g j * cs.getD j 0).sum = combination cs (os.map fun o => (o.m, o.n)) r t := by
  induction os generalizing cs g with
  | nil => simp [combination]
  | cons o os ih =>
    cases cs with
    | nil => simp at hl
    | cons c cs =>
      have := ih cs (by simpa using hl) (fun i => g (i + 1)) (fun i o' h => hg (i + 1) o' (by simpa using h))
      rw [List.length_cons, List.range_succ_eq_map, List.map_cons, List.map_map, List.sum_cons]
      simp only [Function.comp_def, List.getD_cons_succ, List.getD_cons_zero, Nat.succ_eq_add_one]
      rw [this, hg 0 o rfl]
      simp [combination]; ring

theorem zipWith_range {α β : Type} (f : α → β → ℝ) (p : List α) (b : List β) (hl : b.length = p.length) (g : Nat → ℝ)
    (hg : ∀ (k : Nat) x y, p[k]? = some x → b[k]? = some y → g k = f x y) :
    ((List.range p.length).map g) = List.zipWith f p b := by
  induction p generalizing b g with
  | nil => simp
  | cons x p ih =>
    cases b with
    | nil => simp at hl
    | cons y b =>
      have := ih b (by simpa using hl) (fun i => g (i + 1)) (fun i a b h h' => hg (i + 1) a b (by simpa using h) (by simpa using h'))
      rw [List.length_cons, List.range_succ_eq_map, List.map_cons, List.map_map, List.zipWith_cons_cons, ← this, hg 0 x y rfl rfl]
      rfl

theorem sqError_eq (os : List PolObj) (points : List (ℝ × ℝ)) (A : Grid) (hA : IsValues os points A) (b x : List ℝ)
    (hb : b.length = points.length) (hx : x.length = os.length) :
    sqError A b x = misfit (os.map fun o => (o.m, o.n)) points b x := by
  obtain ⟨h1, h2, h3⟩ := hA
  unfold sqError misfit
  rw [h1]
  congr 1
  refine zipWith_range (fun (p : ℝ × ℝ) v => (combination x (os.map fun o => (o.m, o.n)) p.1 p.2 - v) ^ 2) points b hb _ ?_
  intro k p y hp hy
  have hy' : b.getD k 0 = y := by rw [List.getD_eq_getElem?_getD, hy]; rfl
  rw [hy', h2, combination_range x os hx p.1 p.2 _ fun i o ho => h3 k p i o hp ho]

end Verif.Proofs
