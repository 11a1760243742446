import Verif.Model.FloatSums
import Verif.Proofs.FloatRepro2
import Verif.Proofs.FloatPsfPhase

/-! # Sums of polynomials in floating-point arithmetic -/

namespace Verif.Proofs
open Verif.Model Verif.Spec

/-- The polynomials of the list can be evaluated. -/
def Usable (fuel : Nat) (l : List (ℝ × PolObj)) : Prop := ∀ q ∈ l, ValidOrders q.2.m q.2.n ∧ q.2.n.toNat + 1 < fuel

theorem Usable.tail {fuel : Nat} {q : ℝ × PolObj} {l : List (ℝ × PolObj)} (h : Usable fuel (q :: l)) : Usable fuel l :=
  fun x hx => h x (List.mem_cons_of_mem _ hx)

open Classical in
/-- The value of `coefficient*polynomial_value(r, theta)`, which does not depend on the state of the tables. -/
noncomputable def termVal (F : PsfArith) (fuel : Nat) (c : ℝ) (o : PolObj) (r t : ℝ) : ℝ :=
  if h : ∃ v, Ret (fltSinglePhase F fuel o c r t) v then h.choose else 0

section
variable (F : PsfArith) (fuel : Nat)

theorem termVal_ret (c : ℝ) (o : PolObj) (hv : ValidOrders o.m o.n) (hf : o.n.toNat + 1 < fuel) (r t : ℝ) :
    Ret (fltSinglePhase F fuel o c r t) (termVal F fuel c o r t) := by
  obtain ⟨v, hr, -⟩ := fltSinglePhase_both F fuel fuel o hv hf hf c r t
  have h : ∃ v, Ret (fltSinglePhase F fuel o c r t) v := ⟨v, hr⟩
  unfold termVal
  rw [dif_pos h]
  exact h.choose_spec

/-- A term is a rounded product. -/
theorem termVal_form (c : ℝ) (o : PolObj) (hv : ValidOrders o.m o.n) (hf : o.n.toNat + 1 < fuel) (r t : ℝ) :
    ∃ w, termVal F fuel c o r t = F.fl (c * w) := by
  obtain ⟨v, hr, -⟩ := polynomialFl_both F.toFloatArith fuel fuel false o.m o.n hv hf hf ⟨r⟩ ⟨t⟩
  have h : Ret (fltSinglePhase F fuel o c r t) (F.fl (c * v.val)) := hr.bind (ret_pure _)
  have e := (termVal_ret F fuel c o hv hf r t _ good_init).1
  rw [(h _ good_init).1] at e
  exact ⟨v.val, (Except.ok.inj e).symm⟩

open Classical in
/-- The sum over the polynomials after the first. -/
noncomputable def restVal (r t : ℝ) (l : List (ℝ × PolObj)) (S : ℝ) : ℝ :=
  l.foldl (fun S q => if |q.1| > 0 then F.fl (S + termVal F fuel q.1 q.2 r t) else S) S

theorem fltSumRest_ret (l : List (ℝ × PolObj)) (h : Usable fuel l) (r t S : ℝ) : Ret (fltSumRest F fuel r t l S) (restVal F fuel r t l S) := by
  induction l generalizing S with
  | nil => exact ret_pure _
  | cons q l ih =>
    obtain ⟨c, o⟩ := q
    have ho := h (c, o) List.mem_cons_self
    unfold fltSumRest restVal
    rw [List.foldl_cons]
    by_cases hc : |c| > 0
    · rw [if_pos hc, if_pos hc]
      exact (termVal_ret F fuel c o ho.1 ho.2 r t).bind (ih h.tail _)
    · rw [if_neg hc, if_neg hc]
      exact ih h.tail _

theorem fltSumPoint_ret (c : ℝ) (o : PolObj) (l : List (ℝ × PolObj)) (h : Usable fuel ((c, o) :: l)) (r t : ℝ) :
    Ret (fltSumPoint F fuel r t ((c, o) :: l)) (restVal F fuel r t l (termVal F fuel c o r t)) := by
  have ho := h (c, o) List.mem_cons_self
  exact (termVal_ret F fuel c o ho.1 ho.2 r t).bind (fltSumRest_ret F fuel l h.tail r t _)

theorem fltValues_ret (c : ℝ) (o : PolObj) (hv : ValidOrders o.m o.n) (hf : o.n.toNat + 1 < fuel) (l : List (ℝ × ℝ)) :
    Ret (fltValues F fuel c o l) (l.map fun x => termVal F fuel c o x.1 x.2) := by
  induction l with
  | nil => exact ret_pure _
  | cons q l ih => exact (termVal_ret F fuel c o hv hf q.1 q.2).bind (ih.bind (ret_pure _))

/-- On the grid of the given radii and angles, the entries are those of `f`. -/
def Fills (r t : List ℝ) (S : Grid) (f : ℝ → ℝ → ℝ) : Prop :=
  S.rows = r.length ∧ S.cols = t.length ∧ ∀ i, i < r.length → ∀ j, j < t.length → S.entry i j = f (r.getD i 0) (t.getD j 0)

theorem addRows_ret (c : ℝ) (o : PolObj) (hv : ValidOrders o.m o.n) (hf : o.n.toNat + 1 < fuel) (r t : List ℝ) (k j : ℕ) (S : Grid) :
    RetP (fltAddRows F fuel c o r t k j S) fun S' => S'.rows = S.rows ∧ S'.cols = S.cols ∧ ∀ a b, b < t.length →
      S'.entry a b = if j ≤ a ∧ a < j + k then F.fl (S.entry a b + termVal F fuel c o (r.getD a 0) (t.getD b 0)) else S.entry a b := by
  induction k generalizing j S with
  | zero =>
    refine retP_pure _ ⟨rfl, rfl, fun a b _ => ?_⟩
    rw [if_neg (by omega)]
  | succ k ih =>
    refine Ret.bindP (fltValues_ret F fuel c o hv hf _) ?_
    refine RetP.mono (ih (j + 1) _) fun S' h => ⟨h.1, h.2.1, fun a b hb => ?_⟩
    rw [h.2.2 a b hb]
    simp only
    by_cases ha : a = j
    · subst ha
      rw [if_neg (by omega), if_pos rfl, if_pos (by omega)]
      congr 2
      simp [List.getD_eq_getElem?_getD, hb]
    · rw [if_neg ha]
      by_cases hj : j + 1 ≤ a ∧ a < j + 1 + k
      · rw [if_pos hj, if_pos (by omega)]
      · rw [if_neg hj, if_neg (by omega)]

theorem addCols_ret (c : ℝ) (o : PolObj) (hv : ValidOrders o.m o.n) (hf : o.n.toNat + 1 < fuel) (r t : List ℝ) (k j : ℕ) (S : Grid) :
    RetP (fltAddCols F fuel c o r t k j S) fun S' => S'.rows = S.rows ∧ S'.cols = S.cols ∧ ∀ a b, a < r.length →
      S'.entry a b = if j ≤ b ∧ b < j + k then F.fl (S.entry a b + termVal F fuel c o (r.getD a 0) (t.getD b 0)) else S.entry a b := by
  induction k generalizing j S with
  | zero =>
    refine retP_pure _ ⟨rfl, rfl, fun a b _ => ?_⟩
    rw [if_neg (by omega)]
  | succ k ih =>
    refine Ret.bindP (fltValues_ret F fuel c o hv hf _) ?_
    refine RetP.mono (ih (j + 1) _) fun S' h => ⟨h.1, h.2.1, fun a b hb => ?_⟩
    rw [h.2.2 a b hb]
    simp only
    by_cases ha : b = j
    · subst ha
      rw [if_neg (by omega), if_pos rfl, if_pos (by omega)]
      congr 2
      simp [List.getD_eq_getElem?_getD, hb]
    · rw [if_neg ha]
      by_cases hj : j + 1 ≤ b ∧ b < j + 1 + k
      · rw [if_pos hj, if_pos (by omega)]
      · rw [if_neg hj, if_neg (by omega)]

theorem surfaceLoop_ret (l : List (ℝ × PolObj)) (h : Usable fuel l) (r t : List ℝ) (S : Grid) (f : ℝ → ℝ → ℝ) (hS : Fills r t S f) :
    RetP (fltSurfaceLoop F fuel r t l S) fun S' => Fills r t S' fun x y => restVal F fuel x y l (f x y) := by
  induction l generalizing S f with
  | nil => exact retP_pure _ hS
  | cons q l ih =>
    obtain ⟨c, o⟩ := q
    have ho := h (c, o) List.mem_cons_self
    unfold fltSurfaceLoop
    by_cases hc : |c| > 0
    · rw [if_pos hc]
      have key : ∀ S' : Grid, Fills r t S' (fun x y => F.fl (f x y + termVal F fuel c o x y)) →
          RetP (fltSurfaceLoop F fuel r t l S') fun S' => Fills r t S' fun x y => restVal F fuel x y ((c, o) :: l) (f x y) := by
        intro S' hS'
        refine RetP.mono (ih h.tail S' _ hS') fun S'' h2 => ?_
        unfold restVal at h2 ⊢
        simp only [List.foldl_cons, if_pos hc]
        exact h2
      split_ifs with hl
      · refine RetP.bind (addRows_ret F fuel c o ho.1 ho.2 r t r.length 0 S) fun S' h1 => key S' ⟨h1.1.trans hS.1, h1.2.1.trans hS.2.1, fun i hi j hj => ?_⟩
        rw [h1.2.2 i j hj, if_pos (by omega), hS.2.2 i hi j hj]
      · refine RetP.bind (addCols_ret F fuel c o ho.1 ho.2 r t t.length 0 S) fun S' h1 => key S' ⟨h1.1.trans hS.1, h1.2.1.trans hS.2.1, fun i hi j hj => ?_⟩
        rw [h1.2.2 i j hi, if_pos (by omega), hS.2.2 i hi j hj]
    · rw [if_neg hc]
      refine RetP.mono (ih h.tail S f hS) fun S'' h2 => ?_
      unfold restVal at h2 ⊢
      simp only [List.foldl_cons, if_neg hc]
      exact h2

theorem meshLoop_ret (l : List (ℝ × PolObj)) (h : Usable fuel l) (r t : List ℝ) (S : Grid) (f : ℝ → ℝ → ℝ) (hS : Fills r t S f) :
    RetP (fltMeshLoop F fuel r t l S) fun S' => Fills r t S' fun x y => restVal F fuel x y l (f x y) := by
  induction l generalizing S f with
  | nil => exact retP_pure _ hS
  | cons q l ih =>
    obtain ⟨c, o⟩ := q
    have ho := h (c, o) List.mem_cons_self
    unfold fltMeshLoop
    by_cases hc : |c| > 0
    · rw [if_pos hc]
      refine RetP.bind (addRows_ret F fuel c o ho.1 ho.2 r t r.length 0 S) fun S' h1 => ?_
      have hS' : Fills r t S' (fun x y => F.fl (f x y + termVal F fuel c o x y)) := ⟨h1.1.trans hS.1, h1.2.1.trans hS.2.1, fun i hi j hj => by
        rw [h1.2.2 i j hj, if_pos (by omega), hS.2.2 i hi j hj]⟩
      refine RetP.mono (ih h.tail S' _ hS') fun S'' h2 => ?_
      unfold restVal at h2 ⊢
      simp only [List.foldl_cons, if_pos hc]
      exact h2
    · rw [if_neg hc]
      refine RetP.mono (ih h.tail S f hS) fun S'' h2 => ?_
      unfold restVal at h2 ⊢
      simp only [List.foldl_cons, if_neg hc]
      exact h2

/-- The sum that starts with zero is the one that starts with the first term. -/
theorem restVal_zero (hid : ∀ x, F.fl (F.fl x) = F.fl x) (h0 : F.fl 0 = 0) (c : ℝ) (o : PolObj) (l : List (ℝ × PolObj)) (h : Usable fuel ((c, o) :: l)) (r t : ℝ) :
    restVal F fuel r t ((c, o) :: l) 0 = restVal F fuel r t l (termVal F fuel c o r t) := by
  have ho := h (c, o) List.mem_cons_self
  obtain ⟨w, hw⟩ := termVal_form F fuel c o ho.1 ho.2 r t
  unfold restVal
  rw [List.foldl_cons]
  by_cases hc : |c| > 0
  · rw [if_pos hc, zero_add, hw, hid]
  · have : c = 0 := by simpa using hc
    rw [if_neg hc, hw, this, zero_mul, h0]

theorem restVal_skip (r t : ℝ) (l : List (ℝ × PolObj)) (S : ℝ) : restVal F fuel r t (l.filter fun q => q.1 ≠ 0) S = restVal F fuel r t l S := by
  induction l generalizing S with
  | nil => rfl
  | cons q l ih =>
    unfold restVal at ih ⊢
    by_cases hq : q.1 = 0
    · rw [List.filter_cons_of_neg (by simpa using hq), List.foldl_cons, if_neg (by simp [hq]), ih]
    · rw [List.filter_cons_of_pos (by simpa using hq), List.foldl_cons, List.foldl_cons, ih]

end

section
variable {F : PsfArith} {u η : ℝ} {p : ℕ}

theorem sumRest_er (hF : PsfAccurate F u η p) (fuel : Nat) (N : ℕ) (l : List (ℝ × PolObj)) (hl : Usable fuel l) (hN : ∀ x ∈ l, x.2.n.toNat ≤ N)
    {r t : ℝ} (h0 : 0 ≤ r) (h1 : r ≤ 1) (ht : |t| ≤ 2 * Real.pi) (k : ℕ) (hk : 4 * N + 2 * p + 16 ≤ k) (S M v : ℝ) (h : Er ((1 + u) ^ k) M S v) :
    Er ((1 + u) ^ (k + l.length)) (M + (l.map fun x => max |x.1| η * zernikeSize x.2.m x.2.n).sum) (restVal F fuel r t l S)
      (v + (l.map fun x => x.1 * zernike x.2.m x.2.n r t).sum) := by
  induction l generalizing k S M v with
  | nil => simpa [restVal] using h
  | cons x l ih =>
    obtain ⟨a, o⟩ := x
    obtain ⟨hv, hf⟩ := hl (a, o) (by simp)
    have hN' := hN (a, o) (by simp)
    have hs1 : 1 ≤ zernikeSize o.m o.n := (norm_one o.m o.n ((valid_iff o.m o.n).1 hv).1).trans (zernikeSize_ge o.m o.n ((valid_iff o.m o.n).1 hv).1)
    have hmax : η ≤ max |a| η := le_max_right _ _
    have hM := h.nonneg
    have hpos : η ≤ max |a| η * zernikeSize o.m o.n := hmax.trans (le_mul_of_one_le_right (hF.eta_pos.le.trans hmax) hs1)
    have hη := hF.eta_pos
    have key : Er ((1 + u) ^ (k + 1)) (M + max |a| η * zernikeSize o.m o.n)
        (if |a| > 0 then F.fl (S + termVal F fuel a o r t) else S) (v + a * zernike o.m o.n r t) := by
      by_cases ha : |a| > 0
      · rw [if_pos ha]
        have hα : Er ((1 + u) ^ 0) (max |a| η) a a := Er.exactK u a (le_max_left _ _)
        obtain ⟨⟨y, e1, hy⟩, -⟩ := singlePhase_er hF fuel o hv hf hα r r t t h0 h1 h0 h1
          ((Er.exactK u r (by rw [abs_of_nonneg h0]; exact h1)).monoK hF (by omega) le_rfl) ((Er.exactK u t ht).monoK hF (by omega) le_rfl) _ good_init
        rw [(termVal_ret F fuel a o hv hf r t _ good_init).1] at e1
        cases e1
        have hy' := hy.monoK (l := k) hF (by simp only at hN'; omega) le_rfl
        exact (h.add hy' (u_one hF k) le_rfl).roundK hF (by linarith)
      · have : a = 0 := by simpa using ha
        rw [if_neg ha, this, zero_mul, add_zero]
        rw [this] at hpos
        exact h.monoK hF (by omega) (by linarith)
    have e := ih hl.tail (fun x hx => hN x (by simp [hx])) (k + 1) (by omega) _ _ _ key
    simp only [List.length_cons, List.map_cons, List.sum_cons]
    rw [show k + (l.length + 1) = k + 1 + l.length by ring, ← add_assoc, ← add_assoc]
    unfold restVal at e ⊢
    rw [List.foldl_cons]
    exact e

end

end Verif.Proofs
