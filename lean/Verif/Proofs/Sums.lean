import Verif.Model.Sums
import Verif.Proofs.Methods

/-! # Sums of polynomials -/

namespace Verif.Proofs
open Verif.Model Verif.Spec

/-- In every reachable state of the tables `x` returns `v` and leaves a good state. -/
def Ret {β : Type} (x : CM β) (v : β) : Prop := ∀ s, Good s → (x s).1 = .ok v ∧ Good (x s).2

/-- In every reachable state of the tables `x` raises `e`. -/
def Fails {β : Type} (x : CM β) (e : PyErr) : Prop := ∀ s, Good s → (x s).1 = .error e

theorem ret_pure {β : Type} (v : β) : Ret (pure v) v := fun _ hs => ⟨rfl, hs⟩

theorem cm_bind {β γ : Type} (x : CM β) (f : β → CM γ) (s : CoefState) :
    (x >>= f) s = match x s with | (.ok v, s') => f v s' | (.error e, s') => (.error e, s') := rfl

theorem Ret.bind {β γ : Type} {x : CM β} {f : β → CM γ} {v : β} {w : γ} (hx : Ret x v) (hf : Ret (f v) w) :
    Ret (x >>= f) w := by
  intro s hs
  obtain ⟨h1, h2⟩ := hx s hs
  rw [cm_bind]
  rcases hc : x s with ⟨r, s'⟩
  rw [hc] at h1 h2
  simp only at h1 h2
  subst h1
  exact hf s' h2

theorem Ret.bindFails {β γ : Type} {x : CM β} {f : β → CM γ} {v : β} {e : PyErr} (hx : Ret x v) (hf : Fails (f v) e) :
    Fails (x >>= f) e := by
  intro s hs
  obtain ⟨h1, h2⟩ := hx s hs
  rw [cm_bind]
  rcases hc : x s with ⟨r, s'⟩
  rw [hc] at h1 h2
  simp only at h1 h2
  subst h1
  exact hf s' h2

theorem Fails.bind {β γ : Type} {x : CM β} {f : β → CM γ} {e : PyErr} (hx : Fails x e) : Fails (x >>= f) e := by
  intro s hs
  have h1 := hx s hs
  rw [cm_bind]
  rcases hc : x s with ⟨r, s'⟩
  rw [hc] at h1
  simp only at h1
  subst h1
  rfl

theorem fails_raise {β : Type} (e : PyErr) : Fails (CM.raise e : CM β) e := fun _ _ => rfl

/-- Pointwise application of a function of radius and angle to two checked values. -/
def Num.pt (f : ℝ → ℝ → ℝ) : Num → Num → Num
  | .scalar x, .scalar y => .scalar (f x y)
  | .scalar x, .array sh d => .array sh (d.map (f x))
  | .array sh d, .scalar y => .array sh (d.map (f · y))
  | .array sh d, .array _ d' => .array sh (List.zipWith f d d')

theorem pt_smul (c : ℝ) (f : ℝ → ℝ → ℝ) (x y : Num) : (Num.pt f x y).smul c = Num.pt (fun a b => c * f a b) x y := by
  cases x <;> cases y <;> simp [Num.pt, Num.smul, Num.map, Function.comp_def, List.map_zipWith]

theorem pt_add (f g : ℝ → ℝ → ℝ) (x y : Num) : (Num.pt f x y).add (Num.pt g x y) = Num.pt (fun a b => f a b + g a b) x y := by
  cases x <;> cases y <;> simp [Num.pt, Num.add]
  · rename_i d _ d'
    induction d generalizing d' with
    | nil => simp
    | cons a t ih => cases d' <;> simp [ih]

theorem polVal_ok (fuel : Nat) (o : PolObj) (hv : ValidOrders o.m o.n) (hf : o.n.toNat + 1 < fuel) (r theta : Arg) (x y : Num)
    (w : List Warn) (hx : checkRadii r = .ok x) (hy : checkAngles theta = .ok (y, w)) (hsh : shapesDiffer x y = false) :
    Ret (polVal fuel o r theta) (Num.pt (zernike o.m o.n) x y) := by
  intro s hs
  refine ⟨?_, polynomialValue_st _ _ _ _ _ _ hs⟩
  show (polynomialValue fuel o r theta false s).res = _
  rw [polynomialValue_ok fuel o r theta false s hs hv hf x y w hx hy, if_neg (by simp)]
  · congr 1
    cases x <;> cases y <;> simp only [Num.pt, Num.map, Num.mul, value_eq _ _ hv, List.map_map, Function.comp_def]
    rw [List.zipWith_map, List.zipWith_comm]
    simp only [value_eq _ _ hv]
    have : ∀ a b : List Nat, ∀ c d, shapesDiffer (.array a c) (.array b d) = false → b = a := by
      intro a b c d h
      have : a = b := by simpa [shapesDiffer] using h
      exact this.symm
    rw [this _ _ _ _ hsh]
  · rintro sh d sh' d' rfl rfl
    simpa [shapesDiffer] using hsh

/-- The terms `c * Z` of a sum. -/
noncomputable def termSum (l : List (ℝ × PolObj)) (r t : ℝ) : ℝ := (l.map fun p => p.1 * zernike p.2.m p.2.n r t).sum

section
variable (fuel : Nat) (r theta : Arg) (x y : Num) (w : List Warn)

theorem sumRest_ok (hx : checkRadii r = .ok x) (hy : checkAngles theta = .ok (y, w)) (hsh : shapesDiffer x y = false)
    (l : List (ℝ × PolObj)) (hv : ∀ p ∈ l, ValidOrders p.2.m p.2.n ∧ p.2.n.toNat + 1 < fuel) (f : ℝ → ℝ → ℝ) :
    Ret (sumRest fuel r theta (l.map fun p => (p.1, .pol p.2)) (Num.pt f x y))
      (Num.pt (fun a b => f a b + termSum l a b) x y) := by
  induction l generalizing f with
  | nil => simpa [sumRest, termSum] using ret_pure _
  | cons p t ih =>
    simp only [List.map_cons, sumRest]
    have hv' : ∀ q ∈ t, ValidOrders q.2.m q.2.n ∧ q.2.n.toNat + 1 < fuel := fun q hq => hv q (by simp [hq])
    by_cases hc : |p.1| > 0
    · rw [if_pos hc]
      refine Ret.bind (polVal_ok fuel p.2 (hv p (by simp)).1 (hv p (by simp)).2 r theta x y w hx hy hsh) ?_
      rw [pt_smul, pt_add]
      have := ih hv' (fun a b => f a b + p.1 * zernike p.2.m p.2.n a b)
      simpa [termSum, add_assoc] using this
    · rw [if_neg hc]
      have h0 : p.1 = 0 := by simpa using hc
      have := ih hv' f
      simpa [termSum, h0] using this

theorem sumPoints_ok (hx : checkRadii r = .ok x) (hy : checkAngles theta = .ok (y, w)) (hsh : shapesDiffer x y = false)
    (l : List (ℝ × PolObj)) (hl : l ≠ []) (hv : ∀ p ∈ l, ValidOrders p.2.m p.2.n ∧ p.2.n.toNat + 1 < fuel) :
    Ret (sumPoints fuel r theta (l.map fun p => (p.1, .pol p.2))) (Num.pt (termSum l) x y) := by
  cases l with
  | nil => exact absurd rfl hl
  | cons p t =>
    simp only [List.map_cons, sumPoints]
    refine Ret.bind (polVal_ok fuel p.2 (hv p (by simp)).1 (hv p (by simp)).2 r theta x y w hx hy hsh) ?_
    rw [pt_smul]
    have := sumRest_ok fuel r theta x y w hx hy hsh t (fun q hq => hv q (by simp [hq])) (fun a b => p.1 * zernike p.2.m p.2.n a b)
    convert! this using 2

theorem sumRest_fails (hx : checkRadii r = .ok x) (hy : checkAngles theta = .ok (y, w)) (hsh : shapesDiffer x y = false)
    (l : List (ℝ × PolObj)) (hv : ∀ p ∈ l, ValidOrders p.2.m p.2.n ∧ p.2.n.toNat + 1 < fuel) (c : ℝ) (rest : List (ℝ × PolItem))
    (f : ℝ → ℝ → ℝ) :
    Fails (sumRest fuel r theta (l.map (fun p => (p.1, .pol p.2)) ++ (c, .other) :: rest) (Num.pt f x y)) .valueError := by
  induction l generalizing f with
  | nil => exact fails_raise _
  | cons p t ih =>
    simp only [List.map_cons, List.cons_append, sumRest]
    have hv' : ∀ q ∈ t, ValidOrders q.2.m q.2.n ∧ q.2.n.toNat + 1 < fuel := fun q hq => hv q (by simp [hq])
    split_ifs
    · refine Ret.bindFails (polVal_ok fuel p.2 (hv p (by simp)).1 (hv p (by simp)).2 r theta x y w hx hy hsh) ?_
      rw [pt_smul, pt_add]
      exact ih hv' _
    · exact ih hv' _

theorem sumPoints_fails (hx : checkRadii r = .ok x) (hy : checkAngles theta = .ok (y, w)) (hsh : shapesDiffer x y = false)
    (l : List (ℝ × PolObj)) (hv : ∀ p ∈ l, ValidOrders p.2.m p.2.n ∧ p.2.n.toNat + 1 < fuel) (c : ℝ) (rest : List (ℝ × PolItem)) :
    Fails (sumPoints fuel r theta (l.map (fun p => (p.1, .pol p.2)) ++ (c, .other) :: rest)) .valueError := by
  cases l with
  | nil => exact fails_raise _
  | cons p t =>
    simp only [List.map_cons, List.cons_append, sumPoints]
    refine Ret.bindFails (polVal_ok fuel p.2 (hv p (by simp)).1 (hv p (by simp)).2 r theta x y w hx hy hsh) ?_
    rw [pt_smul]
    exact sumRest_fails fuel r theta x y w hx hy hsh t (fun q hq => hv q (by simp [hq])) c rest _

end

/-! ### Surfaces -/

/-- `S + f(r_i, theta_j)` on the grid of the given radii and angles. -/
def SameGrid (r t : List ℝ) (S : Grid) (f : ℝ → ℝ → ℝ) : Prop :=
  S.rows = r.length ∧ S.cols = t.length ∧ ∀ i, i < r.length → ∀ j, j < t.length → S.entry i j = f (r.getD i 0) (t.getD j 0)

/-- `Ret` up to a property of the result. -/
def RetP {β : Type} (x : CM β) (P : β → Prop) : Prop := ∀ s, Good s → (∃ v, (x s).1 = .ok v ∧ P v) ∧ Good (x s).2

theorem retP_pure {β : Type} {P : β → Prop} (v : β) (h : P v) : RetP (pure v) P := fun _ hs => ⟨⟨v, rfl, h⟩, hs⟩

theorem Ret.bindP {β γ : Type} {x : CM β} {f : β → CM γ} {v : β} {P : γ → Prop} (hx : Ret x v) (hf : RetP (f v) P) :
    RetP (x >>= f) P := by
  intro s hs
  obtain ⟨h1, h2⟩ := hx s hs
  rw [cm_bind]
  rcases hc : x s with ⟨r, s'⟩
  rw [hc] at h1 h2
  simp only at h1 h2
  subst h1
  exact hf s' h2

theorem RetP.bind {β γ : Type} {x : CM β} {f : β → CM γ} {P : β → Prop} {Q : γ → Prop} (hx : RetP x P)
    (hf : ∀ v, P v → RetP (f v) Q) : RetP (x >>= f) Q := by
  intro s hs
  obtain ⟨⟨v, h1, h3⟩, h2⟩ := hx s hs
  rw [cm_bind]
  rcases hc : x s with ⟨r, s'⟩
  rw [hc] at h1 h2
  simp only at h1 h2
  subst h1
  exact hf v h3 s' h2

theorem RetP.bindFails {β γ : Type} {x : CM β} {f : β → CM γ} {P : β → Prop} {e : PyErr} (hx : RetP x P)
    (hf : ∀ v, P v → Fails (f v) e) : Fails (x >>= f) e := by
  intro s hs
  obtain ⟨⟨v, h1, h3⟩, h2⟩ := hx s hs
  rw [cm_bind]
  rcases hc : x s with ⟨r, s'⟩
  rw [hc] at h1 h2
  simp only at h1 h2
  subst h1
  exact hf v h3 s' h2

theorem item_map (sh : List Nat) (t : List ℝ) (f : ℝ → ℝ) (b : Nat) (hb : b < t.length) :
    (Num.array sh (t.map f)).item b = f (t.getD b 0) := by
  simp [Num.item, hb]

section
variable (fuel : Nat) (c : ℝ) (o : PolObj) (r t : List ℝ)

theorem addRows_ok (hv : ValidOrders o.m o.n) (hf : o.n.toNat + 1 < fuel) (ht : t ≠ []) (hr : ∀ x ∈ r, 0 ≤ x ∧ x ≤ 1)
    (k j : Nat) (hk : k + j = r.length) (S : Grid) :
    RetP (addRows fuel c o r t k j S) fun S' => S'.rows = S.rows ∧ S'.cols = S.cols ∧ ∀ a, a < r.length → ∀ b, b < t.length →
      S'.entry a b = S.entry a b + if j ≤ a then c * zernike o.m o.n (r.getD a 0) (t.getD b 0) else 0 := by
  induction k generalizing j S with
  | zero =>
    refine retP_pure _ ⟨rfl, rfl, fun a ha b hb => ?_⟩
    rw [if_neg (by omega), add_zero]
  | succ k ih =>
    obtain ⟨w, hw, _⟩ := checkAnglesArray_ok [t.length] t ht
    have hj : j < r.length := by omega
    have hm : r.getD j 0 ∈ r := by simp [hj]
    refine Ret.bindP (polVal_ok fuel o hv hf _ (.arr [t.length] t) _ _ w
      (checkRadii_num _ (hr _ hm).1 (hr _ hm).2) hw rfl) ?_
    intro s hs
    obtain ⟨⟨S', h1, h2, h3, h4⟩, h5⟩ := ih (j + 1) (by omega) _ s hs
    refine ⟨⟨S', h1, h2, h3, fun a ha b hb => ?_⟩, h5⟩
    rw [h4 a ha b hb]
    dsimp only
    rw [pt_smul]
    unfold Num.pt
    rw [item_map _ _ _ _ hb]
    rcases lt_trichotomy a j with hlt | rfl | hgt
    · rw [if_neg (by omega), if_neg (by omega), if_neg (by omega)]
    · rw [if_pos rfl, if_neg (by omega), if_pos le_rfl, add_zero]
    · rw [if_neg (by omega), if_pos (by omega), if_pos (by omega)]

theorem addCols_ok (hv : ValidOrders o.m o.n) (hf : o.n.toNat + 1 < fuel) (hr0 : r ≠ []) (hr : ∀ x ∈ r, 0 ≤ x ∧ x ≤ 1)
    (k j : Nat) (hk : k + j = t.length) (S : Grid) :
    RetP (addCols fuel c o r t k j S) fun S' => S'.rows = S.rows ∧ S'.cols = S.cols ∧ ∀ a, a < r.length → ∀ b, b < t.length →
      S'.entry a b = S.entry a b + if j ≤ b then c * zernike o.m o.n (r.getD a 0) (t.getD b 0) else 0 := by
  induction k generalizing j S with
  | zero =>
    refine retP_pure _ ⟨rfl, rfl, fun a ha b hb => ?_⟩
    rw [if_neg (by omega), add_zero]
  | succ k ih =>
    obtain ⟨w, hw, _⟩ := checkAngles_num (t.getD j 0)
    refine Ret.bindP (polVal_ok fuel o hv hf _ _ _ _ w (checkRadii_arr [r.length] r hr0 hr).1 hw rfl) ?_
    intro s hs
    obtain ⟨⟨S', h1, h2, h3, h4⟩, h5⟩ := ih (j + 1) (by omega) _ s hs
    refine ⟨⟨S', h1, h2, h3, fun a ha b hb => ?_⟩, h5⟩
    rw [h4 a ha b hb]
    dsimp only
    rw [pt_smul]
    unfold Num.pt
    rw [item_map _ _ _ _ ha]
    rcases lt_trichotomy b j with hlt | rfl | hgt
    · rw [if_neg (by omega), if_neg (by omega), if_neg (by omega)]
    · rw [if_pos rfl, if_neg (by omega), if_pos le_rfl, add_zero]
    · rw [if_neg (by omega), if_pos (by omega), if_pos (by omega)]

theorem sumSurface_ok (hr0 : r ≠ []) (ht : t ≠ []) (hr : ∀ x ∈ r, 0 ≤ x ∧ x ≤ 1) (l : List (ℝ × PolObj))
    (hv : ∀ p ∈ l, ValidOrders p.2.m p.2.n ∧ p.2.n.toNat + 1 < fuel) (S : Grid) (f : ℝ → ℝ → ℝ) (hS : SameGrid r t S f) :
    RetP (sumSurface fuel r t (l.map fun p => (p.1, .pol p.2)) S) fun S' => SameGrid r t S' fun a b => f a b + termSum l a b := by
  induction l generalizing S f with
  | nil => exact retP_pure _ (by simpa [termSum] using hS)
  | cons p l ih =>
    simp only [List.map_cons, sumSurface]
    have hv' : ∀ q ∈ l, ValidOrders q.2.m q.2.n ∧ q.2.n.toNat + 1 < fuel := fun q hq => hv q (by simp [hq])
    have hp := hv p (by simp)
    have e : (fun a b => f a b + termSum (p :: l) a b) = fun a b => (f a b + p.1 * zernike p.2.m p.2.n a b) + termSum l a b := by
      funext a b; simp [termSum, add_assoc]
    rw [e]
    split_ifs with hc ht'
    · refine RetP.bind (addRows_ok fuel p.1 p.2 r t hp.1 hp.2 ht hr _ 0 (by omega) S) fun S' h => ih hv' S' _ ?_
      refine ⟨h.1.trans hS.1, h.2.1.trans hS.2.1, fun i hi j hj => ?_⟩
      rw [h.2.2 i hi j hj, if_pos (Nat.zero_le _), hS.2.2 i hi j hj]
    · refine RetP.bind (addCols_ok fuel p.1 p.2 r t hp.1 hp.2 hr0 hr _ 0 (by omega) S) fun S' h => ih hv' S' _ ?_
      refine ⟨h.1.trans hS.1, h.2.1.trans hS.2.1, fun i hi j hj => ?_⟩
      rw [h.2.2 i hi j hj, if_pos (Nat.zero_le _), hS.2.2 i hi j hj]
    · have h0 : p.1 = 0 := by simpa using hc
      rw [h0]
      simpa using ih hv' S f hS

theorem sumSurface_fails (hr0 : r ≠ []) (ht : t ≠ []) (hr : ∀ x ∈ r, 0 ≤ x ∧ x ≤ 1) (l : List (ℝ × PolObj))
    (hv : ∀ p ∈ l, ValidOrders p.2.m p.2.n ∧ p.2.n.toNat + 1 < fuel) (d : ℝ) (rest : List (ℝ × PolItem)) (S : Grid) :
    Fails (sumSurface fuel r t (l.map (fun p => (p.1, .pol p.2)) ++ (d, .other) :: rest) S) .valueError := by
  induction l generalizing S with
  | nil => exact fails_raise _
  | cons p l ih =>
    simp only [List.map_cons, List.cons_append, sumSurface]
    have hv' : ∀ q ∈ l, ValidOrders q.2.m q.2.n ∧ q.2.n.toNat + 1 < fuel := fun q hq => hv q (by simp [hq])
    have hp := hv p (by simp)
    split_ifs with hc ht'
    · exact RetP.bindFails (addRows_ok fuel p.1 p.2 r t hp.1 hp.2 ht hr _ 0 (by omega) S) fun S' h => ih hv' S'
    · exact RetP.bindFails (addCols_ok fuel p.1 p.2 r t hp.1 hp.2 hr0 hr _ 0 (by omega) S) fun S' h => ih hv' S'
    · exact ih hv' S

/-! ### The mesh variant -/

theorem flatMap_get (r : List ℝ) (t : List ℝ) (g : ℝ → ℝ → ℝ) (i j : Nat) (hi : i < r.length) (hj : j < t.length) :
    (r.flatMap fun x => t.map (g x)).getD (i * t.length + j) 0 = g (r.getD i 0) (t.getD j 0) := by
  induction r generalizing i with
  | nil => simp at hi
  | cons x r ih =>
    rw [List.flatMap_cons]
    cases i with
    | zero =>
      rw [List.getD_eq_getElem?_getD, List.getElem?_append_left (by simpa using hj)]
      simp [hj]
    | succ i =>
      have hi' : i < r.length := by simpa using hi
      rw [List.getD_eq_getElem?_getD, List.getElem?_append_right (by simp; nlinarith)]
      rw [show (i + 1) * t.length + j - (t.map (g x)).length = i * t.length + j by simp; rw [Nat.add_mul]; omega]
      rw [← List.getD_eq_getElem?_getD, ih i hi']
      simp

theorem zipWith_mesh (r t : List ℝ) (g : ℝ → ℝ → ℝ) :
    List.zipWith g (meshR r t) (meshTheta r t) = r.flatMap fun x => t.map (g x) := by
  unfold meshR meshTheta
  induction r with
  | nil => simp
  | cons x r ih =>
    simp only [List.flatMap_cons]
    rw [List.zipWith_append (by simp), ih]
    congr 1
    rw [List.zipWith_map_left]
    simp

theorem sumMesh_ok (hr0 : r ≠ []) (ht : t ≠ []) (hr : ∀ x ∈ r, 0 ≤ x ∧ x ≤ 1) (l : List (ℝ × PolObj))
    (hv : ∀ p ∈ l, ValidOrders p.2.m p.2.n ∧ p.2.n.toNat + 1 < fuel) (S : Grid) (f : ℝ → ℝ → ℝ) (hS : SameGrid r t S f) :
    RetP (sumMesh fuel r t (l.map fun p => (p.1, .pol p.2)) S) fun S' => SameGrid r t S' fun a b => f a b + termSum l a b := by
  induction l generalizing S f with
  | nil => exact retP_pure _ (by simpa [termSum] using hS)
  | cons p l ih =>
    simp only [List.map_cons, sumMesh]
    have hv' : ∀ q ∈ l, ValidOrders q.2.m q.2.n ∧ q.2.n.toNat + 1 < fuel := fun q hq => hv q (by simp [hq])
    have hp := hv p (by simp)
    have e : (fun a b => f a b + termSum (p :: l) a b) = fun a b => (f a b + p.1 * zernike p.2.m p.2.n a b) + termSum l a b := by
      funext a b; simp [termSum, add_assoc]
    rw [e]
    split_ifs with hc
    · have hR : meshR r t ≠ [] := by
        obtain ⟨x, r', rfl⟩ := List.exists_cons_of_ne_nil hr0
        obtain ⟨y, t', rfl⟩ := List.exists_cons_of_ne_nil ht
        simp [meshR]
      have hT : meshTheta r t ≠ [] := by
        obtain ⟨x, r', rfl⟩ := List.exists_cons_of_ne_nil hr0
        obtain ⟨y, t', rfl⟩ := List.exists_cons_of_ne_nil ht
        simp [meshTheta]
      have hRm : ∀ x ∈ meshR r t, 0 ≤ x ∧ x ≤ 1 := by
        intro x hx
        obtain ⟨a, ha, hb⟩ := List.mem_flatMap.1 hx
        obtain ⟨_, _, rfl⟩ := List.mem_map.1 hb
        exact hr a ha
      obtain ⟨w, hw, _⟩ := checkAnglesArray_ok [r.length, t.length] _ hT
      refine Ret.bindP (polVal_ok fuel p.2 hp.1 hp.2 _ (.arr [r.length, t.length] (meshTheta r t)) _ _ w
        (checkRadii_arr [r.length, t.length] _ hR hRm).1 hw (by simp [shapesDiffer])) ?_
      refine ih hv' _ _ ⟨hS.1, hS.2.1, fun i hi j hj => ?_⟩
      dsimp only
      rw [hS.2.2 i hi j hj, pt_smul]
      show _ + (List.zipWith (fun a b => p.1 * zernike p.2.m p.2.n a b) (meshR r t) (meshTheta r t)).getD (i * t.length + j) 0 = _
      rw [zipWith_mesh, flatMap_get r t (fun a b => p.1 * zernike p.2.m p.2.n a b) i j hi hj]
    · have h0 : p.1 = 0 := by simpa using hc
      rw [h0]
      simpa using ih hv' S f hS

end

end Verif.Proofs
