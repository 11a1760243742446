import Verif.Model.SumsShapes
import Verif.Props.Sums
import Verif.Proofs.Fit

/-!
# C108: surfaces on arrays of any shape

`sum_zernikes(..., get_surface=True)` is documented for vectors. With other arrays it raises, except for two combinations of a matrix and
a vector, where the result is not a surface on a mesh: the matrix is used element by element.
-/

namespace Verif.Props
open Verif.Model Verif.Spec Verif.Proofs

/-- One line of the surface: the call of `polynomial_value` succeeds and gives a vector of `len` numbers, the `k`-th at radius `R k` and
angle `T k`. -/
def LineOk (r theta : Arg) (len : Nat) (R T : Nat → ℝ) : Prop :=
  ∃ x y w, checkRadii r = .ok x ∧ checkAngles theta = .ok (y, w) ∧ shapesDiffer x y = false ∧
    ∀ f : ℝ → ℝ → ℝ, ∃ d, Num.pt f x y = .array [len] d ∧ ∀ k < len, d.getD k 0 = f (R k) (T k)

theorem addRowsNd_ok (fuel : Nat) (c : ℝ) (o : PolObj) (hv : ValidOrders o.m o.n) (hf : o.n.toNat + 1 < fuel) (rs : List Nat) (rd : List ℝ)
    (theta : Arg) (a b : Nat) (R T : Nat → Nat → ℝ) (hline : ∀ j < a, LineOk (elementAt rs rd j) theta b (R j) (T j))
    (k j : Nat) (hk : k + j = a) (S : Grid) :
    RetP (addRowsNd fuel c o rs rd theta b k j S) fun S' => S'.rows = S.rows ∧ S'.cols = S.cols ∧ ∀ p < a, ∀ q < b,
      S'.entry p q = S.entry p q + if j ≤ p then c * zernike o.m o.n (R p q) (T p q) else 0 := by
  induction k generalizing j S with
  | zero =>
    refine retP_pure _ ⟨rfl, rfl, fun p hp q hq => ?_⟩
    rw [if_neg (by omega), add_zero]
  | succ k ih =>
    obtain ⟨x, y, w, hx, hy, hs, hl⟩ := hline j (by omega)
    refine Ret.bindP (polVal_ok fuel o hv hf _ theta _ _ w hx hy hs) ?_
    obtain ⟨d, hd, hg⟩ := hl fun p q => c * zernike o.m o.n p q
    rw [pt_smul, hd]
    refine Ret.bindP (ret_lift (v := fun q => d.getD q 0) (by simp [lineItems])) ?_
    intro s hs'
    obtain ⟨⟨S', h1, h2, h3, h4⟩, h5⟩ := ih (j + 1) (by omega) _ s hs'
    refine ⟨⟨S', h1, h2, h3, fun p hp q hq => ?_⟩, h5⟩
    rw [h4 p hp q hq]
    dsimp only
    rcases lt_trichotomy p j with hlt | rfl | hgt
    · rw [if_neg (by omega), if_neg (by omega), if_neg (by omega)]
    · rw [if_pos rfl, if_neg (by omega), if_pos le_rfl, add_zero, hg q hq]
    · rw [if_neg (by omega), if_pos (by omega), if_pos (by omega)]

theorem addColsNd_ok (fuel : Nat) (c : ℝ) (o : PolObj) (hv : ValidOrders o.m o.n) (hf : o.n.toNat + 1 < fuel) (r : Arg) (ts : List Nat)
    (td : List ℝ) (a b : Nat) (R T : Nat → Nat → ℝ) (hline : ∀ j < b, LineOk r (elementAt ts td j) a (R j) (T j))
    (k j : Nat) (hk : k + j = b) (S : Grid) :
    RetP (addColsNd fuel c o r ts td a k j S) fun S' => S'.rows = S.rows ∧ S'.cols = S.cols ∧ ∀ p < a, ∀ q < b,
      S'.entry p q = S.entry p q + if j ≤ q then c * zernike o.m o.n (R q p) (T q p) else 0 := by
  induction k generalizing j S with
  | zero =>
    refine retP_pure _ ⟨rfl, rfl, fun p hp q hq => ?_⟩
    rw [if_neg (by omega), add_zero]
  | succ k ih =>
    obtain ⟨x, y, w, hx, hy, hs, hl⟩ := hline j (by omega)
    refine Ret.bindP (polVal_ok fuel o hv hf _ _ _ _ w hx hy hs) ?_
    obtain ⟨d, hd, hg⟩ := hl fun p q => c * zernike o.m o.n p q
    rw [pt_smul, hd]
    refine Ret.bindP (ret_lift (v := fun q => d.getD q 0) (by simp [lineItems])) ?_
    intro s hs'
    obtain ⟨⟨S', h1, h2, h3, h4⟩, h5⟩ := ih (j + 1) (by omega) _ s hs'
    refine ⟨⟨S', h1, h2, h3, fun p hp q hq => ?_⟩, h5⟩
    rw [h4 p hp q hq]
    dsimp only
    rcases lt_trichotomy q j with hlt | rfl | hgt
    · rw [if_neg (by omega), if_neg (by omega), if_neg (by omega)]
    · rw [if_pos rfl, if_neg (by omega), if_pos le_rfl, add_zero, hg p hp]
    · rw [if_neg (by omega), if_pos (by omega), if_pos (by omega)]

/-- The surface `S` has `a` rows and `b` columns, and `S[p, q]` is `f` at radius `R p q` and angle `T p q`. -/
def IsPaired (S : Grid) (a b : Nat) (R T : Nat → Nat → ℝ) (f : ℝ → ℝ → ℝ) : Prop :=
  S.rows = a ∧ S.cols = b ∧ ∀ p < a, ∀ q < b, S.entry p q = f (R p q) (T p q)

theorem sumSurfaceNd_ok (fuel : Nat) (a b : Nat) (rs ts : List Nat) (rd td : List ℝ) (R T : Nat → Nat → ℝ)
    (hrow : b > a → ∀ j < a, LineOk (elementAt rs rd j) (.arr (b :: ts) td) b (R j) (T j))
    (hcol : ¬ b > a → ∀ j < b, LineOk (.arr (a :: rs) rd) (elementAt ts td j) a (fun p => R p j) (fun p => T p j))
    (l : List (ℝ × PolObj)) (hv : ∀ p ∈ l, ValidOrders p.2.m p.2.n ∧ p.2.n.toNat + 1 < fuel) (S : Grid) (f : ℝ → ℝ → ℝ)
    (hS : IsPaired S a b R T f) :
    RetP (sumSurfaceNd fuel a rs rd b ts td (l.map fun p => (p.1, .pol p.2)) S) fun S' => IsPaired S' a b R T fun x y => f x y + termSum l x y := by
  induction l generalizing S f with
  | nil => exact retP_pure _ (by simpa [termSum] using hS)
  | cons p l ih =>
    simp only [List.map_cons, sumSurfaceNd]
    have hv' : ∀ q ∈ l, ValidOrders q.2.m q.2.n ∧ q.2.n.toNat + 1 < fuel := fun q hq => hv q (by simp [hq])
    have hp := hv p (by simp)
    have e : (fun a b => f a b + termSum (p :: l) a b) = fun a b => (f a b + p.1 * zernike p.2.m p.2.n a b) + termSum l a b := by
      funext a b; simp [termSum, add_assoc]
    rw [e]
    split_ifs with hc ht'
    · refine RetP.bind (addRowsNd_ok fuel p.1 p.2 hp.1 hp.2 rs rd _ a b R T (hrow ht') _ 0 (by omega) S) fun S' h => ih hv' S' _ ?_
      refine ⟨h.1.trans hS.1, h.2.1.trans hS.2.1, fun i hi j hj => ?_⟩
      rw [h.2.2 i hi j hj, if_pos (Nat.zero_le _), hS.2.2 i hi j hj]
    · refine RetP.bind (addColsNd_ok fuel p.1 p.2 hp.1 hp.2 _ ts td a b _ _ (hcol ht') _ 0 (by omega) S) fun S' h => ih hv' S' _ ?_
      refine ⟨h.1.trans hS.1, h.2.1.trans hS.2.1, fun i hi j hj => ?_⟩
      rw [h.2.2 i hi j hj, if_pos (Nat.zero_le _), hS.2.2 i hi j hj]
    · have h0 : p.1 = 0 := by simpa using hc
      rw [h0]
      simpa using ih hv' S f hS

theorem nd_returns (h : List Call) (fuel : Nat) (cs : List ℝ) (os : List PolObj) (hl : cs.length = os.length)
    (h0 : os ≠ []) (hv : PolsOk fuel os) (a b : Nat) (rs ts : List Nat) (rd td : List ℝ) (R T : Nat → Nat → ℝ)
    (hrow : b > a → ∀ j < a, LineOk (elementAt rs rd j) (.arr (b :: ts) td) b (R j) (T j))
    (hcol : ¬ b > a → ∀ j < b, LineOk (.arr (a :: rs) rd) (elementAt ts td j) a (fun p => R p j) (fun p => T p j)) :
    ∃ g, (sumZernikesNd fuel cs (os.map .pol) (a :: rs) rd (b :: ts) td (afterCalls h)).1 = .ok g ∧
      IsPaired g a b R T (combination cs (ordersOf os)) := by
  have hlen : cs.length ≠ 0 := by rw [hl]; simpa using h0
  have hz : IsPaired (Grid.zeros a b) a b R T fun _ _ => 0 := ⟨rfl, rfl, fun _ _ _ _ => rfl⟩
  have key : RetP (sumSurfaceNd fuel a rs rd b ts td (cs.zip (os.map .pol)) (Grid.zeros a b))
      fun g => IsPaired g a b R T (combination cs (ordersOf os)) := by
    rw [zip_pol, ← termSum_eq]
    simpa using sumSurfaceNd_ok fuel a b rs ts rd td R T hrow hcol _ (pols_zip hv cs) _ _ hz
  obtain ⟨⟨g, h1, h2⟩, _⟩ := key _ (afterCalls_good h)
  refine ⟨g, ?_, h2⟩
  rw [← h1]
  unfold sumZernikesNd
  rw [if_neg (by simp [hl]), if_neg hlen]
  rfl

theorem elementAt_matrix (b : Nat) (d : List ℝ) (j : Nat) : elementAt [b] d j = .arr [b] ((d.drop (j * b)).take b) := by
  simp [elementAt]

theorem slice_mem {d : List ℝ} {i n : Nat} {x : ℝ} (h : x ∈ (d.drop i).take n) : x ∈ d := List.mem_of_mem_drop (List.mem_of_mem_take h)

theorem slice_length {d : List ℝ} {a b j : Nat} (hd : d.length = a * b) (hj : j < a) : ((d.drop (j * b)).take b).length = b := by
  have : (j + 1) * b ≤ a * b := Nat.mul_le_mul_right b hj
  rw [List.length_take, List.length_drop, hd]
  have e : (j + 1) * b = j * b + b := by ring
  omega

theorem slice_getD {d : List ℝ} {b j k : Nat} (hk : k < b) : ((d.drop (j * b)).take b).getD k 0 = d.getD (j * b + k) 0 := by
  rw [List.getD_eq_getElem?_getD, List.getD_eq_getElem?_getD, List.getElem?_take_of_lt hk, List.getElem?_drop]

theorem getD_map_line (l : List ℝ) (f : ℝ → ℝ) (k : Nat) (hk : k < l.length) : (l.map f).getD k 0 = f (l.getD k 0) := by
  simp [hk]

theorem getD_zipWith_lines (l m : List ℝ) (f : ℝ → ℝ → ℝ) (k : Nat) (hk : k < l.length) (hm : k < m.length) :
    (List.zipWith f l m).getD k 0 = f (l.getD k 0) (m.getD k 0) := by
  simp [hk, hm]

theorem line_number_vector (x : ℝ) (h0 : 0 ≤ x) (h1 : x ≤ 1) (b : Nat) (t : List ℝ) (ht : t.length = b) (hb : t ≠ []) :
    LineOk (.num x) (.arr [b] t) b (fun _ => x) (fun q => t.getD q 0) := by
  obtain ⟨w, hw, _⟩ := checkAnglesArray_ok [b] t hb
  exact ⟨_, _, w, checkRadii_num x h0 h1, hw, rfl, fun f => ⟨_, rfl, fun k hk => getD_map_line _ _ _ (by omega)⟩⟩

theorem line_vector_number (y : ℝ) (a : Nat) (r : List ℝ) (hr : r.length = a) (hb : r ≠ []) (h : ∀ x ∈ r, 0 ≤ x ∧ x ≤ 1) :
    LineOk (.arr [a] r) (.num y) a (fun p => r.getD p 0) (fun _ => y) := by
  obtain ⟨w, hw, _⟩ := checkAngles_num y
  exact ⟨_, _, w, (checkRadii_arr [a] r hb h).1, hw, rfl, fun f => ⟨_, rfl, fun k hk => getD_map_line _ (f · y) _ (by omega)⟩⟩

theorem line_vectors (b : Nat) (r t : List ℝ) (hr : r.length = b) (ht : t.length = b) (hb : 0 < b) (h : ∀ x ∈ r, 0 ≤ x ∧ x ≤ 1) :
    LineOk (.arr [b] r) (.arr [b] t) b (fun q => r.getD q 0) (fun q => t.getD q 0) := by
  have h1 : r ≠ [] := by rintro rfl; simp at hr; omega
  have h2 : t ≠ [] := by rintro rfl; simp at ht; omega
  obtain ⟨w, hw, _⟩ := checkAnglesArray_ok [b] t h2
  exact ⟨_, _, w, (checkRadii_arr [b] r h1 h).1, hw, by simp [shapesDiffer], fun f => ⟨_, rfl, fun k hk => getD_zipWith_lines _ _ _ _ (by omega) (by omega)⟩⟩

/-- C108. Two vectors (of any positive lengths): the surface on their mesh. -/
theorem surface_of_vectors (h : List Call) (fuel : Nat) (cs : List ℝ) (os : List PolObj) (hl : cs.length = os.length)
    (h0 : os ≠ []) (hv : PolsOk fuel os) (r t : List ℝ) (hr0 : r ≠ []) (ht : t ≠ []) (hr : ∀ x ∈ r, 0 ≤ x ∧ x ≤ 1) :
    ∃ g, (sumZernikesNd fuel cs (os.map .pol) [r.length] r [t.length] t (afterCalls h)).1 = .ok g ∧
      IsSurface g r t (combination cs (ordersOf os)) := by
  obtain ⟨g, hg, e1, e2, e3⟩ := nd_returns h fuel cs os hl h0 hv r.length t.length [] [] r t (fun p _ => r.getD p 0) (fun _ q => t.getD q 0)
    (fun _ j hj => line_number_vector _ (hr _ (by simp [hj])).1 (hr _ (by simp [hj])).2 _ t rfl ht)
    (fun _ j hj => line_vector_number _ _ r rfl hr0 hr)
  refine ⟨g, hg, e1, e2, fun i hi j hj => ?_⟩
  rw [e3 i hi j hj]; simp [hi, hj]

/-- C108. A matrix of radii with `a` rows and `b > a` columns and `b` angles: no mesh, element `[p, q]` is the sum at the radius `r[p, q]` and
the angle `theta[q]`. -/
theorem surface_of_radius_matrix (h : List Call) (fuel : Nat) (cs : List ℝ) (os : List PolObj) (hl : cs.length = os.length)
    (h0 : os ≠ []) (hv : PolsOk fuel os) (a b : Nat) (hab : a < b) (r t : List ℝ) (hrl : r.length = a * b) (htl : t.length = b)
    (hr : ∀ x ∈ r, 0 ≤ x ∧ x ≤ 1) :
    ∃ g, (sumZernikesNd fuel cs (os.map .pol) [a, b] r [b] t (afterCalls h)).1 = .ok g ∧ g.rows = a ∧ g.cols = b ∧
      ∀ p < a, ∀ q < b, g.entry p q = combination cs (ordersOf os) (r.getD (p * b + q) 0) (t.getD q 0) := by
  have ht : t ≠ [] := by rintro rfl; simp at htl; omega
  refine nd_returns h fuel cs os hl h0 hv a b [b] [] r t (fun p q => r.getD (p * b + q) 0) (fun _ q => t.getD q 0)
    (fun _ j hj => ?_) (fun hc => absurd hab hc)
  rw [elementAt_matrix]
  obtain ⟨x, y, w, c1, c2, c3, c4⟩ := line_vectors b _ t (slice_length hrl hj) htl (by omega) fun x hx => hr x (slice_mem hx)
  refine ⟨x, y, w, c1, c2, c3, fun f => ?_⟩
  obtain ⟨d, hd, hg⟩ := c4 f
  exact ⟨d, hd, fun k hk => by rw [hg k hk]; dsimp only; rw [slice_getD hk]⟩

/-- C108. A matrix of angles with `b` rows and `a ≥ b` columns and `a` radii: element `[p, q]` is the sum at the radius `r[p]` and the
angle `theta[q, p]`. -/
theorem surface_of_angle_matrix (h : List Call) (fuel : Nat) (cs : List ℝ) (os : List PolObj) (hl : cs.length = os.length)
    (h0 : os ≠ []) (hv : PolsOk fuel os) (a b : Nat) (ha : 0 < a) (hab : b ≤ a) (r t : List ℝ) (hrl : r.length = a) (htl : t.length = b * a)
    (hr : ∀ x ∈ r, 0 ≤ x ∧ x ≤ 1) :
    ∃ g, (sumZernikesNd fuel cs (os.map .pol) [a] r [b, a] t (afterCalls h)).1 = .ok g ∧ g.rows = a ∧ g.cols = b ∧
      ∀ p < a, ∀ q < b, g.entry p q = combination cs (ordersOf os) (r.getD p 0) (t.getD (q * a + p) 0) := by
  refine nd_returns h fuel cs os hl h0 hv a b [] [a] r t (fun p _ => r.getD p 0) (fun p q => t.getD (q * a + p) 0)
    (fun hc => absurd hc (by omega)) (fun _ j hj => ?_)
  rw [elementAt_matrix]
  obtain ⟨x, y, w, c1, c2, c3, c4⟩ := line_vectors a r _ hrl (slice_length htl hj) ha hr
  refine ⟨x, y, w, c1, c2, c3, fun f => ?_⟩
  obtain ⟨d, hd, hg⟩ := c4 f
  exact ⟨d, hd, fun k hk => by rw [hg k hk]; dsimp only; rw [slice_getD hk]⟩

/-- The combinations of shapes that are accepted. -/
def ShapesFit (a : Nat) (rs : List Nat) (b : Nat) (ts : List Nat) : Prop :=
  (rs = [] ∧ ts = []) ∨ (rs = [b] ∧ ts = [] ∧ a < b) ∨ (rs = [] ∧ ts = [a] ∧ b ≤ a)

theorem polVal_mismatch (fuel : Nat) (o : PolObj) (sh sh' : List Nat) (r t : List ℝ) (hr0 : r ≠ []) (ht : t ≠ []) (hr : ∀ x ∈ r, 0 ≤ x ∧ x ≤ 1)
    (hne : sh ≠ sh') : Fails (polVal fuel o (.arr sh r) (.arr sh' t)) .valueError := by
  intro s _
  show (polynomialValue fuel o (.arr sh r) (.arr sh' t) false s).res = _
  refine shape_mismatch_raises fuel o _ _ false s ⟨hr0, hr⟩ ht fun hs => ?_
  have := hs _ _ rfl rfl
  exact hne this

theorem lineItems_many (len a b : Nat) (sh : List Nat) (d : List ℝ) : lineItems len (.array (a :: b :: sh) d) = .error .valueError := rfl

theorem elementAt_slice (b : Nat) (bs : List Nat) (d : List ℝ) :
    elementAt (b :: bs) d 0 = .arr (b :: bs) ((d.drop 0).take (b :: bs).prod) := by
  simp [elementAt]

theorem slice_ne {sh : List Nat} {d : List ℝ} (hd : d ≠ []) (hp : 0 < sh.prod) : (d.drop 0).take sh.prod ≠ [] := by
  cases d with
  | nil => exact absurd rfl hd
  | cons x d =>
    obtain ⟨k, hk⟩ : ∃ k, sh.prod = k + 1 := ⟨sh.prod - 1, by omega⟩
    rw [hk]; simp

/-- The first line that is added raises, if the shapes do not fit. -/
theorem row_fails (fuel : Nat) (c : ℝ) (o : PolObj) (hv : ValidOrders o.m o.n) (hf : o.n.toNat + 1 < fuel) (a b : Nat) (rs ts : List Nat)
    (r t : List ℝ) (hr0 : r ≠ []) (ht : t ≠ []) (hr : ∀ x ∈ r, 0 ≤ x ∧ x ≤ 1) (hrs : 0 < rs.prod) (ha : 0 < a) (hab : a < b)
    (hfit : ¬ ShapesFit a rs b ts) (S : Grid) : Fails (addRowsNd fuel c o rs r (.arr (b :: ts) t) b a 0 S) .valueError := by
  obtain ⟨k, rfl⟩ : ∃ k, a = k + 1 := ⟨a - 1, by omega⟩
  simp only [addRowsNd]
  cases rs with
  | nil =>
    cases ts with
    | nil => exact absurd (Or.inl ⟨rfl, rfl⟩) hfit
    | cons t0 ts =>
      obtain ⟨w, hw, _⟩ := checkAnglesArray_ok (b :: t0 :: ts) t ht
      have hm : r.getD 0 0 ∈ r := by
        have := List.length_pos_of_ne_nil hr0; simp [this]
      refine Ret.bindFails (polVal_ok fuel o hv hf _ _ _ _ w (checkRadii_num _ (hr _ hm).1 (hr _ hm).2) hw rfl) ?_
      exact Fails.bind (fails_lift rfl)
  | cons r0 rs =>
    rw [elementAt_slice]
    have hs0 := slice_ne hr0 hrs
    have hsr : ∀ x ∈ (r.drop 0).take (r0 :: rs).prod, 0 ≤ x ∧ x ≤ 1 := fun x hx => hr x (slice_mem hx)
    by_cases he : r0 :: rs = b :: ts
    · cases ts with
      | nil => exact absurd (Or.inr (Or.inl ⟨he, rfl, hab⟩)) hfit
      | cons t0 ts =>
        obtain ⟨w, hw, _⟩ := checkAnglesArray_ok (b :: t0 :: ts) t ht
        refine Ret.bindFails (polVal_ok fuel o hv hf _ _ _ _ w (checkRadii_arr _ _ hs0 hsr).1 hw (by simp [shapesDiffer, he])) ?_
        refine Fails.bind (fails_lift ?_)
        rw [he]; rfl
    · exact Fails.bind (polVal_mismatch fuel o _ _ _ t hs0 ht hsr he)

theorem col_fails (fuel : Nat) (c : ℝ) (o : PolObj) (hv : ValidOrders o.m o.n) (hf : o.n.toNat + 1 < fuel) (a b : Nat) (rs ts : List Nat)
    (r t : List ℝ) (hr0 : r ≠ []) (ht : t ≠ []) (hr : ∀ x ∈ r, 0 ≤ x ∧ x ≤ 1) (hts : 0 < ts.prod) (hb : 0 < b) (hab : b ≤ a)
    (hfit : ¬ ShapesFit a rs b ts) (S : Grid) : Fails (addColsNd fuel c o (.arr (a :: rs) r) ts t a b 0 S) .valueError := by
  obtain ⟨k, rfl⟩ : ∃ k, b = k + 1 := ⟨b - 1, by omega⟩
  simp only [addColsNd]
  cases ts with
  | nil =>
    cases rs with
    | nil => exact absurd (Or.inl ⟨rfl, rfl⟩) hfit
    | cons r0 rs =>
      obtain ⟨w, hw, _⟩ := checkAngles_num (t.getD 0 0)
      refine Ret.bindFails (polVal_ok fuel o hv hf _ _ _ _ w (checkRadii_arr _ _ hr0 hr).1 hw rfl) ?_
      exact Fails.bind (fails_lift rfl)
  | cons t0 ts =>
    rw [elementAt_slice]
    have hs0 := slice_ne ht hts
    by_cases he : a :: rs = t0 :: ts
    · cases rs with
      | nil => exact absurd (Or.inr (Or.inr ⟨rfl, he.symm, hab⟩)) hfit
      | cons r0 rs =>
        obtain ⟨w, hw, _⟩ := checkAnglesArray_ok (t0 :: ts) _ hs0
        refine Ret.bindFails (polVal_ok fuel o hv hf _ _ _ _ w (checkRadii_arr _ _ hr0 hr).1 hw (by simp [shapesDiffer, he])) ?_
        exact Fails.bind (fails_lift rfl)
    · exact Fails.bind (polVal_mismatch fuel o _ _ r _ hr0 hs0 hr he)

theorem sumSurfaceNd_fails (fuel : Nat) (a b : Nat) (rs ts : List Nat) (r t : List ℝ) (hr0 : r ≠ []) (ht : t ≠ [])
    (hr : ∀ x ∈ r, 0 ≤ x ∧ x ≤ 1) (hrs : 0 < rs.prod) (hts : 0 < ts.prod) (ha : 0 < a) (hb : 0 < b) (hfit : ¬ ShapesFit a rs b ts)
    (l : List (ℝ × PolObj)) (hv : ∀ p ∈ l, ValidOrders p.2.m p.2.n ∧ p.2.n.toNat + 1 < fuel) (hc : ∃ p ∈ l, p.1 ≠ 0) (S : Grid) :
    Fails (sumSurfaceNd fuel a rs r b ts t (l.map fun p => (p.1, .pol p.2)) S) .valueError := by
  induction l with
  | nil => simp at hc
  | cons p l ih =>
    simp only [List.map_cons, sumSurfaceNd]
    have hv' : ∀ q ∈ l, ValidOrders q.2.m q.2.n ∧ q.2.n.toNat + 1 < fuel := fun q hq => hv q (by simp [hq])
    have hp := hv p (by simp)
    split_ifs with h0 h1
    · exact Fails.bind (row_fails fuel _ _ hp.1 hp.2 a b rs ts r t hr0 ht hr hrs ha h1 hfit S)
    · exact Fails.bind (col_fails fuel _ _ hp.1 hp.2 a b rs ts r t hr0 ht hr hts hb (by omega) hfit S)
    · refine ih hv' ?_
      obtain ⟨q, hq, hne⟩ := hc
      rcases List.mem_cons.1 hq with rfl | hq
      · exact absurd (abs_pos.2 hne) h0
      · exact ⟨q, hq, hne⟩

/-- C108. Which shapes are accepted: for non-empty arrays with all radii in [0, 1] and a coefficient that is not zero, the call returns
exactly for two vectors, for a matrix of radii with as many columns as there are angles and fewer rows, and for a matrix of angles with as many
columns as there are radii and not more rows; every other combination (any numbers of dimensions) raises `ValueError`. -/
theorem surface_shapes_exact (h : List Call) (fuel : Nat) (cs : List ℝ) (os : List PolObj) (hl : cs.length = os.length)
    (hv : PolsOk fuel os) (hc : ∃ c ∈ cs, c ≠ 0) (a b : Nat) (rs ts : List Nat) (r t : List ℝ)
    (ha : 0 < a) (hb : 0 < b) (hrs : ∀ d ∈ rs, 0 < d) (hts : ∀ d ∈ ts, 0 < d) (hrl : r.length = (a :: rs).prod) (htl : t.length = (b :: ts).prod)
    (hr : ∀ x ∈ r, 0 ≤ x ∧ x ≤ 1) :
    ((∃ g, (sumZernikesNd fuel cs (os.map .pol) (a :: rs) r (b :: ts) t (afterCalls h)).1 = .ok g) ↔ ShapesFit a rs b ts) ∧
    (¬ ShapesFit a rs b ts → (sumZernikesNd fuel cs (os.map .pol) (a :: rs) r (b :: ts) t (afterCalls h)).1 = .error .valueError) := by
  have h0 : os ≠ [] := by
    rintro rfl
    obtain ⟨c, hcm, -⟩ := hc
    have : cs = [] := List.length_eq_zero_iff.1 (by simpa using hl)
    simp [this] at hcm
  have hlen : cs.length ≠ 0 := by rw [hl]; simpa using h0
  have prs : 0 < rs.prod := List.prod_pos hrs
  have pts : 0 < ts.prod := List.prod_pos hts
  have hr0 : r ≠ [] := by
    rintro rfl; rw [List.length_nil, List.prod_cons] at hrl; have := Nat.mul_pos ha prs; omega
  have ht : t ≠ [] := by
    rintro rfl; rw [List.length_nil, List.prod_cons] at htl; have := Nat.mul_pos hb pts; omega
  have bad : ¬ ShapesFit a rs b ts → (sumZernikesNd fuel cs (os.map .pol) (a :: rs) r (b :: ts) t (afterCalls h)).1 = .error .valueError := by
    intro hfit
    have hc' : ∃ p ∈ cs.zip os, p.1 ≠ 0 := by
      obtain ⟨c, hcm, hne⟩ := hc
      obtain ⟨i, hi, rfl⟩ := List.getElem_of_mem hcm
      exact ⟨(cs[i], os[i]'(by omega)), by
        rw [List.mem_iff_getElem]
        exact ⟨i, by simp; omega, by simp⟩, hne⟩
    have := sumSurfaceNd_fails fuel a b rs ts r t hr0 ht hr prs pts ha hb hfit (cs.zip os) (pols_zip hv cs) hc' (Grid.zeros a b) _ (afterCalls_good h)
    rw [← zip_pol] at this
    rw [← this]
    unfold sumZernikesNd
    rw [if_neg (by simp [hl]), if_neg hlen]
    rfl
  refine ⟨⟨?_, ?_⟩, bad⟩
  · rintro ⟨g, hg⟩
    by_contra hfit
    rw [bad hfit] at hg
    cases hg
  · rintro (⟨rfl, rfl⟩ | ⟨rfl, rfl, hab⟩ | ⟨rfl, rfl, hab⟩)
    · obtain ⟨g, hg, -⟩ := surface_of_vectors h fuel cs os hl h0 hv r t hr0 ht hr
      rw [show r.length = a by simpa using hrl, show t.length = b by simpa using htl] at hg
      exact ⟨g, hg⟩
    · obtain ⟨g, hg, -⟩ := surface_of_radius_matrix h fuel cs os hl h0 hv a b hab r t (by simpa using hrl) (by simpa using htl) hr
      exact ⟨g, hg⟩
    · obtain ⟨g, hg, -⟩ := surface_of_angle_matrix h fuel cs os hl h0 hv a b ha hab r t (by simpa using hrl) (by simpa using htl) hr
      exact ⟨g, hg⟩

theorem sumSurfaceNd_zero (fuel : Nat) (a b : Nat) (rs ts : List Nat) (r t : List ℝ) (l : List (ℝ × PolObj)) (hc : ∀ p ∈ l, p.1 = 0) (S : Grid) :
    sumSurfaceNd fuel a rs r b ts t (l.map fun p => (p.1, .pol p.2)) S = pure S := by
  induction l with
  | nil => rfl
  | cons p l ih =>
    simp only [List.map_cons, sumSurfaceNd]
    rw [if_neg (by rw [hc p (by simp)]; simp)]
    exact ih fun q hq => hc q (by simp [hq])

/-- C108. If all coefficients are zero, neither the shapes nor the radii are looked at: zeros of the leading lengths are returned, also for
radii outside of the unit disk. -/
theorem surface_all_zero (fuel : Nat) (cs : List ℝ) (os : List PolObj) (hl : cs.length = os.length) (h0 : os ≠ []) (hc : ∀ c ∈ cs, c = 0)
    (a b : Nat) (rs ts : List Nat) (r t : List ℝ) (s : CoefState) :
    sumZernikesNd fuel cs (os.map .pol) (a :: rs) r (b :: ts) t s = (.ok (Grid.zeros a b), s) := by
  have hlen : cs.length ≠ 0 := by rw [hl]; simpa using h0
  have := sumSurfaceNd_zero fuel a b rs ts r t (cs.zip os) (fun p hp => hc _ (List.of_mem_zip (a := p.1) (b := p.2) hp).1) (Grid.zeros a b)
  rw [← zip_pol] at this
  unfold sumZernikesNd
  rw [if_neg (by simp [hl]), if_neg hlen]
  show sumSurfaceNd fuel a rs r b ts t _ _ s = _
  rw [this]; rfl

theorem sumSurfaceNd_foreign (fuel : Nat) (r t : List ℝ) (hr0 : r ≠ []) (ht : t ≠ []) (hr : ∀ x ∈ r, 0 ≤ x ∧ x ≤ 1) (l : List (ℝ × PolObj))
    (hv : ∀ p ∈ l, ValidOrders p.2.m p.2.n ∧ p.2.n.toNat + 1 < fuel) (c : ℝ) (rest : List (ℝ × PolItem)) (S : Grid) :
    Fails (sumSurfaceNd fuel r.length [] r t.length [] t ((l.map fun p => (p.1, .pol p.2)) ++ (c, .other) :: rest) S) .valueError := by
  induction l generalizing S with
  | nil => exact fails_raise _
  | cons p l ih =>
    simp only [List.map_cons, List.cons_append, sumSurfaceNd]
    have hv' : ∀ q ∈ l, ValidOrders q.2.m q.2.n ∧ q.2.n.toNat + 1 < fuel := fun q hq => hv q (by simp [hq])
    have hp := hv p (by simp)
    split_ifs with h0 h1
    · exact RetP.bindFails (addRowsNd_ok fuel p.1 p.2 hp.1 hp.2 [] r _ r.length t.length (fun p _ => r.getD p 0) (fun _ q => t.getD q 0)
        (fun j hj => line_number_vector _ (hr _ (by simp [hj])).1 (hr _ (by simp [hj])).2 _ t rfl ht) _ 0 (by omega) S) fun S' _ => ih hv' S'
    · exact RetP.bindFails (addColsNd_ok fuel p.1 p.2 hp.1 hp.2 _ [] t r.length t.length (fun _ p => r.getD p 0) (fun q _ => t.getD q 0)
        (fun j hj => line_vector_number _ _ r rfl hr0 hr) _ 0 (by omega) S) fun S' _ => ih hv' S'
    · exact ih hv' S

/-- C108. An object that is no polynomial, anywhere in the list and with any coefficient (also zero): `ValueError`. -/
theorem surface_foreign_object (h : List Call) (fuel : Nat) (cs : List ℝ) (os : List PolObj) (rest : List PolItem)
    (hl : cs.length = (os.map PolItem.pol ++ .other :: rest).length) (hv : PolsOk fuel os) (r t : List ℝ) (hr0 : r ≠ []) (ht : t ≠ [])
    (hr : ∀ x ∈ r, 0 ≤ x ∧ x ≤ 1) :
    (sumZernikesNd fuel cs (os.map .pol ++ .other :: rest) [r.length] r [t.length] t (afterCalls h)).1 = .error .valueError := by
  have hlen : cs.length ≠ 0 := by rw [hl]; simp
  obtain ⟨c1, c, c2, rfl, h1⟩ : ∃ (c1 : List ℝ) (c : ℝ) (c2 : List ℝ), cs = c1 ++ c :: c2 ∧ c1.length = os.length := by
    have hlt : os.length < cs.length := by rw [hl]; simp
    exact ⟨cs.take os.length, cs[os.length], cs.drop (os.length + 1), by simp, by simp; omega⟩
  have hz : (c1 ++ c :: c2).zip (os.map PolItem.pol ++ .other :: rest) =
      ((c1.zip os).map fun p => (p.1, PolItem.pol p.2)) ++ (c, .other) :: c2.zip rest := by
    rw [List.zip_append (by simpa using h1), zip_pol]; rfl
  unfold sumZernikesNd
  rw [if_neg (by simpa using hl), if_neg hlen]
  show (sumSurfaceNd fuel r.length [] r t.length [] t _ _ _).1 = _
  rw [hz]
  exact sumSurfaceNd_foreign fuel r t hr0 ht hr _ (pols_zip hv c1) c _ _ _ (afterCalls_good h)

/-- C108. An array without dimensions (`numpy.array(0.5)`) raises `IndexError`. -/
theorem surface_no_dimension (fuel : Nat) (cs : List ℝ) (os : List PolObj) (hl : cs.length = os.length) (h0 : os ≠ []) (rsh tsh : List Nat)
    (hd : rsh = [] ∨ tsh = []) (r t : List ℝ) (s : CoefState) :
    (sumZernikesNd fuel cs (os.map .pol) rsh r tsh t s).1 = .error .indexError := by
  have hlen : cs.length ≠ 0 := by rw [hl]; simpa using h0
  unfold sumZernikesNd
  rw [if_neg (by simp [hl]), if_neg hlen]
  rcases hd with rfl | rfl
  · rfl
  · cases rsh <;> rfl

/-- The matrix of radii is really not a mesh: for tilt on the radii `[[0, 1]]` and the angles `0, 0` the row is `0, 2`; the radii as a
vector would give other rows. -/
example : ∃ g, (sumZernikesNd 100 [1] ([⟨1, 1, false⟩].map .pol) [1, 2] [0, 1] [2] [0, 0] (afterCalls [])).1 = .ok g ∧
    g.rows = 1 ∧ g.cols = 2 ∧ g.entry 0 1 = combination [1] [(1, 1)] 1 0 := by
  obtain ⟨g, h1, h2, h3, h4⟩ := surface_of_radius_matrix [] 100 [1] [⟨1, 1, false⟩] rfl (by simp)
    (by intro o ho; fin_cases ho; exact ⟨by decide, by decide⟩) 1 2 (by norm_num) [0, 1] [0, 0] rfl rfl (by norm_num)
  exact ⟨g, h1, h2, h3, by rw [h4 0 (by norm_num) 1 (by norm_num)]; simp [ordersOf]⟩

/-- The hypotheses of `surface_shapes_exact` are met, with shapes that fit and shapes that do not. -/
example : ShapesFit 1 [2] 2 [] ∧ ¬ ShapesFit 2 [2] 2 [] ∧ ¬ ShapesFit 2 [2] 2 [2] ∧ ShapesFit 3 [] 2 [3] := by
  simp [ShapesFit]

end Verif.Props
