import Verif.Model.Ordering
import Verif.Props.ZernPol
import Mathlib.Data.List.Sort
import Mathlib.Data.Prod.Lex

/-!
# C107: collections of polynomials: sorting, extremes, membership

Specification: `Upto` (the order by radial, then azimuthal order), `ordersOfPol`.
-/

namespace Verif.Props
open Verif.Model Verif.Spec

/-- The orders `(m, n)` of a polynomial. -/
def ordersOfPol (z : ZernPol) : Int × Int := (z.m, z.n)

/-- `(m, n)` comes before `(m', n')` in the OSA/ANSI pyramid, or is the same. -/
def Upto (a b : Int × Int) : Prop := a.2 < b.2 ∨ (a.2 = b.2 ∧ a.1 ≤ b.1)

/-- A polynomial made by the constructor, with valid orders. -/
def Proper (z : ZernPol) : Prop := Constructed z ∧ ValidOrders z.m z.n

theorem upto_antisymm {a b : Int × Int} (h : Upto a b) (h' : Upto b a) : a = b := by
  unfold Upto at *
  ext <;> omega

theorem notAfter_iff (a b : ZernPol) (ha : Proper a) (hb : Proper b) : notAfter a b = true ↔ Upto (ordersOfPol a) (ordersOfPol b) := by
  have h := comparison_trichotomy_partial a b ha.1 hb.1 ha.2 hb.2
  have hg : b.lt (.zern a) = a.gt (.zern b) := rfl
  unfold notAfter Upto ordersOfPol
  rw [hg]
  have e : a.gt (.zern b) = .ok (decide (a.osa > b.osa)) := rfl
  have hi := h.1
  rw [e] at hi ⊢
  by_cases hc : a.osa > b.osa
  · have := hi.1 (by simp [hc])
    simp only [hc, decide_true, Bool.not_true, Bool.false_eq_true, false_iff]
    omega
  · have : ¬ (b.n < a.n ∨ (b.n = a.n ∧ b.m < a.m)) := fun hx => by
      have := hi.2 hx
      simp [hc] at this
    simp only [hc, decide_false, Bool.not_false, true_iff]
    omega

theorem notAfter_osa (a b : ZernPol) : notAfter a b = decide (a.osa ≤ b.osa) := by
  have e : b.lt (.zern a) = .ok (decide (a.osa > b.osa)) := rfl
  unfold notAfter
  rw [e]
  by_cases h : a.osa ≤ b.osa
  · simp [h]
  · simp [h]; omega

theorem sorted_pairwise (l : List ZernPol) : (pySorted l).Pairwise fun a b => notAfter a b = true := by
  refine List.pairwise_mergeSort ?_ ?_ l
  · intro a b c h1 h2
    simp only [notAfter_osa, decide_eq_true_eq] at *
    omega
  · intro a b
    simp only [notAfter_osa, Bool.or_eq_true, decide_eq_true_eq]
    omega

/-- C107. The operators: `<` is the mirrored `>`, for any two polynomials; `!=` is the opposite of `==`. -/
theorem derived_operators (a b : ZernPol) (ha : Proper a) (hb : Proper b) :
    a.lt (.zern b) = .ok (decide (a.n < b.n ∨ (a.n = b.n ∧ a.m < b.m))) ∧
    a.ne (.zern b) = .ok (decide ¬ (a.m = b.m ∧ a.n = b.n)) := by
  constructor
  · have h := (comparison_trichotomy_partial b a hb.1 ha.1 hb.2 ha.2).1
    have e : a.lt (.zern b) = .ok (decide (b.osa > a.osa)) := rfl
    have e' : b.gt (.zern a) = .ok (decide (b.osa > a.osa)) := rfl
    rw [e'] at h
    rw [e]
    congr 1
    by_cases hc : b.osa > a.osa
    · have := h.1 (by simp [hc])
      simp [hc, this]
    · have : ¬ (a.n < b.n ∨ (a.n = b.n ∧ a.m < b.m)) := fun hx => by
        have := h.2 hx
        simp [hc] at this
      simp [hc, this]
  · unfold ZernPol.ne
    rw [eq_iff_orders a b ha.1 hb.1]
    simp [Except.map]

/-- C107. With an object that is not a polynomial: `z != x`, `x < z` raise `ValueError` as `==` and `>` do (C12), `z < x` and all of `<=`, `>=` raise `TypeError`; polynomials cannot be
put into sets. -/
theorem operators_raise (z : ZernPol) : z.ne .other = .error .valueError ∧ z.otherLt = .error .valueError ∧ z.lt .other = .error .typeError ∧
    (∀ b, z.le b = .error .typeError) ∧ z.hash = .error .typeError ∧ ∀ t, pySet (z :: t) = .error .typeError :=
  ⟨rfl, rfl, rfl, fun _ => rfl, rfl, fun _ => rfl⟩

/-- C107. `sorted(l)` contains the same objects, in the order of the OSA/ANSI pyramid. -/
theorem sorted_in_order (l : List ZernPol) (h : ∀ z ∈ l, Proper z) :
    (pySorted l).Perm l ∧ (pySorted l).Pairwise fun a b => Upto (ordersOfPol a) (ordersOfPol b) := by
  have hp : (pySorted l).Perm l := List.mergeSort_perm l _
  refine ⟨hp, ?_⟩
  refine List.Pairwise.imp_of_mem ?_ (sorted_pairwise l)
  intro a b ha hb hn
  exact (notAfter_iff a b (h a (hp.mem_iff.1 ha)) (h b (hp.mem_iff.1 hb))).1 hn

/-- C107. The sort is stable: equal polynomials (for instance one made by index, one by orders) keep their places relative to each other. -/
theorem sorted_stable (l : List ZernPol) (a b : ZernPol) (he : a.osa = b.osa) (h : [a, b].Sublist l) : [a, b].Sublist (pySorted l) := by
  refine List.pair_sublist_mergeSort ?_ ?_ ?_ h
  · intro a b c h1 h2
    simp only [notAfter_osa, decide_eq_true_eq] at *
    omega
  · intro a b
    simp only [notAfter_osa, Bool.or_eq_true, decide_eq_true_eq]
    omega
  · simp [notAfter_osa, he]

/-- C107. Lists of the same polynomials in any order are sorted to the same list of polynomials. -/
theorem sorted_determined (l l' : List ZernPol) (h : ∀ z ∈ l, Proper z) (h' : ∀ z ∈ l', Proper z) (hp : (l.map ordersOfPol).Perm (l'.map ordersOfPol)) :
    (pySorted l).map ordersOfPol = (pySorted l').map ordersOfPol := by
  obtain ⟨p1, s1⟩ := sorted_in_order l h
  obtain ⟨p2, s2⟩ := sorted_in_order l' h'
  refine List.Perm.eq_of_pairwise (le := Upto) (fun a b _ _ => upto_antisymm) (List.pairwise_map.2 s1) (List.pairwise_map.2 s2) ?_
  exact (p1.map _).trans (hp.trans (p2.map _).symm)

/-- C107. `generate_polynomials(k)` is sorted, and sorting restores it from any shuffle: the same objects at the same places. -/
theorem sorted_restores_generated (k : Int) (h0 : 0 ≤ k) (h1 : k ≤ 54) :
    ∃ g, generatePolynomials k = .ok g ∧ ∀ l : List ZernPol, l.Perm g → pySorted l = g := by
  obtain ⟨g, e, -, hi, -⟩ := generate_polynomials_enumerates k h0 h1
  refine ⟨g, e, fun l hp => ?_⟩
  have hg : g.Pairwise fun a b => notAfter a b = true := by
    rw [List.pairwise_iff_getElem]
    intro i j hi' hj hij
    rw [notAfter_osa, (hi i hi').1, (hi j hj).1, decide_eq_true_eq]
    omega
  refine List.Perm.eq_of_pairwise (le := fun a b => notAfter a b = true) ?_ (sorted_pairwise l) hg ((List.mergeSort_perm l _).trans hp)
  intro a b ha hb hab hba
  have ha' : a ∈ g := hp.mem_iff.1 ((List.mergeSort_perm l _).mem_iff.1 ha)
  obtain ⟨i, hi', rfl⟩ := List.getElem_of_mem ha'
  obtain ⟨j, hj, rfl⟩ := List.getElem_of_mem hb
  rw [notAfter_osa, decide_eq_true_eq, (hi i hi').1, (hi j hj).1] at hab
  rw [notAfter_osa, decide_eq_true_eq, (hi i hi').1, (hi j hj).1] at hba
  have : i = j := by omega
  subst this
  rfl

theorem maxLoop_ok (t : List ZernPol) (top : ZernPol) : ∃ z, maxLoop t top = .ok z ∧ z ∈ top :: t ∧ ∀ w ∈ top :: t, w.osa ≤ z.osa := by
  induction t generalizing top with
  | nil => exact ⟨top, rfl, by simp, by simp⟩
  | cons a t ih =>
    obtain ⟨z, e, hm, hz⟩ := ih (if decide (a.osa > top.osa) then a else top)
    refine ⟨z, e, ?_, ?_⟩
    · rcases List.mem_cons.1 hm with rfl | h
      · split_ifs <;> simp
      · simp [h]
    · have h1 := hz _ (List.mem_cons_self ..)
      intro w hw
      rcases List.mem_cons.1 hw with rfl | hw
      · split_ifs at h1 with hc <;> simp at hc <;> omega
      · rcases List.mem_cons.1 hw with rfl | hw
        · split_ifs at h1 with hc <;> simp at hc <;> omega
        · exact hz w (List.mem_cons_of_mem _ hw)

theorem minLoop_ok (t : List ZernPol) (low : ZernPol) : ∃ z, minLoop t low = .ok z ∧ z ∈ low :: t ∧ ∀ w ∈ low :: t, z.osa ≤ w.osa := by
  induction t generalizing low with
  | nil => exact ⟨low, rfl, by simp, by simp⟩
  | cons a t ih =>
    obtain ⟨z, e, hm, hz⟩ := ih (if decide (low.osa > a.osa) then a else low)
    refine ⟨z, e, ?_, ?_⟩
    · rcases List.mem_cons.1 hm with rfl | h
      · split_ifs <;> simp
      · simp [h]
    · have h1 := hz _ (List.mem_cons_self ..)
      intro w hw
      rcases List.mem_cons.1 hw with rfl | hw
      · split_ifs at h1 with hc <;> simp at hc <;> omega
      · rcases List.mem_cons.1 hw with rfl | hw
        · split_ifs at h1 with hc <;> simp at hc <;> omega
        · exact hz w (List.mem_cons_of_mem _ hw)

theorem upto_of_osa {a b : ZernPol} (ha : Proper a) (hb : Proper b) (h : a.osa ≤ b.osa) : Upto (ordersOfPol a) (ordersOfPol b) :=
  (notAfter_iff a b ha hb).1 (by simp [notAfter_osa, h])

/-- C107. `max` and `min` of a list that is not empty return the last and the first of its polynomials. -/
theorem extremes (l : List ZernPol) (h : ∀ z ∈ l, Proper z) (h0 : l ≠ []) :
    (∃ z ∈ l, pyMax l = .ok z ∧ ∀ w ∈ l, Upto (ordersOfPol w) (ordersOfPol z)) ∧
    ∃ z ∈ l, pyMin l = .ok z ∧ ∀ w ∈ l, Upto (ordersOfPol z) (ordersOfPol w) := by
  obtain ⟨a, t, rfl⟩ := List.exists_cons_of_ne_nil h0
  obtain ⟨z, e, hm, hz⟩ := maxLoop_ok t a
  obtain ⟨y, e', hm', hy⟩ := minLoop_ok t a
  exact ⟨⟨z, hm, e, fun w hw => upto_of_osa (h w hw) (h z hm) (hz w hw)⟩, ⟨y, hm', e', fun w hw => upto_of_osa (h y hm') (h w hw) (hy w hw)⟩⟩

/-- C107. `max` and `min` of an empty list raise `ValueError`. -/
theorem extremes_of_nothing : pyMax [] = .error .valueError ∧ pyMin [] = .error .valueError := ⟨rfl, rfl⟩

/-- C107. `z in l` tells whether the polynomial with the orders of `z` is in the list, however it was made. -/
theorem membership (z : ZernPol) (l : List ZernPol) (hz : Constructed z) (h : ∀ w ∈ l, Constructed w) :
    pyIn z (l.map Operand.zern) = .ok (decide (ordersOfPol z ∈ l.map ordersOfPol)) := by
  induction l with
  | nil => simp [pyIn]
  | cons w t ih =>
    have e := eq_iff_orders w z (h w (by simp)) hz
    have ih := ih fun x hx => h x (List.mem_cons_of_mem _ hx)
    rw [List.map_cons, pyIn]
    simp only [e, bind, Except.bind]
    by_cases hc : w.m = z.m ∧ w.n = z.n
    · have : ordersOfPol z = ordersOfPol w := by unfold ordersOfPol; rw [hc.1, hc.2]
      simp [hc, this, pure, Except.pure]
    · have : ordersOfPol z ≠ ordersOfPol w := by
        unfold ordersOfPol
        intro hx
        rw [Prod.mk.injEq] at hx
        exact hc ⟨hx.1.symm, hx.2.symm⟩
      simp only [hc, decide_false, Bool.false_eq_true, if_false, ih, List.map_cons, List.mem_cons, this, false_or]

/-- C107. An object that is not a polynomial in the list: `z in l` raises `ValueError` unless the polynomial stands before it. -/
theorem membership_mixed (z : ZernPol) (l : List ZernPol) (t : List Operand) (hz : Constructed z) (h : ∀ w ∈ l, Constructed w) :
    pyIn z (l.map Operand.zern ++ .other :: t) = if ordersOfPol z ∈ l.map ordersOfPol then .ok true else .error .valueError := by
  induction l with
  | nil => rfl
  | cons w s ih =>
    have e := eq_iff_orders w z (h w (by simp)) hz
    have ih := ih fun x hx => h x (List.mem_cons_of_mem _ hx)
    rw [List.map_cons, List.cons_append, pyIn]
    simp only [e, bind, Except.bind]
    by_cases hc : w.m = z.m ∧ w.n = z.n
    · have : ordersOfPol z = ordersOfPol w := by unfold ordersOfPol; rw [hc.1, hc.2]
      simp [hc, this, pure, Except.pure]
    · have : ordersOfPol z ≠ ordersOfPol w := by
        unfold ordersOfPol
        intro hx
        rw [Prod.mk.injEq] at hx
        exact hc ⟨hx.1.symm, hx.2.symm⟩
      simp only [hc, decide_false, Bool.false_eq_true, if_false, ih, List.map_cons, List.mem_cons, this, false_or]

/-- With the invalid orders which the constructor accepts (C07) the sorted list depends on the list given: `ZernPol(m=4, n=2)` and `ZernPol(m=-3, n=3)` keep the order in which they
come. -/
theorem sorted_not_determined : ∃ a b, Constructed a ∧ Constructed b ∧ (pySorted [a, b]).map ordersOfPol ≠ (pySorted [b, a]).map ordersOfPol := by
  refine ⟨⟨4, 2, 6, 8, .npInt64 8⟩, ⟨-3, 3, 6, 9, .npInt64 11⟩, ⟨[("n", .int 2), ("m", .int 4)], by decide, by decide⟩,
    ⟨[("n", .int 3), ("m", .int (-3))], by decide, by decide⟩, ?_⟩
  have h : ∀ a b : ZernPol, a.osa ≤ b.osa → pySorted [a, b] = [a, b] := by
    intro a b h
    refine List.mergeSort_of_pairwise ?_
    simp [notAfter_osa, h]
  rw [h _ _ (by decide), h _ _ (by decide)]
  decide

/-- Defocus and the tilts: `ZernPol(osa=4)`, `ZernPol(m=1, n=1)`, `ZernPol(m=-1, n=1)` are proper, sorted to the two tilts and defocus; another object for defocus is found. -/
example : Proper ⟨0, 2, 4, 4, .npInt64 4⟩ ∧ Proper ⟨1, 1, 2, 2, .npInt64 2⟩ ∧ Proper ⟨-1, 1, 1, 3, .npInt64 3⟩ ∧
    pyIn ⟨0, 2, 4, 4, .int 4⟩ [.zern ⟨1, 1, 2, 2, .npInt64 2⟩, .zern ⟨0, 2, 4, 4, .npInt64 4⟩] = .ok true ∧
    pyMax [⟨1, 1, 2, 2, .npInt64 2⟩, ⟨0, 2, 4, 4, .npInt64 4⟩, ⟨-1, 1, 1, 3, .npInt64 3⟩] = .ok ⟨0, 2, 4, 4, .npInt64 4⟩ :=
  ⟨⟨⟨[("osa", .int 4)], by decide, by decide +kernel⟩, by decide⟩, ⟨⟨[("n", .int 1), ("m", .int 1)], by decide, by decide⟩, by decide⟩,
    ⟨⟨[("n", .int 1), ("m", .int (-1))], by decide, by decide⟩, by decide⟩, by decide, by decide⟩

end Verif.Props
