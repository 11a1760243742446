import Verif.Props.Json
import Verif.Model.JsonWarn
import Verif.Spec.JsonFile

/-! # Reading of entries: order, completeness -/

namespace Verif.Proofs

open Verif.Model Verif.Spec

theorem _root_.Verif.Spec.Once.perm {a b : List JsonItem} (h : a.Perm b) : Once a ↔ Once b := (h.filterMap slot).nodup_iff

theorem _root_.Verif.Spec.Once.tail {x : JsonItem} {l : List JsonItem} (h : Once (x :: l)) : Once l := by
  unfold Once at *
  rw [List.filterMap_cons] at h
  split at h
  · exact h
  · exact (List.nodup_cons.1 h).2

theorem _root_.Verif.Spec.Once.head {x : JsonItem} {l : List JsonItem} (h : Once (x :: l)) {i : Quantity} (hx : slot x = some i) : ∀ y ∈ l, slot y ≠ some i := by
  unfold Once at h
  rw [List.filterMap_cons, hx] at h
  intro y hy e
  exact (List.nodup_cons.1 h).1 (List.mem_filterMap.2 ⟨y, hy, e⟩)

theorem readItem_pol (r : ReadState) (x : JsonItem) (hx : slot x = some .polynomials) :
    (∃ e, ∀ r, readItem r x = .error e) ∨
    ∃ (z : Option ZernPol → Option ZernPol) (ps : List ZernPol → List ZernPol) (a : Bool → Bool), ∀ r, readItem r x = .ok { r with obj := { r.obj with zernpol := z r.obj.zernpol, polynomials := ps r.obj.polynomials, airy := a r.obj.airy } } := by
  cases x with
  | polynomial i =>
    rcases hz : zernPolInit [("osa", .int i)] with e | z
    · exact Or.inl ⟨e, fun r => by simp only [readItem, hz]; rfl⟩
    · exact Or.inr ⟨fun _ => some z, id, id, fun r => by simp only [readItem, hz]; rfl⟩
  | polynomials l =>
    by_cases h1 : ∃ i, l = [i]
    · obtain ⟨i, rfl⟩ := h1
      rcases hz : zernPolInit [("osa", .int i)] with e | z
      · exact Or.inl ⟨e, fun r => by simp only [readItem, hz]; rfl⟩
      · exact Or.inr ⟨fun _ => some z, id, fun _ => decide (i = 0), fun r => by simp only [readItem, hz]; rfl⟩
    · have hl : ∀ r, readItem r (.polynomials l) = (do
          let zs ← polsOfOsa l
          pure { r with obj := { r.obj with polynomials := zs, zernpol := none, airy := false } } : Res ReadState) := by
        intro r
        rcases l with _ | ⟨i, _ | ⟨j, l⟩⟩
        · rfl
        · exact absurd ⟨i, rfl⟩ h1
        · rfl
      rcases hz : polsOfOsa l with e | z
      · exact Or.inl ⟨e, fun r => by rw [hl, hz]; rfl⟩
      · exact Or.inr ⟨fun _ => none, fun _ => z, fun _ => false, fun r => by rw [hl, hz]; rfl⟩
  | _ => simp [slot] at hx

/-- Two entries for different quantities can be read in any order. -/
theorem readItem_comm (r : ReadState) (x y : JsonItem) (h : ∀ i, slot x = some i → slot y ≠ some i) :
    (readItem r x).bind (readItem · y) = (readItem r y).bind (readItem · x) := by
  by_cases hx : slot x = some .polynomials
  · have hy := h .polynomials hx
    rcases readItem_pol r x hx with ⟨e, he⟩ | ⟨z, ps, a, he⟩
    · rw [he r]; cases y <;> first | exact absurd rfl hy | exact (he _).symm
    · rw [he r]; cases y <;> first | exact absurd rfl hy | (show _ = readItem _ x; rw [he]; rfl)
  by_cases hy : slot y = some .polynomials
  · rcases readItem_pol r y hy with ⟨e, he⟩ | ⟨z, ps, a, he⟩
    · rw [he r]; cases x <;> first | exact absurd rfl hx | exact he _
    · rw [he r]; cases x <;> first | exact absurd rfl hx | (show readItem _ y = _; rw [he]; rfl)
  cases x <;> cases y <;> first | exact absurd rfl hx | exact absurd rfl hy | exact absurd rfl (h _ rfl) | rfl

/-- The result of the loop: the exception or the variables. -/
def loop (r : ReadState) (doc : List JsonItem) : Res ReadState := match readItems r doc with
  | (.error e, _) => .error e
  | (.ok _, r') => .ok r'

theorem loop_nil (r : ReadState) : loop r [] = .ok r := rfl

theorem loop_cons (r : ReadState) (x : JsonItem) (l : List JsonItem) : loop r (x :: l) = (readItem r x).bind (loop · l) := by
  unfold loop
  rw [show readItems r (x :: l) = match readItem r x with
    | .error e => (.error e, r)
    | .ok r' => readItems r' l from rfl]
  rcases readItem r x with e | r' <;> rfl

theorem loop_perm {a b : List JsonItem} (h : a.Perm b) : Once a → ∀ r, loop r a = loop r b := by
  induction h with
  | nil => exact fun _ _ => rfl
  | cons x _ ih =>
    intro ho r
    rw [loop_cons, loop_cons]
    rcases readItem r x with e | r'
    · rfl
    · exact ih ho.tail r'
  | swap x y l =>
    intro ho r
    simp only [loop_cons]
    have hc := readItem_comm r y x (fun i hi => ho.head hi x (by simp))
    have assoc : ∀ u v : JsonItem, ((readItem r u).bind fun r' => (readItem r' v).bind (loop · l)) = ((readItem r u).bind (readItem · v)).bind (loop · l) := by
      intro u v
      rcases readItem r u with e | r' <;> rfl
    rw [assoc, assoc, hc]
  | trans h1 _ ih1 ih2 => exact fun ho r => (ih1 ho r).trans (ih2 ((Once.perm h1).1 ho) r)

theorem loop_ok_iff (r r' : ReadState) (doc : List JsonItem) : loop r doc = .ok r' ↔ readItems r doc = (.ok (), r') := by
  unfold loop
  rcases readItems r doc with ⟨_ | u, r1⟩ <;> simp

theorem loop_error_iff (r : ReadState) (e : PyErr) (doc : List JsonItem) : loop r doc = .error e ↔ (readItems r doc).1 = .error e := by
  unfold loop
  rcases readItems r doc with ⟨_ | u, r1⟩ <;> simp

/-- A variable `p` is set only by the entries of the quantity `i`. -/
def SetBy {β : Type} (p : ReadState → β) (i : Quantity) : Prop := ∀ r x r', readItem r x = .ok r' → slot x ≠ some i → p r' = p r

theorem loop_keeps {β : Type} {p : ReadState → β} {i : Quantity} (hp : SetBy p i) (doc : List JsonItem) (hd : ∀ y ∈ doc, slot y ≠ some i) :
    ∀ r r', loop r doc = .ok r' → p r' = p r := by
  induction doc with
  | nil => intro r r' h; cases h; rfl
  | cons x l ih =>
    intro r r' h
    rw [loop_cons] at h
    rcases hx : readItem r x with e | r1
    · rw [hx] at h; cases h
    · rw [hx] at h
      exact (ih (fun y hy => hd y (by simp [hy])) r1 r' h).trans (hp r x r1 hx (hd x (by simp)))

/-- The value of a variable is the one set by the only entry. -/
theorem loop_sets {β : Type} {p : ReadState → β} {i : Quantity} (hp : SetBy p i) (doc : List JsonItem) (ho : Once doc) (x : JsonItem) (hx : x ∈ doc)
    (hs : slot x = some i) : ∀ r r', loop r doc = .ok r' → ∃ r1 r2, readItem r1 x = .ok r2 ∧ p r' = p r2 := by
  induction doc with
  | nil => cases hx
  | cons y l ih =>
    intro r r' h
    rw [loop_cons] at h
    rcases hy : readItem r y with e | r1
    · rw [hy] at h; cases h
    · rw [hy] at h
      rcases List.mem_cons.1 hx with rfl | hx
      · exact ⟨r, r1, hy, loop_keeps hp l (ho.head hs) r1 r' h⟩
      · exact ih ho.tail hx r1 r' h

/-- The change made by an entry, for the proofs by cases. -/
theorem setBy_of {β : Type} (p : ReadState → β) (i : Quantity) (hi : i ≠ .polynomials)
    (hc : ∀ r x r', readItem r x = .ok r' → slot x ≠ some i → slot x ≠ some .polynomials → p r' = p r)
    (hpol : ∀ (r : ReadState) z ps a, p { r with obj := { r.obj with zernpol := z, polynomials := ps, airy := a } } = p r) : SetBy p i := by
  intro r x r' h hx
  by_cases h8 : slot x = some .polynomials
  · rcases readItem_pol r x h8 with ⟨e, he⟩ | ⟨z, ps, a, he⟩
    · rw [he] at h; cases h
    · rw [he] at h; cases h; exact hpol _ _ _ _
  · exact hc r x r' h hx h8

macro "set_by" : tactic => `(tactic| (
  refine setBy_of _ _ (by decide) ?_ (fun _ _ _ _ => rfl)
  intro r x r' h hx h8
  cases x <;> first | exact absurd rfl hx | exact absurd rfl h8 | (cases h; rfl)))

theorem set_kernel : SetBy (fun r => r.obj.kernel) .kernel := by set_by
theorem set_size : SetBy (fun r => r.obj.kernelSize) .kernelSize := by set_by
theorem set_nR : SetBy (fun r => r.obj.nR) .pointsR := by set_by
theorem set_nPhi : SetBy (fun r => r.obj.nPhi) .pointsAngle := by set_by
theorem set_na : SetBy (fun r => r.na) .na := by set_by
theorem set_wl : SetBy (fun r => r.wavelen) .wavelength := by set_by
theorem set_ps : SetBy (fun r => r.ps) .pixelSize := by set_by
theorem set_a : SetBy (fun r => r.a) .coefficients := by set_by

/-- The variables not set by any entry. -/
theorem loop_untouched (doc : List JsonItem) : ∀ r r', loop r doc = .ok r' → r'.obj.NA = r.obj.NA ∧ r'.obj.wavelength = r.obj.wavelength ∧
    r'.obj.pixelSize = r.obj.pixelSize ∧ r'.obj.expansionCoeff = r.obj.expansionCoeff ∧ r'.obj.coefficients = r.obj.coefficients ∧
    r'.obj.amplitudes = r.obj.amplitudes ∧ r'.obj.propsSet = r.obj.propsSet := by
  induction doc with
  | nil => intro r r' h; cases h; simp
  | cons x l ih =>
    intro r r' h
    rw [loop_cons] at h
    rcases hx : readItem r x with e | r1
    · rw [hx] at h; cases h
    · rw [hx] at h
      have h1 := ih r1 r' h
      have h2 : r1.obj.NA = r.obj.NA ∧ r1.obj.wavelength = r.obj.wavelength ∧
          r1.obj.pixelSize = r.obj.pixelSize ∧ r1.obj.expansionCoeff = r.obj.expansionCoeff ∧ r1.obj.coefficients = r.obj.coefficients ∧
          r1.obj.amplitudes = r.obj.amplitudes ∧ r1.obj.propsSet = r.obj.propsSet := by
        by_cases h8 : slot x = some .polynomials
        · rcases readItem_pol r x h8 with ⟨e, he⟩ | ⟨z, ps, a, he⟩
          · rw [he] at hx; cases hx
          · rw [he] at hx; cases hx; simp
        · cases x <;> first | exact absurd rfl h8 | (cases hx; simp)
      simp only [h2] at h1
      exact h1

/-- The counted quantities. -/
def counted (x : JsonItem) : Bool := match slot x with
  | some i => decide (i ≠ .polynomials)
  | none => false

theorem loop_count (doc : List JsonItem) : ∀ r r', loop r doc = .ok r' → r'.count = r.count + (doc.filter counted).length := by
  induction doc with
  | nil => intro r r' h; cases h; simp
  | cons x l ih =>
    intro r r' h
    rw [loop_cons] at h
    rcases hx : readItem r x with e | r1
    · rw [hx] at h; cases h
    · rw [hx] at h
      rw [ih r1 r' h]
      by_cases h8 : slot x = some .polynomials
      · have : counted x = false := by simp [counted, h8]
        rw [List.filter_cons, this]
        rcases readItem_pol r x h8 with ⟨e, he⟩ | ⟨z, ps, a, he⟩
        · rw [he] at hx; cases hx
        · rw [he] at hx; cases hx; simp
      · cases x <;> first | exact absurd rfl h8 | (cases hx; simp [List.filter_cons, counted, slot]; try omega)

/-- Eight counted entries: all eight quantities. -/
theorem counted_eight (doc : List JsonItem) (ho : Once doc) : (doc.filter counted).length = 8 ↔ ∀ i : Quantity, i ≠ .polynomials → ∃ x ∈ doc, slot x = some i := by
  have e : (doc.filter counted).length = ((doc.filterMap slot).filter fun i => decide (i ≠ .polynomials)).length := by
    clear ho
    induction doc with
    | nil => rfl
    | cons x l ih =>
      rw [List.filter_cons, List.filterMap_cons]
      rcases hx : slot x with _ | i
      · simp only [counted, hx]; simpa using ih
      · simp only [counted, hx, List.filter_cons]
        by_cases hi : i = .polynomials
        · simp [hi]; simpa using ih
        · simp [hi]; simpa using ih
  have hn : ((doc.filterMap slot).filter fun i => decide (i ≠ .polynomials)).Nodup := ho.filter _
  rw [e, ← List.toFinset_card_of_nodup hn]
  have hsub : ((doc.filterMap slot).filter fun i => decide (i ≠ .polynomials)).toFinset ⊆ Finset.univ.erase Quantity.polynomials := by
    intro i hi
    simp only [List.mem_toFinset, List.mem_filter, decide_eq_true_eq] at hi
    simp [hi.2]
  have hcard : (Finset.univ.erase Quantity.polynomials).card = 8 := by decide
  constructor
  · intro h i hi
    have := Finset.eq_of_subset_of_card_le hsub (by rw [hcard, h])
    have hm : i ∈ ((doc.filterMap slot).filter fun i => decide (i ≠ .polynomials)).toFinset := by rw [this]; simp [hi]
    simp only [List.mem_toFinset, List.mem_filter, List.mem_filterMap] at hm
    exact hm.1
  · intro h
    refine Eq.trans (congrArg Finset.card ?_) hcard
    refine subset_antisymm hsub fun i hi => ?_
    simp only [Finset.mem_erase] at hi
    simp only [List.mem_toFinset, List.mem_filter, List.mem_filterMap, decide_eq_true_eq]
    exact ⟨h i hi.1, hi.1⟩

end Verif.Proofs
