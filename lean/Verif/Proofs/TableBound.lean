import Verif.Proofs.Methods

/-!
# The process-wide tables stay bounded
-/

namespace Verif.Proofs
open Verif.Model Verif.Spec

/-- The tables have distinct keys of bounded orders, the caches are not longer than their size, and so are the dictionaries. -/
structure Bnd (s : CoefState) : Prop where
  vals : (s.vals.map Prod.fst).Nodup ∧ ∀ e ∈ s.vals, e.1.2 ≤ 40 ∧ e.2.length ≤ 41
  drs : (s.drs.map Prod.fst).Nodup ∧ ∀ e ∈ s.drs, e.1.2 ≤ 38 ∧ e.2.length ≤ 39
  lru : s.lru.length ≤ 128 ∧ ∀ e ∈ s.lru, e.2.length ≤ 41
  lruDr : s.lruDr.length ≤ 128 ∧ ∀ e ∈ s.lruDr, e.2.length ≤ 39

/-- `x` keeps the bounds, and its result satisfies `Q`. -/
def KeepQ {β : Type} (x : CM β) (Q : β → Prop) : Prop := ∀ s, Bnd s → Bnd (x s).2 ∧ ∀ v, (x s).1 = .ok v → Q v

theorem KeepQ.bind {β γ : Type} {x : CM β} {f : β → CM γ} {P : β → Prop} {Q : γ → Prop} (h1 : KeepQ x P) (h2 : ∀ v, P v → KeepQ (f v) Q) : KeepQ (x >>= f) Q := by
  intro s hs
  obtain ⟨a, b⟩ := h1 s hs
  show Bnd ((match x s with | (.ok v, s') => f v s' | (.error e, s') => (.error e, s')).2) ∧
    ∀ w, (match x s with | (.ok v, s') => f v s' | (.error e, s') => (.error e, s')).1 = .ok w → Q w
  rcases hx : x s with ⟨r, s'⟩
  rw [hx] at a b
  cases r with
  | error e => exact ⟨a, fun w hw => by cases hw⟩
  | ok v => exact h2 v (b v rfl) s' a

theorem KeepQ.pure {β : Type} {v : β} {Q : β → Prop} (h : Q v) : KeepQ (Pure.pure v : CM β) Q := fun _ hs => ⟨hs, fun w hw => by cases hw; exact h⟩
theorem KeepQ.lift {β : Type} {x : Res β} {Q : β → Prop} (h : ∀ v, x = .ok v → Q v) : KeepQ (CM.lift x) Q := fun _ hs => ⟨hs, h⟩
theorem KeepQ.any {β : Type} (x : Res β) : KeepQ (CM.lift x) fun _ => True := fun _ hs => ⟨hs, fun _ _ => trivial⟩
theorem KeepQ.raise {β : Type} {Q : β → Prop} (e : PyErr) : KeepQ (CM.raise e : CM β) Q := fun _ hs => ⟨hs, fun w hw => by cases hw⟩

/-- `x` keeps the bounds. -/
def Keep {β : Type} (x : CM β) : Prop := KeepQ x fun _ => True

theorem Keep.bindQ {β γ : Type} {x : CM β} {f : β → CM γ} {P : β → Prop} (h1 : KeepQ x P) (h2 : ∀ v, Keep (f v)) : Keep (x >>= f) :=
  KeepQ.bind h1 fun v _ => h2 v

theorem Keep.bind {β γ : Type} {x : CM β} {f : β → CM γ} (h1 : Keep x) (h2 : ∀ v, Keep (f v)) : Keep (x >>= f) :=
  Keep.bindQ h1 h2

theorem Keep.pure {β : Type} (v : β) : Keep (Pure.pure v : CM β) := KeepQ.pure trivial
theorem Keep.lift {β : Type} (x : Res β) : Keep (CM.lift x) := KeepQ.any x
theorem Keep.raise {β : Type} (e : PyErr) : Keep (CM.raise e : CM β) := KeepQ.raise e

theorem lookup_none_not_mem {k : Int × Int} {t : Table} (h : t.lookup k = none) : k ∉ t.map Prod.fst := by
  intro hk
  obtain ⟨e, he, rfl⟩ := List.mem_map.1 hk
  rw [List.lookup_eq_none_iff] at h
  have := h e he
  simp at this

theorem putNew_bnd {k : Int × Int} {d : Coeffs} {t : Table} {P : (Int × Int) × Coeffs → Prop} (hk : P (k, d)) (h : (t.map Prod.fst).Nodup ∧ ∀ e ∈ t, P e) :
    ((putNew k d t).map Prod.fst).Nodup ∧ ∀ e ∈ putNew k d t, P e := by
  unfold putNew
  split
  · exact h
  · rename_i hl
    have hn := lookup_none_not_mem hl
    constructor
    · rw [List.map_append, List.nodup_append]
      refine ⟨h.1, by simp, fun a ha b hb e => ?_⟩
      simp at hb
      rw [e, hb] at ha
      exact hn ha
    · intro e he
      rcases List.mem_append.1 he with he | he
      · exact h.2 e he
      · rw [List.mem_singleton.1 he]; exact hk

theorem KeepQ.putVal {k : Int × Int} {d : Coeffs} (hk : k.2 ≤ 40) (hd : d.length ≤ 41) : Keep (putVal k d) :=
  fun _ hs => ⟨⟨putNew_bnd (P := fun e => e.1.2 ≤ 40 ∧ e.2.length ≤ 41) ⟨hk, hd⟩ hs.vals, hs.drs, hs.lru, hs.lruDr⟩, fun _ _ => trivial⟩

theorem KeepQ.putDr {k : Int × Int} {d : Coeffs} (hk : k.2 ≤ 38) (hd : d.length ≤ 39) : Keep (putDr k d) :=
  fun _ hs => ⟨⟨hs.vals, putNew_bnd (P := fun e => e.1.2 ≤ 38 ∧ e.2.length ≤ 39) ⟨hk, hd⟩ hs.drs, hs.lru, hs.lruDr⟩, fun _ _ => trivial⟩

theorem touch_bnd {k : LruKey} {d : Coeffs} {c : Lru} {N : ℕ} (h : c.lookup k = some d) (hc : c.length ≤ 128 ∧ ∀ e ∈ c, e.2.length ≤ N) :
    ((lruTouch k d c).length ≤ 128 ∧ ∀ e ∈ lruTouch k d c, e.2.length ≤ N) ∧ d.length ≤ N := by
  have hm := lookup_mem _ _ _ h
  refine ⟨⟨?_, fun e he => ?_⟩, hc.2 _ hm⟩
  · unfold lruTouch
    rw [List.length_cons]
    have : (c.filter fun e => e.1 ≠ k).length < c.length :=
      List.length_filter_lt_length_iff_exists.2 ⟨(k, d), hm, by simp⟩
    omega
  · rcases mem_lruTouch he with rfl | he
    · exact hc.2 _ hm
    · exact hc.2 _ he

theorem insert_bnd (k : LruKey) {d : Coeffs} {c : Lru} {N : ℕ} (hd : d.length ≤ N) (hc : ∀ e ∈ c, e.2.length ≤ N) :
    (lruInsert k d c).length ≤ 128 ∧ ∀ e ∈ lruInsert k d c, e.2.length ≤ N := by
  refine ⟨List.length_take_le _ _, fun e he => ?_⟩
  rcases mem_lruInsert he with rfl | he
  · exact hd
  · exact hc _ he

theorem KeepQ.cachedVal {k : LruKey} {body : CM Coeffs} (h : KeepQ body fun d => d.length ≤ 41) : KeepQ (cachedVal k body) fun d => d.length ≤ 41 := by
  intro s hs
  unfold Model.cachedVal
  cases hl : s.lru.lookup k with
  | some d =>
    have := touch_bnd hl hs.lru
    exact ⟨⟨hs.vals, hs.drs, this.1, hs.lruDr⟩, fun w hw => by cases hw; exact this.2⟩
  | none =>
    obtain ⟨a, b⟩ := h s hs
    rcases hx : body s with ⟨r, s'⟩
    rw [hx] at a b
    cases r with
    | error e => exact ⟨a, fun w hw => by cases hw⟩
    | ok d => exact ⟨⟨a.vals, a.drs, insert_bnd k (b d rfl) a.lru.2, a.lruDr⟩, fun w hw => by cases hw; exact b d rfl⟩

theorem KeepQ.cachedDr {k : LruKey} {body : CM Coeffs} (h : KeepQ body fun d => d.length ≤ 39) : KeepQ (cachedDr k body) fun d => d.length ≤ 39 := by
  intro s hs
  unfold Model.cachedDr
  cases hl : s.lruDr.lookup k with
  | some d =>
    have := touch_bnd hl hs.lruDr
    exact ⟨⟨hs.vals, hs.drs, hs.lru, this.1⟩, fun w hw => by cases hw; exact this.2⟩
  | none =>
    obtain ⟨a, b⟩ := h s hs
    rcases hx : body s with ⟨r, s'⟩
    rw [hx] at a b
    cases r with
    | error e => exact ⟨a, fun w hw => by cases hw⟩
    | ok d => exact ⟨⟨a.vals, a.drs, a.lru, insert_bnd k (b d rfl) a.lruDr.2⟩, fun w hw => by cases hw; exact b d rfl⟩

theorem makeLoop_length {N : Int} {b : Bool} : ∀ (l : List (Int × Int)) (acc d : Coeffs), makeLoop N b l acc = .ok d → d.length = acc.length := by
  intro l
  induction l with
  | nil => intro acc d h; cases h; rfl
  | cons x l ih =>
    intro acc d h
    obtain ⟨k, v⟩ := x
    unfold makeLoop at h
    split_ifs at h <;> rw [ih _ _ h, List.length_set]

theorem make_length {l : List (Int × Int)} {N : Int} {b : Bool} {d : Coeffs} (h : makeOrdersCoeffs l N b = .ok d) : d.length = (N + 1).toNat := by
  rw [makeLoop_length _ _ _ h, List.length_replicate]

theorem sumLoop_length : ∀ (l : List (Int × Int)) (acc d : Coeffs), sumLoop l acc = .ok d → d.length = acc.length := by
  intro l
  induction l with
  | nil => intro acc d h; cases h; rfl
  | cons x l ih =>
    intro acc d h
    obtain ⟨k, v⟩ := x
    unfold sumLoop at h
    split_ifs at h
    rw [ih _ _ h, List.length_set]

theorem sumArgs_length : ∀ (l : List Coeffs) (acc d : Coeffs), sumArgs l acc = .ok d → d.length = acc.length := by
  intro l
  induction l with
  | nil => intro acc d h; cases h; rfl
  | cons x l ih =>
    intro acc d h
    unfold sumArgs at h
    cases hs : sumLoop (itemsFrom 0 x) acc with
    | error e => rw [hs] at h; cases h
    | ok a =>
      rw [hs] at h
      rw [ih _ _ h, sumLoop_length _ _ _ hs]

theorem sum_length {N : Int} {l : List Coeffs} {d : Coeffs} (h : sumOrdersCoeffs N l = .ok d) : d.length ≤ (N + 1).toNat := by
  unfold sumOrdersCoeffs at h
  cases hs : sumArgs l (List.replicate (N + 1).toNat 0) with
  | error e => rw [hs] at h; cases h
  | ok a =>
    rw [hs] at h
    have hl := sumArgs_length _ _ _ hs
    rw [List.length_replicate] at hl
    change (if N < 0 then Except.error PyErr.keyError else if a.getD N.toNat 0 = 0 then .ok (a.take N.toNat) else .ok a) = .ok d at h
    split_ifs at h
    · cases h; rw [List.length_take]; omega
    · cases h; omega

theorem special_length {m n : Int} {d : Coeffs} (h : checkSpecialOrders m n = .ok (some d)) : d.length ≤ (n + 1).toNat := by
  unfold checkSpecialOrders at h
  split_ifs at h
  all_goals first
    | (cases hm : makeOrdersCoeffs [(n, 1)] n false with
      | error e => rw [hm] at h; cases h
      | ok a => rw [hm] at h; cases h; rw [make_length hm])
    | (cases hm : makeOrdersCoeffs [(n, n), (n - 2, -(n - 1))] n false with
      | error e => rw [hm] at h; cases h
      | ok a => rw [hm] at h; cases h; rw [make_length hm])
    | (cases h)

theorem special_length_dr {m n : Int} {d : Coeffs} (h : checkSpecialOrdersDr m n = .ok (some d)) : d.length ≤ n.toNat := by
  unfold checkSpecialOrdersDr at h
  split_ifs at h
  all_goals first
    | (cases hm : makeOrdersCoeffs [(n - 1, n)] (n - 1) false with
      | error e => rw [hm] at h; cases h
      | ok a => rw [hm] at h; cases h; rw [make_length hm]; omega)
    | (cases hm : makeOrdersCoeffs [(n - 1, n * n), (n - 3, -(n - 1) * (n - 2))] (n - 1) false with
      | error e => rw [hm] at h; cases h
      | ok a => rw [hm] at h; cases h; rw [make_length hm]; omega)
    | (cases h)

theorem keep_findCoeffs (fuel : Nat) : ∀ (e : Bool) (m n : Int), n ≤ 40 → KeepQ (findCoeffs fuel e m n) fun d => d.length ≤ 41 := by
  induction fuel with
  | zero => intro e m n _; exact KeepQ.raise _
  | succ fuel ih =>
    intro e m n hn
    unfold findCoeffs
    refine KeepQ.cachedVal fun s hs => ?_
    split
    · rename_i d hl
      exact ⟨hs, fun w hw => by cases hw; exact (hs.vals.2 _ (lookup_mem _ _ _ hl)).2⟩
    · refine KeepQ.bind (P := fun o => ∀ d, o = some d → d.length ≤ 41) (KeepQ.lift fun o ho d hd => ?_) (fun o ho => ?_) s hs
      · rw [hd] at ho
        have := special_length ho
        omega
      · cases o with
        | some d => exact KeepQ.bind (KeepQ.putVal hn (ho d rfl)) fun _ _ => KeepQ.pure (ho d rfl)
        | none =>
          refine KeepQ.bind (ih _ _ _ (by omega)) fun p1 q1 => KeepQ.bind (ih _ _ _ (by omega)) fun p2 q2 => KeepQ.bind (KeepQ.any _) fun i1 _ =>
            KeepQ.bind (KeepQ.any _) fun i2 _ => KeepQ.bind (ih _ _ _ (by omega)) fun p3 _ => KeepQ.bind (KeepQ.any _) fun m3 _ =>
            KeepQ.bind (P := fun d => d.length ≤ 41) (KeepQ.lift fun d hd => ?_) fun d hd => KeepQ.bind (KeepQ.putVal ?_ q1) fun _ _ =>
            KeepQ.bind (KeepQ.putVal ?_ q2) fun _ _ => KeepQ.pure hd
          · have := sum_length hd
            omega
          · simp only; omega
          · simp only; omega

theorem keep_findCoeffsDr (fuel : Nat) : ∀ (e : Bool) (m n : Int), n ≤ 38 → KeepQ (findCoeffsDr fuel e m n) fun d => d.length ≤ 39 := by
  induction fuel with
  | zero => intro e m n _; exact KeepQ.raise _
  | succ fuel ih =>
    intro e m n hn
    unfold findCoeffsDr
    refine KeepQ.cachedDr fun s hs => ?_
    split
    · rename_i d hl
      exact ⟨hs, fun w hw => by cases hw; exact (hs.drs.2 _ (lookup_mem _ _ _ hl)).2⟩
    · refine KeepQ.bind (P := fun o => ∀ d, o = some d → d.length ≤ 39) (KeepQ.lift fun o ho d hd => ?_) (fun o ho => ?_) s hs
      · rw [hd] at ho
        have := special_length_dr ho
        omega
      · cases o with
        | some d => exact KeepQ.bind (KeepQ.putDr hn (ho d rfl)) fun _ _ => KeepQ.pure (ho d rfl)
        | none =>
          refine KeepQ.bind (keep_findCoeffs fuel _ _ _ (by omega)) fun p1 q1 => KeepQ.bind (keep_findCoeffs fuel _ _ _ (by omega)) fun p2 q2 =>
            KeepQ.bind (ih _ _ _ (by omega)) fun d1 w1 => KeepQ.bind (ih _ _ _ (by omega)) fun d2 w2 => KeepQ.bind (KeepQ.any _) fun i1 _ =>
            KeepQ.bind (KeepQ.any _) fun i2 _ => KeepQ.bind (ih _ _ _ (by omega)) fun d3 _ => KeepQ.bind (KeepQ.any _) fun m3 _ =>
            KeepQ.bind (P := fun d => d.length ≤ 39) (KeepQ.lift fun d hd => ?_) fun d hd => KeepQ.bind (KeepQ.putVal ?_ q1) fun _ _ =>
            KeepQ.bind (KeepQ.putVal ?_ q2) fun _ _ => KeepQ.bind (KeepQ.putDr ?_ w1) fun _ _ => KeepQ.bind (KeepQ.putDr ?_ w2) fun _ _ => KeepQ.pure hd
          · have := sum_length hd
            omega
          all_goals (simp only; omega)

section
variable {α : Type} [Zero α] [One α] [Add α] [Sub α] [Mul α] [NatCast α] [IntCast α] [Pow α ℕ]

theorem keep_radialPolynomialCoeffs (fuel : Nat) : ∀ (m n : Int) (r : α), Keep (radialPolynomialCoeffs fuel m n r) := by
  induction fuel with
  | zero => intro m n r; exact Keep.raise _
  | succ fuel ih =>
    intro m n r
    unfold radialPolynomialCoeffs
    split_ifs with h
    · exact Keep.bindQ (keep_findCoeffs _ _ _ _ h) fun _ => Keep.pure _
    · exact Keep.pure _
    · exact Keep.bind (ih _ _ _) fun _ => Keep.bind (ih _ _ _) fun _ => Keep.pure _
    · exact Keep.pure _
    · exact Keep.bind (ih _ _ _) fun _ => Keep.bind (ih _ _ _) fun _ => Keep.bind (ih _ _ _) fun _ => Keep.pure _

theorem keep_radialPolynomialCoeffsDr (fuel : Nat) : ∀ (m n : Int) (r : α), Keep (radialPolynomialCoeffsDr fuel m n r) := by
  induction fuel with
  | zero => intro m n r; exact Keep.raise _
  | succ fuel ih =>
    intro m n r
    unfold radialPolynomialCoeffsDr
    split_ifs with h
    · exact Keep.bindQ (keep_findCoeffsDr _ _ _ _ h) fun _ => Keep.pure _
    · exact Keep.pure _
    · exact Keep.bind (ih _ _ _) fun _ => Keep.bind (ih _ _ _) fun _ => Keep.bind (ih _ _ _) fun _ => Keep.pure _
    · exact Keep.pure _
    · exact Keep.bind (keep_radialPolynomialCoeffs _ _ _ _) fun _ => Keep.bind (keep_radialPolynomialCoeffs _ _ _ _) fun _ =>
        Keep.bind (ih _ _ _) fun _ => Keep.bind (ih _ _ _) fun _ => Keep.bind (ih _ _ _) fun _ => Keep.pure _

variable [OfRat α]

theorem keep_radialValue (fuel : Nat) (exact : Bool) (m n : Int) (r : α) : Keep (radialValue fuel exact m n r) := by
  unfold radialValue
  split_ifs
  · exact Keep.lift _
  · exact keep_radialPolynomialCoeffs _ _ _ _
  · exact Keep.pure _
  · exact Keep.lift _

theorem keep_radialDrValue (fuel : Nat) (exact : Bool) (m n : Int) (r : α) : Keep (radialDrValue fuel exact m n r) := by
  unfold radialDrValue
  split_ifs
  · exact Keep.lift _
  · exact keep_radialPolynomialCoeffsDr _ _ _ _
  · exact Keep.pure _
  · exact Keep.lift _

end

theorem keep_evalNum (f : (α : Type) → [CommRing α] → [Algebra ℚ α] → α → CM α) (hf : ∀ (α : Type) [CommRing α] [Algebra ℚ α] (r : α), Keep (f α r)) (x : Num) :
    Keep (evalNum f x) := by
  cases x with
  | scalar x => exact Keep.bind (hf ℝ x) fun _ => Keep.pure _
  | array sh d => exact Keep.bind (hf _ _) fun _ => Keep.pure _

theorem keep_radial (fuel : Nat) (o : PolObj) (r : Arg) (exact : Bool) (s : CoefState) (hs : Bnd s) : Bnd (Model.radial fuel o r exact s).st := by
  unfold Model.radial
  split
  · exact hs
  · exact (keep_evalNum _ (fun α _ _ r => keep_radialValue _ _ _ _ _) _ _ hs).1

theorem keep_radialDr (fuel : Nat) (o : PolObj) (r : Arg) (exact : Bool) (s : CoefState) (hs : Bnd s) : Bnd (Model.radialDr fuel o r exact s).st := by
  unfold Model.radialDr
  split
  · exact hs
  · exact (keep_evalNum _ (fun α _ _ r => keep_radialDrValue _ _ _ _ _) _ _ hs).1

theorem keep_value (fuel : Nat) (o : PolObj) (r theta : Arg) (exact : Bool) (s : CoefState) (hs : Bnd s) : Bnd (polynomialValue fuel o r theta exact s).st := by
  unfold polynomialValue
  split
  · exact hs
  · split
    · exact hs
    · dsimp only
      split_ifs
      · exact hs
      · exact hs
      · exact (keep_evalNum _ (fun α _ _ r => keep_radialValue _ _ _ _ _) _ _ hs).1

theorem bnd_init : Bnd initState := by
  refine ⟨⟨by decide, by decide⟩, ⟨by decide, by decide⟩, ⟨by decide, by simp [initState]⟩, ⟨by decide, by simp [initState]⟩⟩

/-! ### The number of keys -/

/-- The pairs of orders up to `N`. -/
def orderPairs : ℕ → List (Int × Int)
  | 0 => [(0, 0)]
  | N + 1 => orderPairs N ++ (List.range (N + 2)).map fun k : ℕ => (2 * (k : Int) - (N + 1), (N : Int) + 1)

theorem mem_orderPairs (m n : Int) (hv : ValidOrders m n) (N : ℕ) (hn : n ≤ N) : (m, n) ∈ orderPairs N := by
  obtain ⟨h1, h2, h3, h4⟩ := (valid_iff m n).1 hv
  induction N with
  | zero =>
    have e1 : n = 0 := by push_cast at hn; omega
    have e2 : m = 0 := by omega
    subst e1; subst e2; exact List.mem_singleton.2 rfl
  | succ N ih =>
    unfold orderPairs
    by_cases h : n ≤ N
    · exact List.mem_append_left _ (ih h)
    · refine List.mem_append_right _ (List.mem_map.2 ⟨((m + n) / 2).toNat, ?_, ?_⟩)
      · rw [List.mem_range]; push_cast at hn; omega
      · push_cast at hn
        ext <;> simp only <;> omega

theorem length_orderPairs (N : ℕ) : 2 * (orderPairs N).length = (N + 1) * (N + 2) := by
  induction N with
  | zero => rfl
  | succ N ih =>
    unfold orderPairs
    rw [List.length_append, List.length_map, List.length_range]
    linarith

theorem table_length {t : Table} {N : ℕ} (h : (t.map Prod.fst).Nodup ∧ ∀ k ∈ t.map Prod.fst, k.2 ≤ (N : Int)) (hv : ∀ k ∈ t.map Prod.fst, ValidOrders k.1 k.2) :
    2 * t.length ≤ (N + 1) * (N + 2) := by
  have hsub : t.map Prod.fst ⊆ orderPairs N := fun k hk => mem_orderPairs k.1 k.2 (hv k hk) N (h.2 k hk)
  have := (h.1.subperm hsub).length_le
  rw [List.length_map] at this
  have := length_orderPairs N
  omega

end Verif.Proofs
