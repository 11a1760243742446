import Verif.Model.Threads
import Verif.Proofs.Methods

/-!
# Threads: every atomic action keeps the shared tables correct, whatever the other threads do
-/

namespace Verif.Proofs
open Verif.Model Verif.Spec Polynomial

/-- All keys of the tables of `s` are in those of `s'`. -/
def KeysLe (s s' : CoefState) : Prop :=
  (∀ k, (s.vals.lookup k).isSome → (s'.vals.lookup k).isSome) ∧ ∀ k, (s.drs.lookup k).isSome → (s'.drs.lookup k).isSome

theorem KeysLe.refl (s : CoefState) : KeysLe s s := ⟨fun _ h => h, fun _ h => h⟩

theorem KeysLe.trans {a b c : CoefState} (h1 : KeysLe a b) (h2 : KeysLe b c) : KeysLe a c :=
  ⟨fun k h => h2.1 k (h1.1 k h), fun k h => h2.2 k (h1.2 k h)⟩

/-- The program, continued at any time after the state was `s0`, with any correct actions of other threads between its own: every action leaves the tables correct
and removes no key; the result satisfies `Q`; there is no exception if `c`. -/
def TrAt {β : Type} (c : Prop) (Q : β → Prop) : Prog β → CoefState → Prop
  | .done (.ok v), _ => Q v
  | .done (.error _), _ => ¬ c
  | .step u k, s0 => ∀ s, Good s → KeysLe s0 s → Good (u s) ∧ KeysLe s (u s) ∧ TrAt c Q (k s) (u s)

/-- The same from any state. -/
def TrT {β : Type} (c : Prop) (x : Prog β) (Q : β → Prop) : Prop := ∀ s0, TrAt c Q x s0

theorem TrAt.later {β : Type} {c : Prop} {Q : β → Prop} {x : Prog β} {s s' : CoefState} (h : TrAt c Q x s) (hl : KeysLe s s') : TrAt c Q x s' := by
  cases x with
  | done r => cases r <;> exact h
  | step u k => exact fun t ht hl' => h t ht (hl.trans hl')

theorem TrAt.bind {β γ : Type} {c : Prop} {x : Prog β} {f : β → Prog γ} {Q : β → Prop} {Q' : γ → Prop} {s : CoefState}
    (h1 : TrAt c Q x s) (h2 : ∀ v, Q v → TrT c (f v) Q') : TrAt c Q' (x.andThen f) s := by
  induction x generalizing s with
  | done r =>
    cases r with
    | ok v => exact h2 v h1 s
    | error e => exact h1
  | step u k ih =>
    intro t ht hl
    obtain ⟨a, b, d⟩ := h1 t ht hl
    exact ⟨a, b, ih t d⟩

theorem TrT.bind {β γ : Type} {c : Prop} {x : Prog β} {f : β → Prog γ} {Q : β → Prop} {Q' : γ → Prop}
    (h1 : TrT c x Q) (h2 : ∀ v, Q v → TrT c (f v) Q') : TrT c (x >>= f) Q' := fun s => (h1 s).bind h2

theorem TrT.pure {β : Type} {c : Prop} {v : β} {Q : β → Prop} (h : Q v) : TrT c (pure v : Prog β) Q := fun _ => h

theorem TrT.lift {β : Type} {c : Prop} {x : Res β} {Q : β → Prop} (h : ∀ v, x = .ok v → Q v) (h' : c → ∃ v, x = .ok v) :
    TrT c (Prog.lift x) Q := by
  intro s
  cases x with
  | ok v => exact h v rfl
  | error e => exact fun hc => by obtain ⟨v, hv⟩ := h' hc; cases hv

theorem TrAt.mono {β : Type} {c c' : Prop} {x : Prog β} {Q Q' : β → Prop} {s : CoefState} (h : TrAt c Q x s) (hc : c' → c)
    (hq : ∀ v, Q v → Q' v) : TrAt c' Q' x s := by
  induction x generalizing s with
  | done r =>
    cases r with
    | ok v => exact hq v h
    | error e => exact fun k => h (hc k)
  | step u k ih => exact fun t ht hl => ⟨(h t ht hl).1, (h t ht hl).2.1, ih t (h t ht hl).2.2⟩

theorem TrT.mono {β : Type} {c c' : Prop} {x : Prog β} {Q Q' : β → Prop} (h : TrT c x Q) (hc : c' → c)
    (hq : ∀ v, Q v → Q' v) : TrT c' x Q' := fun s => (h s).mono hc hq

theorem TrT.raise {β : Type} {c : Prop} {e : PyErr} {Q : β → Prop} (h : ¬ c) : TrT c (Prog.lift (.error e) : Prog β) Q := fun _ => h

theorem TrT.any {β : Type} {x : Res β} : TrT False (Prog.lift x) (fun _ => True) :=
  TrT.lift (fun _ _ => trivial) (fun h => h.elim)

theorem mem_tableSet {k : Int × Int} {d : Coeffs} {t : Table} {e : (Int × Int) × Coeffs} (h : e ∈ tableSet k d t) : e ∈ t ∨ e = (k, d) := by
  unfold tableSet at h
  split at h
  · obtain ⟨x, hx, rfl⟩ := List.mem_map.1 h
    split_ifs
    · exact .inr rfl
    · exact .inl hx
  · simpa using h

theorem lookup_isSome_iff (k : Int × Int) (t : Table) : (t.lookup k).isSome ↔ k ∈ t.map Prod.fst := by
  cases h : t.lookup k with
  | none => simpa using lookup_none _ _ h
  | some d => simpa using ⟨d, lookup_mem _ _ _ h⟩

theorem tableSet_keys (k k' : Int × Int) (d : Coeffs) (t : Table) (h : k' ∈ t.map Prod.fst) : k' ∈ (tableSet k d t).map Prod.fst := by
  unfold tableSet
  split
  · rw [List.map_map]
    obtain ⟨x, hx, rfl⟩ := List.mem_map.1 h
    refine List.mem_map.2 ⟨x, hx, ?_⟩
    simp only [Function.comp]
    split_ifs with e
    · exact e.symm
    · rfl
  · rw [List.map_append]; exact List.mem_append_left _ h

theorem tableSet_isSome (k k' : Int × Int) (d : Coeffs) (t : Table) (h : (t.lookup k').isSome) : ((tableSet k d t).lookup k').isSome := by
  rw [lookup_isSome_iff] at *
  exact tableSet_keys _ _ _ _ h

theorem TrT.hasVal {c : Prop} (k : Int × Int) : TrT c (hasVal k) fun _ => True :=
  fun _ s hs _ => ⟨hs, KeysLe.refl _, trivial⟩

theorem TrT.hasDr {c : Prop} (k : Int × Int) : TrT c (hasDr k) fun _ => True :=
  fun _ s hs _ => ⟨hs, KeysLe.refl _, trivial⟩

theorem TrT.setVal {c : Prop} {m n : Int} {d : Coeffs} (h : ValidOrders m n ∧ CorrectV m n d) : TrT c (setVal (m, n) d) fun _ => True := by
  intro s0 s hs hl
  refine ⟨⟨fun m' n' d' hm => ?_, hs.drs, hs.lru, hs.lruDr, hs.keys⟩, ⟨fun k hk => tableSet_isSome _ _ _ _ hk, fun _ h => h⟩, trivial⟩
  rcases mem_tableSet hm with hm | hm
  · exact hs.vals _ _ _ hm
  · cases hm; exact h

theorem TrT.setDr {c : Prop} {m n : Int} {d : Coeffs} (h : ValidOrders m n ∧ (9 ≤ n → CorrectD m n d)) : TrT c (setDr (m, n) d) fun _ => True := by
  intro s0 s hs hl
  refine ⟨⟨hs.vals, fun m' n' d' hm => ?_, hs.lru, hs.lruDr, fun k hk => tableSet_keys _ _ _ _ (hs.keys k hk)⟩,
    ⟨fun _ h => h, fun k hk => tableSet_isSome _ _ _ _ hk⟩, trivial⟩
  rcases mem_tableSet hm with hm | hm
  · exact hs.drs _ _ _ hm
  · cases hm; exact h

theorem TrT.storeVal {c : Prop} {m n : Int} {d : Coeffs} (h : ValidOrders m n ∧ CorrectV m n d) : TrT c (storeVal (m, n) d) fun _ => True :=
  TrT.bind (TrT.hasVal _) fun b _ => by cases b <;> [exact TrT.setVal h; exact TrT.pure trivial]

theorem TrT.storeDr {c : Prop} {m n : Int} {d : Coeffs} (h : ValidOrders m n ∧ (9 ≤ n → CorrectD m n d)) : TrT c (storeDr (m, n) d) fun _ => True :=
  TrT.bind (TrT.hasDr _) fun b _ => by cases b <;> [exact TrT.setDr h; exact TrT.pure trivial]

/-- The test and the access after it: the key found by the test cannot disappear. -/
theorem TrT.valFound {c : Prop} {m n : Int} {rest : Prog Coeffs} (h : TrT c rest fun d => ValidOrders m n ∧ CorrectV m n d) :
    TrT c (Model.hasVal (m, n) >>= fun b => if b then Model.getVal (m, n) else rest) fun d => ValidOrders m n ∧ CorrectV m n d := by
  intro s0 s hs hl
  refine ⟨hs, KeysLe.refl _, ?_⟩
  show TrAt c _ (if (s.vals.lookup (m, n)).isSome then Model.getVal (m, n) else rest) s
  split_ifs with hk
  · intro t ht hl'
    refine ⟨ht, KeysLe.refl _, ?_⟩
    have := hl'.1 _ hk
    cases hd : t.vals.lookup (m, n) with
    | none => rw [hd] at this; cases this
    | some d =>
      simp only [hd]
      exact ht.vals _ _ _ (lookup_mem _ _ _ hd)
  · exact h _

/-- The same for the derivatives; `rest` starts with the knowledge that the key is not one of the initial ones. -/
theorem TrT.drFound {c : Prop} {m n : Int} {rest : Prog Coeffs}
    (h : (m, n) ∉ initDrs.map Prod.fst → TrT c rest fun d => ValidOrders m n ∧ (9 ≤ n → CorrectD m n d)) :
    TrT c (Model.hasDr (m, n) >>= fun b => if b then Model.getDr (m, n) else rest) fun d => ValidOrders m n ∧ (9 ≤ n → CorrectD m n d) := by
  intro s0 s hs hl
  refine ⟨hs, KeysLe.refl _, ?_⟩
  show TrAt c _ (if (s.drs.lookup (m, n)).isSome then Model.getDr (m, n) else rest) s
  split_ifs with hk
  · intro t ht hl'
    refine ⟨ht, KeysLe.refl _, ?_⟩
    have := hl'.2 _ hk
    cases hd : t.drs.lookup (m, n) with
    | none => rw [hd] at this; cases this
    | some d =>
      simp only [hd]
      exact ht.drs _ _ _ (lookup_mem _ _ _ hd)
  · refine h (fun hi => hk ?_) _
    rw [lookup_isSome_iff]
    exact hs.keys _ hi

theorem TrT.cachedVal {c : Prop} {m n : Int} {b : Bool} {body : Prog Coeffs} (h : TrT c body (fun d => ValidOrders m n ∧ CorrectV m n d)) :
    TrT c (cachedValT ((m, n), b) body) (fun d => ValidOrders m n ∧ CorrectV m n d) := by
  intro s0 s hs hl
  cases hd : s.lru.lookup ((m, n), b) with
  | some d =>
    have hm := lookup_mem _ _ _ hd
    simp only [hd]
    refine ⟨⟨hs.vals, hs.drs, fun m' n' b' d' hm' => ?_, hs.lruDr, hs.keys⟩, KeysLe.refl _, hs.lru _ _ _ _ hm⟩
    rcases mem_lruTouch hm' with e | e
    · cases e; exact hs.lru _ _ _ _ hm
    · exact hs.lru _ _ _ _ e
  | none =>
    simp only [hd]
    refine ⟨hs, KeysLe.refl _, (h s).bind fun d hd => ?_⟩
    intro t0 t ht hl'
    cases hk : t.lru.lookup ((m, n), b) with
    | some d' => simp only [hk]; exact ⟨ht, KeysLe.refl _, hd⟩
    | none =>
      simp only [hk]
      refine ⟨⟨ht.vals, ht.drs, fun m' n' b' d' hm' => ?_, ht.lruDr, ht.keys⟩, KeysLe.refl _, hd⟩
      rcases mem_lruInsert hm' with e | e
      · cases e; exact hd
      · exact ht.lru _ _ _ _ e

theorem TrT.cachedDr {c : Prop} {m n : Int} {b : Bool} {body : Prog Coeffs} (h : TrT c body (fun d => ValidOrders m n ∧ (9 ≤ n → CorrectD m n d))) :
    TrT c (cachedDrT ((m, n), b) body) (fun d => ValidOrders m n ∧ (9 ≤ n → CorrectD m n d)) := by
  intro s0 s hs hl
  cases hd : s.lruDr.lookup ((m, n), b) with
  | some d =>
    have hm := lookup_mem _ _ _ hd
    simp only [hd]
    refine ⟨⟨hs.vals, hs.drs, hs.lru, fun m' n' b' d' hm' => ?_, hs.keys⟩, KeysLe.refl _, hs.lruDr _ _ _ _ hm⟩
    rcases mem_lruTouch hm' with e | e
    · cases e; exact hs.lruDr _ _ _ _ hm
    · exact hs.lruDr _ _ _ _ e
  | none =>
    simp only [hd]
    refine ⟨hs, KeysLe.refl _, (h s).bind fun d hd => ?_⟩
    intro t0 t ht hl'
    cases hk : t.lruDr.lookup ((m, n), b) with
    | some d' => simp only [hk]; exact ⟨ht, KeysLe.refl _, hd⟩
    | none =>
      simp only [hk]
      refine ⟨⟨ht.vals, ht.drs, ht.lru, fun m' n' b' d' hm' => ?_, ht.keys⟩, KeysLe.refl _, hd⟩
      rcases mem_lruInsert hm' with e | e
      · cases e; exact hd
      · exact ht.lruDr _ _ _ _ e

theorem findCoeffsT_tr (fuel : Nat) (b : Bool) (m n : Int) :
    TrT (ValidOrders m n ∧ n.toNat < fuel) (findCoeffsT fuel b m n) (fun d => ValidOrders m n ∧ CorrectV m n d) := by
  induction fuel generalizing b m n with
  | zero => exact TrT.raise (by omega)
  | succ fuel ih =>
    unfold findCoeffsT
    refine TrT.cachedVal (TrT.valFound ?_)
    · skip
      by_cases hv : ValidOrders m n
      · rcases special_val m n hv with ⟨d, e1, e2⟩ | ⟨e1, hne⟩
        · refine TrT.bind (Q := fun o => o = some d) (TrT.lift (fun v h => by rw [e1] at h; cases h; rfl)
            (fun _ => ⟨_, e1⟩)) ?_
          rintro v rfl
          exact TrT.bind (TrT.storeVal ⟨hv, e2⟩) fun _ _ => TrT.pure ⟨hv, e2⟩
        · refine TrT.bind (Q := fun o => o = none) (TrT.lift (fun v h => by rw [e1] at h; cases h; rfl)
            (fun _ => ⟨_, e1⟩)) ?_
          rintro v rfl
          obtain ⟨v1, v2, v3⟩ := valid_down hv hne
          have w3 := (valid_iff _ _).1 v3
          refine TrT.bind ((ih true (pyAbs (m - 1)) (n - 1)).mono (fun h => ⟨valid_pyAbs v1, by omega⟩) fun _ h => h) ?_
          intro p1 c1
          refine TrT.bind ((ih true (m + 1) (n - 1)).mono (fun h => ⟨v2, by omega⟩) fun _ h => h) ?_
          intro p2 c2
          obtain ⟨i1, a1, -⟩ := increase_ok p1 c1.2.1
          obtain ⟨i2, a2, -⟩ := increase_ok p2 c2.2.1
          refine TrT.bind (Q := fun o => o = i1) (TrT.lift (fun v h => by rw [a1] at h; cases h; rfl)
            (fun _ => ⟨_, a1⟩)) ?_
          rintro v rfl
          refine TrT.bind (Q := fun o => o = i2) (TrT.lift (fun v h => by rw [a2] at h; cases h; rfl)
            (fun _ => ⟨_, a2⟩)) ?_
          rintro v rfl
          refine TrT.bind ((ih true m (n - 2)).mono (fun h => ⟨v3, by omega⟩) fun _ h => h) ?_
          intro p3 c3
          obtain ⟨i1', i2', m3, d, f1, f2, f3, f4, f5⟩ := step_val m n hv hne p1 p2 p3 c1.2 c2.2 c3.2
          rw [a1] at f1; cases f1
          rw [a2] at f2; cases f2
          refine TrT.bind (Q := fun o => o = m3) (TrT.lift (fun v h => by rw [f3] at h; cases h; rfl)
            (fun _ => ⟨_, f3⟩)) ?_
          rintro v rfl
          refine TrT.bind (Q := fun o => o = d) (TrT.lift (fun v h => by rw [f4] at h; cases h; rfl)
            (fun _ => ⟨_, f4⟩)) ?_
          rintro v rfl
          exact TrT.bind (TrT.storeVal c1) fun _ _ => TrT.bind (TrT.storeVal c2) fun _ _ => TrT.pure ⟨hv, f5⟩
      · refine TrT.bind (Q := fun o => o = none) (TrT.lift (fun v h => by rw [special_none m n hv] at h; cases h; rfl)
          (fun _ => ⟨_, special_none m n hv⟩)) ?_
        rintro v rfl
        exact TrT.bind ((ih true (pyAbs (m - 1)) (n - 1)).mono (fun h => absurd h.1 hv) fun _ h => h)
          fun p1 c1 => absurd c1.1 (invalid_down hv)

theorem findCoeffsDrT_tr (fuel : Nat) (b : Bool) (m n : Int) :
    TrT (ValidOrders m n ∧ 9 ≤ n ∧ n.toNat < fuel) (findCoeffsDrT fuel b m n)
      (fun d => ValidOrders m n ∧ (9 ≤ n → CorrectD m n d)) := by
  induction fuel generalizing b m n with
  | zero => exact TrT.raise (by omega)
  | succ fuel ih =>
    unfold findCoeffsDrT
    refine TrT.cachedDr (TrT.drFound fun hkey => ?_)
    · skip
      by_cases hv : ValidOrders m n ∧ 9 ≤ n
      · obtain ⟨hv, h9⟩ := hv
        rcases special_dr m n hv h9 with ⟨d, e1, e2⟩ | ⟨e1, hne, hne2⟩
        · refine TrT.bind (Q := fun o => o = some d) (TrT.lift (fun v h => by rw [e1] at h; cases h; rfl)
            (fun _ => ⟨_, e1⟩)) ?_
          rintro v rfl
          exact TrT.bind (TrT.storeDr ⟨hv, fun _ => e2⟩) fun _ _ => TrT.pure ⟨hv, fun _ => e2⟩
        · have h11 : 11 ≤ n := by
            by_contra hc
            exact hkey (initDrs_keys m n hv h9 (by omega) hne hne2)
          refine TrT.bind (Q := fun o => o = none) (TrT.lift (fun v h => by rw [e1] at h; cases h; rfl)
            (fun _ => ⟨_, e1⟩)) ?_
          rintro v rfl
          obtain ⟨v1, v2, v3⟩ := valid_down hv hne
          have w3 := (valid_iff _ _).1 v3
          refine TrT.bind ((findCoeffsT_tr fuel true (pyAbs (m - 1)) (n - 1)).mono (fun h => ⟨valid_pyAbs v1, by omega⟩)
            fun _ h => h) ?_
          intro p1 c1
          refine TrT.bind ((findCoeffsT_tr fuel true (m + 1) (n - 1)).mono (fun h => ⟨v2, by omega⟩) fun _ h => h) ?_
          intro p2 c2
          refine TrT.bind ((ih true (pyAbs (m - 1)) (n - 1)).mono (fun h => ⟨valid_pyAbs v1, by omega, by omega⟩)
            fun _ h => h) ?_
          intro q1 k1
          refine TrT.bind ((ih true (m + 1) (n - 1)).mono (fun h => ⟨v2, by omega, by omega⟩) fun _ h => h) ?_
          intro q2 k2
          obtain ⟨i1, a1, -⟩ := increase_ok q1 (k1.2 (by omega)).1
          obtain ⟨i2, a2, -⟩ := increase_ok q2 (k2.2 (by omega)).1
          refine TrT.bind (Q := fun o => o = i1) (TrT.lift (fun v h => by rw [a1] at h; cases h; rfl)
            (fun _ => ⟨_, a1⟩)) ?_
          rintro v rfl
          refine TrT.bind (Q := fun o => o = i2) (TrT.lift (fun v h => by rw [a2] at h; cases h; rfl)
            (fun _ => ⟨_, a2⟩)) ?_
          rintro v rfl
          refine TrT.bind ((ih true m (n - 2)).mono (fun h => ⟨v3, by omega, by omega⟩) fun _ h => h) ?_
          intro q3 k3
          obtain ⟨i1', i2', m3, d, f1, f2, f3, f4, f5⟩ := step_dr m n hv hne p1 p2 q1 q2 q3 c1.2 c2.2
            (k1.2 (by omega)) (k2.2 (by omega)) (k3.2 (by omega))
          rw [a1] at f1; cases f1
          rw [a2] at f2; cases f2
          refine TrT.bind (Q := fun o => o = m3) (TrT.lift (fun v h => by rw [f3] at h; cases h; rfl)
            (fun _ => ⟨_, f3⟩)) ?_
          rintro v rfl
          refine TrT.bind (Q := fun o => o = d) (TrT.lift (fun v h => by rw [f4] at h; cases h; rfl)
            (fun _ => ⟨_, f4⟩)) ?_
          rintro v rfl
          exact TrT.bind (TrT.storeVal c1) fun _ _ => TrT.bind (TrT.storeVal c2) fun _ _ => TrT.bind (TrT.storeDr k1) fun _ _ =>
            TrT.bind (TrT.storeDr k2) fun _ _ => TrT.pure ⟨hv, fun _ => f5⟩
      by_cases hv' : ValidOrders m n
      swap
      · refine TrT.bind (Q := fun o => o = none) (TrT.lift (fun v h => by rw [special_none_dr m n hv'] at h; cases h; rfl)
          (fun _ => ⟨_, special_none_dr m n hv'⟩)) ?_
        rintro v rfl
        exact TrT.bind ((findCoeffsT_tr fuel true (pyAbs (m - 1)) (n - 1)).mono (fun h => absurd h.1 hv') fun _ h => h)
          fun p1 c1 => absurd c1.1 (invalid_down hv')
      · have h9 : ¬ 9 ≤ n := fun h => hv ⟨hv', h⟩
        refine TrT.mono (c := False) (Q := fun _ => True) ?_ (fun h => hv ⟨h.1, h.2.1⟩) (fun _ _ => ⟨hv', fun h => absurd h h9⟩)
        refine TrT.bind TrT.any fun o _ => ?_
        cases o with
        | some d => exact TrT.bind (TrT.storeDr ⟨hv', fun h => absurd h h9⟩) fun _ _ => TrT.pure trivial
        | none =>
          refine TrT.bind ((findCoeffsT_tr fuel true (pyAbs (m - 1)) (n - 1)).mono (fun h => h.elim) fun _ h => h) ?_
          intro p1 c1
          refine TrT.bind ((findCoeffsT_tr fuel true (m + 1) (n - 1)).mono (fun h => h.elim) fun _ h => h) ?_
          intro p2 c2
          refine TrT.bind ((ih true (pyAbs (m - 1)) (n - 1)).mono (fun h => h.elim) fun _ h => h) ?_
          intro q1 k1
          refine TrT.bind ((ih true (m + 1) (n - 1)).mono (fun h => h.elim) fun _ h => h) ?_
          intro q2 k2
          refine TrT.bind TrT.any fun _ _ => TrT.bind TrT.any fun _ _ => ?_
          refine TrT.bind ((ih true m (n - 2)).mono (fun h => h.elim) fun _ h => h) fun _ _ => ?_
          exact TrT.bind TrT.any fun _ _ => TrT.bind TrT.any fun _ _ => TrT.bind (TrT.storeVal c1) fun _ _ =>
            TrT.bind (TrT.storeVal c2) fun _ _ => TrT.bind (TrT.storeDr k1) fun _ _ => TrT.bind (TrT.storeDr k2) fun _ _ =>
              TrT.pure trivial


section
variable {α : Type} [CommRing α]

theorem radialPolynomialCoeffsT_tr (fuel : Nat) (m n : Int) (r : α) :
    TrT (ValidOrders m n ∧ n.toNat + 1 < fuel) (radialPolynomialCoeffsT fuel m n r)
      (fun v => ValidOrders m n → v = RR m n r) := by
  induction fuel generalizing m n with
  | zero => exact TrT.raise (by omega)
  | succ fuel ih =>
    unfold radialPolynomialCoeffsT
    split_ifs with h40 h1 h0 h2
    · refine TrT.bind ((findCoeffsT_tr fuel false m n).mono (fun h => ⟨h.1, by omega⟩) fun _ h => h) ?_
      intro d hd
      exact TrT.pure fun hv => eval_CorrectV hd.2 r
    · exact TrT.pure fun hv => (RR_diag m n hv h1 r).symm
    · subst h0
      by_cases hv : ValidOrders 0 n
      · have hn := (valid_iff 0 n).1 hv
        have h40' : 40 < n := by simpa [maxRadialOrderCoeffs] using h40
        obtain ⟨v1, v2, v3⟩ := valid_down hv h1
        rw [zero_add] at v2
        refine TrT.bind ((ih 1 (n - 1)).mono (fun h => ⟨v2, by omega⟩) fun _ h => h) ?_
        intro x hx
        refine TrT.bind ((ih 0 (n - 2)).mono (fun h => ⟨v3, by omega⟩) fun _ h => h) ?_
        intro y hy
        exact TrT.pure fun _ => by rw [hx v2, hy v3, RR_zero_rec n hv (by omega)]
      · refine TrT.bind ((ih 1 (n - 1)).mono (fun h => absurd h.1 hv) fun _ h => h) fun x _ => ?_
        refine TrT.bind ((ih 0 (n - 2)).mono (fun h => absurd h.1 hv) fun _ h => h) fun y _ => ?_
        exact TrT.pure fun h => absurd h hv
    · exact TrT.pure fun hv => (RR_subdiag m n hv h2 r).symm
    · by_cases hv : ValidOrders m n
      · have hn := (valid_iff m n).1 hv
        have h40' : 40 < n := by simpa [maxRadialOrderCoeffs] using h40
        obtain ⟨v1, v2, v3⟩ := valid_down hv h1
        refine TrT.bind ((ih (pyAbs (m - 1)) (n - 1)).mono (fun h => ⟨valid_pyAbs v1, by omega⟩) fun _ h => h) ?_
        intro x hx
        refine TrT.bind ((ih (m + 1) (n - 1)).mono (fun h => ⟨v2, by omega⟩) fun _ h => h) ?_
        intro y hy
        refine TrT.bind ((ih m (n - 2)).mono (fun h => ⟨v3, by omega⟩) fun _ h => h) ?_
        intro z hz
        exact TrT.pure fun _ => by rw [hx (valid_pyAbs v1), hy v2, hz v3, RR_abs, RR_rec m n hv h1]
      · refine TrT.bind ((ih (pyAbs (m - 1)) (n - 1)).mono (fun h => absurd h.1 hv) fun _ h => h) fun x _ => ?_
        refine TrT.bind ((ih (m + 1) (n - 1)).mono (fun h => absurd h.1 hv) fun _ h => h) fun y _ => ?_
        refine TrT.bind ((ih m (n - 2)).mono (fun h => absurd h.1 hv) fun _ h => h) fun z _ => ?_
        exact TrT.pure fun h => absurd h hv

theorem radialPolynomialCoeffsDrT_tr (fuel : Nat) (m n : Int) (r : α) :
    TrT (ValidOrders m n ∧ 9 ≤ n ∧ n.toNat + 1 < fuel) (radialPolynomialCoeffsDrT fuel m n r)
      (fun v => ValidOrders m n → 9 ≤ n → v = drVal fuel m n r) := by
  induction fuel generalizing m n with
  | zero => exact TrT.raise (by omega)
  | succ fuel ih =>
    unfold radialPolynomialCoeffsDrT drVal
    rw [show maxRadialOrderCoeffsDr = 38 from rfl]
    split_ifs with h38 h1 h0 h2
    · refine TrT.bind ((findCoeffsDrT_tr fuel false m n).mono (fun h => ⟨h.1, h.2.1, by omega⟩) fun _ h => h) ?_
      intro d hd
      exact TrT.pure fun hv h9 => eval_CorrectD (hd.2 h9) r
    · exact TrT.pure fun hv h9 => (DR_diag m n hv h1 (by omega) r).symm
    · subst h0
      by_cases hv : ValidOrders 0 n ∧ 9 ≤ n
      · obtain ⟨hv, h9⟩ := hv
        have hn := (valid_iff 0 n).1 hv
        obtain ⟨v1, v2, v3⟩ := valid_down hv h1
        rw [zero_add] at v2
        refine TrT.bind ((ih 1 (n - 1)).mono (fun h => ⟨v2, by omega, by omega⟩) fun _ h => h) ?_
        intro x hx
        refine TrT.bind ((ih 1 (n - 1)).mono (fun h => ⟨v2, by omega, by omega⟩) fun _ h => h) ?_
        intro x' hx'
        refine TrT.bind ((ih 0 (n - 2)).mono (fun h => ⟨v3, by omega, by omega⟩) fun _ h => h) ?_
        intro y hy
        exact TrT.pure fun _ _ => by rw [hx v2 (by omega), hx' v2 (by omega), hy v3 (by omega)]
      · refine TrT.bind ((ih 1 (n - 1)).mono (fun h => absurd ⟨h.1, h.2.1⟩ hv) fun _ h => h) fun x _ => ?_
        refine TrT.bind ((ih 1 (n - 1)).mono (fun h => absurd ⟨h.1, h.2.1⟩ hv) fun _ h => h) fun x _ => ?_
        refine TrT.bind ((ih 0 (n - 2)).mono (fun h => absurd ⟨h.1, h.2.1⟩ hv) fun _ h => h) fun y _ => ?_
        exact TrT.pure fun h h9 => absurd ⟨h, h9⟩ hv
    · exact TrT.pure fun hv _ => (DR_subdiag m n hv h2 r).symm
    · by_cases hv : ValidOrders m n ∧ 9 ≤ n
      · obtain ⟨hv, h9⟩ := hv
        have hn := (valid_iff m n).1 hv
        obtain ⟨v1, v2, v3⟩ := valid_down hv h1
        refine TrT.bind ((radialPolynomialCoeffsT_tr fuel (pyAbs (m - 1)) (n - 1) r).mono
          (fun h => ⟨valid_pyAbs v1, by omega⟩) fun _ h => h) ?_
        intro x hx
        refine TrT.bind ((radialPolynomialCoeffsT_tr fuel (m + 1) (n - 1) r).mono (fun h => ⟨v2, by omega⟩) fun _ h => h) ?_
        intro y hy
        refine TrT.bind ((ih (pyAbs (m - 1)) (n - 1)).mono (fun h => ⟨valid_pyAbs v1, by omega, by omega⟩) fun _ h => h) ?_
        intro dx hdx
        refine TrT.bind ((ih (m + 1) (n - 1)).mono (fun h => ⟨v2, by omega, by omega⟩) fun _ h => h) ?_
        intro dy hdy
        refine TrT.bind ((ih m (n - 2)).mono (fun h => ⟨v3, by omega, by omega⟩) fun _ h => h) ?_
        intro dz hdz
        exact TrT.pure fun _ _ => by
          rw [hx (valid_pyAbs v1), hy v2, hdx (valid_pyAbs v1) (by omega), hdy v2 (by omega), hdz v3 (by omega), RR_abs]
      · refine TrT.bind ((radialPolynomialCoeffsT_tr fuel (pyAbs (m - 1)) (n - 1) r).mono (fun h => absurd ⟨h.1, h.2.1⟩ hv)
          fun _ h => h) fun x _ => ?_
        refine TrT.bind ((radialPolynomialCoeffsT_tr fuel (m + 1) (n - 1) r).mono (fun h => absurd ⟨h.1, h.2.1⟩ hv)
          fun _ h => h) fun y _ => ?_
        refine TrT.bind ((ih (pyAbs (m - 1)) (n - 1)).mono (fun h => absurd ⟨h.1, h.2.1⟩ hv) fun _ h => h) fun x _ => ?_
        refine TrT.bind ((ih (m + 1) (n - 1)).mono (fun h => absurd ⟨h.1, h.2.1⟩ hv) fun _ h => h) fun y _ => ?_
        refine TrT.bind ((ih m (n - 2)).mono (fun h => absurd ⟨h.1, h.2.1⟩ hv) fun _ h => h) fun z _ => ?_
        exact TrT.pure fun h h9 => absurd ⟨h, h9⟩ hv


end

end Verif.Proofs
