import Verif.Model.TestTables
import Verif.Proofs.Coeffs

/-!
# The invariant of the tables of the test mode

The proofs of `Verif/Proofs/Coeffs.lean`, with the initial tables of the test mode, whose lowest orders are 7 and 8 instead of 9 and 10.
-/

namespace Verif.Proofs.TestMode
open Verif.Spec Verif.Model Verif.Proofs Finset Polynomial

theorem special_dr (m n : Int) (hv : ValidOrders m n) (hn7 : 7 ≤ n) :
    (∃ d, checkSpecialOrdersDr m n = .ok (some d) ∧ CorrectD m n d) ∨
      (checkSpecialOrdersDr m n = .ok none ∧ pyAbs m ≠ n ∧ pyAbs m ≠ n - 2) := by
  have hn := (valid_iff m n).1 hv
  unfold checkSpecialOrdersDr
  split_ifs with h1 h2
  · left
    obtain ⟨d, e1, e2, e3⟩ := make_single (n - 1) (n - 1) n (by omega) le_rfl
    refine ⟨d, by rw [e1]; rfl, ?_, by omega, fun i => ?_⟩
    · intro h; rw [h] at e2; simp at e2; omega
    · rw [e3]; unfold RP; rw [RR_diag m n hv h1, derivative_X_pow, coeff_C_mul, coeff_X_pow]
      by_cases h : (i : Int) = n - 1
      · rw [if_pos h, if_pos (by omega)]; simp; omega
      · rw [if_neg h, if_neg (by omega)]; simp
  · left
    obtain ⟨d, e1, e2, e3⟩ := make_pair (n - 1) (n - 1) (n * n) (n - 3) (-(n - 1) * (n - 2)) (by omega) le_rfl (by omega)
      (by omega) (by omega)
    refine ⟨d, by rw [e1]; rfl, ?_, by omega, fun i => ?_⟩
    · intro h; rw [h] at e2; simp at e2; omega
    · rw [e3]; unfold RP; rw [RR_subdiag m n hv h2, derivative_sub, derivative_mul, derivative_mul, derivative_intCast,
        derivative_intCast, derivative_X_pow, derivative_X_pow]
      rw [zero_mul, zero_mul, zero_add, zero_add, coeff_sub, ← Polynomial.C_eq_intCast, ← Polynomial.C_eq_intCast,
        coeff_C_mul, coeff_C_mul, coeff_C_mul, coeff_C_mul, coeff_X_pow, coeff_X_pow]
      have q1 : ((i : Int) = n - 1) ↔ i = n.toNat - 1 := by omega
      have q2 : ((i : Int) = n - 3) ↔ i = (n - 2).toNat - 1 := by omega
      have q3 : ((n.toNat : Nat) : Int) = n := by omega
      have q4 : (((n - 2).toNat : Nat) : Int) = n - 2 := by omega
      simp only [q1, q2, mul_ite, mul_one, mul_zero, Int.cast_id, q3, q4]
      split_ifs <;> ring
  · right; exact ⟨rfl, h1, h2⟩
/-- Every stored dictionary is correct. -/
structure Good (s : CoefState) : Prop where
  vals : ∀ m n d, ((m, n), d) ∈ s.vals → ValidOrders m n ∧ CorrectV m n d
  drs : ∀ m n d, ((m, n), d) ∈ s.drs → ValidOrders m n ∧ (7 ≤ n → CorrectD m n d)
  lru : ∀ m n b d, (((m, n), b), d) ∈ s.lru → ValidOrders m n ∧ CorrectV m n d
  lruDr : ∀ m n b d, (((m, n), b), d) ∈ s.lruDr → ValidOrders m n ∧ (7 ≤ n → CorrectD m n d)
  keys : ∀ k ∈ testDrs.map Prod.fst, k ∈ s.drs.map Prod.fst

/-- From good states, `x` ends in a good state, its result satisfies `Q`, and it succeeds if `c`. -/
def Tr {β : Type} (c : Prop) (x : CM β) (Q : β → Prop) : Prop :=
  ∀ s, Good s → Good (x s).2 ∧ (∀ v, (x s).1 = .ok v → Q v) ∧ (c → ∃ v, (x s).1 = .ok v)

theorem Tr.app {β : Type} {c : Prop} {x : CM β} {Q : β → Prop} (s : CoefState) (hs : Good s) (h : Tr c x Q) :
    Good (x s).2 ∧ (∀ v, (x s).1 = .ok v → Q v) ∧ (c → ∃ v, (x s).1 = .ok v) := h s hs

theorem Tr.bind {β γ : Type} {c : Prop} {x : CM β} {f : β → CM γ} {Q : β → Prop} {Q' : γ → Prop}
    (h1 : Tr c x Q) (h2 : ∀ v, Q v → Tr c (f v) Q') : Tr c (x >>= f) Q' := by
  intro s hs
  obtain ⟨a1, a2, a3⟩ := h1 s hs
  show Good ((match x s with | (.ok v, s') => f v s' | (.error e, s') => (.error e, s')).2) ∧ _
  change _ ∧ (∀ v, (match x s with | (.ok v, s') => f v s' | (.error e, s') => (.error e, s')).1 = .ok v → Q' v) ∧
    (c → ∃ v, (match x s with | (.ok v, s') => f v s' | (.error e, s') => (.error e, s')).1 = .ok v)
  rcases hx : x s with ⟨r, s'⟩
  rw [hx] at a1 a2 a3
  cases r with
  | error e => exact ⟨a1, fun v hv => by simp at hv, fun hc => by obtain ⟨v, hv⟩ := a3 hc; simp at hv⟩
  | ok v => exact h2 v (a2 v rfl) s' a1

theorem Tr.pure {β : Type} {c : Prop} {v : β} {Q : β → Prop} (h : Q v) : Tr c (pure v : CM β) Q :=
  fun s hs => ⟨hs, fun w hw => by cases hw; exact h, fun _ => ⟨v, rfl⟩⟩

theorem Tr.lift {β : Type} {c : Prop} {x : Res β} {Q : β → Prop} (h : ∀ v, x = .ok v → Q v) (h' : c → ∃ v, x = .ok v) :
    Tr c (CM.lift x) Q := fun _ hs => ⟨hs, h, h'⟩

theorem Tr.mono {β : Type} {c c' : Prop} {x : CM β} {Q Q' : β → Prop} (h : Tr c x Q) (hc : c' → c)
    (hq : ∀ v, Q v → Q' v) : Tr c' x Q' := fun s hs =>
  ⟨(h s hs).1, fun v hv => hq v ((h s hs).2.1 v hv), fun k => (h s hs).2.2 (hc k)⟩

theorem Tr.raise {β : Type} {c : Prop} {e : PyErr} {Q : β → Prop} (h : ¬ c) : Tr c (CM.raise e : CM β) Q :=
  fun _ hs => ⟨hs, fun v hv => (by simp [CM.raise] at hv), fun k => absurd k h⟩

theorem Tr.putVal {c : Prop} {m n : Int} {d : Coeffs} (h : ValidOrders m n ∧ CorrectV m n d) :
    Tr c (putVal (m, n) d) (fun _ => True) := by
  intro s hs
  refine ⟨⟨fun m' n' d' hm => ?_, hs.drs, hs.lru, hs.lruDr, hs.keys⟩, fun _ _ => trivial, fun _ => ⟨_, rfl⟩⟩
  rcases mem_putNew hm with hm | hm
  · exact hs.vals _ _ _ hm
  · cases hm; exact h

theorem Tr.putDr {c : Prop} {m n : Int} {d : Coeffs} (h : ValidOrders m n ∧ (7 ≤ n → CorrectD m n d)) :
    Tr c (putDr (m, n) d) (fun _ => True) := by
  intro s hs
  refine ⟨⟨hs.vals, fun m' n' d' hm => ?_, hs.lru, hs.lruDr, fun k hk => keys_putNew (hs.keys k hk)⟩,
    fun _ _ => trivial, fun _ => ⟨_, rfl⟩⟩
  rcases mem_putNew hm with hm | hm
  · exact hs.drs _ _ _ hm
  · cases hm; exact h

theorem Tr.cachedVal {c : Prop} {m n : Int} {b : Bool} {body : CM Coeffs}
    (h : Tr c body (fun d => ValidOrders m n ∧ CorrectV m n d)) :
    Tr c (cachedVal ((m, n), b) body) (fun d => ValidOrders m n ∧ CorrectV m n d) := by
  intro s hs
  unfold Model.cachedVal
  cases hl : s.lru.lookup ((m, n), b) with
  | some d =>
    have hm := lookup_mem _ _ _ hl
    refine ⟨⟨hs.vals, hs.drs, fun m' n' b' d' hm' => ?_, hs.lruDr, hs.keys⟩, fun v hv => ?_, fun _ => ⟨d, rfl⟩⟩
    · rcases mem_lruTouch hm' with e | e
      · cases e; exact hs.lru _ _ _ _ hm
      · exact hs.lru _ _ _ _ e
    · cases hv; exact hs.lru _ _ _ _ hm
  | none =>
    obtain ⟨a1, a2, a3⟩ := h s hs
    rcases hx : body s with ⟨r, s'⟩
    rw [hx] at a1 a2 a3
    cases r with
    | error e => exact ⟨a1, fun v hv => by simp at hv, fun hc => by obtain ⟨v, hv⟩ := a3 hc; simp at hv⟩
    | ok d =>
      refine ⟨⟨a1.vals, a1.drs, fun m' n' b' d' hm' => ?_, a1.lruDr, a1.keys⟩, fun v hv => ?_, fun _ => ⟨d, rfl⟩⟩
      · rcases mem_lruInsert hm' with e | e
        · cases e; exact a2 d rfl
        · exact a1.lru _ _ _ _ e
      · cases hv; exact a2 d rfl

theorem Tr.cachedDr {c : Prop} {m n : Int} {b : Bool} {body : CM Coeffs}
    (h : Tr c body (fun d => ValidOrders m n ∧ (7 ≤ n → CorrectD m n d))) :
    Tr c (cachedDr ((m, n), b) body) (fun d => ValidOrders m n ∧ (7 ≤ n → CorrectD m n d)) := by
  intro s hs
  unfold Model.cachedDr
  cases hl : s.lruDr.lookup ((m, n), b) with
  | some d =>
    have hm := lookup_mem _ _ _ hl
    refine ⟨⟨hs.vals, hs.drs, hs.lru, fun m' n' b' d' hm' => ?_, hs.keys⟩, fun v hv => ?_, fun _ => ⟨d, rfl⟩⟩
    · rcases mem_lruTouch hm' with e | e
      · cases e; exact hs.lruDr _ _ _ _ hm
      · exact hs.lruDr _ _ _ _ e
    · cases hv; exact hs.lruDr _ _ _ _ hm
  | none =>
    obtain ⟨a1, a2, a3⟩ := h s hs
    rcases hx : body s with ⟨r, s'⟩
    rw [hx] at a1 a2 a3
    cases r with
    | error e => exact ⟨a1, fun v hv => by simp at hv, fun hc => by obtain ⟨v, hv⟩ := a3 hc; simp at hv⟩
    | ok d =>
      refine ⟨⟨a1.vals, a1.drs, a1.lru, fun m' n' b' d' hm' => ?_, a1.keys⟩, fun v hv => ?_, fun _ => ⟨d, rfl⟩⟩
      · rcases mem_lruInsert hm' with e | e
        · cases e; exact a2 d rfl
        · exact a1.lruDr _ _ _ _ e
      · cases hv; exact a2 d rfl

theorem Tr.any {β : Type} {x : Res β} : Tr False (CM.lift x) (fun _ => True) :=
  Tr.lift (fun _ _ => trivial) (fun h => h.elim)

theorem findCoeffs_tr (fuel : Nat) (b : Bool) (m n : Int) :
    Tr (ValidOrders m n ∧ n.toNat < fuel) (findCoeffs fuel b m n) (fun d => ValidOrders m n ∧ CorrectV m n d) := by
  induction fuel generalizing b m n with
  | zero => exact Tr.raise (by omega)
  | succ fuel ih =>
    unfold findCoeffs
    refine Tr.cachedVal ?_
    intro s hs
    simp only
    cases hl : s.vals.lookup (m, n) with
    | some d =>
      exact ⟨hs, fun v hv => by cases hv; exact hs.vals _ _ _ (lookup_mem _ _ _ hl), fun _ => ⟨d, rfl⟩⟩
    | none =>
      simp only
      refine Tr.app (Q := fun d => ValidOrders m n ∧ CorrectV m n d) s hs ?_
      by_cases hv : ValidOrders m n
      · rcases special_val m n hv with ⟨d, e1, e2⟩ | ⟨e1, hne⟩
        · refine Tr.bind (Q := fun o => o = some d) (Tr.lift (fun v h => by rw [e1] at h; cases h; rfl)
            (fun _ => ⟨_, e1⟩)) ?_
          rintro v rfl
          exact Tr.bind (Tr.putVal ⟨hv, e2⟩) fun _ _ => Tr.pure ⟨hv, e2⟩
        · refine Tr.bind (Q := fun o => o = none) (Tr.lift (fun v h => by rw [e1] at h; cases h; rfl)
            (fun _ => ⟨_, e1⟩)) ?_
          rintro v rfl
          obtain ⟨v1, v2, v3⟩ := valid_down hv hne
          have w3 := (valid_iff _ _).1 v3
          refine Tr.bind ((ih true (pyAbs (m - 1)) (n - 1)).mono (fun h => ⟨valid_pyAbs v1, by omega⟩) fun _ h => h) ?_
          intro p1 c1
          refine Tr.bind ((ih true (m + 1) (n - 1)).mono (fun h => ⟨v2, by omega⟩) fun _ h => h) ?_
          intro p2 c2
          obtain ⟨i1, a1, -⟩ := increase_ok p1 c1.2.1
          obtain ⟨i2, a2, -⟩ := increase_ok p2 c2.2.1
          refine Tr.bind (Q := fun o => o = i1) (Tr.lift (fun v h => by rw [a1] at h; cases h; rfl)
            (fun _ => ⟨_, a1⟩)) ?_
          rintro v rfl
          refine Tr.bind (Q := fun o => o = i2) (Tr.lift (fun v h => by rw [a2] at h; cases h; rfl)
            (fun _ => ⟨_, a2⟩)) ?_
          rintro v rfl
          refine Tr.bind ((ih true m (n - 2)).mono (fun h => ⟨v3, by omega⟩) fun _ h => h) ?_
          intro p3 c3
          obtain ⟨i1', i2', m3, d, f1, f2, f3, f4, f5⟩ := step_val m n hv hne p1 p2 p3 c1.2 c2.2 c3.2
          rw [a1] at f1; cases f1
          rw [a2] at f2; cases f2
          refine Tr.bind (Q := fun o => o = m3) (Tr.lift (fun v h => by rw [f3] at h; cases h; rfl)
            (fun _ => ⟨_, f3⟩)) ?_
          rintro v rfl
          refine Tr.bind (Q := fun o => o = d) (Tr.lift (fun v h => by rw [f4] at h; cases h; rfl)
            (fun _ => ⟨_, f4⟩)) ?_
          rintro v rfl
          exact Tr.bind (Tr.putVal c1) fun _ _ => Tr.bind (Tr.putVal c2) fun _ _ => Tr.pure ⟨hv, f5⟩
      · refine Tr.bind (Q := fun o => o = none) (Tr.lift (fun v h => by rw [special_none m n hv] at h; cases h; rfl)
          (fun _ => ⟨_, special_none m n hv⟩)) ?_
        rintro v rfl
        exact Tr.bind ((ih true (pyAbs (m - 1)) (n - 1)).mono (fun h => absurd h.1 hv) fun _ h => h)
          fun p1 c1 => absurd c1.1 (invalid_down hv)

theorem testDrs_keys (m n : Int) (hv : ValidOrders m n) (h7 : 7 ≤ n) (h8 : n ≤ 8) (h1 : pyAbs m ≠ n)
    (h2 : pyAbs m ≠ n - 2) : (m, n) ∈ testDrs.map Prod.fst := by
  rw [valid_iff] at hv
  obtain ⟨h0, g1, g2, g3⟩ := hv
  interval_cases n <;> interval_cases m <;> first | omega | (exact absurd rfl h1) | (exact absurd rfl h2) | simp [testDrs]

theorem findCoeffsDr_tr (fuel : Nat) (b : Bool) (m n : Int) :
    Tr (ValidOrders m n ∧ 7 ≤ n ∧ n.toNat < fuel) (findCoeffsDr fuel b m n)
      (fun d => ValidOrders m n ∧ (7 ≤ n → CorrectD m n d)) := by
  induction fuel generalizing b m n with
  | zero => exact Tr.raise (by omega)
  | succ fuel ih =>
    unfold findCoeffsDr
    refine Tr.cachedDr ?_
    intro s hs
    simp only
    cases hl : s.drs.lookup (m, n) with
    | some d =>
      exact ⟨hs, fun v hv => by cases hv; exact hs.drs _ _ _ (lookup_mem _ _ _ hl), fun _ => ⟨d, rfl⟩⟩
    | none =>
      simp only
      have hkey := mt (hs.keys (m, n)) (lookup_none _ _ hl)
      refine Tr.app (Q := fun d => ValidOrders m n ∧ (7 ≤ n → CorrectD m n d)) s hs ?_
      by_cases hv : ValidOrders m n ∧ 7 ≤ n
      · obtain ⟨hv, h7⟩ := hv
        rcases special_dr m n hv h7 with ⟨d, e1, e2⟩ | ⟨e1, hne, hne2⟩
        · refine Tr.bind (Q := fun o => o = some d) (Tr.lift (fun v h => by rw [e1] at h; cases h; rfl)
            (fun _ => ⟨_, e1⟩)) ?_
          rintro v rfl
          exact Tr.bind (Tr.putDr ⟨hv, fun _ => e2⟩) fun _ _ => Tr.pure ⟨hv, fun _ => e2⟩
        · have h9 : 9 ≤ n := by
            by_contra hc
            exact hkey (testDrs_keys m n hv h7 (by omega) hne hne2)
          refine Tr.bind (Q := fun o => o = none) (Tr.lift (fun v h => by rw [e1] at h; cases h; rfl)
            (fun _ => ⟨_, e1⟩)) ?_
          rintro v rfl
          obtain ⟨v1, v2, v3⟩ := valid_down hv hne
          have w3 := (valid_iff _ _).1 v3
          refine Tr.bind ((findCoeffs_tr fuel true (pyAbs (m - 1)) (n - 1)).mono (fun h => ⟨valid_pyAbs v1, by omega⟩)
            fun _ h => h) ?_
          intro p1 c1
          refine Tr.bind ((findCoeffs_tr fuel true (m + 1) (n - 1)).mono (fun h => ⟨v2, by omega⟩) fun _ h => h) ?_
          intro p2 c2
          refine Tr.bind ((ih true (pyAbs (m - 1)) (n - 1)).mono (fun h => ⟨valid_pyAbs v1, by omega, by omega⟩)
            fun _ h => h) ?_
          intro q1 k1
          refine Tr.bind ((ih true (m + 1) (n - 1)).mono (fun h => ⟨v2, by omega, by omega⟩) fun _ h => h) ?_
          intro q2 k2
          obtain ⟨i1, a1, -⟩ := increase_ok q1 (k1.2 (by omega)).1
          obtain ⟨i2, a2, -⟩ := increase_ok q2 (k2.2 (by omega)).1
          refine Tr.bind (Q := fun o => o = i1) (Tr.lift (fun v h => by rw [a1] at h; cases h; rfl)
            (fun _ => ⟨_, a1⟩)) ?_
          rintro v rfl
          refine Tr.bind (Q := fun o => o = i2) (Tr.lift (fun v h => by rw [a2] at h; cases h; rfl)
            (fun _ => ⟨_, a2⟩)) ?_
          rintro v rfl
          refine Tr.bind ((ih true m (n - 2)).mono (fun h => ⟨v3, by omega, by omega⟩) fun _ h => h) ?_
          intro q3 k3
          obtain ⟨i1', i2', m3, d, f1, f2, f3, f4, f5⟩ := step_dr m n hv hne p1 p2 q1 q2 q3 c1.2 c2.2
            (k1.2 (by omega)) (k2.2 (by omega)) (k3.2 (by omega))
          rw [a1] at f1; cases f1
          rw [a2] at f2; cases f2
          refine Tr.bind (Q := fun o => o = m3) (Tr.lift (fun v h => by rw [f3] at h; cases h; rfl)
            (fun _ => ⟨_, f3⟩)) ?_
          rintro v rfl
          refine Tr.bind (Q := fun o => o = d) (Tr.lift (fun v h => by rw [f4] at h; cases h; rfl)
            (fun _ => ⟨_, f4⟩)) ?_
          rintro v rfl
          exact Tr.bind (Tr.putVal c1) fun _ _ => Tr.bind (Tr.putVal c2) fun _ _ => Tr.bind (Tr.putDr k1) fun _ _ =>
            Tr.bind (Tr.putDr k2) fun _ _ => Tr.pure ⟨hv, fun _ => f5⟩
      by_cases hv' : ValidOrders m n
      swap
      · refine Tr.bind (Q := fun o => o = none) (Tr.lift (fun v h => by rw [special_none_dr m n hv'] at h; cases h; rfl)
          (fun _ => ⟨_, special_none_dr m n hv'⟩)) ?_
        rintro v rfl
        exact Tr.bind ((findCoeffs_tr fuel true (pyAbs (m - 1)) (n - 1)).mono (fun h => absurd h.1 hv') fun _ h => h)
          fun p1 c1 => absurd c1.1 (invalid_down hv')
      · have h7 : ¬ 7 ≤ n := fun h => hv ⟨hv', h⟩
        refine Tr.mono (c := False) (Q := fun _ => True) ?_ (fun h => hv ⟨h.1, h.2.1⟩) (fun _ _ => ⟨hv', fun h => absurd h h7⟩)
        refine Tr.bind Tr.any fun o _ => ?_
        cases o with
        | some d => exact Tr.bind (Tr.putDr ⟨hv', fun h => absurd h h7⟩) fun _ _ => Tr.pure trivial
        | none =>
          refine Tr.bind ((findCoeffs_tr fuel true (pyAbs (m - 1)) (n - 1)).mono (fun h => h.elim) fun _ h => h) ?_
          intro p1 c1
          refine Tr.bind ((findCoeffs_tr fuel true (m + 1) (n - 1)).mono (fun h => h.elim) fun _ h => h) ?_
          intro p2 c2
          refine Tr.bind ((ih true (pyAbs (m - 1)) (n - 1)).mono (fun h => h.elim) fun _ h => h) ?_
          intro q1 k1
          refine Tr.bind ((ih true (m + 1) (n - 1)).mono (fun h => h.elim) fun _ h => h) ?_
          intro q2 k2
          refine Tr.bind Tr.any fun _ _ => Tr.bind Tr.any fun _ _ => ?_
          refine Tr.bind ((ih true m (n - 2)).mono (fun h => h.elim) fun _ h => h) fun _ _ => ?_
          exact Tr.bind Tr.any fun _ _ => Tr.bind Tr.any fun _ _ => Tr.bind (Tr.putVal c1) fun _ _ =>
            Tr.bind (Tr.putVal c2) fun _ _ => Tr.bind (Tr.putDr k1) fun _ _ => Tr.bind (Tr.putDr k2) fun _ _ =>
              Tr.pure trivial


end Verif.Proofs.TestMode
