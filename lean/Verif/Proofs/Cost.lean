import Verif.Proofs.Threads3
import Mathlib.Data.ENat.Basic

/-!
# The number of accesses to the shared tables: what is already in the tables bounds the work of a call
-/

namespace Verif.Proofs
open Verif.Model Verif.Spec

/-- The orders are in the table of values. -/
def HasV (s : CoefState) (k : Int × Int) : Prop := (s.vals.lookup k).isSome

/-- The orders are in the table of derivatives. -/
def HasD (s : CoefState) (k : Int × Int) : Prop := (s.drs.lookup k).isSome

/-- No recursion is needed for these orders: they are in the initial tables or special. -/
def Easy (m n : Int) : Prop := n ≤ 10 ∨ pyAbs m = n ∨ pyAbs m = n - 2

/-- The coefficients of these orders have been computed before: what the computation needs first is in the table. -/
inductive Done (s : CoefState) : Int → Int → Prop
  | easy {m n : Int} : Easy m n → Done s m n
  | node {m n : Int} : HasV s (pyAbs (m - 1), n - 1) → HasV s (m + 1, n - 1) → Done s (pyAbs (m - 1)) (n - 1) → Done s (m + 1) (n - 1) → Done s m (n - 2) →
      Done s m n

/-- The same for the derivatives. -/
inductive DoneD (s : CoefState) : Int → Int → Prop
  | easy {m n : Int} : Easy m n → DoneD s m n
  | node {m n : Int} : HasV s (pyAbs (m - 1), n - 1) → HasV s (m + 1, n - 1) → Done s (pyAbs (m - 1)) (n - 1) → Done s (m + 1) (n - 1) →
      HasD s (pyAbs (m - 1), n - 1) → HasD s (m + 1, n - 1) → DoneD s (pyAbs (m - 1)) (n - 1) → DoneD s (m + 1) (n - 1) → DoneD s m (n - 2) → DoneD s m n

/-- Everything in the tables and caches has been computed there, and the initial entries are still there. -/
structure TabInv (s : CoefState) : Prop where
  vals : ∀ k, HasV s k → Done s k.1 k.2
  lru : ∀ k d, s.lru.lookup k = some d → Done s k.1.1 k.1.2
  drs : ∀ k, HasD s k → DoneD s k.1 k.2
  lruDr : ∀ k d, s.lruDr.lookup k = some d → DoneD s k.1.1 k.1.2
  initV : ∀ k, (initVals.lookup k).isSome → HasV s k
  initD : ∀ k, (initDrs.lookup k).isSome → HasD s k
  both : ∀ k, HasD s k → Easy k.1 k.2 ∨ HasV s k

theorem HasV.later {s s' : CoefState} {k : Int × Int} (h : HasV s k) (hl : KeysLe s s') : HasV s' k := hl.1 k h
theorem HasD.later {s s' : CoefState} {k : Int × Int} (h : HasD s k) (hl : KeysLe s s') : HasD s' k := hl.2 k h

theorem Done.later {s s' : CoefState} {m n : Int} (h : Done s m n) (hl : KeysLe s s') : Done s' m n := by
  induction h with
  | easy e => exact .easy e
  | node a b _ _ _ h1 h2 h3 => exact .node (a.later hl) (b.later hl) h1 h2 h3

theorem DoneD.later {s s' : CoefState} {m n : Int} (h : DoneD s m n) (hl : KeysLe s s') : DoneD s' m n := by
  induction h with
  | easy e => exact .easy e
  | node a b c d e f _ _ _ h1 h2 h3 => exact .node (a.later hl) (b.later hl) (c.later hl) (d.later hl) (e.later hl) (f.later hl) h1 h2 h3

theorem tabInv_init : TabInv initState where
  vals k h := by
    have : ∀ k ∈ initVals.map Prod.fst, k.2 ≤ 10 := by decide +kernel
    exact .easy (.inl (this k ((lookup_isSome_iff _ _).1 h)))
  lru k d h := by cases h
  drs k h := by
    have : ∀ k ∈ initDrs.map Prod.fst, k.2 ≤ 10 := by decide +kernel
    exact .easy (.inl (this k ((lookup_isSome_iff _ _).1 h)))
  lruDr k d h := by cases h
  initV _ h := h
  initD _ h := h
  both k h := by
    have : ∀ k ∈ initDrs.map Prod.fst, k.2 ≤ 10 := by decide +kernel
    exact .inl (.inl (this k ((lookup_isSome_iff _ _).1 h)))

/-- The program makes at most `c` accesses when it is continued after the state was `s0`, with any actions of other threads between its own; its result and the
state at its end satisfy `Q`. -/
def CAt {β : Type} (Q : β → CoefState → Prop) : ℕ∞ → Prog β → CoefState → Prop
  | _, .done (.ok v), s0 => Q v s0
  | _, .done (.error _), _ => True
  | c, .step u k, s0 => ∀ s, TabInv s → KeysLe s0 s → TabInv (u s) ∧ KeysLe s (u s) ∧ ∃ c' : ℕ∞, c' + 1 ≤ c ∧ CAt Q c' (k s) (u s)

theorem CAt.mono {β : Type} {Q Q' : β → CoefState → Prop} {c c' : ℕ∞} {x : Prog β} {s : CoefState} (h : CAt Q c x s) (hc : c ≤ c')
    (hq : ∀ v t, KeysLe s t → Q v t → Q' v t) : CAt Q' c' x s := by
  induction x generalizing s c c' with
  | done r =>
    cases r with
    | ok v => exact hq v s (KeysLe.refl _) h
    | error e => trivial
  | step u k ih =>
    intro t ht hl
    obtain ⟨a, b, d, hd, e⟩ := h t ht hl
    exact ⟨a, b, d, hd.trans hc, ih t e le_rfl fun v t' hl' => hq v t' (hl.trans (b.trans hl'))⟩

theorem CAt.le {β : Type} {Q : β → CoefState → Prop} {c c' : ℕ∞} {x : Prog β} {s : CoefState} (h : CAt Q c x s) (hc : c ≤ c') : CAt Q c' x s :=
  h.mono hc fun _ _ _ h => h

theorem CAt.conj {β : Type} {Q Q' : β → CoefState → Prop} {c : ℕ∞} {x : Prog β} {s : CoefState} (h : CAt Q c x s) (h' : CAt Q' ⊤ x s) :
    CAt (fun v t => Q v t ∧ Q' v t) c x s := by
  suffices ∀ c', CAt Q' c' x s → CAt (fun v t => Q v t ∧ Q' v t) c x s from this ⊤ h'
  clear h'
  intro c' h'
  induction x generalizing s c c' with
  | done r =>
    cases r with
    | ok v => exact ⟨h, h'⟩
    | error e => trivial
  | step u k ih =>
    intro t ht hl
    obtain ⟨a, b, d, hd, e⟩ := h t ht hl
    obtain ⟨_, _, d', _, e'⟩ := h' t ht hl
    exact ⟨a, b, d, hd, ih t e d' e'⟩

theorem CAt.bind {β γ : Type} {Q : β → CoefState → Prop} {Q' : γ → CoefState → Prop} {c d : ℕ∞} {x : Prog β} {f : β → Prog γ} {s : CoefState}
    (h : CAt Q c x s) (hf : ∀ v t, KeysLe s t → Q v t → CAt Q' d (f v) t) : CAt Q' (c + d) (x >>= f) s := by
  show CAt Q' (c + d) (x.andThen f) s
  induction x generalizing s c with
  | done r =>
    cases r with
    | ok v => exact (hf v s (KeysLe.refl _) h).le le_add_self
    | error e => trivial
  | step u k ih =>
    intro t ht hl
    obtain ⟨a, b, c', hc, e⟩ := h t ht hl
    refine ⟨a, b, c' + d, ?_, ih t e fun v t' hl' => hf v t' (hl.trans (b.trans hl'))⟩
    calc c' + d + 1 = c' + 1 + d := by ring
      _ ≤ c + d := by gcongr

/-- Without other threads: the number of accesses. -/
theorem CAt.actions {β : Type} {Q : β → CoefState → Prop} {c : ℕ∞} {x : Prog β} {s : CoefState} (h : CAt Q c x s) (hs : TabInv s) :
    TabInv (x.alone s).2 ∧ KeysLe s (x.alone s).2 ∧ ∀ v, (x.alone s).1 = .ok v → Q v (x.alone s).2 := by
  induction x generalizing s c with
  | done r =>
    refine ⟨hs, KeysLe.refl _, fun v hv => ?_⟩
    cases r with
    | ok w => cases hv; exact h
    | error e => cases hv
  | step u k ih =>
    obtain ⟨a, b, d, _, e⟩ := h s hs (KeysLe.refl _)
    obtain ⟨i1, i2, i3⟩ := ih s e a
    exact ⟨i1, b.trans i2, i3⟩

theorem CAt.lift {β : Type} {c : ℕ∞} (x : Res β) (s : CoefState) : CAt (fun v _ => x = .ok v) c (Prog.lift x) s := by
  cases x with
  | ok v => rfl
  | error e => trivial

theorem CAt.pure {β : Type} {c : ℕ∞} {Q : β → CoefState → Prop} {v : β} {s : CoefState} (h : Q v s) : CAt Q c (pure v : Prog β) s := h

theorem CAt.hasVal (k : Int × Int) (s : CoefState) :
    CAt (fun b t => (b = true → HasV t k ∧ Done t k.1 k.2) ∧ (HasV s k ∨ (initVals.lookup k).isSome → b = true)) 1 (hasVal k) s :=
  fun t ht hl => ⟨ht, KeysLe.refl _, 0, le_rfl, fun h => ⟨h, ht.vals k h⟩, fun h => h.elim (fun h => h.later hl) fun h => ht.initV k h⟩

theorem CAt.hasDr (k : Int × Int) (s : CoefState) :
    CAt (fun b t => (b = true → HasD t k ∧ DoneD t k.1 k.2) ∧ (HasD s k ∨ (initDrs.lookup k).isSome → b = true)) 1 (hasDr k) s :=
  fun t ht hl => ⟨ht, KeysLe.refl _, 0, le_rfl, fun h => ⟨h, ht.drs k h⟩, fun h => h.elim (fun h => h.later hl) fun h => ht.initD k h⟩

theorem CAt.getVal (k : Int × Int) (s : CoefState) : CAt (fun _ _ => True) 1 (getVal k) s := by
  refine fun t ht _ => ⟨ht, KeysLe.refl _, 0, le_rfl, ?_⟩
  simp only [id]
  split <;> trivial

theorem CAt.getDr (k : Int × Int) (s : CoefState) : CAt (fun _ _ => True) 1 (getDr k) s := by
  refine fun t ht _ => ⟨ht, KeysLe.refl _, 0, le_rfl, ?_⟩
  simp only [id]
  split <;> trivial

theorem tableSet_self (k : Int × Int) (d : Coeffs) (t : Table) : ((tableSet k d t).lookup k).isSome := by
  rw [lookup_isSome_iff]
  unfold tableSet
  split
  · rename_i h
    exact List.mem_map.2 ⟨(k, d), List.mem_map.2 ⟨_, lookup_mem _ _ _ h, by simp⟩, rfl⟩
  · simp

theorem tableSet_new {k k' : Int × Int} {d : Coeffs} {t : Table} (h : ((tableSet k d t).lookup k').isSome) : k' = k ∨ (t.lookup k').isSome := by
  rw [lookup_isSome_iff] at h ⊢
  obtain ⟨e, he, rfl⟩ := List.mem_map.1 h
  rcases mem_tableSet he with h' | rfl
  · exact .inr (List.mem_map.2 ⟨e, h', rfl⟩)
  · exact .inl rfl

theorem CAt.setVal (k : Int × Int) (d : Coeffs) (s : CoefState) (h : Done s k.1 k.2) : CAt (fun _ t => HasV t k) 1 (setVal k d) s := by
  intro t ht hl
  have hk : KeysLe t { t with vals := tableSet k d t.vals } := ⟨fun k' h' => tableSet_isSome _ _ _ _ h', fun _ h' => h'⟩
  refine ⟨⟨fun k' h' => ?_, fun k' d' h' => (ht.lru k' d' h').later hk, fun k' h' => (ht.drs k' h').later hk, fun k' d' h' => (ht.lruDr k' d' h').later hk,
    fun k' h' => (ht.initV k' h').later hk, fun k' h' => ht.initD k' h', fun k' h' => (ht.both k' h').imp id fun x => x.later hk⟩, hk, 0, le_rfl,
    tableSet_self k d t.vals⟩
  rcases tableSet_new h' with rfl | h''
  · exact (h.later hl).later hk
  · exact (ht.vals k' h'').later hk

theorem CAt.setDr (k : Int × Int) (d : Coeffs) (s : CoefState) (h : DoneD s k.1 k.2) (hv : Easy k.1 k.2 ∨ HasV s k) :
    CAt (fun _ t => HasD t k) 1 (setDr k d) s := by
  intro t ht hl
  have hk : KeysLe t { t with drs := tableSet k d t.drs } := ⟨fun _ h' => h', fun k' h' => tableSet_isSome _ _ _ _ h'⟩
  refine ⟨⟨fun k' h' => (ht.vals k' h').later hk, fun k' d' h' => (ht.lru k' d' h').later hk, fun k' h' => ?_, fun k' d' h' => (ht.lruDr k' d' h').later hk,
    fun k' h' => ht.initV k' h', fun k' h' => (ht.initD k' h').later hk, fun k' h' => ?_⟩, hk, 0, le_rfl, tableSet_self k d t.drs⟩
  · rcases tableSet_new h' with rfl | h''
    · exact (h.later hl).later hk
    · exact (ht.drs k' h'').later hk
  · rcases tableSet_new h' with rfl | h''
    · exact hv.imp id fun x => (x.later hl).later hk
    · exact (ht.both k' h'').imp id fun x => x.later hk

theorem CAt.storeVal (k : Int × Int) (d : Coeffs) (s : CoefState) (h : Done s k.1 k.2) : CAt (fun _ t => HasV t k) 2 (storeVal k d) s := by
  rw [show (2 : ℕ∞) = 1 + 1 by norm_num]
  refine (CAt.hasVal k s).bind fun b t hl hb => ?_
  cases b with
  | true => exact CAt.pure (hb.1 rfl).1
  | false => exact CAt.setVal k d t (h.later hl)

theorem CAt.storeDr (k : Int × Int) (d : Coeffs) (s : CoefState) (h : DoneD s k.1 k.2) (hv : Easy k.1 k.2 ∨ HasV s k) :
    CAt (fun _ t => HasD t k) 2 (storeDr k d) s := by
  rw [show (2 : ℕ∞) = 1 + 1 by norm_num]
  refine (CAt.hasDr k s).bind fun b t hl hb => ?_
  cases b with
  | true => exact CAt.pure (hb.1 rfl).1
  | false => exact CAt.setDr k d t (h.later hl) (hv.imp id fun x => x.later hl)

theorem lookup_touch {k k' : LruKey} {d d' : Coeffs} {c : Lru} (h : (lruTouch k d c).lookup k' = some d') : k' = k ∨ ∃ d'', (k', d'') ∈ c := by
  have := lookup_mem _ _ _ h
  unfold lruTouch at this
  rcases List.mem_cons.1 this with e | e
  · exact .inl (Prod.ext_iff.1 e).1
  · exact .inr ⟨d', (List.mem_filter.1 e).1⟩

theorem lookup_insert {k k' : LruKey} {d d' : Coeffs} {c : Lru} (h : (lruInsert k d c).lookup k' = some d') : k' = k ∨ ∃ d'', (k', d'') ∈ c := by
  have := List.mem_of_mem_take (lookup_mem _ _ _ h)
  rcases List.mem_cons.1 this with e | e
  · exact .inl (Prod.ext_iff.1 e).1
  · exact .inr ⟨d', e⟩

theorem lookup_of_mem {k : LruKey} {d : Coeffs} {c : Lru} (h : (k, d) ∈ c) : ∃ d', c.lookup k = some d' := by
  cases e : c.lookup k with
  | some d' => exact ⟨d', rfl⟩
  | none => exact absurd (List.mem_map.2 ⟨_, h, rfl⟩) (lookup_none _ _ e)

theorem TabInv.setLru {s : CoefState} (h : TabInv s) (c : Lru) (hc : ∀ k d, c.lookup k = some d → Done s k.1.1 k.1.2) : TabInv { s with lru := c } := by
  have hk : KeysLe s { s with lru := c } := ⟨fun _ h => h, fun _ h => h⟩
  exact ⟨fun k x => (h.vals k x).later hk, fun k d x => (hc k d x).later hk, fun k x => (h.drs k x).later hk, fun k d x => (h.lruDr k d x).later hk,
    fun k x => (h.initV k x).later hk, fun k x => (h.initD k x).later hk, fun k x => (h.both k x).imp id fun y => y.later hk⟩

theorem TabInv.setLruDr {s : CoefState} (h : TabInv s) (c : Lru) (hc : ∀ k d, c.lookup k = some d → DoneD s k.1.1 k.1.2) : TabInv { s with lruDr := c } := by
  have hk : KeysLe s { s with lruDr := c } := ⟨fun _ h => h, fun _ h => h⟩
  exact ⟨fun k x => (h.vals k x).later hk, fun k d x => (h.lru k d x).later hk, fun k x => (h.drs k x).later hk, fun k d x => (hc k d x).later hk,
    fun k x => (h.initV k x).later hk, fun k x => (h.initD k x).later hk, fun k x => (h.both k x).imp id fun y => y.later hk⟩

theorem CAt.cachedVal {k : LruKey} {body : Prog Coeffs} {c : ℕ∞} {s : CoefState} (h : ∀ t, KeysLe s t → CAt (fun _ t => Done t k.1.1 k.1.2) c body t) :
    CAt (fun _ t => Done t k.1.1 k.1.2) (c + 2) (cachedValT k body) s := by
  intro t ht hl
  cases hd : t.lru.lookup k with
  | some d =>
    simp only [hd]
    refine ⟨ht.setLru _ fun k' d' h' => ?_, ⟨fun _ h => h, fun _ h => h⟩, 0, ?_, ?_⟩
    · rcases lookup_touch h' with rfl | ⟨d'', hm⟩
      · exact ht.lru _ _ hd
      · obtain ⟨e, he⟩ := lookup_of_mem hm
        exact ht.lru _ _ he
    · rw [zero_add]; exact le_trans (by norm_num) le_add_self
    · exact (ht.lru _ _ hd).later (s' := { t with lru := lruTouch k d t.lru }) ⟨fun _ h => h, fun _ h => h⟩
  | none =>
    simp only [hd]
    refine ⟨ht, KeysLe.refl _, c + 1, by rw [add_assoc]; norm_num, CAt.bind (h t hl) fun d t' hl' hdn => ?_⟩
    intro u hu hlu
    cases hk : u.lru.lookup k with
    | some _ =>
      simp only [hk]
      exact ⟨hu, KeysLe.refl _, 0, le_rfl, hdn.later hlu⟩
    | none =>
      simp only [hk]
      refine ⟨hu.setLru _ fun k' d' h' => ?_, ⟨fun _ h => h, fun _ h => h⟩, 0, le_rfl,
        (hdn.later hlu).later (s' := { u with lru := lruInsert k d u.lru }) ⟨fun _ h => h, fun _ h => h⟩⟩
      rcases lookup_insert h' with rfl | ⟨d'', hm⟩
      · exact hdn.later hlu
      · obtain ⟨e, he⟩ := lookup_of_mem hm
        exact hu.lru _ _ he

theorem CAt.cachedDr {k : LruKey} {body : Prog Coeffs} {c : ℕ∞} {s : CoefState} (h : ∀ t, KeysLe s t → CAt (fun _ t => DoneD t k.1.1 k.1.2) c body t) :
    CAt (fun _ t => DoneD t k.1.1 k.1.2) (c + 2) (cachedDrT k body) s := by
  intro t ht hl
  cases hd : t.lruDr.lookup k with
  | some d =>
    simp only [hd]
    refine ⟨ht.setLruDr _ fun k' d' h' => ?_, ⟨fun _ h => h, fun _ h => h⟩, 0, ?_, ?_⟩
    · rcases lookup_touch h' with rfl | ⟨d'', hm⟩
      · exact ht.lruDr _ _ hd
      · obtain ⟨e, he⟩ := lookup_of_mem hm
        exact ht.lruDr _ _ he
    · rw [zero_add]; exact le_trans (by norm_num) le_add_self
    · exact (ht.lruDr _ _ hd).later (s' := { t with lruDr := lruTouch k d t.lruDr }) ⟨fun _ h => h, fun _ h => h⟩
  | none =>
    simp only [hd]
    refine ⟨ht, KeysLe.refl _, c + 1, by rw [add_assoc]; norm_num, CAt.bind (h t hl) fun d t' hl' hdn => ?_⟩
    intro u hu hlu
    cases hk : u.lruDr.lookup k with
    | some _ =>
      simp only [hk]
      exact ⟨hu, KeysLe.refl _, 0, le_rfl, hdn.later hlu⟩
    | none =>
      simp only [hk]
      refine ⟨hu.setLruDr _ fun k' d' h' => ?_, ⟨fun _ h => h, fun _ h => h⟩, 0, le_rfl,
        (hdn.later hlu).later (s' := { u with lruDr := lruInsert k d u.lruDr }) ⟨fun _ h => h, fun _ h => h⟩⟩
      rcases lookup_insert h' with rfl | ⟨d'', hm⟩
      · exact hdn.later hlu
      · obtain ⟨e, he⟩ := lookup_of_mem hm
        exact hu.lruDr _ _ he

theorem special_easy {m n : Int} {d : Coeffs} (h : checkSpecialOrders m n = .ok (some d)) : Easy m n := by
  unfold checkSpecialOrders at h
  split_ifs at h with h1 h2
  · exact .inr (.inl h1)
  · exact .inr (.inr h2)
  · cases h

theorem specialDr_easy {m n : Int} {d : Coeffs} (h : checkSpecialOrdersDr m n = .ok (some d)) : Easy m n := by
  unfold checkSpecialOrdersDr at h
  split_ifs at h with h1 h2
  · exact .inr (.inl h1)
  · exact .inr (.inr h2)
  · cases h

/-- The call `find_coeffs_orders` makes at most `c` accesses. -/
def FAt (c : ℕ∞) (fuel : Nat) (b : Bool) (m n : Int) (s : CoefState) : Prop := CAt (fun _ t => Done t m n) c (findCoeffsT fuel b m n) s

/-- The call `find_coeffs_orders_dr` makes at most `c` accesses. -/
def DAt (c : ℕ∞) (fuel : Nat) (b : Bool) (m n : Int) (s : CoefState) : Prop := CAt (fun _ t => DoneD t m n) c (findCoeffsDrT fuel b m n) s

theorem FAt.zero (c : ℕ∞) (b : Bool) (m n : Int) (s : CoefState) : FAt c 0 b m n s := trivial
theorem DAt.zero (c : ℕ∞) (b : Bool) (m n : Int) (s : CoefState) : DAt c 0 b m n s := trivial

/-- The accesses of a call that has to compute: those of its three calls, and seven more. -/
theorem FAt.node {fuel : Nat} {b : Bool} {m n : Int} {s : CoefState} {c1 c2 c3 : ℕ∞}
    (h1 : ∀ t, KeysLe s t → FAt c1 fuel true (pyAbs (m - 1)) (n - 1) t)
    (h2 : ∀ t, KeysLe s t → Done t (pyAbs (m - 1)) (n - 1) → FAt c2 fuel true (m + 1) (n - 1) t)
    (h3 : ∀ t, KeysLe s t → Done t (pyAbs (m - 1)) (n - 1) → Done t (m + 1) (n - 1) → FAt c3 fuel true m (n - 2) t) :
    FAt (c1 + c2 + c3 + 7) (fuel + 1) b m n s := by
  have key : ∀ t, KeysLe s t → CAt (fun _ t => Done t m n) (1 + (c1 + (c2 + (c3 + (2 + 2))))) (do
      if ← Model.hasVal (m, n) then Model.getVal (m, n)
      else
        match ← Prog.lift (checkSpecialOrders m n) with
        | some d =>
          Model.storeVal (m, n) d
          pure d
        | none =>
          let p1 ← findCoeffsT fuel true (pyAbs (m - 1)) (n - 1)
          let p2 ← findCoeffsT fuel true (m + 1) (n - 1)
          let i1 ← Prog.lift (increaseOrderCoeffs p1)
          let i2 ← Prog.lift (increaseOrderCoeffs p2)
          let p3 ← findCoeffsT fuel true m (n - 2)
          let m3 ← Prog.lift (makeOrdersCoeffs (itemsFrom 0 p3) (n - 2) true)
          let d ← Prog.lift (sumOrdersCoeffs n [i1, i2, m3])
          Model.storeVal (pyAbs (m - 1), n - 1) p1
          Model.storeVal (m + 1, n - 1) p2
          pure d) t := by
    intro t hst
    refine (CAt.hasVal (m, n) t).bind fun found t0 hl0 hfound => ?_
    cases found with
    | true => exact (CAt.getVal _ t0).mono (le_trans (by norm_num) (le_trans le_add_self (le_trans le_add_self le_add_self))) fun _ u hu _ => (hfound.1 rfl).2.later hu
    | false =>
      refine CAt.le (c := 0 + (c1 + (c2 + (c3 + (2 + 2))))) ((CAt.lift (checkSpecialOrders m n) t0).bind fun o t1 hl1 ho => ?_) (by rw [zero_add])
      have l1 : KeysLe s t1 := hst.trans (hl0.trans hl1)
      cases o with
      | some d =>
        have e := special_easy ho
        exact (((CAt.storeVal (m, n) d t1 (.easy e)).bind (d := 2) fun _ t2 _ _ => CAt.pure (Q := fun _ t => Done t m n) (.easy e))).le (le_trans le_add_self (le_trans le_add_self le_add_self))
      | none =>
        refine (h1 t1 l1).bind fun p1 t2 hl2 d1 => (h2 t2 (l1.trans hl2) d1).bind fun p2 t3 hl3 d2 => ?_
        have d1' := d1.later hl3
        refine CAt.le (c := 0 + (0 + (c3 + (0 + (0 + (2 + (2 + 0))))))) ?_ (by simp)
        refine (CAt.lift (increaseOrderCoeffs p1) t3).bind fun i1 t4 hl4 _ => (CAt.lift (increaseOrderCoeffs p2) t4).bind fun i2 t5 hl5 _ => ?_
        have l5 : KeysLe t3 t5 := hl4.trans hl5
        refine (h3 t5 (l1.trans (hl2.trans (hl3.trans l5))) (d1'.later l5) (d2.later l5)).bind fun p3 t6 hl6 d3 => ?_
        refine (CAt.lift (makeOrdersCoeffs (itemsFrom 0 p3) (n - 2) true) t6).bind fun m3 t7 hl7 _ =>
          (CAt.lift (sumOrdersCoeffs n [i1, i2, m3]) t7).bind fun d t8 hl8 _ => ?_
        have l8 : KeysLe t3 t8 := l5.trans (hl6.trans (hl7.trans hl8))
        refine (CAt.storeVal (pyAbs (m - 1), n - 1) p1 t8 (d1'.later l8)).bind fun _ t9 hl9 v1 => ?_
        refine (CAt.storeVal (m + 1, n - 1) p2 t9 (d2.later (l8.trans hl9))).bind fun _ t10 hl10 v2 => ?_
        have l10 : KeysLe t3 t10 := l8.trans (hl9.trans hl10)
        exact CAt.pure (.node (v1.later hl10) v2 (d1'.later l10) (d2.later l10) (d3.later (hl7.trans (hl8.trans (hl9.trans hl10)))))
  unfold FAt findCoeffsT
  refine CAt.le (CAt.cachedVal (k := ((m, n), b)) key) (le_of_eq ?_)
  ring

/-- What a call of `find_coeffs_orders` leaves in the tables. -/
theorem FAt.any (fuel : Nat) (b : Bool) (m n : Int) (s : CoefState) : FAt ⊤ fuel b m n s := by
  induction fuel generalizing b m n s with
  | zero => exact FAt.zero _ _ _ _ _
  | succ fuel ih => exact CAt.le (FAt.node (c1 := ⊤) (c2 := ⊤) (c3 := ⊤) (fun t _ => ih _ _ _ t) (fun t _ _ => ih _ _ _ t) (fun t _ _ _ => ih _ _ _ t)) le_top

/-- The accesses of a call of `find_coeffs_orders_dr` that has to compute: those of its five calls, and eleven more. -/
theorem DAt.node {fuel : Nat} {b : Bool} {m n : Int} {s : CoefState} {c1 c2 e1 e2 e3 : ℕ∞}
    (h1 : ∀ t, KeysLe s t → FAt c1 fuel true (pyAbs (m - 1)) (n - 1) t)
    (h2 : ∀ t, KeysLe s t → Done t (pyAbs (m - 1)) (n - 1) → FAt c2 fuel true (m + 1) (n - 1) t)
    (k1 : ∀ t, KeysLe s t → Done t (pyAbs (m - 1)) (n - 1) → Done t (m + 1) (n - 1) → DAt e1 fuel true (pyAbs (m - 1)) (n - 1) t)
    (k2 : ∀ t, KeysLe s t → Done t (pyAbs (m - 1)) (n - 1) → Done t (m + 1) (n - 1) → DoneD t (pyAbs (m - 1)) (n - 1) → DAt e2 fuel true (m + 1) (n - 1) t)
    (k3 : ∀ t, KeysLe s t → Done t (pyAbs (m - 1)) (n - 1) → Done t (m + 1) (n - 1) → DoneD t (pyAbs (m - 1)) (n - 1) → DoneD t (m + 1) (n - 1) →
      DAt e3 fuel true m (n - 2) t) :
    DAt (c1 + c2 + e1 + e2 + e3 + 11) (fuel + 1) b m n s := by
  have key : ∀ t, KeysLe s t → CAt (fun _ t => DoneD t m n) (1 + (c1 + (c2 + (e1 + (e2 + (e3 + (2 + (2 + (2 + 2))))))))) (do
      if ← Model.hasDr (m, n) then Model.getDr (m, n)
      else
        match ← Prog.lift (checkSpecialOrdersDr m n) with
        | some d =>
          Model.storeDr (m, n) d
          pure d
        | none =>
          let p1 ← findCoeffsT fuel true (pyAbs (m - 1)) (n - 1)
          let p2 ← findCoeffsT fuel true (m + 1) (n - 1)
          let d1 ← findCoeffsDrT fuel true (pyAbs (m - 1)) (n - 1)
          let d2 ← findCoeffsDrT fuel true (m + 1) (n - 1)
          let i1 ← Prog.lift (increaseOrderCoeffs d1)
          let i2 ← Prog.lift (increaseOrderCoeffs d2)
          let d3 ← findCoeffsDrT fuel true m (n - 2)
          let m3 ← Prog.lift (makeOrdersCoeffs (itemsFrom 0 d3) (n - 2) true)
          let d ← Prog.lift (sumOrdersCoeffs n [p1, p2, i1, i2, m3])
          Model.storeVal (pyAbs (m - 1), n - 1) p1
          Model.storeVal (m + 1, n - 1) p2
          Model.storeDr (pyAbs (m - 1), n - 1) d1
          Model.storeDr (m + 1, n - 1) d2
          pure d) t := by
    intro t hst
    refine (CAt.hasDr (m, n) t).bind fun found t0 hl0 hfound => ?_
    cases found with
    | true =>
      exact (CAt.getDr _ t0).mono (le_trans (by norm_num) (le_trans le_add_self (le_trans le_add_self (le_trans le_add_self (le_trans le_add_self
        (le_trans le_add_self le_add_self)))))) fun _ u hu _ => (hfound.1 rfl).2.later hu
    | false =>
      refine CAt.le (c := 0 + (c1 + (c2 + (e1 + (e2 + (e3 + (2 + (2 + (2 + 2))))))))) ((CAt.lift (checkSpecialOrdersDr m n) t0).bind fun o t1 hl1 ho => ?_)
        (by rw [zero_add])
      have l1 : KeysLe s t1 := hst.trans (hl0.trans hl1)
      cases o with
      | some d =>
        have e := specialDr_easy ho
        exact (((CAt.storeDr (m, n) d t1 (.easy e) (.inl e)).bind (d := 6) fun _ t2 _ _ => CAt.pure (Q := fun _ t => DoneD t m n) (.easy e))).le
          (le_trans (by norm_num) (le_trans le_add_self (le_trans le_add_self (le_trans le_add_self (le_trans le_add_self le_add_self)))))
      | none =>
        refine (h1 t1 l1).bind fun p1 t2 hl2 v1 => (h2 t2 (l1.trans hl2) v1).bind fun p2 t3 hl3 v2 => ?_
        have l3 : KeysLe s t3 := l1.trans (hl2.trans hl3)
        refine (k1 t3 l3 (v1.later hl3) v2).bind fun d1 t4 hl4 w1 => ?_
        refine (k2 t4 (l3.trans hl4) (v1.later (hl3.trans hl4)) (v2.later hl4) w1).bind fun d2 t5 hl5 w2 => ?_
        have l5 : KeysLe s t5 := l3.trans (hl4.trans hl5)
        have v1' := v1.later (hl3.trans (hl4.trans hl5))
        have v2' := v2.later (hl4.trans hl5)
        have w1' := w1.later hl5
        refine CAt.le (c := 0 + (0 + (e3 + (0 + (0 + (2 + (2 + (2 + (2 + 0))))))))) ?_ (by simp)
        refine (CAt.lift (increaseOrderCoeffs d1) t5).bind fun i1 t6 hl6 _ => (CAt.lift (increaseOrderCoeffs d2) t6).bind fun i2 t7 hl7 _ => ?_
        have l7 : KeysLe t5 t7 := hl6.trans hl7
        refine (k3 t7 (l5.trans l7) (v1'.later l7) (v2'.later l7) (w1'.later l7) (w2.later l7)).bind fun d3 t8 hl8 w3 => ?_
        refine (CAt.lift (makeOrdersCoeffs (itemsFrom 0 d3) (n - 2) true) t8).bind fun m3 t9 hl9 _ =>
          (CAt.lift (sumOrdersCoeffs n [p1, p2, i1, i2, m3]) t9).bind fun d t10 hl10 _ => ?_
        have l10 : KeysLe t5 t10 := l7.trans (hl8.trans (hl9.trans hl10))
        refine (CAt.storeVal (pyAbs (m - 1), n - 1) p1 t10 (v1'.later l10)).bind fun _ t11 hl11 a1 => ?_
        refine (CAt.storeVal (m + 1, n - 1) p2 t11 (v2'.later (l10.trans hl11))).bind fun _ t12 hl12 a2 => ?_
        have l12 : KeysLe t5 t12 := l10.trans (hl11.trans hl12)
        refine (CAt.storeDr (pyAbs (m - 1), n - 1) d1 t12 (w1'.later l12) (.inr (a1.later hl12))).bind fun _ t13 hl13 a3 => ?_
        refine (CAt.storeDr (m + 1, n - 1) d2 t13 (w2.later (l12.trans hl13)) (.inr (a2.later hl13))).bind fun _ t14 hl14 a4 => ?_
        have l14 : KeysLe t5 t14 := l12.trans (hl13.trans hl14)
        exact CAt.pure (.node (a1.later (hl12.trans (hl13.trans hl14))) (a2.later (hl13.trans hl14)) (v1'.later l14) (v2'.later l14) (a3.later hl14) a4
          (w1'.later l14) (w2.later l14) (w3.later (hl9.trans (hl10.trans (hl11.trans (hl12.trans (hl13.trans hl14)))))))
  unfold DAt findCoeffsDrT
  refine CAt.le (CAt.cachedDr (k := ((m, n), b)) key) (le_of_eq ?_)
  ring

/-- What a call of `find_coeffs_orders_dr` leaves in the tables. -/
theorem DAt.any (fuel : Nat) (b : Bool) (m n : Int) (s : CoefState) : DAt ⊤ fuel b m n s := by
  induction fuel generalizing b m n s with
  | zero => exact DAt.zero _ _ _ _ _
  | succ fuel ih =>
    exact CAt.le (DAt.node (c1 := ⊤) (c2 := ⊤) (e1 := ⊤) (e2 := ⊤) (e3 := ⊤) (fun t _ => FAt.any _ _ _ _ t) (fun t _ _ => FAt.any _ _ _ _ t)
      (fun t _ _ _ => ih _ _ _ t) (fun t _ _ _ _ => ih _ _ _ t) (fun t _ _ _ _ _ => ih _ _ _ t)) le_top

/-- Five accesses suffice for orders that are special or in the table. -/
theorem FAt.quick {fuel : Nat} {b : Bool} {m n : Int} {s : CoefState}
    (h : (pyAbs m = n ∨ pyAbs m = n - 2) ∨ HasV s (m, n) ∨ (initVals.lookup (m, n)).isSome) : FAt 5 fuel b m n s := by
  cases fuel with
  | zero => exact FAt.zero _ _ _ _ _
  | succ fuel =>
    unfold FAt findCoeffsT
    refine CAt.le (CAt.cachedVal (k := ((m, n), b)) (c := 1 + 2) fun t hl => ?_) (by norm_num)
    refine (CAt.hasVal (m, n) t).bind fun found t0 hl0 hfound => ?_
    cases found with
    | true => exact (CAt.getVal _ t0).mono (by norm_num) fun _ u hu _ => (hfound.1 rfl).2.later hu
    | false =>
      rcases h with h | h
      · refine CAt.le (c := 0 + (2 + 0)) ((CAt.lift (checkSpecialOrders m n) t0).bind fun o t1 hl1 ho => ?_) (by norm_num)
        cases o with
        | some d =>
          have e := special_easy ho
          exact (CAt.storeVal (m, n) d t1 (.easy e)).bind fun _ t2 _ _ => CAt.pure (Q := fun _ t => Done t m n) (.easy e)
        | none =>
          exfalso
          unfold checkSpecialOrders at ho
          split_ifs at ho with h1 h2
          · cases hm : makeOrdersCoeffs [(n, 1)] n false <;> rw [hm] at ho <;> cases ho
          · cases hm : makeOrdersCoeffs [(n, n), (n - 2, -(n - 1))] n false <;> rw [hm] at ho <;> cases ho
          · exact h.elim h1 h2
      · exact absurd (hfound.2 (h.imp (fun h => h.later hl) id)) (by decide)

/-- The same for the derivatives. -/
theorem DAt.quick {fuel : Nat} {b : Bool} {m n : Int} {s : CoefState}
    (h : (pyAbs m = n ∨ pyAbs m = n - 2) ∨ HasD s (m, n) ∨ (initDrs.lookup (m, n)).isSome) : DAt 5 fuel b m n s := by
  cases fuel with
  | zero => exact DAt.zero _ _ _ _ _
  | succ fuel =>
    unfold DAt findCoeffsDrT
    refine CAt.le (CAt.cachedDr (k := ((m, n), b)) (c := 1 + 2) fun t hl => ?_) (by norm_num)
    refine (CAt.hasDr (m, n) t).bind fun found t0 hl0 hfound => ?_
    cases found with
    | true => exact (CAt.getDr _ t0).mono (by norm_num) fun _ u hu _ => (hfound.1 rfl).2.later hu
    | false =>
      rcases h with h | h
      · refine CAt.le (c := 0 + (2 + 0)) ((CAt.lift (checkSpecialOrdersDr m n) t0).bind fun o t1 hl1 ho => ?_) (by norm_num)
        cases o with
        | some d =>
          have e := specialDr_easy ho
          exact (CAt.storeDr (m, n) d t1 (.easy e) (.inl e)).bind fun _ t2 _ _ => CAt.pure (Q := fun _ t => DoneD t m n) (.easy e)
        | none =>
          exfalso
          unfold checkSpecialOrdersDr at ho
          split_ifs at ho with h1 h2
          · cases hm : makeOrdersCoeffs [(n - 1, n)] (n - 1) false <;> rw [hm] at ho <;> cases ho
          · cases hm : makeOrdersCoeffs [(n - 1, n * n), (n - 3, -(n - 1) * (n - 2))] (n - 1) false <;> rw [hm] at ho <;> cases ho
          · exact h.elim h1 h2
      · exact absurd (hfound.2 (h.imp (fun h => h.later hl) id)) (by decide)

end Verif.Proofs
