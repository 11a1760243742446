import Verif.Model.SharedFile
import Verif.Proofs.JsonText3

/-! # Several processes that save to the same file -/

namespace Verif.Proofs
open Verif.Model

/-! ### Texts with zero bytes cannot be read -/

/-- `r` is the rest of `s` after characters without a zero byte. -/
def CleanRest (s r : List Char) : Prop := ∃ p, s = p ++ r ∧ '\x00' ∉ p

theorem CleanRest.refl (s : List Char) : CleanRest s s := ⟨[], rfl, by simp⟩

theorem CleanRest.trans {s r t : List Char} (h1 : CleanRest s r) (h2 : CleanRest r t) : CleanRest s t := by
  obtain ⟨p, rfl, hp⟩ := h1
  obtain ⟨q, rfl, hq⟩ := h2
  exact ⟨p ++ q, by simp, by simp [hp, hq]⟩

theorem CleanRest.cons {c : Char} (hc : c ≠ '\x00') (s : List Char) : CleanRest (c :: s) s := ⟨[c], rfl, by simpa using hc.symm⟩

theorem cleanRest_dropWhile (p : Char → Bool) (hp : p '\x00' = false) (s : List Char) : CleanRest s (s.dropWhile p) := by
  refine ⟨s.takeWhile p, (List.takeWhile_append_dropWhile).symm, fun h => ?_⟩
  have := List.all_eq_true.1 (List.all_takeWhile (p := p) (l := s)) _ h
  rw [hp] at this
  cases this

theorem cleanRest_skipWs (s : List Char) : CleanRest s (skipWs s) := cleanRest_dropWhile isWs (by decide) s

theorem cleanRest_skip {s r : List Char} {c : Char} (hc : c ≠ '\x00') (h : skipWs s = c :: r) : CleanRest s r := by
  have := cleanRest_skipWs s
  rw [h] at this
  exact this.trans (.cons hc r)

theorem scanString_clean (s a r : List Char) (h : scanString s = some (a, r)) : CleanRest s r := by
  rw [scanString_some] at h
  induction h with
  | close r => exact .cons (by decide) _
  | plain _ _ h3 _ ih => exact (CleanRest.cons (by rintro rfl; exact h3 (by decide)) _).trans ih
  | esc he _ ih => exact (CleanRest.cons (by decide) _).trans ((CleanRest.cons (by rintro rfl; simp [unescape] at he) _).trans ih)
  | code he _ ih =>
    refine (CleanRest.cons (by decide) _).trans ((CleanRest.cons (by decide) _).trans ((CleanRest.cons ?_ _).trans ((CleanRest.cons ?_ _).trans
      ((CleanRest.cons ?_ _).trans ((CleanRest.cons ?_ _).trans ih)))))
    all_goals
      rintro rfl
      have h0 : hexDigit '\x00' = none := rfl
      simp [hexChar, h0] at he

theorem scanNumber_clean (s r : List Char) (v : JVal) (h : scanNumber s = some (v, r)) : CleanRest s r := by
  unfold scanNumber at h
  split_ifs at h <;> simp only [Option.some.injEq, Prod.mk.injEq] at h <;> rw [← h.2] <;> exact cleanRest_dropWhile numChar (by decide) s

theorem scan_clean (f : Nat) : (∀ s v r, scanValue f s = some (v, r) → CleanRest s r) ∧ (∀ s l r, scanElems f s = some (l, r) → CleanRest s r) ∧
    (∀ s l r, scanMembers f s = some (l, r) → CleanRest s r) := by
  induction f with
  | zero =>
    refine ⟨?_, ?_, ?_⟩
    · intro s v r h; simp [scanValue] at h
    · intro s v r h; simp [scanElems] at h
    · intro s v r h; simp [scanMembers] at h
  | succ f ih =>
    obtain ⟨ihv, ihe, ihm⟩ := ih
    refine ⟨?_, ?_, ?_⟩
    · intro s v r h
      rw [scanValue_some] at h
      cases h with
      | str s t' r h => exact (CleanRest.cons (by decide) _).trans (scanString_clean _ _ _ h)
      | arr0 s r h => exact (CleanRest.cons (by decide) _).trans (cleanRest_skip (by decide) h)
      | arr s r l h1 h2 => exact (CleanRest.cons (by decide) _).trans ((cleanRest_skipWs s).trans (ihe _ _ _ h2))
      | obj0 s r h => exact (CleanRest.cons (by decide) _).trans (cleanRest_skip (by decide) h)
      | obj s r l h1 h2 => exact (CleanRest.cons (by decide) _).trans ((cleanRest_skipWs s).trans (ihm _ _ _ h2))
      | num s r v h1 h2 h3 h => exact scanNumber_clean _ _ _ h
    · intro s l r h
      rw [scanElems_some] at h
      obtain ⟨v, r1, h1, ⟨h2, rfl⟩ | ⟨r2, l', h2, h3, rfl⟩⟩ := h
      · exact (ihv _ _ _ h1).trans (cleanRest_skip (by decide) h2)
      · exact (ihv _ _ _ h1).trans ((cleanRest_skip (by decide) h2).trans ((cleanRest_skipWs _).trans (ihe _ _ _ h3)))
    · intro s l r h
      rw [scanMembers_some] at h
      obtain ⟨k, v, s0, r0, r1, r2, rfl, h0, h1, h2, h3⟩ := h
      have a := (CleanRest.cons (c := '"') (by decide) s0).trans ((scanString_clean _ _ _ h0).trans ((cleanRest_skip (by decide) h1).trans
        ((cleanRest_skipWs _).trans (ihv _ _ _ h2))))
      rcases h3 with ⟨h3, rfl⟩ | ⟨r3, l', h3, h4, rfl⟩
      · exact a.trans (cleanRest_skip (by decide) h3)
      · exact a.trans ((cleanRest_skip (by decide) h3).trans ((cleanRest_skipWs _).trans (ihm _ _ _ h4)))

/-- A text with a zero byte is not read. -/
theorem jsonLoad_zero (s : List Char) (h : '\x00' ∈ s) : jsonLoad s = .error .valueError := by
  unfold jsonLoad
  cases hs : scanValue (s.length + 1) (skipWs s) with
  | none => rfl
  | some x =>
    obtain ⟨v, r⟩ := x
    simp only
    rw [if_neg]
    intro hr
    have h1 := (cleanRest_skipWs s).trans (((scan_clean _).1 _ _ _ hs).trans (cleanRest_skipWs r))
    rw [hr] at h1
    obtain ⟨p, rfl, hp⟩ := h1
    simp at h
    exact hp h

theorem readText_zero (N : NumberText) (t : PsfObj) (s : List Char) (h : '\x00' ∈ s) : t.readText N (some s) = (.error .valueError, t) := by
  unfold PsfObj.readText
  simp only [jsonLoad_zero s h]

/-- A document followed by something that is not white space. -/
theorem jsonLoad_tail (text q t : List Char) (hq : text = '{' :: q) (v : JVal) (h : scanValue (text.length + 1) text = some (v, [])) (ht : skipWs t ≠ []) :
    jsonLoad (text ++ t) = .error .valueError := by
  unfold jsonLoad
  have e : skipWs (text ++ t) = text ++ t := by rw [hq]; simp [skipWs, isWs]
  have hobj : ∀ tok, v ≠ .num tok ∧ v ≠ .lit tok := by
    rw [hq] at h
    have := (scanValue_some ..).1 h
    cases this with
    | obj0 => simp
    | obj => simp
    | num => rename_i h3 h; exact absurd rfl (h3 _)
  rw [e, (scan_append _).1 _ _ _ t ((text ++ t).length + 1) (by simp) h (.inr hobj)]
  simp [ht]

/-! ### Positions -/

theorem writeAt_length (s : List Char) (k : Nat) (c : Char) : (writeAt s k c).length = max s.length (k + 1) := by
  unfold writeAt
  split_ifs with h
  · rw [List.length_set]; omega
  · simp; omega

theorem writeAt_get (s : List Char) (k : Nat) (c : Char) (j : Nat) :
    (writeAt s k c)[j]? = if j = k then some c else if j < s.length then s[j]? else if j < k then some '\x00' else none := by
  unfold writeAt
  by_cases h1 : j = k
  · subst h1
    rw [if_pos rfl]
    split_ifs with h
    · rw [List.getElem?_set_self h]
    · rw [List.getElem?_append_right (by simp; omega)]
      have : j - (s ++ List.replicate (j - s.length) '\x00').length = 0 := by simp; omega
      rw [this]
      rfl
  rw [if_neg h1]
  by_cases h : k < s.length
  · rw [if_pos h, List.getElem?_set_ne (Ne.symm h1)]
    split_ifs with h2 h3
    · rfl
    · omega
    · rw [List.getElem?_eq_none]; omega
  · rw [if_neg h]
    split_ifs with h2 h3
    · rw [List.append_assoc, List.getElem?_append_left h2]
    · rw [List.getElem?_append_left (by simp; omega), List.getElem?_append_right (by omega), List.getElem?_replicate, if_pos (by omega)]
    · rw [List.getElem?_eq_none]; simp; omega

/-! ### Several processes with the same text -/

/-- The file holds characters of the text `T`, at their places, or zero bytes. -/
def PartOf (T c : List Char) : Prop := ∀ j x, c[j]? = some x → T[j]? = some x ∨ x = '\x00' ∧ j < T.length

theorem PartOf.length {T c : List Char} (h : PartOf T c) : c.length ≤ T.length := by
  by_contra hlt
  have hj : T.length < c.length := by omega
  rcases h T.length _ (List.getElem?_eq_getElem hj) with h1 | h1
  · rw [List.getElem?_eq_none le_rfl] at h1; cases h1
  · omega

theorem PartOf.nil (T : List Char) : PartOf T [] := by intro j x h; simp at h

theorem PartOf.write {T c : List Char} (h : PartOf T c) (k : Nat) (x : Char) (hx : T[k]? = some x) : PartOf T (writeAt c k x) := by
  have hk : k < T.length := by
    by_contra hk
    rw [List.getElem?_eq_none (by omega)] at hx; cases hx
  intro j y hy
  rw [writeAt_get] at hy
  split_ifs at hy with h1 h2 h3
  · subst h1; rw [hx]; exact .inl hy
  · exact h j y hy
  · simp only [Option.some.injEq] at hy; exact .inr ⟨hy.symm, by omega⟩

/-- What can be read from it: nothing, or the whole text. -/
theorem PartOf.cases {T c : List Char} (h : PartOf T c) : '\x00' ∈ c ∨ ∃ t, c ++ t = T := by
  by_cases h0 : '\x00' ∈ c
  · exact .inl h0
  · refine .inr ⟨T.drop c.length, ?_⟩
    have hc : c = T.take c.length := by
      apply List.ext_getElem?
      intro j
      by_cases hj : j < c.length
      · rw [List.getElem?_take_of_lt hj]
        rcases h j _ (List.getElem?_eq_getElem hj) with h1 | h1
        · rw [h1, List.getElem?_eq_getElem hj]
        · exact absurd (h1.1 ▸ List.getElem_mem hj) h0
      · rw [List.getElem?_eq_none (by omega), List.getElem?_eq_none (by rw [List.length_take]; omega)]
    conv_lhs => rw [hc]
    rw [List.length_take, min_eq_left h.length]
    exact List.take_append_drop _ _

/-- The invariant. -/
def SameInv (T : List Char) (calls : Nat → SaveCall) (file0 : Option (List Char)) (s : SharedFile) : Prop :=
  (s.file = file0 ∧ ∀ i, (∀ k, s.phase i ≠ .writing k) ∧ (s.phase i = .finished → (calls i).overwrite = false ∧ file0 ≠ none)) ∨
  ∃ c L k, s.file = some c ∧ PartOf T c ∧ (s.phase L = .writing k ∨ s.phase L = .finished ∧ k = T.length) ∧ k ≤ T.length ∧ ∀ j < k, c[j]? = T[j]?

theorem SameInv.step {T : List Char} {calls : Nat → SaveCall} {file0 : Option (List Char)} (hT : ∀ i, (calls i).text = T) {s : SharedFile} (h : SameInv T calls file0 s) (i : Nat) :
    SameInv T calls file0 (s.step calls i) := by
  unfold SharedFile.step
  cases hp : s.phase i with
  | start =>
    simp only
    rcases h with ⟨h1, h2⟩ | ⟨c, L, k, h1, h2, h3, h4, h5⟩
    · refine .inl ⟨h1, fun j => ?_⟩
      simp only
      by_cases hj : j = i
      · subst hj
        rw [Function.update_self]
        split_ifs with hc
        · simp only [Bool.and_eq_true, Bool.not_eq_true', Option.isSome_iff_ne_none, h1] at hc
          exact ⟨by simp, fun _ => ⟨hc.2, hc.1⟩⟩
        · exact ⟨by simp, by simp⟩
      · rw [Function.update_of_ne hj]; exact h2 j
    · refine .inr ⟨c, L, k, h1, h2, ?_, h4, h5⟩
      have hL : L ≠ i := by
        rintro rfl
        rw [hp] at h3
        rcases h3 with h3 | ⟨h3, _⟩ <;> cases h3
      simp only
      rw [Function.update_of_ne hL]; exact h3
  | opening =>
    refine .inr ⟨[], i, 0, rfl, PartOf.nil T, .inl ?_, by omega, fun j hj => by omega⟩
    simp
  | writing k' =>
    simp only
    rcases h with ⟨h1, h2⟩ | ⟨c, L, k, h1, h2, h3, h4, h5⟩
    · exact absurd hp ((h2 i).1 k')
    · rw [hT i]
      cases hx : T[k']? with
      | some x =>
        have hk' : k' < T.length := by
          by_contra hk
          rw [List.getElem?_eq_none (by omega)] at hx; cases hx
        simp only [h1, Option.getD_some]
        have hget : ∀ m, (∀ j < m, c[j]? = T[j]?) → m ≤ T.length → ∀ j < m, (writeAt c k' x)[j]? = T[j]? := by
          intro m hm hmT j hj
          rw [writeAt_get]
          split_ifs with a b d
          · subst a; exact hx.symm
          · exact hm j hj
          · have := hm j hj
            rw [List.getElem?_eq_none (by omega), List.getElem?_eq_getElem (by omega : j < T.length)] at this; cases this
          · have := hm j hj
            rw [List.getElem?_eq_none (by omega)] at this; exact this
        by_cases hL : L = i
        · subst hL
          have hkk : k = k' := by
            rw [hp] at h3
            rcases h3 with h3 | ⟨h3, _⟩
            · exact (SavePhase.writing.inj h3).symm
            · cases h3
          subst hkk
          refine .inr ⟨_, L, k + 1, rfl, h2.write k x hx, .inl (by simp), by omega, fun j hj => ?_⟩
          by_cases hjk : j = k
          · subst hjk
            rw [writeAt_get, if_pos rfl, hx]
          · exact hget k h5 h4 j (by omega)
        · refine .inr ⟨_, L, k, rfl, h2.write k' x hx, ?_, h4, hget k h5 h4⟩
          simp only
          rw [Function.update_of_ne hL]; exact h3
      | none =>
        have hk' : T.length ≤ k' := List.getElem?_eq_none_iff.1 hx
        simp only
        by_cases hL : L = i
        · subst hL
          have hkk : k = k' := by
            rw [hp] at h3
            rcases h3 with h3 | ⟨h3, _⟩
            · exact (SavePhase.writing.inj h3).symm
            · cases h3
          subst hkk
          exact .inr ⟨c, L, k, h1, h2, .inr ⟨by simp, by omega⟩, h4, h5⟩
        · refine .inr ⟨c, L, k, h1, h2, ?_, h4, h5⟩
          simp only
          rw [Function.update_of_ne hL]; exact h3
  | finished => exact h

theorem SameInv.run {T : List Char} {calls : Nat → SaveCall} {file0 : Option (List Char)} (hT : ∀ i, (calls i).text = T) (σ : List Nat) :
    SameInv T calls file0 ((SharedFile.before file0).run calls σ) := by
  have : ∀ s, SameInv T calls file0 s → SameInv T calls file0 (s.run calls σ) := by
    induction σ with
    | nil => exact fun s h => h
    | cons i σ ih => exact fun s h => ih _ (h.step hT i)
  exact this _ (.inl ⟨rfl, fun i => ⟨by simp [SharedFile.before], by simp [SharedFile.before]⟩⟩)

theorem SameInv.quiet {T : List Char} {calls : Nat → SaveCall} {file0 : Option (List Char)} {s : SharedFile} (h : SameInv T calls file0 s)
    (hq : ∀ i k, s.phase i ≠ .writing k) :
    (s.file = file0 ∧ ∀ i, s.phase i = .finished → (calls i).overwrite = false ∧ file0 ≠ none) ∨ s.file = some T := by
  rcases h with ⟨h1, h2⟩ | ⟨c, L, k, h1, h2, h3, h4, h5⟩
  · exact .inl ⟨h1, fun i => (h2 i).2⟩
  · refine .inr ?_
    rcases h3 with h3 | ⟨_, rfl⟩
    · exact absurd h3 (hq L k)
    · rw [h1]
      congr 1
      apply List.ext_getElem?
      intro j
      by_cases hj : j < T.length
      · exact h5 j hj
      · rw [List.getElem?_eq_none (by have := h2.length; omega), List.getElem?_eq_none (by omega)]

/-! ### One process acts alone -/

theorem saves_run_append (calls : Nat → SaveCall) (s : SharedFile) (σ τ : List Nat) : s.run calls (σ ++ τ) = (s.run calls σ).run calls τ := by
  unfold SharedFile.run; rw [List.foldl_append]

/-- A process writes `n` characters from its position `a` on, which is not after the end of the file. -/
theorem run_from (calls : Nat → SaveCall) (s : SharedFile) (i a n : Nat) (c : List Char) (hf : s.file = some c) (hp : s.phase i = .writing a) (ha : a ≤ c.length)
    (hn : a + n ≤ (calls i).text.length) :
    ∃ F, s.run calls (List.replicate n i) = ⟨some F, Function.update s.phase i (.writing (a + n))⟩ ∧
      ∀ j, F[j]? = if a ≤ j ∧ j < a + n then (calls i).text[j]? else c[j]? := by
  induction n with
  | zero =>
    refine ⟨c, ?_, fun j => by rw [if_neg (by omega)]⟩
    obtain ⟨f, p⟩ := s
    simp only at hf hp
    subst hf
    simp only [List.replicate_zero, SharedFile.run, List.foldl_nil, Nat.add_zero, ← hp, Function.update_eq_self]
  | succ n ih =>
    obtain ⟨F, h1, h2⟩ := ih (by omega)
    have hk : a + n < (calls i).text.length := by omega
    refine ⟨writeAt F (a + n) (calls i).text[a + n], ?_, fun j => ?_⟩
    · rw [List.replicate_succ', saves_run_append, h1]
      show SharedFile.step calls _ i = _
      unfold SharedFile.step
      simp only [Function.update_self, List.getElem?_eq_getElem hk, Option.getD_some, Function.update_idem]
      rfl
    · have hlen : a + n ≤ F.length := by
        by_contra hlt
        by_cases h0 : n = 0
        · have := h2 F.length
          rw [if_neg (by omega), List.getElem?_eq_none le_rfl] at this
          have := List.getElem?_eq_none_iff.1 this.symm
          omega
        · rcases Nat.lt_or_ge F.length a with hFa | hFa
          · have := h2 F.length
            rw [if_neg (by omega), List.getElem?_eq_none le_rfl] at this
            have := List.getElem?_eq_none_iff.1 this.symm
            omega
          · have := h2 F.length
            rw [if_pos (by omega), List.getElem?_eq_none le_rfl] at this
            have := List.getElem?_eq_none_iff.1 this.symm
            omega
      rw [writeAt_get]
      by_cases b : j = a + n
      · subst b
        rw [if_pos rfl, if_pos (by omega), List.getElem?_eq_getElem hk]
      have hR : (if a ≤ j ∧ j < a + (n + 1) then (calls i).text[j]? else c[j]?) = F[j]? := by
        rw [h2 j]
        by_cases q : a ≤ j ∧ j < a + n
        · rw [if_pos (by omega), if_pos q]
        · rw [if_neg (by omega), if_neg q]
      rw [if_neg b, hR]
      split_ifs with e g
      · rfl
      · omega
      · rw [List.getElem?_eq_none (by omega)]

/-- The first part of the file is replaced by the first part of a text. -/
def overlay (T c : List Char) (k : Nat) : List Char := T.take k ++ c.drop k

theorem write_overlay (T c : List Char) (k : Nat) (x : Char) (hx : T[k]? = some x) : writeAt (overlay T c k) k x = overlay T c (k + 1) := by
  have hk : k < T.length := by
    by_contra hk
    rw [List.getElem?_eq_none (by omega)] at hx; cases hx
  have hget : ∀ m j, m ≤ T.length → (overlay T c m)[j]? = if j < m then T[j]? else c[j]? := by
    intro m j hm
    unfold overlay
    split_ifs with hj
    · rw [List.getElem?_append_left (by rw [List.length_take]; omega), List.getElem?_take_of_lt hj]
    · rw [List.getElem?_append_right (by rw [List.length_take]; omega), List.getElem?_drop, List.length_take]
      congr 1
      omega
  have hlen : (overlay T c k).length = k + (c.length - k) := by unfold overlay; rw [List.length_append, List.length_take, List.length_drop]; omega
  apply List.ext_getElem?
  intro j
  rw [writeAt_get, hget (k + 1) j hk, hlen]
  split_ifs with a b d e f g
  · subst a; exact hx.symm
  · omega
  · rw [hget k j (by omega), if_pos (by omega)]
  · rw [hget k j (by omega), if_neg (by omega)]
  · omega
  · omega
  · omega
  · rw [List.getElem?_eq_none (by omega)]

/-- A process writes `n` characters. -/
theorem run_writing (calls : Nat → SaveCall) (s : SharedFile) (i k n : Nat) (c : List Char) (hf : s.file = some (overlay (calls i).text c k)) (hp : s.phase i = .writing k)
    (hn : k + n ≤ (calls i).text.length) :
    s.run calls (List.replicate n i) = ⟨some (overlay (calls i).text c (k + n)), Function.update s.phase i (.writing (k + n))⟩ := by
  induction n generalizing s k with
  | zero =>
    obtain ⟨f, p⟩ := s
    simp only at hf hp
    subst hf
    simp only [List.replicate_zero, SharedFile.run, List.foldl_nil, Nat.add_zero, ← hp, Function.update_eq_self]
  | succ n ih =>
    have hk : k < (calls i).text.length := by omega
    have hstep : s.step calls i = ⟨some (overlay (calls i).text c (k + 1)), Function.update s.phase i (.writing (k + 1))⟩ := by
      unfold SharedFile.step
      simp only [hp, List.getElem?_eq_getElem hk, hf, Option.getD_some]
      rw [write_overlay _ _ _ _ (List.getElem?_eq_getElem hk)]
    rw [List.replicate_succ]
    show SharedFile.run calls (s.step calls i) (List.replicate n i) = _
    rw [hstep, ih _ (k + 1) rfl (by simp) (by omega), Function.update_idem]
    congr 2
    · congr 1; omega
    · congr 1; omega

end Verif.Proofs
