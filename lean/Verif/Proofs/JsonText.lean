import Verif.Model.JsonText
import Verif.Proofs.Json

/-!
# Lemmas about the text of the saved files
-/

namespace Verif.Proofs
open Verif.Model

/-! ### A longer text is read in the same way -/

theorem skipWs_append (s t : List Char) (h : skipWs s ≠ []) : skipWs (s ++ t) = skipWs s ++ t := by
  unfold skipWs at *
  rw [List.dropWhile_append]
  cases hs : List.dropWhile isWs s with
  | nil => exact absurd hs h
  | cons a l => simp

/-- How a string is read. -/
inductive StrAt : List Char → List Char → List Char → Prop
  | close (r : List Char) : StrAt ('"' :: r) [] r
  | plain {c : Char} {s t r : List Char} (h1 : c ≠ '"') (h2 : c ≠ '\\') (h3 : ¬ c.toNat < 32) (h : StrAt s t r) : StrAt (c :: s) (c :: t) r
  | esc {e x : Char} {s t r : List Char} (he : unescape e = some x) (h : StrAt s t r) : StrAt ('\\' :: e :: s) (x :: t) r
  | code {a b c d x : Char} {s t r : List Char} (he : hexChar a b c d = some x) (h : StrAt s t r) : StrAt ('\\' :: 'u' :: a :: b :: c :: d :: s) (x :: t) r

theorem scanString_some (s t r : List Char) : scanString s = some (t, r) ↔ StrAt s t r := by
  constructor
  · fun_induction scanString s generalizing t r <;> intro h
    all_goals first | (simp only [Option.some.injEq, Prod.mk.injEq, reduceCtorEq] at h; done) | skip
    · simp only [Option.some.injEq, Prod.mk.injEq] at h
      obtain ⟨rfl, rfl⟩ := h
      exact .close _
    · rename_i he _ _ hs ih
      simp only [Option.some.injEq, Prod.mk.injEq] at h
      obtain ⟨rfl, rfl⟩ := h
      exact .code he (ih _ _ hs)
    · rename_i he _ _ hs ih
      simp only [Option.some.injEq, Prod.mk.injEq] at h
      obtain ⟨rfl, rfl⟩ := h
      exact .esc he (ih _ _ hs)
    · rename_i c s h1 _ h2 h2' h3 _ _ hs ih
      simp only [Option.some.injEq, Prod.mk.injEq] at h
      obtain ⟨rfl, rfl⟩ := h
      refine .plain h1 (fun e => ?_) h3 (ih _ _ hs)
      cases s with
      | nil => exact h2' e rfl
      | cons d q => exact h2 d q e rfl
  · intro h
    induction h with
    | close r => simp [scanString]
    | plain h1 h2 h3 h ih =>
      rw [scanString]
      · simp [h3, ih]
      · exact h1
      · exact fun _ _ _ _ _ e => absurd e h2
      · exact fun _ _ e => absurd e h2
      · exact fun e => absurd e h2
    | esc he h ih =>
      rw [scanString]
      · simp [he, ih]
      · rintro _ _ _ _ _ rfl
        exact absurd he (by simp [unescape])
    | code he h ih => simp [scanString, he, ih]

theorem scanString_append (s t a r : List Char) (h : scanString s = some (a, r)) : scanString (s ++ t) = some (a, r ++ t) := by
  rw [scanString_some] at h ⊢
  induction h with
  | close r => exact .close _
  | plain h1 h2 h3 _ ih => exact .plain h1 h2 h3 ih
  | esc he _ ih => exact .esc he ih
  | code he _ ih => exact .code he ih

theorem scanNumber_append (s t r : List Char) (v : JVal) (h : scanNumber s = some (v, r)) (hr : r ≠ []) : scanNumber (s ++ t) = some (v, r ++ t) := by
  unfold scanNumber at *
  have hd : List.dropWhile numChar s ≠ [] := by
    split_ifs at h <;> simp only [Option.some.injEq, Prod.mk.injEq] at h <;> rw [h.2] <;> exact hr
  have e1 : List.dropWhile numChar (s ++ t) = List.dropWhile numChar s ++ t := by
    rw [List.dropWhile_append]
    cases hs : List.dropWhile numChar s with
    | nil => exact absurd hs hd
    | cons a l => simp
  have e2 : List.takeWhile numChar (s ++ t) = List.takeWhile numChar s := by
    rw [List.takeWhile_append]
    rw [if_neg]
    intro hl
    have := List.takeWhile_append_dropWhile (p := numChar) (l := s)
    have hlen := congrArg List.length this
    rw [List.length_append, hl] at hlen
    exact hd (List.length_eq_zero_iff.1 (by omega))
  rw [e1, e2]
  split_ifs at h ⊢ <;> simp only [Option.some.injEq, Prod.mk.injEq] at h ⊢ <;> exact ⟨h.1, by rw [h.2]⟩

theorem scanNumber_nil : scanNumber [] = none := by
  simp [scanNumber, isNumber, dropMinus, afterIntPart, jsonLiterals]

theorem scanNumber_num (s r : List Char) (v : JVal) (h : scanNumber s = some (v, r)) : ∃ tok, v = .num tok ∨ v = .lit tok := by
  unfold scanNumber at h
  split_ifs at h <;> simp only [Option.some.injEq, Prod.mk.injEq] at h
  · exact ⟨_, .inl h.1.symm⟩
  · exact ⟨_, .inr h.1.symm⟩

theorem scanElems_some (f : Nat) (s r : List Char) (l : List JVal) : scanElems (f + 1) s = some (l, r) ↔ ∃ v r1, scanValue f s = some (v, r1) ∧
    ((skipWs r1 = ']' :: r ∧ l = [v]) ∨ ∃ r2 l', skipWs r1 = ',' :: r2 ∧ scanElems f (skipWs r2) = some (l', r) ∧ l = v :: l') := by
  rw [scanElems]
  cases hv : scanValue f s with
  | none => simp
  | some p =>
    obtain ⟨v, r1⟩ := p
    simp only [Option.some.injEq, Prod.mk.injEq]
    constructor
    · intro h
      refine ⟨v, r1, ⟨rfl, rfl⟩, ?_⟩
      split at h
      · next q e =>
        simp only [Option.some.injEq, Prod.mk.injEq] at h
        exact .inl ⟨by rw [e, h.2], h.1.symm⟩
      · next q e =>
        cases hl : scanElems f (skipWs q) with
        | none => rw [hl] at h; cases h
        | some p =>
          obtain ⟨l', r'⟩ := p
          rw [hl] at h
          simp only [Option.some.injEq, Prod.mk.injEq] at h
          exact .inr ⟨q, l', e, by rw [hl, h.2], h.1.symm⟩
      · cases h
    · rintro ⟨_, _, ⟨rfl, rfl⟩, ⟨e, rfl⟩ | ⟨r2, l', e, h, rfl⟩⟩
      · simp only [e]
      · simp only [e, h]

theorem scanMembers_some (f : Nat) (s r : List Char) (l : List (List Char × JVal)) : scanMembers (f + 1) s = some (l, r) ↔
    ∃ k v s0 r0 r1 r2, s = '"' :: s0 ∧ scanString s0 = some (k, r0) ∧ skipWs r0 = ':' :: r1 ∧ scanValue f (skipWs r1) = some (v, r2) ∧
    ((skipWs r2 = '}' :: r ∧ l = [(k, v)]) ∨ ∃ r3 l', skipWs r2 = ',' :: r3 ∧ scanMembers f (skipWs r3) = some (l', r) ∧ l = (k, v) :: l') := by
  rw [scanMembers.eq_def]
  simp only
  constructor
  · intro h
    split at h
    · next s0 =>
      split at h
      · cases h
      · next k r0 hk =>
        split at h
        · next r1 h1 =>
          split at h
          · cases h
          · next v r2 hv =>
            refine ⟨k, v, s0, r0, r1, r2, rfl, hk, h1, hv, ?_⟩
            split at h
            · next q e =>
              simp only [Option.some.injEq, Prod.mk.injEq] at h
              exact .inl ⟨by rw [e, h.2], h.1.symm⟩
            · next q e =>
              split at h
              · cases h
              · next l' r' hl =>
                simp only [Option.some.injEq, Prod.mk.injEq] at h
                exact .inr ⟨q, l', e, by rw [hl, h.2], h.1.symm⟩
            · cases h
        · cases h
    · cases h
  · rintro ⟨k, v, s0, r0, r1, r2, rfl, h1, h2, h3, ⟨e, rfl⟩ | ⟨r3, l', e, h, rfl⟩⟩
    · simp only [h1, h2, h3, e]
    · simp only [h1, h2, h3, e, h]

/-- What a value at the beginning of a text is. -/
inductive ValueAt (f : Nat) : List Char → JVal → List Char → Prop
  | str (s t r : List Char) (h : scanString s = some (t, r)) : ValueAt f ('"' :: s) (.str t) r
  | arr0 (s r : List Char) (h : skipWs s = ']' :: r) : ValueAt f ('[' :: s) (.arr []) r
  | arr (s r : List Char) (l : List JVal) (h1 : ∀ q, skipWs s ≠ ']' :: q) (h2 : scanElems f (skipWs s) = some (l, r)) : ValueAt f ('[' :: s) (.arr l) r
  | obj0 (s r : List Char) (h : skipWs s = '}' :: r) : ValueAt f ('{' :: s) (.obj []) r
  | obj (s r : List Char) (l : List (List Char × JVal)) (h1 : ∀ q, skipWs s ≠ '}' :: q) (h2 : scanMembers f (skipWs s) = some (l, r)) : ValueAt f ('{' :: s) (.obj l) r
  | num (s r : List Char) (v : JVal) (h1 : ∀ q, s ≠ '"' :: q) (h2 : ∀ q, s ≠ '[' :: q) (h3 : ∀ q, s ≠ '{' :: q) (h : scanNumber s = some (v, r)) : ValueAt f s v r

theorem scanValue_some (f : Nat) (s r : List Char) (v : JVal) : scanValue (f + 1) s = some (v, r) ↔ ValueAt f s v r := by
  constructor
  · intro h
    rw [scanValue.eq_def] at h
    simp only at h
    split at h
    · split at h
      · cases h
      · next hs => cases h; exact .str _ _ _ hs
    · next q =>
      split at h
      · next e => cases h; exact .arr0 _ _ e
      · next r0 hne =>
        split at h
        · cases h
        · next hl => cases h; exact .arr _ _ _ hne hl
    · next q =>
      split at h
      · next e => cases h; exact .obj0 _ _ e
      · next r0 hne =>
        split at h
        · cases h
        · next hl => cases h; exact .obj _ _ _ hne hl
    · next h1 h2 h3 => exact .num _ _ _ h1 h2 h3 h
  · intro h
    rw [scanValue.eq_def]
    simp only
    cases h with
    | str s t r h => simp only [h]
    | arr0 s r h => simp only [h]
    | arr s r l h1 h2 =>
      simp only [h2]
    | obj0 s r h => simp only [h]
    | obj s r l h1 h2 =>
      simp only [h2]
    | num s r v h1 h2 h3 h =>
      split
      · exact absurd rfl (h1 _)
      · exact absurd rfl (h2 _)
      · exact absurd rfl (h3 _)
      · exact h

theorem scan_append (f : Nat) :
    (∀ s v r t f', f ≤ f' → scanValue f s = some (v, r) → (r ≠ [] ∨ ∀ tok, v ≠ .num tok ∧ v ≠ .lit tok) → scanValue f' (s ++ t) = some (v, r ++ t)) ∧
    (∀ s l r t f', f ≤ f' → scanElems f s = some (l, r) → scanElems f' (s ++ t) = some (l, r ++ t)) ∧
    (∀ s l r t f', f ≤ f' → scanMembers f s = some (l, r) → scanMembers f' (s ++ t) = some (l, r ++ t)) := by
  induction f with
  | zero =>
    refine ⟨?_, ?_, ?_⟩
    · intro s v r t f' _ h; simp [scanValue] at h
    · intro s v r t f' _ h; simp [scanElems] at h
    · intro s v r t f' _ h; simp [scanMembers] at h
  | succ f ih =>
    obtain ⟨ihv, ihe, ihm⟩ := ih
    have app : ∀ {s r : List Char} {c : Char} (t : List Char), skipWs s = c :: r → skipWs (s ++ t) = c :: (r ++ t) := by
      intro s r c t h
      rw [skipWs_append s t (by rw [h]; simp), h, List.cons_append]
    have nne : ∀ {s r : List Char} {c : Char}, skipWs s = c :: r → s ≠ [] := by
      intro s r c h e
      subst e
      simp [skipWs] at h
    have ene : ∀ {s r : List Char} {l : List JVal}, scanElems f s = some (l, r) → s ≠ [] := by
      intro s r l h e
      subst e
      rcases f with _ | f
      · simp [scanElems] at h
      · obtain ⟨v, r1, h1, _⟩ := (scanElems_some ..).1 h
        rcases f with _ | f
        · simp [scanValue] at h1
        · have := (scanValue_some ..).1 h1
          cases this with
          | num => rename_i h; simp [scanNumber_nil] at h
    have mne : ∀ {s r : List Char} {l : List (List Char × JVal)}, scanMembers f s = some (l, r) → s ≠ [] := by
      intro s r l h e
      subst e
      rcases f with _ | f
      · simp [scanMembers] at h
      · obtain ⟨k, v, s0, r0, r1, r2, h1, _⟩ := (scanMembers_some ..).1 h
        cases h1
    have vne : ∀ {s r : List Char} {v : JVal}, scanValue f s = some (v, r) → s ≠ [] := by
      intro s r v h e
      subst e
      rcases f with _ | f
      · simp [scanValue] at h
      · have := (scanValue_some ..).1 h
        cases this with
        | num => rename_i h; simp [scanNumber_nil] at h
    refine ⟨?_, ?_, ?_⟩
    · intro s v r t f' hf h hr
      obtain ⟨f', rfl⟩ : ∃ g, f' = g + 1 := ⟨f' - 1, by omega⟩
      have hf : f ≤ f' := by omega
      rw [scanValue_some] at h ⊢
      cases h with
      | str s t' r h => exact .str _ _ _ (scanString_append _ _ _ _ h)
      | arr0 s r h => exact .arr0 _ _ (app t h)
      | arr s r l h1 h2 =>
        have hne := ene h2
        refine .arr (s ++ t) _ _ ?_ ?_
        · intro q e
          rw [skipWs_append s t hne] at e
          cases hs : skipWs s with
          | nil => exact hne hs
          | cons c s' =>
            rw [hs] at e
            simp only [List.cons_append, List.cons.injEq] at e
            exact h1 s' (by rw [hs, e.1])
        · rw [skipWs_append s t hne]
          exact ihe _ _ _ _ _ hf h2
      | obj0 s r h => exact .obj0 _ _ (app t h)
      | obj s r l h1 h2 =>
        have hne := mne h2
        refine .obj (s ++ t) _ _ ?_ ?_
        · intro q e
          rw [skipWs_append s t hne] at e
          cases hs : skipWs s with
          | nil => exact hne hs
          | cons c s' =>
            rw [hs] at e
            simp only [List.cons_append, List.cons.injEq] at e
            exact h1 s' (by rw [hs, e.1])
        · rw [skipWs_append s t hne]
          exact ihm _ _ _ _ _ hf h2
      | num s r v h1 h2 h3 h =>
        obtain ⟨tok, htok⟩ := scanNumber_num _ _ _ h
        have hr' : r ≠ [] := hr.resolve_right fun hh => htok.elim (hh tok).1 (hh tok).2
        cases s with
        | nil => simp [scanNumber_nil] at h
        | cons c s =>
          have key : ∀ d : Char, (∀ q, c :: s ≠ d :: q) → ∀ q, c :: s ++ t ≠ d :: q := by
            intro d hd q e
            simp only [List.cons_append, List.cons.injEq] at e
            exact hd s (by rw [e.1])
          exact .num _ _ _ (key _ h1) (key _ h2) (key _ h3) (scanNumber_append _ _ _ _ h hr')
    · intro s l r t f' hf h
      obtain ⟨f', rfl⟩ : ∃ g, f' = g + 1 := ⟨f' - 1, by omega⟩
      have hf : f ≤ f' := by omega
      rw [scanElems_some] at h ⊢
      obtain ⟨v, r1, h1, ⟨h2, rfl⟩ | ⟨r2, l', h2, h3, rfl⟩⟩ := h
      · exact ⟨v, r1 ++ t, ihv _ _ _ _ _ hf h1 (.inl (nne h2)), .inl ⟨app t h2, rfl⟩⟩
      · refine ⟨v, r1 ++ t, ihv _ _ _ _ _ hf h1 (.inl (nne h2)), .inr ⟨r2 ++ t, l', app t h2, ?_, rfl⟩⟩
        rw [skipWs_append _ _ (ene h3)]
        exact ihe _ _ _ _ _ hf h3
    · intro s l r t f' hf h
      obtain ⟨f', rfl⟩ : ∃ g, f' = g + 1 := ⟨f' - 1, by omega⟩
      have hf : f ≤ f' := by omega
      rw [scanMembers_some] at h ⊢
      obtain ⟨k, v, s0, r0, r1, r2, rfl, h0, h1, h2, h3⟩ := h
      refine ⟨k, v, s0 ++ t, r0 ++ t, r1 ++ t, r2 ++ t, rfl, scanString_append _ _ _ _ h0, app t h1, ?_, ?_⟩
      · rw [skipWs_append _ _ (vne h2)]
        refine ihv _ _ _ _ _ hf h2 (.inl ?_)
        rcases h3 with ⟨h3, _⟩ | ⟨_, _, h3, _⟩ <;> exact nne h3
      · rcases h3 with ⟨h3, rfl⟩ | ⟨r3, l', h3, h4, rfl⟩
        · exact .inl ⟨app t h3, rfl⟩
        · refine .inr ⟨r3 ++ t, l', app t h3, ?_, rfl⟩
          rw [skipWs_append _ _ (mne h4)]
          exact ihm _ _ _ _ _ hf h4

/-- A text of an object is not the beginning of the text of an object. -/
theorem jsonLoad_prefix (text p t : List Char) (q : List Char) (hq : text = '{' :: q) (v : JVal) (h : scanValue (text.length + 1) text = some (v, []))
    (hp : p ++ t = text) (ht : t ≠ []) : jsonLoad p = .error .valueError := by
  unfold jsonLoad
  cases hs : scanValue (p.length + 1) (skipWs p) with
  | none => rfl
  | some x =>
    exfalso
    obtain ⟨w, r⟩ := x
    cases p with
    | nil =>
      simp only [skipWs, List.dropWhile_nil] at hs
      have := (scanValue_some ..).1 hs
      cases this with
      | num => rename_i h; simp [scanNumber_nil] at h
    | cons c p =>
      have hc : c = '{' := by
        rw [hq, List.cons_append] at hp
        exact (List.cons.inj hp).1
      subst hc
      have e : skipWs ('{' :: p) = '{' :: p := by simp [skipWs, isWs]
      rw [e] at hs
      have hobj : ∀ tok, w ≠ .num tok ∧ w ≠ .lit tok := by
        have := (scanValue_some ..).1 hs
        cases this with
        | obj0 => simp
        | obj => simp
        | num => rename_i h3 h; exact absurd rfl (h3 _)
      have := (scan_append _).1 _ _ _ t (text.length + 1) (by rw [← hp]; simp) hs (.inr hobj)
      rw [hp, h] at this
      simp only [Option.some.injEq, Prod.mk.injEq] at this
      have := this.2
      simp [eq_comm] at this
      exact ht this.2

end Verif.Proofs
