import Verif.Proofs.JsonText

/-!
# Lemmas about writing and reading of the text
-/

namespace Verif.Proofs
open Verif.Model

/-! ### Numbers -/

theorem numChar_of_digit {c : Char} (h : c.isDigit = true) : numChar c = true := by simp [numChar, h]

theorem takeWhile_all (r : List Char) : ∀ c ∈ r.takeWhile Char.isDigit, Char.isDigit c = true := by
  induction r with
  | nil => simp
  | cons a r ih =>
    intro c hc
    rw [List.takeWhile_cons] at hc
    split_ifs at hc with h
    · simp only [List.mem_cons] at hc
      rcases hc with rfl | hc
      · exact h
      · exact ih c hc
    · simp at hc

theorem dropWhile_none (r : List Char) (h : ∀ c ∈ r, Char.isDigit c = true) : r.dropWhile Char.isDigit = [] := by
  induction r with
  | nil => rfl
  | cons a r ih => rw [List.dropWhile_cons_of_pos (h a (by simp))]; exact ih fun c hc => h c (by simp [hc])

theorem digits_drop (r : List Char) : ∃ p, r = p ++ r.dropWhile Char.isDigit ∧ ∀ c ∈ p, Char.isDigit c = true :=
  ⟨r.takeWhile Char.isDigit, List.takeWhile_append_dropWhile.symm, fun c h => takeWhile_all r c h⟩

theorem afterIntPart_chars (s r : List Char) (h : afterIntPart s = some r) : ∃ c p, s = c :: p ++ r ∧ c.isDigit = true ∧ ∀ c ∈ p, Char.isDigit c = true := by
  unfold afterIntPart at h
  split at h
  · cases h
    exact ⟨'0', [], rfl, by decide, by simp⟩
  · next c q _ =>
    split_ifs at h with hc
    cases h
    obtain ⟨p, hp, hd⟩ := digits_drop q
    exact ⟨c, p, by rw [List.cons_append, ← hp], hc, hd⟩
  · cases h

theorem afterFraction_chars (s r : List Char) (h : afterFraction s = some r) : ∃ p, s = p ++ r ∧ ∀ c ∈ p, numChar c = true := by
  unfold afterFraction at h
  split at h
  · next c q =>
    split_ifs at h with hc
    cases h
    obtain ⟨p, hp, hd⟩ := digits_drop q
    refine ⟨'.' :: c :: p, by rw [List.cons_append, List.cons_append, ← hp], ?_⟩
    intro d hm
    simp only [List.mem_cons] at hm
    rcases hm with rfl | rfl | hm
    · decide
    · exact numChar_of_digit hc
    · exact numChar_of_digit (hd _ hm)
  · cases h
  · cases h
    exact ⟨[], rfl, by simp⟩

theorem onlyDigits_chars (r : List Char) (h : onlyDigits r = true) : ∀ c ∈ r, numChar c = true := by
  simp only [onlyDigits, Bool.and_eq_true, List.all_eq_true] at h
  exact fun c hc => numChar_of_digit (h.2 c hc)

theorem exponentEnds_chars (r : List Char) (h : exponentEnds r = true) : ∀ c ∈ r, numChar c = true := by
  cases r with
  | nil => simp
  | cons e r =>
    simp only [exponentEnds, Bool.and_eq_true, Bool.or_eq_true, beq_iff_eq] at h
    obtain ⟨he, h⟩ := h
    have h1 : numChar e = true := by rcases he with rfl | rfl <;> decide
    intro c hc
    simp only [List.mem_cons] at hc
    rcases hc with rfl | hc
    · exact h1
    · split at h
      · simp only [List.mem_cons] at hc
        rcases hc with rfl | hc
        · decide
        · exact onlyDigits_chars _ h _ hc
      · simp only [List.mem_cons] at hc
        rcases hc with rfl | hc
        · decide
        · exact onlyDigits_chars _ h _ hc
      · exact onlyDigits_chars _ h _ hc

theorem isNumber_chars (tok : List Char) (h : isNumber tok = true) : (∀ c ∈ tok, numChar c = true) ∧ ∃ c r, tok = c :: r := by
  unfold isNumber at h
  split at h
  · cases h
  · next r1 h1 =>
    split at h
    · cases h
    · next r2 h2 =>
      obtain ⟨c, p, e1, hc, hp⟩ := afterIntPart_chars _ _ h1
      obtain ⟨p2, e2, hp2⟩ := afterFraction_chars _ _ h2
      have h3 := exponentEnds_chars _ h
      have hall : ∀ c ∈ dropMinus tok, numChar c = true := by
        rw [e1, e2]
        intro d hd
        simp only [List.cons_append, List.mem_cons, List.mem_append] at hd
        rcases hd with rfl | hd | hd | hd
        · exact numChar_of_digit hc
        · exact numChar_of_digit (hp _ hd)
        · exact hp2 _ hd
        · exact h3 _ hd
      rcases tok with _ | ⟨d, tok⟩
      · simp [dropMinus] at e1
      · refine ⟨?_, _, _, rfl⟩
        by_cases hd : d = '-'
        · subst hd
          intro c hc
          simp only [List.mem_cons] at hc
          rcases hc with rfl | hc
          · decide
          · exact hall _ hc
        · have : dropMinus (d :: tok) = d :: tok := by
            rw [dropMinus]
            intro r e
            exact hd (List.cons.inj e).1
          rwa [this] at hall

theorem digitChar_digit (d : Nat) (h : d < 10) : (Nat.digitChar d).isDigit = true ∧ (Nat.digitChar d).toNat - 48 = d ∧ (Nat.digitChar d = '0' → d = 0) ∧ Nat.digitChar d ≠ '-' := by
  interval_cases d <;> decide

theorem natText_shape (n : Nat) : ∃ c r, natText n = c :: r ∧ c.isDigit = true ∧ (∀ d ∈ r, Char.isDigit d = true) ∧ (c = '0' → n = 0) ∧ (n < 10 → r = []) := by
  induction n using Nat.strong_induction_on with
  | _ n ih =>
    rw [natText]
    split_ifs with h
    · obtain ⟨h1, _, h2, _⟩ := digitChar_digit n h
      exact ⟨_, [], rfl, h1, by simp, h2, fun _ => rfl⟩
    · obtain ⟨c, r, e, h1, h2, h3, _⟩ := ih (n / 10) (by omega)
      obtain ⟨h4, _⟩ := digitChar_digit (n % 10) (by omega)
      refine ⟨c, r ++ [Nat.digitChar (n % 10)], by rw [e]; rfl, h1, ?_, fun hc => ?_, fun hh => absurd hh h⟩
      · intro d hd
        simp only [List.mem_append, List.mem_singleton] at hd
        rcases hd with hd | rfl
        · exact h2 _ hd
        · exact h4
      · have := h3 hc
        omega

theorem natValue_natText (n : Nat) : natValue (natText n) = n := by
  induction n using Nat.strong_induction_on with
  | _ n ih =>
    rw [natText]
    split_ifs with h
    · simp [natValue, (digitChar_digit n h).2.1]
    · have := ih (n / 10) (by omega)
      unfold natValue at this ⊢
      rw [List.foldl_append, this]
      simp only [List.foldl_cons, List.foldl_nil]
      rw [(digitChar_digit (n % 10) (by omega)).2.1]
      omega

theorem natText_isNumber (n : Nat) : isNumber (natText n) = true ∧ dropMinus (natText n) = natText n ∧ afterIntPart (natText n) = some [] := by
  obtain ⟨c, r, e, h1, h2, h3, h4⟩ := natText_shape n
  have hm : dropMinus (natText n) = natText n := by
    rw [e]
    unfold dropMinus
    split
    · next e' =>
      cases e'
      exact absurd h1 (by decide)
    · rfl
  have ha : afterIntPart (natText n) = some [] := by
    rw [e]
    by_cases hc : c = '0'
    · have := h4 (by rw [h3 hc]; norm_num)
      subst hc this
      rfl
    · rw [afterIntPart]
      · rw [if_pos h1]
        congr 1
        exact dropWhile_none r h2
      · exact hc
  refine ⟨?_, hm, ha⟩
  unfold isNumber
  rw [hm, ha]
  rfl

theorem intText_isNumber (n : Int) : isNumber (intText n) = true := by
  cases n with
  | ofNat n => exact (natText_isNumber n).1
  | negSucc n =>
    unfold isNumber
    have : dropMinus (intText (.negSucc n)) = natText (n + 1) := rfl
    rw [this, (natText_isNumber (n + 1)).2.2]
    rfl

theorem intValue_intText (n : Int) : intValue (intText n) = n := by
  cases n with
  | ofNat n =>
    have : intText (Int.ofNat n) = natText n := rfl
    rw [this]
    obtain ⟨c, r, e, h1, _⟩ := natText_shape n
    have hv := natValue_natText n
    have : intValue (natText n) = (natValue (natText n) : Int) := by
      rw [e]
      unfold intValue
      split
      · next e' =>
        cases e'
        exact absurd h1 (by decide)
      · rfl
    rw [this, hv]; rfl
  | negSucc n =>
    have : intText (Int.negSucc n) = '-' :: natText (n + 1) := rfl
    rw [this]
    have : intValue ('-' :: natText (n + 1)) = -(natValue (natText (n + 1)) : Int) := rfl
    rw [this, natValue_natText]; rfl

/-! ### Values -/

/-- The text does not go on with a character of a number. -/
def Stops (rest : List Char) : Prop := ∀ c r, rest = c :: r → numChar c = false

/-- The text is read as the value, whatever follows, if it does not continue a number. -/
structure Parses (e : List Char) (v : JVal) : Prop where
  head : ∃ c r, e = c :: r ∧ isWs c = false ∧ c ≠ ']'
  scan : ∀ f rest, e.length < f → Stops rest → scanValue f (e ++ rest) = some (v, rest)

theorem numChar_facts (c : Char) (h : numChar c = true) : isWs c = false ∧ c ≠ ']' ∧ c ≠ '"' ∧ c ≠ '[' ∧ c ≠ '{' := by
  have hd : ∀ d : Char, numChar d = false → c ≠ d := by
    intro d hd e; subst e; rw [h] at hd; cases hd
  refine ⟨?_, hd _ (by decide), hd _ (by decide), hd _ (by decide), hd _ (by decide)⟩
  have h1 := hd ' ' (by decide)
  have h2 := hd '\t' (by decide)
  have h3 := hd '\n' (by decide)
  have h4 := hd '\r' (by decide)
  simp [isWs, h1, h2, h3, h4]

theorem parses_token (tok : List Char) (v : JVal) (hc : (∀ c ∈ tok, numChar c = true) ∧ ∃ c r, tok = c :: r)
    (h : ∀ s, s.takeWhile numChar = tok → scanNumber s = some (v, s.dropWhile numChar)) : Parses tok v := by
  obtain ⟨hall, c, r, rfl⟩ := hc
  obtain ⟨f1, f2, f3, f4, f5⟩ := numChar_facts c (hall c (by simp))
  refine ⟨⟨c, r, rfl, f1, f2⟩, ?_⟩
  intro f rest hf hs
  obtain ⟨f, rfl⟩ : ∃ g, f = g + 1 := ⟨f - 1, by omega⟩
  rw [scanValue_some]
  have ht : List.takeWhile numChar (c :: r ++ rest) = c :: r := by
    rw [List.takeWhile_append_of_pos hall]
    cases rest with
    | nil => simp
    | cons d q => rw [List.takeWhile_cons_of_neg (by rw [hs d q rfl]; simp)]; simp
  have hd : List.dropWhile numChar (c :: r ++ rest) = rest := by
    rw [List.dropWhile_append_of_pos hall]
    cases rest with
    | nil => simp
    | cons d q => rw [List.dropWhile_cons_of_neg (by rw [hs d q rfl]; simp)]
  refine .num _ _ _ ?_ ?_ ?_ ?_
  · intro q e; exact f3 (List.cons.inj e).1
  · intro q e; exact f4 (List.cons.inj e).1
  · intro q e; exact f5 (List.cons.inj e).1
  · rw [h _ ht, hd]

theorem parses_num (tok : List Char) (h : isNumber tok = true) : Parses tok (.num tok) :=
  parses_token tok _ (isNumber_chars tok h) fun s hs => by rw [scanNumber, hs, if_pos h]

theorem parses_lit (tok : List Char) (h : tok ∈ jsonLiterals) : Parses tok (.lit tok) := by
  have hc : ((∀ c ∈ tok, numChar c = true) ∧ ∃ c r, tok = c :: r) ∧ isNumber tok = false := by
    simp only [jsonLiterals, List.mem_cons, List.not_mem_nil, or_false] at h
    rcases h with rfl | rfl | rfl | rfl | rfl | rfl <;> exact ⟨⟨by decide, _, _, rfl⟩, by decide⟩
  exact parses_token tok _ hc.1 fun s hs => by rw [scanNumber, hs, if_neg (by rw [hc.2]; simp), if_pos h]

theorem Stops.of_not {c : Char} {r : List Char} (h : numChar c = false) : Stops (c :: r) := by
  intro d q e; cases e; exact h

theorem skipWs_of_not {c : Char} {r : List Char} (h : isWs c = false) : skipWs (c :: r) = c :: r := by
  simp [skipWs, h]

theorem scanElems_texts (es : List (List Char)) (vs : List JVal) (h : List.Forall₂ Parses es vs) (hne : es ≠ []) (f : Nat) (rest : List Char)
    (hf : (commaText es).length + 1 < f) : scanElems f (commaText es ++ ']' :: rest) = some (vs, rest) := by
  induction h generalizing f with
  | nil => exact absurd rfl hne
  | @cons e v es vs he h ih =>
    obtain ⟨f, rfl⟩ : ∃ g, f = g + 1 := ⟨f - 1, by omega⟩
    rw [scanElems_some]
    cases h with
    | nil =>
      simp only [commaText] at hf ⊢
      refine ⟨v, _, he.scan f _ (by omega) (Stops.of_not (by decide)), .inl ⟨skipWs_of_not (by decide), rfl⟩⟩
    | @cons e2 v2 es vs he2 h =>
      have hc : commaText (e :: e2 :: es) = e ++ ',' :: ' ' :: commaText (e2 :: es) := by rw [commaText]; simp
      rw [hc] at hf ⊢
      simp only [List.length_append, List.length_cons] at hf
      rw [List.append_assoc]
      refine ⟨v, _, he.scan f _ (by omega) (Stops.of_not (by decide)), .inr ⟨_, _, skipWs_of_not (by decide), ?_, rfl⟩⟩
      obtain ⟨c, r, e, hw, _⟩ := he2.head
      have hsk : skipWs (' ' :: commaText (e2 :: es) ++ ']' :: rest) = commaText (e2 :: es) ++ ']' :: rest := by
        have : ∃ q, commaText (e2 :: es) = c :: q := by
          cases es with
          | nil => exact ⟨r, by simp [commaText, e]⟩
          | cons e3 es => exact ⟨_, by rw [commaText, e, List.cons_append]; simp⟩
        obtain ⟨q, hq⟩ := this
        rw [hq]
        simp [skipWs, hw, show isWs ' ' = true from by decide]
      change scanElems f (skipWs (' ' :: commaText (e2 :: es) ++ ']' :: rest)) = _
      rw [hsk]
      exact ih (by simp) f (by omega)

theorem commaText_head (e : List Char) (es : List (List Char)) : ∃ q, commaText (e :: es) = e ++ q := by
  cases es with
  | nil => exact ⟨[], by simp [commaText]⟩
  | cons e3 es => exact ⟨_, by rw [commaText]; simp⟩

theorem parses_arr (es : List (List Char)) (vs : List JVal) (h : List.Forall₂ Parses es vs) : Parses (arrText es) (.arr vs) := by
  refine ⟨⟨_, _, rfl, by decide, by decide⟩, ?_⟩
  intro f rest hf hs
  simp only [arrText, List.length_cons, List.length_append, List.length_nil] at hf
  obtain ⟨f, rfl⟩ : ∃ g, f = g + 1 := ⟨f - 1, by omega⟩
  rw [scanValue_some]
  have e0 : arrText es ++ rest = '[' :: (commaText es ++ ']' :: rest) := by simp [arrText]
  rw [e0]
  cases h with
  | nil => exact .arr0 _ _ (by simp [commaText, skipWs, isWs])
  | @cons e v es vs he h =>
    obtain ⟨c, r, rfl, hw, hc⟩ := he.head
    obtain ⟨q, hq⟩ := commaText_head (c :: r) es
    have hsk : skipWs (commaText ((c :: r) :: es) ++ ']' :: rest) = commaText ((c :: r) :: es) ++ ']' :: rest := by
      rw [hq]; simp [skipWs, hw]
    refine .arr _ _ _ ?_ ?_
    · intro q' e
      rw [hsk, hq] at e
      exact hc (List.cons.inj e).1
    · rw [hsk]
      exact scanElems_texts _ _ (.cons he h) (by simp) _ _ (by omega)

/-- Keys without quotes, backslashes and control characters. -/
def PlainKey (k : String) : Prop := ∀ c ∈ k.toList, c ≠ '"' ∧ c ≠ '\\' ∧ ¬ c.toNat < 32

theorem scanString_key (k : List Char) (h : ∀ c ∈ k, c ≠ '"' ∧ c ≠ '\\' ∧ ¬ c.toNat < 32) (rest : List Char) : scanString (k ++ '"' :: rest) = some (k, rest) := by
  rw [scanString_some]
  induction k with
  | nil => exact .close _
  | cons c k ih =>
    obtain ⟨h1, h2, h3⟩ := h c (by simp)
    exact .plain h1 h2 h3 (ih fun d hd => h d (by simp [hd]))

/-- A member: a plain key and a text read as the value. -/
def ParsesMember (m : String × List Char) (kv : List Char × JVal) : Prop := PlainKey m.1 ∧ kv.1 = m.1.toList ∧ Parses m.2 kv.2

theorem scanMembers_texts (ms : List (String × List Char)) (vs : List (List Char × JVal)) (h : List.Forall₂ ParsesMember ms vs) (hne : ms ≠ []) (f : Nat) (rest : List Char)
    (hf : (commaText (ms.map memberText)).length + 1 < f) : scanMembers f (commaText (ms.map memberText) ++ '}' :: rest) = some (vs, rest) := by
  induction h generalizing f with
  | nil => exact absurd rfl hne
  | @cons m kv ms vs hm h ih =>
    obtain ⟨f, rfl⟩ : ∃ g, f = g + 1 := ⟨f - 1, by omega⟩
    obtain ⟨k, e⟩ := m
    obtain ⟨k', v⟩ := kv
    obtain ⟨hk, rfl, he⟩ := hm
    simp only at hk he
    obtain ⟨c, r, hcr, hw, _⟩ := he.head
    rw [scanMembers_some]
    have hmem : ∀ q, memberText (k, e) ++ q = '"' :: (k.toList ++ '"' :: ':' :: ' ' :: (e ++ q)) := by intro q; simp [memberText]
    have hsk : ∀ q, skipWs (' ' :: (e ++ q)) = e ++ q := by
      intro q
      rw [hcr]
      simp [skipWs, hw, show isWs ' ' = true from by decide]
    have hlen : (memberText (k, e)).length ≥ e.length + 4 := by simp [memberText]
    cases h with
    | nil =>
      simp only [List.map_cons, List.map_nil, commaText] at hf ⊢
      rw [hmem]
      refine ⟨k.toList, v, _, _, _, _, rfl, scanString_key _ hk _, skipWs_of_not (by decide), ?_, .inl ⟨skipWs_of_not (by decide), rfl⟩⟩
      rw [hsk]
      exact he.scan f _ (by omega) (Stops.of_not (by decide))
    | @cons m2 kv2 ms vs hm2 h =>
      have hc : commaText (List.map memberText ((k, e) :: m2 :: ms)) = memberText (k, e) ++ ',' :: ' ' :: commaText (List.map memberText (m2 :: ms)) := by
        simp only [List.map_cons]
        rw [commaText]; simp
      rw [hc] at hf ⊢
      simp only [List.length_append, List.length_cons] at hf
      rw [List.append_assoc, hmem]
      refine ⟨k.toList, v, _, _, _, ',' :: ' ' :: (commaText (List.map memberText (m2 :: ms)) ++ '}' :: rest), rfl, scanString_key _ hk _,
        skipWs_of_not (by decide), ?_, .inr ⟨_, _, skipWs_of_not (by decide), ?_, rfl⟩⟩
      · rw [hsk]
        exact he.scan f _ (by omega) (Stops.of_not (by decide))
      · obtain ⟨q, hq⟩ := commaText_head (memberText m2) (ms.map memberText)
        have hsk2 : skipWs (' ' :: (commaText (List.map memberText (m2 :: ms)) ++ '}' :: rest)) = commaText (List.map memberText (m2 :: ms)) ++ '}' :: rest := by
          rw [List.map_cons, hq]
          simp [skipWs, memberText, show isWs ' ' = true from by decide, show isWs '"' = false from by decide]
        rw [hsk2]
        exact ih (by simp) f (by omega)

theorem scan_objText (ms : List (String × List Char)) (vs : List (List Char × JVal)) (h : List.Forall₂ ParsesMember ms vs) (hne : ms ≠ []) :
    scanValue ((objText ms).length + 1) (objText ms) = some (.obj vs, []) := by
  rw [scanValue_some]
  have e0 : objText ms = '{' :: (commaText (ms.map memberText) ++ '}' :: []) := rfl
  rw [e0]
  cases h with
  | nil => exact absurd rfl hne
  | @cons m kv ms vs hm h =>
    obtain ⟨q, hq⟩ := commaText_head (memberText m) (ms.map memberText)
    have hh : ∃ q', commaText (List.map memberText (m :: ms)) ++ ['}'] = '"' :: q' := ⟨_, by rw [List.map_cons, hq]; rfl⟩
    obtain ⟨q', hq'⟩ := hh
    have hsk : skipWs (commaText (List.map memberText (m :: ms)) ++ ['}']) = commaText (List.map memberText (m :: ms)) ++ ['}'] := by
      rw [hq']; exact skipWs_of_not (by decide)
    refine .obj _ _ _ ?_ ?_
    · intro p e
      rw [hsk, hq'] at e
      exact absurd (List.cons.inj e).1 (by decide)
    · rw [hsk]
      refine scanMembers_texts _ _ (.cons hm h) (by simp) _ _ ?_
      simp

end Verif.Proofs
