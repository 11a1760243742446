import Verif.Spec.JsonGrammar
import Verif.Proofs.JsonText3

/-!
# The reader accepts exactly the grammar
-/

namespace Verif.Proofs.JsonGrammar
open Verif.Model Verif.Spec Verif.Proofs

theorem white_iff (c : Char) : isWs c = true ↔ (c = ' ' ∨ c = '\t' ∨ c = '\n' ∨ c = '\r') := by
  simp [isWs, or_assoc]

theorem white_skip (s : List Char) : ∃ w, White w ∧ s = w ++ skipWs s := by
  induction s with
  | nil => exact ⟨[], by simp [White], rfl⟩
  | cons c s ih =>
    by_cases h : isWs c = true
    · obtain ⟨w, hw, e⟩ := ih
      refine ⟨c :: w, ?_, ?_⟩
      · intro d hd
        rcases List.mem_cons.1 hd with rfl | hd
        · exact (white_iff _).1 h
        · exact hw d hd
      · have : skipWs (c :: s) = skipWs s := by simp [skipWs, h]
        rw [this, List.cons_append, ← e]
    · exact ⟨[], by simp [White], by simp [skipWs, h]⟩

theorem skip_white (w s : List Char) (h : White w) : skipWs (w ++ s) = skipWs s := by
  induction w with
  | nil => rfl
  | cons c w ih =>
    have h1 : isWs c = true := (white_iff _).2 (h c (by simp))
    have : skipWs (c :: w ++ s) = skipWs (w ++ s) := by simp [skipWs, h1]
    rw [this]
    exact ih fun d hd => h d (by simp [hd])

theorem white_nil : White [] := by simp [White]

theorem white_append {a b : List Char} (ha : White a) (hb : White b) : White (a ++ b) := by
  intro c hc
  rcases List.mem_append.1 hc with hc | hc
  · exact ha c hc
  · exact hb c hc

theorem skip_nil_iff (s : List Char) : skipWs s = [] ↔ White s := by
  constructor
  · intro h
    obtain ⟨w, hw, e⟩ := white_skip s
    rw [e, h, List.append_nil]; exact hw
  · intro h
    have := skip_white s [] h
    rw [List.append_nil] at this
    rw [this]; rfl

/-- White space does not go on with a number. -/
theorem stops_white {w : List Char} (h : White w) {c : Char} (hc : numChar c = false) (r : List Char) : Stops (w ++ c :: r) := by
  intro d q e
  cases w with
  | nil => cases e; exact hc
  | cons a w =>
    cases e
    rcases h d (by simp) with rfl | rfl | rfl | rfl <;> decide

theorem stops_white_end {w : List Char} (h : White w) : Stops w := by
  intro d q e
  subst e
  rcases h d (by simp) with rfl | rfl | rfl | rfl <;> decide

/-! ### Numbers -/

theorem digits_cases {d : List Char} (h : Digits d) : ∃ c r, d = c :: r ∧ c.isDigit = true ∧ ∀ x ∈ r, x.isDigit = true := by
  obtain ⟨h1, h2⟩ := h
  cases d with
  | nil => exact absurd rfl h1
  | cons c r => exact ⟨c, r, rfl, h2 c (by simp), fun x hx => h2 x (by simp [hx])⟩

theorem drop_digits (r q : List Char) (h : ∀ x ∈ r, x.isDigit = true) (hq : ∀ c p, q = c :: p → c.isDigit = false) : (r ++ q).dropWhile Char.isDigit = q := by
  rw [List.dropWhile_append_of_pos h]
  cases q with
  | nil => rfl
  | cons c p => rw [List.dropWhile_cons_of_neg (by rw [hq c p rfl]; simp)]

theorem onlyDigits_iff (r : List Char) : onlyDigits r = true ↔ Digits r := by
  simp [onlyDigits, Digits]

theorem exponentEnds_iff (r : List Char) : exponentEnds r = true ↔
    (r = [] ∨ ∃ e s d, r = e :: (s ++ d) ∧ (e = 'e' ∨ e = 'E') ∧ (s = [] ∨ s = ['+'] ∨ s = ['-']) ∧ Digits d) := by
  cases r with
  | nil => simp [exponentEnds]
  | cons e r =>
    simp only [exponentEnds, Bool.and_eq_true, Bool.or_eq_true, beq_iff_eq]
    constructor
    · rintro ⟨he, h⟩
      refine .inr ?_
      split at h
      · exact ⟨e, ['+'], _, rfl, he, by simp, (onlyDigits_iff _).1 h⟩
      · exact ⟨e, ['-'], _, rfl, he, by simp, (onlyDigits_iff _).1 h⟩
      · exact ⟨e, [], _, rfl, he, by simp, (onlyDigits_iff _).1 h⟩
    · rintro (h | ⟨e', s, d, h, he, hs, hd⟩)
      · cases h
      · cases h
        refine ⟨he, ?_⟩
        rcases hs with rfl | rfl | rfl
        · obtain ⟨c, q, rfl, hc, _⟩ := digits_cases hd
          rw [List.nil_append]
          split
          · next e => cases e; exact absurd hc (by decide)
          · next e => cases e; exact absurd hc (by decide)
          · exact (onlyDigits_iff _).2 hd
        · exact (onlyDigits_iff _).2 hd
        · exact (onlyDigits_iff _).2 hd

theorem isNumber_sound (tok : List Char) (h : isNumber tok = true) : NumberGrammar tok := by
  unfold isNumber at h
  split at h
  · cases h
  · next r1 h1 =>
    split at h
    · cases h
    · next r2 h2 =>
      have hexp := (exponentEnds_iff _).1 h
      have hsign : ∃ sign, (sign = [] ∨ sign = ['-']) ∧ tok = sign ++ dropMinus tok := by
        unfold dropMinus
        split
        · exact ⟨['-'], by simp, rfl⟩
        · exact ⟨[], by simp, rfl⟩
      obtain ⟨sign, hs, es⟩ := hsign
      have hint : ∃ int, dropMinus tok = int ++ r1 ∧ (int = ['0'] ∨ ((∀ r, int ≠ '0' :: r) ∧ Digits int)) := by
        generalize dropMinus tok = s at h1
        unfold afterIntPart at h1
        split at h1
        · cases h1; exact ⟨['0'], rfl, .inl rfl⟩
        · next c q hne =>
          split_ifs at h1 with hc
          cases h1
          obtain ⟨p, hp, hd⟩ := digits_drop q
          refine ⟨c :: p, by rw [List.cons_append, ← hp], .inr ⟨?_, by simp, ?_⟩⟩
          · intro r e; cases e; exact hne rfl
          · intro x hx
            rcases List.mem_cons.1 hx with rfl | hx
            · exact hc
            · exact hd x hx
        · cases h1
      obtain ⟨int, ei, hi⟩ := hint
      have hfrac : ∃ frac, r1 = frac ++ r2 ∧ (frac = [] ∨ ∃ d, frac = '.' :: d ∧ Digits d) := by
        unfold afterFraction at h2
        split at h2
        · next c q =>
          split_ifs at h2 with hc
          cases h2
          obtain ⟨p, hp, hd⟩ := digits_drop q
          refine ⟨'.' :: c :: p, by rw [List.cons_append, List.cons_append, ← hp], .inr ⟨_, rfl, by simp, ?_⟩⟩
          intro x hx
          rcases List.mem_cons.1 hx with rfl | hx
          · exact hc
          · exact hd x hx
        · cases h2
        · cases h2; exact ⟨[], rfl, .inl rfl⟩
      obtain ⟨frac, ef, hf⟩ := hfrac
      exact ⟨sign, int, frac, r2, by rw [← ef, ← ei, ← es], hs, hi, hf, hexp⟩

theorem isNumber_complete (tok : List Char) (h : NumberGrammar tok) : isNumber tok = true := by
  obtain ⟨sign, int, frac, exp, rfl, hs, hi, hf, he⟩ := h
  have hexpHead : ∀ c p, exp = c :: p → c.isDigit = false ∧ c ≠ '.' := by
    intro c p e
    rcases he with rfl | ⟨e', s, d, rfl, h, _⟩
    · cases e
    · cases e
      rcases h with rfl | rfl <;> decide
  have hfracHead : ∀ c p, frac ++ exp = c :: p → c.isDigit = false := by
    intro c p e
    rcases hf with rfl | ⟨d, rfl, _⟩
    · exact (hexpHead c p e).1
    · cases e; decide
  have h0 : dropMinus (sign ++ (int ++ (frac ++ exp))) = int ++ (frac ++ exp) := by
    rcases hs with rfl | rfl
    · have : ∃ c q, int = c :: q ∧ c ≠ '-' := by
        rcases hi with rfl | ⟨_, hd⟩
        · exact ⟨_, _, rfl, by decide⟩
        · obtain ⟨c, q, rfl, hc, _⟩ := digits_cases hd
          refine ⟨c, q, rfl, ?_⟩
          rintro rfl
          exact absurd hc (by decide)
      obtain ⟨c, q, rfl, hc⟩ := this
      rw [List.nil_append, List.cons_append, dropMinus]
      intro r e
      exact hc (List.cons.inj e).1
    · rfl
  have h1 : afterIntPart (int ++ (frac ++ exp)) = some (frac ++ exp) := by
    rcases hi with rfl | ⟨hz, hd⟩
    · rfl
    · obtain ⟨c, q, rfl, hc, hq⟩ := digits_cases hd
      rw [List.cons_append, afterIntPart]
      · rw [if_pos hc, drop_digits q _ hq hfracHead]
      · rintro rfl; exact hz q rfl
  have h2 : afterFraction (frac ++ exp) = some exp := by
    rcases hf with rfl | ⟨d, rfl, hd⟩
    · rw [List.nil_append]
      unfold afterFraction
      split
      · exact absurd rfl (hexpHead _ _ rfl).2
      · exact absurd rfl (hexpHead _ _ rfl).2
      · rfl
    · obtain ⟨c, q, rfl, hc, hq⟩ := digits_cases hd
      simp only [List.cons_append, afterFraction, if_pos hc]
      rw [drop_digits q _ hq fun c p e => (hexpHead c p e).1]
  unfold isNumber
  rw [h0, h1]
  simp only [h2]
  exact (exponentEnds_iff _).2 he

/-! ### Strings -/

theorem unescape_iff (e x : Char) : unescape e = some x ↔ (e, x) ∈ escapes := by
  constructor
  · intro h
    unfold unescape at h
    split at h <;> first | cases h; done | (cases h; decide)
  · intro h
    simp only [escapes, List.mem_cons, Prod.mk.injEq, List.not_mem_nil, or_false] at h
    rcases h with ⟨rfl, rfl⟩ | ⟨rfl, rfl⟩ | ⟨rfl, rfl⟩ | ⟨rfl, rfl⟩ | ⟨rfl, rfl⟩ | ⟨rfl, rfl⟩ | ⟨rfl, rfl⟩ | ⟨rfl, rfl⟩ <;> rfl

theorem hexDigit_sound (c : Char) (i : Nat) (h : hexDigit c = some i) : (c, i) ∈ hexDigits := by
  unfold hexDigit at h
  split at h <;> first | cases h; done | (cases h; decide)

theorem hexDigit_complete (c : Char) (i : Nat) (h : (c, i) ∈ hexDigits) : hexDigit c = some i := by
  have : ∀ p ∈ hexDigits, hexDigit p.1 = some p.2 := by decide
  exact this _ h

theorem hexChar_iff (a b c d x : Char) : hexChar a b c d = some x ↔
    ∃ i j k l, (a, i) ∈ hexDigits ∧ (b, j) ∈ hexDigits ∧ (c, k) ∈ hexDigits ∧ (d, l) ∈ hexDigits ∧ x = charOfCode (i * 16 ^ 3 + j * 16 ^ 2 + k * 16 + l) := by
  have e : ∀ i j k l : Nat, ((i * 16 + j) * 16 + k) * 16 + l = i * 16 ^ 3 + j * 16 ^ 2 + k * 16 + l := by intros; ring
  constructor
  · intro h
    unfold hexChar at h
    split at h
    · next i j k l h1 h2 h3 h4 =>
      cases h
      exact ⟨i, j, k, l, hexDigit_sound _ _ h1, hexDigit_sound _ _ h2, hexDigit_sound _ _ h3, hexDigit_sound _ _ h4, by rw [e]; rfl⟩
    · cases h
  · rintro ⟨i, j, k, l, h1, h2, h3, h4, rfl⟩
    simp only [hexChar, hexDigit_complete _ _ h1, hexDigit_complete _ _ h2, hexDigit_complete _ _ h3, hexDigit_complete _ _ h4, e]
    rfl

theorem scanString_sound (s a r : List Char) (h : scanString s = some (a, r)) : ∃ t, StringText a t ∧ s = t ++ '"' :: r := by
  rw [scanString_some] at h
  induction h with
  | close r => exact ⟨[], .nil, rfl⟩
  | plain h1 h2 h3 _ ih =>
    obtain ⟨t, ht, rfl⟩ := ih
    exact ⟨_, .plain ⟨h1, h2, h3⟩ ht, rfl⟩
  | esc he _ ih =>
    obtain ⟨t, ht, rfl⟩ := ih
    exact ⟨_, .escape ((unescape_iff _ _).1 he) ht, rfl⟩
  | code he _ ih =>
    obtain ⟨t, ht, rfl⟩ := ih
    obtain ⟨i, j, k, l, h1, h2, h3, h4, rfl⟩ := (hexChar_iff ..).1 he
    exact ⟨_, .code h1 h2 h3 h4 ht, rfl⟩

theorem scanString_complete {k t : List Char} (h : StringText k t) (rest : List Char) : scanString (t ++ '"' :: rest) = some (k, rest) := by
  rw [scanString_some]
  induction h with
  | nil => exact .close _
  | plain hc _ ih => exact .plain hc.1 hc.2.1 hc.2.2 ih
  | escape hc _ ih => exact .esc ((unescape_iff _ _).2 hc) ih
  | code h1 h2 h3 h4 _ ih => exact .code ((hexChar_iff ..).2 ⟨_, _, _, _, h1, h2, h3, h4, rfl⟩) ih

theorem plain_string {k : List Char} (h : ∀ c ∈ k, c ≠ '"' ∧ c ≠ '\\' ∧ ¬ c.toNat < 32) : StringText k k := by
  induction k with
  | nil => exact .nil
  | cons c k ih => exact .plain (h c (by simp)) (ih fun d hd => h d (by simp [hd]))

/-! ### The reader accepts only the grammar -/

theorem elems_white {l : List JVal} {u w : List Char} (hw : White w) (h : ElemsText l u) : ElemsText l (w ++ u) := by
  cases h with
  | one h₁ h h₂ => rw [← List.append_assoc]; exact .one (white_append hw h₁) h h₂
  | more h₁ h h₂ hu => rw [← List.append_assoc]; exact .more (white_append hw h₁) h h₂ hu

theorem members_white {l : List (List Char × JVal)} {u w : List Char} (hw : White w) (h : MembersText l u) : MembersText l (w ++ u) := by
  cases h with
  | one h₁ hk h₂ h₃ h h₄ => rw [← List.append_assoc]; exact .one (white_append hw h₁) hk h₂ h₃ h h₄
  | more h₁ hk h₂ h₃ h h₄ hu => rw [← List.append_assoc]; exact .more (white_append hw h₁) hk h₂ h₃ h h₄ hu

theorem scan_sound (f : Nat) :
    (∀ s v r, scanValue f s = some (v, r) → ∃ t, s = t ++ r ∧ ValueText v t) ∧
    (∀ s l r, scanElems f s = some (l, r) → ∃ u, s = u ++ ']' :: r ∧ ElemsText l u) ∧
    (∀ s l r, scanMembers f s = some (l, r) → ∃ u, s = u ++ '}' :: r ∧ MembersText l u) := by
  induction f with
  | zero => exact ⟨fun s v r h => by simp [scanValue] at h, fun s v r h => by simp [scanElems] at h, fun s v r h => by simp [scanMembers] at h⟩
  | succ f ih =>
    obtain ⟨ihv, ihe, ihm⟩ := ih
    refine ⟨?_, ?_, ?_⟩
    · intro s v r h
      rw [scanValue_some] at h
      cases h with
      | str s t r h =>
        obtain ⟨t', h1, rfl⟩ := scanString_sound _ _ _ h
        exact ⟨_, by simp, .str h1⟩
      | arr0 s r h =>
        obtain ⟨w, hw, e⟩ := white_skip s
        exact ⟨'[' :: (w ++ [']']), by rw [e, h]; simp, .arr0 hw⟩
      | arr s r l h1 h2 =>
        obtain ⟨w, hw, e⟩ := white_skip s
        obtain ⟨u, hu, h3⟩ := ihe _ _ _ h2
        exact ⟨'[' :: (w ++ u ++ [']']), by rw [e, hu]; simp, .arr (elems_white hw h3)⟩
      | obj0 s r h =>
        obtain ⟨w, hw, e⟩ := white_skip s
        exact ⟨'{' :: (w ++ ['}']), by rw [e, h]; simp, .obj0 hw⟩
      | obj s r l h1 h2 =>
        obtain ⟨w, hw, e⟩ := white_skip s
        obtain ⟨u, hu, h3⟩ := ihm _ _ _ h2
        exact ⟨'{' :: (w ++ u ++ ['}']), by rw [e, hu]; simp, .obj (members_white hw h3)⟩
      | num s r v h1 h2 h3 h =>
        unfold scanNumber at h
        split_ifs at h with hn hn' <;> simp only [Option.some.injEq, Prod.mk.injEq] at h <;> obtain ⟨rfl, rfl⟩ := h
        · exact ⟨_, List.takeWhile_append_dropWhile.symm, .num (isNumber_sound _ hn)⟩
        · exact ⟨_, List.takeWhile_append_dropWhile.symm, .lit hn'⟩
    · intro s l r h
      rw [scanElems_some] at h
      obtain ⟨v, r1, hv, h⟩ := h
      obtain ⟨t, rfl, ht⟩ := ihv _ _ _ hv
      obtain ⟨w, hw, e⟩ := white_skip r1
      rcases h with ⟨h1, rfl⟩ | ⟨r2, l', h1, h2, rfl⟩
      · exact ⟨[] ++ (t ++ w), by rw [e, h1]; simp, .one white_nil ht hw⟩
      · obtain ⟨w2, hw2, e2⟩ := white_skip r2
        obtain ⟨u, hu, h3⟩ := ihe _ _ _ h2
        exact ⟨[] ++ (t ++ (w ++ ',' :: (w2 ++ u))), by rw [e, h1, e2, hu]; simp, .more white_nil ht hw (elems_white hw2 h3)⟩
    · intro s l r h
      rw [scanMembers_some] at h
      obtain ⟨k, v, s0, r0, r1, r2, rfl, h1, h2, h3, h⟩ := h
      obtain ⟨kt, hk, rfl⟩ := scanString_sound _ _ _ h1
      obtain ⟨w2, hw2, e2⟩ := white_skip r0
      obtain ⟨w3, hw3, e3⟩ := white_skip r1
      obtain ⟨t, et, ht⟩ := ihv _ _ _ h3
      obtain ⟨w4, hw4, e4⟩ := white_skip r2
      rcases h with ⟨h4, rfl⟩ | ⟨r3, l', h4, h5, rfl⟩
      · exact ⟨[] ++ '"' :: (kt ++ '"' :: (w2 ++ ':' :: (w3 ++ (t ++ w4)))), by rw [e2, h2, e3, et, e4, h4]; simp, .one white_nil hk hw2 hw3 ht hw4⟩
      · obtain ⟨w5, hw5, e5⟩ := white_skip r3
        obtain ⟨u, hu, h6⟩ := ihm _ _ _ h5
        exact ⟨[] ++ '"' :: (kt ++ '"' :: (w2 ++ ':' :: (w3 ++ (t ++ (w4 ++ ',' :: (w5 ++ u)))))), by rw [e2, h2, e3, et, e4, h4, e5, hu]; simp,
          .more white_nil hk hw2 hw3 ht hw4 (members_white hw5 h6)⟩

/-! ### The reader accepts the grammar -/

/-- The rest of the elements, after white space, is read as the elements. -/
def ElemsParse (l : List JVal) (u : List Char) : Prop :=
  ∃ w u', White w ∧ u = w ++ u' ∧ (∃ c r, u' = c :: r ∧ isWs c = false ∧ c ≠ ']') ∧ ∀ f rest, u'.length + 1 < f → scanElems f (u' ++ ']' :: rest) = some (l, rest)

/-- The same for members. -/
def MembersParse (l : List (List Char × JVal)) (u : List Char) : Prop :=
  ∃ w u', White w ∧ u = w ++ u' ∧ (∃ r, u' = '"' :: r) ∧ ∀ f rest, u'.length + 1 < f → scanMembers f (u' ++ '}' :: rest) = some (l, rest)

theorem skip_text {t w : List Char} {v : JVal} (hw : White w) (h : Parses t v) (q : List Char) : skipWs (w ++ (t ++ q)) = t ++ q := by
  obtain ⟨c, r, rfl, hc, _⟩ := h.head
  rw [skip_white _ _ hw]
  exact skipWs_of_not hc

theorem skip_char {w : List Char} (hw : White w) (c : Char) (q : List Char) (hc : isWs c = false) : skipWs (w ++ c :: q) = c :: q := by
  rw [skip_white _ _ hw]
  exact skipWs_of_not hc

theorem elems_one {v : JVal} {w₁ t w₂ : List Char} (h₁ : White w₁) (h : Parses t v) (h₂ : White w₂) : ElemsParse [v] (w₁ ++ (t ++ w₂)) := by
  refine ⟨w₁, t ++ w₂, h₁, rfl, ?_, ?_⟩
  · obtain ⟨c, r, rfl, h1, h2⟩ := h.head
    exact ⟨c, _, rfl, h1, h2⟩
  · intro f rest hf
    obtain ⟨f, rfl⟩ : ∃ g, f = g + 1 := ⟨f - 1, by omega⟩
    rw [List.length_append] at hf
    rw [scanElems_some, List.append_assoc]
    exact ⟨v, _, h.scan f _ (by omega) (stops_white h₂ (by decide) _), .inl ⟨skip_char h₂ _ _ (by decide), rfl⟩⟩

theorem elems_more {v : JVal} {l : List JVal} {w₁ t w₂ u : List Char} (h₁ : White w₁) (h : Parses t v) (h₂ : White w₂) (hu : ElemsParse l u) :
    ElemsParse (v :: l) (w₁ ++ (t ++ (w₂ ++ ',' :: u))) := by
  obtain ⟨w, u', hw, rfl, ⟨c', r', rfl, hc', _⟩, hscan⟩ := hu
  refine ⟨w₁, _, h₁, rfl, ?_, ?_⟩
  · obtain ⟨c, r, rfl, h1, h2⟩ := h.head
    exact ⟨c, _, rfl, h1, h2⟩
  · intro f rest hf
    obtain ⟨f, rfl⟩ : ∃ g, f = g + 1 := ⟨f - 1, by omega⟩
    simp only [List.length_append, List.length_cons] at hf
    rw [scanElems_some]
    have e : t ++ (w₂ ++ ',' :: (w ++ c' :: r')) ++ ']' :: rest = t ++ (w₂ ++ ',' :: (w ++ (c' :: r' ++ ']' :: rest))) := by simp
    rw [e]
    refine ⟨v, _, h.scan f _ (by omega) (stops_white h₂ (by decide) _), .inr ⟨_, l, skip_char h₂ _ _ (by decide), ?_, rfl⟩⟩
    rw [List.cons_append, skip_char hw _ _ hc', ← List.cons_append]
    have : 0 < t.length := by
      obtain ⟨c, r, rfl, _⟩ := h.head
      simp
    exact hscan f rest (by simp only [List.length_cons]; omega)

theorem members_one {k kt : List Char} {v : JVal} {w₁ w₂ w₃ t w₄ : List Char} (h₁ : White w₁) (hk : StringText k kt) (h₂ : White w₂) (h₃ : White w₃) (h : Parses t v)
    (h₄ : White w₄) : MembersParse [(k, v)] (w₁ ++ '"' :: (kt ++ '"' :: (w₂ ++ ':' :: (w₃ ++ (t ++ w₄))))) := by
  refine ⟨w₁, _, h₁, rfl, ⟨_, rfl⟩, ?_⟩
  intro f rest hf
  obtain ⟨f, rfl⟩ : ∃ g, f = g + 1 := ⟨f - 1, by omega⟩
  simp only [List.length_append, List.length_cons] at hf
  rw [scanMembers_some]
  have e : '"' :: (kt ++ '"' :: (w₂ ++ ':' :: (w₃ ++ (t ++ w₄)))) ++ '}' :: rest = '"' :: (kt ++ '"' :: (w₂ ++ ':' :: (w₃ ++ (t ++ (w₄ ++ '}' :: rest))))) := by simp
  rw [e]
  refine ⟨k, v, _, _, _, _, rfl, scanString_complete hk _, skip_char h₂ _ _ (by decide), ?_, .inl ⟨skip_char h₄ _ _ (by decide), rfl⟩⟩
  rw [skip_text h₃ h]
  exact h.scan f _ (by omega) (stops_white h₄ (by decide) _)

theorem members_more {k kt : List Char} {v : JVal} {l : List (List Char × JVal)} {w₁ w₂ w₃ t w₄ u : List Char} (h₁ : White w₁) (hk : StringText k kt) (h₂ : White w₂)
    (h₃ : White w₃) (h : Parses t v) (h₄ : White w₄) (hu : MembersParse l u) :
    MembersParse ((k, v) :: l) (w₁ ++ '"' :: (kt ++ '"' :: (w₂ ++ ':' :: (w₃ ++ (t ++ (w₄ ++ ',' :: u)))))) := by
  obtain ⟨w, u', hw, rfl, ⟨r', rfl⟩, hscan⟩ := hu
  refine ⟨w₁, _, h₁, rfl, ⟨_, rfl⟩, ?_⟩
  intro f rest hf
  obtain ⟨f, rfl⟩ : ∃ g, f = g + 1 := ⟨f - 1, by omega⟩
  simp only [List.length_append, List.length_cons] at hf
  rw [scanMembers_some]
  have e : '"' :: (kt ++ '"' :: (w₂ ++ ':' :: (w₃ ++ (t ++ (w₄ ++ ',' :: (w ++ '"' :: r')))))) ++ '}' :: rest =
      '"' :: (kt ++ '"' :: (w₂ ++ ':' :: (w₃ ++ (t ++ (w₄ ++ ',' :: (w ++ ('"' :: r' ++ '}' :: rest))))))) := by simp
  rw [e]
  refine ⟨k, v, _, _, _, _, rfl, scanString_complete hk _, skip_char h₂ _ _ (by decide), ?_, .inr ⟨w ++ ('"' :: r' ++ '}' :: rest), l, skip_char h₄ _ _ (by decide), ?_, rfl⟩⟩
  · rw [skip_text h₃ h]
    exact h.scan f _ (by omega) (stops_white h₄ (by decide) _)
  · rw [List.cons_append, skip_char hw _ _ (by decide), ← List.cons_append]
    exact hscan f rest (by simp only [List.length_cons]; omega)

mutual
theorem value_complete {v : JVal} {t : List Char} (h : ValueText v t) : Parses t v := by
  cases h with
  | num h => exact parses_num _ (isNumber_complete _ h)
  | lit h => exact parses_lit _ h
  | str h =>
    refine ⟨⟨_, _, rfl, by decide, by decide⟩, ?_⟩
    intro f rest hf _
    obtain ⟨f, rfl⟩ : ∃ g, f = g + 1 := ⟨f - 1, by omega⟩
    rw [scanValue_some, List.cons_append, List.append_assoc]
    exact .str _ _ _ (scanString_complete h rest)
  | arr0 h =>
    refine ⟨⟨_, _, rfl, by decide, by decide⟩, ?_⟩
    intro f rest hf _
    obtain ⟨f, rfl⟩ : ∃ g, f = g + 1 := ⟨f - 1, by omega⟩
    rw [scanValue_some, List.cons_append, List.append_assoc]
    exact .arr0 _ _ (skip_char h _ _ (by decide))
  | arr h =>
    obtain ⟨w, u', hw, rfl, ⟨c, r, rfl, hc, hb⟩, hscan⟩ := elems_complete h
    refine ⟨⟨_, _, rfl, by decide, by decide⟩, ?_⟩
    intro f rest hf _
    obtain ⟨f, rfl⟩ : ∃ g, f = g + 1 := ⟨f - 1, by omega⟩
    simp only [List.length_append, List.length_cons, List.length_nil] at hf
    have e : '[' :: (w ++ c :: r ++ [']']) ++ rest = '[' :: (w ++ c :: (r ++ ']' :: rest)) := by simp
    rw [scanValue_some, e]
    refine .arr _ _ _ ?_ ?_
    · intro q e
      rw [skip_char hw _ _ hc] at e
      exact hb (List.cons.inj e).1
    · rw [skip_char hw _ _ hc]
      exact hscan f rest (by simp only [List.length_cons]; omega)
  | obj0 h =>
    refine ⟨⟨_, _, rfl, by decide, by decide⟩, ?_⟩
    intro f rest hf _
    obtain ⟨f, rfl⟩ : ∃ g, f = g + 1 := ⟨f - 1, by omega⟩
    rw [scanValue_some, List.cons_append, List.append_assoc]
    exact .obj0 _ _ (skip_char h _ _ (by decide))
  | obj h =>
    obtain ⟨w, u', hw, rfl, ⟨r, rfl⟩, hscan⟩ := members_complete h
    refine ⟨⟨_, _, rfl, by decide, by decide⟩, ?_⟩
    intro f rest hf _
    obtain ⟨f, rfl⟩ : ∃ g, f = g + 1 := ⟨f - 1, by omega⟩
    simp only [List.length_append, List.length_cons, List.length_nil] at hf
    have e : '{' :: (w ++ '"' :: r ++ ['}']) ++ rest = '{' :: (w ++ '"' :: (r ++ '}' :: rest)) := by simp
    rw [scanValue_some, e]
    refine .obj _ _ _ ?_ ?_
    · intro q e
      rw [skip_char hw _ _ (by decide)] at e
      exact absurd (List.cons.inj e).1 (by decide)
    · rw [skip_char hw _ _ (by decide)]
      exact hscan f rest (by simp only [List.length_cons]; omega)

theorem elems_complete {l : List JVal} {u : List Char} (h : ElemsText l u) : ElemsParse l u := by
  cases h with
  | one h₁ h h₂ => exact elems_one h₁ (value_complete h) h₂
  | more h₁ h h₂ hu => exact elems_more h₁ (value_complete h) h₂ (elems_complete hu)

theorem members_complete {l : List (List Char × JVal)} {u : List Char} (h : MembersText l u) : MembersParse l u := by
  cases h with
  | one h₁ hk h₂ h₃ h h₄ => exact members_one h₁ hk h₂ h₃ (value_complete h) h₄
  | more h₁ hk h₂ h₃ h h₄ hu => exact members_more h₁ hk h₂ h₃ (value_complete h) h₄ (members_complete hu)
end

/-- `json.load` accepts exactly the texts of the grammar. -/
theorem load_iff (s : List Char) (v : JVal) : jsonLoad s = .ok v ↔ JsonText v s := by
  unfold jsonLoad
  constructor
  · intro h
    cases hs : scanValue (s.length + 1) (skipWs s) with
    | none => rw [hs] at h; cases h
    | some p =>
      obtain ⟨v', r⟩ := p
      rw [hs] at h
      simp only at h
      split_ifs at h with hr
      cases h
      obtain ⟨t, et, ht⟩ := (scan_sound _).1 _ _ _ hs
      obtain ⟨w, hw, e⟩ := white_skip s
      exact ⟨w, t, r, hw, (skip_nil_iff r).1 hr, ht, by rw [← et]; exact e⟩
  · rintro ⟨w₁, t, w₂, h₁, h₂, ht, rfl⟩
    have hp := value_complete ht
    rw [skip_text h₁ hp, hp.scan _ _ (by simp only [List.length_append]; omega) (stops_white_end h₂)]
    simp only [if_pos ((skip_nil_iff w₂).2 h₂)]

end Verif.Proofs.JsonGrammar
