import Verif.Model.JsonText

/-!
# Specification: the grammar of JSON texts (RFC 8259, sections 2-7)

With the three literals that only Python knows (`NaN`, `Infinity`, `-Infinity`). White space may stand before and after every token. A number of the tree is its text; a string of the
tree is what its text means (simplified for characters beyond U+FFFF written as escapes of two surrogates: U+FFFD).
-/

namespace Verif.Spec
open Verif.Model

/-- White space. -/
def White (w : List Char) : Prop := ∀ c ∈ w, c = ' ' ∨ c = '\t' ∨ c = '\n' ∨ c = '\r'

/-- One digit or more. -/
def Digits (l : List Char) : Prop := l ≠ [] ∧ ∀ c ∈ l, c.isDigit = true

/-- Numbers: a sign, an integer without leading zeros, a fraction, an exponent. -/
def NumberGrammar (tok : List Char) : Prop :=
  ∃ sign int frac exp, tok = sign ++ (int ++ (frac ++ exp)) ∧ (sign = [] ∨ sign = ['-']) ∧
    (int = ['0'] ∨ ((∀ r, int ≠ '0' :: r) ∧ Digits int)) ∧
    (frac = [] ∨ ∃ d, frac = '.' :: d ∧ Digits d) ∧
    (exp = [] ∨ ∃ e s d, exp = e :: (s ++ d) ∧ (e = 'e' ∨ e = 'E') ∧ (s = [] ∨ s = ['+'] ∨ s = ['-']) ∧ Digits d)

/-- Literals. -/
def Literal (tok : List Char) : Prop := tok ∈ [['t', 'r', 'u', 'e'], ['f', 'a', 'l', 's', 'e'], ['n', 'u', 'l', 'l'], ['N', 'a', 'N'],
  ['I', 'n', 'f', 'i', 'n', 'i', 't', 'y'], ['-', 'I', 'n', 'f', 'i', 'n', 'i', 't', 'y']]

/-- The letters after the backslash and the characters they stand for. -/
def escapes : List (Char × Char) := [('"', '"'), ('\\', '\\'), ('/', '/'), ('b', '\x08'), ('f', '\x0c'), ('n', '\n'), ('r', '\r'), ('t', '\t')]

/-- The digits of the base 16 and their values. -/
def hexDigits : List (Char × Nat) := [('0', 0), ('1', 1), ('2', 2), ('3', 3), ('4', 4), ('5', 5), ('6', 6), ('7', 7), ('8', 8), ('9', 9),
  ('a', 10), ('b', 11), ('c', 12), ('d', 13), ('e', 14), ('f', 15), ('A', 10), ('B', 11), ('C', 12), ('D', 13), ('E', 14), ('F', 15)]

/-- The character with a number; U+FFFD for surrogates. -/
def charOfCode (n : Nat) : Char := if 0xD800 ≤ n ∧ n < 0xE000 then '\uFFFD' else Char.ofNat n

/-- The characters of a string, and its text between the quotes. -/
inductive StringText : List Char → List Char → Prop
  | nil : StringText [] []
  | plain {c : Char} {s t : List Char} (hc : c ≠ '"' ∧ c ≠ '\\' ∧ ¬ c.toNat < 32) (h : StringText s t) : StringText (c :: s) (c :: t)
  | escape {e c : Char} {s t : List Char} (hc : (e, c) ∈ escapes) (h : StringText s t) : StringText (c :: s) ('\\' :: e :: t)
  | code {a b c d : Char} {i j k l : Nat} {s t : List Char} (ha : (a, i) ∈ hexDigits) (hb : (b, j) ∈ hexDigits) (hc : (c, k) ∈ hexDigits) (hd : (d, l) ∈ hexDigits)
      (h : StringText s t) : StringText (charOfCode (i * 16 ^ 3 + j * 16 ^ 2 + k * 16 + l) :: s) ('\\' :: 'u' :: a :: b :: c :: d :: t)

mutual
/-- The text of a value, without white space around it. -/
inductive ValueText : JVal → List Char → Prop
  | num {tok : List Char} (h : NumberGrammar tok) : ValueText (.num tok) tok
  | lit {tok : List Char} (h : Literal tok) : ValueText (.lit tok) tok
  | str {s t : List Char} (h : StringText s t) : ValueText (.str s) ('"' :: (t ++ ['"']))
  | arr0 {w : List Char} (h : White w) : ValueText (.arr []) ('[' :: (w ++ [']']))
  | arr {l : List JVal} {t : List Char} (h : ElemsText l t) : ValueText (.arr l) ('[' :: (t ++ [']']))
  | obj0 {w : List Char} (h : White w) : ValueText (.obj []) ('{' :: (w ++ ['}']))
  | obj {l : List (List Char × JVal)} {t : List Char} (h : MembersText l t) : ValueText (.obj l) ('{' :: (t ++ ['}']))

/-- The elements of an array, separated by commas. -/
inductive ElemsText : List JVal → List Char → Prop
  | one {v : JVal} {w₁ t w₂ : List Char} (h₁ : White w₁) (h : ValueText v t) (h₂ : White w₂) : ElemsText [v] (w₁ ++ (t ++ w₂))
  | more {v : JVal} {l : List JVal} {w₁ t w₂ u : List Char} (h₁ : White w₁) (h : ValueText v t) (h₂ : White w₂) (hu : ElemsText l u) :
      ElemsText (v :: l) (w₁ ++ (t ++ (w₂ ++ ',' :: u)))

/-- The members of an object, separated by commas. -/
inductive MembersText : List (List Char × JVal) → List Char → Prop
  | one {k kt : List Char} {v : JVal} {w₁ w₂ w₃ t w₄ : List Char} (h₁ : White w₁) (hk : StringText k kt) (h₂ : White w₂) (h₃ : White w₃) (h : ValueText v t) (h₄ : White w₄) :
      MembersText [(k, v)] (w₁ ++ '"' :: (kt ++ '"' :: (w₂ ++ ':' :: (w₃ ++ (t ++ w₄)))))
  | more {k kt : List Char} {v : JVal} {l : List (List Char × JVal)} {w₁ w₂ w₃ t w₄ u : List Char} (h₁ : White w₁) (hk : StringText k kt) (h₂ : White w₂) (h₃ : White w₃)
      (h : ValueText v t) (h₄ : White w₄) (hu : MembersText l u) :
      MembersText ((k, v) :: l) (w₁ ++ '"' :: (kt ++ '"' :: (w₂ ++ ':' :: (w₃ ++ (t ++ (w₄ ++ ',' :: u))))))
end

/-- The text is one value with white space around it. -/
def JsonText (v : JVal) (text : List Char) : Prop := ∃ w₁ t w₂, White w₁ ∧ White w₂ ∧ ValueText v t ∧ text = w₁ ++ (t ++ w₂)

end Verif.Spec
