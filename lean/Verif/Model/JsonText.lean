import Verif.Model.Json

/-!
# Model of the text of the saved files, and of interrupted saving

`json.dump` writes the document as text, piece by piece; `json.load` reads the whole text. Numbers are texts given by `NumberText` (`float.__repr__` and `float()`).
The parser follows the scanner of the standard library for all values; the recursion limit of the scanner is left out, and characters beyond U+FFFF written as escapes of
two surrogates (which never occur in the saved files) become U+FFFD.
-/

namespace Verif.Model

/-- Characters of JSON numbers and literals, the text written at /repo/src/zernpy/calculations/calc_psfs.py:817. -/
def numChar (c : Char) : Bool := c.isDigit || c.isAlpha || c == '-' || c == '+' || c == '.'

/-- The digits before the point, with no leading zero; gives the rest. The scanner of `json.load`, called at /repo/src/zernpy/calculations/calc_psfs.py:839. -/
def afterIntPart : List Char → Option (List Char)
  | '0' :: r => some r
  | c :: r => if c.isDigit then some (r.dropWhile Char.isDigit) else none
  | [] => none

/-- The optional fraction, the scanner of `json.load`, called at /repo/src/zernpy/calculations/calc_psfs.py:839. -/
def afterFraction : List Char → Option (List Char)
  | '.' :: c :: r => if c.isDigit then some (r.dropWhile Char.isDigit) else none
  | '.' :: [] => none
  | r => some r

/-- At least one digit up to the end, the scanner of `json.load`, called at /repo/src/zernpy/calculations/calc_psfs.py:839. -/
def onlyDigits (r : List Char) : Bool := r ≠ [] && r.all Char.isDigit

/-- The optional exponent up to the end, the scanner of `json.load`, called at /repo/src/zernpy/calculations/calc_psfs.py:839. -/
def exponentEnds : List Char → Bool
  | [] => true
  | e :: r => (e == 'e' || e == 'E') && (match r with
    | '+' :: r => onlyDigits r
    | '-' :: r => onlyDigits r
    | r => onlyDigits r)

/-- The sign, the scanner of `json.load`, called at /repo/src/zernpy/calculations/calc_psfs.py:839. -/
def dropMinus : List Char → List Char
  | '-' :: r => r
  | r => r

/-- The text is a number of JSON: `-?(0|[1-9]\d*)(\.\d+)?([eE][-+]?\d+)?`, the scanner of `json.load`, called at /repo/src/zernpy/calculations/calc_psfs.py:839. -/
def isNumber (tok : List Char) : Bool :=
  match afterIntPart (dropMinus tok) with
  | none => false
  | some r => match afterFraction r with
    | none => false
    | some r => exponentEnds r

/-- `repr` of a natural number, written at /repo/src/zernpy/calculations/calc_psfs.py:817. -/
def natText (n : Nat) : List Char :=
  if n < 10 then [Nat.digitChar n] else natText (n / 10) ++ [Nat.digitChar (n % 10)]

/-- `repr` of an `int`, written at /repo/src/zernpy/calculations/calc_psfs.py:817. -/
def intText : Int → List Char
  | .ofNat n => natText n
  | .negSucc n => '-' :: natText (n + 1)

/-- `int` of digits, read at /repo/src/zernpy/calculations/calc_psfs.py:839. -/
def natValue (tok : List Char) : Nat := tok.foldl (fun a c => 10 * a + (c.toNat - 48)) 0

/-- `int` of a text, read at /repo/src/zernpy/calculations/calc_psfs.py:839. -/
def intValue : List Char → Int
  | '-' :: r => -(natValue r : Int)
  | r => natValue r

/-- How floating-point numbers are written and read: `repr` and `value` are inverse to each other on `doubles` (the finite doubles), and `repr` gives JSON numbers,
/repo/src/zernpy/calculations/calc_psfs.py:817,839. -/
structure NumberText where
  doubles : Set ℝ
  repr : ℝ → List Char
  value : List Char → ℝ
  number : ∀ x ∈ doubles, isNumber (repr x) = true
  value_repr : ∀ x ∈ doubles, value (repr x) = x

/-- Texts separated by ", ", written at /repo/src/zernpy/calculations/calc_psfs.py:817. -/
def commaText : List (List Char) → List Char
  | [] => []
  | [a] => a
  | a :: rest => a ++ ',' :: ' ' :: commaText rest

/-- A list, written at /repo/src/zernpy/calculations/calc_psfs.py:817. -/
def arrText (l : List (List Char)) : List Char := '[' :: (commaText l ++ [']'])

/-- One key with its value, written at /repo/src/zernpy/calculations/calc_psfs.py:817. -/
def memberText (kv : String × List Char) : List Char := '"' :: (kv.1.toList ++ '"' :: ':' :: ' ' :: kv.2)

/-- A dictionary, written at /repo/src/zernpy/calculations/calc_psfs.py:817. -/
def objText (l : List (String × List Char)) : List Char := '{' :: (commaText (l.map memberText) ++ ['}'])

/-- `psf_kernel.tolist()`, /repo/src/zernpy/calculations/calc_psfs.py:806. -/
def Grid.lists (g : Grid) : List (List ℝ) := (List.range g.rows).map fun i => (List.range g.cols).map (g.entry i)

/-- The key and the text of the value of an entry, /repo/src/zernpy/calculations/calc_psfs.py:805-812. -/
def JsonItem.member (N : NumberText) : JsonItem → String × List Char
  | .kernel g => ("PSF Kernel", arrText (g.lists.map fun l => arrText (l.map N.repr)))
  | .na x => ("NA", N.repr x)
  | .wavelength x => ("Wavelength", N.repr x)
  | .pixelSize x => ("Pixel Size", N.repr x)
  | .kernelSize n => ("Kernel Size", intText n)
  | .pointsR n => ("# of integration points R", intText n)
  | .pointsAngle n => ("# of integration points angle", intText n)
  | .coefficient x => ("Expansion Coefficient", N.repr x)
  | .amplitudes l => ("Amplitudes", arrText (l.map N.repr))
  | .polynomial i => ("Polynomial", intText i)
  | .polynomials l => ("Polynomials", arrText (l.map intText))
  | .unknown key => (key, ['0'])

/-- The text of the document, /repo/src/zernpy/calculations/calc_psfs.py:816-817. -/
def documentText (N : NumberText) (doc : List JsonItem) : List Char := objText (doc.map (JsonItem.member N))

/-! ### Reading -/

/-- A value read by `json.load`, /repo/src/zernpy/calculations/calc_psfs.py:839. -/
inductive JVal where
  | num (tok : List Char)
  | lit (tok : List Char)
  | str (s : List Char)
  | arr (l : List JVal)
  | obj (l : List (List Char × JVal))

/-- White space, the scanner of `json.load`, called at /repo/src/zernpy/calculations/calc_psfs.py:839. -/
def isWs (c : Char) : Bool := c == ' ' || c == '\t' || c == '\n' || c == '\r'

/-- Skip white space, the scanner of `json.load`, called at /repo/src/zernpy/calculations/calc_psfs.py:839. -/
def skipWs (s : List Char) : List Char := s.dropWhile isWs

/-- The escapes of one character. The scanner of `json.load`, called at /repo/src/zernpy/calculations/calc_psfs.py:839. -/
def unescape : Char → Option Char
  | '"' => some '"'
  | '\\' => some '\\'
  | '/' => some '/'
  | 'b' => some '\x08'
  | 'f' => some '\x0c'
  | 'n' => some '\n'
  | 'r' => some '\r'
  | 't' => some '\t'
  | _ => none

/-- Hexadecimal digits. The scanner of `json.load`, called at /repo/src/zernpy/calculations/calc_psfs.py:839. -/
def hexDigit : Char → Option Nat
  | '0' => some 0 | '1' => some 1 | '2' => some 2 | '3' => some 3 | '4' => some 4 | '5' => some 5 | '6' => some 6 | '7' => some 7 | '8' => some 8 | '9' => some 9
  | 'a' => some 10 | 'b' => some 11 | 'c' => some 12 | 'd' => some 13 | 'e' => some 14 | 'f' => some 15
  | 'A' => some 10 | 'B' => some 11 | 'C' => some 12 | 'D' => some 13 | 'E' => some 14 | 'F' => some 15
  | _ => none

/-- The character of a code unit; simplification: the units of the surrogate range, one by one or in pairs, are all U+FFFD here. The scanner of `json.load`, called at /repo/src/zernpy/calculations/calc_psfs.py:839. -/
def codeChar (n : Nat) : Char := if 0xD800 ≤ n ∧ n < 0xE000 then '\uFFFD' else Char.ofNat n

/-- The character of four hexadecimal digits. The scanner of `json.load`, called at /repo/src/zernpy/calculations/calc_psfs.py:839. -/
def hexChar (a b c d : Char) : Option Char :=
  match hexDigit a, hexDigit b, hexDigit c, hexDigit d with
  | some i, some j, some k, some l => some (codeChar (((i * 16 + j) * 16 + k) * 16 + l))
  | _, _, _, _ => none

/-- A string, after the opening quote; control characters are errors (`strict`). The scanner of `json.load`, called at /repo/src/zernpy/calculations/calc_psfs.py:839. -/
def scanString : List Char → Option (List Char × List Char)
  | [] => none
  | '"' :: r => some ([], r)
  | '\\' :: 'u' :: a :: b :: c :: d :: r => match hexChar a b c d with
    | none => none
    | some x => match scanString r with
      | none => none
      | some (s, r') => some (x :: s, r')
  | '\\' :: e :: r => match unescape e with
    | none => none
    | some x => match scanString r with
      | none => none
      | some (s, r') => some (x :: s, r')
  | ['\\'] => none
  | c :: r => if c.toNat < 32 then none else match scanString r with
    | none => none
    | some (s, r') => some (c :: s, r')

/-- The literals, with those that only Python knows. The scanner of `json.load`, called at /repo/src/zernpy/calculations/calc_psfs.py:839. -/
def jsonLiterals : List (List Char) := [['t', 'r', 'u', 'e'], ['f', 'a', 'l', 's', 'e'], ['n', 'u', 'l', 'l'], ['N', 'a', 'N'],
  ['I', 'n', 'f', 'i', 'n', 'i', 't', 'y'], ['-', 'I', 'n', 'f', 'i', 'n', 'i', 't', 'y']]

/-- A number or a literal: all its characters have to form one. (The scanner would take the longest one at the beginning; the rest is an error then, as after a value only
white space, a comma or a closing bracket or brace can stand.) The scanner of `json.load`, called at /repo/src/zernpy/calculations/calc_psfs.py:839. -/
def scanNumber (s : List Char) : Option (JVal × List Char) :=
  if isNumber (s.takeWhile numChar) then some (.num (s.takeWhile numChar), s.dropWhile numChar)
  else if s.takeWhile numChar ∈ jsonLiterals then some (.lit (s.takeWhile numChar), s.dropWhile numChar) else none

mutual
/-- One value, the scanner of `json.load`, called at /repo/src/zernpy/calculations/calc_psfs.py:839. The number is a bound of the recursion, the length of the text suffices. -/
def scanValue : Nat → List Char → Option (JVal × List Char)
  | 0, _ => none
  | f + 1, s => match s with
    | '"' :: r => match scanString r with
      | none => none
      | some (t, r) => some (.str t, r)
    | '[' :: r => match skipWs r with
      | ']' :: r => some (.arr [], r)
      | r => match scanElems f r with
        | none => none
        | some (l, r) => some (.arr l, r)
    | '{' :: r => match skipWs r with
      | '}' :: r => some (.obj [], r)
      | r => match scanMembers f r with
        | none => none
        | some (l, r) => some (.obj l, r)
    | s => scanNumber s

/-- The elements of an array and the closing bracket, the scanner of `json.load`, called at /repo/src/zernpy/calculations/calc_psfs.py:839. -/
def scanElems : Nat → List Char → Option (List JVal × List Char)
  | 0, _ => none
  | f + 1, s => match scanValue f s with
    | none => none
    | some (v, r) => match skipWs r with
      | ']' :: r => some ([v], r)
      | ',' :: r => match scanElems f (skipWs r) with
        | none => none
        | some (l, r) => some (v :: l, r)
      | _ => none

/-- The members of an object and the closing brace, the scanner of `json.load`, called at /repo/src/zernpy/calculations/calc_psfs.py:839. -/
def scanMembers : Nat → List Char → Option (List (List Char × JVal) × List Char)
  | 0, _ => none
  | f + 1, s => match s with
    | '"' :: r => match scanString r with
      | none => none
      | some (k, r) => match skipWs r with
        | ':' :: r => match scanValue f (skipWs r) with
          | none => none
          | some (v, r) => match skipWs r with
            | '}' :: r => some ([(k, v)], r)
            | ',' :: r => match scanMembers f (skipWs r) with
              | none => none
              | some (l, r) => some ((k, v) :: l, r)
            | _ => none
        | _ => none
    | _ => none
end

/-- `json.load`: one value with white space around it, nothing else; a `JSONDecodeError` is a `ValueError`, /repo/src/zernpy/calculations/calc_psfs.py:839. -/
def jsonLoad (s : List Char) : Res JVal :=
  match scanValue (s.length + 1) (skipWs s) with
  | none => .error .valueError
  | some (v, r) => if skipWs r = [] then .ok v else .error .valueError

/-- The numbers of a list, /repo/src/zernpy/zernpsf.py:616-633. -/
def numTokens : List JVal → Option (List (List Char))
  | [] => some []
  | .num t :: rest => (numTokens rest).map (t :: ·)
  | _ :: _ => none

/-- The numbers of a list of lists, /repo/src/zernpy/zernpsf.py:615. -/
def rowTokens : List JVal → Option (List (List (List Char)))
  | [] => some []
  | .arr l :: rest => match numTokens l with
    | none => none
    | some r => (rowTokens rest).map (r :: ·)
  | _ :: _ => none

/-- `np.asarray(item)` of lists of equal lengths, /repo/src/zernpy/zernpsf.py:615. -/
def Grid.ofLists (l : List (List ℝ)) : Grid := ⟨l.length, (l.headD []).length, fun i j => (l.getD i []).getD j 0⟩

/-- The keys that the reader knows, /repo/src/zernpy/zernpsf.py:612-647. -/
def jsonKeys : List String := ["PSF Kernel", "Kernel Size", "# of integration points R", "# of integration points angle", "NA", "Wavelength", "Expansion Coefficient",
  "Amplitudes", "Pixel Size", "Polynomial", "Polynomials"]

/-- One more member for the dictionary that `json.load` makes of an object: a key that is there already keeps its place and gets the new value,
/repo/src/zernpy/calculations/calc_psfs.py:839. -/
def dictPut (d : List (List Char × JVal)) (kv : List Char × JVal) : List (List Char × JVal) :=
  if kv.1 ∈ d.map Prod.fst then d.map fun e => if e.1 = kv.1 then kv else e else d ++ [kv]

/-- The dictionary that `json.load` makes of the members of an object, in the order of its `items`, /repo/src/zernpy/calculations/calc_psfs.py:839. -/
def pyDict (l : List (List Char × JVal)) : List (List Char × JVal) := l.foldl dictPut []

/-- The entry for a key and a value; under the known keys, other types of values than `save_psf` writes are not modelled (`none`); any value under any other key
is ignored, /repo/src/zernpy/zernpsf.py:612-647. -/
noncomputable def readMember (N : NumberText) (kv : List Char × JVal) : Option JsonItem :=
  match String.ofList kv.1, kv.2 with
  | "PSF Kernel", .arr l => (rowTokens l).map fun rows => .kernel (Grid.ofLists (rows.map fun r => r.map N.value))
  | "Kernel Size", .num t => some (.kernelSize (intValue t))
  | "# of integration points R", .num t => some (.pointsR (intValue t))
  | "# of integration points angle", .num t => some (.pointsAngle (intValue t))
  | "NA", .num t => some (.na (N.value t))
  | "Wavelength", .num t => some (.wavelength (N.value t))
  | "Expansion Coefficient", .num t => some (.coefficient (N.value t))
  | "Amplitudes", .arr l => (numTokens l).map fun ts => .amplitudes (ts.map N.value)
  | "Pixel Size", .num t => some (.pixelSize (N.value t))
  | "Polynomial", .num t => some (.polynomial (intValue t))
  | "Polynomials", .arr l => (numTokens l).map fun ts => .polynomials (ts.map intValue)
  | key, _ => if key ∈ jsonKeys then none else some (.unknown key)

/-- The entries of an object, /repo/src/zernpy/zernpsf.py:612-647. -/
noncomputable def readMembers (N : NumberText) : List (List Char × JVal) → Option (List JsonItem)
  | [] => some []
  | kv :: rest => match readMember N kv with
    | none => none
    | some x => (readMembers N rest).map (x :: ·)

/-- `read_json` on the text of the file (`none`: there is no such file), /repo/src/zernpy/zernpsf.py:591-656 with /repo/src/zernpy/calculations/calc_psfs.py:820-840. If the text is not an object, it
has no `items`; values of unexpected types under the known keys: not modelled, a `TypeError` here. -/
noncomputable def PsfObj.readText (N : NumberText) (o : PsfObj) : Option (List Char) → Res Unit × PsfObj
  | none => o.readJson none
  | some text =>
    match jsonLoad text with
    | .error e => (.error e, o)
    | .ok (.obj l) => match readMembers N (pyDict l) with
      | none => (.error .typeError, o)
      | some doc => o.readJson (some doc)
    | .ok _ => (.error .attributeError, o)

/-! ### Writing, and interruptions of it -/

/-- The file system with the texts of the files, /repo/src/zernpy/calculations/calc_psfs.py:785-818. -/
structure TextDisk where
  isDir : String → Bool
  file : String → String → Option (List Char)

/-- What the process does to the file system: creation of a folder, `open(path, 'w')` (creates or empties the file), and one more character on the disk,
/repo/src/zernpy/calculations/calc_psfs.py:787-788,816-817. -/
inductive DiskAction where
  | mkdir (f : String)
  | openW (f name : String)
  | put (f name : String) (c : Char)

/-- Change the text of one file, /repo/src/zernpy/calculations/calc_psfs.py:816-817. -/
def TextDisk.setFile (d : TextDisk) (f name : String) (text : List Char) : TextDisk :=
  { d with file := Function.update d.file f (Function.update (d.file f) name (some text)) }

/-- The effect of an action, /repo/src/zernpy/calculations/calc_psfs.py:787-788,816-817. -/
def TextDisk.act (d : TextDisk) : DiskAction → TextDisk
  | .mkdir f => { d with isDir := Function.update d.isDir f true }
  | .openW f name => d.setFile f name []
  | .put f name c => d.setFile f name ((d.file f name).getD [] ++ [c])

/-- The folder, as `saveFolder`, /repo/src/zernpy/zernpsf.py:569-574 and /repo/src/zernpy/calculations/calc_psfs.py:785-793. -/
def TextDisk.folder (pl : Places) (d : TextDisk) : PathArg → Res String
  | .none => .ok (if d.isDir pl.own then pl.own else pl.cwd)
  | .path p => .ok (if d.isDir p then p else pl.cwd)
  | .str _ => .error .attributeError

/-- The actions of writing a text to a file, /repo/src/zernpy/calculations/calc_psfs.py:816-817. -/
def writeActions (f name : String) (text : List Char) : List DiskAction := .openW f name :: text.map (.put f name)

/-- `save_json`: the result (the stored path, `none` if there is nothing to save) and the actions on the file system in their order,
/repo/src/zernpy/zernpsf.py:552-589 with /repo/src/zernpy/calculations/calc_psfs.py:738-818. -/
def PsfObj.saveActions (N : NumberText) (fmt : NumberFormat) (pl : Places) (o : PsfObj) (arg : PathArg) (overwrite : Bool) (d : TextDisk) :
    Res (Option (String × String)) × List DiskAction :=
  match d.folder pl arg with
  | .error e => (.error e, [])
  | .ok f =>
    if o.zernpol = none ∧ o.polynomials = [] then (.ok none, [])
    else
      match o.document with
      | .error e => (.error e, [.mkdir f])
      | .ok doc =>
        if (d.file f (o.fileName fmt)).isSome && !overwrite then (.ok (some (f, o.fileName fmt)), [.mkdir f])
        else (.ok (some (f, o.fileName fmt)), .mkdir f :: writeActions f (o.fileName fmt) (documentText N doc))

/-- The file system after the process has done the first `k` actions of the call (all of them if `k` is large), when it was stopped: by a crash, a signal, the end of
the power supply, /repo/src/zernpy/calculations/calc_psfs.py:785-818. -/
def PsfObj.saveStopped (N : NumberText) (fmt : NumberFormat) (pl : Places) (o : PsfObj) (arg : PathArg) (overwrite : Bool) (d : TextDisk) (k : Nat) : TextDisk :=
  ((o.saveActions N fmt pl arg overwrite d).2.take k).foldl TextDisk.act d

/-- `save_json` that was not stopped, /repo/src/zernpy/zernpsf.py:552-589. -/
def PsfObj.saveText (N : NumberText) (fmt : NumberFormat) (pl : Places) (o : PsfObj) (arg : PathArg) (overwrite : Bool) (d : TextDisk) :
    Res (Option (String × String)) × TextDisk :=
  ((o.saveActions N fmt pl arg overwrite d).1, (o.saveActions N fmt pl arg overwrite d).2.foldl TextDisk.act d)

end Verif.Model
