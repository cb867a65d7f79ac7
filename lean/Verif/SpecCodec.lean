import Verif.Codec
/-
Specification vocabulary for the text format: which strings, numbers and documents are readable.
-/
namespace Verif

/-- The UTF-8 encoding of a code point of at least 0x80. -/
def utf8Enc (r : Nat) : Bytes :=
  if r < 0x800 then [UInt8.ofNat (0xC0 + r / 64), UInt8.ofNat (0x80 + r % 64)]
  else if r < 0x10000 then
    [UInt8.ofNat (0xE0 + r / 4096), UInt8.ofNat (0x80 + r / 64 % 64), UInt8.ofNat (0x80 + r % 64)]
  else [UInt8.ofNat (0xF0 + r / 262144), UInt8.ofNat (0x80 + r / 4096 % 64), UInt8.ofNat (0x80 + r / 64 % 64),
    UInt8.ofNat (0x80 + r % 64)]

/-- A Unicode scalar value outside ASCII. -/
def IsScalar (r : Nat) : Prop := 0x80 ≤ r ∧ r < 0x110000 ∧ ¬ (0xD800 ≤ r ∧ r < 0xE000)

/-- Text without invalid UTF-8 and without characters that `strconv.Quote` writes as `\a`, `\v`, `\x`, `\u` or `\U`:
printable characters and `\b \t \n \f \r`. -/
inductive PlainText (P : Nat → Bool) : Bytes → Prop
  | nil : PlainText P []
  | ascii {c : UInt8} {s : Bytes} : (32 ≤ c ∧ c ≤ 126) ∨ c = 8 ∨ c = 9 ∨ c = 10 ∨ c = 12 ∨ c = 13 →
      PlainText P s → PlainText P (c :: s)
  | rune {r : Nat} {s : Bytes} : IsScalar r → P r = true → PlainText P s → PlainText P (utf8Enc r ++ s)

/-- A number that `%v` writes without exponent. -/
def PlainNumber (f : F64) : Prop :=
  ∃ neg m e h, f = .fin neg m e h ∧ usesExp (shortest neg m e h).1 (shortest neg m e h).2 = false

/-- A primitive value whose text `Unmarshal` reads back. -/
def PlainPrim (P : Nat → Bool) : Prim → Prop
  | .str s => PlainText P s
  | .num f => PlainNumber f
  | .bool _ => True

mutual
/-- A document all of whose keys and values are readable, without nil.  (The bound on timestamps is the range of
their Go type.) -/
def Readable (P : Nat → Bool) : Tson → Prop
  | .null => False
  | .leaf p ts => PlainPrim P p ∧ ts ≤ 9223372036854775807
  | .obj m => ReadableF P m
  | .arr l => ReadableL P l
/-- All keys and members are readable. -/
def ReadableF (P : Nat → Bool) : List (Bytes × Tson) → Prop
  | [] => True
  | (k, v) :: m => PlainText P k ∧ Readable P v ∧ ReadableF P m
/-- All elements are readable. -/
def ReadableL (P : Nat → Bool) : List Tson → Prop
  | [] => True
  | v :: l => Readable P v ∧ ReadableL P l
end

mutual
/-- No nil in the document. -/
def NullFree : Tson → Prop
  | .null => False
  | .leaf _ _ => True
  | .obj m => NullFreeF m
  | .arr l => NullFreeL l
/-- No nil in the members. -/
def NullFreeF : List (Bytes × Tson) → Prop
  | [] => True
  | (_, v) :: m => NullFree v ∧ NullFreeF m
/-- No nil in the elements. -/
def NullFreeL : List Tson → Prop
  | [] => True
  | v :: l => NullFree v ∧ NullFreeL l
end

mutual
/-- The document with every negative timestamp replaced by -1. -/
def clampTs : Tson → Tson
  | .null => .null
  | .leaf p ts => .leaf p (if 0 ≤ ts then ts else -1)
  | .obj m => .obj (clampTsF m)
  | .arr l => .arr (clampTsL l)
/-- The members with every negative timestamp replaced by -1. -/
def clampTsF : List (Bytes × Tson) → List (Bytes × Tson)
  | [] => []
  | (k, v) :: m => (k, clampTs v) :: clampTsF m
/-- The elements with every negative timestamp replaced by -1. -/
def clampTsL : List Tson → List Tson
  | [] => []
  | v :: l => clampTs v :: clampTsL l
end

/-- An object or an array. -/
def Tson.IsContainer : Tson → Prop
  | .obj _ => True
  | .arr _ => True
  | _ => False

mutual
/-- The timestamps of the leaves of a document. -/
def stamps : Tson → List Int
  | .null => []
  | .leaf _ ts => [ts]
  | .obj m => stampsF m
  | .arr l => stampsL l
/-- The timestamps of the leaves of the members. -/
def stampsF : List (Bytes × Tson) → List Int
  | [] => []
  | (_, v) :: m => stamps v ++ stampsF m
/-- The timestamps of the leaves of the elements. -/
def stampsL : List Tson → List Int
  | [] => []
  | v :: l => stamps v ++ stampsL l
end

/-! ### Tokens -/

/-- Tokens of the text format. -/
inductive Tok where
  /-- one of `{ } [ ] , :` -/
  | punct (c : UInt8)
  /-- a timestamp in angle brackets; `<>` is -1 -/
  | ts (n : Int)
  /-- a string -/
  | str (s : Bytes)
  /-- a number -/
  | num (f : F64)
  /-- `true`, `false`, or `null` (`none`) -/
  | word (b : Option Bool)
deriving DecidableEq, Repr

/-- Result of reading one token. -/
inductive Lex where
  | tok (t : Tok) (rest : Bytes)
  /-- the end of the text -/
  | eof
  /-- not a token -/
  | bad
  /-- `<` without a well-formed timestamp -/
  | badTs
deriving DecidableEq

/-- The words `true`, `false` and `null`. -/
def lexWord (s : Bytes) : Lex :=
  if hasPrefix s b!"true" then .tok (.word (some true)) (s.drop 4)
  else if hasPrefix s b!"false" then .tok (.word (some false)) (s.drop 5)
  else if hasPrefix s b!"null" then .tok (.word none) (s.drop 4)
  else .bad

/-- The first token of a text after white space. -/
def lexOne (s : Bytes) : Lex :=
  match skipWs s with
  | [] => .eof
  | c :: r =>
    if c = 60 then
      match parseTs (c :: r) with
      | some (n, r) => .tok (.ts n) r
      | none => .badTs
    else if c = 34 then
      match stringBody r with
      | some (x, r) => .tok (.str x) r
      | none => .bad
    else if isNumStart c then
      match parseNumber (c :: r) with
      | some (f, r) => .tok (.num f) r
      | none => .bad
    else if c = 123 ∨ c = 125 ∨ c = 91 ∨ c = 93 ∨ c = 44 ∨ c = 58 then .tok (.punct c) r
    else lexWord (c :: r)

/-- The tokens of a text up to the first malformed one, and how the text ends: `some false` for a malformed token,
`some true` for a malformed timestamp, `none` for the end of the text.  The first argument bounds the number of
tokens. -/
def lexAll : Nat → Bytes → List Tok × Option Bool
  | 0, _ => ([], none)
  | n + 1, s =>
    match lexOne s with
    | .tok t r => (t :: (lexAll n r).1, (lexAll n r).2)
    | .eof => ([], none)
    | .bad => ([], some false)
    | .badTs => ([], some true)

/-- The tokens of a text. -/
def tokens (s : Bytes) : List Tok × Option Bool := lexAll (s.length + 1) s

/-- A sequence of white-space characters. -/
def IsBlank (w : Bytes) : Prop := ∀ c ∈ w, c = 32 ∨ c = 9 ∨ c = 10 ∨ c = 13

/-- `pre` consists of complete tokens of the text `pre ++ post`. -/
inductive Boundary (post : Bytes) : Bytes → Prop
  | here : Boundary post []
  | tok {t : Tok} {p pre : Bytes} : lexOne (p ++ (pre ++ post)) = .tok t (pre ++ post) → Boundary post pre →
      Boundary post (p ++ pre)

example : tokens b!" [<5> 1 , true]" =
    ([.punct 91, .ts 5, .num (F64.ofInt 1), .punct 44, .word (some true), .punct 93], none) := by decide +kernel

end Verif
