import Verif.Text
/-
`strconv.Quote` (and the verb `%q` on strings), used to print keys and string values.

Which characters outside ASCII are printable (`strconv.IsPrint`) is a table of the Go standard library; the model
takes it as a parameter `P : Nat → Bool`, and the theorems hold for every `P`.
-/
namespace Verif

/-- Is the byte a UTF-8 continuation byte in the range `lo..hi`?
[part of `%q` and `strconv.Quote`, internal/tson/serialization.go:59, 195, 231] -/
def contIn (lo hi : UInt8) (b : UInt8) : Bool := lo ≤ b && b ≤ hi

/-- Lower bound of the second byte: no overlong encodings (table `acceptRanges` of package `unicode/utf8`).
[part of `%q` and `strconv.Quote`, internal/tson/serialization.go:59, 195, 231] -/
def secondLo (b0 : UInt8) : UInt8 := if b0 = 0xE0 then 0xA0 else if b0 = 0xF0 then 0x90 else 0x80

/-- Upper bound of the second byte: no surrogates, nothing above U+10FFFF (table `acceptRanges` of package
`unicode/utf8`). [part of `%q` and `strconv.Quote`, internal/tson/serialization.go:59, 195, 231] -/
def secondHi (b0 : UInt8) : UInt8 := if b0 = 0xED then 0x9F else if b0 = 0xF4 then 0x8F else 0xBF

/-- `utf8.DecodeRuneInString` on a string starting with a byte of at least 0x80 (used by `strconv.Quote`,
internal/tson/serialization.go:59 and others): the code point and the number of bytes, or `none` for
`(RuneError, 1)`. -/
def runeAt : Bytes → Option (Nat × Nat)
  | [] => none
  | b0 :: r =>
    if 0xC2 ≤ b0 && b0 ≤ 0xDF then
      match r with
      | b1 :: _ => if contIn 0x80 0xBF b1 then some ((b0.toNat - 0xC0) * 64 + (b1.toNat - 0x80), 2) else none
      | [] => none
    else if 0xE0 ≤ b0 && b0 ≤ 0xEF then
      match r with
      | b1 :: b2 :: _ =>
        if contIn (secondLo b0) (secondHi b0) b1 && contIn 0x80 0xBF b2 then
          some ((b0.toNat - 0xE0) * 4096 + (b1.toNat - 0x80) * 64 + (b2.toNat - 0x80), 3)
        else none
      | _ => none
    else if 0xF0 ≤ b0 && b0 ≤ 0xF4 then
      match r with
      | b1 :: b2 :: b3 :: _ =>
        if contIn (secondLo b0) (secondHi b0) b1 && contIn 0x80 0xBF b2 &&
            contIn 0x80 0xBF b3 then
          some ((b0.toNat - 0xF0) * 262144 + (b1.toNat - 0x80) * 4096 + (b2.toNat - 0x80) * 64 + (b3.toNat - 0x80), 4)
        else none
      | _ => none
    else none

/-- One of the digits `0123456789abcdef`.
[part of `%q` and `strconv.Quote`, internal/tson/serialization.go:59, 195, 231] -/
def hexDigit (n : Nat) : UInt8 := UInt8.ofNat (if n < 10 then 48 + n else 87 + n)

/-- `k` hexadecimal digits of `n`, most significant first.
[part of `%q` and `strconv.Quote`, internal/tson/serialization.go:59, 195, 231] -/
def hexDigits : Nat → Nat → Bytes
  | 0, _ => []
  | k + 1, n => hexDigits k (n / 16) ++ [hexDigit (n % 16)]

/-- `strconv.appendEscapedRune` on a one-byte character: quote and backslash are escaped, printable characters are
copied, the others become `\a \b \f \n \r \t \v` or `\x..`.
[part of `%q` and `strconv.Quote`, internal/tson/serialization.go:59, 195, 231] -/
def escByte (c : UInt8) : Bytes :=
  if c = 34 ∨ c = 92 then [92, c]
  else if 32 ≤ c ∧ c ≤ 126 then [c]
  else if c = 7 then [92, 97]
  else if c = 8 then [92, 98]
  else if c = 12 then [92, 102]
  else if c = 10 then [92, 110]
  else if c = 13 then [92, 114]
  else if c = 9 then [92, 116]
  else if c = 11 then [92, 118]
  else 92 :: 120 :: hexDigits 2 c.toNat

/-- `strconv.appendEscapedRune` on a character outside ASCII; `enc` is its UTF-8 encoding, which is copied from the
input (`utf8.AppendRune` gives the same bytes).
[part of `%q` and `strconv.Quote`, internal/tson/serialization.go:59, 195, 231] -/
def escRune (P : Nat → Bool) (r : Nat) (enc : Bytes) : Bytes :=
  if P r then enc
  else if r < 0x10000 then 92 :: 117 :: hexDigits 4 r
  else 92 :: 85 :: hexDigits 8 r

/-- The loop of `strconv.appendQuotedWith`; the first argument bounds the number of rounds.
[part of `%q` and `strconv.Quote`, internal/tson/serialization.go:59, 195, 231] -/
def quoteBody (P : Nat → Bool) : Nat → Bytes → Bytes
  | 0, _ => []
  | _ + 1, [] => []
  | n + 1, c :: r =>
    if c < 0x80 then escByte c ++ quoteBody P n r
    else match runeAt (c :: r) with
      | some (cp, w) => escRune P cp ((c :: r).take w) ++ quoteBody P n ((c :: r).drop w)
      | none => 92 :: 120 :: (hexDigits 2 c.toNat ++ quoteBody P n r)

/-- `strconv.Quote(s)` and `fmt.Sprintf("%q", s)` (internal/tson/serialization.go:59-70, 117, 305). -/
def quote (P : Nat → Bool) (s : Bytes) : Bytes := 34 :: (quoteBody P s.length s ++ [34])

example : quote (fun _ => true) b!"a\"b\\\n" = b!"\"a\\\"b\\\\\\n\"" := by decide
/-- `é` is U+00E9. -/
example : quote (fun n => n == 0xE9) b!"é" = 34 :: 0xC3 :: 0xA9 :: [34] := by decide
example : quote (fun _ => false) b!"é" = b!"\"\\u00e9\"" := by decide
example : quote (fun _ => true) [0xC3] = b!"\"\\xc3\"" := by decide
example : quote (fun _ => true) [7] = b!"\"\\a\"" := by decide

end Verif
