import Verif.Model.Json

/-!
# The text of JSON documents (`nlohmann::json`)

`Parser.cpp:25-33` reads a document with `json::parse(stream)`, and `saveToJSONFile` (Results.cpp:100-104) writes one with
`ofs << j`. The sources of the library are not in the sandbox: both functions follow its published code. A text is the list of
its characters (Unicode code points; that bytes are valid UTF-8 is not modelled). How a `double` is written and read is a
parameter (`NumberFormat`). Simplifications: the parser is a function of the remaining text with a bound on the nesting
that the length of the text provides, in place of a lexer and a stack; a byte-order mark is not skipped; comments are not
allowed, as by default.
-/

namespace Tulip.JsonText
open Tulip

/-- How numbers that are not integers are written and read: `dump_float` (the shortest digits that are read back as the same
number, always with a point or an exponent), and `strtod`. -/
structure NumberFormat (𝕜 : Type _) where
  write : 𝕜 → List Char
  read : List Char → Option 𝕜

/-! ## Writing -/

/-- Digit of a `\u` escape (`%04x`: lower case). -/
def hexDigit (n : Nat) : Char := if n < 10 then Char.ofNat (48 + n) else Char.ofNat (87 + n)

/-- `dump_escaped` with `ensure_ascii = false`: one character. -/
def escapeChar (c : Char) : List Char :=
  if c = '"' then ['\\', '"']
  else if c = '\\' then ['\\', '\\']
  else if c.toNat = 8 then ['\\', 'b']
  else if c.toNat = 12 then ['\\', 'f']
  else if c = '\n' then ['\\', 'n']
  else if c = '\r' then ['\\', 'r']
  else if c = '\t' then ['\\', 't']
  else if c.toNat < 32 then ['\\', 'u', '0', '0', hexDigit (c.toNat / 16), hexDigit (c.toNat % 16)]
  else [c]

/-- A string between quotation marks. -/
def dumpString (s : List Char) : List Char := '"' :: s.flatMap escapeChar ++ ['"']

/-- `dump_integer` -/
def dumpInt (z : Int) : List Char := if z < 0 then '-' :: Nat.toDigits 10 z.natAbs else Nat.toDigits 10 z.natAbs

variable {𝕜 : Type _} (fmt : NumberFormat 𝕜)

mutual
/-- `dump` without indentation, as `operator<<` calls it. -/
def dump : Json 𝕜 → List Char
  | .null => ['n', 'u', 'l', 'l']
  | .bool true => ['t', 'r', 'u', 'e']
  | .bool false => ['f', 'a', 'l', 's', 'e']
  | .int z => dumpInt z
  | .num x => fmt.write x
  | .str s => dumpString s.toList
  | .arr xs => '[' :: dumpElems xs ++ [']']
  | .obj fs => '{' :: dumpMembers fs ++ ['}']

/-- Elements of an array, with commas between them. -/
def dumpElems : List (Json 𝕜) → List Char
  | [] => []
  | [x] => dump x
  | x :: y :: xs => dump x ++ ',' :: dumpElems (y :: xs)

/-- Members of an object, with commas between them. -/
def dumpMembers : List (String × Json 𝕜) → List Char
  | [] => []
  | [(k, v)] => dumpString k.toList ++ ':' :: dump v
  | (k, v) :: y :: fs => dumpString k.toList ++ ':' :: dump v ++ ',' :: dumpMembers (y :: fs)
end

/-! ## Reading -/

/-- White space between tokens. -/
def isWs (c : Char) : Bool := c = ' ' || c = '\t' || c = '\n' || c = '\r'

def skipWs (s : List Char) : List Char := s.dropWhile isWs

/-- Value of a hexadecimal digit. -/
def hexValue (c : Char) : Option Nat :=
  if '0' ≤ c ∧ c ≤ '9' then some (c.toNat - 48)
  else if 'a' ≤ c ∧ c ≤ 'f' then some (c.toNat - 87)
  else if 'A' ≤ c ∧ c ≤ 'F' then some (c.toNat - 55)
  else none

/-- `get_codepoint`: four hexadecimal digits. -/
def hex4 (a b c d : Char) : Option Nat := do
  let a ← hexValue a
  let b ← hexValue b
  let c ← hexValue c
  let d ← hexValue d
  some (((a * 16 + b) * 16 + c) * 16 + d)

/-- The escapes of one character. -/
def simpleEscape (e : Char) : Option Char :=
  if e = '"' then some '"' else if e = '\\' then some '\\' else if e = '/' then some '/'
  else if e = 'b' then some (Char.ofNat 8) else if e = 'f' then some (Char.ofNat 12)
  else if e = 'n' then some '\n' else if e = 'r' then some '\r' else if e = 't' then some '\t' else none

/-- `scan_string`, after the opening quotation mark: the string and what follows the closing one. -/
def parseString : List Char → Option (List Char × List Char)
  | [] => none
  | c :: r =>
    if c = '"' then some ([], r)
    else if c = '\\' then
      match r with
      | [] => none
      | e :: r =>
        if e = 'u' then
          match r with
          | h1 :: h2 :: h3 :: h4 :: r =>
            match hex4 h1 h2 h3 h4 with
            | none => none
            | some n =>
              if 0xD800 ≤ n ∧ n ≤ 0xDBFF then
                match r with
                | b :: u :: k1 :: k2 :: k3 :: k4 :: r =>
                  if b = '\\' ∧ u = 'u' then
                    match hex4 k1 k2 k3 k4 with
                    | none => none
                    | some m =>
                      if 0xDC00 ≤ m ∧ m ≤ 0xDFFF then
                        (parseString r).map
                          (fun p => (Char.ofNat ((n - 0xD800) * 0x400 + (m - 0xDC00) + 0x10000) :: p.1, p.2))
                      else none
                  else none
                | _ => none
              else if 0xDC00 ≤ n ∧ n ≤ 0xDFFF then none
              else (parseString r).map (fun p => (Char.ofNat n :: p.1, p.2))
          | _ => none
        else
          match simpleEscape e with
          | none => none
          | some c => (parseString r).map (fun p => (c :: p.1, p.2))
    else if c.toNat < 32 then none
    else (parseString r).map (fun p => (c :: p.1, p.2))

/-- Characters of numbers. -/
def isNumChar (c : Char) : Bool := c.isDigit || c = '-' || c = '+' || c = '.' || c = 'e' || c = 'E'

/-- An optional minus sign. -/
def stripMinus : List Char → List Char
  | [] => []
  | c :: r => if c = '-' then r else c :: r

/-- Zero, or digits that start with another one; what follows them. -/
def scanDigits : List Char → Option (List Char)
  | [] => none
  | d :: r => if d = '0' then some r else if d.isDigit then some (r.dropWhile Char.isDigit) else none

/-- The integer part of a number; what follows it. -/
def scanInt (s : List Char) : Option (List Char) := scanDigits (stripMinus s)

/-- One or more digits; what follows them. -/
def scanAnyDigits : List Char → Option (List Char)
  | [] => none
  | d :: r => if d.isDigit then some (r.dropWhile Char.isDigit) else none

/-- The fraction, if any; what follows it. -/
def scanFrac : List Char → Option (List Char)
  | [] => some []
  | c :: r => if c = '.' then scanAnyDigits r else some (c :: r)

/-- An optional sign. -/
def stripSign : List Char → List Char
  | [] => []
  | c :: r => if c = '-' ∨ c = '+' then r else c :: r

/-- The exponent, if any; what follows it. -/
def scanExp : List Char → Option (List Char)
  | [] => some []
  | c :: r => if c = 'e' ∨ c = 'E' then scanAnyDigits (stripSign r) else some (c :: r)

/-- Value of a sequence of decimal digits. -/
def decimal (ds : List Char) : Nat := ds.foldl (fun n c => 10 * n + (c.toNat - 48)) 0

/-- Value of an integer. -/
def intValue (s : List Char) : Int := if s.head? = some '-' then -(decimal s.tail : Int) else decimal s

/-- `scan_number`: integers within the range of 64 bits are integers, everything else is read as a `double`. -/
def parseNumber (tok : List Char) : Option (Json 𝕜) :=
  match scanInt tok with
  | none => none
  | some [] =>
    if -9223372036854775808 ≤ intValue tok ∧ intValue tok ≤ 18446744073709551615 then some (.int (intValue tok))
    else (fmt.read tok).map .num
  | some r =>
    match scanFrac r with
    | none => none
    | some r =>
      match scanExp r with
      | some [] => (fmt.read tok).map .num
      | _ => none

mutual
/-- One value; what follows it. The first argument bounds the depth of the recursion. -/
def parseValue : Nat → List Char → Option (Json 𝕜 × List Char)
  | 0, _ => none
  | n + 1, s =>
    match skipWs s with
    | 'n' :: 'u' :: 'l' :: 'l' :: r => some (.null, r)
    | 't' :: 'r' :: 'u' :: 'e' :: r => some (.bool true, r)
    | 'f' :: 'a' :: 'l' :: 's' :: 'e' :: r => some (.bool false, r)
    | '"' :: r => (parseString r).map (fun p => (.str (String.ofList p.1), p.2))
    | '[' :: r =>
      match skipWs r with
      | ']' :: r' => some (.arr [], r')
      | _ => (parseElems n r).map (fun p => (.arr p.1, p.2))
    | '{' :: r =>
      match skipWs r with
      | '}' :: r' => some (.obj [], r')
      | _ => (parseMembers n r []).map (fun p => (.obj p.1, p.2))
    | r => (parseNumber fmt (r.takeWhile isNumChar)).map (fun j => (j, r.dropWhile isNumChar))

/-- The elements of an array up to the closing bracket. -/
def parseElems : Nat → List Char → Option (List (Json 𝕜) × List Char)
  | 0, _ => none
  | n + 1, s =>
    match parseValue n s with
    | none => none
    | some (v, r) =>
      match skipWs r with
      | ',' :: r' => (parseElems n r').map (fun p => (v :: p.1, p.2))
      | ']' :: r' => some ([v], r')
      | _ => none

/-- The members of an object up to the closing brace; of members with the same name the last one is kept. -/
def parseMembers : Nat → List Char → SMap String (Json 𝕜) → Option (SMap String (Json 𝕜) × List Char)
  | 0, _, _ => none
  | n + 1, s, acc =>
    match skipWs s with
    | '"' :: r =>
      match parseString r with
      | none => none
      | some (k, r1) =>
        match skipWs r1 with
        | ':' :: r2 =>
          match parseValue n r2 with
          | none => none
          | some (v, r3) =>
            match skipWs r3 with
            | ',' :: r4 => parseMembers n r4 (acc.set (String.ofList k) v)
            | '}' :: r4 => some (acc.set (String.ofList k) v, r4)
            | _ => none
        | _ => none
    | _ => none
end

/-- `json::parse`: one value and nothing else; `none` stands for the exception. -/
def parse (s : List Char) : Option (Json 𝕜) :=
  match parseValue fmt (2 * s.length + 1) s with
  | some (j, r) => if skipWs r = [] then some j else none
  | none => none

end Tulip.JsonText
