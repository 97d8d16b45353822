import Verif.Model.JsonText
import Verif.Model.Results
import Mathlib.Data.Nat.Digits.Defs

/-!
# The grammar of JSON texts (RFC 8259)

Which text denotes which value: independent of how texts are read or written. Numbers with a fraction or an exponent (and
integers beyond 64 bits) denote what the number format reads.
-/

namespace Tulip.Spec
open Tulip Tulip.JsonText

/-- White space. -/
def Blank (w : List Char) : Prop := ∀ c ∈ w, c = ' ' ∨ c = '\t' ∨ c = '\n' ∨ c = '\r'

/-- One or more decimal digits. -/
def Digits (l : List Char) : Prop := l ≠ [] ∧ ∀ c ∈ l, c.isDigit = true

/-- An integer: an optional minus sign, then digits without leading zeros. -/
def IntText (z : Int) (l : List Char) : Prop :=
  ∃ neg : Bool, ∃ ds, l = (if neg then ['-'] else []) ++ ds ∧ Digits ds ∧ (ds.head? = some '0' → ds = ['0']) ∧
    z = (if neg then -1 else 1) * (Nat.ofDigits 10 (ds.reverse.map (fun c => c.toNat - 48)) : Int)

/-- A fraction: a point and digits. -/
def FracText (f : List Char) : Prop := ∃ ds, f = '.' :: ds ∧ Digits ds

/-- An exponent: `e` or `E`, an optional sign, digits. -/
def ExpText (e : List Char) : Prop :=
  ∃ m s ds, e = m :: s ++ ds ∧ (m = 'e' ∨ m = 'E') ∧ (s = [] ∨ s = ['+'] ∨ s = ['-']) ∧ Digits ds

/-- A number with a fraction, an exponent or both. -/
def FloatText (l : List Char) : Prop :=
  ∃ z i f e, l = i ++ f ++ e ∧ IntText z i ∧ (f = [] ∨ FracText f) ∧ (e = [] ∨ ExpText e) ∧ (f ≠ [] ∨ e ≠ [])

/-- A hexadecimal digit. -/
def HexText (c : Char) (n : Nat) : Prop :=
  "0123456789abcdef".toList[n]? = some c ∨ "0123456789ABCDEF".toList[n]? = some c

/-- Four hexadecimal digits. -/
def Hex4Text (l : List Char) (n : Nat) : Prop :=
  ∃ a b c d a' b' c' d', l = [a, b, c, d] ∧ HexText a a' ∧ HexText b b' ∧ HexText c c' ∧ HexText d d' ∧
    n = 4096 * a' + 256 * b' + 16 * c' + d'

/-- The text of a string between its quotation marks. -/
inductive StringText : List Char → List Char → Prop
  | nil : StringText [] []
  | plain {c cs t} : 32 ≤ c.toNat → c ≠ '"' → c ≠ '\\' → StringText cs t → StringText (c :: cs) (c :: t)
  | escape {e c cs t} : (e, c) ∈ [('"', '"'), ('\\', '\\'), ('/', '/'), ('b', Char.ofNat 8), ('f', Char.ofNat 12),
      ('n', '\n'), ('r', '\r'), ('t', '\t')] → StringText cs t → StringText (c :: cs) ('\\' :: e :: t)
  | code {c h cs t} : Hex4Text h c.toNat → StringText cs t → StringText (c :: cs) ('\\' :: 'u' :: h ++ t)
  | pair {c n m h h' cs t} : Hex4Text h n → Hex4Text h' m → 0xD800 ≤ n → n ≤ 0xDBFF → 0xDC00 ≤ m → m ≤ 0xDFFF →
      c.toNat = 0x10000 + 0x400 * (n - 0xD800) + (m - 0xDC00) → StringText cs t →
      StringText (c :: cs) ('\\' :: 'u' :: h ++ '\\' :: 'u' :: h' ++ t)

variable {𝕜 : Type _} (fmt : NumberFormat 𝕜)

mutual
/-- The text `t`, without white space around it, denotes the value. -/
inductive ValueText : Json 𝕜 → List Char → Prop
  | null : ValueText .null "null".toList
  | true_ : ValueText (.bool true) "true".toList
  | false_ : ValueText (.bool false) "false".toList
  | int {z t} : IntText z t → -2 ^ 63 ≤ z → z < 2 ^ 64 → ValueText (.int z) t
  | big {z t x} : IntText z t → (z < -2 ^ 63 ∨ 2 ^ 64 ≤ z) → fmt.read t = some x → ValueText (.num x) t
  | float {t x} : FloatText t → fmt.read t = some x → ValueText (.num x) t
  | string {cs t} : StringText cs t → ValueText (.str (String.ofList cs)) ('"' :: t ++ ['"'])
  | noElems {w} : Blank w → ValueText (.arr []) ('[' :: w ++ [']'])
  | elems {xs t} : ElemsText xs t → ValueText (.arr xs) ('[' :: t ++ [']'])
  | noMembers {w} : Blank w → ValueText (.obj []) ('{' :: w ++ ['}'])
  | members {fs t} : MembersText fs t →
      ValueText (.obj (fs.foldl (fun m kv => SMap.set m kv.1 kv.2) [])) ('{' :: t ++ ['}'])

/-- One or more values with commas between them. -/
inductive ElemsText : List (Json 𝕜) → List Char → Prop
  | one {w v t w'} : Blank w → ValueText v t → Blank w' → ElemsText [v] (w ++ t ++ w')
  | more {w v t w' xs t'} : Blank w → ValueText v t → Blank w' → ElemsText xs t' →
      ElemsText (v :: xs) (w ++ t ++ w' ++ ',' :: t')

/-- One or more members with commas between them. -/
inductive MembersText : List (String × Json 𝕜) → List Char → Prop
  | one {w k s w1 w2 v t w3} : Blank w → StringText k s → Blank w1 → Blank w2 → ValueText v t → Blank w3 →
      MembersText [(String.ofList k, v)] (w ++ '"' :: s ++ '"' :: w1 ++ ':' :: w2 ++ t ++ w3)
  | more {w k s w1 w2 v t w3 fs t'} : Blank w → StringText k s → Blank w1 → Blank w2 → ValueText v t → Blank w3 →
      MembersText fs t' →
      MembersText ((String.ofList k, v) :: fs) (w ++ '"' :: s ++ '"' :: w1 ++ ':' :: w2 ++ t ++ w3 ++ ',' :: t')
end

/-- The text denotes the value: white space may surround it. -/
def JsonDocument (j : Json 𝕜) (s : List Char) : Prop :=
  ∃ w t w', s = w ++ t ++ w' ∧ Blank w ∧ ValueText fmt j t ∧ Blank w'

/-- The number is written with a fraction or an exponent and is read back: so it is of finite `double`s. -/
def Prints (x : 𝕜) : Prop := FloatText (fmt.write x) ∧ fmt.read (fmt.write x) = some x

/-- Values that have a text of their own: integers of 64 bits, numbers that can be printed, objects with sorted names. -/
inductive Writable : Json 𝕜 → Prop
  | null : Writable .null
  | bool {b} : Writable (.bool b)
  | int {z} : -2 ^ 63 ≤ z → z < 2 ^ 64 → Writable (.int z)
  | num {x} : Prints fmt x → Writable (.num x)
  | str {s} : Writable (.str s)
  | arr {xs} : (∀ x ∈ xs, Writable x) → Writable (.arr xs)
  | obj {fs : List (String × Json 𝕜)} : fs.Pairwise (fun a b => a.1 < b.1) → (∀ kv ∈ fs, Writable kv.2) → Writable (.obj fs)

/-- The numbers of a reconstruction of a field. -/
def reconstructionNumbers (f : FieldReconstruction 𝕜) : List 𝕜 :=
  [f.innerRegionAveragePotential, f.expansionCenter.1, f.expansionCenter.2] ++ f.ab.map Prod.fst ++ f.ab.map Prod.snd ++
    f.conductorPotentials.map Prod.snd

/-- The numbers of a result for cells. -/
def cellNumbers (p : InCellPotentials 𝕜) : List 𝕜 :=
  [p.innerRegionBox.min.1, p.innerRegionBox.min.2, p.innerRegionBox.max.1, p.innerRegionBox.max.2] ++
    p.electric.flatMap (fun kv => reconstructionNumbers kv.2) ++ p.magnetic.flatMap (fun kv => reconstructionNumbers kv.2)

end Tulip.Spec
