import Verif.Model.Outcome
import Verif.Model.SMap
import Mathlib.Algebra.Field.Defs
import Mathlib.Algebra.Order.Floor.Defs
import Mathlib.Algebra.Order.Floor.Ring
import Mathlib.Data.String.Basic

/-!
# JSON values (`nlohmann::json`, as used by src/Parser.cpp and src/Results.cpp)

Here a document is its value; texts are in `Model/JsonText`. Integers and floating
point numbers are separate classes, as in the library; objects are key-sorted maps
(`nlohmann::json` uses `std::map`). Conversion of an integer to `double` is exact here.
-/

namespace Tulip

/-- A `nlohmann::json` value. -/
inductive Json (𝕜 : Type _) where
  | null
  | bool (b : Bool)
  | int (z : Int)
  | num (x : 𝕜)
  | str (s : String)
  | arr (xs : List (Json 𝕜))
  | obj (fs : List (String × Json 𝕜))

namespace Json
variable {𝕜 : Type _}

/-- `j.at(key)`: `type_error` unless an object, `out_of_range` if the key is missing. -/
def at_ (j : Json 𝕜) (key : String) : Outcome (Json 𝕜) :=
  match j with
  | .obj fs => .ofOption .json (SMap.find? fs key)
  | _ => .throw .json

/-- `j.find(key)`: `end()` (here `none`) unless an object that has the key. -/
def find (j : Json 𝕜) (key : String) : Option (Json 𝕜) :=
  match j with
  | .obj fs => SMap.find? fs key
  | _ => none

/-- `j.items()`: members of an object; elements of an array under their index as key; nothing for
`null`; the value itself under an empty key for other primitives. -/
def items (j : Json 𝕜) : List (String × Json 𝕜) :=
  match j with
  | .obj fs => fs
  | .arr xs => xs.zipIdx.map (fun p => (toString p.2, p.1))
  | .null => []
  | j => [("", j)]

/-- `j.get<std::string>()` -/
def getString (j : Json 𝕜) : Outcome String :=
  match j with
  | .str s => .ok s
  | _ => .throw .json

/-- `j.get<bool>()` -/
def getBool (j : Json 𝕜) : Outcome Bool :=
  match j with
  | .bool b => .ok b
  | _ => .throw .json

/-- `static_cast<int>` of a 64-bit integer: reduction modulo 2^32. -/
def wrap32 (z : Int) : Int := (z + 2147483648) % 4294967296 - 2147483648

section
variable [Field 𝕜] [LinearOrder 𝕜] [FloorRing 𝕜]

/-- `static_cast<int>` of a `double`: truncation towards zero, undefined if the result does not fit. -/
def truncToInt (x : 𝕜) : Outcome Int :=
  let z : Int := if 0 ≤ x then ⌊x⌋ else ⌈x⌉
  if -2147483648 ≤ z ∧ z ≤ 2147483647 then .ok z else .ub

/-- `j.get<int>()` -/
def getInt (j : Json 𝕜) : Outcome Int :=
  match j with
  | .int z => .ok (wrap32 z)
  | .num x => truncToInt x
  | .bool b => .ok (if b then 1 else 0)
  | _ => .throw .json
end

/-- `j.get<double>()` -/
def getDouble [Field 𝕜] (j : Json 𝕜) : Outcome 𝕜 :=
  match j with
  | .int z => .ok (z : 𝕜)
  | .num x => .ok x
  | _ => .throw .json

/-- `j.value(key, double default)` -/
def valueDouble [Field 𝕜] (j : Json 𝕜) (key : String) (default : 𝕜) : Outcome 𝕜 :=
  match j with
  | .obj fs =>
    match SMap.find? fs key with
    | some v => v.getDouble
    | none => .ok default
  | _ => .throw .json

end Json
end Tulip
