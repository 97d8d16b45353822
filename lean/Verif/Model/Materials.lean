import Verif.Model.Outcome
import Verif.Model.SMap
import Mathlib.Data.String.Basic

/-!
# Materials (src/Materials.h, src/Materials.cpp)

`double` is an arbitrary type `𝕜` here (nothing is computed with it in this file). The C++ field
`attribute` is called `tag` (the former is a Lean keyword).
-/

namespace Tulip

/-- `struct PEC : Material` (Materials.h:11-18). -/
structure PEC (𝕜 : Type _) where
  name : String
  tag : Int
  area : 𝕜
  deriving DecidableEq, Repr

/-- `struct OpenBoundary : Material` (Materials.h:20-21). -/
structure OpenBoundary where
  name : String
  tag : Int
  deriving DecidableEq, Repr

/-- `struct Dielectric : Material` (Materials.h:23-25). -/
structure Dielectric (𝕜 : Type _) where
  name : String
  tag : Int
  relativePermittivity : 𝕜
  deriving DecidableEq, Repr

/-- `struct Materials` (Materials.h:27-30). -/
structure Materials (𝕜 : Type _) where
  pecs : List (PEC 𝕜) := []
  openBoundaries : List OpenBoundary := []
  dielectrics : List (Dielectric 𝕜) := []
  deriving DecidableEq, Repr

/-- `NameToAttrMap` (AttrToValueMap.h:8). -/
abbrev NameToAttrMap := SMap String Int

/-- `INT_MAX` for 32-bit `int`. -/
def INT_MAX : Int := 2147483647
/-- `INT_MIN` for 32-bit `int`. -/
def INT_MIN : Int := -2147483648

/-! ## `getMaterialIdFromName` -/

/-- `isspace` in the "C" locale. -/
def isSpaceC (c : Char) : Bool :=
  c = ' ' || c = '\t' || c = '\n' || c = '\x0b' || c = '\x0c' || c = '\r'

/-- `std::string::substr(find("_") + 1)` (Materials.cpp:46): the text after the first underscore, or the
whole name if there is none (`npos + 1 == 0`). -/
def afterUnderscore (s : List Char) : List Char :=
  match s.dropWhile (fun c => c ≠ '_') with
  | [] => s
  | _ :: t => t

/-- Saturation of `num_get` for `int`. -/
def clampInt (z : Int) : Int := if INT_MAX < z then INT_MAX else if z < INT_MIN then INT_MIN else z

/-- `ss >> res` for an uninitialised `int res` followed by reading `res` (Materials.cpp:47-49). After
white space, at the end of the stream the extraction fails before touching `res` (reading it is
undefined); otherwise `num_get` takes an optional sign and the longest run of decimal digits; no digits
store 0; out-of-range values saturate. -/
def readInt (s : List Char) : Outcome Int :=
  match s.dropWhile isSpaceC with
  | [] => .ub
  | c :: t =>
    let neg : Bool := c = '-'
    let rest := if c = '-' ∨ c = '+' then t else c :: t
    let v : Int := (Nat.ofDigitChars 10 (rest.takeWhile Char.isDigit) 0 : Nat)
    .ok (clampInt (if neg then -v else v))

/-- `Materials::getMaterialIdFromName` (Materials.cpp:44-50). -/
def getMaterialIdFromName (name : String) : Outcome Int := readInt (afterUnderscore name.toList)

namespace Materials
variable {𝕜 : Type _}

/-- `buildNameToAttrMapFor<PEC>` (Materials.h:32-53). -/
def buildNameToAttrMapForPEC (m : Materials 𝕜) : NameToAttrMap :=
  SMap.setAll [] PEC.name PEC.tag m.pecs

/-- `buildNameToAttrMapFor<OpenBoundary>` (Materials.h:32-53). -/
def buildNameToAttrMapForOpenBoundary (m : Materials 𝕜) : NameToAttrMap :=
  SMap.setAll [] OpenBoundary.name OpenBoundary.tag m.openBoundaries

/-- `buildNameToAttrMapFor<Dielectric>` (Materials.h:32-53). -/
def buildNameToAttrMapForDielectric (m : Materials 𝕜) : NameToAttrMap :=
  SMap.setAll [] Dielectric.name Dielectric.tag m.dielectrics

/-- loop of `buildIdToAttrMapFor` (Materials.h:58-61 etc.) -/
def idMapLoop {α : Type _} (name : α → String) (attr : α → Int) :
    List α → SMap Int Int → Outcome (SMap Int Int)
  | [], res => .ok res
  | x :: xs, res => do
    let id ← getMaterialIdFromName (name x)
    idMapLoop name attr xs (res.set id (attr x))

/-- `buildIdToAttrMapFor<PEC>` (Materials.h:55-76). -/
def buildIdToAttrMapForPEC (m : Materials 𝕜) : Outcome (SMap Int Int) :=
  idMapLoop PEC.name PEC.tag m.pecs []

/-- `buildIdToAttrMapFor<OpenBoundary>` (Materials.h:55-76). -/
def buildIdToAttrMapForOpenBoundary (m : Materials 𝕜) : Outcome (SMap Int Int) :=
  idMapLoop OpenBoundary.name OpenBoundary.tag m.openBoundaries []

/-- `buildIdToAttrMapFor<Dielectric>` (Materials.h:55-76). -/
def buildIdToAttrMapForDielectric (m : Materials 𝕜) : Outcome (SMap Int Int) :=
  idMapLoop Dielectric.name Dielectric.tag m.dielectrics []

/-- message of Materials.h:100 and 127 -/
def invalidTypeErr : Err := .runtimeError "Invalid material type"

/-- `get<PEC>(name)` (Materials.h:78-101). -/
def getPEC (m : Materials 𝕜) (name : String) : Outcome (PEC 𝕜) :=
  .ofOption invalidTypeErr (m.pecs.find? (fun x => x.name = name))

/-- `get<OpenBoundary>(name)` (Materials.h:78-101). -/
def getOpenBoundary (m : Materials 𝕜) (name : String) : Outcome OpenBoundary :=
  .ofOption invalidTypeErr (m.openBoundaries.find? (fun x => x.name = name))

/-- `get<Dielectric>(name)` (Materials.h:78-101). -/
def getDielectric (m : Materials 𝕜) (name : String) : Outcome (Dielectric 𝕜) :=
  .ofOption invalidTypeErr (m.dielectrics.find? (fun x => x.name = name))

/-- loop of `get<T>(id)` (Materials.h:106-125) -/
def getByIdLoop {α : Type _} (name : α → String) (id : Int) : List α → Outcome α
  | [] => .throw invalidTypeErr
  | x :: xs => do
    let i ← getMaterialIdFromName (name x)
    if i = id then .ok x else getByIdLoop name id xs

/-- `get<PEC>(id)` (Materials.h:103-128). -/
def getPECById (m : Materials 𝕜) (id : Int) : Outcome (PEC 𝕜) := getByIdLoop PEC.name id m.pecs

/-- `get<OpenBoundary>(id)` (Materials.h:103-128). -/
def getOpenBoundaryById (m : Materials 𝕜) (id : Int) : Outcome OpenBoundary :=
  getByIdLoop OpenBoundary.name id m.openBoundaries

/-- `get<Dielectric>(id)` (Materials.h:103-128). -/
def getDielectricById (m : Materials 𝕜) (id : Int) : Outcome (Dielectric 𝕜) :=
  getByIdLoop Dielectric.name id m.dielectrics

/-- `std::map::insert(first, last)`: existing keys win. -/
def insertRange (m n : NameToAttrMap) : NameToAttrMap := n.foldl (fun r kv => r.emplace kv.1 kv.2) m

/-- `Materials::buildNameToAttrMap` (Materials.cpp:6-18). -/
def buildNameToAttrMap (m : Materials 𝕜) : NameToAttrMap :=
  insertRange (insertRange m.buildNameToAttrMapForPEC m.buildNameToAttrMapForOpenBoundary)
    m.buildNameToAttrMapForDielectric

/-- `Materials::removeMaterialsNotInList` (Materials.cpp:20-42). -/
def removeMaterialsNotInList (m : Materials 𝕜) (allowed : NameToAttrMap) : Materials 𝕜 where
  pecs := m.pecs.filter (fun x => allowed.contains x.name)
  dielectrics := m.dielectrics.filter (fun x => allowed.contains x.name)
  openBoundaries := m.openBoundaries.filter (fun x => allowed.contains x.name)

/-- `Materials::isDomainMaterial` (Materials.cpp:52-61). -/
def isDomainMaterial (m : Materials 𝕜) (name : String) : Bool :=
  m.buildNameToAttrMapForDielectric.contains name

end Materials
end Tulip
