import Verif.Model.Parser

/-!
# Specification vocabulary for the input file and for POSIX paths
-/

namespace Tulip.Spec
variable {𝕜 : Type _}

/-- No key occurs twice (class invariant of JSON objects). -/
def UniqueKeys (fs : List (String × Json 𝕜)) : Prop := (fs.map Prod.fst).Nodup

/-- A JSON number and its value. -/
inductive NumberValue [Field 𝕜] : Json 𝕜 → 𝕜 → Prop
  | num (x : 𝕜) : NumberValue (.num x) x
  | int (z : Int) : NumberValue (.int z) (z : 𝕜)

/-- A JSON value usable as `int` and its value: an integer that fits, a boolean as 0/1, or a
floating-point number whose integral part fits (the part between it and zero). -/
inductive IntValue [Field 𝕜] [LinearOrder 𝕜] : Json 𝕜 → Int → Prop
  | int (z : Int) : -2147483648 ≤ z → z ≤ 2147483647 → IntValue (.int z) z
  | true : IntValue (.bool true) 1
  | false : IntValue (.bool false) 0
  | pos (x : 𝕜) (z : Int) : 0 ≤ x → (z : 𝕜) ≤ x → x < z + 1 → z ≤ 2147483647 → IntValue (.num x) z
  | neg (x : 𝕜) (z : Int) : x < 0 → x ≤ (z : 𝕜) → (z : 𝕜) < x + 1 → -2147483648 ≤ z → IntValue (.num x) z

/-- Numbers too large for an `int`. -/
def TooLarge [Field 𝕜] [LinearOrder 𝕜] : Json 𝕜 → Prop
  | .int z => z < -2147483648 ∨ 2147483647 < z
  | .num x => x ≤ -2147483649 ∨ 2147483648 ≤ x
  | _ => False

/-- A material of any class. -/
inductive AnyMaterial (𝕜 : Type _) where
  | pec (m : PEC 𝕜)
  | openBoundary (m : OpenBoundary)
  | dielectric (m : Dielectric 𝕜)

/-- What one entry `name : value` of the materials object denotes, following the documentation of the
input format: `type` is one of four labels, `tag` an integer, `eps_r` a number (for `Dielectric`),
`area` an optional number in mm² (for `PEC`). -/
inductive Denotes [Field 𝕜] [LinearOrder 𝕜] (name : String) : Json 𝕜 → AnyMaterial 𝕜 → Prop
  | pecNoArea {fs v t} : ("type", .str "PEC") ∈ fs → ("tag", v) ∈ fs → IntValue v t →
      (∀ w, ("area", w) ∉ fs) → Denotes name (.obj fs) (.pec ⟨name, t, 0⟩)
  | pecArea {fs v t w a} : ("type", .str "PEC") ∈ fs → ("tag", v) ∈ fs → IntValue v t →
      ("area", w) ∈ fs → NumberValue w a → Denotes name (.obj fs) (.pec ⟨name, t, a / 1000000⟩)
  | openBoundary {fs v t} : ("type", .str "OpenBoundary") ∈ fs → ("tag", v) ∈ fs → IntValue v t →
      Denotes name (.obj fs) (.openBoundary ⟨name, t⟩)
  | vacuum {fs v t} : ("type", .str "Vacuum") ∈ fs → ("tag", v) ∈ fs → IntValue v t →
      Denotes name (.obj fs) (.dielectric ⟨name, t, 1⟩)
  | dielectric {fs v t w e} : ("type", .str "Dielectric") ∈ fs → ("tag", v) ∈ fs → IntValue v t →
      ("eps_r", w) ∈ fs → NumberValue w e → Denotes name (.obj fs) (.dielectric ⟨name, t, e⟩)

/-- The materials of each class, in order. -/
def collect (ds : List (AnyMaterial 𝕜)) : Materials 𝕜 where
  pecs := ds.filterMap (fun d => match d with | .pec m => some m | _ => none)
  openBoundaries := ds.filterMap (fun d => match d with | .openBoundary m => some m | _ => none)
  dielectrics := ds.filterMap (fun d => match d with | .dielectric m => some m | _ => none)

/-- An option has the value given in the object `a`, or the default if it is not given. -/
def Honoured {β : Type _} (a : List (String × Json 𝕜)) (key : String) (val : Json 𝕜 → β → Prop)
    (default x : β) : Prop :=
  (∃ v, (key, v) ∈ a ∧ val v x) ∨ ((∀ v, (key, v) ∉ a) ∧ x = default)

/-- `v` is the boolean `b`. -/
def BoolValue (v : Json 𝕜) (b : Bool) : Prop := v = .bool b
/-- `v` is the string `s`. -/
def StringValue (v : Json 𝕜) (s : String) : Prop := v = .str s

/-! ## POSIX path resolution (without symbolic links) -/

/-- Split at slashes. -/
def splitSlash : List Char → List (List Char)
  | [] => [[]]
  | c :: t =>
    if c = '/' then [] :: splitSlash t
    else match splitSlash t with
      | [] => [[c]]
      | h :: r => (c :: h) :: r

/-- The path components that matter: neither empty nor `"."`. -/
def components (p : List Char) : List (List Char) :=
  (splitSlash p).filter (fun c => c ≠ [] ∧ c ≠ ['.'])

/-- Location (list of components from the root) a path denotes for a process in directory `cwd`. -/
def locate (cwd : List (List Char)) (p : List Char) : List (List Char) :=
  if p.head? = some '/' then components p else cwd ++ components p

end Tulip.Spec
