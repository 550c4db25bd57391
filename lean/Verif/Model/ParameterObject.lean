import Verif.Num.Res

/-!
# Parameter objects (`/repo/include/option/parameter_object.h`,
`/repo/src/option/parameter_object.cpp`)
-/

namespace Verif

/-- `enum class BarrierDirection` (include/option/path_dependent/barrier_option.h:8-10).
Simplification: values without enumerator are left out (the code treats them as `Down`). -/
inductive BarrierDirection
  | up
  | down
  deriving DecidableEq, Repr

/-- `ParameterObject::Parameter` (parameter_object.h:16), a variant of four alternatives.
Simplification: `int` is an unbounded integer (only its alternative matters). -/
inductive Param (F : Type)
  | int (i : Int)
  | dbl (x : F)
  | str (s : String)
  | dir (d : BarrierDirection)
  deriving DecidableEq, Repr

/-- `ParameterObject`: the map `parameters_` (parameter_object.h:36) as a finite map. -/
structure ParameterObject (F : Type) where
  parameters : List (String × Param F)

namespace ParameterObject
variable {F : Type}

/-- A fresh object has no parameters. -/
def empty : ParameterObject F := ⟨[]⟩

/-- `parameters_.find(name)`. -/
def find? (p : ParameterObject F) (name : String) : Option (Param F) :=
  (p.parameters.find? (fun kv => kv.1 == name)).map (·.2)

/-- `parameters_[name] = value`: assign to the entry if the key is present, insert otherwise. -/
def assign (name : String) (value : Param F) : List (String × Param F) → List (String × Param F)
  | [] => [(name, value)]
  | (k, v) :: kvs => if k == name then (k, value) :: kvs else (k, v) :: assign name value kvs

/-- `ParameterObject::setParameter` (parameter_object.cpp:5-7). -/
def setParameter (p : ParameterObject F) (name : String) (value : Param F) : ParameterObject F :=
  ⟨assign name value p.parameters⟩

/-- `ParameterObject::hasParameter` (parameter_object.cpp:9-12). -/
def hasParameter (p : ParameterObject F) (name : String) : Bool := (p.find? name).isSome

/-- `ParameterObject::getParameter<T>` (parameter_object.h:21-33), for the alternative selected by
`proj` (`std::get<T>`, which throws `bad_variant_access` on another alternative). -/
def getParameter {α : Type} (proj : Param F → Option α) (p : ParameterObject F) (name : String) :
    Res α :=
  match p.find? name with
  | none => invalidArg ("Parameter not found: " ++ name)
  | some v =>
    match proj v with
    | some a => .ok a
    | none => invalidArg ("Parameter type mismatch for: " ++ name)

end ParameterObject

/-- `std::get<int>` on a `Parameter` variant (parameter_object.h:27). -/
def Param.asInt {F : Type} : Param F → Option Int
  | .int i => some i
  | _ => none
/-- `std::get<double>` on a `Parameter` variant (parameter_object.h:27). -/
def Param.asDbl {F : Type} : Param F → Option F
  | .dbl x => some x
  | _ => none
/-- `std::get<std::string>` on a `Parameter` variant (parameter_object.h:27). -/
def Param.asStr {F : Type} : Param F → Option String
  | .str s => some s
  | _ => none
/-- `std::get<BarrierDirection>` on a `Parameter` variant (parameter_object.h:27). -/
def Param.asDir {F : Type} : Param F → Option BarrierDirection
  | .dir d => some d
  | _ => none

end Verif
