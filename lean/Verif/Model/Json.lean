import Verif.Model.Text
/-!
JSON documents and how `serde`/`serde_json` (external crates) read Rust types from them, as far as lindera's configuration code uses them. The text
syntax of JSON is in `JsonText.lean`; here a document is its tree, with the members of an object in the order of the text and with repeated keys.
-/
namespace Verif.Model

/-- A JSON document. Numbers that are integers of at most 64 bits are `int`; all others (fractions, exponents, larger numbers), which no type in the modelled
configurations accepts, are `float`. -/
inductive Json where
  | null
  | bool (b : Bool)
  | int (n : Int)
  | float
  | str (s : Str)
  | arr (xs : List Json)
  | obj (kvs : List (Str × Json))

namespace Json

/-- Inserting into a `serde_json::Map` (a `BTreeMap<String, Value>`): keys in increasing order, an existing key gets the new value. -/
def mapInsert (k : Str) (v : Json) : List (Str × Json) → List (Str × Json)
  | [] => [(k, v)]
  | (k', v') :: rest =>
    if k = k' then (k, v) :: rest
    else if strLe k k' then (k, v) :: (k', v') :: rest
    else (k', v') :: mapInsert k v rest

mutual
/-- `serde_json::from_slice::<Value>` followed by `serde_json::to_vec`: the members of each object become a map, in which the last of repeated keys counts. -/
def value : Json → Json
  | .arr xs => .arr (valueList xs)
  | .obj kvs => .obj (valuePairs kvs)
  | j => j
/-- `value` of each element. -/
def valueList : List Json → List Json
  | [] => []
  | x :: xs => value x :: valueList xs
/-- The map of the members: the first member is inserted first, so a later member with the same key replaces it. -/
def valuePairs : List (Str × Json) → List (Str × Json)
  | [] => []
  | (k, v) :: rest => if k ∈ rest.map (·.1) then valuePairs rest else mapInsert k (value v) (valuePairs rest)
end

/-- `value.get(key)` of a `Value`: the last member with this key, for an object. -/
def get (j : Json) (k : Str) : Option Json :=
  match j with
  | .obj kvs => (kvs.reverse.find? (fun p => p.1 == k)).map (·.2)
  | _ => none

/-- `value[key]` of a `Value`: `Null` if there is no such member. -/
def index (j : Json) (k : Str) : Json := (j.get k).getD .null

/-- `Value::as_array`. -/
def asArray : Json → Option (List Json)
  | .arr xs => some xs
  | _ => none

/-- `Value::as_str`. -/
def asStr : Json → Option Str
  | .str s => some s
  | _ => none

/-- `Value::as_object`, as a `Value`. -/
def asObject : Json → Option Json
  | .obj kvs => some (.obj kvs)
  | _ => none

end Json

/-- `Deserialize::deserialize` for a type; `none`: an error. -/
abbrev De (α : Type) := Json → Option α

namespace De

/-- `String`. -/
def string : De Str := Json.asStr

/-- `bool`. -/
def bool : De Bool
  | .bool b => some b
  | _ => none

/-- `usize` (64 bits). -/
def usize : De Nat
  | .int n => if 0 ≤ n ∧ n < 2 ^ 64 then some n.toNat else none
  | _ => none

/-- `NonZeroUsize`. -/
def nonZeroUsize : De Nat := fun j => (usize j).bind fun n => if n = 0 then none else some n

/-- `i32`. -/
def i32 : De Int32
  | .int n => if -2147483648 ≤ n ∧ n ≤ 2147483647 then some (Int32.ofInt n) else none
  | _ => none

/-- `Option<T>`. -/
def option {α : Type} (d : De α) : De (Option α)
  | .null => some none
  | j => (d j).map some

/-- `HashSet<T>`, as the list of the elements. -/
def set {α : Type} (d : De α) : De (List α)
  | .arr xs => xs.mapM d
  | _ => none

/-- `HashMap<String, T>`: the last of repeated keys counts. -/
def map {α : Type} (d : De α) : De (List (Str × α))
  | .obj kvs => (kvs.mapM fun p => (d p.2).map (p.1, ·)).map fun kvs =>
      kvs.foldr (fun p m => if p.1 ∈ m.map (·.1) then m else p :: m) []
  | _ => none

/-- A member of an object that is read as a struct (derived `Deserialize`): a repeated field is an error (`none`); the field may be missing (`some none`). -/
def field (kvs : List (Str × Json)) (name : Str) : Option (Option Json) :=
  match kvs.filter (fun p => p.1 == name) with
  | [] => some none
  | [p] => some (some p.2)
  | _ => none

/-- The fields of a struct (derived `Deserialize`): an object, in which members that are not fields are ignored, or an array of all fields in order. -/
def fields (names : List Str) : De (List (Option Json))
  | .obj kvs => names.mapM (field kvs)
  | .arr xs => if xs.length = names.length then some (xs.map some) else none
  | _ => none

/-- A field of any type but `Option`: it must be present. -/
def required {α : Type} (d : De α) (v : Option Json) : Option α := v.bind d

/-- A field of type `Option<T>`: missing means `None`. -/
def optional {α : Type} (d : De α) : Option Json → Option (Option α)
  | none => some none
  | some j => option d j

/-- A variant without data of an enum (derived `Deserialize`): its name, or an object with the name as its only member and the value `null`. -/
def unitVariant {α : Type} (named : Str → Option α) : De α
  | .str s => named s
  | .obj [(s, .null)] => named s
  | _ => none

end De

end Verif.Model
