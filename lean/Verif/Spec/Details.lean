import Verif.Model.UserDictBuilder
/-! What a token's details are, and the calls on a token. -/
namespace Verif.Spec
open Verif.Model

/-- The details of a word: `UNK` for unknown words, what the system dictionary says for system words, what the user dictionary says for
user words (nothing without a user dictionary). -/
def detailsOf (dict : Dictionary) (user : Option UserDictionary) (w : WordId) : R (Option (List Str)) :=
  if w.id.toNat = 2 ^ 32 - 1 then .ok (some ["UNK".toList])
  else match w.sys, user with
    | true, _ => dict.wordDetails w.id.toNat
    | false, some u => u.wordDetails w.id.toNat
    | false, none => .ok none

/-- A call on a token. -/
inductive TokenCall where
  | get
  | set (d : Option (List Str))

/-- The answers to the `get` calls of a history that starts with the value `last` set last (`none`: nothing was set, or `None` was): the last set
value, or else the dictionary's. -/
def answers (lookup : Option (List Str)) : Option (List Str) → List TokenCall → List (Option (List Str))
  | _, [] => []
  | last, .get :: cs => (match last with | some d => some d | none => lookup) :: answers lookup last cs
  | _, .set d :: cs => answers lookup d cs

/-- The model's answers to a history of calls. -/
def runCalls (dict : Dictionary) (user : Option UserDictionary) : Token → List TokenCall → R (List (Option (List Str)))
  | _, [] => .ok []
  | t, .get :: cs => do
    let (d, t) ← t.getDetails dict user
    let ds ← runCalls dict user t cs
    return d :: ds
  | t, .set d :: cs => runCalls dict user (t.setDetails d) cs

end Verif.Spec
