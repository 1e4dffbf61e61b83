import Verif.Model.Viterbi
/-! Lattices a program can hold after any sequence of successful calls of the public lattice functions. -/
namespace Verif.Spec
open Verif.Model

/-- `History l`: `l` is the result of some sequence of `clear`, `set_text` (with any dictionaries, mode and text, the empty text included) and
`calculate_path_costs` (with any matrix and mode), starting from `Lattice::default()`. -/
inductive History : Lattice → Prop where
  | fresh : History Lattice.default
  | clear {l} : History l → History l.clear
  | setText {l l'} (env : LatticeEnv) (text : Str) : History l → l.setText env text = .ok l' → History l'
  | costs {l l'} (m : ConnMatrix) (mode : Mode) : History l → l.calculatePathCosts m mode = .ok l' → History l'

/-- No text has been set so far. -/
inductive Unused : Lattice → Prop where
  | fresh : Unused Lattice.default
  | clear {l} : Unused l → Unused l.clear
  | costs {l l'} (m : ConnMatrix) (mode : Mode) : Unused l → l.calculatePathCosts m mode = .ok l' → Unused l'

end Verif.Spec
