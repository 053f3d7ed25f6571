import Mathlib.Data.Int.Notation

/-!
# Python values, as far as type checks distinguish them
-/

namespace Verif.Py

/-- An argument of a type-checked setter.  `True == 1` but `type(1) is not bool`. -/
inductive PyVal
  | bool (b : Bool)
  | int (n : ℤ)
  | float
  | str (s : String)
  | none
  | obj
  deriving DecidableEq, Repr

end Verif.Py
