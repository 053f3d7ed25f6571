import Mathlib.Order.Basic
import Mathlib.Data.Multiset.Filter
import Verif.Py.Float

/-!
# Specification of censoring

An observation is a pair (input row, signal).  A signal is read as an element of `WithBot (WithTop K)`
(infinities allowed), NaN excluded, so that the specification uses a genuine linear order rather than the
Boolean comparisons of the model.
-/

namespace Verif.Spec
open Verif.Py

variable {K : Type*}

/-- The extended number denoted by a float that is not NaN. -/
def ext : F K → WithBot (WithTop K)
  | .nan => ⊥          -- irrelevant, NaN is excluded where `ext` is used
  | .ninf => ⊥
  | .fin x => ((x : WithTop K) : WithBot (WithTop K))
  | .pinf => ((⊤ : WithTop K) : WithBot (WithTop K))

/-- Rows of the observations whose signal satisfies `p`, as a multiset. -/
noncomputable def rowsWhere {α : Type*} (obs : List (α × F K)) (p : WithBot (WithTop K) → Prop)
    [DecidablePred p] : Multiset α :=
  ((obs : Multiset (α × F K)).filter fun o => p (ext o.2)).map Prod.fst

end Verif.Spec
