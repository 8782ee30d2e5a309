import Mathlib.Analysis.SpecialFunctions.Log.Base

/-!
# Specification: the information in a sequence
-/

namespace Cniic.Spec

/-- The information, in bits, that `items` carries when every member is expected as often as it occurs in it: the number of
items times the Shannon entropy of their frequencies. -/
noncomputable def information {T : Type} [DecidableEq T] (items : List T) : ℝ :=
  (items.map fun x => Real.logb 2 (items.length / items.count x)).sum

end Cniic.Spec
