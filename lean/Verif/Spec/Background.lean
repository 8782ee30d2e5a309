/-!
# Specification: an item that stands out
-/

namespace Cniic.Spec

/-- The items other than `x`, in their order. -/
def without {T : Type} [DecidableEq T] (x : T) (items : List T) : List T := items.filter fun y => decide (y ≠ x)

/-- `x` is more frequent than any other item, and makes up more than two fifths of the items. -/
structure Background {T : Type} [DecidableEq T] (x : T) (items : List T) : Prop where
  most : ∀ y ∈ items, y ≠ x → items.count y < items.count x
  share : 2 * items.length < 5 * items.count x

end Cniic.Spec
