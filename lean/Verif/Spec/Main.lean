/-!
# Specification: paths and tables
-/

namespace Cniic.Spec

/-- The file name of a path: its last component, followed at most by separators and components `.`. -/
def IsFileName (p n : List Char) : Prop :=
  ∃ (dir : List Char) (after : List (List Char)),
    p = dir ++ (n ++ after.flatMap ('/' :: ·)) ∧ (dir = [] ∨ ∃ d, dir = d ++ ['/']) ∧
    (∀ c ∈ after, c = [] ∨ c = ['.']) ∧ '/' ∉ n ∧ n ≠ [] ∧ n ≠ ['.'] ∧ n ≠ ['.', '.']

/-- A file name without its extension.  The dot at the beginning of a name does not start an extension. -/
def IsStem (name s : List Char) : Prop :=
  (s ≠ [] ∧ ∃ e, '.' ∉ e ∧ name = s ++ '.' :: e) ∨
  (s = name ∧ ∀ a e, '.' ∉ e → name = a ++ '.' :: e → a = [])

/-- The column with a given name in a table whose first record is the header. -/
def column (name : List Char) : List (List (List Char)) → List (Option (List Char))
  | [] => []
  | header :: rows => rows.map fun r => r[header.idxOf name]?

end Cniic.Spec
