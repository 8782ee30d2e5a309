/-!
# Specification: function calls as text
-/

namespace Cniic.Spec

/-- The characters with a meaning in calls. -/
def Special (c : Char) : Prop := c = '(' ∨ c = ')' ∨ c = ','

instance (c : Char) : Decidable (Special c) := by unfold Special; infer_instance

/-- Text with balanced parentheses. -/
inductive Balanced : List Char → Prop
  | nil : Balanced []
  | chr {c s} : c ≠ '(' → c ≠ ')' → Balanced s → Balanced (c :: s)
  | paren {s t} : Balanced s → Balanced t → Balanced ('(' :: (s ++ ')' :: t))

/-- Text with balanced parentheses and no comma outside of them. -/
inductive ArgText : List Char → Prop
  | nil : ArgText []
  | chr {c s} : ¬ Special c → ArgText s → ArgText (c :: s)
  | paren {s t} : Balanced s → ArgText t → ArgText ('(' :: (s ++ ')' :: t))

/-- The arguments separated by commas. -/
def commas : List (List Char) → List Char
  | [] => []
  | [a] => a
  | a :: b :: rest => a ++ ',' :: commas (b :: rest)

/-- The text `name(arg1,...,argn)`. -/
structure IsCall (s : List Char) (name : List Char) (args : List (List Char)) : Prop where
  text : s = name ++ '(' :: (commas args ++ [')'])
  name_ne : name ≠ []
  name_plain : ∀ c ∈ name, ¬ Special c
  args_ok : ∀ a ∈ args, a ≠ [] ∧ ArgText a

/-- All characters are ASCII. -/
def Ascii (s : List Char) : Prop := ∀ c ∈ s, c.toNat < 128

/-- Nowhere are more than 65535 parentheses open. -/
def Shallow (s : List Char) : Prop :=
  ∀ p, p <+: s → p.count '(' ≤ p.count ')' + 65535

end Cniic.Spec
