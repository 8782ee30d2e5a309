import Verif.Model.DictStats

/-!
# Model of `Drop for TrieMap` in `src/zip/dict.rs`

What Rust does by itself when a node is dropped: it drops the children first, each of which drops its own children, and so on, in
nested calls.  `Drop for TrieMap` takes the nodes apart beforehand.  Memory is not modelled otherwise.
-/

namespace Cniic

variable {T : Type}

/-- `Nested n d`: dropping `n` as Rust does by itself leads to `d` nested calls. -/
inductive Nested : Node T → Nat → Prop
  | self (n : Node T) : Nested n 1
  | child {n c : Node T} {d : Nat} : c ∈ n.children.entries → Nested c d → Nested n (d + 1)

/-- What `handle_children` leaves of the children (dict.rs:411-423): `append` moves all values out of the vector, `take` leaves
`None`. -/
def Content.taken : Content T → Content T
  | .part keys _ => .part keys []
  | .full _ => .full fun _ => none

/-- What is left of a node without its children (dict.rs:410-425). -/
def Node.taken (n : Node T) : Node T := .mk n.children.taken n.values

/-- `handle_children` (dict.rs:410-425): the node without its children, and the stack, with its top in front. -/
def handleChildren (n : Node T) (stack : List (Node T)) : Node T × List (Node T) :=
  (n.taken, n.children.entries.reverse ++ stack)

/-- The loop of `drop` (dict.rs:428-434): the nodes in the order, and in the state, in which they are dropped. -/
def dropLoop : List (Node T) → List (Node T)
  | [] => []
  | n :: stack => (handleChildren n stack).1 :: dropLoop (handleChildren n stack).2
termination_by stack => (stack.map Node.count).sum
decreasing_by
  simp only [handleChildren, List.map_append, List.map_reverse, List.sum_append_nat, List.sum_reverse, List.map_cons,
    List.sum_cons]
  rw [Node.count_eq n]
  omega

/-- `Drop for TrieMap` (dict.rs:402-437); in the end Rust drops the root, which is a field of the map. -/
def dropTrie (root : Node T) : List (Node T) :=
  dropLoop (handleChildren root []).2 ++ [(handleChildren root []).1]

end Cniic
