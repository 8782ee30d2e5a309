import Verif.Core.Sink

/-!
# Specification: where write faults surface

An encoder writes its output in stages; each stage has its own way of reporting a write fault.
-/

namespace Cniic.Spec
open Cniic

/-- All bytes of the stages, in order. -/
def stageBytes (parts : List (Surface × List UInt8)) : List UInt8 := parts.flatMap (·.2)

/-- `Staged parts m a`: on a device that never fails, `m` writes exactly the bytes of the stages and returns `a`.  On any
device, the first call that fails belongs to one of the stages: the bytes of the stages before and a prefix of the
bytes of this stage have reached the device, the fault surfaces in the way of this stage, and no call is made after it. -/
def Staged {α : Type} (parts : List (Surface × List UInt8)) (m : W α) (a : α) : Prop :=
  ∀ s : Sink, ∃ n : Nat,
    ((∀ i, i < n → s.fault (s.calls + i) = none) ∧
      m s = (.ok a, { s with out := s.out ++ stageBytes parts, calls := s.calls + n }))
    ∨ ((∀ i, i < n → s.fault (s.calls + i) = none) ∧ s.fault (s.calls + n) ≠ none ∧
        ∃ pre k bs post p, parts = pre ++ (k, bs) :: post ∧ p <+: bs ∧
          m s = (k.ret, { s with out := s.out ++ (stageBytes pre ++ p), calls := s.calls + n + 1 }))

end Cniic.Spec
