/-!
# Counting in `i32`
-/

namespace Cniic

/-- `i += 1` on `i32` (kmeans.rs:31,313, dict.rs:357): with overflow checks it panics (`none`) at the largest number, without
them it wraps around. -/
def i32Succ (chk : Bool) (a : Int32) : Option Int32 :=
  if chk && a == Int32.maxValue then none else some (a + 1)

theorem i32_succ_ofNat (m : Nat) : Int32.ofNat m + 1 = Int32.ofNat (m + 1) := by
  rw [Int32.ofNat_add]
  rfl

theorem i32_max {m : Nat} (h : m < 2 ^ 31) : Int32.ofNat m = Int32.maxValue ↔ m = 2 ^ 31 - 1 := by
  constructor
  · intro e
    have h1 : (Int32.ofNat m).toInt = m := Int32.toInt_ofNat_of_lt h
    rw [e] at h1
    have : Int32.maxValue.toInt = 2147483647 := by decide
    omega
  · rintro rfl
    decide

theorem i32Succ_some {chk : Bool} {m : Nat} (h : chk = true → m + 1 < 2 ^ 31) :
    i32Succ chk (Int32.ofNat m) = some (Int32.ofNat (m + 1)) := by
  unfold i32Succ
  rw [if_neg, i32_succ_ofNat]
  intro e
  rw [Bool.and_eq_true, beq_iff_eq] at e
  have h1 := h e.1
  have := (i32_max (by omega)).1 e.2
  omega

theorem i32Succ_none : i32Succ true (Int32.ofNat (2 ^ 31 - 1)) = none := by
  unfold i32Succ
  rw [if_pos]
  rw [Bool.true_and, beq_iff_eq]
  exact (i32_max (by decide)).2 rfl

end Cniic
