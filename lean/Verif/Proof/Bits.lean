import Verif.Model.Sim
import Mathlib.Data.Nat.Bitwise

/-! Facts about single bits of natural numbers. -/

namespace Qir

theorem testBit_setBit (n i j : ℕ) (b : Bool) :
    (setBit n i b).testBit j = if j = i then b else n.testBit j := by
  unfold setBit
  split
  · rename_i h
    split
    · rename_i h2; rw [h2]; exact h
    · rfl
  · rename_i h
    rw [Nat.testBit_xor, Nat.one_shiftLeft, Nat.testBit_two_pow]
    split
    · rename_i h2; subst h2
      cases b <;> simp_all
    · rename_i h2
      have : decide (i = j) = false := by simpa using Ne.symm h2
      rw [this]; simp

theorem testBit_flip (n i j : ℕ) :
    (n ^^^ setBit 0 i true).testBit j = if j = i then !n.testBit j else n.testBit j := by
  rw [Nat.testBit_xor, testBit_setBit]
  split
  · simp
  · simp

theorem flip_flip (n i : ℕ) : (n ^^^ setBit 0 i true) ^^^ setBit 0 i true = n := by
  rw [Nat.xor_assoc, Nat.xor_self, Nat.xor_zero]

theorem flip_ne (n i : ℕ) : n ^^^ setBit 0 i true ≠ n := by
  intro h
  have := testBit_flip n i i
  rw [h] at this
  simp at this

end Qir
