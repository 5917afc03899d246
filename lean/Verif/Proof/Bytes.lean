import Verif.Model.Math
import Mathlib.Tactic.Ring
import Mathlib.Tactic.Linarith
import Mathlib.Tactic.SplitIfs

/-!
# Lemmas on little-endian bytes
-/

namespace Qir.Std

theorem ofBytesLE_lt (l : List UInt8) : ofBytesLE l < 256 ^ l.length := by
  induction l with
  | nil => simp [ofBytesLE]
  | cons b l ih =>
    have := b.toNat_lt
    simp only [ofBytesLE, List.length_cons, pow_succ]
    omega

theorem ofBytesLE_bytesLE (n : ℕ) : ofBytesLE (bytesLE n) = n := by
  induction n using Nat.strong_induction_on with
  | _ n ih =>
    rw [bytesLE]
    split_ifs with h
    · simp [ofBytesLE, Nat.mod_eq_of_lt h]
    · simp only [ofBytesLE, ih (n / 256) (by omega), UInt8.toNat_ofNat']
      omega

theorem bytesLE_ne_nil (n : ℕ) : bytesLE n ≠ [] := by
  rw [bytesLE]; split_ifs <;> simp

theorem bytesLE_length (n : ℕ) : (bytesLE n).length = 1 ∨ 256 ^ ((bytesLE n).length - 1) ≤ n := by
  induction n using Nat.strong_induction_on with
  | _ n ih =>
    rw [bytesLE]
    split_ifs with h
    · exact .inl rfl
    · right
      have hp := List.length_pos_iff.mpr (bytesLE_ne_nil (n / 256))
      simp only [List.length_cons, Nat.add_sub_cancel]
      rcases ih (n / 256) (by omega) with h1 | h1
      · rw [h1]; omega
      · obtain ⟨k, hk⟩ : ∃ k, (bytesLE (n / 256)).length = k + 1 := ⟨_, (Nat.succ_pred_eq_of_pos hp).symm⟩
        rw [hk, Nat.add_sub_cancel] at h1
        rw [hk, pow_succ]
        omega

theorem twosComplement_length (c : Bool) (l : List UInt8) : (twosComplement c l).length = l.length := by
  induction l generalizing c with
  | nil => rfl
  | cons b l ih => simp only [twosComplement]; split_ifs <;> simp [ih]

theorem not_toNat (b : UInt8) : (~~~b).toNat = 255 - b.toNat := by
  rw [UInt8.toNat_not]; rfl

theorem twosComplement_value (c : Bool) (l : List UInt8) :
    ofBytesLE (twosComplement c l) =
      if c then (256 ^ l.length - ofBytesLE l) % 256 ^ l.length else 256 ^ l.length - 1 - ofBytesLE l := by
  induction l generalizing c with
  | nil => cases c <;> simp [twosComplement, ofBytesLE]
  | cons b l ih =>
    have hb := b.toNat_lt
    have hn := not_toNat b
    have hl := ofBytesLE_lt l
    have hpos : 0 < 256 ^ l.length := Nat.pow_pos (by decide)
    cases c
    · simp only [twosComplement, Bool.false_eq_true, if_false, ofBytesLE, ih, hn, List.length_cons, pow_succ]
      omega
    · have hadd : (~~~b + 1).toNat = (256 - b.toNat) % 256 := by
        rw [UInt8.toNat_add, hn]
        simp only [UInt8.toNat_one]
        omega
      simp only [twosComplement, if_true, ofBytesLE, ih, hadd, List.length_cons, pow_succ]
      by_cases hz : b.toNat = 0
      · have : (~~~b + 1 == 0) = true := by
          rw [beq_iff_eq, ← UInt8.toNat_inj, hadd, hz]; rfl
        simp only [this, if_true, hz]
        by_cases hv : ofBytesLE l = 0
        · simp [hv]
        · generalize 256 ^ l.length = P at *
          generalize ofBytesLE l = v at *
          rw [Nat.mod_eq_of_lt (by omega : P - v < P),
            Nat.mod_eq_of_lt (by omega : P * 256 - (0 + 256 * v) < P * 256)]
          omega
      · have : (~~~b + 1 == 0) = false := by
          rw [beq_eq_false_iff_ne, ne_eq, ← UInt8.toNat_inj, hadd]
          simp only [UInt8.toNat_zero]
          omega
        simp only [this, Bool.false_eq_true, if_false]
        rw [Nat.mod_eq_of_lt (by omega : 256 - b.toNat < 256), Nat.mod_eq_of_lt (by omega)]
        omega

/-- The last byte decides whether the number is in the upper half. -/
theorem last_high {l : List UInt8} (h : l ≠ []) :
    l.getLast?.getD 0 > 0x7f ↔ 256 ^ l.length ≤ 2 * ofBytesLE l := by
  induction l with
  | nil => exact absurd rfl h
  | cons b l ih =>
    have hb := b.toNat_lt
    by_cases hl : l = []
    · subst hl
      simp only [List.getLast?_singleton, Option.getD_some, ofBytesLE, List.length_cons, List.length_nil]
      rw [gt_iff_lt, UInt8.lt_iff_toNat_lt]
      have : (0x7f : UInt8).toNat = 127 := rfl
      omega
    · obtain ⟨c, l', rfl⟩ := List.exists_cons_of_ne_nil hl
      rw [List.getLast?_cons_cons, ih hl]
      simp only [List.length_cons, pow_succ, ofBytesLE]
      generalize 256 ^ l'.length = P
      generalize ofBytesLE l' = v
      generalize c.toNat = k
      rw [show P * 256 * 256 = 65536 * P by ring, show P * 256 = 256 * P by ring]
      constructor <;> intro h1 <;> omega

/-- Only `0…0 0x80` is exactly half. -/
theorem last_half {l : List UInt8} (h : l ≠ []) :
    (l.getLast?.getD 0 = 0x80 ∧ l.dropLast.all (· == 0) = true) ↔ 256 ^ l.length = 2 * ofBytesLE l := by
  induction l with
  | nil => exact absurd rfl h
  | cons b l ih =>
    have hb := b.toNat_lt
    by_cases hl : l = []
    · subst hl
      simp only [List.getLast?_singleton, Option.getD_some, ofBytesLE, List.length_cons, List.length_nil,
        List.dropLast_singleton, List.all_nil, and_true]
      rw [← UInt8.toNat_inj]
      have : (0x80 : UInt8).toNat = 128 := rfl
      omega
    · obtain ⟨c, l', rfl⟩ := List.exists_cons_of_ne_nil hl
      rw [List.getLast?_cons_cons, List.dropLast_cons_cons, List.all_cons, Bool.and_eq_true, and_left_comm, ih hl,
        beq_iff_eq, ← UInt8.toNat_inj]
      simp only [List.length_cons, pow_succ, ofBytesLE]
      have : (0 : UInt8).toNat = 0 := rfl
      rw [this]
      omega

theorem ofBytesLE_append_zero (l : List UInt8) : ofBytesLE (l ++ [0]) = ofBytesLE l := by
  induction l with
  | nil => rfl
  | cons b l ih => simp only [List.cons_append, ofBytesLE, ih]

end Qir.Std
