import Verif.Model.Range
import Init.Data.Nat.ToString
import Mathlib.Data.List.Basic
import Mathlib.Tactic.Common

/-!
# Decimal text
-/

namespace Qir.Std

theorem digits_inj {m n : ℕ} (h : digits m = digits n) : m = n := by
  have := congrArg (fun l => Nat.ofDigitChars 10 l 0) h
  simpa [digits, Nat.ofDigitChars_ten_toDigits] using this

theorem digit_of_mem {n : ℕ} {c : Char} (hc : c ∈ digits n) : c.isDigit :=
  Nat.isDigit_of_mem_toDigits (by decide) (by decide) hc

theorem digits_ne_nil (n : ℕ) : digits n ≠ [] := Nat.toDigits_ne_nil

theorem intText_ne_nil (a : ℤ) : intText a ≠ [] := by
  unfold intText; split_ifs <;> simp [digits_ne_nil]

theorem mem_intText {a : ℤ} {c : Char} (hc : c ∈ intText a) : c = '-' ∨ c.isDigit := by
  unfold intText at hc
  split_ifs at hc
  · rcases List.mem_cons.mp hc with h | h
    · exact .inl h
    · exact .inr (digit_of_mem h)
  · exact .inr (digit_of_mem hc)

theorem intText_inj {a b : ℤ} (h : intText a = intText b) : a = b := by
  have key : ∀ {m n : ℕ}, '-' :: digits m ≠ digits n := by
    intro m n h
    have : '-' ∈ digits n := by rw [← h]; simp
    exact absurd (digit_of_mem this) (by decide)
  unfold intText at h
  split_ifs at h with h1 h2 h2
  · have := digits_inj (List.cons_injective h); omega
  · exact absurd h key
  · exact absurd h.symm key
  · have := digits_inj h; omega

theorem no_mark {a : ℤ} {c : Char} (h : c ≠ '-') (hd : c.isDigit = false) : c ∉ intText a := by
  intro hc
  rcases mem_intText hc with h1 | h1
  · exact h h1
  · rw [hd] at h1; cases h1

/-- Text before the first occurrence of a mark is determined. -/
theorem split_mark {α : Type*} {c : α} : ∀ {u v u' v' : List α}, c ∉ u → c ∉ u' →
    u ++ c :: v = u' ++ c :: v' → u = u' ∧ v = v'
  | [], v, [], v', _, _, h => ⟨rfl, by simpa using h⟩
  | [], v, a :: u', v', _, h2, h => by
    simp only [List.nil_append, List.cons_append, List.cons.injEq] at h
    exact absurd (h.1 ▸ List.mem_cons_self) h2
  | a :: u, v, [], v', h1, _, h => by
    simp only [List.nil_append, List.cons_append, List.cons.injEq] at h
    exact absurd (h.1 ▸ List.mem_cons_self) h1
  | a :: u, v, b :: u', v', h1, h2, h => by
    simp only [List.cons_append, List.cons.injEq] at h
    obtain ⟨rfl, h⟩ := h
    obtain ⟨rfl, h'⟩ := split_mark (fun h => h1 (List.mem_cons_of_mem _ h))
      (fun h => h2 (List.mem_cons_of_mem _ h)) h
    exact ⟨rfl, h'⟩

end Qir.Std
