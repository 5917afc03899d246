import Verif.Model.Output
import Verif.Proof.Text

/-!
# Lemmas on the text of output records
-/

namespace Qir.Out

open Qir.Std

theorem ascii_append (a b : List Char) : ascii (a ++ b) = ascii a ++ ascii b := by simp [ascii]

/-- Characters that fit in a byte. -/
def Narrow (l : List Char) : Prop := ∀ c ∈ l, c.toNat < 256

theorem ascii_inj : ∀ {a b : List Char}, Narrow a → Narrow b → ascii a = ascii b → a = b
  | [], [], _, _, _ => rfl
  | [], _ :: _, _, _, h => by simp [ascii] at h
  | _ :: _, [], _, _, h => by simp [ascii] at h
  | c :: a, d :: b, ha, hb, h => by
    simp only [ascii, List.map_cons, List.cons.injEq] at h
    have hc := ha c List.mem_cons_self
    have hd := hb d List.mem_cons_self
    have e : c.toNat = d.toNat := by
      have := congrArg UInt8.toNat h.1
      simpa [Nat.mod_eq_of_lt hc, Nat.mod_eq_of_lt hd] using this
    have : c = d := Char.toNat_inj.mp e
    rw [this, ascii_inj (fun x hx => ha x (List.mem_cons_of_mem _ hx))
      (fun x hx => hb x (List.mem_cons_of_mem _ hx)) h.2]

theorem mem_ascii {l : List Char} {n : ℕ} (hl : Narrow l) (hn : n < 256)
    (h : UInt8.ofNat n ∈ ascii l) : Char.ofNat n ∈ l := by
  simp only [ascii, List.mem_map] at h
  obtain ⟨c, hc, e⟩ := h
  have := congrArg UInt8.toNat e
  simp only [UInt8.toNat_ofNat', Nat.mod_eq_of_lt hn] at this
  rw [Nat.mod_eq_of_lt (hl c hc)] at this
  rw [← this, Char.ofNat_toNat]; exact hc

theorem hex_inj : ∀ {m n : ℕ}, Nat.toDigits 16 m = Nat.toDigits 16 n → m = n := by
  have dig : ∀ a, a < 16 → ∀ b, b < 16 → a.digitChar = b.digitChar → a = b := by decide
  intro m
  induction m using Nat.strong_induction_on with
  | _ m ih =>
    intro n h
    by_cases hm : m < 16
    · by_cases hn : n < 16
      · rw [Nat.toDigits_of_lt_base hm, Nat.toDigits_of_lt_base hn] at h
        exact dig _ hm _ hn (by simpa using h)
      · rw [Nat.toDigits_of_lt_base hm, Nat.toDigits_of_base_le (by decide) (by omega)] at h
        have := congrArg List.length h
        have hp := @Nat.length_toDigits_pos 16 (n / 16)
        simp only [List.length_append, List.length_cons, List.length_nil] at this
        omega
    · rw [Nat.toDigits_of_base_le (by decide) (by omega)] at h
      by_cases hn : n < 16
      · rw [Nat.toDigits_of_lt_base hn] at h
        have := congrArg List.length h
        have hp := @Nat.length_toDigits_pos 16 (m / 16)
        simp only [List.length_append, List.length_cons, List.length_nil] at this
        omega
      · rw [Nat.toDigits_of_base_le (n := n) (by decide) (by omega)] at h
        obtain ⟨h1, h2⟩ := List.append_inj' h rfl
        have e1 := ih (m / 16) (by omega) h1
        have e2 := dig _ (Nat.mod_lt m (by decide)) _ (Nat.mod_lt n (by decide)) (by simpa using h2)
        omega

/-- The hexadecimal digits. -/
theorem mem_hex : ∀ {n : ℕ} {c : Char}, c ∈ Nat.toDigits 16 n → c ∈ "0123456789abcdef".toList := by
  have dig : ∀ a : ℕ, a < 16 → a.digitChar ∈ "0123456789abcdef".toList := by decide
  intro n
  induction n using Nat.strong_induction_on with
  | _ n ih =>
    intro c hc
    by_cases hn : n < 16
    · rw [Nat.toDigits_of_lt_base hn, List.mem_singleton] at hc
      rw [hc]; exact dig n hn
    · rw [Nat.toDigits_of_base_le (by decide) (by omega), List.mem_append, List.mem_singleton] at hc
      rcases hc with hc | hc
      · exact ih (n / 16) (by omega) hc
      · rw [hc]; exact dig _ (Nat.mod_lt n (by decide))

/-- The character a two-character escape stands for. -/
def unmark (x : Char) : Char :=
  if x = 't' then '\t' else if x = 'r' then '\r' else if x = 'n' then '\n' else x

theorem escapeChar_shape (c : Char) :
    (escapeChar c = [c] ∧ c ≠ '\\') ∨
    (∃ x, escapeChar c = ['\\', x] ∧ x ≠ 'u' ∧ c = unmark x) ∨
    escapeChar c = '\\' :: 'u' :: '{' :: (Nat.toDigits 16 c.toNat ++ ['}']) := by
  unfold escapeChar
  split_ifs with h1 h2 h3 h4 h5
  · exact .inr (.inl ⟨'t', rfl, by decide, by rw [h1]; decide⟩)
  · exact .inr (.inl ⟨'r', rfl, by decide, by rw [h2]; decide⟩)
  · exact .inr (.inl ⟨'n', rfl, by decide, by rw [h3]; decide⟩)
  · refine .inr (.inl ⟨c, rfl, ?_, ?_⟩) <;> rcases h4 with h | h | h <;> rw [h] <;> decide
  · exact .inl ⟨rfl, fun h => h4 (.inr (.inr h))⟩
  · exact .inr (.inr (by simp))

theorem brace_notMem_hex (n : ℕ) : '}' ∉ Nat.toDigits 16 n := fun h => absurd (mem_hex h) (by decide)

/-- The escapes form a prefix code. -/
theorem escapeChar_prefix {c d : Char} {u v : List Char}
    (h : escapeChar c ++ u = escapeChar d ++ v) : c = d ∧ u = v := by
  rcases escapeChar_shape c with ⟨hc, hc'⟩ | ⟨x, hc, hx, hc'⟩ | hc <;>
  rcases escapeChar_shape d with ⟨hd, hd'⟩ | ⟨y, hd, hy, hd'⟩ | hd <;>
  rw [hc, hd] at h <;> simp only [List.cons_append, List.nil_append, List.cons.injEq] at h
  · exact h
  · exact absurd h.1 hc'
  · exact absurd h.1 hc'
  · exact absurd h.1.symm hd'
  · exact ⟨by rw [hc', hd', h.2.1], h.2.2⟩
  · exact absurd h.2.1 hx
  · exact absurd h.1.symm hd'
  · exact absurd h.2.1.symm hy
  · obtain ⟨-, -, -, h⟩ := h
    rw [List.append_assoc, List.append_assoc] at h
    obtain ⟨h1, h2⟩ := split_mark (brace_notMem_hex _) (brace_notMem_hex _) h
    exact ⟨Char.toNat_inj.mp (hex_inj h1), h2⟩

theorem escapeChar_ne_nil (c : Char) : escapeChar c ≠ [] := by
  rcases escapeChar_shape c with ⟨hc, -⟩ | ⟨x, hc, -⟩ | hc <;> rw [hc] <;> simp

theorem escape_inj : ∀ {s t : List Char}, escape s = escape t → s = t
  | [], [], _ => rfl
  | [], c :: t, h => by
    exact absurd (List.append_eq_nil_iff.mp (h.symm : escapeChar c ++ escape t = [])).1 (escapeChar_ne_nil c)
  | c :: s, [], h => by
    exact absurd (List.append_eq_nil_iff.mp (h : escapeChar c ++ escape s = [])).1 (escapeChar_ne_nil c)
  | c :: s, d :: t, h => by
    simp only [escape, List.flatMap_cons] at h
    obtain ⟨h1, h2⟩ := escapeChar_prefix h
    rw [h1, escape_inj h2]

/-- Escaped text is printable ASCII. -/
theorem mem_escape {s : List Char} {x : Char} (h : x ∈ escape s) : 0x20 ≤ x.toNat ∧ x.toNat ≤ 0x7e := by
  simp only [escape, List.mem_flatMap] at h
  obtain ⟨c, -, h⟩ := h
  unfold escapeChar at h
  split_ifs at h with h1 h2 h3 h4 h5
  · revert x; decide
  · revert x; decide
  · revert x; decide
  · rcases List.mem_cons.mp h with h | h
    · rw [h]; decide
    · rw [List.mem_singleton.mp h]; rcases h4 with h | h | h <;> rw [h] <;> decide
  · rw [List.mem_singleton.mp h]; exact h5
  · rw [List.mem_append, List.mem_append] at h
    rcases h with (h | h) | h
    · revert x; decide
    · have := mem_hex h
      clear h; revert x; decide
    · rw [List.mem_singleton.mp h]; decide

/-- Text that can stand in a field: no byte is a tab or a line feed. -/
def Field (l : List Char) : Prop := ∀ c ∈ l, 0x20 ≤ c.toNat ∧ c.toNat ≤ 0x7e

theorem Field.narrow {l : List Char} (h : Field l) : Narrow l := fun c hc => by have := h c hc; omega

theorem Field.notMem {l : List Char} (h : Field l) {n : ℕ} (hn : n < 32) : UInt8.ofNat n ∉ ascii l := by
  intro hm
  have := h _ (mem_ascii h.narrow (by omega) hm)
  have e : ∀ n < 32, (Char.ofNat n).toNat = n := by decide
  have := e n hn
  omega

theorem Field.append {a b : List Char} (ha : Field a) (hb : Field b) : Field (a ++ b) := fun c hc =>
  (List.mem_append.mp hc).elim (ha c) (hb c)

instance (l : List Char) : Decidable (Field l) := inferInstanceAs (Decidable (∀ c ∈ l, _))

theorem isDigit_field {c : Char} (h : c.isDigit) : 0x20 ≤ c.toNat ∧ c.toNat ≤ 0x7e := by
  have := Char.isDigit_iff_toNat.mp h
  have h0 : '0'.toNat = 48 := rfl
  have h9 : '9'.toNat = 57 := rfl
  omega

theorem digits_field (n : ℕ) : Field (digits n) := fun _ hc => isDigit_field (digit_of_mem hc)

theorem intText_field (a : ℤ) : Field (intText a) := fun c hc => by
  rcases mem_intText hc with h | h
  · rw [h]; decide
  · exact isDigit_field h

theorem sign_field (b : Bool) : Field (sign b) := by cases b <;> decide

/-- The digits behind the decimal point. -/
def fracText (frac : List (Fin 10)) : List Char := frac.map fun d => Nat.digitChar d.val

theorem fracText_field (frac : List (Fin 10)) : Field (fracText frac) := by
  intro c hc
  obtain ⟨d, -, rfl⟩ := List.mem_map.mp hc
  clear hc; revert d; decide

theorem fracText_inj {f g : List (Fin 10)} (h : fracText f = fracText g) : f = g :=
  List.map_injective_iff.mpr (by unfold Function.Injective; decide) h

/-- What follows the decimal point. -/
def tailText (frac : List (Fin 10)) : List Char := if frac = [] then ['0'] else fracText frac

theorem doubleText_finite (neg : Bool) (whole : ℕ) (frac : List (Fin 10)) (h) :
    doubleText (.finite neg whole frac h) = (sign neg ++ digits whole) ++ '.' :: tailText frac := by
  unfold doubleText tailText
  simp only
  split_ifs
  · rw [List.append_assoc, List.append_assoc]; rfl
  · rw [List.append_assoc _ ".".toList]; rfl

theorem tailText_inj {f g : List (Fin 10)} (hf : f.getLast? ≠ some 0) (hg : g.getLast? ≠ some 0)
    (h : tailText f = tailText g) : f = g := by
  have key : ∀ {f : List (Fin 10)}, ['0'] = fracText f → f.getLast? = some 0 := fun {f} h => by
    have : f = [0] := fracText_inj h.symm
    rw [this]; rfl
  unfold tailText at h
  split_ifs at h with h1 h2 h2
  · rw [h1, h2]
  · exact absurd (key h) hg
  · exact absurd (key h.symm) hf
  · exact fracText_inj h

theorem dot_notMem (neg : Bool) (n : ℕ) : '.' ∉ sign neg ++ digits n := by
  rw [List.mem_append, not_or]
  exact ⟨by cases neg <;> decide, fun h => absurd (digit_of_mem h) (by decide)⟩

theorem signed_inj {b c : Bool} {m n : ℕ} (h : sign b ++ digits m = sign c ++ digits n) :
    b = c ∧ m = n := by
  have key : ∀ {m n : ℕ}, '-' :: digits m ≠ digits n := by
    intro m n h
    have : '-' ∈ digits n := by rw [← h]; simp
    exact absurd (digit_of_mem this) (by decide)
  cases b <;> cases c <;> simp only [sign, if_true, Bool.false_eq_true, if_false, List.nil_append,
    List.cons_append] at h
  · exact ⟨rfl, digits_inj h⟩
  · exact absurd h.symm key
  · exact absurd h key
  · exact ⟨rfl, digits_inj (List.cons_injective h)⟩

theorem doubleText_inj {d e : Double} (h : doubleText d = doubleText e) : d = e := by
  have key : ∀ {neg whole frac n}, '.' ∈ doubleText (.finite neg whole frac n) := by
    intro neg whole frac n
    rw [doubleText_finite]; simp
  have knan : '.' ∉ doubleText .nan := by decide
  have kinf : ∀ b, '.' ∉ doubleText (.inf b) := by decide
  match d, e, h with
  | .nan, .nan, _ => rfl
  | .nan, .inf b, h => cases b <;> exact absurd h (by decide)
  | .inf b, .nan, h => cases b <;> exact absurd h (by decide)
  | .inf b, .inf c, h => cases b <;> cases c <;> first | rfl | exact absurd h (by decide)
  | .nan, .finite .., h => exact absurd (h ▸ key) knan
  | .inf b, .finite .., h => exact absurd (h ▸ key) (kinf b)
  | .finite .., .nan, h => exact absurd (h ▸ key) knan
  | .finite .., .inf b, h => exact absurd (h ▸ key) (kinf b)
  | .finite b m f hf, .finite c n g hg, h =>
    rw [doubleText_finite, doubleText_finite] at h
    obtain ⟨h1, h2⟩ := split_mark (dot_notMem _ _) (dot_notMem _ _) h
    obtain ⟨h3, h4⟩ := signed_inj h1
    have h5 := tailText_inj hf hg h2
    subst h3 h4 h5; rfl

theorem doubleText_field (d : Double) : Field (doubleText d) := by
  match d with
  | .nan => decide
  | .inf b => cases b <;> decide
  | .finite b m f hf =>
    rw [doubleText_finite]
    refine ((sign_field b).append (digits_field m)).append ?_
    intro c hc
    rcases List.mem_cons.mp hc with h | h
    · rw [h]; decide
    · unfold tailText at h
      split_ifs at h
      · rw [List.mem_singleton.mp h]; decide
      · exact fracText_field f c h

theorem boolText_field (b : Bool) : Field (boolText b) := by cases b <;> decide

theorem boolText_inj {b c : Bool} (h : boolText b = boolText c) : b = c := by
  cases b <;> cases c <;> first | rfl | exact absurd h (by decide)

theorem resultText_field (b : Bool) : Field (resultText b) := by cases b <;> decide

theorem resultText_inj {b c : Bool} (h : resultText b = resultText c) : b = c := by
  cases b <;> cases c <;> first | rfl | exact absurd h (by decide)

theorem Io.write_write (a b : Bytes) (io : Io) : (io.write a).write b = io.write (a ++ b) := by
  unfold Io.write
  by_cases h : io.recorder.useStdOut <;> simp [h]

end Qir.Out
