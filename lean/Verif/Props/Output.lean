import Verif.Proof.Output
import Verif.Spec.Lines

/-!
# Output records (C38) and messages (C39)
-/

namespace Qir.Out

open Qir.Std

/-! ## Specification -/

/-- The label contains no line feed. -/
def Record.Clean (r : Record) : Prop := ∀ t, r.label = some t → 10 ∉ t

/-- A byte sequence is one line: a single line feed, at the end. -/
def IsLine (b : Bytes) : Prop := ∃ l, b = l ++ [10] ∧ 10 ∉ l

/-- What has been written so far: by the recorder to `stdout`, or into its buffer. -/
def Io.written (io : Io) : Bytes := if io.recorder.useStdOut then io.stdout else io.recorder.buffer

/-! ## The text of a record -/

theorem recordOutput_eq (ty val : List Char) (tag : Option Bytes) (io : Io) :
    recordOutput ty val tag io = io.write
      (ascii "OUTPUT".toList ++ 9 :: (ascii ty ++ 9 :: (ascii val ++ labelField tag)) ++ [10]) := by
  cases tag <;> simp only [recordOutput, Io.newline, Io.write_write, lineEnding, labelField, ascii_append] <;>
    congr 1 <;> simp [ascii]

theorem emit_eq (r : Record) (io : Io) : emit r io = io.write (r.body ++ [10]) := by
  cases r <;> simp only [emit, arrayRecordOutput, tupleRecordOutput, intRecordOutput, doubleRecordOutput,
    boolRecordOutput, resultRecordOutput, recordOutput_eq] <;> try rfl
  simp only [message, recordOutputStr, Io.newline, Io.write_write, lineEnding, ascii_append, Record.body]
  congr 1

theorem emitAll_eq (rs : List Record) (io : Io) :
    emitAll rs io = io.write (rs.flatMap fun r => r.body ++ [10]) := by
  induction rs generalizing io with
  | nil =>
    simp only [emitAll, List.foldl_nil, List.flatMap_nil, Io.write, List.append_nil]
    split_ifs <;> rfl
  | cons r rs ih =>
    have : emitAll (r :: rs) io = emitAll rs (emit r io) := rfl
    rw [this, ih, emit_eq, Io.write_write, List.flatMap_cons]

theorem written_write (b : Bytes) (io : Io) : (io.write b).written = io.written ++ b := by
  unfold Io.write Io.written
  by_cases h : io.recorder.useStdOut <;> simp [h]

theorem value_field (r : Record) : Field r.value := by
  cases r
  case message s => exact fun _ h => mem_escape h
  case double d _ => exact doubleText_field d
  case bool b _ => exact boolText_field b
  case result b _ => exact resultText_field b
  all_goals exact intText_field _

theorem keyword_field (r : Record) : Field r.keyword := by cases r <;> (simp only [Record.keyword]; decide)

theorem Field.noTab {l : List Char} (h : Field l) : 9 ∉ ascii l := h.notMem (n := 9) (by decide)

theorem Field.noLine {l : List Char} (h : Field l) : 10 ∉ ascii l := h.notMem (n := 10) (by decide)

theorem body_noLine {r : Record} (h : r.Clean) : 10 ∉ r.body := by
  have hk := (keyword_field r).noLine
  have hv := (value_field r).noLine
  have hl : 10 ∉ labelField r.label := by
    cases ht : r.label with
    | none => simp [labelField]
    | some t => simpa [labelField] using h t ht
  have ho : (10 : UInt8) ∉ ascii "OUTPUT".toList := by decide
  have hi : (10 : UInt8) ∉ ascii "INFO".toList := by decide
  have h9 : (10 : UInt8) ≠ 9 := by decide
  cases r
  case message s =>
    simp only [Record.body, List.mem_append, List.mem_cons, not_or]
    exact ⟨hi, h9, hv⟩
  all_goals
    simp only [Record.body, List.mem_append, List.mem_cons, not_or]
    exact ⟨ho, h9, hk, h9, hv, hl⟩

theorem split_label {u v : Bytes} {s t : Option Bytes} (hu : 9 ∉ u) (hv : 9 ∉ v)
    (h : u ++ labelField s = v ++ labelField t) : u = v ∧ s = t := by
  cases s with
  | none => cases t with
    | none => simpa [labelField] using h
    | some t =>
      simp only [labelField, List.append_nil] at h
      exact absurd (h ▸ hu) (by simp)
  | some s => cases t with
    | none =>
      simp only [labelField, List.append_nil] at h
      exact absurd (h ▸ hv) (by simp)
    | some t =>
      obtain ⟨h1, h2⟩ := split_mark hu hv h
      exact ⟨h1, by rw [h2]⟩

theorem record_ext {r r' : Record} (hk : r.keyword = r'.keyword) (hv : r.value = r'.value)
    (hl : r.label = r'.label) : r = r' := by
  cases r <;> cases r' <;> first
    | (simp only [Record.keyword] at hk; exact absurd hk (by decide))
    | (simp only [Record.value, Record.label] at hv hl
       first
       | rw [intText_inj hv, hl]
       | rw [doubleText_inj hv, hl]
       | rw [boolText_inj hv, hl]
       | rw [resultText_inj hv, hl]
       | rw [escape_inj hv])

theorem body_inj {r r' : Record} (h : r.body = r'.body) : r = r' := by
  have shape : ∀ r : Record, (r.body = ascii "OUTPUT".toList ++ 9 :: (ascii r.keyword ++
      9 :: (ascii r.value ++ labelField r.label))) ∨
      (∃ s, r = .message s ∧ r.body = ascii "INFO".toList ++ 9 :: ascii (escape s)) := by
    intro r
    cases r <;> first | exact .inl rfl | exact .inr ⟨_, rfl, rfl⟩
  have differ : ∀ {a b : Bytes}, ascii "OUTPUT".toList ++ a ≠ ascii "INFO".toList ++ b := by
    intro a b h
    have := congrArg List.head? h
    simp [ascii] at this
  rcases shape r with hr | ⟨s, rfl, hr⟩ <;> rcases shape r' with hr' | ⟨s', rfl, hr'⟩ <;> rw [hr, hr'] at h
  · have h := (List.cons_injective (List.append_cancel_left h))
    obtain ⟨h1, h2⟩ := split_mark (keyword_field r).noTab (keyword_field r').noTab h
    obtain ⟨h3, h4⟩ := split_label (value_field r).noTab (value_field r').noTab h2
    exact record_ext (ascii_inj (keyword_field r).narrow (keyword_field r').narrow h1)
      (ascii_inj (value_field r).narrow (value_field r').narrow h3) h4
  · exact absurd h differ
  · exact absurd h.symm differ
  · have h := (List.cons_injective (List.append_cancel_left h))
    rw [escape_inj (ascii_inj (value_field (.message s)).narrow (value_field (.message s')).narrow h)]

theorem lines_inj : ∀ {rs rs' : List Record}, (∀ r ∈ rs, r.Clean) → (∀ r ∈ rs', r.Clean) →
    (rs.flatMap fun r => r.body ++ [10]) = (rs'.flatMap fun r => r.body ++ [10]) → rs = rs'
  | [], [], _, _, _ => rfl
  | [], r :: rs, _, _, h => by simp at h
  | r :: rs, [], _, _, h => by simp at h
  | r :: rs, r' :: rs', hc, hc', h => by
    simp only [List.flatMap_cons, List.append_assoc, List.cons_append, List.nil_append] at h
    obtain ⟨h1, h2⟩ := split_mark (body_noLine (hc r List.mem_cons_self))
      (body_noLine (hc' r' List.mem_cons_self)) h
    rw [body_inj h1, lines_inj (fun x hx => hc x (List.mem_cons_of_mem _ hx))
      (fun x hx => hc' x (List.mem_cons_of_mem _ hx)) h2]

/-! ## C38 -/

/-- Every record with a newline-free label adds exactly one line, behind everything written before,
whatever the state of the recorder. -/
theorem C38_one_line (r : Record) (hr : r.Clean) (io : Io) :
    ∃ l, IsLine l ∧ (emit r io).written = io.written ++ l :=
  ⟨r.body ++ [10], ⟨r.body, rfl, body_noLine hr⟩, by rw [emit_eq, written_write]⟩

/-- The bytes written determine the calls: two sequences of calls with newline-free labels that add the same
bytes agree in length and, call by call, in type, value and label.  The two runs may start from different
recorder states and go to different places. -/
theorem C38_records_determined (rs rs' : List Record) (hc : ∀ r ∈ rs, r.Clean) (hc' : ∀ r ∈ rs', r.Clean)
    (io io' : Io) (out : Bytes) (h : (emitAll rs io).written = io.written ++ out)
    (h' : (emitAll rs' io').written = io'.written ++ out) : rs = rs' := by
  rw [emitAll_eq, written_write] at h h'
  exact lines_inj hc hc' ((List.append_cancel_left h).trans (List.append_cancel_left h').symm)

/-- The number of line feeds written is the number of calls. -/
theorem C38_line_count (rs : List Record) (hc : ∀ r ∈ rs, r.Clean) (io : Io) :
    ∃ out, (emitAll rs io).written = io.written ++ out ∧ out.count 10 = rs.length := by
  refine ⟨_, by rw [emitAll_eq, written_write], ?_⟩
  clear io
  induction rs with
  | nil => rfl
  | cons r rs ih =>
    rw [List.flatMap_cons, List.count_append, List.count_append,
      List.count_eq_zero.mpr (body_noLine (hc r List.mem_cons_self)),
      ih fun x hx => hc x (List.mem_cons_of_mem _ hx), List.length_cons]
    simp [Nat.add_comm]

/-- The text of a labelled result, to the letter. -/
example : (emit (.result true (some (ascii "a".toList))) Io.init).stdout =
    ascii "OUTPUT\tRESULT\t1\ta\n".toList := by
  rw [emit_eq]; decide

example : Record.Clean (.double (.finite true 0 [2, 5] (by decide)) (some [9, 65])) := by
  intro t ht; cases ht; decide

/-- Without the condition the claim fails: a label with a line feed imitates two records. -/
theorem C38_newline_needed : ∃ rs rs' : List Record, rs ≠ rs' ∧
    (emitAll rs Io.init).written = (emitAll rs' Io.init).written := by
  refine ⟨[.int 1 (some (ascii "\nOUTPUT\tINT\t2".toList))], [.int 1 (some []), .int 2 none], ?_, ?_⟩
  · intro h; cases h
  · rw [emitAll_eq, emitAll_eq, written_write, written_write]; decide +kernel

/-! ### The legacy format -/

/-- Two legacy calls that print the same although they differ: integers 0 and 1 against results. -/
inductive Legacy.Confused : Legacy → Legacy → Prop
  | zero : Confused (.int 0) (.result false)
  | one : Confused (.int 1) (.result true)

theorem legacy_text_field (r : Legacy) : Field r.text := by
  cases r <;> simp only [Legacy.text]
  case int n => exact intText_field n
  case double d => exact doubleText_field d
  case bool b => exact boolText_field b
  case result b => exact resultText_field b
  all_goals decide +kernel

theorem dot_double {d : Double} {l : List Char} (h : doubleText d = l) :
    '.' ∈ l ∨ l = "NaN".toList ∨ l = "inf".toList ∨ l = "-inf".toList := by
  subst h
  match d with
  | .nan => exact .inr (.inl rfl)
  | .inf false => exact .inr (.inr (.inl rfl))
  | .inf true => exact .inr (.inr (.inr rfl))
  | .finite .. => left; rw [doubleText_finite]; simp

/-- Text made of digits and minus signs. -/
def numeric (l : List Char) : Bool := l.all fun c => c = '-' || c.isDigit

theorem numeric_int (n : ℤ) : numeric (intText n) = true := by
  unfold numeric
  rw [List.all_eq_true]
  intro c hc
  rcases mem_intText hc with h | h <;> simp [h]

theorem numeric_double (d : Double) : numeric (doubleText d) = false := by
  rcases dot_double (rfl : doubleText d = _) with h | h | h | h
  · unfold numeric
    rw [List.all_eq_false]
    exact ⟨'.', h, by decide⟩
  all_goals rw [h]; decide

/-- Groups of legacy calls that cannot be confused. -/
def Legacy.group : Legacy → ℕ
  | .int _ | .result _ => 0
  | .bool _ => 1
  | .double _ => 2
  | _ => 3

/-- The group, read off the text. -/
def groupOf (l : List Char) : ℕ :=
  if numeric l then 0 else if l = "true".toList ∨ l = "false".toList then 1
  else if '.' ∈ l ∨ l = "NaN".toList ∨ l = "inf".toList ∨ l = "-inf".toList then 2 else 3

theorem groupOf_text (r : Legacy) : groupOf r.text = r.group := by
  cases r
  case int n => simp only [Legacy.text, groupOf, numeric_int, if_true, Legacy.group]
  case double d =>
    have h := dot_double (rfl : doubleText d = _)
    have h1 : ¬(doubleText d = "true".toList ∨ doubleText d = "false".toList) := by
      rintro (h' | h') <;> rw [h'] at h <;> exact absurd h (by decide +kernel)
    show groupOf (doubleText d) = 2
    unfold groupOf
    rw [numeric_double, if_neg (by decide), if_neg h1, if_pos h]
  case bool b => cases b <;> decide +kernel
  case result b => cases b <;> decide +kernel
  all_goals decide +kernel

/-- The legacy format loses exactly one thing: whether `0` or `1` was an integer or a result. -/
theorem C38_legacy_text (r r' : Legacy) (io : Io) :
    (emitLegacy r io).written = (emitLegacy r' io).written ↔
      r = r' ∨ r.Confused r' ∨ r'.Confused r := by
  have key : (emitLegacy r io).written = (emitLegacy r' io).written ↔ r.text = r'.text := by
    simp only [emitLegacy, recordOutputStr, Io.newline, Io.write_write, written_write, ascii_append]
    constructor
    · intro h
      have h := List.append_cancel_right (List.append_cancel_left h)
      exact ascii_inj (legacy_text_field r).narrow (legacy_text_field r').narrow (List.append_cancel_left h)
    · intro h; rw [h]
  rw [key]
  have int_result : ∀ {n : ℤ} {b : Bool}, intText n = resultText b →
      Legacy.Confused (.int n) (.result b) := by
    intro n b h
    cases b
    · have : n = 0 := intText_inj (h.trans (by decide)); subst this; exact .zero
    · have : n = 1 := intText_inj (h.trans (by decide)); subst this; exact .one
  constructor
  · intro h
    have hg : r.group = r'.group := by rw [← groupOf_text, ← groupOf_text, h]
    cases r <;> cases r' <;> (try simp [Legacy.group] at hg)
    case int.int => exact .inl (congrArg _ (intText_inj h))
    case int.result => exact .inr (.inl (int_result h))
    case result.int => exact .inr (.inr (int_result h.symm))
    case result.result => exact .inl (congrArg _ (resultText_inj h))
    case bool.bool => exact .inl (congrArg _ (boolText_inj h))
    case double.double => exact .inl (congrArg _ (doubleText_inj h))
    all_goals first | exact .inl rfl | exact absurd h (by decide)
  · rintro (h | h | h)
    · rw [h]
    · cases h <;> decide
    · cases h <;> decide

/-- So the type of a legacy record cannot always be recovered. -/
theorem C38_legacy_counterexample : ∃ r r' : Legacy, r ≠ r' ∧
    (emitLegacy r Io.init).written = (emitLegacy r' Io.init).written :=
  ⟨.int 1, .result true, ⟨fun h => (nomatch h), (C38_legacy_text _ _ _).mpr (.inr (.inl .one))⟩⟩

/-! ## C39 -/

/-- What a message adds is one line of printable ASCII between a fixed prefix and the line feed. -/
theorem C39_one_printable_line (s : List Char) (io : Io) : ∃ l : Bytes,
    (message s io).written = io.written ++ (ascii "INFO\t".toList ++ l ++ [10]) ∧
    ∀ b ∈ l, 0x20 ≤ b.toNat ∧ b.toNat ≤ 0x7e := by
  refine ⟨ascii (escape s), ?_, ?_⟩
  · simp only [message, recordOutputStr, Io.newline, Io.write_write, written_write, ascii_append, lineEnding]
  · intro b hb
    obtain ⟨c, hc, rfl⟩ := List.mem_map.mp hb
    have := mem_escape hc
    rw [UInt8.toNat_ofNat', Nat.mod_eq_of_lt (by omega)]
    exact this

/-- Different strings give different text. -/
theorem C39_recoverable (s t : List Char) (io io' : Io) (out : Bytes)
    (h : (message s io).written = io.written ++ out)
    (h' : (message t io').written = io'.written ++ out) : s = t := by
  simp only [message, recordOutputStr, Io.newline, Io.write_write, written_write, ascii_append] at h h'
  have e := (List.append_cancel_left h).trans (List.append_cancel_left h').symm
  have e := List.append_cancel_left (List.append_cancel_right e)
  exact escape_inj (ascii_inj (fun c hc => by have := mem_escape hc; omega)
    (fun c hc => by have := mem_escape hc; omega) e)

/-- A message with quotes, a line feed and a character outside ASCII. -/
example : (message ['"', '\n', 'é'] Io.init).stdout = ascii "INFO\t\\\"\\n\\u{e9}\n".toList := by decide

end Qir.Out
