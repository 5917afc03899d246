import Verif.Model.Range

/-!
# Output recording

Model of `stdlib/src/output_recording.rs`, of the text of doubles in `stdlib/src/strings.rs` and of
`__quantum__rt__message`.

Simplifications.  Text made only of ASCII characters is written as one byte per character (`ascii`); all
text the library produces itself is of this kind.  The line ending is the one of non-Windows targets
(output_recording.rs 12-15).  Writes to `stdout` and to the buffer never fail.
-/

namespace Qir.Out

open Qir.Std

/-- A sequence of bytes. -/
scoped notation "Bytes" => List UInt8

/-- `str::as_bytes` of ASCII text. stdlib/src/output_recording.rs:86, runner/src/lib.rs:193. -/
def ascii (l : List Char) : Bytes := l.map fun c => UInt8.ofNat c.toNat

/-- `OutputRecorder`, output_recording.rs 19-22. -/
structure Recorder where
  buffer : Bytes
  useStdOut : Bool

/-- What the process has written: the bytes sent to `stdout`, the recorder, and the bytes handed to an
`output_writer` other than `stdout`. stdlib/src/output_recording.rs:19-31, runner/src/lib.rs:146. -/
structure Io where
  stdout : Bytes
  recorder : Recorder
  sink : Bytes

/-- `OutputRecorder::default`, output_recording.rs 48-55, in a process that has written nothing. -/
def Io.init : Io := ⟨[], ⟨[], true⟩, []⟩

/-- `use_std_out`, output_recording.rs 60-62. -/
def Io.setStdOut (b : Bool) (io : Io) : Io := { io with recorder := { io.recorder with useStdOut := b } }

/-- `write_all` through `OutputRecorder::write`, output_recording.rs 25-31. -/
def Io.write (b : Bytes) (io : Io) : Io :=
  if io.recorder.useStdOut then { io with stdout := io.stdout ++ b }
  else { io with recorder := { io.recorder with buffer := io.recorder.buffer ++ b } }

/-- `LINE_ENDING`, output_recording.rs 14-15. -/
def lineEnding : Bytes := [10]

/-- `write_newline`, output_recording.rs 65-67. -/
def Io.newline (io : Io) : Io := io.write lineEnding

/-- `drain`, output_recording.rs 70-72. -/
def Io.drain (io : Io) : Bytes × Io :=
  (io.recorder.buffer, { io with recorder := { io.recorder with buffer := [] } })

/-- `record_output_str`, output_recording.rs 82-91. -/
def recordOutputStr (val : Bytes) (io : Io) : Io := (io.write val).newline

/-- `record_output`, output_recording.rs 96-113.  A null tag is `none`; otherwise the bytes before the
terminating zero. -/
def recordOutput (ty val : List Char) (tag : Option Bytes) (io : Io) : Io :=
  let io := io.write (ascii ("OUTPUT\t".toList ++ ty ++ "\t".toList ++ val))
  let io := match tag with
    | none => io
    | some t => (io.write (ascii "\t".toList)).write t
  io.newline

/-- The doubles, as far as their text goes: `finite neg whole frac` is the number whose shortest decimal
representation has the digits of `whole` before the point and `frac` behind it (no trailing zero).
stdlib/src/strings.rs:90-98. -/
inductive Double where
  | nan
  | inf (neg : Bool)
  | finite (neg : Bool) (whole : ℕ) (frac : List (Fin 10)) (normal : frac.getLast? ≠ some 0)

/-- The sign of a number in `Display`. stdlib/src/output_recording.rs:101. -/
def sign (neg : Bool) : List Char := if neg then ['-'] else []

/-- `double_to_string`, strings.rs 90-98: a whole number is shown with one decimal, anything else by
`Display`.  The test `(floor - ceil).abs() < EPSILON` holds exactly of whole numbers. -/
def doubleText : Double → List Char
  | .nan => "NaN".toList
  | .inf neg => sign neg ++ "inf".toList
  | .finite neg whole frac _ =>
    if frac = [] then sign neg ++ digits whole ++ ".0".toList
    else sign neg ++ digits whole ++ ".".toList ++ frac.map fun d => Nat.digitChar d.val

/-- `Display` of `bool`. stdlib/src/output_recording.rs:155, 213. -/
def boolText (b : Bool) : List Char := if b then "true".toList else "false".toList

/-- `Display` of `i64::from(bool)`. backend/src/lib.rs:927-928. -/
def resultText (b : Bool) : List Char := if b then "1".toList else "0".toList

/-- `__quantum__rt__array_record_output`, output_recording.rs 120-124. -/
def arrayRecordOutput (n : ℤ) (tag : Option Bytes) : Io → Io := recordOutput "ARRAY".toList (intText n) tag

/-- `__quantum__rt__tuple_record_output`, output_recording.rs 131-135. -/
def tupleRecordOutput (n : ℤ) (tag : Option Bytes) : Io → Io := recordOutput "TUPLE".toList (intText n) tag

/-- `__quantum__rt__int_record_output`, output_recording.rs 138-142. -/
def intRecordOutput (n : ℤ) (tag : Option Bytes) : Io → Io := recordOutput "INT".toList (intText n) tag

/-- `__quantum__rt__double_record_output`, output_recording.rs 145-150. -/
def doubleRecordOutput (d : Double) (tag : Option Bytes) : Io → Io :=
  recordOutput "DOUBLE".toList (doubleText d) tag

/-- `__quantum__rt__bool_record_output`, output_recording.rs 153-157. -/
def boolRecordOutput (b : Bool) (tag : Option Bytes) : Io → Io := recordOutput "BOOL".toList (boolText b) tag

/-- The writing part of `__quantum__rt__result_record_output`, backend/src/lib.rs 927-928. -/
def resultRecordOutput (b : Bool) (tag : Option Bytes) : Io → Io :=
  recordOutput "RESULT".toList (resultText b) tag

/-- `char::escape_default`: tab, carriage return, line feed, quotes and backslash get a backslash, the
printable ASCII characters stand for themselves, everything else becomes `\u{…}` in hexadecimal.
stdlib/src/output_recording.rs:167. -/
def escapeChar (c : Char) : List Char :=
  if c = '\t' then ['\\', 't']
  else if c = '\r' then ['\\', 'r']
  else if c = '\n' then ['\\', 'n']
  else if c = '\'' ∨ c = '"' ∨ c = '\\' then ['\\', c]
  else if 0x20 ≤ c.toNat ∧ c.toNat ≤ 0x7e then [c]
  else ['\\', 'u', '{'] ++ Nat.toDigits 16 c.toNat ++ ['}']

/-- `str::escape_default`. stdlib/src/output_recording.rs:167. -/
def escape (s : List Char) : List Char := s.flatMap escapeChar

/-- `__quantum__rt__message`, stdlib/src/lib.rs 94-105, and `__quantum__rt__message_record_output`,
output_recording.rs 162-171. -/
def message (s : List Char) : Io → Io := recordOutputStr (ascii ("INFO\t".toList ++ escape s))

/-- One call of the output functions with labels. stdlib/src/output_recording.rs:119-171. -/
inductive Record where
  | array (n : ℤ) (tag : Option Bytes)
  | tuple (n : ℤ) (tag : Option Bytes)
  | int (n : ℤ) (tag : Option Bytes)
  | double (d : Double) (tag : Option Bytes)
  | bool (b : Bool) (tag : Option Bytes)
  | result (b : Bool) (tag : Option Bytes)
  | message (s : List Char)

/-- The effect of one call. stdlib/src/output_recording.rs:119-171. -/
def emit : Record → Io → Io
  | .array n tag => arrayRecordOutput n tag
  | .tuple n tag => tupleRecordOutput n tag
  | .int n tag => intRecordOutput n tag
  | .double d tag => doubleRecordOutput d tag
  | .bool b tag => boolRecordOutput b tag
  | .result b tag => resultRecordOutput b tag
  | .message s => message s

/-- The effect of a sequence of calls. stdlib/src/output_recording.rs:119-171. -/
def emitAll (rs : List Record) (io : Io) : Io := rs.foldl (fun io r => emit r io) io

/-- One call of the functions of `output_recording::legacy`, output_recording.rs 173-229, and of
`legacy_output::__quantum__rt__result_record_output`, backend/src/lib.rs 881-902. -/
inductive Legacy where
  | arrayStart
  | arrayEnd
  | tupleStart
  | tupleEnd
  | int (n : ℤ)
  | double (d : Double)
  | bool (b : Bool)
  | result (b : Bool)

/-- The text behind `RESULT` and the tab, output_recording.rs 181-213, backend/src/lib.rs 898. -/
def Legacy.text : Legacy → List Char
  | .arrayStart => ['A', 'R', 'R', 'A', 'Y', '_', 'S', 'T', 'A', 'R', 'T']
  | .arrayEnd => ['A', 'R', 'R', 'A', 'Y', '_', 'E', 'N', 'D']
  | .tupleStart => ['T', 'U', 'P', 'L', 'E', '_', 'S', 'T', 'A', 'R', 'T']
  | .tupleEnd => ['T', 'U', 'P', 'L', 'E', '_', 'E', 'N', 'D']
  | .int n => intText n
  | .double d => doubleText d
  | .bool b => boolText b
  | .result b => resultText b

/-- The effect of one legacy call. stdlib/src/output_recording.rs:180-228. -/
def emitLegacy (r : Legacy) : Io → Io := recordOutputStr (ascii ("RESULT\t".toList ++ r.text))

end Qir.Out
