import Verif.Model.Output

/-!
# The lines of the output, as a specification

The parts of an output record and how they are put together; the text of a value (`intText`, `doubleText`,
`boolText`, `resultText`, `escape`) is that of the library.
-/

namespace Qir.Out

open Qir.Std

/-- The keyword of a record. -/
def Record.keyword : Record → List Char
  | .array .. => "ARRAY".toList
  | .tuple .. => "TUPLE".toList
  | .int .. => "INT".toList
  | .double .. => "DOUBLE".toList
  | .bool .. => "BOOL".toList
  | .result .. => "RESULT".toList
  | .message _ => "INFO".toList

/-- The label of a record. -/
def Record.label : Record → Option Bytes
  | .array _ t | .tuple _ t | .int _ t | .double _ t | .bool _ t | .result _ t => t
  | .message _ => none

/-- The value field. -/
def Record.value : Record → List Char
  | .array n _ | .tuple n _ | .int n _ => intText n
  | .double d _ => doubleText d
  | .bool b _ => boolText b
  | .result b _ => resultText b
  | .message s => escape s

/-- The label field, with the tab before it. -/
def labelField : Option Bytes → Bytes
  | none => []
  | some t => 9 :: t

/-- The line without its end. -/
def Record.body : Record → Bytes
  | .message s => ascii "INFO".toList ++ 9 :: ascii (escape s)
  | r => ascii "OUTPUT".toList ++ 9 :: (ascii r.keyword ++ 9 :: (ascii r.value ++ labelField r.label))

/-- Something recorded. -/
inductive Event
  | record (r : Record)
  | legacy (r : Legacy)

/-- Its line. -/
def Event.line : Event → Bytes
  | .record r => r.body ++ [10]
  | .legacy r => ascii "RESULT".toList ++ 9 :: ascii r.text ++ [10]

/-- The lines of several. -/
def lines (es : List Event) : Bytes := es.flatMap Event.line

end Qir.Out
