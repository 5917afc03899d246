import Verif.Model.LineEnds
import Verif.Props.Decoding

/-!
# Specification for line ends (C85)
-/

noncomputable section
namespace Qir.Eol
open Spec Qir.Std Qir.Out Qir.Run

/-- A line of a transcript: its text, and whether its end is a line feed on every platform. -/
structure Line where
  text : Bytes
  fixed : Bool

/-- Its bytes, where lines end in `eol`. -/
def Line.bytes (eol : Bytes) (l : Line) : Bytes := l.text ++ if l.fixed then [10] else eol

/-- The bytes of several lines. -/
def text (eol : Bytes) (ls : List Line) : Bytes := ls.flatMap (Line.bytes eol)

/-- The line that starts a shot. -/
def start : Line := ⟨utf8 "START", true⟩

/-- How a run ended. -/
def outcome {σ : Type} : Except (RunError × Io) (σ × Io) → Except RunError σ
  | .ok (s, _) => .ok s
  | .error (e, _) => .error e

/-- Reading text on any platform ("universal newlines"): a carriage return and line feed, or a carriage return alone, count
as a line feed. -/
def universal : Bytes → Bytes
  | [] => []
  | [13] => [10]
  | 13 :: 10 :: l => 10 :: universal l
  | 13 :: x :: l => 10 :: universal (x :: l)
  | x :: l => x :: universal l

/-- Every line feed comes after a carriage return. -/
def AllCrLf (b : Bytes) : Prop := ∀ i, b[i]? = some (10 : UInt8) → ∃ j, i = j + 1 ∧ b[j]? = some (13 : UInt8)

/-- The labels of a call contain no carriage return. -/
def Tame : QCall → Prop
  | .recordResult _ (some t) => 13 ∉ t
  | .record e _ => ∀ t, e.label = some t → 13 ∉ t
  | _ => True

/-- The texts of amplitudes and of results contain no carriage return. -/
structure TameFmt (fmt : Back.Fmt) : Prop where
  bits : ∀ l, (13 : UInt8) ∉ fmt.bits l
  amplitude : ∀ z, (13 : UInt8) ∉ utf8 (fmt.amplitude z)

/-- The attributes contain no carriage return. -/
def TameAttrs (f : Func) : Prop := ∀ a ∈ f.attrs, (13 : UInt8) ∉ utf8 a.1 ∧ (13 : UInt8) ∉ utf8 a.2

end Qir.Eol
