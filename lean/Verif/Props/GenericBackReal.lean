import Verif.Props.GenericReal
import Verif.Model.GenericBackend

/-! # The dictionary between `Model/GenericBackend` at the real numbers and `Model/Backend` -/

noncomputable section
namespace Qir
namespace Gen

/-- The backend. -/
def toB (s : GBackend ℝ) : Back.Backend := { sim := toSim s.sim, res := s.res, max := s.max, os := s.os }

/-- The library functions: the texts of `fmt`, the absolute value, and the range sampled from one word. -/
def realLib (fmt : Back.Fmt) : Lib ℝ where
  bits := fmt.bits
  amplitude z := fmt.amplitude (toC z)
  abs x := |x|
  uniform a b w := some (Std.sampleReal a b (w / (Std.words - 1)))

/-- The ways to stop; with real numbers there is no panic of `random_range`. -/
def toStop : GStop → Back.Stop
  | .sim p => .sim p
  | .fail m => .fail m
  | .unimplemented => .unimplemented
  | .range => .unimplemented

/-- A call. -/
def ofQCall : Spec.QCall → GQCall ℝ
  | .gate g q => .gate (ofGate g) q
  | .ctl g cs q => .ctl (ofGate g) cs q
  | .sx q => .sx q
  | .rxx θ a b => .rxx θ a b
  | .ryy θ a b => .ryy θ a b
  | .rzz θ a b => .rzz θ a b
  | .r p θ q => .r p θ q
  | .rAdj p θ q => .rAdj p θ q
  | .rCtl cs p θ q => .rCtl cs p θ q
  | .rCtlAdj cs p θ q => .rCtlAdj cs p θ q
  | .exp ps θ qs => .exp ps θ qs
  | .expAdj ps θ qs => .expAdj ps θ qs
  | .expCtl cs ps θ qs => .expCtl cs ps θ qs
  | .expCtlAdj cs ps θ qs => .expCtlAdj cs ps θ qs
  | .swap a b => .swap a b
  | .reset q => .reset q
  | .mresetz q r => .mresetz q r
  | .mz q r => .mz q r
  | .readResult r => .readResult r
  | .writeResult v r => .writeResult v r
  | .m q => .m q
  | .measure ps qs => .measure ps qs
  | .isZero q => .isZero q
  | .assertProb ps qs result prob msg tol => .assertProb ps qs result prob msg tol
  | .allocate => .allocate
  | .release q => .release q
  | .recordResult r tag => .recordResult r tag
  | .legacyResult r => .legacyResult r
  | .record e h => .record e h
  | .legacy e h => .legacy e h
  | .fail msg => .fail msg
  | .dump location => .dump location
  | .barrier => .barrier
  | .reinit => .reinit
  | .drawInt a b => .drawInt a b
  | .drawDouble a b => .drawDouble a b

/-- An answer. -/
def toAns : GAns ℝ → Spec.QAns
  | .unit => .unit
  | .bit b => .bit b
  | .ptr n => .ptr n
  | .int n => .int n
  | .real x => .real x

/-- A program, with the calls and answers translated. -/
def ofProg : Run.Prog Spec.QCall Spec.QAns → Run.Prog (GQCall ℝ) (GAns ℝ)
  | .done => .done
  | .call c k => .call (ofQCall c) fun a => ofProg (k (toAns a))

/-- A result of a call of the library. -/
def toAnswer (r : GAns ℝ × List UInt8 × GBackend ℝ) : Spec.QAns × List UInt8 × Back.Backend := (toAns r.1, r.2.1, toB r.2.2)

/-- The result of a run. -/
def toEnd (r : GBackend ℝ × Out.Io) : Back.Backend × Out.Io := (toB r.1, r.2)

end Gen
end Qir
