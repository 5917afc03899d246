import Verif.Props.BackDefs
import Verif.Props.Runner

/-!
# What the property theorems about sessions talk about
-/

noncomputable section
namespace Qir.Back
open Spec Sim Qir.Out Run

/-- The smallest number of samples a call takes from the random stream: one for every measurement. -/
def least : QCall → ℕ
  | .reset _ | .mresetz _ _ | .mz _ _ | .m _ | .measure _ _ => 1
  | _ => 0

/-- The largest: a release can also take one. -/
def most : QCall → ℕ
  | .release _ => 1
  | c => least c

/-- A call that does not draw from the source of the operating system. -/
def NoDraw : QCall → Prop
  | .drawInt _ _ | .drawDouble _ _ => False
  | _ => True

/-- A program that never draws from the source of the operating system. -/
def Seeded : Prog QCall QAns → Prop
  | .done => True
  | .call c k => NoDraw c ∧ ∀ a, Seeded (k a)

/-- The calls a program makes when it runs from a state, those that return. -/
def trace {Q A σ : Type} (step : StepFn Q A σ) : Prog Q A → σ → List Q
  | .done, _ => []
  | .call q k, s => match step q s with
    | .error _ => []
    | .ok (a, _, s) => q :: trace step (k a) s

/-- The stream from position `k` on. -/
def streamFrom (k : ℕ) (rng : ℕ → ℝ) : ℕ → ℝ := fun n => rng (n + k)

/-! ### The ideal session -/

/-- What a program records on the ideal device and the state it leaves; if it fails, the records up to then, of
which the last is the message. -/
def idealRun : Prog QCall QAns → Device → Except (List Event) (List Event × Device)
  | .done, δ => .ok ([], δ)
  | .call c k, δ => match δ.step c with
    | .error msg => .error [.record (.message msg)]
    | .ok (a, es, δ) => match idealRun (k a) δ with
      | .error es' => .error (es ++ es')
      | .ok (es', δ) => .ok (es ++ es', δ)

/-- Several shots, each on a new device; the samples are taken from one stream. -/
def idealShots (p : Prog QCall QAns) : ℕ → (ℕ → ℝ) → Except (List (List Event) × List Event) (List (List Event))
  | 0, _ => .ok []
  | n + 1, rng => match idealRun p (Device.init rng) with
    | .error es => .error ([], es)
    | .ok (es, δ) => match idealShots p n δ.rng with
      | .error (ess, es') => .error (es :: ess, es')
      | .ok ess => .ok (es :: ess)

/-- Every call of the program makes sense on the ideal device when its turn comes, and its effect is
determined. -/
def Meaningful : Prog QCall QAns → Device → Prop
  | .done, _ => True
  | .call c k, δ => δ.Valid c ∧ c.Determined ∧ ∀ a es δ', δ.step c = .ok (a, es, δ') → Meaningful (k a) δ'

/-- The program never rotates a qubit with a pending half-turn about X about Y without controls (see C01). -/
def NoTurn (env : Env) (fmt : Fmt) : Prog QCall QAns → Backend → Prop
  | .done, _ => True
  | .call c k, s => QCallOk s c ∧ ∀ a out s', qstep env fmt c s = .ok (a, out, s') → NoTurn env fmt (k a) s'

end Qir.Back
