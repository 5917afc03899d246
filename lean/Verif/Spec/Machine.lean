import Verif.Spec.Quantum
import Mathlib.Data.Finset.Sort
import Mathlib.Order.Interval.Finset.Nat

/-!
# The ideal quantum computer

An abstract machine over textbook state vectors.  It knows nothing of queues, sparse states,
locations or hash maps.  The random source is the sequence of its future samples.
-/

noncomputable section

namespace Qir.Spec

/-- The single-qubit gates. -/
inductive Gate
  | x | y | z | h | s | sadj | t | tadj
  | rx (θ : ℝ) | ry (θ : ℝ) | rz (θ : ℝ)

/-- Their matrices. -/
def Gate.mat : Gate → Mat2
  | .x => matX
  | .y => matY
  | .z => matZ
  | .h => matH
  | .s => matS
  | .sadj => matSadj
  | .t => matT
  | .tadj => matTadj
  | .rx θ => matRx θ
  | .ry θ => matRy θ
  | .rz θ => matRz θ

/-- What a client can ask for. -/
inductive Call
  | gate (g : Gate) (q : ℕ)
  | ctrl (g : Gate) (cs : List ℕ) (q : ℕ)
  | phase (cs : List ℕ) (φ : ℂ) (q : ℕ)
  | exp (cs : List ℕ) (ps : List Pauli) (θ : ℝ) (ts : List ℕ)
  | swap (a b : ℕ)
  | allocate
  | release (q : ℕ)
  | measure (q : ℕ)
  | jointMeasure (qs : List ℕ)
  | jointProb (qs : List ℕ)
  | isZero (q : ℕ)
  | collapse (v : Bool) (q : ℕ)
  | getState
  | dump (fmt : ℂ → String)

/-- Which calls make sense when the qubits `L` are in use: operands are in use and distinct. -/
def Call.ValidOn (L : Finset ℕ) : Call → Prop
  | .gate _ q => q ∈ L
  | .ctrl _ cs q => (cs ++ [q]).Nodup ∧ ∀ i ∈ cs ++ [q], i ∈ L
  | .phase cs φ q => (cs ++ [q]).Nodup ∧ (∀ i ∈ cs ++ [q], i ∈ L) ∧ ‖φ‖ = 1
  | .exp cs ps _ ts => (cs ++ ts).Nodup ∧ (∀ i ∈ cs ++ ts, i ∈ L) ∧ ps.length ≤ ts.length
  | .swap a b => a ∈ L ∧ b ∈ L
  | .allocate => True
  | .release q => q ∈ L
  | .measure q => q ∈ L
  | .jointMeasure qs => qs.Nodup ∧ ∀ i ∈ qs, i ∈ L
  | .jointProb qs => qs.Nodup ∧ ∀ i ∈ qs, i ∈ L
  | .isZero q => q ∈ L
  | .collapse _ q => q ∈ L
  | .getState => True
  | .dump _ => True

/-- The gate-like calls. -/
def Call.IsGate : Call → Prop
  | .gate .. | .ctrl .. | .phase .. | .exp .. | .swap .. => True
  | _ => False

/-- The calls that only look. -/
def Call.IsLook : Call → Prop
  | .jointProb _ | .isZero _ | .getState | .dump _ => True
  | _ => False

/-- A value comes back: measurement results, probabilities, states. -/
def Call.Observes : Call → Prop
  | .measure _ | .jointMeasure _ | .jointProb _ | .isZero _ | .collapse _ _ | .getState | .dump _ => True
  | _ => False

/-- The operator of a gate-like call. -/
def Call.op : Call → Wave → Wave
  | .gate g q => Spec.ctrl [] g.mat q
  | .ctrl g cs q => Spec.ctrl cs g.mat q
  | .phase cs φ q => Spec.ctrl cs (matPhase φ) q
  | .exp cs ps θ ts => ctrlExp cs (ps.zip ts) θ
  | .swap a b => swapQubits a b
  | _ => id

/-- The same call, except that an uncontrolled rotation about Y may turn the other way. -/
inductive Call.Twist : Call → Call → Prop
  | same (c : Call) : Twist c c
  | ry (θ : ℝ) (q : ℕ) : Twist (.gate (.ry θ) q) (.gate (.ry (-θ)) q)

/-- What a client gets back. -/
inductive Out
  | none
  | id (n : ℕ)
  | bit (b : Bool)
  | real (r : ℝ)
  | state (l : List (ℕ × ℂ)) (n : ℕ)
  | text (t : String)

/-- The documented text form of a listing, `fmt` being the text form of an amplitude:
`STATE: [ |k⟩: a, … ]` and a line end. -/
def stateText (fmt : ℂ → String) (l : List (ℕ × ℂ)) : String :=
  "STATE: [ " ++ String.join (l.map (fun e => s!"|{e.1}⟩: {fmt e.2}, ")) ++ "]\n"

/-- The ideal machine: the qubits in use, the state vector, and the future random samples. -/
structure Ideal where
  live : Finset ℕ
  psi : Wave
  rng : ℕ → ℝ

namespace Ideal

/-- No qubits. -/
def init (rng : ℕ → ℝ) : Ideal := { live := ∅, psi := ket zeroBasis, rng := rng }

/-- The smallest identifier not in use. -/
def fresh (σ : Ideal) : ℕ := sInf {n | n ∉ σ.live}

/-- The outcome of measuring the parity of `qs`: one if the next sample is below the
probability of odd parity. -/
def outcome (qs : List ℕ) (σ : Ideal) : Bool := decide (σ.rng 0 < prob qs true σ.psi)

/-- Measure the parity of `qs`. -/
def measured (qs : List ℕ) (σ : Ideal) : Ideal :=
  { σ with psi := postMeasure qs (σ.outcome qs) σ.psi, rng := fun n => σ.rng (n + 1) }

open Classical in
/-- The effect of a call. -/
def step (σ : Ideal) : Call → Ideal
  | .gate g q => { σ with psi := Spec.ctrl [] g.mat q σ.psi }
  | .ctrl g cs q => { σ with psi := Spec.ctrl cs g.mat q σ.psi }
  | .phase cs φ q => { σ with psi := Spec.ctrl cs (matPhase φ) q σ.psi }
  | .exp cs ps θ ts => { σ with psi := ctrlExp cs (ps.zip ts) θ σ.psi }
  | .swap a b => { σ with psi := swapQubits a b σ.psi }
  | .allocate => { σ with live := insert σ.fresh σ.live }
  | .release q =>
    if σ.live = {q} then { σ with live := ∅, psi := ket zeroBasis }
    else
      let τ := σ.measured [q]
      { τ with
        live := σ.live.erase q
        psi := if σ.outcome [q] then Spec.ctrl [] matX q τ.psi else τ.psi }
  | .measure q => σ.measured [q]
  | .jointMeasure qs => σ.measured qs
  | .jointProb _ => σ
  | .isZero _ => σ
  | .collapse v q =>
    if prob [q] v σ.psi = 0 then σ else { σ with psi := postMeasure [q] v σ.psi }
  | .getState => σ
  | .dump _ => σ

/-- The identifiers in use, in increasing order. -/
def ids (σ : Ideal) : List ℕ := σ.live.sort (· ≤ ·)

open Classical in
/-- Which answers are right.  The reported state is determined up to a global phase. -/
def Answer (σ : Ideal) : Call → Out → Prop
  | .allocate, o => o = .id σ.fresh
  | .measure q, o => o = .bit (σ.outcome [q])
  | .jointMeasure qs, o => o = .bit (σ.outcome qs)
  | .jointProb qs, o => o = .real (prob qs true σ.psi)
  | .isZero q, o => o = .bit (decide (prob [q] true σ.psi = 0))
  | .collapse v q, o => o = .real (prob [q] v σ.psi)
  | .getState, o => ∃ (w : ℂ) (l : List (ℕ × ℂ)), ‖w‖ = 1 ∧ Lists σ.ids (w • σ.psi) l ∧
      o = .state l σ.live.card
  | .dump fmt, o => ∃ (w : ℂ) (l : List (ℕ × ℂ)), ‖w‖ = 1 ∧ Lists σ.ids (w • σ.psi) l ∧
      o = .text (stateText fmt l)
  | _, o => o = .none

/-- The call makes sense now. -/
def Valid (σ : Ideal) (c : Call) : Prop := c.ValidOn σ.live

/-- The effect of a history. -/
def run (σ : Ideal) (cs : List Call) : Ideal := cs.foldl step σ

/-- Every call of the history makes sense when it is made. -/
def ValidRun (σ : Ideal) : List Call → Prop
  | [] => True
  | c :: cs => σ.Valid c ∧ (σ.step c).ValidRun cs

/-- The right answers to a history. -/
def Answers (σ : Ideal) : List Call → List Out → Prop
  | [], os => os = []
  | c :: cs, os => ∃ o os', os = o :: os' ∧ σ.Answer c o ∧ (σ.step c).Answers cs os'

end Ideal

end Qir.Spec
