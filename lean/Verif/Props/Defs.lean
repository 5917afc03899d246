import Verif.Model.Api

/-!
# What the property theorems about the simulator talk about

`Reachable` are the states a client can bring a simulator into; `Shows` is the state vector that
`get_state` would report.
-/

noncomputable section
namespace Qir
open Spec Sim

/-- `s` is reached from a new simulator by a history of valid public calls, whatever samples in
`[0, 1)` the random source delivers. -/
def Reachable (env : Env) (s : Sim) : Prop :=
  ∃ (rng : ℕ → ℝ) (cs : List Call) (os : List Out), (∀ n, 0 ≤ rng n ∧ rng n < 1) ∧
    (Ideal.init rng).ValidRun cs ∧ runCalls env cs (Sim.new rng) = .ok (os, s)

/-- The allocated qubits of `s` are `L`, and `get_state` would report the state vector `ψ` on
them. -/
structure Shows (env : Env) (s : Sim) (L : Finset ℕ) (ψ : Wave) : Prop where
  ids : ∀ q, q ∈ L ↔ (s.idMap.get q).isSome = true
  confined : ∀ b, ψ b ≠ 0 → ∀ q, q ∉ L → b q = false
  reported : ∃ l s', s.getState env = .ok ((l, L.card), s') ∧ Lists (L.sort (· ≤ ·)) ψ l

/-- A rotation about X by an odd number of half-turns is waiting in the queue of qubit `q`. -/
def PendingHalfTurn (s : Sim) (q : ℕ) : Prop := ∃ b, s.rxQ.get q = some b ∧ Real.cos (b / 2) = 0

/-- No uncontrolled rotation about Y is requested of a qubit with a pending half-turn about X. -/
def CallOk (s : Sim) : Call → Prop
  | .gate (.ry _) q => ¬ PendingHalfTurn s q
  | _ => True

/-- The same along a run. -/
def RunOk (env : Env) : Sim → List Call → Prop
  | _, [] => True
  | s, c :: cs => CallOk s c ∧ ∀ o s', call env c s = .ok (o, s') → RunOk env s' cs

/-- Two answers say the same: equal values, or the same state up to a global phase. -/
def SameAnswer : Out → Out → Prop
  | .state l n, .state l' n' => n = n' ∧ ∃ (ids : List ℕ) (φ : Wave) (u : ℂ), ids.Nodup ∧
      ids.length = n ∧ ‖u‖ = 1 ∧ Lists ids φ l ∧ Lists ids (u • φ) l'
  | .text t, .text t' => ∃ (fmt : ℂ → String) (ids : List ℕ) (φ : Wave) (u : ℂ) (l l' : List (ℕ × ℂ)),
      ids.Nodup ∧ ‖u‖ = 1 ∧ Lists ids φ l ∧ Lists ids (u • φ) l' ∧
      t = stateText fmt l ∧ t' = stateText fmt l'
  | o, o' => o = o'

end Qir
