import Verif.Props.RewriteDefs

/-!
# What the property theorems about dynamic allocation talk about

A program with dynamic allocation knows its qubits only by what allocation gave it.  Here such a program is written down
with handles: the handle of a qubit is the number of allocations before it.
-/

noncomputable section
namespace Qir.Back
open Spec Sim Qir.Out Run

/-- A program with dynamic allocation: it allocates a qubit, releases the one with a handle, or makes another call, in which
handles stand for qubits. -/
inductive Handled
  | done
  | allocate (k : Handled)
  | release (h : ℕ) (k : Handled)
  | call (c : QCall) (k : QAns → Handled)

/-- The program as it is run.  Here `names h` is the answer to allocation `h`, and `n` the number of allocations so far. -/
def Handled.dynamic : Handled → (ℕ → ℕ) → ℕ → Prog QCall QAns
  | .done, _, _ => .done
  | .allocate k, names, n => .call .allocate fun
    | .ptr q => k.dynamic (Function.update names n q) (n + 1)
    | _ => .done
  | .release h k, names, n => .call (.release (names h)) fun _ => k.dynamic names n
  | .call c k, names, n => .call (onQubits names c) fun a => (k a).dynamic names n

/-- The program without dynamic allocation: every allocation stands for a qubit of its own, whose number is the handle, and
instead of being released it is reset. -/
def Handled.static : Handled → Prog QCall QAns
  | .done => .done
  | .allocate k => k.static
  | .release h k => .call (.reset h) fun _ => k.static
  | .call c k => .call c fun a => (k a).static

/-- All the qubits mentioned in a call. -/
def named : QCall → List ℕ
  | .gate _ q | .sx q | .r _ _ q | .rAdj _ _ q | .reset q | .mresetz q _ | .mz q _ | .m q | .isZero q | .release q => [q]
  | .ctl _ cs q | .rCtl cs _ _ q | .rCtlAdj cs _ _ q => cs ++ [q]
  | .rxx _ a b | .ryy _ a b | .rzz _ a b | .swap a b => [a, b]
  | .exp _ _ qs | .expAdj _ _ qs | .measure _ qs | .assertProb _ qs _ _ _ _ => qs
  | .expCtl cs _ _ qs | .expCtlAdj cs _ _ qs => cs ++ qs
  | _ => []

/-- The program uses and releases only handles it holds, here those of `H` when it begins; the other calls are gates,
measurements, results and output, with distinct operands. -/
def Handled.Scoped : Handled → Finset ℕ → ℕ → Prop
  | .done, _, _ => True
  | .allocate k, H, n => k.Scoped (insert n H) (n + 1)
  | .release h k, H, n => h ∈ H ∧ k.Scoped (H.erase h) n
  | .call c k, H, n => Movable c ∧ c.Distinct ∧ (∀ q ∈ named c, q ∈ H) ∧ ∀ a, (k a).Scoped H n

end Qir.Back
