import Verif.Props.ChanceDefs
import Verif.Model.RoundedBackend

/-!
# What the theorem about distributions with rounding talks about

How much work a program asks for: the number of passes over the state vector, of measurements, and the angles pending.
-/

noncomputable section
namespace Qir.RBack
open Spec Qir.Out Qir.Back Run

/-- A bound on the number of passes over the state vector that a call takes. -/
def effort : QCall → ℕ
  | .sx _ => 18
  | .rzz _ _ _ => 30
  | .rxx _ _ _ => 54
  | .ryy _ _ _ => 102
  | .measure ps qs => 41 * (support ps qs).length + 1
  | c => 5 * c.uses.length + 7

/-- A bound on the angle by which a call adds to the rotations pending. -/
def turn (A : Arith) : QCall → ℝ
  | .gate (.rx θ) _ | .gate (.ry θ) _ | .r .X θ _ | .r .Y θ _ | .rAdj .X θ _ | .rAdj .Y θ _ => |θ| + A.eps
  | _ => 0

/-- The calls whose answer does not depend on amplitudes other than through measurement, and that draw no numbers. -/
def Plain : QCall → Prop
  | .isZero _ | .assertProb _ _ _ _ _ _ | .dump _ | .drawInt _ _ | .drawDouble _ _ => False
  | _ => True

/-- A rotation about Y is not called while half a turn about X is pending on the same qubit (finding F1). -/
def TurnOk (A : Arith) (s : Backend) : QCall → Prop
  | .gate (.ry _) q | .r .Y _ q | .rAdj .Y _ q => ¬ ∃ b, s.sim.rxQ.get q = some b ∧ |A.cos (b / 2)| ≤ A.eps
  | _ => True

/-- Whatever the measurements find, the program makes sense, makes `Plain` calls only, uses at most `N` qubits at a time,
takes at most `W` passes, measures at most `M` times, and adds angles of at most `T`.  (The state vector of `δ` does not
matter.) -/
def Within (A : Arith) (N : ℕ) : Prog QCall QAns → Device → ℕ → ℕ → ℝ → Prop
  | .done, _, _, _, _ => True
  | .call c k, δ, W, M, T => δ.Valid c ∧ Plain c ∧ effort c ≤ W ∧ turn A c ≤ T ∧
    match measures δ c with
    | some _ => 1 ≤ M ∧ ∀ v, (finding v δ c).2.live.card ≤ N ∧ (δ.useAll c.uses).live.card ≤ N ∧
        Within A N (k (finding v δ c).1) (finding v δ c).2 (W - effort c) (M - 1) (T - turn A c)
    | none => ∀ a es δ', δ.step c = .ok (a, es, δ') →
        δ'.live.card ≤ N ∧ Within A N (k a) δ' (W - effort c) M (T - turn A c)

/-- Whatever the samples are, no rotation about Y is called while half a turn about X is pending. -/
def Turnless (A : Arith) (fmt : Fmt) : Prog QCall QAns → Backend → Prop
  | .done, _ => True
  | .call c k, s => TurnOk A s c ∧ ∀ r a out s',
      step A fmt c { s with sim := { s.sim with rng := r } } = .ok (a, out, s') → Turnless A fmt (k a) s'

/-- What one run of a program writes, and whether it ends well. -/
def outcome (A : Arith) (fmt : Fmt) (p : Prog QCall QAns) (s : Backend) : Bytes × Bool :=
  match speech (step A fmt) p s with
  | .ok (out, _) => (out, true)
  | .error out => (out, false)

/-- The records whose lines, together with whether the program ends well, are in `S`. -/
def texts (S : Set (Bytes × Bool)) : Set (List Event × Bool) := {o | (lines o.1, o.2) ∈ S}

/-- The bound on the distance of the distributions: `N` qubits, `W` passes, `M` measurements. -/
def gap (A : Arith) (N W M : ℕ) : ℝ := 24 * (2 * A.eps * √2 * √(2 ^ N)) * W + 1800 * 2 ^ N * (A.u + A.eta) * M

/-- What the shots of a session write, or how it fails. -/
def written (A : Arith) (fmt : Fmt) (p : Prog QCall QAns) (n : ℕ) (s : Backend) :
    Except (List Bytes × Bytes) (List Bytes) := (session (step A fmt) reinit p n s).map Prod.fst

end Qir.RBack
