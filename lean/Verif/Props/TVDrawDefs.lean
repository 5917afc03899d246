import Verif.Props.TVDefs
import Verif.Props.OddsDefs

/-!
# What the property theorems about rounding in programs that draw random numbers talk about
-/

noncomputable section
namespace Qir.RBack
open Spec Sim Qir.Out Run Rnd
open Qir.Back (Backend Fmt measures finding drawn)

/-- As `Within`, for programs that may also draw numbers: whatever is measured and drawn, the program makes sense, uses at
most `N` qubits at a time, takes at most `W` passes, measures at most `M` times, and adds angles of at most `T`. -/
def WithinD (A : Arith) (N : ℕ) : Prog QCall QAns → Device → ℕ → ℕ → ℝ → Prop
  | .done, _, _, _, _ => True
  | .call c k, δ, W, M, T => match drawn c with
    | .int min max => Std.IsI64 min ∧ Std.IsI64 max ∧ ∀ n, min ≤ n → n ≤ max → WithinD A N (k (.int n)) δ W M T
    | .real min max => ∀ x, min ≤ x → x ≤ max → WithinD A N (k (.real x)) δ W M T
    | .nothing => δ.Valid c ∧ Plain c ∧ effort c ≤ W ∧ turn A c ≤ T ∧
      match measures δ c with
      | some _ => 1 ≤ M ∧ ∀ v, (finding v δ c).2.live.card ≤ N ∧ (δ.useAll c.uses).live.card ≤ N ∧
          WithinD A N (k (finding v δ c).1) (finding v δ c).2 (W - effort c) (M - 1) (T - turn A c)
      | none => ∀ a es δ', δ.step c = .ok (a, es, δ') →
          δ'.live.card ≤ N ∧ WithinD A N (k a) δ' (W - effort c) M (T - turn A c)

/-- As `Turnless`: whatever the samples are and whatever is drawn, no rotation about Y is called while half a turn about X
is pending. -/
def TurnlessD (A : Arith) (fmt : Fmt) : Prog QCall QAns → Backend → Prop
  | .done, _ => True
  | .call c k, s => match drawn c with
    | .int min max => ∀ n, min ≤ n → n ≤ max → TurnlessD A fmt (k (.int n)) s
    | .real min max => ∀ x, min ≤ x → x ≤ max → TurnlessD A fmt (k (.real x)) s
    | .nothing => TurnOk A s c ∧ ∀ r a out s',
      step A fmt c { s with sim := { s.sim with rng := r } } = .ok (a, out, s') → TurnlessD A fmt (k a) s'

/-- Whatever is measured and drawn, the ideal device does not fail. -/
def Safe : Prog QCall QAns → Device → Prop
  | .done, _ => True
  | .call c k, δ => match drawn c with
    | .int min max => min ≤ max ∧ ∀ n, min ≤ n → n ≤ max → Safe (k (.int n)) δ
    | .real min max => min ≤ max ∧ ∀ x, min ≤ x → x ≤ max → Safe (k (.real x)) δ
    | .nothing => match measures δ c with
      | some _ => ∀ v, Safe (k (finding v δ c).1) (finding v δ c).2
      | none => ∃ a es δ', δ.step c = .ok (a, es, δ') ∧ Safe (k a) δ'

end Qir.RBack
