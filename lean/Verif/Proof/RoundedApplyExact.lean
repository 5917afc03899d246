import Verif.Model.RoundedApply
import Verif.Proof.RoundedExact

/-! With exact arithmetic `apply` with rounding is `apply` without. -/

noncomputable section
namespace Qir.Rnd
open Sim Spec

variable {env : Env}

@[simp] theorem entries_exact (U : ℕ → ℕ → ℂ) : (Arith.exact env).entries U = U := rfl

@[simp] theorem placeOne_exact : placeOne (Arith.exact env) = Sim.placeOne env := by
  funext l t s; simp only [placeOne, Sim.placeOne, swapQubitState_exact]; rfl

@[simp] theorem place_exact : place (Arith.exact env) = Sim.place env := by
  funext i ks s
  induction ks generalizing i s with
  | nil => rfl
  | cons k ks ih => simp only [place, Sim.place, placeOne_exact, ih]

@[simp] theorem addEntry_exact : addEntry (Arith.exact env) = Sim.addEntry := by
  funext l v acc
  simp only [addEntry, Sim.addEntry, exact_add]

@[simp] theorem scatter_exact (u : Mat) : scatter (Arith.exact env) u = Sim.scatter env.eps u := by
  funext acc e
  simp only [scatter, Sim.scatter, addEntry_exact, exact_mul]; rfl

@[simp] theorem apply_exact : apply (Arith.exact env) = Sim.apply env := by
  funext u ts cs s
  simp only [apply, Sim.apply, flushQueue_exact, place_exact, scatter_exact]; rfl

theorem callX_exact : callX (Arith.exact env) = Sim.callX env := by
  funext c s
  cases c with
  | base c => simp only [callX, Sim.callX, call_exact]
  | apply cs U ts => simp only [callX, Sim.callX, apply_exact, entries_exact]

theorem runX_exact : runX (Arith.exact env) = Sim.runX env := by
  funext cs s
  induction cs generalizing s with
  | nil => rfl
  | cons c cs ih => simp only [runX, Sim.runX, callX_exact, ih]

end Qir.Rnd
