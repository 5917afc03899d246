import Verif.Model.Apply
import Verif.Model.GenericApply
import Verif.Proof.GenericExact

/-! With the arithmetic of the real numbers, `apply` of `Model/GenericApply` is that of `Model/Apply`. -/

noncomputable section
namespace Qir
namespace Gen
open Sim (resolveId checkForDuplicates findByLoc)

variable (env : Env)

local notation "A" => Arith.exact env
local notation "N" => realNum env

/-- A matrix of pairs of real numbers as a matrix of complex numbers. -/
def toMat (u : GMat ℝ) : Mat := ⟨u.rows, u.cols, fun i j => toC (u.entry i j)⟩

theorem controlled_eq (u : GMat ℝ) (n : ℕ) : Qir.controlled (toMat u) n = toMat (controlled N u n) := by
  unfold Qir.controlled controlled toMat
  dsimp only
  congr 1
  funext i j
  split
  · rfl
  · split <;> rfl

theorem placeOne_eq (i k : ℕ) (s : GSim ℝ) : Sim.placeOne env i k (toSim s) = (placeOne N i k s).map toSim := by
  refine bindSelf rfl fun l => ?_
  rw [show (toSim s).idMap = s.idMap from rfl]
  cases findByLoc s.idMap i with
  | none => rfl
  | some id =>
    refine bindSelf rfl fun r => bindSame (f := toSim) ?_ fun r => rfl
    rw [← Rnd.swapQubitState_exact]
    exact swapQubitState_eq env l i s

theorem place_eq (i : ℕ) (ks : List ℕ) (s : GSim ℝ) : Sim.place env i ks (toSim s) = (place N i ks s).map toSim := by
  induction ks generalizing i s with
  | nil => rfl
  | cons k ks ih => exact bindSame (placeOne_eq env i k s) fun r => ih (i + 1) r

theorem addEntry_eq (k : ℕ) (v : Cx ℝ) (m : List (ℕ × Cx ℝ)) :
    (addEntry N k v m).map toE = Sim.addEntry k (toC v) (m.map toE) := by
  unfold addEntry Sim.addEntry
  simp only [List.any_map, Function.comp_def, toE_fst]
  split
  · simp only [List.map_map]
    apply List.map_congr_left
    intro q _
    simp only [Function.comp, toE_fst]
    by_cases hq : (q.1 == k) = true
    · simp only [hq, if_true]; rfl
    · simp only [hq, Bool.false_eq_true, if_false]
  · simp only [List.map_append, List.map_cons, List.map_nil]; rfl

theorem dropZero_eq (k : ℕ) (m : List (ℕ × Cx ℝ)) :
    (dropZero N k m).map toE = Sim.dropZero env.eps k (m.map toE) := by
  unfold dropZero Sim.dropZero
  rw [lookupMap_eq]
  cases lookupMap m k with
  | none => rfl
  | some v =>
    refine mapIf (near_iff env v) ?_ rfl
    rw [List.filter_map]
    rfl

theorem scatter_eq (u : GMat ℝ) (m : List (ℕ × Cx ℝ)) (e : ℕ × Cx ℝ) :
    (scatter N u m e).map toE = Sim.scatter env.eps (toMat u) (m.map toE) (toE e) := by
  unfold scatter Sim.scatter
  dsimp only
  have hf : (List.range (toMat u).rows).filter (fun j => !decide (NearlyZero env.eps ((toMat u).entry j ((toE e).1 % (toMat u).rows)))) =
      (List.range u.rows).filter (fun j => !(N).nearlyZeroC (u.entry j (e.1 % u.rows))) := by
    apply List.filter_congr
    intro j _
    rw [nearlyZeroC_eq]
    rfl
  rw [show (toMat u).rows = u.rows from rfl] at *
  rw [toE_fst] at *
  rw [hf]
  generalize List.filter _ _ = l
  induction l generalizing m with
  | nil => rfl
  | cons j l ih =>
    simp only [List.foldl_cons]
    rw [ih, dropZero_eq, addEntry_eq, toC_mul]
    rfl

theorem scatterAll_eq (u : GMat ℝ) (l m : List (ℕ × Cx ℝ)) :
    (l.foldl (scatter N u) m).map toE = (l.map toE).foldl (Sim.scatter env.eps (toMat u)) (m.map toE) := by
  induction l generalizing m with
  | nil => rfl
  | cons e l ih => simp only [List.foldl, List.map, ih, scatter_eq]

theorem apply_eq (u : GMat ℝ) (ts : List ℕ) (ctrls : Option (List ℕ)) (s : GSim ℝ) :
    Sim.apply env (toMat u) ts ctrls (toSim s) = (apply N u ts ctrls s).map toSim := by
  have on : ∀ (u : GMat ℝ) (qs : List ℕ), (do
      checkForDuplicates qs
      let s ← Sim.flushQueue env qs .HRxRy (toSim s)
      let s ← Sim.place env 0 qs.reverse s
      let s := { s with state := env.shuffle (s.state.foldl (Sim.scatter env.eps (toMat u)) []) }
      if s.state.isEmpty then Except.error Panic.assertion
      else return s) = (applyOn N u qs s).map toSim := by
    intro u qs
    refine bindSelf rfl fun _ => bindSame (f := toSim) ?_ fun r => bindSame (place_eq env 0 qs.reverse r) fun r => ?_
    · rw [← Rnd.flushQueue_exact]; exact flushQueue_eq env _ _ s
    · have hst : env.shuffle ((toSim r).state.foldl (Sim.scatter env.eps (toMat u)) []) =
          ((N).shuffle (r.state.foldl (scatter N u) [])).map toE := by
        rw [shuffle_eq, scatterAll_eq]; rfl
      dsimp only
      rw [hst]
      refine exIf ?_ rfl rfl
      cases (N).shuffle (r.state.foldl (scatter N u) []) <;> simp
  unfold Sim.apply apply
  refine exIf Iff.rfl rfl (exIf Iff.rfl rfl ?_)
  cases ctrls with
  | none => exact on u ts
  | some cs =>
    dsimp only
    rw [controlled_eq]
    exact on _ _

/-- A call of `Model/Apply` as one here. -/
def ofXCall : Spec.XCall → GXCall ℝ
  | .base c => .base (ofCall c)
  | .apply cs U ts => .apply cs (fun i j => ofC (U i j)) ts

theorem callX_eq (c : Spec.XCall) (s : GSim ℝ) : Sim.callX env c (toSim s) = (callX N (ofXCall c) s).map toR := by
  cases c with
  | base c =>
    show Sim.call env c (toSim s) = _
    rw [← Rnd.call_exact]
    exact call_eq env c s
  | apply cs U ts =>
    refine bindSame (f := toSim) ?_ fun _ => rfl
    exact apply_eq env ⟨2 ^ ts.length, 2 ^ ts.length, fun i j => ofC (U i j)⟩ ts (some cs) s

theorem runX_real (cs : List Spec.XCall) (rng : ℕ → ℝ) :
    Sim.runX env cs (Sim.new rng) = (runX N (cs.map ofXCall) (new N rng)).map toRun := by
  suffices h : ∀ s : GSim ℝ, Sim.runX env cs (toSim s) = (runX N (cs.map ofXCall) s).map toRun from h (new N rng)
  induction cs with
  | nil => intro s; rfl
  | cons c cs ih => intro s; exact bindSame (callX_eq env c s) fun r => bindSame (ih r.2) fun _ => rfl

end Gen
end Qir
