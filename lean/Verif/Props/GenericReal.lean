import Verif.Model.Generic
import Verif.Model.Api

/-!
# The arithmetic of the real numbers as an instance

The dictionary between `Model/Generic` at the real numbers and `Model/Sim`.
-/

noncomputable section
namespace Qir
namespace Gen

/-- A pair of real numbers as a complex number. -/
def toC (z : Cx ℝ) : ℂ := ⟨z.re, z.im⟩

/-- Back. -/
def ofC (z : ℂ) : Cx ℝ := ⟨z.re, z.im⟩

@[simp] theorem toC_ofC (z : ℂ) : toC (ofC z) = z := rfl
@[simp] theorem ofC_toC (z : Cx ℝ) : ofC (toC z) = z := rfl

/-- An entry of the state vector. -/
def toE (e : ℕ × Cx ℝ) : ℕ × ℂ := (e.1, toC e.2)
def ofE (e : ℕ × ℂ) : ℕ × Cx ℝ := (e.1, ofC e.2)

@[simp] theorem toE_fst (e : ℕ × Cx ℝ) : (toE e).1 = e.1 := rfl
@[simp] theorem toE_snd (e : ℕ × Cx ℝ) : (toE e).2 = toC e.2 := rfl

theorem map_ofE_toE (l : List (ℕ × ℂ)) : (l.map ofE).map toE = l := by
  rw [List.map_map]
  exact (List.map_congr_left fun _ _ => rfl).trans (List.map_id l)

theorem map_toE_ofE (l : List (ℕ × Cx ℝ)) : (l.map toE).map ofE = l := by
  rw [List.map_map]
  exact (List.map_congr_left fun _ _ => rfl).trans (List.map_id l)

/-- The arithmetic of the real numbers, with the tolerance and the order of iteration of `env`. -/
def realNum (env : Env) : Num ℝ where
  zero := 0
  one := 1
  two := 2
  eps := env.eps
  fracSqrt2 := Qir.fracSqrt2
  add := (· + ·)
  sub := (· - ·)
  mul := (· * ·)
  div := (· / ·)
  neg := (- ·)
  max := max
  min := min
  sqrt := Real.sqrt
  cos := Real.cos
  sin := Real.sin
  lt x y := decide (x < y)
  le x y := decide (x ≤ y)
  eq x y := decide (x = y)
  shuffle l := (env.shuffle (l.map toE)).map ofE
  shuffle_perm l := by
    have h := (env.shuffle_perm (l.map toE)).map ofE
    rwa [map_toE_ofE] at h

/-- A queued operation. -/
def toOp : GOp ℝ → OpCode
  | .X => .X
  | .Y => .Y
  | .Z => .Z
  | .S => .S
  | .Sadj => .Sadj
  | .T => .T
  | .Tadj => .Tadj
  | .Rz θ => .Rz θ

def toQ (q : List ℕ × ℕ × GOp ℝ) : List ℕ × ℕ × OpCode := (q.1, q.2.1, toOp q.2.2)

/-- The simulator, field by field. -/
def toSim (s : GSim ℝ) : Sim where
  state := s.state.map toE
  idMap := s.idMap
  rng := s.rng
  hFlag := s.hFlag
  rxQ := s.rxQ
  ryQ := s.ryQ
  opQ := s.opQ.map toQ

/-- A gate. -/
def ofGate : Spec.Gate → GGate ℝ
  | .x => .x
  | .y => .y
  | .z => .z
  | .h => .h
  | .s => .s
  | .sadj => .sadj
  | .t => .t
  | .tadj => .tadj
  | .rx θ => .rx θ
  | .ry θ => .ry θ
  | .rz θ => .rz θ

/-- A call of the simulator of `Model/Sim` as one of the simulator here. -/
def ofCall : Spec.Call → GCall ℝ
  | .gate g q => .gate (ofGate g) q
  | .ctrl g cs q => .ctrl (ofGate g) cs q
  | .phase cs φ q => .phase cs (ofC φ) q
  | .exp cs ps θ ts => .exp cs (ps.map Sim.pauliArg) θ ts
  | .swap a b => .swap a b
  | .allocate => .allocate
  | .release q => .release q
  | .measure q => .measure q
  | .jointMeasure qs => .jointMeasure qs
  | .jointProb qs => .jointProb qs
  | .isZero q => .isZero q
  | .collapse v q => .collapse v q
  | .getState => .getState
  | .dump fmt => .dump fun z => fmt (toC z)

/-- An answer. -/
def toOut : GOut ℝ → Spec.Out
  | .none => .none
  | .id q => .id q
  | .bit b => .bit b
  | .real x => .real x
  | .state l n => .state (l.map toE) n
  | .text t => .text t

/-- All answers and the final simulator. -/
def toRun (r : List (GOut ℝ) × GSim ℝ) : List Spec.Out × Sim := (r.1.map toOut, toSim r.2)

end Gen
end Qir
