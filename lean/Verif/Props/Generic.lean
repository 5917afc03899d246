import Verif.Props.GenericDefs
import Verif.Proof.Generic4
import Verif.Proof.GenericExact

/-!
# C73: the book keeping of the simulator holds whatever its numbers do

Everything here is for an arbitrary arithmetic `N`: infinities, not-a-numbers, any rounding.
-/

namespace Qir
namespace Gen

variable {F : Type}

/-- Every history of calls with operands in use ends without a panic, with the answers, the qubits and the number of
drawn samples that the book keeping determines, and with a sound simulator. -/
theorem C73_run (N : Num F) (rng : ℕ → F) (cs : List (GCall F)) (hv : Valid ∅ cs) :
    ∃ os s, runCalls N cs (new N rng) = .ok (os, s) ∧ Answers N ∅ rng cs os ∧ Sound (liveAfter ∅ cs) s ∧
      s.rng = fun n => rng (n + drawnBy ∅ cs) := run_new N rng cs hv

/-- Releasing the last qubit restores the initial state, whatever has happened to the amplitudes. -/
theorem C73_last (N : Num F) (rng : ℕ → F) (cs : List (GCall F)) (q : ℕ) (hv : Valid ∅ cs)
    (hl : liveAfter ∅ cs = {q}) :
    ∃ os s, runCalls N (cs ++ [.release q]) (new N rng) = .ok (os, s) ∧ AsNew N s := release_all N rng cs q hv hl

/-- A not-a-number counts as nearly zero. -/
theorem C73_nearly_zero (N : Num F) (nan : F) (h : IsNaN N nan) :
    N.nearlyZero nan = true ∧ N.nearlyZeroC ⟨nan, nan⟩ = true :=
  ⟨h.nearlyZero, by simp [Num.nearlyZeroC, h.nearlyZero]⟩

/-- So amplitudes that have become not-a-number are dropped as if they were zero: a rotation by a not-a-number on a
qubit in superposition, and the next Hadamard gate leaves an empty state vector, without any message. -/
theorem C73_nan (N : Num F) (nan : F) (h : IsNaN N nan) (rng : ℕ → F) :
    ∃ s, runCalls N [.allocate, .gate .h 0, .gate (.rz nan) 0, .gate .h 0, .getState] (new N rng) =
      .ok ([.id 0, .none, .none, .none, .state [] 1], s) ∧ s.state = [] := nan_run h rng

/-- With the arithmetic of the real numbers, this simulator is that of `Model/Sim`, which the other properties are
about: every history of calls, valid or not, has the same answers, the same final state and the same panics. -/
theorem C73_exact (env : Env) (cs : List Spec.Call) (rng : ℕ → ℝ) :
    Sim.runCalls env cs (Sim.new rng) = (runCalls (realNum env) (cs.map ofCall) (new (realNum env) rng)).map toRun :=
  runCalls_real env cs rng

/-! ### The hypotheses can be met -/

theorem leastFree_range (n : ℕ) : leastFree (Finset.range n) = n :=
  leastFree_unique (by simp) (fun j hj => by simpa using hj)

/-- A history with two qubits, a measurement, a rotation by any number, and the release of both. -/
def sample (θ : F) : List (GCall F) :=
  [.allocate, .allocate, .gate .h 0, .ctrl .x [0] 1, .gate (.rx θ) 1, .exp [0] [.Y] θ [1], .measure 0, .getState,
    .release 0, .jointMeasure [1]]

theorem sample_live : liveNext (F := F) (liveNext (F := F) ∅ .allocate) .allocate = {0, 1} := by
  have h0 : leastFree ∅ = 0 := leastFree_range 0
  have h1 : leastFree {0} = 1 := leastFree_range 1
  simp only [liveNext, h0]
  rw [show insert 0 (∅ : Finset ℕ) = {0} from rfl, h1]
  exact Finset.pair_comm 1 0

theorem sample_valid (θ : F) : Valid ∅ (sample θ) := by
  have h := sample_live (F := F)
  refine ⟨trivial, trivial, ?_⟩
  rw [h]
  simp [Valid, Allowed, liveNext]

theorem sample_after (θ : F) : liveAfter ∅ (sample θ) = {1} := by
  show List.foldl liveNext (liveNext (F := F) (liveNext (F := F) ∅ .allocate) .allocate) _ = _
  rw [sample_live]
  simp only [List.foldl, liveNext]
  rfl

example (N : Num F) (rng : ℕ → F) (θ : F) :
    ∃ os s, runCalls N (sample θ) (new N rng) = .ok (os, s) ∧ Sound {1} s := by
  obtain ⟨os, s, h1, _, h2, _⟩ := C73_run N rng _ (sample_valid θ)
  rw [sample_after] at h2
  exact ⟨os, s, h1, h2⟩

example (N : Num F) (rng : ℕ → F) (θ : F) :
    ∃ os s, runCalls N (sample θ ++ [.release 1]) (new N rng) = .ok (os, s) ∧ AsNew N s :=
  C73_last N rng _ 1 (sample_valid θ) (sample_after θ)

/-- The rational numbers with one more value for everything undefined; roots, sines and cosines are undefined here. -/
def ratNaN : Num (Option ℚ) where
  zero := some 0
  one := some 1
  two := some 2
  eps := some (1 / 10 ^ 10)
  fracSqrt2 := some (707 / 1000)
  add x y := do return (← x) + (← y)
  sub x y := do return (← x) - (← y)
  mul x y := do return (← x) * (← y)
  div x y := do
    let a ← x
    let b ← y
    if b = 0 then none else some (a / b)
  neg x := x.map (- ·)
  max x y := match x, y with
    | some a, some b => some (Max.max a b)
    | none, y => y
    | x, none => x
  min x y := match x, y with
    | some a, some b => some (Min.min a b)
    | none, y => y
    | x, none => x
  sqrt _ := none
  cos _ := none
  sin _ := none
  lt x y := match x, y with
    | some a, some b => decide (a < b)
    | _, _ => false
  le x y := match x, y with
    | some a, some b => decide (a ≤ b)
    | _, _ => false
  eq x y := match x, y with
    | some a, some b => decide (a = b)
    | _, _ => false
  shuffle l := l
  shuffle_perm l := List.Perm.refl l

theorem ratNaN_isNaN : IsNaN ratNaN none where
  max := rfl
  min := rfl
  tiny := by
    show decide ((0 : ℚ) - 0 ≤ 1 / 10 ^ 10) = true
    simp
  add _ := rfl
  sub _ := rfl
  mul _ := rfl
  mul' x := by cases x <;> rfl
  div _ := rfl
  cos := rfl
  sin := rfl

example (rng : ℕ → Option ℚ) :
    ∃ s, runCalls ratNaN [.allocate, .gate .h 0, .gate (.rz none) 0, .gate .h 0, .getState] (new ratNaN rng) =
      .ok ([.id 0, .none, .none, .none, .state [] 1], s) ∧ s.state = [] := C73_nan ratNaN none ratNaN_isNaN rng

end Gen
end Qir
