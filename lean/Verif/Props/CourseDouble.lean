import Verif.Props.Course
import Verif.Props.Outcome

/-!
# C81 in double precision: a program that records 1 and then 0 for one qubit

The run of `C80_double` as a program, from the library calls to the bytes that are written.
-/

namespace Qir
namespace Gen
open Qir.Out
open Qir.Run (Prog Func speech session seen Ready block metadataLine utf8 runModule bindFunctions chooseEntryPoint)

/-- Entangle two qubits, apply a Hadamard gate to the second, measure it twice, record both results and dump the state. -/
def twiceBits {F : Type} : Prog (GQCall F) (GAns F) :=
  .call .allocate fun _ => .call .allocate fun _ => .call (.gate .h 0) fun _ => .call (.ctl .x [0] 1) fun _ =>
  .call (.gate .h 1) fun _ => .call (.mz 1 0) fun _ => .call (.mz 1 1) fun _ =>
  .call (.recordResult 0 none) fun _ => .call (.recordResult 1 none) fun _ => .call (.dump false) fun _ => .done

theorem ensure_small {F : Type} (q : ℕ) (s : GBackend F) (h : q < s.max) : ensure q s = s := by
  unfold ensure
  rw [if_neg (by omega)]

theorem step_gate {F : Type} {N : Num F} {lib : Lib F} {g : GGate F} {q : ℕ} {s : GBackend F} {m : GSim F} {o : GOut F}
    (hq : q < s.max) (h : call N (.gate g q) s.sim = .ok (o, m)) :
    step N lib (.gate g q) s = .ok (.unit, [], { s with sim := m }) := by
  obtain ⟨t, h1, h2⟩ := bind_ok h
  obtain ⟨-, rfl⟩ := Prod.mk.inj (Except.ok.inj h2)
  simp only [step, qstep, silent, B.gate, ensure_small q s hq, act, h1, lift, ok_bind, pure_ok]

theorem step_ctl {F : Type} {N : Num F} {lib : Lib F} {g : GGate F} {c q : ℕ} {s : GBackend F} {m : GSim F} {o : GOut F}
    (hq : q < s.max) (hc : c < s.max) (h : call N (.ctrl g [c] q) s.sim = .ok (o, m)) :
    step N lib (.ctl g [c] q) s = .ok (.unit, [], { s with sim := m }) := by
  obtain ⟨t, h1, h2⟩ := bind_ok h
  obtain ⟨-, rfl⟩ := Prod.mk.inj (Except.ok.inj h2)
  simp only [step, qstep, silent, B.ctl, ensure_small q s hq, ensureAll, List.foldl, ensure_small c s hc, act, h1, lift,
    ok_bind, pure_ok]

theorem step_mz {F : Type} {N : Num F} {lib : Lib F} {q r : ℕ} {s : GBackend F} {m : GSim F} {b : Bool}
    (hq : q < s.max) (h : call N (.measure q) s.sim = .ok (.bit b, m)) :
    step N lib (.mz q r) s = .ok (.unit, [], { s with sim := m, res := (Back.grow r s.res).set r b }) := by
  obtain ⟨⟨b', t⟩, h1, h2⟩ := bind_ok h
  obtain ⟨h3, rfl⟩ := Prod.mk.inj (Except.ok.inj h2)
  injection h3 with h3
  subst h3
  simp only [step, qstep, silent, B.mz, ensure_small q s hq, ask, h1, lift, ok_bind, pure_ok]

theorem dump_of_get {F : Type} {N : Num F} (fmt : Cx F → String) {s m : GSim F} {l : List (ℕ × Cx F)} {n : ℕ}
    (h : call N .getState s = .ok (.state l n, m)) : dump N fmt s = .ok (shown fmt l, { m with state := l }) := by
  obtain ⟨⟨⟨l', n'⟩, t⟩, h1, h2⟩ := bind_ok h
  obtain ⟨h3, rfl⟩ := Prod.mk.inj (Except.ok.inj h2)
  injection h3 with h3 _
  subst h3
  unfold getState at h1
  obtain ⟨a, h4, h1⟩ := bind_ok h1
  obtain ⟨b, h5, h1⟩ := bind_ok h1
  obtain ⟨h6, rfl⟩ := Prod.mk.inj (Except.ok.inj h1)
  obtain ⟨h6, -⟩ := Prod.mk.inj h6
  simp only [dump, h4, h5, ok_bind, pure_ok, h6, shown_eq]

/-- The two results that are recorded for one qubit differ, and the state that is dumped is empty.  By C81_again a zero is
always confirmed. -/
theorem C81_double (lib : Lib ℝ) (rng : ℕ → ℝ) (os : ℕ → ℕ) (h0 : rng 0 < 1 / 2) (h1 : 1 - 1 / 2 ^ 52 ≤ rng 1) :
    ∃ s, speech (step doubleNum lib) twiceBits (GBackend.new doubleNum rng os) =
      .ok (lines [.record (.result true none), .record (.result false none)] ++
        (utf8 "Global Results: " ++ lib.bits [true, false] ++ [10] ++ utf8 "STATE: [ ]\n"), s) := by
  obtain ⟨s, h⟩ := C80_double rng h0 h1
  obtain ⟨⟨o1, s1⟩, a1, h⟩ := bind_ok h
  obtain ⟨⟨p1, _⟩, h, e⟩ := bind_ok h
  obtain ⟨⟨o2, s2⟩, a2, h⟩ := bind_ok h
  obtain ⟨⟨p2, _⟩, h, e2⟩ := bind_ok h
  obtain ⟨⟨o3, s3⟩, a3, h⟩ := bind_ok h
  obtain ⟨⟨p3, _⟩, h, e3⟩ := bind_ok h
  obtain ⟨⟨o4, s4⟩, a4, h⟩ := bind_ok h
  obtain ⟨⟨p4, _⟩, h, e4⟩ := bind_ok h
  obtain ⟨⟨o5, s5⟩, a5, h⟩ := bind_ok h
  obtain ⟨⟨p5, _⟩, h, e5⟩ := bind_ok h
  obtain ⟨⟨o6, s6⟩, a6, h⟩ := bind_ok h
  obtain ⟨⟨p6, _⟩, h, e6⟩ := bind_ok h
  obtain ⟨⟨o7, s7⟩, a7, h⟩ := bind_ok h
  obtain ⟨⟨p7, _⟩, h, e7⟩ := bind_ok h
  obtain ⟨⟨o8, s8⟩, a8, h⟩ := bind_ok h
  obtain ⟨⟨p8, _⟩, h, e8⟩ := bind_ok h
  have e := (Prod.mk.inj (Except.ok.inj e)).1
  have e2 := (Prod.mk.inj (Except.ok.inj e2)).1
  have e3 := (Prod.mk.inj (Except.ok.inj e3)).1
  have e4 := (Prod.mk.inj (Except.ok.inj e4)).1
  have e5 := (Prod.mk.inj (Except.ok.inj e5)).1
  have e6 := (Prod.mk.inj (Except.ok.inj e6)).1
  have e7 := (Prod.mk.inj (Except.ok.inj e7)).1
  have e8 := (Prod.mk.inj (Except.ok.inj e8)).1
  rw [← e2, ← e3, ← e4, ← e5, ← e6, ← e7, ← e8] at e
  simp only [List.cons.injEq] at e
  obtain ⟨rfl, rfl, rfl, rfl, rfl, rfl, rfl, rfl, -⟩ := e
  have b1 := (Prod.mk.inj (Except.ok.inj a1)).2
  have b2 := (Prod.mk.inj (Except.ok.inj a2)).2
  have t1 : step doubleNum lib .allocate (GBackend.new doubleNum rng os) = .ok (.ptr 0, [], ⟨s1, [], 1, os⟩) := by
    subst b1; rfl
  have t2 : step doubleNum lib .allocate (⟨s1, [], 1, os⟩ : GBackend ℝ) = .ok (.ptr 1, [], ⟨s2, [], 2, os⟩) := by
    subst b2; subst b1; rfl
  have t3 : step doubleNum lib (.gate .h 0) (⟨s2, [], 2, os⟩ : GBackend ℝ) = .ok (.unit, [], ⟨s3, [], 2, os⟩) :=
    step_gate (by simp) a3
  have t4 : step doubleNum lib (.ctl .x [0] 1) (⟨s3, [], 2, os⟩ : GBackend ℝ) = .ok (.unit, [], ⟨s4, [], 2, os⟩) :=
    step_ctl (by simp) (by simp) a4
  have t5 : step doubleNum lib (.gate .h 1) (⟨s4, [], 2, os⟩ : GBackend ℝ) = .ok (.unit, [], ⟨s5, [], 2, os⟩) :=
    step_gate (by simp) a5
  have t6 : step doubleNum lib (.mz 1 0) (⟨s5, [], 2, os⟩ : GBackend ℝ) = .ok (.unit, [], ⟨s6, [true], 2, os⟩) :=
    step_mz (by simp) a6
  have t7 : step doubleNum lib (.mz 1 1) (⟨s6, [true], 2, os⟩ : GBackend ℝ) =
    .ok (.unit, [], ⟨s7, [true, false], 2, os⟩) := step_mz (by simp) a7
  have t10 : step doubleNum lib (.dump false) (⟨s7, [true, false], 2, os⟩ : GBackend ℝ) =
      .ok (.unit, utf8 "Global Results: " ++ lib.bits [true, false] ++ [10] ++ utf8 "STATE: [ ]\n",
        ⟨{ s8 with state := [] }, [true, false], 2, os⟩) := by
    simp only [step, qstep, B.dumpMachine, ask, dump_of_get lib.amplitude a8, lift, ok_bind, pure_ok]
    rfl
  refine ⟨⟨{ s8 with state := [] }, [true, false], 2, os⟩, ?_⟩
  have t8 : step doubleNum lib (.recordResult 0 none) (⟨s7, [true, false], 2, os⟩ : GBackend ℝ) =
    .ok (.unit, lines [.record (.result true none)], ⟨s7, [true, false], 2, os⟩) := rfl
  have t9 : step doubleNum lib (.recordResult 1 none) (⟨s7, [true, false], 2, os⟩ : GBackend ℝ) =
    .ok (.unit, lines [.record (.result false none)], ⟨s7, [true, false], 2, os⟩) := rfl
  simp only [twiceBits, speech, t1, t2, t3, t4, t5, t6, t7, t8, t9, t10, List.nil_append]
  rw [two_lines_then]

/-- The hypotheses can be met: `unlucky` consists of doubles in [0, 1). -/
example (lib : Lib ℝ) (os : ℕ → ℕ) : ∃ s, speech (step doubleNum lib) twiceBits (GBackend.new doubleNum unlucky os) =
    .ok (lines [.record (.result true none), .record (.result false none)] ++
      (utf8 "Global Results: " ++ lib.bits [true, false] ++ [10] ++ utf8 "STATE: [ ]\n"), s) :=
  C81_double lib unlucky os (by norm_num [unlucky]) (by norm_num [unlucky])

end Gen
end Qir
