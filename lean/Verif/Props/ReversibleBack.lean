import Verif.Props.ReversibleBackDefs
import Verif.Proof.ReversibleBack
import Verif.Props.GenericBack
import Verif.Props.Reversible
import Verif.Props.Amplitude

/-!
# C77: classical programs print what the machine on bits prints, in every shot and for every seed

For every arithmetic that gets 0, 1 and -1 right.  The programs may dump the state.
-/

noncomputable section
namespace Qir
namespace Gen
open Spec (Pauli)
open Qir.Out
open Qir.Run (Prog Func speech session seen Ready block metadataLine utf8 runModule bindFunctions chooseEntryPoint)

variable {F : Type} {N : Num F} {lib : Lib F} {Z O : F → Prop}

/-- One call. -/
theorem C77_call (D : Digits N Z O) (K : Keeps N Z O) {m : Bits F} {s : GBackend F} (h : Agrees N Z O m s) (c : GQCall F) (hc : m.Allows c) :
    match m.step N lib c with
    | .error msg => qstep N lib c s = .error (.fail msg)
    | .ok (a, out, m') => ∃ s', qstep N lib c s = .ok (a, out, s') ∧ Agrees N Z O m' s' := qcall_heeds D K h c hc

/-- A program. -/
theorem C77_program (D : Digits N Z O) (K : Keeps N Z O) (p : Prog (GQCall F) (GAns F)) : ∀ {m : Bits F} {s : GBackend F}, Agrees N Z O m s →
    m.Fits N lib p →
    match m.run N lib p with
    | (out, none) => speech (step N lib) p s = .error out
    | (out, some m') => ∃ s', speech (step N lib) p s = .ok (out, s') ∧ Agrees N Z O m' s' := by
  induction p with
  | done => intro m s h _; exact ⟨s, rfl, h⟩
  | call c k ih =>
    intro m s h hp
    have h2 := C77_call (lib := lib) D K h c hp.1
    simp only [speech, step, Bits.run]
    cases hr : m.step N lib c with
    | error msg =>
      simp only [hr] at h2
      simp only [h2, fail_output]
    | ok r =>
      obtain ⟨a, out, m'⟩ := r
      simp only [hr] at h2
      obtain ⟨s', h3, h4⟩ := h2
      have h5 := ih a h4 (hp.2 a out m' hr)
      simp only [h3]
      cases hm : m'.run N lib (k a) with
      | mk out' e =>
        simp only [hm] at h5
        cases e with
        | none => simp only [h5]
        | some m'' =>
          obtain ⟨s'', h6, h7⟩ := h5
          exact ⟨s'', by simp only [h6], h7⟩

/-- Several shots: they all write the same; if one fails, it is the first. -/
theorem C77_shots (D : Digits N Z O) (K : Keeps N Z O) (p : Prog (GQCall F) (GAns F)) (hp : (Bits.init N).Fits N lib p) (n : ℕ) : ∀ s : GBackend F,
    UnitSamples N s.sim.rng →
    match (Bits.init N).run N lib p with
    | (out, none) => 0 < n → session (step N lib) (reinit N) p n s = .error ([], out)
    | (out, some _) => ∃ s', session (step N lib) (reinit N) p n s = .ok (List.replicate n out, s') := by
  induction n with
  | zero =>
    intro s _
    cases hr : (Bits.init N).run N lib p with
    | mk out e =>
      cases e with
      | none => exact fun h => absurd h (by omega)
      | some m => exact ⟨s, rfl⟩
  | succ n ih =>
    intro s hu
    have h1 := C77_program D K p (agrees_fresh D s hu) hp
    cases hr : (Bits.init N).run N lib p with
    | mk out e =>
      simp only [hr] at h1 ih
      cases e with
      | none =>
        intro _
        simp only [session, h1]
      | some m =>
        obtain ⟨s1, h2, h3⟩ := h1
        obtain ⟨s2, h4⟩ := ih s1 h3.samples
        exact ⟨s2, by simp only [session, h2, h4]; rfl⟩

/-- **C77**.  Run any module whose entry point is a classical program, for any number of shots, from any state of the backend
and with any samples.  The caller sees the same block `n` times, with the lines that the machine on bits writes.  If that
machine ends with a message, the run stops in the first shot, with the message as the last line. -/
theorem C77_module (D : Digits N Z O) (K : Keeps N Z O) (toStdOut : Bool) (fs : List Func) (code : Func → Prog (GQCall F) (GAns F))
    (name : Option String) (f : Func) (n : ℕ) (s : GBackend F) (io : Io) (hb : ∃ m, bindFunctions fs = .ok m)
    (hf : chooseEntryPoint fs name = .ok f) (hp : f.params = 0) (hr : Ready toStdOut io) (hu : UnitSamples N s.sim.rng)
    (hs : (Bits.init N).Fits N lib (code f)) :
    match (Bits.init N).run N lib (code f) with
    | (out, some _) => ∃ s' io', runModule (step N lib) (reinit N) toStdOut fs code name n s io = .ok (s', io') ∧
        seen toStdOut io' = seen toStdOut io ++ (List.replicate n (block f.attrs out)).flatten ∧
        seen (!toStdOut) io' = seen (!toStdOut) io
    | (out, none) => 0 < n → ∃ io', runModule (step N lib) (reinit N) toStdOut fs code name n s io = .error (.aborted, io') ∧
        seen toStdOut io' = seen toStdOut io ++
          (utf8 "START\n" ++ f.attrs.flatMap metadataLine ++ (if io.recorder.useStdOut then out else [])) ∧
        seen (!toStdOut) io' = seen (!toStdOut) io := by
  have h1 := C77_shots D K (code f) hs n s hu
  have h2 := Run.runShots_session (step N lib) (reinit N) toStdOut f hp (code f) n s io hr
  rw [Run.runModule_eq hb hf]
  cases hi : (Bits.init N).run N lib (code f) with
  | mk out e =>
    simp only [hi] at h1
    cases e with
    | none =>
      intro hn
      simp only [h1 hn] at h2
      obtain ⟨io', e1, e2, _, e3⟩ := h2
      exact ⟨io', e1, by simpa using e2, e3⟩
    | some m =>
      obtain ⟨s', h1⟩ := h1
      simp only [h1] at h2
      obtain ⟨io', e1, _, _, e2, e3⟩ := h2
      exact ⟨s', io', e1, by rw [e2, List.flatMap, List.map_replicate], e3⟩

/-! ### The hypotheses can be met -/

/-- Flip a qubit, measure it, and if the result is one copy it to another qubit with a CNOT, measure and reset that
one, and record both. -/
def copyBit : Prog (GQCall F) (GAns F) :=
  .call (.gate .x 0) fun _ => .call (.mz 0 0) fun _ => .call (.readResult 0) fun
    | .bit true => .call (.ctl .x [0] 1) fun _ => .call (.mresetz 1 1) fun _ =>
      .call (.recordResult 0 none) fun _ => .call (.recordResult 1 none) fun _ => .done
    | _ => .call (.fail "not reached".toList) fun _ => .done

theorem copyBit_fits : (Bits.init N).Fits N lib copyBit := by
  refine ⟨⟨trivial, .inr ⟨rfl, le_refl _⟩⟩, fun _ _ _ h => ?_⟩
  cases h
  refine ⟨.inl (by simp [Bits.use, Bits.init, Bits.put, Bits.turn, flipping]), fun _ _ _ h => ?_⟩
  cases h
  refine ⟨trivial, fun _ _ _ h => ?_⟩
  have he : (Except.ok (GAns.bit true, [], (((((Bits.init N).use 0).put 0 true).use 0).store 0 true).touch 0) :
      Except (List Char) (GAns F × Bytes × Bits F)) = _ := h
  cases he
  refine ⟨⟨trivial, by simp, fun i hi => ?_⟩, fun _ _ _ h => ?_⟩
  · rcases List.mem_cons.1 hi with rfl | hi
    · exact .inl (by simp [Bits.use, Bits.init, Bits.put, Bits.store, Bits.touch])
    · rw [List.mem_singleton.1 hi]
      exact .inr ⟨by simp [Bits.use, Bits.init, Bits.put, Bits.store, Bits.touch],
        by simp [Bits.use, Bits.init, Bits.put, Bits.store, Bits.touch]⟩
  cases h
  refine ⟨.inl (by simp [Bits.useAll, Bits.use, Bits.init, Bits.put, Bits.store, Bits.touch, Bits.turn, flipping]), fun _ _ _ h => ?_⟩
  cases h
  exact ⟨trivial, fun _ _ _ _ => ⟨trivial, fun _ _ _ _ => trivial⟩⟩

theorem copyBit_run : ∃ m, (Bits.init N).run N lib copyBit =
    (lines [.record (.result true none), .record (.result true none)], some m) := by
  have h : (Bits.init N).run N lib copyBit = (lines [.record (.result true none)] ++ (lines [.record (.result true none)] ++ []),
    some _) := rfl
  rw [two_lines] at h
  exact ⟨_, h⟩

/-- In double precision, whatever the seed, ten shots write ten times the same block. -/
example (fs : List Func) (f : Func) (s : GBackend ℝ) (io : Io) (lib : Lib ℝ) (hb : ∃ m, bindFunctions fs = .ok m)
    (hf : chooseEntryPoint fs none = .ok f) (hp : f.params = 0) (hr : Ready true io)
    (hu : ∀ n, 0 ≤ s.sim.rng n ∧ s.sim.rng n < 1) :
    ∃ s' io', runModule (step doubleNum lib) (reinit doubleNum) true fs (fun _ => copyBit) none 10 s io = .ok (s', io') ∧
      io'.stdout = io.stdout ++ (List.replicate 10 (block f.attrs
        (lines [.record (.result true none), .record (.result true none)]))).flatten := by
  have h := C77_module (lib := lib) double_digits double_keeps true fs (fun _ => copyBit) none f 10 s io hb hf hp hr (double_samples hu)
    copyBit_fits
  obtain ⟨m, hm⟩ := copyBit_run (N := doubleNum) (lib := lib)
  simp only [hm] at h
  obtain ⟨s', io', h1, h2, _⟩ := h
  exact ⟨s', io', h1, h2⟩

/-- Flip a qubit, apply S and dump the state. -/
def dumpBit : Prog (GQCall F) (GAns F) :=
  .call (.gate .x 0) fun _ => .call (.gate .s 0) fun _ => .call (.dump false) fun _ => .done

theorem dumpBit_fits : (Bits.init N).Fits N lib dumpBit := by
  refine ⟨⟨trivial, .inr ⟨rfl, le_refl _⟩⟩, fun _ _ _ h => ?_⟩
  cases h
  refine ⟨⟨trivial, .inl (by simp [Bits.use, Bits.init, Bits.put, Bits.turn, flipping])⟩, fun _ _ _ h => ?_⟩
  cases h
  exact ⟨rfl, fun _ _ _ _ => trivial⟩

/-- What it writes in double precision: the basis state 1 with the amplitude i. -/
theorem dumpBit_run (lib : Lib ℝ) : ∃ m, (Bits.init doubleNum).run doubleNum lib dumpBit =
    (utf8 (shown lib.amplitude [(1, ⟨0, 1⟩)]), some m) := by
  have h : (Bits.init doubleNum).run doubleNum lib dumpBit =
    (([] ++ utf8 (shown lib.amplitude [(indexOf (Finset.range 1) (Function.update (fun _ => false) 0 true),
      doubleNum.mulC doubleNum.oneC doubleNum.iC)])) ++ [], some _) := rfl
  have hi : indexOf (Finset.range 1) (Function.update (fun _ => false) 0 true) = 1 := by
    simp [indexOf, number]
  have hz : doubleNum.mulC doubleNum.oneC doubleNum.iC = ⟨0, 1⟩ := by
    simp [Num.mulC, Num.oneC, Num.iC, doubleNum, roundedNum, roundTo_zero, roundTo_one]
  rw [hi, hz, List.nil_append, List.append_nil] at h
  exact ⟨_, h⟩

example (fs : List Func) (f : Func) (s : GBackend ℝ) (io : Io) (lib : Lib ℝ) (hb : ∃ m, bindFunctions fs = .ok m)
    (hf : chooseEntryPoint fs none = .ok f) (hp : f.params = 0) (hr : Ready true io)
    (hu : ∀ n, 0 ≤ s.sim.rng n ∧ s.sim.rng n < 1) :
    ∃ s' io', runModule (step doubleNum lib) (reinit doubleNum) true fs (fun _ => dumpBit) none 10 s io = .ok (s', io') ∧
      io'.stdout = io.stdout ++
        (List.replicate 10 (block f.attrs (utf8 ("STATE: [ |1⟩: " ++ lib.amplitude ⟨0, 1⟩ ++ ", ]\n")))).flatten := by
  have h := C77_module (lib := lib) double_digits double_keeps true fs (fun _ => dumpBit) none f 10 s io hb hf hp hr
    (double_samples hu) dumpBit_fits
  obtain ⟨m, hm⟩ := dumpBit_run lib
  simp only [hm] at h
  obtain ⟨s', io', h1, h2, _⟩ := h
  refine ⟨s', io', h1, h2.trans ?_⟩
  have hs : shown lib.amplitude [(1, ⟨0, 1⟩)] = "STATE: [ |1⟩: " ++ lib.amplitude ⟨0, 1⟩ ++ ", ]\n" := by
    have h1 : "STATE: [ |1⟩: " = "STATE: [ " ++ "|" ++ toString 1 ++ "⟩: " := by decide
    rw [h1]
    simp only [shown, List.map, String.join, List.foldl, String.append_assoc]
    rfl
  rw [hs]
  rfl

end Gen
end Qir
