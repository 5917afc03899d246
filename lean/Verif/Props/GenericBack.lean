import Verif.Props.Generic
import Verif.Props.Runner
import Verif.Proof.GenericBack2
import Verif.Proof.GenericBackExact

/-!
# C74: programs run without a panic and write well-formed output, whatever the numbers do

Everything here is for an arbitrary arithmetic `N` and arbitrary library functions `lib`.
-/

namespace Qir
namespace Gen
open Spec (Pauli)
open Qir.Out
open Qir.Run (Prog Func speech session seen Ready block metadataLine utf8 runModule bindFunctions chooseEntryPoint)

variable {F : Type} {N : Num F} {lib : Lib F}

/-- **C74**, one call.  A call that makes sense for the ledger does what the ledger says: it answers, writes and leaves
what `Ledger.step` determines from the numbers the simulator computes, or ends the program with the message that
`Ledger.step` determines.  It does not panic. -/
theorem C74_call {δ : Ledger F} {s : GBackend F} (h : Kept δ s) (c : GQCall F) (hc : δ.Allows N lib c) :
    ∃ o : Open F, Ascending δ.live.card o.entries ∧
      match δ.step N lib o c with
      | .error m => qstep N lib c s = .error (.fail m)
      | .ok (a, out, δ') => ∃ s', qstep N lib c s = .ok (a, out, s') ∧ Kept δ' s' := qcall_goes h c hc

/-- The ledger is kept at the start of the process and of every shot. -/
theorem C74_start (N : Num F) (rng : ℕ → F) (os : ℕ → ℕ) (s : GBackend F) :
    Kept (.init rng os) (GBackend.new N rng os) ∧ Kept (.init s.sim.rng s.os) (reinit N s) :=
  ⟨kept_init N rng os, kept_reinit N s⟩

theorem fail_output (m : List Char) : GStop.output (.fail m) = lines [.record (.message m)] := by
  show Back.bytesOf (message m) = _
  exact lines_record (.message m)

theorem Writes.stop {δ : Ledger F} {c : GQCall F} (k : GAns F → Prog (GQCall F) (GAns F)) {o : Open F}
    (h1 : Ascending δ.live.card o.entries) {m : List Char} (hr : δ.step N lib o c = .error m) :
    Writes N lib (.call c k) δ (lines [.record (.message m)]) none := by
  unfold Writes
  refine ⟨o, h1, ?_⟩
  rw [hr]
  exact ⟨rfl, rfl⟩

theorem Writes.go {δ : Ledger F} {c : GQCall F} (k : GAns F → Prog (GQCall F) (GAns F)) {o : Open F}
    (h1 : Ascending δ.live.card o.entries) {a : GAns F} {out : Bytes} {δ' : Ledger F}
    (hr : δ.step N lib o c = .ok (a, out, δ')) {later : Bytes} {e : Option (Ledger F)} (h2 : Writes N lib (k a) δ' later e) :
    Writes N lib (.call c k) δ (out ++ later) e := by
  unfold Writes
  refine ⟨o, h1, ?_⟩
  rw [hr]
  exact ⟨later, rfl, h2⟩

/-- A program: it never panics; what it has said, and the state it leaves, are as the ledger says. -/
theorem C74_program (p : Prog (GQCall F) (GAns F)) : ∀ {δ : Ledger F} {s : GBackend F}, Kept δ s → Proper N lib p δ →
    match speech (step N lib) p s with
    | .error out => Writes N lib p δ out none
    | .ok (out, s') => ∃ δ', Writes N lib p δ out (some δ') ∧ Kept δ' s' := by
  induction p with
  | done => intro δ s h _; exact ⟨δ, ⟨rfl, rfl⟩, h⟩
  | call c k ih =>
    intro δ s h hp
    obtain ⟨o, h1, h2⟩ := C74_call h c hp.1
    simp only [speech, step]
    cases hr : δ.step N lib o c with
    | error m =>
      simp only [hr] at h2
      simp only [h2]
      rw [fail_output]
      exact .stop k h1 hr
    | ok r =>
      obtain ⟨a, out, δ'⟩ := r
      simp only [hr] at h2
      obtain ⟨s', h3, h4⟩ := h2
      simp only [h3]
      have h5 := ih a h4 (hp.2 o a out δ' hr)
      cases hs : speech (step N lib) (k a) s' with
      | error o' =>
        simp only [hs] at h5
        exact .go k h1 hr h5
      | ok r' =>
        obtain ⟨o', s''⟩ := r'
        simp only [hs] at h5
        obtain ⟨δ'', h6, h7⟩ := h5
        exact ⟨δ'', .go k h1 hr h6, h7⟩

/-- Several shots. -/
theorem C74_shots (p : Prog (GQCall F) (GAns F)) (hp : ∀ rng os, Proper N lib p (.init rng os)) (n : ℕ) : ∀ s : GBackend F,
    match session (step N lib) (reinit N) p n s with
    | .error (outs, out) => WritesShots N lib p n s.sim.rng s.os outs (some out)
    | .ok (outs, _) => WritesShots N lib p n s.sim.rng s.os outs none := by
  induction n with
  | zero => intro s; exact ⟨rfl, rfl⟩
  | succ n ih =>
    intro s
    have h1 := C74_program p (kept_reinit N s) (hp s.sim.rng s.os)
    simp only [session]
    cases hs : speech (step N lib) p (reinit N s) with
    | error out =>
      simp only [hs] at h1
      exact .inl ⟨out, h1, rfl, rfl⟩
    | ok r =>
      obtain ⟨out, s1⟩ := r
      simp only [hs] at h1
      obtain ⟨δ, h2, h3⟩ := h1
      have h4 := ih s1
      rw [h3.rng, h3.os] at h4
      dsimp only
      cases hj : session (step N lib) (reinit N) p n s1 with
      | error r => simp only [hj] at h4; exact .inr ⟨out, δ, _, h2, h4, rfl⟩
      | ok r => simp only [hj] at h4; exact .inr ⟨out, δ, _, h2, h4, rfl⟩

/-- **C74**.  Run any module whose entry point only makes calls that make sense, for any number of shots, from any state of
the backend and with any arithmetic.  No call panics.  Either the run returns, and the caller sees the blocks of `n` shots,
each with the lines that the ledger allows; or it stops in a shot that fails, the earlier ones being complete, with the
message as the last line. -/
theorem C74_module (toStdOut : Bool) (fs : List Func) (code : Func → Prog (GQCall F) (GAns F)) (name : Option String)
    (f : Func) (n : ℕ) (s : GBackend F) (io : Io) (hb : ∃ m, bindFunctions fs = .ok m)
    (hf : chooseEntryPoint fs name = .ok f) (hp : f.params = 0) (hr : Ready toStdOut io)
    (hs : ∀ rng os, Proper N lib (code f) (.init rng os)) :
    ∃ outs e, WritesShots N lib (code f) n s.sim.rng s.os outs e ∧
      match e with
      | none => outs.length = n ∧ ∃ s' io', runModule (step N lib) (reinit N) toStdOut fs code name n s io = .ok (s', io') ∧
          seen toStdOut io' = seen toStdOut io ++ outs.flatMap (block f.attrs) ∧
          seen (!toStdOut) io' = seen (!toStdOut) io
      | some out => outs.length < n ∧ ∃ io',
          runModule (step N lib) (reinit N) toStdOut fs code name n s io = .error (.aborted, io') ∧
          seen toStdOut io' = seen toStdOut io ++ outs.flatMap (block f.attrs) ++
            utf8 "START\n" ++ f.attrs.flatMap metadataLine ++ (if io.recorder.useStdOut then out else []) ∧
          seen (!toStdOut) io' = seen (!toStdOut) io := by
  have h1 := C74_shots (code f) hs n s
  have h2 := Run.runShots_session (step N lib) (reinit N) toStdOut f hp (code f) n s io hr
  rw [Run.runModule_eq hb hf]
  cases hi : session (step N lib) (reinit N) (code f) n s with
  | error r =>
    obtain ⟨outs, out⟩ := r
    simp only [hi] at h1 h2
    obtain ⟨io', e1, e2, _, e3⟩ := h2
    exact ⟨outs, some out, h1, Run.session_length_error _ _ _ _ _ hi, io', e1, e2, e3⟩
  | ok r =>
    obtain ⟨outs, s'⟩ := r
    simp only [hi] at h1 h2
    obtain ⟨io', e1, _, _, e2, e3⟩ := h2
    exact ⟨outs, none, h1, Run.session_length _ _ _ _ _ hi, s', io', e1, e2, e3⟩

/-- With the arithmetic of the real numbers, this backend is that of `Model/Backend`, which the other properties are about:
every run of every module, sensible or not, prints the same, ends in the same state and stops in the same way. -/
theorem C74_exact (env : Env) (fmt : Back.Fmt) (toStdOut : Bool) (fs : List Func)
    (code : Func → Prog Spec.QCall Spec.QAns) (name : Option String) (n : ℕ) (s : GBackend ℝ) (io : Io) :
    runModule (Back.step env fmt) Back.reinit toStdOut fs code name n (toB s) io =
      (runModule (step (realNum env) (realLib fmt)) (reinit (realNum env)) toStdOut fs (fun f => ofProg (code f)) name n s
        io).map toEnd := runModule_real env fmt toStdOut fs code name n s io

/-! ### Assertions and not-a-numbers -/

/-- A value that is lost in a subtraction and in `abs`, and above which nothing lies. -/
structure Undefined (N : Num F) (lib : Lib F) (nan : F) : Prop where
  sub : ∀ x, N.sub x nan = nan
  abs : lib.abs nan = nan
  lt : ∀ x, N.lt x nan = false
  lt' : ∀ x, N.lt nan x = false

/-- An assertion about the probability of a measurement cannot fail if the expected probability or the tolerance is
not-a-number, whatever the state: a wrong program passes. -/
theorem C74_assert_nan {nan : F} (hn : Undefined N lib nan) {δ : Ledger F} {s : GBackend F} (h : Kept δ s) (ps : List Pauli)
    (qs : List ℕ) (result : ℕ) (prob : F) (msg : List Char) (tol : F) (he : prob = nan ∨ tol = nan)
    (hc : δ.Allows N lib (.assertProb ps qs result prob msg tol)) (hl : ps.length = qs.length) :
    ∃ s', qstep N lib (.assertProb ps qs result prob msg tol) s = .ok (.unit, [], s') ∧
      Kept (δ.useAll ((support ps qs).map Prod.snd)) s' := by
  obtain ⟨o, -, h2⟩ := C74_call h _ hc
  have hlt : N.lt tol (lib.abs (N.sub (if result = 0 then N.sub N.one o.number else o.number) prob)) = false := by
    rcases he with rfl | rfl
    · rw [hn.sub, hn.abs, hn.lt]
    · rw [hn.lt']
  simp only [Ledger.step, if_pos hl, hlt, Bool.false_eq_true, if_false] at h2
  exact h2

/-! ### The hypotheses can be met -/

/-- Entangle two qubits with a rotation by any number in between, measure and record both. -/
def twoBits (θ : F) : Prog (GQCall F) (GAns F) :=
  .call (.gate .h 0) fun _ => .call (.gate (.rx θ) 0) fun _ => .call (.ctl .x [0] 1) fun _ =>
  .call (.mz 0 0) fun _ => .call (.mz 1 1) fun _ =>
  .call (.recordResult 0 none) fun _ => .call (.recordResult 1 none) fun _ => .done

theorem twoBits_proper (θ : F) (rng : ℕ → F) (os : ℕ → ℕ) : Proper N lib (twoBits θ) (.init rng os) := by
  refine ⟨.inr ⟨rfl, le_refl _⟩, fun _ _ _ _ h => ?_⟩
  cases h
  refine ⟨.inl (by simp [Ledger.use, Ledger.init]), fun _ _ _ _ h => ?_⟩
  cases h
  refine ⟨⟨by simp, fun i hi => ?_⟩, fun _ _ _ _ h => ?_⟩
  · rcases List.mem_cons.1 hi with rfl | hi
    · exact .inl (by simp [Ledger.use, Ledger.init])
    · rw [List.mem_singleton.1 hi]
      exact .inr ⟨rfl, by simp [Ledger.use, Ledger.init]⟩
  cases h
  refine ⟨.inl (by simp [Ledger.useAll, Ledger.use, Ledger.init]), fun _ _ _ _ h => ?_⟩
  cases h
  refine ⟨.inl (by simp [Ledger.useAll, Ledger.use, Ledger.init, Ledger.draw, Ledger.store, Ledger.touch]), fun _ _ _ _ h => ?_⟩
  cases h
  exact ⟨trivial, fun _ _ _ _ _ => ⟨trivial, fun _ _ _ _ _ => trivial⟩⟩

theorem two_lines (x y : Event) : lines [x] ++ (lines [y] ++ []) = lines [x, y] := by simp [lines]

/-- Whatever the rotation and the arithmetic, the program does not fail and records two bits. -/
theorem twoBits_writes (θ : F) (rng : ℕ → F) (os : ℕ → ℕ) (out : Bytes) (e : Option (Ledger F))
    (h : Writes N lib (twoBits θ) (.init rng os) out e) :
    ∃ a b δ, out = lines [.record (.result a none), .record (.result b none)] ∧ e = some δ := by
  obtain ⟨_, _, _, rfl, _, _, _, rfl, _, _, _, rfl, o, _, _, rfl, o', _, _, rfl, _, _, _, rfl, _, _, _, rfl, rfl, rfl⟩ := h
  exact ⟨_, _, _, two_lines _ _, rfl⟩

/-- So two shots write two blocks. -/
example (fs : List Func) (θ : F) (f : Func) (s : GBackend F) (io : Io) (hb : ∃ m, bindFunctions fs = .ok m)
    (hf : chooseEntryPoint fs none = .ok f) (hp : f.params = 0) (hr : Ready true io) :
    ∃ outs : List Bytes, outs.length = 2 ∧ (∀ out ∈ outs, ∃ a b, out = lines [.record (.result a none), .record (.result b none)]) ∧
      ∃ s' io', runModule (step N lib) (reinit N) true fs (fun _ => twoBits θ) none 2 s io = .ok (s', io') ∧
        io'.stdout = io.stdout ++ outs.flatMap (block f.attrs) := by
  obtain ⟨outs, e, h1, h2⟩ := C74_module (N := N) (lib := lib) true fs (fun _ => twoBits θ) none f 2 s io hb hf hp hr
    fun rng os => twoBits_proper θ rng os
  rcases h1 with ⟨out, h1, -, -⟩ | ⟨o1, δ1, outs1, h1, h3 | ⟨o2, δ2, outs2, h3, ⟨rfl, rfl⟩, rfl⟩, rfl⟩
  · obtain ⟨_, _, _, _, hne⟩ := twoBits_writes θ _ _ _ _ h1
    cases hne
  · obtain ⟨out, h3, -, -⟩ := h3
    obtain ⟨_, _, _, _, hne⟩ := twoBits_writes θ _ _ _ _ h3
    cases hne
  · obtain ⟨-, s', io', h4, h5, -⟩ := h2
    refine ⟨_, rfl, ?_, s', io', h4, h5⟩
    intro out ho
    simp only [List.mem_cons, List.not_mem_nil, or_false] at ho
    rcases ho with rfl | rfl
    · obtain ⟨a, b, _, h, _⟩ := twoBits_writes θ _ _ _ _ h1
      exact ⟨a, b, h⟩
    · obtain ⟨a, b, _, h, _⟩ := twoBits_writes θ _ _ _ _ h3
      exact ⟨a, b, h⟩

/-- The library functions for `ratNaN`. -/
def ratLib : Lib (Option ℚ) where
  bits l := l.map fun b => if b then 49 else 48
  amplitude _ := "?"
  abs x := x.map fun a => |a|
  uniform _ _ _ := none

theorem ratNaN_undefined : Undefined ratNaN ratLib none where
  sub x := by cases x <;> rfl
  abs := rfl
  lt x := by cases x <;> rfl
  lt' _ := rfl

/-- The assertion that a fresh qubit is one with probability not-a-number passes; so does the assertion that it is one for
sure, with tolerance not-a-number. -/
example (rng : ℕ → Option ℚ) (os : ℕ → ℕ) (prob tol : Option ℚ) (he : prob = none ∨ tol = none) :
    ∃ s', qstep ratNaN ratLib (.assertProb [.Z] [0] 1 prob "wrong".toList tol) (GBackend.new ratNaN rng os) =
      .ok (.unit, [], s') := by
  obtain ⟨s', h, -⟩ := C74_assert_nan ratNaN_undefined (kept_init ratNaN rng os) [.Z] [0] 1 prob "wrong".toList tol he
    ⟨by simp [support], fun i _ => .inr ⟨rfl, Nat.zero_le _⟩⟩ rfl
  exact ⟨s', h⟩

end Gen
end Qir
