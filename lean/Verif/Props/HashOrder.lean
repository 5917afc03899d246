import Verif.Props.Operands
import Verif.Proof.TwinBack
import Verif.Props.Runner
import Verif.Props.SessionDefs

/-!
# Nothing depends on the order in which hash maps are visited (C07)

The histories and programs here are arbitrary: valid or not, with any operands, any samples and any tolerance.
-/

noncomputable section
namespace Qir
open Spec Sim

/-- A history in which every call meets its own iteration order: the `i`-th call runs in `orders i`. -/
def runOrders (orders : ℕ → Env) : List Call → Sim → Except Panic (List Out × Sim)
  | [], s => .ok ([], s)
  | c :: cs, s => do
    let (o, s) ← call (orders 0) c s
    let (os, s) ← runOrders (fun i => orders (i + 1)) cs s
    return (o :: os, s)

/-- What the caller learns: the answers, or the panic. -/
def answers (r : Except Panic (List Out × Sim)) : Except Panic (List Out) := r.map Prod.fst

theorem both_answers {x x' : Except Panic (List Out × Sim)} (h : Both TwinV x x') : answers x = answers x' := by
  cases x <;> cases x'
  · exact congrArg Except.error h
  · exact h.elim
  · exact h.elim
  · exact congrArg Except.ok h.1

theorem twin_orders (cs : List Call) : ∀ {o o' : ℕ → Env}, (∀ i, (o' i).eps = (o i).eps) → ∀ {s s' : Sim},
    Twin s s' → Both TwinV (runOrders o cs s) (runOrders o' cs s') := by
  induction cs with
  | nil => intro o o' _ s s' h; exact Both.ok ⟨rfl, h⟩
  | cons c cs ih =>
    intro o o' he s s' h
    unfold runOrders
    apply (twin_call (he 0) h c).bind
    rintro ⟨o, s⟩ ⟨_, s'⟩ ⟨rfl, h⟩
    apply (ih (fun i => he (i + 1)) h).bind
    rintro ⟨os, s⟩ ⟨_, s'⟩ ⟨rfl, h⟩
    exact Both.ok ⟨rfl, h⟩

/-- **C07**.  Whatever the history, two runs of it on new simulators with the same samples give the same answers
(identifiers, outcomes, probabilities, state listings, dumps) or the same panic, although every single call may visit
the hash maps in a different order. -/
theorem C07_history (orders orders' : ℕ → Env) (he : ∀ i, (orders' i).eps = (orders i).eps) (rng : ℕ → ℝ)
    (cs : List Call) :
    answers (runOrders orders cs (Sim.new rng)) = answers (runOrders orders' cs (Sim.new rng)) :=
  both_answers (twin_orders cs he (twin_new rng))

/-- **C07**, the simulators left behind: they hold the same amplitudes, and agree in everything else. -/
theorem C07_state (orders orders' : ℕ → Env) (he : ∀ i, (orders' i).eps = (orders i).eps) (rng : ℕ → ℝ)
    (cs : List Call) {os : List Out} {s : Sim} (h : runOrders orders cs (Sim.new rng) = .ok (os, s)) :
    ∃ s', runOrders orders' cs (Sim.new rng) = .ok (os, s') ∧ s'.state.Perm s.state ∧ s'.idMap = s.idMap ∧
      s'.rng = s.rng ∧ s'.hFlag = s.hFlag ∧ s'.rxQ = s.rxQ ∧ s'.ryQ = s.ryQ ∧ s'.opQ = s.opQ := by
  have ht := twin_orders cs he (twin_new rng)
  rw [h] at ht
  cases h' : runOrders orders' cs (Sim.new rng) with
  | error e => rw [h'] at ht; exact ht.elim
  | ok r =>
    rw [h'] at ht
    obtain ⟨os', s'⟩ := r
    obtain ⟨h1, h2⟩ := ht
    simp only at h1 h2
    subst h1
    have hf := h2.fields
    obtain ⟨_, st, rfl, hp⟩ := h2
    exact ⟨_, rfl, hp, hf⟩

/-- **C11**, with nothing assumed: any calls with any operands, any samples, any tolerance, any iteration order of each
call.  As long as nothing has panicked, distinct identifiers have distinct locations, every set bit of every stored
index belongs to an identifier, and the stored indices are pairwise distinct. -/
theorem C11_always (orders : ℕ → Env) (rng : ℕ → ℝ) (cs : List Call) {os : List Out} {s : Sim}
    (h : runOrders orders cs (Sim.new rng) = .ok (os, s)) :
    (∀ i j l, s.idMap.get i = some l → s.idMap.get j = some l → i = j) ∧
    (∀ e ∈ s.state, ∀ l, e.1.testBit l = true → ∃ i, s.idMap.get i = some l) ∧
    (s.state.map Prod.fst).Nodup := by
  have ht := twin_orders (o := orders) (o' := orders) cs (fun _ => rfl) (twin_new rng)
  rw [h] at ht
  have hc := ht.2.1
  exact ⟨hc.inj, hc.bits, hc.nodup⟩

/-- The tolerance zero and the order of insertion. -/
def inOrder : Env := ⟨0, id, fun _ => List.Perm.refl _⟩
/-- The tolerance zero and the opposite order. -/
def backwards : Env := ⟨0, List.reverse, fun l => List.reverse_perm l⟩

/-- Two qubits, where they are expected. -/
def twoMap : IMap ℕ := ⟨[some 0, some 1]⟩

theorem two_allocated (rng : ℕ → ℝ) :
    (Sim.new rng).allocate.2.allocate = (1, { Sim.new rng with idMap := twoMap }) := by
  have e : (IMap.empty.insert 0 0 : IMap ℕ) = ⟨[some 0]⟩ := rfl
  rw [allocate_new, e]
  simp [allocate, Sim.new, IMap.iter, IMap.iterFrom, IMap.values, firstFree, IMap.insert, IMap.resize, twoMap]

/-- The amplitudes after an H on location `t`. -/
def spreadH (env : Env) (t : ℕ) (m : List (ℕ × ℂ)) : List (ℕ × ℂ) := m.flatMap (mchEntry env.eps m [] t)

theorem h_direct (env : Env) {s : Sim} {q t : ℕ} (h1 : ∀ i, s.ryQ.get i = none) (h2 : ∀ i, s.rxQ.get i = none)
    (h3 : s.opQ = []) (h4 : s.idMap.get q = some t) :
    call env (.ctrl .h [] q) s =
      .ok (.none, { s with state := spreadH env t (env.shuffle (collectMap s.state)) }) := by
  have h5 : applyOps ([] : List (List ℕ × ℕ × OpCode)) = id := by
    funext e; simp [applyOps]
  obtain ⟨st, m, r, hf, rx, ry, op⟩ := s
  simp only at h1 h2 h3 h4
  subst h3
  simp [call, ctrlCall, quiet, mch, flushQueue, flushLoop, flushOps, flushIf, IMap.containsKey_eq, h1, h2, applyMch,
    resolveAndCheck, checkForDuplicates, resolveId, h4, resolveIds, takeOps, resolveOps, h5, spreadH]

theorem runOrders_cons {o : ℕ → Env} {c : Call} {cs : List Call} {s s1 s2 : Sim} {a : Out} {as : List Out}
    (h1 : call (o 0) c s = .ok (a, s1)) (h2 : runOrders (fun i => o (i + 1)) cs s1 = .ok (as, s2)) :
    runOrders o (c :: cs) s = .ok (a :: as, s2) := by
  rw [runOrders, h1]
  show (runOrders _ cs s1 >>= _) = _
  rw [h2]
  rfl

theorem two_h (env : Env) (rng : ℕ → ℝ) :
    runOrders (fun _ => env) [.allocate, .allocate, .ctrl .h [] 0, .ctrl .h [] 1] (Sim.new rng) =
      .ok ([.id 0, .id 1, .none, .none], { Sim.new rng with
        idMap := twoMap
        state := spreadH env 1 (env.shuffle (collectMap (spreadH env 0 (env.shuffle (collectMap [(0, 1)]))))) }) := by
  have e : ∀ i, (IMap.empty : IMap ℝ).get i = none := fun i => rfl
  refine runOrders_cons (s1 := (Sim.new rng).allocate.2) ?_ (runOrders_cons
    (s1 := { Sim.new rng with idMap := twoMap }) ?_ (runOrders_cons (h_direct (t := 0) env e e rfl rfl)
      (runOrders_cons (h_direct (t := 1) env e e rfl rfl) rfl)))
  · show Except.ok (Out.id (Sim.new rng).allocate.1, _) = _
    rw [allocate_new]
  · show Except.ok (Out.id (Sim.new rng).allocate.2.allocate.1, (Sim.new rng).allocate.2.allocate.2) = _
    rw [two_allocated]

/-- The orders do matter inside: the same history leaves the amplitudes in different places. -/
example (rng : ℕ → ℝ) : ∃ os s s',
    runOrders (fun _ => inOrder) [.allocate, .allocate, .ctrl .h [] 0, .ctrl .h [] 1] (Sim.new rng) = .ok (os, s) ∧
    runOrders (fun _ => backwards) [.allocate, .allocate, .ctrl .h [] 0, .ctrl .h [] 1] (Sim.new rng) =
      .ok (os, s') ∧
    s.state.map Prod.fst = [0, 2, 1, 3] ∧ s'.state.map Prod.fst = [1, 3, 0, 2] := by
  refine ⟨_, _, _, two_h _ rng, two_h _ rng, ?_, ?_⟩ <;>
    simp [spreadH, inOrder, backwards, collectMap, insertPair, mchEntry, lookupMap, setBit] <;> decide

end Qir

namespace Qir.Back
open Spec Sim Qir.Out Run

variable {env env' : Env} {fmt : Fmt}

theorem twin_step (he : env'.eps = env.eps) (c : QCall) {s s' : Backend} (h : TwinB s s') :
    Both TwinQ (step env fmt c s) (step env' fmt c s') := by
  have hq := twin_qstep he fmt c h
  unfold step
  generalize qstep env fmt c s = x at hq
  generalize qstep env' fmt c s' = x' at hq
  cases x <;> cases x'
  · exact congrArg Stop.output hq
  · exact hq.elim
  · exact hq.elim
  · exact hq

/-- The same bytes everywhere and twin backends. -/
def TwinIo (r r' : Backend × Io) : Prop := TwinB r.1 r'.1 ∧ r.2 = r'.2

theorem twin_runProg (he : env'.eps = env.eps) (p : Prog QCall QAns) : ∀ {s s' : Backend}, TwinB s s' →
    ∀ io, Both TwinIo (runProg (step env fmt) p s io) (runProg (step env' fmt) p s' io) := by
  induction p with
  | done => intro s s' h io; exact Both.ok ⟨h, rfl⟩
  | call c k ih =>
    intro s s' h io
    have hc := twin_step (fmt := fmt) he c h
    unfold runProg
    generalize step env fmt c s = x at hc
    generalize step env' fmt c s' = x' at hc
    cases x with
    | error e =>
      cases x' with
      | error e' => exact congrArg io.write hc
      | ok r' => exact hc.elim
    | ok r =>
      cases x' with
      | error e' => exact hc.elim
      | ok r' =>
        obtain ⟨a, out, t⟩ := r
        obtain ⟨a', out', t'⟩ := r'
        obtain ⟨h1, h2, h3⟩ := hc
        simp only at h1 h2 h3
        subst h1 h2
        exact ih a h3 _

/-- The two random sources are at the same position. -/
def SameSources (s s' : Backend) : Prop := s'.sim.rng = s.sim.rng ∧ s'.os = s.os

theorem TwinB.sources {s s' : Backend} (h : TwinB s s') : SameSources s s' := by
  obtain ⟨m, rfl, hm⟩ := h
  exact ⟨hm.fields.2.1, rfl⟩

theorem twin_reinit {s s' : Backend} (h : SameSources s s') : TwinB (reinit s) (reinit s') := by
  unfold reinit
  rw [h.1, h.2]
  exact ⟨_, rfl, twin_new _⟩

theorem twin_runShot (he : env'.eps = env.eps) (toStdOut : Bool) (f : Func) (p : Prog QCall QAns)
    {s s' : Backend} (h : SameSources s s') (io : Io) :
    Both TwinIo (runShot (step env fmt) reinit toStdOut f p s io)
      (runShot (step env' fmt) reinit toStdOut f p s' io) := by
  unfold runShot
  simp only
  split
  · have hp := twin_runProg (fmt := fmt) he p (twin_reinit h)
      (f.attrs.foldl (writeAttr toStdOut) (writeOut toStdOut (utf8 "START\n") io))
    generalize runProg (step env fmt) p (reinit s)
      (f.attrs.foldl (writeAttr toStdOut) (writeOut toStdOut (utf8 "START\n") io)) = x at hp
    generalize runProg (step env' fmt) p (reinit s')
      (f.attrs.foldl (writeAttr toStdOut) (writeOut toStdOut (utf8 "START\n") io)) = x' at hp
    cases x with
    | error e =>
      cases x' with
      | error e' => exact congrArg (Prod.mk RunError.aborted) hp
      | ok r' => exact hp.elim
    | ok r =>
      cases x' with
      | error e' => exact hp.elim
      | ok r' =>
        obtain ⟨t, io1⟩ := r
        obtain ⟨t', io1'⟩ := r'
        obtain ⟨h1, h2⟩ := hp
        simp only at h1 h2
        subst h2
        exact Both.ok ⟨h1, rfl⟩
  · exact rfl

/-- The same bytes everywhere, and random sources at the same position. -/
def SourcesIo (r r' : Backend × Io) : Prop := SameSources r.1 r'.1 ∧ r.2 = r'.2

theorem twin_runShots (he : env'.eps = env.eps) (toStdOut : Bool) (f : Func) (p : Prog QCall QAns) (n : ℕ) :
    ∀ {s s' : Backend}, SameSources s s' → ∀ io,
      Both SourcesIo (runShots (step env fmt) reinit toStdOut f p n s io)
        (runShots (step env' fmt) reinit toStdOut f p n s' io) := by
  induction n with
  | zero => intro s s' h io; exact Both.ok ⟨h, rfl⟩
  | succ n ih =>
    intro s s' h io
    have hp := twin_runShot (fmt := fmt) he toStdOut f p h io
    unfold runShots
    generalize runShot (step env fmt) reinit toStdOut f p s io = x at hp
    generalize runShot (step env' fmt) reinit toStdOut f p s' io = x' at hp
    cases x with
    | error e =>
      cases x' with
      | error e' => exact hp
      | ok r' => exact hp.elim
    | ok r =>
      cases x' with
      | error e' => exact hp.elim
      | ok r' =>
        obtain ⟨t, io1⟩ := r
        obtain ⟨t', io1'⟩ := r'
        obtain ⟨h1, h2⟩ := hp
        simp only at h1 h2
        subst h2
        exact ih h1.sources _

/-- How a run ends for the caller: the error if any, the three streams, and the positions of the random sources. -/
def ending (r : Except (RunError × Io) (Backend × Io)) : Except (RunError × Io) ((ℕ → ℝ) × (ℕ → ℕ) × Io) :=
  r.map fun p => (p.1.sim.rng, p.1.os, p.2)

/-- **C07**, whole runs.  For every module, every adaptive program of its functions, every requested entry point and
every number of shots, and whatever states earlier runs have left (only the random sources must be at the same
position): what is on `stdout`, what the writer has received, what is left in the recorder, how the run ends, and
where the random sources are for the next run do not depend on the iteration order. -/
theorem C07_run (he : env'.eps = env.eps) (toStdOut : Bool) (fs : List Func) (code : Func → Prog QCall QAns)
    (name : Option String) (shots : ℕ) (s s' : Backend) (hs : s'.sim.rng = s.sim.rng ∧ s'.os = s.os) (io : Io) :
    ending (runModule (step env fmt) reinit toStdOut fs code name shots s io) =
    ending (runModule (step env' fmt) reinit toStdOut fs code name shots s' io) := by
  unfold runModule
  split
  · rfl
  · split
    · rfl
    · rename_i f _
      have hp := twin_runShots (fmt := fmt) he toStdOut f (code f) shots hs io
      generalize runShots (step env fmt) reinit toStdOut f (code f) shots s io = x at hp
      generalize runShots (step env' fmt) reinit toStdOut f (code f) shots s' io = x' at hp
      cases x with
      | error e =>
        cases x' with
        | error e' => exact congrArg Except.error hp
        | ok r' => exact hp.elim
      | ok r =>
        cases x' with
        | error e' => exact hp.elim
        | ok r' =>
          obtain ⟨t, io1⟩ := r
          obtain ⟨t', io1'⟩ := r'
          obtain ⟨⟨h1, h2⟩, h3⟩ := hp
          simp only at h1 h2 h3
          subst h3
          simp only [ending, Except.map, h1, h2]

end Qir.Back
