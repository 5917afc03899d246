import Verif.Proof.Threads

/-!
# C69: calls made in several threads
-/

namespace Qir.Run

open Qir.Out

variable {Q A σ ι : Type}

/-! ## C69 -/

/-- **C69**.  Threads make calls; whatever the schedule, a thread that is through has got the answers it would have got in a
process of its own, and what belongs to it, the backend, the recorder and what its callbacks have been given, is as there. -/
theorem C69_isolated (w : World Q A σ) (calls : ι → List PyCall) (l : ι → Local σ) (schedule : List ι) (i : ι)
    (answers : List (Option EntryError)) (l' : Local σ)
    (h : ((Threads.start w calls l).steps schedule).Through i answers l') :
    answers = (own w (calls i) (l i)).1 ∧
      ∃ out, (own w (calls i) (l i)).2 = .ok l'.s ⟨out, l'.recorder, l'.sink⟩ := by
  obtain ⟨text, hf⟩ := fine_start w calls l schedule
  have h1 := hf.whole i
  rw [h, Task.whole] at h1
  have h2 : (callsT w (calls i) []).whole (l i) = _ := h1
  rw [whole_calls] at h2
  cases ho : (own w (calls i) (l i)).2 with
  | ok s io =>
    rw [ho] at h2
    simp only [finale, Prod.mk.injEq, End.ret.injEq] at h2
    obtain ⟨h3, h4, h5⟩ := h2
    subst h5
    exact ⟨h4.symm, io.stdout, rfl⟩
  | rejected e s io => exact absurd ho (alone_not_rejected w _ _ _ _ _ _)
  | ended io =>
    rw [ho] at h2
    simp only [finale, Prod.mk.injEq] at h2
    cases h2.2

/-- **C69**, `stdout`.  At every moment `stdout` is a mixture of what the threads would have written in processes of their own:
of each thread a first part in its order, all of it when the thread is through.  If the process has ended, then because of
a thread that would have ended a process of its own, and everything that thread had to say has been written. -/
theorem C69_stdout (w : World Q A σ) (calls : ι → List PyCall) (l : ι → Local σ) (schedule : List ι) :
    ∃ text : List (ι × UInt8), text.map Prod.snd = ((Threads.start w calls l).steps schedule).stdout ∧
      (∀ i, part i text <+: (own w (calls i) (l i)).2.io.stdout) ∧
      (∀ i answers l', ((Threads.start w calls l).steps schedule).Through i answers l' →
        part i text = (own w (calls i) (l i)).2.io.stdout) ∧
      (((Threads.start w calls l).steps schedule).ended = true → ∃ i, (own w (calls i) (l i)).2.Dies ∧
        part i text = (own w (calls i) (l i)).2.io.stdout) := by
  obtain ⟨text, hf⟩ := fine_start w calls l schedule
  have said : ∀ i, ((callsT w (calls i) []).whole (l i)).1 = (own w (calls i) (l i)).2.io.stdout := fun i => by
    rw [whole_calls]; cases (own w (calls i) (l i)).2 <;> rfl
  have h1 : ∀ i, (own w (calls i) (l i)).2.io.stdout = part i text ++ _ := fun i =>
    (said i).symm.trans (congrArg Prod.fst (hf.whole i))
  refine ⟨text, hf.all, fun i => ⟨_, (h1 i).symm⟩, fun i answers l' h => ?_, fun h => ?_⟩
  · rw [h1 i, h]; simp [Task.whole]
  · obtain ⟨i, l', hi⟩ := hf.dead h
    refine ⟨i, ?_, by rw [h1 i, hi]; simp [Task.whole]⟩
    have h2 := hf.whole i
    rw [hi] at h2
    have h3 : (callsT w (calls i) []).whole (l i) = _ := h2
    rw [whole_calls] at h3
    cases ho : (own w (calls i) (l i)).2 with
    | ended io => trivial
    | ok s io => rw [ho] at h3; simp only [finale, Task.whole, Prod.mk.injEq] at h3; cases h3.2
    | rejected e s io => rw [ho] at h3; simp only [finale, Task.whole, Prod.mk.injEq] at h3; cases h3.2

/-- **C69**, callbacks.  At every moment, and also when another thread has ended the process, what the callbacks of a thread
have been given is a first part of what they would have been given in a process of its own. -/
theorem C69_callback (w : World Q A σ) (calls : ι → List PyCall) (l : ι → Local σ) (schedule : List ι) (i : ι) :
    (((Threads.start w calls l).steps schedule).thread i).2.sink <+: (own w (calls i) (l i)).2.io.sink := by
  obtain ⟨text, hf⟩ := fine_start w calls l schedule
  have h1 := (steps_grow (g := Threads.start w calls l) (fun i => grows_calls w _ _ _) schedule i).sink
  have h2 := congrArg (fun x => End.sink x.2) (hf.whole i)
  dsimp only at h2
  rw [← h2] at h1
  have h3 : ((callsT w (calls i) []).whole (l i)).2.sink = (own w (calls i) (l i)).2.io.sink := by
    rw [whole_calls]; cases (own w (calls i) (l i)).2 <;> rfl
  rw [← h3]
  exact h1

/-- **C69**, no thread waits for another.  There is a number of steps after which a thread is through, however few or many steps
the others have made, unless the process has ended. -/
theorem C69_progress [DecidableEq ι] (w : World Q A σ) (calls : ι → List PyCall) (l : ι → Local σ) (i : ι) :
    ∃ n, ∀ schedule : List ι, n ≤ schedule.count i →
      ((Threads.start w calls l).steps schedule).ended = true ∨
      ∃ l', ((Threads.start w calls l).steps schedule).Through i (own w (calls i) (l i)).1 l' := by
  refine ⟨(callsT w (calls i) []).size (l i), fun sched hn => ?_⟩
  cases he : ((Threads.start w calls l).steps sched).ended with
  | true => exact .inl rfl
  | false =>
    right
    have h1 := steps_size sched i he
    have h2 : ((Threads.start w calls l).thread i).1.size ((Threads.start w calls l).thread i).2 ≤ sched.count i := hn
    rw [Nat.sub_eq_zero_of_le h2] at h1
    obtain ⟨r, hr⟩ := size_zero h1
    have h3 : ((Threads.start w calls l).steps sched).Through i r
        (((Threads.start w calls l).steps sched).thread i).2 := Prod.ext hr rfl
    obtain ⟨rfl, -⟩ := C69_isolated w calls l sched i r _ h3
    exact ⟨_, h3⟩

/-- **C69**, if no thread would end a process of its own, the process does not end. -/
theorem C69_alive (w : World Q A σ) (calls : ι → List PyCall) (l : ι → Local σ)
    (h : ∀ i, ¬ (own w (calls i) (l i)).2.Dies) (schedule : List ι) :
    ((Threads.start w calls l).steps schedule).ended = false := by
  obtain ⟨text, -, -, -, h1⟩ := C69_stdout w calls l schedule
  cases he : ((Threads.start w calls l).steps schedule).ended with
  | false => rfl
  | true =>
    obtain ⟨i, hi, -⟩ := h1 he
    exact absurd hi (h i)

/-- **C69**, nothing more can be said about `stdout`: every mixture of first parts comes about with some schedule. -/
theorem C69_any (w : World Q A σ) (calls : ι → List PyCall) (l : ι → Local σ) (text : List (ι × UInt8))
    (h : ∀ i, part i text <+: (own w (calls i) (l i)).2.io.stdout) :
    ∃ schedule, ((Threads.start w calls l).steps schedule).stdout = text.map Prod.snd := by
  obtain ⟨sched, -, h1, -⟩ := say_all text (Threads.start w calls l) rfl fun i => by
    have : ((callsT w (calls i) []).whole (l i)).1 = (own w (calls i) (l i)).2.io.stdout := by
      rw [whole_calls]; cases (own w (calls i) (l i)).2 <;> rfl
    show _ <+: ((callsT w (calls i) []).whole (l i)).1
    rw [this]
    exact h i
  exact ⟨sched, h1⟩

/-- A thread of which nothing is pending and whose calls all have callbacks writes nothing to `stdout`. -/
theorem own_quiet (w : World Q A σ) : ∀ (cs : List PyCall) (s : σ) (io : Io), (∀ c ∈ cs, c.dest = false) →
    io.recorder.buffer = [] → (alone w cs s io).2.io.stdout = io.stdout
  | [], s, io, _, _ => rfl
  | c :: cs, s, io, hc, he => by
    have h1 := C51_call w c s io he
    have hd := hc c List.mem_cons_self
    have hcs : ∀ c ∈ cs, c.dest = false := fun c h => hc c (List.mem_cons_of_mem _ h)
    rw [alone]
    cases h : w.call c s io with
    | ok s' io' =>
      rw [h] at h1
      simp only [hd, Bool.not_false] at h1
      exact (own_quiet w cs s' io' hcs h1.1).trans h1.2.1
    | rejected e s' io' =>
      rw [h] at h1
      simp only [hd, Bool.not_false] at h1
      exact (own_quiet w cs s' io' hcs h1.1).trans h1.2.1
    | ended io' =>
      rw [h] at h1
      simp only [hd, Bool.not_false] at h1
      exact h1.1

/-- **C69**, if all calls have callbacks, nothing is written to `stdout`, whatever the schedule. -/
theorem C69_quiet (w : World Q A σ) (calls : ι → List PyCall) (l : ι → Local σ) (schedule : List ι)
    (hl : ∀ i, (l i).recorder.buffer = []) (h : ∀ i, ∀ c ∈ calls i, c.dest = false) :
    ((Threads.start w calls l).steps schedule).stdout = [] := by
  obtain ⟨text, h1, h2, -, -⟩ := C69_stdout w calls l schedule
  rw [← h1]
  cases text with
  | nil => rfl
  | cons x text =>
    have := h2 x.1
    rw [own, own_quiet w _ _ _ (h x.1) (hl x.1)] at this
    simp [part] at this

/-- **C69**, in terms of C51: the callbacks of a thread that is through have been given exactly what its calls with callbacks
have to say, in their order. -/
theorem C69_says (w : World Q A σ) (calls : ι → List PyCall) (l : ι → Local σ) (schedule : List ι) (i : ι)
    (hl : (l i).recorder.buffer = []) (answers : List (Option EntryError)) (l' : Local σ)
    (h : ((Threads.start w calls l).steps schedule).Through i answers l') :
    ∃ outs, Chain w (calls i) (l i).s outs l'.s ∧ l'.sink = (l i).sink ++ parts false (calls i) outs := by
  obtain ⟨-, out, h1⟩ := C69_isolated w calls l schedule i answers l' h
  have key : ∀ (cs : List PyCall) (s : σ) (io : Io), (alone w cs s io).2 = w.calls cs s io := by
    intro cs
    induction cs with
    | nil => intro s io; rfl
    | cons c cs ih =>
      intro s io
      rw [alone, World.calls]
      cases w.call c s io with
      | ok => exact ih _ _
      | rejected => exact ih _ _
      | ended => rfl
  rw [own, key] at h1
  obtain ⟨outs, h2, -, -, -, h3⟩ := C51_session w (calls i) (l i).s l'.s _ _ hl h1
  exact ⟨outs, h2, h3⟩

/-! ### Examples and counterexamples -/

/-- What belongs to a thread at its start. -/
def fresh : Local ℕ := ⟨0, ⟨[], true⟩, []⟩

/-- Two threads.  One makes a call with a callback, two shots, then a call that is refused; the other one runs the command
line. -/
def pair : Bool → List PyCall
  | false => [.run ⟨"a.ll", some "ll"⟩ none (some 2) none true, .runBytes [1, 1] none none none false]
  | true => [.main (.run (some ⟨"a.ll", some "ll"⟩) none none none) .terminal]

/-- Whatever the schedule, `stdout` gets the output of one and the callback that of the other. -/
theorem C69_pair : ∃ n, ∀ schedule : List Bool, (∀ i, n ≤ schedule.count i) →
    ((Threads.start toy pair fun _ => fresh).steps schedule).stdout = block [("entry_point", "")] [65, 10] ∧
    ∃ answers l', ((Threads.start toy pair fun _ => fresh).steps schedule).Through false answers l' ∧
      answers.map Option.isSome = [false, true] ∧
      l'.sink = block [("entry_point", "")] [65, 10] ++ block [("entry_point", "")] [65, 10] := by
  obtain ⟨n₁, h₁⟩ := C69_progress toy pair (fun _ => fresh) false
  obtain ⟨n₂, h₂⟩ := C69_progress toy pair (fun _ => fresh) true
  have o1 : summary (own toy (pair false) fresh).2 = (true, [], block [("entry_point", "")] [65, 10] ++
    block [("entry_point", "")] [65, 10]) := by decide +kernel
  have o2 : summary (own toy (pair true) fresh).2 = (true, block [("entry_point", "")] [65, 10], []) := by decide +kernel
  have o3 : (own toy (pair false) fresh).1.map Option.isSome = [false, true] := by decide +kernel
  have io : ∀ i, (own toy (pair i) fresh).2.io.stdout = (summary (own toy (pair i) fresh).2).2.1 := fun i => by
    cases (own toy (pair i) fresh).2 <;> rfl
  have alive := C69_alive toy pair (fun _ => fresh) fun i hi => by
    cases i
    · cases h : (own toy (pair false) fresh).2 with
      | ended => rw [h] at o1; cases o1
      | ok => rw [h] at hi; exact hi
      | rejected => rw [h] at hi; exact hi
    · cases h : (own toy (pair true) fresh).2 with
      | ended => rw [h] at o2; cases o2
      | ok => rw [h] at hi; exact hi
      | rejected => rw [h] at hi; exact hi
  refine ⟨max n₁ n₂, fun schedule hs => ?_⟩
  have k1 := h₁ schedule (le_trans (le_max_left _ _) (hs false))
  have k2 := h₂ schedule (le_trans (le_max_right _ _) (hs true))
  simp only [alive schedule, Bool.false_eq_true, false_or] at k1 k2
  obtain ⟨l₁, k1⟩ := k1
  obtain ⟨l₂, k2⟩ := k2
  obtain ⟨text, t1, -, t2, -⟩ := C69_stdout toy pair (fun _ => fresh) schedule
  constructor
  · have e1 := t2 false _ _ k1
    have e2 := t2 true _ _ k2
    rw [io, o1] at e1
    rw [io, o2] at e2
    dsimp only at e1 e2
    rw [← t1, ← e2, part]
    congr 1
    refine (List.filter_eq_self.mpr fun x hx => ?_).symm
    obtain ⟨i, b⟩ := x
    cases i with
    | true => simp
    | false =>
      exfalso
      have : b ∈ part false text := List.mem_map.mpr ⟨(false, b), List.mem_filter.mpr ⟨hx, by simp⟩, rfl⟩
      rw [e1] at this
      cases this
  · obtain ⟨-, out, k3⟩ := C69_isolated toy pair (fun _ => fresh) schedule false _ _ k1
    refine ⟨_, l₁, k1, o3, ?_⟩
    rw [k3] at o1
    exact congrArg (fun x => x.2.2) o1

/-- Two threads that both run the command line. -/
def twins (_ : Bool) : List PyCall := [.main (.run (some ⟨"a.ll", some "ll"⟩) none none none) .terminal]

/-- Without callbacks the shots of threads get mixed up (F21): both can have begun before one goes on. -/
theorem C69_mixed : ∃ schedule, ((Threads.start toy twins fun _ => fresh).steps schedule).stdout =
    utf8 "START\n" ++ utf8 "START\n" ++ utf8 "METADATA\tentry_point\n" ++ utf8 "METADATA\tentry_point\n" ++ [65, 10] ++
      utf8 "END\t0\n" ++ [65, 10] ++ utf8 "END\t0\n" := by
  have io : (own toy (twins false) fresh).2.io.stdout = (summary (own toy (twins false) fresh).2).2.1 := by
    cases (own toy (twins false) fresh).2 <;> rfl
  have o : (summary (own toy (twins false) fresh).2).2.1 = utf8 "START\n" ++ utf8 "METADATA\tentry_point\n" ++ [65, 10] ++
    utf8 "END\t0\n" := by decide +kernel
  rw [o] at io
  have own2 : ∀ i, (own toy (twins i) fresh).2.io.stdout = utf8 "START\n" ++ utf8 "METADATA\tentry_point\n" ++ [65, 10] ++
    utf8 "END\t0\n" := fun i => io
  have tag : ∀ (i j : Bool) (b : Bytes), part i (b.map fun x => (j, x)) = if j = i then b else [] := fun i j b => by
    by_cases h : j = i
    · subst h; rw [if_pos rfl]; exact part_own _ _
    · rw [if_neg h]; exact part_other h _
  have img : ∀ (j : Bool) (b : Bytes), (b.map fun x => (j, x)).map Prod.snd = b := fun j b => by simp [Function.comp_def]
  let say (j : Bool) (b : Bytes) : List (Bool × UInt8) := b.map fun x => (j, x)
  obtain ⟨sched, h⟩ := C69_any toy twins (fun _ => fresh)
    (say false (utf8 "START\n") ++ say true (utf8 "START\n") ++ say false (utf8 "METADATA\tentry_point\n") ++
      say true (utf8 "METADATA\tentry_point\n") ++ say false [65, 10] ++ say false (utf8 "END\t0\n") ++ say true [65, 10] ++
      say true (utf8 "END\t0\n")) fun i => by
    rw [own2 i]
    simp only [part_append, say, tag]
    cases i <;> simp
  refine ⟨sched, h.trans ?_⟩
  simp only [List.map_append, say, img]

/-- One thread runs a program that fails, the other one has a callback. -/
def doomed : Bool → List PyCall
  | false => [.run ⟨"a.ll", some "ll"⟩ none none none true]
  | true => [.main (.run (some ⟨"bad.ll", some "ll"⟩) none none none) .terminal]

/-- A program that fails in one thread takes the others with it: their callbacks may have been given nothing yet. -/
theorem C69_dragged : ∃ schedule, ((Threads.start toy doomed fun _ => fresh).steps schedule).ended = true ∧
    (((Threads.start toy doomed fun _ => fresh).steps schedule).thread false).2.sink = [] := by
  obtain ⟨n, h⟩ := C69_progress toy doomed (fun _ => fresh) true
  refine ⟨List.replicate n true, ?_, ?_⟩
  · rcases h (List.replicate n true) (by simp) with h | ⟨l', h⟩
    · exact h
    · obtain ⟨-, out, h1⟩ := C69_isolated toy doomed (fun _ => fresh) _ true _ _ h
      have o : (summary (own toy (doomed true) fresh).2).1 = false := by decide +kernel
      rw [h1] at o
      cases o
  · have : ∀ (n : ℕ) (g : Threads Bool ℕ), ((g.steps (List.replicate n true)).thread false) = g.thread false := by
      intro n
      induction n with
      | zero => intro g; rfl
      | succ n ih => intro g; exact (ih (g.step true)).trans (step_other (by decide))
    rw [this]
    rfl

end Qir.Run
