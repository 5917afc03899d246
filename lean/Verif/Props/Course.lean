import Verif.Props.CourseDefs
import Verif.Proof.Course3
import Verif.Props.GenericBack
import Mathlib.Tactic.IntervalCases

/-!
# C81: the courses that a program may take, whatever the numbers do

C74 says what programs write, with every outcome of a measurement left open.  Here the outcomes have to agree with the basis
states that are possible at the time.  Everything is for an arbitrary arithmetic `N`, arbitrary library functions `lib` and
all samples that are not below zero.
-/

namespace Qir
namespace Gen
open Spec (Pauli)
open Qir.Out
open Qir.Run (Prog Func speech session seen Ready block metadataLine utf8 runModule bindFunctions chooseEntryPoint)

variable {F : Type} {N : Num F} {lib : Lib F}

/-- **C81**, one call. -/
theorem C81_call {δ : Ledger F} {S : (ℕ → Bool) → Prop} {s : GBackend F} (h : Trails δ S s) (hr : Nonneg N δ.rng)
    (c : GQCall F) (hc : δ.Allows N lib c) :
    ∃ o : Open F, Ascending δ.live.card o.entries ∧ Backed N δ S o c ∧
      match δ.step N lib o c with
      | .error m => qstep N lib c s = .error (.fail m)
      | .ok (a, out, δ') => ∃ s', qstep N lib c s = .ok (a, out, s') ∧
        Trails δ' (fun g => next δ.live S (δ.outcome N o) g c) s' := qcall_trails h hr c hc

theorem Course.stop {δ : Ledger F} {S : (ℕ → Bool) → Prop} {c : GQCall F} (k : GAns F → Prog (GQCall F) (GAns F)) {o : Open F}
    (h1 : Ascending δ.live.card o.entries) (hb : Backed N δ S o c) {m : List Char} (hr : δ.step N lib o c = .error m) :
    Course N lib (.call c k) δ S (lines [.record (.message m)]) none := by
  unfold Course
  refine ⟨o, h1, hb, ?_⟩
  rw [hr]
  exact ⟨rfl, rfl⟩

theorem Course.go {δ : Ledger F} {S : (ℕ → Bool) → Prop} {c : GQCall F} (k : GAns F → Prog (GQCall F) (GAns F)) {o : Open F}
    (h1 : Ascending δ.live.card o.entries) (hb : Backed N δ S o c) {a : GAns F} {out : Bytes} {δ' : Ledger F}
    (hr : δ.step N lib o c = .ok (a, out, δ')) {later : Bytes} {e : Option (Ledger F × ((ℕ → Bool) → Prop))}
    (h2 : Course N lib (k a) δ' (fun g => next δ.live S (δ.outcome N o) g c) later e) :
    Course N lib (.call c k) δ S (out ++ later) e := by
  unfold Course
  refine ⟨o, h1, hb, ?_⟩
  rw [hr]
  exact ⟨later, rfl, h2⟩

/-- A program takes one of its courses. -/
theorem C81_program (p : Prog (GQCall F) (GAns F)) : ∀ {δ : Ledger F} {S : (ℕ → Bool) → Prop} {s : GBackend F},
    Trails δ S s → Nonneg N δ.rng → Proper N lib p δ →
    match speech (step N lib) p s with
    | .error out => Course N lib p δ S out none
    | .ok (out, s') => ∃ δ' S', Course N lib p δ S out (some (δ', S')) ∧ Trails δ' S' s' ∧ Nonneg N δ'.rng := by
  induction p with
  | done => intro δ S s h hr _; exact ⟨δ, S, ⟨rfl, rfl⟩, h, hr⟩
  | call c k ih =>
    intro δ S s h hn hp
    obtain ⟨o, h1, hb, h2⟩ := C81_call h hn c hp.1
    simp only [speech, step]
    cases hr : δ.step N lib o c with
    | error m =>
      simp only [hr] at h2
      simp only [h2]
      rw [fail_output]
      exact .stop k h1 hb hr
    | ok r =>
      obtain ⟨a, out, δ'⟩ := r
      simp only [hr] at h2
      obtain ⟨s', h3, h4⟩ := h2
      simp only [h3]
      have h5 := ih a h4 (step_nonneg hn hr) (hp.2 o a out δ' hr)
      cases hs : speech (step N lib) (k a) s' with
      | error o' =>
        simp only [hs] at h5
        exact .go k h1 hb hr h5
      | ok r' =>
        obtain ⟨o', s''⟩ := r'
        simp only [hs] at h5
        obtain ⟨δ'', S'', h6, h7⟩ := h5
        exact ⟨δ'', S'', .go k h1 hb hr h6, h7⟩

/-- Several shots. -/
theorem C81_shots (p : Prog (GQCall F) (GAns F)) (hp : ∀ rng os, Proper N lib p (.init rng os)) (n : ℕ) : ∀ s : GBackend F,
    Nonneg N s.sim.rng → match session (step N lib) (reinit N) p n s with
    | .error (outs, out) => Courses N lib p n s.sim.rng s.os outs (some out)
    | .ok (outs, _) => Courses N lib p n s.sim.rng s.os outs none := by
  induction n with
  | zero => intro s _; exact ⟨rfl, rfl⟩
  | succ n ih =>
    intro s hn
    have h1 := C81_program p (trails_reinit N s) hn (hp s.sim.rng s.os)
    simp only [session]
    cases hs : speech (step N lib) p (reinit N s) with
    | error out =>
      simp only [hs] at h1
      exact .inl ⟨out, h1, rfl, rfl⟩
    | ok r =>
      obtain ⟨out, s1⟩ := r
      simp only [hs] at h1
      obtain ⟨δ, S, h2, h3, hn'⟩ := h1
      have h4 := ih s1 (h3.nonneg hn')
      rw [h3.kept.rng, h3.kept.os] at h4
      dsimp only
      cases hj : session (step N lib) (reinit N) p n s1 with
      | error r => simp only [hj] at h4; exact .inr ⟨out, δ, S, _, h2, h4, rfl⟩
      | ok r => simp only [hj] at h4; exact .inr ⟨out, δ, S, _, h2, h4, rfl⟩

/-- **C81**.  Run any module whose entry point only makes calls that make sense, for any number of shots, from any state of
the backend and with any arithmetic.  Every shot takes one of the courses of the program. -/
theorem C81_module (toStdOut : Bool) (fs : List Func) (code : Func → Prog (GQCall F) (GAns F)) (name : Option String)
    (f : Func) (n : ℕ) (s : GBackend F) (io : Io) (hb : ∃ m, bindFunctions fs = .ok m)
    (hf : chooseEntryPoint fs name = .ok f) (hp : f.params = 0) (hr : Ready toStdOut io)
    (hs : ∀ rng os, Proper N lib (code f) (.init rng os)) (hn : Nonneg N s.sim.rng) :
    ∃ outs e, Courses N lib (code f) n s.sim.rng s.os outs e ∧
      match e with
      | none => outs.length = n ∧ ∃ s' io', runModule (step N lib) (reinit N) toStdOut fs code name n s io = .ok (s', io') ∧
          seen toStdOut io' = seen toStdOut io ++ outs.flatMap (block f.attrs) ∧
          seen (!toStdOut) io' = seen (!toStdOut) io
      | some out => outs.length < n ∧ ∃ io',
          runModule (step N lib) (reinit N) toStdOut fs code name n s io = .error (.aborted, io') ∧
          seen toStdOut io' = seen toStdOut io ++ outs.flatMap (block f.attrs) ++
            utf8 "START\n" ++ f.attrs.flatMap metadataLine ++ (if io.recorder.useStdOut then out else []) ∧
          seen (!toStdOut) io' = seen (!toStdOut) io := by
  have h1 := C81_shots (code f) hs n s hn
  have h2 := Run.runShots_session (step N lib) (reinit N) toStdOut f hp (code f) n s io hr
  rw [Run.runModule_eq hb hf]
  cases hi : session (step N lib) (reinit N) (code f) n s with
  | error r =>
    obtain ⟨outs, out⟩ := r
    simp only [hi] at h1 h2
    obtain ⟨io', e1, e2, _, e3⟩ := h2
    exact ⟨outs, some out, h1, Run.session_length_error _ _ _ _ _ hi, io', e1, e2, e3⟩
  | ok r =>
    obtain ⟨outs, s'⟩ := r
    simp only [hi] at h1 h2
    obtain ⟨io', e1, _, _, e2, e3⟩ := h2
    exact ⟨outs, none, h1, Run.session_length _ _ _ _ _ hi, s', io', e1, e2, e3⟩

/-- A course is one of the ways through the ledger that C74 allows. -/
theorem C81_writes (p : Prog (GQCall F) (GAns F)) : ∀ {δ : Ledger F} {S : (ℕ → Bool) → Prop} {out : Bytes}
    {e : Option (Ledger F × ((ℕ → Bool) → Prop))}, Course N lib p δ S out e → Writes N lib p δ out (e.map Prod.fst) := by
  induction p with
  | done => rintro δ S out e ⟨rfl, rfl⟩; exact ⟨rfl, rfl⟩
  | call c k ih =>
    intro δ S out e h
    unfold Course at h
    obtain ⟨o, h1, -, h2⟩ := h
    cases hr : δ.step N lib o c with
    | error m =>
      simp only [hr] at h2
      obtain ⟨rfl, rfl⟩ := h2
      exact .stop k h1 hr
    | ok r =>
      obtain ⟨a, now, δ'⟩ := r
      simp only [hr] at h2
      obtain ⟨later, rfl, h3⟩ := h2
      exact .go k h1 hr (ih a h3)

/-! ### What follows, from any state of the backend -/

/-- The bit that is stored for a result. -/
def stored (s : GBackend F) (r : ℕ) : Bool := s.res.getD r false

theorem Trails.all {δ : Ledger F} {s : GBackend F} (h : Kept δ s) : Trails δ (fun _ => True) s := ⟨h, fun _ _ => trivial⟩

/-- A measurement of a qubit that is zero in every possible basis state gives zero. -/
theorem mz_zero {δ : Ledger F} {S : (ℕ → Bool) → Prop} {s : GBackend F} (h : Trails δ S s) (hr : Nonneg N δ.rng) {q : ℕ}
    (hq : q ∈ δ.live) (r : ℕ) (hz : ∀ f, S f → f q = false) :
    ∃ s', qstep N lib (.mz q r) s = .ok (.unit, [], s') ∧ stored s' r = false := by
  obtain ⟨o, -, hb, s', h1, h2⟩ := C81_call (lib := lib) h hr (.mz q r) (.inl hq)
  refine ⟨s', h1, ?_⟩
  have hf : δ.outcome N o = false := by
    cases hx : δ.outcome N o with
    | false => rfl
    | true =>
      obtain ⟨f, hf, hq⟩ := hb hx
      rw [hz f hf] at hq
      cases hq
  unfold stored
  rw [h2.kept.reg]
  show Function.update (δ.use q).reg r (δ.outcome N o) r = false
  rw [Function.update_self, hf]

/-- A qubit that has just been reset is measured as zero, whatever the state, the arithmetic and the samples. -/
theorem C81_reset {δ : Ledger F} {s : GBackend F} (h : Kept δ s) (hr : Nonneg N δ.rng) {q : ℕ} (hq : δ.Usable q) (r : ℕ) :
    ∃ s1 s2, qstep N lib (.reset q) s = .ok (.unit, [], s1) ∧ qstep N lib (.mz q r) s1 = .ok (.unit, [], s2) ∧
      stored s2 r = false := by
  obtain ⟨o, -, hb, s1, h1, h2⟩ := C81_call (lib := lib) (Trails.all h) hr (.reset q) hq
  have hn : Nonneg N ((δ.use q).draw).rng := by
    have : (δ.use q).rng = δ.rng := Ledger.use_rng q
    show Nonneg N fun i => (δ.use q).rng (i + 1)
    rw [this]; exact hr.tail
  obtain ⟨s2, h3, h4⟩ := mz_zero (lib := lib) h2 hn (Ledger.mem_use h.below hq) r (by
    rintro g ⟨f, -, -, rfl⟩
    exact Function.update_self ..)
  exact ⟨s1, s2, h1, h3, h4⟩

/-- A measurement that gives zero gives zero again when it is repeated at once; and `mresetz` leaves a qubit that is
measured as zero. -/
theorem C81_again {δ : Ledger F} {s : GBackend F} (h : Kept δ s) (hr : Nonneg N δ.rng) {q : ℕ} (hq : δ.Usable q) (r r' : ℕ) :
    (∃ s1 s2, qstep N lib (.mz q r) s = .ok (.unit, [], s1) ∧ qstep N lib (.mz q r') s1 = .ok (.unit, [], s2) ∧
      (stored s1 r = false → stored s2 r' = false)) ∧
    ∃ s1 s2, qstep N lib (.mresetz q r) s = .ok (.unit, [], s1) ∧ qstep N lib (.mz q r') s1 = .ok (.unit, [], s2) ∧
      stored s2 r' = false := by
  have hn : Nonneg N ((δ.use q).draw).rng := by
    have : (δ.use q).rng = δ.rng := Ledger.use_rng q
    show Nonneg N fun i => (δ.use q).rng (i + 1)
    rw [this]; exact hr.tail
  constructor
  · obtain ⟨o, -, hb, s1, h1, h2⟩ := C81_call (lib := lib) (Trails.all h) hr (.mz q r) hq
    have hs : stored s1 r = δ.outcome N o := by
      unfold stored
      rw [h2.kept.reg]
      exact Function.update_self ..
    cases ho : δ.outcome N o with
    | true =>
      obtain ⟨o', -, -, s2, h3, -⟩ := C81_call (lib := lib) h2 hn (.mz q r') (.inl (Ledger.mem_use h.below hq))
      exact ⟨s1, s2, h1, h3, fun he => absurd (hs.symm.trans he) (by rw [ho]; simp)⟩
    | false =>
      obtain ⟨s2, h3, h4⟩ := mz_zero (lib := lib) h2 hn (Ledger.mem_use h.below hq) r' fun f hf => hf.2.trans ho
      exact ⟨s1, s2, h1, h3, fun _ => h4⟩
  · obtain ⟨o, -, hb, s1, h1, h2⟩ := C81_call (lib := lib) (Trails.all h) hr (.mresetz q r) hq
    obtain ⟨s2, h3, h4⟩ := mz_zero (lib := lib) h2 hn (Ledger.mem_use h.below hq) r' (by
      rintro g ⟨f, -, -, rfl⟩
      exact Function.update_self ..)
    exact ⟨s1, s2, h1, h3, h4⟩

/-! ### The hypotheses can be met -/

/-- Entangle two qubits, measure and record both, and dump the state. -/
def pairBits : Prog (GQCall F) (GAns F) :=
  .call (.gate .h 0) fun _ => .call (.ctl .x [0] 1) fun _ => .call (.mz 0 0) fun _ => .call (.mz 1 1) fun _ =>
  .call (.recordResult 0 none) fun _ => .call (.recordResult 1 none) fun _ => .call (.dump false) fun _ => .done

theorem pairBits_proper (rng : ℕ → F) (os : ℕ → ℕ) : Proper N lib pairBits (.init rng os) := by
  refine ⟨.inr ⟨rfl, le_refl _⟩, fun _ _ _ _ h => ?_⟩
  cases h
  refine ⟨⟨by simp, fun i hi => ?_⟩, fun _ _ _ _ h => ?_⟩
  · rcases List.mem_cons.1 hi with rfl | hi
    · exact .inl (by simp [Ledger.use, Ledger.init])
    · rw [List.mem_singleton.1 hi]
      exact .inr ⟨rfl, by simp [Ledger.use, Ledger.init]⟩
  cases h
  refine ⟨.inl (by simp [Ledger.useAll, Ledger.use, Ledger.init]), fun _ _ _ _ h => ?_⟩
  cases h
  refine ⟨.inl (by simp [Ledger.useAll, Ledger.use, Ledger.init, Ledger.draw, Ledger.store, Ledger.touch]), fun _ _ _ _ h => ?_⟩
  cases h
  exact ⟨trivial, fun _ _ _ _ _ => ⟨trivial, fun _ _ _ _ _ => ⟨rfl, fun _ _ _ _ _ => trivial⟩⟩⟩

theorem two_lines_then (x y : Event) (b : Bytes) : lines [x] ++ (lines [y] ++ (b ++ [])) = lines [x, y] ++ b := by simp [lines]

/-- Whatever the arithmetic, a shot of `pairBits` records 00, 11 or 10, never 01; and if the dump then lists any basis state
at all, the two bits are equal and the dump lists only that state. -/
theorem C81_pair (rng : ℕ → F) (os : ℕ → ℕ) (out : Bytes) (e : Option (Ledger F × ((ℕ → Bool) → Prop)))
    (h : Course N lib pairBits (.init rng os) allZero out e) :
    ∃ a b l, out = lines [.record (.result a none), .record (.result b none)] ++
        (utf8 "Global Results: " ++ lib.bits [a, b] ++ [10] ++ utf8 (shown lib.amplitude l)) ∧
      (a = false → b = false) ∧ ∀ e ∈ l, a = b ∧ e.1 = if a then 3 else 0 := by
  obtain ⟨_, _, _, _, rfl, _, _, _, _, rfl, o, _, _, _, rfl, o', _, hb, _, rfl, _, _, _, _, rfl, _, _, _, _, rfl, d, hd', hd,
    _, rfl, rfl, rfl⟩ := h
  have heq : ∀ (L L' : Finset ℕ) (x y : Bool) (f : ℕ → Bool),
      next L' (fun g => next L allZero x g (.gate .h 0 : GQCall F)) y f (.ctl .x [0] 1 : GQCall F) → f 0 = f 1 := by
    rintro L L' x y f ⟨f2, ⟨f1, hf1, ha1⟩, ha2⟩
    have hf1 : f1 = fun _ => false := hf1
    have ha1 : f2 = f1 ∨ f2 = toggle [0] f1 := ha1
    simp only [Leads, Acts] at ha2
    subst hf1
    rcases ha1 with rfl | rfl
    · simp at ha2
      rw [ha2]
    · simp [toggle] at ha2
      rw [ha2]
      simp [toggle]
  refine ⟨_, _, d.entries, (two_lines_then _ _ _).trans rfl, fun ha => ?_, fun e he => ?_⟩
  · cases hb1 : Ledger.outcome N o' _ with
    | false => rfl
    | true =>
      obtain ⟨f, ⟨hf, h0⟩, h1⟩ := hb hb1
      have h0 : f 0 = false := h0.trans ha
      rw [heq _ _ _ _ f hf, h1] at h0
      cases h0
  · have hb : e.1 < 2 ^ (Finset.card (Finset.range 2)) := hd'.2 e he
    obtain ⟨f, ⟨_, ⟨_, ⟨⟨hf, h0⟩, h1⟩, rfl⟩, rfl⟩, hi⟩ := hd e he
    have hab := heq _ _ _ _ _ hf
    refine ⟨h0.symm.trans (hab.trans h1), ?_⟩
    have hi : Index (Finset.range 2) e.1 f := hi
    have i0 := hi 0 (by simp)
    have i1 := hi 1 (by simp)
    rw [show ((Finset.range 2).filter (· < 0)).card = 0 from rfl] at i0
    rw [show ((Finset.range 2).filter (· < 1)).card = 1 from rfl, ← hab, ← i0] at i1
    have h0 : f 0 = _ := h0
    rw [← i0] at h0
    have hb : e.1 < 4 := hb
    show e.1 = if Ledger.outcome N o _ = true then 3 else 0
    rw [← h0]
    generalize e.1 = k at hb i1
    interval_cases k <;> simp_all [Nat.testBit]

/-- So do two shots of a module. -/
example (fs : List Func) (f : Func) (s : GBackend F) (io : Io) (hb : ∃ m, bindFunctions fs = .ok m)
    (hf : chooseEntryPoint fs none = .ok f) (hp : f.params = 0) (hr : Ready true io) (hn : Nonneg N s.sim.rng) :
    ∃ outs : List Bytes, outs.length = 2 ∧ (∀ out ∈ outs, ∃ a b rest,
        out = lines [.record (.result a none), .record (.result b none)] ++ rest ∧ (a = false → b = false)) ∧
      ∃ s' io', runModule (step N lib) (reinit N) true fs (fun _ => pairBits) none 2 s io = .ok (s', io') ∧
        io'.stdout = io.stdout ++ outs.flatMap (block f.attrs) := by
  have fine : ∀ rng os out, Course N lib pairBits (.init rng os) allZero out none → False := by
    rintro rng os out ⟨_, _, _, _, rfl, _, _, _, _, rfl, o, _, _, _, rfl, o', _, hb, _, rfl, _, _, _, _, rfl, _, _, _, _, rfl,
      d, hd', hd, _, rfl, rfl, hx⟩
    cases hx
  have shot : ∀ rng os out e, Course N lib pairBits (.init rng os) allZero out e → ∃ a b rest,
      out = lines [.record (.result a none), .record (.result b none)] ++ rest ∧ (a = false → b = false) := by
    intro rng os out e h
    obtain ⟨a, b, l, h1, h2, -⟩ := C81_pair rng os out e h
    exact ⟨a, b, _, h1, h2⟩
  obtain ⟨outs, e, h1, h2⟩ := C81_module (N := N) (lib := lib) true fs (fun _ => pairBits) none f 2 s io hb hf hp hr
    (fun rng os => pairBits_proper rng os) hn
  rcases h1 with ⟨out, h1, -, -⟩ | ⟨o1, δ1, _, outs1, h1, h3 | ⟨o2, δ2, _, outs2, h3, ⟨rfl, rfl⟩, rfl⟩, rfl⟩
  · exact (fine _ _ _ h1).elim
  · obtain ⟨out, h3, -, -⟩ := h3
    exact (fine _ _ _ h3).elim
  · obtain ⟨-, s', io', h4, h5, -⟩ := h2
    refine ⟨_, rfl, ?_, s', io', h4, h5⟩
    intro out ho
    simp only [List.mem_cons, List.not_mem_nil, or_false] at ho
    rcases ho with rfl | rfl
    · exact shot _ _ _ _ h1
    · exact shot _ _ _ _ h3

/-- The states that the last theorems are about: any state of a run, for instance the first. -/
example (N : Num F) (rng : ℕ → F) (os : ℕ → ℕ) (hr : Nonneg N rng) (lib : Lib F) :
    ∃ s1 s2, qstep N lib (.reset 0) (GBackend.new N rng os) = .ok (.unit, [], s1) ∧
      qstep N lib (.mz 0 3) s1 = .ok (.unit, [], s2) ∧ stored s2 3 = false :=
  C81_reset (kept_init N rng os) hr (.inr ⟨rfl, le_refl _⟩) 3

end Gen
end Qir
