import Verif.Props.Handler
import Verif.Props.TVDraw
import Verif.Proof.TVSafe

/-!
# C70: from the program to the counts a user of the Python package sees

A user passes `handler.handle` to `run`, reads `get_output()` back and counts shots.  C66 says what the handler has
received, C61 that a transcript can be read, C65 and C68 how the outputs of the shots are distributed.
-/

noncomputable section
namespace Qir.Run
open Qir.Out

variable {Q A σ : Type}

/-! ## Specification: a reader -/

/-- The complete lines of a text. -/
def readLines : Bytes → Bytes → List Bytes
  | _, [] => []
  | l, b :: bs => if b = 10 then l :: readLines [] bs else readLines (l ++ [b]) bs

/-- The lines between `START` and `END` without those of the metadata, one list for each shot; the first argument tells
what has been read of the current shot. -/
def readShots : Option (List Bytes) → List Bytes → List (List Bytes)
  | _, [] => []
  | none, l :: ls => if l = utf8 "START" then readShots (some []) ls else readShots none ls
  | some acc, l :: ls =>
    if l = utf8 "END\t0" then acc :: readShots none ls
    else if (utf8 "METADATA\t").isPrefixOf l then readShots (some acc) ls
    else readShots (some (acc ++ [l])) ls

/-- What a user reads in the output of a handler. -/
def readOutput (s : String) : List (List Bytes) := readShots none (readLines [] (utf8 s))

/-- Two shots, read. -/
example : readOutput ("START\nMETADATA\tentry_point\nOUTPUT\tRESULT\t1\nOUTPUT\tRESULT\t0\tb\nEND\t0\n" ++
    "START\nMETADATA\tentry_point\nINFO\thello\nEND\t0\n") =
    [[utf8 "OUTPUT\tRESULT\t1", utf8 "OUTPUT\tRESULT\t0\tb"], [utf8 "INFO\thello"]] := by decide +kernel

/-! ## The reader reads transcripts -/

theorem readLines_line : ∀ (l l' bs : Bytes), 10 ∉ l → readLines l' (l ++ 10 :: bs) = (l' ++ l) :: readLines [] bs
  | [], l', bs, _ => by simp [readLines]
  | b :: l, l', bs, h => by
    rw [List.mem_cons, not_or] at h
    rw [List.cons_append, readLines, if_neg fun e => h.1 e.symm, readLines_line l _ bs h.2]
    simp

theorem readLines_endings : ∀ (ls : List Bytes), (∀ l ∈ ls, 10 ∉ l) → readLines [] (ls.flatMap ending) = ls
  | [], _ => rfl
  | l :: ls, h => by
    rw [List.flatMap_cons, ending, List.append_assoc, List.singleton_append, readLines_line l [] _ (h l (by simp)),
      readLines_endings ls fun x hx => h x (by simp [hx])]
    rfl

theorem meta_ne_end (a : String × String) : metaBody a ≠ endBody := by
  intro h
  have := head_meta a
  rw [h, head_end] at this
  simp at this

theorem meta_prefix (a : String × String) : (utf8 "METADATA\t").isPrefixOf (metaBody a) = true := by
  rw [List.isPrefixOf_iff_prefix]
  exact List.prefix_append _ _

theorem event_no_prefix (e : Event) : (utf8 "METADATA\t").isPrefixOf (eventBody e) = false := by
  rw [Bool.eq_false_iff, ne_eq, List.isPrefixOf_iff_prefix]
  rintro ⟨t, h⟩
  have h1 : (utf8 "METADATA\t" ++ t).head? = some 77 := by
    rw [show utf8 "METADATA\t" = 77 :: (utf8 "METADATA\t").tail by decide +kernel]
    rfl
  rw [h] at h1
  rcases head_event e with h2 | h2 | h2 <;> rw [h2] at h1 <;> simp at h1

theorem readShots_meta (acc : List Bytes) (rest : List Bytes) : ∀ as : List (String × String),
    readShots (some acc) (as.map metaBody ++ rest) = readShots (some acc) rest
  | [] => rfl
  | a :: as => by
    rw [List.map_cons, List.cons_append, readShots, if_neg (show ¬ metaBody a = utf8 "END\t0" from meta_ne_end a), if_pos (meta_prefix a),
      readShots_meta acc rest as]

theorem readShots_events (rest : List Bytes) : ∀ (es : List Event) (acc : List Bytes),
    readShots (some acc) (es.map eventBody ++ rest) = readShots (some (acc ++ es.map eventBody)) rest
  | [], acc => by simp
  | e :: es, acc => by
    rw [List.map_cons, List.cons_append, readShots, if_neg (show ¬ eventBody e = utf8 "END\t0" from event_ne_end e),
      if_neg (by rw [event_no_prefix e]; decide), readShots_events rest es]
    simp

theorem readShots_shot (attrs : List (String × String)) (es : List Event) (rest : List Bytes) :
    readShots none (shotLines attrs es ++ rest) = es.map eventBody :: readShots none rest := by
  unfold shotLines
  rw [List.cons_append, readShots, if_pos (show startBody = utf8 "START" from rfl), List.append_assoc, List.append_assoc,
    readShots_meta, readShots_events, List.singleton_append, readShots, if_pos (show endBody = utf8 "END\t0" from rfl),
    List.nil_append]

/-- **C70**, the reader.  In the transcript of a run it finds the complete shots, in order, each with the lines of its
events, and no others. -/
theorem C70_reader (r : Account) (h : r.Clean) :
    readShots none (readLines [] r.text) = r.shots.map fun es => es.map eventBody := by
  rw [text_lines, readLines_endings _ (lines_noLine h)]
  obtain ⟨attrs, shots, ab⟩ := r
  unfold Account.lines
  clear h
  dsimp only
  induction shots with
  | nil =>
    cases ab with
    | none => rfl
    | some es =>
      show readShots none (startBody :: (attrs.map metaBody ++ es.map eventBody)) = []
      rw [readShots, if_pos (show startBody = utf8 "START" from rfl), readShots_meta, ← List.append_nil (es.map eventBody), readShots_events]
      rfl
  | cons es shots ih =>
    rw [List.flatMap_cons, List.append_assoc, readShots_shot, ih]
    rfl

/-- Lines of events are read as such. -/
theorem readLines_events {es : List Event} (h : ∀ e ∈ es, ∀ x, e = Event.record x → x.Clean) :
    readLines [] (Out.lines es) = es.map eventBody := by
  rw [flat_events, readLines_endings]
  intro l hl
  obtain ⟨e, he, rfl⟩ := List.mem_map.1 hl
  exact event_noLine (h e he)

/-! ## Through a handler -/

/-- **C70**, one call with a handler.  If the session goes through, the call returns, nothing is written to `stdout`, and
the handler can be read: one entry for each shot, with the lines the shot has written. -/
theorem C70_handler (w : World Q A σ) (P : Q → Prop) (hw : WritesEvents w.step P) (ht : WritesText w.step P) (i : ℕ)
    (c : PyCall) (hc : c.dest = false) (hseed : c.seed = none) (m : Mod Q A) (f : Func) (hm : Runnable w c m f)
    (hpar : f.params = 0) (hP : AllCalls P (m.code f))
    (ha : ∀ a ∈ f.attrs, 9 ∉ utf8 a.1 ∧ 10 ∉ utf8 a.1 ∧ 10 ∉ utf8 a.2) (p : Proc σ (ℕ → Handler)) (hp : Free p)
    (h0 : p.mem i = Handler.new) (outs : List Bytes) (s' : σ)
    (hs : session w.step w.init (m.code f) c.shots p.s = .ok (outs, s')) :
    ∃ m', callIn w (handlerCallback i) c p = .ok { p with s := s', io := p.io.setStdOut false, mem := m' } ∧
      (∀ j, j ≠ i → m' j = p.mem j) ∧ readOutput (m' i).getOutput = outs.map (readLines []) := by
  have hwordy : Wordy w c := C66_wordy w P ht c fun m₁ f₁ h => by
    obtain ⟨rfl, rfl⟩ := hm.unique h p.s
    exact hP
  have ho : Offers w c p.s (outs.flatMap (shotTexts f.attrs)) (.returns s') :=
    .shots hm (.inl hpar) (.inl ⟨hseed, rfl⟩) hs
  have h1 := C64_call w (handlerFn i) c hc p hp _ _ ho
  obtain ⟨h2, h3, h4⟩ := hand_handler i _ p.mem (hwordy _ _ _ ho)
  unfold Goes at h1
  rw [if_neg (by rw [h2]; simp)] at h1
  refine ⟨_, h1, h4, ?_⟩
  rw [shots_flatten, h0, show utf8 Handler.new.getOutput = [] by decide +kernel, List.nil_append] at h3
  unfold readOutput
  rw [h3]
  obtain ⟨shots, rfl, hcl⟩ := (session_events hw w.init hP c.shots p.s).1 _ _ hs
  have e := C70_reader ⟨f.attrs, shots, none⟩ ⟨ha, hcl, by simp⟩
  unfold Account.text at e
  rw [List.flatMap_map]
  simp only [List.append_nil] at e
  rw [e, List.map_map]
  exact List.map_congr_left fun es hes => (readLines_events (hcl es hes)).symm

end Qir.Run

namespace Qir.Back
open Run Out Sim Spec MeasureTheory

/-- The calls whose labels are text without line feeds; dumps are not events. -/
def Readable (c : QCall) : Prop := Plainly c ∧ Texty c

/-- A call of `run` for `n` shots with a handler and without a seed. -/
def countCall (path : FilePath) (name : Option String) (n : ℕ) : PyCall := .run path name (some n) none true

/-- `n` shots with a new handler: the call returns without writing to `stdout`, and the handler has received `t`. -/
def Gets (w : World QCall QAns Backend) (path : FilePath) (name : Option String) (n : ℕ) (s : Backend) (io : Io)
    (t : String) : Prop :=
  ∃ s' m', callIn w (handlerCallback 0) (countCall path name n) ⟨s, io, false, fun _ => Handler.new⟩ =
      .ok ⟨s', io.setStdOut false, false, m'⟩ ∧ (m' 0).getOutput = t

/-- A world in which there is a program to run: `p`, with an entry point whose attributes are `attrs`. -/
structure Has (w : World QCall QAns Backend) (path : FilePath) (name : Option String) (p : Prog QCall QAns) : Prop where
  init : w.init = reinit
  program : ∀ n, ∃ m f, Runnable w (countCall path name n) m f ∧ f.params = 0 ∧ m.code f = p ∧
    ∀ a ∈ f.attrs, 9 ∉ utf8 a.1 ∧ 10 ∉ utf8 a.1 ∧ 10 ∉ utf8 a.2

theorem Has.gets {w : World QCall QAns Backend} {path : FilePath} {name : Option String} {p : Prog QCall QAns}
    (h : Has w path name p) (hw : WritesEvents w.step Readable) (ht : WritesText w.step Readable)
    (hp : AllCalls Readable p) {s : Backend} {io : Io} (hio : io.recorder.buffer = []) {out : ℕ → Bytes}
    (hs : ∀ n, (session w.step reinit p n s).map Prod.fst = .ok ((List.range n).map out)) (n : ℕ) :
    ∃ t, Gets w path name n s io t ∧ readOutput t = (List.range n).map fun i => readLines [] (out i) := by
  obtain ⟨m, f, h1, h2, rfl, h4⟩ := h.program n
  have hs' : ∃ s', session w.step reinit (m.code f) n s = .ok ((List.range n).map out, s') := by
    have := hs n
    cases hr : session w.step reinit (m.code f) n s with
    | error e => rw [hr] at this; cases this
    | ok r => obtain ⟨o, s'⟩ := r; rw [hr] at this; cases this; exact ⟨s', rfl⟩
  obtain ⟨s', hs'⟩ := hs'
  rw [← h.init] at hs'
  obtain ⟨m', g1, -, g3⟩ := C70_handler w Readable hw ht 0 (countCall path name n) rfl rfl m f h1 h2 hp h4
    ⟨s, io, false, fun _ => Handler.new⟩ ⟨hio, rfl⟩ rfl _ s' hs'
  exact ⟨_, ⟨s', m', g1, rfl⟩, by rw [g3, List.map_map]; rfl⟩

/-! ## Exact arithmetic -/

variable {env : Env} {fmt : Fmt} {p : Prog QCall QAns}

theorem events_readable (env : Env) (fmt : Fmt) : WritesEvents (step env fmt) Readable :=
  fun c s h => C61_library env fmt c s h.1

theorem text_readable (env : Env) (fmt : Fmt) (hf : ∀ l, IsText (fmt.bits l)) : WritesText (step env fmt) Readable :=
  fun c s a out s' h => C66_library env fmt hf c s a out s' h.2

open Classical in
/-- **C70**.  If the program cannot fail, then for almost all samples and words a user who asks for `n` shots and passes
a new handler gets a text in which `n` shots can be read, for every `n`; and the fraction of the shots that read
in a given way converges to the probability with which the records of the ideal device read so.  This whatever
the backend was used for before, and for all ways to read at once. -/
theorem C70_counts (he : env.eps = 0) (hf : ∀ l, IsText (fmt.bits l)) (w : World QCall QAns Backend)
    (hw : w.step = step env fmt) (path : FilePath) (name : Option String) (hp : Has w path name p)
    (hr : AllCalls Readable p) (hm : ∀ r, InUnit r → Proper (settled env fmt p) (Device.init r))
    (h0 : odds byWords (settled env fmt p) blank (failsWith Set.univ) = 0) (s : Backend) (io : Io)
    (hio : io.recorder.buffer = []) :
    ∀ᵐ ω ∂sources, ∃ t : ℕ → String, (∀ n, Gets w path name n (supplied ω s) io (t n)) ∧
      (∀ n, (readOutput (t n)).length = n) ∧
      ∀ L : List Bytes, Filter.Tendsto (fun n : ℕ => ((readOutput (t n)).count L : ℝ) / n) Filter.atTop
        (nhds (odds byWords (settled env fmt p) blank (records {es | readLines [] (lines es) = L}))) := by
  have h := fun L : List Bytes => C65_frequencies (fmt := fmt) he hm h0 s {b | readLines [] b = L}
  rw [← ae_all_iff] at h
  filter_upwards [h] with ω hω
  obtain ⟨out, h1, -⟩ := hω []
  have h2 := fun n => hp.gets (by rw [hw]; exact events_readable env fmt) (by rw [hw]; exact text_readable env fmt hf) hr hio
    (s := supplied ω s) (out := out) (fun n => by rw [hw]; exact h1 n) n
  choose t h2 h3 using h2
  refine ⟨t, h2, fun n => by rw [h3]; simp, fun L => ?_⟩
  obtain ⟨out', g1, g2⟩ := hω L
  have e : ∀ n, (List.range n).map out' = (List.range n).map out := fun n => by
    have := (g1 n).symm.trans (h1 n)
    simpa only [Except.ok.injEq] using this
  refine g2.congr fun n => ?_
  rw [e, h3, List.count, List.countP_map, List.countP_map]
  congr 2
  exact List.countP_congr fun b _ => by simp

end Qir.Back

namespace Qir.RBack
open Run Out Sim Spec MeasureTheory Rnd
open Qir.Back (Backend Fmt Stop blank records lines_append byWords odds sources supplied Plainly Texty Readable Has Gets
  silent bytesOf bytesOf_emit bytesOf_legacy coin bitLine coin_bit coin_noY)

/-! ## Rounded arithmetic -/

variable {A : Arith} {N W M : ℕ} {T : ℝ} {fmt : Fmt} {p : Prog QCall QAns}

/-- What the rounded library writes is text consisting of events, like what the exact one writes. -/
theorem step_readable (A : Arith) (fmt : Fmt) (c : QCall) (s : Backend) (hc : Readable c) :
    (∀ a out s', step A fmt c s = .ok (a, out, s') → IsText out ∧
      ∃ es, out = lines es ∧ ∀ e ∈ es, ∀ x, e = Event.record x → x.Clean) ∧
    (∀ out, step A fmt c s = .error out → ∃ es, out = lines es ∧ ∀ e ∈ es, ∀ x, e = Event.record x → x.Clean) := by
  obtain ⟨hc, hx⟩ := hc
  have none' : IsText [] ∧ ∃ es, ([] : List UInt8) = lines es ∧ ∀ e ∈ es, ∀ x, e = Event.record x → x.Clean :=
    ⟨isText_nil, [], rfl, by simp⟩
  have one : ∀ e : Event, (∀ x, e = Event.record x → x.Clean) →
      ∃ es, e.line = lines es ∧ ∀ e ∈ es, ∀ x, e = Event.record x → x.Clean := by
    intro e he
    refine ⟨[e], by simp [lines], ?_⟩
    intro e' he'
    rw [List.mem_singleton] at he'
    subst he'
    exact he
  have hmsg : ∀ e : Stop, ∃ es, e.output = lines es ∧ ∀ e ∈ es, ∀ x, e = Event.record x → x.Clean := by
    intro e
    unfold Stop.output
    split
    · rename_i msg
      rw [show bytesOf (message msg) = bytesOf (emit (.message msg)) from rfl, bytesOf_emit]
      exact one (.record (.message msg)) (by intro x hx; cases hx; intro t ht; cases ht)
    · exact none'.2
  constructor
  · intro a out s' h
    have hq : qstep A fmt c s = .ok (a, out, s') := by
      unfold step at h
      cases hq : qstep A fmt c s with
      | ok r => rw [hq] at h; cases h; rfl
      | error e => rw [hq] at h; cases h
    have sil : ∀ {r : Except Stop Backend}, silent r = .ok (a, out, s') → out = [] := by
      intro r h
      unfold silent at h
      cases r with
      | error e => cases h
      | ok s => cases h; rfl
    have bnd : ∀ {α : Type} {r : Except Stop α} {f : α → Except Stop (QAns × List UInt8 × Backend)},
        (r >>= f) = .ok (a, out, s') → ∃ x, f x = .ok (a, out, s') := by
      intro α r f h
      cases r with
      | error e => cases h
      | ok x => exact ⟨x, h⟩
    cases c with
    | recordResult r tag =>
      obtain ⟨⟨b, s1⟩, h1⟩ := bnd hq
      cases h1
      rw [show resultRecordOutput b tag = emit (.result b tag) from rfl, bytesOf_emit]
      refine ⟨isText_line (e := .record (.result b tag)) fun t ht => ?_, one (.record (.result b tag)) ?_⟩
      · cases tag with
        | none => cases ht
        | some t' => cases ht; exact hx
      · intro x hx; cases hx; intro t ht
        cases tag with
        | none => cases ht
        | some t' => cases ht; exact hc
    | legacyResult r =>
      obtain ⟨⟨b, s1⟩, h1⟩ := bnd hq
      cases h1
      rw [bytesOf_legacy]
      exact ⟨isText_line trivial, one _ (by intro x hx; cases hx)⟩
    | record e he =>
      cases hq
      rw [bytesOf_emit]
      exact ⟨isText_line (e := .record e) hx, one (.record e) (by intro x hx; cases hx; exact hc)⟩
    | legacy e he =>
      cases hq
      rw [bytesOf_legacy]
      exact ⟨isText_line trivial, one _ (by intro x hx; cases hx)⟩
    | dump l => exact hc.elim
    | fail m => cases hq
    | readResult r => obtain ⟨⟨b, s1⟩, h1⟩ := bnd hq; cases h1; exact none'
    | m q => obtain ⟨⟨b, s1⟩, h1⟩ := bnd hq; cases h1; exact none'
    | measure ps qs => obtain ⟨⟨b, s1⟩, h1⟩ := bnd hq; cases h1; exact none'
    | isZero q => obtain ⟨⟨b, s1⟩, h1⟩ := bnd hq; cases h1; exact none'
    | drawInt lo hi =>
      unfold qstep at hq
      dsimp only at hq
      split at hq <;> cases hq
      exact none'
    | drawDouble lo hi =>
      unfold qstep at hq
      dsimp only at hq
      split at hq <;> cases hq
      exact none'
    | writeResult v r => cases hq; exact none'
    | allocate => cases hq; exact none'
    | barrier => cases hq; exact none'
    | reinit => cases hq; exact none'
    | _ => rw [sil hq]; exact none'
  · intro out h
    unfold step at h
    cases hq : qstep A fmt c s with
    | ok r => rw [hq] at h; cases h
    | error e => rw [hq] at h; cases h; exact hmsg e

theorem events_readable (A : Arith) (fmt : Fmt) : WritesEvents (step A fmt) Readable :=
  fun c s h => ⟨fun a out s' e => ((step_readable A fmt c s h).1 a out s' e).2, (step_readable A fmt c s h).2⟩

theorem text_readable (A : Arith) (fmt : Fmt) : WritesText (step A fmt) Readable :=
  fun c s a out s' h e => ((step_readable A fmt c s h).1 a out s' e).1

/-- **C70**.  With rounded arithmetic a program does not fail, whatever the samples and words, if the ideal device does
not, whatever it finds and draws. -/
theorem C70_safe (h0 : 0 < A.eps) (h1 : A.eps ≤ 1 / 4) (h2 : 1000 * (A.u + A.eta) ≤ A.eps)
    (hw : WithinD A N p blank W M T) (hT : A.u * T + A.eta ≤ A.eps)
    (ht : TurnlessD A fmt p (Backend.new (fun _ => 0) fun _ => 0)) (hs : Safe p blank) (r : ℕ → ℝ) (os : ℕ → ℕ)
    (ho : ∀ n, os n < Std.words) : (outcome A fmt p (Backend.new r os)).2 = true := by
  obtain ⟨x, hx⟩ := never_fails ⟨h0, h1, h2⟩ p (N := N) like_idle le_rfl (low_new _) (by simpa using hT) hw ht hs (r, os) ho
  unfold outcome
  rw [show Backend.new r os = supplied (r, os) idle from rfl, hx]

open Classical in
/-- **C70**, rounded arithmetic.  As `C70_counts`, for a program that the ideal device carries out without failing, whatever
it finds and draws: the fraction of the shots that read in a given way converges to a number within `gap` of the
probability with which the records of the ideal device read so. -/
theorem C70_rounded (h0 : 0 < A.eps) (h1 : A.eps ≤ 1 / 4) (h2 : 1000 * (A.u + A.eta) ≤ A.eps)
    (hw : WithinD A N p blank W M T) (hT : A.u * T + A.eta ≤ A.eps)
    (ht : TurnlessD A fmt p (Backend.new (fun _ => 0) fun _ => 0)) (hs : Safe p blank) (w : World QCall QAns Backend)
    (hstep : w.step = step A fmt) (path : FilePath) (name : Option String) (hp : Has w path name p)
    (hr : AllCalls Readable p) (s : Backend) (io : Io) (hio : io.recorder.buffer = []) :
    ∃ P : List Bytes → ℝ,
      (∀ L, |P L - odds byWords p blank (records {es | readLines [] (lines es) = L})| ≤ gap A N W M) ∧
      ∀ᵐ ω ∂sources, ∃ t : ℕ → String, (∀ n, Gets w path name n (supplied ω s) io (t n)) ∧
        (∀ n, (readOutput (t n)).length = n) ∧
        ∀ L : List Bytes, Filter.Tendsto (fun n : ℕ => ((readOutput (t n)).count L : ℝ) / n) Filter.atTop (nhds (P L)) := by
  have h := fun L : List Bytes => C68_frequencies (fmt := fmt) h0 h1 h2 hw hT ht (C70_safe h0 h1 h2 hw hT ht hs) s
    {b | readLines [] b = L}
  choose P hP h using h
  refine ⟨P, hP, ?_⟩
  rw [← ae_all_iff] at h
  filter_upwards [h] with ω hω
  obtain ⟨out, h1, -⟩ := hω []
  have h2 := fun n => hp.gets (by rw [hstep]; exact events_readable A fmt) (by rw [hstep]; exact text_readable A fmt) hr hio
    (s := supplied ω s) (out := out) (fun n => by rw [hstep]; exact h1 n) n
  choose t h2 h3 using h2
  refine ⟨t, h2, fun n => by rw [h3]; simp, fun L => ?_⟩
  obtain ⟨out', g1, g2⟩ := hω L
  have e : ∀ n, (List.range n).map out' = (List.range n).map out := fun n => by
    have := (g1 n).symm.trans (h1 n)
    simpa only [Except.ok.injEq] using this
  refine g2.congr fun n => ?_
  rw [e, h3, List.count, List.countP_map, List.countP_map]
  congr 2
  exact List.countP_congr fun b _ => by simp

/-! ### A concrete program -/

theorem coin_safe : Safe coin blank := by
  refine ⟨_, _, _, rfl, ⟨_, _, _, rfl, fun v => ⟨_, _, _, rfl, ?_⟩⟩⟩
  dsimp only
  split
  · exact ⟨_, _, _, rfl, ⟨_, _, _, rfl, trivial⟩⟩
  · exact ⟨_, _, _, rfl, trivial⟩

theorem coin_readable : AllCalls Readable coin := by
  refine ⟨⟨trivial, trivial⟩, fun _ => ⟨⟨trivial, trivial⟩, fun _ => ⟨⟨trivial, trivial⟩, fun _ => ⟨⟨trivial, trivial⟩,
    fun a => ?_⟩⟩⟩⟩
  dsimp only
  split
  · exact ⟨⟨trivial, trivial⟩, fun _ => ⟨⟨trivial, trivial⟩, fun _ => trivial⟩⟩
  · exact ⟨⟨trivial, trivial⟩, fun _ => trivial⟩

/-- A world with the module of the coin in every file. -/
def coinWorld (A : Arith) (fmt : Fmt) : World QCall QAns Backend where
  step := step A fmt
  init := Back.reinit
  setSeed := fun _ s => s
  parseIr := fun _ _ => some ⟨Back.coinModule, fun _ => coin⟩
  parseBitcode := fun _ => some ⟨Back.coinModule, fun _ => coin⟩
  prepare := some
  readFile := fun _ => some [1]
  help := []

theorem coinWorld_has (A : Arith) (fmt : Fmt) : Has (coinWorld A fmt) ⟨"coin.ll", some "ll"⟩ none coin := by
  refine ⟨rfl, fun n => ⟨⟨Back.coinModule, fun _ => coin⟩, _, ⟨⟨Back.coinModule, fun _ => coin⟩, ⟨[1], rfl, .inl ⟨rfl, rfl⟩⟩, rfl,
    Back.coinModule_binds, rfl⟩, rfl, rfl, ?_⟩⟩
  decide +kernel

theorem readLines_full : ∀ (bs l : Bytes), bs.getLast? = some 10 → (readLines l bs).flatMap ending = l ++ bs
  | [], l, hl => by cases hl
  | b :: bs, l, hl => by
    unfold readLines
    by_cases hb : b = 10
    · rw [if_pos hb, List.flatMap_cons, ending, hb]
      cases bs with
      | nil => simp [readLines]
      | cons b' bs' => rw [readLines_full (b' :: bs') [] (by simpa using hl)]; simp
    · rw [if_neg hb]
      cases bs with
      | nil => exact absurd (by simpa using hl) hb
      | cons b' bs' => rw [readLines_full (b' :: bs') _ (by simpa using hl)]; simp

theorem lines_last (es : List Event) (h : es ≠ []) : (lines es).getLast? = some 10 := by
  rw [flat_events]
  induction es using List.reverseRecOn with
  | nil => exact absurd rfl h
  | append_singleton es e _ => simp [ending]

/-- The line of a bit without its end. -/
def bitText (b : Bool) : Bytes := if b then utf8 "OUTPUT\tRESULT\t1" else utf8 "OUTPUT\tRESULT\t0"

theorem reads_bit (b : Bool) (es : List Event) : readLines [] (lines es) = [bitText b] ↔ lines es ∈ ({bitLine b} : Set Bytes) := by
  have e : bitLine b = ending (bitText b) := by cases b <;> decide +kernel
  have e' : readLines [] (bitLine b) = [bitText b] := by cases b <;> decide +kernel
  constructor
  · intro h
    by_cases he : es = []
    · subst he
      cases h
    · have := readLines_full (lines es) [] (lines_last es he)
      rw [h] at this
      simpa [← e] using this.symm
  · intro h
    rw [Set.mem_singleton_iff.1 h, e']

/-- **C70** for the coin, in double precision, whatever the order of iteration and whatever the backend was used for
before.  A user runs it with a new handler and counts: the fraction of the shots in which the only record is the result
`b` converges to a number within a millionth of one half. -/
theorem C70_coin (shuffle : List (ℕ × ℂ) → List (ℕ × ℂ)) (hs : ∀ l, (shuffle l).Perm l) (s : Backend) (io : Io)
    (hio : io.recorder.buffer = []) : ∃ P : Bool → ℝ, (∀ b, |P b - 1 / 2| ≤ 1e-6) ∧
      ∀ᵐ ω ∂sources, ∃ t : ℕ → String,
        (∀ n, Gets (coinWorld (binary64 shuffle hs) fmt) ⟨"coin.ll", some "ll"⟩ none n (supplied ω s) io (t n)) ∧
        (∀ n, (readOutput (t n)).length = n) ∧
        ∀ b, Filter.Tendsto (fun n : ℕ => ((readOutput (t n)).count [bitText b] : ℝ) / n) Filter.atTop (nhds (P b)) := by
  obtain ⟨h0, h1, h2⟩ := C62_binary64 shuffle hs
  obtain ⟨hT, hg⟩ := C63_binary64 shuffle hs
  obtain ⟨P, hP, h⟩ := C70_rounded (fmt := fmt) h0 h1 h2 (C68_plain (coin_within _)) (hT 0 (by norm_num))
    (C68_no_turn coin_noY _) coin_safe (coinWorld (binary64 shuffle hs) fmt) rfl _ none (coinWorld_has _ fmt) coin_readable s io hio
  refine ⟨fun b => P [bitText b], fun b => ?_, ?_⟩
  · have := hP [bitText b]
    simp only [reads_bit] at this
    rw [Back.odds_seeded _ _ coin_seeded, coin_bit] at this
    refine this.trans ((hg 2 67 1).trans ?_)
    have : √((2 : ℝ) ^ 2) = 2 := by rw [Real.sqrt_sq (by norm_num)]
    rw [this]
    norm_num
  · filter_upwards [h] with ω hω
    obtain ⟨t, t1, t2, t3⟩ := hω
    exact ⟨t, t1, t2, fun b => t3 _⟩

end Qir.RBack
