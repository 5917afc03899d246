import Verif.Proof.LineEnds

/-!
# C85: line ends
-/

noncomputable section
namespace Qir.Eol
open Spec Qir.Std Qir.Out Qir.Run

variable {Q A σ : Type}

/-! ## The lines of a run -/

theorem text_nil (eol : Bytes) : text eol [] = [] := rfl

theorem text_append (eol : Bytes) (a b : List Line) : text eol (a ++ b) = text eol a ++ text eol b := by simp [text]

theorem text_cons (eol : Bytes) (a : Line) (b : List Line) : text eol (a :: b) = a.bytes eol ++ text eol b := by simp [text]

/-- Lines that end as the platform has it. -/
def plain (ls : List Bytes) : List Line := ls.map (⟨·, false⟩)

theorem text_plain (eol : Bytes) (ls : List Bytes) : text eol (plain ls) = join eol ls := by
  induction ls with
  | nil => rfl
  | cons l ls ih => simp [plain, text, join, Line.bytes] at ih ⊢; exact ih

theorem start_bytes (eol : Bytes) : start.bytes eol = utf8 "START\n" := by
  show utf8 "START" ++ [10] = _
  decide +kernel

/-- The line for an attribute. -/
def attrLine (a : String × String) : Bytes :=
  utf8 "METADATA\t" ++ utf8 a.1 ++ (if a.2 = "" then [] else utf8 "\t" ++ utf8 a.2)

theorem seen_writeAttr (eol : Bytes) (b : Bool) (io : Io) (a : String × String) :
    seen b (writeAttr eol b io a) = seen b io ++ (attrLine a ++ eol) ∧ (writeAttr eol b io a).recorder = io.recorder ∧
      seen (!b) (writeAttr eol b io a) = seen (!b) io := by
  by_cases h : a.2 = ""
  · have h' : a.2.isEmpty = true := by rw [h]; decide
    have e : writeAttr eol b io a =
        writeOut b eol (writeOut b (utf8 "METADATA\t" ++ utf8 a.1) io) := by
      simp only [writeAttr, h', if_true]
    rw [e, attrLine, if_pos h, seen_w, seen_w, rec_w, rec_w, other_w, other_w]
    simp
  · have h' : ¬ a.2.isEmpty = true := by rwa [String.isEmpty_iff]
    have e : writeAttr eol b io a = writeOut b eol (writeOut b (utf8 "\t" ++ utf8 a.2)
        (writeOut b (utf8 "METADATA\t" ++ utf8 a.1) io)) := by
      simp only [writeAttr, h']; rfl
    rw [e, attrLine, if_neg h, seen_w, seen_w, seen_w, rec_w, rec_w, rec_w, other_w, other_w, other_w]
    simp

theorem seen_attrs (eol : Bytes) (b : Bool) (as : List (String × String)) (io : Io) :
    seen b (as.foldl (writeAttr eol b) io) = seen b io ++ join eol (as.map attrLine) ∧
      (as.foldl (writeAttr eol b) io).recorder = io.recorder ∧
      seen (!b) (as.foldl (writeAttr eol b) io) = seen (!b) io := by
  induction as generalizing io with
  | nil => simp [join]
  | cons a as ih =>
    have h := ih (writeAttr eol b io a)
    have h' := seen_writeAttr eol b io a
    simp only [List.foldl_cons, List.map_cons]
    exact ⟨by rw [h.1, h'.1, List.append_assoc]; rfl, h.2.1.trans h'.2.1, h.2.2.trans h'.2.2⟩

/-- A family of libraries, one for every line ending, that differ in the line ending only. -/
def LineSteps (step : Bytes → StepFn Q A σ) (P : Q → Prop) : Prop :=
  ∀ c s, ∃ r : Except (List Bytes) (A × List Bytes × σ), (∀ eol, step eol c s = ended eol r) ∧
    (P c → ∀ l ∈ said r, NoCr l)

theorem speech_lines {step : Bytes → StepFn Q A σ} {P : Q → Prop} (hs : LineSteps step P) (p : Prog Q A) :
    ∀ s : σ, ∃ r : Except (List Bytes) (List Bytes × σ),
      (∀ eol, speech (step eol) p s = match r with
        | .ok (ls, s') => .ok (join eol ls, s')
        | .error ls => .error (join eol ls)) ∧
      (AllCalls P p → ∀ l ∈ (match r with | .ok (ls, _) => ls | .error ls => ls), NoCr l) := by
  induction p with
  | done => intro s; exact ⟨.ok ([], s), fun eol => rfl, fun _ l hl => by cases hl⟩
  | call q k ih =>
    intro s
    obtain ⟨r, h1, h2⟩ := hs q s
    cases r with
    | error ls =>
      refine ⟨.error ls, fun eol => ?_, fun h => h2 h.1⟩
      simp only [speech, h1 eol, ended]
    | ok x =>
      obtain ⟨a, ls, s1⟩ := x
      obtain ⟨r, g1, g2⟩ := ih a s1
      cases r with
      | error ls' =>
        refine ⟨.error (ls ++ ls'), fun eol => ?_, fun h l hl => ?_⟩
        · simp only [speech, h1 eol, ended, g1 eol, join_append]
        · rcases List.mem_append.1 hl with hl | hl
          · exact h2 h.1 l hl
          · exact g2 (h.2 a) l hl
      | ok y =>
        obtain ⟨ls', s2⟩ := y
        refine ⟨.ok (ls ++ ls', s2), fun eol => ?_, fun h l hl => ?_⟩
        · simp only [speech, h1 eol, ended, g1 eol, join_append]
        · rcases List.mem_append.1 hl with hl | hl
          · exact h2 h.1 l hl
          · exact g2 (h.2 a) l hl

/-- The lines of a shot. -/
def shotLines (f : Func) (ls : List Bytes) : List Line :=
  start :: (plain (f.attrs.map attrLine) ++ (plain ls ++ [⟨utf8 "END\t0", false⟩]))

/-- The lines of a shot that does not end. -/
def openLines (f : Func) (ls : List Bytes) : List Line := start :: (plain (f.attrs.map attrLine) ++ plain ls)

theorem runShot_lines {step : Bytes → StepFn Q A σ} {P : Q → Prop} (hs : LineSteps step P) (init : σ → σ) (b m : Bool)
    (f : Func) (p : Prog Q A) (s : σ) :
    ∃ (ls : List Bytes) (res : Except RunError σ), (AllCalls P p → ∀ l ∈ ls, NoCr l) ∧ ∀ eol io, Ready b io →
      io.recorder.useStdOut = m →
      match res with
      | .ok s' => ∃ io', runShot eol (step eol) init b f p s io = .ok (s', io') ∧ Ready b io' ∧
          io'.recorder.useStdOut = m ∧ seen b io' = seen b io ++ text eol (shotLines f ls) ∧ seen (!b) io' = seen (!b) io
      | .error e => ∃ io', runShot eol (step eol) init b f p s io = .error (e, io') ∧
          io'.recorder.buffer = (if m then [] else join eol ls) ∧
          seen b io' = seen b io ++ text eol (openLines f (if m then ls else [])) ∧ seen (!b) io' = seen (!b) io := by
  by_cases hf : f.params = 0
  case neg =>
    refine ⟨[], .error .entryPointParameters, fun _ l hl => (by cases hl), fun eol io hr hm => ?_⟩
    have h0 := seen_writeOut b (utf8 "START\n") io
    have h1 := seen_attrs eol b f.attrs (writeOut b (utf8 "START\n") io)
    refine ⟨_, by simp only [runShot, if_neg hf]; rfl, ?_, ?_, ?_⟩
    · rw [h1.2.1, h0.2.1, hr.empty, join_nil]; cases m <;> rfl
    · rw [h1.1, h0.1]
      simp only [ite_self, openLines, plain, List.map_nil, List.append_nil, text_cons, start_bytes, List.append_assoc]
      rw [← text_plain]; rfl
    · rw [h1.2.2, h0.2.2]
  case pos =>
  obtain ⟨r, hr1, hr2⟩ := speech_lines hs p (init s)
  have main : ∀ eol io, Ready b io → io.recorder.useStdOut = m → ∃ io1, io1 = f.attrs.foldl (writeAttr eol b)
      (writeOut b (utf8 "START\n") io) ∧ io1.recorder = io.recorder ∧ io1.recorder.buffer = [] ∧
      seen b io1 = seen b io ++ (utf8 "START\n" ++ join eol (f.attrs.map attrLine)) ∧ seen (!b) io1 = seen (!b) io := by
    intro eol io hr hm
    have h0 := seen_writeOut b (utf8 "START\n") io
    have h1 := seen_attrs eol b f.attrs (writeOut b (utf8 "START\n") io)
    refine ⟨_, rfl, h1.2.1.trans h0.2.1, ?_, ?_, ?_⟩
    · rw [h1.2.1, h0.2.1]; exact hr.empty
    · rw [h1.1, h0.1, List.append_assoc]
    · rw [h1.2.2, h0.2.2]
  cases r with
  | error ls =>
    refine ⟨ls, .error .aborted, hr2, fun eol io hr hm => ?_⟩
    obtain ⟨io1, e1, e2, e3, e4, e5⟩ := main eol io hr hm
    have := runProg_says (step eol) (m := m) (b := b) (by rw [← hm]; exact hr.mode) p (init s) io1 (by rw [e2, hm])
    simp only [hr1 eol] at this
    obtain ⟨io2, h2, h3, h4, -, h5⟩ := this
    refine ⟨io2, by simp only [runShot, hf, if_true, ← e1, h2], ?_, ?_, ?_⟩
    · rw [h4, e3, List.nil_append]
    · rw [h3, e4]
      cases m <;>
        simp [openLines, text_cons, text_append, start_bytes, plain] <;> simp [← text_plain, plain]
    · rw [h5, e5]
  | ok x =>
    obtain ⟨ls, s'⟩ := x
    refine ⟨ls, .ok s', hr2, fun eol io hr hm => ?_⟩
    obtain ⟨io1, e1, e2, e3, e4, e5⟩ := main eol io hr hm
    have := runProg_says (step eol) (m := m) (b := b) (by rw [← hm]; exact hr.mode) p (init s) io1 (by rw [e2, hm])
    simp only [hr1 eol] at this
    obtain ⟨io2, h2, h3, h4, h5, h6⟩ := this
    refine ⟨_, by simp only [runShot, hf, if_true, ← e1, h2]; rfl, ⟨?_, ?_⟩, ?_, ?_, ?_⟩
    · simp only [rec_w, Io.drain]; rw [h5, ← hm]; exact hr.mode
    · simp only [rec_w, Io.drain]
    · simp only [rec_w, Io.drain]; exact h5
    · simp only [seen_w, Io.drain]
      have e : seen b { io2 with recorder := { io2.recorder with buffer := [] } } = seen b io2 := by
        cases b <;> rfl
      have h3' : seen b io2 ++ io2.recorder.buffer = seen b io1 ++ join eol ls := by
        rw [h3, h4, e3]
        cases m <;> simp
      rw [e, h3', e4]
      simp only [shotLines, text_cons, text_append, text_plain, text_nil, Line.bytes, List.append_assoc, List.append_nil]
      rfl
    · simp only [other_w, Io.drain]
      have e : seen (!b) { io2 with recorder := { io2.recorder with buffer := [] } } = seen (!b) io2 := by
        cases b <;> rfl
      rw [e, h6, e5]

theorem plain_fixed (ls : List Bytes) : (plain ls).filter (·.fixed) = [] := by
  simp [plain]

theorem shotLines_fixed (f : Func) (ls : List Bytes) : (shotLines f ls).filter (·.fixed) = [start] := by
  rw [shotLines, List.filter_cons_of_pos rfl, List.filter_append, List.filter_append, plain_fixed, plain_fixed]
  rfl

theorem openLines_fixed (f : Func) (ls : List Bytes) : (openLines f ls).filter (·.fixed) = [start] := by
  rw [openLines, List.filter_cons_of_pos rfl, List.filter_append, plain_fixed, plain_fixed]
  rfl

theorem attrLine_noCr {a : String × String} (h : (13 : UInt8) ∉ utf8 a.1 ∧ (13 : UInt8) ∉ utf8 a.2) : NoCr (attrLine a) := by
  unfold NoCr attrLine
  rw [List.mem_append, List.mem_append, not_or, not_or]
  refine ⟨⟨by decide +kernel, h.1⟩, ?_⟩
  split
  · simp
  · rw [List.mem_append, not_or]
    exact ⟨by decide +kernel, h.2⟩

theorem plain_noCr {ls : List Bytes} (h : ∀ l ∈ ls, NoCr l) : ∀ l ∈ plain ls, NoCr l.text := by
  intro l hl
  obtain ⟨x, hx, rfl⟩ := List.mem_map.1 hl
  exact h x hx

theorem attrs_noCr {f : Func} (hf : TameAttrs f) : ∀ l ∈ f.attrs.map attrLine, NoCr l := by
  intro l hl
  obtain ⟨a, ha, rfl⟩ := List.mem_map.1 hl
  exact attrLine_noCr (hf a ha)

theorem start_noCr : NoCr start.text := by
  show (13 : UInt8) ∉ utf8 "START"
  decide +kernel

theorem openLines_noCr {f : Func} (hf : TameAttrs f) {ls : List Bytes} (h : ∀ l ∈ ls, NoCr l) :
    ∀ l ∈ openLines f ls, NoCr l.text := by
  intro l hl
  rw [openLines, List.mem_cons, List.mem_append] at hl
  rcases hl with rfl | hl | hl
  · exact start_noCr
  · exact plain_noCr (attrs_noCr hf) l hl
  · exact plain_noCr h l hl

theorem shotLines_noCr {f : Func} (hf : TameAttrs f) {ls : List Bytes} (h : ∀ l ∈ ls, NoCr l) :
    ∀ l ∈ shotLines f ls, NoCr l.text := by
  intro l hl
  rw [shotLines, List.mem_cons, List.mem_append, List.mem_append, List.mem_singleton] at hl
  rcases hl with rfl | hl | hl | rfl
  · exact start_noCr
  · exact plain_noCr (attrs_noCr hf) l hl
  · exact plain_noCr h l hl
  · show (13 : UInt8) ∉ utf8 "END\t0"
    decide +kernel

theorem runShots_lines {step : Bytes → StepFn Q A σ} {P : Q → Prop} (hs : LineSteps step P) (init : σ → σ) (b m : Bool)
    (f : Func) (p : Prog Q A) : ∀ (n : ℕ) (s : σ),
    ∃ (T : List Line) (pending : List Bytes) (res : Except RunError σ) (k : ℕ), T.filter (·.fixed) = List.replicate k start ∧
      k ≤ n ∧ (0 < n → ∃ T', T = start :: T') ∧ (∀ s', res = .ok s' → k = n ∧ pending = []) ∧
      (AllCalls P p → TameAttrs f → (∀ l ∈ T, NoCr l.text) ∧ ∀ l ∈ pending, NoCr l) ∧
      ∀ eol io, Ready b io → io.recorder.useStdOut = m →
        outcome (runShots eol (step eol) init b f p n s io) = res ∧
        seen b (after (runShots eol (step eol) init b f p n s io)) = seen b io ++ text eol T ∧
        (after (runShots eol (step eol) init b f p n s io)).recorder.buffer = join eol pending ∧
        seen (!b) (after (runShots eol (step eol) init b f p n s io)) = seen (!b) io
  | 0, s => ⟨[], [], .ok s, 0, rfl, le_refl _, by simp, fun _ _ => ⟨rfl, rfl⟩, fun _ _ => ⟨by simp, by simp⟩,
      fun eol io hr _ => ⟨rfl, by simp [runShots, after, text_nil], hr.empty, rfl⟩⟩
  | n + 1, s => by
    obtain ⟨ls, res, h1, h2⟩ := runShot_lines hs init b m f p s
    cases res with
    | error e =>
      refine ⟨openLines f (if m then ls else []), if m then [] else ls, .error e, 1, openLines_fixed _ _, by omega,
        fun _ => ⟨_, rfl⟩, (by intro s' h; cases h), ?_, fun eol io hr hm => ?_⟩
      · intro hp hf
        refine ⟨openLines_noCr hf ?_, ?_⟩ <;> cases m <;> simp <;> exact h1 hp
      · obtain ⟨io', g1, g2, g3, g4⟩ := h2 eol io hr hm
        simp only [runShots, g1]
        refine ⟨rfl, g3, ?_, g4⟩
        show io'.recorder.buffer = _
        rw [g2]
        cases m <;> rfl
    | ok s1 =>
      obtain ⟨T, pending, res, k, i1, i2, -, i3, i4, i5⟩ := runShots_lines hs init b m f p n s1
      refine ⟨shotLines f ls ++ T, pending, res, k + 1, ?_, by omega, fun _ => ⟨_, rfl⟩, ?_, ?_, fun eol io hr hm => ?_⟩
      · rw [List.filter_append, shotLines_fixed, i1]
        rfl
      · intro s' hs'
        obtain ⟨rfl, rfl⟩ := i3 s' hs'
        exact ⟨rfl, rfl⟩
      · intro hp hf
        obtain ⟨j1, j2⟩ := i4 hp hf
        refine ⟨fun l hl => ?_, j2⟩
        rcases List.mem_append.1 hl with hl | hl
        · exact shotLines_noCr hf (h1 hp) l hl
        · exact j1 l hl
      · obtain ⟨io', g1, g2, g3, g4, g5⟩ := h2 eol io hr hm
        obtain ⟨j1, j2, j3, j4⟩ := i5 eol io' g2 g3
        simp only [runShots, g1]
        refine ⟨j1, ?_, j3, j4.trans g5⟩
        rw [j2, g4, text_append, List.append_assoc]

theorem lineSteps (env : Env) {fmt : Back.Fmt} : LineSteps (fun eol => step eol env fmt) (fun c => Tame c ∧ TameFmt fmt) := by
  intro c s
  obtain ⟨r, h1, h2⟩ := step_lines env fmt c s
  exact ⟨r, h1, fun h => h2 h.1 h.2⟩

theorem allCalls_and {P R : Q → Prop} {p : Prog Q A} (h : AllCalls P p) (hR : ∀ q, P q → R q) : AllCalls R p := by
  induction p with
  | done => trivial
  | call q k ih => exact ⟨hR q h.1, fun a => ih a (h.2 a)⟩

/-! ## C85 -/

/-- **C85**, the whole of it for one run.  There is a list of lines, the same whatever the line ending, such that for every
line ending the run ends in the same way and writes these lines.  All of them end as the platform has it except for the
lines `START`, of which there is one for each shot begun.  What is left in the buffer when a run is aborted are whole lines. -/
theorem C85_transcript (env : Env) (fmt : Back.Fmt) (toStdOut : Bool) (fs : List Func) (code : Func → Prog QCall QAns)
    (name : Option String) (n : ℕ) (s : Back.Backend) (io : Io) (hr : Ready toStdOut io) :
    ∃ (T : List Line) (pending : List Bytes) (res : Except RunError Back.Backend) (k : ℕ),
      T.filter (·.fixed) = List.replicate k start ∧ k ≤ n ∧ (∀ s', res = .ok s' → k = n ∧ pending = []) ∧
      ((∀ f, chooseEntryPoint fs name = .ok f → 0 < n → (∃ m, bindFunctions fs = .ok m) → ∃ T', T = start :: T')) ∧
      ((∀ f, chooseEntryPoint fs name = .ok f → TameAttrs f ∧ AllCalls Tame (code f)) → TameFmt fmt →
        ∀ l ∈ T, 13 ∉ l.text) ∧
      ∀ eol, outcome (runModule eol env fmt toStdOut fs code name n s io) = res ∧
        seen toStdOut (after (runModule eol env fmt toStdOut fs code name n s io)) = seen toStdOut io ++ text eol T ∧
        (after (runModule eol env fmt toStdOut fs code name n s io)).recorder.buffer = text eol (pending.map (⟨·, false⟩)) ∧
        seen (!toStdOut) (after (runModule eol env fmt toStdOut fs code name n s io)) = seen (!toStdOut) io := by
  cases hb : bindFunctions fs with
  | error e =>
    refine ⟨[], [], .error e, 0, rfl, by omega, (by intro s' h; cases h), (by rintro _ _ _ ⟨m, h⟩; cases h), (by simp), ?_⟩
    intro eol
    simp only [runModule, hb]
    exact ⟨rfl, by simp [after, text_nil], hr.empty, rfl⟩
  | ok m =>
    cases hc : chooseEntryPoint fs name with
    | error e =>
      refine ⟨[], [], .error e, 0, rfl, by omega, (by intro s' h; cases h), (by intro _ h; cases h), (by simp), ?_⟩
      intro eol
      simp only [runModule, hb, hc]
      exact ⟨rfl, by simp [after, text_nil], hr.empty, rfl⟩
    | ok f =>
      obtain ⟨T, pending, res, k, i1, i2, i0, i3, i4, i5⟩ :=
        runShots_lines (lineSteps env (fmt := fmt)) Back.reinit toStdOut io.recorder.useStdOut f (code f) n s
      refine ⟨T, pending, res, k, i1, i2, i3, fun _ _ h0 _ => i0 h0, fun h hf => ?_, fun eol => ?_⟩
      · obtain ⟨h1, h2⟩ := h f rfl
        exact (i4 (allCalls_and h2 fun q hq => ⟨hq, hf⟩) h1).1
      · simp only [runModule, hb, hc]
        obtain ⟨j1, j2, j3, j4⟩ := i5 eol io hr rfl
        exact ⟨j1, j2, by rw [j3, ← text_plain]; rfl, j4⟩

/-! ### Elsewhere than on Windows -/

theorem dump_unix (env : Env) (fmt : ℂ → String) (s : Sim) :
    dump unix env fmt s = (Sim.dump env fmt s).map (fun x => (utf8 x.1, x.2)) := by
  have e : ∀ l, dumpText unix fmt l = utf8 (Sim.dumpText fmt l) := by
    intro l
    have h : utf8 "\n" = unix := by decide +kernel
    simp only [dumpText, Sim.dumpText, utf8_append, h]
  unfold dump Sim.dump
  dsimp only
  cases Sim.flushQueue env (s.idMap.iter.map Prod.fst) .HRxRy s with
  | error p => rfl
  | ok s1 =>
    simp only [bind, Except.bind]
    cases Sim.relocate env 0 (s.idMap.iter.map Prod.fst) s1 with
    | error p => rfl
    | ok s2 => simp only [pure, Except.pure, e, Except.map]

theorem qstep_unix (env : Env) (fmt : Back.Fmt) (c : QCall) (s : Back.Backend) :
    qstep unix env fmt c s = Back.qstep env fmt c s := by
  cases c <;> try rfl
  case dump location =>
    cases location
    · simp only [qstep, Back.qstep, dumpMachine, Back.dumpMachine, Back.ask, dump_unix]
      cases Sim.dump env fmt.amplitude s.sim <;> rfl
    · rfl

theorem step_unix (env : Env) (fmt : Back.Fmt) : step unix env fmt = Back.step env fmt := by
  funext c s
  simp only [step, Back.step, qstep_unix]
  cases Back.qstep env fmt c s with
  | ok r => rfl
  | error e => cases e <;> rfl

theorem runShots_unix (step : StepFn Q A σ) (init : σ → σ) (b : Bool) (f : Func) (p : Prog Q A) :
    ∀ (n : ℕ) (s : σ) (io : Io), runShots unix step init b f p n s io = Run.runShots step init b f p n s io
  | 0, _, _ => rfl
  | n + 1, s, io => by
    have h : runShot unix step init b f p s io = Run.runShot step init b f p s io := rfl
    simp only [runShots, Run.runShots, h]
    cases Run.runShot step init b f p s io with
    | error e => rfl
    | ok x => exact runShots_unix step init b f p n x.1 x.2

/-- **C85**: where lines end in a line feed this is the runner of the other theorems (C40, C49, C61). -/
theorem C85_unix (env : Env) (fmt : Back.Fmt) (toStdOut : Bool) (fs : List Func) (code : Func → Prog QCall QAns)
    (name : Option String) (n : ℕ) (s : Back.Backend) (io : Io) :
    runModule unix env fmt toStdOut fs code name n s io =
      Run.runModule (Back.step env fmt) Back.reinit toStdOut fs code name n s io := by
  unfold runModule Run.runModule
  cases bindFunctions fs with
  | error e => rfl
  | ok m =>
    dsimp only
    cases chooseEntryPoint fs name with
    | error e => rfl
    | ok f => simp only [step_unix, runShots_unix]

/-! ### Reading a transcript on either platform -/

theorem universal_noCr {l : Bytes} (hl : NoCr l) (rest : Bytes) : universal (l ++ rest) = l ++ universal rest := by
  induction l with
  | nil => rfl
  | cons x l ih =>
    rw [NoCr, List.mem_cons, not_or] at hl
    have hx : ∀ r, universal (x :: r) = x :: universal r := by
      intro r
      rw [universal]
      all_goals intros; simp_all
    rw [List.cons_append, hx, ih hl.2]
    rfl

theorem universal_text : ∀ {T : List Line}, (∀ l ∈ T, NoCr l.text) →
    universal (text windows T) = text unix T ∧ universal (text unix T) = text unix T
  | [], _ => ⟨rfl, rfl⟩
  | l :: T, h => by
    obtain ⟨h1, h2⟩ := universal_text (T := T) fun x hx => h x (by simp [hx])
    have hl := h l (by simp)
    have hn : ∀ r, universal (10 :: r) = 10 :: universal r := by
      intro r
      rw [universal] <;> simp
    have hw : ∀ r, universal (13 :: 10 :: r) = 10 :: universal r := by
      intro r
      rw [universal]
    simp only [text_cons, Line.bytes, windows, unix, List.append_assoc] at h1 h2 ⊢
    rw [universal_noCr hl, universal_noCr hl]
    cases l.fixed
    · simp [hw, hn, h1, h2]
    · simp [hn, h1, h2]

/-- **C85**: if labels, attributes and the texts of amplitudes contain no carriage return, a reader that takes either line
ending reads the same text from the transcript on Windows and from the one elsewhere: the latter. -/
theorem C85_read (env : Env) {fmt : Back.Fmt} (hfmt : TameFmt fmt) (toStdOut : Bool) (fs : List Func)
    (code : Func → Prog QCall QAns) (name : Option String) (n : ℕ) (s : Back.Backend) (io : Io) (hr : Ready toStdOut io)
    (hf : ∀ f, chooseEntryPoint fs name = .ok f → TameAttrs f ∧ AllCalls Tame (code f)) :
    ∃ w u, seen toStdOut (after (runModule windows env fmt toStdOut fs code name n s io)) = seen toStdOut io ++ w ∧
      seen toStdOut (after (Run.runModule (Back.step env fmt) Back.reinit toStdOut fs code name n s io)) =
        seen toStdOut io ++ u ∧ universal w = u ∧ universal u = u := by
  obtain ⟨T, pending, res, k, -, -, -, -, h1, h2⟩ := C85_transcript env fmt toStdOut fs code name n s io hr
  refine ⟨text windows T, text unix T, (h2 windows).2.1, ?_, universal_text (h1 hf hfmt)⟩
  rw [← C85_unix]
  exact (h2 unix).2.1

/-- **C85**: the condition on labels is needed.  A label that ends in a carriage return is not told from the line end: the
line written on one platform is that of another label on the other, and reading either line ending gives two different texts. -/
theorem C85_label (n : ℤ) (t : Bytes) :
    emit unix (.int n (some (t ++ [13]))) = emit windows (.int n (some t)) ∧
    ∃ r : Record, universal (Back.bytesOf (emit windows r)) ≠ universal (Back.bytesOf (emit unix r)) := by
  refine ⟨?_, .int 1 (some [97, 13]), ?_⟩
  · funext io
    rw [emit_eq, emit_eq]
    simp [Record.body, Record.label, Record.value, Record.keyword, labelField, unix, windows]
  · rw [bytesOf_emit, bytesOf_emit]
    decide +kernel

/-- **C85**: on Windows no transcript of a run that begins a shot has the line ending of the platform throughout: its first
line ends in a line feed alone. -/
theorem C85_mixed (env : Env) (fmt : Back.Fmt) (toStdOut : Bool) (fs : List Func) (code : Func → Prog QCall QAns)
    (name : Option String) (f : Func) (n : ℕ) (s : Back.Backend) (io : Io) (hr : Ready toStdOut io)
    (hb : ∃ m, bindFunctions fs = .ok m) (hf : chooseEntryPoint fs name = .ok f) (hn : 0 < n) :
    ∃ w, seen toStdOut (after (runModule windows env fmt toStdOut fs code name n s io)) = seen toStdOut io ++ w ∧
      ¬ AllCrLf w := by
  obtain ⟨T, pending, res, k, -, -, -, h1, -, h2⟩ := C85_transcript env fmt toStdOut fs code name n s io hr
  refine ⟨text windows T, (h2 windows).2.1, ?_⟩
  obtain ⟨T', rfl⟩ := h1 f hf hn hb
  rw [text_cons, start_bytes, show utf8 "START\n" = [83, 84, 65, 82, 84, 10] by decide +kernel]
  intro h
  obtain ⟨j, hj, hj'⟩ := h 5 rfl
  obtain rfl : j = 4 := by omega
  exact absurd hj' (by simp)

/-! ### A concrete case -/

/-- An entry point that records an integer. -/
def sample : Func := ⟨"main", 0, 1, [("entry_point", ""), ("schema", "x")]⟩

example (env : Env) (fmt : Back.Fmt) (s : Back.Backend) :
    (after (runModule windows env fmt true [sample] (fun _ => .call (.record (.int 7 (some [97])) (by simp)) fun _ => .done)
      none 2 s Io.init)).stdout =
      utf8 ("START\nMETADATA\tentry_point\r\nMETADATA\tschema\tx\r\nOUTPUT\tINT\t7\ta\r\nEND\t0\r\n" ++
        "START\nMETADATA\tentry_point\r\nMETADATA\tschema\tx\r\nOUTPUT\tINT\t7\ta\r\nEND\t0\r\n") := by
  have e : runModule windows env fmt true [sample] (fun _ => .call (.record (.int 7 (some [97])) (by simp)) fun _ => .done)
      none 2 s Io.init = .ok (Back.reinit (Back.reinit s), ⟨utf8 ("START\nMETADATA\tentry_point\r\nMETADATA\tschema\tx\r\n" ++
        "OUTPUT\tINT\t7\ta\r\nEND\t0\r\nSTART\nMETADATA\tentry_point\r\nMETADATA\tschema\tx\r\n" ++
        "OUTPUT\tINT\t7\ta\r\nEND\t0\r\n"), ⟨[], true⟩, []⟩) := rfl
  rw [e]
  rfl

/-- The hypotheses of `C85_mixed` and of `C85_read` hold of the program that tosses a coin. -/
example : (∃ m, bindFunctions Back.coinModule = .ok m) ∧ (∃ f, chooseEntryPoint Back.coinModule none = .ok f ∧ TameAttrs f ∧
    f.attrs ≠ []) ∧ Ready true Io.init ∧ AllCalls Tame Back.coin ∧ TameFmt ⟨fun _ => [48], fun _ => "1"⟩ := by
  refine ⟨Back.coinModule_binds, ⟨_, rfl, ?_, by decide⟩, ⟨fun _ => rfl, rfl⟩, ?_,
    ⟨fun _ => (by decide : (13 : UInt8) ∉ [48]), fun _ => (by decide +kernel : (13 : UInt8) ∉ utf8 "1")⟩⟩
  · unfold TameAttrs
    decide +kernel
  · refine ⟨trivial, fun _ => ⟨trivial, fun _ => ⟨trivial, fun _ => ⟨trivial, fun a => ?_⟩⟩⟩⟩
    dsimp only
    split
    · exact ⟨trivial, fun _ => ⟨trivial, fun _ => trivial⟩⟩
    · exact ⟨trivial, fun _ => trivial⟩

end Qir.Eol
