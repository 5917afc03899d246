import Verif.Proof.Callback

/-!
# C64: callbacks of Python code
-/

noncomputable section
namespace Qir.Run

open Qir.Out

variable {Q A σ μ : Type}

/-! ## C64 -/

/-- **C64**, there is exactly one thing a call has to offer. -/
theorem C64_offers (w : World Q A σ) (c : PyCall) (hc : c.dest = false) (s : σ) :
    ∃ texts fin, Offers w c s texts fin ∧ ∀ texts' fin', Offers w c s texts' fin' → texts' = texts ∧ fin' = fin := by
  obtain ⟨texts, fin, h, -⟩ := call_goes w (fun _ (m : Unit) => (m, true)) hc (p := ⟨s, Io.init, false, ()⟩) ⟨rfl, rfl⟩
  exact ⟨texts, fin, h, fun t f h' => h'.unique h⟩

/-- **C64**, it is the output of C51: the texts are not empty, and together they are what the call has to say. -/
theorem C64_says (w : World Q A σ) (c : PyCall) (s : σ) (texts : List Bytes) (fin : Finish σ)
    (h : Offers w c s texts fin) : (∀ b ∈ texts, b ≠ []) ∧
      match fin with
      | .returns s' => Says w c s true texts.flatten s'
      | .raises s' => Says w c s false texts.flatten s'
      | .ends lost => Fails w c s texts.flatten lost := by
  have ne : ∀ {attrs : List (String × String)} {outs : List Bytes}, ∀ b ∈ outs.flatMap (shotTexts attrs), b ≠ [] := by
    intro attrs outs b hb
    obtain ⟨o, -, ho⟩ := List.mem_flatMap.mp hb
    exact shotTexts_ne b ho
  cases h with
  | shots hm hp hs h =>
    refine ⟨ne, ?_⟩
    dsimp only
    rw [shots_flatten]
    exact .shots hm hp hs h (session_length _ _ _ _ _ h)
  | refused hm hs => exact ⟨by simp, .refused hm (.inr hs)⟩
  | parameters hm hp hn hs =>
    refine ⟨headTexts_ne, ?_⟩
    dsimp only
    rw [headTexts_flatten]
    exact .parameters hm hp hn hs
  | fails hm hp hs h =>
    refine ⟨fun b hb => ?_, ?_⟩
    · rcases List.mem_append.mp hb with hb | hb
      · exact ne b hb
      · exact headTexts_ne b hb
    · dsimp only
      rw [List.flatten_append, shots_flatten, headTexts_flatten, ← List.append_assoc]
      exact .intro hm hp hs h

/-- **C64**.  A call with a callback that may raise exceptions, but does not use the module: the callback is given the
texts the call has to offer, in order, up to the first one for which it raises an exception or which is not text.  If there
is none, the call goes on as it should.  Otherwise it raises an exception itself.  In either case `stdout` is as before, no
records are pending and the module can be used again. -/
theorem C64_call (w : World Q A σ) (g : Bytes → μ → μ × Bool) (c : PyCall) (hc : c.dest = false) (p : Proc σ μ)
    (hp : Free p) (texts : List Bytes) (fin : Finish σ) (h : Offers w c p.s texts fin) :
    Goes (hand g texts p.mem) fin { p with io := p.io.setStdOut false } (callIn w (foreign g) c p) := by
  obtain ⟨t, f, h1, h2⟩ := call_goes w g hc hp
  obtain ⟨rfl, rfl⟩ := h.unique h1
  exact h2

/-- **C64**, calls without a callback are those of C51: callbacks and the memory of the Python code do not matter to them,
unless they are made while a callback is given records. -/
theorem C64_plain (w : World Q A σ) (f : Callback σ μ) (c : PyCall) (hc : c.dest = true) (p : Proc σ μ)
    (hp : p.busy = false) :
    match w.call c p.s p.io with
    | .ok s' io' => callIn w f c p = .ok { p with s := s', io := io' }
    | .rejected e s' io' => callIn w f c p = .err e { p with s := s', io := io' }
    | .ended io' => ∃ s', callIn w f c p = .gone { p with s := s', io := io' } := by
  cases c with
  | run path name shots seed callback =>
    cases callback with
    | true => cases hc
    | false =>
      have := runFile_none w path name (shots.getD 1) seed { p with io := p.io.setStdOut (!false) } hp
      simp only [World.call, callIn, enter, hp, Bool.false_eq_true, if_false] at this ⊢
      exact this
  | runBytes bytes name shots seed callback =>
    cases callback with
    | true => cases hc
    | false =>
      have := runBytes_none w bytes name (shots.getD 1) seed { p with io := p.io.setStdOut (!false) } hp
      simp only [World.call, callIn, enter, hp, Bool.false_eq_true, if_false] at this ⊢
      exact this
  | main args stdin =>
    cases args with
    | display => rfl
    | invalid => rfl
    | run file name shots seed =>
      simp only [World.call, World.main, callIn]
      cases hf : file.bind (fun p => if p.text = "-" then none else some p) with
      | some path => exact runFile_none w path name (shots.getD 1) seed p hp
      | none =>
        cases stdin with
        | terminal => exact writeAll_none _ _
        | data bytes =>
          cases bytes with
          | none => rfl
          | some bytes =>
            simp only [World.runInput]
            cases hb : bytes.isEmpty with
            | true => rfl
            | false => exact runBytes_none w bytes name (shots.getD 1) seed p hp

/-- **C64**, nested calls.  Python code with whatever calls of the module, callbacks that make calls themselves included,
and whatever exceptions: when it is through, no records are pending and the module can be used again. -/
theorem C64_free (w : World Q A σ) (allowed : PyCall → Prop) (a : Proc σ μ → Ran σ μ) (ha : Code w allowed a)
    (p : Proc σ μ) (hp : Free p) : (a p).leaves Free := by
  have := code_kept ha (busy := false) (p := p) ⟨hp.empty, hp.idle⟩
  cases h : a p with
  | ok p' => rw [h] at this; exact ⟨this.1, this.2⟩
  | err e p' => rw [h] at this; exact ⟨this.1, this.2⟩
  | panicked p' => rw [h] at this; exact ⟨this.1, this.2⟩
  | gone p' => trivial

/-- **C64**, afterwards.  So a call behind such code goes as it should. -/
theorem C64_afterwards (w : World Q A σ) (allowed : PyCall → Prop) (a : Proc σ μ → Ran σ μ) (ha : Code w allowed a)
    (p : Proc σ μ) (hp : Free p) (g : Bytes → μ → μ × Bool) (c : PyCall) (hc : c.dest = false) :
    (a p).leaves fun p' => ∀ texts fin, Offers w c p'.s texts fin →
      Goes (hand g texts p'.mem) fin { p' with io := p'.io.setStdOut false } (callIn w (foreign g) c p') := by
  have := C64_free w allowed a ha p hp
  cases h : a p with
  | ok p' => rw [h] at this; exact C64_call w g c hc p' this
  | err e p' => rw [h] at this; exact C64_call w g c hc p' this
  | panicked p' => rw [h] at this; exact C64_call w g c hc p' this
  | gone p' => trivial

/-- **C64**, `stdout`.  If every call has a callback, those in callbacks included, then nothing is written to `stdout`. -/
theorem C64_quiet (w : World Q A σ) (a : Proc σ μ → Ran σ μ) (ha : Code w (fun c => c.dest = false) a) (p : Proc σ μ) :
    (a p).always fun p' => p'.io.stdout = p.io.stdout := by
  suffices h : (a p).always (Quiet p) from always_mono h fun _ h => h.1
  induction ha generalizing p with
  | compute h => exact ⟨rfl, fun h => h⟩
  | depends a ha ih => exact ih p.mem p
  | raise => exact ⟨rfl, fun h => h⟩
  | @seq a b ha hb iha ihb =>
    exact always_andThen (iha p) fun p' h => always_mono (ihb p') fun _ h' => h.trans h'
  | @rescue a b ha hb iha ihb =>
    have h1 := iha p
    dsimp only
    cases h : a p with
    | ok p' => rw [h] at h1; exact h1
    | err e p' => rw [h] at h1; exact always_mono (ihb p') fun _ h' => h1.trans h'
    | panicked p' => rw [h] at h1; exact always_mono (ihb p') fun _ h' => h1.trans h'
    | gone p' => rw [h] at h1; exact h1
  | call c hc f hf ih =>
    exact callIn_quiet w (fun b out q hq => always_mono (ih b q) fun _ h => ⟨h.1.trans hq.1, h.2 hq.2⟩) hc p

/-- **C64**, records cannot be answered with a run (F18).  A program that always records something cannot be run to the end
with a callback that makes a call of `run` or `run_bytes` for each text and lets exceptions pass: while the records are
handed over, such a call panics. -/
theorem C64_busy (w : World Q A σ) (f : Callback σ μ) (hf : Tame f) (hq : Silent f)
    (hn : ∀ b p, p.busy = true → ∃ p', f b p = .panicked p') (c : PyCall) (hc : c.dest = false) (p : Proc σ μ)
    (hp : Free p) (m : Mod Q A) (fn : Func) (hm : Runnable w c m fn) (hpar : fn.params = 0) (hs : c.shots ≠ 0)
    (hr : ∀ s out s', speech w.step (m.code fn) s = .ok (out, s') → out ≠ []) (p' : Proc σ μ) :
    callIn w f c p ≠ .ok p' := by
  obtain ⟨loaded, h1, h2⟩ := callIn_run (μ := μ) w hc
  rw [h2 _ p hp.idle]
  obtain ⟨m₀, k1, k2, ⟨x, k3⟩, k4⟩ := hm
  rw [(h1 m₀).mp k1]
  simp only [runIn, runModuleIn, k2, k3, k4]
  obtain ⟨n, hn'⟩ := Nat.exists_eq_succ_of_ne_zero hs
  rw [hn', Nat.succ_eq_add_one, runShotsIn]
  have hc0 : Kept false { p with s := w.seeded c.seed p.s, io := p.io.setStdOut false } := ⟨hp.empty, hp.idle⟩
  have hh0 : Hushed p.io.stdout { p with s := w.seeded c.seed p.s, io := p.io.setStdOut false } := ⟨rfl, rfl⟩
  generalize ({ p with s := w.seeded c.seed p.s, io := p.io.setStdOut false } : Proc σ μ) = q at hc0 hh0
  have htame : ∀ g, some f = some g → Tame g := fun g h => by cases h; exact hf
  have key : ∀ p', runShotIn w (some f) fn (m.code fn) q ≠ .ok p' := by
    intro p'
    unfold runShotIn
    have a1 := writeAll_kept htame (utf8 "START\n") hc0
    have b1 := writeAll_hushed hq (utf8 "START\n") _ hh0
    cases e1 : writeAll (some f) (utf8 "START\n") q with
    | ok q1 =>
      rw [e1] at a1 b1
      rw [ok_andThen, writeAttrs_eq]
      have a2 := writeAlls_kept htame (fn.attrs.flatMap attrTexts) a1
      have b2 := writeAlls_hushed hq (fn.attrs.flatMap attrTexts) _ b1
      cases e2 : writeAlls (some f) (fn.attrs.flatMap attrTexts) q1 with
      | ok q2 =>
        rw [e2] at a2 b2
        rw [ok_andThen]
        simp only [hpar, if_true]
        have h3 := runProgIn_speech w.step (m.code fn) { q2 with s := w.init q2.s } a2.2
        dsimp only at h3
        cases e3 : speech w.step (m.code fn) (w.init q2.s) with
        | error out =>
          rw [e3] at h3
          obtain ⟨s', h3⟩ := h3
          rw [h3]
          exact fun h => by cases h
        | ok r =>
          obtain ⟨out, s'⟩ := r
          rw [e3] at h3
          dsimp only at h3
          rw [h3, ok_andThen]
          have ho := hr _ _ _ e3
          have e4 : ∃ p'', handRecords (some f) { q2 with s := s', io := q2.io.write out } = .panicked p'' := by
            unfold handRecords
            dsimp only
            rw [drain_write a2.1 b2.2]
            have a3 : ¬ (q2.busy = true) := by rw [a2.2]; simp
            rw [if_neg a3]
            by_cases ht : IsText out
            · rw [writeAll_text ho ht]
              obtain ⟨p'', h4⟩ := hn out { q2 with s := s', busy := true } rfl
              dsimp only at h4 ⊢
              rw [h4]
              exact ⟨_, rfl⟩
            · unfold writeAll
              rw [if_neg ho]
              dsimp only
              rw [if_neg ht]
              exact ⟨_, rfl⟩
          obtain ⟨p'', e4⟩ := e4
          rw [e4]
          exact fun h => by cases h
      | err e q2 => exact fun h => by cases h
      | panicked q2 => exact fun h => by cases h
      | gone q2 => exact fun h => by cases h
    | err e q1 => exact fun h => by cases h
    | panicked q1 => exact fun h => by cases h
    | gone q1 => exact fun h => by cases h
  cases e : runShotIn w (some f) fn (m.code fn) q with
  | ok q' => exact absurd e (key q')
  | err e q1 => exact fun h => by cases h
  | panicked q1 => exact fun h => by cases h
  | gone q1 => exact fun h => by cases h

/-! ### Examples and counterexamples -/

/-- Notes the text. -/
def note (b : Bytes) : Proc σ (List Bytes) → Ran σ (List Bytes) := fun p => .ok { p with mem := p.mem ++ [b] }

/-- Notes each text; at the start of a shot it also tries to run a file that does not exist, without a callback, and
catches the exception. -/
def meddler : Callback ℕ (List Bytes) := fun b =>
  if b = utf8 "START\n" then fun p => (note b p).andThen fun p =>
    match callIn toy note (.run ⟨"missing.ll", some "ll"⟩ none none none false) p with
    | .err _ p => .ok p
    | .panicked p => .ok p
    | r => r
  else note b

theorem toy_prepare (m : Mod Bool Unit) : toy.prepare m = some m := rfl

/-- The only function of `toy`. -/
def toyMain : Func := ⟨"main", 0, 1, [("entry_point", "")]⟩

/-- What it does, given the bytes of the file. -/
def toyCode (b : Bytes) : Prog Bool Unit := b.foldr (fun b p => .call (b == 1) fun _ => p) .done

theorem toy_run (f : Callback ℕ μ) (n : ℕ) (p : Proc ℕ μ) (hp : p.busy = false) :
    callIn toy f (.run ⟨"a.ll", some "ll"⟩ none (some n) none true) p =
      runShotsIn toy (some f) toyMain (toyCode [1]) n { p with io := p.io.setStdOut false } := by
  have h1 : bindFunctions [toyMain] = .ok [] := by decide +kernel
  have h2 : chooseEntryPoint [toyMain] none = .ok toyMain := by decide +kernel
  have h3 : toy.loadFile ⟨"a.ll", some "ll"⟩ = .ok ⟨[toyMain], fun _ => toyCode [1]⟩ := rfl
  simp [callIn, enter, hp, runIn, h3, runModuleIn, toy_prepare, h1, h2, World.seeded]


theorem isText_utf8 (t : String) : IsText (utf8 t) := ⟨t, rfl⟩

theorem ne_literal : utf8 "START\n" ≠ [] ∧ utf8 "METADATA\tentry_point" ≠ [] ∧ utf8 "END\t0" ≠ [] ∧
    utf8 "METADATA\t" ++ utf8 "entry_point" = utf8 "METADATA\tentry_point" ∧ utf8 "\n" = [10] ∧ utf8 "A\n" = [65, 10] := by
  decide +kernel

/-- One shot of the program, step by step. -/
theorem toy_shot (f : Callback ℕ μ) (p : Proc ℕ μ) :
    runShotIn toy (some f) toyMain (toyCode [1]) p =
      ((writeAll (some f) (utf8 "START\n") p).andThen fun p =>
      (writeAll (some f) (utf8 "METADATA\tentry_point") p).andThen fun p =>
      (writeAll (some f) [10] p).andThen fun p =>
      (if p.busy then .gone p else .ok { p with s := p.s + 1, io := p.io.write [65, 10] } : Ran ℕ μ).andThen fun p =>
      (handRecords (some f) p).andThen fun p =>
      (writeAll (some f) (utf8 "END\t0") p).andThen fun p => writeAll (some f) [10] p) := by
  have e : ∀ p : Proc ℕ μ, runProgIn toy.step (toyCode [1]) { p with s := toy.init p.s } =
      if p.busy then .gone p else .ok { p with s := p.s + 1, io := p.io.write [65, 10] } := by
    intro p
    obtain ⟨s, io, b, m⟩ := p
    cases b <;> rfl
  have e2 : toyMain.attrs = [("entry_point", "")] := rfl
  have e3 : toyMain.params = 0 := rfl
  unfold runShotIn
  simp only [e, e2, e3, writeAttrs, if_true, ne_literal.2.2.2.1, andThen_assoc, ok_andThen, lineEnding]
  rfl

theorem meddler_text {b : Bytes} (hb : b ≠ []) (hs : b ≠ utf8 "START\n") (ht : IsText b) (p : Proc ℕ (List Bytes)) :
    writeAll (some meddler) b p = .ok { p with mem := p.mem ++ [b] } := by
  rw [writeAll_text hb ht, meddler, if_neg hs]
  rfl

/-- **C64**, not without callbacks (F17).  A callback that makes a call without a callback, even one that fails, while a
shot begins: the records of that shot go to `stdout` and not to the callback. -/
theorem C64_diverted : (∀ b, Code toy (fun _ => True) (meddler b)) ∧
    callIn toy meddler (.run ⟨"a.ll", some "ll"⟩ none (some 1) none true) ⟨0, Io.init, false, []⟩ =
    .ok ⟨1, ⟨[65, 10], ⟨[], true⟩, []⟩, false,
      [utf8 "START\n", utf8 "METADATA\tentry_point", [10], utf8 "END\t0", [10]]⟩ := by
  have hnote : ∀ b, Code toy (fun _ => True) (note b) := fun b => .compute fun m => m ++ [b]
  refine ⟨fun b => ?_, ?_⟩
  · unfold meddler
    split_ifs
    · refine .seq (hnote b) ?_
      have h : Code toy (fun _ => True) _ :=
        .rescue (.call (.run ⟨"missing.ll", some "ll"⟩ none none none false) trivial note hnote) (.compute fun m => m)
      convert h using 1
      funext p
      cases callIn toy note (.run ⟨"missing.ll", some "ll"⟩ none none none false) p <;> rfl
    · exact hnote b
  have hl := ne_literal
  have t10 : IsText [10] := hl.2.2.2.2.1 ▸ isText_utf8 "\n"
  have n1 : utf8 "METADATA\tentry_point" ≠ utf8 "START\n" := by decide +kernel
  have n2 : [10] ≠ utf8 "START\n" := by decide +kernel
  have n3 : utf8 "END\t0" ≠ utf8 "START\n" := by decide +kernel
  have start : ∀ p : Proc ℕ (List Bytes), p.busy = false → writeAll (some meddler) (utf8 "START\n") p =
      .ok { p with mem := p.mem ++ [utf8 "START\n"], io := p.io.setStdOut true } := by
    intro p hp
    obtain ⟨s, io, b, m⟩ := p
    dsimp only at hp
    subst hp
    rw [writeAll_text hl.1 (isText_utf8 _), meddler, if_pos rfl]
    rfl
  rw [toy_run _ _ _ rfl]
  simp only [runShotsIn, andThen_ok, toy_shot]
  rw [start _ rfl, ok_andThen, meddler_text hl.2.1 n1 (isText_utf8 _), ok_andThen, meddler_text (by simp) n2 t10, ok_andThen]
  rw [if_neg (by simp), ok_andThen]
  have : ∀ p : Proc ℕ (List Bytes), p.busy = false → p.io.recorder.buffer = [] → handRecords (some meddler) p = .ok p := by
    rintro ⟨s, ⟨o, ⟨b, m⟩, k⟩, y, mem⟩ h1 h2
    dsimp only at h1 h2
    subst h1 h2
    simp [handRecords, Io.drain, writeAll]
  rw [this _ rfl rfl, ok_andThen, meddler_text hl.2.2.1 n3 (isText_utf8 _), ok_andThen, meddler_text (by simp) n2 t10]
  rfl

theorem toy_runnable (n : ℕ) (b : Bool) : Runnable toy (.run ⟨"a.ll", some "ll"⟩ none (some n) none b)
    ⟨[toyMain], fun _ => toyCode [1]⟩ toyMain :=
  ⟨⟨[toyMain], fun _ => toyCode [1]⟩, ⟨[1], rfl, .inl ⟨rfl, rfl⟩⟩, rfl, ⟨[], by decide +kernel⟩,
    show chooseEntryPoint [toyMain] none = .ok toyMain by decide +kernel⟩

/-- Notes the text, and raises an exception at the end of a shot. -/
def picky (b : Bytes) (m : List Bytes) : List Bytes × Bool := (m ++ [b], b != utf8 "END\t0")

/-- Two shots with a callback that raises an exception at the end of the first one: it has been given the texts of the
first shot up to there, and the call raises an exception. -/
example : ∃ s, callIn toy (foreign picky) (.run ⟨"a.ll", some "ll"⟩ none (some 2) none true) ⟨0, Io.init, false, []⟩ =
    .panicked ⟨s, ⟨[], ⟨[], false⟩, []⟩, false,
      [utf8 "START\n", utf8 "METADATA\tentry_point", [10], [65, 10], utf8 "END\t0"]⟩ := by
  have h := C64_call toy picky (.run ⟨"a.ll", some "ll"⟩ none (some 2) none true) rfl ⟨0, Io.init, false, []⟩ ⟨rfl, rfl⟩ _ _
    (.shots (outs := [[65, 10], [65, 10]]) (s' := 2) (toy_runnable 2 true) (.inl rfl) (.inl ⟨rfl, rfl⟩) rfl)
  have hl := ne_literal
  have t1 : IsText [10] := hl.2.2.2.2.1 ▸ isText_utf8 "\n"
  have t2 : IsText [65, 10] := hl.2.2.2.2.2 ▸ isText_utf8 "A\n"
  have n1 : (utf8 "START\n" != utf8 "END\t0") = true := by decide +kernel
  have n2 : (utf8 "METADATA\tentry_point" != utf8 "END\t0") = true := by decide +kernel
  have n3 : ([10] != utf8 "END\t0") = true := by decide +kernel
  have n4 : ([65, 10] != utf8 "END\t0") = true := by decide +kernel
  have e : hand picky ([[65, 10], [65, 10]].flatMap (shotTexts toyMain.attrs)) [] =
      ([utf8 "START\n", utf8 "METADATA\tentry_point", [10], [65, 10], utf8 "END\t0"], false) := by
    have e1 : shotTexts toyMain.attrs [65, 10] =
        [utf8 "START\n", utf8 "METADATA\tentry_point", [10], [65, 10], utf8 "END\t0", [10]] := by
      have e0 : toyMain.attrs = [("entry_point", "")] := rfl
      simp [shotTexts, headTexts, e0, attrTexts, hl.2.2.2.1]
    rw [List.flatMap_cons, List.flatMap_cons, List.flatMap_nil, List.append_nil, e1]
    simp only [hand, List.cons_append, picky, isText_utf8, t1, t2, n1, n2, n3, n4, if_true]
    simp
  rw [e] at h
  exact h

/-- The program always records something, and runs make such a callback: `C64_busy` applies. -/
example (p' : Proc ℕ Unit) : callIn toy
    (fun _ => callIn toy (fun _ p => .ok p) (.run ⟨"a.ll", some "ll"⟩ none (some 0) none true))
    (.run ⟨"a.ll", some "ll"⟩ none (some 1) none true) ⟨0, Io.init, false, ()⟩ ≠ .ok p' := by
  refine C64_busy toy _ (fun b p hp => ?_) (fun b out p hp => ?_) (fun b p hp => ?_) _ rfl _ ⟨rfl, rfl⟩ _ _
    (toy_runnable 1 true) rfl (by decide) (fun s out s' h => ?_) p'
  · exact callIn_kept toy (f := fun _ p => .ok p) (fun _ _ h => ⟨h, rfl⟩) _ ⟨hp, rfl⟩
  · exact always_mono (callIn_quiet toy (f := fun _ p => .ok p) (fun _ _ _ h => h) rfl p) fun p' h => ⟨h.1.trans hp.1, h.2 hp.2⟩
  · exact ⟨p, by simp [callIn, enter, hp]⟩
  · cases h
    simp

end Qir.Run
