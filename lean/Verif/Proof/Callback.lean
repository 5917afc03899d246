import Verif.Model.Callback
import Verif.Props.Entry

/-!
# Callbacks of Python code: specification and proofs
-/

noncomputable section
namespace Qir.Run

open Qir.Out

variable {Q A σ μ : Type}

/-! ## Specification -/

/-- The texts handed over for an attribute. -/
def attrTexts (a : String × String) : List Bytes :=
  (utf8 "METADATA\t" ++ utf8 a.1) :: ((if a.2 = "" then [] else [utf8 "\t" ++ utf8 a.2]) ++ [[10]])

/-- The texts handed over before a program runs. -/
def headTexts (attrs : List (String × String)) : List Bytes := utf8 "START\n" :: attrs.flatMap attrTexts

/-- The texts handed over for a shot: all its records are one text. -/
def shotTexts (attrs : List (String × String)) (records : Bytes) : List Bytes :=
  headTexts attrs ++ ((if records = [] then [] else [records]) ++ [utf8 "END\t0", [10]])

/-- How a call goes on when it has handed over its texts: it returns, it raises an exception, or a library function
panics and the process ends, with records that are lost. -/
inductive Finish (σ : Type) where
  | returns (s : σ)
  | raises (s : σ)
  | ends (lost : Bytes)

/-- The texts a call with a callback has to hand over, and what happens then. -/
inductive Offers (w : World Q A σ) (c : PyCall) (s : σ) : List Bytes → Finish σ → Prop
  | shots {m : Mod Q A} {f : Func} {s₀ s' : σ} {outs : List Bytes} (hm : Runnable w c m f)
      (hp : f.params = 0 ∨ c.shots = 0) (hs : Seeded w c.seed s s₀)
      (h : session w.step w.init (m.code f) c.shots s₀ = .ok (outs, s')) :
      Offers w c s (outs.flatMap (shotTexts f.attrs)) (.returns s')
  | refused {s' : σ} (hm : ∀ m f, ¬ Runnable w c m f) (hs : Seeded w c.seed s s') : Offers w c s [] (.raises s')
  | parameters {m : Mod Q A} {f : Func} {s₀ : σ} (hm : Runnable w c m f) (hp : f.params ≠ 0) (hn : c.shots ≠ 0)
      (hs : Seeded w c.seed s s₀) : Offers w c s (headTexts f.attrs) (.raises (w.init s₀))
  | fails {m : Mod Q A} {f : Func} {s₀ : σ} {outs : List Bytes} {out : Bytes} (hm : Runnable w c m f)
      (hp : f.params = 0) (hs : Seeded w c.seed s s₀)
      (h : session w.step w.init (m.code f) c.shots s₀ = .error (outs, out)) :
      Offers w c s (outs.flatMap (shotTexts f.attrs) ++ headTexts f.attrs) (.ends out)

open Classical in
/-- Texts are handed to Python code that changes its memory and may raise an exception (`false`): as long as it does not,
and as long as they are texts. -/
def hand (g : Bytes → μ → μ × Bool) : List Bytes → μ → μ × Bool
  | [], m => (m, true)
  | b :: bs, m =>
    if IsText b then
      if (g b m).2 then hand g bs (g b m).1 else ((g b m).1, false)
    else (m, false)

/-- Python code that has nothing to do with the module. -/
def foreign (g : Bytes → μ → μ × Bool) : Callback σ μ := fun b p =>
  if (g b p.mem).2 then .ok { p with mem := (g b p.mem).1 } else .panicked { p with mem := (g b p.mem).1 }

/-- No call of the module is under way, and no records are pending. -/
structure Free (p : Proc σ μ) : Prop where
  empty : p.io.recorder.buffer = []
  idle : p.busy = false

/-- What holds of the process after something, unless the process has ended. -/
def Ran.leaves (P : Proc σ μ → Prop) : Ran σ μ → Prop
  | .ok p | .err _ p | .panicked p => P p
  | .gone _ => True

/-- What holds of the process after something, even if it has ended. -/
def Ran.always (P : Proc σ μ → Prop) : Ran σ μ → Prop
  | .ok p | .err _ p | .panicked p | .gone p => P p

/-- Python code: it computes, depends on its memory, raises and catches exceptions, and calls the module, with callbacks
that are Python code.  `allowed` are the calls it makes. -/
inductive Code (w : World Q A σ) (allowed : PyCall → Prop) : (Proc σ μ → Ran σ μ) → Prop
  | compute (h : μ → μ) : Code w allowed fun p => .ok { p with mem := h p.mem }
  | depends (a : μ → Proc σ μ → Ran σ μ) (ha : ∀ m, Code w allowed (a m)) : Code w allowed fun p => a p.mem p
  | raise : Code w allowed fun p => .panicked p
  | seq {a b : Proc σ μ → Ran σ μ} (ha : Code w allowed a) (hb : Code w allowed b) :
      Code w allowed fun p => (a p).andThen b
  | rescue {a b : Proc σ μ → Ran σ μ} (ha : Code w allowed a) (hb : Code w allowed b) :
      Code w allowed fun p => match a p with
        | .err _ p => b p
        | .panicked p => b p
        | r => r
  | call (c : PyCall) (hc : allowed c) (f : Callback σ μ) (hf : ∀ b, Code w allowed (f b)) : Code w allowed (callIn w f c)

/-! ## Proofs -/

theorem hand_append (g : Bytes → μ → μ × Bool) (l₁ l₂ : List Bytes) (m : μ) :
    hand g (l₁ ++ l₂) m = if (hand g l₁ m).2 then hand g l₂ (hand g l₁ m).1 else hand g l₁ m := by
  induction l₁ generalizing m with
  | nil => simp [hand]
  | cons b bs ih =>
    simp only [List.cons_append, hand]
    by_cases h1 : IsText b <;> by_cases h2 : (g b m).2 = true <;> simp [h1, h2, ih]

/-- What a text handed over does to the process. -/
def received (r : μ × Bool) (p : Proc σ μ) : Ran σ μ :=
  if r.2 then .ok { p with mem := r.1 } else .panicked { p with mem := r.1 }

theorem writeAll_foreign (g : Bytes → μ → μ × Bool) {b : Bytes} (hb : b ≠ []) (p : Proc σ μ) :
    writeAll (some (foreign g)) b p = received (hand g [b] p.mem) p := by
  simp only [writeAll, hb, if_false, hand, received, foreign]
  by_cases h1 : IsText b <;> by_cases h2 : (g b p.mem).2 = true <;> simp [h1, h2]

/-- Texts handed over one after the other. -/
def writeAlls (r : Option (Callback σ μ)) : List Bytes → Proc σ μ → Ran σ μ
  | [], p => .ok p
  | b :: bs, p => (writeAll r b p).andThen fun p => writeAlls r bs p

theorem received_andThen (r : μ × Bool) (p : Proc σ μ) (k : Proc σ μ → Ran σ μ) :
    (received r p).andThen k = if r.2 then k { p with mem := r.1 } else .panicked { p with mem := r.1 } := by
  by_cases h : r.2 = true <;> simp [received, h, Ran.andThen]

theorem writeAlls_foreign (g : Bytes → μ → μ × Bool) {l : List Bytes} (hl : ∀ b ∈ l, b ≠ []) (p : Proc σ μ) :
    writeAlls (some (foreign g)) l p = received (hand g l p.mem) p := by
  induction l generalizing p with
  | nil => simp [writeAlls, hand, received]
  | cons b bs ih =>
    have e : b :: bs = [b] ++ bs := rfl
    rw [writeAlls, writeAll_foreign g (hl b (by simp)), received_andThen, e, hand_append]
    by_cases h : (hand g [b] p.mem).2 = true
    · simp only [h, if_true]
      rw [ih fun b hb => hl b (by simp [hb])]
      rfl
    · simp [h, received]

theorem andThen_assoc (r : Ran σ μ) (k l : Proc σ μ → Ran σ μ) :
    (r.andThen k).andThen l = r.andThen fun p => (k p).andThen l := by cases r <;> rfl

theorem writeAlls_append (r : Option (Callback σ μ)) (l₁ l₂ : List Bytes) (p : Proc σ μ) :
    writeAlls r (l₁ ++ l₂) p = (writeAlls r l₁ p).andThen fun p => writeAlls r l₂ p := by
  induction l₁ generalizing p with
  | nil => rfl
  | cons b bs ih => simp only [List.cons_append, writeAlls, andThen_assoc, ih]

theorem ok_andThen (p : Proc σ μ) (k : Proc σ μ → Ran σ μ) : (Ran.ok p).andThen k = k p := rfl

theorem andThen_ok (r : Ran σ μ) : (r.andThen fun p => .ok p) = r := by cases r <;> rfl

theorem writeAttrs_eq (r : Option (Callback σ μ)) (as : List (String × String)) (p : Proc σ μ) :
    writeAttrs r as p = writeAlls r (as.flatMap attrTexts) p := by
  induction as generalizing p with
  | nil => rfl
  | cons a as ih =>
    rw [List.flatMap_cons, writeAlls_append, writeAttrs]
    have he : (a.2.isEmpty = true) ↔ a.2 = "" := by simp
    by_cases h : a.2 = ""
    · simp only [he.mpr h, if_true]
      rw [attrTexts, if_pos h]
      simp only [writeAlls, List.nil_append, andThen_assoc, ok_andThen, lineEnding, ih]
    · have h' : ¬ (a.2.isEmpty = true) := fun h2 => h (he.mp h2)
      simp only [h', Bool.false_eq_true, if_false]
      rw [attrTexts, if_neg h]
      simp only [writeAlls, List.cons_append, List.nil_append, andThen_assoc, ok_andThen, lineEnding, ih]

theorem utf8_append (a b : String) : utf8 (a ++ b) = utf8 a ++ utf8 b := by
  simp [utf8, String.toUTF8]

theorem headTexts_ne {attrs : List (String × String)} : ∀ b ∈ headTexts attrs, b ≠ [] := by
  intro b hb
  have h1 : utf8 "START\n" ≠ [] := by decide +kernel
  have h2 : utf8 "METADATA\t" ≠ [] := by decide +kernel
  have h3 : utf8 "\t" ≠ [] := by decide +kernel
  simp only [headTexts, attrTexts, List.mem_cons, List.mem_flatMap, List.mem_append] at hb
  rcases hb with rfl | ⟨a, -, rfl | hb | hb⟩
  · exact h1
  · simp [h2]
  · split_ifs at hb
    · cases hb
    · simp only [List.mem_cons, List.not_mem_nil, or_false] at hb
      subst hb
      simp [h3]
  · simp only [List.not_mem_nil, or_false] at hb
    subst hb
    simp

theorem shotTexts_ne {attrs : List (String × String)} {out : Bytes} : ∀ b ∈ shotTexts attrs out, b ≠ [] := by
  intro b hb
  have h1 : utf8 "END\t0" ≠ [] := by decide +kernel
  simp only [shotTexts, List.mem_append, List.mem_cons, List.not_mem_nil, or_false] at hb
  rcases hb with hb | hb | rfl | rfl
  · exact headTexts_ne b hb
  · split_ifs at hb with h
    · cases hb
    · simp only [List.mem_cons, List.not_mem_nil, or_false] at hb
      subst hb
      exact h
  · exact h1
  · simp

theorem write_write (io : Io) (a b : Bytes) : (io.write a).write b = io.write (a ++ b) := by
  cases h : io.recorder.useStdOut <;> simp [Io.write, h]

theorem write_nil (io : Io) : io.write [] = io := by
  obtain ⟨a, ⟨b, m⟩, c⟩ := io
  cases m <;> simp [Io.write]

theorem runProgIn_speech (step : StepFn Q A σ) (code : Prog Q A) : ∀ p : Proc σ μ, p.busy = false →
    match speech step code p.s with
    | .ok (out, s') => runProgIn step code p = .ok { p with s := s', io := p.io.write out }
    | .error out => ∃ s', runProgIn step code p = .gone { p with s := s', io := p.io.write out } := by
  induction code with
  | done => intro p _; simp [speech, runProgIn, write_nil]
  | call q k ih =>
    intro p hp
    simp only [speech, runProgIn]
    cases hq : step q p.s with
    | error out => exact ⟨p.s, by simp [hp]⟩
    | ok r =>
      obtain ⟨a, out, s₁⟩ := r
      have h := ih a { p with s := s₁, io := p.io.write out } hp
      simp only [hp, Bool.false_eq_true, false_and, if_false]
      simp only [hp] at h
      cases hk : speech step (k a) s₁ with
      | error o =>
        simp only [hk] at h ⊢
        obtain ⟨s', h⟩ := h
        refine ⟨s', ?_⟩
        rw [h, write_write]
      | ok r =>
        obtain ⟨o, s₂⟩ := r
        simp only [hk] at h ⊢
        rw [h, write_write]

theorem drain_write {io : Io} (h1 : io.recorder.buffer = []) (h2 : io.recorder.useStdOut = false) (out : Bytes) :
    (io.write out).drain = (out, io) := by
  obtain ⟨a, ⟨b, m⟩, c⟩ := io
  dsimp only at h1 h2
  subst h1 h2
  simp [Io.write, Io.drain]

/-- The process collects records, none are pending, and no call of the module is under way. -/
structure Collects (p : Proc σ μ) : Prop extends Free p where
  mode : p.io.recorder.useStdOut = false

theorem handRecords_foreign (g : Bytes → μ → μ × Bool) {p : Proc σ μ} (hp : Collects p) (s : σ) (out : Bytes) :
    handRecords (some (foreign g)) { p with s := s, io := p.io.write out } =
      received (hand g (if out = [] then [] else [out]) p.mem) { p with s := s } := by
  have h1 := hp.idle
  unfold handRecords
  dsimp only
  rw [drain_write hp.empty hp.mode]
  simp only [h1, Bool.false_eq_true, if_false]
  by_cases ho : out = []
  · simp [ho, writeAll, hand, received]
  · simp only [ho, if_false]
    rw [writeAll_foreign g ho]
    unfold received
    by_cases h : (hand g [out] p.mem).2 = true <;> simp [h]

/-- One shot. -/
theorem runShotIn_foreign (w : World Q A σ) (g : Bytes → μ → μ × Bool) (f : Func) (hf : f.params = 0) (code : Prog Q A)
    {p : Proc σ μ} (hp : Collects p) :
    match speech w.step code (w.init p.s) with
    | .ok (out, s') =>
      if (hand g (shotTexts f.attrs out) p.mem).2 then
        runShotIn w (some (foreign g)) f code p = .ok { p with s := s', mem := (hand g (shotTexts f.attrs out) p.mem).1 }
      else ∃ s'', runShotIn w (some (foreign g)) f code p =
        .panicked { p with s := s'', mem := (hand g (shotTexts f.attrs out) p.mem).1 }
    | .error out =>
      if (hand g (headTexts f.attrs) p.mem).2 then
        ∃ s'', runShotIn w (some (foreign g)) f code p =
          .gone { p with s := s'', io := p.io.write out, mem := (hand g (headTexts f.attrs) p.mem).1 }
      else ∃ s'', runShotIn w (some (foreign g)) f code p =
        .panicked { p with s := s'', mem := (hand g (headTexts f.attrs) p.mem).1 } := by
  have e : ∀ k : Proc σ μ → Ran σ μ, ((writeAll (some (foreign g)) (utf8 "START\n") p).andThen fun p =>
      (writeAttrs (some (foreign g)) f.attrs p).andThen k) =
      (received (hand g (headTexts f.attrs) p.mem) p).andThen k := by
    intro k
    rw [← writeAlls_foreign g headTexts_ne, headTexts, writeAlls, andThen_assoc]
    simp only [writeAttrs_eq]
  have e2 : ∀ p : Proc σ μ, ((writeAll (some (foreign g)) (utf8 "END\t0") p).andThen fun p =>
      writeAll (some (foreign g)) lineEnding p) = received (hand g [utf8 "END\t0", [10]] p.mem) p := by
    intro p
    rw [← writeAlls_foreign g (by
      intro b hb
      exact shotTexts_ne (attrs := []) (out := []) b (by simp [shotTexts] at hb ⊢; tauto))]
    simp only [writeAlls, andThen_ok, lineEnding]
  unfold runShotIn
  simp only [e, e2, hf, if_true]
  rw [received_andThen]
  dsimp only
  have hr := fun m : μ => runProgIn_speech w.step code { p with s := w.init p.s, mem := m } hp.idle
  dsimp only at hr
  cases hs : speech w.step code (w.init p.s) with
  | error out =>
    simp only [hs] at hr ⊢
    by_cases h : (hand g (headTexts f.attrs) p.mem).2 = true
    · simp only [h, if_true]
      obtain ⟨s', hr⟩ := hr (hand g (headTexts f.attrs) p.mem).1
      exact ⟨s', by rw [hr]; rfl⟩
    · simp only [h, Bool.false_eq_true, if_false]
      exact ⟨p.s, rfl⟩
  | ok r =>
    obtain ⟨out, s'⟩ := r
    simp only [hs] at hr ⊢
    rw [shotTexts, hand_append]
    by_cases h : (hand g (headTexts f.attrs) p.mem).2 = true
    · simp only [h, if_true]
      rw [hr, ok_andThen, hand_append]
      generalize (hand g (headTexts f.attrs) p.mem).1 = m
      have hc : Collects { p with s := w.init p.s, mem := m } := ⟨⟨hp.empty, hp.idle⟩, hp.mode⟩
      have hh := handRecords_foreign g hc s' out
      dsimp only at hh
      rw [hh, received_andThen]
      generalize (if out = [] then ([] : List Bytes) else [out]) = l
      by_cases h2 : (hand g l m).2 = true
      · simp only [h2, if_true]
        unfold received
        split_ifs
        · rfl
        · exact ⟨s', rfl⟩
      · simp only [h2, Bool.false_eq_true, if_false]
        exact ⟨s', rfl⟩
    · simp only [h, Bool.false_eq_true, if_false]
      exact ⟨p.s, rfl⟩

/-- The shots. -/
theorem runShotsIn_foreign (w : World Q A σ) (g : Bytes → μ → μ × Bool) (f : Func) (hf : f.params = 0) (code : Prog Q A)
    (n : ℕ) : ∀ {p : Proc σ μ}, Collects p →
    match session w.step w.init code n p.s with
    | .ok (outs, s') =>
      if (hand g (outs.flatMap (shotTexts f.attrs)) p.mem).2 then
        runShotsIn w (some (foreign g)) f code n p =
          .ok { p with s := s', mem := (hand g (outs.flatMap (shotTexts f.attrs)) p.mem).1 }
      else ∃ s'', runShotsIn w (some (foreign g)) f code n p =
        .panicked { p with s := s'', mem := (hand g (outs.flatMap (shotTexts f.attrs)) p.mem).1 }
    | .error (outs, out) =>
      if (hand g (outs.flatMap (shotTexts f.attrs) ++ headTexts f.attrs) p.mem).2 then
        ∃ s'', runShotsIn w (some (foreign g)) f code n p =
          .gone { p with s := s'', io := p.io.write out,
                         mem := (hand g (outs.flatMap (shotTexts f.attrs) ++ headTexts f.attrs) p.mem).1 }
      else ∃ s'', runShotsIn w (some (foreign g)) f code n p =
        .panicked { p with s := s'', mem := (hand g (outs.flatMap (shotTexts f.attrs) ++ headTexts f.attrs) p.mem).1 } := by
  induction n with
  | zero => intro p hp; simp [session, hand, runShotsIn]
  | succ n ih =>
    intro p hp
    have h1 := runShotIn_foreign w g f hf code hp
    simp only [session, runShotsIn]
    cases hs : speech w.step code (w.init p.s) with
    | error out =>
      simp only [hs] at h1 ⊢
      simp only [List.flatMap_nil, List.nil_append]
      split_ifs at h1 ⊢
      · obtain ⟨s', h1⟩ := h1
        exact ⟨s', by rw [h1]; rfl⟩
      · obtain ⟨s', h1⟩ := h1
        exact ⟨s', by rw [h1]; rfl⟩
    | ok r =>
      obtain ⟨out, s'⟩ := r
      simp only [hs] at h1 ⊢
      by_cases h : (hand g (shotTexts f.attrs out) p.mem).2 = true
      · simp only [h, if_true] at h1
        have hc : Collects { p with s := s', mem := (hand g (shotTexts f.attrs out) p.mem).1 } :=
          ⟨⟨hp.empty, hp.idle⟩, hp.mode⟩
        have h2 := ih hc
        rw [h1, ok_andThen]
        dsimp only at h2
        cases hs2 : session w.step w.init code n s' with
        | error r =>
          obtain ⟨outs, o⟩ := r
          simp only [hs2] at h2 ⊢
          simp only [List.flatMap_cons, List.append_assoc, hand_append g (shotTexts f.attrs out), h, if_true]
          simpa only [List.append_assoc] using h2
        | ok r =>
          obtain ⟨outs, s₂⟩ := r
          simp only [hs2] at h2 ⊢
          simp only [List.flatMap_cons, hand_append g (shotTexts f.attrs out), h, if_true]
          exact h2
      · simp only [h, Bool.false_eq_true, if_false] at h1
        obtain ⟨s'', h1⟩ := h1
        rw [h1]
        cases hs2 : session w.step w.init code n s' with
        | error r =>
          obtain ⟨outs, o⟩ := r
          simp only [List.flatMap_cons, List.append_assoc, hand_append g (shotTexts f.attrs out), h, Bool.false_eq_true,
            if_false]
          exact ⟨s'', rfl⟩
        | ok r =>
          obtain ⟨outs, s₂⟩ := r
          simp only [List.flatMap_cons, hand_append g (shotTexts f.attrs out), h, Bool.false_eq_true, if_false]
          exact ⟨s'', rfl⟩

theorem loadBytes_iff (w : World Q A σ) (bytes : Bytes) (m : Mod Q A) :
    Understood w bytes m ↔ w.loadBytes bytes = .ok m := by
  unfold World.loadBytes
  by_cases h : bytes.length < 4
  · simp only [h, if_true]
    exact ⟨fun h1 => absurd h1.1 (by omega), fun h1 => by cases h1⟩
  · rw [understood_iff w bytes h]
    simp only [h, if_false]
    cases hp : w.parseIr (if World.isBitcode bytes then bytes else bytes ++ [0]) bytes.length with
    | none => exact ⟨fun h1 => (nomatch h1), fun h1 => (nomatch h1)⟩
    | some m' => exact ⟨fun h1 => by cases h1; rfl, fun h1 => by cases h1; rfl⟩

/-- A call with a callback loads its program and runs it. -/
theorem callIn_run (w : World Q A σ) {c : PyCall} (hc : c.dest = false) :
    ∃ loaded, (∀ m, c.Program w m ↔ loaded = .ok m) ∧ ∀ (f : Callback σ μ) (p : Proc σ μ), p.busy = false →
      callIn w f c p = runIn w (some f) loaded c.name c.shots c.seed { p with io := p.io.setStdOut false } := by
  cases c with
  | run path name shots seed callback =>
    cases callback with
    | false => cases hc
    | true =>
      exact ⟨w.loadFile path, fileUnderstood_iff w path, fun f p hp => by simp [callIn, enter, hp]; rfl⟩
  | runBytes bytes name shots seed callback =>
    cases callback with
    | false => cases hc
    | true =>
      exact ⟨w.loadBytes bytes, loadBytes_iff w bytes, fun f p hp => by simp [callIn, enter, hp]; rfl⟩
  | main => cases hc

/-- Specification: how a call goes, given what became of the texts handed over, how it is to go on, and the process. -/
def Goes (r : μ × Bool) (fin : Finish σ) (p : Proc σ μ) (x : Ran σ μ) : Prop :=
  if r.2 = false then ∃ s', x = .panicked { p with s := s', mem := r.1 }
  else match fin with
    | .returns s' => x = .ok { p with s := s', mem := r.1 }
    | .raises s' => ∃ e, x = .err e { p with s := s', mem := r.1 }
    | .ends lost => ∃ s', x = .gone { p with s := s', io := p.io.write lost, mem := r.1 }

theorem goes_of {r : μ × Bool} {fin : Finish σ} {p : Proc σ μ} {x : Ran σ μ}
    (h1 : r.2 = true → match fin with
      | .returns s' => x = .ok { p with s := s', mem := r.1 }
      | .raises s' => ∃ e, x = .err e { p with s := s', mem := r.1 }
      | .ends lost => ∃ s', x = .gone { p with s := s', io := p.io.write lost, mem := r.1 })
    (h2 : r.2 = false → ∃ s', x = .panicked { p with s := s', mem := r.1 }) : Goes r fin p x := by
  unfold Goes
  by_cases h : r.2 = false
  · rw [if_pos h]; exact h2 h
  · rw [if_neg h]; exact h1 (by simpa using h)

theorem call_goes (w : World Q A σ) (g : Bytes → μ → μ × Bool) {c : PyCall} (hc : c.dest = false) {p : Proc σ μ}
    (hp : Free p) : ∃ texts fin, Offers w c p.s texts fin ∧
      Goes (hand g texts p.mem) fin { p with io := p.io.setStdOut false } (callIn w (foreign g) c p) := by
  obtain ⟨loaded, h1, h2⟩ := callIn_run (μ := μ) w hc
  rw [h2 _ p hp.idle]
  have hs := seeded_iff w c.seed p.s
  have refuse : ∀ e : EntryError, (∀ m f, ¬ Runnable w c m f) →
      ∃ texts fin, Offers w c p.s texts fin ∧ Goes (hand g texts p.mem) fin { p with io := p.io.setStdOut false }
        (.err e { p with s := w.seeded c.seed p.s, io := p.io.setStdOut false }) :=
    fun e h => ⟨[], _, .refused h hs, goes_of (fun _ => ⟨e, rfl⟩) fun h => by cases h⟩
  cases hl : loaded with
  | error e =>
    refine refuse e ?_
    rintro m f ⟨m₀, h, -⟩
    rw [h1, hl] at h
    cases h
  | ok m₀ =>
    have hm₀ : ∀ m, c.Program w m ↔ m = m₀ := fun m => by rw [h1, hl]; exact ⟨fun h => by cases h; rfl, fun h => by rw [h]⟩
    unfold runIn runModuleIn
    dsimp only
    cases hm : w.prepare m₀ with
    | none =>
      refine refuse .prepare ?_
      rintro m f ⟨m₁, h, h', -⟩
      rw [hm₀] at h
      rw [h, hm] at h'
      cases h'
    | some m =>
      dsimp only
      cases hb : bindFunctions m.fs with
      | error e =>
        refine refuse (.run e) ?_
        rintro m' f ⟨m₁, h, h', ⟨x, h''⟩, -⟩
        rw [hm₀] at h
        rw [h, hm] at h'
        cases h'
        rw [hb] at h''
        cases h''
      | ok x =>
        dsimp only
        cases hf : chooseEntryPoint m.fs c.name with
        | error e =>
          refine refuse (.run e) ?_
          rintro m' f ⟨m₁, h, h', -, h''⟩
          rw [hm₀] at h
          rw [h, hm] at h'
          cases h'
          rw [hf] at h''
          cases h''
        | ok f =>
          have hr : Runnable w c m f := ⟨m₀, (hm₀ m₀).mpr rfl, hm, ⟨x, hb⟩, hf⟩
          have hcol : Collects { p with s := w.seeded c.seed p.s, io := p.io.setStdOut false } :=
            ⟨⟨hp.empty, hp.idle⟩, rfl⟩
          dsimp only
          by_cases hpar : f.params = 0
          · have k := runShotsIn_foreign w g f hpar (m.code f) c.shots hcol
            dsimp only at k
            cases hse : session w.step w.init (m.code f) c.shots (w.seeded c.seed p.s) with
            | ok r =>
              obtain ⟨outs, s'⟩ := r
              simp only [hse] at k
              refine ⟨_, _, .shots hr (.inl hpar) hs hse, goes_of (fun h => ?_) fun h => ?_⟩
              · rw [if_pos h] at k
                exact k
              · rw [if_neg (by simp [h])] at k
                exact k
            | error r =>
              obtain ⟨outs, out⟩ := r
              simp only [hse] at k
              refine ⟨_, _, .fails hr hpar hs hse, goes_of (fun h => ?_) fun h => ?_⟩
              · rw [if_pos h] at k
                exact k
              · rw [if_neg (by simp [h])] at k
                exact k
          · cases hn : c.shots with
            | zero =>
              refine ⟨[], _, .shots (outs := []) (s' := w.seeded c.seed p.s) hr (.inr hn) hs (by rw [hn]; rfl),
                goes_of (fun _ => rfl) fun h => by cases h⟩
            | succ n =>
              have e : ∀ (q : Proc σ μ) (k : Proc σ μ → Ran σ μ),
                  ((writeAll (some (foreign g)) (utf8 "START\n") q).andThen fun p =>
                    (writeAttrs (some (foreign g)) f.attrs p).andThen k) =
                  (received (hand g (headTexts f.attrs) q.mem) q).andThen k := by
                intro q k
                rw [← writeAlls_foreign g headTexts_ne, headTexts, writeAlls, andThen_assoc]
                simp only [writeAttrs_eq]
              refine ⟨_, _, .parameters hr hpar (by omega) hs, goes_of (fun h => ?_) fun h => ?_⟩
              · simp only [runShotsIn, runShotIn, e, hpar, if_false]
                rw [received_andThen, if_pos h]
                exact ⟨_, rfl⟩
              · simp only [runShotsIn, runShotIn, e, hpar, if_false]
                rw [received_andThen, if_neg (by simp [h])]
                exact ⟨_, rfl⟩

theorem Offers.unique {w : World Q A σ} {c : PyCall} {s : σ} {t₁ t₂ : List Bytes} {f₁ f₂ : Finish σ}
    (h₁ : Offers w c s t₁ f₁) (h₂ : Offers w c s t₂ f₂) : t₁ = t₂ ∧ f₁ = f₂ := by
  have key : ∀ {m m' : Mod Q A} {f f' : Func} {a b : σ}, Runnable w c m f → Runnable w c m' f' → Seeded w c.seed s a →
      Seeded w c.seed s b → m = m' ∧ f = f' ∧ a = b :=
    fun hm hm' hs hs' => ⟨(hm.unique hm' s).1, (hm.unique hm' s).2, hs.unique hs'⟩
  cases h₁ with
  | shots hm hp hs h =>
    cases h₂ with
    | shots hm' hp' hs' h' =>
      obtain ⟨rfl, rfl, rfl⟩ := key hm hm' hs hs'
      rw [h] at h'
      cases h'
      exact ⟨rfl, rfl⟩
    | refused hm' => exact absurd hm (hm' _ _)
    | parameters hm' hp' hn' hs' =>
      obtain ⟨rfl, rfl, rfl⟩ := key hm hm' hs hs'
      exact absurd hp (by tauto)
    | fails hm' hp' hs' h' =>
      obtain ⟨rfl, rfl, rfl⟩ := key hm hm' hs hs'
      rw [h] at h'
      cases h'
  | refused hm hs =>
    cases h₂ with
    | shots hm' => exact absurd hm' (hm _ _)
    | refused hm' hs' => exact ⟨rfl, by rw [hs.unique hs']⟩
    | parameters hm' => exact absurd hm' (hm _ _)
    | fails hm' => exact absurd hm' (hm _ _)
  | parameters hm hp hn hs =>
    cases h₂ with
    | shots hm' hp' hs' h' =>
      obtain ⟨rfl, rfl, rfl⟩ := key hm hm' hs hs'
      exact absurd hp' (by tauto)
    | refused hm' => exact absurd hm (hm' _ _)
    | parameters hm' hp' hn' hs' =>
      obtain ⟨rfl, rfl, rfl⟩ := key hm hm' hs hs'
      exact ⟨rfl, rfl⟩
    | fails hm' hp' hs' h' =>
      obtain ⟨rfl, rfl, rfl⟩ := key hm hm' hs hs'
      exact absurd hp' hp
  | fails hm hp hs h =>
    cases h₂ with
    | shots hm' hp' hs' h' =>
      obtain ⟨rfl, rfl, rfl⟩ := key hm hm' hs hs'
      rw [h] at h'
      cases h'
    | refused hm' => exact absurd hm (hm' _ _)
    | parameters hm' hp' hn' hs' =>
      obtain ⟨rfl, rfl, rfl⟩ := key hm hm' hs hs'
      exact absurd hp hp'
    | fails hm' hp' hs' h' =>
      obtain ⟨rfl, rfl, rfl⟩ := key hm hm' hs hs'
      rw [h] at h'
      cases h'
      exact ⟨rfl, rfl⟩

theorem attrTexts_flatten (a : String × String) : (attrTexts a).flatten = metadataLine a := by
  unfold attrTexts metadataLine
  split_ifs <;> simp

theorem headTexts_flatten (attrs : List (String × String)) :
    (headTexts attrs).flatten = utf8 "START\n" ++ attrs.flatMap metadataLine := by
  have : (attrs.flatMap attrTexts).flatten = attrs.flatMap metadataLine := by
    induction attrs with
    | nil => rfl
    | cons a as ih => simp [attrTexts_flatten, ih]
  rw [headTexts, List.flatten_cons, this]

theorem shotTexts_flatten (attrs : List (String × String)) (out : Bytes) :
    (shotTexts attrs out).flatten = block attrs out := by
  rw [shotTexts, List.flatten_append, headTexts_flatten, block, ← utf8_end]
  split_ifs with h <;> simp [h]

theorem shots_flatten (attrs : List (String × String)) (outs : List Bytes) :
    (outs.flatMap (shotTexts attrs)).flatten = outs.flatMap (block attrs) := by
  induction outs with
  | nil => rfl
  | cons o os ih => rw [List.flatMap_cons, List.flatten_append, shotTexts_flatten, ih, List.flatMap_cons]

/-! ### Nested calls -/

/-- Whatever the callback is given, it leaves no records pending, and `OUTPUT` as free as it was. -/
def Tame (f : Callback σ μ) : Prop :=
  ∀ b p, p.io.recorder.buffer = [] → (f b p).leaves fun p' => p'.io.recorder.buffer = [] ∧ p'.busy = p.busy

/-- No records are pending, and `OUTPUT` is as free as it was. -/
abbrev Kept (busy : Bool) (p : Proc σ μ) : Prop := p.io.recorder.buffer = [] ∧ p.busy = busy

theorem leaves_andThen {P R : Proc σ μ → Prop} {r : Ran σ μ} {k : Proc σ μ → Ran σ μ} (h : r.leaves P)
    (hR : ∀ p, P p → R p) (hk : ∀ p, P p → (k p).leaves R) : (r.andThen k).leaves R := by
  cases r with
  | ok p => exact hk p h
  | err e p => exact hR p h
  | panicked p => exact hR p h
  | gone p => trivial

theorem writeAll_kept {r : Option (Callback σ μ)} (hr : ∀ f, r = some f → Tame f) (b : Bytes) {busy : Bool} {p : Proc σ μ}
    (hp : Kept busy p) : (writeAll r b p).leaves (Kept busy) := by
  unfold writeAll
  by_cases hb : b = []
  · rw [if_pos hb]
    exact hp
  · rw [if_neg hb]
    cases r with
    | none => exact hp
    | some f =>
      dsimp only
      split_ifs with ht
      · have := hr f rfl b p hp.1
        cases hf : f b p with
        | ok p' => rw [hf] at this; exact ⟨this.1, this.2.trans hp.2⟩
        | err e p' => rw [hf] at this; exact ⟨this.1, this.2.trans hp.2⟩
        | panicked p' => rw [hf] at this; exact ⟨this.1, this.2.trans hp.2⟩
        | gone p' => trivial
      · exact hp

theorem writeAlls_kept {r : Option (Callback σ μ)} (hr : ∀ f, r = some f → Tame f) (l : List Bytes) {busy : Bool} :
    ∀ {p : Proc σ μ}, Kept busy p → (writeAlls r l p).leaves (Kept busy) := by
  induction l with
  | nil => exact fun hp => hp
  | cons b bs ih => exact fun hp => leaves_andThen (writeAll_kept hr b hp) (fun _ h => h) fun _ h => ih h

theorem runProgIn_busy (step : StepFn Q A σ) (code : Prog Q A) {busy : Bool} : ∀ {p : Proc σ μ}, p.busy = busy →
    (busy = true → p.io.recorder.buffer = []) →
    match runProgIn step code p with
    | .ok p' => p'.busy = busy ∧ (busy = true → p'.io.recorder.buffer = [])
    | .gone _ => True
    | _ => False := by
  induction code with
  | done => exact fun h1 h2 => ⟨h1, h2⟩
  | call q k ih =>
    intro p h1 h2
    simp only [runProgIn]
    cases hq : step q p.s with
    | error out => trivial
    | ok r =>
      obtain ⟨a, out, s⟩ := r
      dsimp only
      split_ifs with hb
      · trivial
      · refine ih a (p := { p with s := s, io := p.io.write out }) h1 fun h => ?_
        have : out = [] := by
          by_contra ho
          exact hb ⟨h1.trans h, ho⟩
        rw [this]
        dsimp only
        rw [write_nil]
        exact h2 h

theorem handRecords_kept {r : Option (Callback σ μ)} (hr : ∀ f, r = some f → Tame f) {busy : Bool} {p : Proc σ μ}
    (h1 : p.busy = busy) (h2 : busy = true → p.io.recorder.buffer = []) : (handRecords r p).leaves (Kept busy) := by
  unfold handRecords
  split_ifs with hb
  · exact ⟨h2 (h1 ▸ hb), h1⟩
  · have hf : busy = false := by rw [← h1]; simpa using hb
    have := writeAll_kept hr p.io.drain.1 (busy := true) (p := { p with io := p.io.drain.2, busy := true }) ⟨rfl, rfl⟩
    cases hw : writeAll r p.io.drain.1 { p with io := p.io.drain.2, busy := true } with
    | ok p' => rw [hw] at this; exact ⟨this.1, hf.symm⟩
    | err e p' => rw [hw] at this; exact ⟨this.1, hf.symm⟩
    | panicked p' => rw [hw] at this; exact ⟨this.1, hf.symm⟩
    | gone p' => trivial

theorem runShotIn_kept (w : World Q A σ) {r : Option (Callback σ μ)} (hr : ∀ f, r = some f → Tame f) (f : Func)
    (code : Prog Q A) {busy : Bool} {p : Proc σ μ} (hp : Kept busy p) : (runShotIn w r f code p).leaves (Kept busy) := by
  unfold runShotIn
  refine leaves_andThen (writeAll_kept hr _ hp) (fun _ h => h) fun p hp => ?_
  rw [writeAttrs_eq]
  refine leaves_andThen (writeAlls_kept hr _ hp) (fun _ h => h) fun p hp => ?_
  dsimp only
  split_ifs with hf
  · have := runProgIn_busy w.step code (p := { p with s := w.init p.s }) hp.2 fun _ => hp.1
    cases hk : runProgIn w.step code { p with s := w.init p.s } with
    | ok p' =>
      rw [hk] at this
      rw [ok_andThen]
      refine leaves_andThen (handRecords_kept hr this.1 this.2) (fun _ h => h) fun p hp => ?_
      exact leaves_andThen (writeAll_kept hr _ hp) (fun _ h => h) fun p hp => writeAll_kept hr _ hp
    | err e p' => rw [hk] at this; exact this.elim
    | panicked p' => rw [hk] at this; exact this.elim
    | gone p' => trivial
  · exact hp

theorem runShotsIn_kept (w : World Q A σ) {r : Option (Callback σ μ)} (hr : ∀ f, r = some f → Tame f) (f : Func)
    (code : Prog Q A) {busy : Bool} (n : ℕ) : ∀ {p : Proc σ μ}, Kept busy p →
      (runShotsIn w r f code n p).leaves (Kept busy) := by
  induction n with
  | zero => exact fun hp => hp
  | succ n ih => exact fun hp => leaves_andThen (runShotIn_kept w hr f code hp) (fun _ h => h) fun _ h => ih h

theorem runIn_kept (w : World Q A σ) {r : Option (Callback σ μ)} (hr : ∀ f, r = some f → Tame f)
    (loaded : Except EntryError (Mod Q A)) (name : Option String) (n : ℕ) (seed : Option ℕ) {busy : Bool} {p : Proc σ μ}
    (hp : Kept busy p) : (runIn w r loaded name n seed p).leaves (Kept busy) := by
  unfold runIn runModuleIn
  dsimp only
  split
  · exact hp
  · split
    · exact hp
    · split
      · exact hp
      · split
        · exact hp
        · exact runShotsIn_kept w hr _ _ _ hp

theorem callIn_kept (w : World Q A σ) {f : Callback σ μ} (hf : Tame f) (c : PyCall) {busy : Bool} {p : Proc σ μ}
    (hp : Kept busy p) : (callIn w f c p).leaves (Kept busy) := by
  have h1 : ∀ b : Bool, ∀ g, (if b then some f else none) = some g → Tame g := by
    intro b g h
    cases b with
    | false => cases h
    | true => cases h; exact hf
  have h2 : ∀ g, (none : Option (Callback σ μ)) = some g → Tame g := fun g h => by cases h
  cases c with
  | run path name shots seed callback =>
    simp only [callIn, enter]
    split_ifs
    · exact hp
    · exact runIn_kept w (h1 true) _ _ _ _ hp
    · exact runIn_kept w (h1 false) _ _ _ _ hp
  | runBytes bytes name shots seed callback =>
    simp only [callIn, enter]
    split_ifs
    · exact hp
    · exact runIn_kept w (h1 true) _ _ _ _ hp
    · exact runIn_kept w (h1 false) _ _ _ _ hp
  | main args stdin =>
    cases args with
    | display => exact hp
    | invalid => exact hp
    | run file name shots seed =>
      simp only [callIn]
      split
      · exact runIn_kept w h2 _ _ _ _ hp
      · split
        · exact writeAll_kept h2 _ hp
        · exact hp
        · split_ifs
          · exact hp
          · exact runIn_kept w h2 _ _ _ _ hp

theorem code_kept {w : World Q A σ} {allowed : PyCall → Prop} {a : Proc σ μ → Ran σ μ} (h : Code w allowed a) :
    ∀ {busy : Bool} {p : Proc σ μ}, Kept busy p → (a p).leaves (Kept busy) := by
  induction h with
  | compute h => exact fun hp => hp
  | depends a ha ih => exact fun {busy p} hp => ih p.mem hp
  | raise => exact fun hp => hp
  | seq ha hb iha ihb => exact fun hp => leaves_andThen (iha hp) (fun _ h => h) fun _ h => ihb h
  | @rescue a b ha hb iha ihb =>
    intro busy p hp
    have h1 := iha hp
    dsimp only
    cases h : a p with
    | ok p' => rw [h] at h1; exact h1
    | err e p' => rw [h] at h1; exact ihb h1
    | panicked p' => rw [h] at h1; exact ihb h1
    | gone p' => trivial
  | call c hc f hf ih => exact fun hp => callIn_kept w (fun b p hp => ih b ⟨hp, rfl⟩) c hp

/-- `stdout` has received no more than `out`, and records are collected. -/
abbrev Hushed (out : Bytes) (p : Proc σ μ) : Prop := p.io.stdout = out ∧ p.io.recorder.useStdOut = false

/-- Whatever the callback is given, if records are collected then it leaves that so and writes nothing to `stdout`. -/
def Silent (f : Callback σ μ) : Prop := ∀ b out p, Hushed out p → (f b p).always (Hushed out)

theorem always_andThen {P : Proc σ μ → Prop} {r : Ran σ μ} {k : Proc σ μ → Ran σ μ} (h : r.always P)
    (hk : ∀ p, P p → (k p).always P) : (r.andThen k).always P := by
  cases r with
  | ok p => exact hk p h
  | err e p => exact h
  | panicked p => exact h
  | gone p => exact h

theorem writeAll_hushed {f : Callback σ μ} (hf : Silent f) (b out : Bytes) {p : Proc σ μ} (hp : Hushed out p) :
    (writeAll (some f) b p).always (Hushed out) := by
  unfold writeAll
  by_cases hb : b = []
  · rw [if_pos hb]
    exact hp
  · rw [if_neg hb]
    dsimp only
    split_ifs with ht
    · have := hf b out p hp
      cases h : f b p with
      | ok p' => rw [h] at this; exact this
      | err e p' => rw [h] at this; exact this
      | panicked p' => rw [h] at this; exact this
      | gone p' => rw [h] at this; exact this
    · exact hp

theorem writeAlls_hushed {f : Callback σ μ} (hf : Silent f) (l : List Bytes) (out : Bytes) :
    ∀ {p : Proc σ μ}, Hushed out p → (writeAlls (some f) l p).always (Hushed out) := by
  induction l with
  | nil => exact fun hp => hp
  | cons b bs ih => exact fun hp => always_andThen (writeAll_hushed hf b out hp) fun _ h => ih h

theorem write_hushed {out : Bytes} {io : Io} (hp : io.stdout = out ∧ io.recorder.useStdOut = false) (b : Bytes) :
    (io.write b).stdout = out ∧ (io.write b).recorder.useStdOut = false := by
  simp [Io.write, hp.1, hp.2]

theorem runProgIn_hushed (step : StepFn Q A σ) (code : Prog Q A) (out : Bytes) : ∀ {p : Proc σ μ}, Hushed out p →
    (runProgIn step code p).always (Hushed out) := by
  induction code with
  | done => exact fun hp => hp
  | call q k ih =>
    intro p hp
    simp only [runProgIn]
    cases hq : step q p.s with
    | error o =>
      dsimp only [Ran.always]
      split_ifs
      · exact hp
      · exact write_hushed hp o
    | ok r =>
      obtain ⟨a, o, s⟩ := r
      dsimp only
      split_ifs with hb
      · exact hp
      · exact ih a (p := { p with s := s, io := p.io.write o }) (write_hushed hp o)

theorem handRecords_hushed {f : Callback σ μ} (hf : Silent f) (out : Bytes) {p : Proc σ μ} (hp : Hushed out p) :
    (handRecords (some f) p).always (Hushed out) := by
  unfold handRecords
  split_ifs with hb
  · exact hp
  · have := writeAll_hushed hf p.io.drain.1 out (p := { p with io := p.io.drain.2, busy := true }) hp
    cases hw : writeAll (some f) p.io.drain.1 { p with io := p.io.drain.2, busy := true } with
    | ok p' => rw [hw] at this; exact this
    | err e p' => rw [hw] at this; exact this
    | panicked p' => rw [hw] at this; exact this
    | gone p' => rw [hw] at this; exact this

theorem runShotIn_hushed (w : World Q A σ) {f : Callback σ μ} (hf : Silent f) (fn : Func) (code : Prog Q A) (out : Bytes)
    {p : Proc σ μ} (hp : Hushed out p) : (runShotIn w (some f) fn code p).always (Hushed out) := by
  unfold runShotIn
  refine always_andThen (writeAll_hushed hf _ out hp) fun p hp => ?_
  rw [writeAttrs_eq]
  refine always_andThen (writeAlls_hushed hf _ out hp) fun p hp => ?_
  dsimp only
  split_ifs
  · refine always_andThen (runProgIn_hushed w.step code out (p := { p with s := w.init p.s }) hp) fun p hp => ?_
    refine always_andThen (handRecords_hushed hf out hp) fun p hp => ?_
    exact always_andThen (writeAll_hushed hf _ out hp) fun p hp => writeAll_hushed hf _ out hp
  · exact hp

theorem runShotsIn_hushed (w : World Q A σ) {f : Callback σ μ} (hf : Silent f) (fn : Func) (code : Prog Q A) (out : Bytes)
    (n : ℕ) : ∀ {p : Proc σ μ}, Hushed out p → (runShotsIn w (some f) fn code n p).always (Hushed out) := by
  induction n with
  | zero => exact fun hp => hp
  | succ n ih => exact fun hp => always_andThen (runShotIn_hushed w hf fn code out hp) fun _ h => ih h

/-- Nothing more on `stdout`, and records are collected if they were. -/
abbrev Quiet (p p' : Proc σ μ) : Prop :=
  p'.io.stdout = p.io.stdout ∧ (p.io.recorder.useStdOut = false → p'.io.recorder.useStdOut = false)

theorem always_mono {P R : Proc σ μ → Prop} {r : Ran σ μ} (h : r.always P) (hR : ∀ p, P p → R p) : r.always R := by
  cases r <;> exact hR _ h

theorem callIn_quiet (w : World Q A σ) {f : Callback σ μ} (hf : Silent f) {c : PyCall} (hc : c.dest = false)
    (p : Proc σ μ) : (callIn w f c p).always (Quiet p) := by
  have key : ∀ (loaded : Except EntryError (Mod Q A)) (name : Option String) (n : ℕ) (seed : Option ℕ),
      (enter true (runIn w (some f) loaded name n seed) p).always (Quiet p) := by
    intro loaded name n seed
    unfold enter
    split_ifs with hb
    · exact ⟨rfl, fun h => h⟩
    · refine always_mono (P := Hushed p.io.stdout) ?_ fun p' h => ⟨h.1, fun _ => h.2⟩
      have hp : Hushed p.io.stdout { p with s := w.seeded seed p.s, io := p.io.setStdOut (!true) } := ⟨rfl, rfl⟩
      unfold runIn runModuleIn
      dsimp only
      split
      · exact hp
      · split
        · exact hp
        · split
          · exact hp
          · split
            · exact hp
            · exact runShotsIn_hushed w hf _ _ _ _ hp
  cases c with
  | run path name shots seed callback =>
    cases callback with
    | false => cases hc
    | true => exact key _ _ _ _
  | runBytes bytes name shots seed callback =>
    cases callback with
    | false => cases hc
    | true => exact key _ _ _ _
  | main => cases hc

theorem Quiet.trans {p q r : Proc σ μ} (h1 : Quiet p q) (h2 : Quiet q r) : Quiet p r :=
  ⟨h2.1.trans h1.1, fun h => h2.2 (h1.2 h)⟩

theorem writeAll_text {b : Bytes} (hb : b ≠ []) (ht : IsText b) (f : Callback σ μ) (p : Proc σ μ) :
    writeAll (some f) b p = match f b p with
      | .ok p => .ok p
      | .err _ p => .panicked p
      | .panicked p => .panicked p
      | .gone p => .gone p := by
  unfold writeAll
  rw [if_neg hb]
  dsimp only
  rw [if_pos ht]
  cases f b p <;> rfl

/-! ### Calls without a callback -/

theorem writeAll_none (b : Bytes) (p : Proc σ μ) : writeAll none b p = .ok { p with io := writeOut true b p.io } := by
  unfold writeAll
  by_cases hb : b = []
  · rw [if_pos hb, hb]
    simp [writeOut]
  · rw [if_neg hb]
    simp [writeOut]

theorem writeAttrs_none (as : List (String × String)) : ∀ p : Proc σ μ,
    writeAttrs none as p = .ok { p with io := as.foldl (writeAttr true) p.io } := by
  induction as with
  | nil => exact fun p => rfl
  | cons a as ih =>
    intro p
    rw [writeAttrs, writeAll_none, ok_andThen]
    cases h : a.2.isEmpty with
    | true =>
      simp only [if_true]
      rw [ok_andThen, writeAll_none, ok_andThen, ih, List.foldl_cons, writeAttr, h]
      rfl
    | false =>
      simp only [Bool.false_eq_true, if_false]
      rw [writeAll_none, ok_andThen, writeAll_none, ok_andThen, ih, List.foldl_cons, writeAttr, h]
      rfl

theorem runProgIn_runProg (step : StepFn Q A σ) (code : Prog Q A) : ∀ p : Proc σ μ, p.busy = false →
    match runProg step code p.s p.io with
    | .ok (s', io') => runProgIn step code p = .ok { p with s := s', io := io' }
    | .error io' => ∃ s', runProgIn step code p = .gone { p with s := s', io := io' } := by
  induction code with
  | done => exact fun p _ => rfl
  | call q k ih =>
    intro p hp
    simp only [runProg, runProgIn]
    cases hq : step q p.s with
    | error out => exact ⟨p.s, by simp [hp]⟩
    | ok r =>
      obtain ⟨a, out, s₁⟩ := r
      have h := ih a { p with s := s₁, io := p.io.write out } hp
      simp only [hp, Bool.false_eq_true, false_and, if_false]
      simp only [hp] at h
      exact h

theorem handRecords_none {p : Proc σ μ} (hp : p.busy = false) :
    handRecords none p = .ok { p with io := writeOut true p.io.drain.1 p.io.drain.2 } := by
  unfold handRecords
  rw [if_neg (by rw [hp]; simp), writeAll_none]
  dsimp only
  rw [hp]

theorem runShotIn_none (w : World Q A σ) (f : Func) (code : Prog Q A) (p : Proc σ μ) (hp : p.busy = false) :
    match runShot w.step w.init true f code p.s p.io with
    | .ok (s', io') => runShotIn w none f code p = .ok { p with s := s', io := io' }
    | .error (.aborted, io') => ∃ s', runShotIn w none f code p = .gone { p with s := s', io := io' }
    | .error (.entryPointParameters, io') =>
      runShotIn w none f code p = .err (.run .entryPointParameters) { p with s := w.init p.s, io := io' }
    | .error _ => False := by
  unfold runShotIn runShot
  rw [writeAll_none, ok_andThen, writeAttrs_none, ok_andThen]
  dsimp only
  by_cases hf : f.params = 0
  · simp only [hf, if_true]
    have h := runProgIn_runProg w.step code
      { p with s := w.init p.s, io := f.attrs.foldl (writeAttr true) (writeOut true (utf8 "START\n") p.io) } hp
    dsimp only at h
    cases hr : runProg w.step code (w.init p.s) (f.attrs.foldl (writeAttr true) (writeOut true (utf8 "START\n") p.io)) with
    | error io' =>
      rw [hr] at h
      obtain ⟨s', h⟩ := h
      exact ⟨s', by rw [h]; rfl⟩
    | ok r =>
      obtain ⟨s', io'⟩ := r
      rw [hr] at h
      dsimp only at h ⊢
      rw [h, ok_andThen, handRecords_none (p := { p with s := s', io := io' }) hp, ok_andThen, writeAll_none, ok_andThen, writeAll_none]
  · simp only [hf, if_false]

theorem runShotsIn_none (w : World Q A σ) (f : Func) (code : Prog Q A) (n : ℕ) : ∀ p : Proc σ μ, p.busy = false →
    match runShots w.step w.init true f code n p.s p.io with
    | .ok (s', io') => runShotsIn w none f code n p = .ok { p with s := s', io := io' }
    | .error (.aborted, io') => ∃ s', runShotsIn w none f code n p = .gone { p with s := s', io := io' }
    | .error (.entryPointParameters, io') =>
      runShotsIn w none f code n p = .err (.run .entryPointParameters) { p with s := w.init p.s, io := io' }
    | .error _ => False := by
  induction n with
  | zero => exact fun p _ => rfl
  | succ n ih =>
    intro p hp
    have h1 := runShotIn_none w f code p hp
    simp only [runShots, runShotsIn]
    cases hr : runShot w.step w.init true f code p.s p.io with
    | error e =>
      obtain ⟨e, io'⟩ := e
      rw [hr] at h1
      cases e with
      | aborted =>
        obtain ⟨s', h1⟩ := h1
        exact ⟨s', by rw [h1]; rfl⟩
      | entryPointParameters =>
        dsimp only at h1 ⊢
        rw [h1]
        rfl
      | _ => exact h1.elim
    | ok r =>
      obtain ⟨s', io'⟩ := r
      rw [hr] at h1
      dsimp only at h1 ⊢
      rw [h1, ok_andThen]
      by_cases hf : f.params = 0
      · have h2 := ih { p with s := s', io := io' } hp
        dsimp only at h2
        cases hr2 : runShots w.step w.init true f code n s' io' with
        | ok r => rw [hr2] at h2; exact h2
        | error e =>
          obtain ⟨e, io''⟩ := e
          rw [hr2] at h2
          cases e with
          | aborted => exact h2
          | entryPointParameters =>
            exfalso
            revert hr2
            clear * - hf
            induction n generalizing s' io' with
            | zero => exact fun h => by cases h
            | succ n ih =>
              simp only [runShots, runShot, hf, if_true]
              cases runProg w.step code (w.init s') (f.attrs.foldl (writeAttr true) (writeOut true (utf8 "START\n") io')) with
              | error x => exact fun h => by cases h
              | ok x => exact fun h => ih _ _ h
          | _ => exact h2.elim
      · simp [runShot, hf] at hr

theorem runIn_none (w : World Q A σ) (m₀ : Mod Q A) (name : Option String) (n : ℕ) (seed : Option ℕ) (p : Proc σ μ)
    (hp : p.busy = false) :
    match w.runLoaded m₀ name n true (w.seeded seed p.s) p.io with
    | .ok s' io' => runIn w none (.ok m₀) name n seed p = .ok { p with s := s', io := io' }
    | .rejected e s' io' => runIn w none (.ok m₀) name n seed p = .err e { p with s := s', io := io' }
    | .ended io' => ∃ s', runIn w none (.ok m₀) name n seed p = .gone { p with s := s', io := io' } := by
  unfold World.runLoaded runIn runModuleIn runModule
  dsimp only
  cases hm : w.prepare m₀ with
  | none => rfl
  | some m =>
    dsimp only
    cases hb : bindFunctions m.fs with
    | error e =>
      have he := bindFunctions_error hb
      cases e <;> first | exact absurd rfl he.1 | exact absurd rfl he.2 | rfl
    | ok x =>
      dsimp only
      cases hf : chooseEntryPoint m.fs name with
      | error e =>
        have he : e ≠ .aborted ∧ e ≠ .entryPointParameters := by
          unfold chooseEntryPoint at hf
          split at hf <;> cases hf <;> exact ⟨by simp, by simp⟩
        cases e <;> first | exact absurd rfl he.1 | exact absurd rfl he.2 | rfl
      | ok f =>
        have h := runShotsIn_none w f (m.code f) n { p with s := w.seeded seed p.s } hp
        dsimp only at h ⊢
        cases hr : runShots w.step w.init true f (m.code f) n (w.seeded seed p.s) p.io with
        | ok r => rw [hr] at h; exact h
        | error e =>
          obtain ⟨e, io'⟩ := e
          rw [hr] at h
          cases e with
          | aborted => exact h
          | entryPointParameters => exact h
          | _ => exact h.elim

theorem runFile_none (w : World Q A σ) (path : FilePath) (name : Option String) (n : ℕ) (seed : Option ℕ) (p : Proc σ μ)
    (hp : p.busy = false) :
    match w.runFile path name n seed true p.s p.io with
    | .ok s' io' => runIn w none (w.loadFile path) name n seed p = .ok { p with s := s', io := io' }
    | .rejected e s' io' => runIn w none (w.loadFile path) name n seed p = .err e { p with s := s', io := io' }
    | .ended io' => ∃ s', runIn w none (w.loadFile path) name n seed p = .gone { p with s := s', io := io' } := by
  unfold World.runFile
  dsimp only
  cases hl : w.loadFile path with
  | error e => rfl
  | ok m => exact runIn_none w m name n seed p hp

theorem runBytes_none (w : World Q A σ) (bytes : Bytes) (name : Option String) (n : ℕ) (seed : Option ℕ) (p : Proc σ μ)
    (hp : p.busy = false) :
    match w.runBytes bytes name n seed true p.s p.io with
    | .ok s' io' => runIn w none (w.loadBytes bytes) name n seed p = .ok { p with s := s', io := io' }
    | .rejected e s' io' => runIn w none (w.loadBytes bytes) name n seed p = .err e { p with s := s', io := io' }
    | .ended io' => ∃ s', runIn w none (w.loadBytes bytes) name n seed p = .gone { p with s := s', io := io' } := by
  unfold World.runBytes World.loadBytes
  dsimp only
  by_cases h : bytes.length < 4
  · simp only [h, if_true]
    rfl
  · simp only [h, if_false]
    cases hp' : w.parseIr (if World.isBitcode bytes then bytes else bytes ++ [0]) bytes.length with
    | none => rfl
    | some m => exact runIn_none w m name n seed p hp

end Qir.Run
