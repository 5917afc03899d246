import Verif.Model.Handler
import Verif.Props.Callback
import Verif.Props.Decoding

/-!
# C66: `OutputHandler`
-/

noncomputable section
namespace Qir.Run
open Qir.Out

variable {Q A σ : Type}

/-! ## Specification -/

/-- Everything a call offers is text. -/
def Wordy (w : World Q A σ) (c : PyCall) : Prop := ∀ s texts fin, Offers w c s texts fin → ∀ b ∈ texts, IsText b

/-- The same call without a callback. -/
def PyCall.plain : PyCall → PyCall
  | .run path name shots seed _ => .run path name shots seed false
  | .runBytes bytes name shots seed _ => .runBytes bytes name shots seed false
  | c => c

/-- The outputs of the calls that were given handler `i`. -/
def share (i : ℕ) (cs : List (PyCall × ℕ)) (outs : List Bytes) : Bytes :=
  ((cs.zip outs).filter fun x => x.1.2 == i).flatMap (·.2)

/-- What the handlers get in a sequence of calls: of each call the texts it has to offer, up to the first that is not text.
The next call starts with the backend as that call leaves it if everything is text; otherwise nothing is said about it. -/
inductive Fed (w : World Q A σ) : List PyCall → σ → List Bytes → Prop
  | nil {s : σ} : Fed w [] s []
  | all {c : PyCall} {cs : List PyCall} {s s' : σ} {texts : List Bytes} {outs : List Bytes} {fin : Finish σ}
      (h : Offers w c s texts fin) (ht : ∀ b ∈ texts, IsText b) (hf : fin = .returns s' ∨ fin = .raises s')
      (h' : Fed w cs s' outs) : Fed w (c :: cs) s (texts.flatten :: outs)
  | cut {c : PyCall} {cs : List PyCall} {s s' : σ} {texts rest : List Bytes} {b : Bytes} {outs : List Bytes}
      {fin : Finish σ} (h : Offers w c s (texts ++ b :: rest) fin) (ht : ∀ b ∈ texts, IsText b) (hb : ¬ IsText b)
      (h' : Fed w cs s' outs) : Fed w (c :: cs) s (texts.flatten :: outs)

/-- The tags of an HTML text: what stands between `<` and `>`. -/
def tags : Option (List Char) → List Char → List (List Char)
  | _, [] => []
  | none, c :: cs => if c = '<' then tags (some []) cs else tags none cs
  | some a, c :: cs => if c = '>' then a.reverse :: tags none cs else tags (some (c :: a)) cs

/-! ## Proofs -/

theorem handlerCallback_eq (i : ℕ) : (handlerCallback i : Callback σ (ℕ → Handler)) = foreign (handlerFn i) := rfl

theorem utf8_outputOf {b : Bytes} (h : IsText b) : utf8 (outputOf b).text = b := by
  unfold outputOf
  rw [dif_pos h]
  exact h.choose_spec

theorem isText_append {a b : Bytes} (ha : IsText a) (hb : IsText b) : IsText (a ++ b) := by
  obtain ⟨s, rfl⟩ := ha
  obtain ⟨t, rfl⟩ := hb
  exact ⟨s ++ t, utf8_append s t⟩

theorem isText_nil : IsText [] := ⟨"", rfl⟩

theorem getOutput_handle (h : Handler) (o : PyOutput) : (h.handle o).getOutput = h.getOutput ++ o.text := by
  simp [Handler.handle, Handler.getOutput, String.join, PyOutput.str, PyOutput.repr]

theorem hand_handler (i : ℕ) : ∀ (texts : List Bytes) (m : ℕ → Handler), (∀ b ∈ texts, IsText b) →
    (hand (handlerFn i) texts m).2 = true ∧
    utf8 ((hand (handlerFn i) texts m).1 i).getOutput = utf8 (m i).getOutput ++ texts.flatten ∧
    ∀ j, j ≠ i → (hand (handlerFn i) texts m).1 j = m j
  | [], m, _ => ⟨rfl, by simp [hand], fun _ _ => rfl⟩
  | b :: bs, m, h => by
    have hb := h b (by simp)
    obtain ⟨h1, h2, h3⟩ := hand_handler i bs (handlerFn i b m).1 fun b hb => h b (by simp [hb])
    have e : hand (handlerFn i) (b :: bs) m = hand (handlerFn i) bs (handlerFn i b m).1 := by
      simp only [hand, hb, if_true]
      rfl
    rw [e]
    refine ⟨h1, ?_, fun j hj => ?_⟩
    · rw [h2]
      simp only [handlerFn, Function.update_self, getOutput_handle, utf8_append, utf8_outputOf hb, List.flatten_cons,
        List.append_assoc]
    · rw [h3 j hj]
      simp [handlerFn, Function.update_of_ne hj]

/-! ## C66 -/

/-- **C66**, one call.  A handler has received exactly the text of what the call has to say, appended to what it had; the
other handlers have not changed, nothing has been written to `stdout`, and the call ends as it should. -/
theorem C66_call (w : World Q A σ) (i : ℕ) (c : PyCall) (hc : c.dest = false) (hw : Wordy w c) (p : Proc σ (ℕ → Handler))
    (hp : Free p) : ∃ out m', utf8 (m' i).getOutput = utf8 (p.mem i).getOutput ++ out ∧ (∀ j, j ≠ i → m' j = p.mem j) ∧
      ((∃ s', Says w c p.s true out s' ∧
          callIn w (handlerCallback i) c p = .ok { p with s := s', io := p.io.setStdOut false, mem := m' }) ∨
        (∃ s' e, Says w c p.s false out s' ∧
          callIn w (handlerCallback i) c p = .err e { p with s := s', io := p.io.setStdOut false, mem := m' }) ∨
        ∃ s' lost, Fails w c p.s out lost ∧ callIn w (handlerCallback i) c p =
          .gone { p with s := s', io := (p.io.setStdOut false).write lost, mem := m' }) := by
  obtain ⟨texts, fin, h1, -⟩ := C64_offers w c hc p.s
  have h2 := C64_call w (handlerFn i) c hc p hp texts fin h1
  have h3 := (C64_says w c p.s texts fin h1).2
  obtain ⟨h4, h5, h6⟩ := hand_handler i texts p.mem (hw _ _ _ h1)
  refine ⟨texts.flatten, (hand (handlerFn i) texts p.mem).1, h5, h6, ?_⟩
  unfold Goes at h2
  rw [if_neg (by rw [h4]; simp)] at h2
  rw [handlerCallback_eq]
  cases fin with
  | returns s' => exact .inl ⟨s', h3, h2⟩
  | raises s' => obtain ⟨e, h2⟩ := h2; exact .inr (.inl ⟨s', e, h3, h2⟩)
  | ends lost => obtain ⟨s', h2⟩ := h2; exact .inr (.inr ⟨s', lost, h3, h2⟩)

/-- **C66**.  In a sequence of calls, each with one of the handlers, every handler ends up with exactly the text of what
its calls have to say, in order, and nothing is written to `stdout`. -/
theorem C66_session (w : World Q A σ) : ∀ (cs : List (PyCall × ℕ)) (p p' : Proc σ (ℕ → Handler)), Free p →
    (∀ c ∈ cs, c.1.dest = false ∧ Wordy w c.1) → handled w cs p = .ok p' →
    ∃ outs, Chain w (cs.map (·.1)) p.s outs p'.s ∧ outs.length = cs.length ∧ Free p' ∧ p'.io.stdout = p.io.stdout ∧
      ∀ i, utf8 (p'.mem i).getOutput = utf8 (p.mem i).getOutput ++ share i cs outs
  | [], p, p', hp, _, h => by
    cases h
    exact ⟨[], .nil, rfl, hp, rfl, fun i => by simp [share]⟩
  | (c, i) :: cs, p, p', hp, hc, h => by
    obtain ⟨out, m', h1, h2, h3⟩ := C66_call w i c (hc (c, i) (by simp)).1 (hc (c, i) (by simp)).2 p hp
    have key : ∀ s' b, Says w c p.s b out s' →
        handled w cs { p with s := s', io := p.io.setStdOut false, mem := m' } = .ok p' →
        ∃ outs, Chain w (((c, i) :: cs).map (·.1)) p.s outs p'.s ∧ outs.length = ((c, i) :: cs).length ∧ Free p' ∧
          p'.io.stdout = p.io.stdout ∧
          ∀ j, utf8 (p'.mem j).getOutput = utf8 (p.mem j).getOutput ++ share j ((c, i) :: cs) outs := by
      intro s' b hs h
      obtain ⟨outs, g1, g2, g3, g4, g5⟩ := C66_session w cs { p with s := s', io := p.io.setStdOut false, mem := m' } p'
        ⟨hp.empty, hp.idle⟩ (fun c hc' => hc c (by simp [hc'])) h
      refine ⟨out :: outs, .cons hs g1, by simp [g2], g3, g4, fun j => ?_⟩
      rw [g5 j]
      dsimp only
      by_cases hj : j = i
      · subst hj
        rw [h1]
        simp [share]
      · rw [h2 j hj]
        have : (i == j) = false := by simpa using fun h => hj h.symm
        simp [share, this]
    simp only [handled] at h
    rcases h3 with ⟨s', hs, e⟩ | ⟨s', er, hs, e⟩ | ⟨s', lost, hs, e⟩
    · rw [e] at h; exact key s' _ hs h
    · rw [e] at h; exact key s' _ hs h
    · rw [e] at h; cases h

/-- Texts up to the first that is not text. -/
theorem split_text : ∀ texts : List Bytes, (∀ b ∈ texts, IsText b) ∨
    ∃ front b rest, texts = front ++ b :: rest ∧ (∀ b ∈ front, IsText b) ∧ ¬ IsText b
  | [] => .inl (by simp)
  | b :: bs => by
    by_cases hb : IsText b
    · rcases split_text bs with h | ⟨front, b', rest, rfl, h1, h2⟩
      · exact .inl (by simpa using ⟨hb, h⟩)
      · exact .inr ⟨b :: front, b', rest, rfl, by simpa using ⟨hb, h1⟩, h2⟩
    · exact .inr ⟨[], b, bs, rfl, by simp, hb⟩

/-- **C66**, in general.  Labels need not be text.  A call in which something else comes up raises an exception after the
handler has received what comes before; the calls after it are not affected. -/
theorem C66_sequence (w : World Q A σ) : ∀ (cs : List (PyCall × ℕ)) (p : Proc σ (ℕ → Handler)), Free p →
    (∀ c ∈ cs, c.1.dest = false) →
    (∃ p', handled w cs p = .gone p') ∨
    ∃ p' outs, handled w cs p = .ok p' ∧ Fed w (cs.map (·.1)) p.s outs ∧ outs.length = cs.length ∧ Free p' ∧
      p'.io.stdout = p.io.stdout ∧ ∀ i, utf8 (p'.mem i).getOutput = utf8 (p.mem i).getOutput ++ share i cs outs
  | [], p, hp, _ => .inr ⟨p, [], rfl, .nil, rfl, hp, rfl, fun i => by simp [share]⟩
  | (c, i) :: cs, p, hp, hc => by
    obtain ⟨texts, fin, h1, -⟩ := C64_offers w c (hc (c, i) (by simp)) p.s
    have h2 := C64_call w (handlerFn i) c (hc (c, i) (by simp)) p hp texts fin h1
    have key : ∀ (s' : σ) (m' : ℕ → Handler) (out : Bytes),
        (utf8 (m' i).getOutput = utf8 (p.mem i).getOutput ++ out ∧ ∀ j, j ≠ i → m' j = p.mem j) →
        (∀ outs, Fed w (cs.map (·.1)) s' outs → Fed w (c :: cs.map (·.1)) p.s (out :: outs)) →
        handled w ((c, i) :: cs) p = handled w cs { p with s := s', io := p.io.setStdOut false, mem := m' } →
        (∃ p', handled w ((c, i) :: cs) p = .gone p') ∨
        ∃ p' outs, handled w ((c, i) :: cs) p = .ok p' ∧ Fed w (c :: cs.map (·.1)) p.s outs ∧
          outs.length = ((c, i) :: cs).length ∧ Free p' ∧ p'.io.stdout = p.io.stdout ∧
          ∀ j, utf8 (p'.mem j).getOutput = utf8 (p.mem j).getOutput ++ share j ((c, i) :: cs) outs := by
      intro s' m' out hm hk e
      rw [e]
      rcases C66_sequence w cs { p with s := s', io := p.io.setStdOut false, mem := m' } ⟨hp.empty, hp.idle⟩
        (fun c hc' => hc c (by simp [hc'])) with ⟨p', g⟩ | ⟨p', outs, g1, g2, g3, g4, g5, g6⟩
      · exact .inl ⟨p', g⟩
      · refine .inr ⟨p', out :: outs, g1, hk outs g2, by simp [g3], g4, g5, fun j => ?_⟩
        rw [g6 j]
        dsimp only
        by_cases hj : j = i
        · subst hj
          rw [hm.1]
          simp [share]
        · rw [hm.2 j hj]
          have : (i == j) = false := by simpa using fun h => hj h.symm
          simp [share, this]
    rw [← handlerCallback_eq] at h2
    unfold Goes at h2
    rcases split_text texts with ht | ⟨front, b, rest, rfl, ht, hb⟩
    · obtain ⟨g1, g2, g3⟩ := hand_handler i texts p.mem ht
      rw [if_neg (by rw [g1]; simp)] at h2
      cases fin with
      | returns s' =>
        exact key s' _ texts.flatten ⟨g2, g3⟩ (fun outs h => .all h1 ht (.inl rfl) h) (by simp only [handled, h2])
      | raises s' =>
        obtain ⟨e, h2⟩ := h2
        exact key s' _ texts.flatten ⟨g2, g3⟩ (fun outs h => .all h1 ht (.inr rfl) h) (by simp only [handled, h2])
      | ends lost =>
        obtain ⟨s', h2⟩ := h2
        exact .inl ⟨_, by simp only [handled, h2]; rfl⟩
    · obtain ⟨g1, g2, g3⟩ := hand_handler i front p.mem ht
      have e : hand (handlerFn i) (front ++ b :: rest) p.mem = ((hand (handlerFn i) front p.mem).1, false) := by
        rw [hand_append, if_pos g1, hand, if_neg hb]
      rw [e, if_pos rfl] at h2
      obtain ⟨s', h2⟩ := h2
      exact key s' _ front.flatten ⟨g2, g3⟩ (fun outs h => .cut h1 ht hb h) (by simp only [handled, h2])

theorem plain_facts (w : World Q A σ) (c : PyCall) : (∀ m f, Runnable w c.plain m f ↔ Runnable w c m f) ∧
    c.plain.shots = c.shots ∧ c.plain.seed = c.seed := by
  cases c <;> exact ⟨fun _ _ => Iff.rfl, rfl, rfl⟩

/-- **C66**, as on the console.  If the call without a callback would write something to `stdout`, the handler
receives the text of just that, and the backend is left in the same state. -/
theorem C66_console (w : World Q A σ) (i : ℕ) (c : PyCall) (hc : c.dest = false) (hw : Wordy w c)
    (p : Proc σ (ℕ → Handler)) (hp : Free p) (io io' : Io) (s' : σ) (hio : io.recorder.buffer = [])
    (h : w.call c.plain p.s io = .ok s' io') :
    ∃ out m', io'.stdout = io.stdout ++ out ∧ utf8 (m' i).getOutput = utf8 (p.mem i).getOutput ++ out ∧
      callIn w (handlerCallback i) c p = .ok { p with s := s', io := p.io.setStdOut false, mem := m' } := by
  have h1 := C51_call w c.plain p.s io hio
  simp only [h] at h1
  obtain ⟨-, -, out, h2, h3⟩ := h1
  have hd : c.plain.dest = true := by cases c <;> rfl
  rw [hd] at h3
  have hh : ∀ t, ¬ c.plain.Help w t := by
    cases c with
    | main => cases hc
    | _ => exact fun _ h => h
  obtain ⟨f1, f2, f3⟩ := plain_facts w c
  have : ∃ texts, Offers w c p.s texts (.returns s') ∧ texts.flatten = out := by
    generalize hT : true = T at h2
    cases h2 with
    | help h' => exact absurd h' (hh _)
    | @shots m f s₀ s'' outs hm hpar hs hses hl =>
      refine ⟨outs.flatMap (shotTexts f.attrs), .shots (s₀ := s₀) ((f1 m f).1 hm) ?_ ?_ ?_, shots_flatten _ _⟩
      · rw [← f2]; exact hpar
      · rw [← f3]; exact hs
      · rw [← f2]; exact hses
    | refused => cases hT
    | parameters => cases hT
  obtain ⟨texts, h4, h5⟩ := this
  obtain ⟨g1, g2, g3⟩ := hand_handler i texts p.mem (hw _ _ _ h4)
  have h6 := C64_call w (handlerFn i) c hc p hp texts _ h4
  unfold Goes at h6
  rw [if_neg (by rw [g1]; simp)] at h6
  exact ⟨out, _, h3, h5 ▸ g2, h6⟩

/-! ### When everything is text -/

theorem utf8_narrow {c : Char} (h : c.toNat < 128) : utf8 (String.ofList [c]) = [UInt8.ofNat c.toNat] := by
  unfold utf8
  simp only [String.toUTF8, String.toByteArray_ofList, List.utf8Encode, List.flatMap_cons, List.flatMap_nil,
    List.append_nil, List.data_toByteArray]
  unfold String.utf8EncodeChar
  simp only [Char.toNat_val, show c.toNat ≤ 127 by omega, if_true]

theorem isText_ascii : ∀ {l : List Char}, (∀ c ∈ l, c.toNat < 128) → IsText (ascii l)
  | [], _ => isText_nil
  | c :: _, h => isText_append (a := [UInt8.ofNat c.toNat]) ⟨_, utf8_narrow (h c (by simp))⟩
      (isText_ascii fun c hc => h c (by simp [hc]))

theorem _root_.Qir.Out.Field.isText {l : List Char} (h : Field l) : IsText (ascii l) :=
  isText_ascii fun c hc => by have := h c hc; omega

theorem isText_tab {b : Bytes} (hb : IsText b) : IsText (9 :: b) := isText_append (a := [9]) ⟨"\t", by decide +kernel⟩ hb

theorem isText_feed : IsText [10] := ⟨"\n", by decide +kernel⟩

/-- The label of an event is text. -/
def Labelled : Event → Prop
  | .record r => ∀ t, r.label = some t → IsText t
  | .legacy _ => True

theorem isText_line {e : Event} (h : Labelled e) : IsText e.line := by
  cases e with
  | legacy r =>
    refine isText_append (isText_append (isText_ascii (by decide)) ?_) isText_feed
    exact isText_tab (legacy_text_field r).isText
  | record r =>
    refine isText_append ?_ isText_feed
    have hl : IsText (labelField r.label) := by
      cases ht : r.label with
      | none => exact isText_nil
      | some t => exact isText_tab (h t ht)
    have hv := (value_field r).isText
    have hk := (keyword_field r).isText
    have ho : IsText (ascii "OUTPUT".toList) := isText_ascii (by decide)
    cases r
    case message s => exact isText_append (isText_ascii (by decide)) (isText_tab hv)
    all_goals exact isText_append ho (isText_tab (isText_append hk (isText_tab (isText_append hv hl))))

/-- The library writes nothing but text when it is asked to do what `P` says. -/
def WritesText (step : StepFn Q A σ) (P : Q → Prop) : Prop := ∀ q s a out s', P q → step q s = .ok (a, out, s') → IsText out

theorem speech_text {step : StepFn Q A σ} {P : Q → Prop} (hw : WritesText step P) (p : Prog Q A) : ∀ s out s',
    AllCalls P p → speech step p s = .ok (out, s') → IsText out := by
  induction p with
  | done => intro s out s' _ h; cases h; exact isText_nil
  | call q k ih =>
    intro s out s' hp h
    unfold speech at h
    cases hs : step q s with
    | error o => rw [hs] at h; cases h
    | ok r =>
      obtain ⟨a, o, s1⟩ := r
      rw [hs] at h
      dsimp only at h
      cases hk : speech step (k a) s1 with
      | error o' => rw [hk] at h; cases h
      | ok r =>
        obtain ⟨o', s2⟩ := r
        rw [hk] at h
        cases h
        exact isText_append (hw q s a o s1 hp.1 hs) (ih a s1 o' s' (hp.2 a) hk)

theorem session_text {step : StepFn Q A σ} {P : Q → Prop} (hw : WritesText step P) (init : σ → σ) {p : Prog Q A}
    (hp : AllCalls P p) : ∀ (n : ℕ) (s : σ),
    (∀ outs s', session step init p n s = .ok (outs, s') → ∀ o ∈ outs, IsText o) ∧
    (∀ outs out, session step init p n s = .error (outs, out) → ∀ o ∈ outs, IsText o)
  | 0, s => ⟨fun outs s' h => by cases h; simp, fun outs out h => by cases h⟩
  | n + 1, s => by
    unfold session
    cases hs : speech step p (init s) with
    | error o => exact ⟨fun outs s' h => (by cases h), fun outs out h => by cases h; simp⟩
    | ok r =>
      obtain ⟨o, s1⟩ := r
      have ho := speech_text hw p _ o s1 hp hs
      obtain ⟨i1, i2⟩ := session_text hw init hp n s1
      dsimp only
      cases hr : session step init p n s1 with
      | error x =>
        obtain ⟨os, o'⟩ := x
        refine ⟨fun outs s' h => (by cases h), fun outs out h => ?_⟩
        cases h
        intro x hx
        rcases List.mem_cons.1 hx with rfl | hx
        · exact ho
        · exact i2 _ _ hr x hx
      | ok x =>
        obtain ⟨os, s2⟩ := x
        refine ⟨fun outs s' h => ?_, fun outs out h => by cases h⟩
        cases h
        intro x hx
        rcases List.mem_cons.1 hx with rfl | hx
        · exact ho
        · exact i1 _ _ hr x hx

theorem isText_head (attrs : List (String × String)) : ∀ b ∈ headTexts attrs, IsText b := by
  intro b hb
  simp only [headTexts, attrTexts, List.mem_cons, List.mem_flatMap, List.mem_append] at hb
  rcases hb with rfl | ⟨a, -, rfl | hb | hb⟩
  · exact isText_utf8 _
  · exact isText_append (isText_utf8 _) (isText_utf8 _)
  · split_ifs at hb
    · cases hb
    · rw [List.mem_singleton.1 hb]
      exact isText_append (isText_utf8 _) (isText_utf8 _)
  · rcases hb with rfl | hb
    · exact isText_feed
    · cases hb

theorem isText_shot (attrs : List (String × String)) {out : Bytes} (ho : IsText out) : ∀ b ∈ shotTexts attrs out, IsText b := by
  intro b hb
  simp only [shotTexts, List.mem_append] at hb
  rcases hb with hb | hb | hb
  · exact isText_head _ b hb
  · split_ifs at hb
    · cases hb
    · rw [List.mem_singleton.1 hb]; exact ho
  · simp only [List.mem_cons, List.not_mem_nil, or_false] at hb
    rcases hb with rfl | rfl
    · exact isText_utf8 _
    · exact isText_feed

/-- **C66**, when everything is text: if the library writes text for the calls the programs of the world make. -/
theorem C66_wordy (w : World Q A σ) (P : Q → Prop) (hw : WritesText w.step P) (c : PyCall)
    (hP : ∀ m f, Runnable w c m f → AllCalls P (m.code f)) : Wordy w c := by
  intro s texts fin h
  have all : ∀ {attrs : List (String × String)} {outs : List Bytes}, (∀ o ∈ outs, IsText o) →
      ∀ b ∈ outs.flatMap (shotTexts attrs), IsText b := by
    intro attrs outs ho b hb
    obtain ⟨o, h1, h2⟩ := List.mem_flatMap.1 hb
    exact isText_shot _ (ho o h1) b h2
  cases h with
  | @shots m f _ _ _ hm hp hs h => exact all ((session_text hw w.init (hP m f hm) _ _).1 _ _ h)
  | refused => simp
  | parameters => exact isText_head _
  | @fails m f _ _ _ hm hp hs h =>
    intro b hb
    rcases List.mem_append.1 hb with hb | hb
    · exact all ((session_text hw w.init (hP m f hm) _ _).2 _ _ h) b hb
    · exact isText_head _ b hb

/-- **C66**, HTML: the HTML text of an output without `<` is a paragraph without further tags. -/
theorem C66_html (o : PyOutput) (h : '<' ∉ o.text.toList) : tags none o.html.toList = [['p'], ['/', 'p']] := by
  have e : ∀ (l : List Char) t, '<' ∉ l → tags none (l ++ t) = tags none t := by
    intro l t hl
    induction l with
    | nil => rfl
    | cons c cs ih =>
      rw [List.mem_cons, not_or] at hl
      rw [List.cons_append, tags, if_neg (fun h => hl.1 h.symm), ih hl.2]
  unfold PyOutput.html
  rw [String.toList_append, String.toList_append, List.append_assoc]
  have e1 : ("<p>" : String).toList = ['<', 'p', '>'] := rfl
  have e2 : ("</p>" : String).toList = ['<', '/', 'p', '>'] := rfl
  rw [e1, e2]
  have : tags none (['<', 'p', '>'] ++ (o.text.toList ++ ['<', '/', 'p', '>'])) =
      ['p'] :: tags none (o.text.toList ++ ['<', '/', 'p', '>']) := rfl
  rw [this, e _ _ h]
  rfl

/-- **C66**, F19: the HTML text is not escaped.  A label with markup in it ends up as markup. -/
theorem C66_html_unescaped : ∃ o : PyOutput, utf8 o.text = lines [.record (.int 1 (some (utf8 "<b>")))] ∧
    tags none o.html.toList = [['p'], ['b'], ['/', 'p']] :=
  ⟨⟨"OUTPUT\tINT\t1\t<b>\n"⟩, by decide +kernel, by decide +kernel⟩

/-! ### Examples and a counterexample -/

theorem isText_A : IsText [65, 10] := ⟨"A\n", by decide +kernel⟩

theorem toy_writes : WritesText toy.step fun _ => True := by
  intro q s a out s' _ h
  cases q <;> cases h
  exact isText_A

theorem allCalls_true (p : Prog Q A) : AllCalls (fun _ => True) p := by
  induction p with
  | done => trivial
  | call q k ih => exact ⟨trivial, ih⟩

/-- Two handlers, three calls, one of them refused: each handler has the text of its calls. -/
example (p' : Proc ℕ (ℕ → Handler)) (h : handled toy
    [(.run ⟨"a.ll", some "ll"⟩ none (some 2) none true, 0), (.run ⟨"missing.ll", some "ll"⟩ none none none true, 0),
      (.run ⟨"a.ll", some "ll"⟩ none none none true, 1)] ⟨0, Io.init, false, fun _ => Handler.new⟩ = .ok p') :
    ∃ outs, Chain toy [.run ⟨"a.ll", some "ll"⟩ none (some 2) none true, .run ⟨"missing.ll", some "ll"⟩ none none none true,
        .run ⟨"a.ll", some "ll"⟩ none none none true] 0 outs p'.s ∧
      utf8 (p'.mem 1).getOutput = share 1 [(.run ⟨"a.ll", some "ll"⟩ none (some 2) none true, 0),
        (.run ⟨"missing.ll", some "ll"⟩ none none none true, 0), (.run ⟨"a.ll", some "ll"⟩ none none none true, 1)] outs := by
  have hw : ∀ c, Wordy toy c := fun c => C66_wordy toy _ toy_writes c fun _ _ _ => allCalls_true _
  obtain ⟨outs, h1, -, -, -, h2⟩ := C66_session toy _ _ p' ⟨rfl, rfl⟩ (by simp [PyCall.dest, hw]) h
  exact ⟨outs, h1, (h2 1).trans (by simp [Handler.new, Handler.getOutput, String.join, utf8])⟩

/-- The result of a call that returns, for comparison. -/
def returned : Outcome ℕ → Option (ℕ × Bytes × (Bytes × Bool) × Bytes)
  | .ok s io => some (s, io.stdout, (io.recorder.buffer, io.recorder.useStdOut), io.sink)
  | _ => none

theorem returned_eq {x : Outcome ℕ} {s : ℕ} {a b d : Bytes} {c : Bool} (h : returned x = some (s, a, (b, c), d)) :
    x = .ok s ⟨a, ⟨b, c⟩, d⟩ := by
  cases x with
  | ok s' io => obtain ⟨o, ⟨b', c'⟩, k⟩ := io; cases h; rfl
  | rejected => cases h
  | ended => cases h

/-- A handler for two shots, against the console. -/
example : ∃ m', utf8 (m' 0).getOutput = block [("entry_point", "")] [65, 10] ++ block [("entry_point", "")] [65, 10] ∧
    callIn toy (handlerCallback 0) (.run ⟨"a.ll", some "ll"⟩ none (some 2) none true)
      ⟨0, Io.init, false, fun _ => Handler.new⟩ = .ok ⟨2, Io.init.setStdOut false, false, m'⟩ := by
  obtain ⟨out, m', h1, h2, h3⟩ := C66_console toy 0 (.run ⟨"a.ll", some "ll"⟩ none (some 2) none true) rfl
    (C66_wordy toy _ toy_writes _ fun _ _ _ => allCalls_true _) ⟨0, Io.init, false, fun _ => Handler.new⟩ ⟨rfl, rfl⟩
    Io.init ⟨block [("entry_point", "")] [65, 10] ++ block [("entry_point", "")] [65, 10], ⟨[], true⟩, []⟩ 2 rfl
    (returned_eq (by decide +kernel))
  refine ⟨m', ?_, h3⟩
  rw [h2, show out = _ from h1.symm]
  rfl

/-- No text has the byte 255 in front. -/
theorem not_isText {b : Bytes} : ¬ IsText (255 :: b) := by
  rintro ⟨t, h⟩
  obtain ⟨l, rfl⟩ : ∃ l, t = String.ofList l := ⟨t.toList, by simp⟩
  unfold utf8 at h
  simp only [String.toUTF8, String.toByteArray_ofList, List.utf8Encode, List.data_toByteArray] at h
  cases l with
  | nil => cases h
  | cons c l =>
    rw [List.flatMap_cons] at h
    have : ∃ x y, String.utf8EncodeChar c = x :: y ∧ x ≠ 255 := by
      unfold String.utf8EncodeChar
      dsimp only
      have hv : c.val.toNat = c.toNat := rfl
      split
      · refine ⟨_, _, rfl, fun h => ?_⟩
        have := congrArg UInt8.toNat h
        simp at this
        omega
      · split
        · refine ⟨_, _, rfl, fun h => ?_⟩
          have := congrArg UInt8.toNat h
          simp at this
          omega
        · split
          · refine ⟨_, _, rfl, fun h => ?_⟩
            have := congrArg UInt8.toNat h
            simp at this
            omega
          · refine ⟨_, _, rfl, fun h => ?_⟩
            have := congrArg UInt8.toNat h
            simp at this
            omega
    obtain ⟨x, y, e, hx⟩ := this
    rw [e] at h
    cases h
    exact hx rfl

/-- `toy`, but it records a byte that is not text. -/
def odd : World Bool Unit ℕ := { toy with step := fun q s => if q then .ok ((), [255, 10], s + 1) else .error [] }

/-- **C66**, F20: labels need not be text.  With one that is not, a call that succeeds on the console raises an exception
when it is given a handler, and the handler has received the beginning of the output only. -/
theorem C66_not_text (c : PyCall) (hc : c = .run ⟨"a.ll", some "ll"⟩ none (some 1) none true) :
    (∃ io', odd.call c.plain 0 Io.init = .ok 1 io' ∧ io'.stdout = block [("entry_point", "")] [255, 10]) ∧
    ∃ s' m', callIn odd (handlerCallback 0) c ⟨0, Io.init, false, fun _ => Handler.new⟩ =
      .panicked ⟨s', Io.init.setStdOut false, false, m'⟩ ∧
      (m' 0).getOutput = "START\nMETADATA\tentry_point\n" := by
  subst hc
  refine ⟨⟨⟨block [("entry_point", "")] [255, 10], ⟨[], true⟩, []⟩, returned_eq (by decide +kernel), rfl⟩, ?_⟩
  have hm : Runnable odd (.run ⟨"a.ll", some "ll"⟩ none (some 1) none true) ⟨[toyMain], fun _ => toyCode [1]⟩ toyMain :=
    ⟨⟨[toyMain], fun _ => toyCode [1]⟩, ⟨[1], rfl, .inl ⟨rfl, rfl⟩⟩, rfl, ⟨[], by decide +kernel⟩,
      show chooseEntryPoint [toyMain] none = .ok toyMain by decide +kernel⟩
  have h := C64_call odd (handlerFn 0) (.run ⟨"a.ll", some "ll"⟩ none (some 1) none true) rfl
    ⟨0, Io.init, false, fun _ => Handler.new⟩ ⟨rfl, rfl⟩ _ _
    (.shots (outs := [[255, 10]]) (s' := 1) hm (.inl rfl) (.inl ⟨rfl, rfl⟩) rfl)
  have hl := ne_literal
  have e : [[255, 10]].flatMap (shotTexts toyMain.attrs) =
      [utf8 "START\n", utf8 "METADATA\tentry_point", [10]] ++ [255, 10] :: [utf8 "END\t0", [10]] := by
    have e0 : toyMain.attrs = [("entry_point", "")] := rfl
    simp [shotTexts, headTexts, e0, attrTexts, hl.2.2.2.1]
  obtain ⟨h1, h2, -⟩ := hand_handler 0 [utf8 "START\n", utf8 "METADATA\tentry_point", [10]] (fun _ => Handler.new) (by
    simp only [List.mem_cons, List.not_mem_nil, or_false, forall_eq_or_imp, forall_eq]
    exact ⟨isText_utf8 _, isText_utf8 _, isText_feed⟩)
  rw [e, hand_append, if_pos h1, hand, if_neg not_isText] at h
  unfold Goes at h
  rw [if_pos rfl] at h
  obtain ⟨s', h⟩ := h
  refine ⟨s', _, h, utf8_inj (h2.trans ?_)⟩
  decide +kernel

/-- Two calls of which the first raises an exception, with a handler each: the second handler has what the second call has to
offer, and neither has anything of the other's. -/
example (p' : Proc ℕ (ℕ → Handler)) (h : handled odd [(.run ⟨"a.ll", some "ll"⟩ none (some 1) none true, 0),
      (.run ⟨"missing.ll", some "ll"⟩ none none none true, 1)] ⟨0, Io.init, false, fun _ => Handler.new⟩ = .ok p') :
    ∃ a b, Fed odd [.run ⟨"a.ll", some "ll"⟩ none (some 1) none true, .run ⟨"missing.ll", some "ll"⟩ none none none true] 0
      [a, b] ∧ utf8 (p'.mem 0).getOutput = a ∧ utf8 (p'.mem 1).getOutput = b := by
  rcases C66_sequence odd [(.run ⟨"a.ll", some "ll"⟩ none (some 1) none true, 0),
    (.run ⟨"missing.ll", some "ll"⟩ none none none true, 1)] ⟨0, Io.init, false, fun _ => Handler.new⟩ ⟨rfl, rfl⟩ (by simp [PyCall.dest]) with
    ⟨p'', g⟩ | ⟨p'', outs, g, h1, h2, -, -, h3⟩
  · cases h.symm.trans g
  · cases h.symm.trans g
    obtain ⟨a, b, rfl⟩ : ∃ a b, outs = [a, b] := List.length_eq_two.1 h2
    exact ⟨a, b, h1, (h3 0).trans (by simp [share, Handler.new, Handler.getOutput, String.join, utf8]),
      (h3 1).trans (by simp [share, Handler.new, Handler.getOutput, String.join, utf8])⟩

end Qir.Run

noncomputable section
namespace Qir.Back
open Run Out Sim Spec

/-- Calls whose label is text. -/
def Texty : QCall → Prop
  | .recordResult _ (some t) => IsText t
  | .record e _ => Labelled (.record e)
  | _ => True

/-- **C66** for the library: with labels that are text it writes nothing but text, whatever the state. -/
theorem C66_library (env : Env) (fmt : Fmt) (hf : ∀ l, IsText (fmt.bits l)) : WritesText (step env fmt) Texty := by
  intro c s a out s' hc h
  have hq : qstep env fmt c s = .ok (a, out, s') := by
    unfold step at h
    cases hq : qstep env fmt c s with
    | ok r => rw [hq] at h; cases h; rfl
    | error e => rw [hq] at h; cases h
  have sil : ∀ {r : Except Stop Backend}, silent r = .ok (a, out, s') → out = [] := by
    intro r h
    unfold silent at h
    cases r with
    | error e => cases h
    | ok s => cases h; rfl
  have bnd : ∀ {α : Type} {r : Except Stop α} {f : α → Except Stop (QAns × List UInt8 × Backend)},
      (r >>= f) = .ok (a, out, s') → ∃ x, r = .ok x ∧ f x = .ok (a, out, s') := by
    intro α r f h
    cases r with
    | error e => cases h
    | ok x => exact ⟨x, rfl, h⟩
  cases c with
  | recordResult r tag =>
    obtain ⟨⟨b, s1⟩, -, h1⟩ := bnd hq
    cases h1
    rw [show resultRecordOutput b tag = emit (.result b tag) from rfl, bytesOf_emit]
    refine isText_line (e := .record (.result b tag)) fun t ht => ?_
    cases tag with
    | none => cases ht
    | some t' => cases ht; exact hc
  | legacyResult r =>
    obtain ⟨⟨b, s1⟩, -, h1⟩ := bnd hq
    cases h1
    rw [bytesOf_legacy]
    exact isText_line trivial
  | record e he =>
    cases hq
    rw [bytesOf_emit]
    exact isText_line (e := .record e) hc
  | legacy e he =>
    cases hq
    rw [bytesOf_legacy]
    exact isText_line trivial
  | dump l =>
    obtain ⟨⟨o, s1⟩, h1, h2⟩ := bnd hq
    cases h2
    unfold dumpMachine at h1
    by_cases hl : l = true
    · rw [if_pos hl] at h1; cases h1
    · rw [if_neg hl] at h1
      have bnd' : ∀ {r : Except Stop (String × Backend)} {f : String × Backend → Except Stop (Bytes × Backend)},
          (r >>= f) = .ok (out, s') → ∃ x, f x = .ok (out, s') := by
        intro r f h
        cases r with
        | error e => cases h
        | ok x => exact ⟨x, h⟩
      obtain ⟨⟨t, s2⟩, h2⟩ := bnd' h1
      have e : out = (if s.res.isEmpty then [] else Run.utf8 "Global Results: " ++ fmt.bits s.res ++ lineEnding) ++
          Run.utf8 t := by cases h2; rfl
      rw [e]
      refine isText_append ?_ (isText_utf8 t)
      split
      · exact isText_nil
      · exact isText_append (isText_append (isText_utf8 _) (hf _)) isText_feed
  | fail m => cases hq
  | readResult r => obtain ⟨⟨b, s1⟩, -, h1⟩ := bnd hq; cases h1; exact isText_nil
  | m q => obtain ⟨⟨b, s1⟩, -, h1⟩ := bnd hq; cases h1; exact isText_nil
  | measure ps qs => obtain ⟨⟨b, s1⟩, -, h1⟩ := bnd hq; cases h1; exact isText_nil
  | isZero q => obtain ⟨⟨b, s1⟩, -, h1⟩ := bnd hq; cases h1; exact isText_nil
  | drawInt lo hi =>
    unfold qstep at hq
    dsimp only at hq
    split at hq <;> cases hq
    exact isText_nil
  | drawDouble lo hi =>
    unfold qstep at hq
    dsimp only at hq
    split at hq <;> cases hq
    exact isText_nil
  | writeResult v r => cases hq; exact isText_nil
  | allocate => cases hq; exact isText_nil
  | barrier => cases hq; exact isText_nil
  | reinit => cases hq; exact isText_nil
  | _ => rw [sil hq]; exact isText_nil

end Qir.Back
