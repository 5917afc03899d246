import Verif.Props.Session

/-!
# Reading a transcript back (C61)
-/

noncomputable section

namespace Qir.Run
open Qir.Out

/-! ## Specification -/

/-- What can be told of a run: the attributes of the entry point, the events of each complete shot in order, and the
events of a shot that was aborted, if one was. -/
structure Account where
  attrs : List (String × String)
  shots : List (List Event)
  aborted : Option (List Event)

/-- Its transcript. -/
def Account.text (r : Account) : List UInt8 :=
  (r.shots.flatMap fun es => block r.attrs (lines es)) ++
    match r.aborted with
    | none => []
    | some es => utf8 "START\n" ++ r.attrs.flatMap metadataLine ++ lines es

/-- Labels and attributes contain no line feed, names of attributes no tab. -/
structure Account.Clean (r : Account) : Prop where
  attrs : ∀ a ∈ r.attrs, 9 ∉ utf8 a.1 ∧ 10 ∉ utf8 a.1 ∧ 10 ∉ utf8 a.2
  shots : ∀ es ∈ r.shots, ∀ e ∈ es, ∀ x, e = .record x → x.Clean
  aborted : ∀ es, r.aborted = some es → ∀ e ∈ es, ∀ x, e = .record x → x.Clean

/-- The same event, except that the legacy format does not tell a result from the integers zero and one. -/
def Alike (e e' : Event) : Prop :=
  e = e' ∨ ∃ r r' : Legacy, e = .legacy r ∧ e' = .legacy r' ∧ (r.Confused r' ∨ r'.Confused r)

/-! ## Lines -/

theorem utf8_inj {a b : String} (h : utf8 a = utf8 b) : a = b := by
  unfold utf8 at h
  have h1 : a.toUTF8.data = b.toUTF8.data := Array.toList_inj.1 h
  have h2 : a.toUTF8 = b.toUTF8 := by
    cases ha : a.toUTF8; cases hb : b.toUTF8
    rw [ha, hb] at h1
    exact congrArg _ h1
  exact String.toByteArray_inj.1 h2

/-- A line of metadata without its end. -/
def metaBody (a : String × String) : List UInt8 :=
  utf8 "METADATA\t" ++ (utf8 a.1 ++ labelField (if a.2 = "" then none else some (utf8 a.2)))

theorem metadataLine_eq (a : String × String) : metadataLine a = metaBody a ++ [10] := by
  unfold metadataLine metaBody
  rw [List.append_assoc (utf8 "METADATA\t")]
  congr 2
  split
  · rfl
  · rw [show utf8 "\t" = [9] by decide +kernel]
    rfl

/-- A line of an event without its end. -/
def eventBody : Event → List UInt8
  | .record r => r.body
  | .legacy r => ascii "RESULT".toList ++ 9 :: ascii r.text

theorem line_eq (e : Event) : e.line = eventBody e ++ [10] := by
  cases e with
  | record r => rfl
  | legacy r => simp [Event.line, eventBody]

def ending (l : List UInt8) : List UInt8 := l ++ [10]

theorem endings_inj : ∀ {ls ls' : List (List UInt8)}, (∀ l ∈ ls, 10 ∉ l) → (∀ l ∈ ls', 10 ∉ l) →
    ls.flatMap ending = ls'.flatMap ending → ls = ls'
  | [], [], _, _, _ => rfl
  | [], l :: ls, _, _, h => by simp [ending] at h
  | l :: ls, [], _, _, h => by simp [ending] at h
  | l :: ls, l' :: ls', hc, hc', h => by
    simp only [ending, List.flatMap_cons, List.append_assoc, List.cons_append, List.nil_append] at h
    obtain ⟨h1, h2⟩ := Std.split_mark (hc l List.mem_cons_self) (hc' l' List.mem_cons_self) h
    rw [h1, endings_inj (fun x hx => hc x (List.mem_cons_of_mem _ hx))
      (fun x hx => hc' x (List.mem_cons_of_mem _ hx)) h2]

def startBody : List UInt8 := utf8 "START"
def endBody : List UInt8 := utf8 "END\t0"

/-- The lines of a complete shot. -/
def shotLines (attrs : List (String × String)) (es : List Event) : List (List UInt8) :=
  startBody :: (attrs.map metaBody ++ (es.map eventBody ++ [endBody]))

/-- The lines of the transcript. -/
def Account.lines (r : Account) : List (List UInt8) :=
  r.shots.flatMap (shotLines r.attrs) ++
    match r.aborted with
    | none => []
    | some es => startBody :: (r.attrs.map metaBody ++ es.map eventBody)

theorem flat_metas (as : List (String × String)) : as.flatMap metadataLine = (as.map metaBody).flatMap ending := by
  rw [List.flatMap_map]
  exact List.flatMap_congr fun a _ => metadataLine_eq a

theorem flat_events (es : List Event) : Out.lines es = (es.map eventBody).flatMap ending := by
  unfold Out.lines
  rw [List.flatMap_map]
  exact List.flatMap_congr fun a _ => line_eq a

theorem start_eq : utf8 "START\n" = ending startBody := by decide +kernel
theorem end_eq : utf8 "END\t0\n" = ending endBody := by decide +kernel

theorem text_lines (r : Account) : r.text = r.lines.flatMap ending := by
  unfold Account.text Account.lines
  rw [List.flatMap_append]
  congr 1
  · rw [List.flatMap_assoc]
    refine List.flatMap_congr fun es _ => ?_
    unfold block shotLines
    rw [List.flatMap_cons, List.flatMap_append, List.flatMap_append, flat_metas, flat_events, start_eq, end_eq]
    simp
  · cases r.aborted with
    | none => rfl
    | some es =>
      dsimp only
      rw [List.flatMap_cons, List.flatMap_append, flat_metas, flat_events, start_eq, List.append_assoc]

/-! ## Telling the lines apart -/

/-- The first byte of a line. -/
theorem head_meta (a : String × String) : (metaBody a).head? = some 77 := by
  unfold metaBody
  rw [show utf8 "METADATA\t" = 77 :: (utf8 "METADATA\t").tail by decide +kernel]
  rfl

theorem head_event (e : Event) : (eventBody e).head? = some 79 ∨ (eventBody e).head? = some 73 ∨
    (eventBody e).head? = some 82 := by
  cases e with
  | record r => cases r <;> simp [eventBody, Record.body, ascii]
  | legacy r => simp [eventBody, ascii]

theorem head_end : endBody.head? = some 69 := by decide +kernel

theorem event_ne_end (e : Event) : eventBody e ≠ endBody := by
  intro h
  have := head_event e
  rw [h, head_end] at this
  simp at this

theorem split_while {α : Type} (p : α → Bool) : ∀ {A A' R R' : List α}, (∀ a ∈ A, p a = true) → (∀ a ∈ A', p a = true) →
    (∀ a ∈ R.head?, p a = false) → (∀ a ∈ R'.head?, p a = false) → A ++ R = A' ++ R' → A = A' ∧ R = R'
  | [], [], R, R', _, _, _, _, h => ⟨rfl, h⟩
  | [], a :: A', R, R', _, h2, h3, _, h => by
    rw [List.nil_append] at h
    have := h3 a (by rw [h]; rfl)
    rw [h2 a List.mem_cons_self] at this
    cases this
  | a :: A, [], R, R', h1, _, _, h4, h => by
    rw [List.nil_append] at h
    have := h4 a (by rw [← h]; rfl)
    rw [h1 a List.mem_cons_self] at this
    cases this
  | a :: A, a' :: A', R, R', h1, h2, h3, h4, h => by
    simp only [List.cons_append, List.cons.injEq] at h
    obtain ⟨e1, e2⟩ := split_while p (fun x hx => h1 x (List.mem_cons_of_mem _ hx))
      (fun x hx => h2 x (List.mem_cons_of_mem _ hx)) h3 h4 h.2
    exact ⟨by rw [h.1, e1], e2⟩

def isMeta (l : List UInt8) : Bool := l.head? == some 77

theorem metas_meta (as : List (String × String)) : ∀ l ∈ as.map metaBody, isMeta l = true := by
  intro l hl
  obtain ⟨a, _, rfl⟩ := List.mem_map.1 hl
  simp [isMeta, head_meta]

theorem event_not_meta (e : Event) : isMeta (eventBody e) = false := by
  unfold isMeta
  rcases head_event e with h | h | h <;> rw [h] <;> decide

theorem events_head (es : List Event) (R : List (List UInt8)) (hR : ∀ a ∈ R.head?, isMeta a = false) :
    ∀ a ∈ (es.map eventBody ++ R).head?, isMeta a = false := by
  cases es with
  | nil => simpa using hR
  | cons e es =>
    intro a ha
    simp only [List.map_cons, List.cons_append, List.head?_cons, Option.mem_some_iff] at ha
    rw [← ha]
    exact event_not_meta e

theorem end_head (R : List (List UInt8)) : ∀ a ∈ (endBody :: R).head?, isMeta a = false := by
  intro a ha
  simp only [List.head?_cons, Option.mem_some_iff] at ha
  rw [← ha, isMeta, head_end]
  decide

theorem end_notMem (es : List Event) : endBody ∉ es.map eventBody := by
  intro h
  obtain ⟨e, _, he⟩ := List.mem_map.1 h
  exact event_ne_end e he

theorem end_notMeta (as : List (String × String)) : endBody ∉ as.map metaBody := by
  intro h
  have := metas_meta as _ h
  rw [isMeta, head_end] at this
  exact absurd this (by decide)

/-! ## Fields -/

theorem metaBody_inj {a a' : String × String} (h1 : 9 ∉ utf8 a.1) (h2 : 9 ∉ utf8 a'.1) (h : metaBody a = metaBody a') :
    a = a' := by
  unfold metaBody at h
  obtain ⟨e1, e2⟩ := split_label h1 h2 (List.append_cancel_left h)
  refine Prod.ext (utf8_inj e1) ?_
  by_cases h3 : a.2 = "" <;> by_cases h4 : a'.2 = "" <;> simp only [h3, h4, if_true, if_false] at e2
  · rw [h3, h4]
  · cases e2
  · cases e2
  · exact utf8_inj (Option.some.inj e2)

theorem metas_inj : ∀ {as as' : List (String × String)}, (∀ a ∈ as, 9 ∉ utf8 a.1) → (∀ a ∈ as', 9 ∉ utf8 a.1) →
    as.map metaBody = as'.map metaBody → as = as'
  | [], [], _, _, _ => rfl
  | [], a :: as, _, _, h => by simp at h
  | a :: as, [], _, _, h => by simp at h
  | a :: as, a' :: as', h1, h2, h => by
    simp only [List.map_cons, List.cons.injEq] at h
    rw [metaBody_inj (h1 a List.mem_cons_self) (h2 a' List.mem_cons_self) h.1,
      metas_inj (fun x hx => h1 x (List.mem_cons_of_mem _ hx)) (fun x hx => h2 x (List.mem_cons_of_mem _ hx)) h.2]

theorem eventBody_alike {e e' : Event} (h : eventBody e = eventBody e') : Alike e e' := by
  have differ : ∀ (r : Record) (l : Legacy), eventBody (.record r) ≠ eventBody (.legacy l) := by
    intro r l h
    have := congrArg List.head? h
    cases r <;> simp [eventBody, Record.body, ascii] at this
  cases e with
  | record r =>
    cases e' with
    | record r' => exact .inl (congrArg _ (body_inj h))
    | legacy l => exact absurd h (differ r l)
  | legacy l =>
    cases e' with
    | record r' => exact absurd h.symm (differ r' l)
    | legacy l' =>
      have hl : (emitLegacy l Io.init).written = (emitLegacy l' Io.init).written := by
        have key : ∀ l : Legacy, (emitLegacy l Io.init).written = Io.init.written ++ (eventBody (.legacy l) ++ [10]) := by
          intro l
          simp only [emitLegacy, recordOutputStr, Io.newline, Io.write_write, written_write, ascii_append, lineEnding,
            eventBody]
          congr 2
        rw [key, key, h]
      rcases (C38_legacy_text l l' Io.init).1 hl with rfl | h' | h'
      · exact .inl rfl
      · exact .inr ⟨l, l', rfl, rfl, .inl h'⟩
      · exact .inr ⟨l, l', rfl, rfl, .inr h'⟩

theorem events_alike : ∀ {es es' : List Event}, es.map eventBody = es'.map eventBody → List.Forall₂ Alike es es'
  | [], [], _ => .nil
  | [], e :: es, h => by simp at h
  | e :: es, [], h => by simp at h
  | e :: es, e' :: es', h => by
    simp only [List.map_cons, List.cons.injEq] at h
    exact .cons (eventBody_alike h.1) (events_alike h.2)

theorem event_noLine {e : Event} (h : ∀ x, e = .record x → x.Clean) : 10 ∉ eventBody e := by
  cases e with
  | record r => exact body_noLine (h r rfl)
  | legacy l =>
    have h1 := (legacy_text_field l).noLine
    have h2 : (10 : UInt8) ∉ ascii "RESULT".toList := by decide
    simp only [eventBody, List.mem_append, List.mem_cons, not_or]
    exact ⟨h2, by decide, h1⟩

theorem meta_noLine {a : String × String} (h1 : 10 ∉ utf8 a.1) (h2 : 10 ∉ utf8 a.2) : 10 ∉ metaBody a := by
  have h3 : (10 : UInt8) ∉ utf8 "METADATA\t" := by decide +kernel
  unfold metaBody
  simp only [List.mem_append, not_or]
  refine ⟨h3, h1, ?_⟩
  split
  · simp [labelField]
  · simp only [labelField, List.mem_cons, not_or]
    exact ⟨by decide, h2⟩

theorem lines_noLine {r : Account} (h : r.Clean) : ∀ l ∈ r.lines, 10 ∉ l := by
  have hs : (10 : UInt8) ∉ startBody := by decide +kernel
  have he : (10 : UInt8) ∉ endBody := by decide +kernel
  have hm : ∀ l ∈ r.attrs.map metaBody, 10 ∉ l := by
    intro l hl
    obtain ⟨a, ha, rfl⟩ := List.mem_map.1 hl
    obtain ⟨_, h2, h3⟩ := h.attrs a ha
    exact meta_noLine h2 h3
  intro l hl
  unfold Account.lines at hl
  rcases List.mem_append.1 hl with hl | hl
  · rw [List.mem_flatMap] at hl
    obtain ⟨es, hes, hl⟩ := hl
    unfold shotLines at hl
    simp only [List.mem_cons, List.mem_append, List.not_mem_nil, or_false] at hl
    rcases hl with rfl | hl | hl | rfl
    · exact hs
    · exact hm l hl
    · obtain ⟨e, he', rfl⟩ := List.mem_map.1 hl
      exact event_noLine (h.shots es hes e he')
    · exact he
  · cases ha : r.aborted with
    | none => rw [ha] at hl; cases hl
    | some es =>
      rw [ha] at hl
      simp only [List.mem_cons, List.mem_append] at hl
      rcases hl with rfl | hl | hl
      · exact hs
      · exact hm l hl
      · obtain ⟨e, he', rfl⟩ := List.mem_map.1 hl
        exact event_noLine (h.aborted es ha e he')

/-! ## C61 -/

/-- The two tell the same, up to what the legacy format leaves open; nothing is told of the attributes if there was no
shot. -/
structure Account.Agrees (r r' : Account) : Prop where
  attrs : r.shots ≠ [] ∨ r.aborted ≠ none → r.attrs = r'.attrs
  shots : List.Forall₂ (List.Forall₂ Alike) r.shots r'.shots
  aborted : Option.Rel (List.Forall₂ Alike) r.aborted r'.aborted

theorem lines_agree {as as' : List (String × String)} (ha : ∀ a ∈ as, 9 ∉ utf8 a.1) (ha' : ∀ a ∈ as', 9 ∉ utf8 a.1)
    {ab ab' : Option (List Event)} : ∀ {shots shots' : List (List Event)},
    (⟨as, shots, ab⟩ : Account).lines = (⟨as', shots', ab'⟩ : Account).lines →
    Account.Agrees ⟨as, shots, ab⟩ ⟨as', shots', ab'⟩
  | [], [], h => by
    unfold Account.lines at h
    cases ab with
    | none => cases ab' with
      | none => exact ⟨fun h => by simp at h, .nil, .none⟩
      | some es' => simp at h
    | some es => cases ab' with
      | none => simp at h
      | some es' =>
        simp only [List.flatMap_nil, List.nil_append, List.cons.injEq, true_and] at h
        obtain ⟨h1, h2⟩ := split_while isMeta (metas_meta as) (metas_meta as')
          (by simpa using events_head es [] (by simp)) (by simpa using events_head es' [] (by simp)) h
        exact ⟨fun _ => metas_inj ha ha' h1, .nil, .some (events_alike h2)⟩
  | [], s' :: shots', h => by
    unfold Account.lines at h
    cases ab with
    | none => simp [shotLines] at h
    | some es =>
      simp only [List.flatMap_nil, List.nil_append, List.flatMap_cons, shotLines, List.cons_append, List.cons.injEq,
        true_and] at h
      have : endBody ∈ as.map metaBody ++ es.map eventBody := by rw [h]; simp
      rcases List.mem_append.1 this with h' | h'
      · exact absurd h' (end_notMeta as)
      · exact absurd h' (end_notMem es)
  | s :: shots, [], h => by
    unfold Account.lines at h
    cases ab' with
    | none => simp [shotLines] at h
    | some es =>
      simp only [List.flatMap_nil, List.nil_append, List.flatMap_cons, shotLines, List.cons_append, List.cons.injEq,
        true_and] at h
      have : endBody ∈ as'.map metaBody ++ es.map eventBody := by rw [← h]; simp
      rcases List.mem_append.1 this with h' | h'
      · exact absurd h' (end_notMeta as')
      · exact absurd h' (end_notMem es)
  | s :: shots, s' :: shots', h => by
    have h0 : ∀ (as : List (String × String)) (s : List Event) (shots : List (List Event)) (ab : Option (List Event)),
        (⟨as, s :: shots, ab⟩ : Account).lines = startBody :: (as.map metaBody ++ (s.map eventBody ++
          endBody :: (⟨as, shots, ab⟩ : Account).lines)) := by
      intro as s shots ab
      simp [Account.lines, shotLines]
    rw [h0, h0, List.cons.injEq] at h
    obtain ⟨h1, h2⟩ := split_while isMeta (metas_meta as) (metas_meta as') (events_head s _ (end_head _))
      (events_head s' _ (end_head _)) h.2
    obtain ⟨h3, h4⟩ := Std.split_mark (end_notMem s) (end_notMem s') h2
    have ih := lines_agree ha ha' h4
    exact ⟨fun _ => metas_inj ha ha' h1, .cons (events_alike h3) ih.shots, ih.aborted⟩

theorem alike_same {e e' : Event} (h : Alike e e') : eventBody e = eventBody e' := by
  rcases h with rfl | ⟨l, l', rfl, rfl, h⟩
  · rfl
  · have key := (C38_legacy_text l l' Io.init).2 (.inr h)
    simp only [emitLegacy, recordOutputStr, Io.newline, Io.write_write, written_write, ascii_append] at key
    have h1 := List.append_cancel_right (List.append_cancel_left key)
    rw [eventBody, eventBody, List.append_cancel_left h1]

theorem events_same {es es' : List Event} (h : List.Forall₂ Alike es es') : es.map eventBody = es'.map eventBody := by
  induction h with
  | nil => rfl
  | cons h1 _ ih => rw [List.map_cons, List.map_cons, alike_same h1, ih]

theorem same_shots (as : List (String × String)) {l l' : List (List Event)}
    (h : List.Forall₂ (List.Forall₂ Alike) l l') : l.flatMap (shotLines as) = l'.flatMap (shotLines as) := by
  induction h with
  | nil => rfl
  | cons h1 _ ih => rw [List.flatMap_cons, List.flatMap_cons, shotLines, shotLines, events_same h1, ih]

/-- **C61**.  The transcript of a run determines the run: the number of shots, their events in order with types, values
and labels, the attributes of the entry point, and whether the run was aborted and what had been recorded by then; and it tells no more. -/
theorem C61_transcript (r r' : Account) (hr : r.Clean) (hr' : r'.Clean) : r.text = r'.text ↔ r.Agrees r' := by
  rw [text_lines, text_lines]
  refine ⟨fun h => lines_agree (fun a ha => (hr.attrs a ha).1) (fun a ha => (hr'.attrs a ha).1)
    (endings_inj (lines_noLine hr) (lines_noLine hr') h), fun h => ?_⟩
  congr 1
  obtain ⟨as, shots, ab⟩ := r
  obtain ⟨as', shots', ab'⟩ := r'
  obtain ⟨h1, h2, h3⟩ := h
  dsimp only at h1 h2 h3
  by_cases h0 : shots ≠ [] ∨ ab ≠ none
  · cases h1 h0
    unfold Account.lines
    dsimp only
    congr 1
    · exact same_shots as h2
    · cases h3 with
      | none => rfl
      | some h3 => dsimp only; rw [events_same h3]
  · have : shots = [] ∧ ab = none := by
      by_cases h : shots = [] <;> by_cases h' : ab = none <;> simp_all
    obtain ⟨rfl, rfl⟩ := this
    cases h2
    cases h3
    rfl

/-- Two shots with a labelled result and a message, and an aborted third. -/
example : (⟨[("entry_point", ""), ("output_labeling_schema", "schema_id")],
    [[.record (.result true (some [65])), .record (.message ['a', '\n'])], []], some [.legacy (.int 1)]⟩ :
      Account).Clean := by
  refine ⟨?_, ?_, ?_⟩
  · intro a ha
    simp only [List.mem_cons, List.not_mem_nil, or_false] at ha
    rcases ha with rfl | rfl <;> decide +kernel
  · intro es hes e he x hx
    simp only [List.mem_cons, List.not_mem_nil, or_false] at hes
    rcases hes with rfl | rfl
    · simp only [List.mem_cons, List.not_mem_nil, or_false] at he
      rcases he with rfl | rfl
      · cases hx; intro t ht; cases ht; decide
      · cases hx; intro t ht; cases ht
    · cases he
  · intro es hes e he x hx
    cases hes
    simp only [List.mem_cons, List.not_mem_nil, or_false] at he
    subst he
    cases hx

/-- **C61**: the condition on labels is needed; with a suitable label one shot passes for two. -/
theorem C61_forged : ∃ r r' : Account, r.text = r'.text ∧ r.shots.length = 1 ∧ r'.shots.length = 2 :=
  ⟨⟨[], [[.record (.int 1 (some (ascii "a\nEND\t0\nSTART\nOUTPUT\tINT\t2".toList)))]], none⟩,
    ⟨[], [[.record (.int 1 (some (ascii "a".toList)))], [.record (.int 2 none)]], none⟩,
    by decide +kernel, rfl, rfl⟩

/-! ## Runs -/

variable {Q A σ : Type}

/-- Every call the program can make satisfies `P`. -/
def AllCalls (P : Q → Prop) : Prog Q A → Prop
  | .done => True
  | .call q k => P q ∧ ∀ a, AllCalls P (k a)

/-- The library writes nothing but events. -/
def WritesEvents (step : StepFn Q A σ) (P : Q → Prop) : Prop := ∀ q s, P q →
  (∀ a out s', step q s = .ok (a, out, s') →
    ∃ es, out = Out.lines es ∧ ∀ e ∈ es, ∀ x, e = Event.record x → x.Clean) ∧
  (∀ out, step q s = .error out → ∃ es, out = Out.lines es ∧ ∀ e ∈ es, ∀ x, e = Event.record x → x.Clean)

theorem lines_append' (a b : List Event) : Out.lines (a ++ b) = Out.lines a ++ Out.lines b := List.flatMap_append

theorem speech_events {step : StepFn Q A σ} {P : Q → Prop} (hw : WritesEvents step P) (p : Prog Q A) : ∀ (s : σ),
    AllCalls P p →
    (∀ out s', speech step p s = .ok (out, s') →
      ∃ es, out = Out.lines es ∧ ∀ e ∈ es, ∀ x, e = Event.record x → x.Clean) ∧
    (∀ out, speech step p s = .error out →
      ∃ es, out = Out.lines es ∧ ∀ e ∈ es, ∀ x, e = Event.record x → x.Clean) := by
  induction p with
  | done =>
    intro s _
    refine ⟨fun out s' h => ?_, fun out h => by cases h⟩
    cases h
    exact ⟨[], rfl, by simp⟩
  | call q k ih =>
    intro s hp
    obtain ⟨h1, h2⟩ := hw q s hp.1
    unfold speech
    cases hs : step q s with
    | error o =>
      refine ⟨fun out s' h => (by cases h), fun out h => ?_⟩
      cases h
      exact h2 _ hs
    | ok r =>
      obtain ⟨a, o, s1⟩ := r
      obtain ⟨es, rfl, hes⟩ := h1 a o s1 hs
      obtain ⟨i1, i2⟩ := ih a s1 (hp.2 a)
      dsimp only
      cases hk : speech step (k a) s1 with
      | error o' =>
        obtain ⟨es', rfl, hes'⟩ := i2 _ hk
        refine ⟨fun out s' h => (by cases h), fun out h => ?_⟩
        cases h
        refine ⟨es ++ es', by rw [lines_append'], fun e he => ?_⟩
        rcases List.mem_append.1 he with he | he
        · exact hes e he
        · exact hes' e he
      | ok r' =>
        obtain ⟨o', s2⟩ := r'
        obtain ⟨es', rfl, hes'⟩ := i1 _ _ hk
        refine ⟨fun out s' h => ?_, fun out h => (by cases h)⟩
        cases h
        refine ⟨es ++ es', by rw [lines_append'], fun e he => ?_⟩
        rcases List.mem_append.1 he with he | he
        · exact hes e he
        · exact hes' e he

theorem session_events {step : StepFn Q A σ} {P : Q → Prop} (hw : WritesEvents step P) (init : σ → σ) {p : Prog Q A}
    (hp : AllCalls P p) : ∀ (n : ℕ) (s : σ),
    (∀ outs s', session step init p n s = .ok (outs, s') →
      ∃ shots : List (List Event), outs = shots.map Out.lines ∧
        ∀ es ∈ shots, ∀ e ∈ es, ∀ x, e = Event.record x → x.Clean) ∧
    (∀ outs out, session step init p n s = .error (outs, out) →
      ∃ (shots : List (List Event)) (last : List Event), outs = shots.map Out.lines ∧ out = Out.lines last ∧
        (∀ es ∈ shots, ∀ e ∈ es, ∀ x, e = Event.record x → x.Clean) ∧
        ∀ e ∈ last, ∀ x, e = Event.record x → x.Clean)
  | 0, s => by
    refine ⟨fun outs s' h => ?_, fun outs out h => by cases h⟩
    cases h
    exact ⟨[], rfl, by simp⟩
  | n + 1, s => by
    obtain ⟨h1, h2⟩ := speech_events hw p (init s) hp
    unfold session
    cases hs : speech step p (init s) with
    | error o =>
      refine ⟨fun outs s' h => (by cases h), fun outs out h => ?_⟩
      cases h
      obtain ⟨es, e1, e2⟩ := h2 _ hs
      exact ⟨[], es, rfl, e1, by simp, e2⟩
    | ok r =>
      obtain ⟨o, s1⟩ := r
      obtain ⟨es, e1, e2⟩ := h1 _ _ hs
      subst e1
      obtain ⟨i1, i2⟩ := session_events hw init hp n s1
      dsimp only
      cases hk : session step init p n s1 with
      | error r' =>
        obtain ⟨outs', o'⟩ := r'
        obtain ⟨shots, last, rfl, f2, f3, f4⟩ := i2 _ _ hk
        refine ⟨fun outs s' h => (by cases h), fun outs out h => ?_⟩
        cases h
        refine ⟨es :: shots, last, rfl, f2, fun es' he' => ?_, f4⟩
        rcases List.mem_cons.1 he' with rfl | he'
        · exact e2
        · exact f3 es' he'
      | ok r' =>
        obtain ⟨outs', s2⟩ := r'
        obtain ⟨shots, rfl, f3⟩ := i1 _ _ hk
        refine ⟨fun outs s' h => ?_, fun outs out h => (by cases h)⟩
        cases h
        refine ⟨es :: shots, rfl, fun es' he' => ?_⟩
        rcases List.mem_cons.1 he' with rfl | he'
        · exact e2
        · exact f3 es' he'

/-- What a run of `n` shots tells on the standard output: the session of the program, complete or aborted. -/
def Tells (step : StepFn Q A σ) (init : σ → σ) (p : Prog Q A) (n : ℕ) (s : σ) (r : Account) : Prop :=
  match session step init p n s with
  | .ok (outs, _) => outs = r.shots.map Out.lines ∧ r.aborted = none ∧ r.shots.length = n
  | .error (outs, out) => ∃ last, outs = r.shots.map Out.lines ∧ r.aborted = some last ∧ out = Out.lines last ∧
      r.shots.length < n

/-- The stream after a run. -/
def after : Except (RunError × Io) (σ × Io) → Io
  | .ok (_, io) => io
  | .error (_, io) => io

/-- **C61** for runs: what a run adds to the standard output is the transcript of an account of it. -/
theorem C61_run {step : StepFn Q A σ} {P : Q → Prop} (hw : WritesEvents step P) (init : σ → σ) (fs : List Func)
    (code : Func → Prog Q A) (name : Option String) (f : Func) (n : ℕ) (s : σ) (io : Io)
    (hb : ∃ m, bindFunctions fs = .ok m) (hf : chooseEntryPoint fs name = .ok f) (hp : f.params = 0)
    (hr : Ready true io) (hm : io.recorder.useStdOut = true) (hc : AllCalls P (code f))
    (ha : ∀ a ∈ f.attrs, 9 ∉ utf8 a.1 ∧ 10 ∉ utf8 a.1 ∧ 10 ∉ utf8 a.2) :
    ∃ r : Account, r.Clean ∧ r.attrs = f.attrs ∧ Tells step init (code f) n s r ∧
      (after (runModule step init true fs code name n s io)).stdout = io.stdout ++ r.text := by
  obtain ⟨h1, h2⟩ := session_events hw init hc n s
  cases hrun : runModule step init true fs code name n s io with
  | ok x =>
    obtain ⟨s', io'⟩ := x
    obtain ⟨outs, g1, g2, g3, _⟩ := (C40_framing step init true fs code name f n s io hb hf hp hr).1 s' io' hrun
    obtain ⟨shots, rfl, e2⟩ := h1 _ _ g1
    refine ⟨⟨f.attrs, shots, none⟩, ⟨ha, e2, by simp⟩, rfl, ?_, ?_⟩
    · unfold Tells
      rw [g1]
      exact ⟨rfl, rfl, by simpa using g2⟩
    · show io'.stdout = _
      have : seen true io' = io'.stdout := rfl
      rw [← this, g3, List.flatMap_map]
      simp [seen, Account.text]
  | error x =>
    obtain ⟨e, io'⟩ := x
    obtain ⟨_, outs, out, g1, g2, g3, _⟩ := C40_aborted step init true fs code name f n s io hb hf hp hr e io' hrun
    obtain ⟨shots, last, rfl, rfl, e2, e3⟩ := h2 _ _ g1
    refine ⟨⟨f.attrs, shots, some last⟩, ⟨ha, e2, ?_⟩, rfl, ?_, ?_⟩
    · intro es hes; cases hes; exact e3
    · unfold Tells
      rw [g1]
      exact ⟨last, rfl, rfl, rfl, by simpa using g2⟩
    · show io'.stdout = _
      have : seen true io' = io'.stdout := rfl
      rw [← this, g3, hm, List.flatMap_map]
      simp [seen, Account.text]

end Qir.Run

namespace Qir.Back
open Spec Sim Qir.Out Run

/-- The calls whose labels contain no line feed; dumps are not events. -/
def Plainly : QCall → Prop
  | .recordResult _ (some t) => 10 ∉ t
  | .record e _ => e.Clean
  | .dump _ => False
  | _ => True

/-- **C61** for the library: apart from dumps it writes nothing but events, whatever the state, even when it ends the
process. -/
theorem C61_library (env : Env) (fmt : Fmt) : WritesEvents (step env fmt) Plainly := by
  intro c s hc
  have none' : ∃ es, ([] : List UInt8) = lines es ∧ ∀ e ∈ es, ∀ x, e = Event.record x → x.Clean := ⟨[], rfl, by simp⟩
  have one : ∀ e : Event, (∀ x, e = Event.record x → x.Clean) →
      ∃ es, e.line = lines es ∧ ∀ e ∈ es, ∀ x, e = Event.record x → x.Clean := by
    intro e he
    refine ⟨[e], by simp [lines], ?_⟩
    intro e' he'
    rw [List.mem_singleton] at he'
    subst he'
    exact he
  have hmsg : ∀ e : Stop, ∃ es, e.output = lines es ∧ ∀ e ∈ es, ∀ x, e = Event.record x → x.Clean := by
    intro e
    unfold Stop.output
    split
    · rename_i msg
      rw [show bytesOf (message msg) = bytesOf (emit (.message msg)) from rfl, bytesOf_emit]
      exact one (.record (.message msg)) (by intro x hx; cases hx; intro t ht; cases ht)
    · exact none'
  constructor
  · intro a out s' h
    have hq : qstep env fmt c s = .ok (a, out, s') := by
      unfold step at h
      cases hq : qstep env fmt c s with
      | ok r => rw [hq] at h; cases h; rfl
      | error e => rw [hq] at h; cases h
    have sil : ∀ {r : Except Stop Backend}, silent r = .ok (a, out, s') → out = [] := by
      intro r h
      unfold silent at h
      cases r with
      | error e => cases h
      | ok s => cases h; rfl
    have bnd : ∀ {α : Type} {r : Except Stop α} {f : α → Except Stop (QAns × List UInt8 × Backend)},
        (r >>= f) = .ok (a, out, s') → ∃ x, f x = .ok (a, out, s') := by
      intro α r f h
      cases r with
      | error e => cases h
      | ok x => exact ⟨x, h⟩
    cases c with
    | recordResult r tag =>
      obtain ⟨⟨b, s1⟩, h1⟩ := bnd hq
      cases h1
      rw [show resultRecordOutput b tag = emit (.result b tag) from rfl, bytesOf_emit]
      refine one (.record (.result b tag)) ?_
      intro x hx; cases hx; intro t ht
      cases tag with
      | none => cases ht
      | some t' => cases ht; exact hc
    | legacyResult r =>
      obtain ⟨⟨b, s1⟩, h1⟩ := bnd hq
      cases h1
      rw [bytesOf_legacy]
      exact one _ (by intro x hx; cases hx)
    | record e he =>
      cases hq
      rw [bytesOf_emit]
      exact one (.record e) (by intro x hx; cases hx; exact hc)
    | legacy e he =>
      cases hq
      rw [bytesOf_legacy]
      exact one _ (by intro x hx; cases hx)
    | dump l => exact hc.elim
    | fail m => cases hq
    | readResult r => obtain ⟨⟨b, s1⟩, h1⟩ := bnd hq; cases h1; exact none'
    | m q => obtain ⟨⟨b, s1⟩, h1⟩ := bnd hq; cases h1; exact none'
    | measure ps qs => obtain ⟨⟨b, s1⟩, h1⟩ := bnd hq; cases h1; exact none'
    | isZero q => obtain ⟨⟨b, s1⟩, h1⟩ := bnd hq; cases h1; exact none'
    | drawInt lo hi =>
      unfold qstep at hq
      dsimp only at hq
      split at hq <;> cases hq
      exact none'
    | drawDouble lo hi =>
      unfold qstep at hq
      dsimp only at hq
      split at hq <;> cases hq
      exact none'
    | writeResult v r => cases hq; exact none'
    | allocate => cases hq; exact none'
    | barrier => cases hq; exact none'
    | reinit => cases hq; exact none'
    | _ => rw [sil hq]; exact none'
  · intro out h
    unfold step at h
    cases hq : qstep env fmt c s with
    | ok r => rw [hq] at h; cases h
    | error e => rw [hq] at h; cases h; exact hmsg e

/-- **C61** for whole runs against each other: if two runs, of whatever modules, in whatever states, add the same bytes to
the standard output, they agree in everything the transcript tells. -/
theorem C61_runs_agree (env env' : Env) (fmt fmt' : Fmt) (fs fs' : List Func) (code code' : Func → Prog QCall QAns)
    (name name' : Option String) (f f' : Func) (n n' : ℕ) (s s' : Backend) (io io' : Io)
    (hb : ∃ m, bindFunctions fs = .ok m) (hb' : ∃ m, bindFunctions fs' = .ok m)
    (hf : chooseEntryPoint fs name = .ok f) (hf' : chooseEntryPoint fs' name' = .ok f')
    (hp : f.params = 0) (hp' : f'.params = 0) (hr : Ready true io) (hr' : Ready true io')
    (hm : io.recorder.useStdOut = true) (hm' : io'.recorder.useStdOut = true)
    (hc : AllCalls Plainly (code f)) (hc' : AllCalls Plainly (code' f'))
    (ha : ∀ a ∈ f.attrs, 9 ∉ utf8 a.1 ∧ 10 ∉ utf8 a.1 ∧ 10 ∉ utf8 a.2)
    (ha' : ∀ a ∈ f'.attrs, 9 ∉ utf8 a.1 ∧ 10 ∉ utf8 a.1 ∧ 10 ∉ utf8 a.2) (out : List UInt8)
    (h : (Run.after (runModule (step env fmt) reinit true fs code name n s io)).stdout = io.stdout ++ out)
    (h' : (Run.after (runModule (step env' fmt') reinit true fs' code' name' n' s' io')).stdout = io'.stdout ++ out) :
    ∃ r r' : Account, r.attrs = f.attrs ∧ r'.attrs = f'.attrs ∧ Tells (step env fmt) reinit (code f) n s r ∧
      Tells (step env' fmt') reinit (code' f') n' s' r' ∧ r.Agrees r' := by
  obtain ⟨r, h1, h2, h3, h4⟩ := C61_run (C61_library env fmt) reinit fs code name f n s io hb hf hp hr hm hc ha
  obtain ⟨r', g1, g2, g3, g4⟩ := C61_run (C61_library env' fmt') reinit fs' code' name' f' n' s' io' hb' hf' hp' hr' hm' hc' ha'
  refine ⟨r, r', h2, g2, h3, g3, (C61_transcript r r' h1 g1).1 ?_⟩
  rw [h] at h4
  rw [h'] at g4
  exact (List.append_cancel_left h4).symm.trans (List.append_cancel_left g4)

/-- The coin toss of the transcripts meets the hypotheses. -/
example : (∃ m, bindFunctions coinModule = .ok m) ∧ (∃ f, chooseEntryPoint coinModule none = .ok f ∧ f.params = 0 ∧
    f.attrs ≠ [] ∧ ∀ a ∈ f.attrs, 9 ∉ utf8 a.1 ∧ 10 ∉ utf8 a.1 ∧ 10 ∉ utf8 a.2) ∧ Ready true Io.init ∧
    AllCalls Plainly coin := by
  refine ⟨coinModule_binds, ⟨_, rfl, rfl, by decide, by decide +kernel⟩, ⟨fun _ => rfl, rfl⟩, ?_⟩
  refine ⟨trivial, fun _ => ⟨trivial, fun _ => ⟨trivial, fun _ => ⟨trivial, fun a => ?_⟩⟩⟩⟩
  dsimp only
  split
  · exact ⟨trivial, fun _ => ⟨trivial, fun _ => trivial⟩⟩
  · exact ⟨trivial, fun _ => trivial⟩

end Qir.Back
