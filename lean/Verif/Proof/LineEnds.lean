import Verif.Props.LineEndDefs
import Verif.Props.Decoding
import Verif.Props.Handler

/-!
# Line ends: what is written, as lines
-/

noncomputable section
namespace Qir.Eol
open Spec Qir.Std Qir.Out Qir.Run

/-- Lines, each with the ending `eol`. -/
def join (eol : Bytes) (ls : List Bytes) : Bytes := ls.flatMap (· ++ eol)

theorem join_nil (eol : Bytes) : join eol [] = [] := rfl

theorem join_append (eol : Bytes) (a b : List Bytes) : join eol (a ++ b) = join eol a ++ join eol b := by
  simp [join]

theorem join_one (eol l : Bytes) : join eol [l] = l ++ eol := by simp [join]

/-! ## The functions of the recorder -/

theorem recordOutput_eq (eol : Bytes) (ty val : List Char) (tag : Option Bytes) (io : Io) :
    recordOutput eol ty val tag io = io.write
      (ascii "OUTPUT".toList ++ 9 :: (ascii ty ++ 9 :: (ascii val ++ labelField tag)) ++ eol) := by
  cases tag <;> simp only [recordOutput, newline, Io.write_write, labelField, ascii_append] <;>
    congr 1 <;> simp [ascii]

theorem emit_eq (eol : Bytes) (r : Record) (io : Io) : emit eol r io = io.write (r.body ++ eol) := by
  cases r <;> simp only [emit, recordOutput_eq] <;> try rfl
  simp only [message, recordOutputStr, newline, Io.write_write, ascii_append, Record.body]
  congr 1

/-- The line of a legacy record. -/
def legacyBody (r : Legacy) : Bytes := ascii "RESULT".toList ++ 9 :: ascii r.text

theorem emitLegacy_eq (eol : Bytes) (r : Legacy) (io : Io) : emitLegacy eol r io = io.write (legacyBody r ++ eol) := by
  simp only [emitLegacy, recordOutputStr, newline, Io.write_write, legacyBody, ascii_append]
  congr 1

theorem bytesOf_emit (eol : Bytes) (r : Record) : Back.bytesOf (emit eol r) = r.body ++ eol := by
  rw [show emit eol r = Io.write (r.body ++ eol) from funext (emit_eq eol r), Back.bytesOf_write]

theorem bytesOf_legacy (eol : Bytes) (r : Legacy) : Back.bytesOf (emitLegacy eol r) = legacyBody r ++ eol := by
  rw [show emitLegacy eol r = Io.write (legacyBody r ++ eol) from funext (emitLegacy_eq eol r), Back.bytesOf_write]

/-- The text of a dump without its line end. -/
def dumpBody (fmt : ℂ → String) (l : List (ℕ × ℂ)) : Bytes :=
  utf8 (l.foldl (fun output e => output ++ ("|" ++ toString e.1 ++ "⟩: " ++ fmt e.2 ++ ", ")) "STATE: [ " ++ "]")

theorem dumpText_eq (eol : Bytes) (fmt : ℂ → String) (l : List (ℕ × ℂ)) :
    dumpText eol fmt l = dumpBody fmt l ++ eol := rfl

/-! ## The calls of the library -/

/-- The result of a call with its lines ended. -/
def ended {A σ : Type} (eol : Bytes) : Except (List Bytes) (A × List Bytes × σ) → Except Bytes (A × Bytes × σ)
  | .ok (a, ls, s) => .ok (a, join eol ls, s)
  | .error ls => .error (join eol ls)

/-- The lines of a result. -/
def said {A σ : Type} : Except (List Bytes) (A × List Bytes × σ) → List Bytes
  | .ok (_, ls, _) => ls
  | .error ls => ls

/-- The calls that write something when they succeed. -/
def Writes : QCall → Prop
  | .recordResult .. | .legacyResult .. | .record .. | .legacy .. | .dump .. => True
  | _ => False

theorem qstep_silent {env : Env} {fmt : Back.Fmt} {c : QCall} (hc : ¬ Writes c) {s : Back.Backend} {a : QAns} {out : Bytes}
    {s' : Back.Backend} (h : Back.qstep env fmt c s = .ok (a, out, s')) : out = [] := by
  have key : ∀ {r : Except Back.Stop Back.Backend}, Back.silent r = .ok (a, out, s') → out = [] := by
    intro r h
    cases r with
    | error e => cases h
    | ok s => cases h; rfl
  have key2 : ∀ {α : Type} {r : Except Back.Stop (α × Back.Backend)} {g : α → QAns},
      (r >>= fun x => pure (g x.1, ([] : Bytes), x.2)) = Except.ok (a, out, s') → out = [] := by
    intro α r g h
    cases r with
    | error e => cases h
    | ok s => cases h; rfl
  cases c <;> first | exact absurd trivial hc | exact key h | skip
  case readResult r => exact key2 (r := Back.readResult r s) (g := .bit) h
  case writeResult => cases h; rfl
  case m q => exact key2 (r := Back.m env q s) (g := .ptr) h
  case measure ps qs => exact key2 (r := Back.measure env ps qs s) (g := .ptr) h
  case isZero q => exact key2 (r := Back.qubitIsZero env q s) (g := .bit) h
  case allocate => cases h; rfl
  case fail => cases h
  case barrier => cases h; rfl
  case reinit => cases h; rfl
  case drawInt min max =>
    simp only [Back.qstep] at h
    split at h
    · cases h; rfl
    · cases h
  case drawDouble min max =>
    simp only [Back.qstep] at h
    split at h
    · cases h; rfl
    · cases h

/-- The lines a call that ends the process has written. -/
def lastWords : Back.Stop → List Bytes
  | .fail msg => [(Record.message msg).body]
  | _ => []

theorem stopOutput_eq (eol : Bytes) (e : Back.Stop) : stopOutput eol e = join eol (lastWords e) := by
  cases e with
  | fail msg => rw [lastWords, join_one, ← bytesOf_emit]; rfl
  | _ => rfl

/-- A line without a carriage return. -/
def NoCr (l : Bytes) : Prop := (13 : UInt8) ∉ l

theorem body_noCr (r : Record) (h : ∀ t, r.label = some t → 13 ∉ t) : NoCr r.body := by
  have hv : (13 : UInt8) ∉ ascii r.value := (value_field r).notMem (n := 13) (by norm_num)
  have hk : (13 : UInt8) ∉ ascii r.keyword := (keyword_field r).notMem (n := 13) (by norm_num)
  have hl : (13 : UInt8) ∉ labelField r.label := by
    cases hr : r.label with
    | none => simp [labelField]
    | some t =>
      rw [labelField, List.mem_cons, not_or]
      exact ⟨by decide, h t hr⟩
  have ho : (13 : UInt8) ∉ ascii "OUTPUT".toList := by decide
  have hi : (13 : UInt8) ∉ ascii "INFO".toList := by decide
  have h9 : ¬ (13 : UInt8) = 9 := by decide
  cases r
  case message s =>
    simp only [NoCr, Record.body, List.mem_append, List.mem_cons, not_or]
    exact ⟨hi, h9, hv⟩
  all_goals
    simp only [NoCr, Record.body, List.mem_append, List.mem_cons, not_or]
    exact ⟨ho, h9, hk, h9, hv, hl⟩

theorem legacyBody_noCr (r : Legacy) : NoCr (legacyBody r) := by
  have ht : Field r.text := by
    cases r
    case int n => exact intText_field n
    case double d => exact doubleText_field d
    case bool b => exact boolText_field b
    case result b => exact resultText_field b
    all_goals (unfold Legacy.text; decide)
  have hv : (13 : UInt8) ∉ ascii r.text := ht.notMem (n := 13) (by norm_num)
  simp only [NoCr, legacyBody, List.mem_append, List.mem_cons, not_or]
  exact ⟨by decide, by decide, hv⟩

theorem utf8_app (a b : String) : utf8 (a ++ b) = utf8 a ++ utf8 b := utf8_append a b

theorem utf8_nat (n : ℕ) : (13 : UInt8) ∉ utf8 (toString n) := by
  have e : toString n = String.ofList (digits n) := by
    apply String.toList_inj.1
    simp [digits, toString, Nat.repr]
  rw [e]
  have hd := (digits_field n)
  revert hd
  induction digits n with
  | nil => intro _; decide +kernel
  | cons c l ih =>
    intro h
    have hc := h c (by simp)
    rw [show String.ofList (c :: l) = String.ofList [c] ++ String.ofList l by
      apply String.toList_inj.1; simp, utf8_app, utf8_narrow (by omega), List.mem_append, not_or]
    refine ⟨?_, ih fun x hx => h x (by simp [hx])⟩
    rw [List.mem_singleton]
    intro h
    have := congrArg UInt8.toNat h
    simp at this
    omega

theorem dumpBody_noCr {fmt : ℂ → String} (h : ∀ z, (13 : UInt8) ∉ utf8 (fmt z)) (l : List (ℕ × ℂ)) :
    NoCr (dumpBody fmt l) := by
  have key : ∀ (l : List (ℕ × ℂ)) (a : String), (13 : UInt8) ∉ utf8 a →
      (13 : UInt8) ∉ utf8 (l.foldl (fun output e => output ++ ("|" ++ toString e.1 ++ "⟩: " ++ fmt e.2 ++ ", ")) a) := by
    intro l
    induction l with
    | nil => exact fun a ha => ha
    | cons e l ih =>
      intro a ha
      refine ih _ ?_
      simp only [utf8_app, List.mem_append, not_or]
      exact ⟨ha, ⟨⟨⟨by decide +kernel, utf8_nat _⟩, by decide +kernel⟩, h _⟩, by decide +kernel⟩
  unfold NoCr dumpBody
  rw [utf8_app, List.mem_append, not_or]
  exact ⟨key l _ (by decide +kernel), by decide +kernel⟩

theorem lastWords_noCr (e : Back.Stop) : ∀ l ∈ lastWords e, NoCr l := by
  cases e with
  | fail msg =>
    intro l hl
    rw [lastWords, List.mem_singleton] at hl
    subst hl
    exact body_noCr _ (by intro t ht; cases ht)
  | _ => intro l hl; cases hl

/-- A call writes whole lines, the same whatever the line ending. -/
theorem step_lines (env : Env) (fmt : Back.Fmt) (c : QCall) (s : Back.Backend) :
    ∃ r : Except (List Bytes) (QAns × List Bytes × Back.Backend), (∀ eol, step eol env fmt c s = ended eol r) ∧
      (Tame c → TameFmt fmt → ∀ l ∈ said r, NoCr l) := by
  have bad : ∀ e : Back.Stop, (∀ eol, qstep eol env fmt c s = .error e) →
      ∃ r : Except (List Bytes) (QAns × List Bytes × Back.Backend), (∀ eol, step eol env fmt c s = ended eol r) ∧
      (Tame c → TameFmt fmt → ∀ l ∈ said r, NoCr l) := by
    intro e he
    refine ⟨.error (lastWords e), fun eol => ?_, fun _ _ => lastWords_noCr e⟩
    simp only [step, he, ended, stopOutput_eq]
  have good : ∀ a (ls : List Bytes) s', (∀ eol, qstep eol env fmt c s = .ok (a, join eol ls, s')) →
      (Tame c → TameFmt fmt → ∀ l ∈ ls, NoCr l) →
      ∃ r : Except (List Bytes) (QAns × List Bytes × Back.Backend), (∀ eol, step eol env fmt c s = ended eol r) ∧
      (Tame c → TameFmt fmt → ∀ l ∈ said r, NoCr l) := by
    intro a ls s' he hn
    refine ⟨.ok (a, ls, s'), fun eol => ?_, hn⟩
    simp only [step, he, ended]
  have rest : ¬ Writes c → (∀ eol, qstep eol env fmt c s = Back.qstep env fmt c s) →
      ∃ r : Except (List Bytes) (QAns × List Bytes × Back.Backend), (∀ eol, step eol env fmt c s = ended eol r) ∧
      (Tame c → TameFmt fmt → ∀ l ∈ said r, NoCr l) := by
    intro hw he
    cases hq : Back.qstep env fmt c s with
    | error e => exact bad e fun eol => (he eol).trans hq
    | ok x =>
      obtain ⟨a, out, s'⟩ := x
      cases qstep_silent hw hq
      exact good a [] s' (fun eol => (he eol).trans hq) (by simp)
  have one : ∀ l : Bytes, (Tame c → NoCr l) → (Tame c → TameFmt fmt → ∀ x ∈ [l], NoCr x) := by
    intro l h hc _ x hx
    rw [List.mem_singleton] at hx
    subst hx
    exact h hc
  cases c <;> first | exact rest (fun h => h) (fun _ => rfl) | skip
  case recordResult r tag =>
    cases hr : Back.recordedResult r s with
    | error e => exact bad e fun eol => by simp only [qstep, hr]; rfl
    | ok x =>
      obtain ⟨b, s'⟩ := x
      refine good .unit [(Record.result b tag).body] s' (fun eol => ?_) (one _ fun h => body_noCr _ ?_)
      · rw [join_one, ← bytesOf_emit]
        simp only [qstep, hr]
        rfl
      · intro t ht
        cases (show tag = some t from ht)
        exact h
  case legacyResult r =>
    cases hr : Back.recordedResult r s with
    | error e => exact bad e fun eol => by simp only [qstep, hr]; rfl
    | ok x =>
      obtain ⟨b, s'⟩ := x
      refine good .unit [legacyBody (.result b)] s' (fun eol => ?_) (one _ fun _ => legacyBody_noCr _)
      rw [join_one, ← bytesOf_legacy]
      simp only [qstep, hr]
      rfl
  case record e _ =>
    refine good .unit [e.body] s (fun eol => ?_) (one _ fun h => body_noCr _ h)
    rw [join_one, ← bytesOf_emit]
    rfl
  case legacy e _ =>
    refine good .unit [legacyBody e] s (fun eol => ?_) (one _ fun _ => legacyBody_noCr _)
    rw [join_one, ← bytesOf_legacy]
    rfl
  case dump location =>
    cases location
    · have hd : (∃ p, ∀ eol, dump eol env fmt.amplitude s.sim = .error p) ∨
          ∃ v sim', ∀ eol, dump eol env fmt.amplitude s.sim = .ok (dumpText eol fmt.amplitude v, sim') := by
        unfold dump
        dsimp only
        cases Sim.flushQueue env (s.sim.idMap.iter.map Prod.fst) .HRxRy s.sim with
        | error p => exact .inl ⟨p, fun _ => rfl⟩
        | ok s1 =>
          simp only [bind, Except.bind]
          cases Sim.relocate env 0 (s.sim.idMap.iter.map Prod.fst) s1 with
          | error p => exact .inl ⟨p, fun _ => rfl⟩
          | ok s2 => exact .inr ⟨_, _, fun _ => rfl⟩
      rcases hd with ⟨p, hp⟩ | ⟨v, sim', hv⟩
      · exact bad (.sim p) fun eol => by
          simp only [qstep, dumpMachine, Back.ask, hp]
          rfl
      · refine good .unit ((if s.res.isEmpty then [] else [utf8 "Global Results: " ++ fmt.bits s.res]) ++
          [dumpBody fmt.amplitude v]) { s with sim := sim' } (fun eol => ?_) (fun _ hf l hl => ?_)
        · simp only [qstep, dumpMachine, Back.ask, hv, join_append, join_one, dumpText_eq]
          cases s.res.isEmpty <;> simp [join, bind, Except.bind, pure, Except.pure, Back.lift]
        · rw [List.mem_append, List.mem_singleton] at hl
          rcases hl with hl | rfl
          · split at hl
            · cases hl
            · rw [List.mem_singleton] at hl
              subst hl
              rw [NoCr, List.mem_append, not_or]
              exact ⟨by decide +kernel, hf.bits _⟩
          · exact dumpBody_noCr hf.amplitude v
    · exact bad .unimplemented fun eol => rfl

end Qir.Eol
