import Verif.Props.Session
import Verif.Props.Math

/-!
# What any program can print (C52)

The theorems of C49 are about programs whose every call has a determined effect and that avoid the wrong
turn of `ry`.  Here are all programs: the ideal device may answer a draw with any value between the bounds
and may dump its state with any global phase, and the program it runs is the one the code carries out.
-/

noncomputable section
namespace Qir.Back
open Spec Sim Qir.Out Run

variable {env : Env} {fmt : Fmt}

/-! ### The ideal device, draws and dumps included -/

/-- Specification: what the ideal device may do with a call that returns.  A draw takes any value between the
bounds.  A dump lists the result registers, if any has been used, up to some number, and the state vector up to
a global phase. -/
def May (fmt : Fmt) (δ : Device) (c : QCall) (a : QAns) (out : Bytes) (δ' : Device) : Prop :=
  match c with
  | .drawInt lo hi => ∃ n : ℤ, lo ≤ n ∧ n ≤ hi ∧ a = .int n ∧ out = [] ∧ δ' = δ
  | .drawDouble lo hi => ∃ x : ℝ, lo ≤ x ∧ x ≤ hi ∧ a = .real x ∧ out = [] ∧ δ' = δ
  | .dump _ => ∃ (regs : List Bool) (w : ℂ) (l : List (ℕ × ℂ)), (∀ r, regs.getD r false = δ.reg r) ∧
      (regs ≠ [] ↔ δ.touched = true) ∧ ‖w‖ = 1 ∧ Lists (δ.live.sort (· ≤ ·)) (w • δ.psi) l ∧ a = .unit ∧
      out = (if δ.touched then utf8 "Global Results: " ++ fmt.bits regs ++ [10] else []) ++
        utf8 (stateText fmt.amplitude l) ∧ δ' = δ
  | c => ∃ es, δ.step c = .ok (a, es, δ') ∧ out = lines es

/-- Specification: the message with which a call ends the program. -/
def Ends (δ : Device) (c : QCall) (msg : List Char) : Prop :=
  match c with
  | .drawInt lo hi => hi < lo ∧ msg = "Invalid Argument: minimum > maximum".toList
  | .drawDouble lo hi => hi < lo ∧ msg = "Invalid Argument: minimum > maximum".toList
  | .dump _ => False
  | c => δ.step c = .error msg

/-- Specification: what a program may print on the ideal device, and the state it leaves, or `none` if it fails.
The last line is then the message. -/
def Prints (fmt : Fmt) : Prog QCall QAns → Device → Bytes → Option Device → Prop
  | .done, δ, out, e => out = [] ∧ e = some δ
  | .call c k, δ, out, e =>
    (∃ m, Ends δ c m ∧ out = lines [.record (.message m)] ∧ e = none) ∨
    ∃ a o δ' o', May fmt δ c a o δ' ∧ Prints fmt (k a) δ' o' e ∧ out = o ++ o'

/-- Specification: what `n` shots may print, shot by shot, and what a failing shot after them prints.  Each shot
starts with an empty device and goes on with the samples; `P rng` is the program of the shot whose samples are
`rng`, which may be one of several. -/
def Shots (fmt : Fmt) (P : (ℕ → ℝ) → Prog QCall QAns → Prop) : ℕ → (ℕ → ℝ) → List Bytes → Option Bytes → Prop
  | 0, _, outs, e => outs = [] ∧ e = none
  | n + 1, rng, outs, e =>
    (∃ p out, P rng p ∧ Prints fmt p (Device.init rng) out none ∧ outs = [] ∧ e = some out) ∨
    ∃ p out δ outs', P rng p ∧ Prints fmt p (Device.init rng) out (some δ) ∧
      Shots fmt P n δ.rng outs' e ∧ outs = out :: outs'

/-- Specification: the program makes sense, whatever is measured: every call is valid when its turn comes, for
every state vector the device could then have.  The bounds of an integer draw are `i64`s. -/
def Sensible (fmt : Fmt) : Prog QCall QAns → Device → Prop
  | .done, _ => True
  | .call c k, δ => δ.Valid c ∧ (∀ lo hi, c = .drawInt lo hi → Std.IsI64 lo ∧ Std.IsI64 hi) ∧
    ∀ ψ a out δ' φ, May fmt { δ with psi := ψ } c a out δ' → Sensible fmt (k a) { δ' with psi := φ }

/-! ### What the code carries out -/

open Classical in
/-- The call carried out when `c` is requested: an uncontrolled rotation about Y goes the other way if a half-turn
about X is pending on its qubit (see C01). -/
def carriedOut (s : Backend) : QCall → QCall
  | .gate (.ry θ) q => if PendingHalfTurn s.sim q then .gate (.ry (-θ)) q else .gate (.ry θ) q
  | .r .Y θ q => if PendingHalfTurn s.sim q then .r .Y (-θ) q else .r .Y θ q
  | .rAdj .Y θ q => if PendingHalfTurn s.sim q then .rAdj .Y (-θ) q else .rAdj .Y θ q
  | c => c

/-- The program carried out when `p` is run from `s`. -/
def executed (env : Env) (fmt : Fmt) : Prog QCall QAns → Backend → Prog QCall QAns
  | .done, _ => .done
  | .call c k, s => .call (carriedOut s c) fun a => match qstep env fmt c s with
    | .ok (_, _, s') => executed env fmt (k a) s'
    | .error _ => k a

/-- A program without uncontrolled rotations about Y is carried out as it is. -/
theorem executed_noY {p : Prog QCall QAns} (h : NoYProg p) : ∀ s, executed env fmt p s = p := by
  induction p with
  | done => intro s; rfl
  | call c k ih =>
    intro s
    have h1 : carriedOut s c = c := by
      have := h.1
      unfold carriedOut
      split <;> first | rfl | exact this.elim
    unfold executed
    rw [h1]
    congr 1
    funext a
    split
    · exact ih a (h.2 a) _
    · rfl

/-! ### One call -/

theorem gate_meant {s : Backend} {δ : Device} (he : env.eps = 0) (h : QRef s δ) {q : ℕ} (hq : δ.Usable q) (θ : ℝ)
    (hp : PendingHalfTurn s.sim q) :
    ∃ s', gate env (.ry θ) q s = .ok s' ∧ QRef s' (δ.apply [q] (ctrl [] (matRy (-θ)) q)) := by
  have hu := ensure_ref he h hq
  obtain ⟨s1, g', h1, hm, h2⟩ := gateCall_step he hu.sim.wf ((hu.sim.live q).1 (mem_use h.low hq)) (.ry θ)
  have hp' : PendingHalfTurn (ensure q s).sim q := by
    unfold PendingHalfTurn at hp ⊢
    rwa [ensure_rxQ q _ rfl]
  have hg : g' = .ry (-θ) := by
    rcases hm with ⟨_, e⟩ | ⟨hn, _⟩
    · cases e; rfl
    · exact absurd hp' hn
  subst hg
  have hg' := hu.sim.good.step (c := .gate (.ry (-θ)) q) (mem_use h.low hq)
  have hr := hu.sim.of_step h2 hg'
  refine ⟨{ ensure q s with sim := s1 }, by simp only [gate, act, h1, lift, ok_bind, pure_ok], ?_⟩
  have : QRef { ensure q s with sim := s1 } { δ.use q with psi := ctrl [] (Gate.ry (-θ)).mat q (δ.use q).psi } :=
    ⟨hr, hu.high, hu.low, hu.reg, hu.touched⟩
  rw [use_psi] at this
  exact this

theorem r_meant {s : Backend} {δ : Device} (he : env.eps = 0) (h : QRef s δ) {q : ℕ} (hq : δ.Usable q) (θ : ℝ)
    (hp : PendingHalfTurn s.sim q) :
    ∃ s', r env .Y θ q s = .ok s' ∧ QRef s' (δ.apply [q] (ctrlExp [] [(.Y, q)] (θ / 2))) := by
  obtain ⟨s', h1, h2⟩ := gate_meant he h hq θ hp
  refine ⟨s', h1, ?_⟩
  rw [ctrl_Ry, show -(-θ / 2) = θ / 2 by ring] at h2
  exact h2

theorem qstep_os_eq {c : QCall} (hc : NoDraw c) {s s' : Backend} {a : QAns} {out : Bytes}
    (h : qstep env fmt c s = .ok (a, out, s')) : s'.os = s.os := by
  have := qstep_os (env := env) (fmt := fmt) c hc s.os s
  rw [show setOs s.os s = s from rfl, h] at this
  simp only [Except.map, Except.ok.injEq, Prod.mk.injEq, true_and] at this
  rw [this]; rfl

theorem carriedOut_ok {s : Backend} {c : QCall} (h : QCallOk s c) : carriedOut s c = c := by
  unfold carriedOut
  split <;> first | rfl | exact if_neg h

/-- Every call does what the ideal device may do when asked for the call carried out. -/
theorem qref_exact {s : Backend} {δ : Device} (he : env.eps = 0) (h : QRef s δ) (hw : ∀ n, s.os n < Std.words)
    {c : QCall} (hv : δ.Valid c) (hi : ∀ lo hi, c = .drawInt lo hi → Std.IsI64 lo ∧ Std.IsI64 hi) :
    (∃ a out s' δ', qstep env fmt c s = .ok (a, out, s') ∧ May fmt δ (carriedOut s c) a out δ' ∧ QRef s' δ' ∧
      ∀ n, s'.os n < Std.words) ∨
    ∃ m, qstep env fmt c s = .error (.fail m) ∧ Ends δ (carriedOut s c) m := by
  have fin : NoDraw c → (∃ a out s' δ', qstep env fmt c s = .ok (a, out, s') ∧ May fmt δ (carriedOut s c) a out δ' ∧
      QRef s' δ') → ∃ a out s' δ', qstep env fmt c s = .ok (a, out, s') ∧ May fmt δ (carriedOut s c) a out δ' ∧
      QRef s' δ' ∧ ∀ n, s'.os n < Std.words := by
    rintro hc ⟨a, out, s', δ', h1, h2, h3⟩
    exact ⟨a, out, s', δ', h1, h2, h3, by rw [qstep_os_eq hc h1]; exact hw⟩
  by_cases hd : c.Determined
  · have hnd : NoDraw c := by cases c <;> trivial
    by_cases hok : QCallOk s c
    · have hs := qref_step (fmt := fmt) he h hv hd hok
      rw [carriedOut_ok hok] at fin ⊢
      cases hc : δ.step c with
      | error m =>
        refine .inr ⟨m, hs.2 m hc, ?_⟩
        cases c <;> first | exact hc | exact hd.elim
      | ok r =>
        obtain ⟨a, es, δ'⟩ := r
        obtain ⟨s', e, h'⟩ := hs.1 a es δ' hc
        refine .inl (fin hnd ⟨a, _, s', δ', e, ?_, h'⟩)
        cases c <;> first | exact ⟨es, hc, rfl⟩ | exact hd.elim
    · left
      apply fin hnd
      cases c with
      | gate g q =>
        cases g with
        | ry θ =>
          have hp : PendingHalfTurn s.sim q := not_not.1 hok
          obtain ⟨s', e, h'⟩ := gate_meant he h hv θ hp
          refine ⟨.unit, [], s', _, by simp only [qstep, e]; rfl, ?_, h'⟩
          rw [show carriedOut s (.gate (.ry θ) q) = .gate (.ry (-θ)) q from if_pos hp]
          exact ⟨[], rfl, rfl⟩
        | _ => exact absurd trivial hok
      | r p θ q =>
        cases p with
        | Y =>
          have hp : PendingHalfTurn s.sim q := not_not.1 hok
          obtain ⟨s', e, h'⟩ := r_meant he h (hv.resolve_left (by decide)) θ hp
          refine ⟨.unit, [], s', _, by simp only [qstep, e]; rfl, ?_, h'⟩
          rw [show carriedOut s (.r .Y θ q) = .r .Y (-θ) q from if_pos hp]
          refine ⟨[], ?_, rfl⟩
          show Except.ok (_, _, δ.apply _ (ctrlExp [] [(.Y, q)] (-(-θ / 2)))) = _
          rw [show -(-θ / 2) = θ / 2 by ring]
          rfl
        | _ => exact absurd trivial hok
      | rAdj p θ q =>
        cases p with
        | Y =>
          have hp : PendingHalfTurn s.sim q := not_not.1 hok
          obtain ⟨s', e, h'⟩ := r_meant he h (hv.resolve_left (by decide)) (-θ) hp
          refine ⟨.unit, [], s', _, by simp only [qstep, rAdj, e]; rfl, ?_, h'⟩
          rw [show carriedOut s (.rAdj .Y θ q) = .rAdj .Y (-θ) q from if_pos hp]
          exact ⟨[], rfl, rfl⟩
        | _ => exact absurd trivial hok
      | _ => exact absurd trivial hok
  · cases c with
    | dump l =>
      have hv' : l = false := hv
      subst hv'
      left
      apply fin trivial
      obtain ⟨d, o, m, h1, h2, h3, h4⟩ := refine_call he h.sim (c := .dump fmt.amplitude) trivial
      cases h2
      obtain ⟨w, l, hw, hl, rfl⟩ := h3
      have e : Sim.dump env fmt.amplitude s.sim = .ok (stateText fmt.amplitude l, m) := by
        cases hm : Sim.dump env fmt.amplitude s.sim with
        | error e => simp [call, hm] at h1
        | ok r => simp [call, hm] at h1; rw [← h1.1, ← h1.2]
      refine ⟨.unit, _, { s with sim := m }, δ,
        by simp only [qstep, dumpMachine, ask, e, lift, ok_bind, pure_ok]; rfl, ?_,
        ⟨h4, h.high, h.low, h.reg, h.touched⟩⟩
      refine ⟨s.res, w, l, h.reg, ?_, hw, hl, rfl, ?_, rfl⟩
      · have := h.touched
        rw [ne_eq, ← List.isEmpty_iff, this]; simp
      · rw [h.touched]
        cases δ.touched <;> rfl
    | drawInt a b =>
      have hb := Std.C46_int a b (hi a b rfl).1 (hi a b rfl).2 (s.os 0) (s.os 1) (hw 0)
      have e : (nextWords s).1 = s.os 0 ∧ (nextWords s).2.1 = s.os 1 := ⟨rfl, rfl⟩
      simp only [qstep, e.1, e.2]
      cases hdr : Std.drawRandomInt a b (s.os 0) (s.os 1) with
      | ok n =>
        exact .inl ⟨.int n, [], _, δ, rfl, ⟨n, (hb.2.2 n hdr).1, (hb.2.2 n hdr).2, rfl, rfl, rfl⟩,
          ⟨h.sim, h.high, h.low, h.reg, h.touched⟩, fun n => hw _⟩
      | error e =>
        have := hb.2.1 e hdr
        subst this
        exact .inr ⟨_, rfl, hb.1.1 hdr, rfl⟩
    | drawDouble a b =>
      have hb := Std.C46_double a b
      have e : (nextWords s).1 = s.os 0 := rfl
      simp only [qstep, e]
      have hw0 := hw 0
      have h0 : (0 : ℝ) ≤ (s.os 0 : ℝ) / ((Std.words : ℝ) - 1) ∧ (s.os 0 : ℝ) / ((Std.words : ℝ) - 1) ≤ 1 := by
        have h1 : ((s.os 0 : ℕ) : ℝ) ≤ (Std.words : ℝ) - 1 := by
          have : s.os 0 + 1 ≤ Std.words := hw0
          have : ((s.os 0 + 1 : ℕ) : ℝ) ≤ (Std.words : ℝ) := by exact_mod_cast this
          push_cast at this; linarith
        have h2 : (0 : ℝ) ≤ (Std.words : ℝ) - 1 := le_trans (Nat.cast_nonneg _) h1
        exact ⟨div_nonneg (Nat.cast_nonneg _) h2, div_le_one_of_le₀ h1 h2⟩
      cases hdr : Std.drawRandomDouble a b ((s.os 0 : ℝ) / ((Std.words : ℝ) - 1)) with
      | ok x =>
        have := hb.2.1 _ x h0.1 h0.2 hdr
        exact .inl ⟨.real x, [], _, δ, rfl, ⟨x, this.1, this.2, rfl, rfl, rfl⟩,
          ⟨h.sim, h.high, h.low, h.reg, h.touched⟩, fun n => hw _⟩
      | error e =>
        have : e = .panic := by
          unfold Std.drawRandomDouble at hdr
          split_ifs at hdr
          cases hdr
          rfl
        subst this
        exact .inr ⟨_, rfl, (hb.1 _).1 hdr, rfl⟩
    | _ => exact absurd trivial hd

/-- The call carried out differs from the one requested in the state vector only. -/
theorem may_carriedOut {s : Backend} {δ δ' : Device} {c : QCall} {a : QAns} {out : Bytes}
    (h : May fmt δ (carriedOut s c) a out δ') :
    ∃ δ'' φ, May fmt δ c a out δ'' ∧ δ' = { δ'' with psi := φ } := by
  unfold carriedOut at h
  split at h
  · split at h
    · obtain ⟨es, h1, h2⟩ := h
      cases h1
      exact ⟨_, _, ⟨[], rfl, h2⟩, rfl⟩
    · exact ⟨δ', δ'.psi, h, rfl⟩
  · split at h
    · obtain ⟨es, h1, h2⟩ := h
      cases h1
      exact ⟨_, _, ⟨[], rfl, h2⟩, rfl⟩
    · exact ⟨δ', δ'.psi, h, rfl⟩
  · split at h
    · obtain ⟨es, h1, h2⟩ := h
      cases h1
      exact ⟨_, _, ⟨[], rfl, h2⟩, rfl⟩
    · exact ⟨δ', δ'.psi, h, rfl⟩
  · exact ⟨δ', δ'.psi, h, rfl⟩

theorem speech_exact (he : env.eps = 0) (p : Prog QCall QAns) : ∀ {s : Backend} {δ : Device}, QRef s δ →
    (∀ n, s.os n < Std.words) → Sensible fmt p δ →
    match speech (step env fmt) p s with
    | .error out => Prints fmt (executed env fmt p s) δ out none
    | .ok (out, s') => ∃ δ', Prints fmt (executed env fmt p s) δ out (some δ') ∧ QRef s' δ' ∧
        ∀ n, s'.os n < Std.words := by
  induction p with
  | done => intro s δ h hw _; exact ⟨δ, ⟨rfl, rfl⟩, h, hw⟩
  | call c k ih =>
    intro s δ h hw hs
    simp only [speech, step, executed]
    rcases qref_exact (fmt := fmt) he h hw hs.1 hs.2.1 with ⟨a, out, s1, δ1, h1, h2, h3, h4⟩ | ⟨m, h1, h2⟩
    · obtain ⟨δ2, φ, h5, rfl⟩ := may_carriedOut h2
      have := ih a h3 h4 (hs.2.2 δ.psi a out δ2 φ h5)
      simp only [h1]
      cases hk : speech (step env fmt) (k a) s1 with
      | error o =>
        simp only [hk] at this
        exact .inr ⟨a, out, _, o, h2, this, rfl⟩
      | ok r =>
        obtain ⟨o, s2⟩ := r
        simp only [hk] at this
        obtain ⟨δ', h6, h7⟩ := this
        exact ⟨δ', .inr ⟨a, out, _, o, h2, h6, rfl⟩, h7⟩
    · simp only [h1]
      exact .inl ⟨m, h2, fail_line m, rfl⟩

theorem session_exact (he : env.eps = 0) (p : Prog QCall QAns)
    (hs : ∀ rng : ℕ → ℝ, (∀ i, 0 ≤ rng i ∧ rng i < 1) → Sensible fmt p (Device.init rng)) (n : ℕ) :
    ∀ s : Backend, (∀ i, 0 ≤ s.sim.rng i ∧ s.sim.rng i < 1) → (∀ n, s.os n < Std.words) →
    match session (step env fmt) reinit p n s with
    | .error (outs, out) => Shots fmt (fun rng p' => ∃ os, p' = executed env fmt p (Backend.new rng os)) n
        s.sim.rng outs (some out)
    | .ok (outs, _) => Shots fmt (fun rng p' => ∃ os, p' = executed env fmt p (Backend.new rng os)) n
        s.sim.rng outs none := by
  induction n with
  | zero => intro s _ _; exact ⟨rfl, rfl⟩
  | succ n ih =>
    intro s hr hw
    have h1 := speech_exact he p (qref_new hr s.os) hw (hs _ hr)
    simp only [session, reinit_eq]
    cases hi : speech (step env fmt) p (Backend.new s.sim.rng s.os) with
    | error out =>
      simp only [hi] at h1
      exact .inl ⟨_, out, ⟨s.os, rfl⟩, h1, rfl, rfl⟩
    | ok r =>
      obtain ⟨out, s1⟩ := r
      simp only [hi] at h1
      obtain ⟨δ, h2, h3, h4⟩ := h1
      have hrng : s1.sim.rng = δ.rng := h3.sim.rng
      have h5 := ih s1 (by rw [hrng]; exact h3.sim.good.samples) h4
      rw [hrng] at h5
      simp only
      cases hj : session (step env fmt) reinit p n s1 with
      | error r =>
        simp only [hj] at h5
        exact .inr ⟨_, out, δ, _, ⟨s.os, rfl⟩, h2, h5, rfl⟩
      | ok r =>
        simp only [hj] at h5
        exact .inr ⟨_, out, δ, _, ⟨s.os, rfl⟩, h2, h5, rfl⟩

/-! ### C52 -/

/-- **C52**.  Run any module whose entry point makes sense whatever is measured, for any number of shots, from any
backend with samples in the unit interval.  No call panics.  Either the run returns, and what the caller sees are
the blocks of `n` shots that the ideal device may print; or it stops in a shot that fails, the earlier shots being
complete, with the message as the last line of what that shot prints (which is seen only if the recorder writes to
the standard output).  The ideal device runs the program `executed`, which differs from the given one only in the
direction of rotations about Y that meet a pending half-turn about X. -/
theorem C52_every_program (he : env.eps = 0) (toStdOut : Bool) (fs : List Func) (code : Func → Prog QCall QAns)
    (name : Option String) (f : Func) (n : ℕ) (s : Backend) (io : Io) (hb : ∃ m, bindFunctions fs = .ok m)
    (hf : chooseEntryPoint fs name = .ok f) (hp : f.params = 0) (hr : Ready toStdOut io)
    (samples : ∀ i, 0 ≤ s.sim.rng i ∧ s.sim.rng i < 1) (words : ∀ i, s.os i < Std.words)
    (hs : ∀ rng : ℕ → ℝ, (∀ i, 0 ≤ rng i ∧ rng i < 1) → Sensible fmt (code f) (Device.init rng)) :
    ∃ outs e, Shots fmt (fun rng p => ∃ os, p = executed env fmt (code f) (Backend.new rng os)) n s.sim.rng outs e ∧
      match e with
      | none => ∃ s' io', runModule (step env fmt) reinit toStdOut fs code name n s io = .ok (s', io') ∧
          seen toStdOut io' = seen toStdOut io ++ outs.flatMap (block f.attrs) ∧
          seen (!toStdOut) io' = seen (!toStdOut) io
      | some out => ∃ io',
          runModule (step env fmt) reinit toStdOut fs code name n s io = .error (.aborted, io') ∧
          seen toStdOut io' = seen toStdOut io ++ outs.flatMap (block f.attrs) ++
            utf8 "START\n" ++ f.attrs.flatMap metadataLine ++ (if io.recorder.useStdOut then out else []) ∧
          seen (!toStdOut) io' = seen (!toStdOut) io := by
  have h1 := session_exact he (code f) hs n s samples words
  have h2 := runShots_session (step env fmt) reinit toStdOut f hp (code f) n s io hr
  rw [runModule_eq hb hf]
  cases hi : session (step env fmt) reinit (code f) n s with
  | error r =>
    obtain ⟨outs, out⟩ := r
    simp only [hi] at h1 h2
    obtain ⟨io', e1, e2, _, e3⟩ := h2
    exact ⟨outs, some out, h1, io', e1, e2, e3⟩
  | ok r =>
    obtain ⟨outs, s'⟩ := r
    simp only [hi] at h1 h2
    obtain ⟨io', e1, _, _, e2, e3⟩ := h2
    exact ⟨outs, none, h1, s', io', e1, e2, e3⟩

/-! ### A case: a wrong turn and a draw -/

/-- Turn a qubit halfway about X, then about Y, roll a die and record it. -/
def die (θ : ℝ) : Prog QCall QAns :=
  .call (.gate (.rx Real.pi) 0) fun _ => .call (.gate (.ry θ) 0) fun _ => .call (.drawInt 1 6) fun
    | .int n => .call (.record (.int n none) (by intro b t e; cases e)) fun _ => .done
    | _ => .done

theorem die_sensible (θ : ℝ) (rng : ℕ → ℝ) : Sensible fmt (die θ) (Device.init rng) := by
  refine ⟨.inr ⟨rfl, le_refl _⟩, (by intro _ _ e; cases e), fun ψ a out δ φ h => ?_⟩
  obtain ⟨es, h1, h2⟩ := h
  cases h1
  refine ⟨.inl (by simp [Device.apply, Device.useAll, Device.use, Device.init]), (by intro _ _ e; cases e),
    fun ψ a out δ φ h => ⟨trivial, (by intro lo hi e; cases e; constructor <;> (unfold Std.IsI64; omega)), fun ψ' a' out' δ' φ' h' => ?_⟩⟩
  obtain ⟨n, -, -, rfl, -, -⟩ := h'
  exact ⟨trivial, (by intro _ _ e; cases e), fun _ _ _ _ _ _ => trivial⟩

/-- The code turns the qubit the other way. -/
theorem die_executed (he : env.eps = 0) (θ : ℝ) (rng : ℕ → ℝ) (os : ℕ → ℕ) :
    ∃ k, executed env fmt (die θ) (Backend.new rng os) =
      .call (.gate (.rx Real.pi) 0) fun _ => .call (.gate (.ry (-θ)) 0) k := by
  obtain ⟨s, h1, h2⟩ : ∃ s, qstep env fmt (.gate (.rx Real.pi) 0) (Backend.new rng os) = .ok (.unit, [], s) ∧
      PendingHalfTurn s.sim 0 := by
    have e : Sim.gateCall env 0 (.rx Real.pi) (ensure 0 (Backend.new rng os)).sim =
        .ok { (ensure 0 (Backend.new rng os)).sim with
          rxQ := addAngle env.eps (ensure 0 (Backend.new rng os)).sim.rxQ 0 Real.pi } := by
      simp [gateCall, rx, ensure, Backend.new, allocate, Sim.new, flushIf, IMap.containsKey_eq]
    refine ⟨_, by simp only [qstep, gate, act, e, lift, ok_bind, pure_ok, silent]; rfl, Real.pi, ?_, by simp⟩
    rw [ensure_rxQ 0 _ rfl, he]
    show (addAngle 0 (Sim.new rng).rxQ 0 Real.pi).get 0 = _
    rw [addAngle_get]
    simp [Sim.new]
  simp only [die, executed, h1]
  rw [show carriedOut s (.gate (.ry θ) 0) = .gate (.ry (-θ)) 0 from if_pos h2]
  exact ⟨_, rfl⟩

theorem die_prints (θ : ℝ) {s : Backend} {δ : Device} {out : Bytes} {e : Option Device}
    (h : Prints fmt (executed env fmt (die θ) s) δ out e) :
    e ≠ none ∧ ∃ n : ℤ, 1 ≤ n ∧ n ≤ 6 ∧ out = lines [.record (.int n none)] := by
  have last : ∀ {n : ℤ} {δ : Device} {out : Bytes} {s : Backend},
      (Prints fmt (executed env fmt (.call (.record (.int n none) (by intro b t e; cases e)) fun _ => .done) s) δ out e ∨
        Prints fmt (.call (.record (.int n none) (by intro b t e; cases e)) fun _ => .done) δ out e) →
      e ≠ none ∧ out = lines [.record (.int n none)] := by
    rintro n δ out s (h | h)
    all_goals
      rcases h with ⟨m, h, _⟩ | ⟨a, o, δ', o', ⟨es, h1, rfl⟩, h2, rfl⟩
      · cases h
      · cases h1
        obtain ⟨rfl, rfl⟩ := h2
        simp
  have draw : ∀ {δ : Device} {out : Bytes} {s : Backend},
      (Prints fmt (executed env fmt (.call (.drawInt 1 6) fun
        | .int n => .call (.record (.int n none) (by intro b t e; cases e)) fun _ => .done
        | _ => .done) s) δ out e ∨
      Prints fmt (.call (.drawInt 1 6) fun
        | .int n => .call (.record (.int n none) (by intro b t e; cases e)) fun _ => .done
        | _ => .done) δ out e) →
      e ≠ none ∧ ∃ n : ℤ, 1 ≤ n ∧ n ≤ 6 ∧ out = lines [.record (.int n none)] := by
    rintro δ out s (h | h)
    · rcases h with ⟨m, ⟨h, _⟩, _⟩ | ⟨a, o, δ', o', ⟨n, h3, h4, rfl, rfl, rfl⟩, h2, rfl⟩
      · exact absurd h (by decide)
      · dsimp only at h2
        split at h2
        · obtain ⟨h5, h6⟩ := last (.inl h2); exact ⟨h5, n, h3, h4, h6⟩
        · obtain ⟨h5, h6⟩ := last (s := s) (.inr h2); exact ⟨h5, n, h3, h4, h6⟩
    · rcases h with ⟨m, ⟨h, _⟩, _⟩ | ⟨a, o, δ', o', ⟨n, h3, h4, rfl, rfl, rfl⟩, h2, rfl⟩
      · exact absurd h (by decide)
      · obtain ⟨h5, h6⟩ := last (s := s) (.inr h2); exact ⟨h5, n, h3, h4, h6⟩
  have turn : ∀ {δ : Device} {out : Bytes} {c : QCall} {k : QAns → Prog QCall QAns},
      (∃ θ, c = .gate (.ry θ) 0 ∨ c = .gate (.rx θ) 0) → Prints fmt (.call c k) δ out e →
      ∃ a δ', Prints fmt (k a) δ' out e := by
    rintro δ out c k ⟨θ, rfl | rfl⟩ h
    all_goals
      rcases h with ⟨m, h, _⟩ | ⟨a, o, δ', o', ⟨es, h1, rfl⟩, h2, rfl⟩
      · cases h
      · cases h1; exact ⟨_, _, h2⟩
  have two : ∀ s, ∃ θ', carriedOut s (.gate (.ry θ) 0) = .gate (.ry θ') 0 ∨
      carriedOut s (.gate (.ry θ) 0) = .gate (.rx θ') 0 := by
    intro s; unfold carriedOut; dsimp only; split <;> exact ⟨_, .inl rfl⟩
  obtain ⟨a, δ1, h1⟩ := turn ⟨_, .inr rfl⟩ h
  dsimp only at h1
  split at h1
  · rename_i s1 _
    obtain ⟨a2, δ2, h2⟩ := turn (two s1) h1
    dsimp only at h2
    split at h2
    · exact draw (.inl h2)
    · exact draw (s := s) (.inr h2)
  · obtain ⟨a2, δ2, h2⟩ := turn ⟨_, .inl rfl⟩ h1
    exact draw (s := s) (.inr h2)

/-- The module of the die. -/
def dieModule : List Func := [⟨"main", 0, 1, [("entry_point", "")]⟩,
  ⟨"__quantum__qis__rx__body", 2, 0, []⟩, ⟨"__quantum__qis__ry__body", 2, 0, []⟩,
  ⟨"__quantum__qis__drawrandomint__body", 2, 0, []⟩, ⟨"__quantum__rt__int_record_output", 2, 0, []⟩]

theorem dieModule_binds : ∃ m, bindFunctions dieModule = .ok m := by
  have : (bindFunctions dieModule).isOk = true := by decide +kernel
  cases h : bindFunctions dieModule with
  | ok m => exact ⟨m, rfl⟩
  | error e => rw [h] at this; cases this

/-- A case meeting the hypotheses of `C52_every_program`: the die prints one number from 1 to 6 per shot, although
the qubit has meanwhile been turned the wrong way (`die_executed`). -/
theorem die_transcript (he : env.eps = 0) (θ : ℝ) (n : ℕ) (s : Backend) (io : Io) (hr : Ready true io)
    (samples : ∀ i, 0 ≤ s.sim.rng i ∧ s.sim.rng i < 1) (words : ∀ i, s.os i < Std.words) :
    ∃ (s' : Backend) (io' : Io) (ks : List ℤ), ks.length = n ∧ (∀ k ∈ ks, 1 ≤ k ∧ k ≤ 6) ∧
      runModule (step env fmt) reinit true dieModule (fun _ => die θ) none n s io = .ok (s', io') ∧
      io'.stdout = io.stdout ++ ks.flatMap fun k => block [("entry_point", "")] (lines [.record (.int k none)]) := by
  obtain ⟨outs, e, h1, h2⟩ := C52_every_program (fmt := fmt) he true dieModule (fun _ => die θ) none _ n s io
    dieModule_binds rfl rfl hr samples words (fun rng _ => die_sensible θ rng)
  have : ∀ (n : ℕ) (rng : ℕ → ℝ) (outs : List Bytes) (e : Option Bytes),
      Shots fmt (fun rng p => ∃ os, p = executed env fmt (die θ) (Backend.new rng os)) n rng outs e →
      e = none ∧ ∃ ks : List ℤ, ks.length = n ∧ (∀ k ∈ ks, 1 ≤ k ∧ k ≤ 6) ∧
        outs = ks.map fun k => lines [.record (.int k none)] := by
    intro n
    induction n with
    | zero => rintro rng outs e ⟨rfl, rfl⟩; exact ⟨rfl, [], rfl, by simp, rfl⟩
    | succ n ih =>
      rintro rng outs e (⟨p, out, ⟨os, rfl⟩, h1, _⟩ | ⟨p, out, δ, outs', ⟨os, rfl⟩, h1, h2, rfl⟩)
      · exact absurd rfl (die_prints θ h1).1
      · obtain ⟨-, k, hk1, hk2, rfl⟩ := die_prints θ h1
        obtain ⟨rfl, ks, h3, h4, rfl⟩ := ih _ _ _ h2
        refine ⟨rfl, k :: ks, by simp [h3], ?_, rfl⟩
        intro j hj
        rcases List.mem_cons.1 hj with rfl | hj
        · exact ⟨hk1, hk2⟩
        · exact h4 j hj
  obtain ⟨rfl, ks, h3, h4, rfl⟩ := this _ _ _ _ h1
  obtain ⟨s', io', h5, h6, -⟩ := h2
  refine ⟨s', io', ks, h3, h4, h5, ?_⟩
  simp only [seen, if_true, List.flatMap_map] at h6
  exact h6

end Qir.Back
