import Verif.Proof.Backend4
import Verif.Proof.Examples

/-! Reachable states of the backend, and lists of calls. -/

noncomputable section
namespace Qir.Back
open Spec Function Sim Qir.Out

variable {env : Env} {fmt : Fmt} {s s' : Backend} {δ : Device} {L : Finset ℕ} {ψ : Wave}

theorem QRef.shows (he : env.eps = 0) (h : QRef s δ) : ∃ w : ℂ, ‖w‖ = 1 ∧ Shows env s.sim δ.live (w • δ.psi) := by
  have hs := h.sim.shows he
  obtain ⟨w, hw, e⟩ := h.sim.psi
  rw [e] at hs
  exact ⟨w, hw, hs⟩

theorem QRef.device_eq (h : QRef s δ) : s.device δ.live δ.psi = δ := by
  have e1 : s.reg = δ.reg := funext h.reg
  have e2 := h.touched
  have e3 : s.sim.rng = δ.rng := h.sim.rng
  unfold Backend.device
  rw [h.high, e3, e1, e2, Bool.not_not]

/-- What is reported about a backend determines the device state it stands for. -/
theorem QRef.rel (he : env.eps = 0) (h : QRef s δ) (hs : Shows env s.sim L ψ) : QRef s (s.device L ψ) := by
  obtain ⟨e1, e2⟩ := h.sim.exact.shows_eq he hs
  have e1' : L = δ.live := e1
  subst e1' e2
  exact ⟨h.sim.exact, rfl, by intro q hq; have := h.low q hq; rw [← h.high] at this; exact this, fun _ => rfl, by simp [Backend.device]⟩

theorem valid_device (h : QRef s δ) (hs : Shows env s.sim L ψ) (he : env.eps = 0) (c : QCall) :
    (s.device L ψ).Valid c ↔ δ.Valid c := by
  obtain ⟨e1, _⟩ := h.sim.exact.shows_eq he hs
  have e1' : L = δ.live := e1
  have hu : ∀ q, (s.device L ψ).Usable q ↔ δ.Usable q := by
    intro q; unfold Device.Usable Backend.device
    rw [e1', h.high]
  cases c <;> simp only [Device.Valid, hu]
  simp only [Backend.device, e1']

theorem QReach.ref (he : env.eps = 0) (h : QReach env fmt s) : ∃ δ, QRef s δ := by
  induction h with
  | new hr os => exact ⟨_, qref_new hr os⟩
  | step _ hs hv hq ih =>
    obtain ⟨δ, hδ⟩ := ih
    rcases qref_any (fmt := fmt) he (hδ.rel he hs) hv with ⟨a, out, s', _, _, δ', ψ', e, _, h'⟩ | ⟨m, e⟩
    · rw [hq] at e; cases e; exact ⟨_, h'⟩
    · rw [hq] at e; cases e

theorem QReach.shows (he : env.eps = 0) (h : QReach env fmt s) : ∃ L ψ, Shows env s.sim L ψ := by
  obtain ⟨δ, hδ⟩ := h.ref he
  obtain ⟨w, _, hs⟩ := hδ.shows he
  exact ⟨_, _, hs⟩

theorem QReach.rel (he : env.eps = 0) (h : QReach env fmt s) (hs : Shows env s.sim L ψ) :
    QRef s (s.device L ψ) := by
  obtain ⟨δ, hδ⟩ := h.ref he
  exact hδ.rel he hs

/-- A valid call in a reachable state. -/
theorem QReach.next (he : env.eps = 0) (h : QReach env fmt s) (hs : Shows env s.sim L ψ) {c : QCall}
    (hv : (s.device L ψ).Valid c) (hd : c.Determined) (hok : QCallOk s c) {a : QAns} {es : List Event} {δ' : Device}
    (hc : (s.device L ψ).step c = .ok (a, es, δ')) :
    ∃ (s' : Backend) (w : ℂ), qstep env fmt c s = .ok (a, lines es, s') ∧ QReach env fmt s' ∧ ‖w‖ = 1 ∧
      Shows env s'.sim δ'.live (w • δ'.psi) ∧ s'.device δ'.live δ'.psi = δ' ∧ QRef s' δ' := by
  obtain ⟨s', e, h'⟩ := (qref_step (fmt := fmt) he (h.rel he hs) hv hd hok).1 a es δ' hc
  obtain ⟨w, hw, hs'⟩ := h'.shows he
  exact ⟨s', w, e, .step h hs hv e, hw, hs', h'.device_eq, h'⟩

theorem QReach.of_ref (he : env.eps = 0) (h : QReach env fmt s) (hδ : QRef s δ) {c : QCall} (hv : δ.Valid c)
    {a : QAns} {out : Bytes} (hq : qstep env fmt c s = .ok (a, out, s')) : QReach env fmt s' := by
  obtain ⟨w, _, hs⟩ := hδ.shows he
  exact .step h hs ((valid_device hδ hs he c).2 hv) hq

/-! ### Lists of calls -/

/-- The calls of the list are determined, and none of them is a rotation about Y that turns the other way. -/
def RunOkQ (env : Env) (fmt : Fmt) : Backend → List QCall → Prop
  | _, [] => True
  | s, c :: cs => c.Determined ∧ QCallOk s c ∧ ∀ a out s', qstep env fmt c s = .ok (a, out, s') → RunOkQ env fmt s' cs

/-- No uncontrolled rotation about Y. -/
def NoY : QCall → Prop
  | .gate (.ry _) _ | .r .Y _ _ | .rAdj .Y _ _ => False
  | _ => True

theorem NoY.ok {c : QCall} (h : NoY c) (s : Backend) : QCallOk s c := by
  unfold NoY at h
  unfold QCallOk
  split at h <;> first | exact h.elim | skip
  split <;> first | trivial | simp_all

theorem runOkQ_of {cs : List QCall} (h : ∀ c ∈ cs, c.Determined ∧ NoY c) (s : Backend) : RunOkQ env fmt s cs := by
  induction cs generalizing s with
  | nil => trivial
  | cons c cs ih =>
    exact ⟨(h c (by simp)).1, (h c (by simp)).2.ok s, fun _ _ s' _ => ih (fun d hd => h d (by simp [hd])) s'⟩

theorem lines_append (a b : List Event) : lines (a ++ b) = lines a ++ lines b := by simp [lines]

theorem qref_run (he : env.eps = 0) (cs : List QCall) : ∀ {s : Backend} {δ : Device}, QRef s δ → δ.ValidRun cs →
    RunOkQ env fmt s cs →
    (∀ as es δ', δ.run cs = .ok (as, es, δ') → ∃ s', runQ env fmt cs s = .ok (as, lines es, s') ∧ QRef s' δ' ∧
      (QReach env fmt s → QReach env fmt s')) ∧
    (∀ m, δ.run cs = .error m → runQ env fmt cs s = .error (.fail m)) := by
  induction cs with
  | nil =>
    intro s δ h _ _
    refine ⟨fun as es δ' e => ?_, fun m e => by cases e⟩
    cases e
    exact ⟨s, rfl, h, id⟩
  | cons c cs ih =>
    intro s δ h hv hok
    have hs := qref_step (fmt := fmt) he h hv.1 hok.1 hok.2.1
    cases hc : δ.step c with
    | error m =>
      refine ⟨fun as es δ' e => ?_, fun m' e => ?_⟩
      · simp only [Device.run, hc, error_bind] at e; cases e
      · simp only [Device.run, hc, error_bind] at e
        cases e
        simp only [runQ, hs.2 m hc, error_bind]
    | ok r =>
      obtain ⟨a, es1, δ1⟩ := r
      obtain ⟨s1, e1, h1⟩ := hs.1 a es1 δ1 hc
      have := ih h1 (hv.2 a es1 δ1 hc) (hok.2.2 _ _ _ e1)
      refine ⟨fun as es δ' e => ?_, fun m' e => ?_⟩
      · cases hr : δ1.run cs with
        | error m => simp only [Device.run, hc, ok_bind, hr, error_bind] at e; cases e
        | ok r =>
          obtain ⟨as2, es2, δ2⟩ := r
          simp only [Device.run, hc, ok_bind, hr, pure_ok, Except.ok.injEq, Prod.mk.injEq] at e
          obtain ⟨rfl, rfl, rfl⟩ := e
          obtain ⟨s2, e2, h2, h3⟩ := this.1 _ _ _ hr
          exact ⟨s2, by simp only [runQ, e1, e2, ok_bind, pure_ok, lines_append], h2,
            fun hr => h3 (hr.of_ref he h hv.1 e1)⟩
      · cases hr : δ1.run cs with
        | error m =>
          simp only [Device.run, hc, ok_bind, hr, error_bind, Except.error.injEq] at e
          subst e
          simp only [runQ, e1, this.2 m hr, ok_bind, error_bind]
        | ok r => simp only [Device.run, hc, ok_bind, hr, pure_ok] at e; cases e

/-! ### A concrete state -/

theorem use_zero (rng : ℕ → ℝ) : (Device.init rng).use 0 = { Device.init rng with live := {0}, high := 1 } := by
  unfold Device.use Device.init
  rw [if_neg (by simp)]
  rfl

/-- The Bell pair of a program that numbers its qubits itself. -/
def bellQ : List QCall := [.gate .h 0, .ctl .x [0] 1]

def bellDevice (rng : ℕ → ℝ) : Device := ⟨{0, 1}, 2, bellState, rng, fun _ => false, false⟩

theorem bellQ_run (rng : ℕ → ℝ) : (Device.init rng).run bellQ = .ok ([.unit, .unit], [], bellDevice rng) := by
  have hb := congrArg Ideal.psi (bell_run rng)
  unfold bellCalls Ideal.run at hb
  simp only [List.foldl_cons, List.foldl_nil, bell_live] at hb
  simp only [Ideal.step] at hb
  simp only [bellQ, Device.run, Device.step, ok_bind, pure_ok, List.append_nil]
  unfold bellDevice
  rw [← hb]
  simp [Device.apply, Device.useAll, use_zero, Device.use, Device.init]
  decide

theorem bellQ_valid (rng : ℕ → ℝ) : (Device.init rng).ValidRun bellQ := by
  refine ⟨.inr ⟨rfl, le_refl _⟩, fun a es δ' e => ⟨⟨by decide, ?_⟩, fun _ _ _ _ => trivial⟩⟩
  simp only [Device.step, Except.ok.injEq, Prod.mk.injEq] at e
  obtain ⟨_, _, rfl⟩ := e
  intro i hi
  unfold Device.Usable Device.apply Device.useAll
  simp only [List.foldl_cons, List.foldl_nil, use_zero]
  simp only [List.cons_append, List.nil_append, List.mem_cons, List.not_mem_nil, or_false] at hi
  rcases hi with rfl | rfl
  · simp
  · right; exact ⟨rfl, le_refl _⟩

theorem bellQ_reach (he : env.eps = 0) (fmt : Fmt) {rng : ℕ → ℝ} (hr : ∀ n, 0 ≤ rng n ∧ rng n < 1) (os : ℕ → ℕ) :
    ∃ s, runQ env fmt bellQ (Backend.new rng os) = .ok ([.unit, .unit], [], s) ∧ QReach env fmt s ∧
      QRef s (bellDevice rng) := by
  obtain ⟨s, e, h1, h2⟩ := (qref_run (fmt := fmt) he bellQ (qref_new hr os) (bellQ_valid rng)
    (runOkQ_of (by simp [bellQ, QCall.Determined, NoY]) _)).1 _ _ _ (bellQ_run rng)
  exact ⟨s, e, h2 (.new hr os), h1⟩

end Qir.Back
