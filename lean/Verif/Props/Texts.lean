import Verif.Props.Session
import Verif.Proof.Strings

/-!
# Results and qubits as text, and the snapshot of the state (C71, C72)
-/

noncomputable section
namespace Qir.Back
open Spec Sim Qir.Out

variable {env : Env} {fmt : Fmt} {s s' : Backend} {L : Finset ℕ} {ψ : Wave}

/-! ## C71: texts of results and qubits

Full claim (false, see `C71_counterexample`): the text of a result says what was measured, be it handed out by `m` or
`measure` or a register that `mz` has written.  What is missing: for a register, `__quantum__rt__result_to_string` and
`__quantum__rt__result_equal` look at its number, not at its value. -/

/-- The word for a measured value. -/
def outcomeWord (v : Bool) : String := if v then "One" else "Zero"

theorem text_pointer (v : Bool) : String.ofList (resultToString (if v then 1 else 0)) = outcomeWord v ∧
    ∀ b, resultEqual (if v then 1 else 0) (resultPtr b) = true ↔ v = b := by
  cases v
  · exact ⟨by decide, fun b => by cases b <;> decide⟩
  · exact ⟨by decide, fun b => by cases b <;> decide⟩

/-- **C71.** The text of what `m` hands out is `One` exactly if the next sample is below the probability of one, else
`Zero`; it equals the constant for a value exactly if that value was measured. -/
theorem C71_m_partial (he : env.eps = 0) (hq : QReach env fmt s) (hs : Shows env s.sim L ψ) {q : ℕ}
    (hu : (s.device L ψ).Usable q) :
    ∃ (v : Bool) (p : ℕ) (s' : Backend), (v = true ↔ s.sim.rng 0 < pauliProb [(.Z, q)] true ψ) ∧
      qstep env fmt (.m q) s = .ok (.ptr p, [], s') ∧ String.ofList (resultToString p) = outcomeWord v ∧
      ∀ b, resultEqual p (resultPtr b) = true ↔ v = b := by
  obtain ⟨s', w, e, -⟩ := hq.next he hs (c := .m q) hu trivial trivial rfl
  exact ⟨(s.device L ψ).outcome [(.Z, q)], _, s', ⟨fun h => of_decide_eq_true h, fun h => decide_eq_true h⟩, e,
    text_pointer _⟩

/-- **C71.** The same for what `measure` hands out. -/
theorem C71_measure_partial (he : env.eps = 0) (hq : QReach env fmt s) (hs : Shows env s.sim L ψ) {ps : List Pauli}
    {qs : List ℕ} (hlen : ps.length = qs.length) (hn : ((support ps qs).map Prod.snd).Nodup)
    (hu : ∀ q ∈ (support ps qs).map Prod.snd, (s.device L ψ).Usable q) :
    ∃ (v : Bool) (p : ℕ) (s' : Backend), (v = true ↔ s.sim.rng 0 < pauliProb (support ps qs) true ψ) ∧
      qstep env fmt (.measure ps qs) s = .ok (.ptr p, [], s') ∧ String.ofList (resultToString p) = outcomeWord v ∧
      ∀ b, resultEqual p (resultPtr b) = true ↔ v = b := by
  obtain ⟨v, s', w, h1, h2, -⟩ := C29_measure he hq hs hlen hn hu
  exact ⟨v, _, s', h1, h2, text_pointer _⟩

/-- **C71.** Two results handed out by `m` or `measure` are equal exactly if their texts are. -/
theorem C71_equal {p p' : ℕ} (h : p = 0 ∨ p = 1) (h' : p' = 0 ∨ p' = 1) :
    resultEqual p p' = true ↔ resultToString p = resultToString p' := by
  rcases h with rfl | rfl <;> rcases h' with rfl | rfl <;> decide

/-- **C71.** The text of a register says its value exactly if the value is that of the register with the same number
among the constants: one for register 1, zero for every other. -/
theorem C71_register (s : Backend) (r : ℕ) : String.ofList (resultToString r) = outcomeWord (s.reg r) ↔ (s.reg r = true ↔ r = 1) := by
  have h : String.ofList (resultToString r) = outcomeWord (decide (r = 1)) := by
    by_cases h1 : r = 1
    · subst h1; decide
    · simp only [resultToString, resultEqual, resultPtr, if_true, h1, decide_false]
      decide
  rw [h]
  cases s.reg r <;> by_cases h1 : r = 1 <;> simp [outcomeWord, h1]

/-- The full claim of **C71** is false: a program flips qubit 0 and measures it into register 0; the register reads
one and its text is `Zero`. -/
theorem C71_counterexample (he : env.eps = 0) {rng : ℕ → ℝ} (hr : ∀ n, 0 ≤ rng n ∧ rng n < 1) (os : ℕ → ℕ) :
    ∃ s s', runQ env fmt [.gate .x 0, .mz 0 0] (Backend.new rng os) = .ok ([.unit, .unit], [], s) ∧
      qstep env fmt (.readResult 0) s = .ok (.bit true, [], s') ∧ String.ofList (resultToString 0) = "Zero" := by
  classical
  have hp : pauliProb [(.Z, 0)] true (Spec.ctrl [] matX 0 (ket zeroBasis)) = 1 := by
    rw [pauliProb_Z, prob_flip]
    unfold prob
    rw [finsum_eq_single _ zeroBasis (fun b hb => by simp [ket, hb])]
    simp [ket, parity, zeroBasis]
  have hv : (Device.init rng).ValidRun [.gate .x 0, .mz 0 0] := by
    refine ⟨.inr ⟨rfl, le_refl _⟩, fun a es δ' e => ⟨.inl ?_, fun _ _ _ _ => trivial⟩⟩
    simp only [Device.step, Except.ok.injEq, Prod.mk.injEq] at e
    obtain ⟨_, _, rfl⟩ := e
    simp [Device.apply, Device.useAll, use_zero]
  obtain ⟨s, e, h, -⟩ := (qref_run (fmt := fmt) he [.gate .x 0, .mz 0 0] (qref_new hr os) hv
    (runOkQ_of (by simp [QCall.Determined, NoY]) _)).1 _ _ _ rfl
  have ho : s.reg 0 = true := by
    rw [h.reg]
    simp only [Device.store, Function.update_self]
    show decide (rng 0 < pauliProb [(.Z, 0)] true (Spec.ctrl [] matX 0 (ket zeroBasis))) = true
    rw [hp]
    exact decide_eq_true (hr 0).2
  obtain ⟨s', e', -⟩ := C25_read (env := env) (fmt := fmt) 0 s
  rw [ho] at e'
  exact ⟨s, s', e, e', by decide⟩

/-- **C71.** The text of a qubit is the decimal notation of its number. -/
theorem C71_qubit (q : ℕ) : Std.Digits (qubitToString q) q := Std.digits_spec q

/-- **C71.** Different qubits have different texts. -/
theorem C71_qubit_injective {q q' : ℕ} (h : qubitToString q = qubitToString q') : q = q' := by
  have h1 := (C71_qubit q).2.2.2
  rw [h, (C71_qubit q').2.2.2] at h1
  exact h1.symm

example : qubitToString 120 = ['1', '2', '0'] := by decide

/-! ## C72: the snapshot of the state

Full claim (false, see `C72_counterexample`): `C72_capture_partial` without `RunOkQ`.  What is missing: a rotation about Y that
turns the wrong way (C01) leaves another state, and a snapshot taken before it prevents that. -/

/-- A backend whose state has been captured stands for the same device. -/
theorem capture_ref (he : env.eps = 0) {δ : Device} (h : QRef s δ) :
    ∃ (w : ℂ) (l : List (ℕ × ℂ)) (s' : Backend), ‖w‖ = 1 ∧ captureQuantumState env s = .ok ((l, δ.live.card), s') ∧
      Lists (δ.live.sort (· ≤ ·)) (w • δ.psi) l ∧ QRef s' δ := by
  obtain ⟨d, o, m, h1, h2, h3, h4⟩ := refine_call he h.sim (c := .getState) trivial
  cases h2
  obtain ⟨w, l, hw, hl, rfl⟩ := h3
  have e : Sim.getState env s.sim = .ok ((l, δ.live.card), m) := by
    cases hm : Sim.getState env s.sim with
    | error e => simp [call, hm] at h1
    | ok r =>
      obtain ⟨⟨l', n⟩, m'⟩ := r
      simp only [call, hm, ok_bind, pure_ok, Except.ok.injEq, Prod.mk.injEq, Out.state.injEq] at h1
      obtain ⟨⟨rfl, rfl⟩, rfl⟩ := h1
      rfl
  exact ⟨w, l, { s with sim := m }, hw, by simp only [captureQuantumState, ask, e, lift, ok_bind, pure_ok], hl,
    ⟨h4, h.high, h.low, h.reg, h.touched⟩⟩

/-- **C72.** After any list of calls that avoids the wrong turn of **C01**, `capture_quantum_state` hands out the number
of qubits in use and the state vector of the ideal device, up to a global phase, in increasing order, bit `i` of an index
being the value of the `i`-th smallest qubit in use.  Later calls are answered as if the snapshot had not been taken. -/
theorem C72_capture_partial (he : env.eps = 0) {rng : ℕ → ℝ} (hr : ∀ n, 0 ≤ rng n ∧ rng n < 1) (os : ℕ → ℕ)
    {cs : List QCall} (hv : (Device.init rng).ValidRun cs) (hok : RunOkQ env fmt (Backend.new rng os) cs)
    {as : List QAns} {es : List Event} {δ : Device} (hd : (Device.init rng).run cs = .ok (as, es, δ)) :
    ∃ (s s' : Backend) (w : ℂ) (l : List (ℕ × ℂ)), runQ env fmt cs (Backend.new rng os) = .ok (as, lines es, s) ∧
      captureQuantumState env s = .ok ((l, δ.live.card), s') ∧ ‖w‖ = 1 ∧ Lists (δ.live.sort (· ≤ ·)) (w • δ.psi) l ∧
      ∀ later, δ.ValidRun later → RunOkQ env fmt s later → RunOkQ env fmt s' later →
        (runQ env fmt later s').map (fun r => (r.1, r.2.1)) = (runQ env fmt later s).map (fun r => (r.1, r.2.1)) := by
  obtain ⟨s, e, h, -⟩ := (qref_run (fmt := fmt) he cs (qref_new hr os) hv hok).1 as es δ hd
  obtain ⟨w, l, s', hw, hc, hl, h'⟩ := capture_ref he h
  refine ⟨s, s', w, l, e, hc, hw, hl, fun later hv' ho ho' => ?_⟩
  have g := qref_run (fmt := fmt) he later h hv' ho
  have g' := qref_run (fmt := fmt) he later h' hv' ho'
  cases hm : δ.run later with
  | error m => rw [g.2 m hm, g'.2 m hm]
  | ok r =>
    obtain ⟨as', es', δ'⟩ := r
    obtain ⟨t, e1, -⟩ := g.1 _ _ _ hm
    obtain ⟨t', e2, -⟩ := g'.1 _ _ _ hm
    rw [e1, e2]; rfl

/-- **C72** in every state a program can reach, relative to the other observations: the amplitudes handed out are those
that give the probabilities of all measurements, the device stands for the same state afterwards, and a second snapshot
shows it again. -/
theorem C72_consistent (he : env.eps = 0) (hq : QReach env fmt s) (hs : Shows env s.sim L ψ) :
    ∃ (l : List (ℕ × ℂ)) (s' : Backend), captureQuantumState env s = .ok ((l, L.card), s') ∧
      Lists (L.sort (· ≤ ·)) ψ l ∧ QRef s' (s.device L ψ) ∧
      ∃ (w : ℂ) (l' : List (ℕ × ℂ)) (s'' : Backend), ‖w‖ = 1 ∧ captureQuantumState env s' = .ok ((l', L.card), s'') ∧
        Lists (L.sort (· ≤ ·)) (w • ψ) l' := by
  obtain ⟨l, m, e, hl⟩ := hs.reported
  obtain ⟨w, l', s', hw, hc, -, h'⟩ := capture_ref he (hq.rel he hs)
  have e1 : captureQuantumState env s = .ok ((l, L.card), { s with sim := m }) := by
    simp only [captureQuantumState, ask, e, lift, ok_bind, pure_ok]
  obtain ⟨⟨rfl, -⟩, rfl⟩ : (l = l' ∧ _) ∧ { s with sim := m } = s' := by
    rw [e1] at hc
    simpa only [Except.ok.injEq, Prod.mk.injEq] using hc
  obtain ⟨w', l'', s'', hw', hc', hl', -⟩ := capture_ref he h'
  exact ⟨l, _, e1, hl, h', w', l'', s'', hw', hc', hl'⟩

/-- Nothing waits in the queues after a snapshot. -/
theorem capture_no_rx (he : env.eps = 0) {δ : Device} (h : QRef s δ) {r : List (ℕ × ℂ) × ℕ}
    (hc : captureQuantumState env s = .ok (r, s')) (q : ℕ) : ¬ PendingHalfTurn s'.sim q := by
  obtain ⟨a, t2, ha1, ha2, hw2, hq2, -⟩ := arrange_spec he h.sim.wf
  have hget : s.sim.getState env = .ok ((sortState t2.state, s.sim.idMap.keys.length), t2) := by
    simp only [getState, show s.sim.idMap.iter.map Prod.fst = s.sim.idMap.keys from rfl, ha1, ha2, ok_bind, pure_ok]
  simp only [captureQuantumState, ask, hget, lift, ok_bind, pure_ok, Except.ok.injEq, Prod.mk.injEq] at hc
  obtain ⟨-, rfl⟩ := hc
  have := hq2.none q
  rw [hasQueued_eq] at this
  simp only [Bool.or_eq_false_iff, Option.isSome_eq_false_iff, Option.isNone_iff_eq_none] at this
  rintro ⟨b, hb, -⟩
  rw [this.1.2] at hb
  cases hb

/-- The full claim of **C72** is false: after a half-turn about X, a snapshot changes what a later measurement finds from
zero to one, whatever the samples are. -/
theorem C72_counterexample (he : env.eps = 0) {rng : ℕ → ℝ} (hr : ∀ n, 0 ≤ rng n ∧ rng n < 1) (os : ℕ → ℕ) :
    ∃ s s' r t t', runQ env fmt [.r .X Real.pi 0] (Backend.new rng os) = .ok ([.unit], [], s) ∧
      captureQuantumState env s = .ok (r, s') ∧
      runQ env fmt [.r .Y (Real.pi / 2) 0, .gate .h 0, .m 0] s = .ok ([.unit, .unit, .ptr 0], [], t) ∧
      runQ env fmt [.r .Y (Real.pi / 2) 0, .gate .h 0, .m 0] s' = .ok ([.unit, .unit, .ptr 1], [], t') := by
  obtain ⟨hp, t, hrun, -⟩ := C31_counterexample (fmt := fmt) he hr os
  have h0 : ∀ U, (Device.init rng).apply [0] U = turned rng (U (ket zeroBasis)) := by
    intro U
    unfold Device.apply Device.useAll
    simp only [List.foldl_cons, List.foldl_nil, use_zero]
    rfl
  have h1 : ∀ φ U, (turned rng φ).apply [0] U = turned rng (U φ) := by
    intro φ U
    unfold Device.apply Device.useAll Device.use turned
    simp
  have hlive : ∀ φ, (turned rng φ).Usable 0 := fun φ => .inl (by simp [turned])
  obtain ⟨s, e, h⟩ := (qref_step (fmt := fmt) he (qref_new hr os) (c := .r .X Real.pi 0)
    (.inr (.inr ⟨rfl, le_refl _⟩)) trivial trivial).1 _ _ _ rfl
  simp only [reduceCtorEq, if_false, h0] at h
  obtain ⟨w, l, s', -, hc, -, h'⟩ := capture_ref he h
  obtain ⟨s2, e2, g2⟩ := (qref_step (fmt := fmt) he h' (c := .r .Y (Real.pi / 2) 0) (.inr (hlive _)) trivial
    (capture_no_rx he h hc 0)).1 _ _ _ rfl
  simp only [reduceCtorEq, if_false, h1] at g2
  obtain ⟨s3, e3, g3⟩ := (qref_step (fmt := fmt) he g2 (c := .gate .h 0) (hlive _) trivial trivial).1 _ _ _ rfl
  rw [h1] at g3
  obtain ⟨s4, e4, -⟩ := (qref_step (fmt := fmt) he g3 (c := .m 0) (hlive _) trivial trivial).1 _ _ _ rfl
  have ho : ∀ φ, prob [0] true φ = 1 → (turned rng φ).outcome [(.Z, 0)] = true := by
    intro φ h
    show decide (rng 0 < pauliProb [(.Z, 0)] true φ) = true
    rw [pauliProb_Z, h]
    exact decide_eq_true (hr 0).2
  rw [show Gate.h.mat = matH from rfl, ho _ hp] at e4
  refine ⟨s, s', _, t, s4, by simp only [runQ, e, ok_bind, pure_ok]; rfl, hc, ?_, ?_⟩
  · rw [runQ, e, ok_bind] at hrun
    cases hk : runQ env fmt [.r .Y (Real.pi / 2) 0, .gate .h 0, .m 0] s with
    | error e => simp [hk] at hrun
    | ok x =>
      obtain ⟨as, out, t1⟩ := x
      simp only [hk, ok_bind, pure_ok, Except.ok.injEq, Prod.mk.injEq, List.cons.injEq, true_and] at hrun
      obtain ⟨rfl, h2, rfl⟩ := hrun
      rw [(List.append_eq_nil_iff.1 h2).2]
  · simp only [runQ, e2, e3, e4, ok_bind, pure_ok]
    rfl

/-- A case meeting the hypotheses: a Bell pair, of which two qubits are reported. -/
example (he : env.eps = 0) : ∃ (s s' : Backend) (l : List (ℕ × ℂ)),
    runQ env fmt bellQ (Backend.new (fun _ => 0) fun _ => 0) = .ok ([.unit, .unit], [], s) ∧
      captureQuantumState env s = .ok ((l, 2), s') := by
  obtain ⟨s, s', w, l, h1, h2, -⟩ := C72_capture_partial (fmt := fmt) he (rng := fun _ => 0) (by simp) (fun _ => 0)
    (bellQ_valid _) (runOkQ_of (by simp [bellQ, QCall.Determined, NoY]) _) (bellQ_run _)
  exact ⟨s, s', l, h1, h2⟩

end Qir.Back
