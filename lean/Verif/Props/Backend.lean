import Verif.Proof.BackReach
import Verif.Proof.BackFrame
import Verif.Props.Circuit

/-!
# The backend: qubits on demand, result registers, measurements, composite gates (C24, C25, C26, C28–C31, C47)

`Shows env s.sim L ψ` says that the qubits in use are `L` and that `get_state` would report `ψ`; `QReach` are the
states a program can reach by valid calls.  All theorems that speak of `ψ` hold up to a global phase `w`.
-/

noncomputable section
namespace Qir.Back
open Spec Sim Qir.Out

variable {env : Env} {fmt : Fmt} {s s' : Backend} {L : Finset ℕ} {ψ : Wave}

/-! ## C24: static qubit identifiers are allocated on demand -/

theorem use_range {δ : Device} (h : δ.live = Finset.range δ.high) (q : ℕ) :
    (δ.use q).live = Finset.range (δ.use q).high ∧ (δ.use q).high = max δ.high (q + 1) := by
  unfold Device.use
  split
  · exact ⟨h, by omega⟩
  · exact ⟨rfl, by simp only; omega⟩

theorem useAll_range (qs : List ℕ) : ∀ {δ : Device}, δ.live = Finset.range δ.high →
    (δ.useAll qs).live = Finset.range (δ.useAll qs).high ∧
      (δ.useAll qs).high = qs.foldl (fun n q => max n (q + 1)) δ.high := by
  induction qs with
  | nil => intro δ h; exact ⟨h, rfl⟩
  | cons q qs ih =>
    intro δ h
    obtain ⟨h1, h2⟩ := use_range h q
    have := ih h1
    rw [useAll_cons, List.foldl_cons, ← h2]
    exact this

theorem usable_range {δ : Device} (h : δ.live = Finset.range δ.high) (q : ℕ) : δ.Usable q := by
  unfold Device.Usable
  rw [h, Finset.mem_range]
  rcases lt_or_ge q δ.high with h' | h'
  · exact .inl h'
  · exact .inr ⟨rfl, h'⟩

theorem static_valid {δ : Device} (h : δ.live = Finset.range δ.high) {c : QCall} (hs : c.Static)
    (hd : c.Distinct) : δ.Valid c := by
  have hu := usable_range h
  cases c <;> simp only [Device.Valid, hu, QCall.Distinct, QCall.Static] at * <;> simp_all

theorem static_step {δ δ' : Device} (h : δ.live = Finset.range δ.high) {c : QCall} (hs : c.Static) {a : QAns}
    {es : List Event} (hc : δ.step c = .ok (a, es, δ')) :
    δ'.live = Finset.range δ'.high ∧ δ'.high = c.demand δ.high := by
  have hu := fun qs => useAll_range qs h
  have h1 := fun q => use_range h q
  cases c <;> simp only [Device.step, QCall.Static] at hc hs
  case measure ps qs =>
    split at hc <;> cases hc
    exact hu _
  case assertProb ps qs _ _ _ _ =>
    split at hc <;> first | cases hc; done | skip
    split at hc <;> cases hc
    exact hu _
  all_goals first
    | (cases hc; exact hu _)
    | (cases hc; exact hu [_])
    | (cases hc; exact h1 _)
    | (cases hc; exact ⟨h, rfl⟩)
    | (cases hc; exact ⟨rfl, rfl⟩)
    | (cases hc; done)

/-- In a program that does not allocate dynamically, every call with distinct operands can be executed, whatever
the order in which qubits are first mentioned: it ends neither in a panic of the simulator nor in
`unimplemented!`, and the qubits in use afterwards are exactly those up to the largest number mentioned (since
the last `initialize`). -/
theorem C24_on_demand (he : env.eps = 0) {rng : ℕ → ℝ} (hr : ∀ n, 0 ≤ rng n ∧ rng n < 1) (os : ℕ → ℕ)
    {cs : List QCall} (hcs : ∀ c ∈ cs, c.Static ∧ c.Distinct) :
    (∃ as out s ψ, runQ env fmt cs (Backend.new rng os) = .ok (as, out, s) ∧ QReach env fmt s ∧
      s.max = cs.foldl QCall.demand 0 ∧ Shows env s.sim (Finset.range (cs.foldl QCall.demand 0)) ψ) ∨
    ∃ m, runQ env fmt cs (Backend.new rng os) = .error (.fail m) := by
  have key : ∀ (cs : List QCall) (s : Backend) (δ : Device), (∀ c ∈ cs, c.Static ∧ c.Distinct) → QRef s δ →
      QReach env fmt s → δ.live = Finset.range δ.high →
      (∃ as out s' δ', runQ env fmt cs s = .ok (as, out, s') ∧ QReach env fmt s' ∧ QRef s' δ' ∧
        δ'.live = Finset.range δ'.high ∧ δ'.high = cs.foldl QCall.demand δ.high) ∨
      ∃ m, runQ env fmt cs s = .error (.fail m) := by
    intro cs
    induction cs with
    | nil => intro s δ _ h hq hl; exact .inl ⟨[], [], s, δ, rfl, hq, h, hl, rfl⟩
    | cons c cs ih =>
      intro s δ hcs h hq hl
      obtain ⟨hc1, hc2⟩ := hcs c (by simp)
      have hv := static_valid hl hc1 hc2
      rcases qref_any (fmt := fmt) he h hv with ⟨a, out, s1, a', es, δ1, ψ1, e1, hd, h1⟩ | ⟨m, e⟩
      · obtain ⟨hl1, hh1⟩ := static_step hl hc1 hd
        rcases ih s1 _ (fun d hd => hcs d (by simp [hd])) h1 (hq.of_ref he h hv e1) hl1 with
          ⟨as, out2, s2, δ2, e2, q2, h2, l2, i2⟩ | ⟨m, e2⟩
        · refine .inl ⟨a :: as, out ++ out2, s2, δ2, by simp only [runQ, e1, e2, ok_bind, pure_ok], q2, h2, l2, ?_⟩
          rw [i2, List.foldl_cons, ← hh1]
        · exact .inr ⟨m, by simp only [runQ, e1, e2, ok_bind, error_bind]⟩
      · exact .inr ⟨m, by simp only [runQ, e, error_bind]⟩
  rcases key cs _ _ hcs (qref_new hr os) (.new hr os) rfl with ⟨as, out, s', δ', e, hq, h, hl, hh⟩ | hm
  · obtain ⟨w, _, hsh⟩ := h.shows he
    have hh' : δ'.high = cs.foldl QCall.demand 0 := hh
    rw [hl, hh'] at hsh
    exact .inl ⟨as, out, s', _, e, hq, by rw [h.high, hh'], hsh⟩
  · exact .inr hm

/-- Using 5, then 2, then measuring 7 in a pair with 3: 8 qubits. -/
example : [QCall.gate .h 5, .ctl .x [5] 2, .measure [.X, .I, .Z] [7, 11, 3]].foldl QCall.demand 0 = 8 ∧
    ∀ c ∈ [QCall.gate .h 5, .ctl .x [5] 2, .measure [.X, .I, .Z] [7, 11, 3]], c.Static ∧ c.Distinct := by
  constructor
  · decide
  · simp [QCall.Static, QCall.Distinct, support]

/-- The first use of a qubit finds it in the zero state, and changes nothing else: `qubit_is_zero` and the
measurement `m` answer zero. -/
theorem C24_first_use (he : env.eps = 0) (hq : QReach env fmt s) (hs : Shows env s.sim (Finset.range s.max) ψ)
    {n : ℕ} (hn : s.max ≤ n) :
    ∃ (s1 s2 : Backend) (w1 w2 : ℂ), qstep env fmt (.isZero n) s = .ok (.bit true, [], s1) ∧ ‖w1‖ = 1 ∧
      Shows env s1.sim (Finset.range (n + 1)) (w1 • ψ) ∧
      qstep env fmt (.m n) s = .ok (.ptr 0, [], s2) ∧ ‖w2‖ = 1 ∧
      Shows env s2.sim (Finset.range (n + 1)) (w2 • ψ) := by
  have hv : (s.device (Finset.range s.max) ψ).Usable n := usable_range rfl n
  have hr := hq.rel he hs
  have hz : ∀ b, ψ b ≠ 0 → b n = false := fun b hb => hs.confined b hb n (by simp; omega)
  have hp : prob [n] true ψ = 0 := by
    unfold prob
    apply finsum_eq_zero_of_forall_eq_zero
    intro b
    by_cases hb : ψ b = 0
    · simp [hb]
    · simp [parity, hz b hb]
  have hp' : pauliProb [(.Z, n)] true ψ = 0 := by
    rw [show [(Pauli.Z, n)] = allZ [n] from rfl, pauliProb_allZ, hp]
  have hu : (Device.use n (s.device (Finset.range s.max) ψ)) = { s.device (Finset.range s.max) ψ with
      live := Finset.range (n + 1), high := n + 1 } := by
    unfold Device.use
    rw [if_neg (by simp [Backend.device]; omega)]
  have ho : (s.device (Finset.range s.max) ψ).outcome [(.Z, n)] = false := by
    unfold Device.outcome
    rw [show (s.device (Finset.range s.max) ψ).psi = ψ from rfl, hp', decide_eq_false_iff_not, not_lt]
    exact (hr.sim.good.samples 0).1
  have hf : pauliPost [(.Z, n)] false ψ = ψ := by
    rw [show [(Pauli.Z, n)] = allZ [n] from rfl, pauliPost_allZ]
    have hadd := prob_add hr.sim.good.fin [n]
    have hn1 : Spec.normSq ψ = 1 := hr.sim.good.norm
    have h1 : prob [n] false ψ = 1 := by
      have : prob [n] true ψ + prob [n] false ψ = Spec.normSq ψ := hadd
      rw [hp, hn1] at this; linarith
    funext b
    unfold postMeasure
    rw [h1]
    by_cases hb : ψ b = 0
    · simp [proj, hb]
    · simp [proj, parity, hz b hb]
  obtain ⟨s1, w1, e1, _, hw1, hs1, _⟩ := hq.next he hs (c := .isZero n) hv trivial trivial rfl
  obtain ⟨s2, w2, e2, _, hw2, hs2, _⟩ := hq.next he hs (c := .m n) hv trivial trivial rfl
  refine ⟨s1, s2, w1, w2, ?_, hw1, ?_, ?_, hw2, ?_⟩
  · rw [e1]
    have : decide (pauliProb [(Pauli.Z, n)] true (s.device (Finset.range s.max) ψ).psi = 0) = true := by
      rw [show (s.device (Finset.range s.max) ψ).psi = ψ from rfl]; simp [hp']
    simp only [this]; rfl
  · rw [hu] at hs1; exact hs1
  · rw [e2, ho]; rfl
  · unfold Device.observed at hs2
    rw [show List.map Prod.snd [(Pauli.Z, n)] = [n] from rfl, ho,
      show (s.device (Finset.range s.max) ψ).psi = ψ from rfl, hf] at hs2
    have : (Device.useAll [n] (s.device (Finset.range s.max) ψ)) = Device.use n (s.device (Finset.range s.max) ψ) := rfl
    rw [this, hu] at hs2
    exact hs2

/-- A number always denotes the same qubit: a (controlled) gate acts on the qubits with the given numbers, whether
they are already in use or not. -/
theorem C24_same_qubit (he : env.eps = 0) (hq : QReach env fmt s) (hs : Shows env s.sim (Finset.range s.max) ψ)
    (g : Gate) (cs : List ℕ) (q : ℕ) (hn : (cs ++ [q]).Nodup) :
    ∃ (s' : Backend) (w : ℂ), qstep env fmt (.ctl g cs q) s = .ok (.unit, [], s') ∧ ‖w‖ = 1 ∧
      s'.max = (q :: cs).foldl (fun n i => max n (i + 1)) s.max ∧
      Shows env s'.sim (Finset.range s'.max) (w • Spec.ctrl cs g.mat q ψ) := by
  obtain ⟨s', w, e, _, hw, hs', hd, _⟩ := hq.next he hs (c := .ctl g cs q)
    (static_valid (δ := s.device (Finset.range s.max) ψ) (c := .ctl g cs q) rfl trivial hn) trivial trivial rfl
  obtain ⟨h1, h2⟩ := useAll_range (q :: cs) (δ := s.device (Finset.range s.max) ψ) rfl
  have hm : s'.max = (Device.useAll (q :: cs) (s.device (Finset.range s.max) ψ)).high := congrArg Device.high hd
  refine ⟨s', w, e, hw, by rw [hm, h2]; rfl, ?_⟩
  rw [hm]
  have h3 : (Device.apply (q :: cs) (Spec.ctrl cs g.mat q) (s.device (Finset.range s.max) ψ)).live =
      Finset.range (Device.useAll (q :: cs) (s.device (Finset.range s.max) ψ)).high := h1
  rw [h3] at hs'
  exact hs'

/-- Reachable states of this kind exist: a Bell pair. -/
example (he : env.eps = 0) : ∃ (s : Backend) (w : ℂ), QReach env fmt s ∧ ‖w‖ = 1 ∧ s.max = 2 ∧
    Shows env s.sim (Finset.range s.max) (w • bellState) := by
  obtain ⟨s, _, h1, h2⟩ := bellQ_reach he fmt (rng := fun _ => 0) (by simp) (fun _ => 0)
  obtain ⟨w, hw, hs⟩ := h2.shows he
  have hm : s.max = 2 := h2.high
  refine ⟨s, w, h1, hw, hm, ?_⟩
  rw [hm]; exact hs

/-! ## C25: result registers

These hold in every state and for every threshold, not only in reachable states. -/

/-- Reading a register gives its value and changes none. -/
theorem C25_read (r : ℕ) (s : Backend) : ∃ s', qstep env fmt (.readResult r) s = .ok (.bit (s.reg r), [], s') ∧
    ∀ i, s'.reg i = s.reg i := by
  refine ⟨{ s with res := grow r s.res }, ?_, grow_getD r s.res⟩
  simp only [qstep, readResult, grow_get?, ok_bind, pure_ok]; rfl

/-- A call that does not store to register `i` leaves it as it is. -/
theorem C25_independent {c : QCall} (hc : c ≠ .reinit) {i : ℕ} (hi : c.stores ≠ some i) {a : QAns} {out : Bytes}
    (h : qstep env fmt c s = .ok (a, out, s')) : s'.reg i = s.reg i := qstep_reg h hc i hi

/-- Storing a value by hand. -/
theorem C25_write (v : Bool) (r : ℕ) (s : Backend) :
    ∃ s', qstep env fmt (.writeResult v r) s = .ok (.unit, [], s') ∧ s'.reg r = v := by
  refine ⟨_, rfl, ?_⟩
  simp only [writeResult, Backend.reg, set_getD (grow_length r _), if_true]

/-- `mz` stores what `m` would have answered. -/
theorem C25_mz {q r : ℕ} {a : QAns} {out : Bytes} (h : qstep env fmt (.mz q r) s = .ok (a, out, s')) :
    ∃ s1, qstep env fmt (.m q) s = .ok (.ptr (if s'.reg r then 1 else 0), [], s1) := by
  have h := (silent_inv h).1
  rw [mz_m] at h
  cases hm : m env q s with
  | error e => rw [hm] at h; cases h
  | ok p =>
    obtain ⟨n, s1⟩ := p
    have hn : n = 0 ∨ n = 1 := by
      simp only [m] at hm
      cases hk : ask (Sim.measure env q) (ensure q s) with
      | error e => rw [hk] at hm; cases hm
      | ok p =>
        rw [hk] at hm
        simp only [ok_bind, pure_ok, Except.ok.injEq, Prod.mk.injEq] at hm
        rw [← hm.1]
        cases p.1 <;> simp [resultPtr]
    rw [hm] at h
    simp only [Except.map, Except.ok.injEq] at h
    refine ⟨s1, ?_⟩
    simp only [qstep, hm, ok_bind, pure_ok, Except.ok.injEq, Prod.mk.injEq, and_true, QAns.ptr.injEq]
    rw [← h]
    simp only [Backend.reg, set_getD (grow_length r _), if_true]
    rcases hn with rfl | rfl <;> simp

/-- Registers are zero at the start of the process and after `initialize`. -/
theorem C25_default (rng : ℕ → ℝ) (os : ℕ → ℕ) (s : Backend) (i : ℕ) :
    (Backend.new rng os).reg i = false ∧
      ∃ s', qstep env fmt .reinit s = .ok (.unit, [], s') ∧ s'.reg i = false := ⟨rfl, _, rfl, rfl⟩

/-- The value of a register survives every list of calls that do not store to it. -/
theorem C25_kept {cs : List QCall} {i : ℕ} (hcs : ∀ c ∈ cs, c ≠ .reinit ∧ c.stores ≠ some i) {as : List QAns}
    {out : Bytes} (h : runQ env fmt cs s = .ok (as, out, s')) : s'.reg i = s.reg i := by
  induction cs generalizing s as out with
  | nil => cases h; rfl
  | cons c cs ih =>
    simp only [runQ] at h
    cases hc : qstep env fmt c s with
    | error e => rw [hc] at h; cases h
    | ok r =>
      obtain ⟨a, o, s1⟩ := r
      simp only [hc, ok_bind] at h
      cases hr : runQ env fmt cs s1 with
      | error e => rw [hr] at h; cases h
      | ok r =>
        obtain ⟨as', o', s2⟩ := r
        simp only [hr, ok_bind, pure_ok, Except.ok.injEq, Prod.mk.injEq] at h
        obtain ⟨_, _, rfl⟩ := h
        rw [ih (fun d hd => hcs d (by simp [hd])) hr]
        exact C25_independent (hcs c (by simp)).1 (hcs c (by simp)).2 hc

/-- A store, then calls that store elsewhere, then a read: the value stored; without a store, zero. -/
theorem C25_latest {v : Bool} {r : ℕ} {cs : List QCall} (hcs : ∀ c ∈ cs, c ≠ .reinit ∧ c.stores ≠ some r)
    {as : List QAns} {out : Bytes} :
    (runQ env fmt (.writeResult v r :: cs) s = .ok (as, out, s') →
      ∃ s'', qstep env fmt (.readResult r) s' = .ok (.bit v, [], s'')) ∧
    (runQ env fmt (.reinit :: cs) s = .ok (as, out, s') →
      ∃ s'', qstep env fmt (.readResult r) s' = .ok (.bit false, [], s'')) := by
  have key : ∀ {c : QCall} {s1 : Backend}, qstep env fmt c s = .ok (.unit, [], s1) →
      runQ env fmt (c :: cs) s = .ok (as, out, s') →
      ∃ s'', qstep env fmt (.readResult r) s' = .ok (.bit (s1.reg r), [], s'') := by
    intro c s1 hc h
    simp only [runQ, hc, ok_bind] at h
    cases hr : runQ env fmt cs s1 with
    | error e => rw [hr] at h; cases h
    | ok p =>
      obtain ⟨as', o', s2⟩ := p
      simp only [hr, ok_bind, pure_ok, Except.ok.injEq, Prod.mk.injEq] at h
      obtain ⟨_, _, rfl⟩ := h
      obtain ⟨s'', e, _⟩ := C25_read (env := env) (fmt := fmt) r s2
      rw [C25_kept hcs hr] at e
      exact ⟨s'', e⟩
  obtain ⟨s1, e1, h1⟩ := C25_write (env := env) (fmt := fmt) v r s
  obtain ⟨_, s2, e2, h2⟩ := C25_default (env := env) (fmt := fmt) (fun _ => 0) (fun _ => 0) s r
  refine ⟨fun h => ?_, fun h => ?_⟩
  · have := key e1 h; rwa [h1] at this
  · have := key e2 h; rwa [h2] at this

/-- Registers 3 and 1 are written, 3 read. -/
example (rng : ℕ → ℝ) (os : ℕ → ℕ) : ∃ s', runQ env fmt [.writeResult true 3, .writeResult false 1, .readResult 3]
    (Backend.new rng os) = .ok ([.unit, .unit, .bit true], [], s') := ⟨_, rfl⟩

/-! ## C26: recorded results equal read results

Full claim (false, see `C26_counterexample`): the theorem below without `s.res ≠ [] ∨ r ≠ 1`.
What is missing: as long as no register has been used, the recording functions take the result pointer itself for
the value, so that result 1 is recorded as one although its register would be read as zero. -/

theorem C26_recorded_partial {r : ℕ} (hr : s.res ≠ [] ∨ r ≠ 1) (tag : Option Bytes) :
    ∃ s1 s2 s3, qstep env fmt (.readResult r) s = .ok (.bit (s.reg r), [], s1) ∧
      qstep env fmt (.recordResult r tag) s = .ok (.unit, Event.line (.record (.result (s.reg r) tag)), s2) ∧
      qstep env fmt (.legacyResult r) s = .ok (.unit, Event.line (.legacy (.result (s.reg r))), s3) := by
  obtain ⟨s1, e1, _⟩ := C25_read (env := env) (fmt := fmt) r s
  have key : ∃ s2, recordedResult r s = .ok (s.reg r, s2) := by
    unfold recordedResult
    split
    · rename_i he
      have hne : r ≠ 1 := by
        rcases hr with h | h
        · rw [List.isEmpty_iff] at he; exact absurd he h
        · exact h
      refine ⟨s, ?_⟩
      rw [List.isEmpty_iff] at he
      simp [resultEqual, resultPtr, hne, Backend.reg, he]
    · simp only [grow_get?]
      exact ⟨_, rfl⟩
  obtain ⟨s2, e2⟩ := key
  refine ⟨s1, s2, s2, e1, ?_, ?_⟩
  · simp only [qstep, e2, ok_bind, pure_ok]
    rw [show resultRecordOutput (s.reg r) tag = emit (.result (s.reg r) tag) from rfl, bytesOf_emit]
    rfl
  · simp only [qstep, e2, ok_bind, pure_ok, bytesOf_legacy]

/-- The condition is met as soon as any register has been used. -/
example {rng : ℕ → ℝ} (os : ℕ → ℕ) :
    ∃ a out s', qstep env fmt (.readResult 0) (Backend.new rng os) = .ok (a, out, s') ∧ s'.res ≠ [] :=
  ⟨_, _, _, rfl, by simp [grow, Backend.new]⟩

/-- Result 1 of a program that has not measured anything is recorded as one and read as zero. -/
theorem C26_counterexample (he : env.eps = 0) : ∃ s s1 s2, QReach env fmt s ∧
    qstep env fmt (.readResult 1) s = .ok (.bit false, [], s1) ∧
    qstep env fmt (.recordResult 1 none) s = .ok (.unit, Event.line (.record (.result true none)), s2) := by
  refine ⟨Backend.new (fun _ => 0) (fun _ => 0), _, Backend.new (fun _ => 0) (fun _ => 0), .new (by simp) _, rfl, ?_⟩
  simp only [qstep, recordedResult]
  rw [if_pos (show (Backend.new (fun _ => 0) fun _ => 0).res.isEmpty = true from rfl)]
  simp only [ok_bind, pure_ok]
  rw [show resultRecordOutput (resultEqual 1 (resultPtr true)) none = emit (.result true none) from rfl, bytesOf_emit]
  rfl

/-! ## C28: reset -/

theorem prob_flip (q : ℕ) (v : Bool) (φ : Wave) : prob [q] v (Spec.ctrl [] matX q φ) = prob [q] (!v) φ := by
  unfold prob
  have hinv : Function.Involutive (fun b : Basis => Function.update b q (!b q)) := by
    intro b; funext i; by_cases h : i = q
    · subst h; simp
    · simp [h]
  rw [← finsum_comp_equiv hinv.toPerm]
  apply finsum_congr
  intro b
  simp only [Function.Involutive.coe_toPerm]
  have hp : parity [q] (Function.update b q (!b q)) = !parity [q] b := by simp [parity]
  simp only [hp]
  have hX : Spec.ctrl [] matX q φ (Function.update b q (!b q)) = φ b := by
    have cb : b q = false ∨ b q = true := by cases b q <;> simp
    rcases cb with h | h
    · have e : Function.update b q false = b := by rw [← h]; simp
      simp [Spec.ctrl, matX, mat, h, e]
    · have e : Function.update b q true = b := by rw [← h]; simp
      simp [Spec.ctrl, matX, mat, h, e]
  rw [hX]
  generalize parity [q] b = y
  cases v <;> cases y <;> simp

theorem pauliProb_Z (q : ℕ) (v : Bool) (φ : Wave) : pauliProb [(.Z, q)] v φ = prob [q] v φ := by
  rw [show [(Pauli.Z, q)] = allZ [q] from rfl, pauliProb_allZ]

theorem cleared_zero {δ : Device} (h : QRef s δ) (q : ℕ) :
    prob [q] true ((δ.observed [(.Z, q)]).clear (δ.outcome [(.Z, q)]) q).psi = 0 := by
  have hp : 0 < prob [q] (δ.outcome [(.Z, q)]) δ.psi := by
    have := h.sim.good.outcome_pos [q]
    rw [← outcome_allZ] at this
    exact this
  have hpost : (δ.observed [(.Z, q)]).psi = postMeasure [q] (δ.outcome [(.Z, q)]) δ.psi := by
    show pauliPost (allZ [q]) _ _ = _
    rw [pauliPost_allZ]
  unfold Device.clear
  rw [hpost]
  cases ho : δ.outcome [(.Z, q)]
  · rw [ho] at hp
    simp only [Bool.false_eq_true, if_false]
    rw [prob_post hp]; simp
  · rw [ho] at hp
    simp only [if_true]
    rw [prob_flip, prob_post hp]; simp

/-- After `reset`, whatever the sample, the probability that the qubit is one is zero, and `qubit_is_zero` says
so. -/
theorem C28_reset (he : env.eps = 0) (hq : QReach env fmt s) (hs : Shows env s.sim L ψ) {q : ℕ}
    (hu : (s.device L ψ).Usable q) :
    ∃ (s' s'' : Backend) (L' : Finset ℕ) (ψ' : Wave), qstep env fmt (.reset q) s = .ok (.unit, [], s') ∧
      QReach env fmt s' ∧ Shows env s'.sim L' ψ' ∧ q ∈ L' ∧ prob [q] true ψ' = 0 ∧
      qstep env fmt (.isZero q) s' = .ok (.bit true, [], s'') := by
  obtain ⟨s', w, e, hq', hw, hs', _, hr'⟩ := hq.next he hs (c := .reset q) hu trivial trivial rfl
  have hz := cleared_zero (hq.rel he hs) q
  have hlow := (hq.rel he hs).low
  have hl : q ∈ (((s.device L ψ).observed [(.Z, q)]).clear ((s.device L ψ).outcome [(.Z, q)]) q).live :=
    mem_use hlow hu
  obtain ⟨s'', e''⟩ : ∃ s'', qstep env fmt (.isZero q) s' = .ok (.bit true, [], s'') := by
    have := (qref_step (fmt := fmt) he hr' (c := .isZero q) (.inl hl) trivial trivial).1 _ _ _ rfl
    obtain ⟨s'', e'', _⟩ := this
    refine ⟨s'', ?_⟩
    rw [e'']
    have : decide (pauliProb [(Pauli.Z, q)] true
        (((s.device L ψ).observed [(.Z, q)]).clear ((s.device L ψ).outcome [(.Z, q)]) q).psi = 0) = true := by
      rw [pauliProb_Z, hz]; simp
    simp only [this]; rfl
  refine ⟨s', s'', _, _, e, hq', hs', hl, ?_, e''⟩
  rw [prob_phase hw, hz]

/-- `mresetz` is `reset`, and stores what `m` would have answered; in every state. -/
theorem C28_mresetz {q r : ℕ} {a : QAns} {out : Bytes} (h : qstep env fmt (.mresetz q r) s = .ok (a, out, s')) :
    ∃ s1 s2, qstep env fmt (.m q) s = .ok (.ptr (if s'.reg r then 1 else 0), [], s1) ∧
      qstep env fmt (.reset q) s = .ok (.unit, [], s2) ∧ s'.sim = s2.sim ∧ s'.max = s2.max := by
  have h := (silent_inv h).1
  rw [mresetz_reset] at h
  cases hm : m env q s with
  | error e => rw [hm] at h; cases h
  | ok p =>
    obtain ⟨n, s1⟩ := p
    have hn : n = 0 ∨ n = 1 := by
      simp only [m] at hm
      cases hk : ask (Sim.measure env q) (ensure q s) with
      | error e => rw [hk] at hm; cases hm
      | ok p =>
        rw [hk] at hm
        simp only [ok_bind, pure_ok, Except.ok.injEq, Prod.mk.injEq] at hm
        rw [← hm.1]
        cases p.1 <;> simp [resultPtr]
    cases hx : reset env q s with
    | error e => simp only [hm, ok_bind, hx, error_bind] at h; cases h
    | ok s2 =>
      simp only [hm, ok_bind, hx, pure_ok, Except.ok.injEq] at h
      refine ⟨s1, s2, ?_, by simp only [qstep, hx]; rfl, by rw [← h], by rw [← h]⟩
      simp only [qstep, hm, ok_bind, pure_ok, Except.ok.injEq, Prod.mk.injEq, and_true, QAns.ptr.injEq]
      rw [← h]
      simp only [Backend.reg, set_getD (grow_length r _), if_true]
      rcases hn with rfl | rfl <;> simp

/-- And it succeeds on every usable qubit. -/
theorem C28_mresetz_runs (he : env.eps = 0) (hq : QReach env fmt s) (hs : Shows env s.sim L ψ) {q : ℕ}
    (hu : (s.device L ψ).Usable q) (r : ℕ) : ∃ s', qstep env fmt (.mresetz q r) s = .ok (.unit, [], s') := by
  obtain ⟨s', _, e, _⟩ := hq.next he hs (c := .mresetz q r) hu trivial trivial rfl
  exact ⟨s', e⟩

/-- Half of a Bell pair can be reset. -/
example (he : env.eps = 0) : ∃ s L ψ, QReach env fmt s ∧ Shows env s.sim L ψ ∧ prob [0] true ψ = 1 / 2 ∧
    (s.device L ψ).Usable 0 := by
  obtain ⟨s, _, h1, h2⟩ := bellQ_reach he fmt (rng := fun _ => 0) (by simp) (fun _ => 0)
  obtain ⟨w, hw, hs⟩ := h2.shows he
  exact ⟨s, _, _, h1, hs, prob_bell hw true, .inl (by simp [Backend.device, bellDevice])⟩

/-! ## C29: measurement of Pauli products -/

/-- The measurement answers one exactly if the next sample is below the probability of the eigenspace `-1` of
the Pauli product, and leaves the normalised projection of the state onto the eigenspace observed, in the original
basis.  The identity entries, and the qubits they belong to, are ignored. -/
theorem C29_measure (he : env.eps = 0) (hq : QReach env fmt s) (hs : Shows env s.sim L ψ) {ps : List Pauli}
    {qs : List ℕ} (hlen : ps.length = qs.length) (hn : ((support ps qs).map Prod.snd).Nodup)
    (hu : ∀ q ∈ (support ps qs).map Prod.snd, (s.device L ψ).Usable q) :
    ∃ (v : Bool) (s' : Backend) (w : ℂ), (v = true ↔ s.sim.rng 0 < pauliProb (support ps qs) true ψ) ∧
      qstep env fmt (.measure ps qs) s = .ok (.ptr (if v then 1 else 0), [], s') ∧ QReach env fmt s' ∧
      ‖w‖ = 1 ∧ 0 < pauliProb (support ps qs) v ψ ∧
      Shows env s'.sim ((s.device L ψ).useAll ((support ps qs).map Prod.snd)).live
        (w • pauliPost (support ps qs) v ψ) ∧
      ∀ n, s'.sim.rng n = s.sim.rng (n + 1) := by
  have hstep : (s.device L ψ).step (.measure ps qs) = .ok (.ptr (Device.pointer ((s.device L ψ).outcome (support ps qs))),
      [], (s.device L ψ).observed (support ps qs)) := by
    simp only [Device.step]; rw [if_pos hlen]
  obtain ⟨s', w, e, hq', hw, hs', hd, hr'⟩ := hq.next he hs (c := .measure ps qs) ⟨hn, hu⟩ trivial trivial hstep
  have hr := hq.rel he hs
  refine ⟨(s.device L ψ).outcome (support ps qs), s', w,
    ⟨fun h => of_decide_eq_true h, fun h => decide_eq_true h⟩, ?_, hq', hw, ?_, hs', ?_⟩
  · rw [e]; rfl
  · have hadd := pauliProb_add hr hn nonIdentity_ne
    have h0 : 0 ≤ pauliProb (support ps qs) true ψ ∧ 0 ≤ pauliProb (support ps qs) false ψ :=
      ⟨finsum_nonneg fun _ => Complex.normSq_nonneg _, finsum_nonneg fun _ => Complex.normSq_nonneg _⟩
    have hs0 := hr.sim.good.samples 0
    change 0 ≤ s.sim.rng 0 ∧ s.sim.rng 0 < 1 at hs0
    cases ho : (s.device L ψ).outcome (support ps qs)
    · have : ¬ s.sim.rng 0 < pauliProb (support ps qs) true ψ := of_decide_eq_false ho
      change pauliProb (support ps qs) true ψ + pauliProb (support ps qs) false ψ = 1 at hadd
      linarith [not_lt.1 this]
    · have : s.sim.rng 0 < pauliProb (support ps qs) true ψ := of_decide_eq_true ho
      linarith
  · intro n
    exact congrFun (congrArg Device.rng hd) n

/-- Operand lists of different lengths end the program with a message. -/
theorem C29_size {ps : List Pauli} {qs : List ℕ} (hlen : ps.length ≠ qs.length) (s : Backend) :
    qstep env fmt (.measure ps qs) s =
      .error (.fail "Pauli array and Qubit array must be the same size.".toList) := by
  simp only [qstep, measure_size hlen, error_bind]; rfl

/-- X on one half of a Bell pair together with Z on the other; the identity on an unused qubit. -/
example (he : env.eps = 0) : ∃ s L ψ, QReach env fmt s ∧ Shows env s.sim L ψ ∧
    ((support [.X, .I, .Z] [0, 9, 1]).map Prod.snd).Nodup ∧
    ∀ q ∈ (support [.X, .I, .Z] [0, 9, 1]).map Prod.snd, (s.device L ψ).Usable q := by
  obtain ⟨s, _, h1, h2⟩ := bellQ_reach he fmt (rng := fun _ => 0) (by simp) (fun _ => 0)
  obtain ⟨w, hw, hs⟩ := h2.shows he
  refine ⟨s, _, _, h1, hs, by decide, fun q hq => .inl ?_⟩
  simp [support] at hq
  simp [Backend.device, bellDevice]
  exact hq

/-! ## C30: composite gates -/

/-- `rxx`, `ryy` and `rzz` are `exp(-iθ/2 P⊗P)`. -/
theorem C30_two_qubit_rotations (he : env.eps = 0) (hq : QReach env fmt s) (hs : Shows env s.sim L ψ) (θ : ℝ)
    {a b : ℕ} (hab : a ≠ b) (ha : (s.device L ψ).Usable a) (hb : (s.device L ψ).Usable b) (c : QCall) (P : Pauli)
    (hc : c = .rxx θ a b ∧ P = .X ∨ c = .ryy θ a b ∧ P = .Y ∨ c = .rzz θ a b ∧ P = .Z) :
    ∃ (s' : Backend) (w : ℂ), qstep env fmt c s = .ok (.unit, [], s') ∧ QReach env fmt s' ∧ ‖w‖ = 1 ∧
      Shows env s'.sim ((s.device L ψ).useAll [a, b]).live (w • fun x =>
        Real.cos (θ / 2) * ψ x - Complex.I * Real.sin (θ / 2) * pauliString [(P, a), (P, b)] ψ x) := by
  have hform : ∀ P : Pauli, ctrlExp [] [(P, a), (P, b)] (-(θ / 2)) ψ = fun x =>
      Real.cos (θ / 2) * ψ x - Complex.I * Real.sin (θ / 2) * pauliString [(P, a), (P, b)] ψ x := by
    intro P; funext x
    simp only [ctrlExp, List.not_mem_nil, false_implies, implies_true, if_true, Real.cos_neg, Real.sin_neg]
    push_cast; ring
  have key : ∀ {c : QCall} {P : Pauli}, (s.device L ψ).Valid c → c.Determined → QCallOk s c →
      (s.device L ψ).step c = .ok (.unit, [], (s.device L ψ).apply [a, b] (ctrlExp [] [(P, a), (P, b)] (-(θ / 2)))) →
      ∃ (s' : Backend) (w : ℂ), qstep env fmt c s = .ok (.unit, [], s') ∧ QReach env fmt s' ∧ ‖w‖ = 1 ∧
      Shows env s'.sim ((s.device L ψ).useAll [a, b]).live (w • fun x =>
        Real.cos (θ / 2) * ψ x - Complex.I * Real.sin (θ / 2) * pauliString [(P, a), (P, b)] ψ x) := by
    intro c P hv hd hok hc
    obtain ⟨s', w, e, hq', hw, hs', _⟩ := hq.next he hs hv hd hok hc
    refine ⟨s', w, e, hq', hw, ?_⟩
    rw [← hform]
    exact hs'
  rcases hc with ⟨rfl, rfl⟩ | ⟨rfl, rfl⟩ | ⟨rfl, rfl⟩
  all_goals exact key ⟨hab, ha, hb⟩ trivial trivial rfl

/-- `sx` is the gate with matrix `matSx`, ... -/
theorem C30_sx (he : env.eps = 0) (hq : QReach env fmt s) (hs : Shows env s.sim L ψ) {q : ℕ}
    (hu : (s.device L ψ).Usable q) :
    ∃ (s' : Backend) (w : ℂ), qstep env fmt (.sx q) s = .ok (.unit, [], s') ∧ QReach env fmt s' ∧ ‖w‖ = 1 ∧
      Shows env s'.sim ((s.device L ψ).use q).live (w • Spec.ctrl [] matSx q ψ) := by
  obtain ⟨s', w, e, hq', hw, hs', _⟩ := hq.next he hs (c := .sx q) hu trivial trivial rfl
  exact ⟨s', w, e, hq', hw, hs'⟩

/-- ... whose square is X: two `sx` are one `x`. -/
theorem C30_sx_squared (he : env.eps = 0) (hq : QReach env fmt s) (hs : Shows env s.sim L ψ) {q : ℕ}
    (hu : (s.device L ψ).Usable q) : matSx * matSx = matX ∧
    ∃ (s' : Backend) (w : ℂ), runQ env fmt [.sx q, .sx q] s = .ok ([.unit, .unit], [], s') ∧ ‖w‖ = 1 ∧
      Shows env s'.sim ((s.device L ψ).use q).live (w • Spec.ctrl [] matX q ψ) := by
  refine ⟨Sx_Sx, ?_⟩
  have hr := hq.rel he hs
  obtain ⟨s1, e1, h1⟩ := (qref_step (fmt := fmt) he hr (c := .sx q) hu trivial trivial).1 _ _ _ rfl
  have hm : q ∈ (Device.apply [q] (Spec.ctrl [] matSx q) (s.device L ψ)).live := mem_use hr.low hu
  obtain ⟨s2, e2, h2⟩ := (qref_step (fmt := fmt) he h1 (c := .sx q) (.inl hm) trivial trivial).1 _ _ _ rfl
  obtain ⟨w, hw, hs2⟩ := h2.shows he
  refine ⟨s2, w, by simp only [runQ, e1, e2, ok_bind, pure_ok]; rfl, hw, ?_⟩
  have hlive : (Device.apply [q] (Spec.ctrl [] matSx q) (Device.apply [q] (Spec.ctrl [] matSx q) (s.device L ψ))).live =
      ((s.device L ψ).use q).live := by
    have hlt := h1.low q hm
    show (Device.use q _).live = _
    unfold Device.use
    rw [if_pos hlt]
    rfl
  have hpsi : (Device.apply [q] (Spec.ctrl [] matSx q) (Device.apply [q] (Spec.ctrl [] matSx q) (s.device L ψ))).psi =
      Spec.ctrl [] matX q ψ := by
    show Spec.ctrl [] matSx q (Spec.ctrl [] matSx q ψ) = _
    have := gateL_mul q matSx matSx
    rw [← Sx_Sx]
    exact LinearMap.congr_fun this ψ
  rw [hlive, hpsi] at hs2
  exact hs2

/-! ## C31: the generic rotation

Full claim (false, see `C31_counterexample`): the theorems below without `QCallOk`.
What is missing: the uncontrolled rotation about Y has the defect of `ry` (C01). -/

theorem ctrlExp_form (cs : List ℕ) (P : Pauli) (q : ℕ) (θ : ℝ) (φ : Wave) : ctrlExp cs [(P, q)] (-(θ / 2)) φ =
    fun x => if ∀ c ∈ cs, x c = true then
      Real.cos (θ / 2) * φ x - Complex.I * Real.sin (θ / 2) * pauliString [(P, q)] φ x else φ x := by
  funext x
  simp only [ctrlExp, Real.cos_neg, Real.sin_neg]
  split
  · push_cast; ring
  · rfl

/-- `r` is `exp(-iθ/2 P)`. -/
theorem C31_r_partial (he : env.eps = 0) (hq : QReach env fmt s) (hs : Shows env s.sim L ψ) (P : Pauli) (θ : ℝ)
    {q : ℕ} (hu : P = .I ∨ (s.device L ψ).Usable q) (hok : P = .Y → ¬ PendingHalfTurn s.sim q) :
    ∃ (s' : Backend) (w : ℂ), qstep env fmt (.r P θ q) s = .ok (.unit, [], s') ∧ QReach env fmt s' ∧ ‖w‖ = 1 ∧
      Shows env s'.sim ((s.device L ψ).useAll (if P = .I then [] else [q])).live (w • fun x =>
        Real.cos (θ / 2) * ψ x - Complex.I * Real.sin (θ / 2) * pauliString [(P, q)] ψ x) := by
  obtain ⟨s', w, e, hq', hw, hs', _⟩ := hq.next he hs (c := .r P θ q) hu trivial
    (by cases P <;> first | exact hok rfl | trivial) rfl
  refine ⟨s', w, e, hq', hw, ?_⟩
  have := ctrlExp_form [] P q θ ψ
  simp only [List.not_mem_nil, false_implies, implies_true, if_true] at this
  rw [← this]
  exact hs'

/-- `r__ctl` is the same under controls, with the relative phase also for the identity. -/
theorem C31_rCtl (he : env.eps = 0) (hq : QReach env fmt s) (hs : Shows env s.sim L ψ) (cs : List ℕ) (P : Pauli)
    (θ : ℝ) {q : ℕ} (hn : (cs ++ [q]).Nodup) (hu : ∀ i ∈ cs ++ [q], (s.device L ψ).Usable i) :
    ∃ (s' : Backend) (w : ℂ), qstep env fmt (.rCtl cs P θ q) s = .ok (.unit, [], s') ∧ QReach env fmt s' ∧ ‖w‖ = 1 ∧
      Shows env s'.sim ((s.device L ψ).useAll (if P = .I ∧ cs = [] then [] else q :: cs)).live (w • fun x =>
        if ∀ c ∈ cs, x c = true then
          Real.cos (θ / 2) * ψ x - Complex.I * Real.sin (θ / 2) * pauliString [(P, q)] ψ x else ψ x) := by
  obtain ⟨s', w, e, hq', hw, hs', _⟩ := hq.next he hs (c := .rCtl cs P θ q) ⟨hn, hu⟩ trivial trivial rfl
  refine ⟨s', w, e, hq', hw, ?_⟩
  rw [← ctrlExp_form]
  exact hs'

/-- The adjoint versions are the rotations by the opposite angle; in every state. -/
theorem C31_adjoint (cs : List ℕ) (P : Pauli) (θ : ℝ) (q : ℕ) (s : Backend) :
    qstep env fmt (.rAdj P θ q) s = qstep env fmt (.r P (-θ) q) s ∧
      qstep env fmt (.rCtlAdj cs P θ q) s = qstep env fmt (.rCtl cs P (-θ) q) s := ⟨rfl, rfl⟩

/-- `cos β + i sin β P`. -/
def expMat (P : Pauli) (β : ℝ) : Mat2 :=
  Matrix.of fun r k => Real.cos β * (1 : Mat2) r k + Complex.I * Real.sin β * P.mat r k

theorem ctrlExp_cancel {cs : List ℕ} {P : Pauli} {q : ℕ} (hq : q ∉ cs) (α : ℝ) (φ : Wave) :
    ctrlExp cs [(P, q)] (-α) (ctrlExp cs [(P, q)] α φ) = φ := by
  have hm : ∀ β : ℝ, ctrlExp cs [(P, q)] β = ctrlL cs (expMat P β) q :=
    fun β => (ctrlExp_single cs P q β _ fun _ _ => rfl).symm
  rw [hm, hm, ← Module.End.mul_apply, ctrlL_mul hq]
  have h1 : expMat P (-α) * expMat P α = 1 := by
    have hsc : (Complex.cos α) * Complex.cos α + Complex.sin α * Complex.sin α = 1 := by
      have := Complex.sin_sq_add_cos_sq α
      linear_combination this
    ext r k
    rw [Matrix.mul_apply, Fintype.sum_bool]
    simp only [expMat, Matrix.of_apply, mat_one]
    cases P <;> cases r <;> cases k <;>
      simp [Pauli.mat, matX, matY, matZ, mat, mat_one] <;> ring_nf <;>
      simp only [Complex.I_sq, Complex.I_pow_four] <;> first | ring1 | linear_combination hsc
  rw [h1, ctrlL_one]
  rfl

/-- Together with the above: a rotation and its adjoint cancel, with or without controls. -/
theorem C31_inverse (he : env.eps = 0) (hq : QReach env fmt s) (hs : Shows env s.sim L ψ) (cs : List ℕ)
    (P : Pauli) (θ : ℝ) {q : ℕ} (hn : (cs ++ [q]).Nodup) (hu : ∀ i ∈ cs ++ [q], i ∈ L) :
    ∃ (s' : Backend) (w : ℂ), runQ env fmt [.rCtl cs P θ q, .rCtlAdj cs P θ q] s = .ok ([.unit, .unit], [], s') ∧
      ‖w‖ = 1 ∧ Shows env s'.sim L (w • ψ) := by
  have hr := hq.rel he hs
  have hqc : q ∉ cs := by
    intro h
    have := List.nodup_append.1 hn
    exact this.2.2 q h q (by simp) rfl
  have hap : ∀ φ U, Device.apply (if P = .I ∧ cs = [] then [] else q :: cs) U (s.device L φ) = s.device L (U φ) := by
    intro φ U
    have hl : ∀ i ∈ (if P = Pauli.I ∧ cs = [] then [] else q :: cs), i ∈ (s.device L φ).live := by
      intro i hi
      split at hi
      · cases hi
      · exact hu i (by simp only [List.mem_cons, List.mem_append, List.not_mem_nil, or_false] at hi ⊢; tauto)
    unfold Device.apply
    rw [apply_live _ hl (show ∀ q ∈ (s.device L φ).live, q < (s.device L φ).high from hr.low)]
    rfl
  obtain ⟨s1, e1, h1⟩ := (qref_step (fmt := fmt) he hr (c := .rCtl cs P θ q) ⟨hn, fun i hi => .inl (hu i hi)⟩
    trivial trivial).1 _ _ _ rfl
  rw [hap] at h1
  obtain ⟨s2, e2, h2⟩ := (qref_step (fmt := fmt) he h1 (c := .rCtlAdj cs P θ q) ⟨hn, fun i hi => .inl (hu i hi)⟩
    trivial trivial).1 _ _ _ rfl
  rw [hap] at h2
  have hc := ctrlExp_cancel (P := P) hqc (-(θ / 2)) ψ
  rw [neg_neg] at hc
  rw [hc] at h2
  obtain ⟨w, hw, hs2⟩ := h2.shows he
  exact ⟨s2, w, by simp only [runQ, e1, e2, ok_bind, pure_ok]; rfl, hw, hs2⟩

/-- A rotation about X by a half-turn, then one about Y by a quarter-turn, then Hadamard: the qubit should be one
with certainty, but is measured as zero. -/
theorem C31_counterexample (he : env.eps = 0) {rng : ℕ → ℝ} (hr : ∀ n, 0 ≤ rng n ∧ rng n < 1) (os : ℕ → ℕ) :
    prob [0] true (Spec.ctrl [] matH 0 (ctrlExp [] [(.Y, 0)] (-(Real.pi / 2 / 2))
      (ctrlExp [] [(.X, 0)] (-(Real.pi / 2)) (ket zeroBasis)))) = 1 ∧
    ∃ s', runQ env fmt [.r .X Real.pi 0, .r .Y (Real.pi / 2) 0, .gate .h 0, .m 0] (Backend.new rng os) =
      .ok ([.unit, .unit, .unit, .ptr 0], [], s') ∧ s'.res = [] := by
  obtain ⟨_, hp, os', s, s', h1, h2⟩ := C01_counterexample he hr
  constructor
  · have : ((Ideal.init rng).run wrongTurn).psi = Spec.ctrl [] matH 0 (Spec.ctrl [] (matRy (Real.pi / 2)) 0
        (Spec.ctrl [] (matRx Real.pi) 0 (ket zeroBasis))) := by
      show Spec.ctrl [] matH 0 (Spec.ctrl [] (matRy (Real.pi / 2)) 0
        (Spec.ctrl [] (matRx Real.pi) 0 ((Ideal.init rng).step .allocate).psi)) = _
      rw [alloc_one]
    rw [this, ctrl_Ry, ctrl_Rx] at hp
    exact hp
  · have hens : ensure 0 (Backend.new rng os) = ⟨(Sim.new rng).allocate.2, [], 1, os⟩ := by
      rw [ensure, if_pos (by simp [Backend.new]), ensure_lt (by simp [Backend.new])]; rfl
    have hone : ∀ m l, ensure 0 (⟨m, l, 1, os⟩ : Backend) = ⟨m, l, 1, os⟩ := fun m l => ensure_lt (by simp)
    simp only [wrongTurn, runCalls, Sim.call, ok_bind] at h1
    cases ha : gateCall env 0 (.rx Real.pi) (Sim.new rng).allocate.2 with
    | error e => simp [ha, quiet] at h1
    | ok sa =>
      simp only [ha, quiet, ok_bind, pure_ok] at h1
      cases hb : gateCall env 0 (.ry (Real.pi / 2)) sa with
      | error e => simp [hb] at h1
      | ok sb =>
        simp only [hb, ok_bind, pure_ok] at h1
        cases hc : gateCall env 0 .h sb with
        | error e => simp [hc] at h1
        | ok sc =>
          simp only [hc, ok_bind, pure_ok, Except.ok.injEq, Prod.mk.injEq] at h1
          obtain ⟨_, rfl⟩ := h1
          refine ⟨⟨s', [], 1, os⟩, ?_, rfl⟩
          simp only [runQ, qstep, r, gate, act, hens, hone, ha, hb, hc, lift, silent, ok_bind, pure_ok, m, ask, h2]
          rfl

/-! ## C47: assertions about probabilities -/

/-- The assertion fails, with the message given, exactly if the probability of the stated outcome differs from the
expected value by more than the tolerance. -/
theorem C47_decides (he : env.eps = 0) (hq : QReach env fmt s) (hs : Shows env s.sim L ψ) {ps : List Pauli}
    {qs : List ℕ} (hlen : ps.length = qs.length) (hn : ((support ps qs).map Prod.snd).Nodup)
    (hu : ∀ q ∈ (support ps qs).map Prod.snd, (s.device L ψ).Usable q) (result : ℕ) (p : ℝ) (msg : List Char)
    (tol : ℝ) :
    (|pauliProb (support ps qs) (decide (result ≠ 0)) ψ - p| ≤ tol →
      ∃ s', qstep env fmt (.assertProb ps qs result p msg tol) s = .ok (.unit, [], s')) ∧
    (tol < |pauliProb (support ps qs) (decide (result ≠ 0)) ψ - p| →
      qstep env fmt (.assertProb ps qs result p msg tol) s = .error (.fail msg)) := by
  have h := assertProb_ref he (hq.rel he hs) hlen hn hu result p msg tol
  constructor
  · intro hle
    obtain ⟨s', e, _⟩ := h.1 hle
    exact ⟨s', by simp only [qstep, e]; rfl⟩
  · intro hlt
    have := h.2 (not_le.2 hlt)
    simp only [qstep, this, silent, error_bind]

/-- When it passes, no qubit, no register and not the random stream is changed; qubits that were not in use are
brought into use. -/
theorem C47_passes (he : env.eps = 0) (hq : QReach env fmt s) (hs : Shows env s.sim L ψ) {ps : List Pauli}
    {qs : List ℕ} (hlen : ps.length = qs.length) (hn : ((support ps qs).map Prod.snd).Nodup)
    (hu : ∀ q ∈ (support ps qs).map Prod.snd, (s.device L ψ).Usable q) {result : ℕ} {p : ℝ} {msg : List Char}
    {tol : ℝ} {a : QAns} {out : Bytes} (h : qstep env fmt (.assertProb ps qs result p msg tol) s = .ok (a, out, s')) :
    out = [] ∧ ∃ w : ℂ, ‖w‖ = 1 ∧
      Shows env s'.sim ((s.device L ψ).useAll ((support ps qs).map Prod.snd)).live (w • ψ) ∧
      s'.sim.rng = s.sim.rng ∧ s'.res = s.res := by
  have hd := C47_decides he hq hs hlen hn hu result p msg tol
  have hle : |pauliProb (support ps qs) (decide (result ≠ 0)) ψ - p| ≤ tol := by
    by_contra hlt
    rw [hd.2 (not_le.1 hlt)] at h
    cases h
  obtain ⟨s1, e, hr⟩ := (assertProb_ref he (hq.rel he hs) hlen hn hu result p msg tol).1 hle
  obtain ⟨e1, _, e3⟩ := silent_inv h
  rw [e] at e1
  cases e1
  obtain ⟨w, hw, hs'⟩ := hr.shows he
  rw [useAll_psi] at hs'
  refine ⟨e3, w, hw, hs', ?_, (((blind_assertProb ps qs result p msg tol).res e)).1⟩
  rw [hr.sim.rng]
  show (Device.useAll _ _).rng = _
  rw [useAll_rng]
  rfl

/-- No later outcome changes: with the operands in use, every later list of (determined) calls has the same answers
and writes the same, or ends with the same message, as without the assertion. -/
theorem C47_undisturbed (he : env.eps = 0) (hq : QReach env fmt s) (hs : Shows env s.sim L ψ) {ps : List Pauli}
    {qs : List ℕ} (hlen : ps.length = qs.length) (hn : ((support ps qs).map Prod.snd).Nodup)
    (hu : ∀ q ∈ (support ps qs).map Prod.snd, q ∈ L) {result : ℕ} {p : ℝ} {msg : List Char}
    {tol : ℝ} {a : QAns} {out : Bytes} (h : qstep env fmt (.assertProb ps qs result p msg tol) s = .ok (a, out, s'))
    {cs : List QCall} (hv : (s.device L ψ).ValidRun cs) (hcs : ∀ c ∈ cs, c.Determined ∧ NoY c) :
    (runQ env fmt cs s).map (fun r => (r.1, r.2.1)) = (runQ env fmt cs s').map (fun r => (r.1, r.2.1)) := by
  have hr := hq.rel he hs
  have hd := C47_decides he hq hs hlen hn (fun q h => .inl (hu q h)) result p msg tol
  have hle : |pauliProb (support ps qs) (decide (result ≠ 0)) ψ - p| ≤ tol := by
    by_contra hlt
    rw [hd.2 (not_le.1 hlt)] at h
    cases h
  obtain ⟨s1, e, hr'⟩ := (assertProb_ref he hr hlen hn (fun q h => .inl (hu q h)) result p msg tol).1 hle
  obtain ⟨e1, _, _⟩ := silent_inv h
  rw [e] at e1
  cases e1
  rw [apply_live _ hu hr.low] at hr'
  have k1 := qref_run (fmt := fmt) he cs hr hv (runOkQ_of hcs s)
  have k2 := qref_run (fmt := fmt) he cs hr' hv (runOkQ_of hcs s')
  cases hrun : (s.device L ψ).run cs with
  | error m => rw [k1.2 m hrun, k2.2 m hrun]
  | ok r =>
    obtain ⟨as, es, δ'⟩ := r
    obtain ⟨_, e1, _⟩ := k1.1 _ _ _ hrun
    obtain ⟨_, e2, _⟩ := k2.1 _ _ _ hrun
    rw [e1, e2]
    rfl

theorem pauliProb_bell {w : ℂ} (hw : ‖w‖ = 1) : pauliProb [(.Z, 0)] true (w • bellState) = 1 / 2 := by
  rw [pauliProb_Z, prob_bell hw]

/-- On half a Bell pair, probability 1/2 is accepted and 1 is rejected; a later joint measurement is valid. -/
example (he : env.eps = 0) : ∃ s L ψ s', QReach env fmt s ∧ Shows env s.sim L ψ ∧
    qstep env fmt (.assertProb [.Z] [0] 0 (1 / 2) [] 0) s = .ok (.unit, [], s') ∧
    qstep env fmt (.assertProb [.Z] [0] 1 1 ['n', 'o'] (1 / 4)) s = .error (.fail ['n', 'o']) ∧
    (s.device L ψ).ValidRun [.mz 0 0, .mz 1 1] := by
  obtain ⟨s, _, h1, h2⟩ := bellQ_reach he fmt (rng := fun _ => 0) (by simp) (fun _ => 0)
  obtain ⟨w, hw, hs⟩ := h2.shows he
  have hsup : support [.Z] [0] = [(.Z, 0)] := by decide
  have hr := h1.rel he hs
  have ht := pauliProb_bell hw
  have hadd := pauliProb_add hr (l := [(.Z, 0)]) (by simp) (by simp)
  change pauliProb [(.Z, 0)] true (w • bellState) + pauliProb [(.Z, 0)] false (w • bellState) = 1 at hadd
  have hf : pauliProb [(.Z, 0)] false (w • bellState) = 1 / 2 := by linarith
  have hu : ∀ q ∈ (support [.Z] [0]).map Prod.snd, (s.device (bellDevice fun _ => 0).live (w • bellState)).Usable q := by
    intro q hq; rw [hsup] at hq
    simp at hq; subst hq
    exact .inl (by simp [Backend.device, bellDevice])
  have c1 := C47_decides (fmt := fmt) he h1 hs (ps := [.Z]) (qs := [0]) rfl (by decide) hu 0 (1 / 2) [] 0
  have c2 := C47_decides (fmt := fmt) he h1 hs (ps := [.Z]) (qs := [0]) rfl (by decide) hu 1 1 ['n', 'o'] (1 / 4)
  rw [hsup] at c1 c2
  obtain ⟨s', e⟩ := c1.1 (by
    show |pauliProb [(.Z, 0)] (decide ((0 : ℕ) ≠ 0)) (w • bellState) - 1 / 2| ≤ 0
    rw [show decide ((0 : ℕ) ≠ 0) = false from rfl, hf]; norm_num)
  refine ⟨s, _, _, s', h1, hs, e, c2.2 ?_, .inl ?_, fun _ _ δ' hd => ⟨?_, fun _ _ _ _ => trivial⟩⟩
  · show 1 / 4 < |pauliProb [(.Z, 0)] (decide ((1 : ℕ) ≠ 0)) (w • bellState) - 1|
    rw [show decide ((1 : ℕ) ≠ 0) = true from rfl, ht]; norm_num
  · simp [Backend.device, bellDevice]
  · simp only [Device.step, Except.ok.injEq, Prod.mk.injEq] at hd
    obtain ⟨_, _, rfl⟩ := hd
    left
    have hm : s.max = 2 := h2.high
    show (1 : ℕ) ∈ (Device.use 0 _).live
    unfold Device.use
    rw [if_pos (by simp [Backend.device, hm])]
    simp [Backend.device, bellDevice]

end Qir.Back
