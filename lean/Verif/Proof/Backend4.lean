import Verif.Proof.Backend3

/-! The backend refines the ideal device: every call. -/

noncomputable section
namespace Qir.Back
open Spec Function Sim Qir.Out

variable {env : Env} {fmt : Fmt} {s : Backend} {δ : Device}

theorem silent_ok {r : Except Stop Backend} {δ' : Device} (h : ∃ s', r = .ok s' ∧ QRef s' δ') :
    ∃ s', silent r = .ok (.unit, lines [], s') ∧ QRef s' δ' := by
  obtain ⟨s', e, h⟩ := h
  exact ⟨s', by rw [e]; rfl, h⟩

theorem lines_one (e : Event) : lines [e] = e.line := by simp [lines]

theorem reinit_ref (h : QRef s δ) : QRef (reinit s) (Device.init δ.rng) := by
  refine ⟨?_, rfl, by simp [Device.init], fun _ => rfl, rfl⟩
  have := refines_new h.sim.good.samples
  rw [show (reinit s).sim = Sim.new s.sim.rng from rfl, h.sim.rng]
  exact this

theorem size_message : sizeMessage = Device.sizeText := rfl

theorem measure_size {ps : List Pauli} {qs : List ℕ} (hl : ps.length ≠ qs.length) :
    measure env ps qs s = .error (.fail Device.sizeText) := by
  unfold measure mapToZ
  rw [if_pos hl]; rfl

theorem assertProb_size {ps : List Pauli} {qs : List ℕ} (hl : ps.length ≠ qs.length) (n : ℕ) (p : ℝ)
    (m : List Char) (t : ℝ) : assertProb env ps qs n p m t s = .error (.fail Device.sizeText) := by
  unfold assertProb mapToZ
  rw [if_pos hl]; rfl

/-- One call of the backend does what the ideal device does. -/
theorem qref_step (he : env.eps = 0) (h : QRef s δ) {c : QCall} (hv : δ.Valid c) (hd : c.Determined) (hok : QCallOk s c) :
    (∀ a es δ', δ.step c = .ok (a, es, δ') → ∃ s', qstep env fmt c s = .ok (a, lines es, s') ∧ QRef s' δ') ∧
    (∀ m, δ.step c = .error m → qstep env fmt c s = .error (.fail m)) := by
  have key : ∀ {r : Except Stop (QAns × Bytes × Backend)} {a es δ'},
      (∃ s', r = .ok (a, lines es, s') ∧ QRef s' δ') →
      (∀ a' es' δ'', (Except.ok (a, es, δ') : Except (List Char) _) = .ok (a', es', δ'') →
        ∃ s', r = .ok (a', lines es', s') ∧ QRef s' δ'') ∧
      (∀ m, (Except.ok (a, es, δ') : Except (List Char) (QAns × List Event × Device)) = .error m →
        r = .error (.fail m)) := by
    intro r a es δ' hr
    refine ⟨fun a' es' δ'' e => ?_, fun m e => by cases e⟩
    cases e; exact hr
  cases c with
  | gate g q => exact key (silent_ok (gate_ref he h hv g (by cases g <;> first | exact hok | trivial)))
  | ctl g cs q => exact key (silent_ok (ctl_ref he h hv.1 hv.2 g))
  | sx q => exact key (silent_ok (sx_ref he h hv))
  | rxx θ a b => exact key (silent_ok (rxx_ref he h hv.1 hv.2.1 hv.2.2 θ))
  | ryy θ a b => exact key (silent_ok (ryy_ref he h hv.1 hv.2.1 hv.2.2 θ))
  | rzz θ a b => exact key (silent_ok (rzz_ref he h hv.1 hv.2.1 hv.2.2 θ))
  | r p θ q => exact key (silent_ok (r_ref he h hv θ hok))
  | rAdj p θ q =>
    have := r_ref he h hv (-θ) (by cases p <;> first | exact hok | trivial)
    rw [show -(-θ / 2) = θ / 2 by ring] at this
    exact key (silent_ok this)
  | rCtl cs p θ q => exact key (silent_ok (rCtl_ref he h hv.1 hv.2 θ))
  | rCtlAdj cs p θ q =>
    have := rCtl_ref he h (p := p) hv.1 hv.2 (-θ)
    rw [show -(-θ / 2) = θ / 2 by ring] at this
    exact key (silent_ok this)
  | exp ps θ qs => exact key (silent_ok (exp_ref he h hv.1 hv.2.1 hv.2.2 θ))
  | expAdj ps θ qs => exact key (silent_ok (exp_ref he h hv.1 hv.2.1 hv.2.2 (-θ)))
  | expCtl cs ps θ qs => exact key (silent_ok (expCtl_ref he h hv.1 hv.2.1 hv.2.2 θ))
  | expCtlAdj cs ps θ qs => exact key (silent_ok (expCtl_ref he h hv.1 hv.2.1 hv.2.2 (-θ)))
  | swap a b => exact key (silent_ok (swap_ref he h hv.1 hv.2))
  | reset q => exact key (silent_ok (reset_ref he h hv))
  | mresetz q r => exact key (silent_ok (mresetz_ref he h hv r))
  | mz q r => exact key (silent_ok (mz_ref he h hv r))
  | readResult r =>
    obtain ⟨s', e, h'⟩ := readResult_ref h r
    exact key ⟨s', by simp only [qstep, e, ok_bind]; rfl, h'⟩
  | writeResult v r => exact key ⟨_, rfl, store_ref h r v⟩
  | m q =>
    obtain ⟨s', e, h'⟩ := m_ref he h hv
    exact key ⟨s', by simp only [qstep, e, ok_bind]; rfl, h'⟩
  | measure ps qs =>
    simp only [Device.step]
    split
    · rename_i hl
      obtain ⟨s', e, h'⟩ := pauliMeasure_ref he h hl hv.1 hv.2
      exact key ⟨s', by simp only [qstep, e, ok_bind]; rfl, h'⟩
    · rename_i hl
      exact ⟨fun _ _ _ e => (by cases e), fun m e => by
        cases e; simp only [qstep, measure_size hl, error_bind]⟩
  | isZero q =>
    obtain ⟨s', e, h'⟩ := isZero_ref he h hv
    exact key ⟨s', by simp only [qstep, e, ok_bind]; rfl, h'⟩
  | assertProb ps qs result prob msg tol =>
    simp only [Device.step]
    split
    · rename_i hl
      have ha := assertProb_ref he h hl hv.1 hv.2 result prob msg tol
      split
      · rename_i hp
        exact key (silent_ok (ha.1 hp))
      · rename_i hp
        exact ⟨fun _ _ _ e => (by cases e), fun m e => by
          cases e; simp only [qstep, ha.2 hp, silent, error_bind]⟩
    · rename_i hl
      exact ⟨fun _ _ _ e => (by cases e), fun m e => by
        cases e; simp only [qstep, assertProb_size hl, silent, error_bind]⟩
  | allocate =>
    obtain ⟨e, h'⟩ := qubitAllocate_ref he h
    exact key ⟨_, by simp only [qstep, e]; rfl, h'⟩
  | release q =>
    obtain ⟨s', e, h'⟩ := release_ref he h hv
    simp only [Device.step]
    split
    · rename_i hl
      rw [if_pos hl] at h'
      exact key (silent_ok ⟨s', e, h'⟩)
    · rename_i hl
      rw [if_neg hl] at h'
      exact key (silent_ok ⟨s', e, h'⟩)
  | recordResult r tag =>
    obtain ⟨s', e, h'⟩ := recordedResult_ref h r
    refine key ⟨s', ?_, h'⟩
    simp only [qstep, e, ok_bind]
    rw [lines_one, show resultRecordOutput (δ.resultValue r) tag = emit (.result (δ.resultValue r) tag) from rfl,
      bytesOf_emit]
    rfl
  | legacyResult r =>
    obtain ⟨s', e, h'⟩ := recordedResult_ref h r
    refine key ⟨s', ?_, h'⟩
    simp only [qstep, e, ok_bind]
    rw [lines_one, bytesOf_legacy]
    rfl
  | record e hp => exact key ⟨s, by simp only [qstep, bytesOf_emit, lines_one]; rfl, h⟩
  | legacy e hp => exact key ⟨s, by simp only [qstep, bytesOf_legacy, lines_one], h⟩
  | fail msg => exact ⟨fun _ _ _ e => (by cases e), fun m e => by cases e; rfl⟩
  | dump l => exact hd.elim
  | barrier => exact key ⟨s, rfl, h⟩
  | reinit => exact key ⟨_, rfl, reinit_ref h⟩
  | drawInt a b => exact hd.elim
  | drawDouble a b => exact hd.elim

/-! ### Any history -/

theorem gate_any (he : env.eps = 0) (h : QRef s δ) {q : ℕ} (hq : δ.Usable q) (g : Gate) :
    ∃ s' g', gate env g q s = .ok s' ∧ QRef s' (δ.apply [q] (ctrl [] (Gate.mat g') q)) := by
  have hu := ensure_ref he h hq
  obtain ⟨s1, g', h1, hm, h2⟩ := gateCall_step he hu.sim.wf ((hu.sim.live q).1 (mem_use h.low hq)) g
  have hg' := hu.sim.good.step (c := .gate g' q) (mem_use h.low hq)
  have hr := hu.sim.of_step h2 hg'
  refine ⟨{ ensure q s with sim := s1 }, g', by simp only [gate, act, h1, lift, ok_bind, pure_ok], ?_⟩
  have : QRef { ensure q s with sim := s1 } { δ.use q with psi := ctrl [] g'.mat q (δ.use q).psi } :=
    ⟨hr, hu.high, hu.low, hu.reg, hu.touched⟩
  rw [use_psi] at this
  exact this

theorem dump_ref (he : env.eps = 0) (h : QRef s δ) :
    ∃ out s', dumpMachine env fmt false s = .ok (out, s') ∧ QRef s' δ ∧ s'.res = s.res ∧ s'.os = s.os := by
  obtain ⟨d, o, m, h1, h2, h3, h4⟩ := refine_call he h.sim (c := .dump fmt.amplitude) trivial
  cases h2
  have e : ∃ t, Sim.dump env fmt.amplitude s.sim = .ok (t, m) := by
    cases hm : Sim.dump env fmt.amplitude s.sim with
    | error e => simp [call, hm] at h1
    | ok r => simp [call, hm] at h1; exact ⟨r.1, by rw [← h1.2]⟩
  obtain ⟨t, e⟩ := e
  refine ⟨_, { s with sim := m }, by simp only [dumpMachine, ask, e, lift, ok_bind, pure_ok]; rfl,
    ⟨h4, h.high, h.low, h.reg, h.touched⟩, rfl, rfl⟩

/-- A valid call always leaves the backend standing for some device state, which differs from the documented
one in the state vector only; it never ends in a panic of the simulator. -/
theorem qref_any (he : env.eps = 0) (h : QRef s δ) {c : QCall} (hv : δ.Valid c) :
    (∃ a out s' a' es δ' ψ, qstep env fmt c s = .ok (a, out, s') ∧ δ.step c = .ok (a', es, δ') ∧
      QRef s' { δ' with psi := ψ }) ∨
      ∃ m, qstep env fmt c s = .error (.fail m) := by
  by_cases hok : c.Determined ∧ QCallOk s c
  · have hs := qref_step (fmt := fmt) he h hv hok.1 hok.2
    cases hc : δ.step c with
    | error m => exact .inr ⟨m, hs.2 m hc⟩
    | ok r =>
      obtain ⟨a, es, δ'⟩ := r
      obtain ⟨s', e, h'⟩ := hs.1 a es δ' hc
      exact .inl ⟨_, _, s', a, es, δ', δ'.psi, e, rfl, h'⟩
  · have hd : ∀ o : ℕ → ℕ, QRef { s with os := o } δ := fun o => ⟨h.sim, h.high, h.low, h.reg, h.touched⟩
    cases c with
    | gate g q =>
      obtain ⟨s', g', e, h'⟩ := gate_any he h hv g
      exact .inl ⟨_, _, s', _, _, _, _, by simp only [qstep, e]; rfl, rfl, h'⟩
    | r p θ q =>
      cases p with
      | Y =>
        obtain ⟨s', g', e, h'⟩ := gate_any he h (hv.resolve_left (by decide)) (.ry θ)
        refine .inl ⟨_, _, s', _, _, _, ctrl [] g'.mat q δ.psi, by simp only [qstep, r, e]; rfl, rfl, ?_⟩
        exact h'
      | _ => exact absurd ⟨trivial, trivial⟩ hok
    | rAdj p θ q =>
      cases p with
      | Y =>
        obtain ⟨s', g', e, h'⟩ := gate_any he h (hv.resolve_left (by decide)) (.ry (-θ))
        refine .inl ⟨_, _, s', _, _, _, ctrl [] g'.mat q δ.psi, by simp only [qstep, rAdj, r, e]; rfl, rfl, ?_⟩
        exact h'
      | _ => exact absurd ⟨trivial, trivial⟩ hok
    | dump l =>
      have hv' : l = false := hv
      subst hv'
      obtain ⟨out, s', e, h', _⟩ := dump_ref (fmt := fmt) he h
      exact .inl ⟨.unit, out, s', _, _, _, δ.psi, by simp only [qstep, e, ok_bind, pure_ok], rfl, h'⟩
    | drawInt a b =>
      simp only [qstep]
      split
      · exact .inl ⟨_, _, _, _, _, _, δ.psi, rfl, rfl, hd _⟩
      · exact .inr ⟨_, rfl⟩
    | drawDouble a b =>
      simp only [qstep]
      split
      · exact .inl ⟨_, _, _, _, _, _, δ.psi, rfl, rfl, hd _⟩
      · exact .inr ⟨_, rfl⟩
    | _ => exact absurd ⟨trivial, trivial⟩ hok

theorem qref_new {rng : ℕ → ℝ} (h : ∀ n, 0 ≤ rng n ∧ rng n < 1) (os : ℕ → ℕ) :
    QRef (Backend.new rng os) (Device.init rng) :=
  ⟨refines_new h, rfl, by simp [Device.init], fun _ => rfl, rfl⟩

end Qir.Back
