import Verif.Proof.Twin2
import Verif.Model.Backend

/-! Twin runs of the backend. -/

noncomputable section
namespace Qir.Back
open Spec Sim Qir.Out Std

variable {env env' : Env}

/-- Backends that differ only in the order of the amplitude list. -/
def TwinB (s s' : Backend) : Prop := ∃ m, s' = { s with sim := m } ∧ Twin s.sim m

/-- The same answer, and backends that differ only in that order. -/
def TwinBV {α : Type} (r r' : α × Backend) : Prop := r.1 = r'.1 ∧ TwinB r.2 r'.2

theorem both_lift {α : Type} {R : α → α → Prop} {x x' : Except Panic α} (h : Both R x x') :
    Both R (lift x) (lift x') := by
  cases x <;> cases x'
  · exact congrArg Stop.sim h
  · exact h.elim
  · exact h.elim
  · exact h

theorem twinB_act {f f' : Sim → Except Panic Sim} (hf : ∀ s s', Twin s s' → Both Twin (f s) (f' s'))
    {s s' : Backend} (h : TwinB s s') : Both TwinB (act f s) (act f' s') := by
  obtain ⟨m, rfl, hm⟩ := h
  unfold act
  apply (both_lift (hf _ _ hm)).bind
  intro a b hab
  exact Both.ok ⟨_, rfl, hab⟩

theorem twinB_ask {α : Type} {f f' : Sim → Except Panic (α × Sim)}
    (hf : ∀ s s', Twin s s' → Both TwinV (f s) (f' s')) {s s' : Backend} (h : TwinB s s') :
    Both TwinBV (ask f s) (ask f' s') := by
  obtain ⟨m, rfl, hm⟩ := h
  unfold ask
  apply (both_lift (hf _ _ hm)).bind
  rintro ⟨a, t⟩ ⟨_, t'⟩ ⟨rfl, hab⟩
  exact Both.ok ⟨rfl, _, rfl, hab⟩

theorem twinB_ensure (q : ℕ) {s s' : Backend} (h : TwinB s s') : TwinB (ensure q s) (ensure q s') := by
  fun_induction ensure q s generalizing s' with
  | case1 s hq ih =>
    obtain ⟨m, rfl, hm⟩ := h
    have e : ensure q { s with sim := m } = ensure q { s with sim := m.allocate.2, max := s.max + 1 } := by
      rw [ensure, if_pos hq]
    rw [e]
    apply ih
    exact ⟨_, rfl, (twin_allocate hm).2⟩
  | case2 s hq =>
    obtain ⟨m, rfl, hm⟩ := h
    have e : ensure q { s with sim := m } = { s with sim := m } := by
      rw [ensure, if_neg hq]
    rw [e]
    exact ⟨m, rfl, hm⟩

theorem twinB_ensureAll (qs : List ℕ) {s s' : Backend} (h : TwinB s s') :
    TwinB (ensureAll qs s) (ensureAll qs s') := by
  unfold ensureAll
  induction qs generalizing s s' with
  | nil => exact h
  | cons q qs ih => exact ih (twinB_ensure q h)

theorem twinB_gate (he : env'.eps = env.eps) (g : Gate) (q : ℕ) {s s' : Backend} (h : TwinB s s') :
    Both TwinB (gate env g q s) (gate env' g q s') :=
  twinB_act (fun _ _ h => twin_gateCall he h g q) (twinB_ensure q h)

theorem twinB_ctl (he : env'.eps = env.eps) (g : Gate) (cs : List ℕ) (q : ℕ) {s s' : Backend} (h : TwinB s s') :
    Both TwinB (ctl env g cs q s) (ctl env' g cs q s') :=
  twinB_act (fun _ _ h => twin_ctrlCall he h g cs q) (twinB_ensureAll cs (twinB_ensure q h))

theorem twinB_sx (he : env'.eps = env.eps) (q : ℕ) {s s' : Backend} (h : TwinB s s') :
    Both TwinB (sx env q s) (sx env' q s') :=
  (twinB_gate he _ q h).bind fun _ _ h => (twinB_gate he _ q h).bind fun _ _ h => twinB_gate he _ q h

theorem twinB_rzz (he : env'.eps = env.eps) (θ : ℝ) (a b : ℕ) {s s' : Backend} (h : TwinB s s') :
    Both TwinB (rzz env θ a b s) (rzz env' θ a b s') :=
  (twinB_ctl he _ _ a h).bind fun _ _ h => (twinB_gate he _ a h).bind fun _ _ h => twinB_ctl he _ _ a h

theorem twinB_rxx (he : env'.eps = env.eps) (θ : ℝ) (a b : ℕ) {s s' : Backend} (h : TwinB s s') :
    Both TwinB (rxx env θ a b s) (rxx env' θ a b s') :=
  (twinB_gate he _ a h).bind fun _ _ h => (twinB_gate he _ b h).bind fun _ _ h =>
    (twinB_rzz he θ a b h).bind fun _ _ h => (twinB_gate he _ b h).bind fun _ _ h => twinB_gate he _ a h

theorem twinB_ryy (he : env'.eps = env.eps) (θ : ℝ) (a b : ℕ) {s s' : Backend} (h : TwinB s s') :
    Both TwinB (ryy env θ a b s) (ryy env' θ a b s') :=
  (twinB_gate he _ a h).bind fun _ _ h => (twinB_gate he _ a h).bind fun _ _ h =>
    (twinB_gate he _ a h).bind fun _ _ h => (twinB_gate he _ b h).bind fun _ _ h =>
    (twinB_gate he _ b h).bind fun _ _ h => (twinB_gate he _ b h).bind fun _ _ h =>
    (twinB_rzz he θ a b h).bind fun _ _ h => (twinB_gate he _ b h).bind fun _ _ h =>
    (twinB_gate he _ b h).bind fun _ _ h => (twinB_gate he _ b h).bind fun _ _ h =>
    (twinB_gate he _ a h).bind fun _ _ h => (twinB_gate he _ a h).bind fun _ _ h => twinB_gate he _ a h

theorem twinB_r (he : env'.eps = env.eps) (p : Pauli) (θ : ℝ) (q : ℕ) {s s' : Backend} (h : TwinB s s') :
    Both TwinB (r env p θ q s) (r env' p θ q s') := by
  cases p
  · exact Both.ok h
  · exact twinB_gate he _ q h
  · exact twinB_gate he _ q h
  · exact twinB_gate he _ q h

theorem twinB_rCtl (he : env'.eps = env.eps) (cs : List ℕ) (p : Pauli) (θ : ℝ) (q : ℕ) {s s' : Backend}
    (h : TwinB s s') : Both TwinB (rCtl env cs p θ q s) (rCtl env' cs p θ q s') := by
  cases p with
  | X => exact twinB_ctl he _ cs q h
  | Y => exact twinB_ctl he _ cs q h
  | Z => exact twinB_ctl he _ cs q h
  | I =>
    unfold rCtl
    simp only
    split
    · cases cs with
      | nil => exact Both.ok (twinB_ensureAll _ (twinB_ensure q h))
      | cons c cs =>
        exact twinB_act (fun _ _ h => twin_mcphase he h _ _ _) (twinB_ensureAll _ (twinB_ensure q h))
    · exact Both.ok h

theorem twinB_exp (he : env'.eps = env.eps) (ps : List Pauli) (θ : ℝ) (qs : List ℕ) {s s' : Backend}
    (h : TwinB s s') : Both TwinB (exp env ps θ qs s) (exp env' ps θ qs s') :=
  twinB_act (fun _ _ h => twin_mcexp he h _ _ _ _) (twinB_ensureAll qs h)

theorem twinB_expCtl (he : env'.eps = env.eps) (cs : List ℕ) (ps : List Pauli) (θ : ℝ) (qs : List ℕ)
    {s s' : Backend} (h : TwinB s s') : Both TwinB (expCtl env cs ps θ qs s) (expCtl env' cs ps θ qs s') :=
  twinB_act (fun _ _ h => twin_mcexp he h _ _ _ _) (twinB_ensureAll qs (twinB_ensureAll cs h))

theorem twinV_measure (he : env'.eps = env.eps) (q : ℕ) : ∀ s s', Twin s s' →
    Both TwinV (Sim.measure env q s) (Sim.measure env' q s') :=
  fun _ _ h => (twin_measure he h q).mono fun _ _ h => ⟨h.1, h.2.1⟩

theorem twinB_reset (he : env'.eps = env.eps) (q : ℕ) {s s' : Backend} (h : TwinB s s') :
    Both TwinB (reset env q s) (reset env' q s') := by
  unfold reset
  apply (twinB_ask (twinV_measure he q) (twinB_ensure q h)).bind
  rintro ⟨b, s⟩ ⟨_, s'⟩ ⟨rfl, h⟩
  simp only
  split
  · exact twinB_act (fun _ _ h => twin_x h q) h
  · exact Both.ok h

theorem TwinB.res {s s' : Backend} (h : TwinB s s') (f : List Bool → List Bool) :
    TwinB { s with res := f s.res } { s' with res := f s'.res } := by
  obtain ⟨m, rfl, hm⟩ := h; exact ⟨m, rfl, hm⟩

theorem twinB_mresetz (he : env'.eps = env.eps) (q r : ℕ) {s s' : Backend} (h : TwinB s s') :
    Both TwinB (mresetz env q r s) (mresetz env' q r s') := by
  unfold mresetz
  apply (twinB_ask (twinV_measure he q) ((twinB_ensure q h).res (grow r))).bind
  rintro ⟨b, s⟩ ⟨_, s'⟩ ⟨rfl, h⟩
  simp only
  split
  · apply (twinB_act (fun _ _ h => twin_x h q) h).bind
    intro a c h
    exact Both.ok (h.res (fun l => l.set r b))
  · exact Both.ok (h.res (fun l => l.set r b))

theorem twinB_mz (he : env'.eps = env.eps) (q r : ℕ) {s s' : Backend} (h : TwinB s s') :
    Both TwinB (mz env q r s) (mz env' q r s') := by
  unfold mz
  apply (twinB_ask (twinV_measure he q) ((twinB_ensure q h).res (grow r))).bind
  rintro ⟨b, s⟩ ⟨_, s'⟩ ⟨rfl, h⟩
  exact Both.ok (h.res (fun l => l.set r b))

theorem twinB_mapOne (he : env'.eps = env.eps) (pq : Pauli × ℕ) {s s' : Backend} (h : TwinB s s') :
    Both TwinB (mapOne env pq s) (mapOne env' pq s') := by
  obtain ⟨p, q⟩ := pq
  cases p with
  | I => exact Both.ok h
  | Z => exact Both.ok h
  | X => exact twinB_act (fun _ _ h => twin_h he h q) h
  | Y =>
    exact (twinB_act (fun _ _ h => twin_h he h q) h).bind fun _ _ h =>
      (twinB_act (fun _ _ h => twin_diag he h .S q) h).bind fun _ _ h =>
      twinB_act (fun _ _ h => twin_h he h q) h

theorem twinB_unmapOne (he : env'.eps = env.eps) (pq : Pauli × ℕ) {s s' : Backend} (h : TwinB s s') :
    Both TwinB (unmapOne env pq s) (unmapOne env' pq s') := by
  obtain ⟨p, q⟩ := pq
  cases p with
  | I => exact Both.ok h
  | Z => exact Both.ok h
  | X => exact twinB_act (fun _ _ h => twin_h he h q) h
  | Y =>
    exact (twinB_act (fun _ _ h => twin_h he h q) h).bind fun _ _ h =>
      (twinB_act (fun _ _ h => twin_diag he h .Sadj q) h).bind fun _ _ h =>
      twinB_act (fun _ _ h => twin_h he h q) h

theorem twinB_forEach {α : Type} {f f' : α → Backend → Except Stop Backend}
    (hf : ∀ a s s', TwinB s s' → Both TwinB (f a s) (f' a s')) (l : List α) {s s' : Backend} (h : TwinB s s') :
    Both TwinB (forEach f l s) (forEach f' l s') := by
  induction l generalizing s s' with
  | nil => exact Both.ok h
  | cons a l ih => exact (hf a s s' h).bind fun _ _ h => ih h

theorem twinB_mapToZ (he : env'.eps = env.eps) (ps : List Pauli) (qs : List ℕ) {s s' : Backend} (h : TwinB s s') :
    Both TwinBV (mapToZ env ps qs s) (mapToZ env' ps qs s') := by
  unfold mapToZ
  split
  · exact rfl
  · exact (twinB_forEach (fun pq _ _ h => twinB_mapOne he pq h) _ (twinB_ensureAll _ h)).bind fun _ _ h =>
      Both.ok ⟨rfl, h⟩

theorem twinB_unmap (he : env'.eps = env.eps) (l : List (Pauli × ℕ)) {s s' : Backend} (h : TwinB s s') :
    Both TwinB (unmapFromZ env l s) (unmapFromZ env' l s') :=
  twinB_forEach (fun pq _ _ h => twinB_unmapOne he pq h) _ h

theorem twinB_measure (he : env'.eps = env.eps) (ps : List Pauli) (qs : List ℕ) {s s' : Backend} (h : TwinB s s') :
    Both TwinBV (measure env ps qs s) (measure env' ps qs s') := by
  unfold measure
  apply (twinB_mapToZ he ps qs h).bind
  rintro ⟨l, s⟩ ⟨_, s'⟩ ⟨rfl, h⟩
  apply (twinB_ask (fun _ _ h => twin_jointMeasure he h _) h).bind
  rintro ⟨b, s⟩ ⟨_, s'⟩ ⟨rfl, h⟩
  exact (twinB_unmap he l h).bind fun _ _ h => Both.ok ⟨rfl, h⟩

theorem twinB_assert (he : env'.eps = env.eps) (ps : List Pauli) (qs : List ℕ) (res : ℕ) (p : ℝ)
    (msg : List Char) (tol : ℝ) {s s' : Backend} (h : TwinB s s') :
    Both TwinB (assertProb env ps qs res p msg tol s) (assertProb env' ps qs res p msg tol s') := by
  unfold assertProb
  apply (twinB_mapToZ he ps qs h).bind
  rintro ⟨l, s⟩ ⟨_, s'⟩ ⟨rfl, h⟩
  apply (twinB_ask (fun _ _ h => twin_jointProb he h _) h).bind
  rintro ⟨b, s⟩ ⟨_, s'⟩ ⟨rfl, h⟩
  simp only
  generalize (if resultEqual res (resultPtr false) = true then 1 - b else b) = x
  split
  · exact rfl
  · exact twinB_unmap he l h

theorem twinB_dump (he : env'.eps = env.eps) (fmt : Fmt) (loc : Bool) {s s' : Backend} (h : TwinB s s') :
    Both TwinBV (dumpMachine env fmt loc s) (dumpMachine env' fmt loc s') := by
  unfold dumpMachine
  split
  · exact rfl
  · have hr : s'.res = s.res := by obtain ⟨m, rfl, _⟩ := h; rfl
    simp only [hr]
    apply (twinB_ask (fun _ _ h => twin_dump he fmt.amplitude h) h).bind
    rintro ⟨b, s⟩ ⟨_, s'⟩ ⟨rfl, h⟩
    exact Both.ok ⟨rfl, h⟩

/-- The same answer and output, and backends that differ only in the order of the amplitude list. -/
def TwinQ (r r' : QAns × Bytes × Backend) : Prop := r.1 = r'.1 ∧ r.2.1 = r'.2.1 ∧ TwinB r.2.2 r'.2.2

theorem twin_silent {x x' : Except Stop Backend} (h : Both TwinB x x') : Both TwinQ (silent x) (silent x') :=
  h.bind fun _ _ h => Both.ok ⟨rfl, rfl, h⟩

theorem twin_answer {α : Type} {x x' : Except Stop (α × Backend)} (h : Both TwinBV x x') (f : α → QAns)
    (g : α → Bytes) :
    Both TwinQ (do let (b, s) ← x; return (f b, g b, s)) (do let (b, s) ← x'; return (f b, g b, s)) := by
  apply h.bind
  rintro ⟨b, s⟩ ⟨_, s'⟩ ⟨rfl, h⟩
  exact Both.ok ⟨rfl, rfl, h⟩

theorem twinB_readResult (r : ℕ) {s s' : Backend} (h : TwinB s s') : Both TwinBV (readResult r s) (readResult r s') := by
  obtain ⟨m, rfl, hm⟩ := h
  unfold readResult
  simp only
  split
  · exact Both.ok ⟨rfl, m, rfl, hm⟩
  · exact rfl

theorem twinB_recorded (r : ℕ) {s s' : Backend} (h : TwinB s s') :
    Both TwinBV (recordedResult r s) (recordedResult r s') := by
  obtain ⟨m, rfl, hm⟩ := h
  unfold recordedResult
  simp only
  split
  · exact Both.ok ⟨rfl, m, rfl, hm⟩
  · split
    · exact Both.ok ⟨rfl, m, rfl, hm⟩
    · exact rfl

theorem twinB_m (he : env'.eps = env.eps) (q : ℕ) {s s' : Backend} (h : TwinB s s') :
    Both TwinBV (m env q s) (m env' q s') := by
  unfold m
  apply (twinB_ask (twinV_measure he q) (twinB_ensure q h)).bind
  rintro ⟨b, s⟩ ⟨_, s'⟩ ⟨rfl, h⟩
  exact Both.ok ⟨rfl, h⟩

theorem twin_qstep (he : env'.eps = env.eps) (fmt : Fmt) (c : QCall) {s s' : Backend} (h : TwinB s s') :
    Both TwinQ (qstep env fmt c s) (qstep env' fmt c s') := by
  cases c with
  | gate g q => exact twin_silent (twinB_gate he g q h)
  | ctl g cs q => exact twin_silent (twinB_ctl he g cs q h)
  | sx q => exact twin_silent (twinB_sx he q h)
  | rxx θ a b => exact twin_silent (twinB_rxx he θ a b h)
  | ryy θ a b => exact twin_silent (twinB_ryy he θ a b h)
  | rzz θ a b => exact twin_silent (twinB_rzz he θ a b h)
  | r p θ q => exact twin_silent (twinB_r he p θ q h)
  | rAdj p θ q => exact twin_silent (twinB_r he p _ q h)
  | rCtl cs p θ q => exact twin_silent (twinB_rCtl he cs p θ q h)
  | rCtlAdj cs p θ q => exact twin_silent (twinB_rCtl he cs p _ q h)
  | exp ps θ qs => exact twin_silent (twinB_exp he ps θ qs h)
  | expAdj ps θ qs => exact twin_silent (twinB_exp he ps _ qs h)
  | expCtl cs ps θ qs => exact twin_silent (twinB_expCtl he cs ps θ qs h)
  | expCtlAdj cs ps θ qs => exact twin_silent (twinB_expCtl he cs ps _ qs h)
  | swap a b =>
    exact twin_silent (twinB_act (fun _ _ h => twin_swap h a b) (twinB_ensure b (twinB_ensure a h)))
  | reset q => exact twin_silent (twinB_reset he q h)
  | mresetz q r => exact twin_silent (twinB_mresetz he q r h)
  | mz q r => exact twin_silent (twinB_mz he q r h)
  | readResult r => exact twin_answer (twinB_readResult r h) _ (fun _ => [])
  | writeResult v r =>
    exact Both.ok ⟨rfl, rfl, h.res (fun l => (grow r l).set r v)⟩
  | m q => exact twin_answer (twinB_m he q h) _ (fun _ => [])
  | measure ps qs => exact twin_answer (twinB_measure he ps qs h) _ (fun _ => [])
  | isZero q =>
    exact twin_answer (twinB_ask (fun _ _ h => twin_isZero he h q) (twinB_ensure q h)) _ (fun _ => [])
  | assertProb ps qs result prob msg tol => exact twin_silent (twinB_assert he ps qs result prob msg tol h)
  | allocate =>
    obtain ⟨m, rfl, hm⟩ := h
    have ha := twin_allocate hm
    refine Both.ok ⟨?_, rfl, ?_⟩
    · simp only [qubitAllocate, ha.1]
    · simp only [qubitAllocate, ha.1]
      exact ⟨_, rfl, ha.2⟩
  | release q => exact twin_silent (twinB_act (fun _ _ h => twin_release he h q) h)
  | recordResult r tag => exact twin_answer (twinB_recorded r h) (fun _ => .unit) (fun b => bytesOf (resultRecordOutput b tag))
  | legacyResult r => exact twin_answer (twinB_recorded r h) (fun _ => .unit) (fun b => bytesOf (emitLegacy (.result b)))
  | record e _ => exact Both.ok ⟨rfl, rfl, h⟩
  | legacy e _ => exact Both.ok ⟨rfl, rfl, h⟩
  | fail msg => exact rfl
  | dump location => exact twin_answer (twinB_dump he fmt location h) (fun _ => .unit) id
  | barrier => exact Both.ok ⟨rfl, rfl, h⟩
  | reinit =>
    obtain ⟨m, rfl, hm⟩ := h
    refine Both.ok ⟨rfl, rfl, ?_⟩
    unfold reinit
    rw [show m.rng = s.sim.rng from hm.fields.2.1]
    exact ⟨_, rfl, twin_new _⟩
  | drawInt min max =>
    obtain ⟨m, rfl, hm⟩ := h
    unfold qstep nextWords
    simp only
    split
    · exact Both.ok ⟨rfl, rfl, m, rfl, hm⟩
    · exact rfl
  | drawDouble min max =>
    obtain ⟨m, rfl, hm⟩ := h
    unfold qstep nextWords
    simp only
    split
    · exact Both.ok ⟨rfl, rfl, m, rfl, hm⟩
    · exact rfl

end Qir.Back
