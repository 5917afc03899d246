import Verif.Proof.Walk

/-! The same for whole calls and histories. -/

noncomputable section
namespace Qir
open Spec Sim

/-- What every call leaves alone: the bound of the queue and, but for `rx`, the absence of pending
rotations about X. -/
structure Mild (s s' : Sim) : Prop where
  bound : s.opQ.length ≤ QUEUE_LIMIT → s'.opQ.length ≤ QUEUE_LIMIT
  rx : (∀ q, s.rxQ.get q = none) → ∀ q, s'.rxQ.get q = none

theorem Mild.refl (s : Sim) : Mild s s := ⟨id, id⟩
theorem Mild.trans {a b c : Sim} (h : Mild a b) (h' : Mild b c) : Mild a c :=
  ⟨h'.bound ∘ h.bound, h'.rx ∘ h.rx⟩
theorem Keep.mild {s s' : Sim} (h : Keep s s') : Mild s s' := ⟨h.bound, h.rx⟩
theorem Mild.of_eq {s s' : Sim} (h1 : s'.opQ = s.opQ) (h2 : s'.rxQ = s.rxQ) : Mild s s' :=
  ⟨by rw [h1]; exact id, by rw [h2]; exact id⟩

theorem mild_check {s s' : Sim} {p : ℝ} {locs : List ℕ} (h : s.checkJointProbability locs = .ok (p, s')) :
    Mild s s' ∧ ¬ HasBad s ∧ s'.idMap = s.idMap := by
  unfold checkJointProbability at h
  obtain ⟨⟨ops, s1⟩, h1, h⟩ := bind_ok h
  cases h
  exact ⟨((keep_take h1).trans (keep_state _ _)).mild, (takeOps_ok h1).2, (keep_take h1).ids⟩

theorem mild_collapse (s : Sim) (locs : List ℕ) (v : Bool) (p : ℝ) : Mild s (jointCollapse locs v p s) :=
  Mild.of_eq rfl rfl

theorem mild_jointProbability {env : Env} {s s' : Sim} {p : ℝ} {ids : List ℕ}
    (h : s.jointProbability env ids = .ok (p, s')) : Mild s s' ∧ ¬ HasBad s := by
  unfold jointProbability at h
  obtain ⟨s1, h1, h⟩ := bind_ok h
  obtain ⟨_, h2, h⟩ := bind_ok h
  obtain ⟨locs, h3, h⟩ := bind_ok h
  have hk := keep_maybeFlush h1
  obtain ⟨g1, g2, _⟩ := mild_check h
  exact ⟨hk.mild.trans g1, fun hb => g2 (hk.bad hb)⟩

theorem mild_isZero {env : Env} {s s' : Sim} {b : Bool} {q : ℕ}
    (h : s.qubitIsZero env q = .ok (b, s')) : Mild s s' ∧ ¬ HasBad s := by
  unfold qubitIsZero at h
  obtain ⟨⟨p, s1⟩, h1, h⟩ := bind_ok h
  cases h
  exact mild_jointProbability h1

/-- The random source is not part of what is tracked. -/
theorem hasBad_rng {s : Sim} {r : ℕ → ℝ} : HasBad { s with rng := r } ↔ HasBad s := Iff.rfl

theorem mild_measure {env : Env} {s s' : Sim} {b : Bool} {q : ℕ}
    (h : s.measure env q = .ok (b, s')) :
    Mild s s' ∧ ¬ HasBad s ∧ s'.idMap = s.idMap ∧ (s.idMap.get q).isSome = true := by
  unfold Sim.measure at h
  obtain ⟨s1, h1, h⟩ := bind_ok h
  obtain ⟨loc, h2, h⟩ := bind_ok h
  simp only [nextSample] at h
  obtain ⟨⟨p, s2⟩, h3, h⟩ := bind_ok h
  cases h
  have hk := keep_maybeFlush h1
  obtain ⟨g1, g2, g3⟩ := mild_check h3
  refine ⟨hk.mild.trans (Mild.trans (b := { s1 with rng := fun n => s1.rng (n + 1) }) (Mild.of_eq rfl rfl) (g1.trans (mild_collapse _ _ _ _))),
    fun hb => g2 (hasBad_rng.2 (hk.bad hb)), ?_, ?_⟩
  · exact g3.trans hk.ids
  · rw [← hk.ids, resolveId_ok h2]; rfl

theorem mild_jointMeasure {env : Env} {s s' : Sim} {b : Bool} {ids : List ℕ}
    (h : s.jointMeasure env ids = .ok (b, s')) : Mild s s' ∧ ¬ HasBad s := by
  unfold jointMeasure at h
  obtain ⟨s1, h1, h⟩ := bind_ok h
  obtain ⟨_, h0, h⟩ := bind_ok h
  obtain ⟨loc, h2, h⟩ := bind_ok h
  simp only [nextSample] at h
  obtain ⟨⟨p, s2⟩, h3, h⟩ := bind_ok h
  cases h
  have hk := keep_maybeFlush h1
  obtain ⟨g1, g2, g3⟩ := mild_check h3
  exact ⟨hk.mild.trans (Mild.trans (b := { s1 with rng := fun n => s1.rng (n + 1) }) (Mild.of_eq rfl rfl) (g1.trans (mild_collapse _ _ _ _))),
    fun hb => g2 (hasBad_rng.2 (hk.bad hb))⟩

theorem mild_forceCollapse {env : Env} {s s' : Sim} {p : ℝ} {v : Bool} {q : ℕ}
    (h : s.forceCollapse env v q = .ok (p, s')) : Mild s s' ∧ ¬ HasBad s := by
  unfold forceCollapse at h
  obtain ⟨s1, h1, h⟩ := bind_ok h
  obtain ⟨loc, h2, h⟩ := bind_ok h
  obtain ⟨⟨p', s2⟩, h3, h⟩ := bind_ok h
  simp only [pure_ok, Except.ok.injEq, Prod.mk.injEq] at h
  obtain ⟨_, h⟩ := h
  have hk := keep_maybeFlush h1
  obtain ⟨g1, g2, g3⟩ := mild_check h3
  refine ⟨hk.mild.trans (g1.trans ?_), fun hb => g2 (hk.bad hb)⟩
  rw [← h]
  split
  · exact mild_collapse _ _ _ _
  · exact .refl _

theorem mild_release {env : Env} {s s' : Sim} {q : ℕ} (h : s.release env q = .ok s') :
    Mild s s' ∧ (s.idMap.iter.length ≠ 1 → ¬ HasBad s ∧ (s.idMap.get q).isSome = true) := by
  unfold release at h
  obtain ⟨s1, h1, h⟩ := bind_ok h
  cases h
  unfold releaseState at h1
  split at h1
  · rename_i hl
    cases h1
    exact ⟨⟨by simp [QUEUE_LIMIT], by simp⟩, fun h => absurd hl h⟩
  · obtain ⟨⟨b, s2⟩, h2, h1⟩ := bind_ok h1
    obtain ⟨loc, h3, h1⟩ := bind_ok h1
    obtain ⟨g1, g2, _, g3⟩ := mild_measure h2
    refine ⟨g1.trans ?_, fun _ => ⟨g2, g3⟩⟩
    split at h1
    · cases h1; exact Mild.of_eq rfl rfl
    · cases h1; exact Mild.of_eq rfl rfl

theorem swapEntries_none {m : IMap ℝ} (h : ∀ q, m.get q = none) (a b q : ℕ) :
    (swapEntries m a b).get q = none := by
  unfold swapEntries
  simp only [h a, h b, IMap.get_remove, h q]
  simp

theorem mild_swap {s s' : Sim} {a b : ℕ} (h : s.swapQubitIds a b = .ok s') : Mild s s' ∧ ¬ HasBad s := by
  unfold swapQubitIds at h
  obtain ⟨s1, h1, h⟩ := bind_ok h
  obtain ⟨m1, h2, h⟩ := bind_ok h
  obtain ⟨m2, h3, h⟩ := bind_ok h
  cases h
  obtain ⟨hk, hb⟩ := keep_flushOps h1
  exact ⟨hk.mild.trans ⟨id, fun h q => swapEntries_none h a b q⟩, hb⟩

theorem mild_swapQubitState {env : Env} {s s' : Sim} {a b : ℕ} (h : s.swapQubitState env a b = .ok s') :
    Mild s s' := by
  unfold swapQubitState at h
  split at h
  · cases h; exact .refl _
  · obtain ⟨s1, h1, h⟩ := bind_ok h
    cases h
    exact (keep_flushQueue h1).1.mild.trans (Mild.of_eq rfl rfl)

theorem mild_relocateOne {env : Env} {s s' : Sim} {i k : ℕ} (h : s.relocateOne env i k = .ok s') : Mild s s' := by
  unfold relocateOne at h
  obtain ⟨l, h1, h⟩ := bind_ok h
  split at h
  · obtain ⟨s1, h2, h⟩ := bind_ok h
    cases h
    refine (mild_swapQubitState h2).trans (Mild.of_eq ?_ ?_)
    · show (match findByLoc s1.idMap i with | some swappedKey => _ | none => _ : Sim).opQ = _
      cases findByLoc s1.idMap i <;> rfl
    · show (match findByLoc s1.idMap i with | some swappedKey => _ | none => _ : Sim).rxQ = _
      cases findByLoc s1.idMap i <;> rfl
  · cases h; exact .refl _

theorem mild_relocate {env : Env} {ks : List ℕ} : ∀ {i : ℕ} {s s' : Sim},
    s.relocate env i ks = .ok s' → Mild s s' := by
  induction ks with
  | nil => intro i s s' h; cases h; exact .refl _
  | cons k ks ih =>
    intro i s s' h
    unfold relocate at h
    obtain ⟨s1, h1, h⟩ := bind_ok h
    exact (mild_relocateOne h1).trans (ih h)

theorem mild_getState {env : Env} {s s' : Sim} {r : List (ℕ × ℂ) × ℕ} (h : s.getState env = .ok (r, s')) :
    Mild s s' ∧ ¬ HasBad s := by
  unfold getState at h
  obtain ⟨s1, h1, h⟩ := bind_ok h
  obtain ⟨s2, h2, h⟩ := bind_ok h
  cases h
  exact ⟨(keep_flushQueue h1).1.mild.trans (mild_relocate h2), (keep_flushQueue h1).2⟩

theorem mild_dump {env : Env} {fmt : ℂ → String} {s s' : Sim} {t : String}
    (h : s.dump env fmt = .ok (t, s')) : Mild s s' ∧ ¬ HasBad s := by
  unfold dump at h
  obtain ⟨s1, h1, h⟩ := bind_ok h
  obtain ⟨s2, h2, h⟩ := bind_ok h
  cases h
  exact ⟨(keep_flushQueue h1).1.mild.trans ((mild_relocate h2).trans (Mild.of_eq rfl rfl)),
    (keep_flushQueue h1).2⟩

theorem bound_rx {env : Env} {s s' : Sim} {θ : ℝ} {q : ℕ} (h : s.rx env θ q = .ok s') :
    s'.idMap = s.idMap ∧ (s.opQ.length ≤ QUEUE_LIMIT → s'.opQ.length ≤ QUEUE_LIMIT) ∧
    (HasBad s → HasBad s') := by
  unfold rx at h
  obtain ⟨s1, h1, h⟩ := bind_ok h
  cases h
  have hk := keep_flushIf h1
  exact ⟨hk.ids, hk.bound, hk.bad⟩

/-- Everything about uncontrolled gates but `rx`. -/
theorem keep_gateCall {env : Env} {s s' : Sim} {g : Gate} {q : ℕ} (hg : ∀ θ, g ≠ .rx θ)
    (h : s.gateCall env q g = .ok s') : Keep s s' := by
  cases g with
  | x => exact keep_x h
  | y => exact keep_y h
  | z => exact keep_z h
  | h => exact keep_h h
  | s => exact keep_diag h
  | sadj => exact keep_diag h
  | t => exact keep_diag h
  | tadj => exact keep_diag h
  | rx θ => exact absurd rfl (hg θ)
  | ry θ => exact keep_ry h
  | rz θ => exact keep_diag h

theorem keep_ctrlCall {env : Env} {s s' : Sim} {g : Gate} {cs : List ℕ} {q : ℕ}
    (h : s.ctrlCall env cs q g = .ok s') : Keep s s' := by
  cases g with
  | x => exact keep_mcx h
  | y => exact keep_mcy h
  | z => exact keep_mcz h
  | h => exact (keep_mch h).1
  | s => exact keep_mcDiag h
  | sadj => exact keep_mcDiag h
  | t => exact keep_mcDiag h
  | tadj => exact keep_mcDiag h
  | rx θ => exact (keep_mcrx h).1
  | ry θ => exact (keep_mcry h).1
  | rz θ => exact keep_mcDiag h

theorem quiet_inv {r : Except Panic Sim} {o : Out} {s' : Sim} (h : quiet r = .ok (o, s')) : r = .ok s' := by
  obtain ⟨s1, h1, h⟩ := bind_ok h
  cases h
  exact h1

/-- Observations panic when an invalid operation is queued. -/
theorem observe_inv {env : Env} {c : Call} {s s' : Sim} {o : Out}
    (h : call env c s = .ok (o, s')) (hc : c.Observes) : Mild s s' ∧ ¬ HasBad s := by
  cases c with
  | measure q =>
    obtain ⟨⟨b, s1⟩, h1, h⟩ := bind_ok h
    cases h
    exact ⟨(mild_measure h1).1, (mild_measure h1).2.1⟩
  | jointMeasure qs =>
    obtain ⟨⟨b, s1⟩, h1, h⟩ := bind_ok h
    cases h
    exact mild_jointMeasure h1
  | jointProb qs =>
    obtain ⟨⟨b, s1⟩, h1, h⟩ := bind_ok h
    cases h
    exact mild_jointProbability h1
  | isZero q =>
    obtain ⟨⟨b, s1⟩, h1, h⟩ := bind_ok h
    cases h
    exact mild_isZero h1
  | collapse v q =>
    obtain ⟨⟨b, s1⟩, h1, h⟩ := bind_ok h
    cases h
    exact mild_forceCollapse h1
  | getState =>
    obtain ⟨⟨⟨l, n⟩, s1⟩, h1, h⟩ := bind_ok h
    cases h
    exact mild_getState h1
  | dump fmt =>
    obtain ⟨⟨t, s1⟩, h1, h⟩ := bind_ok h
    cases h
    exact mild_dump h1
  | _ => exact hc.elim

theorem call_bound {env : Env} {c : Call} {s s' : Sim} {o : Out} (h : call env c s = .ok (o, s')) :
    s.opQ.length ≤ QUEUE_LIMIT → s'.opQ.length ≤ QUEUE_LIMIT := by
  cases c with
  | gate g q =>
    have h := quiet_inv h
    cases g with
    | rx θ => exact (bound_rx h).2.1
    | _ => exact (keep_gateCall (fun _ => by simp) h).bound
  | ctrl g cs q => exact (keep_ctrlCall (quiet_inv h)).bound
  | phase cs φ q => exact (keep_mcphase (quiet_inv h)).1.bound
  | exp cs ps θ ts => exact (keep_mcexp (quiet_inv h)).1.bound
  | swap a b => exact (mild_swap (quiet_inv h)).1.bound
  | allocate =>
    simp only [call, Except.ok.injEq, Prod.mk.injEq] at h
    rw [← h.2]
    exact id
  | release q => exact (mild_release (quiet_inv h)).1.bound
  | _ => exact (observe_inv h trivial).1.bound

theorem call_rx_none {env : Env} {c : Call} (hc : ∀ θ q, c ≠ .gate (.rx θ) q) {s s' : Sim} {o : Out}
    (h : call env c s = .ok (o, s')) : (∀ q, s.rxQ.get q = none) → ∀ q, s'.rxQ.get q = none := by
  cases c with
  | gate g q =>
    have h := quiet_inv h
    exact (keep_gateCall (fun θ hg => hc θ q (by rw [hg])) h).rx
  | ctrl g cs q => exact (keep_ctrlCall (quiet_inv h)).rx
  | phase cs φ q => exact (keep_mcphase (quiet_inv h)).1.rx
  | exp cs ps θ ts => exact (keep_mcexp (quiet_inv h)).1.rx
  | swap a b => exact (mild_swap (quiet_inv h)).1.rx
  | allocate =>
    simp only [call, Except.ok.injEq, Prod.mk.injEq] at h
    rw [← h.2]
    exact id
  | release q => exact (mild_release (quiet_inv h)).1.rx
  | _ => exact (observe_inv h trivial).1.rx

/-- Without allocation and release an invalid operation stays in the queue until the panic. -/
theorem call_bad {env : Env} {c : Call} (h1 : c ≠ .allocate) (h2 : ∀ q, c ≠ .release q) {s s' : Sim}
    {o : Out} (h : call env c s = .ok (o, s')) (hb : HasBad s) : HasBad s' ∧ c.IsGate := by
  cases c with
  | gate g q =>
    have h := quiet_inv h
    refine ⟨?_, trivial⟩
    cases g with
    | rx θ => exact (bound_rx h).2.2 hb
    | _ => exact (keep_gateCall (fun _ => by simp) h).bad hb
  | ctrl g cs q => exact ⟨(keep_ctrlCall (quiet_inv h)).bad hb, trivial⟩
  | phase cs φ q => exact absurd hb (keep_mcphase (quiet_inv h)).2.2
  | exp cs ps θ ts => exact absurd hb (keep_mcexp (quiet_inv h)).2.2.2
  | swap a b => exact absurd hb (mild_swap (quiet_inv h)).2
  | allocate => exact absurd rfl h1
  | release q => exact absurd rfl (h2 q)
  | _ => exact absurd hb (observe_inv h trivial).2

theorem run_cons {env : Env} {c : Call} {cs : List Call} {s s' : Sim} {os : List Out}
    (h : runCalls env (c :: cs) s = .ok (os, s')) :
    ∃ o s1 os', call env c s = .ok (o, s1) ∧ runCalls env cs s1 = .ok (os', s') ∧ os = o :: os' := by
  unfold runCalls at h
  obtain ⟨⟨o, s1⟩, h1, h⟩ := bind_ok h
  obtain ⟨⟨os', s2⟩, h2, h⟩ := bind_ok h
  cases h
  exact ⟨o, s1, os', h1, h2, rfl⟩

end Qir
