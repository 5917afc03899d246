import Verif.Proof.Observe

/-! Consequences of the refinement for single calls. -/

noncomputable section
namespace Qir
open Spec Function Sim

theorem quiet_ok {r : Except Panic Sim} {o : Out} {s' : Sim} (h : quiet r = .ok (o, s')) : r = .ok s' := by
  cases r with
  | error e => simp [quiet] at h
  | ok s => simp [quiet] at h; rw [h.2]

theorem call_measure {env : Env} {q : ℕ} {s s' : Sim} {b : Bool}
    (h : call env (.measure q) s = .ok (.bit b, s')) : s.measure env q = .ok (b, s') := by
  cases hm : Sim.measure env q s with
  | error e => simp [call, hm] at h
  | ok r => simp [call, hm] at h; rw [← h.1, ← h.2]

theorem call_jointMeasure {env : Env} {qs : List ℕ} {s s' : Sim} {b : Bool}
    (h : call env (.jointMeasure qs) s = .ok (.bit b, s')) : s.jointMeasure env qs = .ok (b, s') := by
  cases hm : Sim.jointMeasure env qs s with
  | error e => simp [call, hm] at h
  | ok r => simp [call, hm] at h; rw [← h.1, ← h.2]

theorem call_jointProb {env : Env} {qs : List ℕ} {s s' : Sim} {p : ℝ}
    (h : call env (.jointProb qs) s = .ok (.real p, s')) : s.jointProbability env qs = .ok (p, s') := by
  cases hm : Sim.jointProbability env qs s with
  | error e => simp [call, hm] at h
  | ok r => simp [call, hm] at h; rw [← h.1, ← h.2]

theorem call_isZero {env : Env} {q : ℕ} {s s' : Sim} {b : Bool}
    (h : call env (.isZero q) s = .ok (.bit b, s')) : s.qubitIsZero env q = .ok (b, s') := by
  cases hm : Sim.qubitIsZero env q s with
  | error e => simp [call, hm] at h
  | ok r => simp [call, hm] at h; rw [← h.1, ← h.2]

theorem call_collapse {env : Env} {v : Bool} {q : ℕ} {s s' : Sim} {p : ℝ}
    (h : call env (.collapse v q) s = .ok (.real p, s')) : s.forceCollapse env v q = .ok (p, s') := by
  cases hm : Sim.forceCollapse env v q s with
  | error e => simp [call, hm] at h
  | ok r => simp [call, hm] at h; rw [← h.1, ← h.2]

theorem call_getState {env : Env} {s s' : Sim} {l : List (ℕ × ℂ)} {n : ℕ}
    (h : call env .getState s = .ok (.state l n, s')) : s.getState env = .ok ((l, n), s') := by
  cases hm : Sim.getState env s with
  | error e => simp [call, hm] at h
  | ok r => simp [call, hm] at h; rw [← h.1.1, ← h.1.2, ← h.2]

theorem call_dump {env : Env} {s s' : Sim} {fmt : ℂ → String} {t : String}
    (h : call env (.dump fmt) s = .ok (.text t, s')) : s.dump env fmt = .ok (t, s') := by
  cases hm : Sim.dump env fmt s with
  | error e => simp [call, hm] at h
  | ok r => simp [call, hm] at h; rw [← h.1, ← h.2]

/-! ### Probabilities after a measurement -/

theorem prob_post {qs : List ℕ} {b : Bool} {ψ : Wave} (h : 0 < prob qs b ψ) (v : Bool) :
    prob qs v (postMeasure qs b ψ) = if v = b then 1 else 0 := by
  by_cases hv : v = b
  · subst hv
    rw [if_pos rfl]
    have h1 := normSq_postMeasure h
    rw [← h1, ← normSq_proj]
    congr 1
    funext c
    simp only [proj, postMeasure, Pi.smul_apply]
    split <;> simp
  · rw [if_neg hv, ← normSq_proj]
    have : proj qs v (postMeasure qs b ψ) = 0 := by
      funext c
      simp only [proj, postMeasure, Pi.smul_apply, Pi.zero_apply]
      split
      · rename_i hc
        rw [if_neg (by rw [hc]; exact hv)]; simp
      · rfl
    rw [this]
    simp [Spec.normSq]

theorem prob_phase {w : ℂ} (hw : ‖w‖ = 1) (qs : List ℕ) (v : Bool) (ψ : Wave) :
    prob qs v (w • ψ) = prob qs v ψ := by
  rw [prob_smul, normSq_of_norm hw, one_mul]

/-- A measurement chooses a possible outcome. -/
theorem Good.outcome_iff {σ : Ideal} (h : Good σ) {qs : List ℕ} {b : Bool}
    (hb : prob qs b σ.psi = 1) : σ.outcome qs = b := by
  have hp := h.outcome_pos qs
  by_contra hne
  have ha := prob_add h.fin qs
  rw [h.norm] at ha
  have h0 : prob qs (σ.outcome qs) σ.psi = 0 := by
    cases b <;> cases ho : σ.outcome qs <;> simp_all
  linarith

/-- Looking changes nothing. -/
theorem look_step {env : Env} (he : env.eps = 0) {s : Sim} {σ : Ideal} (h : Refines s σ) {c : Call}
    (hc : c.IsLook) (hv : c.ValidOn σ.live) :
    ∃ o s', call env c s = .ok (o, s') ∧ abs s' = abs s ∧ Refines s' σ ∧ σ.Answer c o := by
  cases c with
  | jointProb qs =>
    obtain ⟨s', h1, hs⟩ := jointProbability_spec he h.wf hv.1 (h.alloc hv.2)
    rw [h.prob] at h1
    exact ⟨_, s', by simp only [call, h1, ok_bind, pure_ok], hs.abs, h.of_same hs, rfl⟩
  | isZero q =>
    obtain ⟨s', h1, hs⟩ := qubitIsZero_spec he h.wf ((h.live q).1 hv)
    refine ⟨.bit (decide (Spec.prob [q] true (abs s) = 0)), s',
      by simp only [call, h1, ok_bind, pure_ok], hs.abs, h.of_same hs, ?_⟩
    show Out.bit _ = Out.bit _
    congr 1
    rw [decide_eq_decide, h.prob]
  | getState =>
    obtain ⟨l, s', h1, hw', hr, hsome, hab, hl⟩ := getState_spec he h.wf
    obtain ⟨c, hc, ha⟩ := h.psi
    refine ⟨.state l s.idMap.keys.length, s', by simp only [call, h1, ok_bind, pure_ok], hab,
      ⟨hw', ?_, hr.trans h.rng, ⟨c, hc, by rw [hab, ha]⟩, h.good⟩, ⟨c, l, hc, ?_, ?_⟩⟩
    · intro q; rw [hsome]; exact h.live q
    · rw [← ha, ← h.keys]; exact hl
    · rw [h.keys, Ideal.ids, Finset.length_sort]
  | dump fmt =>
    obtain ⟨l, s', h1, hw', hr, hsome, hab, hl⟩ := dump_spec he fmt h.wf
    obtain ⟨c, hc, ha⟩ := h.psi
    refine ⟨.text (dumpText fmt l), s', by simp only [call, h1, ok_bind, pure_ok], hab,
      ⟨hw', ?_, hr.trans h.rng, ⟨c, hc, by rw [hab, ha]⟩, h.good⟩, ⟨c, l, hc, ?_, by rw [dumpText_eq]⟩⟩
    · intro q; rw [hsome]; exact h.live q
    · rw [← ha, ← h.keys]; exact hl
  | gate g q => exact hc.elim
  | ctrl g cs q => exact hc.elim
  | phase cs φ q => exact hc.elim
  | exp cs ps θ ts => exact hc.elim
  | swap a b => exact hc.elim
  | allocate => exact hc.elim
  | release q => exact hc.elim
  | measure q => exact hc.elim
  | jointMeasure qs => exact hc.elim
  | collapse v q => exact hc.elim

theorem look_run {env : Env} (he : env.eps = 0) {σ : Ideal} (cs : List Call) : ∀ {s : Sim},
    Refines s σ → (∀ c ∈ cs, c.IsLook ∧ c.ValidOn σ.live) →
    ∃ os s', runCalls env cs s = .ok (os, s') ∧ abs s' = abs s ∧ Refines s' σ := by
  induction cs with
  | nil => intro s h _; exact ⟨[], s, rfl, rfl, h⟩
  | cons c cs ih =>
    intro s h hc
    obtain ⟨o, s1, h1, ha1, hr1, _⟩ := look_step he h (hc c (by simp)).1 (hc c (by simp)).2
    obtain ⟨os, s2, h2, ha2, hr2⟩ := ih hr1 (fun c h => hc c (by simp [h]))
    exact ⟨o :: os, s2, by simp only [runCalls, h1, ok_bind, h2, pure_ok], ha2.trans ha1, hr2⟩

/-- Reachability together with what is shown gives the refinement relation. -/
theorem Reachable.rel {env : Env} (he : env.eps = 0) {s : Sim} (h : Reachable env s) {L : Finset ℕ}
    {ψ : Wave} (hs : Shows env s L ψ) : Refines s ⟨L, ψ, s.rng⟩ ∧ abs s = ψ := by
  obtain ⟨σ', hσ'⟩ := h.refines he
  have hσ := hσ'.exact
  obtain ⟨h1, h2⟩ := hσ.shows_eq he hs
  have h1' : L = σ'.live := h1
  subst h1' h2
  exact ⟨hσ, rfl⟩

theorem Reachable.look {env : Env} (he : env.eps = 0) {s s' : Sim} (h : Reachable env s) {σ : Ideal}
    (hσ : Refines s σ) {cs : List Call} (hc : ∀ c ∈ cs, c.IsLook ∧ c.ValidOn σ.live) {os : List Out}
    (hrun : runCalls env cs s = .ok (os, s')) : Reachable env s' := by
  induction cs generalizing s os with
  | nil => cases hrun; exact h
  | cons c cs ih =>
    obtain ⟨o, s1, h1, ha1, hr1, _⟩ := look_step he hσ (hc c (by simp)).1 (hc c (by simp)).2
    have hr := h.call he hσ (hc c (by simp)).2 h1
    simp only [runCalls, h1, ok_bind] at hrun
    cases h2 : runCalls env cs s1 with
    | error e => simp [h2] at hrun
    | ok r =>
      simp [h2] at hrun
      exact ih hr hr1 (fun c h => hc c (by simp [h])) (os := r.1) (by rw [h2, ← hrun.2])

/-- The stored amplitudes have the length of the state. -/
theorem stored_normSq {s : Sim} (hw : WF s) :
    (s.state.map (fun e => Complex.normSq e.2)).sum = Spec.normSq (abs s) := by
  rw [normSq_abs]
  have h1 : Spec.normSq (base s) = Spec.normSq (view s.idMap s.state) := by
    have key : ∀ (ops : List (List ℕ × ℕ × OpCode)), (∀ op ∈ ops, OpndsOk s.idMap op.1 op.2.1) →
        ∀ ψ, FinSupp ψ → Spec.normSq (opsL ops ψ) = Spec.normSq ψ := by
      intro ops
      induction ops with
      | nil => intro _ ψ _; rfl
      | cons op ops ih =>
        intro ho ψ hψ
        rw [opsL_cons, Module.End.mul_apply, ih (fun o h => ho o (by simp [h])) (opL op ψ)
          (hψ.ctrl op.1 (opMat op.2.2) op.2.1)]
        show Spec.normSq (ctrl op.1 (opMat op.2.2) op.2.1 ψ) = _
        refine normSq_ctrl hψ ?_ (ho op (by simp)).not_mem
        cases op.2.2
        · exact isom_X
        · exact isom_Y
        · exact isom_Z
        · exact isom_S
        · exact isom_Sadj
        · exact isom_T
        · exact isom_Tadj
        · exact isom_Rz _
    exact key s.opQ hw.b.ops _ (finSupp_view _ _)
  rw [h1, normSq_eq, sumIf_view _ hw.b.core]
  simp

end Qir
