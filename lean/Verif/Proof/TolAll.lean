import Verif.Props.DriftDefs
import Verif.Proof.TolTrack
import Verif.Proof.TolMeasure

/-! The simulator follows the ideal machine through histories with measurements. -/

noncomputable section
namespace Qir.Tol
open Spec Function Sim

variable {ε : ℝ}

/-! ### Rotations about Y while a half-turn about X is pending -/

theorem optRy_add_neg (q : IMap ℝ) (t : ℕ) (θ : ℝ) :
    Bound ((ε * √2) ^ 2) (optRy (((addAngle ε q t θ).get t).map (fun a => a * (-1))) -
      matRy (-θ) * optRy ((q.get t).map (fun a => a * (-1)))) := by
  rw [addAngle_get]
  simp only [if_true]
  cases q.get t with
  | none =>
    simp only [Option.map_some, Option.map_none, optRy_some, optRy_none, mul_one, mul_neg, sub_self]
    exact bound_zero (by positivity)
  | some a =>
    simp only [Option.map_some, optRy_some, Ry_Ry]
    have e : -θ + a * -1 = -(a + θ) := by ring
    rw [e]
    split
    · rename_i h
      rw [Option.map_none, optRy_none]
      exact bound_turn (by rw [abs_neg]; exact h) true
    · rw [Option.map_some, optRy_some, mul_neg, mul_one, sub_self]; exact bound_zero (by positivity)

theorem ry_turn_step {env : Env} (he : TolOk env) {s : Sim} (hw : WF s) {t : ℕ}
    (ht : (s.idMap.get t).isSome) (θ : ℝ) (hok : HalfTurn env.eps (s.rxQ.get t)) :
    ∃ s', s.ry env θ t = .ok s' ∧ Step env.eps s s' (gateL (matRy (-θ)) t) 1 := by
  unfold Sim.ry
  refine ⟨_, rfl, Step.one (s' := { s with ryQ := addAngle env.eps s.ryQ t θ })
    ⟨⟨hw.b, ?_⟩, hw.slim⟩ rfl rfl ?_⟩
  · intro q hq
    by_cases hqt : q = t
    · subst hqt; exact ht
    · apply hw.queued
      rw [hasQueued_eq] at hq ⊢
      simpa [addAngle_get, hqt] using hq
  · refine (abs_queue ?_ ht (d := env.eps * √2) ?_ ?_ ?_ ?_).mono ?_
    · rfl
    · intro r hr
      simp [pend, addAngle_get, hr]
    · rfl
    · have := he.nonneg; positivity
    · simp only [pend, effRy, if_pos hok]
      rw [← mul_assoc (matRy (-θ)), ← sub_mul]
      refine (optRy_add_neg _ _ _).mul (Isom.mul ?_ ?_)
      · cases s.rxQ.get t with
        | none => exact isom_one
        | some a => exact isom_Rx a
      · cases s.hFlag.testBit t
        · exact isom_one
        · exact isom_H
    · have h0 : 0 ≤ env.eps * √2 := by have := he.nonneg; positivity
      have := le_unit he.nonneg s.idMap.keys.length
      have := hw.slim
      nlinarith

/-! ### One call -/

theorem reach_eq (eps : ℝ) (σ : Ideal) (d : ℝ) (c : Call) :
    σ.reach eps d c = d + (4 * c.work σ : ℕ) * unit eps σ.live.card := by
  unfold Ideal.reach unit; push_cast; ring

theorem carriedOut_live (env : Env) (s : Sim) (c : Call) (σ : Ideal) :
    (σ.step (carriedOut env s c)).live = (σ.step c).live := by
  unfold carriedOut
  split
  · split <;> rfl
  · rfl

theorem carriedOut_validOn (env : Env) (s : Sim) (c : Call) (L : Finset ℕ) :
    (carriedOut env s c).ValidOn L ↔ c.ValidOn L := by
  unfold carriedOut
  split
  · split <;> rfl
  · rfl

theorem postMeasure_smul {c : ℂ} (hc : ‖c‖ = 1) (qs : List ℕ) (v : Bool) (ψ : Wave) :
    postMeasure qs v (c • ψ) = c • postMeasure qs v ψ := by
  rw [postMeasure_eq, postMeasure_eq, prob_smul, normSq_of_norm hc, one_mul, proj_smul, smul_comm]

/-- The state after an observation. -/
theorem Tracks.post {d : ℝ} {t : Sim} {σ : Ideal} (h : Tracks ε d t σ) {qs : List ℕ} {v : Bool}
    (hp : 0 < Spec.prob qs v σ.psi) (hP : 0 < odds qs v (abs ε t)) :
    ∃ c : ℂ, ‖c‖ = 1 ∧ Near (3 * d / Spec.prob qs v σ.psi)
      ((scaling v (Spec.prob qs true (abs ε t)) : ℂ) • proj qs v (abs ε t))
      (c • postMeasure qs v σ.psi) := by
  obtain ⟨c, hc, ha⟩ := h.psi
  have hprob : Spec.prob qs v (c • σ.psi) = Spec.prob qs v σ.psi := by
    rw [prob_smul, normSq_of_norm hc, one_mul]
  have hn : Spec.normSq (c • σ.psi) = 1 := by
    rw [Tol.normSq_smul, normSq_of_norm hc, one_mul, h.good.norm]
  have := post_near ha h.slim hn (qs := qs) (v := v) (by rw [hprob]; exact hp) hP
  rw [hprob, postMeasure_smul hc] at this
  exact ⟨c, hc, this⟩

theorem Tracks.outcome {d : ℝ} {t : Sim} {σ : Ideal} (h : Tracks ε d t σ) {qs : List ℕ}
    (hd : 2 * d < |σ.rng 0 - Spec.prob qs true σ.psi|) :
    decide (t.rng 0 < Spec.prob qs true (abs ε t)) = σ.outcome qs ∧
      0 < odds qs (σ.outcome qs) (abs ε t) := by
  have hp := abs_le.1 (h.prob qs true)
  have hs := h.good.samples 0
  unfold Ideal.outcome
  rw [h.rng]
  rcases lt_abs.1 hd with h1 | h1
  · have e1 : ¬ σ.rng 0 < Spec.prob qs true (abs ε t) := by linarith [hp.2]
    have e2 : ¬ σ.rng 0 < Spec.prob qs true σ.psi := by
      have := (len_nonneg _).trans h.psi.choose_spec.2.le
      linarith
    refine ⟨by rw [decide_eq_decide]; simp only [e1, e2], ?_⟩
    simp only [e2, decide_false, odds, Bool.false_eq_true, if_false]
    linarith [hs.2]
  · have e1 : σ.rng 0 < Spec.prob qs true (abs ε t) := by linarith [hp.1]
    have e2 : σ.rng 0 < Spec.prob qs true σ.psi := by
      have := (len_nonneg _).trans h.psi.choose_spec.2.le
      linarith
    refine ⟨by rw [decide_eq_decide]; simp only [e1, e2], ?_⟩
    simp only [e2, decide_true, odds, if_true]
    linarith [hs.1]

theorem Tracks.measured {d : ℝ} {t s' : Sim} {σ : Ideal} (h : Tracks ε d t σ) {qs : List ℕ}
    (hm : Measured ε qs (σ.outcome qs) t s') (hP : 0 < odds qs (σ.outcome qs) (abs ε t)) :
    Tracks ε (3 * d / Spec.prob qs (σ.outcome qs) σ.psi) s' (σ.measured qs) := by
  refine ⟨hm.wf, ?_, ?_, ?_, h.good.measured qs⟩
  · intro q; rw [hm.idMap]; exact h.live q
  · rw [hm.rng, h.rng]; rfl
  · rw [hm.abs]; exact h.post (h.good.outcome_pos qs) hP

theorem drift_call {env : Env} (he : TolOk env) {d : ℝ} {s : Sim} {σ : Ideal}
    (h : Tracks env.eps d s σ) {c : Call} (hv : σ.Valid c)
    (hd : σ.Decided env.eps d (carriedOut env s c)) :
    ∃ o s', call env c s = .ok (o, s') ∧
      σ.AnswerNear env.eps (σ.reach env.eps d (carriedOut env s c)) (carriedOut env s c) o ∧
      Tracks env.eps (σ.after env.eps d (carriedOut env s c)) s' (σ.step (carriedOut env s c)) := by
  have hmono : ∀ {n : ℕ} {c : Call}, n ≤ 4 * c.work σ →
      d + n * unit env.eps σ.live.card ≤ σ.reach env.eps d c := by
    intro n c hn
    rw [reach_eq]
    have := mul_le_mul_of_nonneg_right (show (n : ℝ) ≤ (4 * c.work σ : ℕ) by exact_mod_cast hn)
      (unit_nonneg he.nonneg σ.live.card)
    linarith
  -- calls that observe nothing
  have easy : (c.IsGate ∨ c.IsLook ∨ c = .allocate) → SteadyCall env s c → carriedOut env s c = c →
      (∀ o, σ.AnswerWithin env.eps (σ.reach env.eps d c) c o →
        σ.AnswerNear env.eps (σ.reach env.eps d c) c o) →
      σ.after env.eps d c = σ.reach env.eps d c →
      ∃ o s', call env c s = .ok (o, s') ∧
        σ.AnswerNear env.eps (σ.reach env.eps d (carriedOut env s c)) (carriedOut env s c) o ∧
        Tracks env.eps (σ.after env.eps d (carriedOut env s c)) s' (σ.step (carriedOut env s c)) := by
    intro hu hs hc ha hb
    obtain ⟨o, s', h1, h2, h3⟩ := tracks_call he h hv hu hs
    rw [hc, hb]
    rw [← reach_eq] at h2 h3
    exact ⟨o, s', h1, ha o h2, h3⟩
  cases c with
  | gate g q =>
    by_cases hry : SteadyCall env s (.gate g q)
    · refine easy (Or.inl (by simp [Call.IsGate])) hry ?_ (fun _ h => h) rfl
      cases g <;> first | rfl | exact if_neg hry
    · cases g with
      | ry θ =>
        have hh : ∃ b, s.rxQ.get q = some b ∧ |Real.cos (b / 2)| ≤ env.eps := by
          simpa only [SteadyCall, not_not] using hry
        have hc : carriedOut env s (.gate (.ry θ) q) = .gate (.ry (-θ)) q := if_pos hh
        rw [hc]
        obtain ⟨s', h1, h2⟩ := ry_turn_step he h.wf ((h.live q).1 hv) θ hh
        have hg := h.good.step (c := .gate (.ry (-θ)) q) hv
        exact ⟨.none, s', by simp only [call, quiet, gateCall, h1, ok_bind, pure_ok], rfl,
          (h.of_step (iso_gate (isom_gate (.ry (-θ))) q) h2 hg).mono
            (hmono (by simp [Call.work, Call.width]))⟩
      | _ => exact absurd trivial hry
  | ctrl g cs q => exact easy (Or.inl (by simp [Call.IsGate])) trivial rfl (fun _ h => h) rfl
  | phase cs φ q => exact easy (Or.inl (by simp [Call.IsGate])) trivial rfl (fun _ h => h) rfl
  | exp cs ps θ ts => exact easy (Or.inl (by simp [Call.IsGate])) trivial rfl (fun _ h => h) rfl
  | swap a b => exact easy (Or.inl (by simp [Call.IsGate])) trivial rfl (fun _ h => h) rfl
  | allocate => exact easy (Or.inr (Or.inr rfl)) trivial rfl (fun _ h => h) rfl
  | jointProb qs => exact easy (Or.inr (Or.inl (by simp [Call.IsLook]))) trivial rfl (fun _ h => h) rfl
  | isZero q => exact easy (Or.inr (Or.inl (by simp [Call.IsLook]))) trivial rfl (fun _ h => h) rfl
  | getState => exact easy (Or.inr (Or.inl (by simp [Call.IsLook]))) trivial rfl (fun _ h => h) rfl
  | dump fmt => exact easy (Or.inr (Or.inl (by simp [Call.IsLook]))) trivial rfl (fun _ h => h) rfl
  | measure q =>
    show ∃ o s', _ ∧ σ.AnswerNear env.eps _ (.measure q) o ∧ Tracks env.eps _ s' (σ.measured [q])
    obtain ⟨t, s', hs, h1, hm⟩ := measure_near he h.wf ((h.live q).1 hv)
    have ht := (h.of_same hs).mono (hmono (c := .measure q) (by simp [Call.work, Call.width]))
    obtain ⟨ho, hP⟩ := ht.outcome (qs := [q]) hd
    rw [hs.rng] at ho
    rw [ho] at h1 hm
    exact ⟨_, s', by simp only [call, h1, ok_bind, pure_ok], rfl, ht.measured hm hP⟩
  | jointMeasure qs =>
    show ∃ o s', _ ∧ σ.AnswerNear env.eps _ (.jointMeasure qs) o ∧ Tracks env.eps _ s' (σ.measured qs)
    obtain ⟨t, s', hs, h1, hm⟩ := jointMeasure_near he h.wf hv.1 (h.alloc hv.2)
    have ht := (h.of_same hs).mono (hmono (c := .jointMeasure qs)
      (by simp only [Call.work, Call.width]; omega))
    obtain ⟨ho, hP⟩ := ht.outcome (qs := qs) hd
    rw [hs.rng] at ho
    rw [ho] at h1 hm
    exact ⟨_, s', by simp only [call, h1, ok_bind, pure_ok], rfl, ht.measured hm hP⟩
  | collapse v q =>
    have hd' : env.eps + 2 * σ.reach env.eps d (.collapse v q) < Spec.prob [q] v σ.psi := hd
    obtain ⟨t, s', hs, h1, hw', hid, hr, hab⟩ := forceCollapse_near he h.wf ((h.live q).1 hv) v
    have ht := (h.of_same hs).mono (hmono (c := .collapse v q) (by simp [Call.work, Call.width]))
    obtain ⟨c, hc, ha⟩ := ht.psi
    have hl1 : len (c • σ.psi) ≤ 1 := by
      rw [len_smul hc]; unfold len; rw [h.good.norm]; simp
    have hod := ha.odds ht.slim hl1 [q] v
    rw [odds_eq ha.fin' (by rw [Tol.normSq_smul, normSq_of_norm hc, one_mul, h.good.norm]), prob_smul,
      normSq_of_norm hc, one_mul] at hod
    have hlow := (abs_le.1 hod).1
    have hodds : env.eps < odds [q] v (abs env.eps t) := by linarith
    have hr0 : 0 ≤ σ.reach env.eps d (.collapse v q) := (len_nonneg _).trans ha.le
    have hpos : 0 < Spec.prob [q] v σ.psi := by linarith [he.nonneg]
    have hst : σ.step (.collapse v q) = { σ with psi := postMeasure [q] v σ.psi } := by
      simp only [Ideal.step, if_neg hpos.ne']
    have hg := h.good.step (c := .collapse v q) hv
    show ∃ o s', _ ∧ σ.AnswerNear env.eps _ (.collapse v q) o ∧
      Tracks env.eps _ s' (σ.step (.collapse v q))
    refine ⟨_, s', by simp only [call, h1, ok_bind, pure_ok], ⟨_, rfl, hod⟩, ?_⟩
    rw [hst] at hg ⊢
    refine ⟨hw', ?_, hr.trans ht.rng, ?_, hg⟩
    · intro r; rw [hid]; exact ht.live r
    · rw [hab hodds]
      exact ht.post hpos (by linarith [he.nonneg])
  | release q =>
    have ha := (h.live q).1 hv
    have hlen : s.idMap.iter.length = σ.live.card := by
      have := h.card
      unfold IMap.keys at this
      rw [List.length_map] at this
      exact this
    have hg := h.good.step (c := .release q) hv
    show ∃ o s', _ ∧ σ.AnswerNear env.eps _ (.release q) o ∧
      Tracks env.eps (σ.after env.eps d (.release q)) s' (σ.step (.release q))
    by_cases hl : σ.live = {q}
    · obtain ⟨s', h1, hw', hid, hr, hab⟩ := release_only (ε := env.eps) (env := env) ha
        (by rw [hlen, hl]; rfl)
      have hst : σ.step (.release q) = { σ with live := ∅, psi := ket zeroBasis } := by
        simp only [Ideal.step, hl, if_true]
      have haf : σ.after env.eps d (.release q) = 0 := by simp only [Ideal.after, hl, if_true]
      rw [haf]
      rw [hst] at hg ⊢
      refine ⟨.none, s', by simp only [call, quiet, h1, ok_bind, pure_ok], rfl,
        ⟨hw', ?_, hr.trans h.rng, ⟨1, by simp, by rw [hab, one_smul]; exact Near.refl (finSupp_ket _)⟩, hg⟩⟩
      intro r
      rw [hid, IMap.get_remove]
      by_cases hrq : r = q
      · simp [hrq]
      · have : r ∉ σ.live := by rw [hl]; simpa using hrq
        rw [h.live] at this
        simp [hrq, this]
    · have hne : s.idMap.iter.length ≠ 1 := by
        rw [hlen]
        intro hc
        obtain ⟨a, ha'⟩ := Finset.card_eq_one.1 hc
        rw [ha', Finset.mem_singleton.1 (show q ∈ ({a} : Finset ℕ) by rw [← ha']; exact hv)] at hl
        exact hl rfl
      obtain ⟨t, s1, hs, h1, hm⟩ := measure_near he h.wf ha
      have ht := (h.of_same hs).mono (hmono (c := .release q) (by simp [Call.work, Call.width]))
      obtain ⟨ho, hP⟩ := ht.outcome (qs := [q]) (hd.resolve_left hl)
      rw [hs.rng] at ho
      rw [ho] at h1 hm
      obtain ⟨s', h2, hw', hid, hr, hab⟩ := release_measured (by rw [hs.idMap]; exact ha) hne h1 hm
      have htm := ht.measured hm hP
      have haf : σ.after env.eps d (.release q) =
          3 * σ.reach env.eps d (.release q) / Spec.prob [q] (σ.outcome [q]) σ.psi := by
        simp only [Ideal.after, hl, if_false]
      have hst : σ.step (.release q) =
          { live := σ.live.erase q
            psi := if σ.outcome [q] then Spec.ctrl [] matX q (σ.measured [q]).psi
              else (σ.measured [q]).psi
            rng := (σ.measured [q]).rng } := by
        simp only [Ideal.step, hl, if_false]
      rw [haf]
      rw [hst] at hg ⊢
      refine ⟨.none, s', by simp only [call, quiet, h2, ok_bind, pure_ok], rfl,
        ⟨hw', ?_, ?_, ?_, hg⟩⟩
      · intro r
        show r ∈ σ.live.erase q ↔ _
        rw [hid, IMap.get_remove, Finset.mem_erase, ht.live]
        by_cases hrq : r = q
        · simp [hrq]
        · simp [hrq]
      · rw [hr, ht.rng]; rfl
      · obtain ⟨w, hw, hn⟩ := htm.psi
        refine ⟨w, hw, ?_⟩
        rw [hab, ← hm.abs]
        generalize 3 * σ.reach env.eps d (.release q) / Spec.prob [q] (σ.outcome [q]) σ.psi = D at hn ⊢
        cases σ.outcome [q]
        · exact hn
        · have := hn.map (iso_gate isom_X q)
          rw [map_smul] at this
          exact this

theorem drift_run {env : Env} (he : TolOk env) (cs : List Call) :
    ∀ {d : ℝ} {s : Sim} {σ : Ideal}, Tracks env.eps d s σ → σ.ValidRun cs →
      σ.AllDecided env.eps d (executed env s cs) →
      ∃ os s', runCalls env cs s = .ok (os, s') ∧
        σ.AnswersNear env.eps d (executed env s cs) os ∧
        Tracks env.eps (σ.driftOf env.eps d (executed env s cs)) s' (σ.run (executed env s cs)) := by
  induction cs with
  | nil => intro d s σ h _ _; exact ⟨[], s, rfl, rfl, h⟩
  | cons c cs ih =>
    intro d s σ h hv hd
    have hd1 : σ.Decided env.eps d (carriedOut env s c) := hd.1
    obtain ⟨o, s1, h1, ha, ht⟩ := drift_call he h hv.1 hd1
    have he' : executed env s (c :: cs) = carriedOut env s c :: executed env s1 cs := by
      simp only [executed, h1]
    rw [he'] at hd ⊢
    obtain ⟨os, s2, h2, ha2, ht2⟩ := ih ht
      ((validRun_congr cs (carriedOut_live env s c σ)).2 hv.2) hd.2
    exact ⟨o :: os, s2, by simp only [runCalls, h1, ok_bind, h2, pure_ok], ⟨o, os, rfl, ha, ha2⟩, ht2⟩

end Qir.Tol
