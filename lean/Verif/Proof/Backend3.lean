import Verif.Proof.Backend2
import Verif.Proof.BackFrame

/-! The backend refines the ideal device: measurements, results, and all calls together. -/

noncomputable section
namespace Qir.Back
open Spec Function Sim Qir.Out

variable {env : Env} {s : Backend} {δ : Device}

/-! ### Measurements -/

theorem outcome_allZ (qs : List ℕ) : δ.outcome (allZ qs) = (ideal δ).outcome qs := by
  unfold Device.outcome Ideal.outcome
  rw [pauliProb_allZ]; rfl

theorem measure_ref (he : env.eps = 0) (h : QRef s δ) {q : ℕ} (hq : q ∈ δ.live) :
    ∃ s', ask (Sim.measure env q) s = .ok (δ.outcome [(.Z, q)], s') ∧ QRef s' { δ with
      psi := pauliPost [(.Z, q)] (δ.outcome [(.Z, q)]) δ.psi, rng := fun n => δ.rng (n + 1) } ∧ s'.res = s.res := by
  obtain ⟨d, o, m, h1, h2, h3, h4⟩ := refine_call he h.sim (c := .measure q) hq
  cases h2
  cases h3
  have e := call_measure h1
  refine ⟨{ s with sim := m }, ?_, ⟨?_, h.high, h.low, h.reg, h.touched⟩, rfl⟩
  · simp only [ask, e, lift, ok_bind, pure_ok]
    rw [show δ.outcome [(.Z, q)] = (ideal δ).outcome [q] from outcome_allZ [q]]
  · rw [show δ.outcome [(.Z, q)] = (ideal δ).outcome [q] from outcome_allZ [q],
      show [(Pauli.Z, q)] = allZ [q] from rfl, pauliPost_allZ]
    exact h4

theorem jointMeasure_ref (he : env.eps = 0) (h : QRef s δ) {qs : List ℕ} (hn : qs.Nodup)
    (hq : ∀ q ∈ qs, q ∈ δ.live) :
    ∃ s', ask (jointMeasure env qs) s = .ok (δ.outcome (allZ qs), s') ∧ QRef s' { δ with
      psi := pauliPost (allZ qs) (δ.outcome (allZ qs)) δ.psi, rng := fun n => δ.rng (n + 1) } := by
  obtain ⟨d, o, m, h1, h2, h3, h4⟩ := refine_call he h.sim (c := .jointMeasure qs) ⟨hn, hq⟩
  cases h2
  cases h3
  have e := call_jointMeasure h1
  refine ⟨{ s with sim := m }, ?_, ⟨?_, h.high, h.low, h.reg, h.touched⟩⟩
  · simp only [ask, e, lift, ok_bind, pure_ok]
    rw [outcome_allZ qs]
  · rw [outcome_allZ qs, pauliPost_allZ]
    exact h4

theorem jointProb_ref (he : env.eps = 0) (h : QRef s δ) {qs : List ℕ} (hn : qs.Nodup)
    (hq : ∀ q ∈ qs, q ∈ δ.live) :
    ∃ s', ask (jointProbability env qs) s = .ok (prob qs true δ.psi, s') ∧ QRef s' δ := by
  obtain ⟨d, o, m, h1, h2, h3, h4⟩ := refine_call he h.sim (c := .jointProb qs) ⟨hn, hq⟩
  cases h2
  cases h3
  have e := call_jointProb h1
  exact ⟨{ s with sim := m }, by simp only [ask, e, lift, ok_bind, pure_ok]; rfl,
    h4, h.high, h.low, h.reg, h.touched⟩

open Classical in
theorem isZero_ref (he : env.eps = 0) (h : QRef s δ) {q : ℕ} (hq : δ.Usable q) :
    ∃ s', qubitIsZero env q s = .ok (decide (pauliProb [(.Z, q)] true δ.psi = 0), s') ∧ QRef s' (δ.use q) := by
  have hu := ensure_ref he h hq
  obtain ⟨d, o, m, h1, h2, h3, h4⟩ := refine_call he hu.sim (c := .isZero q) (mem_use h.low hq)
  cases h2
  cases h3
  have e := call_isZero h1
  refine ⟨{ ensure q s with sim := m }, ?_, h4, hu.high, hu.low, hu.reg, hu.touched⟩
  unfold qubitIsZero
  simp only [ask, e, lift, ok_bind, pure_ok]
  rw [show [(Pauli.Z, q)] = allZ [q] from rfl, pauliProb_allZ]
  simp only [ideal, use_psi]

theorem clear_ref (he : env.eps = 0) (h : QRef s δ) {q : ℕ} (hq : q ∈ δ.live) (b : Bool) :
    ∃ s', (if b then act (x q) s else pure s) = .ok s' ∧ QRef s' (δ.clear b q) := by
  cases b
  · exact ⟨s, rfl, h⟩
  · exact x_ref he h hq

/-- What remains to be done after a qubit has been brought into use. -/
theorem observed_use (h : QRef s δ) {q : ℕ} :
    { δ.use q with
      psi := pauliPost [(.Z, q)] ((δ.use q).outcome [(.Z, q)]) (δ.use q).psi
      rng := fun n => (δ.use q).rng (n + 1) } = δ.observed [(.Z, q)] ∧
    (δ.use q).outcome [(.Z, q)] = δ.outcome [(.Z, q)] := by
  have e : (δ.use q).outcome [(.Z, q)] = δ.outcome [(.Z, q)] := by
    unfold Device.outcome; rw [use_psi, use_rng]
  refine ⟨?_, e⟩
  rw [e, use_psi, use_rng]
  rfl

theorem reset_ref (he : env.eps = 0) (h : QRef s δ) {q : ℕ} (hq : δ.Usable q) :
    ∃ s', reset env q s = .ok s' ∧ QRef s' ((δ.observed [(.Z, q)]).clear (δ.outcome [(.Z, q)]) q) := by
  obtain ⟨s1, e1, r1, _⟩ := measure_ref he (ensure_ref he h hq) (mem_use h.low hq)
  rw [(observed_use h).1] at r1
  rw [(observed_use h).2] at e1
  have hl : q ∈ (δ.observed [(.Z, q)]).live := mem_use h.low hq
  obtain ⟨s2, e2, r2⟩ := clear_ref he r1 hl (δ.outcome [(.Z, q)])
  exact ⟨s2, by simp only [reset, e1, ok_bind]; exact e2, r2⟩

theorem m_ref (he : env.eps = 0) (h : QRef s δ) {q : ℕ} (hq : δ.Usable q) :
    ∃ s', m env q s = .ok (Device.pointer (δ.outcome [(.Z, q)]), s') ∧ QRef s' (δ.observed [(.Z, q)]) := by
  obtain ⟨s1, e1, r1, _⟩ := measure_ref he (ensure_ref he h hq) (mem_use h.low hq)
  rw [(observed_use h).1] at r1
  rw [(observed_use h).2] at e1
  exact ⟨s1, by simp only [m, e1, ok_bind]; rfl, r1⟩

/-! ### Results -/

theorem grow_ne (r : ℕ) (l : List Bool) : (grow r l).isEmpty = false := by
  have := grow_length r l
  cases h : grow r l with
  | nil => rw [h] at this; simp at this
  | cons => rfl

theorem store_ref (h : QRef s δ) (r : ℕ) (v : Bool) :
    QRef { s with res := (grow r s.res).set r v } (δ.store r v) := by
  refine ⟨h.sim, h.high, h.low, ?_, ?_⟩
  · intro i
    show ((grow r s.res).set r v).getD i false = update δ.reg r v i
    rw [set_getD (grow_length r _), grow_getD, update_apply]
    split
    · rfl
    · exact h.reg i
  · show ((grow r s.res).set r v).isEmpty = !true
    have := grow_length r s.res
    cases hg : (grow r s.res).set r v with
    | nil =>
      have hg' := congrArg List.length hg
      rw [List.length_set, List.length_nil] at hg'
      omega
    | cons => rfl

theorem grown_ref (h : QRef s δ) (r : ℕ) : QRef { s with res := grow r s.res } { δ with touched := true } :=
  ⟨h.sim, h.high, h.low, fun i => (grow_getD r s.res i).trans (h.reg i), grow_ne r s.res⟩

theorem mz_ref (he : env.eps = 0) (h : QRef s δ) {q : ℕ} (hq : δ.Usable q) (r : ℕ) :
    ∃ s', mz env q r s = .ok s' ∧ QRef s' ((δ.observed [(.Z, q)]).store r (δ.outcome [(.Z, q)])) := by
  obtain ⟨s1, e1, r1, hres⟩ := measure_ref he (ensure_ref he h hq) (mem_use h.low hq)
  rw [(observed_use h).1] at r1
  rw [(observed_use h).2] at e1
  have e1' : ask (Sim.measure env q) { ensure q s with res := grow r (ensure q s).res } =
      .ok (δ.outcome [(.Z, q)], { s1 with res := grow r s1.res }) := by
    revert e1
    unfold ask
    cases hm : Sim.measure env q (ensure q s).sim with
    | error e => intro e1; simp [lift] at e1
    | ok a =>
      intro e1
      simp only [lift, ok_bind, pure_ok, Except.ok.injEq, Prod.mk.injEq] at e1 ⊢
      refine ⟨e1.1, ?_⟩
      rw [← e1.2]
  exact ⟨_, by simp only [mz, e1', ok_bind, pure_ok], store_ref r1 r _⟩

theorem mresetz_ref (he : env.eps = 0) (h : QRef s δ) {q : ℕ} (hq : δ.Usable q) (r : ℕ) :
    ∃ s', mresetz env q r s = .ok s' ∧ QRef s'
      (((δ.observed [(.Z, q)]).clear (δ.outcome [(.Z, q)]) q).store r (δ.outcome [(.Z, q)])) := by
  obtain ⟨s1, e1, r1, hres⟩ := measure_ref he (ensure_ref he h hq) (mem_use h.low hq)
  rw [(observed_use h).1] at r1
  rw [(observed_use h).2] at e1
  have e1' : ask (Sim.measure env q) { ensure q s with res := grow r (ensure q s).res } =
      .ok (δ.outcome [(.Z, q)], { s1 with res := grow r s1.res }) := by
    revert e1
    unfold ask
    cases hm : Sim.measure env q (ensure q s).sim with
    | error e => intro e1; simp [lift] at e1
    | ok a =>
      intro e1
      simp only [lift, ok_bind, pure_ok, Except.ok.injEq, Prod.mk.injEq] at e1 ⊢
      refine ⟨e1.1, ?_⟩
      rw [← e1.2]
  have hl : q ∈ (δ.observed [(.Z, q)]).live := mem_use h.low hq
  obtain ⟨s2, e2, r2⟩ := clear_ref he r1 hl (δ.outcome [(.Z, q)])
  have e2' : (if δ.outcome [(.Z, q)] then act (x q) { s1 with res := grow r s1.res }
      else pure { s1 with res := grow r s1.res }) = (.ok { s2 with res := grow r s2.res } : Except Stop Backend) := by
    revert e2
    cases δ.outcome [(.Z, q)]
    · intro e2
      simp only [Bool.false_eq_true, if_false, pure_ok, Except.ok.injEq] at e2 ⊢
      rw [e2]
    · simp only [if_true]
      unfold act
      cases hm : x q s1.sim with
      | error e => intro e2; simp [lift] at e2
      | ok a =>
        intro e2
        simp only [lift, ok_bind, pure_ok, Except.ok.injEq] at e2 ⊢
        rw [← e2]
  refine ⟨_, ?_, store_ref r2 r _⟩
  simp only [mresetz, e1', ok_bind, pure_ok]
  revert e2'
  cases δ.outcome [(.Z, q)]
  · intro e2'
    simp only [Bool.false_eq_true, if_false, pure_ok, Except.ok.injEq] at e2' ⊢
    rw [Backend.mk.injEq] at e2'
    obtain ⟨a, b, c, d⟩ := e2'
    rw [a, b, c, d]
  · intro e2'
    simp only [if_true] at e2' ⊢
    rw [e2']
    rfl

theorem readResult_ref (h : QRef s δ) (r : ℕ) :
    ∃ s', readResult r s = .ok (δ.reg r, s') ∧ QRef s' { δ with touched := true } := by
  refine ⟨_, ?_, grown_ref h r⟩
  simp only [readResult, grow_get?]
  rw [← h.reg r]; rfl

theorem recordedResult_ref (h : QRef s δ) (r : ℕ) :
    ∃ s', recordedResult r s = .ok (δ.resultValue r, s') ∧ QRef s' δ := by
  unfold recordedResult Device.resultValue
  have ht := h.touched
  cases hd : δ.touched
  · rw [hd] at ht
    simp only [Bool.not_false] at ht
    rw [if_pos ht]
    exact ⟨s, by simp [resultEqual, resultPtr], h⟩
  · rw [hd] at ht
    simp only [Bool.not_true] at ht
    rw [if_neg (by rw [ht]; simp)]
    have hg := grown_ref h r
    have e : { δ with touched := true } = δ := by rw [← hd]
    rw [e] at hg
    refine ⟨_, ?_, hg⟩
    simp only [grow_get?, if_true]
    rw [← h.reg r]; rfl

/-! ### Pauli measurements -/

theorem nonIdentity_ne {ps : List Pauli} {qs : List ℕ} : ∀ p ∈ nonIdentity ps qs, p.1 ≠ .I := by
  intro p hp
  simpa using (List.mem_filter.1 hp).2

theorem mapToZ_ref (he : env.eps = 0) (h : QRef s δ) {ps : List Pauli} {qs : List ℕ} (hlen : ps.length = qs.length)
    (hu : ∀ i ∈ (nonIdentity ps qs).map Prod.snd, δ.Usable i) :
    ∃ s', mapToZ env ps qs s = .ok (nonIdentity ps qs, s') ∧
      QRef s' { δ.useAll ((nonIdentity ps qs).map Prod.snd) with psi := mapL (nonIdentity ps qs) δ.psi } ∧
      ∀ i ∈ (nonIdentity ps qs).map Prod.snd, i ∈ (δ.useAll ((nonIdentity ps qs).map Prod.snd)).live := by
  obtain ⟨h1, h2, _⟩ := ensureAll_ref he _ h hu
  obtain ⟨s', e, r⟩ := map_ref he (nonIdentity ps qs) h1 (fun p hp => h2 p.2 (List.mem_map_of_mem hp))
  rw [useAll_psi] at r
  refine ⟨s', ?_, r, h2⟩
  unfold mapToZ
  rw [if_neg (by simp [hlen])]
  simp only [e, ok_bind, pure_ok]

theorem fin_of (h : QRef s δ) : FinSupp δ.psi := h.sim.good.fin

theorem pauliMeasure_ref (he : env.eps = 0) (h : QRef s δ) {ps : List Pauli} {qs : List ℕ}
    (hlen : ps.length = qs.length) (hn : ((support ps qs).map Prod.snd).Nodup)
    (hu : ∀ i ∈ (support ps qs).map Prod.snd, δ.Usable i) :
    ∃ s', measure env ps qs s = .ok (Device.pointer (δ.outcome (support ps qs)), s') ∧
      QRef s' (δ.observed (support ps qs)) := by
  have hs : support ps qs = nonIdentity ps qs := rfl
  rw [hs] at hn hu ⊢
  set l := nonIdentity ps qs with hl
  obtain ⟨s1, e1, r1, l1⟩ := mapToZ_ref he h hlen hu
  rw [← hl] at e1 r1 l1
  obtain ⟨s2, e2, r2⟩ := jointMeasure_ref he r1 (qs := l.map Prod.snd) hn l1
  obtain ⟨s3, e3, r3⟩ := unmap_ref he l r2 (fun p hp => l1 p.2 (List.mem_map_of_mem hp))
  have ho : Device.outcome (allZ (l.map Prod.snd)) { δ.useAll (l.map Prod.snd) with psi := mapL l δ.psi } =
      δ.outcome l := by
    unfold Device.outcome
    simp only [pauliProb_allZ, useAll_rng]
    rw [prob_mapL hn nonIdentity_ne (fin_of h)]
  refine ⟨s3, ?_, ?_⟩
  · simp only [measure, e1, ok_bind, e2, e3, pure_ok, ho]; rfl
  · unfold Device.observed
    have := unmap_postMeasure hn nonIdentity_ne (fin_of h) (δ.outcome l)
    simp only [ho] at r3
    simp only [pauliPost_allZ, this, useAll_rng] at r3
    exact r3

theorem pauliProb_add (h : QRef s δ) {l : List (Pauli × ℕ)} (hn : (l.map Prod.snd).Nodup)
    (hI : ∀ p ∈ l, p.1 ≠ .I) : pauliProb l true δ.psi + pauliProb l false δ.psi = 1 := by
  rw [← prob_mapL hn hI (fin_of h), ← prob_mapL hn hI (fin_of h), prob_add ((fin_of h).mapL l),
    normSq_mapL (fin_of h)]
  exact h.sim.good.norm

theorem assertProb_ref (he : env.eps = 0) (h : QRef s δ) {ps : List Pauli} {qs : List ℕ}
    (hlen : ps.length = qs.length) (hn : ((support ps qs).map Prod.snd).Nodup)
    (hu : ∀ i ∈ (support ps qs).map Prod.snd, δ.Usable i) (result : ℕ) (prob : ℝ) (msg : List Char) (tol : ℝ) :
    (|pauliProb (support ps qs) (decide (result ≠ 0)) δ.psi - prob| ≤ tol →
      ∃ s', assertProb env ps qs result prob msg tol s = .ok s' ∧
        QRef s' (δ.useAll ((support ps qs).map Prod.snd))) ∧
    (¬ |pauliProb (support ps qs) (decide (result ≠ 0)) δ.psi - prob| ≤ tol →
      assertProb env ps qs result prob msg tol s = .error (.fail msg)) := by
  have hs : support ps qs = nonIdentity ps qs := rfl
  rw [hs] at hn hu ⊢
  set l := nonIdentity ps qs with hl
  obtain ⟨s1, e1, r1, l1⟩ := mapToZ_ref he h hlen hu
  rw [← hl] at e1 r1 l1
  obtain ⟨s2, e2, r2⟩ := jointProb_ref he r1 (qs := l.map Prod.snd) hn l1
  obtain ⟨s3, e3, r3⟩ := unmap_ref he l r2 (fun p hp => l1 p.2 (List.mem_map_of_mem hp))
  have hp : Spec.prob (l.map Prod.snd) true (mapL l δ.psi) = pauliProb l true δ.psi :=
    prob_mapL hn nonIdentity_ne (fin_of h) true
  have ha : (if resultEqual result (resultPtr false) then 1 - Spec.prob (l.map Prod.snd) true (mapL l δ.psi)
      else Spec.prob (l.map Prod.snd) true (mapL l δ.psi)) = pauliProb l (decide (result ≠ 0)) δ.psi := by
    rw [hp]
    by_cases hr : result = 0
    · subst hr
      have := pauliProb_add h hn nonIdentity_ne
      rw [if_pos (by simp [resultEqual, resultPtr])]
      simp only [ne_eq, not_true_eq_false, decide_false]
      linarith
    · rw [if_neg (by simp [resultEqual, resultPtr, hr])]
      simp [hr]
  have e : assertProb env ps qs result prob msg tol s =
      if |pauliProb l (decide (result ≠ 0)) δ.psi - prob| > tol then .error (.fail msg) else .ok s3 := by
    simp only [assertProb, e1, ok_bind, e2, ha, e3]
  constructor
  · intro hle
    refine ⟨s3, by rw [e, if_neg (not_lt.2 hle)], ?_⟩
    have hid : unmapL l (mapL l δ.psi) = δ.psi := by
      rw [← Module.End.mul_apply, unmapL_mapL hn]; rfl
    rw [show ({ δ.useAll (l.map Prod.snd) with psi := mapL l δ.psi } : Device).psi = mapL l δ.psi from rfl,
      hid] at r3
    have ep := useAll_psi (l.map Prod.snd) δ
    rw [← ep] at r3
    exact r3
  · intro hle
    rw [e, if_pos (not_le.1 hle)]

/-! ### Allocation -/

theorem qubitAllocate_ref (he : env.eps = 0) (h : QRef s δ) :
    (qubitAllocate s).1 = δ.fresh ∧ QRef (qubitAllocate s).2
      { δ with live := insert δ.fresh δ.live, high := max δ.high (δ.fresh + 1) } := by
  have hf : s.sim.allocate.1 = δ.fresh := fresh_eq h.sim
  refine ⟨hf, allocate_ref he h.sim, ?_, ?_, h.reg, h.touched⟩
  · show Nat.max s.max (s.sim.allocate.1 + 1) = _
    rw [hf, h.high]
    try rfl
  · intro q hq
    show q < max δ.high (δ.fresh + 1)
    rcases Finset.mem_insert.1 hq with rfl | hq
    · omega
    · have := h.low q hq; omega

theorem release_ref (he : env.eps = 0) (h : QRef s δ) {q : ℕ} (hq : q ∈ δ.live) :
    ∃ s', qubitRelease env q s = .ok s' ∧ QRef s' (if δ.live = {q} then { δ with live := ∅, psi := ket zeroBasis }
      else { (δ.observed [(.Z, q)]).clear (δ.outcome [(.Z, q)]) q with live := δ.live.erase q }) := by
  obtain ⟨d, o, mm, h1, h2, h3, h4⟩ := refine_call he h.sim (c := .release q) hq
  cases h2
  have e := quiet_ok h1
  refine ⟨{ s with sim := mm }, by simp only [qubitRelease, act, e, lift, ok_bind, pure_ok], ?_⟩
  simp only [Ideal.step] at h4
  by_cases hl : δ.live = {q}
  · rw [if_pos hl]
    rw [if_pos (show (ideal δ).live = {q} from hl)] at h4
    exact ⟨h4, h.high, by simp, h.reg, h.touched⟩
  · rw [if_neg hl]
    rw [if_neg (show ¬ (ideal δ).live = {q} from hl)] at h4
    have hu := apply_live [q] (by simpa using hq) h.low
    have ho : δ.observed [(.Z, q)] = { δ with
        psi := pauliPost [(.Z, q)] (δ.outcome [(.Z, q)]) δ.psi, rng := fun n => δ.rng (n + 1) } := by
      unfold Device.observed
      rw [show List.map Prod.snd [(Pauli.Z, q)] = [q] from rfl, hu]
    rw [ho]
    refine ⟨?_, h.high, fun i hi => h.low i (Finset.mem_of_mem_erase hi), h.reg, h.touched⟩
    rw [show δ.outcome [(.Z, q)] = (ideal δ).outcome [q] from outcome_allZ [q],
      show [(Pauli.Z, q)] = allZ [q] from rfl, pauliPost_allZ]
    exact h4

/-! ### Output -/

theorem bytesOf_write (b : Bytes) : bytesOf (Io.write b) = b := by
  simp [bytesOf, Io.write]

theorem bytesOf_emit (r : Record) : bytesOf (emit r) = r.body ++ [10] := by
  have : emit r = Io.write (r.body ++ [10]) := funext (emit_eq r)
  rw [this, bytesOf_write]

theorem bytesOf_legacy (r : Legacy) : bytesOf (emitLegacy r) = Event.line (.legacy r) := by
  have : emitLegacy r = Io.write (Event.line (.legacy r)) := by
    funext io
    simp only [emitLegacy, recordOutputStr, Io.newline, Io.write_write, Event.line, lineEnding, ascii_append]
    congr 1
  rw [this, bytesOf_write]

end Qir.Back
