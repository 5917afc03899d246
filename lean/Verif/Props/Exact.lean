import Verif.Props.Observation
import Verif.Props.Operands
import Verif.Props.Transcript

/-!
# What the code does where a claim fails (C06, C10, C15, C17, C26, C31)

Each of these claims is false of the code in some case, and the theorem with suffix `_partial` leaves that case out.
The theorems below leave nothing out: they say what happens instead.
-/

noncomputable section
namespace Qir
open Spec Sim

variable {env : Env} {s : Sim} {L : Finset ℕ} {ψ : Wave}

/-! ### C10 -/

/-- The state after the release of an identifier that is not allocated, with one qubit. -/
theorem release_other {q0 : ℕ} (hR : Refines s ⟨{q0}, ψ, s.rng⟩) {q : ℕ} (hq : q ≠ q0) :
    s.idMap.iter.length = 1 ∧ ∃ s', s.release env q = .ok s' ∧ Refines s' ⟨{q0}, ket zeroBasis, s.rng⟩ ∧
      abs s' = ket zeroBasis := by
  have hlen : s.idMap.iter.length = 1 := by
    have := congrArg List.length hR.keys
    unfold IMap.keys Ideal.ids at this
    rw [List.length_map, Finset.length_sort] at this
    simpa using this
  have h7 : s.idMap.get q = none := by
    have := (not_congr (hR.live q)).1 (by simp [hq])
    simpa using this
  have hrel : s.release env q = .ok { s with
      opQ := []
      hFlag := 0
      rxQ := IMap.empty
      ryQ := IMap.empty
      state := [(0, 1)]
      idMap := s.idMap.remove q } := by
    unfold release releaseState
    rw [if_pos hlen]
    rfl
  have hid : ∀ i, (s.idMap.remove q).get i = s.idMap.get i := by
    intro i
    rw [IMap.get_remove]
    split
    · rename_i h; rw [h, h7]
    · rfl
  have habs : abs { s with
      opQ := []
      hFlag := 0
      rxQ := IMap.empty
      ryQ := IMap.empty
      state := [(0, 1)]
      idMap := s.idMap.remove q } = ket zeroBasis := by
    rw [Quiet.abs ⟨rfl, fun q => by rw [hasQueued_eq]; simp⟩]
    simp only [view_cons, view_nil, add_zero, entryWave, one_smul]
    congr 1
    funext j
    simp [idBits, zeroBasis]
    split <;> rfl
  refine ⟨hlen, _, hrel, ⟨⟨⟨⟨?_, by simp, by simp [BitsIn]⟩, by simp⟩, ?_⟩, ?_, rfl, ⟨1, by simp, ?_⟩,
    ⟨(good_init (rng := s.rng) hR.good.samples).fin, normSq_ket _, confined_ket_zero _, hR.good.samples⟩⟩, habs⟩
  · intro i j l hi hj
    simp only [hid] at hi hj
    exact hR.wf.b.core.inj i j l hi hj
  · intro q hq
    rw [hasQueued_eq] at hq
    simp at hq
  · intro q
    simp only [hid]
    exact hR.live q
  · rw [one_smul, habs]

/-- **C10**, exactly: releasing an identifier that is not allocated panics unless exactly one qubit is allocated. -/
theorem C10_exactly {q : ℕ} (hq : s.idMap.get q = none) :
    (∃ p, s.release env q = .error p) ↔ s.idMap.iter.length ≠ 1 := by
  refine ⟨?_, C10_release_unknown_partial hq⟩
  rintro ⟨p, h⟩ hlen
  unfold release releaseState at h
  rw [if_pos hlen] at h
  cases h

/-- **C10**, the other case: with one qubit, the release of any other identifier sets that qubit to zero, whatever
state it was in, and leaves it allocated; no sample is used.  Everything that follows is as on an ideal computer with
one qubit in state zero. -/
theorem C10_resets (he : env.eps = 0) {q q0 : ℕ} (hr : Reachable env s) (hs : Shows env s {q0} ψ) (hq : q ≠ q0) :
    ∃ s', s.release env q = .ok s' ∧ Shows env s' {q0} (ket zeroBasis) ∧ s'.rng = s.rng ∧
      ∀ cs, (⟨{q0}, ket zeroBasis, s.rng⟩ : Ideal).ValidRun cs →
        ∃ os s2, runCalls env cs s' = .ok (os, s2) ∧
          (⟨{q0}, ket zeroBasis, s.rng⟩ : Ideal).Answers (executed env s' cs) os := by
  obtain ⟨_, s', h1, h2, h3⟩ := release_other (env := env) (hr.rel he hs).1 hq
  refine ⟨s', h1, ?_, h2.rng, fun cs hcs => ?_⟩
  · have := h2.shows he
    rw [h3] at this
    exact this
  · obtain ⟨os, s2, g1, g2, _⟩ := refine_executed he cs h2 hcs
    exact ⟨os, s2, g1, g2⟩

/-- Such states exist: one qubit in state one, as in `C10_counterexample`. -/
example (he : env.eps = 0) {rng : ℕ → ℝ} (hrng : ∀ n, 0 ≤ rng n ∧ rng n < 1) :
    ∃ (s : Sim) (w : ℂ), ‖w‖ = 1 ∧ Shows env s {0} (w • ket (Function.update zeroBasis 0 true)) ∧ (7 : ℕ) ≠ 0 ∧
      s.idMap.get 7 = none := by
  obtain ⟨_, s, _, w, _, h2, h3, h4, _⟩ := C10_counterexample he hrng
  exact ⟨s, w, h2, h3, by simp, h4⟩

/-! ### C15 -/

/-- **C15**, exactly, at the end of every valid history: `get_state` and `dump` list the state the ideal computer
reaches by the calls carried out (`executed`, as in `C01_exact`). -/
theorem C15_exact (he : env.eps = 0) {rng : ℕ → ℝ} (hrng : ∀ n, 0 ≤ rng n ∧ rng n < 1)
    {cs : List Call} (hv : (Ideal.init rng).ValidRun cs) {os : List Out}
    (hrun : runCalls env cs (Sim.new rng) = .ok (os, s)) (fmt : ℂ → String) :
    ∃ (w : ℂ) (l : List (ℕ × ℂ)) (s' s'' : Sim), ‖w‖ = 1 ∧
      s.getState env = .ok ((l, ((Ideal.init rng).run (executed env (Sim.new rng) cs)).live.card), s') ∧
      s.dump env fmt = .ok (stateText fmt l, s'') ∧
      Lists (((Ideal.init rng).run (executed env (Sim.new rng) cs)).live.sort (· ≤ ·))
        (w • ((Ideal.init rng).run (executed env (Sim.new rng) cs)).psi) l := by
  obtain ⟨os', s1, h1, _, w, hw, hs⟩ := C01_exact he hrng hv
  rw [hrun] at h1
  cases h1
  obtain ⟨l, s', h2, hl⟩ := hs.reported
  have hr : Reachable env s := ⟨rng, cs, os, hrng, hv, hrun⟩
  have hR := (hr.rel he hs).1
  obtain ⟨a, t2, ha1, ha2, hw2, hq2, hrng2, hsome2, hab2, _⟩ := arrange_spec he hR.wf
  have hget : s.getState env = .ok ((sortState t2.state, s.idMap.keys.length), t2) := by
    simp only [getState, show s.idMap.iter.map Prod.fst = s.idMap.keys from rfl, ha1, ha2,
      ok_bind, pure_ok]
  have hdump : s.dump env fmt = .ok (dumpText fmt (sortState t2.state),
      { t2 with state := sortState t2.state }) := by
    simp only [dump, show s.idMap.iter.map Prod.fst = s.idMap.keys from rfl, ha1, ha2,
      ok_bind, pure_ok]
  rw [hget] at h2
  simp only [Except.ok.injEq, Prod.mk.injEq] at h2
  obtain ⟨⟨rfl, h2'⟩, rfl⟩ := h2
  exact ⟨w, _, _, _, hw, by rw [hget, h2'], by rw [hdump, dumpText_eq], hl⟩

/-! ### C06 -/

/-- **C06**, exactly: with and without the observation, the answers to what follows are those of the same ideal
computer; the only difference it can make is which rotations about Y go the other way. -/
theorem C06_exact (he : env.eps = 0) (hr : Reachable env s) (hs : Shows env s L ψ) {c : Call}
    (hc : c.IsLook) (hv : c.ValidOn L) {cs : List Call} (hcs : (⟨L, ψ, s.rng⟩ : Ideal).ValidRun cs) :
    ∃ o s' os os' s1 s1', call env c s = .ok (o, s') ∧ runCalls env cs s = .ok (os, s1) ∧
      runCalls env cs s' = .ok (os', s1') ∧ (⟨L, ψ, s.rng⟩ : Ideal).Answers (executed env s cs) os ∧
      (⟨L, ψ, s.rng⟩ : Ideal).Answers (executed env s' cs) os' := by
  obtain ⟨hR, ha⟩ := hr.rel he hs
  obtain ⟨o, s', h1, hab, hR', _⟩ := look_step he hR hc hv
  obtain ⟨os, s1, g1, g2, _⟩ := refine_executed he cs hR hcs
  obtain ⟨os', s1', g1', g2', _⟩ := refine_executed he cs hR' hcs
  exact ⟨o, s', os, os', s1, s1', h1, g1, g1', g2, g2'⟩

/-! ### C17 -/

/-- **C17**, what happens instead: if nothing is pending under the identifier that will be allocated next, then `h`,
`rx` or `ry` requested under it does exactly what it does when requested after the allocation.  In any state, with
any tolerance. -/
theorem C17_inherited {g : Gate} (hg : g = .h ∨ (∃ θ, g = .rx θ) ∨ ∃ θ, g = .ry θ)
    (hq : s.hasQueued s.allocate.1 = false) :
    ∃ s', runCalls env [.gate g s.allocate.1, .allocate] s = .ok ([.none, .id s.allocate.1], s') ∧
      runCalls env [.allocate, .gate g s.allocate.1] s = .ok ([.id s.allocate.1, .none], s') := by
  rw [hasQueued_eq] at hq
  simp only [Bool.or_eq_false_iff, Option.isSome_eq_false_iff, Option.isNone_iff_eq_none] at hq
  obtain ⟨⟨h1, h2⟩, h3⟩ := hq
  rcases hg with rfl | ⟨θ, rfl⟩ | ⟨θ, rfl⟩
  · refine ⟨_, by
      simp only [runCalls, call, quiet, gateCall, h, flushIf, IMap.containsKey_eq, h2, Option.isSome_none,
        Bool.false_eq_true, if_false, ok_bind, pure_ok]
      rfl, ?_⟩
    simp only [runCalls, call, quiet, gateCall, h, flushIf, IMap.containsKey_eq, ok_bind, pure_ok]
    simp only [allocate] at h2 ⊢
    simp [h2]
  · refine ⟨_, by
      simp only [runCalls, call, quiet, gateCall, rx, flushIf, IMap.containsKey_eq, h1, h3, Option.isSome_none,
        Bool.or_false, Bool.false_eq_true, if_false, ok_bind, pure_ok]
      rfl, ?_⟩
    simp only [runCalls, call, quiet, gateCall, rx, flushIf, IMap.containsKey_eq, ok_bind, pure_ok]
    simp only [allocate] at h1 h3 ⊢
    simp [h1, h3]
  · exact ⟨_, rfl, rfl⟩

/-- The condition is met in every reachable state. -/
example (he : env.eps = 0) (hr : Reachable env s) : s.hasQueued s.allocate.1 = false := by
  obtain ⟨L, ψ, hs⟩ := hr.shows he
  have hR := (hr.rel he hs).1
  by_contra h
  have h1 := hR.wf.queued s.allocate.1 (by simpa using h)
  rw [(allocate_spec hR.wf).1] at h1
  cases h1

end Qir

namespace Qir.Back
open Spec Sim Qir.Out

variable {env : Env} {fmt : Fmt} {s s' : Backend} {L : Finset ℕ} {ψ : Wave}

/-! ### C26 -/

/-- **C26**, exactly, in every state: what is recorded for result `r` is what is read, unless no register is in use;
then result 1 is recorded as one and every other result as zero, and all of them are read as zero. -/
theorem C26_exact (r : ℕ) (tag : Option Bytes) (s : Backend) :
    ∃ s1 s2 s3 b, qstep env fmt (.readResult r) s = .ok (.bit (s.reg r), [], s1) ∧
      qstep env fmt (.recordResult r tag) s = .ok (.unit, Event.line (.record (.result b tag)), s2) ∧
      qstep env fmt (.legacyResult r) s = .ok (.unit, Event.line (.legacy (.result b)), s3) ∧
      (b = s.reg r ↔ ¬ (s.res = [] ∧ r = 1)) ∧ (s.res = [] → b = decide (r = 1)) := by
  by_cases hr : s.res ≠ [] ∨ r ≠ 1
  · obtain ⟨s1, s2, s3, h1, h2, h3⟩ := C26_recorded_partial (env := env) (fmt := fmt) hr tag
    refine ⟨s1, s2, s3, _, h1, h2, h3, ⟨fun _ ⟨h, h'⟩ => hr.elim (fun k => k h) (fun k => k h'), fun _ => rfl⟩, ?_⟩
    intro h0
    have h1 : r ≠ 1 := hr.resolve_left (by simp [h0])
    simp [Backend.reg, h0, h1]
  · obtain ⟨h0, rfl⟩ : s.res = [] ∧ r = 1 := by tauto
    obtain ⟨s1, e1, _⟩ := C25_read (env := env) (fmt := fmt) 1 s
    have e2 : recordedResult 1 s = .ok (true, s) := by
      unfold recordedResult
      rw [h0]
      rfl
    refine ⟨s1, s, s, true, e1, ?_, ?_, ?_, fun _ => rfl⟩
    · simp only [qstep, e2, ok_bind, pure_ok]
      rw [show resultRecordOutput true tag = emit (.result true tag) from rfl, bytesOf_emit]
      rfl
    · simp only [qstep, e2, ok_bind, pure_ok, bytesOf_legacy]
    · simp [Backend.reg, h0]

/-! ### C31 -/

open Classical in
/-- **C31**, exactly: `r` is `exp(-iθ/2 P)`, except that about Y the angle is negated if a half-turn about X is
pending on the qubit. -/
theorem C31_r_exact (he : env.eps = 0) (hq : QReach env fmt s) (hs : Shows env s.sim L ψ) (P : Pauli) (θ : ℝ)
    {q : ℕ} (hu : P = .I ∨ (s.device L ψ).Usable q) :
    ∃ (s' : Backend) (w : ℂ) (α : ℝ), qstep env fmt (.r P θ q) s = .ok (.unit, [], s') ∧ QReach env fmt s' ∧
      ‖w‖ = 1 ∧ α = (if P = .Y ∧ PendingHalfTurn s.sim q then -θ else θ) ∧
      Shows env s'.sim ((s.device L ψ).useAll (if P = .I then [] else [q])).live (w • fun x =>
        Real.cos (α / 2) * ψ x - Complex.I * Real.sin (α / 2) * pauliString [(P, q)] ψ x) := by
  by_cases hp : P = .Y ∧ PendingHalfTurn s.sim q
  · obtain ⟨rfl, hp⟩ := hp
    have hu' : (s.device L ψ).Usable q := hu.resolve_left (by simp)
    have hr := hq.rel he hs
    obtain ⟨s', h1, h2⟩ := r_meant he hr hu' θ hp
    have e : qstep env fmt (.r .Y θ q) s = .ok (.unit, [], s') := by
      simp only [qstep, h1, silent, ok_bind, pure_ok]
    obtain ⟨w, hw, hs'⟩ := h2.shows he
    refine ⟨s', w, -θ, e, hq.of_ref he hr (c := .r .Y θ q) hu e, hw, by simp [hp], ?_⟩
    have := ctrlExp_form [] .Y q (-θ) ψ
    simp only [List.not_mem_nil, false_implies, implies_true, if_true] at this
    rw [← this, show -(-θ / 2) = θ / 2 by ring]
    exact hs'
  · obtain ⟨s', w, e, hq', hw, hs'⟩ := C31_r_partial he hq hs P θ hu (fun h h' => hp ⟨h, h'⟩)
    exact ⟨s', w, θ, e, hq', hw, by rw [if_neg hp], hs'⟩

end Qir.Back
