import Verif.Proof.RndApply5
import Verif.Proof.RoundedApplyExact
import Verif.Props.Rounding

/-!
# C84: applying matrices in rounded arithmetic
-/

noncomputable section
namespace Qir
open Spec Sim

/-- **C84**.  `C62_every_history` with applications of unitary matrices among the calls.  For every arithmetic whose
rounding errors are at most a thousandth of the tolerance, every bound `N` on the number of qubits and every valid history
of public calls and `apply` with unitary matrices, whose entries are rounded before the call, in which the angles of the
uncontrolled rotations about X and Y are not so large that the rounding error of their sum exceeds the tolerance: if no
`apply` meets a gap, no observation of the ideal machine is undecided within the error accumulated so far, and this error
stays below one half, then nothing panics and every answer is the ideal machine's answer to the calls `executedX`, within
that error.  A matrix on `t` qubits, controls included, adds at most `15 eps √(2^N) (2^t + 3 t)` to the error. -/
theorem C84_every_history {A : Arith} (h0 : 0 < A.eps) (h1 : A.eps ≤ 1 / 4) (h2 : 1000 * (A.u + A.eta) ≤ A.eps)
    {rng : ℕ → ℝ} (hr : ∀ n, 0 ≤ rng n ∧ rng n < 1) {cs : List XCall} (hv : (Ideal.init rng).XValidRun cs)
    (ha : A.u * Rnd.totalTurnX A cs + A.eta ≤ A.eps) (hg : Rnd.NoGap A (Sim.new rng) cs) {N : ℕ}
    (hd : (Ideal.init rng).AllDecidedX A N 0 (Rnd.executedX A (Sim.new rng) cs)) :
    ∃ os s', Rnd.runX A cs (Sim.new rng) = .ok (os, s') ∧
      (Ideal.init rng).AnswersNearX A N 0 (Rnd.executedX A (Sim.new rng) cs) os :=
  Rnd.track_runX ⟨h0, h1, h2⟩ cs (Rnd.tracks_new hr) hv le_rfl (Rnd.low_new rng) (by rw [zero_add]; exact ha)
    (.inl hg) hd

/-- The same without the condition on gaps, for histories without a release. -/
theorem C84_no_release {A : Arith} (h0 : 0 < A.eps) (h1 : A.eps ≤ 1 / 4) (h2 : 1000 * (A.u + A.eta) ≤ A.eps)
    {rng : ℕ → ℝ} (hr : ∀ n, 0 ≤ rng n ∧ rng n < 1) {cs : List XCall} (hv : (Ideal.init rng).XValidRun cs)
    (ha : A.u * Rnd.totalTurnX A cs + A.eta ≤ A.eps) (hrel : ∀ q, XCall.base (.release q) ∉ cs) {N : ℕ}
    (hd : (Ideal.init rng).AllDecidedX A N 0 (Rnd.executedX A (Sim.new rng) cs)) :
    ∃ os s', Rnd.runX A cs (Sim.new rng) = .ok (os, s') ∧
      (Ideal.init rng).AnswersNearX A N 0 (Rnd.executedX A (Sim.new rng) cs) os :=
  Rnd.track_runX ⟨h0, h1, h2⟩ cs (Rnd.tracks_new hr) hv le_rfl (Rnd.low_new rng) (by rw [zero_add]; exact ha)
    (.inr ⟨by rintro l ⟨q, hq⟩; simp [Sim.new] at hq, hrel⟩) hd

/-- With exact arithmetic the model with rounding is the model without. -/
theorem C84_exact_arithmetic (env : Env) (cs : List XCall) (s : Sim) :
    Rnd.runX (Arith.exact env) cs s = runX env cs s := by rw [Rnd.runX_exact]

namespace Rnd

theorem card_xrun_le (cs : List XCall) : ∀ (σ : Ideal), (∀ c ∈ cs, c.Plain) → σ.live.card ≤ (σ.xrun cs).live.card := by
  induction cs with
  | nil => intro σ _; exact le_rfl
  | cons c cs ih =>
    intro σ h
    refine le_trans ?_ (ih (σ.xstep c) (fun c hc => h c (by simp [hc])))
    cases c with
    | base c => exact Tol.card_run_le [c] σ (by intro c' hc'; simp only [List.mem_singleton] at hc'; subst hc'; exact h (.base c') (by simp))
    | apply _ _ _ => exact le_rfl

theorem afterX_plain {A : Arith} {N : ℕ} {σ : Ideal} {d : ℝ} {c : XCall} (h : c.Plain) :
    σ.afterX A N d c = σ.reachX A N d c := by
  cases c with
  | base c =>
    rcases h with h | h | h
    · cases c <;> first | rfl | simp [Call.IsGate] at h
    · cases c <;> first | rfl | simp [Call.IsLook] at h
    · subst h; rfl
  | apply _ _ _ => rfl

theorem plain_decidedX {A : Arith} {N : ℕ} (he : 0 ≤ A.eps) (cs : List XCall) : ∀ {σ : Ideal} {d : ℝ},
    (∀ c ∈ cs, c.Plain) → (σ.xrun cs).live.card ≤ N → 0 ≤ d →
    slack A N (d + 15 * A.eps * √(2 ^ N) * σ.workX cs) ≤ 1 / 2 → σ.AllDecidedX A N d cs := by
  induction cs with
  | nil => intros; trivial
  | cons c cs ih =>
    intro σ d hu hN hd0 hs
    have hcard := (card_xrun_le cs (σ.xstep c) (fun c hc => hu c (by simp [hc]))).trans hN
    have e : d + 15 * A.eps * √(2 ^ N) * σ.workX (c :: cs) =
        σ.reachX A N d c + 15 * A.eps * √(2 ^ N) * (σ.xstep c).workX cs := by
      simp only [Ideal.workX, Ideal.reachX]; push_cast; ring
    rw [e] at hs
    have hnn : 0 ≤ 15 * A.eps * √(2 ^ N) * (σ.xstep c).workX cs := by positivity
    have hr0 : 0 ≤ σ.reachX A N d c := by unfold Ideal.reachX; positivity
    have hs1 : slack A N (σ.reachX A N d c) ≤ 1 / 2 := by
      refine le_trans ?_ hs
      unfold slack; linarith
    have hr1 := (slack_ge A N hr0).trans hs1
    refine ⟨?_, ?_⟩
    · have haf := afterX_plain (A := A) (N := N) (σ := σ) (d := d) (hu c (by simp))
      have hp := hu c (by simp)
      cases c with
      | base c =>
        refine ⟨hcard, hs1, haf.le.trans hr1, ?_⟩
        rcases hp with h | h | h
        · cases c <;> trivial
        · cases c <;> trivial
        · subst h; trivial
      | apply _ _ _ => exact hr1
    · rw [afterX_plain (hu c (by simp))]
      exact ih (fun c hc => hu c (by simp [hc])) hN hr0 hs

theorem plain_answersX {A : Arith} {N : ℕ} {D : ℝ} (he : 0 ≤ A.eps) (cs : List XCall) :
    ∀ {σ : Ideal} {d : ℝ} {os : List Out}, (∀ c ∈ cs, c.Plain) →
    slack A N (d + 15 * A.eps * √(2 ^ N) * σ.workX cs) ≤ D → σ.AnswersNearX A N d cs os →
    σ.AnswersWithinX A.eps D cs os := by
  induction cs with
  | nil => intro _ _ _ _ _ h; exact h
  | cons c cs ih =>
    intro σ d os hu hs h
    obtain ⟨o, os', rfl, ha, hrest⟩ := h
    have e : d + 15 * A.eps * √(2 ^ N) * σ.workX (c :: cs) =
        σ.reachX A N d c + 15 * A.eps * √(2 ^ N) * (σ.xstep c).workX cs := by
      simp only [Ideal.workX, Ideal.reachX]; push_cast; ring
    rw [e] at hs
    have hnn : 0 ≤ 15 * A.eps * √(2 ^ N) * (σ.xstep c).workX cs := by positivity
    have hs1 : slack A N (σ.reachX A N d c) ≤ D := by
      refine le_trans ?_ hs
      unfold slack; linarith
    have hp := hu c (by simp)
    rw [afterX_plain hp] at hrest
    have hrest' := ih (fun c hc => hu c (by simp [hc])) hs hrest
    cases c with
    | base c =>
      refine ⟨o, os', rfl, ?_, hrest'⟩
      have ha' : σ.AnswerWithin A.eps (slack A N (σ.reachX A N d (.base c))) c o := by
        rcases hp with h | h | h
        · cases c <;> first | exact ha | simp [Call.IsGate] at h
        · cases c <;> first | exact ha | simp [Call.IsLook] at h
        · subst h; exact ha
      exact Tol.AnswerWithin.mono hs1 ha'
    | apply _ _ _ =>
      obtain rfl : o = .none := ha
      exact ⟨os', rfl, hrest'⟩

theorem executedX_plain {A : Arith} (cs : List XCall) : ∀ {s : Sim}, (∀ c ∈ cs, c.Plain) →
    ∀ c ∈ executedX A s cs, c.Plain := by
  induction cs with
  | nil => intro s _ c hc; simp [executedX] at hc
  | cons c cs ih =>
    intro s h c' hc'
    unfold executedX at hc'
    rcases List.mem_cons.1 hc' with rfl | hm
    · have := h c (by simp)
      cases c with
      | base c =>
        show (carriedOut A s c).IsGate ∨ _
        unfold carriedOut
        split
        · split <;> exact Or.inl (by simp [Call.IsGate])
        · exact this
      | apply _ _ _ => trivial
    · split at hm
      · exact ih (fun c hc => h c (by simp [hc])) c' hm
      · exact h c' (by simp [hm])

theorem executedX_no_ry {A : Arith} (cs : List XCall) : ∀ {s : Sim}, (∀ θ q, XCall.base (.gate (.ry θ) q) ∉ cs) →
    executedX A s cs = cs := by
  induction cs with
  | nil => intro s _; rfl
  | cons c cs ih =>
    intro s h
    have hc : carriedOutX A s c = c := by
      cases c with
      | base c =>
        show XCall.base (carriedOut A s c) = _
        unfold carriedOut
        split
        · rename_i θ q; exact absurd (by simp) (h θ q)
        · rfl
      | apply _ _ _ => rfl
    unfold executedX
    rw [hc]
    congr 1
    split
    · exact ih (fun θ q hm => h θ q (List.mem_cons_of_mem _ hm))
    · rfl

end Rnd

/-- **C84** in closed form, for histories of gates, allocations, queries and applications of matrices: with `n` qubits every
answer is right within `20 eps √(2^n)` times the work of the history plus `10 · 2^n` rounding errors, provided this is at
most one half. -/
theorem C84_bound {A : Arith} (h0 : 0 < A.eps) (h1 : A.eps ≤ 1 / 4) (h2 : 1000 * (A.u + A.eta) ≤ A.eps)
    {rng : ℕ → ℝ} (hr : ∀ n, 0 ≤ rng n ∧ rng n < 1) {cs : List XCall} (hv : (Ideal.init rng).XValidRun cs)
    (hu : ∀ c ∈ cs, c.Plain)
    (ha : A.u * Rnd.totalTurnX A cs + A.eta ≤ A.eps) {xs : List XCall} (hx : xs = Rnd.executedX A (Sim.new rng) cs)
    {n : ℕ} (hn : n = ((Ideal.init rng).xrun xs).live.card)
    {D : ℝ} (hD : D = 20 * A.eps * √(2 ^ n) * (Ideal.init rng).workX xs + 10 * 2 ^ n * (A.u + A.eta)) (hD1 : D ≤ 1 / 2) :
    ∃ os s', Rnd.runX A cs (Sim.new rng) = .ok (os, s') ∧ (Ideal.init rng).AnswersWithinX A.eps D xs os := by
  have hu' : ∀ c ∈ xs, c.Plain := by rw [hx]; exact Rnd.executedX_plain cs hu
  have hs : slack A n (0 + 15 * A.eps * √(2 ^ n) * (Ideal.init rng).workX xs) ≤ D := by
    rw [hD]
    unfold slack
    have : 0 ≤ A.eps * √(2 ^ n) * (Ideal.init rng).workX xs := by positivity
    linarith
  have hrel : ∀ q, XCall.base (.release q) ∉ cs := by
    intro q hq
    rcases hu _ hq with h | h | h
    · simp [Call.IsGate] at h
    · simp [Call.IsLook] at h
    · cases h
  obtain ⟨os, s', h3, h4⟩ := C84_no_release h0 h1 h2 hr hv ha hrel (N := n)
    (by rw [← hx]; exact Rnd.plain_decidedX h0.le xs hu' hn.ge le_rfl (hs.trans hD1))
  rw [← hx] at h4
  exact ⟨os, s', h3, Rnd.plain_answersX h0.le xs hu' hs h4⟩

/-- A case of `C84_bound`: the Bell pair made with the matrix of X under a control and followed by `get_state`, in double
precision at the tolerance of the code.  The reported state is within `1e-7` of the Bell state. -/
example (shuffle : List (ℕ × ℂ) → List (ℕ × ℂ)) (hsh : ∀ l, (shuffle l).Perm l) {rng : ℕ → ℝ}
    (hr : ∀ n, 0 ≤ rng n ∧ rng n < 1) :
    ∃ (s' : Sim) (ψ : Wave) (l : List (ℕ × ℂ)) (w : ℂ),
      Rnd.runX (binary64 shuffle hsh) [.base .allocate, .base .allocate, .base (.gate .h 0), .apply [0] xMatrix [1],
        .base .getState] (Sim.new rng) =
        .ok ([.id 0, .id 1, .none, .none, .state l 2], s') ∧ ‖w‖ = 1 ∧ Lists [0, 1] ψ l ∧
      distance ψ (w • bellState) ≤ 1e-7 := by
  obtain ⟨A, hA⟩ : ∃ A, A = binary64 shuffle hsh := ⟨_, rfl⟩
  obtain ⟨g0, g1, g2⟩ := C62_binary64 shuffle hsh
  have he : A.eps = 1e-10 := by rw [hA]; rfl
  rw [← hA] at g0 g1 g2 ⊢
  clear hA
  obtain ⟨cs, hcs⟩ : ∃ cs : List XCall, cs = [.base .allocate, .base .allocate, .base (.gate .h 0), .apply [0] xMatrix [1],
        .base .getState] := ⟨_, rfl⟩
  have e0 : (Ideal.init rng).xstep (.base .allocate) = ⟨{0}, ket zeroBasis, rng⟩ := Tol.alloc_init rng
  have e1 : (Ideal.mk {0} (ket zeroBasis) rng).xstep (.base .allocate) = ⟨{0, 1}, ket zeroBasis, rng⟩ := by
    rw [← e0]; exact bell_live rng
  obtain ⟨σ3, e2, hl3⟩ : ∃ σ3 : Ideal, (Ideal.mk {0, 1} (ket zeroBasis) rng).xstep (.base (.gate .h 0)) = σ3 ∧
      σ3.live = {0, 1} := ⟨_, rfl, rfl⟩
  have e3 : σ3.xstep (.apply [0] xMatrix [1]) = ⟨{0, 1}, bellState, rng⟩ := by
    have h3 : σ3.xstep (.apply [0] xMatrix [1]) = σ3.step (.ctrl .x [0] 1) := by
      show Ideal.mk _ (applyMatrix [0] xMatrix [1] σ3.psi) _ = Ideal.mk _ (Spec.ctrl [0] matX 1 σ3.psi) _
      rw [applyMatrix_one]
      congr 2
    rw [h3, ← bell_run rng, ← e2, ← e1, ← e0]; rfl
  have e4 : (Ideal.mk {0, 1} bellState rng).xstep (.base .getState) = ⟨{0, 1}, bellState, rng⟩ := rfl
  have hv : (Ideal.init rng).XValidRun cs := by
    rw [hcs]
    simp only [Ideal.XValidRun, e0, e1, e2, e3]
    refine ⟨trivial, trivial, show 0 ∈ ({0, 1} : Finset ℕ) by simp, ⟨by simp, ?_, xMatrix_unitary⟩, trivial, trivial⟩
    rw [hl3]; simp
  have hturn : A.u * Rnd.totalTurnX A cs + A.eta ≤ A.eps := by
    have : Rnd.totalTurnX A cs = 0 := by
      rw [hcs]; simp [Rnd.totalTurnX, XCall.turn, Call.turn]
    rw [this, mul_zero, zero_add]
    linarith [A.u_nonneg, A.eta_nonneg]
  have hlive : ((Ideal.init rng).xrun cs).live.card = 2 := by
    rw [hcs]
    simp only [Ideal.xrun, List.foldl_cons, List.foldl_nil, e0, e1, e2, e3, e4]
    rfl
  have hwork : (Ideal.init rng).workX cs = 17 := by
    rw [hcs]
    simp only [Ideal.workX, e0, e1, e2, e3, XCall.work]
    rfl
  have hs4 : √((2 : ℝ) ^ 2) = 2 := Real.sqrt_sq (by norm_num)
  have hD : 20 * A.eps * √(2 ^ 2) * (Ideal.init rng).workX cs + 10 * 2 ^ 2 * (A.u + A.eta) ≤ 1e-7 := by
    rw [hwork, hs4, he]
    rw [he] at g2
    generalize A.u + A.eta = v at g2 ⊢
    norm_num at g2 ⊢
    linarith
  have hpl : ∀ c ∈ cs, c.Plain := by
    rw [hcs]
    intro c hc
    simp only [List.mem_cons, List.not_mem_nil, or_false] at hc
    rcases hc with rfl | rfl | rfl | rfl | rfl <;> simp [XCall.Plain, Call.IsGate, Call.IsLook]
  obtain ⟨os, s', h1, h2⟩ := C84_bound g0 g1 g2 hr hv hpl hturn
    (Rnd.executedX_no_ry _ (by rw [hcs]; simp)).symm hlive.symm rfl (hD.trans (by norm_num))
  rw [hcs] at h1
  generalize 20 * A.eps * √(2 ^ 2) * (Ideal.init rng).workX cs + 10 * 2 ^ 2 * (A.u + A.eta) = D at h2 hD
  rw [hcs] at h2
  obtain ⟨o1, os1, rfl, a1, o2, os2, rfl, a2, o3, os3, rfl, a3, os4, rfl, o5, os5, rfl, a5, a6⟩ := h2
  cases a6
  have f0 : (Ideal.init rng).step .allocate = ⟨{0}, ket zeroBasis, rng⟩ := e0
  have f1 : (Ideal.mk {0} (ket zeroBasis) rng).step .allocate = ⟨{0, 1}, ket zeroBasis, rng⟩ := e1
  have f2 : (Ideal.mk {0, 1} (ket zeroBasis) rng).step (.gate .h 0) = σ3 := e2
  rw [f0] at a2
  rw [f0, f1, f2, e3] at a5
  obtain ⟨ψ, l, w, hw, hl, hd, rfl⟩ := a5
  have e1' : (Ideal.init rng).fresh = 0 := fresh_of (by simp [Ideal.init]) (by simp)
  have e2' : (Ideal.mk {0} (ket zeroBasis) rng).fresh = 1 := fresh_of (by simp) (by intro m hm; simp; omega)
  obtain rfl : o1 = .id 0 := by rw [← e1']; exact a1
  obtain rfl : o2 = .id 1 := by rw [← e2']; exact a2
  obtain rfl : o3 = .none := a3
  refine ⟨s', ψ, l, w, h1, hw, ?_, hd.trans hD⟩
  have : Ideal.ids ⟨{0, 1}, bellState, rng⟩ = [0, 1] := by
    show Finset.sort ({0, 1} : Finset ℕ) _ = _
    rw [Finset.sort_insert (a := 0) (s := {1}) (· ≤ ·) (by simp) (by simp), Finset.sort_singleton]
  rw [this] at hl; exact hl

end Qir
