import Verif.Proof.Apply2
import Verif.Proof.Observe
import Verif.Proof.Walk2
import Verif.Props.HashOrder

/-!
# C19: `apply` multiplies the state by the given unitary matrix

Full claim (false, see `C19_counterexample`): whenever the operands are distinct allocated qubits and the matrix is a
unitary matrix of the right size, `apply` completes, and the state is multiplied by the matrix on the listed qubits where
all controls are one, the first qubit being the most significant bit of the row number.

What is missing: `apply` moves its `n` operands to the locations `0 … n-1` of the state index and panics if one of these
is not in use, as can be after a release.  `C19_apply_partial` and `C19_history_partial` therefore assume that there is no
such gap; `C19_panics` says that a gap is the only cause of a panic and always one; `C19_no_release` and
`C19_after_dump` give conditions on the history that exclude gaps.
-/

noncomputable section
namespace Qir
open Spec Sim Function

variable {env : Env} {s : Sim} {L : Finset ℕ} {ψ : Wave}

/-- The state is reached by a valid history of calls including `apply`. -/
def ReachableX (env : Env) (s : Sim) : Prop :=
  ∃ (rng : ℕ → ℝ) (cs : List XCall) (os : List Out), (∀ n, 0 ≤ rng n ∧ rng n < 1) ∧
    (Ideal.init rng).XValidRun cs ∧ runX env cs (Sim.new rng) = .ok (os, s)

/-- Some location below `n` belongs to no qubit. -/
def Gap (s : Sim) (n : ℕ) : Prop := ∃ l < n, ∀ q, s.idMap.get q ≠ some l

/-- The call meets no gap and no pending half-turn. -/
def CallOkX (s : Sim) : XCall → Prop
  | .base c => CallOk s c
  | .apply cs _ ts => ¬ Gap s (cs ++ ts).length

/-- The same along a run. -/
def RunOkX (env : Env) : Sim → List XCall → Prop
  | _, [] => True
  | s, c :: cs => CallOkX s c ∧ ∀ o s', callX env c s = .ok (o, s') → RunOkX env s' cs

theorem used_of_not_gap {n : ℕ} (h : ¬ Gap s n) : ∀ l < n, Used s.idMap l := by
  intro l hl
  by_contra hc
  exact h ⟨l, hl, fun q hq => hc ⟨q, hq⟩⟩

/-! ### Reachable states -/

/-- What is really executed. -/
def TwistX : XCall → XCall → Prop
  | .base c, .base d => Call.Twist c d
  | .apply cs U ts, d => d = .apply cs U ts
  | _, _ => False

theorem xvalid_congr {σ τ : Ideal} (h : σ.live = τ.live) (c : XCall) : σ.XValid c ↔ τ.XValid c := by
  cases c with
  | base c => exact valid_congr h c
  | apply cs U ts => simp only [Ideal.XValid, h]

theorem xlive_congr {σ τ : Ideal} (h : σ.live = τ.live) (c : XCall) : (σ.xstep c).live = (τ.xstep c).live := by
  cases c with
  | base c => exact live_step_congr h c
  | apply cs U ts => exact h

theorem xvalidRun_congr (cs : List XCall) : ∀ {σ τ : Ideal}, σ.live = τ.live →
    (σ.XValidRun cs ↔ τ.XValidRun cs) := by
  induction cs with
  | nil => intro σ τ _; rfl
  | cons c cs ih =>
    intro σ τ h
    simp only [Ideal.XValidRun, xvalid_congr h, ih (xlive_congr h c)]

/-- One call from a state that stands for the ideal one. -/
theorem refineX_call (he : env.eps = 0) {σ : Ideal} (h : Refines s σ) {c : XCall} (hv : σ.XValid c) :
    (∃ d o s', callX env c s = .ok (o, s') ∧ (CallOkX s c → d = c) ∧ (σ.xstep c).live = (σ.xstep d).live ∧
      σ.XAnswer d o ∧ Refines s' (σ.xstep d)) ∨
    (callX env c s = .error .outOfBounds ∧ ¬ CallOkX s c) := by
  cases c with
  | base c =>
    left
    obtain ⟨d, o, s', h1, hm, ha, hr⟩ := refine_call he h hv
    exact ⟨.base d, o, s', h1, fun hok => by rw [hm.eq hok], twist_live_step hm.twist σ, ha, hr⟩
  | apply cs U ts =>
    obtain ⟨hn, ht, hU⟩ := hv
    by_cases hg : Gap s (cs ++ ts).length
    · right
      refine ⟨?_, fun hc => hc hg⟩
      obtain ⟨u, h1, _, _⟩ := apply_on (env := env) (s := s) (U := U) (cs := cs) (ctrls := some cs) rfl hn
      obtain ⟨l, hl, hu⟩ := hg
      have h2 := applyOn_hole he h.wf hn (h.alloc ht) ⟨l, hl, fun ⟨q, hq⟩ => hu q hq⟩ u
      simp only [callX, quiet, h1, h2]
      rfl
    · left
      obtain ⟨s', h1, h2, _⟩ := refine_apply he h hn ht hU (used_of_not_gap hg) (ctrls := some cs) rfl
      exact ⟨.apply cs U ts, .none, s', by simp only [callX, quiet, h1, ok_bind, pure_ok], fun _ => rfl, rfl, rfl, h2⟩

theorem ReachableX.refines (he : env.eps = 0) (h : ReachableX env s) : ∃ σ, Refines s σ := by
  obtain ⟨rng, cs, os, hr, hv, hrun⟩ := h
  have key : ∀ (cs : List XCall) {s0 : Sim} {σ : Ideal} {os : List Out}, Refines s0 σ → σ.XValidRun cs →
      runX env cs s0 = .ok (os, s) → ∃ σ', Refines s σ' := by
    intro cs
    induction cs with
    | nil => intro s0 σ os h _ hrun; cases hrun; exact ⟨_, h⟩
    | cons c cs ih =>
      intro s0 σ os h hv hrun
      obtain ⟨⟨o, s1⟩, h1, hrun⟩ := bind_ok hrun
      obtain ⟨⟨os2, s2⟩, h2, hrun⟩ := bind_ok hrun
      cases hrun
      rcases refineX_call he h hv.1 with ⟨d, o', s1', g1, _, g2, _, g3⟩ | ⟨g1, _⟩
      · rw [g1] at h1; cases h1
        exact ih g3 ((xvalidRun_congr cs g2).1 hv.2) h2
      · rw [g1] at h1; cases h1
  exact key cs (refines_new hr) hv hrun

theorem ReachableX.rel (he : env.eps = 0) (h : ReachableX env s) (hs : Shows env s L ψ) :
    Refines s ⟨L, ψ, s.rng⟩ ∧ abs s = ψ := by
  obtain ⟨σ, hσ'⟩ := h.refines he
  obtain ⟨h1, h2⟩ := hσ'.shows_eq he hs
  subst h1 h2
  refine ⟨⟨hσ'.wf, hσ'.live, rfl, ⟨1, by simp, by rw [one_smul]⟩, ?_⟩, rfl⟩
  obtain ⟨w, hw, ha⟩ := hσ'.psi
  refine ⟨finSupp_abs s, hσ'.norm, ?_, ?_⟩
  · exact hσ'.conf
  · rw [hσ'.rng]; exact hσ'.good.samples

/-! ### One application -/

/-- **C19**: in a reachable state without a gap, `apply` multiplies the reported state by the matrix, exactly. -/
theorem C19_apply_partial (he : env.eps = 0) (hr : ReachableX env s) (hs : Shows env s L ψ) {cs ts : List ℕ}
    (hn : (cs ++ ts).Nodup) (ht : ∀ t ∈ cs ++ ts, t ∈ L) {U : ℕ → ℕ → ℂ} (hU : Unitary (2 ^ ts.length) U)
    (hgap : ¬ Gap s (cs ++ ts).length) {ctrls : Option (List ℕ)} (hc : ctrls.getD [] = cs) :
    ∃ s', s.apply env ⟨2 ^ ts.length, 2 ^ ts.length, U⟩ ts ctrls = .ok s' ∧ s'.rng = s.rng ∧
      Shows env s' L (applyMatrix cs U ts ψ) := by
  obtain ⟨h1, h2⟩ := hr.rel he hs
  obtain ⟨u, g1, g2, g3⟩ := apply_on (env := env) (s := s) (U := U) hc hn
  obtain ⟨s', k1, k2, k3, k4, _, k5⟩ := applyOn_spec he h1.wf hn (h1.alloc ht) (used_of_not_gap hgap) g2 (by
    rw [g3]
    intro h0
    have := normSq_matrix (finSupp_abs s) hn hU
    rw [h0, h1.norm] at this
    simp [Spec.normSq] at this)
  obtain ⟨s'', e1, e2, _⟩ := refine_apply he h1 hn ht hU (used_of_not_gap hgap) hc
  rw [g1, k1] at e1
  cases e1
  refine ⟨s', by rw [g1, k1], k3, ?_⟩
  have := e2.shows he
  rw [k5, g3, h2] at this
  exact this

/-- **C19**: with distinct allocated operands and a unitary matrix of the right size, a gap is exactly what makes `apply`
panic. -/
theorem C19_panics (he : env.eps = 0) (hr : ReachableX env s) (hs : Shows env s L ψ) {cs ts : List ℕ}
    (hn : (cs ++ ts).Nodup) (ht : ∀ t ∈ cs ++ ts, t ∈ L) {U : ℕ → ℕ → ℂ} (hU : Unitary (2 ^ ts.length) U)
    {ctrls : Option (List ℕ)} (hc : ctrls.getD [] = cs) :
    s.apply env ⟨2 ^ ts.length, 2 ^ ts.length, U⟩ ts ctrls = .error .outOfBounds ↔ Gap s (cs ++ ts).length := by
  obtain ⟨h1, h2⟩ := hr.rel he hs
  constructor
  · intro h
    by_contra hg
    obtain ⟨s', g1, _⟩ := C19_apply_partial he hr hs hn ht hU hg hc
    rw [g1] at h; cases h
  · rintro ⟨l, hl, hu⟩
    obtain ⟨u, g1, _, _⟩ := apply_on (env := env) (s := s) (U := U) hc hn
    rw [g1]
    exact applyOn_hole he h1.wf hn (h1.alloc ht) ⟨l, hl, fun ⟨q, hq⟩ => hu q hq⟩ u

/-- **C19**: a matrix of the wrong shape, a repeated operand or an operand that is not allocated makes `apply` panic: the
matrix is never applied to other qubits than the listed ones. -/
theorem C19_rejects (he : env.eps = 0) (hr : ReachableX env s) (hs : Shows env s L ψ) (u : Mat) (ts : List ℕ)
    (ctrls : Option (List ℕ))
    (hbad : u.rows ≠ u.cols ∨ u.cols ≠ 2 ^ ts.length ∨ ¬ (ctrls.getD [] ++ ts).Nodup ∨
      ∃ q ∈ ctrls.getD [] ++ ts, q ∉ L) :
    ∃ e, s.apply env u ts ctrls = .error e := by
  obtain ⟨h1, h2⟩ := hr.rel he hs
  by_cases hsq : u.cols = u.rows
  · by_cases hsz : u.cols = 2 ^ ts.length
    · have hon : ∃ v, s.apply env u ts ctrls = applyOn env v (ctrls.getD [] ++ ts) s := by
        cases ctrls with
        | none => exact ⟨_, apply_none hsq (hsq ▸ hsz)⟩
        | some c => exact ⟨_, apply_some hsq (hsq ▸ hsz)⟩
      obtain ⟨v, hv⟩ := hon
      rw [hv]
      rcases hbad with h | h | h | ⟨q, hq, h⟩
      · exact absurd hsq.symm h
      · exact absurd hsz h
      · refine ⟨.duplicateQubit, ?_⟩
        unfold applyOn checkForDuplicates
        rw [if_neg h]; rfl
      · apply applyOn_unknown he h1.wf
        refine ⟨q, hq, ?_⟩
        rw [← Option.not_isSome_iff_eq_none]
        exact fun hc => h ((h1.live q).2 hc)
    · refine ⟨.assertion, ?_⟩
      unfold apply
      rw [if_neg (by simp [hsq]), if_pos hsz]
  · refine ⟨.assertion, ?_⟩
    unfold apply
    rw [if_pos hsq]

/-! ### Histories -/

/-- **C19** in whole histories: as long as no gap (and no half-turn in front of a rotation about Y, C01) is met, every answer
of a history with applications of matrices is that of the ideal quantum computer. -/
theorem C19_history_partial (he : env.eps = 0) {rng : ℕ → ℝ} (hrng : ∀ n, 0 ≤ rng n ∧ rng n < 1) {cs : List XCall}
    (hv : (Ideal.init rng).XValidRun cs) (hok : RunOkX env (Sim.new rng) cs) :
    ∃ os s', runX env cs (Sim.new rng) = .ok (os, s') ∧ (Ideal.init rng).XAnswers cs os ∧
      ∃ w : ℂ, ‖w‖ = 1 ∧ Shows env s' ((Ideal.init rng).xrun cs).live (w • ((Ideal.init rng).xrun cs).psi) := by
  have key : ∀ (cs : List XCall) {s : Sim} {σ : Ideal}, Refines s σ → σ.XValidRun cs → RunOkX env s cs →
      ∃ os s', runX env cs s = .ok (os, s') ∧ σ.XAnswers cs os ∧ Refines s' (σ.xrun cs) := by
    intro cs
    induction cs with
    | nil => intro s σ h _ _; exact ⟨[], s, rfl, rfl, h⟩
    | cons c cs ih =>
      intro s σ h hv hok
      rcases refineX_call he h hv.1 with ⟨d, o, s1, h1, h2, _, h3, h4⟩ | ⟨_, h2⟩
      · have hd := h2 hok.1
        subst hd
        obtain ⟨os, s2, g1, g2, g3⟩ := ih h4 hv.2 (hok.2 o s1 h1)
        exact ⟨o :: os, s2, by simp only [runX, h1, ok_bind, g1, pure_ok], ⟨o, os, rfl, h3, g2⟩, g3⟩
      · exact absurd hok.1 h2
  obtain ⟨os, s', h1, h2, h3⟩ := key cs (refines_new hrng) hv hok
  obtain ⟨w, hw, ha⟩ := h3.psi
  exact ⟨os, s', h1, h2, w, hw, by rw [← ha]; exact h3.shows he⟩

/-- **C19**: the gap is the only way a valid history can panic. -/
theorem C19_only_gap (he : env.eps = 0) {rng : ℕ → ℝ} (hrng : ∀ n, 0 ≤ rng n ∧ rng n < 1) {cs : List XCall}
    (hv : (Ideal.init rng).XValidRun cs) {e : Panic} (hp : runX env cs (Sim.new rng) = .error e) :
    e = .outOfBounds ∧ ∃ (pre : List XCall) (ctl : List ℕ) (U : ℕ → ℕ → ℂ) (ts : List ℕ) (post : List XCall)
      (os : List Out) (s : Sim), cs = pre ++ .apply ctl U ts :: post ∧
        runX env pre (Sim.new rng) = .ok (os, s) ∧ Gap s (ctl ++ ts).length := by
  have key : ∀ (cs : List XCall) {s0 : Sim} {σ : Ideal}, Refines s0 σ → σ.XValidRun cs → runX env cs s0 = .error e →
      e = .outOfBounds ∧ ∃ (pre : List XCall) (ctl : List ℕ) (U : ℕ → ℕ → ℂ) (ts : List ℕ) (post : List XCall)
      (os : List Out) (s : Sim), cs = pre ++ .apply ctl U ts :: post ∧
        runX env pre s0 = .ok (os, s) ∧ Gap s (ctl ++ ts).length := by
    intro cs
    induction cs with
    | nil => intro s0 σ _ _ h; cases h
    | cons c cs ih =>
      intro s0 σ h hv hp
      rcases refineX_call he h hv.1 with ⟨d, o, s1, h1, _, h2, _, h4⟩ | ⟨h1, h2⟩
      · simp only [runX, h1, ok_bind] at hp
        have hp' : runX env cs s1 = .error e := by
          cases hr : runX env cs s1 with
          | error e' => rw [hr] at hp; cases hp; rfl
          | ok p => rw [hr] at hp; cases hp
        obtain ⟨g1, pre, ctl, U, ts, post, os, s, g2, g3, g4⟩ := ih h4 ((xvalidRun_congr cs h2).1 hv.2) hp'
        exact ⟨g1, c :: pre, ctl, U, ts, post, o :: os, s, by rw [g2]; rfl,
          by simp only [runX, h1, ok_bind, g3, pure_ok], g4⟩
      · cases c with
        | base c =>
          obtain ⟨d, o, s', k1, _⟩ := refine_call he h hv.1
          have h1' : call env c s0 = .error .outOfBounds := h1
          rw [k1] at h1'; cases h1'
        | apply ctl U ts =>
          simp only [runX, h1] at hp
          cases hp
          exact ⟨rfl, [], ctl, U, ts, cs, [], s0, rfl, rfl, not_not.1 h2⟩
  exact key cs (refines_new hrng) hv hp

/-! ### Histories that leave no gap -/

/-- Every location below one in use is in use. -/
def Packed (m : IMap ℕ) : Prop := ∀ l, Used m l → ∀ j < l, Used m j

theorem Packed.of_used {m m' : IMap ℕ} (h : Packed m) (hu : ∀ l, Used m' l ↔ Used m l) : Packed m' := by
  intro l hl j hj
  rw [hu] at hl ⊢
  exact h l hl j hj

/-- Distinct allocated qubits: no gap below their number. -/
theorem Packed.no_gap (h : Packed s.idMap) {ops : List ℕ} (hn : ops.Nodup) (ha : Alloc s.idMap ops)
    (hi : Inj s.idMap) : ¬ Gap s ops.length := by
  rintro ⟨l, hl, hu⟩
  obtain ⟨locs, hres, hlocs⟩ := alloc_locs ha
  have hall : ∀ i (hi : i < ops.length), ∃ k, s.idMap.get ops[i] = some k ∧ k < l := by
    intro i hi
    obtain ⟨k, hk⟩ := Option.isSome_iff_exists.1 (ha ops[i] (List.getElem_mem hi))
    refine ⟨k, hk, ?_⟩
    by_contra hc
    rcases Nat.lt_or_ge l k with h1 | h1
    · obtain ⟨q, hq⟩ := h k ⟨_, hk⟩ l h1
      exact hu q hq
    · have : k = l := by omega
      subst this
      exact hu _ hk
  choose f hf hlt using hall
  have hinj : Function.Injective (fun i : Fin ops.length => (⟨f i.1 i.2, hlt i.1 i.2⟩ : Fin l)) := by
    intro i j hij
    have h1 : f i.1 i.2 = f j.1 j.2 := congrArg Fin.val hij
    have h2 := hi _ _ _ (hf i.1 i.2) (h1 ▸ hf j.1 j.2)
    exact Fin.ext ((List.Nodup.getElem_inj_iff hn).1 h2)
  have := Fintype.card_le_of_injective _ hinj
  simp only [Fintype.card_fin] at this
  omega

theorem used_arranged {m : IMap ℕ} {ks : List ℕ} (hk : ∀ q, q ∈ ks ↔ (m.get q).isSome = true)
    (h : ∀ j (hj : j < ks.length), m.get ks[j] = some j) : Packed m := by
  rintro l ⟨q, hq⟩ j hj
  obtain ⟨i, hi, rfl⟩ := List.getElem_of_mem ((hk q).2 (by rw [hq]; rfl))
  have := h i hi
  rw [hq] at this
  cases this
  exact ⟨_, h j (by omega)⟩

theorem packed_getState (he : env.eps = 0) (hw : WF s) {l : List (ℕ × ℂ)} {n : ℕ} {s' : Sim}
    (h : s.getState env = .ok ((l, n), s')) : Packed s'.idMap := by
  obtain ⟨s1, s2, h1, h2, _, _, _, hsome, _, _, hg⟩ := arrange_spec he hw
  unfold getState at h
  simp only [show s.idMap.iter.map Prod.fst = s.idMap.keys from rfl, h1, h2, ok_bind, pure_ok] at h
  cases h
  exact used_arranged (by intro q; rw [hsome]; exact IMap.mem_keys _ _) hg

theorem packed_dump (he : env.eps = 0) (hw : WF s) {fmt : ℂ → String} {t : String} {s' : Sim}
    (h : s.dump env fmt = .ok (t, s')) : Packed s'.idMap := by
  obtain ⟨s1, s2, h1, h2, _, _, _, hsome, _, _, hg⟩ := arrange_spec he hw
  unfold dump at h
  simp only [show s.idMap.iter.map Prod.fst = s.idMap.keys from rfl, h1, h2, ok_bind, pure_ok] at h
  cases h
  exact used_arranged (by intro q; rw [hsome]; exact IMap.mem_keys _ _) hg

theorem packed_call (he : env.eps = 0) {σ : Ideal} (h : Refines s σ) {c : Call} (hv : σ.Valid c)
    (hrel : ∀ q, c ≠ .release q) {o : Out} {s' : Sim} (hc : call env c s = .ok (o, s')) (hp : Packed s.idMap) :
    Packed s'.idMap := by
  cases c with
  | gate g q =>
    obtain ⟨s1, g', h1, _, h2⟩ := gateCall_step he h.wf ((h.live q).1 hv) g
    have := quiet_inv hc
    rw [h1] at this; cases this
    rw [h2.idMap]; exact hp
  | ctrl g cs q =>
    obtain ⟨s1, h1, h2⟩ := ctrlCall_step he h.wf (h.opnds hv) g
    have := quiet_inv hc
    rw [h1] at this; cases this
    rw [h2.idMap]; exact hp
  | phase cs φ q =>
    obtain ⟨s1, h1, h2⟩ := mcphase_step he h.wf (h.opnds ⟨hv.1, hv.2.1⟩) φ
    have := quiet_inv hc
    rw [h1] at this; cases this
    rw [h2.idMap]; exact hp
  | exp cs ps θ ts =>
    obtain ⟨s1, h1, h2⟩ := mcexp_step he h.wf (ps := ps.map pauliArg) θ hv.1 (h.alloc hv.2.1)
      (by simpa using hv.2.2)
    have := quiet_inv hc
    rw [h1] at this; cases this
    rw [h2.idMap]; exact hp
  | swap a b =>
    have := quiet_inv hc
    unfold swapQubitIds at this
    obtain ⟨s1, h1, this⟩ := bind_ok this
    obtain ⟨la, hla, this⟩ := bind_ok this
    obtain ⟨lb, hlb, this⟩ := bind_ok this
    cases this
    have hid := (keep_flushOps h1).1.ids
    have ha : s.idMap.get a = some la := by
      rw [← hid]
      unfold resolveId at hla
      revert hla
      dsimp only
      cases s1.idMap.get a <;> intro hla <;> cases hla
      rfl
    have hb : s.idMap.get b = some lb := by
      rw [← hid]
      unfold resolveId at hlb
      revert hlb
      dsimp only
      cases s1.idMap.get b <;> intro hlb <;> cases hlb
      rfl
    refine hp.of_used (fun l => ?_)
    show Used ((s1.idMap.modify a (fun _ => lb)).modify b (fun _ => la)) l ↔ _
    rw [hid]
    have hget : ∀ r, ((s.idMap.modify a (fun _ => lb)).modify b (fun _ => la)).get r =
        s.idMap.get (Equiv.swap a b r) := by
      intro r
      by_cases hrb : r = b
      · subst hrb
        rw [IMap.get_modify_same, IMap.get_modify, Equiv.swap_apply_right]
        by_cases hra : r = a
        · subst hra; simp [ha]
        · rw [if_neg hra, hb, ha]; rfl
      · rw [IMap.get_modify, if_neg hrb, IMap.get_modify]
        by_cases hra : r = a
        · subst hra; rw [if_pos rfl, Equiv.swap_apply_left, ha, hb]; rfl
        · rw [if_neg hra, Equiv.swap_apply_of_ne_of_ne hra hrb]
    constructor
    · rintro ⟨r, hr⟩; rw [hget] at hr; exact ⟨_, hr⟩
    · rintro ⟨r, hr⟩; exact ⟨Equiv.swap a b r, by rw [hget, Equiv.swap_apply_self]; exact hr⟩
  | allocate =>
    cases hc
    have hfree := firstFree_spec (sorted_values h.wf.b.core.inj)
    have hk := (newKey_spec s.idMap).1
    have hget : ∀ r, s.allocate.2.idMap.get r = if r = firstFree (s.idMap.iter.map Prod.fst) then
        some (firstFree (s.idMap.values.mergeSort (fun a b => decide (a ≤ b)))) else s.idMap.get r := by
      intro r
      show (s.idMap.insert _ _).get r = _
      rw [IMap.get_insert]
    have hmono : ∀ j, Used s.idMap j → Used s.allocate.2.idMap j := by
      rintro j ⟨i, hi⟩
      refine ⟨i, ?_⟩
      rw [hget, if_neg]
      · exact hi
      · rintro rfl; rw [hk] at hi; cases hi
    rintro l ⟨r, hr⟩ j hj
    rw [hget] at hr
    split at hr
    · cases hr
      have := hfree.2 j hj
      rw [List.mem_mergeSort, mem_values] at this
      exact hmono j this
    · exact hmono j (hp l ⟨r, hr⟩ j hj)
  | release q => exact absurd rfl (hrel q)
  | measure q =>
    obtain ⟨s1, h1, hm⟩ := measure_spec he h.wf ((h.live q).1 hv)
    simp only [call, h1, ok_bind, pure_ok] at hc
    cases hc
    rw [hm.idMap]; exact hp
  | jointMeasure qs =>
    obtain ⟨s1, h1, hm⟩ := jointMeasure_spec he h.wf hv.1 (h.alloc hv.2)
    simp only [call, h1, ok_bind, pure_ok] at hc
    cases hc
    rw [hm.idMap]; exact hp
  | jointProb qs =>
    obtain ⟨s1, h1, hs⟩ := jointProbability_spec he h.wf hv.1 (h.alloc hv.2)
    simp only [call, h1, ok_bind, pure_ok] at hc
    cases hc
    rw [hs.idMap]; exact hp
  | isZero q =>
    obtain ⟨s1, h1, hs⟩ := qubitIsZero_spec he h.wf ((h.live q).1 hv)
    simp only [call, h1, ok_bind, pure_ok] at hc
    cases hc
    rw [hs.idMap]; exact hp
  | collapse v q =>
    obtain ⟨s1, h1, _, hid, _⟩ := forceCollapse_spec he h.wf ((h.live q).1 hv) v h.norm
    simp only [call, h1, ok_bind, pure_ok] at hc
    cases hc
    rw [hid]; exact hp
  | getState =>
    obtain ⟨⟨⟨l, n⟩, s1⟩, h1, hc⟩ := bind_ok hc
    cases hc
    exact packed_getState he h.wf h1
  | dump fmt =>
    obtain ⟨⟨t, s1⟩, h1, hc⟩ := bind_ok hc
    cases hc
    exact packed_dump he h.wf h1

/-- **C19**, without any condition on the states passed through: in a valid history without a release nothing panics, and if
it contains no uncontrolled rotation about Y either, then all answers are those of the ideal quantum computer. -/
theorem C19_no_release (he : env.eps = 0) {rng : ℕ → ℝ} (hrng : ∀ n, 0 ≤ rng n ∧ rng n < 1) {cs : List XCall}
    (hv : (Ideal.init rng).XValidRun cs) (hrel : ∀ q, XCall.base (.release q) ∉ cs) :
    ∃ os s', runX env cs (Sim.new rng) = .ok (os, s') ∧
      ((∀ θ q, XCall.base (.gate (.ry θ) q) ∉ cs) → (Ideal.init rng).XAnswers cs os ∧
        ∃ w : ℂ, ‖w‖ = 1 ∧ Shows env s' ((Ideal.init rng).xrun cs).live (w • ((Ideal.init rng).xrun cs).psi)) := by
  have key : ∀ (cs : List XCall) {s : Sim} {σ : Ideal}, Refines s σ → Packed s.idMap → σ.XValidRun cs →
      (∀ q, XCall.base (.release q) ∉ cs) →
      ∃ os s', runX env cs s = .ok (os, s') ∧ ((∀ θ q, XCall.base (.gate (.ry θ) q) ∉ cs) → RunOkX env s cs) := by
    intro cs
    induction cs with
    | nil => intro s σ h _ _ _; exact ⟨[], s, rfl, fun _ => trivial⟩
    | cons c cs ih =>
      intro s σ h hp hv hrel
      have hrel' : ∀ q, XCall.base (.release q) ∉ cs := fun q hq => hrel q (by simp [hq])
      cases c with
      | base c =>
        obtain ⟨d, o, s1, h1, hm, _, hr⟩ := refine_call he h hv.1
        have hp1 := packed_call he h hv.1 (fun q hq => hrel q (by simp [hq])) h1 hp
        obtain ⟨os, s2, g1, g2⟩ := ih hr hp1 ((xvalidRun_congr cs (twist_live_step hm.twist σ)).1 hv.2) hrel'
        have h1' : callX env (.base c) s = .ok (o, s1) := h1
        refine ⟨o :: os, s2, by simp only [runX, h1', ok_bind, g1, pure_ok], fun hry => ⟨?_, ?_⟩⟩
        · show CallOk s c
          unfold CallOk
          split
          · rename_i θ q; exact absurd (by simp) (hry θ q)
          · trivial
        · intro o' s1' h
          rw [h1'] at h; cases h
          exact g2 (fun θ q hq => hry θ q (by simp [hq]))
      | apply ctl U ts =>
        obtain ⟨hn, ht, hU⟩ := hv.1
        have hg : ¬ Gap s (ctl ++ ts).length := hp.no_gap hn (h.alloc ht) h.wf.b.core.inj
        obtain ⟨s1, h1, hr, hu⟩ := refine_apply he h hn ht hU (used_of_not_gap hg) (ctrls := some ctl) rfl
        have h1' : callX env (.apply ctl U ts) s = .ok (.none, s1) := by
          simp only [callX, quiet, h1, ok_bind, pure_ok]
        obtain ⟨os, s2, g1, g2⟩ := ih hr (hp.of_used hu) hv.2 hrel'
        refine ⟨.none :: os, s2, by simp only [runX, h1', ok_bind, g1, pure_ok], fun hry => ⟨hg, ?_⟩⟩
        intro o' s1' h
        rw [h1'] at h; cases h
        exact g2 (fun θ q hq => hry θ q (by simp [hq]))
  have hp0 : Packed (Sim.new rng).idMap := by
    rintro l ⟨q, hq⟩; simp [Sim.new] at hq
  obtain ⟨os, s', h1, h2⟩ := key cs (refines_new hrng) hp0 hv hrel
  refine ⟨os, s', h1, fun hry => ?_⟩
  obtain ⟨os', s'', g1, g2, g3⟩ := C19_history_partial he hrng hv (h2 hry)
  rw [h1] at g1; cases g1
  exact ⟨g2, g3⟩

/-- **C19**: a listing of the state (`get_state`, `dump`) closes all gaps, so that a matrix can be applied after it
whatever has been released before. -/
theorem C19_after_dump (he : env.eps = 0) (hr : ReachableX env s) (hs : Shows env s L ψ) {c : Call}
    (hc : c = .getState ∨ ∃ fmt, c = .dump fmt) {cs ts : List ℕ} (hn : (cs ++ ts).Nodup)
    (ht : ∀ t ∈ cs ++ ts, t ∈ L) {U : ℕ → ℕ → ℂ} (hU : Unitary (2 ^ ts.length) U) {ctrls : Option (List ℕ)}
    (hcs : ctrls.getD [] = cs) :
    ∃ o s1 s2, call env c s = .ok (o, s1) ∧ s1.apply env ⟨2 ^ ts.length, 2 ^ ts.length, U⟩ ts ctrls = .ok s2 ∧
      Shows env s2 L (applyMatrix cs U ts ψ) := by
  obtain ⟨h1, h2⟩ := hr.rel he hs
  have hst : ∃ o s1, call env c s = .ok (o, s1) ∧ Refines s1 ⟨L, ψ, s.rng⟩ ∧ abs s1 = abs s ∧ Packed s1.idMap := by
    rcases hc with rfl | ⟨fmt, rfl⟩
    · obtain ⟨l, s1, g1, g2, g3, g4, g5, _⟩ := getState_spec he h1.wf
      refine ⟨.state l s.idMap.keys.length, s1, by simp only [call, g1, ok_bind, pure_ok],
        ⟨g2, fun q => by rw [g4]; exact h1.live q, g3, ⟨1, by simp, by rw [g5, h2, one_smul]⟩, h1.good⟩, g5,
        packed_getState he h1.wf g1⟩
    · obtain ⟨l, s1, g1, g2, g3, g4, g5, _⟩ := dump_spec he fmt h1.wf
      refine ⟨.text (dumpText fmt l), s1, by simp only [call, g1, ok_bind, pure_ok],
        ⟨g2, fun q => by rw [g4]; exact h1.live q, g3, ⟨1, by simp, by rw [g5, h2, one_smul]⟩, h1.good⟩, g5,
        packed_dump he h1.wf g1⟩
  obtain ⟨o, s1, g1, g2, g3, g4⟩ := hst
  have hu := used_of_not_gap (g4.no_gap hn (g2.alloc ht) g2.wf.b.core.inj)
  obtain ⟨u, k1, k2, k3⟩ := apply_on (env := env) (s := s1) (U := U) hcs hn
  obtain ⟨s2, k4, _, _, _, _, k5⟩ := applyOn_spec he g2.wf hn (g2.alloc ht) hu k2 (by
    rw [k3]
    intro h0
    have := normSq_matrix (finSupp_abs s1) hn hU
    rw [h0, g2.norm] at this
    simp [Spec.normSq] at this)
  obtain ⟨s2', e1, e2, _⟩ := refine_apply he g2 hn ht hU hu hcs
  rw [k1, k4] at e1
  cases e1
  refine ⟨o, s1, s2, g1, by rw [k1, k4], ?_⟩
  have := e2.shows he
  rw [k5, k3, g3, h2] at this
  exact this

/-! ### Concrete cases -/

/-- The matrix of X. -/
def xMatrix : ℕ → ℕ → ℂ := fun i j => if i + j = 1 then 1 else 0

/-- The matrix that exchanges rows two and three: X on the second qubit if the first one is one. -/
def cnotMatrix : ℕ → ℕ → ℂ := fun i j => if (i < 2 ∧ i = j) ∨ (2 ≤ i ∧ i + j = 5) then 1 else 0

theorem xMatrix_unitary : Unitary (2 ^ [1].length) xMatrix := by
  intro k hk l hl
  have hk' : k < 2 := hk
  have hl' : l < 2 := hl
  have e : (2 ^ [1].length : ℕ) = 2 := rfl
  rw [e]
  obtain rfl | rfl : k = 0 ∨ k = 1 := by omega
  all_goals obtain rfl | rfl : l = 0 ∨ l = 1 := by omega
  all_goals simp [Finset.sum_range_succ, xMatrix]

theorem cnotMatrix_unitary : Unitary (2 ^ [0, 1].length) cnotMatrix := by
  intro k hk l hl
  have hk' : k < 4 := hk
  have hl' : l < 4 := hl
  have e : (2 ^ [0, 1].length : ℕ) = 4 := rfl
  rw [e]
  obtain rfl | rfl | rfl | rfl : k = 0 ∨ k = 1 ∨ k = 2 ∨ k = 3 := by omega
  all_goals obtain rfl | rfl | rfl | rfl : l = 0 ∨ l = 1 ∨ l = 2 ∨ l = 3 := by omega
  all_goals simp [Finset.sum_range_succ, cnotMatrix]

/-- The first qubit of the list is the most significant one: the matrix takes `q0 = 1, q1 = 0` (row two) to
`q0 = 1, q1 = 1` (row three). -/
theorem cnot_ket : applyMatrix [] cnotMatrix [0, 1] (ket (update zeroBasis 0 true)) = ket oneOne := by
  rw [← matL_apply, matL_ket (by simp)]
  have e : (2 ^ [0, 1].length : ℕ) = 4 := rfl
  have h1 : rowOf [0, 1] (update zeroBasis 0 true) = 2 := by simp [rowOf, zeroBasis]
  have h2 : setRow [0, 1] 3 (update zeroBasis 0 true) = oneOne := by
    funext q
    by_cases h0 : q = 0
    · subst h0; simp [setRow, oneOne, zeroBasis]; decide
    · by_cases h1 : q = 1
      · subst h1; simp [setRow, oneOne, zeroBasis]
      · simp [setRow, oneOne, zeroBasis, h0, h1]
  rw [e, h1]
  simp [Finset.sum_range_succ, cnotMatrix, h2]

/-- A history that meets the hypotheses of `C19_no_release`, with its result. -/
example (he : env.eps = 0) {rng : ℕ → ℝ} (hrng : ∀ n, 0 ≤ rng n ∧ rng n < 1) : ∃ os s' w, ‖w‖ = 1 ∧
    runX env [.base .allocate, .base .allocate, .base (.gate .x 0), .apply [] cnotMatrix [0, 1]] (Sim.new rng) =
      .ok (os, s') ∧ Shows env s' {0, 1} ((w : ℂ) • ket oneOne) := by
  have hlive : ∀ σ : Ideal, σ = ((Ideal.init rng).xstep (.base .allocate)).xstep (.base .allocate) →
      σ = ⟨{0, 1}, ket zeroBasis, rng⟩ := by
    rintro σ rfl; exact bell_live rng
  have hx : Spec.ctrl [] matX 0 (ket zeroBasis) = ket (update zeroBasis 0 true) := by
    rw [ctrl_ket (by simp), if_pos (by simp)]
    simp [matX, mat, zeroBasis]
  have hv : (Ideal.init rng).XValidRun
      [.base .allocate, .base .allocate, .base (.gate .x 0), .apply [] cnotMatrix [0, 1]] := by
    refine ⟨trivial, trivial, ?_, ⟨by simp, ?_, cnotMatrix_unitary⟩, trivial⟩
    · rw [hlive _ rfl]; show (0 : ℕ) ∈ ({0, 1} : Finset ℕ); simp
    · rw [hlive _ rfl]; intro q hq; show q ∈ ({0, 1} : Finset ℕ); simpa using hq
  obtain ⟨os, s', h1, h2⟩ := C19_no_release he hrng hv (by simp)
  obtain ⟨_, w, hw, h3⟩ := h2 (by simp)
  refine ⟨os, s', w, hw, h1, ?_⟩
  unfold Ideal.xrun at h3
  simp only [List.foldl_cons, List.foldl_nil] at h3
  rw [hlive _ rfl] at h3
  have : (((⟨{0, 1}, ket zeroBasis, rng⟩ : Ideal).xstep (.base (.gate .x 0))).xstep (.apply [] cnotMatrix [0, 1])).psi =
      ket oneOne := by
    show applyMatrix [] cnotMatrix [0, 1] (Spec.ctrl [] matX 0 (ket zeroBasis)) = _
    rw [hx, cnot_ket]
  rw [this] at h3
  exact h3

/-- **C19** fails as it stands: allocate two qubits, release the first, apply X to the second. -/
theorem C19_counterexample (he : env.eps = 0) {rng : ℕ → ℝ} (hrng : ∀ n, 0 ≤ rng n ∧ rng n < 1) :
    let cs : List XCall := [.base .allocate, .base .allocate, .base (.release 0), .apply [] xMatrix [1]]
    (Ideal.init rng).XValidRun cs ∧ runX env cs (Sim.new rng) = .error .outOfBounds := by
  have hlive : ((Ideal.init rng).xstep (.base .allocate)).xstep (.base .allocate) = ⟨{0, 1}, ket zeroBasis, rng⟩ :=
    bell_live rng
  have hl : (⟨{0, 1}, ket zeroBasis, rng⟩ : Ideal).live ≠ {0} := by
    intro h
    have h' : ({0, 1} : Finset ℕ) = {0} := h
    have : (1 : ℕ) ∈ ({0} : Finset ℕ) := by rw [← h']; simp
    simp at this
  have hlive2 : ((⟨{0, 1}, ket zeroBasis, rng⟩ : Ideal).xstep (.base (.release 0))).live = {1} := by
    simp only [Ideal.xstep, Ideal.step, if_neg hl]
    decide
  have hv : (Ideal.init rng).XValidRun
      [.base .allocate, .base .allocate, .base (.release 0), .apply [] xMatrix [1]] := by
    refine ⟨trivial, trivial, ?_, ⟨by simp, ?_, xMatrix_unitary⟩, trivial⟩
    · rw [hlive]; show (0 : ℕ) ∈ ({0, 1} : Finset ℕ); simp
    · rw [hlive, hlive2]; simp
  refine ⟨hv, ?_⟩
  obtain ⟨d1, o1, s1, a1, m1, _, r1⟩ := refine_call he (refines_new hrng) (c := .allocate) trivial
  cases m1
  obtain ⟨d2, o2, s2, a2, m2, _, r2⟩ := refine_call he r1 (c := .allocate) trivial
  cases m2
  have e2 : s2 = { Sim.new rng with idMap := twoMap } := by
    cases a1
    have : (Except.ok (Out.id (Sim.new rng).allocate.2.allocate.1, (Sim.new rng).allocate.2.allocate.2) :
      Except Panic (Out × Sim)) = .ok (o2, s2) := a2
    rw [two_allocated] at this
    cases this
    rfl
  have hm2 : s2.idMap = twoMap := by rw [e2]
  obtain ⟨s3, a3, w3, hid, _⟩ := release_many he r2.wf (id := 0) (by rw [hm2]; rfl) (by rw [hm2]; decide)
  have a3' : callX env (.base (.release 0)) s2 = .ok (.none, s3) := by
    show quiet (release env 0 s2) = _
    rw [a3]; rfl
  have hgap : ∃ l < ([] ++ [1]).length, ¬ Used s3.idMap l := by
    refine ⟨0, by simp, ?_⟩
    rintro ⟨q, hq⟩
    rw [hid, hm2, IMap.get_remove] at hq
    split at hq
    · cases hq
    · rename_i h0
      rcases q with _ | _ | q
      · exact h0 rfl
      · cases hq
      · cases hq
  obtain ⟨u, g1, _, _⟩ := apply_on (env := env) (s := s3) (U := xMatrix) (cs := []) (ts := [1]) (ctrls := some []) rfl
    (by simp)
  have g2 := applyOn_hole he w3 (ops := [] ++ [1]) (by simp) (by
    intro i hi
    have : i = 1 := by simpa using hi
    subst this
    rw [hid, hm2]; rfl) hgap u
  have a4 : callX env (.apply [] xMatrix [1]) s3 = .error .outOfBounds := by
    simp only [callX, quiet, g1, g2]; rfl
  have a1' : callX env (.base .allocate) (Sim.new rng) = .ok (o1, s1) := a1
  have a2' : callX env (.base .allocate) s1 = .ok (o2, s2) := a2
  simp only [runX, a1', a2', a3', a4, ok_bind]
  rfl

end Qir
