import Verif.Proof.Walk2
import Verif.Proof.BackFrame
import Verif.Props.SessionDefs

/-! How far every method and every call advances the random stream, and that only the draws look at the unseeded
words; in any state, for any arguments and any tolerance. -/

noncomputable section
namespace Qir
open Spec Sim

/-- The stream has been advanced by `k` samples. -/
def Advanced (k : ℕ) (r r' : ℕ → ℝ) : Prop := r' = fun n => r (n + k)

theorem Advanced.refl (r : ℕ → ℝ) : Advanced 0 r r := rfl
theorem Advanced.of_eq {r r' : ℕ → ℝ} (h : r' = r) : Advanced 0 r r' := h
theorem Advanced.trans {a b c : ℕ → ℝ} {j k : ℕ} (h : Advanced j a b) (h' : Advanced k b c) :
    Advanced (j + k) a c := by
  unfold Advanced at *
  subst h h'
  funext n
  show a (n + k + j) = a (n + (j + k))
  congr 1; omega
theorem Advanced.zero {a b : ℕ → ℝ} (h : Advanced 0 a b) : b = a := h

theorem rng_check {s s' : Sim} {p : ℝ} {locs : List ℕ} (h : s.checkJointProbability locs = .ok (p, s')) :
    s'.rng = s.rng := by
  unfold checkJointProbability at h
  obtain ⟨⟨ops, s1⟩, h1, h⟩ := bind_ok h
  cases h
  exact (keep_take h1).rng

theorem rng_jointProbability {env : Env} {s s' : Sim} {p : ℝ} {ids : List ℕ}
    (h : s.jointProbability env ids = .ok (p, s')) : s'.rng = s.rng := by
  unfold jointProbability at h
  obtain ⟨s1, h1, h⟩ := bind_ok h
  obtain ⟨_, h2, h⟩ := bind_ok h
  obtain ⟨locs, h3, h⟩ := bind_ok h
  exact (rng_check h).trans (keep_maybeFlush h1).rng

theorem rng_isZero {env : Env} {s s' : Sim} {b : Bool} {q : ℕ}
    (h : s.qubitIsZero env q = .ok (b, s')) : s'.rng = s.rng := by
  unfold qubitIsZero at h
  obtain ⟨⟨p, s1⟩, h1, h⟩ := bind_ok h
  cases h
  exact rng_jointProbability h1

theorem rng_measure {env : Env} {s s' : Sim} {b : Bool} {q : ℕ}
    (h : s.measure env q = .ok (b, s')) : Advanced 1 s.rng s'.rng := by
  unfold Sim.measure at h
  obtain ⟨s1, h1, h⟩ := bind_ok h
  obtain ⟨loc, h2, h⟩ := bind_ok h
  simp only [nextSample] at h
  obtain ⟨⟨p, s2⟩, h3, h⟩ := bind_ok h
  cases h
  have := rng_check h3
  show s2.rng = _
  rw [this, ← (keep_maybeFlush h1).rng]

theorem rng_jointMeasure {env : Env} {s s' : Sim} {b : Bool} {ids : List ℕ}
    (h : s.jointMeasure env ids = .ok (b, s')) : Advanced 1 s.rng s'.rng := by
  unfold jointMeasure at h
  obtain ⟨s1, h1, h⟩ := bind_ok h
  obtain ⟨_, h0, h⟩ := bind_ok h
  obtain ⟨loc, h2, h⟩ := bind_ok h
  simp only [nextSample] at h
  obtain ⟨⟨p, s2⟩, h3, h⟩ := bind_ok h
  cases h
  have := rng_check h3
  show s2.rng = _
  rw [this, ← (keep_maybeFlush h1).rng]

theorem rng_release {env : Env} {s s' : Sim} {q : ℕ} (h : s.release env q = .ok s') :
    Advanced (if s.idMap.iter.length = 1 then 0 else 1) s.rng s'.rng := by
  unfold release at h
  obtain ⟨s1, h1, h⟩ := bind_ok h
  cases h
  unfold releaseState at h1
  split at h1
  · rename_i hl
    rw [if_pos hl]
    cases h1; exact Advanced.refl _
  · rename_i hl
    rw [if_neg hl]
    obtain ⟨⟨b, s2⟩, h2, h1⟩ := bind_ok h1
    obtain ⟨loc, h3, h1⟩ := bind_ok h1
    have := rng_measure h2
    split at h1 <;> cases h1 <;> exact this

theorem rng_swap {s s' : Sim} {a b : ℕ} (h : s.swapQubitIds a b = .ok s') : s'.rng = s.rng := by
  unfold swapQubitIds at h
  obtain ⟨s1, h1, h⟩ := bind_ok h
  obtain ⟨m1, h2, h⟩ := bind_ok h
  obtain ⟨m2, h3, h⟩ := bind_ok h
  cases h
  exact (keep_flushOps h1).1.rng

theorem rng_swapQubitState {env : Env} {s s' : Sim} {a b : ℕ} (h : s.swapQubitState env a b = .ok s') :
    s'.rng = s.rng := by
  unfold swapQubitState at h
  split at h
  · cases h; rfl
  · obtain ⟨s1, h1, h⟩ := bind_ok h
    cases h
    exact (keep_flushQueue h1).1.rng

theorem rng_relocateOne {env : Env} {s s' : Sim} {i k : ℕ} (h : s.relocateOne env i k = .ok s') :
    s'.rng = s.rng := by
  unfold relocateOne at h
  obtain ⟨l, h1, h⟩ := bind_ok h
  split at h
  · obtain ⟨s1, h2, h⟩ := bind_ok h
    cases h
    refine Eq.trans ?_ (rng_swapQubitState h2)
    show (match findByLoc s1.idMap i with | some swappedKey => _ | none => _ : Sim).rng = _
    cases findByLoc s1.idMap i <;> rfl
  · cases h; rfl

theorem rng_relocate {env : Env} {ks : List ℕ} : ∀ {i : ℕ} {s s' : Sim},
    s.relocate env i ks = .ok s' → s'.rng = s.rng := by
  induction ks with
  | nil => intro i s s' h; cases h; rfl
  | cons k ks ih =>
    intro i s s' h
    unfold relocate at h
    obtain ⟨s1, h1, h⟩ := bind_ok h
    exact (ih h).trans (rng_relocateOne h1)

theorem rng_dump {env : Env} {fmt : ℂ → String} {s s' : Sim} {t : String}
    (h : s.dump env fmt = .ok (t, s')) : s'.rng = s.rng := by
  unfold dump at h
  obtain ⟨s1, h1, h⟩ := bind_ok h
  obtain ⟨s2, h2, h⟩ := bind_ok h
  cases h
  exact (rng_relocate h2).trans (keep_flushQueue h1).1.rng

theorem rng_rx {env : Env} {s s' : Sim} {θ : ℝ} {q : ℕ} (h : s.rx env θ q = .ok s') : s'.rng = s.rng := by
  unfold rx at h
  obtain ⟨s1, h1, h⟩ := bind_ok h
  cases h
  exact (keep_flushIf h1).rng

theorem rng_gateCall {env : Env} {s s' : Sim} {g : Gate} {q : ℕ} (h : gateCall env q g s = .ok s') :
    s'.rng = s.rng := by
  by_cases hg : ∃ θ, g = .rx θ
  · obtain ⟨θ, rfl⟩ := hg
    exact rng_rx h
  · exact (keep_gateCall (fun θ e => hg ⟨θ, e⟩) h).rng

namespace Back
open Qir.Out

variable {env : Env} {fmt : Fmt} {s s' : Backend}

/-- A function that advances the stream by `k` samples. -/
def Takes (k : ℕ) (f : Backend → Except Stop Backend) : Prop :=
  ∀ s s', f s = .ok s' → Advanced k s.sim.rng s'.sim.rng

/-- The same with a result. -/
def TakesA {α : Type} (k : ℕ) (f : Backend → Except Stop (α × Backend)) : Prop :=
  ∀ s a s', f s = .ok (a, s') → Advanced k s.sim.rng s'.sim.rng

theorem stop_bind {α β : Type} {r : Except Stop α} {f : α → Except Stop β} {b : β}
    (h : (r >>= f) = .ok b) : ∃ a, r = .ok a ∧ f a = .ok b := by
  cases r with
  | error e => cases h
  | ok a => exact ⟨a, rfl, h⟩

theorem lift_inv {α : Type} {r : Except Panic α} {a : α} (h : lift r = .ok a) : r = .ok a := by
  cases r with
  | error e => cases h
  | ok b => cases h; rfl

theorem ensure_rng (q : ℕ) (s : Backend) : (ensure q s).sim.rng = s.sim.rng := by
  generalize hn : q + 1 - s.max = n
  induction n generalizing s with
  | zero => rw [ensure, if_neg (by omega)]
  | succ n ih =>
    rw [ensure, if_pos (by omega), ih _ (by simp; omega)]
    rfl

theorem ensureAll_rng (qs : List ℕ) (s : Backend) : (ensureAll qs s).sim.rng = s.sim.rng := by
  unfold ensureAll
  induction qs generalizing s with
  | nil => rfl
  | cons q qs ih => rw [List.foldl_cons, ih, ensure_rng]

theorem takes_act {f : Sim → Except Panic Sim} {k : ℕ} (h : ∀ m m', f m = .ok m' → Advanced k m.rng m'.rng) :
    Takes k (act f) := by
  intro s s' e
  obtain ⟨m, h1, h2⟩ := stop_bind e
  cases h2
  exact h _ _ (lift_inv h1)

theorem takes_ask {α : Type} {f : Sim → Except Panic (α × Sim)} {k : ℕ}
    (h : ∀ m a m', f m = .ok (a, m') → Advanced k m.rng m'.rng) : TakesA k (ask f) := by
  intro s a s' e
  obtain ⟨⟨b, m⟩, h1, h2⟩ := stop_bind e
  cases h2
  exact h _ _ _ (lift_inv h1)

theorem takes_ok : Takes 0 (fun s => .ok s) := fun s s' e => by cases e; rfl

theorem Takes.ensure {f : Backend → Except Stop Backend} {k : ℕ} (h : Takes k f) (q : ℕ) :
    Takes k (fun s => f (ensure q s)) := fun s s' e => by
  have := h _ _ e; rwa [ensure_rng] at this

theorem Takes.ensureAll {f : Backend → Except Stop Backend} {k : ℕ} (h : Takes k f) (qs : List ℕ) :
    Takes k (fun s => f (ensureAll qs s)) := fun s s' e => by
  have := h _ _ e; rwa [ensureAll_rng] at this

theorem TakesA.ensure {α : Type} {f : Backend → Except Stop (α × Backend)} {k : ℕ} (h : TakesA k f) (q : ℕ) :
    TakesA k (fun s => f (ensure q s)) := fun s a s' e => by
  have := h _ _ _ e; rwa [ensure_rng] at this

theorem Takes.bind {f g : Backend → Except Stop Backend} {j k : ℕ} (hf : Takes j f) (hg : Takes k g) :
    Takes (j + k) (fun s => f s >>= g) := fun s s' e => by
  obtain ⟨s1, h1, h2⟩ := stop_bind e
  exact (hf _ _ h1).trans (hg _ _ h2)

theorem TakesA.bind {α : Type} {f : Backend → Except Stop (α × Backend)} {g : α → Backend → Except Stop Backend}
    {j k : ℕ} (hf : TakesA j f) (hg : ∀ a, Takes k (g a)) : Takes (j + k) (fun s => f s >>= fun r => g r.1 r.2) :=
  fun s s' e => by
  obtain ⟨⟨a, s1⟩, h1, h2⟩ := stop_bind e
  exact (hf _ _ _ h1).trans (hg a _ _ h2)

theorem TakesA.bindA {α β : Type} {f : Backend → Except Stop (α × Backend)}
    {g : α → Backend → Except Stop (β × Backend)} {j k : ℕ} (hf : TakesA j f) (hg : ∀ a, TakesA k (g a)) :
    TakesA (j + k) (fun s => f s >>= fun r => g r.1 r.2) := fun s b s' e => by
  obtain ⟨⟨a, s1⟩, h1, h2⟩ := stop_bind e
  exact (hf _ _ _ h1).trans (hg a _ _ _ h2)

theorem Takes.bindA {β : Type} {f : Backend → Except Stop Backend} {g : Backend → Except Stop (β × Backend)}
    {j k : ℕ} (hf : Takes j f) (hg : TakesA k g) : TakesA (j + k) (fun s => f s >>= g) := fun s b s' e => by
  obtain ⟨s1, h1, h2⟩ := stop_bind e
  exact (hf _ _ h1).trans (hg _ _ _ h2)

theorem takes_pure {α : Type} (a : α) : TakesA 0 (fun s => .ok (a, s)) := fun s b s' e => by cases e; rfl

theorem Takes.forEach {α : Type} {f : α → Backend → Except Stop Backend} (h : ∀ a, Takes 0 (f a)) (l : List α) :
    Takes 0 (forEach f l) := by
  induction l with
  | nil => exact takes_ok
  | cons a l ih => exact (h a).bind ih

theorem takes_gate (g : Gate) (q : ℕ) : Takes 0 (gate env g q) := (takes_act fun _ _ h => .of_eq (rng_gateCall h)).ensure q
theorem takes_ctl (g : Gate) (cs : List ℕ) (q : ℕ) : Takes 0 (ctl env g cs q) :=
  ((takes_act fun _ _ h => .of_eq ((keep_ctrlCall h).rng)).ensureAll cs).ensure q
theorem takes_sx (q : ℕ) : Takes 0 (sx env q) := (takes_gate _ q).bind ((takes_gate _ q).bind (takes_gate _ q))
theorem takes_rzz (θ : ℝ) (a b : ℕ) : Takes 0 (rzz env θ a b) :=
  (takes_ctl _ _ _).bind ((takes_gate _ _).bind (takes_ctl _ _ _))
theorem takes_rxx (θ : ℝ) (a b : ℕ) : Takes 0 (rxx env θ a b) :=
  (takes_gate _ _).bind ((takes_gate _ _).bind ((takes_rzz _ _ _).bind ((takes_gate _ _).bind (takes_gate _ _))))
theorem takes_ryy (θ : ℝ) (a b : ℕ) : Takes 0 (ryy env θ a b) :=
  (takes_gate _ _).bind ((takes_gate _ _).bind ((takes_gate _ _).bind ((takes_gate _ _).bind ((takes_gate _ _).bind
    ((takes_gate _ _).bind ((takes_rzz _ _ _).bind ((takes_gate _ _).bind ((takes_gate _ _).bind
      ((takes_gate _ _).bind ((takes_gate _ _).bind ((takes_gate _ _).bind (takes_gate _ _))))))))))))
theorem takes_r (p : Pauli) (θ : ℝ) (q : ℕ) : Takes 0 (r env p θ q) := by
  cases p <;> first | exact takes_ok | exact takes_gate _ _
theorem takes_rCtl (cs : List ℕ) (p : Pauli) (θ : ℝ) (q : ℕ) : Takes 0 (rCtl env cs p θ q) := by
  cases p
  · cases cs with
    | nil => exact takes_ok
    | cons c cs => exact ((takes_act fun _ _ h => .of_eq ((keep_mcphase h).1.rng)).ensureAll (c :: cs)).ensure q
  all_goals exact takes_ctl _ _ _
theorem takes_expCtl (cs : List ℕ) (ps : List Pauli) (θ : ℝ) (qs : List ℕ) : Takes 0 (expCtl env cs ps θ qs) :=
  ((takes_act fun _ _ h => .of_eq ((keep_mcexp h).1.rng)).ensureAll qs).ensureAll cs
theorem takes_exp (ps : List Pauli) (θ : ℝ) (qs : List ℕ) : Takes 0 (exp env ps θ qs) :=
  (takes_act fun _ _ h => .of_eq ((keep_mcexp h).1.rng)).ensureAll qs
theorem takes_swap (a b : ℕ) : Takes 0 (swap a b) := ((takes_act fun _ _ h => .of_eq (rng_swap h)).ensure b).ensure a
theorem takes_clear (b : Bool) (q : ℕ) :
    Takes 0 (fun s => if b then act (x q) s else (pure s : Except Stop Backend)) := by
  cases b
  · exact takes_ok
  · exact takes_act fun _ _ h => .of_eq ((keep_x h).rng)
theorem takes_reset (q : ℕ) : Takes 1 (reset env q) :=
  ((takes_ask fun _ _ _ h => rng_measure h).bind (fun b => takes_clear b q)).ensure q
theorem takes_m (q : ℕ) : TakesA 1 (m env q) :=
  ((takes_ask fun _ _ _ h => rng_measure h).bindA fun b => takes_pure (resultPtr b)).ensure q
theorem takes_mapOne (p : Pauli × ℕ) : Takes 0 (mapOne env p) := by
  obtain ⟨p, q⟩ := p
  have hh : Takes 0 (act (h env q)) := takes_act fun _ _ h => .of_eq ((keep_h h).rng)
  have hs : Takes 0 (act (sGate env q)) := takes_act fun _ _ h => .of_eq ((keep_diag h).rng)
  cases p
  · exact takes_ok
  · exact hh
  · exact takes_ok
  · exact hh.bind (hs.bind hh)
theorem takes_unmapOne (p : Pauli × ℕ) : Takes 0 (unmapOne env p) := by
  obtain ⟨p, q⟩ := p
  have hh : Takes 0 (act (h env q)) := takes_act fun _ _ h => .of_eq ((keep_h h).rng)
  have hs : Takes 0 (act (sadj env q)) := takes_act fun _ _ h => .of_eq ((keep_diag h).rng)
  cases p
  · exact takes_ok
  · exact hh
  · exact takes_ok
  · exact hh.bind (hs.bind hh)
theorem takes_mapToZ (ps : List Pauli) (qs : List ℕ) : TakesA 0 (mapToZ env ps qs) := by
  unfold mapToZ
  split
  · intro _ _ _ e; cases e
  · exact ((Takes.forEach takes_mapOne _).ensureAll _).bindA (takes_pure _)
theorem takes_unmapFromZ (l : List (Pauli × ℕ)) : Takes 0 (unmapFromZ env l) := Takes.forEach takes_unmapOne l
theorem takes_measure (ps : List Pauli) (qs : List ℕ) : TakesA 1 (measure env ps qs) :=
  (takes_mapToZ ps qs).bindA (k := 1) fun l => (takes_ask (f := jointMeasure env (l.map Prod.snd))
    fun _ _ _ h => rng_jointMeasure h).bindA fun b =>
    (takes_unmapFromZ l).bindA (takes_pure (resultPtr b))
theorem takes_isZero (q : ℕ) : TakesA 0 (qubitIsZero env q) := (takes_ask fun _ _ _ h => .of_eq (rng_isZero h)).ensure q
theorem takes_assertProb (ps : List Pauli) (qs : List ℕ) (n : ℕ) (p : ℝ) (msg : List Char) (t : ℝ) :
    Takes 0 (assertProb env ps qs n p msg t) := by
  unfold assertProb
  refine (takes_mapToZ ps qs).bind (k := 0) (g := fun combined s => do
    let (p', s) ← ask (jointProbability env (combined.map Prod.snd)) s
    let actual := if resultEqual n (resultPtr false) then 1 - p' else p'
    if |actual - p| > t then .error (.fail msg) else unmapFromZ env combined s) fun l => ?_
  refine (takes_ask fun _ _ _ h => .of_eq (rng_jointProbability h)).bind (j := 0) (k := 0) (g := fun p' s =>
    let actual := if resultEqual n (resultPtr false) then 1 - p' else p'
    if |actual - p| > t then .error (.fail msg) else unmapFromZ env l s) fun p' => ?_
  simp only
  split
  · split
    · intro _ _ e; cases e
    · exact takes_unmapFromZ l
  · split
    · intro _ _ e; cases e
    · exact takes_unmapFromZ l

theorem takes_x (q : ℕ) : Takes 0 (act (x q)) := takes_act fun _ _ h => .of_eq (keep_x h).rng

theorem silent_takes {f : Backend → Except Stop Backend} {k : ℕ} (hf : Takes k f) {a : QAns} {out : Bytes}
    (h : silent (f s) = .ok (a, out, s')) : Advanced k s.sim.rng s'.sim.rng := hf _ _ (silent_inv h).1

/-- Every call advances the stream by the samples it takes. -/
theorem qstep_takes {c : QCall} {a : QAns} {out : Bytes} (h : qstep env fmt c s = .ok (a, out, s')) :
    ∃ k, least c ≤ k ∧ k ≤ most c ∧ Advanced k s.sim.rng s'.sim.rng := by
  have same : ∀ {k : ℕ}, least c = k → most c = k → Advanced k s.sim.rng s'.sim.rng →
      ∃ k, least c ≤ k ∧ k ≤ most c ∧ Advanced k s.sim.rng s'.sim.rng := fun h1 h2 e => ⟨_, h1.le, h2.ge, e⟩
  cases c <;> simp only [qstep] at h
  case gate g q => exact same rfl rfl (silent_takes (takes_gate g q) h)
  case ctl g cs q => exact same rfl rfl (silent_takes (takes_ctl g cs q) h)
  case sx q => exact same rfl rfl (silent_takes (takes_sx q) h)
  case rxx θ a b => exact same rfl rfl (silent_takes (takes_rxx θ a b) h)
  case ryy θ a b => exact same rfl rfl (silent_takes (takes_ryy θ a b) h)
  case rzz θ a b => exact same rfl rfl (silent_takes (takes_rzz θ a b) h)
  case r p θ q => exact same rfl rfl (silent_takes (takes_r p θ q) h)
  case rAdj p θ q => exact same rfl rfl (silent_takes (takes_r p (-θ) q) h)
  case rCtl cs p θ q => exact same rfl rfl (silent_takes (takes_rCtl cs p θ q) h)
  case rCtlAdj cs p θ q => exact same rfl rfl (silent_takes (takes_rCtl cs p (-θ) q) h)
  case exp ps θ qs => exact same rfl rfl (silent_takes (takes_exp ps θ qs) h)
  case expAdj ps θ qs => exact same rfl rfl (silent_takes (takes_exp ps (-θ) qs) h)
  case expCtl cs ps θ qs => exact same rfl rfl (silent_takes (takes_expCtl cs ps θ qs) h)
  case expCtlAdj cs ps θ qs => exact same rfl rfl (silent_takes (takes_expCtl cs ps (-θ) qs) h)
  case swap a b => exact same rfl rfl (silent_takes (takes_swap a b) h)
  case reset q => exact same rfl rfl (silent_takes (takes_reset q) h)
  case mresetz q r =>
    have h := (silent_inv h).1
    rw [mresetz_reset] at h
    obtain ⟨p, h1, h⟩ := stop_bind h
    obtain ⟨s1, h2, h⟩ := stop_bind h
    cases h
    have := takes_reset q _ _ h2
    exact same rfl rfl this
  case mz q r =>
    have h := (silent_inv h).1
    rw [mz_m] at h
    cases hm : m env q s with
    | error e => rw [hm] at h; cases h
    | ok p =>
      rw [hm] at h
      cases h
      have := takes_m q _ _ _ hm
      exact same rfl rfl this
  case readResult r =>
    simp only [readResult, grow_get?, ok_bind, pure_ok, Except.ok.injEq, Prod.mk.injEq] at h
    obtain ⟨_, _, rfl⟩ := h
    exact same rfl rfl (.refl _)
  case m q =>
    obtain ⟨p, h1, h⟩ := stop_bind h
    cases h
    exact same rfl rfl (takes_m q _ _ _ h1)
  case measure ps qs =>
    obtain ⟨p, h1, h⟩ := stop_bind h
    cases h
    exact same rfl rfl (takes_measure ps qs _ _ _ h1)
  case isZero q =>
    obtain ⟨p, h1, h⟩ := stop_bind h
    cases h
    exact same rfl rfl (takes_isZero q _ _ _ h1)
  case assertProb ps qs n p msg t => exact same rfl rfl (silent_takes (takes_assertProb ps qs n p msg t) h)
  case release q =>
    have h := (silent_inv h).1
    obtain ⟨m', h1, h⟩ := stop_bind h
    cases h
    refine ⟨_, Nat.zero_le _, ?_, rng_release (lift_inv h1)⟩
    show ite _ 0 1 ≤ 1
    split <;> omega
  case recordResult r tag =>
    simp only [recordedResult, grow_get?] at h
    split at h
    · simp only [ok_bind, pure_ok, Except.ok.injEq, Prod.mk.injEq] at h
      obtain ⟨_, _, rfl⟩ := h
      exact same rfl rfl (.refl _)
    · simp only [ok_bind, pure_ok, Except.ok.injEq, Prod.mk.injEq] at h
      obtain ⟨_, _, rfl⟩ := h
      exact same rfl rfl (.refl _)
  case legacyResult r =>
    simp only [recordedResult, grow_get?] at h
    split at h
    · simp only [ok_bind, pure_ok, Except.ok.injEq, Prod.mk.injEq] at h
      obtain ⟨_, _, rfl⟩ := h
      exact same rfl rfl (.refl _)
    · simp only [ok_bind, pure_ok, Except.ok.injEq, Prod.mk.injEq] at h
      obtain ⟨_, _, rfl⟩ := h
      exact same rfl rfl (.refl _)
  case dump l =>
    cases l
    · simp only [dumpMachine, Bool.false_eq_true, if_false] at h
      obtain ⟨p, h1, h⟩ := stop_bind h
      cases h
      obtain ⟨p', h2, h1⟩ := stop_bind h1
      cases h1
      obtain ⟨⟨b, m'⟩, h3, h2⟩ := stop_bind h2
      cases h2
      exact same rfl rfl (.of_eq (rng_dump (lift_inv h3)))
    · simp [dumpMachine] at h
  case fail msg => cases h
  case drawInt lo hi =>
    split at h <;> cases h
    exact same rfl rfl (.refl _)
  case drawDouble lo hi =>
    split at h <;> cases h
    exact same rfl rfl (.refl _)
  all_goals
    simp only [Except.ok.injEq, Prod.mk.injEq] at h
    obtain ⟨_, _, rfl⟩ := h
    exact same rfl rfl (.refl _)

/-! ### Only the draws look at the unseeded words -/

/-- Other words. -/
def setOs (o : ℕ → ℕ) (s : Backend) : Backend := { s with os := o }

theorem Blind.os {f : Backend → Except Stop Backend} (h : Blind f) (o : ℕ → ℕ) (s : Backend) :
    f (setOs o s) = (f s).map (setOs o) := by
  have := h s.res o s
  rw [show setOs o s = put s.res o s from rfl, this]
  cases hf : f s with
  | error e => rfl
  | ok s' => simp only [Except.map, setOs, put, (h.res hf).1]

theorem BlindA.os {α : Type} {f : Backend → Except Stop (α × Backend)} (h : BlindA f) (o : ℕ → ℕ) (s : Backend) :
    f (setOs o s) = (f s).map (fun r => (r.1, setOs o r.2)) := by
  have := h s.res o s
  rw [show setOs o s = put s.res o s from rfl, this]
  cases hf : f s with
  | error e => rfl
  | ok r => obtain ⟨a, s'⟩ := r; simp only [Except.map, setOs, put, (h.res hf).1]

theorem silent_os {f : Backend → Except Stop Backend} (h : Blind f) (o : ℕ → ℕ) (s : Backend) :
    silent (f (setOs o s)) = (silent (f s)).map (fun r => (r.1, r.2.1, setOs o r.2.2)) := by
  rw [h.os]
  cases f s <;> rfl

theorem qstep_os (c : QCall) (hc : NoDraw c) (o : ℕ → ℕ) (s : Backend) :
    qstep env fmt c (setOs o s) = (qstep env fmt c s).map (fun r => (r.1, r.2.1, setOs o r.2.2)) := by
  have hres : (setOs o s).res = s.res := rfl
  cases c <;> simp only [qstep]
  case gate g q => exact silent_os (blind_gate g q) o s
  case ctl g cs q => exact silent_os (blind_ctl g cs q) o s
  case sx q => exact silent_os (blind_sx q) o s
  case rxx θ a b => exact silent_os (blind_rxx θ a b) o s
  case ryy θ a b => exact silent_os (blind_ryy θ a b) o s
  case rzz θ a b => exact silent_os (blind_rzz θ a b) o s
  case r p θ q => exact silent_os (blind_r p θ q) o s
  case rAdj p θ q => exact silent_os (blind_r p (-θ) q) o s
  case rCtl cs p θ q => exact silent_os (blind_rCtl cs p θ q) o s
  case rCtlAdj cs p θ q => exact silent_os (blind_rCtl cs p (-θ) q) o s
  case exp ps θ qs => exact silent_os (blind_exp ps θ qs) o s
  case expAdj ps θ qs => exact silent_os (blind_exp ps (-θ) qs) o s
  case expCtl cs ps θ qs => exact silent_os (blind_expCtl cs ps θ qs) o s
  case expCtlAdj cs ps θ qs => exact silent_os (blind_expCtl cs ps (-θ) qs) o s
  case swap a b => exact silent_os (blind_swap a b) o s
  case reset q => exact silent_os (blind_reset q) o s
  case mresetz q r =>
    rw [mresetz_reset, mresetz_reset, (blind_m q).os, (blind_reset q).os, hres]
    cases m env q s with
    | error e => rfl
    | ok p =>
      cases reset env q s with
      | error e => rfl
      | ok s1 => rfl
  case mz q r =>
    rw [mz_m, mz_m, (blind_m q).os, hres]
    cases m env q s with
    | error e => rfl
    | ok p => rfl
  case readResult r =>
    simp only [readResult, grow_get?, ok_bind, pure_ok, hres]
    rfl
  case m q =>
    rw [(blind_m q).os]
    cases m env q s <;> rfl
  case measure ps qs =>
    rw [(blind_measure ps qs).os]
    cases measure env ps qs s <;> rfl
  case isZero q =>
    rw [(blind_isZero q).os]
    cases qubitIsZero env q s <;> rfl
  case assertProb ps qs n p msg t => exact silent_os (blind_assertProb ps qs n p msg t) o s
  case release q => exact silent_os (blind_release q) o s
  case recordResult r tag =>
    simp only [recordedResult, grow_get?, hres]
    split <;> rfl
  case legacyResult r =>
    simp only [recordedResult, grow_get?, hres]
    split <;> rfl
  case dump l =>
    cases l
    · simp only [dumpMachine, Bool.false_eq_true, if_false, hres, (blind_ask (dump env fmt.amplitude)).os]
      cases ask (dump env fmt.amplitude) s <;> rfl
    · rfl
  case drawInt lo hi => exact hc.elim
  case drawDouble lo hi => exact hc.elim
  all_goals rfl

end Back
end Qir
