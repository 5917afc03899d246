import Verif.Proof.Alike

/-!
The same for the backend.
-/

noncomputable section
namespace Qir
open Spec Function Sim

theorem okBind {E α β : Type} (a : α) (f : α → Except E β) : (Except.ok a >>= f) = f a := rfl

theorem flushRy_cleared (env : Env) {q : ℕ} {s t : Sim} (h : flushRy env q s = .ok t) : t.ryQ.get q = none := by
  unfold flushRy at h
  split at h
  · cases hm : mcrotation env (y q) [] _ q true s with
    | error _ => rw [hm] at h; cases h
    | ok u => rw [hm] at h; cases h; simp [IMap.get_remove]
  · cases h; assumption

theorem maybeFlush_cleared (env : Env) {q : ℕ} {s t : Sim} (h : maybeFlush env [q] .HRxRy s = .ok t) :
    t.ryQ.get q = none := by
  unfold maybeFlush at h
  split at h
  · unfold flushQueue at h
    simp only [flushLoop, flushOne] at h
    cases h1 : flushH env q s with
    | error _ => rw [h1] at h; cases h
    | ok u =>
      rw [h1] at h
      cases h2 : flushRx env q u with
      | error _ => simp only [okBind, h2] at h; cases h
      | ok v =>
        cases h3 : flushRy env q v with
        | error _ => simp only [okBind, h2, h3] at h; cases h
        | ok w =>
          simp only [okBind, h2, h3] at h
          rw [(keeps_flushOps w t h).ry]
          exact flushRy_cleared env h3
  · next hq =>
    cases h
    simp only [List.any_cons, List.any_nil, Bool.or_false, hasQueued_eq] at hq
    cases hr : s.ryQ.get q with
    | none => rfl
    | some a => simp [hr] at hq

theorem measure_cleared (env : Env) {q : ℕ} {s t : Sim} {b : Bool} (h : Sim.measure env q s = .ok (b, t)) :
    t.ryQ.get q = none := by
  unfold Sim.measure at h
  cases h1 : maybeFlush env [q] .HRxRy s with
  | error _ => rw [h1] at h; cases h
  | ok u =>
    simp only [h1, okBind] at h
    cases h2 : resolveId u.idMap q with
    | error _ => simp only [h2] at h; cases h
    | ok l =>
      simp only [h2, okBind] at h
      unfold checkJointProbability at h
      cases h3 : takeOps u.nextSample.2 with
      | error _ => simp only [h3] at h; cases h
      | ok p =>
        obtain ⟨ops, v⟩ := p
        simp only [h3, okBind] at h
        cases h
        show v.ryQ.get q = none
        rw [(takeOps_alike h3).ry]
        show u.ryQ.get q = none
        exact maybeFlush_cleared env h1

theorem keeps_x {q : ℕ} {s : Sim} (h : s.ryQ.get q = none) : Keeps s (x q s) := by
  have hm : s.ryQ.modify q (fun a => a * (-1)) = s.ryQ := by
    unfold IMap.modify
    unfold IMap.get at h
    split
    · next e => rw [e] at h; cases h
    · rfl
  intro t e
  unfold x at e
  dsimp only at e
  rw [hm] at e
  split at e <;> exact keeps_enqueueOp _ _ _ s t e

namespace Back

/-- The backends agree in everything that decides which gates are pending. -/
def AlikeB (s s' : Backend) : Prop := Alike s.sim s'.sim ∧ s'.max = s.max

/-- Whatever the values beside them. -/
def AlikeBV {α β : Type} (r : α × Backend) (r' : β × Backend) : Prop := AlikeB r.2 r'.2

theorem rl_lift {α β : Type} {R : α → β → Prop} {x : Except Panic α} {x' : Except Panic β} (h : Rl R x x') :
    Rl R (lift x) (lift x') := by
  intro a a' e e'
  cases x <;> cases x' <;> cases e <;> cases e'
  exact h _ _ rfl rfl

theorem rl_act {s s' : Backend} (h : AlikeB s s') {f f' : Sim → Except Panic Sim} (hf : Rl Alike (f s.sim) (f' s'.sim)) :
    Rl AlikeB (act f s) (act f' s') :=
  (rl_lift hf).bind fun _ _ hu => .pure ⟨hu, h.2⟩

theorem rl_ask {α β : Type} {s s' : Backend} (h : AlikeB s s') {f : Sim → Except Panic (α × Sim)}
    {f' : Sim → Except Panic (β × Sim)} (hf : Rl AlikeV (f s.sim) (f' s'.sim)) : Rl AlikeBV (ask f s) (ask f' s') :=
  (rl_lift hf).bind fun _ _ hu => .pure ⟨hu, h.2⟩

theorem alike_ensure (q : ℕ) (s : Backend) : ∀ s', AlikeB s s' → AlikeB (ensure q s) (ensure q s') := by
  induction s using ensure.induct (q := q) with
  | case1 s h ih =>
    intro s' hs
    rw [ensure.eq_def q s, ensure.eq_def q s', if_pos h, if_pos (hs.2.symm ▸ h), hs.2]
    exact ih _ ⟨hs.1.allocate.2, rfl⟩
  | case2 s h =>
    intro s' hs
    rw [ensure.eq_def q s, ensure.eq_def q s', if_neg h, if_neg (hs.2.symm ▸ h)]
    exact hs

theorem alike_ensureAll (qs : List ℕ) : ∀ {s s' : Backend}, AlikeB s s' → AlikeB (ensureAll qs s) (ensureAll qs s') := by
  induction qs with
  | nil => intro s s' h; exact h
  | cons q qs ih => intro s s' h; exact ih (alike_ensure q s s' h)

variable (env : Env) {s s' : Backend}

theorem rl_gate (h : AlikeB s s') (g : Gate) (q : ℕ) : Rl AlikeB (gate env g q s) (gate env g q s') :=
  have h1 := alike_ensure q s s' h
  rl_act h1 (rl_gateCall env h1.1 q g)

theorem rl_ctl (h : AlikeB s s') (g : Gate) (cs : List ℕ) (q : ℕ) : Rl AlikeB (ctl env g cs q s) (ctl env g cs q s') :=
  have h1 := alike_ensureAll cs (alike_ensure q s s' h)
  rl_act h1 (rl_ctrlCall env h1.1 cs q g)

theorem rl_sx (h : AlikeB s s') (q : ℕ) : Rl AlikeB (sx env q s) (sx env q s') :=
  (rl_gate env h _ _).bind fun _ _ h => (rl_gate env h _ _).bind fun _ _ h => rl_gate env h _ _

theorem rl_rzz (h : AlikeB s s') (θ : ℝ) (a b : ℕ) : Rl AlikeB (rzz env θ a b s) (rzz env θ a b s') :=
  (rl_ctl env h _ _ _).bind fun _ _ h => (rl_gate env h _ _).bind fun _ _ h => rl_ctl env h _ _ _

theorem rl_rxx (h : AlikeB s s') (θ : ℝ) (a b : ℕ) : Rl AlikeB (rxx env θ a b s) (rxx env θ a b s') :=
  (rl_gate env h _ _).bind fun _ _ h => (rl_gate env h _ _).bind fun _ _ h => (rl_rzz env h _ _ _).bind fun _ _ h =>
    (rl_gate env h _ _).bind fun _ _ h => rl_gate env h _ _

theorem rl_ryy (h : AlikeB s s') (θ : ℝ) (a b : ℕ) : Rl AlikeB (ryy env θ a b s) (ryy env θ a b s') :=
  (rl_gate env h _ _).bind fun _ _ h => (rl_gate env h _ _).bind fun _ _ h => (rl_gate env h _ _).bind fun _ _ h =>
    (rl_gate env h _ _).bind fun _ _ h => (rl_gate env h _ _).bind fun _ _ h => (rl_gate env h _ _).bind fun _ _ h =>
    (rl_rzz env h _ _ _).bind fun _ _ h =>
    (rl_gate env h _ _).bind fun _ _ h => (rl_gate env h _ _).bind fun _ _ h => (rl_gate env h _ _).bind fun _ _ h =>
    (rl_gate env h _ _).bind fun _ _ h => (rl_gate env h _ _).bind fun _ _ h => rl_gate env h _ _

theorem rl_r (h : AlikeB s s') (p : Pauli) (θ : ℝ) (q : ℕ) : Rl AlikeB (r env p θ q s) (r env p θ q s') := by
  cases p
  · exact .ok h
  all_goals exact rl_gate env h _ _

theorem rl_rCtl (h : AlikeB s s') (cs : List ℕ) (p : Pauli) (θ : ℝ) (q : ℕ) :
    Rl AlikeB (rCtl env cs p θ q s) (rCtl env cs p θ q s') := by
  cases p
  case I =>
    unfold rCtl
    dsimp only
    have h1 := alike_ensureAll cs (alike_ensure q s s' h)
    split
    · cases cs with
      | nil => exact .ok h1
      | cons c cs => exact rl_act h1 (rl_mcphase env h1.1 _ _ _)
    · exact .ok h
  all_goals exact rl_ctl env h _ _ _

theorem rl_exp (h : AlikeB s s') (ps : List Pauli) (θ : ℝ) (qs : List ℕ) :
    Rl AlikeB (exp env ps θ qs s) (exp env ps θ qs s') :=
  have h1 := alike_ensureAll qs h
  rl_act h1 (rl_mcexp env h1.1 _ _ _ _)

theorem rl_expCtl (h : AlikeB s s') (cs : List ℕ) (ps : List Pauli) (θ : ℝ) (qs : List ℕ) :
    Rl AlikeB (expCtl env cs ps θ qs s) (expCtl env cs ps θ qs s') :=
  have h1 := alike_ensureAll qs (alike_ensureAll cs h)
  rl_act h1 (rl_mcexp env h1.1 _ _ _ _)

theorem rl_swap (h : AlikeB s s') (a b : ℕ) : Rl AlikeB (swap a b s) (swap a b s') :=
  have h1 := alike_ensure b _ _ (alike_ensure a s s' h)
  rl_act h1 (rl_swapQubitIds h1.1 a b)

/-- A measurement leaves no rotation about Y pending on its qubit. -/
def AlikeM (q : ℕ) (r r' : Bool × Backend) : Prop :=
  AlikeB r.2 r'.2 ∧ r.2.sim.ryQ.get q = none ∧ r'.2.sim.ryQ.get q = none

theorem rl_measureM (h : AlikeB s s') (q : ℕ) : Rl (AlikeM q) (ask (Sim.measure env q) s) (ask (Sim.measure env q) s') := by
  have key : ∀ {s t : Backend} {b : Bool}, ask (Sim.measure env q) s = .ok (b, t) → t.sim.ryQ.get q = none := by
    intro s t b e
    unfold ask at e
    cases hm : Sim.measure env q s.sim with
    | error _ => rw [hm] at e; cases e
    | ok p => rw [hm] at e; cases e; exact measure_cleared env hm
  rintro ⟨b, u⟩ ⟨b', u'⟩ e e'
  exact ⟨rl_ask h (rl_measure env h.1 q) _ _ e e', key e, key e'⟩

/-- Turning the qubit if one has been found: the pending gates do not depend on what has been found. -/
theorem rl_turn {q : ℕ} {b b' : Bool} (h : AlikeM q (b, s) (b', s')) :
    Rl AlikeB (if b then act (x q) s else pure s) (if b' then act (x q) s' else pure s') := by
  have key : ∀ {t : Backend} {b : Bool}, t.sim.ryQ.get q = none → ∀ u,
      (if b then act (x q) t else pure t : Except Stop Backend) = .ok u → AlikeB t u := by
    intro t b hc u e'
    cases b with
    | false => cases e'; exact ⟨.refl _, rfl⟩
    | true =>
      simp only [if_true] at e'
      unfold act at e'
      cases hx : x q t.sim with
      | error _ => rw [hx] at e'; cases e'
      | ok v => rw [hx] at e'; cases e'; exact ⟨keeps_x hc v hx, rfl⟩
  intro u u' e e'
  obtain ⟨a3, c, c'⟩ := h
  have a1 := key c _ e
  have a2 := key c' _ e'
  exact ⟨(a1.1.symm.trans a3.1).trans a2.1, (a2.2.trans a3.2).trans a1.2.symm⟩

theorem rl_reset (h : AlikeB s s') (q : ℕ) : Rl AlikeB (reset env q s) (reset env q s') := by
  unfold reset
  refine (rl_measureM env (alike_ensure q s s' h) q).bind ?_
  rintro ⟨b, u⟩ ⟨b', u'⟩ hu
  exact rl_turn hu

theorem rl_mz (h : AlikeB s s') (q r : ℕ) : Rl AlikeB (mz env q r s) (mz env q r s') := by
  unfold mz
  have h1 := alike_ensure q s s' h
  refine (rl_ask (s := { ensure q s with res := grow r (ensure q s).res })
    (s' := { ensure q s' with res := grow r (ensure q s').res }) h1 (rl_measure env h1.1 q)).bind ?_
  rintro ⟨b, u⟩ ⟨b', u'⟩ hu
  exact .pure hu

theorem rl_mresetz (h : AlikeB s s') (q r : ℕ) : Rl AlikeB (mresetz env q r s) (mresetz env q r s') := by
  unfold mresetz
  have h1 := alike_ensure q s s' h
  refine (rl_measureM env (s := { ensure q s with res := grow r (ensure q s).res })
    (s' := { ensure q s' with res := grow r (ensure q s').res }) h1 q).bind ?_
  rintro ⟨b, u⟩ ⟨b', u'⟩ hu
  have ht := rl_turn hu
  have hb : ∀ (b : Bool) (t : Backend), (if b then act (x q) t >>= fun s => pure { s with res := s.res.set r b }
      else pure t >>= fun s => pure { s with res := s.res.set r b } : Except Stop Backend) =
      (if b then act (x q) t else pure t) >>= fun s => pure { s with res := s.res.set r b } := by
    intro b t; cases b <;> rfl
  dsimp only
  rw [hb b u, hb b' u']
  exact ht.bind fun v v' hv => .pure hv

theorem rl_m (h : AlikeB s s') (q : ℕ) : Rl AlikeBV (m env q s) (m env q s') := by
  unfold m
  have h1 := alike_ensure q s s' h
  refine (rl_ask h1 (rl_measure env h1.1 q)).bind ?_
  rintro ⟨b, u⟩ ⟨b', u'⟩ hu
  exact .pure hu

theorem rl_forEach {α : Type} {f : α → Backend → Except Stop Backend}
    (hf : ∀ a {s s'}, AlikeB s s' → Rl AlikeB (f a s) (f a s')) (l : List α) : ∀ {s s' : Backend}, AlikeB s s' →
    Rl AlikeB (forEach f l s) (forEach f l s') := by
  induction l with
  | nil => intro s s' h; exact .ok h
  | cons a l ih => intro s s' h; exact (hf a h).bind fun _ _ hu => ih hu

theorem rl_mapOne (pq : Pauli × ℕ) {s s' : Backend} (h : AlikeB s s') : Rl AlikeB (mapOne env pq s) (mapOne env pq s') := by
  unfold mapOne
  split
  · exact rl_act h (rl_h env h.1 _)
  · exact (rl_act h (rl_h env h.1 _)).bind fun _ _ h => (rl_act h (rl_diag env _ h.1 _)).bind fun _ _ h =>
      rl_act h (rl_h env h.1 _)
  · exact .ok h

theorem rl_unmapOne (pq : Pauli × ℕ) {s s' : Backend} (h : AlikeB s s') :
    Rl AlikeB (unmapOne env pq s) (unmapOne env pq s') := by
  unfold unmapOne
  split
  · exact rl_act h (rl_h env h.1 _)
  · exact (rl_act h (rl_h env h.1 _)).bind fun _ _ h => (rl_act h (rl_diag env _ h.1 _)).bind fun _ _ h =>
      rl_act h (rl_h env h.1 _)
  · exact .ok h

theorem rl_mapToZ (h : AlikeB s s') (ps : List Pauli) (qs : List ℕ) :
    Rl (fun r r' => r'.1 = r.1 ∧ AlikeB r.2 r'.2) (mapToZ env ps qs s) (mapToZ env ps qs s') := by
  unfold mapToZ
  split
  · intro _ _ e; cases e
  · exact (rl_forEach (rl_mapOne env) _ (alike_ensureAll _ h)).bind fun _ _ hu => .pure ⟨rfl, hu⟩

theorem rl_backMeasure (h : AlikeB s s') (ps : List Pauli) (qs : List ℕ) :
    Rl AlikeBV (measure env ps qs s) (measure env ps qs s') := by
  unfold measure
  refine (rl_mapToZ env h ps qs).bind ?_
  rintro ⟨l, u⟩ ⟨l', u'⟩ ⟨hl, hu⟩
  cases hl
  refine (rl_ask hu (rl_jointMeasure env hu.1 _)).bind ?_
  rintro ⟨b, v⟩ ⟨b', v'⟩ hv
  exact (rl_forEach (rl_unmapOne env) l hv).bind fun _ _ hw => .pure hw

theorem rl_backIsZero (h : AlikeB s s') (q : ℕ) : Rl AlikeBV (qubitIsZero env q s) (qubitIsZero env q s') :=
  have h1 := alike_ensure q s s' h
  rl_ask h1 (rl_qubitIsZero env h1.1 q)

theorem rl_assertProb (h : AlikeB s s') (ps : List Pauli) (qs : List ℕ) (result : ℕ) (prob : ℝ) (msg : List Char)
    (tol : ℝ) : Rl AlikeB (assertProb env ps qs result prob msg tol s) (assertProb env ps qs result prob msg tol s') := by
  unfold assertProb
  refine (rl_mapToZ env h ps qs).bind ?_
  rintro ⟨l, u⟩ ⟨l', u'⟩ ⟨hl, hu⟩
  cases hl
  refine (rl_ask hu (rl_jointProbability env hu.1 _)).bind ?_
  rintro ⟨b, v⟩ ⟨b', v'⟩ hv
  have key : ∀ {y : ℝ} {v w : Backend}, (if |y - prob| > tol then Except.error (Stop.fail msg) else
      unmapFromZ env l v) = .ok w → forEach (unmapOne env) l v = .ok w := by
    intro y v w e
    by_cases hy : |y - prob| > tol
    · rw [if_pos hy] at e; cases e
    · rw [if_neg hy] at e; exact e
  exact fun w w' e e' => rl_forEach (rl_unmapOne env) l hv _ _ (key e) (key e')

theorem rl_silent {x x' : Except Stop Backend} (h : Rl AlikeB x x') :
    Rl (fun r r' : QAns × List UInt8 × Backend => AlikeB r.2.2 r'.2.2) (silent x) (silent x') :=
  h.bind fun _ _ hu => .pure hu

theorem keep_recorded {r : ℕ} {s t : Backend} {b : Bool} (h : recordedResult r s = .ok (b, t)) :
    t.sim = s.sim ∧ t.max = s.max := by
  unfold recordedResult at h
  split at h
  · cases h; exact ⟨rfl, rfl⟩
  · dsimp only at h
    split at h
    · cases h; exact ⟨rfl, rfl⟩
    · cases h

theorem keep_read {r : ℕ} {s t : Backend} {b : Bool} (h : readResult r s = .ok (b, t)) :
    t.sim = s.sim ∧ t.max = s.max := by
  unfold readResult at h
  dsimp only at h
  split at h
  · cases h; exact ⟨rfl, rfl⟩
  · cases h

theorem AlikeB.keep {t t' : Backend} (h : AlikeB s s') (k : t.sim = s.sim ∧ t.max = s.max)
    (k' : t'.sim = s'.sim ∧ t'.max = s'.max) : AlikeB t t' := by
  unfold AlikeB
  rw [k.1, k'.1, k.2, k'.2]
  exact h

/-- Whatever is measured, the same gates are pending after the same calls. -/
theorem rl_qstep (fmt : Fmt) (h : AlikeB s s') (c : QCall) :
    Rl (fun r r' => AlikeB r.2.2 r'.2.2) (qstep env fmt c s) (qstep env fmt c s') := by
  cases c with
  | gate g q => exact rl_silent (rl_gate env h g q)
  | ctl g cs q => exact rl_silent (rl_ctl env h g cs q)
  | sx q => exact rl_silent (rl_sx env h q)
  | rxx θ a b => exact rl_silent (rl_rxx env h θ a b)
  | ryy θ a b => exact rl_silent (rl_ryy env h θ a b)
  | rzz θ a b => exact rl_silent (rl_rzz env h θ a b)
  | r p θ q => exact rl_silent (rl_r env h p θ q)
  | rAdj p θ q => exact rl_silent (rl_r env h p _ q)
  | rCtl cs p θ q => exact rl_silent (rl_rCtl env h cs p θ q)
  | rCtlAdj cs p θ q => exact rl_silent (rl_rCtl env h cs p _ q)
  | exp ps θ qs => exact rl_silent (rl_exp env h ps θ qs)
  | expAdj ps θ qs => exact rl_silent (rl_exp env h ps _ qs)
  | expCtl cs ps θ qs => exact rl_silent (rl_expCtl env h cs ps θ qs)
  | expCtlAdj cs ps θ qs => exact rl_silent (rl_expCtl env h cs ps _ qs)
  | swap a b => exact rl_silent (rl_swap h a b)
  | reset q => exact rl_silent (rl_reset env h q)
  | mresetz q r => exact rl_silent (rl_mresetz env h q r)
  | mz q r => exact rl_silent (rl_mz env h q r)
  | readResult r =>
    refine Rl.bind (R := AlikeBV) (fun _ _ e e' => h.keep (keep_read e) (keep_read e')) ?_
    rintro ⟨b, u⟩ ⟨b', u'⟩ hu
    exact .pure hu
  | writeResult v r => exact .ok h
  | m q =>
    refine (rl_m env h q).bind ?_
    rintro ⟨b, u⟩ ⟨b', u'⟩ hu
    exact .pure hu
  | measure ps qs =>
    refine (rl_backMeasure env h ps qs).bind ?_
    rintro ⟨b, u⟩ ⟨b', u'⟩ hu
    exact .pure hu
  | isZero q =>
    refine (rl_backIsZero env h q).bind ?_
    rintro ⟨b, u⟩ ⟨b', u'⟩ hu
    exact .pure hu
  | assertProb ps qs result prob msg tol => exact rl_silent (rl_assertProb env h ps qs result prob msg tol)
  | allocate =>
    refine .ok ⟨h.1.allocate.2, ?_⟩
    show Nat.max s'.max (s'.sim.allocate.1 + 1) = Nat.max s.max (s.sim.allocate.1 + 1)
    rw [h.2, h.1.allocate.1]
  | release q => exact rl_silent (rl_act h (rl_release env h.1 q))
  | recordResult r tag =>
    refine Rl.bind (R := AlikeBV) (fun _ _ e e' => h.keep (keep_recorded e) (keep_recorded e')) ?_
    rintro ⟨b, u⟩ ⟨b', u'⟩ hu
    exact .pure hu
  | legacyResult r =>
    refine Rl.bind (R := AlikeBV) (fun _ _ e e' => h.keep (keep_recorded e) (keep_recorded e')) ?_
    rintro ⟨b, u⟩ ⟨b', u'⟩ hu
    exact .pure hu
  | record e _ => exact .ok h
  | legacy e _ => exact .ok h
  | fail msg => intro _ _ e; cases e
  | dump location =>
    refine Rl.bind (R := AlikeBV) ?_ ?_
    · unfold dumpMachine
      split
      · intro _ _ e; cases e
      · refine (rl_ask h (rl_dump env _ h.1)).bind ?_
        rintro ⟨b, u⟩ ⟨b', u'⟩ hu
        exact .pure hu
    · rintro ⟨b, u⟩ ⟨b', u'⟩ hu
      exact .pure hu
  | barrier => exact .ok h
  | reinit => exact .ok ⟨⟨rfl, rfl, rfl, rfl⟩, rfl⟩
  | drawInt lo hi =>
    intro a a' e e'
    simp only [qstep] at e e'
    split at e <;> cases e
    split at e' <;> cases e'
    exact h
  | drawDouble lo hi =>
    intro a a' e e'
    simp only [qstep] at e e'
    split at e <;> cases e
    split at e' <;> cases e'
    exact h

end Back
end Qir
