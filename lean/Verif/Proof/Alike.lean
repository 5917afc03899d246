import Verif.Model.Backend
import Verif.Proof.Flush

/-!
Which gates wait in the queues of the simulator does not depend on the outcomes of measurements.

`Alike s s'`: the same identifiers, and the same Hadamard gates and rotations pending; the amplitudes, the samples and
the pending permutations may differ.
-/

noncomputable section
namespace Qir
open Spec Function Sim

/-- The same identifiers, the same pending Hadamard gates and rotations. -/
structure Alike (s s' : Sim) : Prop where
  ids : s'.idMap = s.idMap
  h : s'.hFlag = s.hFlag
  rx : s'.rxQ = s.rxQ
  ry : s'.ryQ = s.ryQ

theorem Alike.refl (s : Sim) : Alike s s := ⟨rfl, rfl, rfl, rfl⟩

theorem Alike.symm {s s' : Sim} (h : Alike s s') : Alike s' s := ⟨h.ids.symm, h.h.symm, h.rx.symm, h.ry.symm⟩

theorem Alike.trans {s s' s'' : Sim} (h : Alike s s') (h' : Alike s' s'') : Alike s s'' :=
  ⟨h'.ids.trans h.ids, h'.h.trans h.h, h'.rx.trans h.rx, h'.ry.trans h.ry⟩

theorem Alike.out {s s' : Sim} (h : Alike s s') : ∃ st r o, s' = { s with state := st, rng := r, opQ := o } := by
  obtain ⟨h1, h2, h3, h4⟩ := h
  obtain ⟨st, m, r, f, a, b, o⟩ := s'
  exact ⟨st, r, o, by cases h1; cases h2; cases h3; cases h4; rfl⟩

/-- If both return, the results are related. -/
def Rl {E α β : Type} (R : α → β → Prop) (x : Except E α) (x' : Except E β) : Prop :=
  ∀ a a', x = .ok a → x' = .ok a' → R a a'

theorem Rl.bind {E α β γ δ : Type} {R : α → β → Prop} {S : γ → δ → Prop} {x : Except E α} {x' : Except E β}
    {f : α → Except E γ} {f' : β → Except E δ} (h : Rl R x x') (hf : ∀ a b, R a b → Rl S (f a) (f' b)) :
    Rl S (x >>= f) (x' >>= f') := by
  intro c c' e e'
  cases x with
  | error _ => cases e
  | ok a => cases x' with
    | error _ => cases e'
    | ok b => exact hf a b (h a b rfl rfl) c c' e e'

theorem Rl.ok {E α β : Type} {R : α → β → Prop} {a : α} {b : β} (h : R a b) :
    Rl (E := E) R (.ok a) (.ok b) := by
  rintro _ _ ⟨⟩ ⟨⟩
  exact h

theorem Rl.pure {E α β : Type} {R : α → β → Prop} {a : α} {b : β} (h : R a b) :
    Rl (E := E) R (Pure.pure a) (Pure.pure b) := Rl.ok h

theorem Rl.same {E α γ δ : Type} {S : γ → δ → Prop} {x : Except E α}
    {f : α → Except E γ} {f' : α → Except E δ} (hf : ∀ a, Rl S (f a) (f' a)) :
    Rl S (x >>= f) (x >>= f') :=
  Rl.bind (R := Eq) (fun _ _ e e' => Except.ok.inj (e.symm.trans e')) (by rintro a _ rfl; exact hf a)

/-- The operation changes neither identifiers nor pending gates other than permutations. -/
def Keeps (s : Sim) (x : Except Panic Sim) : Prop := ∀ t, x = .ok t → Alike s t

theorem Rl.keeps {s s' : Sim} {x x' : Except Panic Sim} (h : Alike s s') (hk : Keeps s x) (hk' : Keeps s' x') :
    Rl Alike x x' := fun t t' e e' => ((hk t e).symm.trans h).trans (hk' t' e')

/-- Related simulators, whatever the values beside them. -/
def AlikeV {α β : Type} (r : α × Sim) (r' : β × Sim) : Prop := Alike r.2 r'.2

theorem takeOps_alike {s t : Sim} {ops : List (List ℕ × ℕ × OpCode)} (h : takeOps s = .ok (ops, t)) : Alike s t := by
  unfold takeOps at h
  cases hr : resolveOps s.idMap s.opQ with
  | error e => rw [hr] at h; cases h
  | ok o => rw [hr] at h; cases h; exact ⟨rfl, rfl, rfl, rfl⟩

theorem rl_takeOps {s s' : Sim} (h : Alike s s') : Rl AlikeV (takeOps s) (takeOps s') := by
  rintro ⟨o, t⟩ ⟨o', t'⟩ e e'
  exact ((takeOps_alike e).symm.trans h).trans (takeOps_alike e')

theorem keeps_flushOps (s : Sim) : Keeps s (flushOps s) := by
  intro t e
  unfold flushOps at e
  split at e
  · cases e; exact .refl _
  · cases ht : takeOps s with
    | error _ => rw [ht] at e; cases e
    | ok p =>
      rw [ht] at e
      cases e
      have := takeOps_alike ht
      exact ⟨this.1, this.2, this.3, this.4⟩

theorem keeps_enqueueOp (q : ℕ) (cs : List ℕ) (op : OpCode) (s : Sim) : Keeps s (enqueueOp q cs op s) := by
  intro t e
  unfold enqueueOp at e
  have : ∀ u : Sim, Alike s u → Alike s { u with opQ := u.opQ ++ [(cs, q, op)] } :=
    fun u h => ⟨h.1, h.2, h.3, h.4⟩
  split at e
  · cases hf : flushOps s with
    | error _ => rw [hf] at e; cases e
    | ok u => rw [hf] at e; cases e; exact this _ (keeps_flushOps s u hf)
  · cases e; exact this _ (.refl _)

theorem rl_flushOps {s s' : Sim} (h : Alike s s') : Rl Alike (flushOps s) (flushOps s') :=
  .keeps h (keeps_flushOps s) (keeps_flushOps s')

theorem rl_enqueueOp {s s' : Sim} (h : Alike s s') {q : ℕ} {cs : List ℕ} {op : OpCode} {q' : ℕ} {cs' : List ℕ}
    {op' : OpCode} : Rl Alike (enqueueOp q cs op s) (enqueueOp q' cs' op' s') :=
  .keeps h (keeps_enqueueOp q cs op s) (keeps_enqueueOp q' cs' op' s')

theorem rl_applyMch (env : Env) {s s' : Sim} (h : Alike s s') (cs : List ℕ) (q : ℕ) :
    Rl Alike (applyMch env cs q s) (applyMch env cs q s') := by
  unfold applyMch
  rw [h.ids]
  refine .same fun ⟨t, cs⟩ => ?_
  refine (rl_takeOps h).bind ?_
  rintro ⟨o, u⟩ ⟨o', u'⟩ hu
  exact .pure ⟨hu.1, hu.2, hu.3, hu.4⟩

theorem rl_mcrotation (env : Env) {s s' : Sim} (h : Alike s s') {f f' : Sim → Except Panic Sim}
    (hf : Rl Alike (f s) (f' s')) (cs : List ℕ) (θ : ℝ) (q : ℕ) (b : Bool) :
    Rl Alike (mcrotation env f cs θ q b s) (mcrotation env f' cs θ q b s') := by
  unfold mcrotation
  dsimp only
  split
  · refine hf.bind fun u u' hu => ?_
    rw [hu.ids]
    refine .same fun ⟨t, cs⟩ => ?_
    dsimp only
    generalize rotM01 θ b * (if b = true then Complex.I else 1) = w
    by_cases hw : w ≠ 1
    · rw [if_pos hw, if_pos hw]
      refine (rl_takeOps hu).bind ?_
      rintro ⟨o, u⟩ ⟨o', u'⟩ hu
      exact .pure ⟨hu.1, hu.2, hu.3, hu.4⟩
    · rw [if_neg hw, if_neg hw]
      exact .pure hu
  · split
    · split
      · refine (rl_takeOps h).bind ?_
        rintro ⟨o, u⟩ ⟨o', u'⟩ hu
        obtain ⟨st, r, o, rfl⟩ := Alike.out hu
        exact .same fun ⟨t, cs⟩ => .pure ⟨rfl, rfl, rfl, rfl⟩
      · exact .ok h
    · rw [h.ids]
      refine .same fun ⟨t, cs⟩ => ?_
      refine (rl_takeOps h).bind ?_
      rintro ⟨o, u⟩ ⟨o', u'⟩ hu
      exact .pure ⟨hu.1, hu.2, hu.3, hu.4⟩

theorem rl_x {s s' : Sim} (h : Alike s s') (q : ℕ) : Rl Alike (x q s) (x q s') := by
  unfold x
  have h1 : Alike { s with ryQ := s.ryQ.modify q (fun a => a * (-1)) }
      { s' with ryQ := s'.ryQ.modify q (fun a => a * (-1)) } := ⟨h.1, h.2, h.3, by rw [h.ry]⟩
  obtain ⟨st, r, o, rfl⟩ := h.out
  dsimp only
  split <;> exact rl_enqueueOp h1

theorem rl_y {s s' : Sim} (h : Alike s s') (q : ℕ) : Rl Alike (y q s) (y q s') := by
  unfold y
  have h1 : Alike { s with rxQ := s.rxQ.modify q (fun a => a * (-1)) }
      { s' with rxQ := s'.rxQ.modify q (fun a => a * (-1)) } := ⟨h.1, h.2, by rw [h.rx], h.4⟩
  exact rl_enqueueOp h1

theorem rl_flushRx (env : Env) {s s' : Sim} (h : Alike s s') (q : ℕ) :
    Rl Alike (flushRx env q s) (flushRx env q s') := by
  unfold flushRx
  rw [h.rx]
  split
  · refine (rl_mcrotation env h (rl_x h q) _ _ _ _).bind fun u u' hu => .pure ⟨hu.1, hu.2, ?_, hu.4⟩
    rw [hu.rx]
  · exact .ok h

theorem rl_flushRy (env : Env) {s s' : Sim} (h : Alike s s') (q : ℕ) :
    Rl Alike (flushRy env q s) (flushRy env q s') := by
  unfold flushRy
  rw [h.ry]
  split
  · refine (rl_mcrotation env h (rl_y h q) _ _ _ _).bind fun u u' hu => .pure ⟨hu.1, hu.2, hu.3, ?_⟩
    rw [hu.ry]
  · exact .ok h

theorem rl_flushH (env : Env) {s s' : Sim} (h : Alike s s') (q : ℕ) :
    Rl Alike (flushH env q s) (flushH env q s') := by
  unfold flushH
  rw [h.h]
  split
  · refine (rl_applyMch env h _ _).bind fun u u' hu => .pure ⟨hu.1, ?_, hu.3, hu.4⟩
    rw [hu.h]
  · exact .ok h

theorem rl_flushOne (env : Env) (l : FlushLevel) {s s' : Sim} (h : Alike s s') (q : ℕ) :
    Rl Alike (flushOne env l q s) (flushOne env l q s') := by
  unfold flushOne
  refine (rl_flushH env h q).bind fun u u' hu => ?_
  cases l with
  | H => exact .pure hu
  | HRx => exact rl_flushRx env hu q
  | HRxRy => exact (rl_flushRx env hu q).bind fun v v' hv => rl_flushRy env hv q

theorem rl_flushLoop (env : Env) (l : FlushLevel) (qs : List ℕ) : ∀ {s s' : Sim}, Alike s s' →
    Rl Alike (flushLoop env l qs s) (flushLoop env l qs s') := by
  induction qs with
  | nil => intro s s' h; exact .ok h
  | cons q qs ih => intro s s' h; exact (rl_flushOne env l h q).bind fun u u' hu => ih hu

theorem rl_flushQueue (env : Env) {s s' : Sim} (h : Alike s s') (qs : List ℕ) (l : FlushLevel) :
    Rl Alike (flushQueue env qs l s) (flushQueue env qs l s') :=
  (rl_flushLoop env l qs h).bind fun _ _ hu => rl_flushOps hu

theorem Alike.hasQueued {s s' : Sim} (h : Alike s s') (q : ℕ) : s'.hasQueued q = s.hasQueued q := by
  unfold Sim.hasQueued
  rw [h.h, h.rx, h.ry]

theorem rl_maybeFlush (env : Env) {s s' : Sim} (h : Alike s s') (qs : List ℕ) (l : FlushLevel) :
    Rl Alike (maybeFlush env qs l s) (maybeFlush env qs l s') := by
  unfold maybeFlush
  simp only [h.hasQueued]
  split
  · exact rl_flushQueue env h qs l
  · exact .ok h

theorem rl_flushIf (env : Env) (b : Bool) {s s' : Sim} (h : Alike s s') (qs : List ℕ) (l : FlushLevel) :
    Rl Alike (flushIf env b qs l s) (flushIf env b qs l s') := by
  unfold flushIf
  split
  · exact rl_flushQueue env h qs l
  · exact .ok h

theorem rl_mcx (env : Env) {s s' : Sim} (h : Alike s s') (cs : List ℕ) (q : ℕ) :
    Rl Alike (mcx env cs q s) (mcx env cs q s') := by
  unfold mcx
  cases cs with
  | nil => exact rl_x h q
  | cons c0 cs =>
    dsimp only
    rw [h.ry]
    refine (rl_flushIf env _ h _ _).bind fun u u' hu => ?_
    have : Rl Alike (mcxFlushCtls env c0 cs q u) (mcxFlushCtls env c0 cs q u') := by
      unfold mcxFlushCtls
      rw [hu.h, hu.rx, hu.ry]
      split
      · exact rl_maybeFlush env hu _ _
      · exact rl_flushIf env _ hu _ _
    refine this.bind fun v v' hv => ?_
    rw [hv.h]
    split
    · split <;> exact rl_enqueueOp hv
    · exact rl_enqueueOp hv

theorem rl_mcy (env : Env) {s s' : Sim} (h : Alike s s') (cs : List ℕ) (q : ℕ) :
    Rl Alike (mcy env cs q s) (mcy env cs q s') := by
  unfold mcy
  cases cs with
  | nil => exact rl_y h q
  | cons c0 cs =>
    refine (rl_maybeFlush env h _ _).bind fun u u' hu => ?_
    rw [hu.rx]
    refine (rl_flushIf env _ hu _ _).bind fun v v' hv => ?_
    refine Rl.bind (R := Alike) ?_ fun w w' hw => rl_enqueueOp hw
    unfold enqueueIf
    rw [hv.h]
    split
    · exact rl_enqueueOp hv
    · exact .ok hv

theorem rl_mcphase (env : Env) {s s' : Sim} (h : Alike s s') (cs : List ℕ) (φ : ℂ) (q : ℕ) :
    Rl Alike (mcphase env cs φ q s) (mcphase env cs φ q s') := by
  unfold mcphase
  refine (rl_flushQueue env h _ _).bind fun u u' hu => ?_
  refine (rl_flushQueue env hu _ _).bind fun v v' hv => ?_
  obtain ⟨st, r, o, rfl⟩ := hv.out
  exact .same fun ⟨t, cs⟩ => .pure ⟨rfl, rfl, rfl, rfl⟩

theorem rl_z {s s' : Sim} (h : Alike s s') (q : ℕ) : Rl Alike (z q s) (z q s') := by
  unfold z
  have h1 : Alike { s with ryQ := s.ryQ.modify q (fun a => a * (-1)), rxQ := s.rxQ.modify q (fun a => a * (-1)) }
      { s' with ryQ := s'.ryQ.modify q (fun a => a * (-1)), rxQ := s'.rxQ.modify q (fun a => a * (-1)) } :=
    ⟨h.1, h.2, by rw [h.rx], by rw [h.ry]⟩
  obtain ⟨st, r, o, rfl⟩ := h.out
  dsimp only
  split <;> exact rl_enqueueOp h1

theorem rl_mcz (env : Env) {s s' : Sim} (h : Alike s s') (cs : List ℕ) (q : ℕ) :
    Rl Alike (mcz env cs q s) (mcz env cs q s') := by
  unfold mcz
  cases cs with
  | nil => exact rl_z h q
  | cons c0 cs =>
    have hn : s'.mczCount (c0 :: cs) q = s.mczCount (c0 :: cs) q := by
      unfold mczCount mczWeight
      rw [h.h, h.rx, h.ry]
    dsimp only
    rw [hn, h.h]
    by_cases hc : s.mczCount (c0 :: cs) q = 1
    · rw [if_pos hc, if_pos hc]
      split <;> exact rl_enqueueOp h
    · rw [if_neg hc, if_neg hc]
      refine (rl_flushQueue env h _ _).bind fun u u' hu => ?_
      exact (rl_flushQueue env hu _ _).bind fun v v' hv => rl_enqueueOp hv

theorem rl_diag (env : Env) (op : OpCode) {s s' : Sim} (h : Alike s s') (q : ℕ) :
    Rl Alike (diagGate env op q s) (diagGate env op q s') :=
  (rl_maybeFlush env h _ _).bind fun _ _ hu => rl_enqueueOp hu

theorem rl_mcDiag (env : Env) (op : OpCode) {s s' : Sim} (h : Alike s s') (cs : List ℕ) (q : ℕ) :
    Rl Alike (mcDiagGate env op cs q s) (mcDiagGate env op cs q s') :=
  (rl_maybeFlush env h _ _).bind fun _ _ hu => (rl_maybeFlush env hu _ _).bind fun _ _ hv => rl_enqueueOp hv

theorem rl_h (env : Env) {s s' : Sim} (h : Alike s s') (q : ℕ) : Rl Alike (Sim.h env q s) (Sim.h env q s') := by
  unfold Sim.h
  have h1 : Alike { s with ryQ := s.ryQ.modify q (fun a => a * (-1)) }
      { s' with ryQ := s'.ryQ.modify q (fun a => a * (-1)) } := ⟨h.1, h.2, h.3, by rw [h.ry]⟩
  obtain ⟨st, r, o, rfl⟩ := h.out
  exact (rl_flushIf env _ h1 _ _).bind fun u u' hu => .pure ⟨hu.1, by simp only [hu.h], hu.3, hu.4⟩

theorem rl_mch (env : Env) {s s' : Sim} (h : Alike s s') (cs : List ℕ) (q : ℕ) :
    Rl Alike (mch env cs q s) (mch env cs q s') := by
  unfold mch
  refine (rl_flushQueue env h _ _).bind fun u u' hu => ?_
  rw [hu.rx, hu.ry]
  exact (rl_flushIf env _ hu _ _).bind fun v v' hv => rl_applyMch env hv _ _

theorem rl_rx (env : Env) (θ : ℝ) {s s' : Sim} (h : Alike s s') (q : ℕ) :
    Rl Alike (rx env θ q s) (rx env θ q s') := by
  unfold rx
  rw [h.h, h.ry]
  exact (rl_flushIf env _ h _ _).bind fun u u' hu => .pure ⟨hu.1, hu.2, by rw [hu.rx], hu.4⟩

theorem rl_ry (env : Env) (θ : ℝ) {s s' : Sim} (h : Alike s s') (q : ℕ) :
    Rl Alike (ry env θ q s) (ry env θ q s') := .ok ⟨h.1, h.2, h.3, by rw [h.ry]⟩

theorem rl_mcrx (env : Env) (θ : ℝ) {s s' : Sim} (h : Alike s s') (cs : List ℕ) (q : ℕ) :
    Rl Alike (mcrx env cs θ q s) (mcrx env cs θ q s') := by
  unfold mcrx
  refine (rl_flushQueue env h _ _).bind fun u u' hu => ?_
  dsimp only
  rw [hu.ry, hu.h]
  split
  · exact (rl_flushQueue env hu _ _).bind fun v v' hv => rl_mcrotation env hv (rl_mcx env hv cs q) _ _ _ _
  · exact (rl_flushIf env _ hu _ _).bind fun v v' hv => rl_mcrotation env hv (rl_mcx env hv cs q) _ _ _ _

theorem rl_mcry (env : Env) (θ : ℝ) {s s' : Sim} (h : Alike s s') (cs : List ℕ) (q : ℕ) :
    Rl Alike (mcry env cs θ q s) (mcry env cs θ q s') := by
  unfold mcry
  refine (rl_flushQueue env h _ _).bind fun u u' hu => ?_
  dsimp only
  rw [hu.rx, hu.h]
  split
  · exact (rl_flushQueue env hu _ _).bind fun v v' hv => rl_mcrotation env hv (rl_mcy env hv cs q) _ _ _ _
  · exact (rl_flushIf env _ hu _ _).bind fun v v' hv => rl_mcrotation env hv (rl_mcy env hv cs q) _ _ _ _

theorem rl_gateCall (env : Env) {s s' : Sim} (h : Alike s s') (q : ℕ) (g : Gate) :
    Rl Alike (gateCall env q g s) (gateCall env q g s') := by
  cases g with
  | x => exact rl_x h q
  | y => exact rl_y h q
  | z => exact rl_z h q
  | h => exact rl_h env h q
  | rx θ => exact rl_rx env θ h q
  | ry θ => exact rl_ry env θ h q
  | _ => exact rl_diag env _ h q

theorem rl_ctrlCall (env : Env) {s s' : Sim} (h : Alike s s') (cs : List ℕ) (q : ℕ) (g : Gate) :
    Rl Alike (ctrlCall env cs q g s) (ctrlCall env cs q g s') := by
  cases g with
  | x => exact rl_mcx env h cs q
  | y => exact rl_mcy env h cs q
  | z => exact rl_mcz env h cs q
  | h => exact rl_mch env h cs q
  | rx θ => exact rl_mcrx env θ h cs q
  | ry θ => exact rl_mcry env θ h cs q
  | _ => exact rl_mcDiag env _ h cs q

theorem rl_mcexp (env : Env) {s s' : Sim} (h : Alike s s') (cs : List ℕ) (ps : List MPauli) (θ : ℝ) (ts : List ℕ) :
    Rl Alike (mcexp env cs ps θ ts s) (mcexp env cs ps θ ts s') := by
  unfold mcexp
  refine (rl_flushQueue env h _ _).bind fun u u' hu => ?_
  refine (rl_flushQueue env hu _ _).bind fun v v' hv => ?_
  obtain ⟨st, r, o, rfl⟩ := hv.out
  exact .same fun _ => .same fun _ => .same fun _ => .same fun _ => .pure ⟨rfl, rfl, rfl, rfl⟩

theorem Alike.allocate {s s' : Sim} (h : Alike s s') : s'.allocate.1 = s.allocate.1 ∧ Alike s.allocate.2 s'.allocate.2 := by
  unfold Sim.allocate
  dsimp only
  rw [h.ids]
  exact ⟨rfl, rfl, h.2, h.3, h.4⟩

theorem rl_checkJoint {s s' : Sim} (h : Alike s s') (l l' : List ℕ) :
    Rl AlikeV (checkJointProbability l s) (checkJointProbability l' s') := by
  unfold checkJointProbability
  refine (rl_takeOps h).bind ?_
  rintro ⟨o, u⟩ ⟨o', u'⟩ hu
  exact .pure (R := AlikeV) (Alike.mk hu.1 hu.2 hu.3 hu.4)

theorem rl_jointProbability (env : Env) {s s' : Sim} (h : Alike s s') (qs : List ℕ) :
    Rl AlikeV (jointProbability env qs s) (jointProbability env qs s') := by
  unfold jointProbability
  refine (rl_maybeFlush env h _ _).bind fun u u' hu => ?_
  rw [hu.ids]
  exact .same fun _ => .same fun _ => rl_checkJoint hu _ _

theorem rl_qubitIsZero (env : Env) {s s' : Sim} (h : Alike s s') (q : ℕ) :
    Rl AlikeV (Sim.qubitIsZero env q s) (Sim.qubitIsZero env q s') := by
  unfold Sim.qubitIsZero
  refine (rl_jointProbability env h _).bind ?_
  rintro ⟨p, u⟩ ⟨p', u'⟩ hu
  exact .pure hu

theorem rl_measure (env : Env) {s s' : Sim} (h : Alike s s') (q : ℕ) :
    Rl AlikeV (Sim.measure env q s) (Sim.measure env q s') := by
  unfold Sim.measure
  refine (rl_maybeFlush env h _ _).bind fun u u' hu => ?_
  rw [hu.ids]
  refine .same fun l => ?_
  refine (rl_checkJoint (s := u.nextSample.2) (s' := u'.nextSample.2) ⟨hu.1, hu.2, hu.3, hu.4⟩ [l] [l]).bind ?_
  rintro ⟨p, v⟩ ⟨p', v'⟩ hv
  exact .pure (R := AlikeV) (Alike.mk hv.1 hv.2 hv.3 hv.4)

theorem rl_jointMeasure (env : Env) {s s' : Sim} (h : Alike s s') (qs : List ℕ) :
    Rl AlikeV (jointMeasure env qs s) (jointMeasure env qs s') := by
  unfold jointMeasure
  refine (rl_maybeFlush env h _ _).bind fun u u' hu => ?_
  rw [hu.ids]
  refine .same fun _ => .same fun l => ?_
  refine (rl_checkJoint (s := u.nextSample.2) (s' := u'.nextSample.2) ⟨hu.1, hu.2, hu.3, hu.4⟩ l l).bind ?_
  rintro ⟨p, v⟩ ⟨p', v'⟩ hv
  exact .pure (R := AlikeV) (Alike.mk hv.1 hv.2 hv.3 hv.4)

theorem rl_release (env : Env) {s s' : Sim} (h : Alike s s') (q : ℕ) :
    Rl Alike (release env q s) (release env q s') := by
  unfold release
  refine Rl.bind (R := Alike) ?_ fun u u' hu => .pure ⟨by rw [hu.ids], hu.2, hu.3, hu.4⟩
  unfold releaseState
  rw [h.ids]
  split
  · exact .ok ⟨rfl, rfl, rfl, rfl⟩
  · refine (rl_measure env h q).bind ?_
    rintro ⟨b, u⟩ ⟨b', u'⟩ hu
    obtain ⟨st, r, o, rfl⟩ := Alike.out hu
    refine .same fun l => ?_
    cases b <;> cases b' <;> exact .pure ⟨rfl, rfl, rfl, rfl⟩

theorem rl_swapQubitIds {s s' : Sim} (h : Alike s s') (a b : ℕ) :
    Rl Alike (swapQubitIds a b s) (swapQubitIds a b s') := by
  unfold swapQubitIds
  refine (rl_flushOps h).bind fun u u' hu => ?_
  dsimp only
  rw [hu.ids]
  exact .same fun _ => .same fun _ => .pure ⟨rfl, by simp only [hu.h], by simp only [hu.rx], by simp only [hu.ry]⟩

theorem rl_relocateOne (env : Env) (i k : ℕ) {s s' : Sim} (h : Alike s s') :
    Rl Alike (relocateOne env i k s) (relocateOne env i k s') := by
  unfold relocateOne
  rw [h.ids]
  refine .same fun l => ?_
  split
  · refine Rl.bind (R := Alike) ?_ fun u u' hu => ?_
    · unfold swapQubitState
      split
      · exact .ok h
      · exact (rl_flushQueue env h _ _).bind fun u u' hu => .pure ⟨hu.1, hu.2, hu.3, hu.4⟩
    · dsimp only
      rw [hu.ids]
      split
      · exact .pure ⟨rfl, hu.2, hu.3, hu.4⟩
      · exact .pure ⟨by simp only [hu.ids], hu.2, hu.3, hu.4⟩
  · exact .pure h

theorem rl_relocate (env : Env) (ks : List ℕ) : ∀ (i : ℕ) {s s' : Sim}, Alike s s' →
    Rl Alike (relocate env i ks s) (relocate env i ks s') := by
  induction ks with
  | nil => intro i s s' h; exact .ok h
  | cons k ks ih => intro i s s' h; exact (rl_relocateOne env i k h).bind fun u u' hu => ih (i + 1) hu

theorem rl_dump (env : Env) (fmt : ℂ → String) {s s' : Sim} (h : Alike s s') :
    Rl AlikeV (dump env fmt s) (dump env fmt s') := by
  unfold dump
  dsimp only
  rw [h.ids]
  refine (rl_flushQueue env h _ _).bind fun u u' hu => ?_
  exact (rl_relocate env _ 0 hu).bind fun v v' hv => .pure (R := AlikeV) (Alike.mk hv.1 hv.2 hv.3 hv.4)

end Qir
