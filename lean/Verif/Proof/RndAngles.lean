import Verif.Proof.RndTrack

/-! The pending angles of a run stay below the sum of the requested ones. -/

noncomputable section
namespace Qir.Rnd
open Spec Sim

variable {A : Arith} {B : ℝ}

/-- All pending angles are at most `B`. -/
def Low (B : ℝ) (s : Sim) : Prop :=
  (∀ q a, s.rxQ.get q = some a → |a| ≤ B) ∧ ∀ q a, s.ryQ.get q = some a → |a| ≤ B

/-- What holds of the result, if there is one. -/
def Post {α : Type} (P : α → Prop) (x : Except Panic α) : Prop := ∀ a, x = .ok a → P a

theorem Post.bind {α β : Type} {P : α → Prop} {Q : β → Prop} {x : Except Panic α} {f : α → Except Panic β}
    (hx : Post P x) (hf : ∀ a, P a → Post Q (f a)) : Post Q (x >>= f) := by
  cases x with
  | error e => intro a h; cases h
  | ok a => exact hf a (hx a rfl)

theorem Post.any {α β : Type} {Q : β → Prop} {x : Except Panic α} {f : α → Except Panic β}
    (hf : ∀ a, Post Q (f a)) : Post Q (x >>= f) :=
  Post.bind (P := fun _ => True) (fun _ _ => trivial) (fun a _ => hf a)

theorem Post.ok {α : Type} {P : α → Prop} {a : α} (h : P a) : Post P (.ok a) := by
  intro b hb; cases hb; exact h

theorem Post.pure {α : Type} {P : α → Prop} {a : α} (h : P a) : Post P (Pure.pure a : Except Panic α) := Post.ok h

theorem low_neg {q : IMap ℝ} (h : ∀ r a, q.get r = some a → |a| ≤ B) (t : ℕ) :
    ∀ r a, (q.modify t (fun a => a * (-1))).get r = some a → |a| ≤ B := by
  intro r a hr
  rw [IMap.get_modify] at hr
  split at hr
  · obtain ⟨b, hb, rfl⟩ := Option.map_eq_some_iff.1 hr
    rw [mul_neg, mul_one, abs_neg]; exact h _ _ hb
  · exact h _ _ hr

theorem low_remove {q : IMap ℝ} (h : ∀ r a, q.get r = some a → |a| ≤ B) (t : ℕ) :
    ∀ r a, (q.remove t).get r = some a → |a| ≤ B := by
  intro r a hr
  rw [IMap.get_remove] at hr
  split at hr
  · cases hr
  · exact h _ _ hr

theorem low_swap {q : IMap ℝ} (h : ∀ r a, q.get r = some a → |a| ≤ B) (x y : ℕ) :
    ∀ r a, (swapEntries q x y).get r = some a → |a| ≤ B := by
  intro r a hr
  rw [get_swapEntries] at hr
  exact h _ _ hr

theorem low_takeOps {s : Sim} (h : Low B s) : Post (fun p => Low B p.2) (takeOps s) := by
  unfold takeOps
  exact Post.any fun _ => Post.pure h

theorem low_flushOps {s : Sim} (h : Low B s) : Post (Low B) (flushOps A s) := by
  unfold flushOps
  split
  · exact Post.ok h
  · exact (low_takeOps h).bind fun p hp => Post.pure hp

theorem low_enqueueOp {s : Sim} (h : Low B s) (t : ℕ) (cs : List ℕ) (op : OpCode) :
    Post (Low B) (enqueueOp A t cs op s) := by
  unfold enqueueOp
  dsimp only
  split
  · exact (low_flushOps h).bind fun p hp => Post.pure hp
  · exact Post.ok h

theorem low_applyMch {s : Sim} (h : Low B s) (cs : List ℕ) (t : ℕ) : Post (Low B) (applyMch A cs t s) := by
  unfold applyMch
  exact Post.any fun _ => (low_takeOps h).bind fun p hp => Post.pure hp

theorem low_mcrotation {s : Sim} (h : Low B s) {pauli : Sim → Except Panic Sim}
    (hp : ∀ s, Low B s → Post (Low B) (pauli s)) (cs : List ℕ) (θ : ℝ) (t : ℕ) (b : Bool) :
    Post (Low B) (mcrotation A pauli cs θ t b s) := by
  unfold mcrotation
  dsimp only
  split
  · refine (hp s h).bind fun s1 h1 => Post.any fun r => ?_
    generalize A.mul (rotM01 A θ b) (if b = true then Complex.I else 1) = f
    split
    · exact (low_takeOps h1).bind fun p hp => Post.pure hp
    · exact Post.pure h1
  · split
    · split
      · exact (low_takeOps h).bind fun p hp => Post.any fun _ => Post.pure hp
      · exact Post.ok h
    · exact Post.any fun _ => (low_takeOps h).bind fun p hp => Post.pure hp

theorem low_x {s : Sim} (h : Low B s) (t : ℕ) : Post (Low B) (x A t s) := by
  unfold x
  dsimp only
  split <;> exact low_enqueueOp (s := { s with ryQ := s.ryQ.modify t (fun a => a * (-1)) }) ⟨h.1, low_neg h.2 t⟩ _ _ _

theorem low_y {s : Sim} (h : Low B s) (t : ℕ) : Post (Low B) (y A t s) := by
  unfold y
  exact low_enqueueOp (s := { s with rxQ := s.rxQ.modify t (fun a => a * (-1)) }) ⟨low_neg h.1 t, h.2⟩ _ _ _

theorem low_z {s : Sim} (h : Low B s) (t : ℕ) : Post (Low B) (z A t s) := by
  unfold z
  dsimp only
  split <;> exact low_enqueueOp (s := { s with rxQ := s.rxQ.modify t (fun a => a * (-1)), ryQ := s.ryQ.modify t (fun a => a * (-1)) })
    ⟨low_neg h.1 t, low_neg h.2 t⟩ _ _ _

theorem low_flushRx {s : Sim} (h : Low B s) (t : ℕ) : Post (Low B) (flushRx A t s) := by
  unfold flushRx
  split
  · exact (low_mcrotation h (fun s hs => low_x hs t) _ _ _ _).bind fun p hp => Post.pure ⟨low_remove hp.1 t, hp.2⟩
  · exact Post.ok h

theorem low_flushRy {s : Sim} (h : Low B s) (t : ℕ) : Post (Low B) (flushRy A t s) := by
  unfold flushRy
  split
  · exact (low_mcrotation h (fun s hs => low_y hs t) _ _ _ _).bind fun p hp => Post.pure ⟨hp.1, low_remove hp.2 t⟩
  · exact Post.ok h

theorem low_flushH {s : Sim} (h : Low B s) (t : ℕ) : Post (Low B) (flushH A t s) := by
  unfold flushH
  split
  · exact (low_applyMch h [] t).bind fun p hp => Post.pure hp
  · exact Post.ok h

theorem low_flushOne {s : Sim} (h : Low B s) (l : FlushLevel) (t : ℕ) : Post (Low B) (flushOne A l t s) := by
  unfold flushOne
  refine (low_flushH h t).bind fun s1 h1 => ?_
  cases l with
  | H => exact Post.pure h1
  | HRx => exact low_flushRx h1 t
  | HRxRy => exact (low_flushRx h1 t).bind fun s2 h2 => low_flushRy h2 t

theorem low_flushLoop (l : FlushLevel) (qs : List ℕ) : ∀ {s : Sim}, Low B s → Post (Low B) (flushLoop A l qs s) := by
  induction qs with
  | nil => intro s h; exact Post.ok h
  | cons q qs ih => intro s h; exact (low_flushOne h l q).bind fun s1 h1 => ih h1

theorem low_flushQueue {s : Sim} (h : Low B s) (qs : List ℕ) (l : FlushLevel) :
    Post (Low B) (flushQueue A qs l s) :=
  (low_flushLoop l qs h).bind fun _ h1 => low_flushOps h1

theorem low_maybeFlush {s : Sim} (h : Low B s) (qs : List ℕ) (l : FlushLevel) :
    Post (Low B) (maybeFlush A qs l s) := by
  unfold maybeFlush
  split
  · exact low_flushQueue h _ _
  · exact Post.ok h

theorem low_flushIf {s : Sim} (h : Low B s) (c : Bool) (qs : List ℕ) (l : FlushLevel) :
    Post (Low B) (flushIf A c qs l s) := by
  unfold flushIf
  split
  · exact low_flushQueue h _ _
  · exact Post.ok h

theorem low_mcx {s : Sim} (h : Low B s) (cs : List ℕ) (t : ℕ) : Post (Low B) (mcx A cs t s) := by
  cases cs with
  | nil => exact low_x h t
  | cons c cs =>
    refine (low_flushIf h _ _ _).bind fun s1 h1 => Post.bind (P := Low B) ?_ fun s2 h2 => ?_
    · unfold mcxFlushCtls
      split
      · exact low_maybeFlush h1 _ _
      · exact low_flushIf h1 _ _ _
    · split
      · split <;> exact low_enqueueOp h2 _ _ _
      · exact low_enqueueOp h2 _ _ _

theorem low_mcy {s : Sim} (h : Low B s) (cs : List ℕ) (t : ℕ) : Post (Low B) (mcy A cs t s) := by
  cases cs with
  | nil => exact low_y h t
  | cons c cs =>
    refine (low_maybeFlush h _ _).bind fun s1 h1 => (low_flushIf h1 _ _ _).bind fun s2 h2 =>
      Post.bind (P := Low B) ?_ fun s3 h3 => low_enqueueOp h3 _ _ _
    unfold enqueueIf
    split
    · exact low_enqueueOp h2 _ _ _
    · exact Post.ok h2

theorem low_mcz {s : Sim} (h : Low B s) (cs : List ℕ) (t : ℕ) : Post (Low B) (mcz A cs t s) := by
  cases cs with
  | nil => exact low_z h t
  | cons c cs =>
    unfold mcz
    dsimp only
    split
    · split <;> exact low_enqueueOp h _ _ _
    · exact (low_flushQueue h _ _).bind fun s1 h1 => (low_flushQueue h1 _ _).bind fun s2 h2 => low_enqueueOp h2 _ _ _

theorem low_mcphase {s : Sim} (h : Low B s) (cs : List ℕ) (p : ℂ) (t : ℕ) : Post (Low B) (mcphase A cs p t s) :=
  (low_flushQueue h _ _).bind fun _ h1 => (low_flushQueue h1 _ _).bind fun _ h2 => Post.any fun _ => Post.pure h2

theorem low_diagGate {s : Sim} (h : Low B s) (op : OpCode) (t : ℕ) : Post (Low B) (diagGate A op t s) :=
  (low_maybeFlush h _ _).bind fun _ h1 => low_enqueueOp h1 _ _ _

theorem low_mcDiagGate {s : Sim} (h : Low B s) (op : OpCode) (cs : List ℕ) (t : ℕ) :
    Post (Low B) (mcDiagGate A op cs t s) :=
  (low_maybeFlush h _ _).bind fun _ h1 => (low_maybeFlush h1 _ _).bind fun _ h2 => low_enqueueOp h2 _ _ _

theorem low_h {s : Sim} (h : Low B s) (t : ℕ) : Post (Low B) (Rnd.h A t s) := by
  unfold Rnd.h
  refine (low_flushIf (s := { s with ryQ := s.ryQ.modify t (fun a => a * (-1)) }) ⟨h.1, low_neg h.2 t⟩ _ _ _).bind
    fun _ h1 => Post.pure h1

theorem low_mch {s : Sim} (h : Low B s) (cs : List ℕ) (t : ℕ) : Post (Low B) (mch A cs t s) :=
  (low_flushQueue h _ _).bind fun _ h1 => (low_flushIf h1 _ _ _).bind fun _ h2 => low_applyMch h2 _ _

theorem low_mcrx {s : Sim} (h : Low B s) (cs : List ℕ) (θ : ℝ) (t : ℕ) : Post (Low B) (mcrx A cs θ t s) := by
  refine (low_flushQueue h _ _).bind fun s1 h1 => ?_
  dsimp only
  split
  · exact (low_flushQueue h1 _ _).bind fun s2 h2 => low_mcrotation h2 (fun s hs => low_mcx hs _ _) _ _ _ _
  · exact (low_flushIf h1 _ _ _).bind fun s2 h2 => low_mcrotation h2 (fun s hs => low_mcx hs _ _) _ _ _ _

theorem low_mcry {s : Sim} (h : Low B s) (cs : List ℕ) (θ : ℝ) (t : ℕ) : Post (Low B) (mcry A cs θ t s) := by
  refine (low_flushQueue h _ _).bind fun s1 h1 => ?_
  dsimp only
  split
  · exact (low_flushQueue h1 _ _).bind fun s2 h2 => low_mcrotation h2 (fun s hs => low_mcy hs _ _) _ _ _ _
  · exact (low_flushIf h1 _ _ _).bind fun s2 h2 => low_mcrotation h2 (fun s hs => low_mcy hs _ _) _ _ _ _

theorem low_mcexp {s : Sim} (h : Low B s) (cs : List ℕ) (ps : List MPauli) (θ : ℝ) (ts : List ℕ) :
    Post (Low B) (mcexp A cs ps θ ts s) :=
  (low_flushQueue h _ _).bind fun _ h1 => (low_flushQueue h1 _ _).bind fun _ h2 =>
    Post.any fun _ => Post.any fun _ => Post.any fun _ => Post.any fun _ => Post.pure h2

theorem low_swapQubitIds {s : Sim} (h : Low B s) (a b : ℕ) : Post (Low B) (swapQubitIds A a b s) := by
  unfold swapQubitIds
  refine (low_flushOps h).bind fun s1 h1 => ?_
  exact Post.any fun _ => Post.any fun _ => Post.pure ⟨low_swap h1.1 a b, low_swap h1.2 a b⟩

theorem low_check {s : Sim} (h : Low B s) (l : List ℕ) :
    Post (fun p => Low B p.2) (checkJointProbability A l s) := by
  unfold checkJointProbability
  exact (low_takeOps h).bind fun p hp => Post.pure hp

theorem low_jointProbability {s : Sim} (h : Low B s) (l : List ℕ) :
    Post (fun p => Low B p.2) (jointProbability A l s) :=
  (low_maybeFlush h _ _).bind fun _ h1 => Post.any fun _ => Post.any fun _ => low_check h1 _

theorem low_measure {s : Sim} (h : Low B s) (q : ℕ) : Post (fun p => Low B p.2) (measure A q s) :=
  (low_maybeFlush h _ _).bind fun s1 h1 => Post.any fun _ =>
    (low_check (s := s1.nextSample.2) h1 _).bind fun _ h2 => Post.pure h2

theorem low_jointMeasure {s : Sim} (h : Low B s) (qs : List ℕ) :
    Post (fun p => Low B p.2) (jointMeasure A qs s) :=
  (low_maybeFlush h _ _).bind fun s1 h1 => Post.any fun _ => Post.any fun _ =>
    (low_check (s := s1.nextSample.2) h1 _).bind fun _ h2 => Post.pure h2

theorem low_forceCollapse {s : Sim} (h : Low B s) (v : Bool) (q : ℕ) :
    Post (fun p => Low B p.2) (forceCollapse A v q s) := by
  refine (low_maybeFlush h _ _).bind fun s1 h1 => Post.any fun _ => (low_check h1 _).bind fun p h2 => Post.pure ?_
  dsimp only
  split
  · exact h2
  · exact h2

theorem low_release {s : Sim} (h : Low B s) (q : ℕ) : Post (Low B) (release A q s) := by
  unfold release
  refine Post.bind (P := Low B) ?_ fun _ h1 => Post.pure h1
  unfold releaseState
  split
  · exact Post.ok ⟨by simp, by simp⟩
  · refine (low_measure h q).bind fun p hp => Post.any fun _ => ?_
    split
    · exact Post.pure hp
    · exact Post.pure hp

theorem low_relocateOne {s : Sim} (h : Low B s) (i k : ℕ) : Post (Low B) (relocateOne A i k s) := by
  unfold relocateOne
  refine Post.any fun _ => ?_
  split
  · refine Post.bind (P := Low B) ?_ fun s1 h1 => Post.pure ?_
    · unfold swapQubitState
      split
      · exact Post.ok h
      · exact (low_flushQueue h _ _).bind fun _ h1 => Post.pure h1
    · cases findByLoc s1.idMap i <;> exact h1
  · exact Post.pure h

theorem low_relocate (ks : List ℕ) : ∀ (i : ℕ) {s : Sim}, Low B s → Post (Low B) (relocate A i ks s) := by
  induction ks with
  | nil => intro i s h; exact Post.ok h
  | cons k ks ih => intro i s h; exact (low_relocateOne h i k).bind fun _ h1 => ih _ h1

theorem low_getState {s : Sim} (h : Low B s) : Post (fun p => Low B p.2) (getState A s) :=
  (low_flushQueue h _ _).bind fun _ h1 => (low_relocate _ _ h1).bind fun _ h2 => Post.pure h2

theorem low_dump {s : Sim} (h : Low B s) (fmt : ℂ → String) : Post (fun p => Low B p.2) (dump A fmt s) :=
  (low_flushQueue h _ _).bind fun _ h1 => (low_relocate _ _ h1).bind fun _ h2 => Post.pure h2

theorem Low.mono {B' : ℝ} {s : Sim} (h : Low B s) (hB : B ≤ B') : Low B' s :=
  ⟨fun q a ha => (h.1 q a ha).trans hB, fun q a ha => (h.2 q a ha).trans hB⟩

theorem low_addAngle {q : IMap ℝ} (hB : 0 ≤ B) (he : 0 ≤ A.eps) (h : ∀ r a, q.get r = some a → |a| ≤ B) (t : ℕ)
    {θ : ℝ} (ha : A.u * (B + |θ|) + A.eta ≤ A.eps) :
    ∀ r a, (addAngle A q t θ).get r = some a → |a| ≤ B + (|θ| + A.eps) := by
  intro r a hr
  rw [addAngle_get] at hr
  have h0 := abs_nonneg θ
  split at hr
  · split at hr
    · rename_i b hb
      split at hr
      · cases hr
      · cases hr
        have h1 := A.fl_err (b + θ)
        have h2 : |b + θ| ≤ B + |θ| := (abs_add_le _ _).trans (by linarith [h _ _ hb])
        have h3 := mul_le_mul_of_nonneg_left h2 A.u_nonneg
        have h4 := abs_sub_abs_le_abs_sub (A.fl (b + θ)) (b + θ)
        linarith
    · cases hr; linarith
  · have := h _ _ hr; linarith

theorem turn_nonneg (he : 0 ≤ A.eps) (c : Call) : 0 ≤ c.turn A := by
  unfold Call.turn
  split
  · positivity
  · positivity
  · exact le_rfl

theorem totalTurn_nonneg (he : 0 ≤ A.eps) (cs : List Call) : 0 ≤ totalTurn A cs := by
  induction cs with
  | nil => exact le_rfl
  | cons c cs ih => exact add_nonneg (turn_nonneg he c) ih

theorem low_call (he : 0 ≤ A.eps) (hB : 0 ≤ B) {s : Sim} (h : Low B s) (c : Call)
    (ha : A.u * (B + c.turn A) + A.eta ≤ A.eps) :
    AngleCall A s c ∧ Post (fun p => Low (B + c.turn A) p.2) (call A c s) := by
  have quiet : ∀ {x : Except Panic Sim}, Post (Low B) x → Post (fun p : Out × Sim => Low (B + 0) p.2) (quiet x) :=
    fun hx => hx.bind fun _ h1 => Post.pure (h1.mono (by simp))
  have loud : ∀ {α : Type} {x : Except Panic (α × Sim)} {f : α → Out}, Post (fun p => Low B p.2) x →
      Post (fun p : Out × Sim => Low (B + 0) p.2) (do let (a, s) ← x; return (f a, s)) :=
    fun hx => hx.bind fun _ h1 => Post.pure (h1.mono (by simp))
  have bound : ∀ {q : IMap ℝ} {t : ℕ} {θ : ℝ}, (∀ r a, q.get r = some a → |a| ≤ B) →
      A.u * (B + (|θ| + A.eps)) + A.eta ≤ A.eps →
      A.u * (B + |θ|) + A.eta ≤ A.eps ∧ ∀ a, q.get t = some a → A.u * |a + θ| + A.eta ≤ A.eps := by
    intro q t θ hq hh
    have h1 : A.u * (B + |θ|) + A.eta ≤ A.eps := by
      have := mul_nonneg A.u_nonneg he
      linarith
    refine ⟨h1, fun a hqa => ?_⟩
    have h2 : |a + θ| ≤ B + |θ| := (abs_add_le _ _).trans (by linarith [hq _ _ hqa])
    have h3 := mul_le_mul_of_nonneg_left h2 A.u_nonneg
    linarith
  cases c with
  | gate g q =>
    cases g with
    | x => exact ⟨trivial, quiet (low_x h q)⟩
    | y => exact ⟨trivial, quiet (low_y h q)⟩
    | z => exact ⟨trivial, quiet (low_z h q)⟩
    | h => exact ⟨trivial, quiet (low_h h q)⟩
    | s => exact ⟨trivial, quiet (low_diagGate h .S q)⟩
    | sadj => exact ⟨trivial, quiet (low_diagGate h .Sadj q)⟩
    | t => exact ⟨trivial, quiet (low_diagGate h .T q)⟩
    | tadj => exact ⟨trivial, quiet (low_diagGate h .Tadj q)⟩
    | rz θ => exact ⟨trivial, quiet (low_diagGate h (.Rz θ) q)⟩
    | rx θ =>
      refine ⟨(bound h.1 ha).2, Post.bind (P := Low (B + (|θ| + A.eps))) ?_ fun _ h1 => Post.pure h1⟩
      refine (low_flushIf h _ _ _).bind fun s1 h1 => Post.pure ⟨low_addAngle hB he h1.1 q (bound h1.1 (t := q) ha).1, ?_⟩
      exact (h1.mono (by have := abs_nonneg θ; linarith)).2
    | ry θ =>
      refine ⟨(bound h.2 ha).2, Post.bind (P := Low (B + (|θ| + A.eps))) ?_ fun _ h1 => Post.pure h1⟩
      refine Post.ok ⟨(h.mono (by have := abs_nonneg θ; linarith)).1, ?_⟩
      exact low_addAngle hB he h.2 q (bound h.2 (t := q) ha).1
  | ctrl g cs q =>
    refine ⟨trivial, ?_⟩
    cases g with
    | x => exact quiet (low_mcx h cs q)
    | y => exact quiet (low_mcy h cs q)
    | z => exact quiet (low_mcz h cs q)
    | h => exact quiet (low_mch h cs q)
    | s => exact quiet (low_mcDiagGate h .S cs q)
    | sadj => exact quiet (low_mcDiagGate h .Sadj cs q)
    | t => exact quiet (low_mcDiagGate h .T cs q)
    | tadj => exact quiet (low_mcDiagGate h .Tadj cs q)
    | rx θ => exact quiet (low_mcrx h cs θ q)
    | ry θ => exact quiet (low_mcry h cs θ q)
    | rz θ => exact quiet (low_mcDiagGate h (.Rz θ) cs q)
  | phase cs φ q => exact ⟨trivial, quiet (low_mcphase h cs φ q)⟩
  | exp cs ps θ ts => exact ⟨trivial, quiet (low_mcexp h cs _ θ ts)⟩
  | swap a b => exact ⟨trivial, quiet (low_swapQubitIds h a b)⟩
  | allocate => exact ⟨trivial, Post.ok (h.mono (by simp [Call.turn]))⟩
  | release q => exact ⟨trivial, quiet (low_release h q)⟩
  | measure q => exact ⟨trivial, loud (low_measure h q)⟩
  | jointMeasure qs => exact ⟨trivial, loud (low_jointMeasure h qs)⟩
  | jointProb qs => exact ⟨trivial, loud (low_jointProbability h qs)⟩
  | isZero q =>
    refine ⟨trivial, loud ?_⟩
    exact (low_jointProbability h [q]).bind fun _ h1 => Post.pure h1
  | collapse v q => exact ⟨trivial, loud (low_forceCollapse h v q)⟩
  | getState =>
    refine ⟨trivial, ?_⟩
    exact (low_getState h).bind fun _ h1 => Post.pure (h1.mono (by simp [Call.turn]))
  | dump fmt => exact ⟨trivial, loud (low_dump h fmt)⟩

theorem angles_of_total (he : 0 ≤ A.eps) (cs : List Call) : ∀ {B : ℝ} {s : Sim}, 0 ≤ B → Low B s →
    A.u * (B + totalTurn A cs) + A.eta ≤ A.eps → Angles A s cs := by
  induction cs with
  | nil => intros; trivial
  | cons c cs ih =>
    intro B s hB h ha
    have h1 : 0 ≤ totalTurn A cs := totalTurn_nonneg he cs
    have h2 : 0 ≤ c.turn A := turn_nonneg he c
    have ha' : A.u * (B + c.turn A + totalTurn A cs) + A.eta ≤ A.eps := by
      rw [add_assoc]; exact ha
    have h3 := mul_nonneg A.u_nonneg h1
    obtain ⟨h4, h5⟩ := low_call he hB h c (by linarith)
    exact ⟨h4, fun o s' hs => ih (by linarith) (h5 _ hs) ha'⟩

theorem low_new (rng : ℕ → ℝ) : Low 0 (Sim.new rng) := ⟨by simp [Sim.new], by simp [Sim.new]⟩

end Qir.Rnd
