import Verif.Proof.RndTrack

/-! Nothing but a measurement looks at the random samples. -/

noncomputable section
namespace Qir.Rnd
open Spec Sim Tol

variable {A : Arith} {r : ℕ → ℝ} {s : Sim}

/-- The same simulator with other samples. -/
def rg (r : ℕ → ℝ) (s : Sim) : Sim := { s with rng := r }

@[simp] theorem rg_rng (r : ℕ → ℝ) (s : Sim) : (rg r s).rng = r := rfl
@[simp] theorem rg_idMap (r : ℕ → ℝ) (s : Sim) : (rg r s).idMap = s.idMap := rfl
@[simp] theorem rg_opQ (r : ℕ → ℝ) (s : Sim) : (rg r s).opQ = s.opQ := rfl
@[simp] theorem rg_rxQ (r : ℕ → ℝ) (s : Sim) : (rg r s).rxQ = s.rxQ := rfl
@[simp] theorem rg_ryQ (r : ℕ → ℝ) (s : Sim) : (rg r s).ryQ = s.ryQ := rfl
@[simp] theorem rg_hFlag (r : ℕ → ℝ) (s : Sim) : (rg r s).hFlag = s.hFlag := rfl
@[simp] theorem rg_state (r : ℕ → ℝ) (s : Sim) : (rg r s).state = s.state := rfl
@[simp] theorem rg_rg (r r' : ℕ → ℝ) (s : Sim) : rg r (rg r' s) = rg r s := rfl
theorem rg_self (s : Sim) : rg s.rng s = s := rfl
@[simp] theorem rg_hasQueued (r : ℕ → ℝ) (s : Sim) (q : ℕ) : (rg r s).hasQueued q = s.hasQueued q := rfl
@[simp] theorem abs_rg (r : ℕ → ℝ) (s : Sim) : abs A (rg r s) = abs A s := rfl
theorem wf_rg (r : ℕ → ℝ) {s : Sim} (h : Qir.WF s) : Qir.WF (rg r s) := ⟨h.b, h.queued⟩

/-- The two computations differ in the samples only. -/
def Rel (r : ℕ → ℝ) (x y : Except Panic Sim) : Prop := y = x.map (rg r)

/-- The same with a result. -/
def RelA {α : Type} (r : ℕ → ℝ) (x y : Except Panic (α × Sim)) : Prop := y = x.map fun p => (p.1, rg r p.2)

theorem Rel.ok (r : ℕ → ℝ) (s : Sim) : Rel r (.ok s) (.ok (rg r s)) := rfl
theorem Rel.pure (r : ℕ → ℝ) (s : Sim) : Rel r (Pure.pure s) (Pure.pure (rg r s)) := rfl
theorem RelA.ok {α : Type} (r : ℕ → ℝ) (a : α) (s : Sim) : RelA r (.ok (a, s)) (.ok (a, rg r s)) := rfl
theorem RelA.pure {α : Type} (r : ℕ → ℝ) (a : α) (s : Sim) : RelA r (Pure.pure (a, s)) (Pure.pure (a, rg r s)) := rfl

theorem Rel.bind {x y : Except Panic Sim} {f g : Sim → Except Panic Sim} (h : Rel r x y)
    (hf : ∀ a, Rel r (f a) (g (rg r a))) : Rel r (x >>= f) (y >>= g) := by
  unfold Rel at h; subst h
  cases x with
  | error e => rfl
  | ok a => exact hf a

theorem Rel.bindA {α : Type} {x y : Except Panic Sim} {f g : Sim → Except Panic (α × Sim)} (h : Rel r x y)
    (hf : ∀ a, RelA r (f a) (g (rg r a))) : RelA r (x >>= f) (y >>= g) := by
  unfold Rel at h; subst h
  cases x with
  | error e => rfl
  | ok a => exact hf a

theorem RelA.bind {α : Type} {x y : Except Panic (α × Sim)} {f g : α × Sim → Except Panic Sim} (h : RelA r x y)
    (hf : ∀ a s, Rel r (f (a, s)) (g (a, rg r s))) : Rel r (x >>= f) (y >>= g) := by
  unfold RelA at h; subst h
  cases x with
  | error e => rfl
  | ok a => exact hf a.1 a.2

theorem RelA.bindA {α β : Type} {x y : Except Panic (α × Sim)} {f g : α × Sim → Except Panic (β × Sim)} (h : RelA r x y)
    (hf : ∀ a s, RelA r (f (a, s)) (g (a, rg r s))) : RelA r (x >>= f) (y >>= g) := by
  unfold RelA at h; subst h
  cases x with
  | error e => rfl
  | ok a => exact hf a.1 a.2

theorem Rel.any {α : Type} {x : Except Panic α} {f g : α → Except Panic Sim} (hf : ∀ a, Rel r (f a) (g a)) :
    Rel r (x >>= f) (x >>= g) := by
  cases x with
  | error e => rfl
  | ok a => exact hf a

theorem RelA.any {α β : Type} {x : Except Panic α} {f g : α → Except Panic (β × Sim)} (hf : ∀ a, RelA r (f a) (g a)) :
    RelA r (x >>= f) (x >>= g) := by
  cases x with
  | error e => rfl
  | ok a => exact hf a

theorem Rel.ite {c : Prop} [Decidable c] {a a' b b' : Except Panic Sim} (h : Rel r a a') (h' : Rel r b b') :
    Rel r (if c then a else b) (if c then a' else b') := by
  split
  · exact h
  · exact h'

theorem rel_takeOps : RelA r (takeOps s) (takeOps (rg r s)) := by
  unfold takeOps
  exact RelA.any fun _ => rfl

theorem rel_flushOps : Rel r (flushOps A s) (flushOps A (rg r s)) := by
  unfold flushOps
  simp only [rg_opQ]
  refine Rel.ite ?_ ?_
  · rfl
  · exact RelA.bind rel_takeOps fun _ _ => rfl

theorem rel_enqueueOp (t : ℕ) (cs : List ℕ) (op : OpCode) : Rel r (enqueueOp A t cs op s) (enqueueOp A t cs op (rg r s)) := by
  unfold enqueueOp
  simp only [rg_opQ]
  refine Rel.ite ?_ ?_
  · exact Rel.bind rel_flushOps fun _ => rfl
  · rfl

theorem rel_applyMch (cs : List ℕ) (t : ℕ) : Rel r (applyMch A cs t s) (applyMch A cs t (rg r s)) := by
  unfold applyMch
  exact Rel.any fun _ => RelA.bind rel_takeOps fun _ _ => rfl

theorem rel_mcrotation {pauli : Sim → Except Panic Sim} (hp : ∀ s, Rel r (pauli s) (pauli (rg r s))) (cs : List ℕ)
    (θ : ℝ) (t : ℕ) (b : Bool) : Rel r (mcrotation A pauli cs θ t b s) (mcrotation A pauli cs θ t b (rg r s)) := by
  unfold mcrotation
  dsimp only
  refine Rel.ite ?_ ?_
  · refine Rel.bind (hp s) fun s1 => Rel.any fun q => ?_
    generalize A.mul (rotM01 A θ b) (if b = true then Complex.I else 1) = f
    refine Rel.ite ?_ ?_
    · exact RelA.bind rel_takeOps fun _ _ => rfl
    · rfl
  · refine Rel.ite ?_ ?_
    · refine Rel.ite ?_ ?_
      · exact RelA.bind rel_takeOps fun _ _ => Rel.any fun _ => rfl
      · rfl
    · exact Rel.any fun _ => RelA.bind rel_takeOps fun _ _ => rfl

theorem rel_x (t : ℕ) : Rel r (x A t s) (x A t (rg r s)) := by
  unfold x
  simp only [rg_hFlag]
  refine Rel.ite ?_ ?_ <;> exact rel_enqueueOp (s := { s with ryQ := s.ryQ.modify t (fun a => a * (-1)) }) _ _ _

theorem rel_y (t : ℕ) : Rel r (y A t s) (y A t (rg r s)) := by
  unfold y
  exact rel_enqueueOp (s := { s with rxQ := s.rxQ.modify t (fun a => a * (-1)) }) _ _ _

theorem rel_z (t : ℕ) : Rel r (z A t s) (z A t (rg r s)) := by
  unfold z
  simp only [rg_hFlag]
  refine Rel.ite ?_ ?_ <;> exact rel_enqueueOp (s := { s with rxQ := s.rxQ.modify t (fun a => a * (-1)), ryQ := s.ryQ.modify t (fun a => a * (-1)) }) _ _ _

theorem rel_flushRx (t : ℕ) : Rel r (flushRx A t s) (flushRx A t (rg r s)) := by
  unfold flushRx
  simp only [rg_rxQ]
  cases s.rxQ.get t with
  | some θ => exact Rel.bind (rel_mcrotation (pauli := x A t) (fun _ => rel_x t) _ _ _ _) fun _ => rfl
  | none => rfl

theorem rel_flushRy (t : ℕ) : Rel r (flushRy A t s) (flushRy A t (rg r s)) := by
  unfold flushRy
  simp only [rg_ryQ]
  cases s.ryQ.get t with
  | some θ => exact Rel.bind (rel_mcrotation (pauli := y A t) (fun _ => rel_y t) _ _ _ _) fun _ => rfl
  | none => rfl

theorem rel_flushH (t : ℕ) : Rel r (flushH A t s) (flushH A t (rg r s)) := by
  unfold flushH
  simp only [rg_hFlag]
  refine Rel.ite ?_ ?_
  · exact Rel.bind (rel_applyMch _ _) fun _ => rfl
  · rfl

theorem rel_flushOne (l : FlushLevel) (t : ℕ) : Rel r (flushOne A l t s) (flushOne A l t (rg r s)) := by
  unfold flushOne
  refine Rel.bind (rel_flushH t) fun s1 => ?_
  cases l with
  | H => rfl
  | HRx => exact rel_flushRx t
  | HRxRy => exact Rel.bind (rel_flushRx t) fun _ => rel_flushRy t

theorem rel_flushLoop (l : FlushLevel) (qs : List ℕ) : ∀ s, Rel r (flushLoop A l qs s) (flushLoop A l qs (rg r s)) := by
  induction qs with
  | nil => intro s; rfl
  | cons q qs ih => intro s; exact Rel.bind (rel_flushOne l q) ih

theorem rel_flushQueue (qs : List ℕ) (l : FlushLevel) : Rel r (flushQueue A qs l s) (flushQueue A qs l (rg r s)) := by
  unfold flushQueue
  exact Rel.bind (rel_flushLoop l qs s) fun _ => rel_flushOps

theorem rel_maybeFlush (qs : List ℕ) (l : FlushLevel) : Rel r (maybeFlush A qs l s) (maybeFlush A qs l (rg r s)) := by
  unfold maybeFlush
  simp only [rg_hasQueued]
  refine Rel.ite ?_ ?_
  · exact rel_flushQueue qs l
  · rfl

theorem rel_flushIf (b : Bool) (qs : List ℕ) (l : FlushLevel) : Rel r (flushIf A b qs l s) (flushIf A b qs l (rg r s)) := by
  unfold flushIf
  refine Rel.ite ?_ ?_
  · exact rel_flushQueue qs l
  · rfl

theorem rel_mcx (cs : List ℕ) (t : ℕ) : Rel r (mcx A cs t s) (mcx A cs t (rg r s)) := by
  cases cs with
  | nil => exact rel_x t
  | cons c0 cs =>
    unfold mcx
    refine Rel.bind (rel_flushIf _ _ _) fun s1 => Rel.bind ?_ fun s2 => ?_
    · unfold mcxFlushCtls
      refine Rel.ite ?_ ?_
      · exact rel_maybeFlush _ _
      · exact rel_flushIf _ _ _
    · simp only [rg_hFlag]
      refine Rel.ite ?_ ?_
      · refine Rel.ite ?_ ?_ <;> exact rel_enqueueOp _ _ _
      · exact rel_enqueueOp _ _ _

theorem rel_mcy (cs : List ℕ) (t : ℕ) : Rel r (mcy A cs t s) (mcy A cs t (rg r s)) := by
  cases cs with
  | nil => exact rel_y t
  | cons c0 cs =>
    unfold mcy
    refine Rel.bind (rel_maybeFlush _ _) fun s1 => Rel.bind (rel_flushIf _ _ _) fun s2 => Rel.bind ?_ fun s3 => rel_enqueueOp _ _ _
    unfold enqueueIf
    simp only [rg_hFlag]
    refine Rel.ite ?_ ?_
    · exact rel_enqueueOp _ _ _
    · rfl

theorem rel_mcphase (cs : List ℕ) (φ : ℂ) (t : ℕ) : Rel r (mcphase A cs φ t s) (mcphase A cs φ t (rg r s)) := by
  unfold mcphase
  exact Rel.bind (rel_flushQueue _ _) fun _ => Rel.bind (rel_flushQueue _ _) fun _ => Rel.any fun _ => rfl

theorem rel_mcz (cs : List ℕ) (t : ℕ) : Rel r (mcz A cs t s) (mcz A cs t (rg r s)) := by
  cases cs with
  | nil => exact rel_z t
  | cons c0 cs =>
    unfold mcz
    have e : (rg r s).mczCount (c0 :: cs) t = s.mczCount (c0 :: cs) t := rfl
    simp only [e, rg_hFlag]
    refine Rel.ite ?_ ?_
    · cases (c0 :: cs).find? (fun c => s.hFlag.testBit c) <;> exact rel_enqueueOp _ _ _
    · exact Rel.bind (rel_flushQueue _ _) fun _ => Rel.bind (rel_flushQueue _ _) fun _ => rel_enqueueOp _ _ _

theorem rel_diagGate (op : OpCode) (t : ℕ) : Rel r (diagGate A op t s) (diagGate A op t (rg r s)) := by
  unfold diagGate
  exact Rel.bind (rel_maybeFlush _ _) fun _ => rel_enqueueOp _ _ _

theorem rel_mcDiagGate (op : OpCode) (cs : List ℕ) (t : ℕ) : Rel r (mcDiagGate A op cs t s) (mcDiagGate A op cs t (rg r s)) := by
  unfold mcDiagGate
  exact Rel.bind (rel_maybeFlush _ _) fun _ => Rel.bind (rel_maybeFlush _ _) fun _ => rel_enqueueOp _ _ _

theorem rel_h (t : ℕ) : Rel r (h A t s) (h A t (rg r s)) := by
  unfold h
  exact Rel.bind (rel_flushIf (s := { s with ryQ := s.ryQ.modify t (fun a => a * (-1)) }) _ _ _) fun _ => rfl

theorem rel_mch (cs : List ℕ) (t : ℕ) : Rel r (mch A cs t s) (mch A cs t (rg r s)) := by
  unfold mch
  exact Rel.bind (rel_flushQueue _ _) fun _ => Rel.bind (rel_flushIf _ _ _) fun _ => rel_applyMch _ _

theorem rel_rx (θ : ℝ) (t : ℕ) : Rel r (rx A θ t s) (rx A θ t (rg r s)) := by
  unfold rx
  exact Rel.bind (rel_flushIf _ _ _) fun _ => rfl

theorem rel_mcrx (cs : List ℕ) (θ : ℝ) (t : ℕ) : Rel r (mcrx A cs θ t s) (mcrx A cs θ t (rg r s)) := by
  unfold mcrx
  refine Rel.bind (rel_flushQueue _ _) fun s1 => ?_
  simp only [rg_ryQ, rg_hFlag]
  refine Rel.ite ?_ ?_
  · exact Rel.bind (rel_flushQueue _ _) fun _ => rel_mcrotation (pauli := mcx A cs t) (fun _ => rel_mcx _ _) _ _ _ _
  · exact Rel.bind (rel_flushIf _ _ _) fun _ => rel_mcrotation (pauli := mcx A cs t) (fun _ => rel_mcx _ _) _ _ _ _

theorem rel_mcry (cs : List ℕ) (θ : ℝ) (t : ℕ) : Rel r (mcry A cs θ t s) (mcry A cs θ t (rg r s)) := by
  unfold mcry
  refine Rel.bind (rel_flushQueue _ _) fun s1 => ?_
  simp only [rg_rxQ, rg_hFlag]
  refine Rel.ite ?_ ?_
  · exact Rel.bind (rel_flushQueue _ _) fun _ => rel_mcrotation (pauli := mcy A cs t) (fun _ => rel_mcy _ _) _ _ _ _
  · exact Rel.bind (rel_flushIf _ _ _) fun _ => rel_mcrotation (pauli := mcy A cs t) (fun _ => rel_mcy _ _) _ _ _ _

theorem rel_mcexp (cs : List ℕ) (ps : List MPauli) (θ : ℝ) (ts : List ℕ) :
    Rel r (mcexp A cs ps θ ts s) (mcexp A cs ps θ ts (rg r s)) := by
  unfold mcexp
  exact Rel.bind (rel_flushQueue _ _) fun _ => Rel.bind (rel_flushQueue _ _) fun _ => Rel.any fun _ => Rel.any fun _ =>
    Rel.any fun _ => Rel.any fun _ => rfl

theorem rel_swapQubitIds (a b : ℕ) : Rel r (swapQubitIds A a b s) (swapQubitIds A a b (rg r s)) := by
  unfold swapQubitIds
  exact Rel.bind rel_flushOps fun _ => Rel.any fun _ => Rel.any fun _ => rfl

theorem rel_gateCall (q : ℕ) (g : Gate) : Rel r (gateCall A q g s) (gateCall A q g (rg r s)) := by
  cases g with
  | x => exact rel_x q
  | y => exact rel_y q
  | z => exact rel_z q
  | h => exact rel_h q
  | s | sadj | t | tadj => exact rel_diagGate _ q
  | rx θ => exact rel_rx θ q
  | ry θ => rfl
  | rz θ => exact rel_diagGate _ q

theorem rel_ctrlCall (cs : List ℕ) (q : ℕ) (g : Gate) : Rel r (ctrlCall A cs q g s) (ctrlCall A cs q g (rg r s)) := by
  cases g with
  | x => exact rel_mcx cs q
  | y => exact rel_mcy cs q
  | z => exact rel_mcz cs q
  | h => exact rel_mch cs q
  | s | sadj | t | tadj => exact rel_mcDiagGate _ cs q
  | rx θ => exact rel_mcrx cs θ q
  | ry θ => exact rel_mcry cs θ q
  | rz θ => exact rel_mcDiagGate _ cs q

/-! ### Measurements -/

/-- A measurement compares the next sample with a number that does not depend on the samples; what it leaves depends on
the outcome only. -/
theorem jointMeasure_branch {s : Sim} (hf : Fine A) (hw : Qir.WF s) {ids : List ℕ} (hn : ids.Nodup)
    (ha : Alloc s.idMap ids) :
    ∃ (t : Sim) (p : ℝ) (f : Bool → Sim), Same A s t (5 * ids.length) ∧ t.opQ = [] ∧
      (len (abs A t) ≤ 3 / 2 → 18 * 2 ^ s.idMap.keys.length * A.v ≤ 1 →
        |p - prob ids true (abs A t)| ≤ 18 * 2 ^ s.idMap.keys.length * A.v) ∧
      (∀ r, jointMeasure A ids (rg r s) = .ok (decide (r 0 < p), rg (fun n => r (n + 1)) (f (decide (r 0 < p))))) ∧
      ∀ v, Measured A ids v p t (rg (fun n => t.rng (n + 1)) (f v)) := by
  obtain ⟨locs, hres, hl⟩ := alloc_locs ha
  obtain ⟨s1, p, s2, h1, hid, hrng, h2, hsame, hops, hpend, hprob⟩ := settle hf hw hn hl
  have hl2 : List.Forall₂ (fun i l => s2.idMap.get i = some l) ids locs := by
    rw [hsame.idMap]; exact hl
  refine ⟨s2, p, fun v => jointCollapse A locs v p s2, hsame, hops, hprob, ?_, ?_⟩
  · intro r
    have e1 := rel_maybeFlush (A := A) (r := r) (s := s) ids .HRxRy
    unfold Rel at e1
    rw [h1] at e1
    unfold Rnd.jointMeasure checkForDuplicates nextSample
    have hres1 : resolveIds (rg r s1).idMap ids = .ok locs := by rw [rg_idMap, hid]; exact hres
    have h3 := h2 (fun n => r (n + 1))
    simp only [e1, Except.map, ok_bind, if_pos hn, hres1]
    have h4 : checkJointProbability A locs { rg r s1 with rng := fun n => (rg r s1).rng (n + 1) } =
      .ok (p, { s2 with rng := fun n => r (n + 1) }) := h3
    rw [h4]
    rfl
  · intro v
    have hw3 : Qir.WF { s2 with rng := fun n => s2.rng (n + 1) } := ⟨hsame.wf.b, hsame.wf.queued⟩
    have hcol := collapse_near hf (s := { s2 with rng := fun n => s2.rng (n + 1) }) hw3
      hops hl2 hn (fun q hq => hpend q hq) v p
    refine ⟨hcol.1, rfl, rfl, hops, hpend, ?_, hcol.2⟩
    intro e he'
    obtain ⟨e', _, hee⟩ := List.mem_filterMap.1 he'
    split at hee
    · rename_i hpar
      cases hee
      rw [oddParity_eq hsame.wf.b.core.inj hl2 hn] at hpar
      exact hpar
    · cases hee

end Qir.Rnd
