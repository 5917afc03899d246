import Verif.Props.AmplitudeDefs
import Verif.Proof.Reversible

/-! # The one amplitude of a classical circuit -/

namespace Qir
namespace Gen
open Function
open Qir.Sim (resolveId resolveIds indexId resolveAndCheck checkForDuplicates firstFree locMask oddParity findByLoc)

variable {F : Type} {N : Num F} {Z O : F → Prop}

/-- The amplitude after one queued operation, by qubit. -/
def opAmp (N : Num F) (op : List ℕ × ℕ × GOp F) (b : ℕ → Bool) (z : Cx F) : Cx F :=
  if ∀ c ∈ op.1, b c = true then
    match op.2.2 with
    | .X => z
    | .Y => N.mulC z (if b op.2.1 then N.negC N.iC else N.iC)
    | .Z => N.mulC z (if b op.2.1 then N.negC N.oneC else N.oneC)
    | .S => N.mulC z (if b op.2.1 then N.iC else N.oneC)
    | .Sadj => N.mulC z (if b op.2.1 then N.negC N.iC else N.oneC)
    | .T => N.mulC z (if b op.2.1 then ⟨N.fracSqrt2, N.fracSqrt2⟩ else N.oneC)
    | .Tadj => N.mulC z (if b op.2.1 then ⟨N.fracSqrt2, N.neg N.fracSqrt2⟩ else N.oneC)
    | .Rz theta => N.mulC z (N.cis (N.mul (N.div theta N.two) (if b op.2.1 then N.one else N.neg N.one)))
  else z

/-- Bits and amplitude after the queue. -/
def trail (N : Num F) (ops : List (List ℕ × ℕ × GOp F)) (p : (ℕ → Bool) × Cx F) : (ℕ → Bool) × Cx F :=
  ops.foldl (fun p op => (opStep op p.1, opAmp N op p.1 p.2)) p

theorem applyOp_amp {m : IMap ℕ} {cs csl : List ℕ} {t tl : ℕ} (op : GOp F)
    (hcs : List.Forall₂ (fun i l => m.get i = some l) cs csl) (ht : m.get t = some tl) (e : ℕ × Cx F) :
    (applyOp N (csl, tl, op) e).2 = opAmp N (cs, t, op) (idBits m e.1) e.2 := by
  unfold applyOp opAmp
  have hall := all_ctls_iff hcs e.1
  by_cases hc : ∀ c ∈ cs, idBits m e.1 c = true
  · rw [if_pos (hall.2 hc), if_pos hc]
    simp only [idBits_of ht]
    cases op with
    | X => rfl
    | Y =>
      simp only [yTransform, testBit_setBit, if_true]
      cases e.1.testBit tl <;> rfl
    | _ => rfl
  · rw [if_neg (fun h => hc (hall.1 h)), if_neg hc]

theorem applyOps_trail {m : IMap ℕ} (hm : Inj m) : ∀ {ops rops : List (List ℕ × ℕ × GOp F)},
    resolveOps m ops = .ok rops → ∀ e, (idBits m (applyOps N rops e).1, (applyOps N rops e).2) =
      trail N ops (idBits m e.1, e.2)
  | [], rops, h, e => by cases h; rfl
  | (cs, t, op) :: ops, rops, h, e => by
    unfold resolveOps at h
    obtain ⟨⟨tl, csl⟩, h1, h2⟩ := bind_ok h
    obtain ⟨rest, h3, h4⟩ := bind_ok h2
    cases h4
    obtain ⟨_, ht, hcs⟩ := resolveAndCheck_eq_ok.1 h1
    have := applyOps_trail hm h3 (applyOp N (csl, tl, op) e)
    rw [idBits_applyOp hm op hcs ht, applyOp_amp op hcs ht] at this
    exact this

/-- One entry, which stands for the bits `f` with amplitude `z` once the queue is applied. -/
structure Bears (N : Num F) (f : ℕ → Bool) (z : Cx F) (s : GSim F) : Prop where
  inj : Inj s.idMap
  entry : ∃ k z0, s.state = [(k, z0)] ∧ trail N s.opQ (idBits s.idMap k, z0) = (f, z)

variable {f : ℕ → Bool} {z : Cx F}

theorem Bears.now {s : GSim F} (h : Bears N f z s) (ho : s.opQ = []) :
    ∃ k, s.state = [(k, z)] ∧ idBits s.idMap k = f := by
  obtain ⟨k, z0, h1, h2⟩ := h.entry
  rw [ho] at h2
  obtain ⟨h3, h4⟩ := Prod.mk.inj h2
  subst h4
  exact ⟨k, h1, h3⟩

theorem bears_now {s : GSim F} (hi : Inj s.idMap) (ho : s.opQ = []) {k : ℕ} (hst : s.state = [(k, z)])
    (hf : idBits s.idMap k = f) : Bears N f z s := ⟨hi, k, z, hst, by rw [ho, hf]; rfl⟩

/-- Only the entries, the map and the queue of operations matter. -/
theorem Bears.like {s : GSim F} (h : Bears N f z s) {s' : GSim F} (h1 : s'.idMap = s.idMap) (h2 : s'.state = s.state)
    (h3 : s'.opQ = s.opQ) : Bears N f z s' := ⟨by rw [h1]; exact h.inj, by rw [h1, h2, h3]; exact h.entry⟩

theorem Bears.flushOps {s s' : GSim F} (hb : Bears N f z s) (h : flushOps N s = .ok s') :
    Bears N f z s' ∧ s'.opQ = [] := by
  unfold Gen.flushOps at h
  split at h
  · rename_i he
    cases h
    exact ⟨hb, by simpa using he⟩
  · obtain ⟨⟨rops, s0⟩, h1, h2⟩ := bind_ok h
    obtain ⟨hr, h3⟩ := takeOps_inv h1
    simp only at hr h3
    subst h3
    cases h2
    obtain ⟨k, z0, hst, ht⟩ := hb.entry
    have := applyOps_trail (N := N) hb.inj hr (k, z0)
    rw [ht] at this
    obtain ⟨h5, h6⟩ := Prod.mk.inj this
    exact ⟨bears_now hb.inj rfl (k := (applyOps N rops (k, z0)).1) (by simp only [hst, ← h6]; rfl) h5, rfl⟩

theorem Bears.enqueueOp {s s' : GSim F} (hb : Bears N f z s) {t : ℕ} {cs : List ℕ} {op : GOp F}
    (h : enqueueOp N t cs op s = .ok s') : Bears N (opStep (cs, t, op) f) (opAmp N (cs, t, op) f z) s' := by
  have key : ∀ s1 : GSim F, Bears N f z s1 →
      Bears N (opStep (cs, t, op) f) (opAmp N (cs, t, op) f z) { s1 with opQ := s1.opQ ++ [(cs, t, op)] } := by
    intro s1 h1
    obtain ⟨k, z0, hst, ht⟩ := h1.entry
    refine ⟨h1.inj, k, z0, hst, ?_⟩
    unfold trail at ht ⊢
    simp only [List.foldl_append, ht, List.foldl_cons, List.foldl_nil]
  unfold Gen.enqueueOp at h
  split at h
  · obtain ⟨s1, h1, h2⟩ := bind_ok h
    cases h2
    exact key s1 (hb.flushOps h1).1
  · cases h
    exact key s hb

theorem Bears.flushQueue {s s' : GSim F} (hb : Bears N f z s) (hs : Sharp Z O s) {level : FlushLevel} {qs : List ℕ}
    (h : flushQueue N qs level s = .ok s') : Bears N f z s' ∧ s'.opQ = [] := by
  unfold Gen.flushQueue at h
  rw [hs.flushLoop, ok_bind] at h
  exact hb.flushOps h

theorem Bears.flushIf {s s' : GSim F} (hb : Bears N f z s) (hs : Sharp Z O s) {c : Bool} {level : FlushLevel} {qs : List ℕ}
    (h : flushIf N c qs level s = .ok s') : Bears N f z s' := by
  unfold Gen.flushIf at h
  split at h
  · exact (hb.flushQueue hs h).1
  · cases h; exact hb

/-- A gate: some bits, and the amplitude of the specification. -/
def Spun (N : Num F) (cs : List ℕ) (t : ℕ) (g : GGate F) (f : ℕ → Bool) (z : Cx F) (s : GSim F) : Prop :=
  ∃ f', Bears N f' (if ∀ c ∈ cs, f c = true then spun N (f t) z g else z) s

theorem Bears.x {s s' : GSim F} (hb : Bears N f z s) (hs : Sharp Z O s) {t : ℕ} (h : x N t s = .ok s') :
    Spun N [] t .x f z s' := by
  unfold Gen.x at h
  simp only at h
  rw [if_neg (by rw [hs.h]; simp)] at h
  refine ⟨_, Bears.enqueueOp (cs := []) (hb.like ?_ ?_ ?_) h⟩ <;> rfl

theorem Bears.y {s s' : GSim F} (hb : Bears N f z s) {t : ℕ} (h : y N t s = .ok s') : Spun N [] t .y f z s' := by
  unfold Gen.y at h
  simp only at h
  refine ⟨_, Bears.enqueueOp (cs := []) (hb.like ?_ ?_ ?_) h⟩ <;> rfl

theorem Bears.zGate {s s' : GSim F} (hb : Bears N f z s) (hs : Sharp Z O s) {t : ℕ} (h : Gen.z N t s = .ok s') :
    Spun N [] t .z f z s' := by
  unfold Gen.z at h
  simp only at h
  rw [if_neg (by rw [hs.h]; simp)] at h
  refine ⟨_, Bears.enqueueOp (cs := []) (hb.like ?_ ?_ ?_) h⟩ <;> rfl

theorem Bears.diagGate {s s' : GSim F} (hb : Bears N f z s) (hs : Sharp Z O s) {t : ℕ} {op : GOp F}
    (h : diagGate N op t s = .ok s') : ∃ f', Bears N f' (opAmp N ([], t, op) f z) s' := by
  unfold Gen.diagGate at h
  obtain ⟨s1, h1, h⟩ := bind_ok h
  cases hs.maybeFlush h1
  exact ⟨_, hb.enqueueOp h⟩

theorem Bears.mcDiagGate {s s' : GSim F} (hb : Bears N f z s) (hs : Sharp Z O s) {cs : List ℕ} {t : ℕ} {op : GOp F}
    (h : mcDiagGate N op cs t s = .ok s') : ∃ f', Bears N f' (opAmp N (cs, t, op) f z) s' := by
  unfold Gen.mcDiagGate at h
  obtain ⟨s1, h1, h⟩ := bind_ok h
  cases hs.maybeFlush h1
  obtain ⟨s1, h1, h⟩ := bind_ok h
  cases hs.maybeFlush h1
  exact ⟨_, hb.enqueueOp h⟩

theorem Bears.mcx (D : Digits N Z O) {s s' : GSim F} (hb : Bears N f z s) (hs : Sharp Z O s) {cs : List ℕ} {t : ℕ}
    (h : mcx N cs t s = .ok s') : Spun N cs t .x f z s' := by
  cases cs with
  | nil => exact hb.x hs h
  | cons c cs =>
    simp only [Gen.mcx] at h
    obtain ⟨s1, h1, h⟩ := bind_ok h
    have hs1 := hs.flushIf D h1
    have hb1 := hb.flushIf hs h1
    obtain ⟨s2, h2, h⟩ := bind_ok h
    obtain ⟨hs2, hb2⟩ : Sharp Z O s2 ∧ Bears N f z s2 := by
      unfold mcxFlushCtls at h2
      split at h2
      · cases hs1.maybeFlush h2; exact ⟨hs1, hb1⟩
      · exact ⟨hs1.flushIf D h2, hb1.flushIf hs1 h2⟩
    rw [if_neg (by rw [hs2.h]; simp)] at h
    exact ⟨_, hb2.enqueueOp h⟩

theorem Bears.mcy (D : Digits N Z O) {s s' : GSim F} (hb : Bears N f z s) (hs : Sharp Z O s) {cs : List ℕ} {t : ℕ}
    (h : mcy N cs t s = .ok s') : Spun N cs t .y f z s' := by
  cases cs with
  | nil => exact hb.y h
  | cons c cs =>
    simp only [Gen.mcy] at h
    obtain ⟨s1, h1, h⟩ := bind_ok h
    cases hs.maybeFlush h1
    obtain ⟨s2, h2, h⟩ := bind_ok h
    have hs2 := hs.flushIf D h2
    have hb2 := hb.flushIf hs h2
    obtain ⟨s3, h3, h⟩ := bind_ok h
    unfold enqueueIf at h3
    rw [if_neg (by rw [hs2.h]; simp)] at h3
    cases h3
    exact ⟨_, hb2.enqueueOp h⟩

theorem Sharp.weight {s : GSim F} (hs : Sharp Z O s) (q : ℕ) : mczWeight s q = 0 := by
  have := hs.none q
  rw [hasQueued] at this
  simp only [Bool.or_eq_false_iff] at this
  simp [mczWeight, this.1.1, this.1.2, this.2]

theorem Sharp.count {s : GSim F} (hs : Sharp Z O s) (cs : List ℕ) (t : ℕ) : mczCount s cs t = 0 := by
  unfold mczCount
  rw [hs.weight]
  suffices ∀ n, cs.foldl (fun accum c => accum + mczWeight s c) n = n from this 0
  induction cs with
  | nil => intro n; rfl
  | cons c cs ih => intro n; rw [List.foldl_cons, hs.weight]; exact ih n

theorem Bears.mcz (D : Digits N Z O) {s s' : GSim F} (hb : Bears N f z s) (hs : Sharp Z O s) {cs : List ℕ} {t : ℕ}
    (h : mcz N cs t s = .ok s') : Spun N cs t .z f z s' := by
  cases cs with
  | nil => exact hb.zGate hs h
  | cons c cs =>
    simp only [Gen.mcz] at h
    rw [if_neg (by rw [hs.count]; simp)] at h
    obtain ⟨s1, h1, h⟩ := bind_ok h
    have hs1 := (hs.flushQueue D h1).1
    obtain ⟨s2, h2, h⟩ := bind_ok h
    exact ⟨_, ((hb.flushQueue hs h1).1.flushQueue hs1 h2).1.enqueueOp h⟩

theorem Bears.gateCall {s s' : GSim F} (hb : Bears N f z s) (hs : Sharp Z O s) {g : GGate F} (hg : ClassicGate g) {t : ℕ}
    (h : gateCall N t g s = .ok s') : Spun N [] t g f z s' := by
  cases g with
  | x => exact hb.x hs h
  | y => exact hb.y h
  | z => exact hb.zGate hs h
  | s => exact hb.diagGate hs h
  | sadj => exact hb.diagGate hs h
  | _ => exact hg.elim

theorem Bears.ctrlCall (D : Digits N Z O) {s s' : GSim F} (hb : Bears N f z s) (hs : Sharp Z O s) {g : GGate F}
    (hg : ClassicGate g) {cs : List ℕ} {t : ℕ} (h : ctrlCall N cs t g s = .ok s') : Spun N cs t g f z s' := by
  cases g with
  | x => exact hb.mcx D hs h
  | y => exact hb.mcy D hs h
  | z => exact hb.mcz D hs h
  | s => exact hb.mcDiagGate hs h
  | sadj => exact hb.mcDiagGate hs h
  | _ => exact hg.elim

/-! ### Measurements -/

theorem Bears.check {s s' : GSim F} (hb : Bears N f z s) {locs : List ℕ} {p : F}
    (h : checkJointProbability N locs s = .ok (p, s')) : Bears N f z s' ∧ s'.opQ = [] := by
  unfold checkJointProbability at h
  simp only at h
  obtain ⟨⟨rops, s0⟩, h1, h2⟩ := bind_ok h
  obtain ⟨hr, h3⟩ := takeOps_inv h1
  simp only at hr h3
  subst h3
  cases h2
  obtain ⟨k, z0, hst, ht⟩ := hb.entry
  have := applyOps_trail (N := N) hb.inj hr (k, z0)
  rw [ht] at this
  obtain ⟨h5, h6⟩ := Prod.mk.inj this
  exact ⟨bears_now hb.inj rfl (k := (applyOps N rops (k, z0)).1) (by simp only [hst, ← h6]; rfl) h5, rfl⟩

theorem scale_one (hk : Keeps N Z O) {z : Cx F} (hz : IsUnit Z O z) : N.scale z N.one = z := by
  unfold Num.scale
  rcases hz with ⟨h1, h2⟩ | ⟨h1, h2⟩
  · rw [hk _ (.inr h1), hk _ (.inl h2)]
  · rw [hk _ (.inl h1), hk _ (.inr h2)]

theorem Bears.collapse (D : Digits N Z O) (hk : Keeps N Z O) {s : GSim F} (hb : Bears N f z s) (ho : s.opQ = []) {k : ℕ}
    {w : Cx F} (hst : s.state = [(k, w)]) (hw : IsUnit Z O w) (locs : List ℕ) :
    Bears N f z (jointCollapse N locs (oddParity k (locMask locs))
      (if oddParity k (locMask locs) then N.one else N.zero) s) := by
  obtain ⟨k', h1, h2⟩ := hb.now ho
  rw [hst] at h1
  cases h1
  refine bears_now hb.inj ho (k := k) ?_ h2
  unfold jointCollapse
  simp only [hst, List.filterMap_cons, List.filterMap_nil, if_true]
  cases oddParity k (locMask locs) <;> simp [D.one_sub, D.sqrt_one, D.div_one, scale_one hk hw]

theorem Bears.measure (D : Digits N Z O) (hk : Keeps N Z O) {s s' : GSim F} (hb : Bears N f z s) (hs : Sharp Z O s)
    (hu : UnitSamples N s.rng) {id : ℕ} {b : Bool} (h : measure N id s = .ok (b, s')) : Bears N f z s' ∧ s'.opQ = [] := by
  unfold Gen.measure at h
  obtain ⟨s1, h1, h⟩ := bind_ok h
  cases hs.maybeFlush h1
  obtain ⟨loc, h2, h⟩ := bind_ok h
  dsimp only [nextSample] at h
  obtain ⟨⟨p, s2⟩, h3, h⟩ := bind_ok h
  cases h
  obtain ⟨hb2, ho⟩ := Bears.check (hb.like (by rfl) (by rfl) (by rfl)) h3
  obtain ⟨k, w, hst, hw, hs2, _, rfl⟩ := (hs.rng _).check D h3
  rw [lt_of_samples hu]
  exact ⟨hb2.collapse D hk ho hst hw _, ho⟩

theorem Bears.jointMeasure (D : Digits N Z O) (hk : Keeps N Z O) {s s' : GSim F} (hb : Bears N f z s) (hs : Sharp Z O s)
    (hu : UnitSamples N s.rng) {ids : List ℕ} {b : Bool} (h : jointMeasure N ids s = .ok (b, s')) : Bears N f z s' := by
  unfold Gen.jointMeasure at h
  obtain ⟨s1, h1, h⟩ := bind_ok h
  cases hs.maybeFlush h1
  obtain ⟨_, _, h⟩ := bind_ok h
  obtain ⟨locs, h2, h⟩ := bind_ok h
  dsimp only [nextSample] at h
  obtain ⟨⟨p, s2⟩, h3, h⟩ := bind_ok h
  cases h
  obtain ⟨hb2, ho⟩ := Bears.check (hb.like (by rfl) (by rfl) (by rfl)) h3
  obtain ⟨k, w, hst, hw, hs2, _, rfl⟩ := (hs.rng _).check D h3
  rw [lt_of_samples hu]
  exact hb2.collapse D hk ho hst hw _

theorem Bears.jointProbability {s s' : GSim F} (hb : Bears N f z s) (hs : Sharp Z O s) {ids : List ℕ} {p : F}
    (h : jointProbability N ids s = .ok (p, s')) : Bears N f z s' := by
  unfold Gen.jointProbability at h
  obtain ⟨s1, h1, h⟩ := bind_ok h
  cases hs.maybeFlush h1
  obtain ⟨_, _, h⟩ := bind_ok h
  obtain ⟨locs, h2, h⟩ := bind_ok h
  exact (hb.check h).1

theorem Bears.forceCollapse (D : Digits N Z O) (hk : Keeps N Z O) {s s' : GSim F} (hi : Inv s) (hb : Bears N f z s)
    (hs : Sharp Z O s) {id : ℕ} {v : Bool} {g : ℕ → Bool} (hf : ∀ g', Poss s g' → g' = g) {r : F}
    (h : forceCollapse N v id s = .ok (r, s')) : Bears N f z s' := by
  unfold Gen.forceCollapse at h
  obtain ⟨s1, h1, h⟩ := bind_ok h
  cases hs.maybeFlush h1
  obtain ⟨loc, h2, h⟩ := bind_ok h
  obtain ⟨⟨p, s2⟩, h3, h⟩ := bind_ok h
  cases h
  have hloc : s.idMap.get id = some loc := by
    unfold resolveId at h2
    cases hg : s.idMap.get id with
    | none => rw [hg] at h2; cases h2
    | some l => rw [hg] at h2; cases h2; rfl
  obtain ⟨hb2, ho⟩ := hb.check h3
  obtain ⟨k, w, hst, hs2, hk', rfl⟩ := hs.found D hi (ids := [id]) (.cons hloc .nil) (by simp) hf h3
  have hw : IsUnit Z O w := by
    obtain ⟨k', z', h, hz⟩ := hs2.entry
    rw [hst] at h; cases h; exact hz
  rw [odd_one] at hk' ⊢
  have hc := hb2.collapse D hk ho hst hw [loc]
  rw [hk'] at hc
  cases hv : g id <;> cases v <;>
    simp_all [D.tiny, D.big, D.one_sub, D.one_sub_one]

/-! ### The other calls -/

theorem Bears.release (D : Digits N Z O) (hk : Keeps N Z O) {s s' : GSim F} (hb : Bears N f z s) (hs : Sharp Z O s)
    (hu : UnitSamples N s.rng) {id : ℕ} (h : release N id s = .ok s') :
    ∃ f', Bears N f' (if s.idMap.iter.length = 1 then N.oneC else z) s' := by
  unfold Gen.release at h
  obtain ⟨s2, h2, h⟩ := bind_ok h
  cases h
  have key : ∀ {w}, Inj s2.idMap → s2.opQ = [] → (∃ k, s2.state = [(k, w)]) →
      ∃ f', Bears N f' w { s2 with idMap := s2.idMap.remove id } := by
    rintro w hi ho ⟨k, hst⟩
    refine ⟨_, bears_now ?_ ho hst rfl⟩
    intro a b l ha hb'
    simp only [IMap.get_remove] at ha hb'
    split at ha
    · cases ha
    · split at hb'
      · cases hb'
      · exact hi a b l ha hb'
  unfold releaseState at h2
  split at h2
  · rename_i hl
    rw [if_pos hl]
    cases h2
    exact key hb.inj rfl ⟨0, rfl⟩
  · rename_i hl
    rw [if_neg hl]
    obtain ⟨⟨b, s1⟩, h1, h2⟩ := bind_ok h2
    obtain ⟨loc, h3, h2⟩ := bind_ok h2
    obtain ⟨hb1, ho⟩ := hb.measure D hk hs hu h1
    obtain ⟨k, hst, _⟩ := hb1.now ho
    split at h2
    · cases h2
      refine key hb1.inj ho ?_
      by_cases hk : k.testBit loc = true
      · exact ⟨setBit k loc false, by simp [hst, hk]⟩
      · exact ⟨k, by simp [hst, hk]⟩
    · cases h2; exact key hb1.inj ho ⟨k, hst⟩

theorem Bears.swap {s s' : GSim F} (hb : Bears N f z s) {a c : ℕ} (h : swapQubitIds N a c s = .ok s') (hi : Inv s') :
    ∃ f', Bears N f' z s' := by
  unfold swapQubitIds at h
  obtain ⟨s1, h1, h⟩ := bind_ok h
  obtain ⟨hb1, ho⟩ := hb.flushOps h1
  obtain ⟨m1, h2, h⟩ := bind_ok h
  obtain ⟨m2, h3, h⟩ := bind_ok h
  obtain ⟨k, hst, _⟩ := hb1.now ho
  cases h
  exact ⟨_, bears_now hi.core.inj ho hst rfl⟩

theorem relocateOne_amp {s s' : GSim F} (hs : Sharp Z O s) (ho : s.opQ = []) {k : ℕ} (hst : s.state = [(k, z)])
    {index key : ℕ} (h : relocateOne N index key s = .ok s') : s'.opQ = [] ∧ ∃ k', s'.state = [(k', z)] := by
  unfold Gen.relocateOne at h
  obtain ⟨loc, h1, h⟩ := bind_ok h
  split at h
  · obtain ⟨s1, h2, h⟩ := bind_ok h
    obtain ⟨ho1, k1, hst1⟩ : s1.opQ = [] ∧ ∃ k', s1.state = [(k', z)] := by
      unfold swapQubitState at h2
      split at h2
      · cases h2; exact ⟨ho, k, hst⟩
      · obtain ⟨s2, h3, h2⟩ := bind_ok h2
        cases h2
        have : s2 = s := by
          unfold Gen.flushQueue at h3
          rw [hs.flushLoop, ok_bind] at h3
          unfold Gen.flushOps at h3
          rw [if_pos (by rw [ho]; rfl)] at h3
          cases h3; rfl
        subst this
        refine ⟨ho, (swapKey loc index (k, z)).1, ?_⟩
        simp only [hst, List.map_cons, List.map_nil]
        unfold swapKey
        split <;> rfl
    cases h
    split
    · exact ⟨ho1, k1, hst1⟩
    · exact ⟨ho1, k1, hst1⟩
  · cases h; exact ⟨ho, k, hst⟩

theorem relocate_amp (D : Digits N Z O) : ∀ (rest : List ℕ) (i : ℕ) {s s' : GSim F} {k : ℕ}, Sharp Z O s → s.opQ = [] →
    s.state = [(k, z)] → relocate N i rest s = .ok s' → s'.opQ = [] ∧ ∃ k', s'.state = [(k', z)]
  | [], _, s, s', k, _, ho, hst, h => by cases h; exact ⟨ho, k, hst⟩
  | key :: rest, i, s, s', k, hs, ho, hst, h => by
    simp only [Gen.relocate] at h
    obtain ⟨s1, h1, h⟩ := bind_ok h
    obtain ⟨ho1, k1, hst1⟩ := relocateOne_amp hs ho hst h1
    exact relocate_amp D rest (i + 1) (hs.relocateOne D h1) ho1 hst1 h

/-! ### The index -/

theorem number_lt (f : ℕ → Bool) : ∀ l : List ℕ, number f l < 2 ^ l.length
  | [] => by simp [number]
  | q :: l => by
    have := number_lt f l
    simp only [number, List.length_cons, pow_succ]
    split <;> omega

theorem number_bit (f : ℕ → Bool) : ∀ (l : List ℕ) (i : ℕ) (h : i < l.length), (number f l).testBit i = f l[i]
  | q :: l, 0, _ => by
    simp only [number, Nat.testBit_zero, List.getElem_cons_zero]
    cases f q <;> simp
  | q :: l, i + 1, h => by
    rw [Nat.testBit_succ]
    have : number f (q :: l) / 2 = number f l := by
      simp only [number]
      split <;> omega
    rw [this, number_bit f l i (by simpa using h)]
    rfl

theorem index_unique {L : Finset ℕ} {k : ℕ} {f : ℕ → Bool} (h : Index L k f) (hk : k < 2 ^ L.card) : k = indexOf L f := by
  apply Nat.eq_of_testBit_eq
  intro i
  have hlen : (L.sort (· ≤ ·)).length = L.card := Finset.length_sort _
  by_cases hi : i < L.card
  · have hi' : i < (L.sort (· ≤ ·)).length := by rw [hlen]; exact hi
    unfold indexOf
    rw [number_bit f _ i hi']
    have hsort : (L.sort (· ≤ ·)).Pairwise (· < ·) := Finset.sortedLT_sort L |>.pairwise
    have hm : (L.sort (· ≤ ·))[i] ∈ L := (Finset.mem_sort (· ≤ ·)).1 (List.getElem_mem hi')
    have h1 := h _ hm
    have h2 := idxOf_rank hsort (List.getElem_mem hi')
    rw [Finset.sort_toFinset] at h2
    rw [← h2, List.Nodup.idxOf_getElem (Finset.sort_nodup _ _)] at h1
    exact h1
  · rw [Nat.testBit_lt_two_pow (lt_of_lt_of_le hk (Nat.pow_le_pow_right (by omega) (by omega))),
      Nat.testBit_lt_two_pow]
    have := number_lt f (L.sort (· ≤ ·))
    rw [hlen] at this
    exact lt_of_lt_of_le this (Nat.pow_le_pow_right (by omega) (by omega))

/-! ### Calls -/

/-- Everything is known of a simulator in a classical circuit. -/
structure Known (N : Num F) (Z O : F → Prop) (L : Finset ℕ) (f : ℕ → Bool) (z : Cx F) (s : GSim F) : Prop where
  pure : Pure Z O L f s
  bears : Bears N f z s

theorem Bears.is {s : GSim F} (hb : Bears N f z s) {g : ℕ → Bool} (hg : ∀ g', Poss s g' → g' = g) : f = g := by
  apply hg
  obtain ⟨k, z0, hst, ht⟩ := hb.entry
  refine ⟨f, ⟨(k, z0), by rw [hst]; simp, ?_⟩, fun _ _ => rfl⟩
  have : ∀ (ops : List (List ℕ × ℕ × GOp F)) p, (trail N ops p).1 = after ops p.1 := by
    intro ops
    induction ops with
    | nil => intro p; rfl
    | cons o ops ih => intro p; exact ih _
  rw [← this s.opQ (idBits s.idMap k, z0), ht]

theorem Bears.allocate {s : GSim F} (hi : Inv s) (hb : Bears N f z s) (hi' : Inv (allocate s).2) :
    ∃ f', Bears N f' z (Gen.allocate s).2 := by
  obtain ⟨k, z0, hst, ht⟩ := hb.entry
  refine ⟨f, hi'.core.inj, k, z0, hst, ?_⟩
  have : idBits (Gen.allocate s).2.idMap k = idBits s.idMap k := by
    funext q
    unfold idBits
    simp only [Gen.allocate, IMap.get_insert]
    by_cases hq : q = firstFree (s.idMap.iter.map Prod.fst)
    · rw [if_pos hq, hq, (newKey_spec s.idMap).1]
      simp only
      by_contra hc
      obtain ⟨i, hi'⟩ := hi.core.bits (k, z0) (by rw [hst]; simp) _ (by simpa using hc)
      exact newVal_fresh hi.core.inj i hi'
    · rw [if_neg hq]
  rw [this]
  exact ht

theorem call_known (D : Digits N Z O) (hk : Keeps N Z O) {L : Finset ℕ} {s s' : GSim F} (h0 : Known N Z O L f z s)
    (hu : UnitSamples N s.rng) {c : GCall F} (hc : ClassicCall c) {o : GOut F} (hv : Allowed L c)
    (h : call N c s = .ok (o, s')) :
    o = answer N L f z c ∧ Known N Z O (liveNext L c) (moved f c) (grown N L f z c) s' := by
  obtain ⟨ht, hp'⟩ := call_pure D h0.pure hu hc hv h
  have hs := h0.pure.sharp
  have hi := h0.pure.holds.books.inv
  have hi' := hp'.holds.books.inv
  have hb := h0.bears
  have fin : (∃ f', Bears N f' (grown N L f z c) s') →
      Known N Z O (liveNext L c) (moved f c) (grown N L f z c) s' := by
    rintro ⟨f', hb'⟩
    cases hb'.is hp'.holds.poss
    exact ⟨hp', hb'⟩
  cases c with
  | gate g q =>
    refine ⟨ht, fin ?_⟩
    obtain ⟨f', this⟩ := hb.gateCall hs hc (quiet_ok h).1
    rw [if_pos (by simp)] at this
    exact ⟨f', this⟩
  | ctrl g cs q => exact ⟨ht, fin (hb.ctrlCall D hs hc (quiet_ok h).1)⟩
  | phase => exact hc.elim
  | exp => exact hc.elim
  | swap a b => exact ⟨ht, fin (hb.swap (quiet_ok h).1 hi')⟩
  | allocate =>
    refine ⟨ht, fin ?_⟩
    cases h
    exact hb.allocate hi hi'
  | release q =>
    refine ⟨ht, fin ?_⟩
    have := hb.release D hk hs hu (quiet_ok h).1
    have hlen : s.idMap.iter.length = L.card := by
      rw [← h0.pure.holds.books.card]; simp [IMap.keys]
    rw [hlen] at this
    exact this
  | measure q =>
    refine ⟨ht, fin ?_⟩
    simp only [call] at h
    obtain ⟨⟨b, s1⟩, h1, h⟩ := bind_ok h
    cases h
    exact ⟨f, (hb.measure D hk hs hu h1).1⟩
  | jointMeasure qs =>
    refine ⟨ht, fin ?_⟩
    simp only [call] at h
    obtain ⟨⟨b, s1⟩, h1, h⟩ := bind_ok h
    cases h
    exact ⟨f, hb.jointMeasure D hk hs hu h1⟩
  | jointProb qs =>
    refine ⟨ht, fin ?_⟩
    simp only [call] at h
    obtain ⟨⟨b, s1⟩, h1, h⟩ := bind_ok h
    cases h
    exact ⟨f, hb.jointProbability hs h1⟩
  | isZero q =>
    refine ⟨ht, fin ?_⟩
    simp only [call] at h
    obtain ⟨⟨b, s1⟩, h1, h⟩ := bind_ok h
    cases h
    unfold qubitIsZero at h1
    obtain ⟨⟨p, s2⟩, h2, h1⟩ := bind_ok h1
    cases h1
    exact ⟨f, hb.jointProbability hs h2⟩
  | collapse v q =>
    refine ⟨ht, fin ?_⟩
    simp only [call] at h
    obtain ⟨⟨p, s1⟩, h1, h⟩ := bind_ok h
    cases h
    exact ⟨f, hb.forceCollapse D hk hi hs h0.pure.holds.poss h1⟩
  | getState =>
    simp only [call] at h
    obtain ⟨⟨⟨l, n⟩, s1⟩, h1, h⟩ := bind_ok h
    cases h
    unfold getState at h1
    obtain ⟨s2, h4, h1⟩ := bind_ok h1
    obtain ⟨s3, h5, h1⟩ := bind_ok h1
    cases h1
    obtain ⟨hb2, ho⟩ := hb.flushQueue hs h4
    obtain ⟨k0, hst0, _⟩ := hb2.now ho
    obtain ⟨ho3, k1, hst1⟩ := relocate_amp D _ _ (hs.flushQueue D h4).1 ho hst0 h5
    refine ⟨?_, fin ⟨_, bears_now hi'.core.inj ho3 hst1 rfl⟩⟩
    obtain ⟨k, w, h6, h7, h8, _⟩ := ht
    rw [hst1, sortState_one] at h6 ⊢
    injection h6 with h6 h9
    rw [List.singleton_inj] at h6
    obtain ⟨rfl, rfl⟩ := Prod.mk.inj h6
    rw [h9, index_unique h8 h7]
    rfl
  | dump fmt =>
    simp only [call] at h
    obtain ⟨⟨t, s1⟩, h1, h⟩ := bind_ok h
    cases h
    obtain ⟨s2, s3, h4, h5, hr, hbits⟩ := arrange_goes (N := N) hi
    simp only [dump, h4, h5, ok_bind] at h1
    cases h1
    obtain ⟨hb2, ho⟩ := hb.flushQueue hs h4
    obtain ⟨k0, hst0, _⟩ := hb2.now ho
    obtain ⟨ho3, k1, hst1⟩ := relocate_amp D _ _ (hs.flushQueue D h4).1 ho hst0 h5
    refine ⟨?_, fin ⟨_, bears_now hi'.core.inj ho3 (k := k1) (by simp only [hst1, sortState_one]; rfl) rfl⟩⟩
    obtain ⟨_, _, hl⟩ := arrange_poss hi h4 h5
    obtain ⟨g, hg, hk1⟩ := hl (k1, z) (by rw [hst1]; simp)
    cases h0.pure.holds.poss g hg
    have hlt : k1 < 2 ^ L.card := by
      rw [← h0.pure.holds.books.card]
      exact (hbits k1).1 (hr.core.bits (k1, z) (by rw [hst1]; simp))
    rw [answer, ← index_unique (index_of h0.pure.holds.books hk1) hlt, ← shown_eq, hst1, sortState_one]

theorem run_known (D : Digits N Z O) (hk : Keeps N Z O) (cs : List (GCall F)) : ∀ {L : Finset ℕ} {f : ℕ → Bool} {z : Cx F}
    {s : GSim F}, Known N Z O L f z s → UnitSamples N s.rng → (∀ c ∈ cs, ClassicCall c) → Valid L cs →
    ∃ s', runCalls N cs s = .ok (answers N L f z cs, s') := by
  induction cs with
  | nil => intro L f z s _ _ _ _; exact ⟨s, rfl⟩
  | cons c cs ih =>
    intro L f z s hp hu hc hv
    obtain ⟨o, s1, h1, _, _, hr⟩ := call_goes (N := N) hp.pure.holds.books c hv.1
    obtain ⟨rfl, hp1⟩ := call_known D hk hp hu (hc c (by simp)) hv.1 h1
    obtain ⟨s2, h2⟩ := ih hp1 (by rw [hr]; exact hu.shift _) (fun d hd => hc d (by simp [hd])) hv.2
    exact ⟨s2, by simp only [runCalls, h1, ok_bind, h2]; rfl⟩

theorem known_new (D : Digits N Z O) (rng : ℕ → F) : Known N Z O ∅ (fun _ => false) N.oneC (new N rng) := by
  have hp := pure_new (N := N) D rng
  refine ⟨hp, ?_⟩
  have hb : Bears N (idBits (new N rng).idMap 0) N.oneC (new N rng) := bears_now hp.holds.books.inv.core.inj rfl rfl rfl
  have := hb.is hp.holds.poss
  rw [this] at hb
  exact hb

end Gen
end Qir
