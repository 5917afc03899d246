import Verif.Props.ReversibleDefs
import Verif.Proof.Classical4

/-! # Classical circuits are simulated exactly -/

namespace Qir
namespace Gen
open Function
open Qir.Sim (resolveId resolveIds indexId resolveAndCheck checkForDuplicates firstFree locMask oddParity findByLoc)

variable {F : Type} {N : Num F} {Z O : F → Prop}

theorem Digits.mulC (D : Digits N Z O) {z w : Cx F} (hz : IsUnit Z O z) (hw : IsUnit Z O w) :
    IsUnit Z O (N.mulC z w) := by
  unfold Num.mulC
  rcases hz with ⟨h1, h2⟩ | ⟨h1, h2⟩ <;> rcases hw with ⟨h3, h4⟩ | ⟨h3, h4⟩
  · exact .inl ⟨D.sub_oz _ _ (D.mul_oo _ _ h1 h3) (D.mul_zz _ _ h2 h4),
      D.add_zz _ _ (D.mul_oz _ _ h1 h4) (D.mul_zo _ _ h2 h3)⟩
  · exact .inr ⟨D.sub_zz _ _ (D.mul_oz _ _ h1 h3) (D.mul_zo _ _ h2 h4),
      D.add_oz _ _ (D.mul_oo _ _ h1 h4) (D.mul_zz _ _ h2 h3)⟩
  · exact .inr ⟨D.sub_zz _ _ (D.mul_zo _ _ h1 h3) (D.mul_oz _ _ h2 h4),
      D.add_zo _ _ (D.mul_zz _ _ h1 h4) (D.mul_oo _ _ h2 h3)⟩
  · exact .inl ⟨D.sub_zo _ _ (D.mul_zz _ _ h1 h3) (D.mul_oo _ _ h2 h4),
      D.add_zz _ _ (D.mul_zo _ _ h1 h4) (D.mul_oz _ _ h2 h3)⟩

theorem Digits.oneC (D : Digits N Z O) : IsUnit Z O N.oneC := .inl ⟨D.one, D.zero⟩
theorem Digits.iC (D : Digits N Z O) : IsUnit Z O N.iC := .inr ⟨D.zero, D.one⟩

theorem Digits.negC (D : Digits N Z O) {z : Cx F} (hz : IsUnit Z O z) : IsUnit Z O (N.negC z) := by
  rcases hz with ⟨h1, h2⟩ | ⟨h1, h2⟩
  · exact .inl ⟨D.neg_one _ h1, D.neg_zero _ h2⟩
  · exact .inr ⟨D.neg_zero _ h1, D.neg_one _ h2⟩

theorem Digits.scale (D : Digits N Z O) {z : Cx F} (hz : IsUnit Z O z) : IsUnit Z O (N.scale z N.one) := by
  rcases hz with ⟨h1, h2⟩ | ⟨h1, h2⟩
  · exact .inl ⟨D.mul_oo _ _ h1 D.one, D.mul_zo _ _ h2 D.one⟩
  · exact .inr ⟨D.mul_zo _ _ h1 D.one, D.mul_oo _ _ h2 D.one⟩

theorem Digits.normSqr (D : Digits N Z O) {z : Cx F} (hz : IsUnit Z O z) : N.normSqr z = N.one := by
  unfold Num.normSqr
  rcases hz with ⟨h1, h2⟩ | ⟨h1, h2⟩
  · rw [D.square _ h1, D.one_add _ (D.mul_zz _ _ h2 h2)]
  · rw [D.square _ h2, D.add_one _ (D.mul_zz _ _ h1 h1)]

/-- The queued operations that multiply by powers of i at most. -/
def exactOp : GOp F → Bool
  | .X => true
  | .Y => true
  | .Z => true
  | .S => true
  | .Sadj => true
  | _ => false

theorem Digits.applyOp (D : Digits N Z O) {op : List ℕ × ℕ × GOp F} (ho : exactOp op.2.2 = true) {e : ℕ × Cx F}
    (he : IsUnit Z O e.2) : IsUnit Z O (applyOp N op e).2 := by
  obtain ⟨cs, t, o⟩ := op
  unfold Gen.applyOp
  split
  · cases o with
    | X => exact he
    | Y => simp only [yTransform]; split
           · exact D.mulC he D.iC
           · exact D.mulC he (D.negC D.iC)
    | Z => simp only [phaseTransform]; split
           · exact D.mulC he (D.negC D.oneC)
           · exact D.mulC he D.oneC
    | S => simp only [phaseTransform]; split
           · exact D.mulC he D.iC
           · exact D.mulC he D.oneC
    | Sadj => simp only [phaseTransform]; split
              · exact D.mulC he (D.negC D.iC)
              · exact D.mulC he D.oneC
    | _ => cases ho
  · exact he

theorem Digits.applyOps (D : Digits N Z O) : ∀ {ops : List (List ℕ × ℕ × GOp F)}, (∀ op ∈ ops, exactOp op.2.2 = true) →
    ∀ {e : ℕ × Cx F}, IsUnit Z O e.2 → IsUnit Z O (applyOps N ops e).2
  | [], _, _, he => he
  | op :: ops, h, e, he =>
    D.applyOps (ops := ops) (fun o ho => h o (by simp [ho])) (D.applyOp (h op (by simp)) he)

theorem resolveOps_exact {m : IMap ℕ} : ∀ {ops rops : List (List ℕ × ℕ × GOp F)}, resolveOps m ops = .ok rops →
    (∀ op ∈ ops, exactOp op.2.2 = true) → ∀ op ∈ rops, exactOp op.2.2 = true
  | [], rops, h, _ => by cases h; simp
  | (cs, t, o) :: ops, rops, h, ho => by
    simp only [resolveOps] at h
    obtain ⟨⟨tl, csl⟩, _, h⟩ := bind_ok h
    obtain ⟨rest, h2, h⟩ := bind_ok h
    cases h
    intro op hm
    rcases List.mem_cons.1 hm with rfl | hm
    · exact ho (cs, t, o) (by simp)
    · exact resolveOps_exact h2 (fun op h => ho op (by simp [h])) op hm

/-- One entry with a unit as amplitude, nothing pending but exact operations. -/
structure Sharp (Z O : F → Prop) (s : GSim F) : Prop where
  entry : ∃ k z, s.state = [(k, z)] ∧ IsUnit Z O z
  ops : ∀ op ∈ s.opQ, exactOp op.2.2 = true
  none : ∀ q, hasQueued s q = false

theorem Sharp.h {s : GSim F} (h : Sharp Z O s) (q : ℕ) : s.hFlag.testBit q = false := by
  have := h.none q
  rw [hasQueued_eq] at this
  simp only [Bool.or_eq_false_iff] at this
  exact this.1.1

theorem Sharp.rx {s : GSim F} (h : Sharp Z O s) (q : ℕ) : s.rxQ.get q = Option.none := by
  have := h.none q
  rw [hasQueued_eq] at this
  simp only [Bool.or_eq_false_iff] at this
  simpa using this.1.2

theorem Sharp.ry {s : GSim F} (h : Sharp Z O s) (q : ℕ) : s.ryQ.get q = Option.none := by
  have := h.none q
  rw [hasQueued_eq] at this
  simp only [Bool.or_eq_false_iff] at this
  simpa using this.2

theorem Sharp.flushOps (D : Digits N Z O) {s s' : GSim F} (hs : Sharp Z O s) (h : flushOps N s = .ok s') :
    Sharp Z O s' ∧ s'.opQ = [] := by
  unfold Gen.flushOps at h
  split at h
  · rename_i he
    cases h
    exact ⟨hs, by simpa using he⟩
  · obtain ⟨⟨rops, s0⟩, h1, h2⟩ := bind_ok h
    obtain ⟨hr, h3⟩ := takeOps_inv h1
    simp only at hr h3
    subst h3
    cases h2
    obtain ⟨k, z, hst, hz⟩ := hs.entry
    refine ⟨⟨⟨(applyOps N rops (k, z)).1, (applyOps N rops (k, z)).2, by simp only [hst]; rfl,
      D.applyOps (resolveOps_exact hr hs.ops) hz⟩, by simp, hs.none⟩, rfl⟩

theorem Sharp.enqueueOp (D : Digits N Z O) {s s' : GSim F} (hs : Sharp Z O s) {t : ℕ} {cs : List ℕ} {op : GOp F}
    (ho : exactOp op = true) (h : enqueueOp N t cs op s = .ok s') : Sharp Z O s' := by
  have key : ∀ s1 : GSim F, Sharp Z O s1 → Sharp Z O { s1 with opQ := s1.opQ ++ [(cs, t, op)] } := by
    intro s1 h1
    refine ⟨h1.entry, fun o hm => ?_, h1.none⟩
    rcases List.mem_append.1 hm with hm | hm
    · exact h1.ops o hm
    · rw [List.mem_singleton] at hm; subst hm; exact ho
  unfold Gen.enqueueOp at h
  split at h
  · obtain ⟨s1, h1, h2⟩ := bind_ok h
    cases h2
    exact key s1 (hs.flushOps D h1).1
  · cases h
    exact key s hs

theorem Sharp.flushLoop {s : GSim F} (hs : Sharp Z O s) (level : FlushLevel) (qs : List ℕ) :
    Gen.flushLoop N level qs s = .ok s := by
  induction qs with
  | nil => rfl
  | cons q qs ih =>
    have h1 : Gen.flushH N q s = .ok s := by unfold Gen.flushH; rw [if_neg]; rw [hs.h]; simp
    have h2 : Gen.flushRx N q s = .ok s := by unfold Gen.flushRx; rw [hs.rx]
    have h3 : Gen.flushRy N q s = .ok s := by unfold Gen.flushRy; rw [hs.ry]
    have : Gen.flushOne N level q s = .ok s := by
      unfold Gen.flushOne
      rw [h1, ok_bind]
      cases level
      · rfl
      · exact h2
      · simp only [h2, ok_bind, h3]
    simp only [Gen.flushLoop, this, ok_bind, ih]

theorem Sharp.flushQueue (D : Digits N Z O) {s s' : GSim F} (hs : Sharp Z O s) {level : FlushLevel} {qs : List ℕ}
    (h : flushQueue N qs level s = .ok s') : Sharp Z O s' ∧ s'.opQ = [] := by
  unfold Gen.flushQueue at h
  rw [hs.flushLoop, ok_bind] at h
  exact hs.flushOps D h

theorem Sharp.maybeFlush {s s' : GSim F} (hs : Sharp Z O s) {level : FlushLevel} {qs : List ℕ}
    (h : maybeFlush N qs level s = .ok s') : s' = s := by
  unfold Gen.maybeFlush at h
  rw [if_neg] at h
  · cases h; rfl
  · simp [hs.none]

theorem Sharp.flushIf (D : Digits N Z O) {s s' : GSim F} (hs : Sharp Z O s) {c : Bool} {level : FlushLevel} {qs : List ℕ}
    (h : flushIf N c qs level s = .ok s') : Sharp Z O s' := by
  unfold Gen.flushIf at h
  split at h
  · exact (hs.flushQueue D h).1
  · cases h; exact hs

theorem Sharp.modify {s : GSim F} (hs : Sharp Z O s) (t : ℕ) (f g : F → F) :
    Sharp Z O { s with rxQ := s.rxQ.modify t f, ryQ := s.ryQ.modify t g } := by
  refine ⟨hs.entry, hs.ops, fun q => ?_⟩
  have := hs.none q
  rw [hasQueued_eq] at this ⊢
  simpa only [isSome_modify] using this

theorem Sharp.modifyRx {s : GSim F} (hs : Sharp Z O s) (t : ℕ) (f : F → F) :
    Sharp Z O { s with rxQ := s.rxQ.modify t f } := by
  refine ⟨hs.entry, hs.ops, fun q => ?_⟩
  have := hs.none q
  rw [hasQueued_eq] at this ⊢
  simpa only [isSome_modify] using this

theorem Sharp.modifyRy {s : GSim F} (hs : Sharp Z O s) (t : ℕ) (f : F → F) :
    Sharp Z O { s with ryQ := s.ryQ.modify t f } := by
  refine ⟨hs.entry, hs.ops, fun q => ?_⟩
  have := hs.none q
  rw [hasQueued_eq] at this ⊢
  simpa only [isSome_modify] using this

theorem Sharp.x (D : Digits N Z O) {s s' : GSim F} (hs : Sharp Z O s) {t : ℕ} (h : x N t s = .ok s') : Sharp Z O s' := by
  unfold Gen.x at h
  simp only at h
  split at h
  · exact (hs.modifyRy _ _).enqueueOp D rfl h
  · exact (hs.modifyRy _ _).enqueueOp D rfl h

theorem Sharp.y (D : Digits N Z O) {s s' : GSim F} (hs : Sharp Z O s) {t : ℕ} (h : y N t s = .ok s') : Sharp Z O s' :=
  (hs.modifyRx _ _).enqueueOp D rfl h

theorem Sharp.z (D : Digits N Z O) {s s' : GSim F} (hs : Sharp Z O s) {t : ℕ} (h : z N t s = .ok s') : Sharp Z O s' := by
  unfold Gen.z at h
  simp only at h
  split at h
  · exact ((hs.modifyRy _ _).modifyRx _ _).enqueueOp D rfl h
  · exact ((hs.modifyRy _ _).modifyRx _ _).enqueueOp D rfl h

theorem Sharp.diagGate (D : Digits N Z O) {s s' : GSim F} (hs : Sharp Z O s) {t : ℕ} {op : GOp F} (ho : exactOp op = true)
    (h : diagGate N op t s = .ok s') : Sharp Z O s' := by
  unfold Gen.diagGate at h
  obtain ⟨s1, h1, h⟩ := bind_ok h
  cases hs.maybeFlush h1
  exact hs.enqueueOp D ho h

theorem Sharp.mcDiagGate (D : Digits N Z O) {s s' : GSim F} (hs : Sharp Z O s) {cs : List ℕ} {t : ℕ} {op : GOp F}
    (ho : exactOp op = true) (h : mcDiagGate N op cs t s = .ok s') : Sharp Z O s' := by
  unfold Gen.mcDiagGate at h
  obtain ⟨s1, h1, h⟩ := bind_ok h
  cases hs.maybeFlush h1
  obtain ⟨s1, h1, h⟩ := bind_ok h
  cases hs.maybeFlush h1
  exact hs.enqueueOp D ho h

theorem Sharp.mcx (D : Digits N Z O) {s s' : GSim F} (hs : Sharp Z O s) {cs : List ℕ} {t : ℕ}
    (h : mcx N cs t s = .ok s') : Sharp Z O s' := by
  cases cs with
  | nil => exact hs.x D h
  | cons c cs =>
    simp only [Gen.mcx] at h
    obtain ⟨s1, h1, h⟩ := bind_ok h
    have hs1 := hs.flushIf D h1
    obtain ⟨s2, h2, h⟩ := bind_ok h
    have hs2 : Sharp Z O s2 := by
      unfold mcxFlushCtls at h2
      split at h2
      · cases hs1.maybeFlush h2; exact hs1
      · exact hs1.flushIf D h2
    split at h
    · split at h
      · exact hs2.enqueueOp D rfl h
      · exact hs2.enqueueOp D rfl h
    · exact hs2.enqueueOp D rfl h

theorem Sharp.mcy (D : Digits N Z O) {s s' : GSim F} (hs : Sharp Z O s) {cs : List ℕ} {t : ℕ}
    (h : mcy N cs t s = .ok s') : Sharp Z O s' := by
  cases cs with
  | nil => exact hs.y D h
  | cons c cs =>
    simp only [Gen.mcy] at h
    obtain ⟨s1, h1, h⟩ := bind_ok h
    cases hs.maybeFlush h1
    obtain ⟨s2, h2, h⟩ := bind_ok h
    have hs2 := hs.flushIf D h2
    obtain ⟨s3, h3, h⟩ := bind_ok h
    have hs3 : Sharp Z O s3 := by
      unfold enqueueIf at h3
      split at h3
      · exact hs2.enqueueOp D rfl h3
      · cases h3; exact hs2
    exact hs3.enqueueOp D rfl h

theorem Sharp.mcz (D : Digits N Z O) {s s' : GSim F} (hs : Sharp Z O s) {cs : List ℕ} {t : ℕ}
    (h : mcz N cs t s = .ok s') : Sharp Z O s' := by
  cases cs with
  | nil => exact hs.z D h
  | cons c cs =>
    simp only [Gen.mcz] at h
    split at h
    · split at h
      · exact hs.enqueueOp D rfl h
      · exact hs.enqueueOp D rfl h
    · obtain ⟨s1, h1, h⟩ := bind_ok h
      have hs1 := (hs.flushQueue D h1).1
      obtain ⟨s2, h2, h⟩ := bind_ok h
      exact (hs1.flushQueue D h2).1.enqueueOp D rfl h

theorem Sharp.gateCall (D : Digits N Z O) {s s' : GSim F} (hs : Sharp Z O s) {g : GGate F} (hg : ClassicGate g) {t : ℕ}
    (h : gateCall N t g s = .ok s') : Sharp Z O s' := by
  cases g with
  | x => exact hs.x D h
  | y => exact hs.y D h
  | z => exact hs.z D h
  | s => exact hs.diagGate D rfl h
  | sadj => exact hs.diagGate D rfl h
  | _ => exact hg.elim

theorem Sharp.ctrlCall (D : Digits N Z O) {s s' : GSim F} (hs : Sharp Z O s) {g : GGate F} (hg : ClassicGate g)
    {cs : List ℕ} {t : ℕ} (h : ctrlCall N cs t g s = .ok s') : Sharp Z O s' := by
  cases g with
  | x => exact hs.mcx D h
  | y => exact hs.mcy D h
  | z => exact hs.mcz D h
  | s => exact hs.mcDiagGate D rfl h
  | sadj => exact hs.mcDiagGate D rfl h
  | _ => exact hg.elim

/-! ### Measurements -/

theorem Sharp.check (D : Digits N Z O) {s s' : GSim F} (hs : Sharp Z O s) {locs : List ℕ} {p : F}
    (h : checkJointProbability N locs s = .ok (p, s')) :
    ∃ k z, s'.state = [(k, z)] ∧ IsUnit Z O z ∧ Sharp Z O s' ∧ s'.opQ = [] ∧
      p = if oddParity k (locMask locs) then N.one else N.zero := by
  unfold checkJointProbability at h
  simp only at h
  obtain ⟨⟨rops, s0⟩, h1, h2⟩ := bind_ok h
  obtain ⟨hr, h3⟩ := takeOps_inv h1
  simp only at hr h3
  subst h3
  cases h2
  obtain ⟨k, z, hst, hz⟩ := hs.entry
  have hu := D.applyOps (e := (k, z)) (resolveOps_exact hr hs.ops) hz
  have hst' : s.state.map (applyOps N rops) = [((applyOps N rops (k, z)).1, (applyOps N rops (k, z)).2)] := by
    rw [hst]; rfl
  refine ⟨_, _, hst', hu, ⟨⟨_, _, hst', hu⟩, by simp, hs.none⟩, rfl, ?_⟩
  simp only [hst', List.foldl_cons, List.foldl_nil, D.normSqr hu, D.add_one _ D.zero]

theorem Sharp.collapse (D : Digits N Z O) {s : GSim F} (hs : Sharp Z O s) {k : ℕ} {z : Cx F} (hst : s.state = [(k, z)])
    (locs : List ℕ) : Sharp Z O (jointCollapse N locs (oddParity k (locMask locs))
      (if oddParity k (locMask locs) then N.one else N.zero) s) := by
  have hz : IsUnit Z O z := by
    obtain ⟨k', z', h, hz⟩ := hs.entry
    rw [hst] at h; cases h; exact hz
  refine ⟨⟨k, N.scale z N.one, ?_, D.scale hz⟩, hs.ops, hs.none⟩
  unfold jointCollapse
  simp only [hst, List.filterMap_cons, List.filterMap_nil, if_true]
  cases oddParity k (locMask locs) <;> simp [D.one_sub, D.sqrt_one, D.div_one]

theorem lt_of_samples {rng : ℕ → F} (h : UnitSamples N rng) (n : ℕ) (b : Bool) :
    N.lt (rng n) (if b then N.one else N.zero) = b := by
  cases b
  · exact (h n).2
  · exact (h n).1

theorem UnitSamples.shift {rng : ℕ → F} (h : UnitSamples N rng) (k : ℕ) : UnitSamples N (fun n => rng (n + k)) :=
  fun n => h (n + k)

theorem Sharp.rng {s : GSim F} (hs : Sharp Z O s) (r : ℕ → F) : Sharp Z O { s with rng := r } :=
  ⟨hs.entry, hs.ops, hs.none⟩

theorem Sharp.measure (D : Digits N Z O) {s s' : GSim F} (hs : Sharp Z O s) (hu : UnitSamples N s.rng) {id : ℕ} {b : Bool}
    (h : measure N id s = .ok (b, s')) : Sharp Z O s' := by
  unfold Gen.measure at h
  obtain ⟨s1, h1, h⟩ := bind_ok h
  cases hs.maybeFlush h1
  obtain ⟨loc, h2, h⟩ := bind_ok h
  dsimp only [nextSample] at h
  obtain ⟨⟨p, s2⟩, h3, h⟩ := bind_ok h
  cases h
  obtain ⟨k, z, hst, hz, hs2, _, rfl⟩ := (hs.rng _).check D h3
  rw [lt_of_samples hu]
  exact hs2.collapse D hst _

theorem Sharp.jointMeasure (D : Digits N Z O) {s s' : GSim F} (hs : Sharp Z O s) (hu : UnitSamples N s.rng) {ids : List ℕ}
    {b : Bool} (h : jointMeasure N ids s = .ok (b, s')) : Sharp Z O s' := by
  unfold Gen.jointMeasure at h
  obtain ⟨s1, h1, h⟩ := bind_ok h
  cases hs.maybeFlush h1
  obtain ⟨_, _, h⟩ := bind_ok h
  obtain ⟨locs, h2, h⟩ := bind_ok h
  dsimp only [nextSample] at h
  obtain ⟨⟨p, s2⟩, h3, h⟩ := bind_ok h
  cases h
  obtain ⟨k, z, hst, hz, hs2, _, rfl⟩ := (hs.rng _).check D h3
  rw [lt_of_samples hu]
  exact hs2.collapse D hst _

/-- The parity that is found is that of the bits. -/
theorem Sharp.found (D : Digits N Z O) {s s' : GSim F} (hi : Inv s) (hs : Sharp Z O s) {ids locs : List ℕ}
    (hl : List.Forall₂ (fun i l => s.idMap.get i = some l) ids locs) (hn : ids.Nodup) {p : F} {f : ℕ → Bool}
    (hf : ∀ g, Poss s g → g = f) (h : checkJointProbability N locs s = .ok (p, s')) :
    ∃ k z, s'.state = [(k, z)] ∧ Sharp Z O s' ∧ oddParity k (locMask locs) = odd ids f ∧
      p = if odd ids f then N.one else N.zero := by
  obtain ⟨hid, ho, hqq, he⟩ := check_eff hi h
  obtain ⟨k, z, hst, hz, hs2, _, rfl⟩ := hs.check D h
  have : idBits s.idMap k = f := by
    refine hf _ ⟨idBits s.idMap k, he _ ?_, fun _ _ => rfl⟩
    rw [eff_empty ho]
    exact ⟨(k, z), by rw [hst]; simp, by rw [hid]⟩
  have hk : oddParity k (locMask locs) = odd ids f := by
    rw [oddParity_eq hi.core.inj hl hn, this, parity_odd]
  exact ⟨k, z, hst, hs2, hk, by rw [hk]⟩

theorem Sharp.jointProbability (D : Digits N Z O) {s s' : GSim F} (hi : Inv s) (hs : Sharp Z O s) {ids : List ℕ}
    (hn : ids.Nodup) {f : ℕ → Bool} (hf : ∀ g, Poss s g → g = f) {p : F}
    (h : jointProbability N ids s = .ok (p, s')) : Sharp Z O s' ∧ p = if odd ids f then N.one else N.zero := by
  unfold Gen.jointProbability at h
  obtain ⟨s1, h1, h⟩ := bind_ok h
  cases hs.maybeFlush h1
  obtain ⟨_, _, h⟩ := bind_ok h
  obtain ⟨locs, h2, h⟩ := bind_ok h
  obtain ⟨_, _, _, h3, _, h4⟩ := hs.found D hi (resolveIds_eq_ok.1 h2) hn hf h
  exact ⟨h3, h4⟩

theorem odd_one (q : ℕ) (f : ℕ → Bool) : odd [q] f = f q := by
  rw [← parity_odd, parity_singleton]

theorem Sharp.forceCollapse (D : Digits N Z O) {s s' : GSim F} (hi : Inv s) (hs : Sharp Z O s) {id : ℕ} {v : Bool}
    {f : ℕ → Bool} (hf : ∀ g, Poss s g → g = f) {r : F} (h : forceCollapse N v id s = .ok (r, s')) :
    Sharp Z O s' ∧ r = if f id = v then N.one else N.zero := by
  unfold Gen.forceCollapse at h
  obtain ⟨s1, h1, h⟩ := bind_ok h
  cases hs.maybeFlush h1
  obtain ⟨loc, h2, h⟩ := bind_ok h
  obtain ⟨⟨p, s2⟩, h3, h⟩ := bind_ok h
  cases h
  have hloc : s.idMap.get id = some loc := by
    unfold resolveId at h2
    cases hg : s.idMap.get id with
    | none => rw [hg] at h2; cases h2
    | some l => rw [hg] at h2; cases h2; rfl
  obtain ⟨k, z, hst, hs2, hk, rfl⟩ := hs.found D hi (ids := [id]) (.cons hloc .nil) (by simp) hf h3
  rw [odd_one] at hk ⊢
  have hc := hs2.collapse D hst [loc]
  rw [hk] at hc
  cases hv : f id <;> cases v <;>
    simp_all [D.tiny, D.big, D.one_sub, D.one_sub_one]

/-! ### The other calls -/

theorem Sharp.release (D : Digits N Z O) {s s' : GSim F} (hs : Sharp Z O s) (hu : UnitSamples N s.rng) {id : ℕ}
    (h : release N id s = .ok s') : Sharp Z O s' := by
  unfold Gen.release at h
  obtain ⟨s2, h2, h⟩ := bind_ok h
  cases h
  have key : Sharp Z O s2 → Sharp Z O { s2 with idMap := s2.idMap.remove id } := fun h => ⟨h.entry, h.ops, h.none⟩
  apply key
  unfold releaseState at h2
  split at h2
  · cases h2
    refine ⟨⟨0, N.oneC, rfl, D.oneC⟩, by simp, fun q => ?_⟩
    rw [hasQueued_eq]
    simp [IMap.get_empty]
  · obtain ⟨⟨b, s1⟩, h1, h2⟩ := bind_ok h2
    obtain ⟨loc, h3, h2⟩ := bind_ok h2
    have hs1 := hs.measure D hu h1
    split at h2
    · cases h2
      obtain ⟨k, z, hst, hz⟩ := hs1.entry
      refine ⟨?_, hs1.ops, hs1.none⟩
      by_cases hk : k.testBit loc = true
      · exact ⟨setBit k loc false, z, by simp [hst, hk], hz⟩
      · exact ⟨k, z, by simp [hst, hk], hz⟩
    · cases h2; exact hs1

theorem Sharp.swap (D : Digits N Z O) {s s' : GSim F} (hs : Sharp Z O s) {a c : ℕ}
    (h : swapQubitIds N a c s = .ok s') : Sharp Z O s' := by
  unfold swapQubitIds at h
  obtain ⟨s1, h1, h⟩ := bind_ok h
  obtain ⟨hs1, ho⟩ := hs.flushOps D h1
  obtain ⟨m1, h2, h⟩ := bind_ok h
  obtain ⟨m2, h3, h⟩ := bind_ok h
  cases h
  refine ⟨hs1.entry, hs1.ops, fun q => ?_⟩
  have := hs1.none (Equiv.swap a c q)
  rw [hasQueued_eq] at this ⊢
  simp only [testBit_swapFlag, get_swapEntries]
  exact this

theorem Sharp.relocateOne (D : Digits N Z O) {s s' : GSim F} (hs : Sharp Z O s) {index key : ℕ}
    (h : relocateOne N index key s = .ok s') : Sharp Z O s' := by
  unfold Gen.relocateOne at h
  obtain ⟨loc, h1, h⟩ := bind_ok h
  split at h
  · obtain ⟨s1, h2, h⟩ := bind_ok h
    have hs1 : Sharp Z O s1 := by
      unfold swapQubitState at h2
      split at h2
      · cases h2; exact hs
      · obtain ⟨s2, h3, h2⟩ := bind_ok h2
        cases h2
        have hs2 := (hs.flushQueue D h3).1
        obtain ⟨k, z, hst, hz⟩ := hs2.entry
        refine ⟨?_, hs2.ops, hs2.none⟩
        refine ⟨(swapKey loc index (k, z)).1, z, ?_, hz⟩
        simp only [hst, List.map_cons, List.map_nil]
        unfold swapKey
        split <;> rfl
    cases h
    split
    · exact ⟨hs1.entry, hs1.ops, hs1.none⟩
    · exact ⟨hs1.entry, hs1.ops, hs1.none⟩
  · cases h; exact hs

theorem Sharp.relocate (D : Digits N Z O) : ∀ (rest : List ℕ) (i : ℕ) {s s' : GSim F}, Sharp Z O s →
    relocate N i rest s = .ok s' → Sharp Z O s'
  | [], _, s, s', hs, h => by cases h; exact hs
  | key :: rest, i, s, s', hs, h => by
    simp only [Gen.relocate] at h
    obtain ⟨s1, h1, h⟩ := bind_ok h
    exact Sharp.relocate D rest (i + 1) (hs.relocateOne D h1) h

/-- What is known of a simulator in a classical circuit. -/
structure Pure (Z O : F → Prop) (L : Finset ℕ) (f : ℕ → Bool) (s : GSim F) : Prop where
  holds : Holds L (fun g => g = f) s
  sharp : Sharp Z O s
  off : ∀ q, q ∉ L → f q = false

theorem Sharp.poss {s : GSim F} (hs : Sharp Z O s) : ∃ g, Poss s g := by
  obtain ⟨k, z, hst, _⟩ := hs.entry
  exact ⟨_, _, ⟨(k, z), by rw [hst]; simp, rfl⟩, fun _ _ => rfl⟩

/-- A set with one element. -/
theorem acts_unique {g : GGate F} (hg : ClassicGate g) {q : ℕ} {f f' : ℕ → Bool} (h : Acts q f f' g) :
    f' = if flipping g then toggle [q] f else f := by
  cases g with
  | x => exact h
  | y => exact h
  | z => exact h
  | s => exact h
  | sadj => exact h
  | _ => exact hg.elim

theorem possible_unique {L : Finset ℕ} {f g : ℕ → Bool} (hoff : ∀ q, q ∉ L → f q = false) {c : GCall F} {o : GOut F}
    (hc : ClassicCall c) (ha : Allowed L c) (h : possible N L (fun g => g = f) g c o) : g = moved f c := by
  cases c with
  | gate a q =>
    obtain ⟨f', rfl, h⟩ := h
    exact acts_unique hc h
  | ctrl a cs q =>
    obtain ⟨f', rfl, h⟩ := h
    simp only [moved]
    by_cases hcs : ∀ c ∈ cs, f' c = true
    · rw [if_pos hcs] at h
      rw [acts_unique hc h]
      cases hfl : flipping a
      · rw [if_neg (by simp), if_neg (by simp)]
      · rw [if_pos rfl, if_pos ⟨rfl, hcs⟩]
    · rw [if_neg hcs] at h
      rw [if_neg (fun hh => hcs hh.2)]
      exact h
  | phase => exact hc.elim
  | exp => exact hc.elim
  | swap a b =>
    obtain ⟨f', rfl, h1, h2, h3⟩ := h
    funext r
    simp only [moved]
    by_cases ha : r = a
    · rw [if_pos ha, ha, h1]
    · rw [if_neg ha]
      by_cases hb : r = b
      · rw [if_pos hb, hb, h2]
      · rw [if_neg hb, h3 r ha hb]
  | release q =>
    by_cases hl : L.card = 1
    · simp only [possible, if_pos hl] at h
      rw [h]
      funext r
      simp only [moved]
      by_cases hr : r = q
      · rw [if_pos hr]
      · rw [if_neg hr]
        symm
        apply hoff
        obtain ⟨a, rfl⟩ := Finset.card_eq_one.1 hl
        have : q = a := by simpa [Allowed] using ha
        subst this
        simpa using hr
    · simp only [possible, if_neg hl] at h
      obtain ⟨f', rfl, h⟩ := h
      exact h
  | measure q => exact h.1
  | jointMeasure q => exact h.1
  | collapse v q => exact h.1
  | _ => exact h

theorem moved_off {L : Finset ℕ} {f : ℕ → Bool} (hoff : ∀ q, q ∉ L → f q = false) {c : GCall F} (ha : Allowed L c) :
    ∀ q, q ∉ liveNext L c → moved f c q = false := by
  have tog : ∀ t q, t ∈ L → q ∉ L → toggle [t] f q = false := fun t q ht hq => by
    rw [toggle_ne (by rintro rfl; exact hq ht)]; exact hoff q hq
  intro q hq
  cases c with
  | gate a t =>
    simp only [moved]
    split
    · exact tog t q ha hq
    · exact hoff q hq
  | ctrl a cs t =>
    simp only [moved]
    split
    · exact tog t q (ha.2 t (by simp)) hq
    · exact hoff q hq
  | swap a b =>
    have : q ∉ L := hq
    simp only [moved]
    rw [if_neg (by rintro rfl; exact this ha.1), if_neg (by rintro rfl; exact this ha.2)]
    exact hoff q this
  | allocate =>
    apply hoff
    intro h
    exact hq (Finset.mem_insert_of_mem h)
  | release t =>
    simp only [moved]
    by_cases h : q = t
    · rw [if_pos h]
    · rw [if_neg h]
      exact hoff q (fun hm => hq (Finset.mem_erase.2 ⟨h, hm⟩))
  | _ => exact hoff q hq

theorem sortState_one (e : ℕ × Cx F) : sortState [e] = [e] := by simp [sortState]

theorem call_pure (D : Digits N Z O) {L : Finset ℕ} {f : ℕ → Bool} {s s' : GSim F} (hp : Pure Z O L f s)
    (hu : UnitSamples N s.rng) {c : GCall F} (hc : ClassicCall c) {o : GOut F} (hv : Allowed L c)
    (h : call N c s = .ok (o, s')) : Told N Z O L f c o ∧ Pure Z O (liveNext L c) (moved f c) s' := by
  obtain ⟨hsh, hb⟩ := call_holds hp.holds hv h
  obtain ⟨o', s'', h', hans, _, _⟩ := call_goes (N := N) hp.holds.books c hv
  rw [h] at h'; cases h'
  have hi := hp.holds.books.inv
  have hs := hp.sharp
  have fin : Sharp Z O s' → Pure Z O (liveNext L c) (moved f c) s' := fun hs' =>
    ⟨⟨hb.books, fun g hg => possible_unique hp.off hc hv (hb.poss g hg)⟩, hs', moved_off hp.off hv⟩
  have some : Sharp Z O s' → ∃ g, possible N L (fun g => g = f) g c o := fun hs' => by
    obtain ⟨g, hg⟩ := hs'.poss
    exact ⟨g, hb.poss g hg⟩
  cases c with
  | gate g q => exact ⟨(quiet_ok h).2, fin (hs.gateCall D hc (quiet_ok h).1)⟩
  | ctrl g cs q => exact ⟨(quiet_ok h).2, fin (hs.ctrlCall D hc (quiet_ok h).1)⟩
  | phase => exact hc.elim
  | exp => exact hc.elim
  | swap a b => exact ⟨(quiet_ok h).2, fin (hs.swap D (quiet_ok h).1)⟩
  | allocate =>
    refine ⟨hans, fin ?_⟩
    cases h
    exact ⟨hs.entry, hs.ops, hs.none⟩
  | release q => exact ⟨(quiet_ok h).2, fin (hs.release D hu (quiet_ok h).1)⟩
  | measure q =>
    simp only [call] at h
    obtain ⟨⟨b, s1⟩, h1, h⟩ := bind_ok h
    cases h
    have hs' := hs.measure D hu h1
    obtain ⟨g, rfl, hg⟩ := some hs'
    exact ⟨hg, fin hs'⟩
  | jointMeasure qs =>
    simp only [call] at h
    obtain ⟨⟨b, s1⟩, h1, h⟩ := bind_ok h
    cases h
    have hs' := hs.jointMeasure D hu h1
    obtain ⟨g, rfl, hg⟩ := some hs'
    exact ⟨hg, fin hs'⟩
  | jointProb qs =>
    simp only [call] at h
    obtain ⟨⟨p, s1⟩, h1, h⟩ := bind_ok h
    cases h
    obtain ⟨hs', rfl⟩ := hs.jointProbability D hi hv.1 hp.holds.poss h1
    exact ⟨rfl, fin hs'⟩
  | isZero q =>
    simp only [call] at h
    obtain ⟨⟨b, s1⟩, h1, h⟩ := bind_ok h
    cases h
    unfold qubitIsZero at h1
    obtain ⟨⟨p, s2⟩, h2, h1⟩ := bind_ok h1
    cases h1
    obtain ⟨hs', rfl⟩ := hs.jointProbability D hi (by simp) hp.holds.poss h2
    refine ⟨?_, fin hs'⟩
    show GOut.bit _ = GOut.bit _
    rw [odd_one]
    cases f q
    · simp [D.tiny]
    · simp [D.big]
  | collapse v q =>
    simp only [call] at h
    obtain ⟨⟨p, s1⟩, h1, h⟩ := bind_ok h
    cases h
    obtain ⟨hs', rfl⟩ := hs.forceCollapse D hi hp.holds.poss h1
    exact ⟨rfl, fin hs'⟩
  | getState =>
    simp only [call] at h
    obtain ⟨⟨⟨l, n⟩, s1⟩, h1, h⟩ := bind_ok h
    cases h
    unfold getState at h1
    obtain ⟨s2, h4, h1⟩ := bind_ok h1
    obtain ⟨s3, h5, h1⟩ := bind_ok h1
    cases h1
    have hs3 := Sharp.relocate D _ _ (hs.flushQueue D h4).1 h5
    obtain ⟨k, z, hst, hz⟩ := hs3.entry
    refine ⟨?_, fin hs3⟩
    obtain ⟨l, hl, hasc, hall⟩ := hsh
    rw [hst, sortState_one] at hl ⊢
    injection hl with hl hn
    subst hl
    obtain ⟨g, rfl, hidx⟩ := hall (k, z) (by simp)
    exact ⟨k, z, by rw [hn], hasc.2 (k, z) (by simp), hidx, hz⟩
  | dump fmt =>
    simp only [call] at h
    obtain ⟨⟨t, s1⟩, h1, h⟩ := bind_ok h
    cases h
    obtain ⟨s2, s3, h4, h5, hr, hbits⟩ := arrange_goes (N := N) hi
    simp only [dump, h4, h5, ok_bind] at h1
    cases h1
    have hs3 := Sharp.relocate D _ _ (hs.flushQueue D h4).1 h5
    obtain ⟨k, z, hst, hz⟩ := hs3.entry
    obtain ⟨_, _, hl⟩ := arrange_poss hi h4 h5
    obtain ⟨g, hg, hk⟩ := hl (k, z) (by rw [hst]; simp)
    cases hp.holds.poss g hg
    refine ⟨⟨k, z, ?_, ?_, index_of hp.holds.books hk, hz⟩, fin ⟨⟨k, z, ?_, hz⟩, hs3.ops, hs3.none⟩⟩
    · rw [← shown_eq, hst, sortState_one]
    · rw [← hp.holds.books.card]
      exact (hbits k).1 (hr.core.bits (k, z) (by rw [hst]; simp))
    · simp only [hst, sortState_one]

theorem run_pure (D : Digits N Z O) (cs : List (GCall F)) : ∀ {L : Finset ℕ} {f : ℕ → Bool} {s : GSim F},
    Pure Z O L f s → UnitSamples N s.rng → (∀ c ∈ cs, ClassicCall c) → Valid L cs →
    ∃ os s', runCalls N cs s = .ok (os, s') ∧ Tells N Z O L f cs os := by
  induction cs with
  | nil => intro L f s _ _ _ _; exact ⟨[], s, rfl, rfl⟩
  | cons c cs ih =>
    intro L f s hp hu hc hv
    obtain ⟨o, s1, h1, _, _, hr⟩ := call_goes (N := N) hp.holds.books c hv.1
    obtain ⟨ht, hp1⟩ := call_pure D hp hu (hc c (by simp)) hv.1 h1
    obtain ⟨os, s2, h2, ht2⟩ := ih hp1 (by rw [hr]; exact hu.shift _) (fun d hd => hc d (by simp [hd])) hv.2
    exact ⟨o :: os, s2, by simp only [runCalls, h1, ok_bind, h2]; rfl, o, os, rfl, ht, ht2⟩

theorem pure_new (D : Digits N Z O) (rng : ℕ → F) : Pure Z O ∅ (fun _ => false) (new N rng) :=
  ⟨holds_new N rng, ⟨⟨0, N.oneC, rfl, D.oneC⟩, by simp [new], fun q => by
    rw [hasQueued_eq]; simp [new, IMap.get_empty]⟩, fun _ _ => rfl⟩

end Gen
end Qir
