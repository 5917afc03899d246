import Verif.Proof.Gates2
import Verif.Proof.Norm

/-! Probabilities and collapse in the model. -/

noncomputable section
namespace Qir
open Spec Function Sim

/-! ### Parity of an index -/

theorem testBit_foldl_or (locs : List ℕ) (n l : ℕ) :
    (locs.foldl (fun a loc => a ||| (1 <<< loc)) n).testBit l = (n.testBit l || decide (l ∈ locs)) := by
  induction locs generalizing n with
  | nil => simp
  | cons a locs ih =>
    rw [List.foldl_cons, ih, Nat.testBit_or, Nat.one_shiftLeft, Nat.testBit_two_pow]
    by_cases h : a = l
    · subst h; simp
    · have h' : ¬ l = a := fun hh => h hh.symm
      simp [h, h']

theorem testBit_locMask (locs : List ℕ) (l : ℕ) : (locMask locs).testBit l = decide (l ∈ locs) := by
  unfold locMask
  rw [testBit_foldl_or]
  simp

theorem lt_of_testBit {n i : ℕ} (h : n.testBit i = true) : i < n := by
  have h1 := Nat.ge_two_pow_of_testBit h
  exact lt_of_lt_of_le Nat.lt_two_pow_self h1

theorem countOnes_mask {locs : List ℕ} (hl : locs.Nodup) (k : ℕ) :
    countOnes (k &&& locMask locs) = (locs.filter (fun l => k.testBit l)).length := by
  unfold countOnes
  apply List.Perm.length_eq
  rw [List.perm_ext_iff_of_nodup (List.Nodup.filter _ List.nodup_range) (List.Nodup.filter _ hl)]
  intro a
  simp only [List.mem_filter, List.mem_range, Nat.testBit_and, testBit_locMask, Bool.and_eq_true,
    decide_eq_true_eq]
  constructor
  · rintro ⟨_, h1, h2⟩; exact ⟨h2, h1⟩
  · rintro ⟨h1, h2⟩
    refine ⟨?_, h2, h1⟩
    have : (k &&& locMask locs).testBit a = true := by
      simp [Nat.testBit_and, testBit_locMask, h1, h2]
    have := lt_of_testBit this
    omega

theorem length_filter_parity {m : IMap ℕ} {ids locs : List ℕ}
    (h : List.Forall₂ (fun i l => m.get i = some l) ids locs) (k : ℕ) :
    ((locs.filter (fun l => k.testBit l)).length % 2 == 1) = parity ids (idBits m k) := by
  induction h with
  | nil => rfl
  | @cons i l ids locs h1 _ ih =>
    have hp : parity (i :: ids) (idBits m k) = xor (idBits m k i) (parity ids (idBits m k)) := rfl
    rw [hp, ← ih, idBits_of h1]
    cases hb : k.testBit l
    · rw [List.filter_cons_of_neg (by simp [hb])]; simp
    · rw [List.filter_cons_of_pos (by simp [hb]), List.length_cons]
      rcases Nat.mod_two_eq_zero_or_one (locs.filter (fun l => k.testBit l)).length with h | h
      · rw [Nat.add_mod, h]; rfl
      · rw [Nat.add_mod, h]; rfl

theorem locs_nodup {m : IMap ℕ} (hm : Inj m) {ids locs : List ℕ}
    (h : List.Forall₂ (fun i l => m.get i = some l) ids locs) (hn : ids.Nodup) : locs.Nodup := by
  induction h with
  | nil => simp
  | cons h1 h2 ih =>
    rw [List.nodup_cons] at hn ⊢
    exact ⟨not_mem_locs hm h2 h1 hn.1, ih hn.2⟩

theorem oddParity_eq {m : IMap ℕ} (hm : Inj m) {ids locs : List ℕ}
    (h : List.Forall₂ (fun i l => m.get i = some l) ids locs) (hn : ids.Nodup) (k : ℕ) :
    oddParity k (locMask locs) = parity ids (idBits m k) := by
  unfold oddParity
  rw [countOnes_mask (locs_nodup hm h hn), length_filter_parity h]

/-! ### Projections -/

/-- `proj` as a linear map. -/
def projL (qs : List ℕ) (v : Bool) : Module.End ℂ Wave where
  toFun := proj qs v
  map_add' ψ φ := by funext b; simp only [proj, Pi.add_apply]; split <;> simp
  map_smul' c ψ := by
    funext b; simp only [proj, Pi.smul_apply, RingHom.id_apply]; split <;> simp

theorem projL_apply (qs : List ℕ) (v : Bool) (ψ : Wave) : projL qs v ψ = proj qs v ψ := rfl

theorem projL_comm_gateL {qs : List ℕ} {v : Bool} {q : ℕ} (hq : q ∉ qs) (U : Mat2) :
    projL qs v * gateL U q = gateL U q * projL qs v := by
  ext ψ b
  rw [Module.End.mul_apply, Module.End.mul_apply, gateL_apply_apply, projL_apply, projL_apply]
  unfold proj
  simp only [parity_update hq]
  split
  · rw [gateL_apply_apply]
  · simp

theorem projL_comm_pendL {qs : List ℕ} {v : Bool} {P : ℕ → Mat2} {L : List ℕ}
    (h : ∀ q ∈ qs, P q = 1) : projL qs v * pendL P L = pendL P L * projL qs v := by
  apply comm_pendL_of
  intro q
  by_cases hq : q ∈ qs
  · exact Or.inl (h q hq)
  · exact Or.inr (projL_comm_gateL hq _)

theorem proj_ket (qs : List ℕ) (v : Bool) (b : Basis) :
    proj qs v (ket b) = if parity qs b = v then ket b else 0 := by
  funext b'
  unfold proj ket
  by_cases hb : b' = b
  · subst hb; split <;> simp [*]
  · simp only [hb, if_false]
    split <;> split <;> simp [ket, hb]

theorem view_collapse {m : IMap ℕ} {st : List (ℕ × ℂ)} {ids : List ℕ} {mask : ℕ}
    (h : ∀ k, oddParity k mask = parity ids (idBits m k)) (v : Bool) (a : ℂ) :
    view m (st.filterMap (fun e => if oddParity e.1 mask = v then some (e.1, e.2 * a) else none)) =
      a • proj ids v (view m st) := by
  rw [← projL_apply]
  induction st with
  | nil => simp
  | cons e st ih =>
    rw [view_cons, map_add, smul_add, ← ih, List.filterMap_cons, h]
    have he : projL ids v (entryWave m e) =
        if parity ids (idBits m e.1) = v then entryWave m e else 0 := by
      unfold entryWave
      rw [map_smul, projL_apply, proj_ket]
      split <;> simp
    rw [he]
    by_cases hp : parity ids (idBits m e.1) = v
    · simp only [hp, if_true]
      rw [view_cons]
      simp [entryWave, smul_smul, mul_comm]
    · simp only [hp, if_false, smul_zero, zero_add]

/-! ### The model's probability and collapse -/

theorem foldl_cond (f : ℕ × ℂ → Bool) (st : List (ℕ × ℂ)) (a : ℝ) :
    st.foldl (fun accum e => if f e then accum + Complex.normSq e.2 else accum) a =
      a + (st.map (fun e => if f e = true then Complex.normSq e.2 else 0)).sum := by
  induction st generalizing a with
  | nil => simp
  | cons e st ih =>
    rw [List.foldl_cons, ih, List.map_cons, List.sum_cons]
    split <;> ring

theorem checkJoint_spec {s : Sim} (h : WFB s.idMap s.state s.opQ) {ids locs : List ℕ}
    (hl : List.Forall₂ (fun i l => s.idMap.get i = some l) ids locs) (hn : ids.Nodup) :
    ∃ st, s.checkJointProbability locs =
        .ok (prob ids true (base s), { s with state := st, opQ := [] }) ∧
      Core s.idMap st ∧ view s.idMap st = base s := by
  obtain ⟨rops, h1, hc, hv⟩ := takeOps_spec h
  refine ⟨s.state.map (applyOps rops), ?_, hc, hv⟩
  unfold checkJointProbability
  simp only [h1, ok_bind]
  rw [foldl_cond (fun e => oddParity e.1 (locMask locs)), zero_add, ← hv, prob_eq, sumIf_view _ hc]
  simp only [oddParity_eq hc.inj hl hn]
  rfl

theorem isom_opH (b : Bool) : Isom (optH b) := by cases b; exact isom_one; exact isom_H
theorem isom_optRx (o : Option ℝ) : Isom (optRx o) := by
  cases o; exact isom_one; exact isom_Rx _
theorem isom_optRy (o : Option ℝ) : Isom (optRy o) := by
  cases o; exact isom_one; exact isom_Ry _
theorem isom_pend (s : Sim) (q : ℕ) : Isom (pend s q) :=
  (isom_optRy _).mul ((isom_optRx _).mul (isom_opH _))

theorem finSupp_base (s : Sim) : FinSupp (base s) := (finSupp_view _ _).opsL _
theorem finSupp_abs (s : Sim) : FinSupp (abs s) := (finSupp_base s).pendL _ _

theorem prob_abs {s : Sim} {ids : List ℕ} (h : ∀ q ∈ ids, pend s q = 1) (v : Bool) :
    prob ids v (abs s) = prob ids v (base s) := by
  rw [prob_eq, prob_eq]
  apply sumIf_pendL (finSupp_base s) _ (isom_pend s)
  intro q b v'
  by_cases hq : q ∈ ids
  · exact Or.inl (h q hq)
  · right; rw [parity_update hq]

theorem normSq_abs (s : Sim) : Spec.normSq (abs s) = Spec.normSq (base s) := by
  rw [normSq_eq, normSq_eq]
  apply sumIf_pendL (finSupp_base s) _ (isom_pend s)
  intro q b v'; right; rfl

theorem core_filterMap {m : IMap ℕ} {st : List (ℕ × ℂ)} (h : Core m st) (p : ℕ × ℂ → Prop)
    [DecidablePred p] (f : ℕ × ℂ → ℂ) :
    Core m (st.filterMap (fun e => if p e then some (e.1, f e) else none)) := by
  have hsub : ((st.filterMap (fun e => if p e then some (e.1, f e) else none)).map Prod.fst).Sublist
      (st.map Prod.fst) := by
    induction st with
    | nil => simp
    | cons e st ih =>
      have hn := h.nodup
      rw [List.map_cons, List.nodup_cons] at hn
      have := ih ⟨h.inj, hn.2, fun e he => h.bits e (List.mem_cons_of_mem _ he)⟩
      rw [List.filterMap_cons]
      by_cases hp : p e
      · simp only [hp, if_true, List.map_cons]; exact this.cons_cons _
      · simp only [hp, if_false, List.map_cons]; exact this.cons _
  refine ⟨h.inj, h.nodup.sublist hsub, ?_⟩
  intro e he
  obtain ⟨e', he', hee⟩ := List.mem_filterMap.1 he
  split at hee
  · cases hee; exact h.bits e' he'
  · cases hee

/-- The scaling factor of `joint_collapse`. -/
def scaling (val : Bool) (d : ℝ) : ℝ := 1 / Real.sqrt (if val then d else 1 - d)

theorem collapse_spec {s : Sim} (hw : WF s) (hq : s.opQ = []) {ids locs : List ℕ}
    (hl : List.Forall₂ (fun i l => s.idMap.get i = some l) ids locs) (hn : ids.Nodup)
    (hp : ∀ q ∈ ids, pend s q = 1) (val : Bool) (d : ℝ) :
    WF (s.jointCollapse locs val d) ∧
      abs (s.jointCollapse locs val d) = (scaling val d : ℂ) • proj ids val (abs s) := by
  have hpar := oddParity_eq hw.b.core.inj hl hn
  have hc : Core s.idMap (s.jointCollapse locs val d).state :=
    core_filterMap hw.b.core (fun e => oddParity e.1 (locMask locs) = val) _
  refine ⟨⟨⟨hc, ?_⟩, hw.queued⟩, ?_⟩
  · intro op hop
    have : (s.jointCollapse locs val d).opQ = s.opQ := rfl
    rw [this, hq] at hop
    simp at hop
  · have hb : base (s.jointCollapse locs val d) = (scaling val d : ℂ) • proj ids val (base s) := by
      unfold base
      have h1 : (s.jointCollapse locs val d).opQ = [] := hq
      rw [h1, hq]
      exact view_collapse hpar val _
    show pendL (pend s) s.idMap.keys (base (s.jointCollapse locs val d)) = _
    rw [hb, map_smul, ← projL_apply, ← projL_apply, ← Module.End.mul_apply, ← projL_comm_pendL hp]
    rfl

/-! ### The public queries -/

theorem alloc_locs {m : IMap ℕ} {ids : List ℕ} (h : Alloc m ids) :
    ∃ locs, resolveIds m ids = .ok locs ∧ List.Forall₂ (fun i l => m.get i = some l) ids locs := by
  obtain ⟨locs, hl⟩ := resolveIds_ok h
  exact ⟨locs, hl, resolveIds_eq_ok.1 hl⟩

/-- A state after a query: nothing pending on the looked-at qubits and an empty queue. -/
structure Settled (ids : List ℕ) (s s' : Sim) : Prop where
  same : Same s s'
  ops : s'.opQ = []
  pend : ∀ q ∈ ids, s'.hasQueued q = false

theorem settle {env : Env} (he : env.eps = 0) {s : Sim} (hw : WF s) {ids locs : List ℕ}
    (hn : ids.Nodup) (hl : List.Forall₂ (fun i l => s.idMap.get i = some l) ids locs) :
    ∃ s1 s2, s.maybeFlush env ids .HRxRy = .ok s1 ∧ s1.idMap = s.idMap ∧ s1.rng = s.rng ∧
      s1.checkJointProbability locs = .ok (prob ids true (abs s), s2) ∧ Settled ids s s2 ∧
      ∀ r, checkJointProbability locs { s1 with rng := r } =
        .ok (prob ids true (abs s), { s2 with rng := r }) := by
  obtain ⟨s1, h1, hs1, hc1⟩ := maybeFlush_spec he ids hw
  have hl1 : List.Forall₂ (fun i l => s1.idMap.get i = some l) ids locs := by rw [hs1.idMap]; exact hl
  obtain ⟨st, h2, hcore, hv⟩ := checkJoint_spec hs1.wf.b hl1 hn
  have hp : ∀ q ∈ ids, s1.hasQueued q = false := fun q hq => hc1.not_queued hq
  have hprob : prob ids true (base s1) = prob ids true (abs s) := by
    rw [← hs1.abs, prob_abs (fun q hq => pend_of_not_queued (hp q hq))]
  refine ⟨s1, { s1 with state := st, opQ := [] }, h1, hs1.idMap, hs1.rng, by rw [h2, hprob], ?_, ?_⟩
  · refine ⟨⟨⟨⟨hcore, by simp⟩, hs1.wf.queued⟩, hs1.idMap, hs1.rng, ?_⟩, rfl, hp⟩
    rw [← hs1.abs]
    show pendL (pend s1) s1.idMap.keys (view s1.idMap st) = _
    rw [hv]; rfl
  · intro r
    obtain ⟨st', h2', _, _⟩ := checkJoint_spec (s := { s1 with rng := r }) hs1.wf.b hl1 hn
    have hst : st' = st := by
      unfold checkJointProbability takeOps at h2 h2'
      obtain ⟨rops, hr, _, _⟩ := hs1.wf.b.resolve
      simp only [hr, ok_bind, pure_ok, Except.ok.injEq, Prod.mk.injEq] at h2 h2'
      have e1 := congrArg Sim.state h2.2
      have e2 := congrArg Sim.state h2'.2
      simp only at e1 e2
      rw [← e1, ← e2]
    rw [h2', hst]
    simp only
    rw [← hprob]
    rfl

theorem jointProbability_spec {env : Env} (he : env.eps = 0) {s : Sim} (hw : WF s) {ids : List ℕ}
    (hn : ids.Nodup) (ha : Alloc s.idMap ids) :
    ∃ s', s.jointProbability env ids = .ok (prob ids true (abs s), s') ∧ Same s s' := by
  obtain ⟨locs, hres, hl⟩ := alloc_locs ha
  obtain ⟨s1, s2, h1, hid, _, h2, hset, _⟩ := settle he hw hn hl
  refine ⟨s2, ?_, hset.same⟩
  unfold jointProbability checkForDuplicates
  simp only [h1, ok_bind, if_pos hn, hid, hres, h2]

theorem qubitIsZero_spec {env : Env} (he : env.eps = 0) {s : Sim} (hw : WF s) {id : ℕ}
    (ha : (s.idMap.get id).isSome) :
    ∃ s', s.qubitIsZero env id = .ok (decide (prob [id] true (abs s) = 0), s') ∧ Same s s' := by
  obtain ⟨s', h1, hs⟩ := jointProbability_spec he hw (ids := [id]) (by simp)
    (by intro i hi; simp only [List.mem_singleton] at hi; subst hi; exact ha)
  refine ⟨s', ?_, hs⟩
  unfold qubitIsZero
  simp only [h1, ok_bind, he, nearlyZeroR_zero]
  congr

/-- What a measurement of the parity of `ids` with outcome `res` leaves behind. -/
structure Measured (ids : List ℕ) (res : Bool) (s s' : Sim) : Prop where
  wf : WF s'
  idMap : s'.idMap = s.idMap
  rng : s'.rng = fun n => s.rng (n + 1)
  ops : s'.opQ = []
  quiet : ∀ q ∈ ids, s'.hasQueued q = false
  bits : ∀ e ∈ s'.state, parity ids (idBits s'.idMap e.1) = res
  abs : abs s' = (scaling res (prob ids true (abs s)) : ℂ) • proj ids res (Qir.abs s)

theorem jointMeasure_spec {env : Env} (he : env.eps = 0) {s : Sim} (hw : WF s) {ids : List ℕ}
    (hn : ids.Nodup) (ha : Alloc s.idMap ids) :
    ∃ s', s.jointMeasure env ids = .ok (decide (s.rng 0 < prob ids true (abs s)), s') ∧
      Measured ids (decide (s.rng 0 < prob ids true (abs s))) s s' := by
  obtain ⟨locs, hres, hl⟩ := alloc_locs ha
  obtain ⟨s1, s2, h1, hid, hrng, h2, hset, h3⟩ := settle he hw hn hl
  have hl2 : List.Forall₂ (fun i l => s2.idMap.get i = some l) ids locs := by
    rw [hset.same.idMap]; exact hl
  have h3' := h3 (fun n => s1.rng (n + 1))
  have hw3 : WF { s2 with rng := fun n => s1.rng (n + 1) } :=
    ⟨hset.same.wf.b, hset.same.wf.queued⟩
  have hcol := collapse_spec (s := { s2 with rng := fun n => s1.rng (n + 1) }) hw3 hset.ops hl2 hn
    (fun q hq => pend_of_not_queued (s := s2) (hset.pend q hq))
    (decide (s.rng 0 < prob ids true (abs s))) (prob ids true (abs s))
  refine ⟨_, ?_, hcol.1, hset.same.idMap, ?_, hset.ops, hset.pend, ?_, ?_⟩
  · unfold jointMeasure checkForDuplicates nextSample
    have hres1 : resolveIds s1.idMap ids = .ok locs := by rw [hid]; exact hres
    have hr0 : s1.rng 0 = s.rng 0 := by rw [hrng]
    simp only [h1, ok_bind, if_pos hn, hres1, h3', pure_ok, hr0]
  · show (fun n => s1.rng (n + 1)) = _
    rw [hrng]
  · intro e he'
    obtain ⟨e', _, hee⟩ := List.mem_filterMap.1 he'
    split at hee
    · rename_i hpar
      cases hee
      rw [oddParity_eq hset.same.wf.b.core.inj hl2 hn] at hpar
      exact hpar
    · cases hee
  · rw [hcol.2]
    have : Qir.abs { s2 with rng := fun n => s1.rng (n + 1) } = Qir.abs s := hset.same.abs
    rw [this]

/-- `measure` is `joint_measure` of one qubit. -/
theorem measure_eq_jointMeasure {env : Env} {s : Sim} {id : ℕ} :
    s.measure env id = s.jointMeasure env [id] := by
  unfold Sim.measure jointMeasure checkForDuplicates
  cases h : s.maybeFlush env [id] .HRxRy with
  | error e => rfl
  | ok s1 =>
    simp only [ok_bind, List.nodup_singleton, if_true, resolveIds]
    cases h' : resolveId s1.idMap id <;> rfl

theorem measure_spec {env : Env} (he : env.eps = 0) {s : Sim} (hw : WF s) {id : ℕ}
    (ha : (s.idMap.get id).isSome) :
    ∃ s', s.measure env id = .ok (decide (s.rng 0 < prob [id] true (abs s)), s') ∧
      Measured [id] (decide (s.rng 0 < prob [id] true (abs s))) s s' := by
  rw [measure_eq_jointMeasure]
  exact jointMeasure_spec he hw (by simp)
    (by intro i hi; simp only [List.mem_singleton] at hi; subst hi; exact ha)

theorem forceCollapse_spec {env : Env} (he : env.eps = 0) {s : Sim} (hw : WF s) {id : ℕ}
    (ha : (s.idMap.get id).isSome) (val : Bool) (hnorm : Spec.normSq (abs s) = 1) :
    ∃ s', s.forceCollapse env val id = .ok (prob [id] val (abs s), s') ∧ WF s' ∧
      s'.idMap = s.idMap ∧ s'.rng = s.rng ∧
      abs s' = if prob [id] val (abs s) = 0 then abs s
        else (scaling val (prob [id] true (abs s)) : ℂ) • proj [id] val (abs s) := by
  have ha' : Alloc s.idMap [id] := by
    intro i hi; simp only [List.mem_singleton] at hi; subst hi; exact ha
  obtain ⟨loc, hloc⟩ := Option.isSome_iff_exists.1 ha
  have hl : List.Forall₂ (fun i l => s.idMap.get i = some l) [id] [loc] := by simp [hloc]
  obtain ⟨s1, s2, h1, hid, hrng, h2, hset, h3⟩ := settle he hw (by simp) hl
  have hl2 : List.Forall₂ (fun i l => s2.idMap.get i = some l) [id] [loc] := by
    rw [hset.same.idMap]; exact hl
  have hcol := collapse_spec hset.same.wf hset.ops hl2 (by simp)
    (fun q hq => pend_of_not_queued (hset.pend q hq)) val (prob [id] true (abs s))
  have hsum := prob_add (finSupp_abs s) [id]
  have hval : (if val then prob [id] true (abs s) else 1 - prob [id] true (abs s)) =
      prob [id] val (abs s) := by
    cases val
    · simp only [Bool.false_eq_true, if_false]; linarith
    · rfl
  have hcond : ((val = true ∧ ¬ NearlyZeroR env.eps (prob [id] true (abs s))) ∨
      (val = false ∧ ¬ NearlyZeroR env.eps (1 - prob [id] true (abs s)))) ↔
      ¬ prob [id] val (abs s) = 0 := by
    rw [he, nearlyZeroR_zero, nearlyZeroR_zero, ← hval]
    cases val <;> simp
  refine ⟨if ¬ prob [id] val (abs s) = 0 then
      s2.jointCollapse [loc] val (prob [id] true (abs s)) else s2, ?_, ?_⟩
  · unfold forceCollapse resolveId
    simp only [h1, ok_bind, hid, hloc, h2, pure_ok, hval, hcond]
  · by_cases h0 : prob [id] val (abs s) = 0
    · simp only [h0, not_true, if_false, if_true]
      exact ⟨hset.same.wf, hset.same.idMap, hset.same.rng, hset.same.abs⟩
    · simp only [h0, not_false_eq_true, if_true, if_false]
      refine ⟨hcol.1, hset.same.idMap, hset.same.rng, ?_⟩
      rw [hcol.2, hset.same.abs]

end Qir
