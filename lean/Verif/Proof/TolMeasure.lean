import Verif.Proof.TolRun

/-! Measurement, collapse and release with a positive tolerance. -/

noncomputable section
namespace Qir.Tol
open Spec Function Sim

variable {ε : ℝ}

/-! ### The states after a measurement of two close states are close -/

theorem len_smul_real {r : ℝ} (hr : 0 ≤ r) (ψ : Wave) : len ((r : ℂ) • ψ) = r * len ψ := by
  unfold len
  rw [normSq_smul, Complex.normSq_ofReal, Real.sqrt_mul (mul_self_nonneg r), Real.sqrt_mul_self hr]

theorem prob_le_one_sub {ψ : Wave} (h : FinSupp ψ) (hl : len ψ ≤ 1) (qs : List ℕ) :
    prob qs false ψ ≤ 1 - prob qs true ψ := by
  have h1 := prob_add h qs
  have h2 := len_sq ψ
  have h3 := len_nonneg ψ
  nlinarith

/-- The divisor `joint_collapse` takes the square root of. -/
def odds (qs : List ℕ) (v : Bool) (ψ : Wave) : ℝ :=
  if v then prob qs true ψ else 1 - prob qs true ψ

theorem prob_le_odds {ψ : Wave} (h : FinSupp ψ) (hl : len ψ ≤ 1) (qs : List ℕ) (v : Bool) :
    prob qs v ψ ≤ odds qs v ψ := by
  cases v
  · exact prob_le_one_sub h hl qs
  · exact le_refl _

theorem odds_eq {ψ : Wave} (h : FinSupp ψ) (hn : normSq ψ = 1) (qs : List ℕ) (v : Bool) :
    odds qs v ψ = prob qs v ψ := by
  have := prob_add h qs
  rw [hn] at this
  cases v
  · simp only [odds, Bool.false_eq_true, if_false]; linarith
  · rfl

theorem Near.odds {d : ℝ} {φ ψ : Wave} (h : Near d φ ψ) (hφ : len φ ≤ 1) (hψ : len ψ ≤ 1)
    (qs : List ℕ) (v : Bool) : |odds qs v φ - odds qs v ψ| ≤ 2 * d := by
  have := h.prob hφ hψ qs true
  cases v
  · simp only [Tol.odds, Bool.false_eq_true, if_false]
    rw [show 1 - Spec.prob qs true φ - (1 - Spec.prob qs true ψ) =
      -(Spec.prob qs true φ - Spec.prob qs true ψ) by ring, abs_neg]
    exact this
  · exact this

theorem len_post_le {φ : Wave} (hf : FinSupp φ) (hφ : len φ ≤ 1) (qs : List ℕ) (v : Bool) :
    len ((scaling v (prob qs true φ) : ℂ) • proj qs v φ) ≤ 1 := by
  have hsc : scaling v (prob qs true φ) = 1 / √(odds qs v φ) := by
    unfold scaling Tol.odds; rfl
  rw [hsc, len_smul_real (by positivity), one_div]
  refine inv_mul_le_one_of_le₀ ?_ (Real.sqrt_nonneg _)
  unfold len
  rw [normSq_proj]
  exact Real.sqrt_le_sqrt (prob_le_odds hf hφ qs v)

theorem post_near {d : ℝ} {φ ψ : Wave} (h : Near d φ ψ) (hφ : len φ ≤ 1) (hψ : normSq ψ = 1)
    {qs : List ℕ} {v : Bool} (hp : 0 < prob qs v ψ) (hP : 0 < odds qs v φ) :
    Near (3 * d / prob qs v ψ) ((scaling v (prob qs true φ) : ℂ) • proj qs v φ) (postMeasure qs v ψ) := by
  have hψ1 : len ψ ≤ 1 := by unfold len; rw [hψ]; simp
  have hsc : scaling v (prob qs true φ) = 1 / √(odds qs v φ) := by
    unfold scaling Tol.odds; rfl
  have hod := h.odds hφ hψ1 qs v
  rw [odds_eq h.fin' hψ] at hod
  set A := √(odds qs v φ) with hA
  set b := √(prob qs v ψ) with hb
  have hA0 : 0 < A := Real.sqrt_pos.2 hP
  have hb0 : 0 < b := Real.sqrt_pos.2 hp
  have hA2 : A ^ 2 = odds qs v φ := Real.sq_sqrt hP.le
  have hb2 : b ^ 2 = prob qs v ψ := Real.sq_sqrt hp.le
  have hb1 : b ≤ 1 := by
    have := prob_le_odds h.fin' hψ1 qs v
    have h1 := prob_add h.fin' qs
    rw [hψ] at h1
    have h2 := prob_nonneg qs true ψ
    have h3 := prob_nonneg qs false ψ
    have : prob qs v ψ ≤ 1 := by cases v <;> linarith
    nlinarith
  have ha : len (proj qs v φ) ≤ A := by
    unfold len
    rw [normSq_proj]
    exact Real.sqrt_le_sqrt (prob_le_odds h.fin hφ qs v)
  have hd0 : 0 ≤ d := (len_nonneg _).trans h.le
  have hf := finSupp_sub h.fin h.fin'
  have hdiff : proj qs v φ - proj qs v ψ = proj qs v (φ - ψ) := by
    funext x; simp only [proj, Pi.sub_apply]; split <;> simp
  have hpd : len (proj qs v φ - proj qs v ψ) ≤ d := by
    rw [hdiff]; exact (len_proj_le qs v hf).trans h.le
  refine ⟨(h.fin.proj qs v).smul _, h.fin'.postMeasure qs v, ?_⟩
  have hsplit : ((scaling v (prob qs true φ) : ℂ) • proj qs v φ) - postMeasure qs v ψ =
      ((1 / b : ℝ) : ℂ) • (proj qs v φ - proj qs v ψ) +
        ((1 / A - 1 / b : ℝ) : ℂ) • proj qs v φ := by
    rw [postMeasure_eq, hsc, ← hb]
    push_cast
    rw [smul_sub, sub_smul]
    abel
  rw [hsplit]
  have hreal : ∀ (r : ℝ) (χ : Wave), len ((r : ℂ) • χ) = |r| * len χ := by
    intro r χ
    unfold len
    rw [normSq_smul, Complex.normSq_ofReal, Real.sqrt_mul (mul_self_nonneg r), Real.sqrt_mul_self_eq_abs]
  refine (len_add ((finSupp_sub (h.fin.proj qs v) (h.fin'.proj qs v)).smul _) ((h.fin.proj qs v).smul _)).trans ?_
  rw [hreal, hreal]
  have hAb : |A - b| ≤ 2 * d / b := by
    rw [le_div_iff₀ hb0]
    have : |A - b| * (A + b) ≤ 2 * d := by
      rw [← abs_of_pos (show 0 < A + b by linarith), ← abs_mul]
      rw [show (A - b) * (A + b) = A ^ 2 - b ^ 2 by ring, hA2, hb2]
      exact hod
    have := abs_nonneg (A - b)
    nlinarith
  have h1 : |1 / b| * len (proj qs v φ - proj qs v ψ) ≤ d / b := by
    rw [abs_of_pos (by positivity), one_div, inv_mul_eq_div]
    exact div_le_div_of_nonneg_right hpd hb0.le
  have h2 : |1 / A - 1 / b| * len (proj qs v φ) ≤ 2 * d / b ^ 2 := by
    have e : 1 / A - 1 / b = -((A - b) / (A * b)) := by field_simp; ring
    rw [e, abs_neg, abs_div, abs_of_pos (show 0 < A * b by positivity)]
    calc |A - b| / (A * b) * len (proj qs v φ) ≤ |A - b| / (A * b) * A :=
          mul_le_mul_of_nonneg_left ha (by positivity)
      _ = |A - b| / b := by field_simp
      _ ≤ 2 * d / b / b := div_le_div_of_nonneg_right hAb hb0.le
      _ = 2 * d / b ^ 2 := by rw [div_div, sq]
  have h3 : d / b ≤ d / b ^ 2 := by
    apply div_le_div_of_nonneg_left hd0 (by positivity)
    nlinarith
  have h4 : d / b ^ 2 + 2 * d / b ^ 2 = 3 * d / prob qs v ψ := by rw [← hb2]; ring
  linarith

/-! ### Measurement -/

/-- A state after a query: nothing pending on the looked-at qubits and an empty queue. -/
structure Settled (ε : ℝ) (ids : List ℕ) (s s' : Sim) : Prop where
  same : Same ε s s' (3 * ids.length)
  ops : s'.opQ = []
  pend : ∀ q ∈ ids, s'.hasQueued q = false

theorem settle {env : Env} (he : TolOk env) {s : Sim} (hw : WF s) {ids locs : List ℕ}
    (hn : ids.Nodup) (hl : List.Forall₂ (fun i l => s.idMap.get i = some l) ids locs) :
    ∃ s1 s2, s.maybeFlush env ids .HRxRy = .ok s1 ∧ s1.idMap = s.idMap ∧ s1.rng = s.rng ∧
      s1.checkJointProbability locs = .ok (prob ids true (abs env.eps s2), s2) ∧
      Settled env.eps ids s s2 ∧
      ∀ r, checkJointProbability locs { s1 with rng := r } =
        .ok (prob ids true (abs env.eps s2), { s2 with rng := r }) := by
  obtain ⟨s1, h1, hs1, hc1⟩ := maybeFlush_spec he ids hw
  have hl1 : List.Forall₂ (fun i l => s1.idMap.get i = some l) ids locs := by rw [hs1.idMap]; exact hl
  obtain ⟨st, h2, hcore, hv⟩ := checkJoint_spec hs1.wf.b hl1 hn
  have hp : ∀ q ∈ ids, s1.hasQueued q = false := fun q hq => hc1.not_queued hq
  have hbase : base { s1 with state := st, opQ := [] } = base s1 := by
    show view s1.idMap st = _
    exact hv
  have habs : abs env.eps { s1 with state := st, opQ := [] } = abs env.eps s1 := by
    show pendL (Tol.pend env.eps s1) s1.idMap.keys _ = _
    rw [hbase]; rfl
  have hprob : prob ids true (base s1) =
      prob ids true (abs env.eps { s1 with state := st, opQ := [] }) := by
    rw [habs, prob_abs (fun q hq => pend_of_not_queued (hp q hq))]
  have hs2 : Same env.eps s1 { s1 with state := st, opQ := [] } 0 :=
    Same.exact ⟨⟨⟨hcore, by simp⟩, hs1.wf.queued⟩, by rw [hbase]; exact hs1.wf.slim⟩ rfl rfl habs
  refine ⟨s1, { s1 with state := st, opQ := [] }, h1, hs1.idMap, hs1.rng, by rw [h2, hprob], ?_, ?_⟩
  · exact ⟨hs1.trans hs2, rfl, hp⟩
  · intro r
    obtain ⟨st', h2', _, _⟩ := checkJoint_spec (s := { s1 with rng := r }) hs1.wf.b hl1 hn
    have hst : st' = st := by
      unfold checkJointProbability takeOps at h2 h2'
      obtain ⟨rops, hr, _, _⟩ := hs1.wf.b.resolve
      simp only [hr, ok_bind, pure_ok, Except.ok.injEq, Prod.mk.injEq] at h2 h2'
      have e1 := congrArg Sim.state h2.2
      have e2 := congrArg Sim.state h2'.2
      simp only at e1 e2
      rw [← e1, ← e2]
    rw [h2', hst]
    simp only
    rw [← hprob]
    rfl

theorem collapse_near {s : Sim} (hw : WF s) (hq : s.opQ = []) {ids locs : List ℕ}
    (hl : List.Forall₂ (fun i l => s.idMap.get i = some l) ids locs) (hn : ids.Nodup)
    (hp : ∀ q ∈ ids, s.hasQueued q = false) (val : Bool) :
    WF (s.jointCollapse locs val (prob ids true (abs ε s))) ∧
      abs ε (s.jointCollapse locs val (prob ids true (abs ε s))) =
        (scaling val (prob ids true (abs ε s)) : ℂ) • proj ids val (abs ε s) := by
  have hpar := oddParity_eq hw.b.core.inj hl hn
  have hpe : ∀ q ∈ ids, pend ε s q = 1 := fun q h => pend_of_not_queued (hp q h)
  obtain ⟨h1, _⟩ := collapse_spec hw.toWF hq hl hn (fun q h => Qir.pend_of_not_queued (hp q h)) val
    (prob ids true (abs ε s))
  have hb : base (s.jointCollapse locs val (prob ids true (abs ε s))) =
      (scaling val (prob ids true (abs ε s)) : ℂ) • proj ids val (base s) := by
    unfold base
    have h1 : (s.jointCollapse locs val (prob ids true (abs ε s))).opQ = [] := hq
    rw [h1, hq]
    exact view_collapse hpar val _
  have ha : abs ε (s.jointCollapse locs val (prob ids true (abs ε s))) =
      (scaling val (prob ids true (abs ε s)) : ℂ) • proj ids val (abs ε s) := by
    show pendL (pend ε s) s.idMap.keys (base (s.jointCollapse locs val _)) = _
    rw [hb, map_smul, ← projL_apply, ← projL_apply, ← Module.End.mul_apply, ← projL_comm_pendL hpe]
    rfl
  refine ⟨⟨h1, ?_⟩, ha⟩
  rw [← len_abs (ε := ε), ha]
  exact len_post_le (finSupp_abs s) (by rw [len_abs]; exact hw.slim) ids val

/-- What a measurement of the parity of `ids` of the settled state `t` with outcome `res` leaves. -/
structure Measured (ε : ℝ) (ids : List ℕ) (res : Bool) (t s' : Sim) : Prop where
  wf : WF s'
  idMap : s'.idMap = t.idMap
  rng : s'.rng = fun n => t.rng (n + 1)
  ops : s'.opQ = []
  quiet : ∀ q ∈ ids, s'.hasQueued q = false
  bits : ∀ e ∈ s'.state, parity ids (idBits s'.idMap e.1) = res
  abs : abs ε s' = (scaling res (prob ids true (abs ε t)) : ℂ) • proj ids res (Tol.abs ε t)

theorem jointMeasure_near {env : Env} (he : TolOk env) {s : Sim} (hw : WF s) {ids : List ℕ}
    (hn : ids.Nodup) (ha : Alloc s.idMap ids) :
    ∃ t s', Same env.eps s t (3 * ids.length) ∧
      s.jointMeasure env ids = .ok (decide (s.rng 0 < prob ids true (abs env.eps t)), s') ∧
      Measured env.eps ids (decide (s.rng 0 < prob ids true (abs env.eps t))) t s' := by
  obtain ⟨locs, hres, hl⟩ := alloc_locs ha
  obtain ⟨s1, s2, h1, hid, hrng, h2, hset, h3⟩ := settle he hw hn hl
  have hl2 : List.Forall₂ (fun i l => s2.idMap.get i = some l) ids locs := by
    rw [hset.same.idMap]; exact hl
  have h3' := h3 (fun n => s1.rng (n + 1))
  have hw3 : WF { s2 with rng := fun n => s1.rng (n + 1) } :=
    ⟨⟨hset.same.wf.b, hset.same.wf.queued⟩, hset.same.wf.slim⟩
  have hcol := collapse_near (ε := env.eps) (s := { s2 with rng := fun n => s1.rng (n + 1) }) hw3
    hset.ops hl2 hn (fun q hq => hset.pend q hq) (decide (s.rng 0 < prob ids true (abs env.eps s2)))
  refine ⟨s2, _, hset.same, ?_, hcol.1, rfl, ?_, hset.ops, hset.pend, ?_, hcol.2⟩
  · unfold jointMeasure checkForDuplicates nextSample
    have hres1 : resolveIds s1.idMap ids = .ok locs := by rw [hid]; exact hres
    have hr0 : s1.rng 0 = s.rng 0 := by rw [hrng]
    simp only [h1, ok_bind, if_pos hn, hres1, h3', pure_ok, hr0]
    rfl
  · show (fun n => s1.rng (n + 1)) = _
    rw [hrng, hset.same.rng]
  · intro e he'
    obtain ⟨e', _, hee⟩ := List.mem_filterMap.1 he'
    split at hee
    · rename_i hpar
      cases hee
      rw [oddParity_eq hset.same.wf.b.core.inj hl2 hn] at hpar
      exact hpar
    · cases hee

theorem measure_near {env : Env} (he : TolOk env) {s : Sim} (hw : WF s) {id : ℕ}
    (ha : (s.idMap.get id).isSome) :
    ∃ t s', Same env.eps s t 3 ∧
      s.measure env id = .ok (decide (s.rng 0 < prob [id] true (abs env.eps t)), s') ∧
      Measured env.eps [id] (decide (s.rng 0 < prob [id] true (abs env.eps t))) t s' := by
  rw [measure_eq_jointMeasure]
  exact jointMeasure_near he hw (ids := [id]) (by simp)
    (by intro i hi; simp only [List.mem_singleton] at hi; subst hi; exact ha)

theorem forceCollapse_near {env : Env} (he : TolOk env) {s : Sim} (hw : WF s) {id : ℕ}
    (ha : (s.idMap.get id).isSome) (val : Bool) :
    ∃ t s', Same env.eps s t 3 ∧
      s.forceCollapse env val id = .ok (odds [id] val (abs env.eps t), s') ∧ WF s' ∧
      s'.idMap = t.idMap ∧ s'.rng = t.rng ∧
      (env.eps < odds [id] val (abs env.eps t) →
        abs env.eps s' = (scaling val (prob [id] true (abs env.eps t)) : ℂ) •
          proj [id] val (abs env.eps t)) := by
  have ha' : Alloc s.idMap [id] := by
    intro i hi; simp only [List.mem_singleton] at hi; subst hi; exact ha
  obtain ⟨loc, hloc⟩ := Option.isSome_iff_exists.1 ha
  have hl : List.Forall₂ (fun i l => s.idMap.get i = some l) [id] [loc] := by simp [hloc]
  obtain ⟨s1, s2, h1, hid, hrng, h2, hset, h3⟩ := settle he hw (by simp) hl
  have hl2 : List.Forall₂ (fun i l => s2.idMap.get i = some l) [id] [loc] := by
    rw [hset.same.idMap]; exact hl
  have hcol := collapse_near (ε := env.eps) hset.same.wf hset.ops hl2 (by simp) hset.pend val
  have hcond : ((val = true ∧ ¬ NearlyZeroR env.eps (prob [id] true (abs env.eps s2))) ∨
      (val = false ∧ ¬ NearlyZeroR env.eps (1 - prob [id] true (abs env.eps s2)))) ↔
      ¬ |odds [id] val (abs env.eps s2)| ≤ env.eps := by
    rw [nearlyZeroR_iff, nearlyZeroR_iff]
    cases val <;> simp [odds]
  refine ⟨s2, if ¬ |odds [id] val (abs env.eps s2)| ≤ env.eps then
      s2.jointCollapse [loc] val (prob [id] true (abs env.eps s2)) else s2, hset.same, ?_, ?_⟩
  · unfold forceCollapse resolveId
    simp only [h1, ok_bind, hid, hloc, h2, pure_ok, hcond]
    rfl
  · by_cases h0 : |odds [id] val (abs env.eps s2)| ≤ env.eps
    · simp only [h0, not_true, if_false]
      refine ⟨hset.same.wf, trivial, trivial, fun hlt => ?_⟩
      have := le_abs_self (odds [id] val (abs env.eps s2))
      linarith
    · simp only [h0, not_false_eq_true, if_true]
      exact ⟨hcol.1, rfl, rfl, fun _ => hcol.2⟩

/-! ### Release -/

/-- The part of `release` after the measurement. -/
theorem release_measured {env : Env} {s t s1 : Sim} {id : ℕ} {res : Bool}
    (ha : (t.idMap.get id).isSome) (hlen : s.idMap.iter.length ≠ 1)
    (h1 : s.measure env id = .ok (res, s1)) (hm : Measured ε [id] res t s1) :
    ∃ s', s.release env id = .ok s' ∧ WF s' ∧ s'.idMap = t.idMap.remove id ∧
      s'.rng = (fun n => t.rng (n + 1)) ∧
      abs ε s' = (if res then gateL matX id else 1)
        ((scaling res (prob [id] true (abs ε t)) : ℂ) • proj [id] res (abs ε t)) := by
  obtain ⟨loc, hloc⟩ := Option.isSome_iff_exists.1 ha
  have hloc1 : s1.idMap.get id = some loc := by rw [hm.idMap]; exact hloc
  have hbit : ∀ e ∈ s1.state, e.1.testBit loc = res := by
    intro e hee
    have := hm.bits e hee
    rw [parity_singleton, idBits_of hloc1] at this
    exact this
  -- the entries with the qubit set to zero
  obtain ⟨st, hst, hcore, hv, hz⟩ : ∃ st, s.releaseState env id = .ok { s1 with state := st } ∧
      Core s1.idMap st ∧ view s1.idMap st = (if res then gateL matX id else 1) (view s1.idMap s1.state) ∧
      ∀ e ∈ st, e.1.testBit loc = false := by
    unfold releaseState
    rw [if_neg hlen]
    simp only [h1, ok_bind, indexId, hloc1]
    cases res
    · exact ⟨s1.state, by simp, hm.wf.b.core, by simp, hbit⟩
    · refine ⟨_, rfl, ?_, ?_, ?_⟩
      · refine ⟨hm.wf.b.core.inj, ?_, ?_⟩
        · rw [List.map_map]
          apply List.Nodup.map_on
          · intro a ha b hb hab
            have h1 := hbit a ha
            have h2 := hbit b hb
            simp only [comp_apply, h1, h2, if_true] at hab
            have hkey : a.1 = b.1 := by
              apply Nat.eq_of_testBit_eq
              intro l
              by_cases hl : l = loc
              · subst hl; rw [h1, h2]
              · have := congrArg (fun n => n.testBit l) hab
                simp only [testBit_setBit, if_neg hl] at this
                exact this
            exact List.inj_on_of_nodup_map hm.wf.b.core.nodup ha hb hkey
          · exact hm.wf.b.core.nodup.of_map
        · intro e hee
          obtain ⟨e', he', rfl⟩ := List.mem_map.1 hee
          simp only [hbit e' he', if_true]
          intro l hl
          rw [testBit_setBit] at hl
          split at hl
          · cases hl
          · exact hm.wf.b.core.bits e' he' l hl
      · simp only [if_true]
        apply view_map_of
        intro e hee
        simp only [hbit e hee, if_true]
        unfold entryWave
        rw [map_smul, ctrlL_apply, ctrl_ket (by simp)]
        simp only [List.not_mem_nil, false_imp_iff, implies_true, if_true]
        rw [idBits_setBit hm.wf.b.core.inj hloc1, idBits_of hloc1, hbit e hee]
        simp [matX, mat]
      · intro e hee
        obtain ⟨e', he', rfl⟩ := List.mem_map.1 hee
        simp only [hbit e' he', if_true]
        rw [testBit_setBit, if_pos rfl]
  have hq : ∀ q, s1.hasQueued q = true → q ≠ id := by
    rintro q hq rfl
    rw [hm.quiet q (by simp)] at hq; cases hq
  have habs : abs ε { s1 with state := st, idMap := s1.idMap.remove id } =
      (if res then gateL matX id else 1 : Module.End ℂ Wave)
        ((scaling res (prob [id] true (abs ε t)) : ℂ) • proj [id] res (abs ε t)) := by
    show pendL (pend ε s1) (s1.idMap.remove id).keys (opsL s1.opQ (view (s1.idMap.remove id) st)) = _
    have hpid : pend ε s1 id = 1 := pend_of_not_queued (hm.quiet id (by simp))
    have hA : (if res then gateL matX id else 1 : Module.End ℂ Wave) * pendL (pend ε s1) s1.idMap.keys =
        pendL (pend ε s1) s1.idMap.keys * (if res then gateL matX id else 1) := by
      apply comm_pendL_of
      intro r
      by_cases hr : r = id
      · left; rw [hr]; exact hpid
      · right
        cases res
        · simp
        · exact ctrlL_comm_gateL hr (by simp) _ _
    rw [view_congr (m' := s1.idMap) (fun e hee => idBits_remove hloc1 (hz e hee)), hv, hm.ops]
    have hkeys : pendL (pend ε s1) (s1.idMap.remove id).keys = pendL (pend ε s1) s1.idMap.keys := by
      rw [pendL_perm (keys_remove_perm s1.idMap (by rw [hloc1]; rfl)), pendL_cons, hpid, gateL_one,
        one_mul]
    rw [hkeys, ← hm.abs]
    unfold Tol.abs base
    rw [hm.ops]
    simp only [opsL_nil, Module.End.one_apply]
    rw [← Module.End.mul_apply, ← hA, Module.End.mul_apply]
  refine ⟨{ s1 with state := st, idMap := s1.idMap.remove id }, ?_, ⟨⟨⟨⟨?_, hcore.nodup, ?_⟩, ?_⟩, ?_⟩, ?_⟩,
    by rw [hm.idMap], hm.rng, habs⟩
  · unfold release
    simp only [hst, ok_bind]
    rfl
  · intro i j l hi hj
    simp only [IMap.get_remove] at hi hj
    split at hi
    · cases hi
    · split at hj
      · cases hj
      · exact hcore.inj i j l hi hj
  · intro e hee l hl
    obtain ⟨i, hi⟩ := hcore.bits e hee l hl
    refine ⟨i, ?_⟩
    simp only [IMap.get_remove]
    rw [if_neg]
    · exact hi
    · rintro rfl
      rw [hloc1] at hi
      cases hi
      rw [hz e hee] at hl
      cases hl
  · intro op hop
    have : op ∈ s1.opQ := hop
    rw [hm.ops] at this; simp at this
  · intro q hqq
    have hqq' : s1.hasQueued q = true := hqq
    simp only [IMap.get_remove]
    rw [if_neg (hq q hqq')]
    exact hm.wf.queued q hqq'
  · rw [← len_abs (ε := ε), habs]
    have hlen1 : len ((scaling res (prob [id] true (abs ε t)) : ℂ) • proj [id] res (abs ε t)) ≤ 1 := by
      rw [← hm.abs, len_abs]; exact hm.wf.slim
    cases res
    · exact hlen1
    · exact ((iso_gate isom_X id).len (by rw [← hm.abs]; exact finSupp_abs s1)).trans_le hlen1

theorem abs_zero_new {s' : Sim} (h : s'.hFlag = 0 ∧ s'.rxQ = IMap.empty ∧ s'.ryQ = IMap.empty) :
    abs ε s' = Qir.abs s' := by
  unfold abs Qir.abs
  congr 1
  refine pendL_congr (fun q _ => ?_)
  rw [pend_of_not_queued, Qir.pend_of_not_queued] <;>
  · rw [hasQueued_eq, h.1, h.2.1, h.2.2]; simp

/-- Releasing the only qubit. -/
theorem release_only {env : Env} {s : Sim} {id : ℕ}
    (ha : (s.idMap.get id).isSome) (hlen : s.idMap.iter.length = 1) :
    ∃ s', s.release env id = .ok s' ∧ WF s' ∧ s'.idMap = s.idMap.remove id ∧ s'.rng = s.rng ∧
      abs ε s' = ket zeroBasis := by
  obtain ⟨s', h1, h2, h3, h4, h5⟩ := release_last (env := env) ha hlen
  have hz : s'.hFlag = 0 ∧ s'.rxQ = IMap.empty ∧ s'.ryQ = IMap.empty := by
    unfold release releaseState at h1
    rw [if_pos hlen] at h1
    simp only [ok_bind] at h1
    cases h1
    exact ⟨rfl, rfl, rfl⟩
  have h6 : abs ε s' = ket zeroBasis := (abs_zero_new hz).trans h5
  refine ⟨s', h1, ⟨h2, ?_⟩, h3, h4, h6⟩
  rw [← len_abs (ε := ε), h6]
  unfold len
  rw [normSq_ket]; simp

end Qir.Tol
