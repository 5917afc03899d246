import Verif.Proof.TolExp
import Verif.Proof.Refine

/-! Whole histories of gates, allocations and queries with a positive tolerance. -/

noncomputable section
namespace Qir.Tol
open Spec Function Sim

variable {ε : ℝ}

/-! ### Identifiers -/

theorem iso_swap (a b : ℕ) : Iso (swapL a b) :=
  ⟨fun h => h.swap a b, fun h => by unfold Tol.len; rw [swapL_apply, normSq_swap]⟩

theorem swapQubitIds_abs {s : Sim} (hw : WF s) {a b : ℕ} (ha : (s.idMap.get a).isSome)
    (hb : (s.idMap.get b).isSome) :
    ∃ s', s.swapQubitIds a b = .ok s' ∧ WF s' ∧ (∀ j, (s'.idMap.get j).isSome = (s.idMap.get j).isSome) ∧
      s'.rng = s.rng ∧ abs ε s' = swapL a b (abs ε s) := by
  obtain ⟨s0, h0, hw', hsome', hr, _⟩ := swapQubitIds_spec hw.toWF ha hb
  obtain ⟨st, h1, hcore, hv⟩ := flushOps_spec hw.b
  obtain ⟨la, hla⟩ := Option.isSome_iff_exists.1 ha
  obtain ⟨lb, hlb⟩ := Option.isSome_iff_exists.1 hb
  have hget : ∀ r, ((s.idMap.modify a (fun _ => lb)).modify b (fun _ => la)).get r =
      s.idMap.get (Equiv.swap a b r) := by
    intro r
    by_cases hrb : r = b
    · subst hrb
      rw [IMap.get_modify_same, IMap.get_modify, Equiv.swap_apply_right]
      by_cases hra : r = a
      · subst hra; simp [hla]
      · rw [if_neg hra, hlb, hla]; rfl
    · rw [IMap.get_modify, if_neg hrb, IMap.get_modify]
      by_cases hra : r = a
      · subst hra; rw [if_pos rfl, Equiv.swap_apply_left, hla, hlb]; rfl
      · rw [if_neg hra, Equiv.swap_apply_of_ne_of_ne hra hrb]
  have hsome : ∀ r, (s.idMap.get (Equiv.swap a b r)).isSome = (s.idMap.get r).isSome := by
    intro r
    by_cases hra : r = a
    · subst hra; rw [Equiv.swap_apply_left, hla, hlb]; rfl
    · by_cases hrb : r = b
      · subst hrb; rw [Equiv.swap_apply_right, hla, hlb]; rfl
      · rw [Equiv.swap_apply_of_ne_of_ne hra hrb]
  obtain ⟨s', hs', h1'⟩ : ∃ s' : Sim, s' = { s with
      state := st
      opQ := []
      hFlag := setBit (setBit s.hFlag a (s.hFlag.testBit b)) b (s.hFlag.testBit a)
      rxQ := swapEntries s.rxQ a b
      ryQ := swapEntries s.ryQ a b
      idMap := (s.idMap.modify a (fun _ => lb)).modify b (fun _ => la) } ∧ s.swapQubitIds a b = .ok s' := by
    refine ⟨_, rfl, ?_⟩
    unfold swapQubitIds
    simp only [h1, ok_bind, resolveId, hla, hlb]
    rfl
  obtain rfl : s' = s0 := by rw [h1'] at h0; exact Except.ok.inj h0
  suffices habs : abs ε s' = swapL a b (abs ε s) by
    refine ⟨s', h1', ⟨hw', ?_⟩, hsome', hr, habs⟩
    rw [← len_abs (ε := ε), habs, (iso_swap a b).len (finSupp_abs s), len_abs]
    exact hw.slim
  subst hs'
  have hkeys : ((s.idMap.modify a (fun _ => lb)).modify b (fun _ => la)).keys = s.idMap.keys :=
    IMap.keys_congr _ _ (fun k => by rw [hget, hsome])
  have hidb : ∀ k, idBits ((s.idMap.modify a (fun _ => lb)).modify b (fun _ => la)) k =
      fun q => idBits s.idMap k (Equiv.swap a b q) := by
    intro k; funext q; unfold idBits; rw [hget]
  have hview : view ((s.idMap.modify a (fun _ => lb)).modify b (fun _ => la)) st =
      swapL a b (view s.idMap st) := by
    have := view_map_of (m := s.idMap)
      (m' := (s.idMap.modify a (fun _ => lb)).modify b (fun _ => la)) (A := swapL a b)
      (f := id) (st := st) (by
        intro e _
        unfold entryWave
        rw [map_smul, swapL_ket, id, hidb])
    simpa using this
  unfold abs base
  simp only [opsL_nil, Module.End.one_apply, hkeys, hview, hv]
  rw [← Module.End.mul_apply, ← Module.End.mul_apply, swapL_pendL, pendL_perm (map_swap_perm
    (IMap.keys_nodup _) ((IMap.mem_keys _ _).2 ha) ((IMap.mem_keys _ _).2 hb))]
  congr 1
  congr 1
  apply pendL_congr
  intro q _
  unfold pend
  simp only [get_swapEntries, testBit_swapFlag]

theorem insert_abs {s : Sim} (hw : WF s) {key val : ℕ} (hk1 : s.idMap.get key = none)
    (hv : ∀ i, s.idMap.get i ≠ some val) :
    abs ε { s with idMap := s.idMap.insert key val } = abs ε s := by
  have hget : ∀ j, (s.idMap.insert key val).get j = if j = key then some val else s.idMap.get j :=
    fun j => IMap.get_insert _ _ _ _
  show pendL (pend ε s) (s.idMap.insert key val).keys
    (opsL s.opQ (view (s.idMap.insert key val) s.state)) = _
  rw [pendL_perm (keys_insert_perm _ hk1), pendL_cons,
    pend_of_not_queued (not_queued_of_none hw.toWF hk1), gateL_one, one_mul]
  rw [view_congr (m' := s.idMap)]
  · rfl
  · intro e he
    funext r
    unfold idBits
    rw [hget]
    by_cases hr : r = key
    · rw [if_pos hr, hr, hk1]
      show e.1.testBit val = false
      by_contra hc
      rw [Bool.not_eq_false] at hc
      obtain ⟨i, hi⟩ := hw.b.core.bits e he _ hc
      exact hv i hi
    · rw [if_neg hr]

theorem allocate_abs {s : Sim} (hw : WF s) : WF s.allocate.2 ∧ abs ε s.allocate.2 = abs ε s := by
  obtain ⟨hk1, _⟩ := newKey_spec s.idMap
  have hv := newVal_fresh hw.b.core.inj
  obtain ⟨h1, _, _⟩ := insert_spec hw.toWF hk1 hv
  have habs : abs ε s.allocate.2 = abs ε s := insert_abs hw hk1 hv
  exact ⟨⟨h1, by rw [← len_abs (ε := ε)]; exact (congrArg len habs).trans_le (by rw [len_abs]; exact hw.slim)⟩, habs⟩

/-! ### Queries -/

theorem prob_abs {s : Sim} {ids : List ℕ} (h : ∀ q ∈ ids, pend ε s q = 1) (v : Bool) :
    prob ids v (abs ε s) = prob ids v (base s) := by
  rw [prob_eq, prob_eq]
  apply sumIf_pendL (finSupp_base s) _ (isom_pend s)
  intro q b v'
  by_cases hq : q ∈ ids
  · exact Or.inl (h q hq)
  · right; rw [parity_update hq]

theorem len_proj_le (qs : List ℕ) (v : Bool) {ψ : Wave} (h : FinSupp ψ) :
    len (proj qs v ψ) ≤ len ψ := by
  apply len_le_len
  rw [normSq_proj]
  have := prob_add h qs
  cases v
  · linarith [prob_nonneg qs true ψ]
  · linarith [prob_nonneg qs false ψ]

/-- Close state vectors have close probabilities. -/
theorem Near.prob {d : ℝ} {ψ φ : Wave} (h : Near d ψ φ) (hψ : len ψ ≤ 1) (hφ : len φ ≤ 1)
    (qs : List ℕ) (v : Bool) : |prob qs v ψ - prob qs v φ| ≤ 2 * d := by
  have hf := finSupp_sub h.fin h.fin'
  have h1 := len_proj_le qs v h.fin
  have h2 := len_proj_le qs v h.fin'
  have h3 := (len_proj_le qs v hf).trans h.le
  have e1 : proj qs v ψ = proj qs v (ψ - φ) + proj qs v φ := by
    funext b; simp only [proj, Pi.add_apply, Pi.sub_apply]; split <;> simp
  have e2 : proj qs v φ = -proj qs v (ψ - φ) + proj qs v ψ := by
    funext b; simp only [proj, Pi.add_apply, Pi.sub_apply, Pi.neg_apply]; split <;> simp
  have h4 := len_add (hf.proj qs v) (h.fin'.proj qs v)
  rw [← e1] at h4
  have h5 := len_add (finSupp_neg (hf.proj qs v)) (h.fin.proj qs v)
  rw [← e2, len_neg] at h5
  rw [← normSq_proj, ← normSq_proj, ← len_sq, ← len_sq]
  have n1 := len_nonneg (proj qs v ψ)
  have n2 := len_nonneg (proj qs v φ)
  have n3 := (len_nonneg (ψ - φ)).trans h.le
  rw [abs_le]
  constructor <;> nlinarith

theorem jointProbability_near {env : Env} (he : TolOk env) {s : Sim} (hw : WF s) {ids : List ℕ}
    (hn : ids.Nodup) (ha : Alloc s.idMap ids) :
    ∃ s', s.jointProbability env ids = .ok (prob ids true (abs env.eps s'), s') ∧
      Same env.eps s s' (3 * ids.length) := by
  obtain ⟨locs, hres, hl⟩ := alloc_locs ha
  obtain ⟨s1, h1, hs1, hc1⟩ := maybeFlush_spec he ids hw
  have hl1 : List.Forall₂ (fun i l => s1.idMap.get i = some l) ids locs := by rw [hs1.idMap]; exact hl
  obtain ⟨st, h2, hcore, hv⟩ := checkJoint_spec hs1.wf.b hl1 hn
  have hbase : base { s1 with state := st, opQ := [] } = base s1 := by
    show view s1.idMap st = _
    exact hv
  have habs : abs env.eps { s1 with state := st, opQ := [] } = abs env.eps s1 := by
    show pendL (pend env.eps s1) s1.idMap.keys _ = _
    rw [hbase]; rfl
  have hprob : prob ids true (base s1) =
      prob ids true (abs env.eps { s1 with state := st, opQ := [] }) := by
    rw [habs, prob_abs (fun q hq => pend_of_not_queued (hc1.not_queued hq))]
  have hs2 : Same env.eps s1 { s1 with state := st, opQ := [] } 0 :=
    Same.exact ⟨⟨⟨hcore, by simp⟩, hs1.wf.queued⟩, by rw [hbase]; exact hs1.wf.slim⟩ rfl rfl habs
  refine ⟨_, ?_, hs1.trans hs2⟩
  unfold jointProbability checkForDuplicates
  simp only [h1, ok_bind, if_pos hn]
  rw [show resolveIds s1.idMap ids = .ok locs from by rw [hs1.idMap]; exact hres, ok_bind, h2, hprob]

theorem quiet_abs {s : Sim} (hq : Quiet s) : abs ε s = view s.idMap s.state := by
  rw [← hq.abs]
  unfold abs Qir.abs
  congr 1
  exact pendL_congr (fun q _ => by rw [pend_of_not_queued (hq.none q), Qir.pend_of_not_queued (hq.none q)])

/-- The state after the flush and the relocation of `get_state` and `dump`. -/
theorem arrange_near {env : Env} (he : TolOk env) {s : Sim} (hw : WF s) :
    ∃ s1 s2, s.flushQueue env s.idMap.keys .HRxRy = .ok s1 ∧
      s1.relocate env 0 s.idMap.keys = .ok s2 ∧ WF s2 ∧ Quiet s2 ∧ s2.rng = s.rng ∧
      (∀ i, (s2.idMap.get i).isSome = (s.idMap.get i).isSome) ∧
      Near ((3 * s.idMap.keys.length : ℕ) * unit env.eps s.idMap.keys.length) (abs env.eps s2)
        (abs env.eps s) ∧
      abs env.eps s2 = view s2.idMap s2.state ∧
      ∀ j (hj : j < s.idMap.keys.length), s2.idMap.get s.idMap.keys[j] = some j := by
  obtain ⟨s1, h1, hs1, hc1, ho1⟩ := flushQueue_spec he .HRxRy s.idMap.keys hw
  have hq1 : Quiet s1 := by
    refine ⟨ho1, ?_⟩
    intro q
    by_cases hq : q ∈ s.idMap.keys
    · exact hc1.not_queued hq
    · apply not_queued_of_none hs1.wf.toWF
      rw [hs1.idMap]
      rw [IMap.mem_keys] at hq
      simpa using hq
  obtain ⟨s2, h2, hr, hg⟩ := relocate_spec (env := env) s.idMap.keys [] s1 hs1.wf.b.core hq1
    (IMap.keys_nodup _) (by
      intro i hi
      rw [hs1.idMap]
      exact (IMap.mem_keys _ _).1 hi) (by intro j hj; simp at hj)
  have habs : abs env.eps s2 = abs env.eps s1 := by
    rw [quiet_abs hr.quiet, hr.view, ← quiet_abs hq1]
  refine ⟨s1, s2, h1, h2, ⟨⟨⟨hr.core, by rw [hr.quiet.ops]; simp⟩, ?_⟩, ?_⟩, hr.quiet,
    hr.rng.trans hs1.rng, ?_, ?_, quiet_abs hr.quiet, ?_⟩
  · intro q hq; rw [hr.quiet.none] at hq; cases hq
  · rw [← len_abs (ε := env.eps), habs, len_abs]; exact hs1.wf.slim
  · intro i; rw [hr.some, hs1.idMap]
  · rw [habs]; exact hs1.near
  · simpa using hg

theorem getState_near {env : Env} (he : TolOk env) {s : Sim} (hw : WF s) :
    ∃ l s', s.getState env = .ok ((l, s.idMap.keys.length), s') ∧ WF s' ∧ s'.rng = s.rng ∧
      (∀ i, (s'.idMap.get i).isSome = (s.idMap.get i).isSome) ∧
      Near ((3 * s.idMap.keys.length : ℕ) * unit env.eps s.idMap.keys.length) (abs env.eps s')
        (abs env.eps s) ∧
      Lists s.idMap.keys (abs env.eps s') l := by
  obtain ⟨s1, s2, h1, h2, hw2, hq2, hr, hsome, habs, hv, hg⟩ := arrange_near he hw
  refine ⟨sortState s2.state, s2, ?_, hw2, hr, hsome, habs, ?_⟩
  · unfold getState
    simp only [show s.idMap.iter.map Prod.fst = s.idMap.keys from rfl, h1, h2, ok_bind, pure_ok]
  · rw [hv]
    exact arranged_lists hw2.b.core (IMap.keys_nodup _)
      (by intro q; rw [hsome]; exact IMap.mem_keys _ _) hg

theorem dump_near {env : Env} (he : TolOk env) (fmt : ℂ → String) {s : Sim} (hw : WF s) :
    ∃ l s', s.dump env fmt = .ok (dumpText fmt l, s') ∧ WF s' ∧ s'.rng = s.rng ∧
      (∀ i, (s'.idMap.get i).isSome = (s.idMap.get i).isSome) ∧
      Near ((3 * s.idMap.keys.length : ℕ) * unit env.eps s.idMap.keys.length) (abs env.eps s')
        (abs env.eps s) ∧
      Lists s.idMap.keys (abs env.eps s') l := by
  obtain ⟨s1, s2, h1, h2, hw2, hq2, hr, hsome, habs, hv, hg⟩ := arrange_near he hw
  have hp := sortState_perm s2.state
  have hc := hw2.b.core
  have hb : base { s2 with state := sortState s2.state } = base s2 := by
    unfold base; simp only [view_perm hp]
  have ha : abs env.eps { s2 with state := sortState s2.state } = abs env.eps s2 := by
    show pendL (pend env.eps s2) s2.idMap.keys _ = _
    rw [hb]; rfl
  refine ⟨sortState s2.state, { s2 with state := sortState s2.state }, ?_,
    ⟨⟨⟨⟨hc.inj, ?_, ?_⟩, hw2.b.ops⟩, hw2.queued⟩, by rw [hb]; exact hw2.slim⟩, hr, hsome, ?_, ?_⟩
  · unfold dump
    simp only [show s.idMap.iter.map Prod.fst = s.idMap.keys from rfl, h1, h2, ok_bind, pure_ok]
  · exact (hp.map _).nodup_iff.2 hc.nodup
  · intro e h; exact hc.bits e (hp.mem_iff.1 h)
  · rw [ha]; exact habs
  · rw [ha, hv]
    exact arranged_lists hw2.b.core (IMap.keys_nodup _)
      (by intro q; rw [hsome]; exact IMap.mem_keys _ _) hg

end Qir.Tol
