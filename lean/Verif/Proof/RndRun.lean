import Verif.Proof.RndExp
import Verif.Proof.TolRun

/-! Identifiers and queries with rounded arithmetic. -/

noncomputable section
namespace Qir.Rnd
open Spec Function Sim Tol

variable {A : Arith}

theorem Reach.widen {n n' e : ℕ} {ψ φ : Wave} (h : Reach A n e ψ φ) (hf : Fine A) (hn : n ≤ n') : Reach A n' e ψ φ := by
  have h1 := mul_le_mul_of_nonneg_left (cost_mono hf hn) (Nat.cast_nonneg (α := ℝ) e)
  exact ⟨h.fin, h.fin', fun hl => (h.le (by linarith)).trans h1⟩

/-! ### Identifiers -/

theorem swap_exact {s : Sim} (hw : Qir.WF s) {a b : ℕ} (ha : (s.idMap.get a).isSome)
    (hb : (s.idMap.get b).isSome) :
    ∃ s', s.swapQubitIds a b = .ok s' ∧ Qir.WF s' ∧ (∀ j, (s'.idMap.get j).isSome = (s.idMap.get j).isSome) ∧
      s'.idMap.keys = s.idMap.keys ∧ s'.opQ = [] ∧ s'.rng = s.rng ∧ abs A s' = swapL a b (abs A s) := by
  obtain ⟨s0, h0, hw', hsome', hr, _⟩ := swapQubitIds_spec hw ha hb
  obtain ⟨st, h1, hcore, hv⟩ := Qir.flushOps_spec hw.b
  obtain ⟨la, hla⟩ := Option.isSome_iff_exists.1 ha
  obtain ⟨lb, hlb⟩ := Option.isSome_iff_exists.1 hb
  have hget : ∀ r, ((s.idMap.modify a (fun _ => lb)).modify b (fun _ => la)).get r =
      s.idMap.get (Equiv.swap a b r) := by
    intro r
    by_cases hrb : r = b
    · subst hrb
      rw [IMap.get_modify_same, IMap.get_modify, Equiv.swap_apply_right]
      by_cases hra : r = a
      · subst hra; simp [hla]
      · rw [if_neg hra, hlb, hla]; rfl
    · rw [IMap.get_modify, if_neg hrb, IMap.get_modify]
      by_cases hra : r = a
      · subst hra; rw [if_pos rfl, Equiv.swap_apply_left, hla, hlb]; rfl
      · rw [if_neg hra, Equiv.swap_apply_of_ne_of_ne hra hrb]
  have hsome : ∀ r, (s.idMap.get (Equiv.swap a b r)).isSome = (s.idMap.get r).isSome := by
    intro r
    by_cases hra : r = a
    · subst hra; rw [Equiv.swap_apply_left, hla, hlb]; rfl
    · by_cases hrb : r = b
      · subst hrb; rw [Equiv.swap_apply_right, hla, hlb]; rfl
      · rw [Equiv.swap_apply_of_ne_of_ne hra hrb]
  obtain ⟨s', hs', h1'⟩ : ∃ s' : Sim, s' = { s with
      state := st
      opQ := []
      hFlag := setBit (setBit s.hFlag a (s.hFlag.testBit b)) b (s.hFlag.testBit a)
      rxQ := swapEntries s.rxQ a b
      ryQ := swapEntries s.ryQ a b
      idMap := (s.idMap.modify a (fun _ => lb)).modify b (fun _ => la) } ∧ s.swapQubitIds a b = .ok s' := by
    refine ⟨_, rfl, ?_⟩
    unfold Sim.swapQubitIds
    simp only [h1, ok_bind, resolveId, hla, hlb]
    rfl
  obtain rfl : s' = s0 := by rw [h1'] at h0; exact Except.ok.inj h0
  have hkeys : ((s.idMap.modify a (fun _ => lb)).modify b (fun _ => la)).keys = s.idMap.keys :=
    IMap.keys_congr _ _ (fun k => by rw [hget, hsome])
  refine ⟨s', h1', hw', hsome', by rw [hs']; exact hkeys, by rw [hs'], hr, ?_⟩
  subst hs'
  have hidb : ∀ k, idBits ((s.idMap.modify a (fun _ => lb)).modify b (fun _ => la)) k =
      fun q => idBits s.idMap k (Equiv.swap a b q) := by
    intro k; funext q; unfold idBits; rw [hget]
  have hview : view ((s.idMap.modify a (fun _ => lb)).modify b (fun _ => la)) st =
      swapL a b (view s.idMap st) := by
    have := view_map_of (m := s.idMap)
      (m' := (s.idMap.modify a (fun _ => lb)).modify b (fun _ => la)) (A := swapL a b)
      (f := id) (st := st) (by
        intro e _
        unfold entryWave
        rw [map_smul, swapL_ket, id, hidb])
    simpa using this
  unfold abs base
  simp only [opsL_nil, Module.End.one_apply, hkeys, hview, hv]
  rw [← Module.End.mul_apply, ← Module.End.mul_apply, swapL_pendL, pendL_perm (map_swap_perm
    (IMap.keys_nodup _) ((IMap.mem_keys _ _).2 ha) ((IMap.mem_keys _ _).2 hb))]
  congr 1
  congr 1
  apply pendL_congr
  intro q _
  unfold pend
  simp only [get_swapEntries, testBit_swapFlag]

theorem swapQubitIds_abs (hf : Fine A) {s : Sim} (hw : Qir.WF s) {a b : ℕ} (ha : (s.idMap.get a).isSome)
    (hb : (s.idMap.get b).isSome) :
    ∃ s', Rnd.swapQubitIds A a b s = .ok s' ∧ Qir.WF s' ∧ (∀ j, (s'.idMap.get j).isSome = (s.idMap.get j).isSome) ∧
      s'.rng = s.rng ∧ Cost A s.idMap.keys.length 0 s'.opQ s.opQ (abs A s') (swapL a b (abs A s)) := by
  obtain ⟨s1, h1, hs1, ho, _⟩ := Same.flushOps hf hw
  obtain ⟨s', h2, hw', hl, _, hq, hr, he⟩ := swap_exact (A := A) hs1.wf (a := a) (b := b) (by rw [hs1.idMap]; exact ha)
    (by rw [hs1.idMap]; exact hb)
  refine ⟨s', ?_, hw', by intro j; rw [hl, hs1.idMap], hr.trans hs1.rng, ?_⟩
  · rw [← h2]
    unfold Rnd.swapQubitIds Sim.swapQubitIds
    rw [h1, show s1.flushOps = .ok s1 from by unfold Sim.flushOps; simp [ho]]
  · rw [hq, he]
    have := hs1.near.map (iso_swap a b)
    rw [ho] at this
    exact this

theorem insert_abs {s : Sim} (hw : Qir.WF s) {key val : ℕ} (hk1 : s.idMap.get key = none)
    (hv : ∀ i, s.idMap.get i ≠ some val) :
    abs A { s with idMap := s.idMap.insert key val } = abs A s := by
  have hget : ∀ j, (s.idMap.insert key val).get j = if j = key then some val else s.idMap.get j :=
    fun j => IMap.get_insert _ _ _ _
  show pendL (pend A s) (s.idMap.insert key val).keys
    (opsL s.opQ (view (s.idMap.insert key val) s.state)) = _
  rw [pendL_perm (keys_insert_perm _ hk1), pendL_cons,
    pend_of_not_queued (not_queued_of_none hw hk1), gateL_one, one_mul]
  rw [view_congr (m' := s.idMap)]
  · rfl
  · intro e he
    funext r
    unfold idBits
    rw [hget]
    by_cases hr : r = key
    · rw [if_pos hr, hr, hk1]
      show e.1.testBit val = false
      by_contra hc
      rw [Bool.not_eq_false] at hc
      obtain ⟨i, hi⟩ := hw.b.core.bits e he _ hc
      exact hv i hi
    · rw [if_neg hr]

theorem allocate_abs {s : Sim} (hw : Qir.WF s) : Qir.WF s.allocate.2 ∧ abs A s.allocate.2 = abs A s := by
  obtain ⟨hk1, _⟩ := newKey_spec s.idMap
  have hv := newVal_fresh hw.b.core.inj
  obtain ⟨h1, _, _⟩ := insert_spec hw hk1 hv
  exact ⟨h1, insert_abs hw hk1 hv⟩

/-! ### Sums of probabilities -/

theorem normSqr_err (hf : Fine A) (z : ℂ) : |A.normSqr z - Complex.normSq z| ≤ 4 * A.v * (Complex.normSq z + 1) := by
  have h := (fl2_err hf (z.re * z.re) (z.im * z.im)).2
  rw [abs_of_nonneg (mul_self_nonneg z.re), abs_of_nonneg (mul_self_nonneg z.im)] at h
  rw [Complex.normSq_apply]
  unfold Arith.normSqr
  refine h.trans ?_
  have h1 : 0 ≤ z.re * z.re + z.im * z.im := add_nonneg (mul_self_nonneg _) (mul_self_nonneg _)
  have h2 := A.u_le_v
  have h3 := A.eta_le_v
  have h4 := A.v_nonneg
  nlinarith [mul_le_mul_of_nonneg_right h2 h1]

theorem sum_err (hf : Fine A) (p : ℕ × ℂ → Bool) {S : ℝ} (hS : S ≤ 9 / 4) (l : List (ℕ × ℂ)) :
    ∀ (a s : ℝ), 0 ≤ s → |a - s| + (9 * (l.length : ℝ) + 4 * (S - s)) * A.v ≤ 1 →
      s + (l.map (fun e => if p e then Complex.normSq e.2 else 0)).sum ≤ S →
      |l.foldl (fun acc e => if p e then A.fl (acc + A.normSqr e.2) else acc) a -
        (s + (l.map (fun e => if p e then Complex.normSq e.2 else 0)).sum)| ≤
        |a - s| + (9 * (l.length : ℝ) + 4 * (S - s)) * A.v := by
  have hv := A.v_nonneg
  have hsm := hf.small
  have hu := A.u_le_v
  have hu0 := A.u_nonneg
  have he := A.eta_le_v
  induction l with
  | nil =>
    intro a s _ _ h
    simp only [List.map_nil, List.sum_nil, add_zero] at h
    simp only [List.foldl_nil, List.map_nil, List.sum_nil, add_zero, List.length_nil, Nat.cast_zero, mul_zero, zero_add]
    nlinarith [mul_nonneg (sub_nonneg.2 h) hv]
  | cons e l ih =>
    intro a s hs h1 h2
    have hpos : 0 ≤ (l.map (fun e => if p e then Complex.normSq e.2 else 0)).sum := by
      apply List.sum_nonneg
      intro x hx
      obtain ⟨y, _, rfl⟩ := List.mem_map.1 hx
      split
      · exact Complex.normSq_nonneg _
      · exact le_refl _
    simp only [List.map_cons, List.sum_cons, List.foldl_cons, List.length_cons, Nat.cast_add, Nat.cast_one] at h1 h2 ⊢
    have hlen : (0 : ℝ) ≤ l.length := Nat.cast_nonneg _
    cases hp : p e with
    | false =>
      simp only [hp, Bool.false_eq_true, if_false, zero_add] at h2 ⊢
      refine (ih a s hs ?_ h2).trans ?_ <;> nlinarith
    | true =>
      simp only [hp, if_true] at h2 ⊢
      have hz := Complex.normSq_nonneg e.2
      have hn := normSqr_err hf e.2
      have hfl := A.fl_err (a + A.normSqr e.2)
      have hsS : s ≤ S := by linarith
      have hd : |a - s| ≤ 1 := by
        have : 0 ≤ (9 * ((l.length : ℝ) + 1) + 4 * (S - s)) * A.v := mul_nonneg (by linarith) hv
        linarith
      have hb : |a + A.normSqr e.2 - (s + Complex.normSq e.2)| ≤ |a - s| + 4 * A.v * (Complex.normSq e.2 + 1) := by
        rw [show a + A.normSqr e.2 - (s + Complex.normSq e.2) = (a - s) + (A.normSqr e.2 - Complex.normSq e.2) by ring]
        exact (abs_add_le _ _).trans (by linarith)
      have hc : |a + A.normSqr e.2| ≤ 27 / 8 := by
        have h3 : |a + A.normSqr e.2| ≤ |a + A.normSqr e.2 - (s + Complex.normSq e.2)| + |s + Complex.normSq e.2| := by
          have := abs_add_le (a + A.normSqr e.2 - (s + Complex.normSq e.2)) (s + Complex.normSq e.2)
          rwa [sub_add_cancel] at this
        rw [abs_of_nonneg (by linarith : 0 ≤ s + Complex.normSq e.2)] at h3
        have h4 : A.v * (Complex.normSq e.2 + 1) ≤ 1 / 4000 * (9 / 4 + 1) :=
          mul_le_mul hsm (by linarith) (by linarith) (by norm_num)
        linarith
      have hstep : |A.fl (a + A.normSqr e.2) - (s + Complex.normSq e.2)| ≤
          |a - s| + (9 + 4 * Complex.normSq e.2) * A.v := by
        have h3 : |A.fl (a + A.normSqr e.2) - (s + Complex.normSq e.2)| ≤
            |A.fl (a + A.normSqr e.2) - (a + A.normSqr e.2)| + |a + A.normSqr e.2 - (s + Complex.normSq e.2)| :=
          abs_sub_le _ _ _
        have h4 : A.u * |a + A.normSqr e.2| ≤ A.v * (27 / 8) := mul_le_mul hu hc (abs_nonneg _) hv
        nlinarith
      have h5 := ih (A.fl (a + A.normSqr e.2)) (s + Complex.normSq e.2) (by linarith) (by nlinarith) (by linarith)
      rw [← add_assoc]
      refine h5.trans ?_
      nlinarith

theorem foldl_sum_err (hf : Fine A) (p : ℕ × ℂ → Bool) {l : List (ℕ × ℂ)} {k : ℕ} (hk : l.length ≤ k) (hk1 : 1 ≤ k)
    (hs : 18 * (k : ℝ) * A.v ≤ 1)
    (hS : (l.map (fun e => if p e then Complex.normSq e.2 else 0)).sum ≤ 9 / 4) :
    |l.foldl (fun acc e => if p e then A.fl (acc + A.normSqr e.2) else acc) 0 -
      (l.map (fun e => if p e then Complex.normSq e.2 else 0)).sum| ≤ 18 * (k : ℝ) * A.v := by
  have hv := A.v_nonneg
  have h1 : (l.length : ℝ) ≤ k := by exact_mod_cast hk
  have h2 : (1 : ℝ) ≤ k := by exact_mod_cast hk1
  have h3 : (9 * (l.length : ℝ) + 4 * (9 / 4 - 0)) * A.v ≤ 18 * (k : ℝ) * A.v :=
    mul_le_mul_of_nonneg_right (by linarith) hv
  have := sum_err hf p (le_refl _) l 0 0 (le_refl _) (by simpa using h3.trans hs) (by simpa using hS)
  simp only [zero_add, sub_zero, abs_zero] at this h3
  exact this.trans h3

/-! ### Queries -/

theorem prob_abs {s : Sim} {ids : List ℕ} (h : ∀ q ∈ ids, pend A s q = 1) (v : Bool) :
    prob ids v (abs A s) = prob ids v (base s) := by
  rw [prob_eq, prob_eq]
  apply sumIf_pendL (finSupp_base s) _ (isom_pend s)
  intro q b v'
  by_cases hq : q ∈ ids
  · exact Or.inl (h q hq)
  · right; rw [parity_update hq]

/-- Close state vectors have close probabilities. -/
theorem near_prob {d : ℝ} {ψ φ : Wave} (h : Near d ψ φ) (hψ : len ψ ≤ 3 / 2) (hφ : len φ ≤ 1)
    (qs : List ℕ) (v : Bool) : |prob qs v ψ - prob qs v φ| ≤ 5 / 2 * d := by
  have hf := finSupp_sub h.fin h.fin'
  have h1 := len_proj_le qs v h.fin
  have h2 := len_proj_le qs v h.fin'
  have h3 := (len_proj_le qs v hf).trans h.le
  have e1 : proj qs v ψ = proj qs v (ψ - φ) + proj qs v φ := by
    funext b; simp only [proj, Pi.add_apply, Pi.sub_apply]; split <;> simp
  have e2 : proj qs v φ = -proj qs v (ψ - φ) + proj qs v ψ := by
    funext b; simp only [proj, Pi.add_apply, Pi.sub_apply, Pi.neg_apply]; split <;> simp
  have h4 := len_add (hf.proj qs v) (h.fin'.proj qs v)
  rw [← e1] at h4
  have h5 := len_add (finSupp_neg (hf.proj qs v)) (h.fin.proj qs v)
  rw [← e2, len_neg] at h5
  rw [← normSq_proj, ← normSq_proj, ← len_sq, ← len_sq]
  have n1 := len_nonneg (proj qs v ψ)
  have n2 := len_nonneg (proj qs v φ)
  have n3 := (len_nonneg (ψ - φ)).trans h.le
  rw [abs_le]
  constructor <;> nlinarith

theorem prob_le_sq {ψ : Wave} (h : FinSupp ψ) (qs : List ℕ) (v : Bool) : prob qs v ψ ≤ len ψ ^ 2 := by
  rw [← normSq_proj, ← len_sq]
  exact pow_le_pow_left₀ (len_nonneg _) (len_proj_le qs v h) 2

theorem jointProbability_near (hf : Fine A) {s : Sim} (hw : Qir.WF s) {ids : List ℕ}
    (hn : ids.Nodup) (ha : Alloc s.idMap ids) :
    ∃ p s', Rnd.jointProbability A ids s = .ok (p, s') ∧ Same A s s' (5 * ids.length) ∧
      (len (abs A s') ≤ 3 / 2 → 18 * 2 ^ s.idMap.keys.length * A.v ≤ 1 →
        |p - prob ids true (abs A s')| ≤ 18 * 2 ^ s.idMap.keys.length * A.v) := by
  obtain ⟨locs, hres, hl⟩ := alloc_locs ha
  obtain ⟨s1, h1, hs1, hc1⟩ := maybeFlush_spec hf ids hw
  have hl1 : List.Forall₂ (fun i l => s1.idMap.get i = some l) ids locs := by rw [hs1.idMap]; exact hl
  obtain ⟨rops, h2, hcore, hv⟩ := takeOps_spec hf hs1.wf.b
  obtain ⟨st, hst⟩ : ∃ st, st = s1.state.map (Rnd.applyOps A rops) := ⟨_, rfl⟩
  rw [← hst] at hcore hv
  have hs2 : Same A s1 { s1 with state := st, opQ := [] } 0 :=
    ⟨⟨WFB.nil hcore, hs1.wf.queued⟩, rfl, rfl, s1.opQ.length, by simp,
      hv.map (iso_pend { s1 with state := st, opQ := [] })⟩
  have hsum : (st.map (fun e => if oddParity e.1 (locMask locs) then Complex.normSq e.2 else 0)).sum =
      prob ids true (abs A { s1 with state := st, opQ := [] }) := by
    rw [prob_abs (A := A) (s := { s1 with state := st, opQ := [] })
      (fun q hq => pend_of_not_queued (s := { s1 with state := st, opQ := [] }) (hc1.not_queued hq)), prob_eq,
      show base { s1 with state := st, opQ := [] } = view s1.idMap st from by simp [base], sumIf_view _ hcore]
    simp only [oddParity_eq hcore.inj hl1 hn]
  refine ⟨st.foldl (fun accum e => if oddParity e.1 (locMask locs) then A.fl (accum + A.normSqr e.2) else accum) 0,
    _, ?_, hs1.trans hs2 hf, ?_⟩
  · unfold Rnd.jointProbability Rnd.checkJointProbability checkForDuplicates
    simp only [h1, ok_bind, if_pos hn]
    rw [show resolveIds s1.idMap ids = .ok locs from by rw [hs1.idMap]; exact hres, ok_bind, h2, hst]
    rfl
  · intro hlen hk
    have hle : st.length ≤ 2 ^ s.idMap.keys.length := by rw [← hs1.idMap]; exact Core.length_le hcore
    have h3 := foldl_sum_err hf (fun e => oddParity e.1 (locMask locs)) hle Nat.one_le_two_pow
      (by push_cast; exact hk) (by
        rw [hsum]
        have := prob_le_sq (finSupp_abs (A := A) { s1 with state := st, opQ := [] }) ids true
        have h0 := len_nonneg (abs A { s1 with state := st, opQ := [] })
        nlinarith)
    rw [hsum] at h3
    push_cast at h3
    exact h3

theorem quiet_abs {s : Sim} (hq : Quiet s) : abs A s = view s.idMap s.state := by
  rw [← hq.abs]
  unfold abs Qir.abs
  congr 1
  exact pendL_congr (fun q _ => by rw [pend_of_not_queued (hq.none q), Qir.pend_of_not_queued (hq.none q)])

theorem quiet_flushLoop {s : Sim} (h : Quiet s) (level : FlushLevel) (ids : List ℕ) :
    Rnd.flushLoop A level ids s = .ok s := by
  induction ids with
  | nil => rfl
  | cons q ids ih =>
    have hq := h.none q
    rw [hasQueued_eq] at hq
    simp only [Bool.or_eq_false_iff, Option.isSome_eq_false_iff, Option.isNone_iff_eq_none] at hq
    have h1 : Rnd.flushOne A level q s = .ok s := by
      unfold Rnd.flushOne Rnd.flushH
      simp only [hq.1.1, Bool.false_eq_true, if_false, ok_bind]
      cases level
      · rfl
      · simp [Rnd.flushRx, hq.1.2]
      · simp [Rnd.flushRx, Rnd.flushRy, hq.1.2, hq.2]
    simp only [Rnd.flushLoop, h1, ok_bind, ih]

theorem quiet_flushQueue {s : Sim} (h : Quiet s) (level : FlushLevel) (ids : List ℕ) :
    Rnd.flushQueue A ids level s = .ok s := by
  unfold Rnd.flushQueue
  rw [quiet_flushLoop h, ok_bind]
  unfold Rnd.flushOps
  simp [h.ops]

theorem quiet_relocateOne {s : Sim} (h : Quiet s) (i k : ℕ) :
    Rnd.relocateOne A i k s = s.relocateOne A.toEnv i k := by
  have e : ∀ a b, Rnd.swapQubitState A a b s = s.swapQubitState A.toEnv a b := by
    intro a b
    unfold Rnd.swapQubitState Sim.swapQubitState
    rw [quiet_flushQueue h, h.flushQueue]
  unfold Rnd.relocateOne Sim.relocateOne
  cases indexId s.idMap k with
  | error p => rfl
  | ok loc =>
    simp only [ok_bind, e]
    rfl

theorem quiet_relocate (ks : List ℕ) : ∀ (i : ℕ) {s : Sim}, Core s.idMap s.state → Quiet s → Alloc s.idMap ks →
    Rnd.relocate A i ks s = s.relocate A.toEnv i ks := by
  induction ks with
  | nil => intro i s _ _ _; rfl
  | cons k ks ih =>
    intro i s hc hq ha
    obtain ⟨loc, hloc⟩ := Option.isSome_iff_exists.1 (ha k (by simp))
    obtain ⟨s1, h1, hr1, hg1⟩ := relocateOne_spec (env := A.toEnv) hc hq (index := i) hloc
    simp only [Rnd.relocate, Sim.relocate, quiet_relocateOne hq, h1, ok_bind]
    refine ih (i + 1) hr1.core hr1.quiet ?_
    intro j hj
    rw [hr1.some]
    exact ha j (by simp [hj])

/-- The state after the flush and the relocation of `get_state` and `dump`. -/
theorem arrange_near (hf : Fine A) {s : Sim} (hw : Qir.WF s) :
    ∃ s1 s2, Rnd.flushQueue A s.idMap.keys .HRxRy s = .ok s1 ∧
      Rnd.relocate A 0 s.idMap.keys s1 = .ok s2 ∧ Qir.WF s2 ∧ Quiet s2 ∧ s2.rng = s.rng ∧
      (∀ i, (s2.idMap.get i).isSome = (s.idMap.get i).isSome) ∧
      Cost A s.idMap.keys.length (5 * s.idMap.keys.length) s2.opQ s.opQ (abs A s2) (abs A s) ∧
      abs A s2 = view s2.idMap s2.state ∧
      ∀ j (hj : j < s.idMap.keys.length), s2.idMap.get s.idMap.keys[j] = some j := by
  obtain ⟨s1, h1, hs1, hc1, ho1⟩ := flushQueue_spec hf .HRxRy s.idMap.keys hw
  have hq1 : Quiet s1 := by
    refine ⟨ho1, ?_⟩
    intro q
    by_cases hq : q ∈ s.idMap.keys
    · exact hc1.not_queued hq
    · apply not_queued_of_none hs1.wf
      rw [hs1.idMap]
      rw [IMap.mem_keys] at hq
      simpa using hq
  have hal : Alloc s1.idMap s.idMap.keys := by
    intro i hi
    rw [hs1.idMap]
    exact (IMap.mem_keys _ _).1 hi
  obtain ⟨s2, h2, hr, hg⟩ := relocate_spec (env := A.toEnv) s.idMap.keys [] s1 hs1.wf.b.core hq1
    (IMap.keys_nodup _) hal (by intro j hj; simp at hj)
  have habs : abs A s2 = abs A s1 := by
    rw [quiet_abs hr.quiet, hr.view, ← quiet_abs hq1]
  refine ⟨s1, s2, h1, by rw [quiet_relocate _ 0 hs1.wf.b.core hq1 hal]; exact h2,
    ⟨⟨hr.core, by rw [hr.quiet.ops]; simp⟩, ?_⟩, hr.quiet, hr.rng.trans hs1.rng, ?_, ?_, quiet_abs hr.quiet, ?_⟩
  · intro q hq; rw [hr.quiet.none] at hq; cases hq
  · intro i; rw [hr.some, hs1.idMap]
  · have := hs1.near
    rw [ho1] at this
    rw [habs, hr.quiet.ops]; exact this
  · simpa using hg

theorem getState_near (hf : Fine A) {s : Sim} (hw : Qir.WF s) :
    ∃ l s', Rnd.getState A s = .ok ((l, s.idMap.keys.length), s') ∧ Qir.WF s' ∧ s'.rng = s.rng ∧
      (∀ i, (s'.idMap.get i).isSome = (s.idMap.get i).isSome) ∧
      Cost A s.idMap.keys.length (5 * s.idMap.keys.length) s'.opQ s.opQ (abs A s') (abs A s) ∧
      Lists s.idMap.keys (abs A s') l := by
  obtain ⟨s1, s2, h1, h2, hw2, hq2, hr, hsome, habs, hv, hg⟩ := arrange_near hf hw
  refine ⟨sortState s2.state, s2, ?_, hw2, hr, hsome, habs, ?_⟩
  · unfold Rnd.getState
    simp only [show s.idMap.iter.map Prod.fst = s.idMap.keys from rfl, h1, h2, ok_bind, pure_ok]
  · rw [hv]
    exact arranged_lists hw2.b.core (IMap.keys_nodup _)
      (by intro q; rw [hsome]; exact IMap.mem_keys _ _) hg

theorem dump_near (hf : Fine A) (fmt : ℂ → String) {s : Sim} (hw : Qir.WF s) :
    ∃ l s', Rnd.dump A fmt s = .ok (dumpText fmt l, s') ∧ Qir.WF s' ∧ s'.rng = s.rng ∧
      (∀ i, (s'.idMap.get i).isSome = (s.idMap.get i).isSome) ∧
      Cost A s.idMap.keys.length (5 * s.idMap.keys.length) s'.opQ s.opQ (abs A s') (abs A s) ∧
      Lists s.idMap.keys (abs A s') l := by
  obtain ⟨s1, s2, h1, h2, hw2, hq2, hr, hsome, habs, hv, hg⟩ := arrange_near hf hw
  have hp := sortState_perm s2.state
  have hc := hw2.b.core
  have hb : base { s2 with state := sortState s2.state } = base s2 := by
    unfold base; simp only [view_perm hp]
  have ha : abs A { s2 with state := sortState s2.state } = abs A s2 := by
    show pendL (pend A s2) s2.idMap.keys _ = _
    rw [hb]; rfl
  refine ⟨sortState s2.state, { s2 with state := sortState s2.state }, ?_,
    ⟨⟨⟨hc.inj, ?_, ?_⟩, hw2.b.ops⟩, hw2.queued⟩, hr, hsome, ?_, ?_⟩
  · unfold Rnd.dump
    simp only [show s.idMap.iter.map Prod.fst = s.idMap.keys from rfl, h1, h2, ok_bind, pure_ok]
  · exact (hp.map _).nodup_iff.2 hc.nodup
  · intro e h; exact hc.bits e (hp.mem_iff.1 h)
  · rw [ha]; exact habs
  · rw [ha, hv]
    exact arranged_lists hw2.b.core (IMap.keys_nodup _)
      (by intro q; rw [hsome]; exact IMap.mem_keys _ _) hg

end Qir.Rnd
