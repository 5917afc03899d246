import Verif.Proof.TolGates2
import Verif.Proof.Exp2

/-! The multi-qubit exponential with a positive tolerance. -/

noncomputable section
namespace Qir.Tol
open Spec Function Sim

variable {ε : ℝ}

theorem iso_exp {cs : List ℕ} {ps : List (Pauli × ℕ)} (hn : (ps.map Prod.snd).Nodup)
    (hd : ∀ c ∈ cs, c ∉ ps.map Prod.snd) (θ : ℝ) : Iso (expL cs ps θ) :=
  ⟨fun h => h.exp cs ps θ, fun h => by
    unfold Tol.len
    rw [expL_apply, normSq_ctrlExp h hn hd θ]⟩

/-- The factors of the pure Pauli-Z case are never near zero. -/
theorem not_nearlyZero_unit {env : Env} (he : TolOk env) {z : ℂ} (hz : Complex.normSq z = 1) :
    ¬ NearlyZero env.eps z := by
  intro h
  have h1 := normSq_le_of_nearlyZero h
  have h2 := he.nonneg
  have h3 := he.le
  rw [hz] at h1
  nlinarith

theorem expState_zero_diag {env : Env} (he : TolOk env) (cs : List ℕ) {mk : ExpMasks} (θ : ℝ)
    (st : List (ℕ × ℂ)) (hx : mk.xy = 0) :
    expState env cs mk θ st = expState { env with eps := 0 } cs mk θ st := by
  have he0 : TolOk { env with eps := 0 } := ⟨le_refl _, by norm_num⟩
  have h1 : Complex.normSq ((⟨0, Real.sin θ⟩ : ℂ) + ⟨Real.cos θ, 0⟩) = 1 := by
    rw [Complex.normSq_apply]
    simp only [Complex.add_re, Complex.add_im, zero_add, add_zero]
    nlinarith [Real.sin_sq_add_cos_sq θ]
  have h2 : Complex.normSq (2 * (⟨Real.cos θ, 0⟩ : ℂ) - ((⟨0, Real.sin θ⟩ : ℂ) + ⟨Real.cos θ, 0⟩)) = 1 := by
    rw [Complex.normSq_apply]
    simp only [Complex.add_re, Complex.add_im, zero_add, add_zero, Complex.sub_re, Complex.sub_im,
      Complex.mul_re, Complex.mul_im, Complex.re_ofNat, Complex.im_ofNat, zero_mul, mul_zero, sub_zero, zero_sub]
    nlinarith [Real.sin_sq_add_cos_sq θ]
  unfold expState
  rw [if_pos hx, if_pos hx]
  unfold expDiag
  simp only
  rw [if_neg (not_nearlyZero_unit he h1), if_neg (not_nearlyZero_unit he h2),
    if_neg (not_nearlyZero_unit he0 h1), if_neg (not_nearlyZero_unit he0 h2)]

theorem expState_near {env : Env} (he : TolOk env) {m : IMap ℕ} {cs csl : List ℕ}
    {F : List (Pauli × ℕ)} {mk : ExpMasks} (h : MaskOk m cs csl F mk) (θ : ℝ) {st : List (ℕ × ℂ)}
    (hcore : Core m st) :
    Core m (expState env csl mk θ st) ∧
      Near (unit env.eps m.keys.length) (view m (expState env csl mk θ st)) (expL cs F θ (view m st)) ∧
      len (view m (expState env csl mk θ st)) ≤ len (expL cs F θ (view m st)) := by
  by_cases hx : mk.xy = 0
  · have h0 := expState_diag (env := { env with eps := 0 }) rfl h θ hcore hx
    rw [expState_zero_diag he _ _ _ hx, ← h0.2]
    exact ⟨h0.1, (Near.refl (finSupp_view _ _)).mono (unit_nonneg he.nonneg _), le_refl _⟩
  · have h0 := expState_mixed (env := { env with eps := 0 }) rfl h θ hcore hx
    have hd : Drop (2 * env.eps ^ 2) (expState { env with eps := 0 } csl mk θ st)
        (expState env csl mk θ st) := by
      unfold expState
      rw [if_neg hx, if_neg hx]
      exact Drop.flatMap (fun e => expEntry_drop he.nonneg _ _ _ _ _ _ _ e) _
    have h1 := hd.near he.nonneg h0.1
    rw [h0.2] at h1
    exact ⟨core_sublist hd.sublist h0.1, h1.1, h1.2⟩

theorem mcexp_step {env : Env} (he : TolOk env) {s : Sim} (hw : WF s) {cs ts : List ℕ}
    {ps : List MPauli} (θ : ℝ) (hn : (cs ++ ts).Nodup) (ha : Alloc s.idMap (cs ++ ts))
    (hlen : ps.length ≤ ts.length) :
    ∃ s', s.mcexp env cs ps θ ts = .ok s' ∧
      Step env.eps s s' (expL cs (factors ps ts) θ) (3 * (cs ++ ts).length + 1) := by
  unfold mcexp
  obtain ⟨s1, h1, hs1, hc1, _⟩ := flushQueue_spec he .HRxRy cs hw
  obtain ⟨s2, h2, hs2, hc2, ho2⟩ := flushQueue_spec he .HRxRy ts hs1.wf
  have hs := hs1.trans hs2
  obtain ⟨csl, hcs⟩ := resolveIds_ok (m := s.idMap) (ids := cs) (fun i hi => ha i (by simp [hi]))
  obtain ⟨tsl, hts⟩ := resolveIds_ok (m := s.idMap) (ids := ts) (fun i hi => ha i (by simp [hi]))
  have hcs' := resolveIds_eq_ok.1 hcs
  have hts' := resolveIds_eq_ok.1 hts
  have hinj : Inj s.idMap := hw.b.core.inj
  have hnl : (csl ++ tsl).Nodup := locs_nodup hinj (List.rel_append hcs' hts') hn
  have hsub := factors_snd_sublist ps ts
  have hnod := List.nodup_append.1 hn
  obtain ⟨mk, hmk, hx, hz, hy⟩ := expMasks_spec ps tsl { xy := 0, yz := 0, yCount := 0 }
    (by rw [← hts'.length_eq]; exact hlen)
  have hok : MaskOk s.idMap cs csl (factors ps ts) mk := by
    refine ⟨hinj, hcs', hsub.nodup hnod.2.1, ?_, ?_, ?_, ?_, ?_⟩
    · intro c hc hc2
      exact hnod.2.2 c hc c (hsub.mem hc2) rfl
    · exact idBits_xor hinj (factors_forall₂ hts' ps isXY) (by intro l; rw [hx]; simp only [Nat.zero_testBit, Bool.false_or]; rfl)
    · intro k
      have hf := factors_forall₂ hts' ps isYZ
      have hyz : mk.yz = locMask (yzOf (factors ps tsl)) := by
        apply Nat.eq_of_testBit_eq
        intro l
        rw [hz, testBit_locMask]; simp
      rw [hyz]
      apply oddParity_eq hinj hf
      exact ((List.filter_sublist).map _).nodup (hsub.nodup hnod.2.1)
    · rw [hy, yOf_congr hts'.length_eq]; simp
    · intro l hl
      rw [hx] at hl
      simp only [Nat.zero_testBit, Bool.false_or, decide_eq_true_eq] at hl
      have hf := factors_forall₂ hts' ps isXY
      have hex : ∀ {ids locs : List ℕ}, List.Forall₂ (fun i l => s.idMap.get i = some l) ids locs →
          l ∈ locs → ∃ i ∈ ids, s.idMap.get i = some l := by
        intro ids locs h
        induction h with
        | nil => simp
        | cons h1 _ ih =>
          intro hm
          rcases List.mem_cons.1 hm with rfl | hm
          · exact ⟨_, by simp, h1⟩
          · obtain ⟨i, hi, hg⟩ := ih hm
            exact ⟨i, by simp [hi], hg⟩
      obtain ⟨i, hi, hg⟩ := hex hf hl
      refine ⟨i, ?_, hg⟩
      intro hc
      exact hnod.2.2 i hc i (hsub.mem (mem_xyOf_snd hi)) rfl
  have hid := hs.idMap
  simp only [h1, ok_bind, h2, pure_ok]
  rw [show resolveIds s2.idMap cs = .ok csl from by rw [hid]; exact hcs,
    show resolveIds s2.idMap ts = .ok tsl from by rw [hid]; exact hts]
  simp only [ok_bind, expCheckDup_eq, if_pos hnl, hmk]
  rw [← hid] at hok
  obtain ⟨hst1, hst2, hst3⟩ := expState_near he hok θ hs2.wf.b.core
  have hiso : Iso (expL cs (factors ps ts) θ) := iso_exp (hsub.nodup hnod.2.1)
    (fun c hc hm => hnod.2.2 c hc c (hsub.mem hm) rfl) θ
  have hbase : base s2 = view s2.idMap s2.state := by unfold base; rw [ho2]; rfl
  have hwf : WF { s2 with state := expState env csl mk θ s2.state } := by
    refine ⟨⟨⟨hst1, hs2.wf.b.ops⟩, hs2.wf.queued⟩, ?_⟩
    have : base { s2 with state := expState env csl mk θ s2.state } =
        view s2.idMap (expState env csl mk θ s2.state) := by
      unfold base; simp only [ho2]; rfl
    rw [this]
    refine hst3.trans ?_
    rw [hiso.len (finSupp_view _ _), ← hbase]
    exact hs2.wf.slim
  refine ⟨_, rfl, Step.after he.nonneg hiso hs (Step.one hwf ?_ ?_ ?_)
    (by simp only [List.length_append]; omega)⟩
  · rfl
  · rfl
  have hp1 : ∀ q, q ∈ cs ∨ q ∈ ts → pend env.eps s2 q = 1 := by
    rintro q (hq | hq)
    · exact pend_of_not_queued (hc2.mono_queued (hc1.not_queued hq))
    · exact pend_of_not_queued (hc2.not_queued hq)
  have hcomm : expL cs (factors ps ts) θ (abs env.eps s2) =
      pendL (pend env.eps s2) s2.idMap.keys (expL cs (factors ps ts) θ (view s2.idMap s2.state)) := by
    unfold abs
    rw [hbase, ← Module.End.mul_apply, ← Module.End.mul_apply, comm_pendL]
    intro q _
    by_cases hq : q ∈ cs ∨ q ∈ ts
    · rw [hp1 q hq, gateL_one, one_mul, mul_one]
    · rw [not_or] at hq
      exact expL_comm_gateL hq.1 (fun h => hq.2 (hsub.mem h)) θ _
  rw [hcomm]
  have := hst2.map (iso_pendL (fun q => isom_pend (ε := env.eps) s2 q) s2.idMap.keys)
  refine (Eq.mpr ?_ this)
  congr 1
  unfold abs base
  simp only [ho2]
  rfl

end Qir.Tol
