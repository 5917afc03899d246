import Verif.Proof.Exp
import Verif.Proof.Gates2

/-! `mcexp` as a step, and the exponential preserves lengths. -/

noncomputable section
namespace Qir
open Spec Function Sim

theorem pauliString_comm {ps : List (Pauli × ℕ)} {r : ℕ} (hr : r ∉ ps.map Prod.snd) (V : Mat2) (ψ : Wave) :
    pauliString ps (gateL V r ψ) = gateL V r (pauliString ps ψ) := by
  induction ps with
  | nil => rfl
  | cons p ps ih =>
    rw [List.map_cons, List.mem_cons, not_or] at hr
    show gateL p.1.mat p.2 (pauliString ps (gateL V r ψ)) = gateL V r (gateL p.1.mat p.2 (pauliString ps ψ))
    rw [ih hr.2, ← Module.End.mul_apply, ← Module.End.mul_apply,
      ctrlL_comm_gateL hr.1 (by simp)]

theorem expL_comm_gateL {cs : List ℕ} {ps : List (Pauli × ℕ)} {r : ℕ} (hc : r ∉ cs)
    (hr : r ∉ ps.map Prod.snd) (θ : ℝ) (V : Mat2) :
    expL cs ps θ * gateL V r = gateL V r * expL cs ps θ := by
  refine LinearMap.ext fun ψ => funext fun b => ?_
  rw [Module.End.mul_apply, Module.End.mul_apply, gateL_apply_apply, expL_apply, expL_apply]
  unfold ctrlExp
  rw [pauliString_comm hr]
  simp only [ctrls_update hc]
  split
  · rw [gateL_apply_apply, gateL_apply_apply]; ring
  · rw [gateL_apply_apply]

theorem mcexp_step {env : Env} (he : env.eps = 0) {s : Sim} (hw : WF s) {cs ts : List ℕ}
    {ps : List MPauli} (θ : ℝ) (hn : (cs ++ ts).Nodup) (ha : Alloc s.idMap (cs ++ ts))
    (hlen : ps.length ≤ ts.length) :
    ∃ s', s.mcexp env cs ps θ ts = .ok s' ∧ Step s s' (expL cs (factors ps ts) θ) := by
  unfold mcexp
  obtain ⟨s1, h1, hs1, hc1, _⟩ := flushQueue_spec he .HRxRy cs hw
  obtain ⟨s2, h2, hs2, hc2, ho2⟩ := flushQueue_spec he .HRxRy ts hs1.wf
  have hs := hs1.trans hs2
  obtain ⟨csl, hcs⟩ := resolveIds_ok (m := s.idMap) (ids := cs) (fun i hi => ha i (by simp [hi]))
  obtain ⟨tsl, hts⟩ := resolveIds_ok (m := s.idMap) (ids := ts) (fun i hi => ha i (by simp [hi]))
  have hcs' := resolveIds_eq_ok.1 hcs
  have hts' := resolveIds_eq_ok.1 hts
  have hinj : Inj s.idMap := hw.b.core.inj
  have hnl : (csl ++ tsl).Nodup := locs_nodup hinj (List.rel_append hcs' hts') hn
  have hsub := factors_snd_sublist ps ts
  have hnod := List.nodup_append.1 hn
  obtain ⟨mk, hmk, hx, hz, hy⟩ := expMasks_spec ps tsl { xy := 0, yz := 0, yCount := 0 }
    (by rw [← hts'.length_eq]; exact hlen)
  have hok : MaskOk s.idMap cs csl (factors ps ts) mk := by
    refine ⟨hinj, hcs', hsub.nodup hnod.2.1, ?_, ?_, ?_, ?_, ?_⟩
    · intro c hc hc2
      exact hnod.2.2 c hc c (hsub.mem hc2) rfl
    · exact idBits_xor hinj (factors_forall₂ hts' ps isXY) (by intro l; rw [hx]; simp only [Nat.zero_testBit, Bool.false_or]; rfl)
    · intro k
      have hf := factors_forall₂ hts' ps isYZ
      have hyz : mk.yz = locMask (yzOf (factors ps tsl)) := by
        apply Nat.eq_of_testBit_eq
        intro l
        rw [hz, testBit_locMask]; simp
      rw [hyz]
      apply oddParity_eq hinj hf
      exact ((List.filter_sublist).map _).nodup (hsub.nodup hnod.2.1)
    · rw [hy, yOf_congr hts'.length_eq]; simp
    · intro l hl
      rw [hx] at hl
      simp only [Nat.zero_testBit, Bool.false_or, decide_eq_true_eq] at hl
      have hf := factors_forall₂ hts' ps isXY
      have hex : ∀ {ids locs : List ℕ}, List.Forall₂ (fun i l => s.idMap.get i = some l) ids locs →
          l ∈ locs → ∃ i ∈ ids, s.idMap.get i = some l := by
        intro ids locs h
        induction h with
        | nil => simp
        | cons h1 _ ih =>
          intro hm
          rcases List.mem_cons.1 hm with rfl | hm
          · exact ⟨_, by simp, h1⟩
          · obtain ⟨i, hi, hg⟩ := ih hm
            exact ⟨i, by simp [hi], hg⟩
      obtain ⟨i, hi, hg⟩ := hex hf hl
      refine ⟨i, ?_, hg⟩
      intro hc
      exact hnod.2.2 i hc i (hsub.mem (mem_xyOf_snd hi)) rfl
  have hid := hs.idMap
  simp only [h1, ok_bind, h2, pure_ok]
  rw [show resolveIds s2.idMap cs = .ok csl from by rw [hid]; exact hcs,
    show resolveIds s2.idMap ts = .ok tsl from by rw [hid]; exact hts]
  simp only [ok_bind, expCheckDup_eq, if_pos hnl, hmk]
  rw [← hid] at hok
  have hst : Core s2.idMap (expState env csl mk θ s2.state) ∧
      view s2.idMap (expState env csl mk θ s2.state) =
        expL cs (factors ps ts) θ (view s2.idMap s2.state) := by
    by_cases hx0 : mk.xy = 0
    · exact expState_diag he hok θ hs2.wf.b.core hx0
    · exact expState_mixed he hok θ hs2.wf.b.core hx0
  refine ⟨_, rfl, Step.of_same hs (Step.exact ⟨⟨hst.1, hs2.wf.b.ops⟩, hs2.wf.queued⟩
    rfl rfl ?_)⟩
  have hp1 : ∀ q, q ∈ cs ∨ q ∈ ts → pend s2 q = 1 := by
    rintro q (hq | hq)
    · exact pend_of_not_queued (hc2.mono_queued (hc1.not_queued hq))
    · exact pend_of_not_queued (hc2.not_queued hq)
  unfold Qir.abs base
  show pendL (pend s2) s2.idMap.keys (opsL s2.opQ (view s2.idMap (expState env csl mk θ s2.state))) = _
  simp only [ho2, opsL_nil, Module.End.one_apply]
  rw [hst.2, ← Module.End.mul_apply, ← Module.End.mul_apply, ← comm_pendL]
  intro q _
  by_cases hq : q ∈ cs ∨ q ∈ ts
  · rw [hp1 q hq, gateL_one, one_mul, mul_one]
  · rw [not_or] at hq
    exact expL_comm_gateL hq.1 (fun h => hq.2 (hsub.mem h)) θ _

/-! ### Lengths -/

def flipAllE (qs : List ℕ) : Basis ≃ Basis where
  toFun := flipAll qs
  invFun := flipAll qs
  left_inv := flipAll_flipAll qs
  right_inv := flipAll_flipAll qs

theorem rot_pair (c s : ℝ) (hcs : s ^ 2 + c ^ 2 = 1) (x y w w' : ℂ) (hw : Complex.normSq w = 1)
    (hww : w * w' = 1) :
    Complex.normSq ((c : ℂ) * x + Complex.I * s * (w * y)) +
      Complex.normSq ((c : ℂ) * y + Complex.I * s * (w' * x)) = Complex.normSq x + Complex.normSq y := by
  have hw' : w' = (starRingEnd ℂ) w := by
    have h1 : w ≠ 0 := by rintro rfl; simp at hw
    have h2 : w * (starRingEnd ℂ) w = 1 := by rw [Complex.mul_conj, hw]; simp
    exact mul_left_cancel₀ h1 (hww.trans h2.symm)
  subst hw'
  obtain ⟨xr, xi⟩ := x
  obtain ⟨yr, yi⟩ := y
  obtain ⟨wr, wi⟩ := w
  simp [Complex.normSq_apply] at hw ⊢
  have e1 : ∀ A : ℝ, A * (s ^ 2 + c ^ 2) = A := by intro A; rw [hcs, mul_one]
  have hs2 : s ^ 2 = 1 - c ^ 2 := by linarith
  have hw2 : wr ^ 2 = 1 - wi ^ 2 := by nlinarith
  ring_nf
  rw [hs2, hw2]
  ring

theorem FinSupp.exp {ψ : Wave} (h : FinSupp ψ) (cs : List ℕ) (ps : List (Pauli × ℕ)) (θ : ℝ) :
    FinSupp (ctrlExp cs ps θ ψ) := by
  have hp : FinSupp (pauliString ps ψ) := by
    induction ps with
    | nil => exact h
    | cons p ps ih => exact FinSupp.ctrl ih [] _ _
  refine (h.union hp).subset ?_
  intro b hb
  by_contra hc
  simp only [Set.mem_union, mem_support, not_or, not_not, ne_eq] at hc
  apply hb
  simp [ctrlExp, hc.1, hc.2]

theorem normSq_ctrlExp {ψ : Wave} (h : FinSupp ψ) {cs : List ℕ} {ps : List (Pauli × ℕ)}
    (hn : (ps.map Prod.snd).Nodup) (hd : ∀ c ∈ cs, c ∉ ps.map Prod.snd) (θ : ℝ) :
    normSq (ctrlExp cs ps θ ψ) = normSq ψ := by
  have hd' : ∀ c ∈ cs, c ∉ xyOf ps := fun c hc hx => hd c hc (mem_xyOf_snd hx)
  have hfin : ∀ φ : Wave, FinSupp φ → (support fun b => Complex.normSq (φ b)).Finite := by
    intro φ hφ
    refine hφ.subset ?_
    intro b hb h0
    apply hb
    simp [h0]
  have key : ∀ φ : Wave, FinSupp φ → normSq φ + normSq φ =
      ∑ᶠ b, (Complex.normSq (φ b) + Complex.normSq (φ (flipAllE (xyOf ps) b))) := by
    intro φ hφ
    rw [finsum_add_distrib (hfin φ hφ)]
    · congr 1
      exact (finsum_comp_equiv (flipAllE (xyOf ps)) (f := fun b => Complex.normSq (φ b))).symm
    · exact (hfin φ hφ).preimage ((flipAllE (xyOf ps)).injective.injOn)
  have h1 := key _ (h.exp cs ps θ)
  have h2 := key _ h
  have h3 : normSq (ctrlExp cs ps θ ψ) + normSq (ctrlExp cs ps θ ψ) = normSq ψ + normSq ψ := by
    rw [h1, h2]
    apply finsum_congr
    intro b
    show Complex.normSq (ctrlExp cs ps θ ψ b) +
      Complex.normSq (ctrlExp cs ps θ ψ (flipAll (xyOf ps) b)) =
      Complex.normSq (ψ b) + Complex.normSq (ψ (flipAll (xyOf ps) b))
    unfold ctrlExp
    rw [pauliString_apply hn, pauliString_apply hn, flipAll_flipAll]
    by_cases hc : ∀ c ∈ cs, b c = true
    · rw [if_pos hc, if_pos ((ctrls_flipAll hd' b).2 hc)]
      refine rot_pair _ _ (Real.sin_sq_add_cos_sq θ) _ _ _ _ (normSq_strPhase _ _) ?_
      rw [mul_comm]; exact strPhase_mul hn b
    · rw [if_neg hc, if_neg (fun h => hc ((ctrls_flipAll hd' b).1 h))]
  linarith

end Qir
