import Verif.Props.DeferredDefs
import Verif.Proof.Handled

/-!
# Deferred measurement
-/

noncomputable section
namespace Qir.Back.Arr
open Spec Sim Qir.Out Run

/-! ### Operators -/

theorem control_gate {c : QCall} (h : Controllable c) (q : ℕ) : IsGate c ∧ IsGate (controlledBy q c) := by
  cases c <;> first | exact h.elim | exact ⟨trivial, trivial⟩

theorem gate_movable {c : QCall} (h : IsGate c) : Movable c := by
  cases c <;> first | exact h.elim | trivial

theorem turning_within {c : QCall} (h : IsGate c) : turning c ∈ OnQubits c.uses := by
  have := kraus_within (gate_movable h) true
  cases c <;> first | exact h.elim | exact this

theorem turning_control {c : QCall} (h : Controllable c) (q : ℕ) :
    turning (controlledBy q c) = 1 + gateL ones q * (turning c - 1) := by
  cases c with
  | gate g t => exact ctrlL_cons q [] _ _
  | ctl g cs t => exact ctrlL_cons q cs _ _
  | r p θ t | rAdj p θ t | exp ps θ ts | expAdj ps θ ts => exact expL_cons q [] _ _
  | rCtl cs p θ t | rCtlAdj cs p θ t | expCtl cs ps θ ts | expCtlAdj cs ps θ ts => exact expL_cons q cs _ _
  | _ => exact h.elim

theorem ones_sq (q : ℕ) : gateL ones q * gateL ones q = gateL ones q := by
  refine LinearMap.ext fun ψ => funext fun b => ?_
  rw [Module.End.mul_apply, ones_apply, ones_apply]
  split <;> rfl

theorem proj_ones (q : ℕ) (v : Bool) : pauliProjL [(.Z, q)] v = if v then gateL ones q else 1 - gateL ones q := by
  refine LinearMap.ext fun ψ => funext fun b => ?_
  rw [proj_Z]
  cases v
  · rw [if_neg Bool.false_ne_true, LinearMap.sub_apply, Pi.sub_apply, Module.End.one_apply, ones_apply]
    cases b q <;> simp
  · rw [if_pos rfl, ones_apply]

/-- Measuring the control tells whether the gate was applied. -/
theorem proj_control {c : QCall} (h : Controllable c) {q : ℕ} (hq : q ∉ named c) (v : Bool) :
    pauliProjL [(.Z, q)] v * turning (controlledBy q c) = (if v then turning c else 1) * pauliProjL [(.Z, q)] v := by
  have hd : List.Disjoint [q] c.uses := by
    intro x hx hx'
    rw [List.mem_singleton] at hx
    exact hq (hx ▸ uses_named c x hx')
  have hc : Commute (gateL ones q) (turning c) :=
    OnQubits.commute hd (gate_within (List.mem_singleton.2 rfl) ones) (turning_within (control_gate h q).1)
  rw [proj_ones, turning_control h]
  cases v
  · rw [if_neg (by simp), if_neg (by simp), one_mul, mul_add, mul_one, ← mul_assoc, sub_mul, one_mul, ones_sq, sub_self,
      zero_mul, add_zero]
  · rw [if_pos rfl, if_pos rfl, mul_add, mul_one, ← mul_assoc, ones_sq, mul_sub, mul_one, add_sub_cancel, hc.eq]

theorem proj_circuit {q : ℕ} {cs : List QCall} (hc : ∀ c ∈ cs, Controllable c ∧ c.Distinct ∧ q ∉ named c) (v : Bool) :
    ∀ ψ : Wave, pauliProjL [(.Z, q)] v (circuitL (cs.map (controlledBy q)) ψ) =
      circuitL (if v then cs else []) (pauliProjL [(.Z, q)] v ψ) := by
  induction cs with
  | nil => intro ψ; cases v <;> rfl
  | cons c cs ih =>
    intro ψ
    obtain ⟨h1, -, h3⟩ := hc c (by simp)
    show pauliProjL [(.Z, q)] v (circuitL (cs.map (controlledBy q)) (turning (controlledBy q c) ψ)) = _
    rw [ih fun d hd => hc d (by simp [hd])]
    have := LinearMap.congr_fun (proj_control h1 h3 v) ψ
    rw [Module.End.mul_apply, Module.End.mul_apply] at this
    rw [this]
    cases v <;> rfl

theorem finSupp_circuit {cs : List QCall} (hc : ∀ c ∈ cs, IsGate c) : ∀ {ψ : Wave}, FinSupp ψ → FinSupp (circuitL cs ψ) := by
  induction cs with
  | nil => exact fun h => h
  | cons c cs ih =>
    intro ψ h
    exact ih (fun d hd => hc d (by simp [hd])) (OnQubits.finSupp (turning_within (hc c (by simp))) h)

theorem wave_zero {ψ : Wave} (hf : FinSupp ψ) (h0 : Spec.normSq ψ = 0) : ψ = 0 := by
  funext b
  have hz : ∑ᶠ b, Complex.normSq (ψ b) = 0 := h0
  have hs : (Function.support fun b => Complex.normSq (ψ b)).Finite := by
    refine hf.subset fun b hb => ?_
    simp only [Function.mem_support] at hb ⊢
    intro h0
    exact hb (by rw [h0, map_zero])
  have h1 := single_le_finsum b hs fun b => Complex.normSq_nonneg _
  rw [hz] at h1
  exact Complex.normSq_eq_zero.1 (le_antisymm h1 (Complex.normSq_nonneg _))

theorem normSq_turning {c : QCall} (h : IsGate c) (hd : c.Distinct) {ψ : Wave} (hf : FinSupp ψ) :
    Spec.normSq (turning c ψ) = Spec.normSq ψ := by
  by_cases h0 : Spec.normSq ψ = 0
  · rw [wave_zero hf h0, map_zero]
  · have hp : 0 ≤ Spec.normSq ψ := by rw [normSq_eq]; exact sumIf_nonneg _ _
    have hs : (Real.sqrt (Spec.normSq ψ) : ℂ) ≠ 0 := by
      rw [Complex.ofReal_ne_zero]
      exact (Real.sqrt_ne_zero hp).2 h0
    have hn : Complex.normSq ((Real.sqrt (Spec.normSq ψ) : ℂ)⁻¹) * Spec.normSq ψ = 1 := by
      rw [map_inv₀, Complex.normSq_ofReal, Real.mul_self_sqrt hp, inv_mul_cancel₀ h0]
    have hu : Fit ((Real.sqrt (Spec.normSq ψ) : ℂ)⁻¹ • ψ) := ⟨hf.smul _, by rw [normSq_smul, hn]⟩
    have hm : measures { blank with psi := (Real.sqrt (Spec.normSq ψ) : ℂ)⁻¹ • ψ } c = none := by
      cases c <;> first | exact h.elim | rfl
    have h1 : Spec.normSq (turning c ((Real.sqrt (Spec.normSq ψ) : ℂ)⁻¹ • ψ)) = 1 :=
      (fit_proper (δ := { blank with psi := (Real.sqrt (Spec.normSq ψ) : ℂ)⁻¹ • ψ }) hu hm hd (gate_step h _)).norm
    rw [map_smul, normSq_smul] at h1
    have h2 := h1.trans hn.symm
    refine mul_left_cancel₀ ?_ h2
    intro e
    rw [e, zero_mul] at hn
    exact zero_ne_one hn

theorem normSq_circuit {cs : List QCall} (hc : ∀ c ∈ cs, IsGate c ∧ c.Distinct) : ∀ {ψ : Wave}, FinSupp ψ →
    Spec.normSq (circuitL cs ψ) = Spec.normSq ψ := by
  induction cs with
  | nil => exact fun _ => rfl
  | cons c cs ih =>
    intro ψ h
    obtain ⟨h1, h2⟩ := hc c (by simp)
    exact (ih (fun d hd => hc d (by simp [hd])) (OnQubits.finSupp (turning_within h1) h)).trans (normSq_turning h1 h2 h)

variable {q : ℕ} {cs : List QCall}

theorem prob_deferred (hc : ∀ c ∈ cs, Controllable c ∧ c.Distinct ∧ q ∉ named c) (v : Bool) {ψ : Wave} (hf : FinSupp ψ) :
    pauliProb [(.Z, q)] v (circuitL (cs.map (controlledBy q)) ψ) = pauliProb [(.Z, q)] v ψ := by
  unfold pauliProb
  rw [← pauliProjL_apply, ← pauliProjL_apply, proj_circuit hc]
  refine normSq_circuit (fun c h => ?_) (by rw [pauliProjL_apply]; exact hf.pauliProj _ _)
  cases v
  · cases h
  · exact ⟨(control_gate (hc c h).1 q).1, (hc c h).2.1⟩

theorem post_deferred (hc : ∀ c ∈ cs, Controllable c ∧ c.Distinct ∧ q ∉ named c) (v : Bool) {ψ : Wave} (hf : FinSupp ψ) :
    pauliPost [(.Z, q)] v (circuitL (cs.map (controlledBy q)) ψ) =
      circuitL (if v then cs else []) (pauliPost [(.Z, q)] v ψ) := by
  unfold pauliPost
  rw [prob_deferred hc v hf, ← pauliProjL_apply, ← pauliProjL_apply, proj_circuit hc, real_smul_wave, real_smul_wave,
    circuitL_smul]

/-! ### Finitely many amplitudes -/

theorem finSupp_post {ψ : Wave} (h : FinSupp ψ) (ps : List (Pauli × ℕ)) (v : Bool) : FinSupp (pauliPost ps v ψ) := by
  unfold pauliPost
  rw [real_smul_wave]
  exact (h.pauliProj _ _).smul _

theorem finSupp_clear {δ : Device} (h : FinSupp δ.psi) (v : Bool) (q : ℕ) : FinSupp (δ.clear v q).psi := by
  show FinSupp (if v then _ else _)
  cases v
  · exact h
  · exact h.ctrl _ _ _

theorem finSupp_finding {δ : Device} (h : FinSupp δ.psi) (v : Bool) {c : QCall} (hs : c.Static) :
    FinSupp (finding v δ c).2.psi := by
  have hf : ∀ ps, FinSupp (found ps v δ).psi := fun ps => finSupp_post h ps v
  cases c with
  | reset q | mresetz q r => exact finSupp_clear (hf _) _ _
  | mz q r | m q => exact hf _
  | measure ps qs => exact hf _
  | release => exact hs.elim
  | _ => exact h

theorem finSupp_step {δ δ' : Device} (h : FinSupp δ.psi) {c : QCall} (hs : c.Static) {a : QAns} {es : List Event}
    (e : δ.step c = .ok (a, es, δ')) : FinSupp δ'.psi := by
  have ho : ∀ ps, FinSupp (δ.observed ps).psi := fun ps => finSupp_post h ps _
  by_cases hg : IsGate c
  · rw [gate_step hg] at e
    cases e
    exact OnQubits.finSupp (turning_within hg) h
  · cases c with
    | reset q | mresetz q r => cases e; exact finSupp_clear (ho _) _ _
    | mz q r | m q => cases e; exact ho _
    | measure ps qs =>
      simp only [Device.step] at e
      split at e
      · cases e; exact ho _
      · cases e
    | isZero q => cases e; rw [use_psi]; exact h
    | assertProb ps qs result prob msg tol =>
      simp only [Device.step] at e
      split at e
      · split at e
        · cases e; rw [useAll_psi]; exact h
        · cases e
      · cases e
    | allocate | release => exact hs.elim
    | reinit => cases e; exact finSupp_ket _
    | fail => cases e
    | readResult | writeResult | recordResult | legacyResult | record | legacy | dump | drawInt | drawDouble =>
      cases e; exact h
    | _ => exact absurd trivial hg

/-! ### Programs -/

theorem numbered_branch {r : ℕ} {k : Bool → Prog QCall QAns} (h : ∀ b, Numbered (k b)) :
    Numbered (measuring q r k) := by
  refine ⟨trivial, fun _ => ⟨trivial, fun a => ?_⟩⟩
  cases a <;> first | exact h _ | trivial

theorem numbered_deferred {p p' : Prog QCall QAns} (h : Deferred p p') : Numbered p ↔ Numbered p' := by
  induction h with
  | rewrite h => exact numbered_rewritten h
  | @defer q r cs hc k =>
    constructor
    · intro h
      refine numbered_circuit ?_ (numbered_branch fun b => ?_)
      · intro c hc'
        obtain ⟨d, hd, rfl⟩ := List.mem_map.1 hc'
        exact (control_gate (hc d hd).1 q).2
      · exact numbered_after ((h.2 .unit).2 (.bit b))
    · intro h
      have := numbered_after h
      refine numbered_branch fun b => numbered_circuit ?_ ((this.2 .unit).2 (.bit b))
      intro c h
      cases b
      · cases h
      · exact (control_gate (hc c h).1 q).1
  | under c _ ih => exact and_congr_right fun _ => forall_congr' ih
  | symm _ ih => exact ih.symm
  | trans _ _ ih ih' => exact ih.trans ih'

theorem run_branch {r : ℕ} {k : Bool → Prog QCall QAns} (δ : Device) :
    idealRun (measuring q r k) δ = idealRun (k (δ.outcome [(.Z, q)]))
        { (δ.observed [(.Z, q)]).store r (δ.outcome [(.Z, q)]) with touched := true } := by
  have hr : ((δ.observed [(.Z, q)]).store r (δ.outcome [(.Z, q)])).reg r = δ.outcome [(.Z, q)] := Function.update_self ..
  rw [measuring, idealRun]
  simp only [Device.step, idealRun, hr]
  cases idealRun (k (δ.outcome [(.Z, q)])) { (δ.observed [(.Z, q)]).store r (δ.outcome [(.Z, q)]) with touched := true } <;> rfl

theorem chance_branch {r : ℕ} {k : Bool → Prog QCall QAns} (δ : Device) (S : Set (List Event × Bool)) :
    chance (measuring q r k) δ S =
      pauliProb [(.Z, q)] true δ.psi * chance (k true) { (found [(.Z, q)] true δ).store r true with touched := true } S +
      pauliProb [(.Z, q)] false δ.psi * chance (k false) { (found [(.Z, q)] false δ).store r false with touched := true } S := by
  have hr : ∀ v, ((found [(.Z, q)] v δ).store r v).reg r = v := fun v => Function.update_self ..
  rw [measuring, chance]
  simp only [measures, finding, chance, Device.step, hr]
  rfl

theorem psi_alike {δ δ' : Device} (hf : FinSupp δ.psi) (h : Alike (Equiv.refl ℕ) δ δ') : FinSupp δ'.psi := by
  obtain ⟨c, -, e⟩ := h.psi
  rw [e]
  exact hf.smul c

theorem alike_of {δ δ' : Device} (h1 : δ'.psi = δ.psi) (h2 : δ'.rng = δ.rng) (h3 : δ'.reg = δ.reg)
    (h4 : δ'.touched = δ.touched) : Alike (Equiv.refl ℕ) δ δ' :=
  ⟨⟨1, by simp, by rw [one_smul, h1]; rfl⟩, h2, h3, h4⟩

theorem defer_gates (hc : ∀ c ∈ cs, Controllable c ∧ c.Distinct ∧ q ∉ named c) (b : Bool) :
    (∀ c ∈ cs.map (controlledBy q), IsGate c) ∧ ∀ c ∈ (if b then cs else []), IsGate c := by
  constructor
  · intro c h
    obtain ⟨d, hd, rfl⟩ := List.mem_map.1 h
    exact (control_gate (hc d hd).1 q).2
  · intro c h
    cases b
    · cases h
    · exact (control_gate (hc c h).1 q).1

theorem run_defer (hc : ∀ c ∈ cs, Controllable c ∧ c.Distinct ∧ q ∉ named c) (r : ℕ) {k : Bool → Prog QCall QAns}
    (hk : ∀ b, Numbered (k b)) {δ : Device} (hf : FinSupp δ.psi) :
    AlikeE (Equiv.refl ℕ) (idealRun (whenOne q r cs k) δ) (idealRun (beforeMeasuring q r cs k) δ) := by
  unfold whenOne beforeMeasuring
  obtain ⟨δ1, e1, a1, a2, a3, a4⟩ := run_circuit (measuring q r k) (cs.map (controlledBy q)) δ (defer_gates hc true).1
  rw [e1, run_branch (k := k), run_branch (k := fun b => afterCircuit (if b then cs else []) (k b))]
  have ho : δ1.outcome [(.Z, q)] = δ.outcome [(.Z, q)] := by
    unfold Device.outcome
    rw [a1, a2, prob_deferred hc true hf]
  rw [ho]
  obtain ⟨δ2, e2, b1, b2, b3, b4⟩ := run_circuit (k (δ.outcome [(.Z, q)])) (if δ.outcome [(.Z, q)] then cs else [])
    { (δ.observed [(.Z, q)]).store r (δ.outcome [(.Z, q)]) with touched := true } (defer_gates hc _).2
  rw [e2]
  refine alike_same (hk _) (alike_of ?_ ?_ ?_ ?_)
  · rw [b1]
    show pauliPost [(.Z, q)] (δ1.outcome [(.Z, q)]) δ1.psi = circuitL _ (pauliPost [(.Z, q)] (δ.outcome [(.Z, q)]) δ.psi)
    rw [ho, a1, post_deferred hc _ hf]
  · rw [b2]
    show (fun n => δ1.rng (n + 1)) = fun n => δ.rng (n + 1)
    rw [a2]
  · rw [b3]
    show Function.update (δ1.useAll [q]).reg r _ = Function.update (δ.useAll [q]).reg r _
    rw [useAll_reg, useAll_reg, a3]
  · rw [b4]

theorem chance_defer (hc : ∀ c ∈ cs, Controllable c ∧ c.Distinct ∧ q ∉ named c) (r : ℕ) {k : Bool → Prog QCall QAns}
    (hk : ∀ b, Numbered (k b)) {δ : Device} (hf : FinSupp δ.psi) (S : Set (List Event × Bool)) :
    chance (beforeMeasuring q r cs k) δ S = chance (whenOne q r cs k) δ S := by
  unfold whenOne beforeMeasuring
  obtain ⟨δ1, e1, a1, a2, a3, a4⟩ := chance_circuit (measuring q r k) S (cs.map (controlledBy q)) δ (defer_gates hc true).1
  rw [e1, chance_branch (k := k), chance_branch (k := fun b => afterCircuit (if b then cs else []) (k b)), a1, prob_deferred hc _ hf,
    prob_deferred hc _ hf]
  have key : ∀ v, chance (k v) { (found [(.Z, q)] v δ1).store r v with touched := true } S =
      chance (afterCircuit (if v then cs else []) (k v)) { (found [(.Z, q)] v δ).store r v with touched := true } S := by
    intro v
    obtain ⟨δ2, e2, b1, b2, b3, b4⟩ := chance_circuit (k v) S (if v then cs else [])
      { (found [(.Z, q)] v δ).store r v with touched := true } (defer_gates hc _).2
    rw [e2]
    refine chance_same (hk _) S (alike_of ?_ ?_ ?_ ?_)
    · rw [b1]
      show pauliPost [(.Z, q)] v δ1.psi = circuitL _ (pauliPost [(.Z, q)] v δ.psi)
      rw [a1, post_deferred hc _ hf]
    · rw [b2]
      show (δ1.useAll [q]).rng = (δ.useAll [q]).rng
      rw [useAll_rng, useAll_rng, a2]
    · rw [b3]
      show Function.update (δ1.useAll [q]).reg r _ = Function.update (δ.useAll [q]).reg r _
      rw [useAll_reg, useAll_reg, a3]
    · rw [b4]
  rw [key, key]

/-- As `Alike.call`, for state vectors with finitely many amplitudes. -/
theorem alike_call {c : QCall} (hc : c.Static) {k k' : QAns → Prog QCall QAns} {δ δ' : Device}
    (hd : Alike (Equiv.refl ℕ) δ δ') (hf : FinSupp δ.psi)
    (h : ∀ a (δ δ' : Device), Alike (Equiv.refl ℕ) δ δ' → FinSupp δ.psi →
      AlikeE (Equiv.refl ℕ) (idealRun (k a) δ) (idealRun (k' a) δ')) :
    AlikeE (Equiv.refl ℕ) (idealRun (.call c k) δ) (idealRun (.call c k') δ') := by
  have hs := hd.step hc
  rw [onQubits_id] at hs
  unfold stepped at hs
  rw [idealRun, idealRun]
  cases h1 : δ.step c with
  | error e =>
    cases h2 : δ'.step c with
    | error e' => rw [h1, h2] at hs; cases hs; rfl
    | ok x => rw [h1, h2] at hs; exact hs.elim
  | ok x =>
    cases h2 : δ'.step c with
    | error e' => rw [h1, h2] at hs; exact hs.elim
    | ok x' =>
      obtain ⟨a, es, δ1⟩ := x
      obtain ⟨a', es', δ1'⟩ := x'
      rw [h1, h2] at hs
      obtain ⟨e, hd⟩ := hs
      cases e
      have := h a _ _ hd (finSupp_step hf hc h1)
      dsimp only
      cases h3 : idealRun (k a) δ1 with
      | error e =>
        cases h4 : idealRun (k' a) δ1' with
        | error e' => rw [h3, h4] at this; cases this; rfl
        | ok x => rw [h3, h4] at this; exact this.elim
      | ok y =>
        cases h4 : idealRun (k' a) δ1' with
        | error e' => rw [h3, h4] at this; exact this.elim
        | ok y' =>
          rw [h3, h4] at this
          exact ⟨congrArg (es ++ ·) this.1, this.2⟩

theorem alike_chance {c : QCall} (hs : c.Static) {k k' : QAns → Prog QCall QAns} {δ δ' : Device}
    (h : Alike (Equiv.refl ℕ) δ δ') (hf : FinSupp δ.psi)
    (hk : ∀ a (δ δ' : Device) S, Alike (Equiv.refl ℕ) δ δ' → FinSupp δ.psi → chance (k' a) δ' S = chance (k a) δ S)
    (S : Set (List Event × Bool)) : chance (.call c k') δ' S = chance (.call c k) δ S := by
  have hm := Alike.measures (σ := Equiv.refl ℕ) (δ := δ) (δ' := δ') hs
  have hg := fun v => h.finding hs v
  have := h.step hs
  simp only [onQubits_id] at hm hg this
  rw [chance, chance]
  cases h1 : measures δ c with
  | some ps =>
    rw [h1] at hm
    rw [hm]
    dsimp only [Option.map]
    rw [h.psi.prob, h.psi.prob, (hg true).1, (hg false).1, hk _ _ _ S (hg true).2 (finSupp_finding hf _ hs),
      hk _ _ _ S (hg false).2 (finSupp_finding hf _ hs)]
  | none =>
    rw [h1] at hm
    rw [hm]
    unfold stepped at this
    dsimp only [Option.map]
    cases h2 : δ.step c with
    | error e =>
      cases h3 : δ'.step c with
      | error e' => rw [h2, h3] at this; cases this; rfl
      | ok x => rw [h2, h3] at this; exact this.elim
    | ok x =>
      cases h3 : δ'.step c with
      | error e' => rw [h2, h3] at this; exact this.elim
      | ok x' =>
        rw [h2, h3] at this
        obtain ⟨a, es, δ1⟩ := x
        obtain ⟨a', es', δ1'⟩ := x'
        obtain ⟨e, hd⟩ := this
        cases e
        exact hk _ _ _ _ hd (finSupp_step hf hs h2)

theorem numbered_parts {r : ℕ} {k : Bool → Prog QCall QAns} (h : Numbered (whenOne q r cs k)) (b : Bool) : Numbered (k b) :=
  numbered_after ((h.2 .unit).2 (.bit b))

/-- **Deferring.** -/
theorem alike_deferred {p p' : Prog QCall QAns} (h : Deferred p p') : Numbered p → ∀ {δ δ' : Device},
    Alike (Equiv.refl ℕ) δ δ' → FinSupp δ.psi → AlikeE (Equiv.refl ℕ) (idealRun p δ) (idealRun p' δ') := by
  induction h with
  | rewrite h => exact fun hp δ δ' hd _ => alike_rewritten h hp hd
  | @defer q r cs hc k =>
    intro hp δ δ' hd hf
    exact (run_defer hc r (numbered_parts hp) hf).trans' (alike_same ((numbered_deferred (.defer q r hc k)).1 hp) hd)
  | under c _ ih => exact fun hp δ δ' hd hf => alike_call hp.1 hd hf fun a δ δ' h hf => ih a (hp.2 a) h hf
  | symm h ih =>
    exact fun hp δ δ' hd hf => (ih ((numbered_deferred h).2 hp) hd.symm' (psi_alike hf hd)).symm'
  | trans h h' ih ih' =>
    exact fun hp δ δ' hd hf => (ih hp hd hf).trans' (ih' ((numbered_deferred h).1 hp) Alike.same (psi_alike hf hd))

theorem chance_deferred {p p' : Prog QCall QAns} (h : Deferred p p') : Numbered p → ∀ {δ δ' : Device}
    (S : Set (List Event × Bool)), Alike (Equiv.refl ℕ) δ δ' → FinSupp δ.psi → chance p' δ' S = chance p δ S := by
  induction h with
  | rewrite h => exact fun hp δ δ' S hd _ => chance_rewritten h hp S hd
  | @defer q r cs hc k =>
    intro hp δ δ' S hd hf
    rw [chance_same ((numbered_deferred (.defer q r hc k)).1 hp) S hd, chance_defer hc r (numbered_parts hp) hf]
  | under c _ ih => exact fun hp δ δ' S hd hf => alike_chance hp.1 hd hf (fun a δ δ' S h hf => ih a (hp.2 a) S h hf) S
  | symm h ih =>
    exact fun hp δ δ' S hd hf => (ih ((numbered_deferred h).2 hp) S hd.symm' (psi_alike hf hd)).symm
  | trans h h' ih ih' =>
    exact fun hp δ δ' S hd hf => (ih' ((numbered_deferred h).1 hp) S Alike.same (psi_alike hf hd)).trans (ih hp S hd hf)

end Qir.Back.Arr
