import Verif.Props.KnownDefs
import Verif.Proof.Deferred

/-!
# Qubits known to be zero
-/

noncomputable section
namespace Qir.Back.Arr
open Spec Sim Qir.Out Run

/-! ### Operators that change some qubits only -/

/-- The amplitudes of a basis state come from those that differ in the qubits of `T` only. -/
def Local (T : List ℕ) (F : Wave → Wave) : Prop :=
  ∀ ψ b, (∀ b' : Basis, (∀ q ∉ T, b' q = b q) → ψ b' = 0) → F ψ b = 0

theorem Local.zeroOn {T : List ℕ} {F : Wave → Wave} (h : Local T F) {Z : Set ℕ} {ψ : Wave} (hz : ZeroOn Z ψ) :
    ZeroOn {q | q ∈ Z ∧ q ∉ T} (F ψ) := by
  intro b hb q hq
  by_contra hn
  refine hb (h ψ b fun b' hb' => ?_)
  by_contra h0
  rw [← hb' q hq.2] at hn
  exact hn (hz b' h0 q hq.1)

theorem Local.mono {T T' : List ℕ} {F : Wave → Wave} (h : Local T F) (hT : ∀ q ∈ T, q ∈ T') : Local T' F :=
  fun ψ b h0 => h ψ b fun b' hb => h0 b' fun q hq => hb q fun hq' => hq (hT q hq')

theorem local_id (T : List ℕ) : Local T fun ψ => ψ := fun _ b h => h b fun _ _ => rfl

theorem Local.comp {T T' : List ℕ} {F G : Wave → Wave} (h : Local T F) (h' : Local T' G) :
    Local (T ++ T') fun ψ => F (G ψ) := by
  intro ψ b h0
  refine h _ b fun b' hb => h' _ b' fun b'' hb' => h0 b'' fun q hq => ?_
  rw [List.mem_append, not_or] at hq
  rw [hb' q hq.2, hb q hq.1]

theorem local_ctrl (cs : List ℕ) (U : Mat2) (t : ℕ) : Local [t] (Spec.ctrl cs U t) := by
  intro ψ b h
  have hu : ∀ v, ψ (Function.update b t v) = 0 := fun v => h _ fun q hq => by
    rw [Function.update_of_ne (by simpa using hq)]
  unfold Spec.ctrl
  rw [hu, hu, h b fun _ _ => rfl]
  simp

theorem local_string (ps : List (Pauli × ℕ)) : Local (ps.map Prod.snd) (pauliString ps) := by
  induction ps with
  | nil => exact local_id _
  | cons p ps ih => exact (local_ctrl [] p.1.mat p.2).comp ih

theorem local_exp (cs : List ℕ) (ps : List (Pauli × ℕ)) (θ : ℝ) : Local (ps.map Prod.snd) (ctrlExp cs ps θ) := by
  intro ψ b h
  unfold ctrlExp
  rw [local_string ps ψ b h, h b fun _ _ => rfl]
  simp

theorem local_swap (a b : ℕ) : Local [a, b] (swapQubits a b) := by
  intro ψ bits h
  refine h _ fun q hq => ?_
  simp only [List.mem_cons, List.not_mem_nil, or_false, not_or] at hq
  rw [Equiv.swap_apply_of_ne_of_ne hq.1 hq.2]

theorem local_proj (ps : List (Pauli × ℕ)) (v : Bool) : Local (ps.map Prod.snd) (pauliProj ps v) := by
  intro ψ b h
  unfold pauliProj
  simp only [Pi.smul_apply, Pi.add_apply]
  rw [local_string ps ψ b h, h b fun _ _ => rfl]
  cases v <;> simp

theorem local_turning {c : QCall} (h : IsGate c) : Local (targets c) (turning c) := by
  have hz : ∀ (ps : List Pauli) (qs : List ℕ), ∀ q ∈ (ps.zip qs).map Prod.snd, q ∈ qs :=
    fun ps qs q hq => (zip_snd_sublist ps qs).subset hq
  cases c with
  | gate g q => exact local_ctrl [] _ _
  | ctl g cs q => exact local_ctrl cs _ _
  | sx q => exact local_ctrl [] _ _
  | rxx θ a b => exact local_exp [] [(.X, a), (.X, b)] _
  | ryy θ a b => exact local_exp [] [(.Y, a), (.Y, b)] _
  | rzz θ a b => exact local_exp [] [(.Z, a), (.Z, b)] _
  | r p θ q | rAdj p θ q => exact local_exp [] [(p, q)] _
  | rCtl cs p θ q | rCtlAdj cs p θ q => exact local_exp cs [(p, q)] _
  | exp ps θ qs | expAdj ps θ qs => exact (local_exp [] _ _).mono (hz ps qs)
  | expCtl cs ps θ qs | expCtlAdj cs ps θ qs => exact (local_exp cs _ _).mono (hz ps qs)
  | swap a b => exact local_swap a b
  | barrier => exact local_id _
  | _ => exact h.elim

/-! ### What is known to be zero -/

theorem _root_.Qir.Back.ZeroOn.smul {Z : Set ℕ} {ψ : Wave} (h : ZeroOn Z ψ) (c : ℂ) : ZeroOn Z (c • ψ) :=
  fun b hb => h b fun h0 => hb (by rw [Pi.smul_apply, h0, smul_zero])

theorem _root_.Qir.Back.ZeroOn.mono {Z Z' : Set ℕ} {ψ : Wave} (h : ZeroOn Z ψ) (hZ : Z' ⊆ Z) : ZeroOn Z' ψ :=
  fun b hb q hq => h b hb q (hZ hq)

theorem zeroOn_ket : ZeroOn Set.univ (Spec.ket zeroBasis) := by
  intro b hb q _
  by_cases h : b = zeroBasis
  · rw [h]; rfl
  · exact absurd (by unfold Spec.ket; rw [if_neg h]) hb

theorem _root_.Qir.Back.ZeroOn.post {Z : Set ℕ} {ψ : Wave} (h : ZeroOn Z ψ) (ps : List (Pauli × ℕ)) (v : Bool) :
    ZeroOn {q | q ∈ Z ∧ q ∉ ps.map Prod.snd} (pauliPost ps v ψ) := by
  unfold pauliPost
  rw [real_smul_wave]
  exact ((local_proj ps v).zeroOn h).smul _

/-- A measured qubit has the value found. -/
theorem post_value {q : ℕ} {v : Bool} {ψ : Wave} {b : Basis} (h : pauliPost [(.Z, q)] v ψ b ≠ 0) : b q = v ∧ ψ b ≠ 0 := by
  unfold pauliPost at h
  rw [real_smul_wave, Pi.smul_apply, ← pauliProjL_apply, proj_Z] at h
  split at h
  · rename_i hb
    exact ⟨hb, fun h0 => h (by rw [h0, smul_zero])⟩
  · rw [smul_zero] at h
    exact (h rfl).elim

theorem _root_.Qir.Back.ZeroOn.postZ {Z : Set ℕ} {ψ : Wave} (h : ZeroOn Z ψ) (q : ℕ) (v : Bool) : ZeroOn Z (pauliPost [(.Z, q)] v ψ) :=
  fun b hb => h b (post_value hb).2

/-- A qubit that has been reset is zero. -/
theorem _root_.Qir.Back.ZeroOn.cleared {Z : Set ℕ} {ψ : Wave} (h : ZeroOn Z ψ) (q : ℕ) (v : Bool) : ZeroOn (insert q Z)
    (if v then Spec.ctrl [] matX q (pauliPost [(.Z, q)] v ψ) else pauliPost [(.Z, q)] v ψ) := by
  intro b hb r hr
  cases v with
  | false =>
    rw [if_neg Bool.false_ne_true] at hb
    obtain ⟨h1, h2⟩ := post_value hb
    rcases hr with rfl | hr
    · exact h1
    · exact h b h2 r hr
  | true =>
    rw [if_pos rfl] at hb
    by_cases e : r = q
    · subst e
      by_contra hn
      refine hb ?_
      have hn' : b r = true := by simpa using hn
      have h0 : pauliPost [(.Z, r)] true ψ (Function.update b r false) = 0 := by
        by_contra h0
        have := (post_value h0).1
        simp at this
      unfold Spec.ctrl
      rw [if_pos (by simp), hn', h0]
      simp [matX, mat]
    · have := (local_ctrl [] matX q).zeroOn (h.postZ q true)
      exact this b hb r ⟨hr.resolve_left e, by simpa using e⟩

theorem zero_finding {Z : Set ℕ} {δ : Device} (h : ZeroOn Z δ.psi) (v : Bool) {c : QCall} (hs : c.Static)
    (hm : measures δ c ≠ none) : ZeroOn (knownZero Z c) (finding v δ c).2.psi := by
  cases c with
  | reset q => exact h.cleared q v
  | mresetz q r => exact h.cleared q v
  | mz q r | m q => exact (h.postZ q v).mono fun r hr => hr.1
  | measure ps qs =>
    refine (h.post (support ps qs) v).mono fun q hq => ⟨hq.1, fun hq' => hq.2 ?_⟩
    obtain ⟨x, hx, rfl⟩ := List.mem_map.1 hq'
    exact (zip_snd_sublist ps qs).subset (List.mem_map.2 ⟨x, (List.mem_filter.1 hx).1, rfl⟩)
  | release => exact hs.elim
  | _ => exact (hm rfl).elim

theorem zero_step {Z : Set ℕ} {δ δ' : Device} (h : ZeroOn Z δ.psi) {c : QCall} (hs : c.Static) {a : QAns} {es : List Event}
    (e : δ.step c = .ok (a, es, δ')) : ZeroOn (knownZero Z c) δ'.psi := by
  have hk : ∀ {ψ : Wave}, ZeroOn Z ψ → ZeroOn {q | q ∈ Z ∧ q ∉ targets c} ψ := fun h => h.mono fun q hq => hq.1
  by_cases hg : IsGate c
  · rw [gate_step hg] at e
    cases e
    have : ZeroOn {q | q ∈ Z ∧ q ∉ targets c} (turning c δ.psi) := (local_turning hg).zeroOn h
    cases c <;> first | exact hg.elim | exact this
  · cases c with
    | reset q | mresetz q r => cases e; exact h.cleared q _
    | mz q r | m q => cases e; exact (h.postZ q _).mono fun r hr => hr.1
    | measure ps qs =>
      have := fun v => zero_finding h v (c := .measure ps qs) hs
      simp only [Device.step] at e
      split at e
      · rename_i hl
        cases e
        exact this _ (by simp [measures, hl])
      · cases e
    | isZero q => cases e; rw [use_psi]; exact hk h
    | assertProb ps qs result prob msg tol =>
      simp only [Device.step] at e
      split at e
      · split at e
        · cases e; rw [useAll_psi]; exact hk h
        · cases e
      · cases e
    | allocate | release => exact hs.elim
    | reinit => cases e; exact zeroOn_ket
    | fail => cases e
    | readResult | writeResult | recordResult | legacyResult | record | legacy | dump | drawInt | drawDouble =>
      cases e; exact hk h
    | _ => exact absurd trivial hg

theorem _root_.Qir.Back.ZeroOn.alike {Z : Set ℕ} {δ δ' : Device} (hz : ZeroOn Z δ.psi) (h : Alike (Equiv.refl ℕ) δ δ') :
    ZeroOn Z δ'.psi := by
  obtain ⟨c, -, e⟩ := h.psi
  rw [e]
  exact hz.smul c

/-! ### Programs -/

/-- As `Alike.call`, with anything known about the first device. -/
theorem known_call {I J : Device → Prop} {c : QCall} (hc : c.Static)
    (hI : ∀ {δ δ' : Device} {a es}, I δ → δ.step c = .ok (a, es, δ') → J δ')
    {k k' : QAns → Prog QCall QAns} {δ δ' : Device} (hd : Alike (Equiv.refl ℕ) δ δ') (hf : I δ)
    (h : ∀ a (δ δ' : Device), Alike (Equiv.refl ℕ) δ δ' → J δ →
      AlikeE (Equiv.refl ℕ) (idealRun (k a) δ) (idealRun (k' a) δ')) :
    AlikeE (Equiv.refl ℕ) (idealRun (.call c k) δ) (idealRun (.call c k') δ') := by
  have hs := hd.step hc
  rw [onQubits_id] at hs
  unfold stepped at hs
  rw [idealRun, idealRun]
  cases h1 : δ.step c with
  | error e =>
    cases h2 : δ'.step c with
    | error e' => rw [h1, h2] at hs; cases hs; rfl
    | ok x => rw [h1, h2] at hs; exact hs.elim
  | ok x =>
    cases h2 : δ'.step c with
    | error e' => rw [h1, h2] at hs; exact hs.elim
    | ok x' =>
      obtain ⟨a, es, δ1⟩ := x
      obtain ⟨a', es', δ1'⟩ := x'
      rw [h1, h2] at hs
      obtain ⟨e, hd⟩ := hs
      cases e
      have := h a _ _ hd (hI hf h1)
      dsimp only
      cases h3 : idealRun (k a) δ1 with
      | error e =>
        cases h4 : idealRun (k' a) δ1' with
        | error e' => rw [h3, h4] at this; cases this; rfl
        | ok x => rw [h3, h4] at this; exact this.elim
      | ok y =>
        cases h4 : idealRun (k' a) δ1' with
        | error e' => rw [h3, h4] at this; exact this.elim
        | ok y' =>
          rw [h3, h4] at this
          exact ⟨congrArg (es ++ ·) this.1, this.2⟩

theorem known_chance {I J : Device → Prop} {c : QCall} (hs : c.Static)
    (hI : ∀ {δ δ' : Device} {a es}, I δ → δ.step c = .ok (a, es, δ') → J δ')
    (hF : ∀ {δ : Device} (v : Bool), I δ → measures δ c ≠ none → J (finding v δ c).2)
    {k k' : QAns → Prog QCall QAns} {δ δ' : Device} (h : Alike (Equiv.refl ℕ) δ δ') (hf : I δ)
    (hk : ∀ a (δ δ' : Device) S, Alike (Equiv.refl ℕ) δ δ' → J δ → chance (k' a) δ' S = chance (k a) δ S)
    (S : Set (List Event × Bool)) : chance (.call c k') δ' S = chance (.call c k) δ S := by
  have hm := Alike.measures (σ := Equiv.refl ℕ) (δ := δ) (δ' := δ') hs
  have hg := fun v => h.finding hs v
  have := h.step hs
  simp only [onQubits_id] at hm hg this
  rw [chance, chance]
  cases h1 : measures δ c with
  | some ps =>
    have hn : measures δ c ≠ none := by rw [h1]; exact Option.some_ne_none _
    rw [h1] at hm
    rw [hm]
    dsimp only [Option.map]
    rw [h.psi.prob, h.psi.prob, (hg true).1, (hg false).1, hk _ _ _ S (hg true).2 (hF _ hf hn),
      hk _ _ _ S (hg false).2 (hF _ hf hn)]
  | none =>
    rw [h1] at hm
    rw [hm]
    unfold stepped at this
    dsimp only [Option.map]
    cases h2 : δ.step c with
    | error e =>
      cases h3 : δ'.step c with
      | error e' => rw [h2, h3] at this; cases this; rfl
      | ok x => rw [h2, h3] at this; exact this.elim
    | ok x =>
      cases h3 : δ'.step c with
      | error e' => rw [h2, h3] at this; exact this.elim
      | ok x' =>
        rw [h2, h3] at this
        obtain ⟨a, es, δ1⟩ := x
        obtain ⟨a', es', δ1'⟩ := x'
        obtain ⟨e, hd⟩ := this
        cases e
        exact hk _ _ _ _ hd (hI hf h2)

/-! ### Gates past a measurement -/

section
variable {q : ℕ} {cs : List QCall}

theorem proj_pass (hc : ∀ c ∈ cs, IsGate c ∧ c.Distinct ∧ q ∉ c.uses) (v : Bool) : ∀ ψ : Wave,
    pauliProjL [(.Z, q)] v (circuitL cs ψ) = circuitL cs (pauliProjL [(.Z, q)] v ψ) := by
  induction cs with
  | nil => intro ψ; rfl
  | cons c cs ih =>
    intro ψ
    obtain ⟨h1, -, h3⟩ := hc c (by simp)
    have hd : List.Disjoint [q] c.uses := by
      intro x hx hx'
      rw [List.mem_singleton] at hx
      exact h3 (hx ▸ hx')
    have := OnQubits.commute hd (proj_within (A := [q]) (ps := [(.Z, q)]) (by simp) v) (turning_within h1)
    show pauliProjL _ v (circuitL cs (turning c ψ)) = circuitL cs (turning c _)
    rw [ih fun d hd => hc d (by simp [hd])]
    exact congrArg (circuitL cs) (LinearMap.congr_fun this ψ)

theorem prob_pass (hc : ∀ c ∈ cs, IsGate c ∧ c.Distinct ∧ q ∉ c.uses) (v : Bool) {ψ : Wave} (hf : FinSupp ψ) :
    pauliProb [(.Z, q)] v (circuitL cs ψ) = pauliProb [(.Z, q)] v ψ := by
  unfold pauliProb
  rw [← pauliProjL_apply, ← pauliProjL_apply, proj_pass hc]
  exact normSq_circuit (fun c h => ⟨(hc c h).1, (hc c h).2.1⟩) (by rw [pauliProjL_apply]; exact hf.pauliProj _ _)

theorem post_pass (hc : ∀ c ∈ cs, IsGate c ∧ c.Distinct ∧ q ∉ c.uses) (v : Bool) {ψ : Wave} (hf : FinSupp ψ) :
    pauliPost [(.Z, q)] v (circuitL cs ψ) = circuitL cs (pauliPost [(.Z, q)] v ψ) := by
  unfold pauliPost
  rw [prob_pass hc v hf, ← pauliProjL_apply, ← pauliProjL_apply, proj_pass hc, real_smul_wave, real_smul_wave,
    circuitL_smul]

theorem run_pass (hc : ∀ c ∈ cs, IsGate c ∧ c.Distinct ∧ q ∉ c.uses) (r : ℕ) {k : Bool → Prog QCall QAns}
    (hk : ∀ b, Numbered (k b)) {δ : Device} (hf : FinSupp δ.psi) :
    AlikeE (Equiv.refl ℕ) (idealRun (afterCircuit cs (measuring q r k)) δ)
      (idealRun (measuring q r fun b => afterCircuit cs (k b)) δ) := by
  refine AlikeE.symm' ?_
  obtain ⟨δ1, e1, a1, a2, a3, a4⟩ := run_circuit (measuring q r k) cs δ fun c h => (hc c h).1
  rw [e1, run_branch (k := k), run_branch (k := fun b => afterCircuit cs (k b))]
  have ho : δ1.outcome [(.Z, q)] = δ.outcome [(.Z, q)] := by
    unfold Device.outcome
    rw [a1, a2, prob_pass hc true hf]
  rw [ho]
  obtain ⟨δ2, e2, b1, b2, b3, b4⟩ := run_circuit (k (δ.outcome [(.Z, q)])) cs
    { (δ.observed [(.Z, q)]).store r (δ.outcome [(.Z, q)]) with touched := true } fun c h => (hc c h).1
  rw [e2]
  refine alike_same (hk _) (alike_of ?_ ?_ ?_ ?_)
  · rw [b1]
    show pauliPost [(.Z, q)] (δ1.outcome [(.Z, q)]) δ1.psi = circuitL _ (pauliPost [(.Z, q)] (δ.outcome [(.Z, q)]) δ.psi)
    rw [ho, a1, post_pass hc _ hf]
  · rw [b2]
    show (fun n => δ1.rng (n + 1)) = fun n => δ.rng (n + 1)
    rw [a2]
  · rw [b3]
    show Function.update (δ1.useAll [q]).reg r _ = Function.update (δ.useAll [q]).reg r _
    rw [useAll_reg, useAll_reg, a3]
  · rw [b4]

theorem chance_pass (hc : ∀ c ∈ cs, IsGate c ∧ c.Distinct ∧ q ∉ c.uses) (r : ℕ) {k : Bool → Prog QCall QAns}
    (hk : ∀ b, Numbered (k b)) {δ : Device} (hf : FinSupp δ.psi) (S : Set (List Event × Bool)) :
    chance (afterCircuit cs (measuring q r k)) δ S = chance (measuring q r fun b => afterCircuit cs (k b)) δ S := by
  obtain ⟨δ1, e1, a1, a2, a3, a4⟩ := chance_circuit (measuring q r k) S cs δ fun c h => (hc c h).1
  rw [e1, chance_branch (k := k), chance_branch (k := fun b => afterCircuit cs (k b)), a1, prob_pass hc _ hf,
    prob_pass hc _ hf]
  have key : ∀ v, chance (k v) { (found [(.Z, q)] v δ1).store r v with touched := true } S =
      chance (afterCircuit cs (k v)) { (found [(.Z, q)] v δ).store r v with touched := true } S := by
    intro v
    obtain ⟨δ2, e2, b1, b2, b3, b4⟩ := chance_circuit (k v) S cs
      { (found [(.Z, q)] v δ).store r v with touched := true } fun c h => (hc c h).1
    rw [e2]
    refine chance_same (hk _) S (alike_of ?_ ?_ ?_ ?_)
    · rw [b1]
      show pauliPost [(.Z, q)] v δ1.psi = circuitL _ (pauliPost [(.Z, q)] v δ.psi)
      rw [a1, post_pass hc _ hf]
    · rw [b2]
      show (δ1.useAll [q]).rng = (δ.useAll [q]).rng
      rw [useAll_rng, useAll_rng, a2]
    · rw [b3]
      show Function.update (δ1.useAll [q]).reg r _ = Function.update (δ.useAll [q]).reg r _
      rw [useAll_reg, useAll_reg, a3]
    · rw [b4]
  rw [key, key]

end

theorem branch_parts {q r : ℕ} {k : Bool → Prog QCall QAns} (h : Numbered (measuring q r k)) (b : Bool) : Numbered (k b) :=
  (h.2 .unit).2 (.bit b)

/-! ### Everything together -/

theorem numbered_folded {Z : Set ℕ} {p p' : Prog QCall QAns} (h : Folded Z p p') : Numbered p ↔ Numbered p' := by
  induction h with
  | defer h => exact numbered_deferred h
  | circuit h p =>
    exact ⟨fun hp => numbered_circuit h.right (numbered_after hp), fun hp => numbered_circuit h.left (numbered_after hp)⟩
  | pass q r hc k =>
    constructor
    · exact fun h => numbered_branch fun b => numbered_circuit (fun c h => (hc c h).1) (branch_parts (numbered_after h) b)
    · exact fun h => numbered_circuit (fun c h => (hc c h).1) (numbered_branch fun b => numbered_after (branch_parts h b))
  | under c _ ih => exact and_congr_right fun _ => forall_congr' ih
  | symm _ ih => exact ih.symm
  | trans _ _ ih ih' => exact ih.trans ih'

theorem circuit_on {Z : Set ℕ} {cs ds : List QCall} (h : SameCircuitOn Z cs ds) {δ δ' δ1 δ2 : Device}
    (hd : Alike (Equiv.refl ℕ) δ δ') (hz : ZeroOn Z δ.psi) (a1 : δ1.psi = circuitL cs δ.psi) (a2 : δ1.rng = δ.rng)
    (a3 : δ1.reg = δ.reg) (a4 : δ1.touched = δ.touched) (b1 : δ2.psi = circuitL ds δ'.psi) (b2 : δ2.rng = δ'.rng)
    (b3 : δ2.reg = δ'.reg) (b4 : δ2.touched = δ'.touched) : Alike (Equiv.refl ℕ) δ1 δ2 := by
  obtain ⟨w, hw, e⟩ := h.same
  obtain ⟨c, hc, e'⟩ := hd.psi
  refine ⟨⟨c * w, ?_, ?_⟩, by rw [b2, a2, hd.rng], by rw [b3, a3, hd.reg], by rw [b4, a4, hd.touched]⟩
  · rw [map_mul, hc, Complex.normSq_eq_norm_sq, hw]; norm_num
  · have := e δ.psi hz
    rw [effect_eq h.left, effect_eq h.right] at this
    rw [b1, e', relabel_refl, relabel_refl, circuitL_smul, this, a1, smul_smul]

theorem alike_folded {Z : Set ℕ} {p p' : Prog QCall QAns} (h : Folded Z p p') : Numbered p → ∀ {δ δ' : Device},
    Alike (Equiv.refl ℕ) δ δ' → FinSupp δ.psi → ZeroOn Z δ.psi →
    AlikeE (Equiv.refl ℕ) (idealRun p δ) (idealRun p' δ') := by
  induction h with
  | defer h => exact fun hp δ δ' hd hf _ => alike_deferred h hp hd hf
  | @circuit Z cs ds h p =>
    intro hp δ δ' hd hf hz
    obtain ⟨δ1, e1, a1, a2, a3, a4⟩ := run_circuit p cs δ h.left
    obtain ⟨δ2, e2, b1, b2, b3, b4⟩ := run_circuit p ds δ' h.right
    rw [e1, e2]
    exact alike_same (numbered_after hp) (circuit_on h hd hz a1 a2 a3 a4 b1 b2 b3 b4)
  | @pass Z q r cs hc k =>
    intro hp δ δ' hd hf _
    exact (run_pass hc r (branch_parts (numbered_after hp)) hf).trans'
      (alike_same ((numbered_folded (.pass (Z := Z) q r hc k)).1 hp) hd)
  | @under Z c k k' _ ih =>
    intro hp δ δ' hd hf hz
    exact known_call (I := fun δ => FinSupp δ.psi ∧ ZeroOn Z δ.psi) (J := fun δ => FinSupp δ.psi ∧ ZeroOn (knownZero Z c) δ.psi)
      hp.1 (fun h e => ⟨finSupp_step h.1 hp.1 e, zero_step h.2 hp.1 e⟩) hd ⟨hf, hz⟩
      fun a δ δ' h hf => ih a (hp.2 a) h hf.1 hf.2
  | symm h ih =>
    exact fun hp δ δ' hd hf hz =>
      (ih ((numbered_folded h).2 hp) hd.symm' (psi_alike hf hd) (hz.alike hd)).symm'
  | trans h h' ih ih' =>
    exact fun hp δ δ' hd hf hz => (ih hp hd hf hz).trans'
      (ih' ((numbered_folded h).1 hp) Alike.same (psi_alike hf hd) (hz.alike hd))

theorem chance_folded {Z : Set ℕ} {p p' : Prog QCall QAns} (h : Folded Z p p') : Numbered p → ∀ {δ δ' : Device}
    (S : Set (List Event × Bool)), Alike (Equiv.refl ℕ) δ δ' → FinSupp δ.psi → ZeroOn Z δ.psi →
    chance p' δ' S = chance p δ S := by
  induction h with
  | defer h => exact fun hp δ δ' S hd hf _ => chance_deferred h hp S hd hf
  | @circuit Z cs ds h p =>
    intro hp δ δ' S hd hf hz
    obtain ⟨δ1, e1, a1, a2, a3, a4⟩ := chance_circuit p S cs δ h.left
    obtain ⟨δ2, e2, b1, b2, b3, b4⟩ := chance_circuit p S ds δ' h.right
    rw [e1, e2]
    exact chance_same (numbered_after hp) S (circuit_on h hd hz a1 a2 a3 a4 b1 b2 b3 b4)
  | @pass Z q r cs hc k =>
    intro hp δ δ' S hd hf _
    rw [chance_same ((numbered_folded (.pass (Z := Z) q r hc k)).1 hp) S hd,
      chance_pass hc r (branch_parts (numbered_after hp)) hf]
  | @under Z c k k' _ ih =>
    intro hp δ δ' S hd hf hz
    exact known_chance (I := fun δ => FinSupp δ.psi ∧ ZeroOn Z δ.psi)
      (J := fun δ => FinSupp δ.psi ∧ ZeroOn (knownZero Z c) δ.psi)
      hp.1 (fun h e => ⟨finSupp_step h.1 hp.1 e, zero_step h.2 hp.1 e⟩)
      (fun v h hm => ⟨finSupp_finding h.1 v hp.1, zero_finding h.2 v hp.1 hm⟩) hd ⟨hf, hz⟩
      (fun a δ δ' S h hf => ih a (hp.2 a) S h hf.1 hf.2) S
  | symm h ih =>
    exact fun hp δ δ' S hd hf hz =>
      (ih ((numbered_folded h).2 hp) S hd.symm' (psi_alike hf hd) (hz.alike hd)).symm
  | trans h h' ih ih' =>
    exact fun hp δ δ' S hd hf hz => (ih' ((numbered_folded h).1 hp) S Alike.same (psi_alike hf hd)
      (hz.alike hd)).trans (ih hp S hd hf hz)

/-! ### Operators that commute with a control -/

theorem ones_turning {c : QCall} (h : Controllable c) {q : ℕ} (hq : q ∉ named c) :
    gateL ones q * turning c = turning c * gateL ones q := by
  have hd : List.Disjoint [q] c.uses := by
    intro x hx hx'
    rw [List.mem_singleton] at hx
    exact hq (hx ▸ uses_named _ _ hx')
  exact OnQubits.commute hd (gate_within (by simp) _) (turning_within (control_gate h q).1)

/-! ### Teleportation -/

section
variable (a b c : ℕ) (bits : Basis)

/-- Basis states that differ in three qubits. -/
def three (x y z : Bool) : Basis := fun q => if q = a then x else if q = b then y else if q = c then z else bits q

variable {a b c}

theorem three_self : three a b c bits (bits a) (bits b) (bits c) = bits := by
  funext q
  unfold three
  split_ifs with h1 h2 h3
  · rw [h1]
  · rw [h2]
  · rw [h3]
  · rfl

variable (hab : a ≠ b) (hac : a ≠ c) (hbc : b ≠ c) (x y z : Bool) (ψ : Wave)
include hab hac hbc

theorem three_values : three a b c bits x y z a = x ∧ three a b c bits x y z b = y ∧ three a b c bits x y z c = z := by
  simp [three, hab.symm, hac.symm, hbc.symm]

theorem three_update (v : Bool) : Function.update (three a b c bits x y z) a v = three a b c bits v y z ∧
    Function.update (three a b c bits x y z) b v = three a b c bits x v z ∧
    Function.update (three a b c bits x y z) c v = three a b c bits x y v := by
  refine ⟨?_, ?_, ?_⟩ <;> funext q <;> unfold three <;> by_cases h1 : q = a <;> by_cases h2 : q = b <;>
    by_cases h3 : q = c <;> simp_all [Function.update]

theorem three_swap : (fun q => three a b c bits x y z (Equiv.swap a c q)) = three a b c bits z y x := by
  funext q
  by_cases h1 : q = a
  · subst h1
    rw [Equiv.swap_apply_left, (three_values bits hab hac hbc x y z).2.2, (three_values bits hab hac hbc z y x).1]
  · by_cases h3 : q = c
    · subst h3
      rw [Equiv.swap_apply_right, (three_values bits hab hac hbc x y z).1, (three_values bits hab hac hbc z y x).2.2]
    · rw [Equiv.swap_apply_of_ne_of_ne h1 h3]
      simp [three, h1, h3]

theorem three_turn (U : Mat2) : Spec.ctrl [] U a ψ (three a b c bits x y z) =
      U x false * ψ (three a b c bits false y z) + U x true * ψ (three a b c bits true y z) ∧
    Spec.ctrl [] U b ψ (three a b c bits x y z) =
      U y false * ψ (three a b c bits x false z) + U y true * ψ (three a b c bits x true z) := by
  have hv := three_values bits hab hac hbc x y z
  have hu := three_update bits hab hac hbc x y z
  constructor <;> unfold Spec.ctrl <;> rw [if_pos (by simp)]
  · rw [hv.1, (hu _).1, (hu _).1]
  · rw [hv.2.1, (hu _).2.1, (hu _).2.1]

theorem three_not : Spec.ctrl [b] matX c ψ (three a b c bits x y z) = ψ (three a b c bits x y (y ^^ z)) ∧
    Spec.ctrl [a] matX b ψ (three a b c bits x y z) = ψ (three a b c bits x (x ^^ y) z) ∧
    Spec.ctrl [a] matZ c ψ (three a b c bits x y z) =
      (if x then if z then -1 else 1 else 1) * ψ (three a b c bits x y z) := by
  have hv := three_values bits hab hac hbc x y z
  have hu := three_update bits hab hac hbc x y z
  refine ⟨?_, ?_, ?_⟩ <;> unfold Spec.ctrl
  · simp only [List.mem_singleton, forall_eq, hv.2.1, hv.2.2, (hu _).2.2]
    cases y <;> cases z <;> simp [matX, mat]
  · simp only [List.mem_singleton, forall_eq, hv.1, hv.2.1, (hu _).2.1]
    cases x <;> cases y <;> simp [matX, mat]
  · simp only [List.mem_singleton, forall_eq, hv.1, hv.2.2, (hu _).2.2]
    cases x <;> cases z <;> simp [matZ, mat]

omit ψ x y z in
theorem teleport_circuit {Z : Set ℕ} (hb : b ∈ Z) (hc : c ∈ Z) : SameCircuitOn Z
    [.gate .h b, .ctl .x [b] c, .ctl .x [a] b, .gate .h a, .ctl .x [b] c, .ctl .z [a] c]
    [.swap a c, .gate .h a, .gate .h b] := by
  have hl : ∀ d ∈ [QCall.gate .h b, .ctl .x [b] c, .ctl .x [a] b, .gate .h a, .ctl .x [b] c, .ctl .z [a] c],
      IsGate d := by simp [IsGate]
  have hr : ∀ d ∈ [QCall.swap a c, .gate .h a, .gate .h b], IsGate d := by simp [IsGate]
  refine ⟨hl, hr, 1, norm_one, fun ψ hz => ?_⟩
  rw [effect_eq hl, effect_eq hr, one_smul]
  show Spec.ctrl [] matH b (Spec.ctrl [] matH a (swapQubits a c ψ)) = Spec.ctrl [a] matZ c (Spec.ctrl [b] matX c
    (Spec.ctrl [] matH a (Spec.ctrl [a] matX b (Spec.ctrl [b] matX c (Spec.ctrl [] matH b ψ)))))
  funext bits
  rw [← three_self (a := a) (b := b) (c := c) bits]
  generalize bits a = x
  generalize bits b = y
  generalize bits c = z
  have hv := three_values bits hab hac hbc
  have h1 : ∀ x z, ψ (three a b c bits x true z) = 0 := by
    intro x z
    by_contra hn
    have h := hz _ hn b hb
    rw [(hv x true z).2.1] at h
    cases h
  have h2 : ∀ x y, ψ (three a b c bits x y true) = 0 := by
    intro x y
    by_contra hn
    have h := hz _ hn c hc
    rw [(hv x y true).2.2] at h
    cases h
  have ha := fun x y z φ U => (three_turn bits hab hac hbc x y z φ U).1
  have hb := fun x y z φ U => (three_turn bits hab hac hbc x y z φ U).2
  have n1 := fun x y z φ => (three_not bits hab hac hbc x y z φ).1
  have n2 := fun x y z φ => (three_not bits hab hac hbc x y z φ).2.1
  have n3 := fun x y z φ => (three_not bits hab hac hbc x y z φ).2.2
  have hs : ∀ x y z, swapQubits a c ψ (three a b c bits x y z) = ψ (three a b c bits z y x) :=
    fun x y z => congrArg ψ (three_swap bits hab hac hbc x y z)
  simp only [ha, hb, n1, n2, n3, hs, h1, mul_zero, add_zero]
  cases x <;> cases y <;> cases z <;> simp only [h1, h2, Bool.xor_false, Bool.xor_true, Bool.false_xor, Bool.true_xor,
    Bool.not_true, Bool.not_false, matH, mat, if_true, if_false, Bool.false_eq_true] <;> ring

end

end Qir.Back.Arr
