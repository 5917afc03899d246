import Verif.Props.RewriteDefs
import Verif.Proof.Rearrange

/-!
# Renaming of qubits and rewriting of circuits
-/

noncomputable section
namespace Qir.Back.Arr
open Spec Sim Qir.Out Run

/-! ### Renamed state vectors -/

/-- The state vector in which qubit `σ q` plays the part of `q`. -/
def relabel (σ : Equiv.Perm ℕ) (ψ : Wave) : Wave := fun b => ψ fun q => b (σ q)

variable {σ : Equiv.Perm ℕ}

theorem relabel_smul (c : ℂ) (ψ : Wave) : relabel σ (c • ψ) = c • relabel σ ψ := rfl
theorem relabel_add (φ ψ : Wave) : relabel σ (φ + ψ) = relabel σ φ + relabel σ ψ := rfl

theorem relabel_update (b : Basis) (q : ℕ) (v : Bool) :
    (fun r => Function.update b (σ q) v (σ r)) = Function.update (fun r => b (σ r)) q v := by
  funext r
  by_cases h : r = q
  · subst h; simp
  · rw [Function.update_of_ne h, Function.update_of_ne (fun e => h (σ.injective e))]

theorem relabel_ctrl (cs : List ℕ) (U : Mat2) (q : ℕ) (ψ : Wave) :
    Spec.ctrl (cs.map σ) U (σ q) (relabel σ ψ) = relabel σ (Spec.ctrl cs U q ψ) := by
  funext b
  simp only [Spec.ctrl, relabel, relabel_update, List.forall_mem_map]

/-- The same Pauli product on other qubits. -/
def moved (σ : Equiv.Perm ℕ) (ps : List (Pauli × ℕ)) : List (Pauli × ℕ) := ps.map fun p => (p.1, σ p.2)

theorem relabel_string (ps : List (Pauli × ℕ)) (ψ : Wave) :
    pauliString (moved σ ps) (relabel σ ψ) = relabel σ (pauliString ps ψ) := by
  induction ps with
  | nil => rfl
  | cons p ps ih =>
    show Spec.ctrl [] p.1.mat (σ p.2) (pauliString (moved σ ps) (relabel σ ψ)) = _
    rw [ih]
    exact relabel_ctrl [] _ _ _

theorem relabel_exp (cs : List ℕ) (ps : List (Pauli × ℕ)) (θ : ℝ) (ψ : Wave) :
    ctrlExp (cs.map σ) (moved σ ps) θ (relabel σ ψ) = relabel σ (ctrlExp cs ps θ ψ) := by
  funext b
  show (if ∀ j ∈ cs.map σ, b j = true then _ else _) = ctrlExp cs ps θ ψ fun q => b (σ q)
  rw [relabel_string]
  unfold ctrlExp
  simp only [List.forall_mem_map]
  rfl

theorem relabel_swap (a b : ℕ) (ψ : Wave) : swapQubits (σ a) (σ b) (relabel σ ψ) = relabel σ (swapQubits a b ψ) := by
  funext bits
  simp only [swapQubits, relabel]
  congr 1
  funext q
  rw [← Function.Injective.map_swap σ.injective]

theorem relabel_normSq (ψ : Wave) : Spec.normSq (relabel σ ψ) = Spec.normSq ψ := by
  unfold Spec.normSq relabel
  exact finsum_comp_equiv (f := fun b => Complex.normSq (ψ b)) (Equiv.arrowCongr σ.symm (Equiv.refl Bool))

theorem relabel_proj (ps : List (Pauli × ℕ)) (v : Bool) (ψ : Wave) :
    pauliProj (moved σ ps) v (relabel σ ψ) = relabel σ (pauliProj ps v ψ) := by
  unfold pauliProj
  rw [relabel_string]
  rfl

theorem relabel_ket : relabel σ (Spec.ket zeroBasis) = Spec.ket zeroBasis := by
  funext b
  have : (fun q => b (σ q)) = zeroBasis ↔ b = zeroBasis := by
    constructor
    · intro h
      funext q
      have := congrFun h (σ.symm q)
      simpa [zeroBasis] using this
    · rintro rfl
      rfl
  by_cases h : b = zeroBasis
  · unfold relabel Spec.ket
    rw [if_pos (this.2 h), if_pos h]
  · simp [relabel, Spec.ket, this, h]

/-! ### Devices that differ by the names of the qubits and a global phase -/

/-- The state vectors differ by the names of the qubits and a global phase. -/
def AlikeW (σ : Equiv.Perm ℕ) (ψ ψ' : Wave) : Prop := ∃ c : ℂ, Complex.normSq c = 1 ∧ ψ' = c • relabel σ ψ

theorem AlikeW.ctrl {ψ ψ' : Wave} (h : AlikeW σ ψ ψ') (cs : List ℕ) (U : Mat2) (q : ℕ) :
    AlikeW σ (Spec.ctrl cs U q ψ) (Spec.ctrl (cs.map σ) U (σ q) ψ') := by
  obtain ⟨c, hc, rfl⟩ := h
  refine ⟨c, hc, ?_⟩
  rw [← relabel_ctrl]
  exact (ctrlL (cs.map σ) U (σ q)).map_smul c _

theorem AlikeW.exp {ψ ψ' : Wave} (h : AlikeW σ ψ ψ') (cs : List ℕ) (ps : List (Pauli × ℕ)) (θ : ℝ) :
    AlikeW σ (ctrlExp cs ps θ ψ) (ctrlExp (cs.map σ) (moved σ ps) θ ψ') := by
  obtain ⟨c, hc, rfl⟩ := h
  refine ⟨c, hc, ?_⟩
  rw [← relabel_exp]
  exact (expL (cs.map σ) (moved σ ps) θ).map_smul c _

theorem AlikeW.swap {ψ ψ' : Wave} (h : AlikeW σ ψ ψ') (a b : ℕ) :
    AlikeW σ (swapQubits a b ψ) (swapQubits (σ a) (σ b) ψ') := by
  obtain ⟨c, hc, rfl⟩ := h
  refine ⟨c, hc, ?_⟩
  rw [← relabel_swap]
  rfl

theorem AlikeW.proj {ψ ψ' : Wave} (h : AlikeW σ ψ ψ') (ps : List (Pauli × ℕ)) (v : Bool) :
    AlikeW σ (pauliProj ps v ψ) (pauliProj (moved σ ps) v ψ') := by
  obtain ⟨c, hc, rfl⟩ := h
  refine ⟨c, hc, ?_⟩
  rw [← relabel_proj, ← pauliProjL_apply, ← pauliProjL_apply]
  exact (pauliProjL (moved σ ps) v).map_smul c _

theorem AlikeW.prob {ψ ψ' : Wave} (h : AlikeW σ ψ ψ') (ps : List (Pauli × ℕ)) (v : Bool) :
    pauliProb (moved σ ps) v ψ' = pauliProb ps v ψ := by
  obtain ⟨c, hc, e⟩ := h.proj ps v
  unfold pauliProb
  rw [e, normSq_smul, hc, one_mul, relabel_normSq]

theorem AlikeW.post {ψ ψ' : Wave} (h : AlikeW σ ψ ψ') (ps : List (Pauli × ℕ)) (v : Bool) :
    AlikeW σ (pauliPost ps v ψ) (pauliPost (moved σ ps) v ψ') := by
  obtain ⟨c, hc, e⟩ := h.proj ps v
  refine ⟨c, hc, ?_⟩
  unfold pauliPost
  rw [h.prob, e, real_smul_wave, real_smul_wave, relabel_smul, smul_comm]

/-- The devices differ by the names of the qubits and a global phase. -/
structure Alike (σ : Equiv.Perm ℕ) (δ δ' : Device) : Prop where
  psi : AlikeW σ δ.psi δ'.psi
  rng : δ'.rng = δ.rng
  reg : δ'.reg = δ.reg
  touched : δ'.touched = δ.touched

theorem Alike.useAll {δ δ' : Device} (h : Alike σ δ δ') (qs qs' : List ℕ) : Alike σ (δ.useAll qs) (δ'.useAll qs') := by
  refine ⟨?_, ?_, ?_, ?_⟩
  · rw [useAll_psi, useAll_psi]; exact h.psi
  · rw [useAll_rng, useAll_rng]; exact h.rng
  · rw [useAll_reg, useAll_reg]; exact h.reg
  · rw [useAll_touched, useAll_touched]; exact h.touched

theorem Alike.with {δ δ' : Device} (h : Alike σ δ δ') {φ φ' : Wave} (hp : AlikeW σ φ φ') :
    Alike σ { δ with psi := φ } { δ' with psi := φ' } := ⟨hp, h.rng, h.reg, h.touched⟩

theorem Alike.apply {δ δ' : Device} (h : Alike σ δ δ') (qs qs' : List ℕ) {U U' : Wave → Wave}
    (hp : AlikeW σ (U δ.psi) (U' δ'.psi)) : Alike σ (δ.apply qs U) (δ'.apply qs' U') :=
  (h.useAll qs qs').with hp

theorem Alike.outcome {δ δ' : Device} (h : Alike σ δ δ') (ps : List (Pauli × ℕ)) :
    δ'.outcome (moved σ ps) = δ.outcome ps := by
  unfold Device.outcome
  rw [h.psi.prob, h.rng]

theorem Alike.observed {δ δ' : Device} (h : Alike σ δ δ') (ps : List (Pauli × ℕ)) :
    Alike σ (δ.observed ps) (δ'.observed (moved σ ps)) := by
  have hu := h.useAll (ps.map Prod.snd) ((moved σ ps).map Prod.snd)
  unfold Device.observed
  rw [h.outcome]
  exact ⟨h.psi.post ps _, by rw [h.rng], hu.reg, hu.touched⟩

theorem Alike.clear {δ δ' : Device} (h : Alike σ δ δ') (v : Bool) (q : ℕ) :
    Alike σ (δ.clear v q) (δ'.clear v (σ q)) := by
  refine h.with ?_
  cases v
  · exact h.psi
  · exact h.psi.ctrl [] matX q

theorem Alike.store {δ δ' : Device} (h : Alike σ δ δ') (r : ℕ) (v : Bool) : Alike σ (δ.store r v) (δ'.store r v) := by
  refine ⟨h.psi, h.rng, ?_, rfl⟩
  show Function.update δ'.reg r v = Function.update δ.reg r v
  rw [h.reg]

theorem Alike.resultValue {δ δ' : Device} (h : Alike σ δ δ') (r : ℕ) : δ'.resultValue r = δ.resultValue r := by
  unfold Device.resultValue
  rw [h.reg, h.touched]

theorem zip_moved (ps : List Pauli) : ∀ qs : List ℕ, ps.zip (qs.map σ) = moved σ (ps.zip qs) := by
  induction ps with
  | nil => intro qs; rfl
  | cons p ps ih =>
    intro qs
    cases qs with
    | nil => rfl
    | cons q qs =>
      show (p, σ q) :: ps.zip (qs.map σ) = (p, σ q) :: moved σ (ps.zip qs)
      rw [ih]

theorem support_moved (ps : List Pauli) (qs : List ℕ) : support ps (qs.map σ) = moved σ (support ps qs) := by
  unfold support
  rw [zip_moved]
  unfold moved
  rw [List.filter_map]
  rfl

/-- The ends of two steps, or of two runs, that differ by the names of the qubits and a global phase. -/
def AlikeE {X : Type} (σ : Equiv.Perm ℕ) {E : Type} : Except E (X × Device) → Except E (X × Device) → Prop
  | .ok (x, δ), .ok (x', δ') => x' = x ∧ Alike σ δ δ'
  | .error e, .error e' => e' = e
  | _, _ => False

/-- A step as a pair. -/
def stepped (δ : Device) (c : QCall) : Except (List Char) ((QAns × List Event) × Device) :=
  (δ.step c).map fun x => ((x.1, x.2.1), x.2.2)

theorem Alike.step {δ δ' : Device} (h : Alike σ δ δ') {c : QCall} (hs : c.Static) :
    AlikeE σ (stepped δ c) (stepped δ' (onQubits σ c)) := by
  cases c with
  | gate g q => exact ⟨rfl, h.apply _ _ (h.psi.ctrl [] _ _)⟩
  | ctl g cs q => exact ⟨rfl, h.apply _ _ (h.psi.ctrl cs _ _)⟩
  | sx q => exact ⟨rfl, h.apply _ _ (h.psi.ctrl [] _ _)⟩
  | rxx θ a b => exact ⟨rfl, h.apply _ _ (h.psi.exp [] [(.X, a), (.X, b)] _)⟩
  | ryy θ a b => exact ⟨rfl, h.apply _ _ (h.psi.exp [] [(.Y, a), (.Y, b)] _)⟩
  | rzz θ a b => exact ⟨rfl, h.apply _ _ (h.psi.exp [] [(.Z, a), (.Z, b)] _)⟩
  | r p θ q | rAdj p θ q => exact ⟨rfl, h.apply _ _ (h.psi.exp [] [(p, q)] _)⟩
  | rCtl cs p θ q | rCtlAdj cs p θ q => exact ⟨rfl, h.apply _ _ (h.psi.exp cs [(p, q)] _)⟩
  | exp ps θ qs | expAdj ps θ qs =>
    refine ⟨rfl, h.apply _ _ ?_⟩
    rw [zip_moved]
    exact h.psi.exp [] _ _
  | expCtl cs ps θ qs | expCtlAdj cs ps θ qs =>
    refine ⟨rfl, h.apply _ _ ?_⟩
    rw [zip_moved]
    exact h.psi.exp cs _ _
  | swap a b => exact ⟨rfl, h.apply _ _ (h.psi.swap a b)⟩
  | reset q =>
    refine ⟨rfl, ?_⟩
    have ho := h.outcome [(.Z, q)]
    show Alike σ _ ((δ'.observed [(.Z, σ q)]).clear (δ'.outcome [(.Z, σ q)]) (σ q))
    rw [show δ'.outcome [(.Z, σ q)] = _ from ho]
    exact (h.observed [(.Z, q)]).clear _ _
  | mresetz q r =>
    refine ⟨rfl, ?_⟩
    have ho := h.outcome [(.Z, q)]
    show Alike σ _ (((δ'.observed [(.Z, σ q)]).clear (δ'.outcome [(.Z, σ q)]) (σ q)).store r (δ'.outcome [(.Z, σ q)]))
    rw [show δ'.outcome [(.Z, σ q)] = _ from ho]
    exact ((h.observed [(.Z, q)]).clear _ _).store _ _
  | mz q r =>
    refine ⟨rfl, ?_⟩
    have ho := h.outcome [(.Z, q)]
    show Alike σ _ ((δ'.observed [(.Z, σ q)]).store r (δ'.outcome [(.Z, σ q)]))
    rw [show δ'.outcome [(.Z, σ q)] = _ from ho]
    exact (h.observed [(.Z, q)]).store _ _
  | m q =>
    have ho := h.outcome [(.Z, q)]
    refine ⟨?_, h.observed [(.Z, q)]⟩
    show (QAns.ptr (Device.pointer (δ'.outcome [(.Z, σ q)])), []) = _
    rw [show δ'.outcome [(.Z, σ q)] = _ from ho]
  | measure ps qs =>
    simp only [stepped, onQubits, Device.step, List.length_map, support_moved]
    split
    · exact ⟨by rw [h.outcome], h.observed _⟩
    · rfl
  | isZero q =>
    refine ⟨?_, h.useAll [q] [σ q]⟩
    show (QAns.bit (decide (pauliProb [(.Z, σ q)] true δ'.psi = 0)), []) = _
    rw [show pauliProb [(.Z, σ q)] true δ'.psi = _ from h.psi.prob [(.Z, q)] true]
  | assertProb ps qs result prob msg tol =>
    simp only [stepped, onQubits, Device.step, List.length_map, support_moved, h.psi.prob]
    split
    · split
      · exact ⟨rfl, h.useAll _ _⟩
      · rfl
    · rfl
  | allocate | release => exact hs.elim
  | readResult r => exact ⟨by rw [h.reg], ⟨h.psi, h.rng, h.reg, rfl⟩⟩
  | writeResult v r => exact ⟨rfl, h.store _ _⟩
  | recordResult r tag => exact ⟨by rw [h.resultValue], h⟩
  | legacyResult r => exact ⟨by rw [h.resultValue], h⟩
  | fail msg => rfl
  | reinit => exact ⟨rfl, ⟨⟨1, by simp, by rw [one_smul]; exact relabel_ket.symm⟩, h.rng, rfl, rfl⟩⟩
  | _ => exact ⟨rfl, h⟩

theorem run_stepped (c : QCall) (k : QAns → Prog QCall QAns) (δ : Device) : idealRun (.call c k) δ =
    match stepped δ c with
    | .error msg => .error [.record (.message msg)]
    | .ok ((a, es), δ) => match idealRun (k a) δ with
      | .error es' => .error (es ++ es')
      | .ok (es', δ) => .ok (es ++ es', δ) := by
  rw [idealRun, stepped]
  cases δ.step c <;> rfl

/-- A step and what follows. -/
theorem Alike.call {c c' : QCall} {k k' : QAns → Prog QCall QAns} {δ δ' : Device}
    (hs : AlikeE σ (stepped δ c) (stepped δ' c'))
    (h : ∀ a (δ δ' : Device), Alike σ δ δ' → AlikeE σ (idealRun (k a) δ) (idealRun (k' a) δ')) :
    AlikeE σ (idealRun (.call c k) δ) (idealRun (.call c' k') δ') := by
  rw [run_stepped, run_stepped]
  cases h1 : stepped δ c with
  | error e =>
    cases h2 : stepped δ' c' with
    | error e' => rw [h1, h2] at hs; cases hs; rfl
    | ok x => rw [h1, h2] at hs; exact hs.elim
  | ok x =>
    cases h2 : stepped δ' c' with
    | error e' => rw [h1, h2] at hs; exact hs.elim
    | ok x' =>
      obtain ⟨⟨a, es⟩, δ1⟩ := x
      obtain ⟨⟨a', es'⟩, δ1'⟩ := x'
      rw [h1, h2] at hs
      obtain ⟨e, hd⟩ := hs
      cases e
      have := h a _ _ hd
      dsimp only
      cases h3 : idealRun (k a) δ1 with
      | error e =>
        cases h4 : idealRun (k' a) δ1' with
        | error e' => rw [h3, h4] at this; cases this; rfl
        | ok x => rw [h3, h4] at this; exact this.elim
      | ok y =>
        cases h4 : idealRun (k' a) δ1' with
        | error e' => rw [h3, h4] at this; exact this.elim
        | ok y' =>
          rw [h3, h4] at this
          exact ⟨congrArg (es ++ ·) this.1, this.2⟩

theorem alike_renamed {p : Prog QCall QAns} (hp : Numbered p) : ∀ {δ δ' : Device}, Alike σ δ δ' →
    AlikeE σ (idealRun p δ) (idealRun (renamed σ p) δ') := by
  induction p with
  | done => intro δ δ' h; exact ⟨rfl, h⟩
  | call c k ih => intro δ δ' h; exact Alike.call (h.step hp.1) fun a δ δ' hd => ih a (hp.2 a) hd

/-! ### Circuits -/

/-- The operators of a circuit one after the other. -/
def circuitL (cs : List QCall) (ψ : Wave) : Wave := cs.foldl (fun ψ c => turning c ψ) ψ

theorem gate_step {c : QCall} (h : IsGate c) (δ : Device) : δ.step c = .ok (.unit, [],
    put (turning c δ.psi) δ.reg δ.touched (δ.useAll c.uses)) := by
  have hm : Movable c ∧ measures δ c = none ∧ reply c true δ = .unit ∧ noted c δ = [] ∧ kept c true δ.reg = δ.reg ∧
      marked c δ.touched = δ.touched := by
    cases c <;> first | exact h.elim | exact ⟨trivial, rfl, rfl, rfl, rfl, rfl⟩
  obtain ⟨h1, h2, h3, h4, h5, h6⟩ := hm
  rw [calm_step h1 h2, h3, h4, h5, h6]

theorem effect_eq {cs : List QCall} (h : ∀ c ∈ cs, IsGate c) (ψ : Wave) : effect cs ψ = circuitL cs ψ := by
  have key : ∀ (cs : List QCall) (δ : Device), (∀ c ∈ cs, IsGate c) →
      ∃ as es δ', Device.run δ cs = .ok (as, es, δ') ∧ δ'.psi = circuitL cs δ.psi := by
    intro cs
    induction cs with
    | nil => intro δ _; exact ⟨_, _, δ, rfl, rfl⟩
    | cons c cs ih =>
      intro δ h
      obtain ⟨as, es, δ', e, hp⟩ := ih (put (turning c δ.psi) δ.reg δ.touched (δ.useAll c.uses))
        fun d hd => h d (by simp [hd])
      refine ⟨.unit :: as, [] ++ es, δ', ?_, hp⟩
      rw [Device.run, gate_step (h c (by simp))]
      show (Device.run _ cs >>= _) = _
      rw [e]
      rfl
  obtain ⟨as, es, δ', e, hp⟩ := key cs { blank with psi := ψ } h
  unfold effect
  rw [e]
  exact hp

theorem run_circuit (p : Prog QCall QAns) : ∀ (cs : List QCall) (δ : Device), (∀ c ∈ cs, IsGate c) →
    ∃ δ1 : Device, idealRun (afterCircuit cs p) δ = idealRun p δ1 ∧ δ1.psi = circuitL cs δ.psi ∧ δ1.rng = δ.rng ∧
      δ1.reg = δ.reg ∧ δ1.touched = δ.touched := by
  intro cs
  induction cs with
  | nil => intro δ _; exact ⟨δ, rfl, rfl, rfl, rfl, rfl⟩
  | cons c cs ih =>
    intro δ h
    obtain ⟨δ1, e, h1, h2, h3, h4⟩ := ih (put (turning c δ.psi) δ.reg δ.touched (δ.useAll c.uses))
      fun d hd => h d (by simp [hd])
    refine ⟨δ1, ?_, h1, h2.trans (useAll_rng _ _), h3, h4⟩
    rw [← e]
    show idealRun (.call c fun _ => afterCircuit cs p) δ = _
    rw [idealRun, gate_step (h c (by simp))]
    dsimp only
    cases idealRun (afterCircuit cs p) (put (turning c δ.psi) δ.reg δ.touched (δ.useAll c.uses)) <;> rfl

theorem relabel_refl (ψ : Wave) : relabel (Equiv.refl ℕ) ψ = ψ := rfl

theorem onQubits_id (c : QCall) : onQubits (Equiv.refl ℕ) c = c := by
  cases c <;> simp [onQubits]

theorem renamed_id (p : Prog QCall QAns) : renamed (Equiv.refl ℕ) p = p := by
  induction p with
  | done => rfl
  | call c k ih => rw [renamed, onQubits_id]; congr 1; funext a; exact ih a

theorem Alike.symm' {δ δ' : Device} (h : Alike (Equiv.refl ℕ) δ δ') : Alike (Equiv.refl ℕ) δ' δ := by
  obtain ⟨c, hc, e⟩ := h.psi
  have hc0 : c ≠ 0 := fun e => by rw [e, map_zero] at hc; exact zero_ne_one hc
  refine ⟨⟨c⁻¹, by rw [map_inv₀, hc, inv_one], ?_⟩, h.rng.symm, h.reg.symm, h.touched.symm⟩
  rw [e, relabel_refl, relabel_refl, smul_smul, inv_mul_cancel₀ hc0, one_smul]

theorem Alike.trans' {δ δ' δ'' : Device} (h : Alike (Equiv.refl ℕ) δ δ') (h' : Alike (Equiv.refl ℕ) δ' δ'') :
    Alike (Equiv.refl ℕ) δ δ'' := by
  obtain ⟨c, hc, e⟩ := h.psi
  obtain ⟨d, hd, e'⟩ := h'.psi
  refine ⟨⟨d * c, by rw [map_mul, hc, hd, one_mul], ?_⟩, h'.rng.trans h.rng, h'.reg.trans h.reg,
    h'.touched.trans h.touched⟩
  rw [e', e, relabel_refl, relabel_refl, smul_smul]

theorem Alike.same {δ : Device} : Alike (Equiv.refl ℕ) δ δ :=
  ⟨⟨1, by simp, by rw [one_smul]; rfl⟩, rfl, rfl, rfl⟩

theorem AlikeE.symm' {X E : Type} {x y : Except E (X × Device)} (h : AlikeE (Equiv.refl ℕ) x y) :
    AlikeE (Equiv.refl ℕ) y x := by
  cases x <;> cases y
  · exact Eq.symm h
  · exact h.elim
  · exact h.elim
  · exact ⟨h.1.symm, h.2.symm'⟩

theorem AlikeE.trans' {X E : Type} {x y z : Except E (X × Device)} (h : AlikeE (Equiv.refl ℕ) x y)
    (h' : AlikeE (Equiv.refl ℕ) y z) : AlikeE (Equiv.refl ℕ) x z := by
  cases x <;> cases y <;> cases z <;> first | exact h.elim | exact h'.elim | skip
  · exact Eq.trans h' h
  · exact ⟨h'.1.trans h.1, h.2.trans' h'.2⟩

theorem alike_same {p : Prog QCall QAns} (hp : Numbered p) {δ δ' : Device} (h : Alike (Equiv.refl ℕ) δ δ') :
    AlikeE (Equiv.refl ℕ) (idealRun p δ) (idealRun p δ') := by
  have := alike_renamed hp h
  rwa [renamed_id] at this

theorem numbered_after {cs : List QCall} {p : Prog QCall QAns} (h : Numbered (afterCircuit cs p)) : Numbered p := by
  induction cs with
  | nil => exact h
  | cons c cs ih => exact ih (h.2 .unit)

theorem gate_static {c : QCall} (h : IsGate c) : c.Static := by
  cases c <;> first | exact h.elim | trivial

theorem numbered_circuit {cs : List QCall} (hc : ∀ c ∈ cs, IsGate c) {p : Prog QCall QAns} (h : Numbered p) :
    Numbered (afterCircuit cs p) := by
  induction cs with
  | nil => exact h
  | cons c cs ih => exact ⟨gate_static (hc c (by simp)), fun _ => ih fun d hd => hc d (by simp [hd])⟩

theorem numbered_rewritten {p p' : Prog QCall QAns} (h : Rewritten p p') : Numbered p ↔ Numbered p' := by
  induction h with
  | refl => rfl
  | circuit h p =>
    exact ⟨fun hp => numbered_circuit h.right (numbered_after hp), fun hp => numbered_circuit h.left (numbered_after hp)⟩
  | under c _ ih => exact and_congr_right fun _ => forall_congr' ih
  | symm _ ih => exact ih.symm
  | trans _ _ ih ih' => exact ih.trans ih'

/-- **Rewriting.** -/
theorem alike_rewritten {p p' : Prog QCall QAns} (h : Rewritten p p') : Numbered p → ∀ {δ δ' : Device},
    Alike (Equiv.refl ℕ) δ δ' → AlikeE (Equiv.refl ℕ) (idealRun p δ) (idealRun p' δ') := by
  induction h with
  | refl => exact fun hp δ δ' h => alike_same hp h
  | @circuit cs ds h p =>
    intro hp δ δ' hd
    obtain ⟨δ1, e1, a1, a2, a3, a4⟩ := run_circuit p cs δ h.left
    obtain ⟨δ2, e2, b1, b2, b3, b4⟩ := run_circuit p ds δ' h.right
    rw [e1, e2]
    refine alike_same (numbered_after hp) ?_
    obtain ⟨c, hc, hs⟩ := h.same
    obtain ⟨c', hc', he⟩ := hd.psi
    refine ⟨⟨c' * c, ?_, ?_⟩, by rw [a2, b2, hd.rng], by rw [a3, b3, hd.reg], by rw [a4, b4, hd.touched]⟩
    · rw [map_mul, hc', one_mul, Complex.normSq_eq_norm_sq, hc, one_pow]
    · rw [b1, a1, he, relabel_refl, relabel_refl, mul_smul, ← effect_eq h.left, ← hs, effect_eq h.right]
      have : ∀ (ds : List QCall) (ψ : Wave), circuitL ds (c' • ψ) = c' • circuitL ds ψ := by
        intro ds
        induction ds with
        | nil => intro ψ; rfl
        | cons d ds ih =>
          intro ψ
          show circuitL ds (turning d (c' • ψ)) = c' • circuitL ds (turning d ψ)
          rw [map_smul, ih]
      exact this ds _
  | under c _ ih =>
    intro hp δ δ' hd
    have hs := hd.step hp.1
    rw [onQubits_id] at hs
    exact Alike.call hs fun a δ δ' h => ih a (hp.2 a) h
  | symm h ih => exact fun hp δ δ' hd => (ih ((numbered_rewritten h).2 hp) hd.symm').symm'
  | trans h h' ih ih' =>
    exact fun hp δ δ' hd => (ih hp hd).trans' (ih' ((numbered_rewritten h).1 hp) Alike.same)

/-! ### Probabilities -/

theorem Alike.found {δ δ' : Device} (h : Alike σ δ δ') (ps : List (Pauli × ℕ)) (v : Bool) :
    Alike σ (found ps v δ) (found (moved σ ps) v δ') :=
  (h.useAll (ps.map Prod.snd) ((moved σ ps).map Prod.snd)).with (h.psi.post ps v)

theorem Alike.measures {δ δ' : Device} {c : QCall} (hs : c.Static) :
    measures δ' (onQubits σ c) = (measures δ c).map (moved σ) := by
  cases c with
  | measure ps qs =>
    simp only [onQubits, Back.measures, List.length_map, support_moved]
    split <;> rfl
  | allocate | release => exact hs.elim
  | _ => rfl

theorem Alike.finding {δ δ' : Device} (h : Alike σ δ δ') {c : QCall} (hs : c.Static) (v : Bool) :
    (finding v δ' (onQubits σ c)).1 = (finding v δ c).1 ∧
      Alike σ (finding v δ c).2 (finding v δ' (onQubits σ c)).2 := by
  cases c with
  | reset q => exact ⟨rfl, (h.found [(.Z, q)] v).clear _ _⟩
  | mresetz q r => exact ⟨rfl, ((h.found [(.Z, q)] v).clear _ _).store _ _⟩
  | mz q r => exact ⟨rfl, (h.found [(.Z, q)] v).store _ _⟩
  | m q => exact ⟨rfl, h.found [(.Z, q)] v⟩
  | measure ps qs =>
    refine ⟨rfl, ?_⟩
    show Alike σ _ (Back.found (support ps (qs.map σ)) v δ')
    rw [support_moved]
    exact h.found _ v
  | allocate | release => exact hs.elim
  | _ => exact ⟨rfl, h⟩

theorem chance_call {c : QCall} (hs : c.Static) {k k' : QAns → Prog QCall QAns} {δ δ' : Device} (h : Alike σ δ δ')
    (hk : ∀ a (δ δ' : Device) S, Alike σ δ δ' → chance (k' a) δ' S = chance (k a) δ S) (S : Set (List Event × Bool)) :
    chance (.call (onQubits σ c) k') δ' S = chance (.call c k) δ S := by
  have hm := Alike.measures (σ := σ) (δ := δ) (δ' := δ') hs
  rw [chance, chance]
  cases h1 : measures δ c with
  | some ps =>
    rw [h1] at hm
    rw [hm]
    dsimp only [Option.map]
    rw [h.psi.prob, h.psi.prob, (h.finding hs true).1, (h.finding hs false).1, hk _ _ _ S (h.finding hs true).2,
      hk _ _ _ S (h.finding hs false).2]
  | none =>
    rw [h1] at hm
    rw [hm]
    have := h.step hs
    unfold stepped at this
    dsimp only [Option.map]
    cases h2 : δ.step c with
    | error e =>
      cases h3 : δ'.step (onQubits σ c) with
      | error e' => rw [h2, h3] at this; cases this; rfl
      | ok x => rw [h2, h3] at this; exact this.elim
    | ok x =>
      cases h3 : δ'.step (onQubits σ c) with
      | error e' => rw [h2, h3] at this; exact this.elim
      | ok x' =>
        rw [h2, h3] at this
        obtain ⟨a, es, δ1⟩ := x
        obtain ⟨a', es', δ1'⟩ := x'
        obtain ⟨e, hd⟩ := this
        cases e
        exact hk _ _ _ _ hd

theorem chance_renamed {p : Prog QCall QAns} (hp : Numbered p) : ∀ {δ δ' : Device} (S : Set (List Event × Bool)),
    Alike σ δ δ' → chance (renamed σ p) δ' S = chance p δ S := by
  induction p with
  | done => intro δ δ' S _; rfl
  | call c k ih => intro δ δ' S h; exact chance_call hp.1 h (fun a δ δ' S hd => ih a (hp.2 a) S hd) S

theorem chance_same {p : Prog QCall QAns} (hp : Numbered p) {δ δ' : Device} (S : Set (List Event × Bool))
    (h : Alike (Equiv.refl ℕ) δ δ') : chance p δ' S = chance p δ S := by
  have := chance_renamed hp S h
  rwa [renamed_id] at this

theorem chance_circuit (p : Prog QCall QAns) (S : Set (List Event × Bool)) : ∀ (cs : List QCall) (δ : Device),
    (∀ c ∈ cs, IsGate c) → ∃ δ1 : Device, chance (afterCircuit cs p) δ S = chance p δ1 S ∧
      δ1.psi = circuitL cs δ.psi ∧ δ1.rng = δ.rng ∧ δ1.reg = δ.reg ∧ δ1.touched = δ.touched := by
  intro cs
  induction cs with
  | nil => intro δ _; exact ⟨δ, rfl, rfl, rfl, rfl, rfl⟩
  | cons c cs ih =>
    intro δ h
    obtain ⟨δ1, e, h1, h2, h3, h4⟩ := ih (put (turning c δ.psi) δ.reg δ.touched (δ.useAll c.uses))
      fun d hd => h d (by simp [hd])
    refine ⟨δ1, ?_, h1, h2.trans (useAll_rng _ _), h3, h4⟩
    have hg := h c (by simp)
    have hm : Back.measures δ c = none := by
      cases c <;> first | exact hg.elim | rfl
    rw [← e]
    show chance (.call c fun _ => afterCircuit cs p) δ S = _
    rw [chance, hm, gate_step hg]
    rfl

theorem circuitL_smul (w : ℂ) : ∀ (ds : List QCall) (ψ : Wave), circuitL ds (w • ψ) = w • circuitL ds ψ := by
  intro ds
  induction ds with
  | nil => intro ψ; rfl
  | cons d ds ih =>
    intro ψ
    show circuitL ds (turning d (w • ψ)) = w • circuitL ds (turning d ψ)
    rw [map_smul, ih]

theorem chance_rewritten {p p' : Prog QCall QAns} (h : Rewritten p p') : Numbered p → ∀ {δ δ' : Device}
    (S : Set (List Event × Bool)), Alike (Equiv.refl ℕ) δ δ' → chance p' δ' S = chance p δ S := by
  induction h with
  | refl => exact fun hp δ δ' S h => chance_same hp S h
  | @circuit cs ds h p =>
    intro hp δ δ' S hd
    obtain ⟨δ1, e1, a1, a2, a3, a4⟩ := chance_circuit p S cs δ h.left
    obtain ⟨δ2, e2, b1, b2, b3, b4⟩ := chance_circuit p S ds δ' h.right
    rw [e1, e2]
    refine chance_same (numbered_after hp) S ?_
    obtain ⟨c, hc, hs⟩ := h.same
    obtain ⟨c', hc', he⟩ := hd.psi
    refine ⟨⟨c' * c, ?_, ?_⟩, by rw [a2, b2, hd.rng], by rw [a3, b3, hd.reg], by rw [a4, b4, hd.touched]⟩
    · rw [map_mul, hc', one_mul, Complex.normSq_eq_norm_sq, hc, one_pow]
    · rw [b1, a1, he, relabel_refl, relabel_refl, mul_smul, ← effect_eq h.left, ← hs, effect_eq h.right, circuitL_smul]
  | under c _ ih =>
    intro hp δ δ' S hd
    have := chance_call (σ := Equiv.refl ℕ) hp.1 hd (fun a δ δ' S h => ih a (hp.2 a) S h) S
    rwa [onQubits_id] at this
  | symm h ih => exact fun hp δ δ' S hd => (ih ((numbered_rewritten h).2 hp) S hd.symm').symm
  | trans h h' ih ih' =>
    exact fun hp δ δ' S hd => (ih' ((numbered_rewritten h).1 hp) S Alike.same).trans (ih hp S hd)

/-! ### Sessions -/

/-- If two programs run alike, so do the shots of a session. -/
theorem shots_alike {p p' : Prog QCall QAns} (h : ∀ rng, AlikeE σ (idealRun p (Device.init rng))
    (idealRun p' (Device.init rng))) (n : ℕ) : ∀ rng, idealShots p' n rng = idealShots p n rng := by
  induction n with
  | zero => intro rng; rfl
  | succ n ih =>
    intro rng
    have := h rng
    rw [idealShots, idealShots]
    cases h1 : idealRun p (Device.init rng) with
    | error e =>
      cases h2 : idealRun p' (Device.init rng) with
      | error e' => rw [h1, h2] at this; cases this; rfl
      | ok x => rw [h1, h2] at this; exact this.elim
    | ok x =>
      cases h2 : idealRun p' (Device.init rng) with
      | error e' => rw [h1, h2] at this; exact this.elim
      | ok x' =>
        rw [h1, h2] at this
        obtain ⟨es, δ⟩ := x
        obtain ⟨es', δ'⟩ := x'
        obtain ⟨e, hd⟩ := this
        cases e
        dsimp only
        rw [hd.rng, ih]

theorem init_alike (rng : ℕ → ℝ) : Alike σ (Device.init rng) (Device.init rng) :=
  ⟨⟨1, by simp, by rw [one_smul]; exact relabel_ket.symm⟩, rfl, rfl, rfl⟩

end Qir.Back.Arr

namespace Qir.Back.Arr
open Spec Sim Qir.Out Run

/-! ### Equal circuits -/

theorem sameCircuit {cs ds : List QCall} (hc : ∀ c ∈ cs, IsGate c) (hd : ∀ d ∈ ds, IsGate d) (w : ℂ) (hw : ‖w‖ = 1)
    (h : ∀ ψ, circuitL ds ψ = w • circuitL cs ψ) : SameCircuit cs ds :=
  ⟨hc, hd, w, hw, fun ψ => by rw [effect_eq hd, effect_eq hc, h]⟩

theorem product_ctl {cs : List ℕ} {q : ℕ} (hq : q ∉ cs) (gs : List Gate) : ∀ ψ : Wave,
    circuitL (gs.map fun g => .ctl g cs q) ψ = Spec.ctrl cs (gateProduct gs) q ψ := by
  have key : ∀ (gs : List Gate) (U : Mat2) (ψ : Wave), circuitL (gs.map fun g => .ctl g cs q) (Spec.ctrl cs U q ψ) =
      Spec.ctrl cs (gs.foldl (fun U g => g.mat * U) U) q ψ := by
    intro gs
    induction gs with
    | nil => intro U ψ; rfl
    | cons g gs ih =>
      intro U ψ
      show circuitL (gs.map fun g => .ctl g cs q) ((ctrlL cs g.mat q * ctrlL cs U q) ψ) = _
      rw [ctrlL_mul hq]
      exact ih _ ψ
  intro ψ
  have := key gs 1 ψ
  rw [show Spec.ctrl cs 1 q ψ = ψ from LinearMap.congr_fun (ctrlL_one cs q) ψ] at this
  exact this

theorem product_gate (q : ℕ) (gs : List Gate) (ψ : Wave) :
    circuitL (gs.map fun g => .gate g q) ψ = Spec.ctrl [] (gateProduct gs) q ψ := by
  rw [← product_ctl (cs := []) (by simp) gs ψ]
  unfold circuitL
  rw [List.foldl_map, List.foldl_map]
  rfl

theorem ctrl_scaled (w : ℂ) (U : Mat2) (q : ℕ) (ψ : Wave) : Spec.ctrl [] (w • U) q ψ = w • Spec.ctrl [] U q ψ := by
  funext b
  simp only [Spec.ctrl, List.not_mem_nil, false_imp_iff, implies_true, if_true, Matrix.smul_apply, smul_eq_mul,
    Pi.smul_apply]
  ring

theorem pauli_sq (P : Pauli) : P.mat * P.mat = 1 := by
  ext r k
  rw [Matrix.mul_apply, Fintype.sum_bool]
  cases P <;> cases r <;> cases k <;> simp [Pauli.mat, matX, matY, matZ, mat]

theorem stringL_sq {ps : List (Pauli × ℕ)} (hn : (ps.map Prod.snd).Nodup) : stringL ps * stringL ps = 1 := by
  induction ps with
  | nil => rfl
  | cons p ps ih =>
    rw [List.map_cons, List.nodup_cons] at hn
    have hc : stringL ps * gateL p.1.mat p.2 = gateL p.1.mat p.2 * stringL ps := by
      refine LinearMap.ext fun ψ => ?_
      rw [Module.End.mul_apply, Module.End.mul_apply, stringL_apply, stringL_apply]
      exact pauliString_comm hn.1 _ ψ
    show gateL p.1.mat p.2 * stringL ps * (gateL p.1.mat p.2 * stringL ps) = 1
    rw [mul_assoc, ← mul_assoc (stringL ps), hc, mul_assoc, ih hn.2, mul_one, gateL_mul, pauli_sq, gateL_one]

theorem expL_add {cs : List ℕ} {ps : List (Pauli × ℕ)} (hn : (cs ++ ps.map Prod.snd).Nodup) (α β : ℝ) :
    expL cs ps α * expL cs ps β = expL cs ps (α + β) := by
  induction cs with
  | nil =>
    have hs := stringL_sq hn
    rw [expL_nil, expL_nil, expL_nil]
    simp only [add_mul, mul_add, smul_mul_smul_comm, hs, one_mul, mul_one]
    rw [Real.cos_add, Real.sin_add]
    push_cast
    have h1 : (Complex.I * Complex.sin α * (Complex.I * Complex.sin β)) = -(Complex.sin α * Complex.sin β) := by
      linear_combination (Complex.sin α * Complex.sin β) * Complex.I_mul_I
    rw [h1]
    module
  | cons c cs ih =>
    rw [List.cons_append, List.nodup_cons, List.mem_append, not_or] at hn
    have hc : ∀ θ, expL cs ps θ * gateL ones c = gateL ones c * expL cs ps θ := fun θ =>
      expL_comm_gateL hn.1.1 hn.1.2 θ ones
    have h1 : gateL ones c * gateL ones c = gateL ones c := by
      rw [gateL_mul]
      congr 1
      ext r k
      rw [Matrix.mul_apply, Fintype.sum_bool]
      cases r <;> cases k <;> simp [ones, mat]
    have h2 := ih hn.2
    have hA := hc α
    rw [expL_cons, expL_cons, expL_cons, ← h2]
    clear hc h2 ih
    generalize expL cs ps α = A at *
    generalize expL cs ps β = B at *
    generalize gateL ones c = P at *
    have h3 : (A - 1) * P = P * (A - 1) := by rw [sub_mul, mul_sub, hA, one_mul, mul_one]
    have h4 : P * (A - 1) * (P * (B - 1)) = P * ((A - 1) * (B - 1)) := by
      rw [mul_assoc, ← mul_assoc (A - 1), h3, mul_assoc, ← mul_assoc P P, h1]
    rw [add_mul, mul_add, mul_add, h4, one_mul, one_mul, mul_one]
    simp only [mul_sub, sub_mul, one_mul, mul_one]
    abel

theorem cnot_apply (a b : ℕ) (ψ : Wave) (bits : Basis) : Spec.ctrl [a] matX b ψ bits =
    ψ (Function.update bits b (bits a ^^ bits b)) := by
  cases ha : bits a <;> cases hb : bits b <;> simp [Spec.ctrl, ha, hb, matX, mat] <;> rw [← hb, Function.update_eq_self]

theorem swap_cnots {a b : ℕ} (h : a ≠ b) (ψ : Wave) :
    Spec.ctrl [a] matX b (Spec.ctrl [b] matX a (Spec.ctrl [a] matX b ψ)) = swapQubits a b ψ := by
  funext bits
  rw [cnot_apply, cnot_apply, cnot_apply]
  unfold swapQubits
  congr 1
  funext q
  by_cases h1 : q = a
  · subst h1
    rw [Equiv.swap_apply_left]
    cases h2 : bits q <;> cases h3 : bits b <;> simp [h, h2]
  · by_cases h2 : q = b
    · subst h2
      simp [h, h.symm]
    · rw [Equiv.swap_apply_of_ne_of_ne h1 h2, Function.update_of_ne h2, Function.update_of_ne h1, Function.update_of_ne h2]

end Qir.Back.Arr
