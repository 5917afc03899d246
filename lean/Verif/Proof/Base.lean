import Verif.Proof.Pair

/-! Well-formed simulator states, the state they stand for, and the operations that only touch the
stored state and the operation queue. -/

noncomputable section
namespace Qir
open Spec Function Sim

@[simp] theorem ok_bind {ε α β : Type} (a : α) (f : α → Except ε β) :
    ((Except.ok a : Except ε α) >>= f) = f a := rfl
@[simp] theorem error_bind {ε α β : Type} (e : ε) (f : α → Except ε β) :
    ((Except.error e : Except ε α) >>= f) = .error e := rfl
@[simp] theorem pure_ok {ε α : Type} (a : α) : (pure a : Except ε α) = .ok a := rfl

/-- Invariant of stored state and operation queue. -/
structure WFB (m : IMap ℕ) (st : List (ℕ × ℂ)) (q : List (List ℕ × ℕ × OpCode)) : Prop where
  core : Core m st
  ops : ∀ op ∈ q, OpndsOk m op.1 op.2.1

/-- The wave function of the stored state after the queued operations. -/
def base (s : Sim) : Wave := opsL s.opQ (view s.idMap s.state)

theorem WFB.resolve {m : IMap ℕ} {st : List (ℕ × ℂ)} {q : List (List ℕ × ℕ × OpCode)}
    (h : WFB m st q) : ∃ rops, resolveOps m q = .ok rops ∧ Core m (st.map (applyOps rops)) ∧
      view m (st.map (applyOps rops)) = opsL q (view m st) := by
  obtain ⟨rops, hr⟩ := resolveOps_ok h.ops
  exact ⟨rops, hr, h.core.applyOps hr, view_applyOps h.core.inj hr st⟩

theorem WFB.nil {m : IMap ℕ} {st : List (ℕ × ℂ)} (h : Core m st) : WFB m st [] := ⟨h, by simp⟩

theorem takeOps_spec {s : Sim} (h : WFB s.idMap s.state s.opQ) :
    ∃ rops, s.takeOps = .ok (rops, { s with opQ := [] }) ∧
      Core s.idMap (s.state.map (applyOps rops)) ∧
      view s.idMap (s.state.map (applyOps rops)) = base s := by
  obtain ⟨rops, hr, hc, hv⟩ := h.resolve
  exact ⟨rops, by simp [takeOps, hr], hc, hv⟩

theorem flushOps_spec {s : Sim} (h : WFB s.idMap s.state s.opQ) :
    ∃ st, s.flushOps = .ok { s with state := st, opQ := [] } ∧ Core s.idMap st ∧
      view s.idMap st = base s := by
  unfold flushOps
  split
  · rename_i he
    have he' : s.opQ = [] := by simpa using he
    refine ⟨s.state, ?_, h.core, by simp [base, he']⟩
    cases s; simp only at he'; subst he'; rfl
  · obtain ⟨rops, hr, hc, hv⟩ := takeOps_spec h
    exact ⟨_, by rw [hr]; rfl, hc, hv⟩

theorem enqueueOp_spec {s : Sim} (h : WFB s.idMap s.state s.opQ) {t : ℕ} {cs : List ℕ} (op : OpCode)
    (hok : OpndsOk s.idMap cs t) :
    ∃ st q, s.enqueueOp t cs op = .ok { s with state := st, opQ := q } ∧ WFB s.idMap st q ∧
      opsL q (view s.idMap st) = ctrlL cs (opMat op) t (base s) := by
  unfold enqueueOp
  split
  · obtain ⟨st, hs, hc, hv⟩ := flushOps_spec h
    rw [hs]
    refine ⟨st, [(cs, t, op)], rfl, ⟨hc, ?_⟩, ?_⟩
    · intro o ho
      simp only [List.mem_singleton] at ho
      subst ho; exact hok
    · rw [hv, opsL_cons, opsL_nil, one_mul]; rfl
  · refine ⟨s.state, s.opQ ++ [(cs, t, op)], rfl, ⟨h.core, ?_⟩, ?_⟩
    · intro o ho
      rw [List.mem_append] at ho
      rcases ho with ho | ho
      · exact h.ops o ho
      · simp only [List.mem_singleton] at ho
        subst ho; exact hok
    · rw [opsL_snoc]; rfl

theorem applyMch_spec {env : Env} (he : env.eps = 0) {s : Sim} (h : WFB s.idMap s.state s.opQ)
    {t : ℕ} {cs : List ℕ} (hok : OpndsOk s.idMap cs t) :
    ∃ st, s.applyMch env cs t = .ok { s with state := st, opQ := [] } ∧ Core s.idMap st ∧
      view s.idMap st = ctrlL cs matH t (base s) := by
  obtain ⟨tl, csl, hr, htl, hcs⟩ := resolveAndCheck_ok hok
  obtain ⟨rops, ht, hc, hv⟩ := takeOps_spec h
  refine ⟨_, by simp only [applyMch, hr, ok_bind, ht]; rfl, ?_, ?_⟩
  · exact core_mch (hc.shuffled env) _ hcs htl hok.not_mem
  · rw [he, view_mch (hc.shuffled env) hcs htl hok.not_mem, view_shuffled hc, hv]

/-- The rotation matrix of `mcrotation`: about Y when `signFlip`, about X otherwise. -/
def rotMat (flip : Bool) (θ : ℝ) : Mat2 := if flip then matRy θ else matRx θ

/-- The Pauli matrix of the rotation axis. -/
def axisMat (flip : Bool) : Mat2 := if flip then matY else matX

theorem rotM01_eq (flip : Bool) (θ : ℝ) :
    rotM01 θ flip = if flip then -(Real.sin (θ / 2) : ℂ) else -Complex.I * Real.sin (θ / 2) := by
  unfold rotM01
  have h : Real.sin (θ / (-2)) = -Real.sin (θ / 2) := by rw [← Real.sin_neg]; congr 1; ring
  rw [h]
  have h2 : (⟨0, -Real.sin (θ / 2)⟩ : ℂ) = -Complex.I * Real.sin (θ / 2) := by
    apply Complex.ext <;> simp [-Complex.ofReal_sin]
  rw [h2]
  cases flip
  · simp
  · simp only [if_true]
    linear_combination (Real.sin (θ / 2) : ℂ) * Complex.I_mul_I

theorem rotM00_eq (θ : ℝ) : rotM00 θ = (Real.cos (θ / 2) : ℂ) := rfl

theorem rotMat_eq (flip : Bool) (θ : ℝ) :
    rotMat flip θ = mat (rotM00 θ) (rotM01 θ flip) (rotM01 θ flip * (if flip then -1 else 1))
      (rotM00 θ) := by
  rw [rotM01_eq, rotM00_eq]
  cases flip
  · simp [rotMat, matRx]
  · simp [rotMat, matRy]

theorem rotMat_half (flip : Bool) (θ : ℝ) (h : Real.cos (θ / 2) = 0) :
    rotMat flip θ = mat (rotM01 θ flip * (if flip then Complex.I else 1)) 0 0
      (rotM01 θ flip * (if flip then Complex.I else 1)) * axisMat flip := by
  rw [rotM01_eq]
  ext r k
  cases flip <;> cases r <;> cases k <;>
    simp [rotMat, axisMat, matRx, matRy, matX, matY, mat, Matrix.mul_apply, h, mul_assoc]

theorem view_scaleIf {m : IMap ℕ} {cs csl : List ℕ} {t tl : ℕ}
    (hcs : List.Forall₂ (fun i l => m.get i = some l) cs csl) (ht : m.get t = some tl)
    (hn : t ∉ cs) (f : ℂ) (st : List (ℕ × ℂ)) :
    view m (st.map (scaleIf csl f)) = ctrlL cs (mat f 0 0 f) t (view m st) := by
  apply view_map_of
  intro e _
  have := entryWave_phase hcs ht hn f f e
  unfold scaleIf
  simpa using this

theorem scaleIf_fst (csl : List ℕ) (f : ℂ) (e : ℕ × ℂ) : (scaleIf csl f e).1 = e.1 := by
  unfold scaleIf; split <;> rfl

theorem mcrotation_spec {env : Env} (he : env.eps = 0) {s : Sim} (h : WFB s.idMap s.state s.opQ)
    {t : ℕ} {cs : List ℕ} (hok : OpndsOk s.idMap cs t) {pauli : Sim → Except Panic Sim} {flip : Bool}
    {θ : ℝ}
    (hp : Real.cos (θ / 2) = 0 → ∃ st q, pauli s = .ok { s with state := st, opQ := q } ∧
      WFB s.idMap st q ∧ opsL q (view s.idMap st) = ctrlL cs (axisMat flip) t (base s)) :
    ∃ st q, mcrotation env pauli cs θ t flip s = .ok { s with state := st, opQ := q } ∧
      WFB s.idMap st q ∧ opsL q (view s.idMap st) = ctrlL cs (rotMat flip θ) t (base s) := by
  obtain ⟨tl, csl, hr, htl, hcs⟩ := resolveAndCheck_ok hok
  have hn := hok.not_mem
  unfold mcrotation
  simp only [he, nearlyZero_zero]
  split
  · rename_i h0
    have h0' : Real.cos (θ / 2) = 0 := by rw [rotM00_eq] at h0; exact_mod_cast h0
    obtain ⟨st, q, hps, hw, hv⟩ := hp h0'
    rw [hps]
    simp only [ok_bind, hr]
    have hmul : ∀ ψ, ctrlL cs (rotMat flip θ) t ψ =
        ctrlL cs (mat (rotM01 θ flip * (if flip then Complex.I else 1)) 0 0
          (rotM01 θ flip * (if flip then Complex.I else 1))) t (ctrlL cs (axisMat flip) t ψ) := by
      intro ψ
      rw [rotMat_half flip θ h0', ← Module.End.mul_apply, ctrlL_mul hn]
    by_cases hf : rotM01 θ flip * (if flip then Complex.I else 1) ≠ 1
    · rw [if_pos hf]
      obtain ⟨rops, ht, hc, hv2⟩ := takeOps_spec (s := { s with state := st, opQ := q }) hw
      rw [ht]
      refine ⟨_, [], rfl, WFB.nil ?_, ?_⟩
      · have := hc.mapKey (scaleIf csl (rotM01 θ flip * (if flip then Complex.I else 1)))
          (scaleIf_fst _ _)
        rw [List.map_map] at this
        exact this
      · have := view_scaleIf hcs htl hn (rotM01 θ flip * (if flip then Complex.I else 1))
          (st.map (applyOps rops))
        rw [List.map_map] at this
        rw [hmul, ← hv, opsL_nil, Module.End.one_apply]
        refine this.trans ?_
        congr 1
    · rw [if_neg hf]
      refine ⟨st, q, rfl, hw, ?_⟩
      rw [hmul, hv]
      have hf' : rotM01 θ flip * (if flip then Complex.I else 1) = 1 := by
        by_contra hc; exact hf hc
      rw [hf']
      have : mat 1 0 0 1 = (1 : Mat2) := by ext r k; cases r <;> cases k <;> simp [mat]
      rw [this, ctrlL_one]; rfl
  · split
    · rename_i h00 h01
      have hsin : Real.sin (θ / 2) = 0 := by
        rw [rotM01_eq] at h01
        cases flip
        · simp only [Bool.false_eq_true, if_false, neg_mul, neg_eq_zero, mul_eq_zero, Complex.I_ne_zero,
            false_or] at h01
          exact_mod_cast h01
        · simp only [if_true, neg_eq_zero] at h01
          exact_mod_cast h01
      split
      · rename_i h1
        have hcos : (Real.cos (θ / 2) : ℂ) = -1 := by
          rw [rotM00_eq] at h1; linear_combination h1
        obtain ⟨rops, ht, hc, hv⟩ := takeOps_spec h
        rw [ht]
        simp only [ok_bind, hr]
        refine ⟨_, [], rfl, WFB.nil ?_, ?_⟩
        · have := hc.mapKey (scaleIf csl (-1)) (scaleIf_fst _ _)
          rw [List.map_map] at this
          exact this
        · have := view_scaleIf hcs htl hn (-1) (s.state.map (applyOps rops))
          rw [List.map_map, hv] at this
          rw [opsL_nil, Module.End.one_apply]
          refine this.trans ?_
          congr 2
          rw [rotMat_eq, rotM00_eq, hcos, h01]; simp
      · rename_i h1
        refine ⟨s.state, s.opQ, rfl, h, ?_⟩
        have hcos : (Real.cos (θ / 2) : ℂ) = 1 := by
          have hsq := Real.sin_sq_add_cos_sq (θ / 2)
          rw [hsin] at hsq
          have : (Real.cos (θ / 2) - 1) * (Real.cos (θ / 2) + 1) = 0 := by linarith
          rcases mul_eq_zero.1 this with h2 | h2
          · have : Real.cos (θ / 2) = 1 := by linarith
            rw [this]; simp
          · exfalso; apply h1
            rw [rotM00_eq]; exact_mod_cast h2
        have : rotMat flip θ = 1 := by
          rw [rotMat_eq, rotM00_eq, hcos, h01]
          ext r k; cases r <;> cases k <;> simp [mat]
        rw [this, ctrlL_one]; rfl
    · obtain ⟨rops, ht, hc, hv⟩ := takeOps_spec h
      rw [hr]
      simp only [ok_bind, ht]
      refine ⟨_, [], rfl, WFB.nil ?_, ?_⟩
      · exact core_rot (hc.shuffled env) _ hcs htl hn _ _ _
      · rw [opsL_nil, Module.End.one_apply, view_rot (hc.shuffled env) hcs htl hn,
          view_shuffled hc, hv, rotMat_eq]

/-- In the half-turn case `mcrotation` looks at the state only through the Pauli gate. -/
theorem mcrotation_half {env : Env} (he : env.eps = 0) {θ : ℝ} (h : Real.cos (θ / 2) = 0)
    {pauli pauli' : Sim → Except Panic Sim} {s s' : Sim} (hp : pauli s = pauli' s') (cs : List ℕ)
    (t : ℕ) (flip : Bool) :
    mcrotation env pauli cs θ t flip s = mcrotation env pauli' cs θ t flip s' := by
  have h0 : rotM00 θ = 0 := by rw [rotM00_eq, h]; simp
  unfold mcrotation
  simp only [he, nearlyZero_zero, if_pos h0, hp]

/-! ### Whole states -/

/-- The matrix of an optional queue entry. -/
def optRy : Option ℝ → Mat2
  | some θ => matRy θ
  | none => 1
@[inherit_doc optRy] def optRx : Option ℝ → Mat2
  | some θ => matRx θ
  | none => 1
@[inherit_doc optRy] def optH (h : Bool) : Mat2 := if h then matH else 1

@[simp] theorem optRy_none : optRy none = 1 := rfl
@[simp] theorem optRx_none : optRx none = 1 := rfl
@[simp] theorem optH_false : optH false = 1 := rfl
@[simp] theorem optRy_some (θ : ℝ) : optRy (some θ) = matRy θ := rfl
@[simp] theorem optRx_some (θ : ℝ) : optRx (some θ) = matRx θ := rfl
@[simp] theorem optH_true : optH true = matH := rfl

/-- The queued rotation about X is an odd number of half-turns, which `mcrotation` executes by
calling `x`. -/
def HalfTurn (rx : Option ℝ) : Prop := ∃ b, rx = some b ∧ Real.cos (b / 2) = 0

open Classical in
/-- The rotation about Y a queue entry stands for.  Flushing a half-turn about X calls `x`, which
negates the entry of the Y queue although that rotation comes after the half-turn. -/
def effRy (rx ry : Option ℝ) : Option ℝ :=
  if HalfTurn rx then ry.map (fun a => a * (-1)) else ry

theorem not_halfTurn_none : ¬ HalfTurn none := by rintro ⟨b, hb, _⟩; cases hb

@[simp] theorem effRy_none_left (ry : Option ℝ) : effRy none ry = ry := by
  unfold effRy; rw [if_neg not_halfTurn_none]

@[simp] theorem effRy_none_right (rx : Option ℝ) : effRy rx none = none := by
  unfold effRy; split <;> rfl

@[simp] theorem effRy_isSome (rx ry : Option ℝ) : (effRy rx ry).isSome = ry.isSome := by
  unfold effRy; split <;> simp

theorem effRy_neg_right (rx ry : Option ℝ) :
    effRy rx (ry.map (fun a => a * (-1))) = (effRy rx ry).map (fun a => a * (-1)) := by
  unfold effRy; split <;> rfl

theorem halfTurn_neg (rx : Option ℝ) : HalfTurn (rx.map (fun a => a * (-1))) ↔ HalfTurn rx := by
  cases rx with
  | none => rfl
  | some b =>
    have e : -b / 2 = -(b / 2) := by ring
    simp [HalfTurn, e]

theorem effRy_neg_left (rx ry : Option ℝ) :
    effRy (rx.map (fun a => a * (-1))) ry = effRy rx ry := by
  unfold effRy
  by_cases h : HalfTurn rx
  · rw [if_pos h, if_pos ((halfTurn_neg rx).2 h)]
  · rw [if_neg h, if_neg (fun hc => h ((halfTurn_neg rx).1 hc))]

/-- The gate queued in the rotation and Hadamard queues for one qubit. -/
def pend (s : Sim) (q : ℕ) : Mat2 :=
  optRy (effRy (s.rxQ.get q) (s.ryQ.get q)) * (optRx (s.rxQ.get q) * optH (s.hFlag.testBit q))

/-- The state vector a simulator state stands for. -/
def abs (s : Sim) : Wave := pendL (pend s) s.idMap.keys (base s)

/-- Well-formed simulator states. -/
structure WF (s : Sim) : Prop where
  b : WFB s.idMap s.state s.opQ
  /-- gates are queued only for allocated qubits -/
  queued : ∀ q, s.hasQueued q = true → (s.idMap.get q).isSome

theorem hasQueued_eq (s : Sim) (q : ℕ) :
    s.hasQueued q = (s.hFlag.testBit q || (s.rxQ.get q).isSome || (s.ryQ.get q).isSome) := by
  simp [hasQueued, IMap.containsKey_eq]

theorem pend_of_not_queued {s : Sim} {q : ℕ} (h : s.hasQueued q = false) : pend s q = 1 := by
  rw [hasQueued_eq] at h
  simp only [Bool.or_eq_false_iff, Option.isSome_eq_false_iff, Option.isNone_iff_eq_none] at h
  simp [pend, h.1.1, h.1.2, h.2]

theorem modify_none {V : Type} {m : IMap V} {k : ℕ} (f : V → V) (h : m.get k = none) :
    m.modify k f = m := by
  unfold IMap.get at h
  unfold IMap.modify
  split
  · rename_i v hv; rw [hv] at h; simp at h
  · rfl

theorem single_ok {m : IMap ℕ} {t : ℕ} (h : (m.get t).isSome) : OpndsOk m [] t :=
  ⟨by simp, by intro i hi; simp only [List.nil_append, List.mem_singleton] at hi; subst hi; exact h⟩

end Qir
