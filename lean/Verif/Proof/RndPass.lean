import Verif.Proof.RndNoise

/-! One pass over the stored amplitudes, with rounding and with the dropping of small amplitudes. -/

noncomputable section
namespace Qir.Rnd
open Spec Function Sim Tol

variable {A : Arith}

/-- The cost of one pass over the amplitudes of `n` qubits. -/
def cost (A : Arith) (n : ℕ) : ℝ := unit (2 * A.eps) n

theorem cost_nonneg (hf : Fine A) (n : ℕ) : 0 ≤ cost A n :=
  unit_nonneg (by have := hf.pos; linarith) n

theorem cost_mono (hf : Fine A) {n n' : ℕ} (h : n ≤ n') : cost A n ≤ cost A n' :=
  unit_mono (by have := hf.pos; linarith) h

/-- `ψ` is at most `e` passes away from `φ`, unless that is more than the analysis allows. -/
structure Reach (A : Arith) (n e : ℕ) (ψ φ : Wave) : Prop where
  fin : FinSupp ψ
  fin' : FinSupp φ
  le : len φ + e * cost A n ≤ 3 / 2 → len (ψ - φ) ≤ e * cost A n

theorem Reach.near {n e : ℕ} {ψ φ : Wave} (h : Reach A n e ψ φ) (hl : len φ + e * cost A n ≤ 3 / 2) :
    Near (e * cost A n) ψ φ := ⟨h.fin, h.fin', h.le hl⟩

theorem Reach.refl {n : ℕ} {ψ : Wave} (h : FinSupp ψ) : Reach A n 0 ψ ψ :=
  ⟨h, h, fun _ => by rw [sub_self]; simp⟩

theorem Reach.of_eq {n : ℕ} {ψ φ : Wave} (h : FinSupp φ) (e : ψ = φ) : Reach A n 0 ψ φ := by
  rw [e]; exact .refl h

theorem Reach.trans {n e e' : ℕ} {χ ψ φ : Wave} (h' : Reach A n e' χ ψ) (h : Reach A n e ψ φ) (hf : Fine A) :
    Reach A n (e' + e) χ φ := by
  refine ⟨h'.fin, h.fin', ?_⟩
  intro hl
  have hc := cost_nonneg hf n
  have h0 : 0 ≤ (e' : ℝ) * cost A n := by positivity
  push_cast at hl ⊢
  rw [add_mul] at hl ⊢
  have n1 := h.near (by linarith)
  have h2 : len ψ ≤ len φ + e * cost A n := by
    have := len_add (finSupp_sub n1.fin n1.fin') n1.fin'
    rw [sub_add_cancel] at this
    linarith [n1.le]
  have n2 := h'.near (by linarith)
  exact (n2.trans n1).le

theorem Reach.mono {n e e' : ℕ} {ψ φ : Wave} (h : Reach A n e ψ φ) (hf : Fine A) (he : e ≤ e') :
    Reach A n e' ψ φ := by
  refine ⟨h.fin, h.fin', ?_⟩
  intro hl
  have hc := cost_nonneg hf n
  have h1 : (e : ℝ) * cost A n ≤ e' * cost A n := mul_le_mul_of_nonneg_right (by exact_mod_cast he) hc
  exact (h.le (by linarith)).trans h1

theorem Reach.map {n e : ℕ} {ψ φ : Wave} (h : Reach A n e ψ φ) {U : Module.End ℂ Wave} (hU : Iso U) :
    Reach A n e (U ψ) (U φ) := by
  refine ⟨hU.fin h.fin, hU.fin h.fin', ?_⟩
  intro hl
  rw [hU.len h.fin'] at hl
  exact ((h.near hl).map hU).le

theorem Reach.smul {n e : ℕ} {ψ φ : Wave} (h : Reach A n e ψ φ) {c : ℂ} (hc : ‖c‖ = 1) :
    Reach A n e (c • ψ) (c • φ) := by
  refine ⟨h.fin.smul c, h.fin'.smul c, ?_⟩
  intro hl
  rw [len_smul hc] at hl
  exact ((h.near hl).smul hc).le

/-- A queue of operations. -/
abbrev Queue := List (List ℕ × ℕ × OpCode)

/-- A step that costs at most `d` passes, where every queued operation has been paid for in advance. -/
def Cost (A : Arith) (n d : ℕ) (q' q : Queue) (ψ φ : Wave) : Prop :=
  ∃ e, e + q'.length ≤ d + q.length ∧ Reach A n e ψ φ

theorem Cost.refl {n : ℕ} {q : Queue} {ψ : Wave} (h : FinSupp ψ) : Cost A n 0 q q ψ ψ :=
  ⟨0, by omega, .refl h⟩

theorem Cost.trans {n d d' : ℕ} {q q' q'' : Queue} {χ ψ φ : Wave} (h' : Cost A n d' q'' q' χ ψ)
    (h : Cost A n d q' q ψ φ) (hf : Fine A) : Cost A n (d' + d) q'' q χ φ := by
  obtain ⟨e', h1, h2⟩ := h'
  obtain ⟨e, h3, h4⟩ := h
  exact ⟨e' + e, by omega, h2.trans h4 hf⟩

theorem Cost.mono {n d d' : ℕ} {q q' : Queue} {ψ φ : Wave} (h : Cost A n d q' q ψ φ) (hd : d ≤ d') :
    Cost A n d' q' q ψ φ := by
  obtain ⟨e, h1, h2⟩ := h
  exact ⟨e, by omega, h2⟩

theorem Cost.map {n d : ℕ} {q q' : Queue} {ψ φ : Wave} (h : Cost A n d q' q ψ φ) {U : Module.End ℂ Wave}
    (hU : Iso U) : Cost A n d q' q (U ψ) (U φ) := by
  obtain ⟨e, h1, h2⟩ := h
  exact ⟨e, h1, h2.map hU⟩

theorem Cost.smul {n d : ℕ} {q q' : Queue} {ψ φ : Wave} (h : Cost A n d q' q ψ φ) {c : ℂ} (hc : ‖c‖ = 1) :
    Cost A n d q' q (c • ψ) (c • φ) := by
  obtain ⟨e, h1, h2⟩ := h
  exact ⟨e, h1, h2.smul hc⟩

/-! ### Rounding and dropping -/

/-- `Z` is `X` up to rounding, without some small amplitudes. -/
def Pass (A : Arith) (X Z : List (ℕ × ℂ)) : Prop :=
  ∃ Y, Noise A X Y ∧ Drop (2 * (11 / 10 * A.eps) ^ 2) Y Z

theorem Pass.append {X Z X' Z' : List (ℕ × ℂ)} (h : Pass A X Z) (h' : Pass A X' Z') :
    Pass A (X ++ X') (Z ++ Z') := by
  obtain ⟨Y, h1, h2⟩ := h
  obtain ⟨Y', h3, h4⟩ := h'
  exact ⟨Y ++ Y', h1.append h3, h2.append h4⟩

theorem Pass.flatMap {f g : ℕ × ℂ → List (ℕ × ℂ)} {l : List (ℕ × ℂ)}
    (h : ∀ e ∈ l, Pass A (f e) (g e)) : Pass A (l.flatMap f) (l.flatMap g) := by
  induction l with
  | nil => exact ⟨[], .nil, .nil⟩
  | cons e l ih =>
    rw [List.flatMap_cons, List.flatMap_cons]
    exact (h e (by simp)).append (ih (fun e he => h e (by simp [he])))

theorem Noise.pass {X Y : List (ℕ × ℂ)} (h : Noise A X Y) : Pass A X Y := ⟨Y, h, .refl _ _⟩

theorem Pass.reach (hf : Fine A) {X Z : List (ℕ × ℂ)} (h : Pass A X Z) {m : IMap ℕ} (hc : Core m X) :
    Core m Z ∧ Reach A m.keys.length 1 (view m Z) (view m X) := by
  obtain ⟨Y, hn, hd⟩ := h
  have hcY := core_keys hn.keys hc
  have hp := hf.pos
  have hd' := (hd.near (by linarith) hcY).1
  refine ⟨core_sublist hd.sublist hcY, finSupp_view _ _, finSupp_view _ _, ?_⟩
  intro hl
  have h0 := cost_nonneg hf m.keys.length
  rw [Nat.cast_one, one_mul] at hl ⊢
  have hn' := hn.near hc (by linarith)
  refine (hd'.trans hn').le.trans ?_
  unfold cost unit
  have hfine := hf.fine
  have h2 : (1 : ℝ) ≤ √2 := Real.one_le_sqrt.2 (by norm_num)
  have h3 : 0 ≤ √((2 : ℝ) ^ m.keys.length) := Real.sqrt_nonneg _
  have h4 : 11 / 10 * A.eps * √2 + 200 * A.v ≤ 2 * A.eps * √2 := by nlinarith
  nlinarith [mul_le_mul_of_nonneg_right h4 h3]

theorem noise_reach (hf : Fine A) {X Y : List (ℕ × ℂ)} (h : Noise A X Y) {m : IMap ℕ} (hc : Core m X) :
    Core m Y ∧ Reach A m.keys.length 1 (view m Y) (view m X) := h.pass.reach hf hc

/-! ### Queued operations -/

theorem noise_mul (hf : Fine A) {k : ℕ} {z w w0 : ℂ} (hw : ‖w - w0‖ ≤ 30 * A.v) (h0 : ‖w0‖ = 1) :
    Noise A [(k, z * w0)] [(k, A.mul z w)] := by
  apply noise_one
  have := mul_err' hf z (le_refl 30) hw h0.le
  rw [norm_mul, h0, mul_one]
  have hv := A.v_nonneg
  have hz := norm_nonneg z
  nlinarith

theorem noise_mul_exact (hf : Fine A) {k : ℕ} {z w : ℂ} (h0 : ‖w‖ = 1) :
    Noise A [(k, z * w)] [(k, A.mul z w)] :=
  noise_mul hf (by rw [sub_self, norm_zero]; have := A.v_nonneg; linarith) h0

theorem frac_nonneg : 0 ≤ fracSqrt2 := by unfold fracSqrt2; positivity

theorem frac_le : fracSqrt2 ≤ 1 := by
  unfold fracSqrt2
  rw [div_le_one (by positivity)]
  exact Real.one_le_sqrt.2 (by norm_num)

theorem frac_err (A : Arith) : |A.fracSqrt2 - fracSqrt2| ≤ A.v := by
  have h := A.fl_err fracSqrt2
  have h1 := frac_nonneg
  have h2 := frac_le
  rw [abs_of_nonneg h1] at h
  have := A.u_nonneg
  unfold Arith.v
  unfold Arith.fracSqrt2
  nlinarith

theorem norm_pair_le {a b c d k : ℝ} (h : |a - c| ≤ k) (h' : |b - d| ≤ k) :
    ‖(⟨a, b⟩ : ℂ) - ⟨c, d⟩‖ ≤ 2 * k := by
  have := norm_le_add_abs ((⟨a, b⟩ : ℂ) - ⟨c, d⟩)
  simp only [Complex.sub_re, Complex.sub_im] at this
  linarith

theorem norm_tPhase : ‖(⟨fracSqrt2, fracSqrt2⟩ : ℂ)‖ = 1 := by
  rw [tPhase]
  have := Complex.norm_exp_ofReal_mul_I (Real.pi / 4)
  rw [mul_comm] at this
  simpa using this

theorem norm_tadjPhase : ‖(⟨fracSqrt2, -fracSqrt2⟩ : ℂ)‖ = 1 := by
  have h := norm_tPhase
  have e : (⟨fracSqrt2, -fracSqrt2⟩ : ℂ) = (starRingEnd ℂ) ⟨fracSqrt2, fracSqrt2⟩ := by
    apply Complex.ext <;> simp
  rw [e, Complex.norm_conj, h]

theorem noise_phase (hf : Fine A) {φ φ0 : ℂ} (hw : ‖φ - φ0‖ ≤ 30 * A.v) (h0 : ‖φ0‖ = 1) (e : ℕ × ℂ) (t : ℕ) :
    Noise A [Sim.phaseTransform φ0 e t] [Rnd.phaseTransform A φ e t] := by
  unfold Sim.phaseTransform Rnd.phaseTransform
  split
  · exact noise_mul hf hw h0
  · exact noise_mul_exact hf (by simp)

theorem noise_op (hf : Fine A) (op : List ℕ × ℕ × OpCode) (e : ℕ × ℂ) :
    Noise A [Sim.applyOp op e] [Rnd.applyOp A op e] := by
  have hv := A.v_nonneg
  have same : ∀ {φ : ℂ}, ‖φ‖ = 1 → Noise A [Sim.phaseTransform φ e op.2.1] [Rnd.phaseTransform A φ e op.2.1] :=
    fun h => noise_phase hf (by rw [sub_self, norm_zero]; linarith) h e _
  unfold Sim.applyOp Rnd.applyOp
  split
  · cases op.2.2 with
    | X => exact noise_refl _
    | Y =>
      simp only [Sim.yTransform, Rnd.yTransform]
      refine noise_mul_exact hf ?_
      split <;> simp
    | Z => exact same (by simp)
    | S => exact same (by simp)
    | Sadj => exact same (by simp)
    | T =>
      refine noise_phase hf ?_ norm_tPhase e _
      have := norm_pair_le (frac_err A) (frac_err A)
      linarith
    | Tadj =>
      refine noise_phase hf ?_ norm_tadjPhase e _
      have := norm_pair_le (frac_err A) (b := -A.fracSqrt2) (d := -fracSqrt2) (by
        rw [show -A.fracSqrt2 - -fracSqrt2 = -(A.fracSqrt2 - fracSqrt2) by ring, abs_neg]; exact frac_err A)
      linarith
    | Rz θ =>
      simp only [Sim.rzTransform, Rnd.rzTransform]
      generalize θ / 2 * (if e.1.testBit op.2.1 then (1 : ℝ) else -1) = a
      have ea : (⟨0, a⟩ : ℂ) = a * Complex.I := by apply Complex.ext <;> simp
      have ee : Complex.exp ⟨0, a⟩ = ⟨Real.cos a, Real.sin a⟩ := by
        rw [ea, Complex.exp_mul_I]
        apply Complex.ext <;> simp [Complex.cos_ofReal_re, Complex.sin_ofReal_re]
      refine noise_mul hf ?_ ?_
      · rw [ee]
        have := norm_pair_le (A.cos_err a) (A.sin_err a)
        unfold Arith.v at hv ⊢
        linarith
      · rw [ea]; exact Complex.norm_exp_ofReal_mul_I a
  · exact noise_refl _

theorem iso_opsL {m : IMap ℕ} {ops : Queue} (h : ∀ op ∈ ops, OpndsOk m op.1 op.2.1) : Iso (opsL ops) := by
  induction ops with
  | nil => exact iso_one
  | cons op ops ih =>
    rw [opsL_cons]
    exact (ih (fun o ho => h o (by simp [ho]))).mul (iso_ctrl (isom_opMat _) (h op (by simp)).not_mem)

/-- Applying a queue costs one pass for each operation. -/
theorem ops_reach (hf : Fine A) {m : IMap ℕ} {ops rops : Queue} (hr : resolveOps m ops = .ok rops)
    {st : List (ℕ × ℂ)} (hc : Core m st) :
    Core m (st.map (Rnd.applyOps A rops)) ∧
      Reach A m.keys.length ops.length (view m (st.map (Rnd.applyOps A rops))) (opsL ops (view m st)) := by
  induction ops generalizing rops st with
  | nil =>
    simp [resolveOps] at hr; subst hr
    have e : st.map (Rnd.applyOps A []) = st := by
      rw [show Rnd.applyOps A [] = id from rfl, List.map_id]
    rw [e, opsL_nil, Module.End.one_apply, List.length_nil]
    exact ⟨hc, .refl (finSupp_view _ _)⟩
  | cons op ops ih =>
    obtain ⟨tl, csl, rest, rfl, hrest, h1⟩ := resolveOps_cons_ok hr
    obtain ⟨h2, h3, h4⟩ := resolveAndCheck_eq_ok.1 h1
    have hc1 : Core m (st.map (Sim.applyOp (csl, tl, op.2.2))) := by
      have := hc.applyOps (ops := [op]) (rops := [(csl, tl, op.2.2)]) (by
        obtain ⟨c, t, o⟩ := op
        simp only [resolveOps, bind, Except.bind]
        simp only at h1
        rw [h1]; rfl)
      exact this
    have hv1 : view m (st.map (Sim.applyOp (csl, tl, op.2.2))) = opL op (view m st) :=
      view_map_of (fun e _ => entryWave_applyOp hc.inj h4 h3 (opndsOk_of_resolve h1).not_mem _ e)
    obtain ⟨hc2, hr2⟩ := noise_reach hf (Noise.map (fun e _ => noise_op hf (csl, tl, op.2.2) e) (l := st)) hc1
    obtain ⟨hc3, hr3⟩ := ih hrest hc2
    rw [List.map_map] at hc3 hr3
    refine ⟨hc3, ?_⟩
    rw [hv1] at hr2
    have h5 := hr3.trans (hr2.map (iso_opsL (opnds_of_resolveOps hrest))) hf
    rw [opsL_cons, Module.End.mul_apply, List.length_cons]
    exact h5

theorem takeOps_spec (hf : Fine A) {s : Sim} (h : WFB s.idMap s.state s.opQ) :
    ∃ rops, s.takeOps = .ok (rops, { s with opQ := [] }) ∧
      Core s.idMap (s.state.map (Rnd.applyOps A rops)) ∧
      Reach A s.idMap.keys.length s.opQ.length (view s.idMap (s.state.map (Rnd.applyOps A rops))) (base s) := by
  obtain ⟨rops, hr⟩ := resolveOps_ok h.ops
  obtain ⟨hc, hv⟩ := ops_reach hf hr h.core
  exact ⟨rops, by simp [takeOps, hr], hc, hv⟩

theorem flushOps_spec (hf : Fine A) {s : Sim} (h : WFB s.idMap s.state s.opQ) :
    ∃ st, Rnd.flushOps A s = .ok { s with state := st, opQ := [] } ∧ Core s.idMap st ∧
      Reach A s.idMap.keys.length s.opQ.length (view s.idMap st) (base s) := by
  unfold Rnd.flushOps
  split
  · rename_i he
    have he' : s.opQ = [] := by simpa using he
    refine ⟨s.state, ?_, h.core, ?_⟩
    · cases s; simp only at he'; subst he'; rfl
    · rw [he']; exact .of_eq (finSupp_base s) (by simp [base, he'])
  · obtain ⟨rops, hr, hc, hv⟩ := takeOps_spec hf h
    exact ⟨_, by rw [hr]; rfl, hc, hv⟩

theorem enqueueOp_spec (hf : Fine A) {s : Sim} (h : WFB s.idMap s.state s.opQ) {t : ℕ} {cs : List ℕ} (op : OpCode)
    (hok : OpndsOk s.idMap cs t) :
    ∃ st q, Rnd.enqueueOp A t cs op s = .ok { s with state := st, opQ := q } ∧ WFB s.idMap st q ∧
      Cost A s.idMap.keys.length 1 q s.opQ (opsL q (view s.idMap st)) (ctrlL cs (opMat op) t (base s)) := by
  unfold Rnd.enqueueOp
  split
  · obtain ⟨st, hs, hc, hv⟩ := flushOps_spec hf h
    rw [hs]
    refine ⟨st, [(cs, t, op)], rfl, ⟨hc, ?_⟩, s.opQ.length, by simp [Nat.add_comm], ?_⟩
    · intro o ho
      simp only [List.mem_singleton] at ho
      subst ho; exact hok
    · rw [opsL_cons, opsL_nil, one_mul]
      exact hv.map (iso_ctrl (isom_opMat _) hok.not_mem)
  · refine ⟨s.state, s.opQ ++ [(cs, t, op)], rfl, ⟨h.core, ?_⟩, 0, by simp [Nat.add_comm], ?_⟩
    · intro o ho
      rw [List.mem_append] at ho
      rcases ho with ho | ho
      · exact h.ops o ho
      · simp only [List.mem_singleton] at ho
        subst ho; exact hok
    · rw [opsL_snoc]
      exact .refl ((finSupp_base s).ctrl _ _ _)

/-! ### Hadamards -/

theorem not_nearlyZeroR_neg (x : ℝ) : ¬ NearlyZeroR (-1) x := by
  rw [nearlyZeroR_iff]; have := abs_nonneg x; linarith

theorem not_nearlyZero_neg (z : ℂ) : ¬ NearlyZero (-1) z := fun h => not_nearlyZeroR_neg _ h.1

theorem drop0_if {z : ℂ} {e : ℕ × ℂ} (h : z = 0 → e.2 = 0) :
    Drop 0 (if NearlyZero (-1) z then [] else [e]) (if NearlyZero 0 z then [] else [e]) := by
  rw [if_neg (not_nearlyZero_neg z)]
  split
  · rename_i h0
    rw [nearlyZero_zero] at h0
    exact .drop e (by rw [h h0]; simp) .nil
  · exact .refl _ _

theorem view_drop0 {l l' : List (ℕ × ℂ)} (h : Drop 0 l l') (m : IMap ℕ) : view m l = view m l' := by
  obtain ⟨r, _, h2, h3, _⟩ := h.split m
  rw [h3]
  have : view m r = 0 := by
    clear h3 h
    rename_i h4 h5
    clear h4 h5
    induction r with
    | nil => simp
    | cons e r ih =>
      rw [view_cons, ih (fun e he => h2 e (by simp [he]))]
      have h0 : e.2 = 0 := by
        have := h2 e (by simp)
        exact Complex.normSq_eq_zero.1 (le_antisymm this (Complex.normSq_nonneg _))
      simp [entryWave, h0]
  rw [this, add_zero]

theorem view_mch_neg {m : IMap ℕ} {l : List (ℕ × ℂ)} (hcore : Core m l) {cs csl : List ℕ}
    {t tl : ℕ} (hcs : List.Forall₂ (fun i l => m.get i = some l) cs csl) (hget : m.get t = some tl)
    (ht : t ∉ cs) : view m (l.flatMap (Sim.mchEntry (-1) l csl tl)) = ctrlL cs matH t (view m l) := by
  rw [← view_mch hcore hcs hget ht]
  apply view_drop0
  apply Drop.flatMap
  intro e
  unfold Sim.mchEntry
  split
  · simp only
    split
    · exact .refl _ _
    · split
      · exact (drop0_if (fun h => by simp [h])).append (drop0_if (fun h => by simp [h]))
      · exact .refl _ _
  · exact .refl _ _

theorem view_rot_neg {m : IMap ℕ} {l : List (ℕ × ℂ)} (hcore : Core m l) {cs csl : List ℕ}
    {t tl : ℕ} (hcs : List.Forall₂ (fun i l => m.get i = some l) cs csl) (hget : m.get t = some tl)
    (ht : t ∉ cs) (m00 m01 m10 : ℂ) :
    view m (l.flatMap (Sim.rotEntry (-1) l csl tl m00 m01 m10)) =
      ctrlL cs (mat m00 m01 m10 m00) t (view m l) := by
  rw [← view_rot hcore hcs hget ht]
  apply view_drop0
  apply Drop.flatMap
  intro e
  unfold Sim.rotEntry
  split
  · simp only
    split
    · exact .refl _ _
    · split
      · exact (drop0_if (fun h => by simp [h])).append (drop0_if (fun h => by simp [h]))
      · exact .refl _ _
  · exact .refl _ _

/-- Multiplication by a rounded real number. -/
theorem scaled (hf : Fine A) {z y : ℂ} {r r' k t : ℝ} (hk : k ≤ 20) (h : ‖y - z‖ ≤ k * A.v * t)
    (hz : ‖z‖ ≤ t) (ht : 1 ≤ t) (hr : |r| ≤ 1) (hr' : |r' - r| ≤ A.v) :
    ‖A.scale y r' - z * r‖ ≤ (k + 5) * A.v * t := by
  have hv := A.v_nonneg
  have hs := hf.small
  have hvt : 0 ≤ A.v * t := by positivity
  have h1 := scale_err (A := A) y r'
  have h2 : |r'| ≤ 1 + 1 / 4000 := by
    have := abs_add_le (r' - r) r
    rw [sub_add_cancel] at this
    linarith
  have hkv : k * A.v * t ≤ (1 / 200) * t := by nlinarith
  have h3 : ‖y‖ ≤ (1 + 1 / 200) * t := by
    have := norm_add_le (y - z) z
    rw [sub_add_cancel] at this
    linarith
  have h4 : ‖y * (r' : ℂ) - z * (r : ℂ)‖ ≤ k * A.v * t * (1 + 1 / 4000) + t * A.v := by
    rw [show y * (r' : ℂ) - z * (r : ℂ) = (y - z) * (r' : ℂ) + z * ((r' - r : ℝ) : ℂ) by push_cast; ring]
    refine (norm_add_le _ _).trans ?_
    rw [norm_mul, norm_mul, Complex.norm_real, Complex.norm_real, Real.norm_eq_abs, Real.norm_eq_abs]
    exact add_le_add (mul_le_mul h h2 (abs_nonneg _) ((norm_nonneg _).trans h))
      (mul_le_mul hz hr' (abs_nonneg _) (by linarith))
  have h5 := norm_sub_le_norm_sub_add_norm_sub (A.scale y r') (y * (r' : ℂ)) (z * (r : ℂ))
  have h6 : A.u * (‖y‖ * |r'|) ≤ A.v * ((1 + 1 / 200) * t * (1 + 1 / 4000)) :=
    mul_le_mul A.u_le_v (mul_le_mul h3 h2 (abs_nonneg _) (by linarith)) (by positivity) hv
  have h7 : A.eta ≤ A.v * t := by have := A.eta_le_v; nlinarith
  nlinarith

theorem pass_if {k : ℕ} {z y w w' : ℂ} {P : Prop} [Decidable P] {t : ℝ}
    {k' : ℕ} {P' : Prop} [Decidable P'] (h : ‖y - z‖ ≤ 30 * A.v * t)
    (h' : ‖w' - w‖ ≤ 30 * A.v * t) (ht : t ^ 2 ≤ 4 * (Complex.normSq z + Complex.normSq w + 2))
    (hd : P → NearlyZero (11 / 10 * A.eps) y) (hd' : P' → NearlyZero (11 / 10 * A.eps) w') :
    Pass A [(k, z), (k', w)] ((if P then [] else [(k, y)]) ++ (if P' then [] else [(k', w')])) := by
  refine ⟨_, noise_pair h h' ht, ?_⟩
  rw [show [(k, y), (k', w')] = [(k, y)] ++ [(k', w')] from rfl]
  refine Drop.append ?_ ?_
  · split
    · rename_i hp
      exact .drop _ (normSq_le_of_nearlyZero (hd hp)) .nil
    · exact .refl _ _
  · split
    · rename_i hp
      exact .drop _ (normSq_le_of_nearlyZero (hd' hp)) .nil
    · exact .refl _ _

theorem sq_le_pair {e f z w : ℂ}
    (h : Complex.normSq z + Complex.normSq w = Complex.normSq e + Complex.normSq f) :
    (‖e‖ + ‖f‖ + 1) ^ 2 ≤ 4 * (Complex.normSq z + Complex.normSq w + 2) := by
  rw [h, Complex.normSq_eq_norm_sq, Complex.normSq_eq_norm_sq]
  nlinarith [sq_nonneg (‖e‖ - ‖f‖), sq_nonneg (‖e‖ - 1), sq_nonneg (‖f‖ - 1), norm_nonneg e, norm_nonneg f]

theorem sq_le_single {e z w : ℂ}
    (h : Complex.normSq z + Complex.normSq w = Complex.normSq e) :
    (‖e‖ + 1) ^ 2 ≤ 4 * (Complex.normSq z + Complex.normSq w + 2) := by
  rw [h, Complex.normSq_eq_norm_sq]
  nlinarith [sq_nonneg (‖e‖ - 1), norm_nonneg e]

theorem nearlyZero_mono {a b : ℝ} (h : a ≤ b) {z : ℂ} (hz : NearlyZero a z) : NearlyZero b z := by
  unfold NearlyZero at hz ⊢
  rw [nearlyZeroR_iff, nearlyZeroR_iff] at hz ⊢
  exact ⟨hz.1.trans h, hz.2.trans h⟩

theorem nearlyZero_scale (hf : Fine A) {z : ℂ} (h : NearlyZero A.eps z) {r : ℝ} (hr : |r| ≤ 1 + 1 / 4000) :
    NearlyZero (11 / 10 * A.eps) (A.scale z r) := by
  have hp := hf.pos
  have hfine := hf.fine
  have hs := hf.small
  have key : ∀ x : ℝ, |x| ≤ A.eps → |A.fl (x * r)| ≤ 11 / 10 * A.eps := by
    intro x hx
    have h1 := A.fl_err (x * r)
    rw [abs_mul] at h1
    have h2 : |x| * |r| ≤ A.eps * (1 + 1 / 4000) := mul_le_mul hx hr (abs_nonneg _) hp.le
    have h3 : |A.fl (x * r)| ≤ |A.fl (x * r) - x * r| + |x * r| := by
      have := abs_add_le (A.fl (x * r) - x * r) (x * r)
      rwa [sub_add_cancel] at this
    rw [abs_mul] at h3
    have h4 : A.u * (|x| * |r|) ≤ (1 / 4000) * (A.eps * (1 + 1 / 4000)) :=
      mul_le_mul (A.u_le_v.trans hs) h2 (by positivity) (by norm_num)
    have h5 := A.eta_le_v
    linarith
  unfold NearlyZero at h ⊢
  rw [nearlyZeroR_iff, nearlyZeroR_iff] at h ⊢
  exact ⟨key _ h.1, key _ h.2⟩

theorem frac_abs_le (hf : Fine A) : |A.fracSqrt2| ≤ 1 + 1 / 4000 := by
  have h := frac_err A
  have h1 := abs_add_le (A.fracSqrt2 - fracSqrt2) fracSqrt2
  rw [sub_add_cancel, abs_of_nonneg frac_nonneg] at h1
  have := frac_le
  have := hf.small
  linarith

theorem frac_sq : fracSqrt2 * fracSqrt2 = 1 / 2 := by
  unfold fracSqrt2
  rw [div_mul_div_comm, Real.mul_self_sqrt (by norm_num)]; norm_num

theorem pass_mch (hf : Fine A) (m : List (ℕ × ℂ)) (cs : List ℕ) (t : ℕ) (e : ℕ × ℂ) :
    Pass A (Sim.mchEntry (-1) m cs t e) (Rnd.mchEntry A m cs t e) := by
  have hv := A.v_nonneg
  have hfr : |fracSqrt2| ≤ 1 := by rw [abs_of_nonneg frac_nonneg]; exact frac_le
  have hfe := frac_err A
  unfold Sim.mchEntry Rnd.mchEntry
  split
  · simp only
    cases lookupMap m (e.1 ^^^ setBit 0 t true) with
    | none =>
      apply Noise.pass
      have hs1 := scaled hf (k := 0) (t := ‖e.2‖ + 1) (by norm_num) (z := e.2) (y := e.2) (by simp) (by linarith)
        (by have := norm_nonneg e.2; linarith) hfr hfe
      have hs2 := scaled hf (k := 0 + 5) (t := ‖e.2‖ + 1) (by norm_num) hs1 (by
        rw [norm_mul, Complex.norm_real, Real.norm_eq_abs]
        have := mul_le_mul_of_nonneg_left hfr (norm_nonneg e.2)
        linarith) (by have := norm_nonneg e.2; linarith)
        (r := if e.1.testBit t then -1 else 1) (r' := if e.1.testBit t then -1 else 1) (by split <;> simp)
        (by rw [sub_self, abs_zero]; exact hv)
      have ht : (0 : ℝ) ≤ ‖e.2‖ + 1 := by have := norm_nonneg e.2; linarith
      have hvt : 0 ≤ A.v * (‖e.2‖ + 1) := by positivity
      have hs3 := hs1.trans (show (0 + 5) * A.v * (‖e.2‖ + 1) ≤ 30 * A.v * (‖e.2‖ + 1) by nlinarith)
      refine noise_pair (t := ‖e.2‖ + 1) hs3 ?_ ?_
      · have ec : (((if e.1.testBit t then (-1 : ℝ) else 1) : ℝ) : ℂ) = if e.1.testBit t then (-1 : ℂ) else 1 := by
          split <;> simp
        rw [ec] at hs2
        exact hs2.trans (by nlinarith)
      · apply sq_le_single
        have e1 : Complex.normSq (if e.1.testBit t then (-1 : ℂ) else 1) = 1 := by split <;> simp
        rw [Complex.normSq_mul, Complex.normSq_mul, Complex.normSq_mul, e1, Complex.normSq_ofReal, frac_sq]
        ring
    | some f =>
      simp only
      split
      · rw [if_neg (not_nearlyZero_neg _), if_neg (not_nearlyZero_neg _)]
        have hn1 := norm_nonneg e.2
        have hn2 := norm_nonneg f
        have hvt : 0 ≤ A.v * (‖e.2‖ + ‖f‖) := by positivity
        have ha := add_err (A := A) e.2 f
        have hb := sub_err (A := A) e.2 f
        have na := norm_add_le e.2 f
        have nb := norm_sub_le e.2 f
        have hu := A.u_le_v
        have heta := A.eta_le_v
        have b1 : ‖A.add e.2 f - (e.2 + f)‖ ≤ 2 * A.v * (‖e.2‖ + ‖f‖ + 1) := by
          have := mul_le_mul hu na (norm_nonneg _) hv
          nlinarith
        have b2 : ‖A.sub e.2 f - (e.2 - f)‖ ≤ 2 * A.v * (‖e.2‖ + ‖f‖ + 1) := by
          have := mul_le_mul hu nb (norm_nonneg _) hv
          nlinarith
        have s1 := scaled hf (by norm_num) b1 (by linarith) (by linarith) hfr hfe
        have s2 := scaled hf (by norm_num) b2 (by linarith) (by linarith) hfr hfe
        have s3 := s1.trans (show (2 + 5) * A.v * (‖e.2‖ + ‖f‖ + 1) ≤ 30 * A.v * (‖e.2‖ + ‖f‖ + 1) by nlinarith)
        have s4 := s2.trans (show (2 + 5) * A.v * (‖e.2‖ + ‖f‖ + 1) ≤ 30 * A.v * (‖e.2‖ + ‖f‖ + 1) by nlinarith)
        refine pass_if (t := ‖e.2‖ + ‖f‖ + 1) s3 s4 ?_
          (fun h => nearlyZero_scale hf h (frac_abs_le hf)) (fun h => nearlyZero_scale hf h (frac_abs_le hf))
        apply sq_le_pair
        rw [Complex.normSq_mul, Complex.normSq_mul, Complex.normSq_ofReal, frac_sq]
        simp only [Complex.normSq_apply, Complex.add_re, Complex.add_im, Complex.sub_re, Complex.sub_im]
        ring
      · exact (noise_refl _).pass
  · exact (noise_refl _).pass

theorem applyMch_spec (hf : Fine A) {s : Sim} (h : WFB s.idMap s.state s.opQ)
    {t : ℕ} {cs : List ℕ} (hok : OpndsOk s.idMap cs t) :
    ∃ st, Rnd.applyMch A cs t s = .ok { s with state := st, opQ := [] } ∧ Core s.idMap st ∧
      Cost A s.idMap.keys.length 1 [] s.opQ (view s.idMap st) (ctrlL cs matH t (base s)) := by
  obtain ⟨tl, csl, hr, htl, hcs⟩ := resolveAndCheck_ok hok
  obtain ⟨rops, ht, hc, hv⟩ := takeOps_spec hf h
  have hp := (Pass.flatMap (fun e _ => pass_mch hf (A.shuffle (collectMap (s.state.map (Rnd.applyOps A rops))))
    csl tl e) (l := A.shuffle (collectMap (s.state.map (Rnd.applyOps A rops))))).reach hf
    (core_mch (hc.shuffled A.toEnv) _ hcs htl hok.not_mem)
  rw [view_mch_neg (hc.shuffled A.toEnv) hcs htl hok.not_mem, view_shuffled hc] at hp
  refine ⟨_, by simp only [Rnd.applyMch, hr, ok_bind, ht]; rfl, hp.1, 1 + s.opQ.length, by simp, ?_⟩
  exact hp.2.trans (hv.map (iso_ctrl isom_H hok.not_mem)) hf

end Qir.Rnd
