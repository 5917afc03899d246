import Verif.Proof.Backend

/-! The backend refines the ideal device: composite gates, measurements, results. -/

noncomputable section
namespace Qir.Back
open Spec Function Sim Qir.Out

variable {env : Env} {s : Backend} {δ : Device}

theorem apply_psi_mul (q : ℕ) (U V : Mat2) (ψ : Wave) :
    ctrl [] U q (ctrl [] V q ψ) = ctrl [] (U * V) q ψ := by
  have := LinearMap.congr_fun (gateL_mul q U V) ψ
  exact this

theorem apply_live (qs : List ℕ) (hq : ∀ q ∈ qs, q ∈ δ.live) (hl : ∀ q ∈ δ.live, q < δ.high) : δ.useAll qs = δ := by
  induction qs with
  | nil => rfl
  | cons q qs ih =>
    rw [useAll_cons, Device.use, if_pos (hl q (hq q List.mem_cons_self)),
      ih (fun i hi => hq i (List.mem_cons_of_mem _ hi))]

theorem use_with (q : ℕ) (φ : Wave) : Device.use q { δ with psi := φ } = { δ.use q with psi := φ } := by
  unfold Device.use; simp only; split <;> rfl

theorem useAll_with (qs : List ℕ) (φ : Wave) : ∀ δ : Device,
    Device.useAll qs { δ with psi := φ } = { δ.useAll qs with psi := φ } := by
  induction qs with
  | nil => intro δ; rfl
  | cons q qs ih => intro δ; rw [useAll_cons, use_with, ih]; rfl

theorem apply_apply (as bs : List ℕ) (U V : Wave → Wave) :
    (δ.apply as U).apply bs V = { δ.useAll (as ++ bs) with psi := V (U δ.psi) } := by
  unfold Device.apply; rw [useAll_with, useAll_append]

theorem low_of (he : env.eps = 0) (h : QRef s δ) {qs : List ℕ} (hu : ∀ i ∈ qs, δ.Usable i) (U : Wave → Wave) :
    (∀ i ∈ qs, i ∈ (δ.apply qs U).live) ∧ ∀ i, δ.Usable i → (δ.apply qs U).Usable i := by
  have := ensureAll_ref he qs h hu
  exact ⟨this.2.1, this.2.2.2⟩

theorem sx_ref (he : env.eps = 0) (h : QRef s δ) {q : ℕ} (hq : δ.Usable q) :
    ∃ s', sx env q s = .ok s' ∧ QRef s' (δ.apply [q] (ctrl [] matSx q)) := by
  obtain ⟨s1, e1, r1⟩ := gate_ref he h hq .h trivial
  have hl := (low_of he h (qs := [q]) (by simpa using hq) (ctrl [] Gate.h.mat q)).1 q (by simp)
  obtain ⟨s2, e2, r2⟩ := gate_live he r1 hl .s trivial
  obtain ⟨s3, e3, r3⟩ := gate_live he r2 hl .h trivial
  refine ⟨s3, by simp only [sx, e1, ok_bind, e2, e3], ?_⟩
  have e : ctrl [] Gate.h.mat q (ctrl [] Gate.s.mat q (ctrl [] Gate.h.mat q δ.psi)) = ctrl [] matSx q δ.psi := by
    show ctrl [] matH q (ctrl [] matS q (ctrl [] matH q δ.psi)) = _
    rw [apply_psi_mul, apply_psi_mul, Matrix.mul_assoc, H_S_H]
  simp only [Device.apply] at r3 ⊢
  rw [← e]; exact r3

/-- CNOT, rotation, CNOT on qubits in use or not. -/
theorem rzz_ref (he : env.eps = 0) (h : QRef s δ) {a b : ℕ} (hab : a ≠ b) (ha : δ.Usable a) (hb : δ.Usable b)
    (θ : ℝ) :
    ∃ s', rzz env θ a b s = .ok s' ∧ QRef s' (δ.apply [a, b] (ctrlExp [] [(.Z, a), (.Z, b)] (-(θ / 2)))) := by
  have hn : ([b] ++ [a]).Nodup := by simp [hab.symm]
  have hu : ∀ i ∈ [b] ++ [a], δ.Usable i := by simp [ha, hb]
  have hu' : ∀ i ∈ [a, b], δ.Usable i := by simp [ha, hb]
  obtain ⟨s1, e1, r1⟩ := ctl_ref he h hn hu .x
  obtain ⟨l1, _⟩ := low_of he h hu' (ctrl [b] Gate.x.mat a)
  obtain ⟨s2, e2, r2⟩ := gate_live he r1 (l1 a (by simp)) (.rz θ) trivial
  have hu2 : ∀ i ∈ [b] ++ [a], Device.Usable
      { (δ.apply [a, b] (ctrl [b] Gate.x.mat a)) with
        psi := ctrl [] (Gate.rz θ).mat a (δ.apply [a, b] (ctrl [b] Gate.x.mat a)).psi } i :=
    fun i hi => .inl (l1 i (by simp at hi ⊢; tauto))
  obtain ⟨s3, e3, r3⟩ := ctl_ref he r2 hn hu2 .x
  refine ⟨s3, by simp only [rzz, e1, ok_bind, e2, e3], ?_⟩
  have e := cx_rz_cx hab θ δ.psi
  have hl := apply_live (δ := { (δ.apply [a, b] (ctrl [b] Gate.x.mat a)) with
        psi := ctrl [] (Gate.rz θ).mat a (δ.apply [a, b] (ctrl [b] Gate.x.mat a)).psi }) (a :: [b])
      (fun i hi => l1 i hi) r2.low
  unfold Device.apply at r3 hl ⊢
  rw [hl, show ctrl [b] Gate.x.mat a = ctrl [b] matX a from rfl] at r3
  rw [← e]; exact r3

/-- Changing the basis of qubits in use. -/
theorem mapOne_ref (he : env.eps = 0) (h : QRef s δ) {p : Pauli × ℕ} (hq : p.2 ∈ δ.live) :
    ∃ s', mapOne env p s = .ok s' ∧ QRef s' { δ with psi := ctrl [] (toZ p.1) p.2 δ.psi } := by
  obtain ⟨p, q⟩ := p
  have h1 : QRef s { δ with psi := ctrl [] 1 q δ.psi } := by
    have : ctrl [] 1 q δ.psi = δ.psi := LinearMap.congr_fun (gateL_one q) δ.psi
    rw [this]; exact h
  cases p
  · exact ⟨s, rfl, h1⟩
  · exact h_ref he h hq
  · exact ⟨s, rfl, h1⟩
  · obtain ⟨s1, e1, r1⟩ := h_ref he h hq
    obtain ⟨s2, e2, r2⟩ := s_ref he r1 hq
    obtain ⟨s3, e3, r3⟩ := h_ref he r2 hq
    refine ⟨s3, by simp only [mapOne] at *; simp only [e1, ok_bind, e2, e3], ?_⟩
    simp only [apply_psi_mul, H_S_H] at r3
    exact r3

theorem unmapOne_ref (he : env.eps = 0) (h : QRef s δ) {p : Pauli × ℕ} (hq : p.2 ∈ δ.live) :
    ∃ s', unmapOne env p s = .ok s' ∧ QRef s' { δ with psi := ctrl [] (fromZ p.1) p.2 δ.psi } := by
  obtain ⟨p, q⟩ := p
  have h1 : QRef s { δ with psi := ctrl [] 1 q δ.psi } := by
    have : ctrl [] 1 q δ.psi = δ.psi := LinearMap.congr_fun (gateL_one q) δ.psi
    rw [this]; exact h
  cases p
  · exact ⟨s, rfl, h1⟩
  · exact h_ref he h hq
  · exact ⟨s, rfl, h1⟩
  · obtain ⟨s1, e1, r1⟩ := h_ref he h hq
    obtain ⟨s2, e2, r2⟩ := sadj_ref he r1 hq
    obtain ⟨s3, e3, r3⟩ := h_ref he r2 hq
    refine ⟨s3, by simp only [unmapOne] at *; simp only [e1, ok_bind, e2, e3], ?_⟩
    simp only [apply_psi_mul, H_Sadj_H] at r3
    exact r3

theorem map_ref (he : env.eps = 0) (ps : List (Pauli × ℕ)) : ∀ {s : Backend} {δ : Device}, QRef s δ →
    (∀ p ∈ ps, p.2 ∈ δ.live) →
    ∃ s', forEach (mapOne env) ps s = .ok s' ∧ QRef s' { δ with psi := mapL ps δ.psi } := by
  induction ps with
  | nil => intro s δ h _; exact ⟨s, rfl, h⟩
  | cons p ps ih =>
    intro s δ h hl
    obtain ⟨s1, e1, r1⟩ := mapOne_ref he h (hl p List.mem_cons_self)
    obtain ⟨s2, e2, r2⟩ := ih r1 (fun x hx => hl x (List.mem_cons_of_mem _ hx))
    exact ⟨s2, by simp only [forEach, e1, ok_bind, e2], r2⟩

theorem unmap_ref (he : env.eps = 0) (ps : List (Pauli × ℕ)) : ∀ {s : Backend} {δ : Device}, QRef s δ →
    (∀ p ∈ ps, p.2 ∈ δ.live) →
    ∃ s', unmapFromZ env ps s = .ok s' ∧ QRef s' { δ with psi := unmapL ps δ.psi } := by
  induction ps with
  | nil => intro s δ h _; exact ⟨s, rfl, h⟩
  | cons p ps ih =>
    intro s δ h hl
    obtain ⟨s1, e1, r1⟩ := unmapOne_ref he h (hl p List.mem_cons_self)
    obtain ⟨s2, e2, r2⟩ := ih r1 (fun x hx => hl x (List.mem_cons_of_mem _ hx))
    exact ⟨s2, by simp only [unmapFromZ, forEach, e1, ok_bind] at e2 ⊢; exact e2, r2⟩

theorem rxx_ref (he : env.eps = 0) (h : QRef s δ) {a b : ℕ} (hab : a ≠ b) (ha : δ.Usable a) (hb : δ.Usable b)
    (θ : ℝ) :
    ∃ s', rxx env θ a b s = .ok s' ∧ QRef s' (δ.apply [a, b] (ctrlExp [] [(.X, a), (.X, b)] (-(θ / 2)))) := by
  obtain ⟨s1, e1, r1⟩ := gate_ref he h ha .h trivial
  obtain ⟨_, u1⟩ := low_of he h (qs := [a]) (by simpa using ha) (ctrl [] Gate.h.mat a)
  obtain ⟨s2, e2, r2⟩ := gate_ref he r1 (u1 b hb) .h trivial
  obtain ⟨l2, _⟩ := low_of he h (qs := [a, b]) (by simp [ha, hb]) (ctrl [] Gate.h.mat a)
  -- both qubits are in use now
  set δ2 : Device := { δ.useAll [a, b] with psi := ctrl [] matH b (ctrl [] matH a δ.psi) } with hδ2
  rw [apply_apply] at r2
  have r2' : QRef s2 δ2 := r2
  have la : a ∈ δ2.live := l2 a (by simp)
  have lb : b ∈ δ2.live := l2 b (by simp)
  obtain ⟨s3, e3, r3⟩ := rzz_ref he r2' hab (.inl la) (.inl lb) θ
  have hl := apply_live (δ := δ2) [a, b] (by simp [la, lb]) r2'.low
  rw [Device.apply, hl] at r3
  obtain ⟨s4, e4, r4⟩ := gate_live he r3 lb .h trivial
  obtain ⟨s5, e5, r5⟩ := gate_live he r4 la .h trivial
  refine ⟨s5, by simp only [rxx, e1, ok_bind, e2, e3, e4, e5], ?_⟩
  have hn : (List.map Prod.snd [(Pauli.X, a), (Pauli.X, b)]).Nodup := by simp [hab]
  have e := exp_mapL (ps := [(.X, a), (.X, b)]) hn (by simp) (-(θ / 2)) δ.psi
  have hc : ∀ φ : Wave, ctrl [] matH a (ctrl [] matH b φ) = ctrl [] matH b (ctrl [] matH a φ) := fun φ =>
    LinearMap.congr_fun (ctrlL_comm_gateL (cs := []) (q := a) (r := b) hab.symm (by simp) matH matH) φ
  unfold Device.apply
  rw [← e]
  have : QRef s5 { δ.useAll [a, b] with psi := ctrl [] matH a (ctrl [] matH b
      (ctrlExp [] [(.Z, a), (.Z, b)] (-(θ / 2)) (ctrl [] matH b (ctrl [] matH a δ.psi)))) } := r5
  rw [hc] at this
  exact this

theorem hsh_live (he : env.eps = 0) (h : QRef s δ) {q : ℕ} (hq : δ.Usable q) :
    ∃ s1 s2 s3, gate env .h q s = .ok s1 ∧ gate env .s q s1 = .ok s2 ∧ gate env .h q s2 = .ok s3 ∧
      QRef s3 (δ.apply [q] (ctrl [] matSx q)) := by
  obtain ⟨s1, e1, r1⟩ := gate_ref he h hq .h trivial
  have hl := (low_of he h (qs := [q]) (by simpa using hq) (ctrl [] Gate.h.mat q)).1 q (by simp)
  obtain ⟨s2, e2, r2⟩ := gate_live he r1 hl .s trivial
  obtain ⟨s3, e3, r3⟩ := gate_live he r2 hl .h trivial
  refine ⟨s1, s2, s3, e1, e2, e3, ?_⟩
  have e : ctrl [] Gate.h.mat q (ctrl [] Gate.s.mat q (ctrl [] Gate.h.mat q δ.psi)) = ctrl [] matSx q δ.psi := by
    show ctrl [] matH q (ctrl [] matS q (ctrl [] matH q δ.psi)) = _
    rw [apply_psi_mul, apply_psi_mul, Matrix.mul_assoc, H_S_H]
  simp only [Device.apply] at r3 ⊢
  rw [← e]; exact r3

theorem ryy_ref (he : env.eps = 0) (h : QRef s δ) {a b : ℕ} (hab : a ≠ b) (ha : δ.Usable a) (hb : δ.Usable b)
    (θ : ℝ) :
    ∃ s', ryy env θ a b s = .ok s' ∧ QRef s' (δ.apply [a, b] (ctrlExp [] [(.Y, a), (.Y, b)] (-(θ / 2)))) := by
  obtain ⟨s1, s2, s3, e1, e2, e3, r3⟩ := hsh_live he h ha
  obtain ⟨_, u1⟩ := low_of he h (qs := [a]) (by simpa using ha) (ctrl [] matSx a)
  obtain ⟨s4, s5, s6, e4, e5, e6, r6⟩ := hsh_live he r3 (u1 b hb)
  obtain ⟨l2, _⟩ := low_of he h (qs := [a, b]) (by simp [ha, hb]) (ctrl [] matSx a)
  set δ2 : Device := { δ.useAll [a, b] with psi := ctrl [] matSx b (ctrl [] matSx a δ.psi) } with hδ2
  rw [apply_apply] at r6
  have r6' : QRef s6 δ2 := r6
  have la : a ∈ δ2.live := l2 a (by simp)
  have lb : b ∈ δ2.live := l2 b (by simp)
  obtain ⟨s7, e7, r7⟩ := rzz_ref he r6' hab (.inl la) (.inl lb) θ
  have hl := apply_live (δ := δ2) [a, b] (by simp [la, lb]) r6'.low
  rw [Device.apply, hl] at r7
  obtain ⟨s8, e8, r8⟩ := gate_live he r7 lb .h trivial
  obtain ⟨s9, e9, r9⟩ := gate_live he r8 lb .sadj trivial
  obtain ⟨s10, e10, r10⟩ := gate_live he r9 lb .h trivial
  obtain ⟨s11, e11, r11⟩ := gate_live he r10 la .h trivial
  obtain ⟨s12, e12, r12⟩ := gate_live he r11 la .sadj trivial
  obtain ⟨s13, e13, r13⟩ := gate_live he r12 la .h trivial
  refine ⟨s13, by simp only [ryy, e1, ok_bind, e2, e3, e4, e5, e6, e7, e8, e9, e10, e11, e12, e13], ?_⟩
  have hn : (List.map Prod.snd [(Pauli.Y, a), (Pauli.Y, b)]).Nodup := by simp [hab]
  have e := exp_mapL (ps := [(.Y, a), (.Y, b)]) hn (by simp) (-(θ / 2)) δ.psi
  have hc : ∀ φ : Wave, ctrl [] matSxAdj a (ctrl [] matSxAdj b φ) = ctrl [] matSxAdj b (ctrl [] matSxAdj a φ) :=
    fun φ => LinearMap.congr_fun
      (ctrlL_comm_gateL (cs := []) (q := a) (r := b) hab.symm (by simp) matSxAdj matSxAdj) φ
  unfold Device.apply
  rw [← e]
  have : QRef s13 { δ.useAll [a, b] with psi := ctrl [] matH a (ctrl [] matSadj a (ctrl [] matH a
      (ctrl [] matH b (ctrl [] matSadj b (ctrl [] matH b
      (ctrlExp [] [(.Z, a), (.Z, b)] (-(θ / 2)) (ctrl [] matSx b (ctrl [] matSx a δ.psi)))))))) } := r13
  simp only [apply_psi_mul, H_Sadj_H] at this
  rw [hc] at this
  exact this

/-- The global phase is a matter of choice. -/
theorem QRef.phase (h : QRef s δ) {w : ℂ} (hw : ‖w‖ = 1) : QRef s { δ with psi := w • δ.psi } := by
  refine ⟨⟨h.sim.wf, h.sim.live, h.sim.rng, ?_, ?_⟩, h.high, h.low, h.reg, h.touched⟩
  · obtain ⟨c, hc, ha⟩ := h.sim.psi
    have hw0 : w ≠ 0 := by intro h0; rw [h0] at hw; simp at hw
    refine ⟨c * w⁻¹, by rw [norm_mul, norm_inv, hc, hw]; norm_num, ?_⟩
    show abs s.sim = (c * w⁻¹) • (w • δ.psi)
    rw [smul_smul, mul_assoc, inv_mul_cancel₀ hw0, mul_one]; exact ha
  · have hg := h.sim.good
    refine ⟨hg.fin.smul w, ?_, ?_, hg.samples⟩
    · show Spec.normSq (w • δ.psi) = 1
      rw [normSq_smul, normSq_of_norm hw, one_mul]; exact hg.norm
    · intro b hb q hq
      exact hg.conf b (fun h0 => hb (by show w • δ.psi b = 0; rw [show δ.psi b = 0 from h0, smul_zero])) q hq

theorem r_ref (he : env.eps = 0) (h : QRef s δ) {p : Pauli} {q : ℕ} (hq : p = .I ∨ δ.Usable q) (θ : ℝ)
    (hok : QCallOk s (.r p θ q)) :
    ∃ s', r env p θ q s = .ok s' ∧
      QRef s' (δ.apply (if p = .I then [] else [q]) (ctrlExp [] [(p, q)] (-(θ / 2)))) := by
  cases p
  · refine ⟨s, rfl, ?_⟩
    have := h.phase (w := Complex.exp (((-(θ / 2) : ℝ) : ℂ) * Complex.I)) (Complex.norm_exp_ofReal_mul_I _)
    rw [← ctrlExp_I q] at this
    exact this
  · have hu := hq.resolve_left (by decide)
    obtain ⟨s', h1, h2⟩ := gate_ref he h hu (.rx θ) trivial
    exact ⟨s', h1, by rw [show (Gate.rx θ).mat = matRx θ from rfl, ctrl_Rx] at h2; exact h2⟩
  · have hu := hq.resolve_left (by decide)
    obtain ⟨s', h1, h2⟩ := gate_ref he h hu (.rz θ) trivial
    exact ⟨s', h1, by rw [show (Gate.rz θ).mat = matRz θ from rfl, ctrl_Rz] at h2; exact h2⟩
  · have hu := hq.resolve_left (by decide)
    obtain ⟨s', h1, h2⟩ := gate_ref he h hu (.ry θ) hok
    exact ⟨s', h1, by rw [show (Gate.ry θ).mat = matRy θ from rfl, ctrl_Ry] at h2; exact h2⟩

theorem rCtl_ref (he : env.eps = 0) (h : QRef s δ) {p : Pauli} {cs : List ℕ} {q : ℕ} (hn : (cs ++ [q]).Nodup)
    (hu : ∀ i ∈ cs ++ [q], δ.Usable i) (θ : ℝ) :
    ∃ s', rCtl env cs p θ q s = .ok s' ∧
      QRef s' (δ.apply (if p = .I ∧ cs = [] then [] else q :: cs) (ctrlExp cs [(p, q)] (-(θ / 2)))) := by
  cases p
  · cases cs with
    | nil =>
      refine ⟨s, rfl, ?_⟩
      have := h.phase (w := Complex.exp (((-(θ / 2) : ℝ) : ℂ) * Complex.I)) (Complex.norm_exp_ofReal_mul_I _)
      rw [← ctrlExp_I q] at this
      exact this
    | cons c cs =>
      have h1 := ensureAll_ref he (q :: c :: cs) h (by
        intro i hi
        apply hu
        simp only [List.mem_cons, List.mem_append, List.cons_append] at hi ⊢
        tauto)
      have hnd : (cs ++ [c]).Nodup := by
        have : (c :: cs).Nodup := (List.nodup_append.1 hn).1
        rw [List.nodup_append]
        rw [List.nodup_cons] at this
        exact ⟨this.2, by simp, by rintro x hx y hy rfl; simp at hy; exact this.1 (hy ▸ hx)⟩
      have hw : ‖Complex.exp (Complex.mk 0 (-θ / 2))‖ = 1 := by
        rw [show Complex.mk 0 (-θ / 2) = ((-θ / 2 : ℝ) : ℂ) * Complex.I by apply Complex.ext <;> simp]
        exact Complex.norm_exp_ofReal_mul_I _
      obtain ⟨s', h2, h3⟩ := act_ref he h1.1 (c := .phase cs (Complex.exp (Complex.mk 0 (-θ / 2))) c) trivial
        ⟨hnd, fun i hi => h1.2.1 i (by simp at hi ⊢; tauto), hw⟩ trivial
        (f := mcphase env cs (Complex.exp (Complex.mk 0 (-θ / 2))) c) rfl
      refine ⟨s', h2, ?_⟩
      rw [useAll_psi] at h3
      have e := ctrl_phase_I c cs q (-(θ / 2))
      rw [if_neg (by simp)]
      unfold Device.apply
      rw [← e, show -(θ / 2) = -θ / 2 by ring]
      exact h3
  · obtain ⟨s', h1, h2⟩ := ctl_ref he h hn hu (.rx θ)
    exact ⟨s', h1, by rw [show (Gate.rx θ).mat = matRx θ from rfl, ctrl_Rx] at h2; simpa using h2⟩
  · obtain ⟨s', h1, h2⟩ := ctl_ref he h hn hu (.rz θ)
    exact ⟨s', h1, by rw [show (Gate.rz θ).mat = matRz θ from rfl, ctrl_Rz] at h2; simpa using h2⟩
  · obtain ⟨s', h1, h2⟩ := ctl_ref he h hn hu (.ry θ)
    exact ⟨s', h1, by rw [show (Gate.ry θ).mat = matRy θ from rfl, ctrl_Ry] at h2; simpa using h2⟩

theorem expCtl_ref (he : env.eps = 0) (h : QRef s δ) {cs : List ℕ} {ps : List Pauli} {qs : List ℕ}
    (hn : (cs ++ qs).Nodup) (hu : ∀ i ∈ cs ++ qs, δ.Usable i) (hl : ps.length ≤ qs.length) (θ : ℝ) :
    ∃ s', expCtl env cs ps θ qs s = .ok s' ∧ QRef s' (δ.apply (cs ++ qs) (ctrlExp cs (ps.zip qs) θ)) := by
  have h1 := ensureAll_ref he (cs ++ qs) h hu
  have ea : ensureAll (cs ++ qs) s = ensureAll qs (ensureAll cs s) := by simp [ensureAll]
  obtain ⟨s', h2, h3⟩ := act_ref he h1.1 (c := .exp cs ps θ qs) trivial ⟨hn, h1.2.1, hl⟩ trivial
    (f := mcexp env cs (ps.map pauliArg) θ qs) rfl
  refine ⟨s', ?_, ?_⟩
  · unfold expCtl; rw [← ea]; exact h2
  · rw [useAll_psi] at h3; exact h3

theorem exp_ref (he : env.eps = 0) (h : QRef s δ) {ps : List Pauli} {qs : List ℕ}
    (hn : qs.Nodup) (hu : ∀ i ∈ qs, δ.Usable i) (hl : ps.length ≤ qs.length) (θ : ℝ) :
    ∃ s', exp env ps θ qs s = .ok s' ∧ QRef s' (δ.apply qs (ctrlExp [] (ps.zip qs) θ)) :=
  expCtl_ref he h (cs := []) (by simpa using hn) (by simpa using hu) hl θ

theorem swap_ref (he : env.eps = 0) (h : QRef s δ) {a b : ℕ} (ha : δ.Usable a) (hb : δ.Usable b) :
    ∃ s', swap a b s = .ok s' ∧ QRef s' (δ.apply [a, b] (swapQubits a b)) := by
  have h1 := ensureAll_ref he [a, b] h (by simp [ha, hb])
  obtain ⟨s', h2, h3⟩ := act_ref (env := env) he h1.1 (c := .swap a b) trivial
    ⟨h1.2.1 a (by simp), h1.2.1 b (by simp)⟩ trivial (f := swapQubitIds a b) rfl
  refine ⟨s', h2, ?_⟩
  rw [useAll_psi] at h3; exact h3

end Qir.Back
