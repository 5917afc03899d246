import Verif.Props.Defs
import Verif.Proof.Order
import Verif.Proof.Exp2

/-! The simulator refines the ideal machine. -/

noncomputable section
namespace Qir
open Spec Function Sim

/-! ### Facts about the ideal machine -/

/-- All amplitudes are on basis states that are zero outside the qubits in use. -/
def Confined (L : Finset ℕ) (ψ : Wave) : Prop := ∀ b, ψ b ≠ 0 → ∀ q, q ∉ L → b q = false

/-- Invariants of the ideal machine. -/
structure Good (σ : Ideal) : Prop where
  fin : FinSupp σ.psi
  norm : Spec.normSq σ.psi = 1
  conf : Confined σ.live σ.psi
  samples : ∀ n, 0 ≤ σ.rng n ∧ σ.rng n < 1

theorem Confined.ctrl {L : Finset ℕ} {ψ : Wave} (h : Confined L ψ) {q : ℕ} (hq : q ∈ L)
    (cs : List ℕ) (U : Mat2) : Confined L (ctrl cs U q ψ) := by
  intro b hb r hr
  have hrq : r ≠ q := by rintro rfl; exact hr hq
  unfold Spec.ctrl at hb
  split at hb
  · by_cases h1 : ψ (update b q false) = 0
    · by_cases h2 : ψ (update b q true) = 0
      · simp [h1, h2] at hb
      · have := h _ h2 r hr; rwa [update_of_ne hrq] at this
    · have := h _ h1 r hr; rwa [update_of_ne hrq] at this
  · exact h b hb r hr

theorem Confined.pauli {L : Finset ℕ} {ψ : Wave} (h : Confined L ψ) {ps : List (Pauli × ℕ)}
    (hq : ∀ p ∈ ps, p.2 ∈ L) : Confined L (pauliString ps ψ) := by
  induction ps with
  | nil => exact h
  | cons p ps ih =>
    exact (ih (fun p hp => hq p (by simp [hp]))).ctrl (hq p (by simp)) [] _

theorem Confined.exp {L : Finset ℕ} {ψ : Wave} (h : Confined L ψ) {ps : List (Pauli × ℕ)}
    (hq : ∀ p ∈ ps, p.2 ∈ L) (cs : List ℕ) (θ : ℝ) : Confined L (ctrlExp cs ps θ ψ) := by
  intro b hb r hr
  unfold ctrlExp at hb
  split at hb
  · by_cases h1 : ψ b = 0
    · by_cases h2 : pauliString ps ψ b = 0
      · simp [h1, h2] at hb
      · exact h.pauli hq b h2 r hr
    · exact h b h1 r hr
  · exact h b hb r hr

theorem normSq_ctrl {ψ : Wave} (h : FinSupp ψ) {cs : List ℕ} {U : Mat2} (hU : Isom U) {q : ℕ}
    (hq : q ∉ cs) : Spec.normSq (Spec.ctrl cs U q ψ) = Spec.normSq ψ := by
  rw [normSq_eq, normSq_eq]
  exact sumIf_ctrl h hU hq (fun _ _ => Iff.rfl)

theorem isom_gate (g : Gate) : Isom g.mat := by
  cases g
  · exact isom_X
  · exact isom_Y
  · exact isom_Z
  · exact isom_H
  · exact isom_S
  · exact isom_Sadj
  · exact isom_T
  · exact isom_Tadj
  · exact isom_Rx _
  · exact isom_Ry _
  · exact isom_Rz _

theorem Good.gate {σ : Ideal} (h : Good σ) {cs : List ℕ} {q : ℕ} {U : Mat2} (hU : Isom U)
    (hq : q ∈ σ.live) (hn : q ∉ cs) : Good { σ with psi := Spec.ctrl cs U q σ.psi } :=
  ⟨h.fin.ctrl cs U q, (normSq_ctrl h.fin hU hn).trans h.norm, h.conf.ctrl hq cs U, h.samples⟩

theorem prob_smul (qs : List ℕ) (v : Bool) (c : ℂ) (ψ : Wave) :
    prob qs v (c • ψ) = Complex.normSq c * prob qs v ψ := by
  rw [prob_eq, prob_eq, sumIf_smul]

theorem normSq_smul (c : ℂ) (ψ : Wave) : Spec.normSq (c • ψ) = Complex.normSq c * Spec.normSq ψ := by
  rw [normSq_eq, normSq_eq, sumIf_smul]

theorem normSq_proj (qs : List ℕ) (v : Bool) (ψ : Wave) : Spec.normSq (proj qs v ψ) = prob qs v ψ := by
  unfold Spec.normSq prob proj
  apply finsum_congr
  intro b
  split <;> simp

theorem prob_nonneg (qs : List ℕ) (v : Bool) (ψ : Wave) : 0 ≤ prob qs v ψ := sumIf_nonneg _ _

theorem FinSupp.proj {ψ : Wave} (h : FinSupp ψ) (qs : List ℕ) (v : Bool) : FinSupp (proj qs v ψ) := by
  refine h.subset ?_
  intro b hb h0
  apply hb
  simp [Spec.proj, h0]

theorem FinSupp.postMeasure {ψ : Wave} (h : FinSupp ψ) (qs : List ℕ) (v : Bool) :
    FinSupp (postMeasure qs v ψ) := by
  refine (h.proj qs v).subset ?_
  intro b hb h0
  apply hb
  simp [Spec.postMeasure, h0]

theorem postMeasure_eq (qs : List ℕ) (v : Bool) (ψ : Wave) :
    postMeasure qs v ψ = ((1 / Real.sqrt (prob qs v ψ) : ℝ) : ℂ) • proj qs v ψ := by
  funext b; simp [postMeasure]

theorem normSq_postMeasure {qs : List ℕ} {v : Bool} {ψ : Wave} (h : 0 < prob qs v ψ) :
    Spec.normSq (postMeasure qs v ψ) = 1 := by
  rw [postMeasure_eq, normSq_smul, normSq_proj, Complex.normSq_ofReal]
  have h1 := Real.sqrt_pos.2 h
  have h2 := Real.mul_self_sqrt h.le
  field_simp
  nlinarith

/-- The observed outcome is never impossible. -/
theorem Good.outcome_pos {σ : Ideal} (h : Good σ) (qs : List ℕ) :
    0 < prob qs (σ.outcome qs) σ.psi := by
  have ha := prob_add h.fin qs
  rw [h.norm] at ha
  unfold Ideal.outcome
  by_cases hlt : σ.rng 0 < prob qs true σ.psi
  · simp only [hlt, decide_true]
    exact lt_of_le_of_lt (h.samples 0).1 hlt
  · simp only [hlt, decide_false]
    have := (h.samples 0).2
    linarith [not_lt.1 hlt]

theorem Confined.postMeasure {L : Finset ℕ} {ψ : Wave} (h : Confined L ψ) (qs : List ℕ) (v : Bool) :
    Confined L (postMeasure qs v ψ) := by
  intro b hb r hr
  apply h b _ r hr
  intro h0
  apply hb
  simp [Spec.postMeasure, Spec.proj, h0]

theorem Good.measured {σ : Ideal} (h : Good σ) (qs : List ℕ) : Good (σ.measured qs) :=
  ⟨h.fin.postMeasure _ _, normSq_postMeasure (h.outcome_pos qs), h.conf.postMeasure _ _,
    fun n => h.samples (n + 1)⟩

theorem normSq_swap (a b : ℕ) (ψ : Wave) : Spec.normSq (swapQubits a b ψ) = Spec.normSq ψ := by
  unfold Spec.normSq swapQubits
  let e : Basis ≃ Basis :=
    { toFun := fun bits q => bits (Equiv.swap a b q)
      invFun := fun bits q => bits (Equiv.swap a b q)
      left_inv := fun bits => by funext q; simp
      right_inv := fun bits => by funext q; simp }
  exact finsum_comp_equiv e (f := fun b => Complex.normSq (ψ b))

theorem FinSupp.swap {ψ : Wave} (h : FinSupp ψ) (a b : ℕ) : FinSupp (swapQubits a b ψ) := by
  have hinj : Function.Injective (fun (bits : Basis) q => bits (Equiv.swap a b q)) := by
    intro x y hxy
    funext q
    have := congrFun hxy (Equiv.swap a b q)
    simpa using this
  exact Set.Finite.preimage hinj.injOn h

theorem Confined.swap {L : Finset ℕ} {ψ : Wave} (h : Confined L ψ) {a b : ℕ} (ha : a ∈ L) (hb : b ∈ L) :
    Confined L (swapQubits a b ψ) := by
  intro bits hbits q hq
  have := h _ hbits q hq
  have h1 : q ≠ a := by rintro rfl; exact hq ha
  have h2 : q ≠ b := by rintro rfl; exact hq hb
  rwa [Equiv.swap_apply_of_ne_of_ne h1 h2] at this

theorem normSq_ket (b : Basis) : Spec.normSq (ket b) = 1 := by
  unfold Spec.normSq
  rw [finsum_eq_single _ b]
  · simp [ket]
  · intro b' hb'; simp [ket, hb']

theorem confined_ket_zero (L : Finset ℕ) : Confined L (ket zeroBasis) := by
  intro b hb q _
  by_cases h : b = zeroBasis
  · rw [h]; rfl
  · simp [ket, h] at hb

theorem good_init {rng : ℕ → ℝ} (h : ∀ n, 0 ≤ rng n ∧ rng n < 1) : Good (Ideal.init rng) :=
  ⟨finSupp_ket _, normSq_ket _, confined_ket_zero _, h⟩

theorem isom_phase_norm {φ : ℂ} (h : ‖φ‖ = 1) : Isom (matPhase φ) := by
  apply isom_phase
  rw [Complex.normSq_eq_norm_sq, h]; norm_num

theorem zip_snd_mem {ps : List Pauli} {ts : List ℕ} {p : Pauli × ℕ} (h : p ∈ ps.zip ts) : p.2 ∈ ts :=
  (List.of_mem_zip (a := p.1) (b := p.2) h).2

theorem zip_snd_sublist (ps : List Pauli) (ts : List ℕ) : ((ps.zip ts).map Prod.snd).Sublist ts := by
  induction ts generalizing ps with
  | nil => cases ps <;> simp
  | cons t ts ih =>
    cases ps with
    | nil => simp
    | cons p ps => simpa using ih ps

/-- The invariants of the ideal machine hold along every valid history. -/
theorem Good.step {σ : Ideal} (h : Good σ) {c : Call} (hv : σ.Valid c) : Good (σ.step c) := by
  cases c with
  | gate g q => exact h.gate (isom_gate g) hv (by simp)
  | ctrl g cs q =>
    refine h.gate (isom_gate g) (hv.2 q (by simp)) ?_
    intro hq
    exact (List.nodup_append.1 hv.1).2.2 q hq q (by simp) rfl
  | phase cs φ q =>
    refine h.gate (isom_phase_norm hv.2.2) (hv.2.1 q (by simp)) ?_
    intro hq
    exact (List.nodup_append.1 hv.1).2.2 q hq q (by simp) rfl
  | exp cs ps θ ts =>
    have hn := List.nodup_append.1 hv.1
    have hs := zip_snd_sublist ps ts
    refine ⟨h.fin.exp _ _ _, (normSq_ctrlExp h.fin (hs.nodup hn.2.1) ?_ θ).trans h.norm,
      h.conf.exp ?_ cs θ, h.samples⟩
    · intro c hc hm; exact hn.2.2 c hc c (hs.mem hm) rfl
    · intro p hp; exact hv.2.1 p.2 (by simp [zip_snd_mem hp])
  | swap a b =>
    exact ⟨h.fin.swap a b, (normSq_swap a b _).trans h.norm, h.conf.swap hv.1 hv.2, h.samples⟩
  | allocate =>
    refine ⟨h.fin, h.norm, ?_, h.samples⟩
    intro b hb q hq
    exact h.conf b hb q (fun hc => hq (Finset.mem_insert_of_mem hc))
  | release q =>
    unfold Ideal.step
    by_cases hl : σ.live = {q}
    · simp only [hl, if_true]
      exact ⟨finSupp_ket _, normSq_ket _, confined_ket_zero _, h.samples⟩
    · simp only [hl, if_false]
      have hm := h.measured [q]
      have hout : ∀ b, (σ.measured [q]).psi b ≠ 0 → b q = σ.outcome [q] := by
        intro b hb
        by_contra hc
        apply hb
        simp [Ideal.measured, Spec.postMeasure, Spec.proj, parity, hc]
      cases ho : σ.outcome [q]
      · simp only [Bool.false_eq_true, if_false]
        refine ⟨hm.fin, hm.norm, ?_, hm.samples⟩
        intro b hb r hr
        by_cases hrq : r = q
        · subst hrq; rw [hout b hb, ho]
        · exact hm.conf b hb r (fun hc => hr (Finset.mem_erase.2 ⟨hrq, hc⟩))
      · simp only [if_true]
        refine ⟨hm.fin.ctrl [] matX q, (normSq_ctrl hm.fin isom_X (by simp)).trans hm.norm, ?_, hm.samples⟩
        intro b hb r hr
        by_cases hrq : r = q
        · subst hrq
          by_contra hc
          have hbr : b r = true := by simpa using hc
          apply hb
          have h0 : (σ.measured [r]).psi (update b r false) = 0 := by
            by_contra hne
            have := hout _ hne
            rw [ho] at this
            simp at this
          simp [Spec.ctrl, matX, mat, hbr, h0]
        · exact hm.conf.ctrl hv [] matX b hb r (fun hc => hr (Finset.mem_erase.2 ⟨hrq, hc⟩))
  | measure q => exact h.measured _
  | jointMeasure qs => exact h.measured _
  | jointProb qs => exact h
  | isZero q => exact h
  | collapse v q =>
    unfold Ideal.step
    by_cases h0 : prob [q] v σ.psi = 0
    · simp only [h0, if_true]; exact h
    · simp only [h0, if_false]
      have hpos : 0 < prob [q] v σ.psi := lt_of_le_of_ne (prob_nonneg _ _ _) (Ne.symm h0)
      exact ⟨h.fin.postMeasure _ _, normSq_postMeasure hpos, h.conf.postMeasure _ _, h.samples⟩
  | getState => exact h
  | dump fmt => exact h

theorem foldl_append (f : ℕ × ℂ → String) (l : List (ℕ × ℂ)) (a : String) :
    l.foldl (fun out e => out ++ f e) a = a ++ String.join (l.map f) := by
  induction l generalizing a with
  | nil => simp [String.join]
  | cons e l ih =>
    rw [List.foldl_cons, ih, List.map_cons, String.join_cons, String.append_assoc]

theorem dumpText_eq (fmt : ℂ → String) (l : List (ℕ × ℂ)) : dumpText fmt l = stateText fmt l := by
  have h := foldl_append (fun e => "|" ++ toString e.1 ++ "⟩: " ++ fmt e.2 ++ ", ") l "STATE: [ "
  show _ ++ "]" ++ "\n" = _
  rw [h, String.append_assoc]
  rfl

/-! ### The refinement relation -/

/-- The simulator state `s` stands for the ideal machine state `σ`. -/
structure Refines (s : Sim) (σ : Ideal) : Prop where
  wf : WF s
  live : ∀ q, q ∈ σ.live ↔ (s.idMap.get q).isSome = true
  rng : s.rng = σ.rng
  psi : ∃ c : ℂ, ‖c‖ = 1 ∧ abs s = c • σ.psi
  good : Good σ

theorem normSq_of_norm {c : ℂ} (h : ‖c‖ = 1) : Complex.normSq c = 1 := by
  rw [Complex.normSq_eq_norm_sq, h]; norm_num

theorem Refines.prob {s : Sim} {σ : Ideal} (h : Refines s σ) (qs : List ℕ) (v : Bool) :
    prob qs v (abs s) = prob qs v σ.psi := by
  obtain ⟨c, hc, ha⟩ := h.psi
  rw [ha, prob_smul, normSq_of_norm hc, one_mul]

theorem Refines.norm {s : Sim} {σ : Ideal} (h : Refines s σ) : Spec.normSq (abs s) = 1 := by
  obtain ⟨c, hc, ha⟩ := h.psi
  rw [ha, normSq_smul, normSq_of_norm hc, one_mul, h.good.norm]

theorem Refines.alloc {s : Sim} {σ : Ideal} (h : Refines s σ) {ids : List ℕ} (hi : ∀ i ∈ ids, i ∈ σ.live) :
    Alloc s.idMap ids := fun i hm => (h.live i).1 (hi i hm)

theorem Refines.keys {s : Sim} {σ : Ideal} (h : Refines s σ) : s.idMap.keys = σ.ids := by
  have h1 : s.idMap.keys.Pairwise (· < ·) := IMap.keys_sorted _
  have h2 : σ.ids.Pairwise (· < ·) := Finset.sortedLT_sort _ |>.pairwise
  apply List.Perm.eq_of_pairwise (le := (· < ·)) _ h1 h2
  · rw [List.perm_ext_iff_of_nodup (IMap.keys_nodup _) (show σ.ids.Nodup from Finset.sort_nodup _ _)]
    intro a
    rw [IMap.mem_keys]
    show _ ↔ a ∈ σ.live.sort _
    rw [Finset.mem_sort, h.live]
  · intro a b _ _ h1 h2; omega

theorem Refines.of_step {s s' : Sim} {σ : Ideal} (h : Refines s σ) {U : Module.End ℂ Wave}
    (hs : Step s s' U) (hg : Good { σ with psi := U σ.psi }) : Refines s' { σ with psi := U σ.psi } := by
  obtain ⟨c, hc, ha⟩ := h.psi
  obtain ⟨d, hd, hb⟩ := hs.abs
  refine ⟨hs.wf, ?_, hs.rng.trans h.rng, ⟨d * c, ?_, ?_⟩, hg⟩
  · intro q; rw [hs.idMap]; exact h.live q
  · rw [norm_mul, hd, hc, one_mul]
  · rw [hb, ha, map_smul, smul_smul]

theorem Refines.of_same {s s' : Sim} {σ : Ideal} (h : Refines s σ) (hs : Same s s') : Refines s' σ :=
  ⟨hs.wf, by intro q; rw [hs.idMap]; exact h.live q, hs.rng.trans h.rng, by rw [hs.abs]; exact h.psi, h.good⟩

/-- The call really executed: an uncontrolled rotation about Y that is requested while a half-turn
about X is waiting in the queue of the same qubit turns the other way. -/
def Meant (s : Sim) : Call → Call → Prop
  | .gate (.ry θ) q, d => (HalfTurn (s.rxQ.get q) ∧ d = .gate (.ry (-θ)) q) ∨
      (¬ HalfTurn (s.rxQ.get q) ∧ d = .gate (.ry θ) q)
  | c, d => d = c

theorem Meant.twist {s : Sim} {c d : Call} (h : Meant s c d) : Call.Twist c d := by
  unfold Meant at h
  split at h
  · rcases h with ⟨_, rfl⟩ | ⟨_, rfl⟩
    · exact .ry _ _
    · exact .same _
  · subst h; exact .same _

theorem Meant.eq {s : Sim} {c d : Call} (h : Meant s c d) (hok : CallOk s c) : d = c := by
  unfold Meant at h
  split at h
  · rcases h with ⟨hc, _⟩ | ⟨_, h⟩
    · exact absurd hc hok
    · exact h
  · exact h

theorem Refines.opnds {s : Sim} {σ : Ideal} (h : Refines s σ) {cs : List ℕ} {q : ℕ}
    (hv : (cs ++ [q]).Nodup ∧ ∀ i ∈ cs ++ [q], i ∈ σ.live) : OpndsOk s.idMap cs q :=
  ⟨hv.1, h.alloc hv.2⟩

theorem gateCall_step {env : Env} (he : env.eps = 0) {s : Sim} (hw : WF s) {q : ℕ}
    (hq : (s.idMap.get q).isSome) (g : Gate) :
    ∃ s' g', gateCall env q g s = .ok s' ∧ Meant s (.gate g q) (.gate g' q) ∧
      Step s s' (gateL g'.mat q) := by
  have key : ∀ {s' : Sim} {g' : Gate}, gateCall env q g s = .ok s' → Meant s (.gate g q) (.gate g' q) →
      Step s s' (gateL g'.mat q) → ∃ s' g', gateCall env q g s = .ok s' ∧
        Meant s (.gate g q) (.gate g' q) ∧ Step s s' (gateL g'.mat q) :=
    fun h1 h2 h3 => ⟨_, _, h1, h2, h3⟩
  cases g with
  | x => obtain ⟨s', h1, h2⟩ := x_step hw hq; exact key h1 rfl h2
  | y => obtain ⟨s', h1, h2⟩ := y_step hw hq; exact key h1 rfl h2
  | z => obtain ⟨s', h1, h2⟩ := z_step hw hq; exact key h1 rfl h2
  | h => obtain ⟨s', h1, h2⟩ := h_step he hw hq; exact key h1 rfl h2
  | s => obtain ⟨s', h1, h2⟩ := diagGate_step he hw hq .S; exact key h1 rfl h2
  | sadj => obtain ⟨s', h1, h2⟩ := diagGate_step he hw hq .Sadj; exact key h1 rfl h2
  | t => obtain ⟨s', h1, h2⟩ := diagGate_step he hw hq .T; exact key h1 rfl h2
  | tadj => obtain ⟨s', h1, h2⟩ := diagGate_step he hw hq .Tadj; exact key h1 rfl h2
  | rx θ => obtain ⟨s', h1, h2⟩ := rx_step he hw hq θ; exact key h1 rfl h2
  | rz θ => obtain ⟨s', h1, h2⟩ := diagGate_step he hw hq (.Rz θ); exact key h1 rfl h2
  | ry θ =>
    obtain ⟨s', h1, h2⟩ := ry_step he hw hq θ
    by_cases hh : HalfTurn (s.rxQ.get q)
    · rw [if_pos hh] at h2; exact key h1 (Or.inl ⟨hh, rfl⟩) h2
    · rw [if_neg hh] at h2; exact key h1 (Or.inr ⟨hh, rfl⟩) h2

theorem ctrlCall_step {env : Env} (he : env.eps = 0) {s : Sim} (hw : WF s) {q : ℕ} {cs : List ℕ}
    (hok : OpndsOk s.idMap cs q) (g : Gate) :
    ∃ s', ctrlCall env cs q g s = .ok s' ∧ Step s s' (ctrlL cs g.mat q) := by
  cases g with
  | x => exact mcx_step he hw hok
  | y => exact mcy_step he hw hok
  | z => exact mcz_step he hw hok
  | h => exact mch_step he hw hok
  | s => exact mcDiagGate_step he hw hok .S
  | sadj => exact mcDiagGate_step he hw hok .Sadj
  | t => exact mcDiagGate_step he hw hok .T
  | tadj => exact mcDiagGate_step he hw hok .Tadj
  | rx θ => exact mcrx_step he hw hok θ
  | ry θ => exact mcry_step he hw hok θ
  | rz θ => exact mcDiagGate_step he hw hok (.Rz θ)

theorem factors_pauliArg (ps : List Pauli) (ts : List ℕ) : factors (ps.map pauliArg) ts = ps.zip ts := by
  unfold factors
  rw [List.map_map]
  congr
  rw [show MPauli.spec ∘ pauliArg = id by funext p; cases p <;> rfl, List.map_id]

/-- Scaling by the computed denominator is scaling by the probability of the outcome. -/
theorem scaling_eq {σ : Ideal} (h : Good σ) (qs : List ℕ) (v : Bool) :
    scaling v (Spec.prob qs true σ.psi) = 1 / Real.sqrt (Spec.prob qs v σ.psi) := by
  have ha := prob_add h.fin qs
  rw [h.norm] at ha
  unfold scaling
  cases v
  · simp only [Bool.false_eq_true, if_false]
    rw [show 1 - Spec.prob qs true σ.psi = Spec.prob qs false σ.psi by linarith]
  · simp

theorem proj_smul (qs : List ℕ) (v : Bool) (c : ℂ) (ψ : Wave) : proj qs v (c • ψ) = c • proj qs v ψ := by
  funext b; simp only [proj, Pi.smul_apply]; split <;> simp

theorem Refines.post {s : Sim} {σ : Ideal} (h : Refines s σ) (qs : List ℕ) (v : Bool) :
    ∃ c : ℂ, ‖c‖ = 1 ∧ (scaling v (Spec.prob qs true (abs s)) : ℂ) • proj qs v (abs s) =
      c • postMeasure qs v σ.psi := by
  obtain ⟨c, hc, ha⟩ := h.psi
  refine ⟨c, hc, ?_⟩
  rw [h.prob, scaling_eq h.good, ha, proj_smul, postMeasure_eq, smul_comm]

theorem Refines.outcome {s : Sim} {σ : Ideal} (h : Refines s σ) (qs : List ℕ) :
    decide (s.rng 0 < Spec.prob qs true (abs s)) = σ.outcome qs := by
  rw [h.prob, h.rng]; rfl

theorem Refines.measured {s s' : Sim} {σ : Ideal} (h : Refines s σ) {qs : List ℕ}
    (hm : Measured qs (σ.outcome qs) s s') : Refines s' (σ.measured qs) := by
  refine ⟨hm.wf, ?_, ?_, ?_, h.good.measured qs⟩
  · intro q; rw [hm.idMap]; exact h.live q
  · rw [hm.rng, h.rng]; rfl
  · rw [hm.abs]; exact h.post qs _

theorem fresh_eq {s : Sim} {σ : Ideal} (h : Refines s σ) : s.allocate.1 = σ.fresh := by
  obtain ⟨h1, h2, _⟩ := allocate_spec h.wf
  have hmem : s.allocate.1 ∈ {n | n ∉ σ.live} := by
    intro hc
    rw [h.live, h1] at hc; cases hc
  apply le_antisymm
  · apply le_csInf ⟨_, hmem⟩
    intro b hb
    by_contra hlt
    exact hb ((h.live b).2 (h2 b (not_le.1 hlt)))
  · exact Nat.sInf_le hmem

/-- One call: the simulator does not panic, answers correctly, and still stands for the ideal
machine. -/
theorem refine_call {env : Env} (he : env.eps = 0) {s : Sim} {σ : Ideal} (h : Refines s σ) {c : Call}
    (hv : σ.Valid c) :
    ∃ d o s', call env c s = .ok (o, s') ∧ Meant s c d ∧ σ.Answer d o ∧ Refines s' (σ.step d) := by
  have hg := h.good.step hv
  cases c with
  | gate g q =>
    obtain ⟨s', g', h1, hm, h2⟩ := gateCall_step he h.wf ((h.live q).1 hv) g
    have hg' := h.good.step (c := .gate g' q) hv
    exact ⟨.gate g' q, .none, s', by simp only [call, quiet, h1, ok_bind, pure_ok], hm, rfl,
      h.of_step h2 hg'⟩
  | ctrl g cs q =>
    obtain ⟨s', h1, h2⟩ := ctrlCall_step he h.wf (h.opnds hv) g
    exact ⟨_, .none, s', by simp only [call, quiet, h1, ok_bind, pure_ok], rfl, rfl, h.of_step h2 hg⟩
  | phase cs φ q =>
    obtain ⟨s', h1, h2⟩ := mcphase_step he h.wf (h.opnds ⟨hv.1, hv.2.1⟩) φ
    exact ⟨_, .none, s', by simp only [call, quiet, h1, ok_bind, pure_ok], rfl, rfl, h.of_step h2 hg⟩
  | exp cs ps θ ts =>
    obtain ⟨s', h1, h2⟩ := mcexp_step he h.wf (ps := ps.map pauliArg) θ hv.1 (h.alloc hv.2.1)
      (by simpa using hv.2.2)
    rw [factors_pauliArg] at h2
    exact ⟨_, .none, s', by simp only [call, quiet, h1, ok_bind, pure_ok], rfl, rfl, h.of_step h2 hg⟩
  | swap a b =>
    obtain ⟨s', h1, hw', hl, hr, ha⟩ := swapQubitIds_spec h.wf ((h.live a).1 hv.1) ((h.live b).1 hv.2)
    refine ⟨_, .none, s', by simp only [call, quiet, h1, ok_bind, pure_ok], rfl, rfl,
      ⟨hw', ?_, hr.trans h.rng, ?_, hg⟩⟩
    · intro q; rw [hl]; exact h.live q
    · obtain ⟨c, hc, hb⟩ := h.psi
      exact ⟨c, hc, by rw [ha, hb]; rfl⟩
  | allocate =>
    obtain ⟨_, _, hw', hl, hr, ha⟩ := allocate_spec h.wf
    refine ⟨_, _, _, rfl, rfl, by rw [fresh_eq h]; rfl, ⟨hw', ?_, hr.trans h.rng, ?_, hg⟩⟩
    · intro q
      show q ∈ insert σ.fresh σ.live ↔ _
      rw [hl, Finset.mem_insert, fresh_eq h, h.live]
      simp
    · rw [ha]; exact h.psi
  | release q =>
    suffices H : ∃ o s', call env (.release q) s = .ok (o, s') ∧ σ.Answer (.release q) o ∧
        Refines s' (σ.step (.release q)) by
      obtain ⟨o, s', a, b, c⟩ := H
      exact ⟨_, o, s', a, rfl, b, c⟩
    have ha := (h.live q).1 hv
    have hlen : s.idMap.iter.length = σ.live.card := by
      have := congrArg List.length h.keys
      unfold IMap.keys Ideal.ids at this
      rw [List.length_map, Finset.length_sort] at this
      exact this
    by_cases hl : σ.live = {q}
    · obtain ⟨s', h1, hw', hid, hr, hab⟩ := release_last (env := env) ha (by rw [hlen, hl]; rfl)
      have hst : σ.step (.release q) = { σ with live := ∅, psi := ket zeroBasis } := by
        simp only [Ideal.step, hl, if_true]
      rw [hst] at hg ⊢
      refine ⟨.none, s', by simp only [call, quiet, h1, ok_bind, pure_ok], rfl,
        ⟨hw', ?_, hr.trans h.rng, ⟨1, by simp, by rw [hab, one_smul]⟩, hg⟩⟩
      intro r
      rw [hid, IMap.get_remove]
      by_cases hrq : r = q
      · simp [hrq]
      · have : r ∉ σ.live := by rw [hl]; simpa using hrq
        rw [h.live] at this
        simp [hrq, this]
    · have hne : s.idMap.iter.length ≠ 1 := by
        rw [hlen]
        intro hc
        obtain ⟨a, ha'⟩ := Finset.card_eq_one.1 hc
        rw [ha', Finset.mem_singleton.1 (show q ∈ ({a} : Finset ℕ) by rw [← ha']; exact hv)] at hl
        exact hl rfl
      obtain ⟨s', h1, hw', hid, hr, hab⟩ := release_many he h.wf ha hne
      rw [h.outcome] at hab
      have hst : σ.step (.release q) =
          { live := σ.live.erase q
            psi := if σ.outcome [q] then Spec.ctrl [] matX q (σ.measured [q]).psi
              else (σ.measured [q]).psi
            rng := (σ.measured [q]).rng } := by
        simp only [Ideal.step, hl, if_false]
      rw [hst] at hg ⊢
      refine ⟨.none, s', by simp only [call, quiet, h1, ok_bind, pure_ok], rfl,
        ⟨hw', ?_, ?_, ?_, hg⟩⟩
      · intro r
        show r ∈ σ.live.erase q ↔ _
        rw [hid, IMap.get_remove, Finset.mem_erase, h.live]
        by_cases hrq : r = q
        · simp [hrq]
        · simp [hrq]
      · rw [hr, h.rng]; rfl
      · obtain ⟨c, hc, hp⟩ := h.post [q] (σ.outcome [q])
        refine ⟨c, hc, ?_⟩
        rw [hab, hp]
        show _ = c • (if σ.outcome [q] then Spec.ctrl [] matX q (σ.measured [q]).psi
              else (σ.measured [q]).psi)
        have hmp : (σ.measured [q]).psi = postMeasure [q] (σ.outcome [q]) σ.psi := rfl
        rw [hmp]
        cases σ.outcome [q]
        · simp only [Bool.false_eq_true, if_false]; rfl
        · simp only [if_true]
          exact map_smul (gateL matX q) c _
  | measure q =>
    obtain ⟨s', h1, hm⟩ := measure_spec he h.wf ((h.live q).1 hv)
    rw [h.outcome] at h1 hm
    exact ⟨_, _, s', by simp only [call, h1, ok_bind, pure_ok], rfl, rfl, h.measured hm⟩
  | jointMeasure qs =>
    obtain ⟨s', h1, hm⟩ := jointMeasure_spec he h.wf hv.1 (h.alloc hv.2)
    rw [h.outcome] at h1 hm
    exact ⟨_, _, s', by simp only [call, h1, ok_bind, pure_ok], rfl, rfl, h.measured hm⟩
  | jointProb qs =>
    obtain ⟨s', h1, hs⟩ := jointProbability_spec he h.wf hv.1 (h.alloc hv.2)
    rw [h.prob] at h1
    exact ⟨_, _, s', by simp only [call, h1, ok_bind, pure_ok], rfl, rfl, h.of_same hs⟩
  | isZero q =>
    obtain ⟨s', h1, hs⟩ := qubitIsZero_spec he h.wf ((h.live q).1 hv)
    refine ⟨_, .bit (decide (Spec.prob [q] true (abs s) = 0)), s',
      by simp only [call, h1, ok_bind, pure_ok], rfl, ?_, h.of_same hs⟩
    show Out.bit _ = Out.bit _
    congr 1
    rw [decide_eq_decide, h.prob]
  | collapse v q =>
    suffices H : ∃ o s', call env (.collapse v q) s = .ok (o, s') ∧ σ.Answer (.collapse v q) o ∧
        Refines s' (σ.step (.collapse v q)) by
      obtain ⟨o, s', a, b, c⟩ := H
      exact ⟨_, o, s', a, rfl, b, c⟩
    obtain ⟨s', h1, hw', hid, hr, hab⟩ := forceCollapse_spec he h.wf ((h.live q).1 hv) v h.norm
    rw [h.prob] at h1
    refine ⟨_, s', by simp only [call, h1, ok_bind, pure_ok], rfl, ?_⟩
    have hst : σ.step (.collapse v q) =
        if Spec.prob [q] v σ.psi = 0 then σ else { σ with psi := postMeasure [q] v σ.psi } := by
      simp only [Ideal.step]
    rw [hst] at hg ⊢
    by_cases h0 : Spec.prob [q] v σ.psi = 0
    · rw [if_pos h0] at hg ⊢
      rw [if_pos ((h.prob [q] v).trans h0)] at hab
      exact ⟨hw', by intro r; rw [hid]; exact h.live r, hr.trans h.rng, by rw [hab]; exact h.psi, hg⟩
    · rw [if_neg h0] at hg ⊢
      rw [if_neg (fun hc => h0 ((h.prob [q] v).symm.trans hc))] at hab
      exact ⟨hw', by intro r; rw [hid]; exact h.live r, hr.trans h.rng, by rw [hab]; exact h.post [q] v, hg⟩
  | getState =>
    obtain ⟨l, s', h1, hw', hr, hsome, hab, hl⟩ := getState_spec he h.wf
    obtain ⟨c, hc, ha⟩ := h.psi
    refine ⟨_, .state l s.idMap.keys.length, s', by simp only [call, h1, ok_bind, pure_ok], rfl, ⟨c, l, hc, ?_, ?_⟩,
      ⟨hw', ?_, hr.trans h.rng, ⟨c, hc, by rw [hab, ha]; rfl⟩, hg⟩⟩
    · rw [← ha, ← h.keys]; exact hl
    · rw [h.keys, Ideal.ids, Finset.length_sort]
    · intro q; rw [hsome]; exact h.live q
  | dump fmt =>
    obtain ⟨l, s', h1, hw', hr, hsome, hab, hl⟩ := dump_spec he fmt h.wf
    obtain ⟨c, hc, ha⟩ := h.psi
    refine ⟨_, .text (dumpText fmt l), s', by simp only [call, h1, ok_bind, pure_ok], rfl,
      ⟨c, l, hc, ?_, by rw [dumpText_eq]⟩,
      ⟨hw', ?_, hr.trans h.rng, ⟨c, hc, by rw [hab, ha]; rfl⟩, hg⟩⟩
    · rw [← ha, ← h.keys]; exact hl
    · intro q; rw [hsome]; exact h.live q

theorem wf_new (rng : ℕ → ℝ) : WF (Sim.new rng) := by
  refine ⟨⟨⟨?_, ?_, ?_⟩, by simp [Sim.new]⟩, ?_⟩
  · intro i j l hi
    simp [Sim.new] at hi
  · simp [Sim.new]
  · intro e he l hl
    simp only [Sim.new, List.mem_singleton] at he
    subst he
    simp at hl
  · intro q hq
    rw [hasQueued_eq] at hq
    simp [Sim.new] at hq

theorem abs_new (rng : ℕ → ℝ) : abs (Sim.new rng) = ket zeroBasis := by
  have hk : (Sim.new rng).idMap.keys = [] := by
    rw [List.eq_nil_iff_forall_not_mem]
    intro a ha
    rw [IMap.mem_keys] at ha
    simp [Sim.new] at ha
  have hb : idBits (Sim.new rng).idMap 0 = zeroBasis := by
    funext q; simp [idBits, Sim.new, zeroBasis]
  unfold Qir.abs base
  rw [hk, pendL_nil]
  simp only [Module.End.one_apply]
  show view (Sim.new rng).idMap [(0, 1)] = _
  simp [view, entryWave, hb]

theorem refines_new {rng : ℕ → ℝ} (h : ∀ n, 0 ≤ rng n ∧ rng n < 1) :
    Refines (Sim.new rng) (Ideal.init rng) :=
  ⟨wf_new rng, by intro q; simp [Ideal.init, Sim.new], rfl, ⟨1, by simp, by rw [abs_new, one_smul]; rfl⟩,
    good_init h⟩

theorem valid_congr {σ τ : Ideal} (h : σ.live = τ.live) (c : Call) : σ.Valid c ↔ τ.Valid c := by
  simp only [Ideal.Valid, h]

theorem live_step_congr {σ τ : Ideal} (h : σ.live = τ.live) (c : Call) :
    (σ.step c).live = (τ.step c).live := by
  cases c <;> simp only [Ideal.step, Ideal.measured, Ideal.fresh, h]
  · split <;> simp [h]
  · split <;> split <;> simp [h]

theorem twist_live_step {c d : Call} (h : Call.Twist c d) (σ : Ideal) :
    (σ.step c).live = (σ.step d).live := by
  cases h <;> rfl

theorem validRun_congr (cs : List Call) : ∀ {σ τ : Ideal}, σ.live = τ.live →
    (σ.ValidRun cs ↔ τ.ValidRun cs) := by
  induction cs with
  | nil => intro σ τ _; rfl
  | cons c cs ih =>
    intro σ τ h
    simp only [Ideal.ValidRun, valid_congr h, ih (live_step_congr h c)]

/-- Any valid history: no panic, and the answers are those of the ideal machine for the history
really executed. -/
theorem refine_run {env : Env} (he : env.eps = 0) (cs : List Call) :
    ∀ {s : Sim} {σ : Ideal}, Refines s σ → σ.ValidRun cs →
      ∃ ds os s', runCalls env cs s = .ok (os, s') ∧ List.Forall₂ Call.Twist cs ds ∧
        (RunOk env s cs → ds = cs) ∧ σ.Answers ds os ∧ Refines s' (σ.run ds) := by
  induction cs with
  | nil => intro s σ h _; exact ⟨[], [], s, rfl, .nil, fun _ => rfl, rfl, h⟩
  | cons c cs ih =>
    intro s σ h hv
    obtain ⟨d, o, s1, h1, hm, ha, hr⟩ := refine_call he h hv.1
    obtain ⟨ds, os, s2, h2, ht, hok, ha2, hr2⟩ := ih hr
      ((validRun_congr cs (twist_live_step hm.twist σ)).1 hv.2)
    exact ⟨d :: ds, o :: os, s2, by simp only [runCalls, h1, ok_bind, h2, pure_ok],
      .cons hm.twist ht, fun hrun => by rw [hm.eq hrun.1, hok (hrun.2 o s1 h1)],
      ⟨o, os, rfl, ha, ha2⟩, hr2⟩

end Qir
