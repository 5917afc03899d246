import Verif.Props.TolDefs
import Verif.Proof.TolRun

/-! The simulator follows the ideal machine within the accumulated tolerance. -/

noncomputable section
namespace Qir.Tol
open Spec Function Sim

variable {ε : ℝ}

/-- The simulator state `s` stands for a state within `d` of the ideal machine state `σ`. -/
structure Tracks (ε d : ℝ) (s : Sim) (σ : Ideal) : Prop where
  wf : WF s
  live : ∀ q, q ∈ σ.live ↔ (s.idMap.get q).isSome = true
  rng : s.rng = σ.rng
  psi : ∃ c : ℂ, ‖c‖ = 1 ∧ Near d (abs ε s) (c • σ.psi)
  good : Good σ

/-- Everything but the state vector. -/
theorem Tracks.keys {d : ℝ} {s : Sim} {σ : Ideal} (h : Tracks ε d s σ) : s.idMap.keys = σ.ids := by
  have h1 : s.idMap.keys.Pairwise (· < ·) := IMap.keys_sorted _
  have h2 : σ.ids.Pairwise (· < ·) := Finset.sortedLT_sort _ |>.pairwise
  apply List.Perm.eq_of_pairwise (le := (· < ·)) _ h1 h2
  · rw [List.perm_ext_iff_of_nodup (IMap.keys_nodup _) (show σ.ids.Nodup from Finset.sort_nodup _ _)]
    intro a
    rw [IMap.mem_keys]
    show _ ↔ a ∈ σ.live.sort _
    rw [Finset.mem_sort, h.live]
  · intro a b _ _ h1 h2; omega

theorem Tracks.card {d : ℝ} {s : Sim} {σ : Ideal} (h : Tracks ε d s σ) :
    s.idMap.keys.length = σ.live.card := by
  rw [h.keys, Ideal.ids, Finset.length_sort]

theorem Tracks.mono {d d' : ℝ} {s : Sim} {σ : Ideal} (h : Tracks ε d s σ) (hd : d ≤ d') :
    Tracks ε d' s σ := by
  obtain ⟨c, hc, hn⟩ := h.psi
  exact ⟨h.wf, h.live, h.rng, ⟨c, hc, hn.mono hd⟩, h.good⟩

theorem Tracks.alloc {d : ℝ} {s : Sim} {σ : Ideal} (h : Tracks ε d s σ) {ids : List ℕ}
    (hi : ∀ i ∈ ids, i ∈ σ.live) : Alloc s.idMap ids := fun i hm => (h.live i).1 (hi i hm)

theorem Tracks.opnds {d : ℝ} {s : Sim} {σ : Ideal} (h : Tracks ε d s σ) {cs : List ℕ} {q : ℕ}
    (hv : (cs ++ [q]).Nodup ∧ ∀ i ∈ cs ++ [q], i ∈ σ.live) : OpndsOk s.idMap cs q :=
  ⟨hv.1, h.alloc hv.2⟩

theorem Tracks.of_step {d : ℝ} {n : ℕ} {s s' : Sim} {σ : Ideal} (h : Tracks ε d s σ)
    {U : Module.End ℂ Wave} (hU : Iso U) (hs : Step ε s s' U n)
    (hg : Good { σ with psi := U σ.psi }) :
    Tracks ε (d + n * unit ε σ.live.card) s' { σ with psi := U σ.psi } := by
  obtain ⟨c, hc, ha⟩ := h.psi
  obtain ⟨e, he, hb⟩ := hs.near
  refine ⟨hs.wf, ?_, hs.rng.trans h.rng, ⟨e * c, ?_, ?_⟩, hg⟩
  · intro q; rw [hs.idMap]; exact h.live q
  · rw [norm_mul, he, hc, one_mul]
  · have := hb.trans ((ha.map hU).smul he)
    rw [map_smul, smul_smul, h.card, add_comm] at this
    exact this

theorem Tracks.of_same {d : ℝ} {n : ℕ} {s s' : Sim} {σ : Ideal} (h : Tracks ε d s σ)
    (hs : Same ε s s' n) : Tracks ε (d + n * unit ε σ.live.card) s' σ := by
  obtain ⟨c, hc, ha⟩ := h.psi
  refine ⟨hs.wf, by intro q; rw [hs.idMap]; exact h.live q, hs.rng.trans h.rng, ⟨c, hc, ?_⟩, h.good⟩
  have := hs.near.trans ha
  rw [h.card, add_comm] at this
  exact this

theorem Tracks.slim {d : ℝ} {s : Sim} {σ : Ideal} (h : Tracks ε d s σ) : len (abs ε s) ≤ 1 := by
  rw [len_abs]; exact h.wf.slim

theorem Tracks.prob {d : ℝ} {s : Sim} {σ : Ideal} (h : Tracks ε d s σ) (qs : List ℕ) (v : Bool) :
    |Spec.prob qs v (abs ε s) - Spec.prob qs v σ.psi| ≤ 2 * d := by
  obtain ⟨c, hc, ha⟩ := h.psi
  have h1 : len (c • σ.psi) ≤ 1 := by
    rw [len_smul hc]; unfold len; rw [h.good.norm]; simp
  have := ha.prob h.slim h1 qs v
  rwa [prob_smul, normSq_of_norm hc, one_mul] at this

theorem fresh_eq {d : ℝ} {s : Sim} {σ : Ideal} (h : Tracks ε d s σ) : s.allocate.1 = σ.fresh := by
  obtain ⟨h1, h2, _⟩ := allocate_spec h.wf.toWF
  have hmem : s.allocate.1 ∈ {n | n ∉ σ.live} := by
    intro hc
    rw [h.live, h1] at hc; cases hc
  apply le_antisymm
  · apply le_csInf ⟨_, hmem⟩
    intro b hb
    by_contra hlt
    exact hb ((h.live b).2 (h2 b (not_le.1 hlt)))
  · exact Nat.sInf_le hmem

theorem gateCall_near {env : Env} (he : TolOk env) {s : Sim} (hw : WF s) {q : ℕ}
    (hq : (s.idMap.get q).isSome) (g : Gate) (hok : SteadyCall env s (.gate g q)) :
    ∃ s', gateCall env q g s = .ok s' ∧ Step env.eps s s' (gateL g.mat q) 4 := by
  have key : ∀ {s' : Sim} {n : ℕ}, gateCall env q g s = .ok s' →
      Step env.eps s s' (gateL g.mat q) n → n ≤ 4 → ∃ s', gateCall env q g s = .ok s' ∧
        Step env.eps s s' (gateL g.mat q) 4 :=
    fun h1 h2 h3 => ⟨_, h1, h2.mono he.nonneg h3⟩
  cases g with
  | x => obtain ⟨s', h1, h2⟩ := x_step hw hq; exact key h1 h2 (by omega)
  | y => obtain ⟨s', h1, h2⟩ := y_step hw hq; exact key h1 h2 (by omega)
  | z => obtain ⟨s', h1, h2⟩ := z_step hw hq; exact key h1 h2 (by omega)
  | h => obtain ⟨s', h1, h2⟩ := h_step he hw hq; exact key h1 h2 (by omega)
  | s => obtain ⟨s', h1, h2⟩ := diagGate_step he hw hq .S; exact key h1 h2 (by omega)
  | sadj => obtain ⟨s', h1, h2⟩ := diagGate_step he hw hq .Sadj; exact key h1 h2 (by omega)
  | t => obtain ⟨s', h1, h2⟩ := diagGate_step he hw hq .T; exact key h1 h2 (by omega)
  | tadj => obtain ⟨s', h1, h2⟩ := diagGate_step he hw hq .Tadj; exact key h1 h2 (by omega)
  | rx θ => obtain ⟨s', h1, h2⟩ := rx_step he hw hq θ; exact key h1 h2 (by omega)
  | rz θ => obtain ⟨s', h1, h2⟩ := diagGate_step he hw hq (.Rz θ); exact key h1 h2 (by omega)
  | ry θ => obtain ⟨s', h1, h2⟩ := ry_step he hw hq θ hok; exact key h1 h2 (by omega)

theorem ctrlCall_near {env : Env} (he : TolOk env) {s : Sim} (hw : WF s) {q : ℕ} {cs : List ℕ}
    (hok : OpndsOk s.idMap cs q) (g : Gate) :
    ∃ s', ctrlCall env cs q g s = .ok s' ∧ Step env.eps s s' (ctrlL cs g.mat q) (3 * cs.length + 4) := by
  have key : ∀ {s' : Sim} {n : ℕ}, ctrlCall env cs q g s = .ok s' →
      Step env.eps s s' (ctrlL cs g.mat q) n → n ≤ 3 * cs.length + 4 →
      ∃ s', ctrlCall env cs q g s = .ok s' ∧
        Step env.eps s s' (ctrlL cs g.mat q) (3 * cs.length + 4) :=
    fun h1 h2 h3 => ⟨_, h1, h2.mono he.nonneg h3⟩
  cases g with
  | x => obtain ⟨s', h1, h2⟩ := mcx_step he hw hok; exact key h1 h2 (by omega)
  | y => obtain ⟨s', h1, h2⟩ := mcy_step he hw hok; exact key h1 h2 (by omega)
  | z => obtain ⟨s', h1, h2⟩ := mcz_step he hw hok; exact key h1 h2 (by omega)
  | h => obtain ⟨s', h1, h2⟩ := mch_step he hw hok; exact key h1 h2 (by omega)
  | s => obtain ⟨s', h1, h2⟩ := mcDiagGate_step he hw hok .S; exact key h1 h2 (by omega)
  | sadj => obtain ⟨s', h1, h2⟩ := mcDiagGate_step he hw hok .Sadj; exact key h1 h2 (by omega)
  | t => obtain ⟨s', h1, h2⟩ := mcDiagGate_step he hw hok .T; exact key h1 h2 (by omega)
  | tadj => obtain ⟨s', h1, h2⟩ := mcDiagGate_step he hw hok .Tadj; exact key h1 h2 (by omega)
  | rx θ => obtain ⟨s', h1, h2⟩ := mcrx_step he hw hok θ; exact key h1 h2 (by omega)
  | ry θ => obtain ⟨s', h1, h2⟩ := mcry_step he hw hok θ; exact key h1 h2 (by omega)
  | rz θ => obtain ⟨s', h1, h2⟩ := mcDiagGate_step he hw hok (.Rz θ); exact key h1 h2 (by omega)

theorem tracks_call {env : Env} (he : TolOk env) {d : ℝ} {s : Sim} {σ : Ideal}
    (h : Tracks env.eps d s σ) {c : Call} (hv : σ.Valid c) (hu : c.IsGate ∨ c.IsLook ∨ c = .allocate)
    (hok : SteadyCall env s c) :
    ∃ o s', call env c s = .ok (o, s') ∧
      σ.AnswerWithin env.eps (d + (4 * c.work σ : ℕ) * unit env.eps σ.live.card) c o ∧
      Tracks env.eps (d + (4 * c.work σ : ℕ) * unit env.eps σ.live.card) s' (σ.step c) := by
  have hg := h.good.step hv
  have hmono : ∀ {n : ℕ}, n ≤ 4 * c.work σ → d + n * unit env.eps σ.live.card ≤
      d + (4 * c.work σ : ℕ) * unit env.eps σ.live.card := by
    intro n hn
    have := mul_le_mul_of_nonneg_right (show (n : ℝ) ≤ (4 * c.work σ : ℕ) by exact_mod_cast hn)
      (unit_nonneg he.nonneg σ.live.card)
    linarith
  cases c with
  | gate g q =>
    obtain ⟨s', h1, h2⟩ := gateCall_near he h.wf ((h.live q).1 hv) g hok
    exact ⟨.none, s', by simp only [call, quiet, h1, ok_bind, pure_ok], rfl,
      (h.of_step (iso_gate (isom_gate g) q) h2 hg).mono (hmono (by simp [Call.work, Call.width]))⟩
  | ctrl g cs q =>
    have hop := h.opnds hv
    obtain ⟨s', h1, h2⟩ := ctrlCall_near he h.wf hop g
    exact ⟨.none, s', by simp only [call, quiet, h1, ok_bind, pure_ok], rfl,
      (h.of_step (iso_ctrl (isom_gate g) hop.not_mem) h2 hg).mono
        (hmono (by simp only [Call.work, Call.width]; omega))⟩
  | phase cs φ q =>
    have hop := h.opnds ⟨hv.1, hv.2.1⟩
    have hI := isom_phase_norm hv.2.2
    obtain ⟨s', h1, h2⟩ := mcphase_step he h.wf hop φ hI
    exact ⟨.none, s', by simp only [call, quiet, h1, ok_bind, pure_ok], rfl,
      (h.of_step (iso_ctrl hI hop.not_mem) h2 hg).mono
        (hmono (by simp only [Call.work, Call.width]; omega))⟩
  | exp cs ps θ ts =>
    obtain ⟨s', h1, h2⟩ := mcexp_step he h.wf (ps := ps.map pauliArg) θ hv.1 (h.alloc hv.2.1)
      (by simpa using hv.2.2)
    rw [factors_pauliArg] at h2
    have hn := List.nodup_append.1 hv.1
    have hs := zip_snd_sublist ps ts
    exact ⟨.none, s', by simp only [call, quiet, h1, ok_bind, pure_ok], rfl,
      (h.of_step (iso_exp (hs.nodup hn.2.1) (fun c hc hm => hn.2.2 c hc c (hs.mem hm) rfl) θ) h2 hg).mono
        (hmono (by simp only [Call.work, Call.width, List.length_append]; omega))⟩
  | swap a b =>
    obtain ⟨s', h1, hw', hl, hr, ha⟩ := swapQubitIds_abs (ε := env.eps) h.wf ((h.live a).1 hv.1) ((h.live b).1 hv.2)
    have h0 : Tracks env.eps d s' (σ.step (.swap a b)) := by
      refine ⟨hw', ?_, hr.trans h.rng, ?_, hg⟩
      · intro q; rw [hl]; exact h.live q
      · obtain ⟨c, hc, hb⟩ := h.psi
        refine ⟨c, hc, ?_⟩
        have := hb.map (iso_swap a b)
        rw [map_smul] at this
        rw [ha]; exact this
    exact ⟨.none, s', by simp only [call, quiet, h1, ok_bind, pure_ok], rfl,
      h0.mono (by simpa using hmono (Nat.zero_le _))⟩
  | allocate =>
    obtain ⟨_, _, _, hl, hr, _⟩ := allocate_spec h.wf.toWF
    obtain ⟨hw', ha⟩ := allocate_abs (ε := env.eps) h.wf
    have h0 : Tracks env.eps d s.allocate.2 (σ.step .allocate) := by
      refine ⟨hw', ?_, hr.trans h.rng, ?_, hg⟩
      · intro q
        show q ∈ insert σ.fresh σ.live ↔ _
        rw [hl, Finset.mem_insert, fresh_eq h, h.live]
        simp
      · rw [ha]; exact h.psi
    exact ⟨_, _, rfl, by rw [fresh_eq h]; rfl, h0.mono (by simpa using hmono (Nat.zero_le _))⟩
  | jointProb qs =>
    obtain ⟨s', h1, hs⟩ := jointProbability_near he h.wf hv.1 (h.alloc hv.2)
    have h2 := (h.of_same hs).mono (hmono (by simp only [Call.work, Call.width]; omega))
    exact ⟨_, s', by simp only [call, h1, ok_bind, pure_ok], ⟨_, rfl, h2.prob qs true⟩, h2⟩
  | isZero q =>
    obtain ⟨s', h1, hs⟩ := jointProbability_near he h.wf (ids := [q]) (by simp)
      (by intro i hi; simp only [List.mem_singleton] at hi; subst hi; exact (h.live _).1 hv)
    have h2 := (h.of_same hs).mono (hmono (by simp [Call.work, Call.width]))
    refine ⟨.bit (decide (NearlyZeroR env.eps (Spec.prob [q] true (abs env.eps s')))), s', ?_,
      ⟨_, h2.prob [q] true, ?_⟩, h2⟩
    · simp only [call, qubitIsZero, h1, ok_bind, pure_ok]
    · congr 1
      rw [decide_eq_decide, nearlyZeroR_iff, abs_of_nonneg (prob_nonneg _ _ _)]
  | getState =>
    obtain ⟨l, s', h1, hw', hr, hsome, hn, hl⟩ := getState_near he h.wf
    obtain ⟨c, hc, ha⟩ := h.psi
    have hd := hn.trans ha
    rw [h.card, add_comm] at hd
    have hd' := hd.mono (hmono (n := 3 * σ.live.card) (by simp only [Call.work, Call.width]; omega))
    refine ⟨.state l s.idMap.keys.length, s', by simp only [call, h1, ok_bind, pure_ok],
      ⟨abs env.eps s', l, c, hc, by rw [← h.keys]; exact hl, hd'.le, by rw [h.card]⟩,
      ⟨hw', ?_, hr.trans h.rng, ⟨c, hc, hd'⟩, hg⟩⟩
    intro q; rw [hsome]; exact h.live q
  | dump fmt =>
    obtain ⟨l, s', h1, hw', hr, hsome, hn, hl⟩ := dump_near he fmt h.wf
    obtain ⟨c, hc, ha⟩ := h.psi
    have hd := hn.trans ha
    rw [h.card, add_comm] at hd
    have hd' := hd.mono (hmono (n := 3 * σ.live.card) (by simp only [Call.work, Call.width]; omega))
    refine ⟨.text (dumpText fmt l), s', by simp only [call, h1, ok_bind, pure_ok],
      ⟨abs env.eps s', l, c, hc, by rw [← h.keys]; exact hl, hd'.le, by rw [dumpText_eq]⟩,
      ⟨hw', ?_, hr.trans h.rng, ⟨c, hc, hd'⟩, hg⟩⟩
    intro q; rw [hsome]; exact h.live q
  | release q => simp [Call.IsGate, Call.IsLook] at hu
  | measure q => simp [Call.IsGate, Call.IsLook] at hu
  | jointMeasure qs => simp [Call.IsGate, Call.IsLook] at hu
  | collapse v q => simp [Call.IsGate, Call.IsLook] at hu

theorem AnswerWithin.mono {eps d d' : ℝ} (hd : d ≤ d') {σ : Ideal} {c : Call} {o : Out}
    (h : σ.AnswerWithin eps d c o) : σ.AnswerWithin eps d' c o := by
  cases c <;> simp only [Ideal.AnswerWithin] at h ⊢ <;> try exact h
  · obtain ⟨p, h1, h2⟩ := h; exact ⟨p, h1, by linarith⟩
  · obtain ⟨p, h1, h2⟩ := h; exact ⟨p, by linarith, h2⟩
  · obtain ⟨ψ, l, w, h1, h2, h3, h4⟩ := h; exact ⟨ψ, l, w, h1, h2, h3.trans hd, h4⟩
  · obtain ⟨ψ, l, w, h1, h2, h3, h4⟩ := h; exact ⟨ψ, l, w, h1, h2, h3.trans hd, h4⟩

theorem card_step_le (σ : Ideal) {c : Call} (hu : c.IsGate ∨ c.IsLook ∨ c = .allocate) :
    σ.live.card ≤ (σ.step c).live.card := by
  cases c <;> first
    | (simp [Call.IsGate, Call.IsLook] at hu; done)
    | (exact le_refl _)
    | exact Finset.card_le_card (Finset.subset_insert _ _)

theorem card_run_le (cs : List Call) : ∀ (σ : Ideal),
    (∀ c ∈ cs, c.IsGate ∨ c.IsLook ∨ c = .allocate) → σ.live.card ≤ (σ.run cs).live.card := by
  induction cs with
  | nil => intro σ _; exact le_refl _
  | cons c cs ih =>
    intro σ h
    exact (card_step_le σ (h c (by simp))).trans (ih (σ.step c) (fun c hc => h c (by simp [hc])))

theorem tracks_run {env : Env} (he : TolOk env) (N : ℕ) (D : ℝ) (cs : List Call) :
    ∀ {d : ℝ} {s : Sim} {σ : Ideal}, Tracks env.eps d s σ → σ.ValidRun cs →
      (∀ c ∈ cs, c.IsGate ∨ c.IsLook ∨ c = .allocate) → Steady env s cs →
      (σ.run cs).live.card ≤ N → d + (4 * σ.work cs : ℕ) * unit env.eps N ≤ D →
      ∃ os s', runCalls env cs s = .ok (os, s') ∧ σ.AnswersWithin env.eps D cs os ∧
        Tracks env.eps (d + (4 * σ.work cs : ℕ) * unit env.eps N) s' (σ.run cs) := by
  induction cs with
  | nil =>
    intro d s σ h _ _ _ _ _
    exact ⟨[], s, rfl, rfl, h.mono (by simp [Ideal.work])⟩
  | cons c cs ih =>
    intro d s σ h hv hu hok hN hD
    obtain ⟨o, s1, h1, ha, ht⟩ := tracks_call he h hv.1 (hu c (by simp)) hok.1
    have hcard : σ.live.card ≤ N := (card_run_le (c :: cs) σ hu).trans hN
    have hu1 := unit_mono he.nonneg hcard
    have hle : (4 * c.work σ : ℕ) * unit env.eps σ.live.card ≤ (4 * c.work σ : ℕ) * unit env.eps N :=
      mul_le_mul_of_nonneg_left hu1 (Nat.cast_nonneg _)
    have hsum : d + ((4 * c.work σ : ℕ) : ℝ) * unit env.eps N +
        ((4 * (σ.step c).work cs : ℕ) : ℝ) * unit env.eps N =
        d + (4 * σ.work (c :: cs) : ℕ) * unit env.eps N := by
      simp only [Ideal.work]; push_cast; ring
    have hnn : 0 ≤ ((4 * (σ.step c).work cs : ℕ) : ℝ) * unit env.eps N :=
      mul_nonneg (Nat.cast_nonneg _) (unit_nonneg he.nonneg _)
    obtain ⟨os, s2, h2, ha2, ht2⟩ := ih (d := d + (4 * c.work σ : ℕ) * unit env.eps N)
      (ht.mono (by linarith)) hv.2 (fun c hc => hu c (by simp [hc])) (hok.2 o s1 h1) hN
      (by rw [hsum]; exact hD)
    refine ⟨o :: os, s2, by simp only [runCalls, h1, ok_bind, h2, pure_ok],
      ⟨o, os, rfl, AnswerWithin.mono (by linarith) ha, ha2⟩, ?_⟩
    rw [hsum] at ht2
    exact ht2

theorem abs_new (rng : ℕ → ℝ) : abs ε (Sim.new rng) = ket zeroBasis := by
  rw [← Qir.abs_new rng]
  unfold abs Qir.abs
  congr 1

theorem tracks_new {rng : ℕ → ℝ} (h : ∀ n, 0 ≤ rng n ∧ rng n < 1) :
    Tracks ε 0 (Sim.new rng) (Ideal.init rng) := by
  refine ⟨⟨wf_new rng, ?_⟩, by intro q; simp [Ideal.init, Sim.new], rfl,
    ⟨1, by simp, ?_⟩, good_init h⟩
  · rw [← len_abs (ε := 0), abs_new]
    unfold len
    rw [normSq_ket]; simp
  · rw [one_smul, abs_new]
    exact Near.refl (finSupp_ket _)

end Qir.Tol
