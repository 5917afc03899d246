import Verif.Props.RoundedDefs
import Verif.Proof.RndMeasure
import Verif.Proof.TolAll

/-! The simulator with rounded arithmetic follows the ideal machine. -/

noncomputable section
namespace Qir.Rnd
open Spec Function Sim Tol

variable {A : Arith} {N : ℕ}

/-- The simulator state `s` stands for a state within `d` of the ideal machine state `σ`, even after its queue has been
applied. -/
structure Tracks (A : Arith) (N : ℕ) (d : ℝ) (s : Sim) (σ : Ideal) : Prop where
  wf : Qir.WF s
  live : ∀ q, q ∈ σ.live ↔ (s.idMap.get q).isSome = true
  rng : s.rng = σ.rng
  card : σ.live.card ≤ N
  psi : ∃ (c : ℂ) (d' : ℝ), ‖c‖ = 1 ∧ d' + s.opQ.length * cost A N ≤ d ∧ Near d' (abs A s) (c • σ.psi)
  good : Good σ

theorem Tracks.keys {d : ℝ} {s : Sim} {σ : Ideal} (h : Tracks A N d s σ) : s.idMap.keys = σ.ids := by
  have h1 : s.idMap.keys.Pairwise (· < ·) := IMap.keys_sorted _
  have h2 : σ.ids.Pairwise (· < ·) := Finset.sortedLT_sort _ |>.pairwise
  apply List.Perm.eq_of_pairwise (le := (· < ·)) _ h1 h2
  · rw [List.perm_ext_iff_of_nodup (IMap.keys_nodup _) (show σ.ids.Nodup from Finset.sort_nodup _ _)]
    intro a
    rw [IMap.mem_keys]
    show _ ↔ a ∈ σ.live.sort _
    rw [Finset.mem_sort, h.live]
  · intro a b _ _ h1 h2; omega

theorem Tracks.length {d : ℝ} {s : Sim} {σ : Ideal} (h : Tracks A N d s σ) :
    s.idMap.keys.length = σ.live.card := by
  rw [h.keys, Ideal.ids, Finset.length_sort]

theorem Tracks.le {d : ℝ} {s : Sim} {σ : Ideal} (h : Tracks A N d s σ) : s.idMap.keys.length ≤ N := by
  rw [h.length]; exact h.card

theorem Tracks.mono {d d' : ℝ} {s : Sim} {σ : Ideal} (h : Tracks A N d s σ) (hd : d ≤ d') :
    Tracks A N d' s σ := by
  obtain ⟨c, d1, hc, hl, hn⟩ := h.psi
  exact ⟨h.wf, h.live, h.rng, h.card, ⟨c, d1, hc, hl.trans hd, hn⟩, h.good⟩

theorem Tracks.alloc {d : ℝ} {s : Sim} {σ : Ideal} (h : Tracks A N d s σ) {ids : List ℕ}
    (hi : ∀ i ∈ ids, i ∈ σ.live) : Alloc s.idMap ids := fun i hm => (h.live i).1 (hi i hm)

theorem Tracks.opnds {d : ℝ} {s : Sim} {σ : Ideal} (h : Tracks A N d s σ) {cs : List ℕ} {q : ℕ}
    (hv : (cs ++ [q]).Nodup ∧ ∀ i ∈ cs ++ [q], i ∈ σ.live) : OpndsOk s.idMap cs q :=
  ⟨hv.1, h.alloc hv.2⟩

theorem len_good {σ : Ideal} (h : Good σ) {c : ℂ} (hc : ‖c‖ = 1) : len (c • σ.psi) = 1 := by
  rw [len_smul hc]; unfold len; rw [h.norm]; simp

theorem near_len {d : ℝ} {ψ φ : Wave} (h : Near d ψ φ) : len ψ ≤ len φ + d := by
  have h1 := len_add (finSupp_sub h.fin h.fin') h.fin'
  rw [sub_add_cancel] at h1
  linarith [h.le]

/-- A call that costs `k` units. -/
theorem Tracks.cost (hf : Fine A) {d : ℝ} {k : ℕ} {s s' : Sim} {σ : Ideal} (h : Tracks A N d s σ)
    {U : Module.End ℂ Wave} (hU : Iso U) {e : ℂ} (he : ‖e‖ = 1)
    (hs : Cost A s.idMap.keys.length k s'.opQ s.opQ (abs A s') (e • U (abs A s)))
    (hd : d + k * cost A N ≤ 1 / 2) :
    ∃ (c : ℂ) (d' : ℝ), ‖c‖ = 1 ∧ d' + s'.opQ.length * Rnd.cost A N ≤ d + k * Rnd.cost A N ∧
      Near d' (abs A s') (c • U σ.psi) := by
  obtain ⟨c, d1, hc, hd1, ha⟩ := h.psi
  obtain ⟨m, hm, hr⟩ := hs
  have hr := hr.widen hf h.le
  have h0 := cost_nonneg hf N
  have hl : len (e • U (abs A s)) ≤ 1 + d1 := by
    rw [len_smul he, hU.len ha.fin, ← len_good h.good hc]; exact near_len ha
  have hm' : (m : ℝ) * Rnd.cost A N + s'.opQ.length * Rnd.cost A N ≤ k * Rnd.cost A N + s.opQ.length * Rnd.cost A N := by
    rw [← add_mul, ← add_mul]
    exact mul_le_mul_of_nonneg_right (by exact_mod_cast hm) h0
  have h1 : 0 ≤ (s'.opQ.length : ℝ) * Rnd.cost A N := by positivity
  have hn := (hr.near (by linarith)).trans ((ha.map hU).smul he)
  rw [map_smul, smul_smul] at hn
  exact ⟨e * c, _, by rw [norm_mul, he, hc, one_mul], by linarith, hn⟩

theorem Tracks.of_step (hf : Fine A) {d : ℝ} {k : ℕ} {s s' : Sim} {σ : Ideal} (h : Tracks A N d s σ)
    {U : Module.End ℂ Wave} (hU : Iso U) (hs : Step A s s' U k) (hd : d + k * Rnd.cost A N ≤ 1 / 2)
    (hg : Good { σ with psi := U σ.psi }) :
    Tracks A N (d + k * Rnd.cost A N) s' { σ with psi := U σ.psi } := by
  obtain ⟨e, he, hb⟩ := hs.near
  exact ⟨hs.wf, by intro q; rw [hs.idMap]; exact h.live q, hs.rng.trans h.rng, h.card, h.cost hf hU he hb hd, hg⟩

theorem iso_one : Iso (1 : Module.End ℂ Wave) := ⟨fun h => h, fun _ => rfl⟩

theorem Tracks.of_same (hf : Fine A) {d : ℝ} {k : ℕ} {s s' : Sim} {σ : Ideal} (h : Tracks A N d s σ)
    (hs : Same A s s' k) (hd : d + k * Rnd.cost A N ≤ 1 / 2) : Tracks A N (d + k * Rnd.cost A N) s' σ := by
  have := h.cost hf iso_one (e := 1) (by simp) (by rw [one_smul]; exact hs.near) hd
  exact ⟨hs.wf, by intro q; rw [hs.idMap]; exact h.live q, hs.rng.trans h.rng, h.card, this, h.good⟩

theorem Tracks.near (hf : Fine A) {d : ℝ} {s : Sim} {σ : Ideal} (h : Tracks A N d s σ) :
    ∃ c : ℂ, ‖c‖ = 1 ∧ Near d (abs A s) (c • σ.psi) := by
  obtain ⟨c, d1, hc, hd1, ha⟩ := h.psi
  have h0 : 0 ≤ (s.opQ.length : ℝ) * Rnd.cost A N := mul_nonneg (Nat.cast_nonneg _) (cost_nonneg hf N)
  exact ⟨c, hc, ha.mono (by linarith)⟩

theorem Tracks.nonneg (hf : Fine A) {d : ℝ} {s : Sim} {σ : Ideal} (h : Tracks A N d s σ) : 0 ≤ d := by
  obtain ⟨c, _, ha⟩ := h.near hf
  exact (len_nonneg _).trans ha.le

theorem Tracks.slim (hf : Fine A) {d : ℝ} {s : Sim} {σ : Ideal} (h : Tracks A N d s σ) (hd : d ≤ 1 / 2) :
    len (abs A s) ≤ 3 / 2 := by
  obtain ⟨c, hc, ha⟩ := h.near hf
  have := near_len ha
  rw [len_good h.good hc] at this
  linarith

/-- Probabilities computed from the represented state. -/
theorem Tracks.prob (hf : Fine A) {d : ℝ} {s : Sim} {σ : Ideal} (h : Tracks A N d s σ) (hd : slack A N d ≤ 1 / 2)
    {qs : List ℕ} {p : ℝ} (hp : len (abs A s) ≤ 3 / 2 → 18 * 2 ^ s.idMap.keys.length * A.v ≤ 1 →
        |p - Spec.prob qs true (abs A s)| ≤ 18 * 2 ^ s.idMap.keys.length * A.v) :
    |p - Spec.prob qs true σ.psi| ≤ 5 / 2 * d + 18 * 2 ^ N * A.v := by
  have hv := A.v_nonneg
  have hd0 := h.nonneg hf
  unfold slack at hd
  have hk : (2 : ℝ) ^ s.idMap.keys.length * A.v ≤ 2 ^ N * A.v :=
    mul_le_mul_of_nonneg_right (pow_le_pow_right₀ (by norm_num) h.le) hv
  have hv' : A.u + A.eta = A.v := rfl
  rw [hv'] at hd
  have hk0 : (0 : ℝ) ≤ 2 ^ N * A.v := by positivity
  have h1 := hp (h.slim hf (by linarith)) (by linarith)
  obtain ⟨c, hc, ha⟩ := h.near hf
  have h2 := near_prob ha (h.slim hf (by linarith)) (len_good h.good hc).le qs true
  rw [prob_smul, normSq_of_norm hc, one_mul] at h2
  have h3 := abs_sub_le p (Spec.prob qs true (abs A s)) (Spec.prob qs true σ.psi)
  linarith

theorem two_slack (A : Arith) (N : ℕ) (d : ℝ) : 2 * slack A N d = 5 / 2 * d + 20 * (2 ^ N * A.v) := by
  unfold slack Arith.v; ring

theorem v_le_pow (A : Arith) (N : ℕ) : A.v ≤ 2 ^ N * A.v := by
  have := A.v_nonneg
  have h : (1 : ℝ) ≤ 2 ^ N := one_le_pow₀ (by norm_num)
  nlinarith

theorem fresh_eq {d : ℝ} {s : Sim} {σ : Ideal} (h : Tracks A N d s σ) : s.allocate.1 = σ.fresh := by
  obtain ⟨h1, h2, _⟩ := allocate_spec h.wf
  have hmem : s.allocate.1 ∈ {n | n ∉ σ.live} := by
    intro hc
    rw [h.live, h1] at hc; cases hc
  apply le_antisymm
  · apply le_csInf ⟨_, hmem⟩
    intro b hb
    by_contra hlt
    exact hb ((h.live b).2 (h2 b (not_le.1 hlt)))
  · exact Nat.sInf_le hmem

/-! ### Gates -/

theorem optRy_add_neg (q : IMap ℝ) (t : ℕ) (θ : ℝ) (hf : Fine A) (ha : AngleOk A q t θ) :
    Bound (A.eps ^ 2) (optRy (((addAngle A q t θ).get t).map (fun a => a * (-1))) -
      matRy (-θ) * optRy ((q.get t).map (fun a => a * (-1)))) := by
  rw [addAngle_get]
  simp only [if_true]
  have h0 := hf.pos
  cases hq : q.get t with
  | none =>
    simp only [Option.map_some, Option.map_none, optRy_some, optRy_none, mul_one, mul_neg, sub_self]
    exact bound_zero (by positivity)
  | some a =>
    have h1 := (A.fl_err (a + θ)).trans (ha a hq)
    simp only [Option.map_some, optRy_some, Ry_Ry]
    have e : -θ + a * -1 = -(a + θ) := by ring
    rw [e]
    split
    · rename_i h
      rw [Option.map_none, optRy_none]
      refine bound_turn (ε := A.eps) ?_ true
      rw [abs_le] at h1 h ⊢
      constructor <;> linarith [h1.1, h1.2, h.1, h.2]
    · rw [Option.map_some, optRy_some, mul_neg, mul_one]
      have e : matRy (-A.fl (a + θ)) - matRy (-(a + θ)) =
          (1 - matRy (A.fl (a + θ) - (a + θ))) * matRy (-A.fl (a + θ)) := by
        rw [sub_mul, one_mul, Ry_Ry]; congr 2; ring
      rw [e]
      refine (bound_turn (ε := A.eps) ?_ true).mul (isom_Ry _)
      linarith

/-- `ry` when a computed half-turn about X is queued on the same qubit: it turns the other way. -/
theorem ry_turn_step (hf : Fine A) {s : Sim} (hw : Qir.WF s) {t : ℕ}
    (ht : (s.idMap.get t).isSome) (θ : ℝ) (hok : HalfTurn A (s.rxQ.get t)) (ha : AngleOk A s.ryQ t θ) :
    ∃ s', Rnd.ry A θ t s = .ok s' ∧ Step A s s' (gateL (matRy (-θ)) t) 1 := by
  unfold Rnd.ry
  refine ⟨_, rfl, Step.one (s' := { s with ryQ := addAngle A s.ryQ t θ }) ⟨hw.b, ?_⟩ rfl rfl ?_⟩
  · intro q hq
    by_cases hqt : q = t
    · subst hqt; exact ht
    · apply hw.queued
      rw [hasQueued_eq] at hq ⊢
      simpa [addAngle_get, hqt] using hq
  · refine queue_cost hf ?_ ht ?_ ?_ ?_ rfl (isom_Ry (-θ))
    · rfl
    · intro r hr
      simp [pend, addAngle_get, hr]
    · rfl
    · simp only [pend, effRy, if_pos hok]
      rw [← mul_assoc (matRy (-θ)), ← sub_mul]
      refine (optRy_add_neg _ _ _ hf ha).mul (Isom.mul ?_ ?_)
      · cases s.rxQ.get t with
        | none => exact isom_one
        | some a => exact isom_Rx a
      · cases s.hFlag.testBit t
        · exact isom_one
        · exact isom_H

/-- The gate that is carried out. -/
theorem gateCall_near (hf : Fine A) {s : Sim} (hw : Qir.WF s) {q : ℕ}
    (hq : (s.idMap.get q).isSome) (g : Gate) (ha : AngleCall A s (.gate g q)) :
    ∃ g' s', carriedOut A s (.gate g q) = .gate g' q ∧ Rnd.gateCall A q g s = .ok s' ∧
      Step A s s' (gateL g'.mat q) 6 := by
  have key : ∀ {s' : Sim} {n : ℕ}, carriedOut A s (.gate g q) = .gate g q → Rnd.gateCall A q g s = .ok s' →
      Step A s s' (gateL g.mat q) n → n ≤ 6 → ∃ g' s', carriedOut A s (.gate g q) = .gate g' q ∧
        Rnd.gateCall A q g s = .ok s' ∧ Step A s s' (gateL g'.mat q) 6 :=
    fun h0 h1 h2 h3 => ⟨_, _, h0, h1, h2.mono h3⟩
  cases g with
  | x => obtain ⟨s', h1, h2⟩ := x_step hf hw hq; exact key rfl h1 h2 (by omega)
  | y => obtain ⟨s', h1, h2⟩ := y_step hf hw hq; exact key rfl h1 h2 (by omega)
  | z => obtain ⟨s', h1, h2⟩ := z_step hf hw hq; exact key rfl h1 h2 (by omega)
  | h => obtain ⟨s', h1, h2⟩ := h_step hf hw hq; exact key rfl h1 h2 (by omega)
  | s => obtain ⟨s', h1, h2⟩ := diagGate_step hf hw hq .S; exact key rfl h1 h2 (by omega)
  | sadj => obtain ⟨s', h1, h2⟩ := diagGate_step hf hw hq .Sadj; exact key rfl h1 h2 (by omega)
  | t => obtain ⟨s', h1, h2⟩ := diagGate_step hf hw hq .T; exact key rfl h1 h2 (by omega)
  | tadj => obtain ⟨s', h1, h2⟩ := diagGate_step hf hw hq .Tadj; exact key rfl h1 h2 (by omega)
  | rx θ => obtain ⟨s', h1, h2⟩ := rx_step hf hw hq θ (fun _ _ => ha); exact key rfl h1 h2 (by omega)
  | rz θ => obtain ⟨s', h1, h2⟩ := diagGate_step hf hw hq (.Rz θ); exact key rfl h1 h2 (by omega)
  | ry θ =>
    by_cases hh : HalfTurn A (s.rxQ.get q)
    · obtain ⟨s', h1, h2⟩ := ry_turn_step hf hw hq θ hh ha
      exact ⟨.ry (-θ), s', if_pos hh, h1, h2.mono (by omega)⟩
    · obtain ⟨s', h1, h2⟩ := ry_step hf hw hq θ hh ha
      exact key (if_neg hh) h1 h2 (by omega)

theorem ctrlCall_near (hf : Fine A) {s : Sim} (hw : Qir.WF s) {q : ℕ} {cs : List ℕ}
    (hok : OpndsOk s.idMap cs q) (g : Gate) :
    ∃ s', Rnd.ctrlCall A cs q g s = .ok s' ∧ Step A s s' (ctrlL cs g.mat q) (5 * cs.length + 7) := by
  have key : ∀ {s' : Sim} {n : ℕ}, Rnd.ctrlCall A cs q g s = .ok s' →
      Step A s s' (ctrlL cs g.mat q) n → n ≤ 5 * cs.length + 7 →
      ∃ s', Rnd.ctrlCall A cs q g s = .ok s' ∧
        Step A s s' (ctrlL cs g.mat q) (5 * cs.length + 7) :=
    fun h1 h2 h3 => ⟨_, h1, h2.mono h3⟩
  cases g with
  | x => obtain ⟨s', h1, h2⟩ := mcx_step hf hw hok; exact key h1 h2 (by omega)
  | y => obtain ⟨s', h1, h2⟩ := mcy_step hf hw hok; exact key h1 h2 (by omega)
  | z => obtain ⟨s', h1, h2⟩ := mcz_step hf hw hok; exact key h1 h2 (by omega)
  | h => obtain ⟨s', h1, h2⟩ := mch_step hf hw hok; exact key h1 h2 (by omega)
  | s => obtain ⟨s', h1, h2⟩ := mcDiagGate_step hf hw hok .S; exact key h1 h2 (by omega)
  | sadj => obtain ⟨s', h1, h2⟩ := mcDiagGate_step hf hw hok .Sadj; exact key h1 h2 (by omega)
  | t => obtain ⟨s', h1, h2⟩ := mcDiagGate_step hf hw hok .T; exact key h1 h2 (by omega)
  | tadj => obtain ⟨s', h1, h2⟩ := mcDiagGate_step hf hw hok .Tadj; exact key h1 h2 (by omega)
  | rx θ => obtain ⟨s', h1, h2⟩ := mcrx_step hf hw hok θ; exact key h1 h2 (by omega)
  | ry θ => obtain ⟨s', h1, h2⟩ := mcry_step hf hw hok θ; exact key h1 h2 (by omega)
  | rz θ => obtain ⟨s', h1, h2⟩ := mcDiagGate_step hf hw hok (.Rz θ); exact key h1 h2 (by omega)

/-! ### Observations -/

theorem cost_le (hf : Fine A) (N : ℕ) : Rnd.cost A N ≤ 3 * A.eps * √(2 ^ N) := by
  have h2 : √2 ≤ (3 / 2 : ℝ) := by rw [Real.sqrt_le_left (by norm_num)]; norm_num
  have h0 := hf.pos
  have h3 : A.eps * √2 * √(2 ^ N) ≤ A.eps * (3 / 2) * √(2 ^ N) := by gcongr
  have e : Rnd.cost A N = 2 * (A.eps * √2 * √(2 ^ N)) := by unfold Rnd.cost unit; ring
  rw [e]; linarith

theorem reach_ge (hf : Fine A) {σ : Ideal} {d : ℝ} {n : ℕ} {c : Call} (hn : n ≤ 5 * c.work σ) :
    d + n * Rnd.cost A N ≤ σ.reachR A N d c := by
  unfold Ideal.reachR
  have h0 := cost_nonneg hf N
  have h1 := cost_le hf N
  have h2 : (n : ℝ) * Rnd.cost A N ≤ 5 * c.work σ * (3 * A.eps * √(2 ^ N)) := by
    have : (n : ℝ) ≤ 5 * c.work σ := by exact_mod_cast hn
    exact mul_le_mul this h1 h0 (by positivity)
  linarith

theorem slack_ge (A : Arith) (N : ℕ) {d : ℝ} (h : 0 ≤ d) : d ≤ slack A N d := by
  have h1 : 0 ≤ 2 ^ N * A.v := by have := A.v_nonneg; positivity
  have := two_slack A N d
  linarith

theorem Tracks.chance (_ : Fine A) {d : ℝ} {s : Sim} {σ : Ideal} (h : Tracks A N d s σ) (hd : slack A N d ≤ 1 / 2)
    {qs : List ℕ} {p : ℝ} (hp : |p - Spec.prob qs true σ.psi| ≤ 5 / 2 * d + 18 * 2 ^ N * A.v) (v : Bool) :
    |chance A v p - Spec.prob qs v σ.psi| ≤ 2 * slack A N d := by
  have hs := two_slack A N d
  have hv := v_le_pow A N
  have hv0 := A.v_nonneg
  have hadd := prob_add h.good.fin qs
  rw [h.good.norm] at hadd
  have h1 := prob_nonneg qs true σ.psi
  have h2 := prob_nonneg qs false σ.psi
  unfold Rnd.chance
  cases v with
  | true => simp only [if_true]; linarith
  | false =>
    simp only [Bool.false_eq_true, if_false]
    have hfl := A.fl_err (1 - p)
    have hb : |1 - p| ≤ 2 := by rw [abs_le] at hp ⊢; constructor <;> linarith [hp.1, hp.2]
    have hu : A.u * |1 - p| ≤ A.u * 2 := mul_le_mul_of_nonneg_left hb A.u_nonneg
    have hue : A.u + A.eta = A.v := rfl
    have := A.eta_nonneg
    rw [abs_le] at hp hfl ⊢
    constructor <;> linarith [hp.1, hp.2, hfl.1, hfl.2]

/-- The state after an observation. -/
theorem Tracks.observed (hf : Fine A) {d D : ℝ} {t s' : Sim} {σ : Ideal} (h : Tracks A N d t σ)
    (hd : slack A N d ≤ 1 / 2) {qs : List ℕ} {p : ℝ} {v : Bool}
    (hp : |p - Spec.prob qs true σ.psi| ≤ 5 / 2 * d + 18 * 2 ^ N * A.v)
    (hv : 4 * slack A N d < Spec.prob qs v σ.psi)
    (hD : 8 * slack A N d / Spec.prob qs v σ.psi + 3 * A.eps * √(2 ^ N) ≤ D) (hD1 : D ≤ 1 / 2)
    (hr : Reach A t.idMap.keys.length 1 (abs A s') ((factor A v p : ℂ) • proj qs v (abs A t))) (hq : s'.opQ = []) :
    ∃ (c : ℂ) (d' : ℝ), ‖c‖ = 1 ∧ d' + s'.opQ.length * Rnd.cost A N ≤ D ∧
      Near d' (abs A s') (c • postMeasure qs v σ.psi) := by
  obtain ⟨c, hc, ha⟩ := h.near hf
  have hd0 := h.nonneg hf
  have hs := two_slack A N d
  have hv1 := v_le_pow A N
  have hv0 := A.v_nonneg
  have hpos : 0 < Spec.prob qs v σ.psi := by
    have := hd0.trans (slack_ge A N hd0); linarith
  have hprob : Spec.prob qs v (c • σ.psi) = Spec.prob qs v σ.psi := by
    rw [prob_smul, normSq_of_norm hc, one_mul]
  have hn : Spec.normSq (c • σ.psi) = 1 := by
    rw [Tol.normSq_smul, normSq_of_norm hc, one_mul, h.good.norm]
  have h1 := Rnd.post_near hf ha hn (qs := qs) (v := v) (δ := 2 * slack A N d) (o := Rnd.chance A v p)
    (by rw [hprob]; exact h.chance hf hd hp v) (by rw [hprob]; linarith) (by rw [hprob]; exact hpos)
    (by linarith) (by linarith)
  rw [hprob, postMeasure_smul hc] at h1
  have hg := normSq_postMeasure (ψ := c • σ.psi) (qs := qs) (v := v) (by rw [hprob]; exact hpos)
  rw [postMeasure_smul hc] at hg
  have hl : len (c • postMeasure qs v σ.psi) = 1 := by unfold len; rw [hg]; simp
  have hl1 := near_len h1
  rw [hl] at hl1
  have hcost := cost_le hf N
  have e : 4 * (2 * slack A N d) / Spec.prob qs v σ.psi = 8 * slack A N d / Spec.prob qs v σ.psi := by ring
  rw [e] at h1 hl1
  have h2 := ((hr.widen hf h.le).near (by
    show len (((A.fl (1 / A.fl (√(Rnd.chance A v p))) : ℝ) : ℂ) • proj qs v (abs A t)) + _ ≤ _
    push_cast; linarith)).trans h1
  refine ⟨c, _, hc, ?_, h2⟩
  rw [hq]
  push_cast
  simp only [List.length_nil, Nat.cast_zero]
  linarith

theorem Tracks.outcome (hf : Fine A) {d p : ℝ} {t : Sim} {σ : Ideal} (h : Tracks A N d t σ) {qs : List ℕ}
    (hp : |p - Spec.prob qs true σ.psi| ≤ 5 / 2 * d + 18 * 2 ^ N * A.v)
    (hd : 4 * slack A N d < |σ.rng 0 - Spec.prob qs true σ.psi|) :
    decide (t.rng 0 < p) = σ.outcome qs ∧ 4 * slack A N d < Spec.prob qs (σ.outcome qs) σ.psi := by
  have hs := h.good.samples 0
  have hd0 := h.nonneg hf
  have hs2 := two_slack A N d
  have hsl := hd0.trans (slack_ge A N hd0)
  have hv1 := v_le_pow A N
  have hv0 := A.v_nonneg
  have hadd := prob_add h.good.fin qs
  rw [h.good.norm] at hadd
  have hp := abs_le.1 hp
  unfold Ideal.outcome
  rw [h.rng]
  rcases lt_abs.1 hd with h1 | h1
  · have e1 : ¬ σ.rng 0 < p := by linarith [hp.2]
    have e2 : ¬ σ.rng 0 < Spec.prob qs true σ.psi := by linarith
    refine ⟨by rw [decide_eq_decide]; simp only [e1, e2], ?_⟩
    simp only [e2, decide_false]
    linarith [hs.2]
  · have e1 : σ.rng 0 < p := by linarith [hp.1]
    have e2 : σ.rng 0 < Spec.prob qs true σ.psi := by linarith
    refine ⟨by rw [decide_eq_decide]; simp only [e1, e2], ?_⟩
    simp only [e2, decide_true]
    linarith [hs.1]

theorem Tracks.measured (hf : Fine A) {d D p : ℝ} {t s' : Sim} {σ : Ideal} (h : Tracks A N d t σ)
    (hd : slack A N d ≤ 1 / 2) {qs : List ℕ}
    (hp : |p - Spec.prob qs true σ.psi| ≤ 5 / 2 * d + 18 * 2 ^ N * A.v)
    (hv : 4 * slack A N d < Spec.prob qs (σ.outcome qs) σ.psi)
    (hD : 8 * slack A N d / Spec.prob qs (σ.outcome qs) σ.psi + 3 * A.eps * √(2 ^ N) ≤ D) (hD1 : D ≤ 1 / 2)
    (hm : Measured A qs (σ.outcome qs) p t s') : Tracks A N D s' (σ.measured qs) := by
  refine ⟨hm.wf, ?_, ?_, h.card, ?_, h.good.measured qs⟩
  · intro q; rw [hm.idMap]; exact h.live q
  · rw [hm.rng, h.rng]; rfl
  · exact h.observed hf hd hp hv hD hD1 hm.abs hm.ops

/-! ### One call -/

theorem carriedOut_live (A : Arith) (s : Sim) (c : Call) (σ : Ideal) :
    (σ.step (carriedOut A s c)).live = (σ.step c).live := by
  unfold carriedOut
  split
  · split <;> rfl
  · rfl

theorem track_call (hf : Fine A) {d : ℝ} {s : Sim} {σ : Ideal}
    (h : Tracks A N d s σ) {c : Call} (hv : σ.Valid c) (hang : AngleCall A s c)
    (hd : σ.DecidedR A N d (carriedOut A s c)) :
    ∃ o s', Rnd.call A c s = .ok (o, s') ∧
      σ.AnswerNear A.eps (slack A N (σ.reachR A N d (carriedOut A s c))) (carriedOut A s c) o ∧
      Tracks A N (σ.afterR A N d (carriedOut A s c)) s' (σ.step (carriedOut A s c)) := by
  obtain ⟨hcard, hsl, haf, hcl⟩ := hd
  have h0 := h.nonneg hf
  have hr0 : ∀ c : Call, 0 ≤ σ.reachR A N d c := by
    intro c
    have := reach_ge hf (N := N) (σ := σ) (d := d) (n := 0) (c := c) (Nat.zero_le _)
    simp only [Nat.cast_zero, zero_mul, add_zero] at this
    linarith
  have hrs : ∀ c : Call, slack A N (σ.reachR A N d c) ≤ 1 / 2 → σ.reachR A N d c ≤ 1 / 2 :=
    fun c h => (slack_ge A N (hr0 c)).trans h
  have same : ∀ {k : ℕ} {s' : Sim} {c : Call}, Same A s s' k → k ≤ 5 * c.work σ →
      slack A N (σ.reachR A N d c) ≤ 1 / 2 → Tracks A N (σ.reachR A N d c) s' σ := by
    intro k s' c hs hk hl
    have := reach_ge hf (N := N) (d := d) hk
    exact (h.of_same hf hs (this.trans (hrs c hl))).mono this
  have gate : ∀ {k : ℕ} {s' : Sim} {c : Call} {U : Module.End ℂ Wave}, Step A s s' U k → k ≤ 5 * c.work σ →
      slack A N (σ.reachR A N d c) ≤ 1 / 2 → Iso U → Good { σ with psi := U σ.psi } →
      Tracks A N (σ.reachR A N d c) s' { σ with psi := U σ.psi } := by
    intro k s' c U hs hk hl hU hg
    have := reach_ge hf (N := N) (d := d) hk
    exact (h.of_step hf hU hs (this.trans (hrs c hl)) hg).mono this
  cases c with
  | gate g q =>
    obtain ⟨g', s', hc, h1, h2⟩ := gateCall_near hf h.wf ((h.live q).1 hv) g hang
    rw [hc] at hsl ⊢
    exact ⟨.none, s', by simp only [Rnd.call, quiet, h1, ok_bind, pure_ok], rfl,
      gate (c := .gate g' q) h2 (by simp [Call.work, Call.width]) hsl (iso_gate (isom_gate g') q)
        (h.good.step (c := .gate g' q) hv)⟩
  | ctrl g cs q =>
    have hop := h.opnds hv
    obtain ⟨s', h1, h2⟩ := ctrlCall_near hf h.wf hop g
    exact ⟨.none, s', by simp only [Rnd.call, quiet, h1, ok_bind, pure_ok], rfl,
      gate (c := .ctrl g cs q) h2 (by simp only [Call.work, Call.width]; omega) hsl (iso_ctrl (isom_gate g) hop.not_mem)
        (h.good.step (c := .ctrl g cs q) hv)⟩
  | phase cs φ q =>
    have hop := h.opnds ⟨hv.1, hv.2.1⟩
    have hI := isom_phase_norm hv.2.2
    obtain ⟨s', h1, h2⟩ := mcphase_step hf h.wf hop φ hI
    exact ⟨.none, s', by simp only [Rnd.call, quiet, h1, ok_bind, pure_ok], rfl,
      gate (c := .phase cs φ q) h2 (by simp only [Call.work, Call.width]; omega) hsl (iso_ctrl hI hop.not_mem)
        (h.good.step (c := .phase cs φ q) hv)⟩
  | exp cs ps θ ts =>
    obtain ⟨s', h1, h2⟩ := mcexp_step hf h.wf (ps := ps.map pauliArg) θ hv.1 (h.alloc hv.2.1)
      (by simpa using hv.2.2)
    rw [factors_pauliArg] at h2
    have hn := List.nodup_append.1 hv.1
    have hs := zip_snd_sublist ps ts
    exact ⟨.none, s', by simp only [Rnd.call, quiet, h1, ok_bind, pure_ok], rfl,
      gate (c := .exp cs ps θ ts) h2 (by simp only [Call.work, Call.width, List.length_append]; omega) hsl
        (iso_exp (hs.nodup hn.2.1) (fun c hc hm => hn.2.2 c hc c (hs.mem hm) rfl) θ)
        (h.good.step (c := .exp cs ps θ ts) hv)⟩
  | swap a b =>
    have hg := h.good.step (c := .swap a b) hv
    obtain ⟨s', h1, hw', hl, hr, ha⟩ := swapQubitIds_abs hf h.wf ((h.live a).1 hv.1) ((h.live b).1 hv.2)
    have hge := reach_ge hf (N := N) (σ := σ) (d := d) (n := 0) (c := .swap a b) (Nat.zero_le _)
    have hps := h.cost hf (iso_swap a b) (e := 1) (by simp) (k := 0) (s' := s') (by rw [one_smul]; exact ha)
      (hge.trans (hrs _ hsl))
    refine ⟨.none, s', by simp only [Rnd.call, quiet, h1, ok_bind, pure_ok], rfl,
      Tracks.mono ⟨hw', ?_, hr.trans h.rng, h.card, hps, hg⟩ hge⟩
    intro q; rw [hl]; exact h.live q
  | allocate =>
    have hg := h.good.step (c := .allocate) hv
    obtain ⟨_, _, _, hl, hr, _⟩ := allocate_spec h.wf
    obtain ⟨hw', ha⟩ := allocate_abs (A := A) h.wf
    have hge := reach_ge hf (N := N) (σ := σ) (d := d) (n := 0) (c := .allocate) (Nat.zero_le _)
    simp only [Nat.cast_zero, zero_mul, add_zero] at hge
    have ht : Tracks A N d s.allocate.2 (σ.step .allocate) := by
      refine ⟨hw', ?_, hr.trans h.rng, hcard, ?_, hg⟩
      · intro q
        show q ∈ insert σ.fresh σ.live ↔ _
        rw [hl, Finset.mem_insert, fresh_eq h, h.live]
        simp
      · rw [ha]; exact h.psi
    exact ⟨_, _, rfl, by rw [fresh_eq h]; rfl, ht.mono hge⟩
  | jointProb qs =>
    obtain ⟨p, s', h1, hs, hp⟩ := jointProbability_near hf h.wf hv.1 (h.alloc hv.2)
    have h2 := same (c := .jointProb qs) hs (by simp only [Call.work, Call.width]; omega) hsl
    have h3 := h2.prob hf hsl (qs := qs) (p := p) (by rw [hs.idMap]; exact hp)
    exact ⟨_, s', by simp only [Rnd.call, h1, ok_bind, pure_ok], ⟨p, rfl, h2.chance hf hsl h3 true⟩, h2⟩
  | isZero q =>
    obtain ⟨p, s', h1, hs, hp⟩ := jointProbability_near hf h.wf (ids := [q]) (by simp)
      (by intro i hi; simp only [List.mem_singleton] at hi; subst hi; exact (h.live _).1 hv)
    have h2 := same (c := .isZero q) hs (by simp [Call.work, Call.width]) hsl
    have h3 := h2.prob hf hsl (qs := [q]) (p := p) (by rw [hs.idMap]; exact hp)
    refine ⟨.bit (decide (NearlyZeroR A.eps p)), s', ?_, ⟨|p|, ?_, ?_⟩, h2⟩
    · simp only [Rnd.call, Rnd.qubitIsZero, h1, ok_bind, pure_ok]
    · refine le_trans ?_ (h2.chance hf hsl h3 true)
      have := abs_abs_sub_abs_le p (Spec.prob [q] true σ.psi)
      rwa [abs_of_nonneg (prob_nonneg _ _ _)] at this
    · congr 1
      rw [decide_eq_decide, nearlyZeroR_iff]
  | getState =>
    have hg := h.good.step (c := .getState) hv
    obtain ⟨l, s', h1, hw', hr, hsome, hn, hl⟩ := getState_near hf h.wf
    have hge := reach_ge hf (N := N) (σ := σ) (d := d) (n := 5 * s.idMap.keys.length) (c := .getState)
      (by rw [h.length]; simp only [Call.work, Call.width]; omega)
    obtain ⟨c, d', hc, hd', hps⟩ := h.cost hf iso_one (e := 1) (by simp) (s' := s') (by rw [one_smul]; exact hn)
      (hge.trans (hrs _ hsl))
    have h3 : 0 ≤ (s'.opQ.length : ℝ) * Rnd.cost A N := mul_nonneg (Nat.cast_nonneg _) (cost_nonneg hf N)
    have h4 := slack_ge A N (hr0 .getState)
    refine ⟨.state l s.idMap.keys.length, s', by simp only [Rnd.call, h1, ok_bind, pure_ok],
      ⟨abs A s', l, c, hc, by rw [← h.keys]; exact hl, hps.le.trans (le_trans (by linarith) h4), by rw [h.length]⟩,
      ⟨hw', ?_, hr.trans h.rng, h.card, ⟨c, d', hc, hd'.trans hge, hps⟩, hg⟩⟩
    intro q; rw [hsome]; exact h.live q
  | dump fmt =>
    have hg := h.good.step (c := .dump fmt) hv
    obtain ⟨l, s', h1, hw', hr, hsome, hn, hl⟩ := dump_near hf fmt h.wf
    have hge := reach_ge hf (N := N) (σ := σ) (d := d) (n := 5 * s.idMap.keys.length) (c := .dump fmt)
      (by rw [h.length]; simp only [Call.work, Call.width]; omega)
    obtain ⟨c, d', hc, hd', hps⟩ := h.cost hf iso_one (e := 1) (by simp) (s' := s') (by rw [one_smul]; exact hn)
      (hge.trans (hrs _ hsl))
    have h3 : 0 ≤ (s'.opQ.length : ℝ) * Rnd.cost A N := mul_nonneg (Nat.cast_nonneg _) (cost_nonneg hf N)
    have h4 := slack_ge A N (hr0 (.dump fmt))
    refine ⟨.text (dumpText fmt l), s', by simp only [Rnd.call, h1, ok_bind, pure_ok],
      ⟨abs A s', l, c, hc, by rw [← h.keys]; exact hl, hps.le.trans (le_trans (by linarith) h4), by rw [dumpText_eq]⟩,
      ⟨hw', ?_, hr.trans h.rng, h.card, ⟨c, d', hc, hd'.trans hge, hps⟩, hg⟩⟩
    intro q; rw [hsome]; exact h.live q
  | measure q =>
    show ∃ o s', _ ∧ σ.AnswerNear A.eps _ (.measure q) o ∧ Tracks A N _ s' (σ.measured [q])
    obtain ⟨t, p, s', hs, _, hp, h1, hm⟩ := measure_near hf h.wf ((h.live q).1 hv)
    have ht := same (c := .measure q) hs (by simp [Call.work, Call.width]) hsl
    have h3 := ht.prob hf hsl (qs := [q]) (p := p) (by rw [hs.idMap]; exact hp)
    obtain ⟨ho, hP⟩ := ht.outcome hf h3 hcl
    rw [hs.rng] at ho
    rw [ho] at h1 hm
    exact ⟨_, s', by simp only [Rnd.call, h1, ok_bind, pure_ok], rfl, ht.measured hf hsl h3 hP le_rfl haf hm⟩
  | jointMeasure qs =>
    show ∃ o s', _ ∧ σ.AnswerNear A.eps _ (.jointMeasure qs) o ∧ Tracks A N _ s' (σ.measured qs)
    obtain ⟨t, p, s', hs, _, hp, h1, hm⟩ := jointMeasure_near hf h.wf hv.1 (h.alloc hv.2)
    have ht := same (c := .jointMeasure qs) hs (by simp only [Call.work, Call.width]; omega) hsl
    have h3 := ht.prob hf hsl (qs := qs) (p := p) (by rw [hs.idMap]; exact hp)
    obtain ⟨ho, hP⟩ := ht.outcome hf h3 hcl
    rw [hs.rng] at ho
    rw [ho] at h1 hm
    exact ⟨_, s', by simp only [Rnd.call, h1, ok_bind, pure_ok], rfl, ht.measured hf hsl h3 hP le_rfl haf hm⟩
  | collapse v q =>
    have hcl' : A.eps + 4 * slack A N (σ.reachR A N d (.collapse v q)) < Spec.prob [q] v σ.psi := hcl
    obtain ⟨t, p, s', hs, _, hp, h1, hw', hid, hr, hop, hab⟩ := forceCollapse_near hf h.wf ((h.live q).1 hv) v
    have ht := same (c := .collapse v q) hs (by simp [Call.work, Call.width]) hsl
    have h3 := ht.prob hf hsl (qs := [q]) (p := p) (by rw [hs.idMap]; exact hp)
    have h4 := ht.chance hf hsl h3 v
    have hs0 := (hr0 (.collapse v q)).trans (slack_ge A N (hr0 (.collapse v q)))
    have heps := hf.pos
    have hgt : A.eps < Rnd.chance A v p := by linarith [(abs_le.1 h4).1]
    have hpos : 0 < Spec.prob [q] v σ.psi := by linarith
    have hst : σ.step (.collapse v q) = { σ with psi := postMeasure [q] v σ.psi } := by
      simp only [Ideal.step, if_neg hpos.ne']
    have hg := h.good.step (c := .collapse v q) hv
    show ∃ o s', _ ∧ σ.AnswerNear A.eps _ (.collapse v q) o ∧
      Tracks A N _ s' (σ.step (.collapse v q))
    refine ⟨_, s', by simp only [Rnd.call, h1, ok_bind, pure_ok], ⟨_, rfl, h4⟩, ?_⟩
    rw [hst] at hg ⊢
    refine ⟨hw', ?_, hr.trans ht.rng, ht.card, ?_, hg⟩
    · intro r; rw [hid]; exact ht.live r
    · exact ht.observed hf hsl h3 (by linarith) le_rfl haf (hab hgt) hop
  | release q =>
    have ha := (h.live q).1 hv
    have hlen : s.idMap.iter.length = σ.live.card := by
      have := h.length
      unfold IMap.keys at this
      rw [List.length_map] at this
      exact this
    have hg := h.good.step (c := .release q) hv
    show ∃ o s', _ ∧ σ.AnswerNear A.eps _ (.release q) o ∧
      Tracks A N (σ.afterR A N d (.release q)) s' (σ.step (.release q))
    have haf' : σ.afterR A N d (.release q) ≤ 1 / 2 := haf
    by_cases hl : σ.live = {q}
    · obtain ⟨s', h1, hw', hid, hr, hop, hab⟩ := release_only (A := A) ha (by rw [hlen, hl]; rfl)
      have hst : σ.step (.release q) = { σ with live := ∅, psi := ket zeroBasis } := by
        simp only [Ideal.step, hl, if_true]
      have haf0 : σ.afterR A N d (.release q) = 0 := by simp only [Ideal.afterR, hl, if_true]
      rw [haf0]
      rw [hst] at hg ⊢
      refine ⟨.none, s', by simp only [Rnd.call, quiet, h1, ok_bind, pure_ok], rfl,
        ⟨hw', ?_, hr.trans h.rng, by simp, ⟨1, 0, by simp, by rw [hop]; simp, by rw [hab, one_smul]; exact Near.refl (finSupp_ket _)⟩, hg⟩⟩
      intro r
      rw [hid, IMap.get_remove]
      by_cases hrq : r = q
      · simp [hrq]
      · have : r ∉ σ.live := by rw [hl]; simpa using hrq
        rw [h.live] at this
        simp [hrq, this]
    · have hne : s.idMap.iter.length ≠ 1 := by
        rw [hlen]
        intro hc
        obtain ⟨a, ha'⟩ := Finset.card_eq_one.1 hc
        rw [ha', Finset.mem_singleton.1 (show q ∈ ({a} : Finset ℕ) by rw [← ha']; exact hv)] at hl
        exact hl rfl
      obtain ⟨t, p, s1, hs, _, hp, h1, hm⟩ := measure_near hf h.wf ha
      have ht := same (c := .release q) hs (by simp [Call.work, Call.width]) hsl
      have h3 := ht.prob hf hsl (qs := [q]) (p := p) (by rw [hs.idMap]; exact hp)
      obtain ⟨ho, hP⟩ := ht.outcome hf h3 (hcl.resolve_left hl)
      rw [hs.rng] at ho
      rw [ho] at h1 hm
      obtain ⟨s', h2, hw', hid, hr, hop, hab⟩ := release_measured (by rw [hs.idMap]; exact ha) hne h1 hm
      have haf1 : σ.afterR A N d (.release q) =
          σ.observedR A N d (.release q) [q] (σ.outcome [q]) := by
        simp only [Ideal.afterR, hl, if_false]
      rw [haf1] at haf' ⊢
      have htm := ht.measured hf hsl h3 hP le_rfl haf' hm
      have hst : σ.step (.release q) =
          { live := σ.live.erase q
            psi := if σ.outcome [q] then Spec.ctrl [] matX q (σ.measured [q]).psi
              else (σ.measured [q]).psi
            rng := (σ.measured [q]).rng } := by
        simp only [Ideal.step, hl, if_false]
      rw [hst] at hg ⊢
      refine ⟨.none, s', by simp only [Rnd.call, quiet, h2, ok_bind, pure_ok], rfl,
        ⟨hw', ?_, ?_, (Finset.card_le_card (Finset.erase_subset _ _)).trans h.card, ?_, hg⟩⟩
      · intro r
        show r ∈ σ.live.erase q ↔ _
        rw [hid, IMap.get_remove, Finset.mem_erase, ht.live]
        by_cases hrq : r = q
        · simp [hrq]
        · simp [hrq]
      · rw [hr, ht.rng]; rfl
      · obtain ⟨w, d', hw, hd', hn⟩ := htm.psi
        rw [hm.ops] at hd'
        refine ⟨w, d', hw, by rw [hop]; exact hd', ?_⟩
        rw [hab]
        cases σ.outcome [q]
        · exact hn
        · have := hn.map (iso_gate isom_X q)
          rw [map_smul] at this
          exact this

theorem track_run (hf : Fine A) (cs : List Call) :
    ∀ {d : ℝ} {s : Sim} {σ : Ideal}, Tracks A N d s σ → σ.ValidRun cs → Angles A s cs →
      σ.AllDecidedR A N d (executed A s cs) →
      ∃ os s', Rnd.runCalls A cs s = .ok (os, s') ∧ σ.AnswersNearR A N d (executed A s cs) os := by
  induction cs with
  | nil => intro d s σ h _ _ _; exact ⟨[], s, rfl, rfl⟩
  | cons c cs ih =>
    intro d s σ h hv hang hd
    have hd1 : σ.DecidedR A N d (carriedOut A s c) := hd.1
    obtain ⟨o, s1, h1, ha, ht⟩ := track_call hf h hv.1 hang.1 hd1
    have he' : executed A s (c :: cs) = carriedOut A s c :: executed A s1 cs := by
      simp only [executed, h1]
    rw [he'] at hd ⊢
    obtain ⟨os, s2, h2, ha2⟩ := ih ht
      ((validRun_congr cs (carriedOut_live A s c σ)).2 hv.2) (hang.2 o s1 h1) hd.2
    exact ⟨o :: os, s2, by simp only [Rnd.runCalls, h1, ok_bind, h2, pure_ok], ⟨o, os, rfl, ha, ha2⟩⟩

theorem tracks_new {rng : ℕ → ℝ} (h : ∀ n, 0 ≤ rng n ∧ rng n < 1) :
    Tracks A N 0 (Sim.new rng) (Ideal.init rng) := by
  refine ⟨wf_new rng, by intro q; simp [Ideal.init, Sim.new], rfl, by simp [Ideal.init],
    ⟨1, 0, by simp, by simp [Sim.new], ?_⟩, good_init h⟩
  rw [one_smul, abs_zero_new ⟨rfl, rfl, rfl⟩, Qir.abs_new rng]
  exact Near.refl (finSupp_ket _)

end Qir.Rnd
