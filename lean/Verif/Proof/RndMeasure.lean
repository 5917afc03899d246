import Verif.Proof.RndRun
import Verif.Proof.TolMeasure

/-! Measurement, collapse and release with rounded arithmetic. -/

noncomputable section
namespace Qir.Rnd
open Spec Function Sim Tol

variable {A : Arith}

/-- The computed probability of the outcome `val` if that of `true` was computed as `p`. -/
def chance (A : Arith) (val : Bool) (p : ℝ) : ℝ := if val then p else A.fl (1 - p)

/-- The factor `joint_collapse` multiplies with. -/
def factor (A : Arith) (val : Bool) (p : ℝ) : ℝ := A.fl (1 / A.fl (√(chance A val p)))

/-! ### The states after a measurement of two close states are close -/

theorem root_err (hf : Fine A) {o P δ b : ℝ} (hb0 : 0 < b) (hb1 : b ≤ 1) (hb2 : b * b = P) (ho : |o - P| ≤ δ)
    (hδ : 2 * δ ≤ P) (hv : 20 * A.v ≤ δ) : |A.fl (√o) - b| * b ≤ 53 / 50 * δ := by
  have hv0 := A.v_nonneg
  have hu0 := A.u_nonneg
  have he0 := A.eta_nonneg
  have hue : A.u + A.eta = A.v := rfl
  have hs := hf.small
  have hP : 0 < P := by rw [← hb2]; positivity
  have hP1 : P ≤ 1 := by rw [← hb2]; nlinarith
  have hδ0 : 0 ≤ δ := by linarith
  have ho0 : 0 < o := by have := (abs_le.1 ho).1; linarith
  obtain ⟨a, ha⟩ : ∃ a, a = √o := ⟨_, rfl⟩
  rw [← ha]
  have ha0 : 0 < a := by rw [ha]; exact Real.sqrt_pos.2 ho0
  have ha2 : a * a = o := by rw [ha]; exact Real.mul_self_sqrt ho0.le
  have hab : |a - b| * b ≤ δ := by
    have h1 : |a - b| * (a + b) = |o - P| := by
      rw [← abs_of_pos (show 0 < a + b by linarith), ← abs_mul]
      congr 1; rw [← ha2, ← hb2]; ring
    have := abs_nonneg (a - b)
    nlinarith
  have hab' : a ≤ b + |a - b| := by have := le_abs_self (a - b); linarith
  have h1 := A.fl_err a
  rw [abs_of_pos ha0] at h1
  have h2 : |A.fl a - b| ≤ |A.fl a - a| + |a - b| := abs_sub_le _ _ _
  have h3 : A.u * a ≤ A.u * b + A.u * |a - b| := by
    rw [← mul_add]; exact mul_le_mul_of_nonneg_left hab' hu0
  have h4 : A.u * (|a - b| * b) ≤ 1 / 4000 * δ := by
    have := A.u_le_v
    exact mul_le_mul (by linarith) hab (mul_nonneg (abs_nonneg _) hb0.le) (by norm_num)
  have h5 : A.u * (b * b) ≤ A.u := by rw [hb2]; exact mul_le_of_le_one_right hu0 hP1
  have h6 : A.eta * b ≤ A.eta := mul_le_of_le_one_right he0 hb1
  have h7 : |A.fl a - b| * b ≤ (A.u * b + A.u * |a - b| + A.eta + |a - b|) * b :=
    mul_le_mul_of_nonneg_right (by linarith) hb0.le
  have h8 : (A.u * b + A.u * |a - b| + A.eta + |a - b|) * b =
      A.u * (b * b) + A.u * (|a - b| * b) + A.eta * b + |a - b| * b := by ring
  linarith

theorem inv_err {b B P δ : ℝ} (hb0 : 0 < b) (hb2 : b * b = P) (hδ0 : 0 ≤ δ) (hδ : 2 * δ ≤ P)
    (hB : |B - b| * b ≤ 53 / 50 * δ) : 47 / 100 * b ≤ B ∧ |b / B - 1| ≤ 226 / 100 * (δ / P) := by
  have hP : 0 < P := by rw [← hb2]; positivity
  have hB0 : 47 / 100 * b ≤ B := by
    have h1 := (abs_le.1 (le_refl |B - b|)).1
    have h2 : |B - b| * b ≤ 53 / 100 * b * b := by rw [mul_assoc, hb2]; linarith
    have h3 : |B - b| ≤ 53 / 100 * b := le_of_mul_le_mul_right h2 hb0
    linarith
  have hBp : 0 < B := lt_of_lt_of_le (by positivity) hB0
  refine ⟨hB0, ?_⟩
  have e : b / B - 1 = -((B - b) / B) := by field_simp; ring
  rw [e, abs_neg, abs_div, abs_of_pos hBp, div_le_iff₀ hBp]
  have h3 : |B - b| ≤ 53 / 50 * δ / b := by rw [le_div_iff₀ hb0]; exact hB
  refine h3.trans ?_
  have h4 : 53 / 50 * δ / b ≤ 226 / 100 * (δ / P) * (47 / 100 * b) := by
    rw [← hb2, show 226 / 100 * (δ / (b * b)) * (47 / 100 * b) = (226 / 100 * (47 / 100)) * δ / b by field_simp]
    exact div_le_div_of_nonneg_right (by linarith) hb0.le
  have h5 : 0 ≤ δ / P := div_nonneg hδ0 hP.le
  exact h4.trans (mul_le_mul_of_nonneg_left hB0 (by linarith))

theorem factor_err (hf : Fine A) {o P δ : ℝ} (hP : 0 < P) (hP1 : P ≤ 1) (ho : |o - P| ≤ δ) (hδ : 2 * δ ≤ P)
    (hv : 20 * A.v ≤ δ) : |A.fl (1 / A.fl (√o)) * √P - 1| ≤ 3 * δ / P := by
  have hv0 := A.v_nonneg
  have hu0 := A.u_nonneg
  have he0 := A.eta_nonneg
  have hue : A.u + A.eta = A.v := rfl
  have hδ0 : 0 ≤ δ := by linarith
  obtain ⟨b, hb⟩ : ∃ b, b = √P := ⟨_, rfl⟩
  rw [← hb]
  have hb0 : 0 < b := by rw [hb]; exact Real.sqrt_pos.2 hP
  have hb2 : b * b = P := by rw [hb]; exact Real.mul_self_sqrt hP.le
  have hb1 : b ≤ 1 := by nlinarith
  obtain ⟨hB0, h2⟩ := inv_err hb0 hb2 hδ0 hδ (root_err hf hb0 hb1 hb2 ho hδ hv)
  generalize A.fl (√o) = B at hB0 h2 ⊢
  have hBp : 0 < B := lt_of_lt_of_le (by positivity) hB0
  have h1 := A.fl_err (1 / B)
  rw [abs_of_pos (show 0 < 1 / B by positivity)] at h1
  have h3 : |A.fl (1 / B) * b - 1| ≤ |A.fl (1 / B) - 1 / B| * b + |b / B - 1| := by
    have e : A.fl (1 / B) * b - 1 = (A.fl (1 / B) - 1 / B) * b + (b / B - 1) := by ring
    rw [e]
    refine (abs_add_le _ _).trans ?_
    rw [abs_mul, abs_of_pos hb0]
  have h4 : |A.fl (1 / B) - 1 / B| * b ≤ 22 / 10 * A.v := by
    have h5 : 1 / B * b ≤ 22 / 10 := by
      rw [one_div_mul_eq_div, div_le_iff₀ hBp]; linarith
    have h6 : |A.fl (1 / B) - 1 / B| * b ≤ (A.u * (1 / B) + A.eta) * b := mul_le_mul_of_nonneg_right h1 hb0.le
    have h7 : A.u * (1 / B * b) ≤ A.u * (22 / 10) := mul_le_mul_of_nonneg_left h5 hu0
    have h8 : A.eta * b ≤ A.eta := mul_le_of_le_one_right he0 hb1
    have h9 : (A.u * (1 / B) + A.eta) * b = A.u * (1 / B * b) + A.eta * b := by ring
    linarith
  have h5 : δ ≤ δ / P := by rw [le_div_iff₀ hP]; exact mul_le_of_le_one_right hδ0 hP1
  rw [show 3 * δ / P = 3 * (δ / P) by ring]
  linarith

theorem post_near (hf : Fine A) {d δ o : ℝ} {φ ψ : Wave} (h : Near d φ ψ) (hψ : normSq ψ = 1)
    {qs : List ℕ} {v : Bool} (ho : |o - prob qs v ψ| ≤ δ) (hδ : 2 * δ ≤ prob qs v ψ) (hp : 0 < prob qs v ψ)
    (hv : 20 * A.v ≤ δ) (hd : 5 / 2 * d ≤ δ) :
    Near (4 * δ / prob qs v ψ) ((A.fl (1 / A.fl (√o)) : ℂ) • proj qs v φ) (postMeasure qs v ψ) := by
  have hψ1 : len ψ ≤ 1 := by unfold len; rw [hψ]; simp
  have hP1 : prob qs v ψ ≤ 1 := by
    have h1 := prob_add h.fin' qs
    rw [hψ] at h1
    have h2 := prob_nonneg qs true ψ
    have h3 := prob_nonneg qs false ψ
    cases v <;> linarith
  have hfac := factor_err hf hp hP1 ho hδ hv
  set r := A.fl (1 / A.fl (√o)) with hr
  set P := prob qs v ψ with hPdef
  set b := √P with hb
  have hb0 : 0 < b := Real.sqrt_pos.2 hp
  have hb2 : b * b = P := Real.mul_self_sqrt hp.le
  have hb1 : b ≤ 1 := by nlinarith
  have hbP : P ≤ b := by nlinarith
  have hd0 : 0 ≤ d := (len_nonneg _).trans h.le
  have hδ0 : 0 ≤ δ := by linarith
  have hfin := finSupp_sub h.fin h.fin'
  have hdiff : proj qs v φ - proj qs v ψ = proj qs v (φ - ψ) := by
    funext x; simp only [proj, Pi.sub_apply]; split <;> simp
  have hpd : len (proj qs v φ - proj qs v ψ) ≤ d := by
    rw [hdiff]; exact (len_proj_le qs v hfin).trans h.le
  have hlψ : len (proj qs v ψ) = b := by unfold len; rw [normSq_proj]
  have hlφ : len (proj qs v φ) ≤ b + d := by
    have h1 := len_add (finSupp_sub (h.fin.proj qs v) (h.fin'.proj qs v)) (h.fin'.proj qs v)
    rw [sub_add_cancel, hlψ] at h1
    linarith
  refine ⟨(h.fin.proj qs v).smul _, h.fin'.postMeasure qs v, ?_⟩
  have hsplit : ((r : ℂ) • proj qs v φ) - postMeasure qs v ψ =
      ((1 / b : ℝ) : ℂ) • (proj qs v φ - proj qs v ψ) + ((r - 1 / b : ℝ) : ℂ) • proj qs v φ := by
    rw [postMeasure_eq, ← hPdef, ← hb]
    push_cast
    rw [smul_sub, sub_smul]
    abel
  rw [hsplit]
  have hreal : ∀ (r : ℝ) (χ : Wave), len ((r : ℂ) • χ) = |r| * len χ := by
    intro r χ
    unfold len
    rw [normSq_smul, Complex.normSq_ofReal, Real.sqrt_mul (mul_self_nonneg r), Real.sqrt_mul_self_eq_abs]
  refine (len_add ((finSupp_sub (h.fin.proj qs v) (h.fin'.proj qs v)).smul _) ((h.fin.proj qs v).smul _)).trans ?_
  rw [hreal, hreal]
  have hdb : d / b ≤ 2 / 5 * (δ / P) := by
    rw [div_le_iff₀ hb0, ← hb2, show 2 / 5 * (δ / (b * b)) * b = 2 / 5 * δ / b by field_simp, le_div_iff₀ hb0]
    nlinarith
  have hδP : δ / P ≤ 1 / 2 := by rw [div_le_iff₀ hp]; linarith
  have h1 : |1 / b| * len (proj qs v φ - proj qs v ψ) ≤ d / b := by
    rw [abs_of_pos (by positivity), one_div, inv_mul_eq_div]
    exact div_le_div_of_nonneg_right hpd hb0.le
  have h2 : |r - 1 / b| * len (proj qs v φ) ≤ 3 * (δ / P) * (1 + d / b) := by
    have e : r - 1 / b = (r * b - 1) / b := by field_simp
    rw [e, abs_div, abs_of_pos hb0, div_mul_eq_mul_div, mul_div_assoc]
    have h3 : len (proj qs v φ) / b ≤ 1 + d / b := by
      rw [div_le_iff₀ hb0, add_mul, one_mul, div_mul_cancel₀ _ hb0.ne']; exact hlφ
    rw [show 3 * (δ / P) = 3 * δ / P by ring]
    exact mul_le_mul hfac h3 (div_nonneg (len_nonneg _) hb0.le) (by positivity)
  have h4 : 0 ≤ δ / P := by positivity
  rw [show 4 * δ / P = 4 * (δ / P) by ring]
  nlinarith

/-! ### Measurement -/

theorem settle (hf : Fine A) {s : Sim} (hw : Qir.WF s) {ids locs : List ℕ}
    (hn : ids.Nodup) (hl : List.Forall₂ (fun i l => s.idMap.get i = some l) ids locs) :
    ∃ s1 p s2, Rnd.maybeFlush A ids .HRxRy s = .ok s1 ∧ s1.idMap = s.idMap ∧ s1.rng = s.rng ∧
      (∀ r, Rnd.checkJointProbability A locs { s1 with rng := r } = .ok (p, { s2 with rng := r })) ∧
      Same A s s2 (5 * ids.length) ∧ s2.opQ = [] ∧ (∀ q ∈ ids, s2.hasQueued q = false) ∧
      (len (abs A s2) ≤ 3 / 2 → 18 * 2 ^ s.idMap.keys.length * A.v ≤ 1 →
        |p - prob ids true (abs A s2)| ≤ 18 * 2 ^ s.idMap.keys.length * A.v) := by
  obtain ⟨s1, h1, hs1, hc1⟩ := maybeFlush_spec hf ids hw
  have hl1 : List.Forall₂ (fun i l => s1.idMap.get i = some l) ids locs := by rw [hs1.idMap]; exact hl
  obtain ⟨rops, hr⟩ := resolveOps_ok hs1.wf.b.ops
  obtain ⟨hcore, hv⟩ := ops_reach hf hr hs1.wf.b.core
  obtain ⟨st, hst⟩ : ∃ st, st = s1.state.map (Rnd.applyOps A rops) := ⟨_, rfl⟩
  rw [← hst] at hcore hv
  have hs2 : Same A s1 { s1 with state := st, opQ := [] } 0 :=
    ⟨⟨WFB.nil hcore, hs1.wf.queued⟩, rfl, rfl, s1.opQ.length, by simp,
      hv.map (iso_pend { s1 with state := st, opQ := [] })⟩
  have hsum : (st.map (fun e => if oddParity e.1 (locMask locs) then Complex.normSq e.2 else 0)).sum =
      prob ids true (abs A { s1 with state := st, opQ := [] }) := by
    rw [prob_abs (A := A) (s := { s1 with state := st, opQ := [] })
      (fun q hq => pend_of_not_queued (s := { s1 with state := st, opQ := [] }) (hc1.not_queued hq)), prob_eq,
      show base { s1 with state := st, opQ := [] } = view s1.idMap st from by simp [base], sumIf_view _ hcore]
    simp only [oddParity_eq hcore.inj hl1 hn]
  refine ⟨s1, st.foldl (fun accum e => if oddParity e.1 (locMask locs) then A.fl (accum + A.normSqr e.2) else accum) 0,
    { s1 with state := st, opQ := [] }, h1, hs1.idMap, hs1.rng, ?_, hs1.trans hs2 hf, rfl, fun q hq => hc1.not_queued hq, ?_⟩
  · intro r
    unfold Rnd.checkJointProbability takeOps
    simp only [hr, ok_bind, pure_ok, hst]
  · intro hlen hk
    have hle : st.length ≤ 2 ^ s.idMap.keys.length := by rw [← hs1.idMap]; exact Core.length_le hcore
    have h3 := foldl_sum_err hf (fun e => oddParity e.1 (locMask locs)) hle Nat.one_le_two_pow
      (by push_cast; exact hk) (by
        rw [hsum]
        have := prob_le_sq (finSupp_abs (A := A) { s1 with state := st, opQ := [] }) ids true
        have h0 := len_nonneg (abs A { s1 with state := st, opQ := [] })
        nlinarith)
    rw [hsum] at h3
    push_cast at h3
    exact h3

theorem noise_collapse (A : Arith) (mask : ℕ) (val : Bool) (r : ℝ) (l : List (ℕ × ℂ)) :
    Noise A (l.filterMap (fun e => if oddParity e.1 mask = val then some (e.1, e.2 * (r : ℂ)) else none))
      (l.filterMap (fun e => if oddParity e.1 mask = val then some (e.1, A.scale e.2 r) else none)) := by
  have e : ∀ f : ℕ × ℂ → Option (ℕ × ℂ), l.filterMap f = l.flatMap (fun x => (f x).toList) :=
    fun f => List.filterMap_eq_flatMap_toList f l
  rw [e, e]
  apply Noise.flatMap
  intro x _
  by_cases h : oddParity x.1 mask = val
  · simp only [h, if_true, Option.toList_some]
    apply noise_one
    refine (scale_err x.2 r).trans ?_
    rw [norm_mul, Complex.norm_real, Real.norm_eq_abs]
    have h1 := A.u_le_v
    have h2 := A.eta_le_v
    have h3 := A.v_nonneg
    have h4 : 0 ≤ ‖x.2‖ * |r| := by positivity
    nlinarith [mul_le_mul_of_nonneg_right h1 h4, mul_nonneg h3 h4]
  · simp only [h, if_false, Option.toList_none]
    exact Noise.nil

theorem collapse_near (hf : Fine A) {s : Sim} (hw : Qir.WF s) (hq : s.opQ = []) {ids locs : List ℕ}
    (hl : List.Forall₂ (fun i l => s.idMap.get i = some l) ids locs) (hn : ids.Nodup)
    (hp : ∀ q ∈ ids, s.hasQueued q = false) (val : Bool) (p : ℝ) :
    Qir.WF (Rnd.jointCollapse A locs val p s) ∧
      Reach A s.idMap.keys.length 1 (abs A (Rnd.jointCollapse A locs val p s))
        ((factor A val p : ℂ) • proj ids val (abs A s)) := by
  have hpar := oddParity_eq hw.b.core.inj hl hn
  have hpe : ∀ q ∈ ids, pend A s q = 1 := fun q h => pend_of_not_queued (hp q h)
  have hc := core_filterMap hw.b.core (fun e => oddParity e.1 (locMask locs) = val) (fun e => e.2 * (factor A val p : ℂ))
  obtain ⟨hc', hr⟩ := noise_reach hf (noise_collapse A (locMask locs) val (factor A val p) s.state) hc
  refine ⟨⟨⟨hc', by rw [show (Rnd.jointCollapse A locs val p s).opQ = s.opQ from rfl, hq]; simp⟩, hw.queued⟩, ?_⟩
  have h1 := hr.map (iso_pend (A := A) s)
  rw [view_collapse hpar val] at h1
  have hbs : view s.idMap s.state = base s := by simp [base, hq]
  rw [hbs, map_smul, ← projL_apply, ← Module.End.mul_apply, ← projL_comm_pendL hpe] at h1
  have hb : base (Rnd.jointCollapse A locs val p s) = view s.idMap (s.state.filterMap (fun e =>
      if oddParity e.1 (locMask locs) = val then some (e.1, A.scale e.2 (factor A val p)) else none)) := by
    unfold base
    rw [show (Rnd.jointCollapse A locs val p s).opQ = [] from hq]
    rfl
  show Reach A _ 1 (pendL (pend A s) s.idMap.keys (base (Rnd.jointCollapse A locs val p s))) _
  rw [hb]
  exact h1

/-- What a measurement of the parity of `ids` of the settled state `t` with outcome `res` leaves. -/
structure Measured (A : Arith) (ids : List ℕ) (res : Bool) (p : ℝ) (t s' : Sim) : Prop where
  wf : Qir.WF s'
  idMap : s'.idMap = t.idMap
  rng : s'.rng = fun n => t.rng (n + 1)
  ops : s'.opQ = []
  quiet : ∀ q ∈ ids, s'.hasQueued q = false
  bits : ∀ e ∈ s'.state, parity ids (idBits s'.idMap e.1) = res
  abs : Reach A t.idMap.keys.length 1 (abs A s') ((factor A res p : ℂ) • proj ids res (Rnd.abs A t))

theorem jointMeasure_near (hf : Fine A) {s : Sim} (hw : Qir.WF s) {ids : List ℕ}
    (hn : ids.Nodup) (ha : Alloc s.idMap ids) :
    ∃ t p s', Same A s t (5 * ids.length) ∧ t.opQ = [] ∧
      (len (abs A t) ≤ 3 / 2 → 18 * 2 ^ s.idMap.keys.length * A.v ≤ 1 →
        |p - prob ids true (abs A t)| ≤ 18 * 2 ^ s.idMap.keys.length * A.v) ∧
      Rnd.jointMeasure A ids s = .ok (decide (s.rng 0 < p), s') ∧
      Measured A ids (decide (s.rng 0 < p)) p t s' := by
  obtain ⟨locs, hres, hl⟩ := alloc_locs ha
  obtain ⟨s1, p, s2, h1, hid, hrng, h2, hsame, hops, hpend, hprob⟩ := settle hf hw hn hl
  have hl2 : List.Forall₂ (fun i l => s2.idMap.get i = some l) ids locs := by
    rw [hsame.idMap]; exact hl
  have h3' := h2 (fun n => s1.rng (n + 1))
  have hw3 : Qir.WF { s2 with rng := fun n => s1.rng (n + 1) } := ⟨hsame.wf.b, hsame.wf.queued⟩
  have hcol := collapse_near hf (s := { s2 with rng := fun n => s1.rng (n + 1) }) hw3
    hops hl2 hn (fun q hq => hpend q hq) (decide (s.rng 0 < p)) p
  refine ⟨s2, p, _, hsame, hops, hprob, ?_, hcol.1, rfl, ?_, hops, hpend, ?_, hcol.2⟩
  · unfold Rnd.jointMeasure checkForDuplicates nextSample
    have hres1 : resolveIds s1.idMap ids = .ok locs := by rw [hid]; exact hres
    have hr0 : s1.rng 0 = s.rng 0 := by rw [hrng]
    simp only [h1, ok_bind, if_pos hn, hres1, h3', pure_ok, hr0]
  · show (fun n => s1.rng (n + 1)) = _
    rw [hrng, hsame.rng]
  · intro e he'
    obtain ⟨e', _, hee⟩ := List.mem_filterMap.1 he'
    split at hee
    · rename_i hpar
      cases hee
      rw [oddParity_eq hsame.wf.b.core.inj hl2 hn] at hpar
      exact hpar
    · cases hee

theorem measure_eq_jointMeasure (A : Arith) (id : ℕ) (s : Sim) :
    Rnd.measure A id s = Rnd.jointMeasure A [id] s := by
  unfold Rnd.measure Rnd.jointMeasure checkForDuplicates
  cases h : Rnd.maybeFlush A [id] .HRxRy s with
  | error e => rfl
  | ok s1 =>
    simp only [ok_bind, List.nodup_singleton, if_true, resolveIds]
    cases h' : resolveId s1.idMap id <;> rfl

theorem measure_near (hf : Fine A) {s : Sim} (hw : Qir.WF s) {id : ℕ}
    (ha : (s.idMap.get id).isSome) :
    ∃ t p s', Same A s t 5 ∧ t.opQ = [] ∧
      (len (abs A t) ≤ 3 / 2 → 18 * 2 ^ s.idMap.keys.length * A.v ≤ 1 →
        |p - prob [id] true (abs A t)| ≤ 18 * 2 ^ s.idMap.keys.length * A.v) ∧
      Rnd.measure A id s = .ok (decide (s.rng 0 < p), s') ∧
      Measured A [id] (decide (s.rng 0 < p)) p t s' := by
  rw [measure_eq_jointMeasure]
  exact jointMeasure_near hf hw (ids := [id]) (by simp)
    (by intro i hi; simp only [List.mem_singleton] at hi; subst hi; exact ha)

theorem forceCollapse_near (hf : Fine A) {s : Sim} (hw : Qir.WF s) {id : ℕ}
    (ha : (s.idMap.get id).isSome) (val : Bool) :
    ∃ t p s', Same A s t 5 ∧ t.opQ = [] ∧
      (len (abs A t) ≤ 3 / 2 → 18 * 2 ^ s.idMap.keys.length * A.v ≤ 1 →
        |p - prob [id] true (abs A t)| ≤ 18 * 2 ^ s.idMap.keys.length * A.v) ∧
      Rnd.forceCollapse A val id s = .ok (chance A val p, s') ∧ Qir.WF s' ∧
      s'.idMap = t.idMap ∧ s'.rng = t.rng ∧ s'.opQ = [] ∧
      (A.eps < chance A val p → Reach A t.idMap.keys.length 1 (abs A s') ((factor A val p : ℂ) • proj [id] val (abs A t))) := by
  obtain ⟨loc, hloc⟩ := Option.isSome_iff_exists.1 ha
  have hl : List.Forall₂ (fun i l => s.idMap.get i = some l) [id] [loc] := by simp [hloc]
  obtain ⟨s1, p, s2, h1, hid, hrng, h2, hsame, hops, hpend, hprob⟩ := settle hf hw (by simp) hl
  have hl2 : List.Forall₂ (fun i l => s2.idMap.get i = some l) [id] [loc] := by
    rw [hsame.idMap]; exact hl
  have hcol := collapse_near hf hsame.wf hops hl2 (by simp) hpend val p
  have h3 : Rnd.checkJointProbability A [loc] s1 = .ok (p, s2) := by
    have := h2 s1.rng
    have e : { s2 with rng := s1.rng } = s2 := by
      have : s1.rng = s2.rng := by rw [hsame.rng, hrng]
      rw [this]
    rw [e] at this
    exact this
  have hcond : ((val = true ∧ ¬ NearlyZeroR A.eps p) ∨ (val = false ∧ ¬ NearlyZeroR A.eps (A.fl (1 - p)))) ↔
      ¬ |chance A val p| ≤ A.eps := by
    rw [nearlyZeroR_iff, nearlyZeroR_iff]
    cases val <;> simp [chance]
  refine ⟨s2, p, if ¬ |chance A val p| ≤ A.eps then Rnd.jointCollapse A [loc] val p s2 else s2, hsame, hops, hprob, ?_, ?_⟩
  · unfold Rnd.forceCollapse resolveId
    simp only [h1, ok_bind, hid, hloc, h3, pure_ok, hcond]
    rfl
  · by_cases h0 : |chance A val p| ≤ A.eps
    · simp only [h0, not_true, if_false]
      refine ⟨hsame.wf, trivial, trivial, hops, fun hlt => ?_⟩
      have := le_abs_self (chance A val p)
      linarith
    · simp only [h0, not_false_eq_true, if_true]
      exact ⟨hcol.1, rfl, rfl, hops, fun _ => hcol.2⟩

/-! ### Release -/

/-- The part of `release` after the measurement. -/
theorem release_measured {s t s1 : Sim} {id : ℕ} {res : Bool} {p : ℝ}
    (ha : (t.idMap.get id).isSome) (hlen : s.idMap.iter.length ≠ 1)
    (h1 : Rnd.measure A id s = .ok (res, s1)) (hm : Measured A [id] res p t s1) :
    ∃ s', Rnd.release A id s = .ok s' ∧ Qir.WF s' ∧ s'.idMap = t.idMap.remove id ∧
      s'.rng = (fun n => t.rng (n + 1)) ∧ s'.opQ = [] ∧
      abs A s' = (if res then gateL matX id else 1 : Module.End ℂ Wave) (abs A s1) := by
  obtain ⟨loc, hloc⟩ := Option.isSome_iff_exists.1 ha
  have hloc1 : s1.idMap.get id = some loc := by rw [hm.idMap]; exact hloc
  have hbit : ∀ e ∈ s1.state, e.1.testBit loc = res := by
    intro e hee
    have := hm.bits e hee
    rw [parity_singleton, idBits_of hloc1] at this
    exact this
  -- the entries with the qubit set to zero
  obtain ⟨st, hst, hcore, hv, hz⟩ : ∃ st, Rnd.releaseState A id s = .ok { s1 with state := st } ∧
      Core s1.idMap st ∧ view s1.idMap st = (if res then gateL matX id else 1) (view s1.idMap s1.state) ∧
      ∀ e ∈ st, e.1.testBit loc = false := by
    unfold Rnd.releaseState
    rw [if_neg hlen]
    simp only [h1, ok_bind, indexId, hloc1]
    cases res
    · exact ⟨s1.state, by simp, hm.wf.b.core, by simp, hbit⟩
    · refine ⟨_, rfl, ?_, ?_, ?_⟩
      · refine ⟨hm.wf.b.core.inj, ?_, ?_⟩
        · rw [List.map_map]
          apply List.Nodup.map_on
          · intro a ha b hb hab
            have h1 := hbit a ha
            have h2 := hbit b hb
            simp only [comp_apply, h1, h2, if_true] at hab
            have hkey : a.1 = b.1 := by
              apply Nat.eq_of_testBit_eq
              intro l
              by_cases hl : l = loc
              · subst hl; rw [h1, h2]
              · have := congrArg (fun n => n.testBit l) hab
                simp only [testBit_setBit, if_neg hl] at this
                exact this
            exact List.inj_on_of_nodup_map hm.wf.b.core.nodup ha hb hkey
          · exact hm.wf.b.core.nodup.of_map
        · intro e hee
          obtain ⟨e', he', rfl⟩ := List.mem_map.1 hee
          simp only [hbit e' he', if_true]
          intro l hl
          rw [testBit_setBit] at hl
          split at hl
          · cases hl
          · exact hm.wf.b.core.bits e' he' l hl
      · simp only [if_true]
        apply view_map_of
        intro e hee
        simp only [hbit e hee, if_true]
        unfold entryWave
        rw [map_smul, ctrlL_apply, ctrl_ket (by simp)]
        simp only [List.not_mem_nil, false_imp_iff, implies_true, if_true]
        rw [idBits_setBit hm.wf.b.core.inj hloc1, idBits_of hloc1, hbit e hee]
        simp [matX, mat]
      · intro e hee
        obtain ⟨e', he', rfl⟩ := List.mem_map.1 hee
        simp only [hbit e' he', if_true]
        rw [testBit_setBit, if_pos rfl]
  have hq : ∀ q, s1.hasQueued q = true → q ≠ id := by
    rintro q hq rfl
    rw [hm.quiet q (by simp)] at hq; cases hq
  have habs : abs A { s1 with state := st, idMap := s1.idMap.remove id } =
      (if res then gateL matX id else 1 : Module.End ℂ Wave)
        (abs A s1) := by
    show pendL (pend A s1) (s1.idMap.remove id).keys (opsL s1.opQ (view (s1.idMap.remove id) st)) = _
    have hpid : pend A s1 id = 1 := pend_of_not_queued (hm.quiet id (by simp))
    have hA : (if res then gateL matX id else 1 : Module.End ℂ Wave) * pendL (pend A s1) s1.idMap.keys =
        pendL (pend A s1) s1.idMap.keys * (if res then gateL matX id else 1) := by
      apply comm_pendL_of
      intro r
      by_cases hr : r = id
      · left; rw [hr]; exact hpid
      · right
        cases res
        · simp
        · exact ctrlL_comm_gateL hr (by simp) _ _
    rw [view_congr (m' := s1.idMap) (fun e hee => idBits_remove hloc1 (hz e hee)), hv, hm.ops]
    have hkeys : pendL (pend A s1) (s1.idMap.remove id).keys = pendL (pend A s1) s1.idMap.keys := by
      rw [pendL_perm (keys_remove_perm s1.idMap (by rw [hloc1]; rfl)), pendL_cons, hpid, gateL_one,
        one_mul]
    rw [hkeys]
    unfold Rnd.abs base
    rw [hm.ops]
    simp only [opsL_nil, Module.End.one_apply]
    rw [← Module.End.mul_apply, ← hA, Module.End.mul_apply]
  refine ⟨{ s1 with state := st, idMap := s1.idMap.remove id }, ?_, ⟨⟨⟨?_, hcore.nodup, ?_⟩, ?_⟩, ?_⟩,
    by rw [hm.idMap], hm.rng, hm.ops, habs⟩
  · unfold Rnd.release
    simp only [hst, ok_bind]
    rfl
  · intro i j l hi hj
    simp only [IMap.get_remove] at hi hj
    split at hi
    · cases hi
    · split at hj
      · cases hj
      · exact hcore.inj i j l hi hj
  · intro e hee l hl
    obtain ⟨i, hi⟩ := hcore.bits e hee l hl
    refine ⟨i, ?_⟩
    simp only [IMap.get_remove]
    rw [if_neg]
    · exact hi
    · rintro rfl
      rw [hloc1] at hi
      cases hi
      rw [hz e hee] at hl
      cases hl
  · intro op hop
    have : op ∈ s1.opQ := hop
    rw [hm.ops] at this; simp at this
  · intro q hqq
    have hqq' : s1.hasQueued q = true := hqq
    simp only [IMap.get_remove]
    rw [if_neg (hq q hqq')]
    exact hm.wf.queued q hqq'

theorem abs_zero_new {s' : Sim} (h : s'.hFlag = 0 ∧ s'.rxQ = IMap.empty ∧ s'.ryQ = IMap.empty) :
    abs A s' = Qir.abs s' := by
  unfold abs Qir.abs
  congr 1
  refine pendL_congr (fun q _ => ?_)
  rw [pend_of_not_queued, Qir.pend_of_not_queued] <;>
  · rw [hasQueued_eq, h.1, h.2.1, h.2.2]; simp

/-- Releasing the only qubit. -/
theorem release_only {s : Sim} {id : ℕ}
    (ha : (s.idMap.get id).isSome) (hlen : s.idMap.iter.length = 1) :
    ∃ s', Rnd.release A id s = .ok s' ∧ Qir.WF s' ∧ s'.idMap = s.idMap.remove id ∧ s'.rng = s.rng ∧ s'.opQ = [] ∧
      abs A s' = ket zeroBasis := by
  obtain ⟨s', h1, h2, h3, h4, h5⟩ := release_last (env := A.toEnv) ha hlen
  have hz : s'.opQ = [] ∧ s'.hFlag = 0 ∧ s'.rxQ = IMap.empty ∧ s'.ryQ = IMap.empty := by
    unfold Sim.release Sim.releaseState at h1
    rw [if_pos hlen] at h1
    simp only [ok_bind] at h1
    cases h1
    exact ⟨rfl, rfl, rfl, rfl⟩
  have h6 : abs A s' = ket zeroBasis := (abs_zero_new hz.2).trans h5
  refine ⟨s', ?_, h2, h3, h4, hz.1, h6⟩
  rw [← h1]
  unfold Rnd.release Rnd.releaseState Sim.release Sim.releaseState
  rw [if_pos hlen, if_pos hlen]

end Qir.Rnd
