import Verif.Proof.TolNorm
import Verif.Proof.Gates2
import Mathlib.Analysis.SpecialFunctions.Trigonometric.Bounds

/-! Hadamards and rotations of the stored state with a positive tolerance. -/

noncomputable section
namespace Qir.Tol
open Spec Function Sim

/-- The tolerances considered. -/
structure TolOk (env : Env) : Prop where
  nonneg : 0 ≤ env.eps
  le : env.eps ≤ 1 / 2

/-- `a` times the identity plus `-i b` times the Pauli matrix of the axis. -/
def matRot (flip : Bool) (a b : ℝ) : Mat2 :=
  if flip then mat a (-b) b a else mat a (-Complex.I * b) (-Complex.I * b) a

theorem rotMat_rot (flip : Bool) (θ : ℝ) :
    rotMat flip θ = matRot flip (Real.cos (θ / 2)) (Real.sin (θ / 2)) := by
  cases flip <;> rfl

theorem matRot_sub (flip : Bool) (a b a' b' : ℝ) :
    matRot flip a b - matRot flip a' b' = matRot flip (a - a') (b - b') := by
  ext r k
  cases flip <;> cases r <;> cases k <;> simp [matRot, mat] <;> ring

theorem matRot_one (flip : Bool) : matRot flip 1 0 = 1 := by
  ext r k; cases flip <;> cases r <;> cases k <;> simp [matRot, mat]

theorem matRot_neg_one (flip : Bool) : matRot flip (-1) 0 = mat (-1) 0 0 (-1) := by
  ext r k; cases flip <;> cases r <;> cases k <;> simp [matRot, mat]

theorem bound_rot (flip : Bool) (a b : ℝ) : Bound (a ^ 2 + b ^ 2) (matRot flip a b) := by
  intro x y
  apply le_of_eq
  cases flip <;>
  · simp only [matRot, mat, Complex.normSq_apply, Complex.add_re, Complex.add_im, Complex.mul_re,
      Complex.mul_im, Complex.ofReal_re, Complex.ofReal_im, Complex.neg_re, Complex.neg_im,
      Complex.I_re, Complex.I_im,
      Bool.false_eq_true, if_true, if_false, zero_mul, sub_zero, add_zero, neg_zero, zero_add]
    ring

theorem Bound.mono {k k' : ℝ} {N : Mat2} (h : Bound k N) (hk : k ≤ k') : Bound k' N := by
  intro x y
  refine (h x y).trans (mul_le_mul_of_nonneg_right hk ?_)
  have := Complex.normSq_nonneg x
  have := Complex.normSq_nonneg y
  positivity

theorem half_factor (flip : Bool) (θ : ℝ) :
    mat (rotM01 θ flip * (if flip then Complex.I else 1)) 0 0
      (rotM01 θ flip * (if flip then Complex.I else 1)) * axisMat flip =
    matRot flip 0 (Real.sin (θ / 2)) := by
  rw [rotM01_eq]
  ext r k
  cases flip <;> cases r <;> cases k <;>
    simp [axisMat, matX, matY, mat, Matrix.mul_apply, matRot, mul_assoc]

theorem nearlyZero_cos {eps : ℝ} (he : 0 ≤ eps) (θ : ℝ) :
    NearlyZero eps (rotM00 θ) ↔ |Real.cos (θ / 2)| ≤ eps := by
  unfold NearlyZero rotM00
  rw [nearlyZeroR_iff, nearlyZeroR_iff]
  simp [he]

theorem nearlyZero_sin {eps : ℝ} (he : 0 ≤ eps) (θ : ℝ) (flip : Bool) :
    NearlyZero eps (rotM01 θ flip) ↔ |Real.sin (θ / 2)| ≤ eps := by
  unfold NearlyZero
  rw [nearlyZeroR_iff, nearlyZeroR_iff, rotM01_eq]
  cases flip
  · simp [he, -Complex.ofReal_sin]
  · simp [he, -Complex.ofReal_sin]

theorem applyMch_near {env : Env} (he : TolOk env) {s : Sim} (h : WFB s.idMap s.state s.opQ)
    {t : ℕ} {cs : List ℕ} (hok : OpndsOk s.idMap cs t) :
    ∃ st, s.applyMch env cs t = .ok { s with state := st, opQ := [] } ∧ Core s.idMap st ∧
      Near (unit env.eps s.idMap.keys.length) (view s.idMap st) (ctrlL cs matH t (base s)) ∧
      len (view s.idMap st) ≤ len (base s) := by
  obtain ⟨tl, csl, hr, htl, hcs⟩ := resolveAndCheck_ok hok
  obtain ⟨rops, ht, hc, hv⟩ := takeOps_spec h
  have hfin : FinSupp (base s) := (finSupp_view _ _).opsL _
  have hd := (Drop.flatMap (mchEntry_drop he.nonneg (env.shuffle (collectMap (s.state.map (applyOps rops))))
    csl tl) (env.shuffle (collectMap (s.state.map (applyOps rops))))).near he.nonneg
    (core_mch (hc.shuffled env) 0 hcs htl hok.not_mem)
  rw [view_mch (hc.shuffled env) hcs htl hok.not_mem, view_shuffled hc, hv] at hd
  refine ⟨_, by simp only [applyMch, hr, ok_bind, ht]; rfl, ?_, hd.1, ?_⟩
  · exact core_mch (hc.shuffled env) _ hcs htl hok.not_mem
  · exact hd.2.trans_eq ((iso_ctrl isom_H hok.not_mem).len hfin)

theorem isom_rotMat (flip : Bool) (θ : ℝ) : Isom (rotMat flip θ) := by
  cases flip
  · exact isom_Rx θ
  · exact isom_Ry θ

theorem mcrotation_near {env : Env} (he : TolOk env) {s : Sim} (h : WFB s.idMap s.state s.opQ)
    (hlen : len (base s) ≤ 1)
    {t : ℕ} {cs : List ℕ} (hok : OpndsOk s.idMap cs t) {pauli : Sim → Except Panic Sim} {flip : Bool}
    {θ : ℝ}
    (hp : |Real.cos (θ / 2)| ≤ env.eps → ∃ st q, pauli s = .ok { s with state := st, opQ := q } ∧
      WFB s.idMap st q ∧ opsL q (view s.idMap st) = ctrlL cs (axisMat flip) t (base s)) :
    ∃ st q, mcrotation env pauli cs θ t flip s = .ok { s with state := st, opQ := q } ∧
      WFB s.idMap st q ∧
      Near (unit env.eps s.idMap.keys.length) (opsL q (view s.idMap st))
        (ctrlL cs (rotMat flip θ) t (base s)) ∧
      len (opsL q (view s.idMap st)) ≤ len (base s) := by
  obtain ⟨tl, csl, hr, htl, hcs⟩ := resolveAndCheck_ok hok
  have hn := hok.not_mem
  have he0 := he.nonneg
  have hfin : FinSupp (base s) := (finSupp_view _ _).opsL _
  have hcs2 := Real.sin_sq_add_cos_sq (θ / 2)
  -- a result that is exactly a nearby matrix
  have near_of : ∀ {a b : ℝ} {φ : Wave}, φ = ctrlL cs (matRot flip a b) t (base s) →
      (a - Real.cos (θ / 2)) ^ 2 + (b - Real.sin (θ / 2)) ^ 2 ≤ 2 * env.eps ^ 2 → a ^ 2 + b ^ 2 ≤ 1 →
      Near (unit env.eps s.idMap.keys.length) φ (ctrlL cs (rotMat flip θ) t (base s)) ∧
        len φ ≤ len (base s) := by
    intro a b φ hφ hd hle
    subst hφ
    constructor
    · refine (near_ctrl hn (d := env.eps * √2) (by positivity) ?_ hfin).mono ?_
      · rw [rotMat_rot, matRot_sub]
        refine (bound_rot _ _ _).mono ?_
        rw [mul_pow, Real.sq_sqrt (by norm_num)]; linarith
      · refine le_trans ?_ (le_unit he0 _)
        have : 0 ≤ env.eps * √2 := by positivity
        nlinarith
    · exact len_ctrl_le hn ((bound_rot _ _ _).mono hle) hfin
  unfold mcrotation
  simp only [nearlyZero_cos he0, nearlyZero_sin he0]
  split
  · rename_i h0
    obtain ⟨st, q, hps, hw, hv⟩ := hp h0
    rw [hps]
    simp only [ok_bind, hr]
    have hmul : ctrlL cs (matRot flip 0 (Real.sin (θ / 2))) t (base s) =
        ctrlL cs (mat (rotM01 θ flip * (if flip then Complex.I else 1)) 0 0
          (rotM01 θ flip * (if flip then Complex.I else 1))) t (ctrlL cs (axisMat flip) t (base s)) := by
      rw [← half_factor, ← Module.End.mul_apply, ctrlL_mul hn]
    have hb1 : (0 - Real.cos (θ / 2)) ^ 2 + (Real.sin (θ / 2) - Real.sin (θ / 2)) ^ 2 ≤ 2 * env.eps ^ 2 := by
      have := sq_le_sq' (abs_le.1 h0).1 (abs_le.1 h0).2
      nlinarith
    have hb2 : (0 : ℝ) ^ 2 + Real.sin (θ / 2) ^ 2 ≤ 1 := by nlinarith [sq_nonneg (Real.cos (θ / 2))]
    by_cases hf : rotM01 θ flip * (if flip then Complex.I else 1) ≠ 1
    · rw [if_pos hf]
      obtain ⟨rops, ht, hc, hv2⟩ := takeOps_spec (s := { s with state := st, opQ := q }) hw
      rw [ht]
      refine ⟨_, [], rfl, WFB.nil ?_, near_of ?_ hb1 hb2⟩
      · have := hc.mapKey (scaleIf csl (rotM01 θ flip * (if flip then Complex.I else 1)))
          (scaleIf_fst _ _)
        rw [List.map_map] at this
        exact this
      · have := view_scaleIf hcs htl hn (rotM01 θ flip * (if flip then Complex.I else 1))
          (st.map (applyOps rops))
        rw [List.map_map] at this
        rw [hmul, ← hv, opsL_nil, Module.End.one_apply]
        refine this.trans ?_
        congr 1
    · rw [if_neg hf]
      refine ⟨st, q, rfl, hw, near_of ?_ hb1 hb2⟩
      rw [hmul, hv]
      have hf' : rotM01 θ flip * (if flip then Complex.I else 1) = 1 := by
        by_contra hc; exact hf hc
      rw [hf']
      have : mat 1 0 0 1 = (1 : Mat2) := by ext r k; cases r <;> cases k <;> simp [mat]
      rw [this, ctrlL_one]; rfl
  · split
    · rename_i h00 h01
      have hs2 := sq_le_sq' (abs_le.1 h01).1 (abs_le.1 h01).2
      have hc1 := Real.cos_le_one (θ / 2)
      have hc2 := Real.neg_one_le_cos (θ / 2)
      have hle := he.le
      have hsmall : env.eps ^ 2 ≤ env.eps := by nlinarith
      have hsign : NearlyZero env.eps (rotM00 θ + 1) ↔ Real.cos (θ / 2) ≤ 0 := by
        unfold NearlyZero
        rw [nearlyZeroR_iff, nearlyZeroR_iff]
        simp only [rotM00, Complex.add_re, Complex.one_re, Complex.add_im, Complex.one_im, add_zero,
          abs_zero]
        rw [abs_of_nonneg (by linarith)]
        constructor
        · rintro ⟨h1, _⟩; linarith
        · intro h1
          refine ⟨?_, he0⟩
          nlinarith
      simp only [hsign]
      split
      · rename_i h1
        obtain ⟨rops, ht, hc, hv⟩ := takeOps_spec h
        rw [ht]
        simp only [ok_bind, hr]
        refine ⟨_, [], rfl, WFB.nil ?_, near_of (a := -1) (b := 0) ?_ ?_ (by norm_num)⟩
        · have := hc.mapKey (scaleIf csl (-1)) (scaleIf_fst _ _)
          rw [List.map_map] at this
          exact this
        · have := view_scaleIf hcs htl hn (-1) (s.state.map (applyOps rops))
          rw [List.map_map, hv] at this
          rw [opsL_nil, Module.End.one_apply, matRot_neg_one]
          exact this
        · nlinarith
      · rename_i h1
        refine ⟨s.state, s.opQ, rfl, h, near_of (a := 1) (b := 0) ?_ ?_ (by norm_num)⟩
        · rw [matRot_one, ctrlL_one]; rfl
        · rw [not_le] at h1
          nlinarith
    · obtain ⟨rops, ht, hc, hv⟩ := takeOps_spec h
      rw [hr]
      simp only [ok_bind, ht]
      have hd := (Drop.flatMap (rotEntry_drop he.nonneg
        (env.shuffle (collectMap (s.state.map (applyOps rops)))) csl tl (rotM00 θ) (rotM01 θ flip)
          (rotM01 θ flip * (if flip then -1 else 1)))
        (env.shuffle (collectMap (s.state.map (applyOps rops))))).near he.nonneg
        (core_rot (hc.shuffled env) 0 hcs htl hn _ _ _)
      rw [view_rot (hc.shuffled env) hcs htl hn, view_shuffled hc, hv, ← rotMat_eq] at hd
      refine ⟨_, [], rfl, WFB.nil ?_, ?_, ?_⟩
      · exact core_rot (hc.shuffled env) _ hcs htl hn _ _ _
      · exact hd.1
      · exact hd.2.trans_eq ((iso_ctrl (isom_rotMat _ _) hn).len hfin)

/-- In the half-turn case `mcrotation` looks at the state only through the Pauli gate. -/
theorem mcrotation_half {env : Env} (he : TolOk env) {θ : ℝ} (h : |Real.cos (θ / 2)| ≤ env.eps)
    {pauli pauli' : Sim → Except Panic Sim} {s s' : Sim} (hp : pauli s = pauli' s') (cs : List ℕ)
    (t : ℕ) (flip : Bool) :
    mcrotation env pauli cs θ t flip s = mcrotation env pauli' cs θ t flip s' := by
  have h0 := (nearlyZero_cos he.nonneg θ).2 h
  unfold mcrotation
  simp only [if_pos h0, hp]

/-! ### Whole states -/

/-- The queued rotation about X is within the tolerance of an odd number of half-turns, which
`mcrotation` executes by calling `x`. -/
def HalfTurn (ε : ℝ) (rx : Option ℝ) : Prop := ∃ b, rx = some b ∧ |Real.cos (b / 2)| ≤ ε

open Classical in
/-- The rotation about Y a queue entry stands for. -/
def effRy (ε : ℝ) (rx ry : Option ℝ) : Option ℝ :=
  if HalfTurn ε rx then ry.map (fun a => a * (-1)) else ry

variable {ε : ℝ}

theorem not_halfTurn_none : ¬ HalfTurn ε none := by rintro ⟨b, hb, _⟩; cases hb

@[simp] theorem effRy_none_left (ry : Option ℝ) : effRy ε none ry = ry := by
  unfold effRy; rw [if_neg not_halfTurn_none]

@[simp] theorem effRy_none_right (rx : Option ℝ) : effRy ε rx none = none := by
  unfold effRy; split <;> rfl

@[simp] theorem effRy_isSome (rx ry : Option ℝ) : (effRy ε rx ry).isSome = ry.isSome := by
  unfold effRy; split <;> simp

theorem effRy_neg_right (rx ry : Option ℝ) :
    effRy ε rx (ry.map (fun a => a * (-1))) = (effRy ε rx ry).map (fun a => a * (-1)) := by
  unfold effRy; split <;> rfl

theorem halfTurn_neg (rx : Option ℝ) :
    HalfTurn ε (rx.map (fun a => a * (-1))) ↔ HalfTurn ε rx := by
  cases rx with
  | none => rfl
  | some b =>
    have e : -b / 2 = -(b / 2) := by ring
    simp [HalfTurn, e]

theorem effRy_neg_left (rx ry : Option ℝ) :
    effRy ε (rx.map (fun a => a * (-1))) ry = effRy ε rx ry := by
  unfold effRy
  by_cases h : HalfTurn ε rx
  · rw [if_pos h, if_pos ((halfTurn_neg rx).2 h)]
  · rw [if_neg h, if_neg (fun hc => h ((halfTurn_neg rx).1 hc))]

/-- The gate queued in the rotation and Hadamard queues for one qubit. -/
def pend (ε : ℝ) (s : Sim) (q : ℕ) : Mat2 :=
  optRy (effRy ε (s.rxQ.get q) (s.ryQ.get q)) * (optRx (s.rxQ.get q) * optH (s.hFlag.testBit q))

/-- The state vector a simulator state stands for. -/
def abs (ε : ℝ) (s : Sim) : Wave := pendL (pend ε s) s.idMap.keys (base s)

theorem pend_of_not_queued {s : Sim} {q : ℕ} (h : s.hasQueued q = false) : pend ε s q = 1 := by
  rw [hasQueued_eq] at h
  simp only [Bool.or_eq_false_iff, Option.isSome_eq_false_iff, Option.isNone_iff_eq_none] at h
  simp [pend, h.1.1, h.1.2, h.2]

theorem isom_pend (s : Sim) (q : ℕ) : Isom (pend ε s q) := by
  unfold pend
  refine Isom.mul ?_ (Isom.mul ?_ ?_)
  · cases effRy ε (s.rxQ.get q) (s.ryQ.get q) with
    | none => exact isom_one
    | some a => exact isom_Ry a
  · cases s.rxQ.get q with
    | none => exact isom_one
    | some a => exact isom_Rx a
  · cases s.hFlag.testBit q
    · exact isom_one
    · exact isom_H

theorem finSupp_base (s : Sim) : FinSupp (base s) := (finSupp_view _ _).opsL _

theorem finSupp_abs (s : Sim) : FinSupp (abs ε s) := (finSupp_base s).pendL _ _

theorem iso_pend (s : Sim) : Iso (pendL (pend ε s) s.idMap.keys) := iso_pendL (isom_pend s) _

theorem len_abs (s : Sim) : len (abs ε s) = len (base s) := (iso_pend s).len (finSupp_base s)

theorem abs_split {s : Sim} {t : ℕ} (ht : (s.idMap.get t).isSome) :
    abs ε s = pendL (update (pend ε s) t 1) s.idMap.keys (gateL (pend ε s t) t (base s)) := by
  unfold abs
  rw [pendL_extract' (IMap.keys_nodup _) ((IMap.mem_keys _ _).2 ht)]; rfl

theorem update_pend_congr {s s' : Sim} {t : ℕ} (h : ∀ q, q ≠ t → pend ε s' q = pend ε s q) (M : Mat2) :
    update (pend ε s') t M = update (pend ε s) t M := by
  funext q
  by_cases hq : q = t
  · subst hq; simp
  · simp [update_of_ne hq, h q hq]

/-- An uncontrolled gate on the represented state, read on the stored one. -/
theorem pull_gate {s s' : Sim} (hm : s'.idMap = s.idMap) {t : ℕ} (ht : (s.idMap.get t).isSome)
    (ho : ∀ q, q ≠ t → pend ε s' q = pend ε s q) {U U' : Mat2} (c : ℂ)
    (hU : U * pend ε s t = pend ε s' t * U') :
    c • gateL U t (abs ε s) = pendL (pend ε s') s'.idMap.keys (c • gateL U' t (base s)) := by
  have ht' : (s'.idMap.get t).isSome := by rw [hm]; exact ht
  rw [abs_split ht, pendL_extract' (P := pend ε s') (IMap.keys_nodup _) ((IMap.mem_keys _ _).2 ht'),
    update_pend_congr ho, hm, map_smul, Module.End.mul_apply,
    ← Module.End.mul_apply (gateL U t), pendL_update_comm, Module.End.mul_apply,
    ← Module.End.mul_apply (gateL (pend ε s' t) t), gateL_mul, ← hU, ← gateL_mul]
  rfl

/-- An uncontrolled gate, possibly changing what is pending on its target. -/
theorem abs_gate {s s' : Sim} (hm : s'.idMap = s.idMap) {t : ℕ} (ht : (s.idMap.get t).isSome)
    (ho : ∀ q, q ≠ t → pend ε s' q = pend ε s q) {U U' : Mat2} (c : ℂ)
    (hU : U * pend ε s t = pend ε s' t * U') {d : ℝ}
    (hb : Near d (base s') (c • gateL U' t (base s))) :
    Near d (abs ε s') (c • gateL U t (abs ε s)) := by
  rw [pull_gate hm ht ho c hU]
  exact hb.map (iso_pend s')

theorem pull_ctrl {s s' : Sim} (hm : s'.idMap = s.idMap) {t : ℕ} {cs : List ℕ}
    (ht : (s.idMap.get t).isSome) (hn : t ∉ cs)
    (ho : ∀ q, pend ε s' q = pend ε s q) (hcs : ∀ c ∈ cs, pend ε s c = 1) {U U' : Mat2}
    (hU : U * pend ε s t = pend ε s t * U') :
    ctrlL cs U t (abs ε s) = pendL (pend ε s') s'.idMap.keys (ctrlL cs U' t (base s)) := by
  have ht' : (s'.idMap.get t).isSome := by rw [hm]; exact ht
  have hcomm : ctrlL cs U t * pendL (update (pend ε s) t 1) s.idMap.keys =
      pendL (update (pend ε s) t 1) s.idMap.keys * ctrlL cs U t := by
    apply comm_pendL
    intro q _
    by_cases hq : q = t
    · subst hq; rw [update_self, gateL_one, mul_one, one_mul]
    · rw [update_of_ne hq]
      by_cases hqc : q ∈ cs
      · rw [hcs q hqc, gateL_one, mul_one, one_mul]
      · exact ctrlL_comm_gateL hq hqc _ _
  rw [abs_split ht, pendL_extract' (P := pend ε s') (IMap.keys_nodup _) ((IMap.mem_keys _ _).2 ht'),
    update_pend_congr (fun q _ => ho q), hm, Module.End.mul_apply,
    ← Module.End.mul_apply (ctrlL cs U t), hcomm, Module.End.mul_apply, ho t]
  congr 1
  rw [← Module.End.mul_apply, ← Module.End.mul_apply, ctrlL_gateL_same hn hU]

/-- A controlled gate that leaves the pending gates alone. -/
theorem abs_ctrl {s s' : Sim} (hm : s'.idMap = s.idMap) {t : ℕ} {cs : List ℕ}
    (ht : (s.idMap.get t).isSome) (hn : t ∉ cs)
    (ho : ∀ q, pend ε s' q = pend ε s q) (hcs : ∀ c ∈ cs, pend ε s c = 1) {U U' : Mat2}
    (hU : U * pend ε s t = pend ε s t * U') {d : ℝ} (hb : Near d (base s') (ctrlL cs U' t (base s))) :
    Near d (abs ε s') (ctrlL cs U t (abs ε s)) := by
  rw [pull_ctrl hm ht hn ho hcs hU]
  exact hb.map (iso_pend s')

end Qir.Tol
