import Verif.Proof.RndRot

/-! The state vector a simulator state with rounded arithmetic stands for. -/

noncomputable section
namespace Qir.Rnd
open Spec Function Sim Tol

/-! ### Whole states -/

/-- The queued rotation about X is within the tolerance of an odd number of half-turns, which
`mcrotation` executes by calling `x`. -/
def HalfTurn (A : Arith) (rx : Option ℝ) : Prop := ∃ b, rx = some b ∧ |A.cos (b / 2)| ≤ A.eps

open Classical in
/-- The rotation about Y a queue entry stands for. -/
def effRy (A : Arith) (rx ry : Option ℝ) : Option ℝ :=
  if HalfTurn A rx then ry.map (fun a => a * (-1)) else ry

variable {A : Arith}

theorem not_halfTurn_none : ¬ HalfTurn A none := by rintro ⟨b, hb, _⟩; cases hb

@[simp] theorem effRy_none_left (ry : Option ℝ) : effRy A none ry = ry := by
  unfold effRy; rw [if_neg not_halfTurn_none]

@[simp] theorem effRy_none_right (rx : Option ℝ) : effRy A rx none = none := by
  unfold effRy; split <;> rfl

@[simp] theorem effRy_isSome (rx ry : Option ℝ) : (effRy A rx ry).isSome = ry.isSome := by
  unfold effRy; split <;> simp

theorem effRy_neg_right (rx ry : Option ℝ) :
    effRy A rx (ry.map (fun a => a * (-1))) = (effRy A rx ry).map (fun a => a * (-1)) := by
  unfold effRy; split <;> rfl

theorem halfTurn_neg (rx : Option ℝ) :
    HalfTurn A (rx.map (fun a => a * (-1))) ↔ HalfTurn A rx := by
  cases rx with
  | none => rfl
  | some b =>
    have e : -b / 2 = -(b / 2) := by ring
    simp [HalfTurn, e, A.cos_neg]

theorem effRy_neg_left (rx ry : Option ℝ) :
    effRy A (rx.map (fun a => a * (-1))) ry = effRy A rx ry := by
  unfold effRy
  by_cases h : HalfTurn A rx
  · rw [if_pos h, if_pos ((halfTurn_neg rx).2 h)]
  · rw [if_neg h, if_neg (fun hc => h ((halfTurn_neg rx).1 hc))]

/-- The gate queued in the rotation and Hadamard queues for one qubit. -/
def pend (A : Arith) (s : Sim) (q : ℕ) : Mat2 :=
  optRy (effRy A (s.rxQ.get q) (s.ryQ.get q)) * (optRx (s.rxQ.get q) * optH (s.hFlag.testBit q))

/-- The state vector a simulator state stands for. -/
def abs (A : Arith) (s : Sim) : Wave := pendL (pend A s) s.idMap.keys (base s)

theorem pend_of_not_queued {s : Sim} {q : ℕ} (h : s.hasQueued q = false) : pend A s q = 1 := by
  rw [hasQueued_eq] at h
  simp only [Bool.or_eq_false_iff, Option.isSome_eq_false_iff, Option.isNone_iff_eq_none] at h
  simp [pend, h.1.1, h.1.2, h.2]

theorem isom_pend (s : Sim) (q : ℕ) : Isom (pend A s q) := by
  unfold pend
  refine Isom.mul ?_ (Isom.mul ?_ ?_)
  · cases effRy A (s.rxQ.get q) (s.ryQ.get q) with
    | none => exact isom_one
    | some a => exact isom_Ry a
  · cases s.rxQ.get q with
    | none => exact isom_one
    | some a => exact isom_Rx a
  · cases s.hFlag.testBit q
    · exact isom_one
    · exact isom_H

theorem finSupp_abs (s : Sim) : FinSupp (abs A s) := (finSupp_base s).pendL _ _

theorem iso_pend (s : Sim) : Iso (pendL (pend A s) s.idMap.keys) := iso_pendL (isom_pend s) _

theorem len_abs (s : Sim) : len (abs A s) = len (base s) := (iso_pend s).len (finSupp_base s)

theorem abs_split {s : Sim} {t : ℕ} (ht : (s.idMap.get t).isSome) :
    abs A s = pendL (update (pend A s) t 1) s.idMap.keys (gateL (pend A s t) t (base s)) := by
  unfold abs
  rw [pendL_extract' (IMap.keys_nodup _) ((IMap.mem_keys _ _).2 ht)]; rfl

theorem update_pend_congr {s s' : Sim} {t : ℕ} (h : ∀ q, q ≠ t → pend A s' q = pend A s q) (M : Mat2) :
    update (pend A s') t M = update (pend A s) t M := by
  funext q
  by_cases hq : q = t
  · subst hq; simp
  · simp [update_of_ne hq, h q hq]

/-- An uncontrolled gate on the represented state, read on the stored one. -/
theorem pull_gate {s s' : Sim} (hm : s'.idMap = s.idMap) {t : ℕ} (ht : (s.idMap.get t).isSome)
    (ho : ∀ q, q ≠ t → pend A s' q = pend A s q) {U U' : Mat2} (c : ℂ)
    (hU : U * pend A s t = pend A s' t * U') :
    c • gateL U t (abs A s) = pendL (pend A s') s'.idMap.keys (c • gateL U' t (base s)) := by
  have ht' : (s'.idMap.get t).isSome := by rw [hm]; exact ht
  rw [abs_split ht, pendL_extract' (P := pend A s') (IMap.keys_nodup _) ((IMap.mem_keys _ _).2 ht'),
    update_pend_congr ho, hm, map_smul, Module.End.mul_apply,
    ← Module.End.mul_apply (gateL U t), pendL_update_comm, Module.End.mul_apply,
    ← Module.End.mul_apply (gateL (pend A s' t) t), gateL_mul, ← hU, ← gateL_mul]
  rfl

/-- An uncontrolled gate, possibly changing what is pending on its target. -/
theorem abs_gate {s s' : Sim} (hm : s'.idMap = s.idMap) {t : ℕ} (ht : (s.idMap.get t).isSome)
    (ho : ∀ q, q ≠ t → pend A s' q = pend A s q) {U U' : Mat2} (c : ℂ)
    (hU : U * pend A s t = pend A s' t * U') {n d : ℕ} {q q' : Queue}
    (hb : Cost A n d q' q (base s') (c • gateL U' t (base s))) :
    Cost A n d q' q (abs A s') (c • gateL U t (abs A s)) := by
  rw [pull_gate hm ht ho c hU]
  exact hb.map (iso_pend s')

theorem pull_ctrl {s s' : Sim} (hm : s'.idMap = s.idMap) {t : ℕ} {cs : List ℕ}
    (ht : (s.idMap.get t).isSome) (hn : t ∉ cs)
    (ho : ∀ q, pend A s' q = pend A s q) (hcs : ∀ c ∈ cs, pend A s c = 1) {U U' : Mat2}
    (hU : U * pend A s t = pend A s t * U') :
    ctrlL cs U t (abs A s) = pendL (pend A s') s'.idMap.keys (ctrlL cs U' t (base s)) := by
  have ht' : (s'.idMap.get t).isSome := by rw [hm]; exact ht
  have hcomm : ctrlL cs U t * pendL (update (pend A s) t 1) s.idMap.keys =
      pendL (update (pend A s) t 1) s.idMap.keys * ctrlL cs U t := by
    apply comm_pendL
    intro q _
    by_cases hq : q = t
    · subst hq; rw [update_self, gateL_one, mul_one, one_mul]
    · rw [update_of_ne hq]
      by_cases hqc : q ∈ cs
      · rw [hcs q hqc, gateL_one, mul_one, one_mul]
      · exact ctrlL_comm_gateL hq hqc _ _
  rw [abs_split ht, pendL_extract' (P := pend A s') (IMap.keys_nodup _) ((IMap.mem_keys _ _).2 ht'),
    update_pend_congr (fun q _ => ho q), hm, Module.End.mul_apply,
    ← Module.End.mul_apply (ctrlL cs U t), hcomm, Module.End.mul_apply, ho t]
  congr 1
  rw [← Module.End.mul_apply, ← Module.End.mul_apply, ctrlL_gateL_same hn hU]

/-- A controlled gate that leaves the pending gates alone. -/
theorem abs_ctrl {s s' : Sim} (hm : s'.idMap = s.idMap) {t : ℕ} {cs : List ℕ}
    (ht : (s.idMap.get t).isSome) (hn : t ∉ cs)
    (ho : ∀ q, pend A s' q = pend A s q) (hcs : ∀ c ∈ cs, pend A s c = 1) {U U' : Mat2}
    (hU : U * pend A s t = pend A s t * U') {n d : ℕ} {q q' : Queue}
    (hb : Cost A n d q' q (base s') (ctrlL cs U' t (base s))) :
    Cost A n d q' q (abs A s') (ctrlL cs U t (abs A s)) := by
  rw [pull_ctrl hm ht hn ho hcs hU]
  exact hb.map (iso_pend s')

end Qir.Rnd
