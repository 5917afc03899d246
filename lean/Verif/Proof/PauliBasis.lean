import Verif.Proof.Refine
import Verif.Proof.Mats
import Verif.Spec.Device

/-! Changes of basis between Pauli products, and the identities behind composite gates. -/

noncomputable section
namespace Qir
open Spec Function

theorem S_sq : matS * matSadj = 1 ∧ matSadj * matS = 1 := by
  rw [mat_one]
  constructor <;> simp only [matS, matSadj, matPhase, mat_mul] <;> apply mat_congr <;> simp

/-- `H S H` is the square root of X. -/
theorem H_S_H : matH * (matS * matH) = matSx := by
  simp only [matH, matS, matPhase, matSx, mat_mul]
  apply mat_congr
  · linear_combination (1 + Complex.I) * inv_sqrt_two_sq
  · linear_combination (1 - Complex.I) * inv_sqrt_two_sq
  · linear_combination (1 - Complex.I) * inv_sqrt_two_sq
  · linear_combination (1 + Complex.I) * inv_sqrt_two_sq

/-- `H S† H` is its inverse. -/
def matSxAdj : Mat2 :=
  mat ((1 - Complex.I) / 2) ((1 + Complex.I) / 2) ((1 + Complex.I) / 2) ((1 - Complex.I) / 2)

theorem H_Sadj_H : matH * (matSadj * matH) = matSxAdj := by
  simp only [matH, matSadj, matPhase, matSxAdj, mat_mul]
  apply mat_congr
  · linear_combination (1 - Complex.I) * inv_sqrt_two_sq
  · linear_combination (1 + Complex.I) * inv_sqrt_two_sq
  · linear_combination (1 + Complex.I) * inv_sqrt_two_sq
  · linear_combination (1 - Complex.I) * inv_sqrt_two_sq

theorem SxAdj_Sx : matSxAdj * matSx = 1 := by
  rw [mat_one]
  simp only [matSx, matSxAdj, mat_mul]
  apply mat_congr
  · linear_combination (-1 / 2) * Complex.I_sq
  · linear_combination (1 / 2) * Complex.I_sq
  · linear_combination (1 / 2) * Complex.I_sq
  · linear_combination (-1 / 2) * Complex.I_sq

/-- Squaring gives X. -/
theorem Sx_Sx : matSx * matSx = matX := by
  simp only [matSx, matX, mat_mul]
  apply mat_congr
  · linear_combination (1 / 2) * Complex.I_sq
  · linear_combination (-1 / 2) * Complex.I_sq
  · linear_combination (-1 / 2) * Complex.I_sq
  · linear_combination (1 / 2) * Complex.I_sq

theorem Z_Sx : matZ * matSx = matSx * matY := by
  simp only [matSx, matZ, matY, mat_mul]
  apply mat_congr
  · linear_combination (1 / 2) * Complex.I_sq
  · linear_combination (1 / 2) * Complex.I_sq
  · linear_combination (-1 / 2) * Complex.I_sq
  · linear_combination (-1 / 2) * Complex.I_sq

/-! ### Changing the basis of a Pauli product -/

/-- The gate that turns a Pauli operator into Z. -/
def toZ : Pauli → Mat2
  | .X => matH
  | .Y => matSx
  | _ => 1

/-- Its inverse. -/
def fromZ : Pauli → Mat2
  | .X => matH
  | .Y => matSxAdj
  | _ => 1

theorem fromZ_toZ (p : Pauli) : fromZ p * toZ p = 1 := by
  cases p
  · exact one_mul _
  · exact H_H
  · exact one_mul _
  · exact SxAdj_Sx

theorem Z_toZ {p : Pauli} (h : p ≠ .I) : matZ * toZ p = toZ p * p.mat := by
  cases p
  · exact absurd rfl h
  · exact Z_H
  · exact (mul_one _).trans (one_mul _).symm
  · exact Z_Sx

theorem isom_Sx : Isom matSx := by rw [← H_S_H]; exact isom_H.mul (isom_S.mul isom_H)
theorem isom_SxAdj : Isom matSxAdj := by rw [← H_Sadj_H]; exact isom_H.mul (isom_Sadj.mul isom_H)

theorem isom_toZ (p : Pauli) : Isom (toZ p) := by
  cases p
  · exact isom_one
  · exact isom_H
  · exact isom_one
  · exact isom_Sx

/-- The change of basis of a product, first entry first. -/
def mapL : List (Pauli × ℕ) → Module.End ℂ Wave
  | [] => 1
  | p :: ps => mapL ps * gateL (toZ p.1) p.2

/-- Back again, first entry first. -/
def unmapL : List (Pauli × ℕ) → Module.End ℂ Wave
  | [] => 1
  | p :: ps => unmapL ps * gateL (fromZ p.1) p.2

theorem mapL_comm {ps : List (Pauli × ℕ)} {q : ℕ} (hq : q ∉ ps.map Prod.snd) (U : Mat2) :
    mapL ps * gateL U q = gateL U q * mapL ps := by
  induction ps with
  | nil => simp [mapL]
  | cons p ps ih =>
    rw [List.map_cons, List.mem_cons, not_or] at hq
    rw [mapL, mul_assoc, ctrlL_comm_gateL hq.1 (by simp), ← mul_assoc, ih hq.2, mul_assoc]

theorem unmapL_mapL {ps : List (Pauli × ℕ)} (hn : (ps.map Prod.snd).Nodup) : unmapL ps * mapL ps = 1 := by
  induction ps with
  | nil => simp [mapL, unmapL]
  | cons p ps ih =>
    rw [List.map_cons, List.nodup_cons] at hn
    rw [unmapL, mapL, mul_assoc, ← mul_assoc (gateL _ _), ← mapL_comm hn.1, mul_assoc, gateL_mul, fromZ_toZ,
      gateL_one, mul_one, ih hn.2]

/-- The same product with every factor replaced by Z. -/
def allZ (qs : List ℕ) : List (Pauli × ℕ) := qs.map fun q => (Pauli.Z, q)

theorem pauliString_cons (p : Pauli × ℕ) (ps : List (Pauli × ℕ)) (ψ : Wave) :
    pauliString (p :: ps) ψ = gateL p.1.mat p.2 (pauliString ps ψ) := rfl

theorem allZ_mapL {ps : List (Pauli × ℕ)} (hn : (ps.map Prod.snd).Nodup) (hI : ∀ p ∈ ps, p.1 ≠ .I) (ψ : Wave) :
    pauliString (allZ (ps.map Prod.snd)) (mapL ps ψ) = mapL ps (pauliString ps ψ) := by
  induction ps generalizing ψ with
  | nil => rfl
  | cons p ps ih =>
    rw [List.map_cons, List.nodup_cons] at hn
    show gateL matZ p.2 (pauliString (allZ (ps.map Prod.snd)) (mapL ps (gateL (toZ p.1) p.2 ψ))) = _
    rw [ih hn.2 (fun x hx => hI x (List.mem_cons_of_mem _ hx)), pauliString_comm hn.1]
    rw [← Module.End.mul_apply, ← mapL_comm hn.1, Module.End.mul_apply]
    have e : gateL matZ p.2 (gateL (toZ p.1) p.2 (pauliString ps ψ)) =
        gateL (toZ p.1) p.2 (gateL p.1.mat p.2 (pauliString ps ψ)) := by
      rw [← Module.End.mul_apply, ← Module.End.mul_apply, gateL_mul, gateL_mul,
        Z_toZ (hI p List.mem_cons_self)]
    rw [e]
    rfl

theorem pauliString_allZ (qs : List ℕ) (ψ : Wave) (b : Basis) :
    pauliString (allZ qs) ψ b = (if parity qs b then -1 else 1) * ψ b := by
  induction qs generalizing b with
  | nil => simp [allZ, pauliString, parity]
  | cons q qs ih =>
    have e : pauliString (allZ (q :: qs)) ψ = gateL matZ q (pauliString (allZ qs) ψ) := rfl
    rw [e, gateL_apply_apply, parity_cons]
    cases hb : b q
    · have : update b q false = b := by rw [← hb]; exact update_eq_self _ _
      rw [this, ih]; simp [matZ, mat]
    · have : update b q true = b := by rw [← hb]; exact update_eq_self _ _
      rw [this, ih b]
      have e1 : matZ true false = 0 := rfl
      have e2 : matZ true true = -1 := rfl
      rw [e1, e2]
      cases parity qs b <;> simp

theorem pauliProj_allZ (qs : List ℕ) (v : Bool) (ψ : Wave) : pauliProj (allZ qs) v ψ = proj qs v ψ := by
  funext b
  simp only [pauliProj, Pi.smul_apply, Pi.add_apply, pauliString_allZ, proj, smul_eq_mul]
  cases v <;> cases parity qs b <;> simp <;> ring

theorem pauliProb_allZ (qs : List ℕ) (v : Bool) (ψ : Wave) : pauliProb (allZ qs) v ψ = prob qs v ψ := by
  rw [pauliProb, pauliProj_allZ, normSq_proj]

theorem pauliPost_allZ (qs : List ℕ) (v : Bool) (ψ : Wave) : pauliPost (allZ qs) v ψ = postMeasure qs v ψ := by
  rw [pauliPost, pauliProb_allZ, pauliProj_allZ, postMeasure]

theorem pauliProj_mapL {ps : List (Pauli × ℕ)} (hn : (ps.map Prod.snd).Nodup) (hI : ∀ p ∈ ps, p.1 ≠ .I)
    (v : Bool) (ψ : Wave) : proj (ps.map Prod.snd) v (mapL ps ψ) = mapL ps (pauliProj ps v ψ) := by
  rw [← pauliProj_allZ, pauliProj, allZ_mapL hn hI, pauliProj, map_smul, map_add, map_smul]

theorem FinSupp.mapL {ψ : Wave} (h : FinSupp ψ) (ps : List (Pauli × ℕ)) : FinSupp (mapL ps ψ) := by
  induction ps generalizing ψ with
  | nil => exact h
  | cons p ps ih => exact ih (ψ := gateL (toZ p.1) p.2 ψ) (h.ctrl [] (toZ p.1) p.2)

theorem normSq_mapL {ψ : Wave} (h : FinSupp ψ) (ps : List (Pauli × ℕ)) :
    Spec.normSq (mapL ps ψ) = Spec.normSq ψ := by
  induction ps generalizing ψ with
  | nil => rfl
  | cons p ps ih =>
    exact (ih (ψ := gateL (toZ p.1) p.2 ψ) (h.ctrl [] (toZ p.1) p.2)).trans
      (normSq_ctrl h (isom_toZ p.1) (List.not_mem_nil))

theorem FinSupp.pauliString {ψ : Wave} (h : FinSupp ψ) (ps : List (Pauli × ℕ)) : FinSupp (pauliString ps ψ) := by
  induction ps with
  | nil => exact h
  | cons p ps ih => exact ih.ctrl _ _ _

theorem FinSupp.pauliProj {ψ : Wave} (h : FinSupp ψ) (ps : List (Pauli × ℕ)) (v : Bool) :
    FinSupp (pauliProj ps v ψ) := (h.add ((h.pauliString ps).smul _)).smul _

theorem prob_mapL {ps : List (Pauli × ℕ)} (hn : (ps.map Prod.snd).Nodup) (hI : ∀ p ∈ ps, p.1 ≠ .I) {ψ : Wave}
    (h : FinSupp ψ) (v : Bool) : prob (ps.map Prod.snd) v (mapL ps ψ) = pauliProb ps v ψ := by
  rw [← normSq_proj, pauliProj_mapL hn hI, normSq_mapL (h.pauliProj ps v), pauliProb]

theorem real_smul_wave (x : ℝ) (ψ : Wave) : x • ψ = (x : ℂ) • ψ := by
  funext b; simp

theorem unmap_postMeasure {ps : List (Pauli × ℕ)} (hn : (ps.map Prod.snd).Nodup) (hI : ∀ p ∈ ps, p.1 ≠ .I)
    {ψ : Wave} (h : FinSupp ψ) (v : Bool) :
    unmapL ps (postMeasure (ps.map Prod.snd) v (mapL ps ψ)) = pauliPost ps v ψ := by
  rw [postMeasure, prob_mapL hn hI h, pauliProj_mapL hn hI, pauliPost, real_smul_wave, map_smul,
    ← Module.End.mul_apply, unmapL_mapL hn, Module.End.one_apply, real_smul_wave]

/-! ### Rotations -/

theorem ctrlExp_single (cs : List ℕ) (p : Pauli) (q : ℕ) (θ : ℝ) (U : Mat2)
    (hU : ∀ r k, U r k = Real.cos θ * (1 : Mat2) r k + Complex.I * Real.sin θ * p.mat r k) :
    ctrl cs U q = ctrlExp cs [(p, q)] θ := by
  funext ψ b
  unfold ctrl ctrlExp
  by_cases h : ∀ c ∈ cs, b c = true
  · rw [if_pos h, if_pos h]
    have e : pauliString [(p, q)] ψ b = gateL p.mat q ψ b := rfl
    rw [e, gateL_apply_apply, hU, hU]
    have e1 : ψ b = (1 : Mat2) (b q) false * ψ (update b q false) + (1 : Mat2) (b q) true * ψ (update b q true) := by
      have := gateL_apply_apply 1 q ψ b
      rw [gateL_one] at this
      exact this
    rw [e1]; ring
  · rw [if_neg h, if_neg h]

theorem ctrl_Rx (cs : List ℕ) (q : ℕ) (θ : ℝ) : ctrl cs (matRx θ) q = ctrlExp cs [(.X, q)] (-(θ / 2)) := by
  apply ctrlExp_single
  intro r k
  rw [mat_one]
  cases r <;> cases k <;> simp [matRx, Pauli.mat, matX, mat]

theorem ctrl_Ry (cs : List ℕ) (q : ℕ) (θ : ℝ) : ctrl cs (matRy θ) q = ctrlExp cs [(.Y, q)] (-(θ / 2)) := by
  apply ctrlExp_single
  intro r k
  rw [mat_one]
  cases r <;> cases k <;> simp [matRy, Pauli.mat, matY, mat]
  · linear_combination (-Complex.sin (θ / 2)) * Complex.I_sq
  · linear_combination (Complex.sin (θ / 2)) * Complex.I_sq

theorem ctrl_Rz (cs : List ℕ) (q : ℕ) (θ : ℝ) : ctrl cs (matRz θ) q = ctrlExp cs [(.Z, q)] (-(θ / 2)) := by
  apply ctrlExp_single
  intro r k
  rw [mat_one]
  cases r <;> cases k <;> simp [matRz, Pauli.mat, matZ, mat]
  · rw [show -(Complex.I * (↑θ / 2)) = (-(↑θ / 2)) * Complex.I by ring, Complex.exp_mul_I]
    simp; ring
  · rw [show (Complex.I * (↑θ / 2)) = (↑θ / 2) * Complex.I by ring, Complex.exp_mul_I]
    ring

/-- A controlled rotation about the identity is a phase on the controls. -/
theorem ctrl_phase_I (c : ℕ) (cs : List ℕ) (q : ℕ) (θ : ℝ) :
    ctrl cs (matPhase (Complex.exp (Complex.mk 0 θ))) c = ctrlExp (c :: cs) [(.I, q)] θ := by
  funext ψ b
  have e : pauliString [(.I, q)] ψ b = ψ b := by
    show gateL 1 q ψ b = ψ b
    rw [gateL_one]; rfl
  unfold ctrl ctrlExp
  rw [e]
  have hx : Complex.exp (Complex.mk 0 θ) = Real.cos θ + Complex.I * Real.sin θ := by
    rw [show Complex.mk 0 θ = θ * Complex.I by apply Complex.ext <;> simp, Complex.exp_mul_I]
    push_cast; ring
  by_cases h : ∀ c ∈ cs, b c = true
  · rw [if_pos h]
    cases hb : b c
    · have : update b c false = b := by rw [← hb]; exact update_eq_self _ _
      rw [if_neg (by simp [hb]), this]; simp [matPhase, mat]
    · have : update b c true = b := by rw [← hb]; exact update_eq_self _ _
      rw [if_pos (by simpa [hb] using h), this, hx]; simp [matPhase, mat]; ring
  · rw [if_neg h, if_neg (by simpa using fun _ => by simpa using h)]

/-- The rotation about the identity is a global phase. -/
theorem ctrlExp_I (q : ℕ) (θ : ℝ) (ψ : Wave) :
    ctrlExp [] [(.I, q)] θ ψ = Complex.exp (θ * Complex.I) • ψ := by
  funext b
  have e : pauliString [(.I, q)] ψ b = ψ b := by
    show gateL 1 q ψ b = ψ b
    rw [gateL_one]; rfl
  rw [Pi.smul_apply, Complex.exp_mul_I]
  unfold ctrlExp
  rw [if_pos (by simp), e]; simp; ring

/-- CNOT, rotation about Z, CNOT is the rotation about ZZ. -/
theorem cx_rz_cx {a b : ℕ} (hab : a ≠ b) (θ : ℝ) (ψ : Wave) :
    ctrl [b] matX a (ctrl [] (matRz θ) a (ctrl [b] matX a ψ)) = ctrlExp [] [(.Z, a), (.Z, b)] (-(θ / 2)) ψ := by
  rw [ctrl_Rz]
  funext x
  have hz : ∀ y, pauliString [(.Z, a), (.Z, b)] ψ y = (if parity [a, b] y then -1 else 1) * ψ y :=
    fun y => pauliString_allZ [a, b] ψ y
  have h1 : ∀ (φ : Wave) y, pauliString [(.Z, a)] φ y = (if parity [a] y then -1 else 1) * φ y :=
    fun φ y => pauliString_allZ [a] φ y
  have hb : ∀ (y : Basis) v, update y a v b = y b := fun y v => update_of_ne hab.symm _ _
  have hs : ∀ v, x a = v → update x a v = x := fun v hv => by rw [← hv]; exact update_eq_self _ _
  simp only [ctrlExp, hz, h1, ctrl, List.mem_singleton, forall_eq, parity, List.foldr_cons, List.foldr_nil,
    hb, update_self, update_idem, List.not_mem_nil, false_imp_iff, implies_true, if_true]
  have ca : x a = false ∨ x a = true := by cases x a <;> simp
  have cb : x b = false ∨ x b = true := by cases x b <;> simp
  rcases ca with hxa | hxa <;> rcases cb with hxb | hxb <;> have := hs _ hxa <;>
    simp [matX, mat, this, hxa, hxb]

/-- The exponential of a product of Z between changes of basis. -/
theorem exp_mapL {ps : List (Pauli × ℕ)} (hn : (ps.map Prod.snd).Nodup) (hI : ∀ p ∈ ps, p.1 ≠ .I) (θ : ℝ)
    (ψ : Wave) : unmapL ps (ctrlExp [] (allZ (ps.map Prod.snd)) θ (mapL ps ψ)) = ctrlExp [] ps θ ψ := by
  have e : ∀ (rs : List (Pauli × ℕ)) (φ : Wave), ctrlExp [] rs θ φ =
      (Real.cos θ : ℂ) • φ + (Complex.I * Real.sin θ) • pauliString rs φ := by
    intro rs φ; funext b; simp [ctrlExp]
  rw [e, e, allZ_mapL hn hI, ← map_smul, ← map_smul, ← map_add, ← Module.End.mul_apply, unmapL_mapL hn,
    Module.End.one_apply]

end Qir
