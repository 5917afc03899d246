import Verif.Props.WorkaroundDefs
import Verif.Props.Rewrite
import Verif.Props.TotalVariation

/-!
# Lemmas about the way around finding F1
-/

noncomputable section
namespace Qir.Back
open Spec Sim Qir.Out Run

namespace Arr

theorem aboutY_none {c : QCall} (h : aboutY c = none) : NoY c := by
  unfold aboutY at h
  unfold NoY
  split <;> simp_all

theorem matRy_parts (θ : ℝ) : matS * (matRx θ * matSadj) = matRy θ := by
  simp only [matS, matSadj, matPhase, matRx, matRy, mat_mul]
  congr 1 <;> first | ring1 | linear_combination (Real.sin (θ / 2) : ℂ) * Complex.I_mul_I |
    linear_combination -(Real.sin (θ / 2) : ℂ) * Complex.I_mul_I | linear_combination -(Real.cos (θ / 2) : ℂ) * Complex.I_mul_I

theorem use_use (q : ℕ) (δ : Device) : (δ.use q).use q = δ.use q := by
  unfold Device.use
  by_cases h : q < δ.high
  · simp [h]
  · simp [h]

theorem use_psi (q : ℕ) (δ : Device) (ψ : Wave) : ({ δ with psi := ψ } : Device).use q = { δ.use q with psi := ψ } := by
  unfold Device.use
  dsimp only
  split <;> rfl

theorem apply_apply (q : ℕ) (U V : Wave → Wave) (δ : Device) :
    (δ.apply [q] U).apply [q] V = δ.apply [q] fun ψ => V (U ψ) := by
  unfold Device.apply Device.useAll
  simp only [List.foldl_cons, List.foldl_nil]
  rw [use_psi, use_use]

theorem usable_apply {q : ℕ} {δ : Device} (h : δ.Usable q) (U : Wave → Wave) : (δ.apply [q] U).Usable q := by
  refine .inl ?_
  show q ∈ (δ.use q).live
  unfold Device.use
  split
  · next hq => exact h.elim id fun h => absurd hq (not_lt.2 h.2)
  · simp

theorem aboutY_step {c : QCall} {θ : ℝ} {q : ℕ} (h : aboutY c = some (θ, q)) (δ : Device) :
    δ.step c = .ok (.unit, [], δ.apply [q] (Spec.ctrl [] (matRy θ) q)) := by
  unfold aboutY at h
  split at h <;> cases h
  · rfl
  · show Except.ok (QAns.unit, _, δ.apply [q] (ctrlExp [] [(.Y, q)] (-(θ / 2)))) = _
    rw [ctrl_Ry]
  · next φ =>
    show Except.ok (QAns.unit, _, δ.apply [q] (ctrlExp [] [(.Y, q)] (φ / 2))) = _
    rw [ctrl_Ry, neg_div, neg_neg]

theorem aboutY_valid {c : QCall} {θ : ℝ} {q : ℕ} (h : aboutY c = some (θ, q)) {δ : Device} (hv : δ.Valid c) :
    δ.Usable q := by
  unfold aboutY at h
  split at h <;> cases h
  · exact hv
  · exact hv.elim (fun h => by cases h) id
  · exact hv.elim (fun h => by cases h) id

theorem aboutY_measures {c : QCall} {θ : ℝ} {q : ℕ} (h : aboutY c = some (θ, q)) (δ : Device) : measures δ c = none := by
  unfold aboutY at h
  split at h <;> cases h <;> rfl

/-- The three gates do what the rotation does. -/
theorem parts_apply (q : ℕ) (θ : ℝ) (δ : Device) :
    ((δ.apply [q] (Spec.ctrl [] Gate.sadj.mat q)).apply [q] (Spec.ctrl [] (Gate.rx θ).mat q)).apply [q]
      (Spec.ctrl [] Gate.s.mat q) = δ.apply [q] (Spec.ctrl [] (matRy θ) q) := by
  rw [apply_apply, apply_apply]
  congr 1
  funext ψ
  have h := product_gate q [.sadj, .rx θ, .s] ψ
  have e : gateProduct [.sadj, .rx θ, .s] = matRy θ := by
    rw [← matRy_parts]
    simp only [gateProduct, List.foldl_cons, List.foldl_nil, Gate.mat, mul_one]
  rw [e] at h
  exact h

/-! ### Programs -/

theorem gate_step' (g : Gate) (q : ℕ) (δ : Device) :
    δ.step (.gate g q) = .ok (.unit, [], δ.apply [q] (Spec.ctrl [] g.mat q)) := rfl

theorem gate_measures (g : Gate) (q : ℕ) (δ : Device) : measures δ (.gate g q) = none := rfl

theorem unturned_noY (p : Prog QCall QAns) : NoYProg (unturned p) := by
  induction p with
  | done => trivial
  | call c k ih =>
    unfold unturned
    split
    · next h => exact ⟨aboutY_none h, ih⟩
    · exact ⟨trivial, fun _ => ⟨trivial, fun _ => ⟨trivial, fun _ => ih _⟩⟩⟩

theorem unturned_run (p : Prog QCall QAns) : ∀ δ, idealRun (unturned p) δ = idealRun p δ := by
  induction p with
  | done => intro δ; rfl
  | call c k ih =>
    intro δ
    unfold unturned
    split
    · simp only [idealRun, ih]
    · next θ q h =>
      simp only [idealRun, aboutY_step h, gate_step', parts_apply, ih]
      cases idealRun (k .unit) (δ.apply [q] (Spec.ctrl [] (matRy θ) q)) <;> rfl

theorem unturned_shots (p : Prog QCall QAns) (n : ℕ) : ∀ r, idealShots (unturned p) n r = idealShots p n r := by
  induction n with
  | zero => intro r; rfl
  | succ n ih => intro r; simp only [idealShots, unturned_run, ih]

theorem unturned_meaningful (p : Prog QCall QAns) : ∀ {δ}, Meaningful p δ → Meaningful (unturned p) δ := by
  induction p with
  | done => intro δ _; trivial
  | call c k ih =>
    intro δ h
    unfold unturned
    split
    · exact ⟨h.1, h.2.1, fun a es δ' hs => ih a (h.2.2 a es δ' hs)⟩
    · next θ q hc =>
      have hq := aboutY_valid hc h.1
      refine ⟨hq, trivial, fun a es δ1 h1 => ?_⟩
      cases h1
      refine ⟨usable_apply hq _, trivial, fun a es δ2 h2 => ?_⟩
      cases h2
      refine ⟨usable_apply (usable_apply hq _) _, trivial, fun a es δ3 h3 => ?_⟩
      cases h3
      rw [parts_apply]
      exact ih _ (h.2.2 _ _ _ (aboutY_step hc δ))

theorem _root_.Qir.Back.Tidy.meaningful {p : Prog QCall QAns} (h : Tidy p) : ∀ {δ : Device},
    δ.live = Finset.range δ.high → Meaningful p δ := by
  induction p with
  | done => intro δ _; trivial
  | call c k ih =>
    intro δ hl
    obtain ⟨h1, h2, h3, h5⟩ := h
    exact ⟨static_valid hl h1 h2, h3, fun a es δ' hs => ih a (h5 a) (static_step hl h1 hs).1⟩

theorem _root_.Qir.Back.Tidy.numbered {p : Prog QCall QAns} (h : Tidy p) : Numbered p := by
  induction p with
  | done => trivial
  | call c k ih => exact ⟨h.1, fun a => ih a (h.2.2.2 a)⟩

theorem unturned_chance (p : Prog QCall QAns) : ∀ δ S, chance (unturned p) δ S = chance p δ S := by
  induction p with
  | done => intro δ S; rfl
  | call c k ih =>
    intro δ S
    unfold unturned
    split
    · simp only [chance, ih]
    · next θ q h =>
      simp only [chance, aboutY_measures h, aboutY_step h, gate_measures, gate_step', parts_apply, ih, List.nil_append,
        Set.mem_ofPred_eq, Prod.mk.eta]

end Arr

end Qir.Back

namespace Qir.RBack
open Spec Sim Qir.Out Run Qir.Back Qir.Back.Arr

variable {A : Arith} {N : ℕ}

theorem aboutY_plain {c : QCall} {θ : ℝ} {q : ℕ} (h : aboutY c = some (θ, q)) :
    effort c = 12 ∧ turn A c = |θ| + A.eps := by
  unfold aboutY at h
  split at h <;> cases h
  · exact ⟨rfl, rfl⟩
  · exact ⟨rfl, rfl⟩
  · exact ⟨rfl, by rw [abs_neg]; rfl⟩

theorem Within.more (p : Prog QCall QAns) : ∀ {δ : Device} {W W' M : ℕ} {T : ℝ}, W ≤ W' → Within A N p δ W M T →
    Within A N p δ W' M T := by
  induction p with
  | done => intros; trivial
  | call c k ih =>
    intro δ W W' M T hW h
    unfold Within at h ⊢
    refine ⟨h.1, h.2.1, h.2.2.1.trans hW, h.2.2.2.1, ?_⟩
    have h5 := h.2.2.2.2
    have hW' : W - effort c ≤ W' - effort c := Nat.sub_le_sub_right hW _
    split at h5
    · exact ⟨h5.1, fun v => ⟨(h5.2 v).1, (h5.2 v).2.1, ih _ hW' (h5.2 v).2.2⟩⟩
    · exact fun a es δ' hs => ⟨(h5 a es δ' hs).1, ih _ hW' (h5 a es δ' hs).2⟩

theorem Within.unturned (h0 : 0 ≤ A.eps) (p : Prog QCall QAns) : ∀ {δ : Device} {W M : ℕ} {T : ℝ},
    Within A N p δ W M T → Within A N (unturned p) δ (3 * W) M T := by
  induction p with
  | done => intros; trivial
  | call c k ih =>
    intro δ W M T h
    unfold Qir.Back.unturned
    split
    · unfold Within at h ⊢
      refine ⟨h.1, h.2.1, by have := h.2.2.1; omega, h.2.2.2.1, ?_⟩
      have h5 := h.2.2.2.2
      have hW' : 3 * (W - effort c) ≤ 3 * W - effort c := by omega
      split at h5
      · exact ⟨h5.1, fun v => ⟨(h5.2 v).1, (h5.2 v).2.1, .more _ hW' (ih _ (h5.2 v).2.2)⟩⟩
      · exact fun a es δ' hs => ⟨(h5 a es δ' hs).1, .more _ hW' (ih _ (h5 a es δ' hs).2)⟩
    · next θ q hc =>
      unfold Within at h
      obtain ⟨hv, -, he, ht, h5⟩ := h
      rw [aboutY_measures hc] at h5
      obtain ⟨l5, h5⟩ := h5 _ _ _ (aboutY_step hc δ)
      obtain ⟨e1, e2⟩ := aboutY_plain (A := A) hc
      rw [e1] at he h5
      rw [e2] at ht h5
      have hq := aboutY_valid hc hv
      have hT : (0 : ℝ) ≤ T := le_trans (add_nonneg (abs_nonneg _) h0) ht
      have l1 : ∀ U, (δ.apply [q] U).live.card ≤ N := fun U => l5
      refine ⟨hq, trivial, show 12 ≤ 3 * W by omega, hT, fun a es δ1 h1 => ?_⟩
      cases h1
      refine ⟨l1 _, usable_apply hq _, trivial, show 12 ≤ 3 * W - 12 by omega, show |θ| + A.eps ≤ T - 0 by rwa [sub_zero],
        fun a es δ2 h2 => ?_⟩
      cases h2
      refine ⟨by rw [Arr.apply_apply]; exact l1 _, usable_apply (usable_apply hq _) _, trivial,
        show 12 ≤ 3 * W - 12 - 12 by omega, show 0 ≤ T - 0 - (|θ| + A.eps) by rw [sub_zero]; linarith, fun a es δ3 h3 => ?_⟩
      cases h3
      rw [parts_apply]
      refine ⟨l5, ?_⟩
      have hW : 3 * W - 12 - 12 - 12 = 3 * (W - 12) := by omega
      show Within A N _ _ (3 * W - 12 - 12 - 12) M (T - 0 - (|θ| + A.eps) - 0)
      rw [hW, sub_zero, sub_zero]
      exact ih _ h5

end Qir.RBack
