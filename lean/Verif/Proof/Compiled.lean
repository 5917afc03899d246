import Verif.Props.CompiledDefs
import Verif.Proof.Known

/-!
# Compiled programs
-/

noncomputable section
namespace Qir.Back.Arr
open Spec Sim Qir.Out Run

/-! ### Qubits with a value -/

/-- Qubit `q` has the value `v`. -/
def Valued (q : ℕ) (v : Bool) (ψ : Wave) : Prop := ∀ b, ψ b ≠ 0 → b q = v

theorem Valued.proj {q : ℕ} {v : Bool} {ψ : Wave} (h : Valued q v ψ) (w : Bool) :
    pauliProj [(.Z, q)] w ψ = if w = v then ψ else 0 := by
  rw [← pauliProjL_apply]
  funext b
  rw [proj_Z]
  by_cases h0 : ψ b = 0
  · rw [h0]
    split_ifs <;> first | rfl | exact h0.symm
  · rw [h b h0]
    by_cases hw : w = v
    · rw [if_pos hw.symm, if_pos hw]
    · rw [if_neg (Ne.symm hw), if_neg hw]
      rfl

theorem Valued.prob {q : ℕ} {v : Bool} {ψ : Wave} (h : Valued q v ψ) (hf : Fit ψ) (w : Bool) :
    pauliProb [(.Z, q)] w ψ = if w = v then 1 else 0 := by
  unfold pauliProb
  rw [h.proj]
  split_ifs
  · exact hf.norm
  · have := normSq_smul 0 (0 : Wave)
    rwa [zero_smul, map_zero, zero_mul] at this

theorem Valued.post {q : ℕ} {v : Bool} {ψ : Wave} (h : Valued q v ψ) (hf : Fit ψ) : pauliPost [(.Z, q)] v ψ = ψ := by
  unfold pauliPost
  rw [h.prob hf, h.proj, if_pos rfl, if_pos rfl, Real.sqrt_one, div_one, one_smul]

/-- Measuring such a qubit. -/
theorem chance_valued {q : ℕ} {v : Bool} {δ : Device} (h : Valued q v δ.psi) (hf : Fit δ.psi) {c : QCall}
    (hm : measures δ c = some [(.Z, q)]) (k : QAns → Prog QCall QAns) (S : Set (List Event × Bool)) :
    chance (.call c k) δ S = chance (k (finding v δ c).1) (finding v δ c).2 S := by
  rw [chance, hm]
  dsimp only
  rw [h.prob hf, h.prob hf]
  cases v <;> simp

theorem valued_zero {Z : Set ℕ} {ψ : Wave} (h : ZeroOn Z ψ) {q : ℕ} (hq : q ∈ Z) : Valued q false ψ :=
  fun b hb => h b hb q hq

theorem valued_post (q : ℕ) (v : Bool) (ψ : Wave) : Valued q v (pauliPost [(.Z, q)] v ψ) := fun _ hb => (post_value hb).1

theorem chance_cleared {q : ℕ} {δ : Device} (h : Valued q false δ.psi) (hf : Fit δ.psi) {p : Prog QCall QAns}
    (hp : Numbered p) (S : Set (List Event × Bool)) : chance (.call (.reset q) fun _ => p) δ S = chance p δ S := by
  rw [chance_valued h hf rfl]
  refine chance_same hp S (alike_of ?_ ?_ ?_ ?_)
  · exact h.post hf
  · exact useAll_rng [q] δ
  · exact useAll_reg [q] δ
  · exact useAll_touched [q] δ

theorem chance_zero {q r : ℕ} {δ : Device} (h : Valued q false δ.psi) (hf : Fit δ.psi) {p : Prog QCall QAns}
    (hp : Numbered p) (S : Set (List Event × Bool)) :
    chance (.call (.mz q r) fun _ => p) δ S = chance (.call (.writeResult false r) fun _ => p) δ S := by
  rw [chance_valued h hf rfl]
  have hw : chance (.call (.writeResult false r) fun _ => p) δ S = chance p (δ.store r false) S := by
    rw [chance]
    rfl
  rw [hw]
  refine chance_same hp S (alike_of ?_ ?_ ?_ rfl)
  · exact h.post hf
  · exact useAll_rng [q] δ
  · show Function.update (δ.useAll [q]).reg r false = Function.update δ.reg r false
    rw [useAll_reg]

theorem chance_mz (q r : ℕ) (k : QAns → Prog QCall QAns) (δ : Device) (S : Set (List Event × Bool)) :
    chance (.call (.mz q r) k) δ S =
      pauliProb [(.Z, q)] true δ.psi * chance (k .unit) ((found [(.Z, q)] true δ).store r true) S +
      pauliProb [(.Z, q)] false δ.psi * chance (k .unit) ((found [(.Z, q)] false δ).store r false) S := by
  rw [chance]
  rfl

theorem fit_found {q : ℕ} {v : Bool} {δ : Device} (hf : Fit δ.psi) (h0 : 0 < pauliProb [(.Z, q)] v δ.psi) :
    Fit (pauliPost [(.Z, q)] v δ.psi) := hf.finding (c := .mz q 0) rfl h0

theorem arms {q : ℕ} {δ : Device} {f g : Bool → ℝ} (h : ∀ v, 0 < pauliProb [(.Z, q)] v δ.psi → f v = g v) :
    pauliProb [(.Z, q)] true δ.psi * f true + pauliProb [(.Z, q)] false δ.psi * f false =
      pauliProb [(.Z, q)] true δ.psi * g true + pauliProb [(.Z, q)] false δ.psi * g false := by
  have : ∀ v, pauliProb [(.Z, q)] v δ.psi * f v = pauliProb [(.Z, q)] v δ.psi * g v := by
    intro v
    rcases (pauliProb_nonneg [(.Z, q)] v δ.psi).eq_or_lt with h0 | h0
    · rw [← h0, zero_mul, zero_mul]
    · rw [h v h0]
  rw [this, this]

theorem chance_twice {q r r' : ℕ} {δ : Device} (hf : Fit δ.psi) {p : Prog QCall QAns} (hp : Numbered p)
    (S : Set (List Event × Bool)) : chance (measuredTwice q r r' p) δ S = chance (measuredOnce q r r' p) δ S := by
  unfold measuredTwice measuredOnce
  rw [chance_mz, chance_mz]
  refine arms (f := fun v => chance (.call (.mz q r') fun _ => p) ((found [(.Z, q)] v δ).store r v) S)
    (g := fun v => chance (.call (.readResult r) _) ((found [(.Z, q)] v δ).store r v) S) fun v h0 => ?_
  have hv : Valued q v ((found [(.Z, q)] v δ).store r v).psi := valued_post q v δ.psi
  have hf' : Fit ((found [(.Z, q)] v δ).store r v).psi := fit_found hf h0
  have hr : ((found [(.Z, q)] v δ).store r v).reg r = v := Function.update_self ..
  have hw : chance (.call (.readResult r) fun
      | .bit b => .call (.writeResult b r') fun _ => p
      | _ => .done) ((found [(.Z, q)] v δ).store r v) S =
      chance p (((found [(.Z, q)] v δ).store r v).store r' v) S := by
    simp only [chance, measures, Device.step, hr]
    rfl
  rw [chance_valued hv hf' rfl]
  refine Eq.trans ?_ hw.symm
  refine chance_same hp S (alike_of ?_ ?_ ?_ rfl)
  · exact hv.post hf'
  · exact useAll_rng [q] _
  · show Function.update (Device.useAll [q] ((found [(.Z, q)] v δ).store r v)).reg r' v = Function.update _ r' v
    rw [useAll_reg]

theorem chance_split {q r : ℕ} {δ : Device} (hf : Fit δ.psi) {p : Prog QCall QAns} (hp : Numbered p)
    (S : Set (List Event × Bool)) : chance (.call (.mresetz q r) fun _ => p) δ S =
      chance (.call (.mz q r) fun _ => .call (.reset q) fun _ => p) δ S := by
  have h1 : chance (.call (.mresetz q r) fun _ => p) δ S =
      pauliProb [(.Z, q)] true δ.psi * chance p (((found [(.Z, q)] true δ).clear true q).store r true) S +
      pauliProb [(.Z, q)] false δ.psi * chance p (((found [(.Z, q)] false δ).clear false q).store r false) S := by
    rw [chance]
    rfl
  rw [h1, chance_mz]
  refine arms (f := fun v => chance p (((found [(.Z, q)] v δ).clear v q).store r v) S)
    (g := fun v => chance (.call (.reset q) fun _ => p) ((found [(.Z, q)] v δ).store r v) S) fun v h0 => ?_
  have hv : Valued q v ((found [(.Z, q)] v δ).store r v).psi := valued_post q v δ.psi
  have hf' : Fit ((found [(.Z, q)] v δ).store r v).psi := fit_found hf h0
  rw [chance_valued hv hf' rfl]
  refine chance_same hp S (alike_of ?_ ?_ ?_ ?_)
  · show (if v then Spec.ctrl [] matX q (pauliPost [(.Z, q)] v δ.psi) else pauliPost [(.Z, q)] v δ.psi) =
      if v then Spec.ctrl [] matX q (pauliPost [(.Z, q)] v ((found [(.Z, q)] v δ).store r v).psi)
        else pauliPost [(.Z, q)] v ((found [(.Z, q)] v δ).store r v).psi
    rw [hv.post hf']
    rfl
  · exact (useAll_rng [q] ((found [(.Z, q)] v δ).store r v)).symm
  · exact (useAll_reg [q] ((found [(.Z, q)] v δ).store r v)).symm
  · exact (useAll_touched [q] ((found [(.Z, q)] v δ).store r v)).symm

theorem chance_constant (b : Bool) (r : ℕ) (k : QAns → Prog QCall QAns) (δ : Device) (S : Set (List Event × Bool)) :
    chance (.call (.writeResult b r) fun _ => .call (.readResult r) k) δ S =
      chance (.call (.writeResult b r) fun _ => k (.bit b)) δ S := by
  have hr : (δ.store r b).reg r = b := Function.update_self ..
  simp only [chance, measures, Device.step, hr]
  rfl

theorem compiled_under {Z : Set ℕ} {c : QCall} (hs : c.Static) (hd : c.Distinct) {k k' : QAns → Prog QCall QAns}
    {δ : Device} (hf : Fit δ.psi) (hz : ZeroOn Z δ.psi)
    (h : ∀ a (δ' : Device) S, Fit δ'.psi → ZeroOn (knownZero Z c) δ'.psi → chance (k a) δ' S = chance (k' a) δ' S)
    (S : Set (List Event × Bool)) : chance (.call c k) δ S = chance (.call c k') δ S := by
  rw [chance, chance]
  cases hn : measures δ c with
  | some ps =>
    have hm : measures δ c ≠ none := by rw [hn]; exact Option.some_ne_none _
    dsimp only
    have hv : ∀ v, pauliProb ps v δ.psi * chance (k (finding v δ c).1) (finding v δ c).2 S =
        pauliProb ps v δ.psi * chance (k' (finding v δ c).1) (finding v δ c).2 S := by
      intro v
      rcases (pauliProb_nonneg ps v δ.psi).eq_or_lt with h0 | h0
      · rw [← h0, zero_mul, zero_mul]
      · rw [h _ _ _ (hf.finding hn h0) (zero_finding hz v hs hm)]
    rw [hv, hv]
  | none =>
    dsimp only
    cases e : δ.step c with
    | error m => rfl
    | ok x => exact h _ _ _ (fit_proper hf hn hd e) (zero_step hz hs e)

theorem chance_compiled {Z : Set ℕ} {p p' : Prog QCall QAns} (h : Compiled Z p p') : ∀ {δ : Device}, Fit δ.psi →
    ZeroOn Z δ.psi → ∀ S, chance p δ S = chance p' δ S := by
  induction h with
  | fold h hp => exact fun hf hz S => (chance_folded h hp S Alike.same hf.fin hz).symm
  | arrange h => exact fun hf _ S => chance_rearranged h hf S
  | cleared hq hp => exact fun hf hz S => chance_cleared (valued_zero hz hq) hf hp S
  | zero hq r hp => exact fun hf hz S => chance_zero (valued_zero hz hq) hf hp S
  | twice q r r' hp => exact fun hf _ S => chance_twice hf hp S
  | split q r hp => exact fun hf _ S => chance_split hf hp S
  | constant b r k => exact fun _ _ S => chance_constant b r k _ S
  | under hs hd _ ih => exact fun hf hz S => compiled_under hs hd hf hz (fun a δ' S hf' hz' => ih a hf' hz' S) S
  | symm _ ih => exact fun hf hz S => (ih hf hz S).symm
  | trans _ _ ih ih' => exact fun hf hz S => (ih hf hz S).trans (ih' hf hz S)

end Qir.Back.Arr
