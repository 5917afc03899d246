import Verif.Proof.Local

/-! Concrete histories used as examples beside the property theorems. -/

noncomputable section
namespace Qir
open Spec Function Sim

theorem ctrl_add (cs : List ℕ) (U : Mat2) (q : ℕ) (ψ φ : Wave) :
    ctrl cs U q (ψ + φ) = ctrl cs U q ψ + ctrl cs U q φ := (ctrlL cs U q).map_add ψ φ

theorem ctrl_smul (cs : List ℕ) (U : Mat2) (q : ℕ) (w : ℂ) (ψ : Wave) :
    ctrl cs U q (w • ψ) = w • ctrl cs U q ψ := (ctrlL cs U q).map_smul w ψ

theorem prob_ket (qs : List ℕ) (v : Bool) (b : Basis) : prob qs v (ket b) = if parity qs b = v then 1 else 0 := by
  classical
  unfold prob
  rw [finsum_eq_single _ b]
  · simp [ket]
  · intro b' hb
    simp [ket, hb]

theorem fresh_of {σ : Ideal} {n : ℕ} (h : n ∉ σ.live) (h' : ∀ m < n, m ∈ σ.live) : σ.fresh = n := by
  unfold Ideal.fresh
  have hn : n ∈ {n | n ∉ σ.live} := h
  apply le_antisymm (Nat.sInf_le hn)
  by_contra hlt
  exact Nat.sInf_mem ⟨n, hn⟩ (h' _ (not_le.1 hlt))

/-- Two qubits in a Bell state. -/
def bellCalls : List Call := [.allocate, .allocate, .gate .h 0, .ctrl .x [0] 1]

/-- `|11⟩`. -/
def oneOne : Basis := update (update zeroBasis 0 true) 1 true

def bellState : Wave :=
  ((1 / Real.sqrt 2 : ℝ) : ℂ) • ket zeroBasis + ((1 / Real.sqrt 2 : ℝ) : ℂ) • ket oneOne

theorem bell_live (rng : ℕ → ℝ) :
    ((Ideal.init rng).step .allocate).step .allocate = ⟨{0, 1}, ket zeroBasis, rng⟩ := by
  have h1 : (Ideal.init rng).step .allocate = ⟨{0}, ket zeroBasis, rng⟩ := by
    show Ideal.mk (insert (Ideal.fresh _) ∅) _ _ = _
    rw [fresh_of (n := 0) (by simp [Ideal.init]) (by simp)]
    rfl
  rw [h1]
  show Ideal.mk (insert (Ideal.fresh _) {0}) _ _ = _
  rw [fresh_of (n := 1) (by simp) (by intro m hm; simp; omega)]
  rw [show (insert 1 {0} : Finset ℕ) = {0, 1} from by decide]

theorem bell_run (rng : ℕ → ℝ) : (Ideal.init rng).run bellCalls = ⟨{0, 1}, bellState, rng⟩ := by
  unfold bellCalls Ideal.run
  simp only [List.foldl_cons, List.foldl_nil, bell_live]
  simp only [Ideal.step]
  congr 1
  rw [show Gate.h.mat = matH from rfl, show Gate.x.mat = matX from rfl, ctrl_ket (by simp), if_pos (by simp)]
  rw [ctrl_add, ctrl_smul, ctrl_smul, ctrl_ket (by simp), ctrl_ket (by simp)]
  rw [if_neg (by simp), if_pos (by simp)]
  simp only [zeroBasis, update_of_ne (show (1 : ℕ) ≠ 0 by norm_num), matX, mat, matH]
  simp only [Bool.false_eq_true, if_false, if_true, zero_smul, one_smul, zero_add]
  unfold bellState oneOne zeroBasis
  congr 2
  rw [update_eq_self_iff.2 rfl]

theorem bell_valid (rng : ℕ → ℝ) : (Ideal.init rng).ValidRun bellCalls := by
  refine ⟨trivial, trivial, ?_, ?_, trivial⟩
  · show (0 : ℕ) ∈ (((Ideal.init rng).step .allocate).step .allocate).live
    rw [bell_live]; simp
  · have : ((((Ideal.init rng).step .allocate).step .allocate).step (.gate .h 0)).live = {0, 1} := by
      rw [bell_live]; rfl
    refine ⟨by simp, ?_⟩
    rw [this]
    simp

theorem RunOk.of_no_ry {env : Env} {cs : List Call} (h : ∀ θ q, Call.gate (.ry θ) q ∉ cs) :
    ∀ s, RunOk env s cs := by
  induction cs with
  | nil => intro s; trivial
  | cons c cs ih =>
    intro s
    refine ⟨?_, fun _ _ _ => ih (fun θ q hc => h θ q (by simp [hc])) _⟩
    cases c <;> try trivial
    rename_i g q
    cases g <;> try trivial
    rename_i θ
    exact absurd (by simp) (h θ q)

/-- The Bell state is reachable. -/
theorem bell_reachable {env : Env} (he : env.eps = 0) : ∃ (s : Sim) (w : ℂ), Reachable env s ∧ ‖w‖ = 1 ∧
    Shows env s {0, 1} (w • bellState) := by
  have hr : ∀ n : ℕ, (0 : ℝ) ≤ (fun _ => 0 : ℕ → ℝ) n ∧ (fun _ => 0 : ℕ → ℝ) n < 1 := by simp
  obtain ⟨ds, os, s, h1, h2, h3, h4, h5⟩ := refine_run he bellCalls (refines_new hr) (bell_valid _)
  have := h3 (RunOk.of_no_ry (by simp [bellCalls]) _)
  subst this
  rw [bell_run] at h5
  obtain ⟨w, hw, ha⟩ := h5.psi
  refine ⟨s, w, ⟨_, _, os, hr, bell_valid _, h1⟩, hw, ?_⟩
  rw [← ha]
  exact h5.shows he

theorem oneOne_ne : oneOne ≠ zeroBasis := by
  intro h
  have := congrFun h 1
  simp [oneOne, zeroBasis] at this

theorem prob_bell {w : ℂ} (hw : ‖w‖ = 1) (v : Bool) : prob [0] v (w • bellState) = 1 / 2 := by
  classical
  rw [prob_phase hw]
  unfold prob
  rw [finsum_eq_single _ (if v then oneOne else zeroBasis)]
  · cases v
    · simp [bellState, ket, oneOne_ne.symm, parity, zeroBasis]
    · have : parity [0] oneOne = true := by simp [parity, oneOne]
      simp [this, bellState, ket, oneOne_ne]
  · intro b hb
    by_cases h0 : b = zeroBasis
    · subst h0; cases v <;> simp [parity, zeroBasis] at hb ⊢
    · by_cases h1 : b = oneOne
      · subst h1; cases v <;> simp [parity, oneOne] at hb ⊢
      · simp [bellState, ket, h0, h1]

end Qir
