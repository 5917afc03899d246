import Verif.Proof.TolTrack
import Verif.Proof.Examples

/-! Rotations by less than the tolerance, two at a time: nothing ever happens. -/

noncomputable section
namespace Qir.Tol
open Spec Function Sim

/-- One allocated qubit, with the queue `r` of rotations about X. -/
def oneQubit (rng : ℕ → ℝ) (r : IMap ℝ) : Sim := { (Sim.new rng).allocate.2 with rxQ := r }

theorem oneQubit_idMap (rng : ℕ → ℝ) (r : IMap ℝ) : (oneQubit rng r).idMap = ⟨[some 0]⟩ := by
  unfold oneQubit Sim.allocate
  simp [Sim.new, IMap.iter, IMap.iterFrom, IMap.empty, IMap.values, firstFree, IMap.insert, IMap.resize]

theorem oneQubit_rx (env : Env) (rng : ℕ → ℝ) (r : IMap ℝ) (θ : ℝ) :
    call env (.gate (.rx θ) 0) (oneQubit rng r) =
      .ok (.none, oneQubit rng (addAngle env.eps r 0 θ)) := by
  have h1 : ((oneQubit rng r).hFlag.testBit 0 || (oneQubit rng r).ryQ.containsKey 0) = false := by
    rw [IMap.containsKey_eq]; simp [oneQubit, Sim.allocate, Sim.new]
  have h2 : (oneQubit rng r).rx env θ 0 = .ok (oneQubit rng (addAngle env.eps r 0 θ)) := by
    unfold rx
    rw [h1]
    rfl
  simp only [call, quiet, gateCall, h2, ok_bind, pure_ok]

/-- Two rotations whose angles add up to less than the tolerance leave nothing behind. -/
theorem addAngle_twice {eps : ℝ} {r : IMap ℝ} (hr : ∀ q, r.get q = none) {θ θ' : ℝ}
    (h : |θ + θ'| ≤ eps) (q : ℕ) : (addAngle eps (addAngle eps r 0 θ) 0 θ').get q = none := by
  have h1 : addAngle eps r 0 θ = r.insert 0 θ := by unfold addAngle; rw [hr 0]
  rw [h1]
  unfold addAngle
  rw [IMap.get_insert, if_pos rfl]
  simp only
  rw [if_pos (nearlyZeroR_iff.2 h), IMap.get_remove]
  by_cases hq : q = 0
  · simp [hq]
  · rw [if_neg hq, IMap.get_modify, if_neg hq, IMap.get_insert, if_neg hq, hr]

theorem run_replicate (env : Env) (rng : ℕ → ℝ) (θ : ℝ) (j : ℕ) : ∀ r : IMap ℝ,
    ∃ os r', runCalls env (List.replicate j (.gate (.rx θ) 0)) (oneQubit rng r) =
      .ok (os, oneQubit rng r') := by
  induction j with
  | zero => intro r; exact ⟨[], r, rfl⟩
  | succ j ih =>
    intro r
    obtain ⟨os, r', h⟩ := ih (addAngle env.eps r 0 θ)
    refine ⟨.none :: os, r', ?_⟩
    rw [List.replicate_succ]
    simp only [runCalls, oneQubit_rx, ok_bind, h, pure_ok]

theorem run_pairs (env : Env) (rng : ℕ → ℝ) {θ : ℝ} (hθ : |θ + θ| ≤ env.eps) (k : ℕ) : ∀ r : IMap ℝ,
    (∀ q, r.get q = none) →
    ∃ os r', runCalls env (List.replicate (2 * k) (.gate (.rx θ) 0)) (oneQubit rng r) =
      .ok (os, oneQubit rng r') ∧ ∀ q, r'.get q = none := by
  induction k with
  | zero => intro r hr; exact ⟨[], r, rfl, hr⟩
  | succ k ih =>
    intro r hr
    obtain ⟨os, r', h, hr'⟩ := ih _ (addAngle_twice hr hθ)
    refine ⟨.none :: .none :: os, r', ?_, hr'⟩
    rw [show 2 * (k + 1) = 2 * k + 1 + 1 by ring, List.replicate_succ, List.replicate_succ]
    simp only [runCalls, oneQubit_rx, ok_bind, h, pure_ok]

theorem getState_oneQubit (env : Env) (rng : ℕ → ℝ) {r : IMap ℝ} (hr : ∀ q, r.get q = none) :
    ∃ s', getState env (oneQubit rng r) = .ok (([(0, 1)], 1), s') := by
  have hq : Quiet (oneQubit rng r) := by
    refine ⟨rfl, fun q => ?_⟩
    rw [hasQueued_eq]
    simp [oneQubit, Sim.allocate, Sim.new, hr]
  have hk : (oneQubit rng r).idMap.iter.map Prod.fst = [0] := by
    rw [oneQubit_idMap]; rfl
  refine ⟨oneQubit rng r, ?_⟩
  unfold getState
  rw [hk]
  simp only [hq.flushQueue, ok_bind, relocate, relocateOne, indexId, oneQubit_idMap, IMap.get]
  simp
  show sortState [(0, 1)] = _
  simp [sortState]

theorem run_rx (rng : ℕ → ℝ) (θ : ℝ) (j : ℕ) : ∀ (φ : ℝ),
    (Ideal.mk {0} (ctrl [] (matRx φ) 0 (ket zeroBasis)) rng).run (List.replicate j (.gate (.rx θ) 0)) =
      Ideal.mk {0} (ctrl [] (matRx (j * θ + φ)) 0 (ket zeroBasis)) rng := by
  induction j with
  | zero => intro φ; simp [Ideal.run]
  | succ j ih =>
    intro φ
    rw [List.replicate_succ]
    have h1 : (Ideal.mk {0} (ctrl [] (matRx φ) 0 (ket zeroBasis)) rng).step (.gate (.rx θ) 0) =
        Ideal.mk {0} (ctrl [] (matRx (θ + φ)) 0 (ket zeroBasis)) rng := by
      show Ideal.mk _ _ _ = _
      congr 1
      show gateL (matRx θ) 0 (gateL (matRx φ) 0 (ket zeroBasis)) = gateL _ 0 _
      rw [← Module.End.mul_apply, gateL_mul, Rx_Rx]
    show (Ideal.step _ _).run _ = _
    rw [h1, ih]
    congr 3
    push_cast; ring

theorem alloc_init (rng : ℕ → ℝ) : (Ideal.init rng).step .allocate = Ideal.mk {0} (ket zeroBasis) rng := by
  show Ideal.mk (insert (Ideal.fresh _) ∅) _ _ = _
  rw [fresh_of (n := 0) (by simp [Ideal.init]) (by simp)]
  rfl

theorem valid_rx (rng : ℕ → ℝ) (θ : ℝ) (j : ℕ) : ∀ (σ : Ideal), σ.live = {0} →
    σ.ValidRun (List.replicate j (.gate (.rx θ) 0)) := by
  induction j with
  | zero => intro σ _; trivial
  | succ j ih =>
    intro σ h
    rw [List.replicate_succ]
    refine ⟨?_, ih _ h⟩
    show 0 ∈ σ.live
    rw [h]; simp

theorem steady_of_no_ry {env : Env} {cs : List Call} (h : ∀ θ q, Call.gate (.ry θ) q ∉ cs) :
    ∀ s, Steady env s cs := by
  induction cs with
  | nil => intro s; trivial
  | cons c cs ih =>
    intro s
    refine ⟨?_, fun _ _ _ => ih (fun θ q hc => h θ q (by simp [hc])) _⟩
    unfold SteadyCall
    split
    · rename_i θ q; exact absurd (by simp) (h θ q)
    · trivial

theorem rx_pi : ctrl [] (matRx Real.pi) 0 (ket zeroBasis) =
    (-Complex.I) • ket (update zeroBasis 0 true) := by
  rw [ctrl_ket (by simp), if_pos (by simp)]
  simp [matRx, mat, zeroBasis]

theorem distance_orthogonal {w : ℂ} (hw : ‖w‖ = 1) :
    distance (ket zeroBasis) (w • (-Complex.I) • ket (update zeroBasis 0 true)) = √2 := by
  have hne : update zeroBasis 0 true ≠ zeroBasis := by
    intro h
    have := congrFun h 0
    simp [zeroBasis] at this
  classical
  unfold distance
  congr 1
  rw [normSq_finset (S := {zeroBasis, update zeroBasis 0 true})]
  · rw [Finset.sum_pair (Ne.symm hne)]
    simp only [Pi.sub_apply, Pi.smul_apply, ket, if_true, if_neg hne, if_neg (Ne.symm hne), smul_eq_mul,
      mul_zero, sub_zero, mul_one, zero_sub, map_one, Complex.normSq_neg, map_mul, Complex.normSq_I]
    rw [Complex.normSq_eq_norm_sq, hw]
    norm_num
  · intro b hb
    by_contra hc
    simp only [Finset.coe_insert, Finset.coe_singleton, Set.mem_insert_iff, Set.mem_singleton_iff, not_or] at hc
    apply hb
    simp [ket, hc.1, hc.2]

end Qir.Tol
