import Verif.Proof.Sparse
import Verif.Proof.Backend
import Verif.Props.Observation
import Verif.Props.Apply

/-!
# How many amplitudes are stored (C60)
-/

noncomputable section
namespace Qir
open Spec Sim

/-- Specification: the gates that turn a basis state into a superposition. -/
def Spec.Gate.Spreads : Gate → Prop
  | .h | .rx _ | .ry _ => True
  | _ => False

instance : DecidablePred Spec.Gate.Spreads := fun g => by unfold Spec.Gate.Spreads; split <;> infer_instance

/-- Specification: into how many basis states, as a power of two, a call can spread one: nothing but Hadamard gates and
rotations about X and Y, controlled or not, exponentials of strings that contain X or Y, and matrices, whose controls do
not count. -/
def Spec.XCall.spread : XCall → ℕ
  | .base (.gate g _) | .base (.ctrl g _ _) => if g.Spreads then 1 else 0
  | .base (.exp _ ps _ _) => if ps.any (fun p => p = .X ∨ p = .Y) then 1 else 0
  | .apply _ _ ts => ts.length
  | _ => 0

theorem fits_call {env : Env} (he : 0 ≤ env.eps) {B : ℕ} (hB : 1 ≤ B) {s : Sim} (h : s.Fits B) (c : XCall) :
    Then (callX env c s) fun r => Fits (2 ^ c.spread * B) r.2 ∧
      ∀ l n, r.1 = .state l n → l.length ≤ 2 ^ c.spread * B := by
  have quietly : ∀ {r : Except Panic Sim} {C : ℕ}, Then r (Fits C) → Then (quiet r) fun r => Fits C r.2 ∧
      ∀ l n, r.1 = .state l n → l.length ≤ C := by
    intro r C hr
    unfold quiet
    exact hr.bind fun a ha => .ok ⟨ha, by intro l n h; cases h⟩
  cases c with
  | apply cs U ts => exact quietly (apply_fits env he U ts cs h)
  | base c =>
    cases c with
    | gate g q =>
      have h0 : XCall.spread (.base (.gate g q)) = if g.Spreads then 1 else 0 := by unfold XCall.spread; rfl
      rw [h0]
      refine quietly ?_
      have ex : ∀ {g : Gate}, g.Spreads → Then (gateCall env q g s) (Fits (2 ^ 1 * B)) →
          Then (gateCall env q g s) (Fits (2 ^ (if g.Spreads then 1 else 0) * B)) := by
        intro g hg h; rwa [if_pos hg]
      have ex' : ∀ {g : Gate}, ¬ g.Spreads → Then (gateCall env q g s) (Fits B) →
          Then (gateCall env q g s) (Fits (2 ^ (if g.Spreads then 1 else 0) * B)) := by
        intro g hg h; rwa [if_neg hg, pow_zero, one_mul]
      cases g with
      | x => exact ex' not_false fun a ha => h.rotated (x_rotated q s a ha)
      | y => exact ex' not_false fun a ha => h.rotated (y_rotated q s a ha)
      | z => exact ex' not_false fun a ha => h.rotated (z_rotated q s a ha)
      | h => exact ex trivial (h_fits env q h)
      | s => exact ex' not_false (diagGate_fits env _ _ h)
      | sadj => exact ex' not_false (diagGate_fits env _ _ h)
      | t => exact ex' not_false (diagGate_fits env _ _ h)
      | tadj => exact ex' not_false (diagGate_fits env _ _ h)
      | rx θ => exact ex trivial (rx_fits env θ q h)
      | ry θ => exact ex trivial (ry_fits env θ q h)
      | rz θ => exact ex' not_false (diagGate_fits env _ _ h)
    | ctrl g cs q =>
      have h0 : XCall.spread (.base (.ctrl g cs q)) = if g.Spreads then 1 else 0 := by unfold XCall.spread; rfl
      rw [h0]
      refine quietly ?_
      have ex : ∀ {g : Gate}, g.Spreads → Then (ctrlCall env cs q g s) (Fits (2 ^ 1 * B)) →
          Then (ctrlCall env cs q g s) (Fits (2 ^ (if g.Spreads then 1 else 0) * B)) := by
        intro g hg h; rwa [if_pos hg]
      have ex' : ∀ {g : Gate}, ¬ g.Spreads → Then (ctrlCall env cs q g s) (Fits B) →
          Then (ctrlCall env cs q g s) (Fits (2 ^ (if g.Spreads then 1 else 0) * B)) := by
        intro g hg h; rwa [if_neg hg, pow_zero, one_mul]
      cases g with
      | x => exact ex' not_false (mcx_fits env cs q h)
      | y => exact ex' not_false (mcy_fits env cs q h)
      | z => exact ex' not_false (mcz_fits env cs q h)
      | h => exact ex trivial (mch_fits env cs q h)
      | s => exact ex' not_false (mcDiagGate_fits env _ _ _ h)
      | sadj => exact ex' not_false (mcDiagGate_fits env _ _ _ h)
      | t => exact ex' not_false (mcDiagGate_fits env _ _ _ h)
      | tadj => exact ex' not_false (mcDiagGate_fits env _ _ _ h)
      | rx θ => exact ex trivial (mcrx_fits env cs θ q h)
      | ry θ => exact ex trivial (mcry_fits env cs θ q h)
      | rz θ => exact ex' not_false (mcDiagGate_fits env _ _ _ h)
    | exp cs ps θ ts =>
      refine quietly (mcexp_fits env cs _ θ ts _ ?_ ?_ h)
      · unfold XCall.spread; dsimp only; split <;> omega
      · intro h0 p hp
        unfold XCall.spread at h0
        dsimp only at h0
        split at h0
        · cases h0
        · rename_i hno
          rw [List.mem_map] at hp
          obtain ⟨p', hp', rfl⟩ := hp
          cases p' with
          | I => exact .inl rfl
          | Z => exact .inr rfl
          | X => exact absurd (List.any_eq_true.2 ⟨_, hp', by decide⟩) hno
          | Y => exact absurd (List.any_eq_true.2 ⟨_, hp', by decide⟩) hno
    | phase cs φ q =>
      rw [show XCall.spread (.base (.phase cs φ q)) = 0 from rfl, pow_zero, one_mul]
      exact quietly (mcphase_fits env cs φ q h)
    | swap a b =>
      rw [show XCall.spread (.base (.swap a b)) = 0 from rfl, pow_zero, one_mul]
      exact quietly (swapQubitIds_fits a b h)
    | allocate =>
      rw [show XCall.spread (.base .allocate) = 0 from rfl, pow_zero, one_mul]
      exact .ok ⟨h.of_le le_rfl le_rfl, by intro l n h; cases h⟩
    | release q =>
      rw [show XCall.spread (.base (.release q)) = 0 from rfl, pow_zero, one_mul]
      exact quietly (release_fits env q hB h)
    | measure q =>
      rw [show XCall.spread (.base (.measure q)) = 0 from rfl, pow_zero, one_mul]
      exact (measure_fits env q h).bind fun a ha => .ok ⟨ha, by intro l n h; cases h⟩
    | jointMeasure qs =>
      rw [show XCall.spread (.base (.jointMeasure qs)) = 0 from rfl, pow_zero, one_mul]
      exact (jointMeasure_fits env qs h).bind fun a ha => .ok ⟨ha, by intro l n h; cases h⟩
    | jointProb qs =>
      rw [show XCall.spread (.base (.jointProb qs)) = 0 from rfl, pow_zero, one_mul]
      exact (jointProbability_fits env qs h).bind fun a ha => .ok ⟨ha, by intro l n h; cases h⟩
    | isZero q =>
      rw [show XCall.spread (.base (.isZero q)) = 0 from rfl, pow_zero, one_mul]
      exact (qubitIsZero_fits env q h).bind fun a ha => .ok ⟨ha, by intro l n h; cases h⟩
    | collapse v q =>
      rw [show XCall.spread (.base (.collapse v q)) = 0 from rfl, pow_zero, one_mul]
      exact (forceCollapse_fits env v q h).bind fun a ha => .ok ⟨ha, by intro l n h; cases h⟩
    | getState =>
      rw [show XCall.spread (.base .getState) = 0 from rfl, pow_zero, one_mul]
      exact (getState_fits env h).bind fun a ha => .ok ⟨ha.1, by intro l n h; cases h; exact ha.2⟩
    | dump fmt =>
      rw [show XCall.spread (.base (.dump fmt)) = 0 from rfl, pow_zero, one_mul]
      exact (dump_fits env fmt h).bind fun a ha => .ok ⟨ha, by intro l n h; cases h⟩

theorem fits_run {env : Env} (he : 0 ≤ env.eps) (cs : List XCall) : ∀ {B : ℕ}, 1 ≤ B → ∀ {s : Sim}, s.Fits B →
    Then (runX env cs s) fun r => Fits (2 ^ (cs.map XCall.spread).sum * B) r.2 ∧
      ∀ l n, Spec.Out.state l n ∈ r.1 → l.length ≤ 2 ^ (cs.map XCall.spread).sum * B := by
  induction cs with
  | nil =>
    intro B hB s h
    exact .ok ⟨by simpa using h, by intro l n h; cases h⟩
  | cons c cs ih =>
    intro B hB s h
    have hpos : ∀ k, 1 ≤ 2 ^ k * B := fun k => Nat.mul_pos (by positivity) hB
    refine (fits_call he hB h c).bind fun a ha => (ih (hpos _) ha.1).bind fun b hb => .ok ?_
    have e : 2 ^ ((c :: cs).map XCall.spread).sum * B = 2 ^ (cs.map XCall.spread).sum * (2 ^ c.spread * B) := by
      rw [List.map_cons, List.sum_cons, pow_add]; ring
    rw [e]
    refine ⟨hb.1, ?_⟩
    intro l n hm
    rcases List.mem_cons.1 hm with hm | hm
    · exact le_trans (ha.2 l n hm.symm) (Nat.le_mul_of_pos_left _ (by positivity))
    · exact hb.2 l n hm

/-- **C60**.  After any history of calls, the simulator stores at most as many amplitudes as basis states the calls could
spread one basis state into, and no state it has reported was longer.  Permutations of basis states, phases, controls,
measurements, releases, swaps and reading the state cost nothing, however many qubits there are. -/
theorem C60_sparse {env : Env} (he : 0 ≤ env.eps) (rng : ℕ → ℝ) (cs : List XCall) {os : List Spec.Out} {s : Sim}
    (h : runX env cs (Sim.new rng) = .ok (os, s)) : s.state.length ≤ 2 ^ (cs.map XCall.spread).sum ∧
      ∀ l n, Spec.Out.state l n ∈ os → l.length ≤ 2 ^ (cs.map XCall.spread).sum := by
  have h0 : (Sim.new rng).Fits 1 := by
    unfold Fits Sim.pend Sim.new
    simp [ones_zero, IMap.size_empty]
  obtain ⟨h1, h2⟩ := fits_run he cs le_rfl h0 _ h
  rw [mul_one] at h1 h2
  exact ⟨le_trans (Nat.le_mul_of_pos_right _ (by positivity)) h1, h2⟩

/-- **C60** for classical computations: without such calls there is never more than one amplitude. -/
theorem C60_classical {env : Env} (he : 0 ≤ env.eps) (rng : ℕ → ℝ) (cs : List XCall) (hc : ∀ c ∈ cs, c.spread = 0)
    {os : List Spec.Out} {s : Sim} (h : runX env cs (Sim.new rng) = .ok (os, s)) : s.state.length ≤ 1 := by
  have : (cs.map XCall.spread).sum = 0 := by
    rw [List.sum_eq_zero_iff]
    intro n hn
    rw [List.mem_map] at hn
    obtain ⟨c, hc', rfl⟩ := hn
    exact hc c hc'
  simpa [this] using (C60_sparse he rng cs h).1

/-- A reversible adder on three qubits meets the hypothesis. -/
example : ∀ c ∈ ([.base .allocate, .base .allocate, .base .allocate, .base (.gate .x 0), .base (.gate .x 1),
    .base (.ctrl .x [0, 1] 2), .base (.ctrl .x [0] 1), .base (.ctrl .z [0, 1] 2), .base (.exp [0] [.Z, .I] 1 [1, 2]),
    .base (.measure 1), .base (.release 0), .base .getState] : List XCall), c.spread = 0 := by
  intro c hc
  simp only [List.mem_cons, List.not_mem_nil, or_false] at hc
  rcases hc with rfl | rfl | rfl | rfl | rfl | rfl | rfl | rfl | rfl | rfl | rfl | rfl <;>
    simp [XCall.spread, Gate.Spreads]

/-- **C60**, by qubits: in every reachable state there are at most `2 ^ n` amplitudes, `n` being the number of allocated
qubits. -/
theorem C60_qubits {env : Env} (he : env.eps = 0) {s : Sim} (hr : Reachable env s) :
    s.state.length ≤ 2 ^ s.idMap.keys.length := by
  obtain ⟨_, hbits, hnd⟩ := C11_locations he hr
  have hinj : Set.InjOn (fun k : ℕ => (ones k)) (s.state.map Prod.fst).toFinset := by
    intro a _ b _ hab
    refine Nat.eq_of_testBit_eq fun i => ?_
    have : i ∈ ones a ↔ i ∈ ones b := by rw [show ones a = ones b from hab]
    unfold ones at this
    rw [Set.mem_ofPred_eq, Set.mem_ofPred_eq] at this
    exact Bool.eq_iff_iff.2 this
  classical
  let f : ℕ → Finset ℕ := fun k => (ones_finite k).toFinset
  have hf : ((s.state.map Prod.fst).toFinset).card ≤ ((s.idMap.values.toFinset).powerset).card := by
    refine Finset.card_le_card_of_injOn f ?_ ?_
    · intro k hk
      rw [Finset.mem_coe, List.mem_toFinset, List.mem_map] at hk
      obtain ⟨e, he', rfl⟩ := hk
      rw [Finset.mem_coe, Finset.mem_powerset]
      intro l hl
      rw [Set.Finite.mem_toFinset] at hl
      obtain ⟨i, hi⟩ := hbits e he' l hl
      rw [List.mem_toFinset, IMap.values_eq, List.mem_map]
      exact ⟨(i, l), (IMap.mem_iter _ _ _).2 hi, rfl⟩
    · intro a ha b hb hab
      refine hinj ha hb ?_
      have := congrArg (fun x : Finset ℕ => (x : Set ℕ)) hab
      simpa [f] using this
  rw [List.toFinset_card_of_nodup hnd, List.length_map, Finset.card_powerset] at hf
  refine le_trans hf (Nat.pow_le_pow_right (by norm_num) (le_trans (List.toFinset_card_le _) ?_))
  rw [IMap.values_eq]
  simp [IMap.keys]

/-! ### The bounds are attained -/

/-- Allocate `n` qubits and put each into an equal superposition. -/
def uniform (n : ℕ) : List Call := (List.range n).flatMap fun q => [.allocate, .gate .h q]

theorem uniform_succ (n : ℕ) : uniform (n + 1) = uniform n ++ [.allocate, .gate .h n] := by
  unfold uniform
  rw [List.range_succ, List.flatMap_append]
  simp

theorem uniform_ideal (rng : ℕ → ℝ) (n : ℕ) : (Ideal.init rng).ValidRun (uniform n) ∧
    ((Ideal.init rng).run (uniform n)).live = Finset.range n ∧
    ∀ b, ((Ideal.init rng).run (uniform n)).psi b ≠ 0 ↔ ∀ q, n ≤ q → b q = false := by
  induction n with
  | zero =>
    refine ⟨trivial, rfl, fun b => ?_⟩
    show ket zeroBasis b ≠ 0 ↔ _
    unfold ket
    constructor
    · intro h
      by_cases hb : b = zeroBasis
      · intro q _; rw [hb]; rfl
      · rw [if_neg hb] at h; exact absurd rfl h
    · intro h
      rw [if_pos (show b = zeroBasis from funext fun q => h q (Nat.zero_le _))]
      exact one_ne_zero
  | succ n ih =>
    obtain ⟨h1, h2, h3⟩ := ih
    set σ := (Ideal.init rng).run (uniform n) with hσ
    have hfresh : σ.fresh = n := by
      show sInf {k | k ∉ σ.live} = n
      rw [h2]
      exact Back.fresh_range n
    have hrun : (Ideal.init rng).run (uniform (n + 1)) = (σ.step .allocate).step (.gate .h n) := by
      rw [uniform_succ, Ideal.run, List.foldl_append]
      rfl
    have hlive : (σ.step .allocate).live = Finset.range (n + 1) := by
      show insert σ.fresh σ.live = _
      rw [hfresh, h2, Finset.range_add_one]
    refine ⟨?_, ?_, ?_⟩
    · rw [uniform_succ]
      refine (validRun_append _ _ _).2 ⟨h1, trivial, ?_, trivial⟩
      show n ∈ (σ.step .allocate).live
      rw [hlive]; simp
    · rw [hrun]
      exact hlive
    · intro b
      rw [hrun]
      show Spec.ctrl [] matH n σ.psi b ≠ 0 ↔ _
      have htrue : σ.psi (Function.update b n true) = 0 := by
        by_contra hne
        have := (h3 _).1 hne n le_rfl
        simp at this
      have hc : ∀ r : Bool, matH r false = ((1 / Real.sqrt 2 : ℝ) : ℂ) := by
        intro r; cases r <;> rfl
      have h0 : ((1 / Real.sqrt 2 : ℝ) : ℂ) ≠ 0 := by
        rw [Complex.ofReal_ne_zero]; positivity
      unfold Spec.ctrl
      rw [if_pos (by simp), htrue, mul_zero, add_zero, hc, mul_ne_zero_iff_left h0, h3]
      constructor
      · intro h q hq
        have := h q (by omega)
        rwa [Function.update_of_ne (by omega)] at this
      · intro h q hq
        by_cases hqn : q = n
        · subst hqn; simp
        · rw [Function.update_of_ne hqn]
          exact h q (by omega)

theorem uniform_ok (env : Env) (n : ℕ) (s : Sim) : RunOk env s (uniform n) := by
  have key : ∀ (cs : List Call), (∀ c ∈ cs, c = .allocate ∨ ∃ q, c = .gate .h q) → ∀ s, RunOk env s cs := by
    intro cs
    induction cs with
    | nil => intro _ s; exact trivial
    | cons c cs ih =>
      intro h s
      refine ⟨?_, fun o s' _ => ih (fun c hc => h c (by simp [hc])) s'⟩
      rcases h c (by simp) with rfl | ⟨q, rfl⟩ <;> exact trivial
  refine key _ (fun c hc => ?_) s
  unfold uniform at hc
  rw [List.mem_flatMap] at hc
  obtain ⟨q, _, hq⟩ := hc
  simp only [List.mem_cons, List.not_mem_nil, or_false] at hq
  rcases hq with rfl | rfl
  · exact .inl rfl
  · exact .inr ⟨q, rfl⟩

/-- **C60**: both bounds are attained, for every number of qubits. -/
theorem C60_attained {env : Env} (he : env.eps = 0) {rng : ℕ → ℝ} (hrng : ∀ n, 0 ≤ rng n ∧ rng n < 1) (n : ℕ) :
    ((uniform n).map fun c => (XCall.base c).spread).sum = n ∧
      ∃ os s l s', runCalls env (uniform n) (Sim.new rng) = .ok (os, s) ∧ s.getState env = .ok ((l, n), s') ∧
        l.length = 2 ^ n := by
  constructor
  · induction n with
    | zero => rfl
    | succ n ih =>
      rw [uniform_succ, List.map_append, List.sum_append, ih]
      simp [XCall.spread, Gate.Spreads]
  · obtain ⟨hv, hlive, hpsi⟩ := uniform_ideal rng n
    obtain ⟨os, s, h1, _⟩ := C01_history_partial he hrng hv (uniform_ok env n _)
    obtain ⟨w, l, s', s'', hw, h2, _, hl⟩ := C15_get_state_partial he hrng hv (uniform_ok env n _) h1 fun _ => ""
    rw [hlive, Finset.card_range] at h2
    refine ⟨os, s, l, s', h1, h2, ?_⟩
    have hlen : (((Ideal.init rng).run (uniform n)).live.sort (· ≤ ·)).length = n := by
      rw [Finset.length_sort, hlive, Finset.card_range]
    have hw0 : w ≠ 0 := by
      intro h; rw [h, norm_zero] at hw; exact zero_ne_one hw
    have hkeys : (l.map Prod.fst).toFinset = Finset.range (2 ^ n) := by
      ext k
      rw [List.mem_toFinset, List.mem_map, Finset.mem_range]
      constructor
      · rintro ⟨e, he', rfl⟩
        have := (hl.sound e he').1
        rwa [hlen] at this
      · intro hk
        refine ⟨_, hl.complete k (by rwa [hlen]) ?_, rfl⟩
        rw [Pi.smul_apply, smul_eq_mul]
        refine mul_ne_zero hw0 ((hpsi _).2 fun q hq => ?_)
        unfold indexed
        rw [hlive]
        simp [hq]
    have hnd : (l.map Prod.fst).Nodup := by
      rw [List.nodup_iff_pairwise_ne, List.pairwise_map]
      exact hl.sorted.imp fun h => ne_of_lt h
    rw [← List.length_map (f := Prod.fst), ← List.toFinset_card_of_nodup hnd, hkeys, Finset.card_range]

end Qir
