import Verif.Props.GenericBackReal
import Verif.Proof.GenericExact
import Verif.Proof.RoundedBackExact

/-! With the arithmetic of the real numbers, the functions of `Model/GenericBackend` are those of `Model/Backend`. -/

noncomputable section
namespace Qir
namespace Gen
open Spec (Pauli)

variable (env : Env) (fmt : Back.Fmt)

local notation "N" => realNum env

/-- The result of a function of the backend, translated. -/
def conv {α β : Type} (f : α → β) : Except GStop α → Except Back.Stop β
  | .ok a => .ok (f a)
  | .error e => .error (toStop e)

theorem cbind {α β γ δ : Type} {f : α → β} {g : γ → δ} {r : Except GStop α} {r' : Except Back.Stop β}
    {k : α → Except GStop γ} {k' : β → Except Back.Stop δ} (h : r' = conv f r) (hk : ∀ a, k' (f a) = conv g (k a)) :
    (r' >>= k') = conv g (r >>= k) := by
  subst h
  cases r with
  | error p => rfl
  | ok a => exact hk a

theorem cif {α β : Type} {f : α → β} {c c' : Prop} [Decidable c] [Decidable c'] (hc : c ↔ c') {x y : Except GStop α}
    {x' y' : Except Back.Stop β} (hx : x' = conv f x) (hy : y' = conv f y) :
    (if c' then x' else y') = conv f (if c then x else y) := by
  by_cases h : c
  · rw [if_pos h, if_pos (hc.mp h), hx]
  · rw [if_neg h, if_neg (fun h' => h (hc.mpr h')), hy]

def toBP {α : Type} (r : α × GBackend ℝ) : α × Back.Backend := (r.1, toB r.2)

theorem act_eq {f : GSim ℝ → Except Panic (GSim ℝ)} {f' : Sim → Except Panic Sim} (h : ∀ m, f' (toSim m) = (f m).map toSim)
    (s : GBackend ℝ) : Back.act f' (toB s) = conv toB (act f s) := by
  show (Back.lift (f' (toSim s.sim)) >>= _) = _
  rw [h]
  unfold act
  cases f s.sim <;> rfl

theorem ask_eq {α : Type} {f : GSim ℝ → Except Panic (α × GSim ℝ)} {f' : Sim → Except Panic (α × Sim)}
    (h : ∀ m, f' (toSim m) = (f m).map toP) (s : GBackend ℝ) : Back.ask f' (toB s) = conv toBP (ask f s) := by
  show (Back.lift (f' (toSim s.sim)) >>= _) = _
  rw [h]
  unfold ask
  cases f s.sim <;> rfl

theorem ensure_eq (q : ℕ) : ∀ (n : ℕ) (s : GBackend ℝ), q + 1 - s.max = n → Back.ensure q (toB s) = toB (ensure q s) := by
  intro n
  induction n with
  | zero =>
    intro s hn
    unfold Back.ensure ensure
    rw [if_neg (show ¬ q + 1 > (toB s).max by show ¬ q + 1 > s.max; omega), if_neg (by omega)]
  | succ n ih =>
    intro s hn
    unfold Back.ensure ensure
    rw [if_pos (show q + 1 > (toB s).max by show q + 1 > s.max; omega), if_pos (by omega)]
    exact ih { s with sim := (allocate s.sim).2, max := s.max + 1 } (by show q + 1 - (s.max + 1) = n; omega)

theorem ensureOne_eq (q : ℕ) (s : GBackend ℝ) : Back.ensure q (toB s) = toB (ensure q s) := ensure_eq q _ s rfl

theorem ensureAll_eq (qs : List ℕ) : ∀ s : GBackend ℝ, Back.ensureAll qs (toB s) = toB (ensureAll qs s) := by
  induction qs with
  | nil => intro s; rfl
  | cons q qs ih =>
    intro s
    show Back.ensureAll qs (Back.ensure q (toB s)) = _
    rw [ensureOne_eq]
    exact ih _

/-! ### Methods of the simulator -/

theorem gateCall_real (g : Spec.Gate) (q : ℕ) (m : GSim ℝ) :
    Sim.gateCall env q g (toSim m) = (gateCall N q (ofGate g) m).map toSim := by
  rw [← RBack.gateCall_exact]
  exact gateCall_eq env g q m

theorem ctrlCall_real (g : Spec.Gate) (cs : List ℕ) (q : ℕ) (m : GSim ℝ) :
    Sim.ctrlCall env cs q g (toSim m) = (ctrlCall N cs q (ofGate g) m).map toSim := by
  rw [← RBack.ctrlCall_exact]
  exact ctrlCall_eq env g cs q m

theorem measure_real (q : ℕ) (m : GSim ℝ) : Sim.measure env q (toSim m) = (measure N q m).map toP := by
  rw [← Rnd.measure_exact]
  exact measure_eq env q m

theorem jointMeasure_real (qs : List ℕ) (m : GSim ℝ) : Sim.jointMeasure env qs (toSim m) = (jointMeasure N qs m).map toP := by
  rw [← Rnd.jointMeasure_exact]
  exact jointMeasure_eq env qs m

theorem jointProbability_real (qs : List ℕ) (m : GSim ℝ) :
    Sim.jointProbability env qs (toSim m) = (jointProbability N qs m).map toP := by
  rw [← Rnd.jointProbability_exact]
  exact jointProbability_eq env qs m

theorem qubitIsZero_real (q : ℕ) (m : GSim ℝ) : Sim.qubitIsZero env q (toSim m) = (qubitIsZero N q m).map toP := by
  rw [← Rnd.qubitIsZero_exact]
  exact qubitIsZero_eq env q m

theorem mcexp_real (cs : List ℕ) (ps : List MPauli) (θ : ℝ) (qs : List ℕ) (m : GSim ℝ) :
    Sim.mcexp env cs ps θ qs (toSim m) = (mcexp N cs ps θ qs m).map toSim := by
  rw [← Rnd.mcexp_exact]
  exact mcexp_eq env cs ps θ qs m

theorem mcphase_real (cs : List ℕ) (φ : Cx ℝ) (q : ℕ) (m : GSim ℝ) :
    Sim.mcphase env cs (toC φ) q (toSim m) = (mcphase N cs φ q m).map toSim := by
  rw [← Rnd.mcphase_exact]
  exact mcphase_eq env cs φ q m

theorem swapQubitIds_real (a b : ℕ) (m : GSim ℝ) : Sim.swapQubitIds a b (toSim m) = (swapQubitIds N a b m).map toSim := by
  rw [← Rnd.swapQubitIds_exact (env := env)]
  exact swapQubitIds_eq env a b m

theorem release_real (q : ℕ) (m : GSim ℝ) : Sim.release env q (toSim m) = (release N q m).map toSim := by
  rw [← Rnd.release_exact]
  exact release_eq env q m

theorem dump_real (f : ℂ → String) (m : GSim ℝ) : Sim.dump env f (toSim m) = (dump N (fun z => f (toC z)) m).map toP := by
  rw [← Rnd.dump_exact]
  exact dump_eq env f m

/-! ### Gates -/

theorem bgate_eq (g : Spec.Gate) (q : ℕ) (s : GBackend ℝ) : Back.gate env g q (toB s) = conv toB (B.gate N (ofGate g) q s) := by
  unfold Back.gate
  rw [ensureOne_eq]
  exact act_eq (gateCall_real env g q) _

theorem bctl_eq (g : Spec.Gate) (cs : List ℕ) (q : ℕ) (s : GBackend ℝ) :
    Back.ctl env g cs q (toB s) = conv toB (B.ctl N (ofGate g) cs q s) := by
  unfold Back.ctl
  rw [ensureOne_eq, ensureAll_eq]
  exact act_eq (ctrlCall_real env g cs q) _

theorem bsx_eq (q : ℕ) (s : GBackend ℝ) : Back.sx env q (toB s) = conv toB (B.sx N q s) :=
  cbind (bgate_eq env .h q s) fun s => cbind (bgate_eq env .s q s) fun s => bgate_eq env .h q s

theorem brzz_eq (θ : ℝ) (a b : ℕ) (s : GBackend ℝ) : Back.rzz env θ a b (toB s) = conv toB (B.rzz N θ a b s) :=
  cbind (bctl_eq env .x [b] a s) fun s => cbind (bgate_eq env (.rz θ) a s) fun s => bctl_eq env .x [b] a s

theorem brxx_eq (θ : ℝ) (a b : ℕ) (s : GBackend ℝ) : Back.rxx env θ a b (toB s) = conv toB (B.rxx N θ a b s) :=
  cbind (bgate_eq env .h a s) fun s => cbind (bgate_eq env .h b s) fun s => cbind (brzz_eq env θ a b s) fun s =>
    cbind (bgate_eq env .h b s) fun s => bgate_eq env .h a s

theorem bryy_eq (θ : ℝ) (a b : ℕ) (s : GBackend ℝ) : Back.ryy env θ a b (toB s) = conv toB (B.ryy N θ a b s) :=
  cbind (bgate_eq env .h a s) fun s => cbind (bgate_eq env .s a s) fun s => cbind (bgate_eq env .h a s) fun s =>
    cbind (bgate_eq env .h b s) fun s => cbind (bgate_eq env .s b s) fun s => cbind (bgate_eq env .h b s) fun s =>
    cbind (brzz_eq env θ a b s) fun s =>
    cbind (bgate_eq env .h b s) fun s => cbind (bgate_eq env .sadj b s) fun s => cbind (bgate_eq env .h b s) fun s =>
    cbind (bgate_eq env .h a s) fun s => cbind (bgate_eq env .sadj a s) fun s => bgate_eq env .h a s

theorem br_eq (p : Pauli) (θ : ℝ) (q : ℕ) (s : GBackend ℝ) : Back.r env p θ q (toB s) = conv toB (B.r N p θ q s) := by
  cases p with
  | I => rfl
  | X => exact bgate_eq env (.rx θ) q s
  | Y => exact bgate_eq env (.ry θ) q s
  | Z => exact bgate_eq env (.rz θ) q s

theorem phase_real (θ : ℝ) : toC ((N).cis ((N).div ((N).neg θ) (N).two)) = Complex.exp (Complex.mk 0 (-θ / 2)) := by
  rw [toC_cis, RBack.phase_eq]
  rfl

theorem brCtl_eq (cs : List ℕ) (p : Pauli) (θ : ℝ) (q : ℕ) (s : GBackend ℝ) :
    Back.rCtl env cs p θ q (toB s) = conv toB (B.rCtl N cs p θ q s) := by
  cases p with
  | I =>
    refine cif Iff.rfl ?_ rfl
    cases cs with
    | nil => exact congrArg Except.ok (ensureOne_eq q s)
    | cons c cs =>
      show Back.act _ (Back.ensureAll (c :: cs) (Back.ensure q (toB s))) = _
      rw [ensureOne_eq, ensureAll_eq, ← phase_real env θ]
      exact act_eq (mcphase_real env cs _ c) _
  | X => exact bctl_eq env (.rx θ) cs q s
  | Y => exact bctl_eq env (.ry θ) cs q s
  | Z => exact bctl_eq env (.rz θ) cs q s

theorem bexp_eq (ps : List Pauli) (θ : ℝ) (qs : List ℕ) (s : GBackend ℝ) :
    Back.exp env ps θ qs (toB s) = conv toB (B.exp N ps θ qs s) := by
  unfold Back.exp
  rw [ensureAll_eq]
  exact act_eq (mcexp_real env _ _ θ qs) _

theorem bexpCtl_eq (cs : List ℕ) (ps : List Pauli) (θ : ℝ) (qs : List ℕ) (s : GBackend ℝ) :
    Back.expCtl env cs ps θ qs (toB s) = conv toB (B.expCtl N cs ps θ qs s) := by
  unfold Back.expCtl
  rw [ensureAll_eq, ensureAll_eq]
  exact act_eq (mcexp_real env _ _ θ qs) _

theorem bswap_eq (a b : ℕ) (s : GBackend ℝ) : Back.swap a b (toB s) = conv toB (B.swap N a b s) := by
  unfold Back.swap
  rw [ensureOne_eq, ensureOne_eq]
  exact act_eq (swapQubitIds_real env a b) _

theorem bx_eq (q : ℕ) (s : GBackend ℝ) : Back.act (Sim.x q) (toB s) = conv toB (act (x N q) s) :=
  act_eq (gateCall_real env .x q) s

theorem bh_eq (q : ℕ) (s : GBackend ℝ) : Back.act (Sim.h env q) (toB s) = conv toB (act (h N q) s) :=
  act_eq (gateCall_real env .h q) s

/-! ### Measurements -/

theorem breset_eq (q : ℕ) (s : GBackend ℝ) : Back.reset env q (toB s) = conv toB (B.reset N q s) := by
  unfold Back.reset
  rw [ensureOne_eq]
  exact cbind (ask_eq (measure_real env q) _) fun r => cif Iff.rfl (bx_eq env q r.2) rfl

theorem bmz_eq (q r : ℕ) (s : GBackend ℝ) : Back.mz env q r (toB s) = conv toB (B.mz N q r s) := by
  unfold Back.mz
  rw [ensureOne_eq]
  exact cbind (ask_eq (measure_real env q) { (ensure q s) with res := Back.grow r (ensure q s).res }) fun _ => rfl

theorem bmresetz_eq (q r : ℕ) (s : GBackend ℝ) : Back.mresetz env q r (toB s) = conv toB (B.mresetz N q r s) := by
  unfold Back.mresetz
  rw [ensureOne_eq]
  exact cbind (ask_eq (measure_real env q) { (ensure q s) with res := Back.grow r (ensure q s).res }) fun a =>
    cif Iff.rfl (cbind (bx_eq env q a.2) fun _ => rfl) rfl

theorem bm_eq (q : ℕ) (s : GBackend ℝ) : Back.m env q (toB s) = conv toBP (B.m N q s) := by
  unfold Back.m
  rw [ensureOne_eq]
  exact cbind (ask_eq (measure_real env q) _) fun _ => rfl

theorem mapOne_eq (pq : Pauli × ℕ) (s : GBackend ℝ) : Back.mapOne env pq (toB s) = conv toB (B.mapOne N pq s) := by
  obtain ⟨p, q⟩ := pq
  cases p with
  | I => rfl
  | Z => rfl
  | X => exact bh_eq env q s
  | Y => exact cbind (bh_eq env q s) fun s => cbind (act_eq (gateCall_real env .s q) s) fun s => bh_eq env q s

theorem unmapOne_eq (pq : Pauli × ℕ) (s : GBackend ℝ) : Back.unmapOne env pq (toB s) = conv toB (B.unmapOne N pq s) := by
  obtain ⟨p, q⟩ := pq
  cases p with
  | I => rfl
  | Z => rfl
  | X => exact bh_eq env q s
  | Y => exact cbind (bh_eq env q s) fun s => cbind (act_eq (gateCall_real env .sadj q) s) fun s => bh_eq env q s

theorem forEach_eq {α : Type} {f : α → GBackend ℝ → Except GStop (GBackend ℝ)}
    {f' : α → Back.Backend → Except Back.Stop Back.Backend} (h : ∀ a s, f' a (toB s) = conv toB (f a s)) (l : List α) :
    ∀ s, Back.forEach f' l (toB s) = conv toB (forEach f l s) := by
  induction l with
  | nil => intro s; rfl
  | cons a l ih => intro s; exact cbind (h a s) fun s => ih s

theorem mapToZ_eq (ps : List Pauli) (qs : List ℕ) (s : GBackend ℝ) :
    Back.mapToZ env ps qs (toB s) = conv toBP (B.mapToZ N ps qs s) := by
  refine cif Iff.rfl rfl ?_
  dsimp only
  rw [ensureAll_eq]
  exact cbind (forEach_eq (mapOne_eq env) _ _) fun _ => rfl

theorem unmapFromZ_eq (l : List (Pauli × ℕ)) (s : GBackend ℝ) :
    Back.unmapFromZ env l (toB s) = conv toB (B.unmapFromZ N l s) := forEach_eq (unmapOne_eq env) l s

theorem bmeasure_eq (ps : List Pauli) (qs : List ℕ) (s : GBackend ℝ) :
    Back.measure env ps qs (toB s) = conv toBP (B.measure N ps qs s) :=
  cbind (mapToZ_eq env ps qs s) fun r => cbind (ask_eq (jointMeasure_real env _) r.2) fun a =>
    cbind (unmapFromZ_eq env r.1 a.2) fun _ => rfl

theorem bisZero_eq (q : ℕ) (s : GBackend ℝ) : Back.qubitIsZero env q (toB s) = conv toBP (B.qubitIsZero N q s) := by
  unfold Back.qubitIsZero
  rw [ensureOne_eq]
  exact ask_eq (qubitIsZero_real env q) _

theorem bassert_eq (ps : List Pauli) (qs : List ℕ) (result : ℕ) (prob : ℝ) (msg : List Char) (tol : ℝ) (s : GBackend ℝ) :
    Back.assertProb env ps qs result prob msg tol (toB s) =
      conv toB (B.assertProb N (realLib fmt) ps qs result prob msg tol s) :=
  cbind (mapToZ_eq env ps qs s) fun r => cbind (ask_eq (jointProbability_real env _) r.2) fun _ =>
    cif decide_eq_true_iff rfl (unmapFromZ_eq env r.1 _)

theorem bdump_eq (location : Bool) (s : GBackend ℝ) :
    Back.dumpMachine env fmt location (toB s) = conv toBP (B.dumpMachine N (realLib fmt) location s) :=
  cif Iff.rfl rfl (cbind (ask_eq (dump_real env fmt.amplitude) s) fun _ => rfl)

theorem brecorded_eq (r : ℕ) (s : GBackend ℝ) : Back.recordedResult r (toB s) = conv toBP (B.recordedResult r s) := by
  refine cif Iff.rfl rfl ?_
  show (match (Back.grow r s.res)[r]? with | some b => _ | none => _) = conv toBP (match (Back.grow r s.res)[r]? with | some b => _ | none => _)
  cases (Back.grow r s.res)[r]? <;> rfl

theorem bread_eq (r : ℕ) (s : GBackend ℝ) : Back.readResult r (toB s) = conv toBP (B.readResult r s) := by
  show (match (Back.grow r s.res)[r]? with | some b => _ | none => _) = conv toBP (match (Back.grow r s.res)[r]? with | some b => _ | none => _)
  cases (Back.grow r s.res)[r]? <;> rfl

theorem silent_eq {r : Except GStop (GBackend ℝ)} {r' : Except Back.Stop Back.Backend} (h : r' = conv toB r) :
    Back.silent r' = conv toAnswer (silent r) := cbind h fun _ => rfl

/-- Every call. -/
theorem qstep_real (c : Spec.QCall) (s : GBackend ℝ) :
    Back.qstep env fmt c (toB s) = conv toAnswer (qstep N (realLib fmt) (ofQCall c) s) := by
  cases c with
  | gate g q => exact silent_eq (bgate_eq env g q s)
  | ctl g cs q => exact silent_eq (bctl_eq env g cs q s)
  | sx q => exact silent_eq (bsx_eq env q s)
  | rxx θ a b => exact silent_eq (brxx_eq env θ a b s)
  | ryy θ a b => exact silent_eq (bryy_eq env θ a b s)
  | rzz θ a b => exact silent_eq (brzz_eq env θ a b s)
  | r p θ q => exact silent_eq (br_eq env p θ q s)
  | rAdj p θ q => exact silent_eq (br_eq env p (-θ) q s)
  | rCtl cs p θ q => exact silent_eq (brCtl_eq env cs p θ q s)
  | rCtlAdj cs p θ q => exact silent_eq (brCtl_eq env cs p (-θ) q s)
  | exp ps θ qs => exact silent_eq (bexp_eq env ps θ qs s)
  | expAdj ps θ qs => exact silent_eq (bexp_eq env ps (-θ) qs s)
  | expCtl cs ps θ qs => exact silent_eq (bexpCtl_eq env cs ps θ qs s)
  | expCtlAdj cs ps θ qs => exact silent_eq (bexpCtl_eq env cs ps (-θ) qs s)
  | swap a b => exact silent_eq (bswap_eq env a b s)
  | reset q => exact silent_eq (breset_eq env q s)
  | mresetz q r => exact silent_eq (bmresetz_eq env q r s)
  | mz q r => exact silent_eq (bmz_eq env q r s)
  | readResult r => exact cbind (bread_eq r s) fun _ => rfl
  | writeResult v r => rfl
  | m q => exact cbind (bm_eq env q s) fun _ => rfl
  | measure ps qs => exact cbind (bmeasure_eq env ps qs s) fun _ => rfl
  | isZero q => exact cbind (bisZero_eq env q s) fun _ => rfl
  | assertProb ps qs result prob msg tol => exact silent_eq (bassert_eq env fmt ps qs result prob msg tol s)
  | allocate => rfl
  | release q => exact silent_eq (act_eq (release_real env q) s)
  | recordResult r tag => exact cbind (brecorded_eq r s) fun _ => rfl
  | legacyResult r => exact cbind (brecorded_eq r s) fun _ => rfl
  | record e h => rfl
  | legacy e h => rfl
  | fail msg => rfl
  | dump location => exact cbind (bdump_eq env fmt location s) fun _ => rfl
  | barrier => rfl
  | reinit => rfl
  | drawInt a b =>
    show (match Std.drawRandomInt a b (s.os 0) (s.os 1) with | .ok n => _ | .error _ => _) =
      conv toAnswer (match Std.drawRandomInt a b (s.os 0) (s.os 1) with | .ok n => _ | .error _ => _)
    cases Std.drawRandomInt a b (s.os 0) (s.os 1) <;> rfl
  | drawDouble a b =>
    simp only [Back.qstep, ofQCall, qstep, Std.drawRandomDouble]
    by_cases h : b < a
    · rw [if_pos h, if_pos (show (N).lt b a = true from decide_eq_true h)]
      rfl
    · rw [if_neg h, if_neg (show ¬ (N).lt b a = true from fun h' => h (of_decide_eq_true h'))]
      rfl

theorem step_real (c : Spec.QCall) (s : GBackend ℝ) :
    Back.step env fmt c (toB s) = (step N (realLib fmt) (ofQCall c) s).map toAnswer := by
  unfold Back.step step
  rw [qstep_real]
  cases qstep N (realLib fmt) (ofQCall c) s with
  | ok r => rfl
  | error e => cases e <;> rfl

/-! ### The runner -/

theorem runProg_real (p : Run.Prog Spec.QCall Spec.QAns) : ∀ (s : GBackend ℝ) (io : Out.Io),
    Run.runProg (Back.step env fmt) p (toB s) io = (Run.runProg (step N (realLib fmt)) (ofProg p) s io).map toEnd := by
  induction p with
  | done => intro s io; rfl
  | call c k ih =>
    intro s io
    simp only [Run.runProg, ofProg, step_real]
    cases step N (realLib fmt) (ofQCall c) s with
    | error out => rfl
    | ok r => exact ih (toAns r.1) r.2.2 (io.write r.2.1)

theorem runShot_real (b : Bool) (f : Run.Func) (p : Run.Prog Spec.QCall Spec.QAns) (s : GBackend ℝ) (io : Out.Io) :
    Run.runShot (Back.step env fmt) Back.reinit b f p (toB s) io =
      (Run.runShot (step N (realLib fmt)) (reinit N) b f (ofProg p) s io).map toEnd := by
  unfold Run.runShot
  have hi : Back.reinit (toB s) = toB (reinit N s) := rfl
  simp only [hi, runProg_real]
  by_cases hp : f.params = 0
  · simp only [hp, if_true]
    cases Run.runProg (step N (realLib fmt)) (ofProg p) (reinit N s) _ <;> rfl
  · simp only [hp, if_false]
    rfl

theorem runShots_real (b : Bool) (f : Run.Func) (p : Run.Prog Spec.QCall Spec.QAns) (n : ℕ) : ∀ (s : GBackend ℝ) (io : Out.Io),
    Run.runShots (Back.step env fmt) Back.reinit b f p n (toB s) io =
      (Run.runShots (step N (realLib fmt)) (reinit N) b f (ofProg p) n s io).map toEnd := by
  induction n with
  | zero => intro s io; rfl
  | succ n ih =>
    intro s io
    simp only [Run.runShots, runShot_real]
    cases Run.runShot (step N (realLib fmt)) (reinit N) b f (ofProg p) s io with
    | error e => rfl
    | ok r => exact ih r.1 r.2

theorem runModule_real (b : Bool) (fs : List Run.Func) (code : Run.Func → Run.Prog Spec.QCall Spec.QAns)
    (name : Option String) (n : ℕ) (s : GBackend ℝ) (io : Out.Io) :
    Run.runModule (Back.step env fmt) Back.reinit b fs code name n (toB s) io =
      (Run.runModule (step N (realLib fmt)) (reinit N) b fs (fun f => ofProg (code f)) name n s io).map toEnd := by
  unfold Run.runModule
  cases Run.bindFunctions fs with
  | error e => rfl
  | ok m =>
    cases Run.chooseEntryPoint fs name with
    | error e => rfl
    | ok f => exact runShots_real env fmt b f (code f) n s io

end Gen
end Qir
