import Verif.Props.BackDefs
import Verif.Props.Output
import Verif.Proof.PauliBasis
import Verif.Proof.Local

/-! The backend refines the ideal device. -/

noncomputable section
namespace Qir.Back
open Spec Function Sim Qir.Out

/-- The quantum part of a device. -/
def ideal (δ : Device) : Ideal := ⟨δ.live, δ.psi, δ.rng⟩

/-- The backend `s` stands for the device `δ`. -/
structure QRef (s : Backend) (δ : Device) : Prop where
  sim : Refines s.sim (ideal δ)
  high : s.max = δ.high
  low : ∀ q ∈ δ.live, q < δ.high
  reg : ∀ r, s.reg r = δ.reg r
  touched : s.res.isEmpty = !δ.touched

variable {env : Env} {s : Backend} {δ : Device}

/-! ### Bringing qubits into use -/

theorem allocate_ref (he : env.eps = 0) {m : Sim} {σ : Ideal} (h : Refines m σ) :
    Refines m.allocate.2 (σ.step .allocate) := by
  obtain ⟨d, o, s', h1, h2, _, h4⟩ := refine_call he h (c := .allocate) trivial
  cases h2
  simp only [call, Except.ok.injEq, Prod.mk.injEq] at h1
  rw [h1.2]; exact h4

theorem fresh_range (n : ℕ) : sInf {k | k ∉ Finset.range n} = n := by
  have : {k | k ∉ Finset.range n} = Set.Ici n := by ext k; simp
  rw [this, csInf_Ici]

theorem ensure_lt {q : ℕ} (h : q < s.max) : ensure q s = s := by
  rw [ensure, if_neg (by omega)]

theorem ensure_range (he : env.eps = 0) {q : ℕ} : ∀ (n : ℕ) {s : Backend} {δ : Device}, QRef s δ →
    δ.live = Finset.range δ.high → q + 1 - s.max = n →
    QRef (ensure q s) (if q < δ.high then δ else { δ with live := Finset.range (q + 1), high := q + 1 }) := by
  intro n
  induction n with
  | zero =>
    intro s δ h _ hn
    have hlt : q < s.max := by omega
    rw [ensure_lt hlt, if_pos (h.high ▸ hlt)]; exact h
  | succ n ih =>
    intro s δ h hl hn
    have hmax : q + 1 > s.max := by omega
    rw [ensure, if_pos hmax]
    have hr := allocate_ref he h.sim
    have hf : (ideal δ).fresh = δ.high := by
      show sInf {k | k ∉ δ.live} = _
      rw [hl]; exact fresh_range _
    have hnew : QRef { s with sim := s.sim.allocate.2, max := s.max + 1 }
        { δ with live := Finset.range (δ.high + 1), high := δ.high + 1 } := by
      refine ⟨?_, by rw [h.high], fun q hq => Finset.mem_range.1 hq, h.reg, h.touched⟩
      have e : ideal { δ with live := Finset.range (δ.high + 1), high := δ.high + 1 } =
          (ideal δ).step .allocate := by
        have e1 : Finset.range (δ.high + 1) = insert (ideal δ).fresh δ.live := by
          rw [hf, hl, Finset.range_add_one]
        simp only [ideal, Ideal.step]
        rw [e1]; rfl
      rw [e]; exact hr
    have := ih hnew rfl (by show q + 1 - (s.max + 1) = n; omega)
    have hh := h.high
    rw [if_neg (by omega)]
    by_cases hq : q < δ.high + 1
    · have : q = δ.high := by omega
      subst this
      simpa using this
    · simpa [hq] using this

theorem ensure_ref (he : env.eps = 0) (h : QRef s δ) {q : ℕ} (hq : δ.Usable q) : QRef (ensure q s) (δ.use q) := by
  rcases hq with hq | ⟨hl, _⟩
  · have := h.low q hq
    rw [ensure_lt (h.high ▸ this), Device.use, if_pos this]; exact h
  · exact ensure_range he _ h hl rfl

theorem use_low (hl : ∀ q ∈ δ.live, q < δ.high) (q : ℕ) : ∀ i ∈ (δ.use q).live, i < (δ.use q).high := by
  unfold Device.use
  split
  · exact hl
  · intro i hi; exact Finset.mem_range.1 hi

theorem usable_use (hl : ∀ q ∈ δ.live, q < δ.high) {q i : ℕ} (hq : δ.Usable q) (hi : δ.Usable i) :
    (δ.use q).Usable i := by
  unfold Device.use
  split
  · exact hi
  · rename_i hh
    by_cases h : i < q + 1
    · exact .inl (Finset.mem_range.2 h)
    · exact .inr ⟨rfl, by show q + 1 ≤ i; omega⟩

theorem mem_use (hl : ∀ q ∈ δ.live, q < δ.high) {q : ℕ} (hq : δ.Usable q) : q ∈ (δ.use q).live := by
  unfold Device.use
  split
  · rcases hq with hq | ⟨_, hq⟩
    · exact hq
    · omega
  · exact Finset.mem_range.2 (by omega)

theorem live_use (hl : ∀ q ∈ δ.live, q < δ.high) {q i : ℕ} (hi : i ∈ δ.live) : i ∈ (δ.use q).live := by
  unfold Device.use
  split
  · exact hi
  · have := hl i hi
    exact Finset.mem_range.2 (by omega)

theorem use_psi (q : ℕ) : (δ.use q).psi = δ.psi := by unfold Device.use; split <;> rfl
theorem use_rng (q : ℕ) : (δ.use q).rng = δ.rng := by unfold Device.use; split <;> rfl
theorem use_reg (q : ℕ) : (δ.use q).reg = δ.reg := by unfold Device.use; split <;> rfl
theorem use_touched (q : ℕ) : (δ.use q).touched = δ.touched := by unfold Device.use; split <;> rfl

theorem useAll_cons (q : ℕ) (qs : List ℕ) (δ : Device) : δ.useAll (q :: qs) = (δ.use q).useAll qs := rfl
theorem ensureAll_cons (q : ℕ) (qs : List ℕ) (s : Backend) : ensureAll (q :: qs) s = ensureAll qs (ensure q s) := rfl

theorem useAll_append (a b : List ℕ) (δ : Device) : δ.useAll (a ++ b) = (δ.useAll a).useAll b := by
  simp [Device.useAll]

theorem useAll_psi (qs : List ℕ) : ∀ δ : Device, (δ.useAll qs).psi = δ.psi := by
  induction qs with
  | nil => intro δ; rfl
  | cons q qs ih => intro δ; rw [useAll_cons, ih, use_psi]

theorem useAll_rng (qs : List ℕ) : ∀ δ : Device, (δ.useAll qs).rng = δ.rng := by
  induction qs with
  | nil => intro δ; rfl
  | cons q qs ih => intro δ; rw [useAll_cons, ih, use_rng]

/-- Bringing several qubits into use. -/
theorem ensureAll_ref (he : env.eps = 0) (qs : List ℕ) : ∀ {s : Backend} {δ : Device}, QRef s δ →
    (∀ i ∈ qs, δ.Usable i) → QRef (ensureAll qs s) (δ.useAll qs) ∧ (∀ i ∈ qs, i ∈ (δ.useAll qs).live) ∧
      (∀ i ∈ δ.live, i ∈ (δ.useAll qs).live) ∧ ∀ i, δ.Usable i → (δ.useAll qs).Usable i := by
  induction qs with
  | nil => intro s δ h _; exact ⟨h, by simp, fun _ hi => hi, fun _ hi => hi⟩
  | cons q qs ih =>
    intro s δ h hu
    have hq := hu q List.mem_cons_self
    have h1 := ensure_ref he h hq
    obtain ⟨h2, h3, h4, h5⟩ := ih h1 (fun i hi => usable_use h.low hq (hu i (List.mem_cons_of_mem _ hi)))
    refine ⟨h2, ?_, fun i hi => h4 i (live_use h.low hi), fun i hi => h5 i (usable_use h.low hq hi)⟩
    intro i hi
    rcases List.mem_cons.1 hi with rfl | hi
    · exact h4 _ (mem_use h.low hq)
    · exact h3 i hi

theorem ensure_rxQ (q : ℕ) : ∀ (n : ℕ) {s : Backend}, q + 1 - s.max = n → (ensure q s).sim.rxQ = s.sim.rxQ := by
  intro n
  induction n with
  | zero => intro s hn; rw [ensure_lt (by omega)]
  | succ n ih =>
    intro s hn
    rw [ensure, if_pos (by omega), ih (by show q + 1 - (s.max + 1) = n; omega)]
    rfl

/-! ### Gates on qubits in use -/

/-- A gate-like call of the simulator. -/
theorem act_ref (he : env.eps = 0) (h : QRef s δ) {c : Call} (hg : c.IsGate) (hv : c.ValidOn δ.live)
    (hok : CallOk s.sim c) {f : Sim → Except Panic Sim} (hf : Sim.call env c s.sim = quiet (f s.sim)) :
    ∃ s', act f s = .ok s' ∧ QRef s' { δ with psi := c.op δ.psi } := by
  obtain ⟨d, o, m, h1, h2, h3, h4⟩ := refine_call he h.sim (c := c) hv
  have hd := h2.eq hok
  subst hd
  rw [hf] at h1
  have := quiet_ok h1
  refine ⟨{ s with sim := m }, by simp only [act, this, lift, ok_bind, pure_ok], ?_, h.high, h.low, h.reg, h.touched⟩
  have e : (ideal δ).step d = { ideal δ with psi := d.op (ideal δ).psi } := by
    cases d <;> first | rfl | exact hg.elim
  rw [e] at h4; exact h4

theorem x_ref (he : env.eps = 0) (h : QRef s δ) {q : ℕ} (hq : q ∈ δ.live) :
    ∃ s', act (x q) s = .ok s' ∧ QRef s' { δ with psi := ctrl [] matX q δ.psi } :=
  act_ref he h (c := .gate .x q) trivial hq trivial rfl

theorem h_ref (he : env.eps = 0) (h : QRef s δ) {q : ℕ} (hq : q ∈ δ.live) :
    ∃ s', act (Sim.h env q) s = .ok s' ∧ QRef s' { δ with psi := ctrl [] matH q δ.psi } :=
  act_ref he h (c := .gate .h q) trivial hq trivial rfl

theorem s_ref (he : env.eps = 0) (h : QRef s δ) {q : ℕ} (hq : q ∈ δ.live) :
    ∃ s', act (sGate env q) s = .ok s' ∧ QRef s' { δ with psi := ctrl [] matS q δ.psi } :=
  act_ref he h (c := .gate .s q) trivial hq trivial rfl

theorem sadj_ref (he : env.eps = 0) (h : QRef s δ) {q : ℕ} (hq : q ∈ δ.live) :
    ∃ s', act (sadj env q) s = .ok s' ∧ QRef s' { δ with psi := ctrl [] matSadj q δ.psi } :=
  act_ref he h (c := .gate .sadj q) trivial hq trivial rfl

theorem gate_live (he : env.eps = 0) (h : QRef s δ) {q : ℕ} (hq : q ∈ δ.live) (g : Gate)
    (hok : CallOk s.sim (.gate g q)) :
    ∃ s', gate env g q s = .ok s' ∧ QRef s' { δ with psi := ctrl [] g.mat q δ.psi } := by
  unfold gate
  rw [ensure_lt (h.high ▸ h.low q hq)]
  exact act_ref he h (c := .gate g q) trivial hq hok rfl

theorem gate_ref (he : env.eps = 0) (h : QRef s δ) {q : ℕ} (hq : δ.Usable q) (g : Gate)
    (hok : CallOk s.sim (.gate g q)) :
    ∃ s', gate env g q s = .ok s' ∧ QRef s' (δ.apply [q] (ctrl [] g.mat q)) := by
  obtain ⟨s', h1, h2⟩ := act_ref he (ensure_ref he h hq) (c := .gate g q) trivial (mem_use h.low hq)
    (by
      cases g <;> try trivial
      unfold CallOk PendingHalfTurn at hok ⊢
      rwa [ensure_rxQ q _ rfl]) (f := gateCall env q g) rfl
  refine ⟨s', h1, ?_⟩
  rw [use_psi] at h2; exact h2

theorem ctl_ref (he : env.eps = 0) (h : QRef s δ) {cs : List ℕ} {q : ℕ} (hn : (cs ++ [q]).Nodup)
    (hu : ∀ i ∈ cs ++ [q], δ.Usable i) (g : Gate) :
    ∃ s', ctl env g cs q s = .ok s' ∧ QRef s' (δ.apply (q :: cs) (ctrl cs g.mat q)) := by
  have h1 := ensureAll_ref he (q :: cs) h (by
    intro i hi
    apply hu
    rcases List.mem_cons.1 hi with rfl | hi <;> simp_all)
  obtain ⟨s', h2, h3⟩ := act_ref he h1.1 (c := .ctrl g cs q) trivial
    ⟨hn, fun i hi => h1.2.1 i (by simp only [List.mem_append, List.mem_singleton] at hi; simp; tauto)⟩ trivial
    (f := ctrlCall env cs q g) rfl
  refine ⟨s', h2, ?_⟩
  rw [useAll_psi] at h3; exact h3

end Qir.Back
