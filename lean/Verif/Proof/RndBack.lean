import Verif.Proof.RoundedBackExact
import Verif.Proof.RndFrame
import Verif.Proof.RndAngles
import Verif.Proof.Weigh
import Verif.Proof.Backend4

/-!
# The backend with rounded arithmetic, call by call

What a call does to the bookkeeping (`Like`) and to the state vector (`Moves`), whatever the random samples are.
-/

noncomputable section
namespace Qir.RBack
open Spec Sim Qir.Out Rnd
open Tol (Iso)
open Qir.Back (Backend Fmt Stop act ask ensure ensureAll lift silent forEach grow resultPtr nonIdentity ensureAll_cons
  useAll_cons use_psi)

variable {A : Arith} {N : ℕ} {B : ℝ} {s s' : Backend} {δ : Device}

/-- The backend with other samples. -/
def rs (r : ℕ → ℝ) (s : Backend) : Backend := { s with sim := rg r s.sim }

/-- The bookkeeping of `s` is that of `δ`. -/
structure Like (s : Backend) (δ : Device) : Prop where
  wf : Qir.WF s.sim
  live : ∀ q, q ∈ δ.live ↔ (s.sim.idMap.get q).isSome = true
  high : s.max = δ.high
  low : ∀ q ∈ δ.live, q < δ.high
  reg : ∀ r, s.reg r = δ.reg r
  touched : s.res.isEmpty = !δ.touched

theorem Like.psi (h : Like s δ) (ψ : Wave) : Like s { δ with psi := ψ } :=
  ⟨h.wf, h.live, h.high, h.low, h.reg, h.touched⟩

theorem Like.keys (h : Like s δ) : s.sim.idMap.keys.length = δ.live.card := by
  have h1 : s.sim.idMap.keys.toFinset = δ.live := by
    ext q
    rw [List.mem_toFinset, IMap.mem_keys, h.live]
  rw [← h1, List.toFinset_card_of_nodup (IMap.keys_nodup _)]

theorem Like.alloc (h : Like s δ) {ids : List ℕ} (hi : ∀ i ∈ ids, i ∈ δ.live) : Alloc s.sim.idMap ids :=
  fun i hm => (h.live i).1 (hi i hm)

theorem Like.fresh (h : Like s δ) : s.sim.allocate.1 = δ.fresh := by
  obtain ⟨h1, h2, _⟩ := allocate_spec h.wf
  have hmem : s.sim.allocate.1 ∈ {n | n ∉ δ.live} := by
    intro hc
    rw [h.live, h1] at hc; cases hc
  apply le_antisymm
  · apply le_csInf ⟨_, hmem⟩
    intro b hb
    by_contra hlt
    exact hb ((h.live b).2 (h2 b (not_le.1 hlt)))
  · exact Nat.sInf_le hmem

theorem Like.allocated (h : Like s δ) (q : ℕ) :
    q ∈ insert δ.fresh δ.live ↔ (s.sim.allocate.2.idMap.get q).isSome = true := by
  obtain ⟨_, _, _, h4, _⟩ := allocate_spec h.wf
  rw [h4, h.fresh, Finset.mem_insert, h.live]
  simp

/-- Everything but the bookkeeping is left alone. -/
structure Kept (A : Arith) (s s' : Backend) : Prop where
  abs : Rnd.abs A s'.sim = Rnd.abs A s.sim
  opQ : s'.sim.opQ = s.sim.opQ
  rxQ : s'.sim.rxQ = s.sim.rxQ
  ryQ : s'.sim.ryQ = s.sim.ryQ

theorem Kept.refl : Kept A s s := ⟨rfl, rfl, rfl, rfl⟩

theorem Kept.trans {s'' : Backend} (h : Kept A s s') (h' : Kept A s' s'') : Kept A s s'' :=
  ⟨h'.abs.trans h.abs, h'.opQ.trans h.opQ, h'.rxQ.trans h.rxQ, h'.ryQ.trans h.ryQ⟩

theorem Kept.low (h : Kept A s s') (hl : Low B s.sim) : Low B s'.sim := by
  unfold Low
  rw [h.rxQ, h.ryQ]
  exact hl

/-! ### Bringing qubits into use -/

theorem rs_ensure (r : ℕ → ℝ) (q : ℕ) : ∀ (n : ℕ) {s : Backend}, q + 1 - s.max = n →
    ensure q (rs r s) = rs r (ensure q s) := by
  intro n
  induction n with
  | zero =>
    intro s hn
    have h1 : ¬ q + 1 > s.max := by omega
    rw [ensure, ensure.eq_def q s, if_neg h1]
    exact if_neg h1
  | succ n ih =>
    intro s hn
    have h1 : q + 1 > s.max := by omega
    rw [ensure, ensure.eq_def q s, if_pos h1]
    rw [show (rs r s).max = s.max from rfl, if_pos h1]
    have h2 : q + 1 - (s.max + 1) = n := by omega
    exact ih (s := { s with sim := s.sim.allocate.2, max := s.max + 1 }) h2

theorem rs_ensureAll (r : ℕ → ℝ) (qs : List ℕ) : ∀ s : Backend, ensureAll qs (rs r s) = rs r (ensureAll qs s) := by
  induction qs with
  | nil => intro s; rfl
  | cons q qs ih => intro s; rw [ensureAll_cons, ensureAll_cons, rs_ensure r q _ rfl, ih]

theorem ensure_range {q : ℕ} : ∀ (n : ℕ) {s : Backend} {δ : Device}, Like s δ →
    δ.live = Finset.range δ.high → q + 1 - s.max = n →
    Like (ensure q s) (if q < δ.high then δ else { δ with live := Finset.range (q + 1), high := q + 1 }) ∧
      Kept A s (ensure q s) := by
  intro n
  induction n with
  | zero =>
    intro s δ h _ hn
    have hlt : q < s.max := by omega
    rw [Back.ensure_lt hlt, if_pos (h.high ▸ hlt)]; exact ⟨h, .refl⟩
  | succ n ih =>
    intro s δ h hl hn
    have hmax : q + 1 > s.max := by omega
    rw [ensure, if_pos hmax]
    have hfr : δ.fresh = δ.high := by
      show sInf {k | k ∉ δ.live} = _
      rw [hl]; exact Back.fresh_range _
    obtain ⟨hw, ha⟩ := allocate_abs (A := A) h.wf
    have hnew : Like { s with sim := s.sim.allocate.2, max := s.max + 1 }
        { δ with live := Finset.range (δ.high + 1), high := δ.high + 1 } := by
      refine ⟨hw, fun i => ?_, by rw [h.high], fun q hq => Finset.mem_range.1 hq, h.reg, h.touched⟩
      have e1 : Finset.range (δ.high + 1) = insert δ.fresh δ.live := by
        rw [hfr, hl, Finset.range_add_one]
      show i ∈ Finset.range (δ.high + 1) ↔ _
      rw [e1]
      exact h.allocated i
    have hk : Kept A s { s with sim := s.sim.allocate.2, max := s.max + 1 } := ⟨ha, rfl, rfl, rfl⟩
    obtain ⟨i1, i2⟩ := ih hnew rfl (by show q + 1 - (s.max + 1) = n; omega)
    refine ⟨?_, hk.trans i2⟩
    have hh := h.high
    rw [if_neg (by omega)]
    by_cases hq : q < δ.high + 1
    · have : q = δ.high := by omega
      subst this
      simpa using i1
    · simpa [hq] using i1

theorem Like.ensure (h : Like s δ) {q : ℕ} (hq : δ.Usable q) :
    Like (ensure q s) (δ.use q) ∧ Kept A s (Back.ensure q s) := by
  rcases hq with hq | ⟨hl, _⟩
  · have := h.low q hq
    rw [Back.ensure_lt (h.high ▸ this), Device.use, if_pos this]; exact ⟨h, .refl⟩
  · exact ensure_range _ h hl rfl

theorem Like.ensureAll (qs : List ℕ) : ∀ {s : Backend} {δ : Device}, Like s δ →
    (∀ i ∈ qs, δ.Usable i) → Like (ensureAll qs s) (δ.useAll qs) ∧ Kept A s (Back.ensureAll qs s) ∧
      (∀ i ∈ qs, i ∈ (δ.useAll qs).live) ∧ (∀ i ∈ δ.live, i ∈ (δ.useAll qs).live) ∧
      ∀ i, δ.Usable i → (δ.useAll qs).Usable i := by
  induction qs with
  | nil => intro s δ h _; exact ⟨h, .refl, by simp, fun _ hi => hi, fun _ hi => hi⟩
  | cons q qs ih =>
    intro s δ h hu
    have hq := hu q List.mem_cons_self
    obtain ⟨h1, k1⟩ := h.ensure (A := A) hq
    obtain ⟨h2, k2, h3, h4, h5⟩ := ih h1 (fun i hi => Back.usable_use h.low hq (hu i (List.mem_cons_of_mem _ hi)))
    refine ⟨h2, k1.trans k2, ?_, fun i hi => h4 i (Back.live_use h.low hi),
      fun i hi => h5 i (Back.usable_use h.low hq hi)⟩
    intro i hi
    rcases List.mem_cons.1 hi with rfl | hi
    · exact h4 _ (Back.mem_use h.low hq)
    · exact h3 i hi

/-! ### What a call does to the state vector -/

/-- The backend has gone from `s` to `s'`: the bookkeeping is that of `δ'`, the angles pending are at most `B`, and the
state vector has changed by `U`, at the cost of `k` passes. -/
structure Moves (A : Arith) (N : ℕ) (B : ℝ) (s s' : Backend) (δ' : Device) (U : Module.End ℂ Wave) (k : ℕ) : Prop where
  like : Like s' δ'
  low : Low B s'.sim
  near : ∃ e : ℂ, ‖e‖ = 1 ∧ Cost A N k s'.sim.opQ s.sim.opQ (Rnd.abs A s'.sim) (e • U (Rnd.abs A s.sim))

/-- The function `f` does that, whatever the samples are. -/
def Runs (A : Arith) (N : ℕ) (B : ℝ) (f : Backend → Except Stop Backend) (s : Backend) (δ' : Device)
    (U : Module.End ℂ Wave) (k : ℕ) : Prop :=
  ∃ s', (∀ r, f (rs r s) = .ok (rs r s')) ∧ Moves A N B s s' δ' U k

theorem Moves.refl (h : Like s δ) (hl : Low B s.sim) : Moves A N B s s δ 1 0 :=
  ⟨h, hl, 1, by simp, .of_eq (by rw [one_smul]; exact Rnd.finSupp_abs s.sim) (one_smul ℂ (Rnd.abs A s.sim)).symm⟩

theorem Moves.trans (hf : Fine A) {s'' : Backend} {δ' δ'' : Device} {U V : Module.End ℂ Wave} {k m : ℕ} {B' : ℝ}
    (h : Moves A N B s s' δ' U k) (h' : Moves A N B' s' s'' δ'' V m) (hV : Iso V) :
    Moves A N B' s s'' δ'' (V * U) (k + m) := by
  obtain ⟨e, he, hn⟩ := h.near
  obtain ⟨e', he', hn'⟩ := h'.near
  refine ⟨h'.like, h'.low, e' * e, by rw [norm_mul, he, he', one_mul], ?_⟩
  have h1 := (hn.map hV).smul he'
  rw [map_smul, smul_smul] at h1
  exact (hn'.trans h1 hf).mono (by omega)

theorem Moves.mono {δ' : Device} {U : Module.End ℂ Wave} {k m : ℕ} (h : Moves A N B s s' δ' U k) (hk : k ≤ m) :
    Moves A N B s s' δ' U m := by
  obtain ⟨e, he, hn⟩ := h.near
  exact ⟨h.like, h.low, e, he, hn.mono hk⟩

/-- Operators that differ in phase. -/
theorem Moves.phase {δ' : Device} {U V : Module.End ℂ Wave} {k : ℕ} (h : Moves A N B s s' δ' U k) {w : ℂ}
    (hw : ‖w‖ = 1) (hU : ∀ ψ, V ψ = w • U ψ) : Moves A N B s s' δ' V k := by
  obtain ⟨e, he, hn⟩ := h.near
  have hw0 : w ≠ 0 := by intro h0; rw [h0] at hw; simp at hw
  refine ⟨h.like, h.low, e * w⁻¹, by rw [norm_mul, norm_inv, he, hw]; norm_num, ?_⟩
  rw [hU, smul_smul, mul_assoc, inv_mul_cancel₀ hw0, mul_one]
  exact hn

theorem Moves.eq {δ' : Device} {U V : Module.End ℂ Wave} {k : ℕ} (h : Moves A N B s s' δ' U k)
    (hU : ∀ ψ, V ψ = U ψ) : Moves A N B s s' δ' V k :=
  h.phase (w := 1) (by simp) (fun ψ => by rw [hU, one_smul])

theorem Kept.moves {s'' : Backend} {δ' : Device} {U : Module.End ℂ Wave} {k : ℕ} (hk : Kept A s s')
    (h : Moves A N B s' s'' δ' U k) : Moves A N B s s'' δ' U k := by
  obtain ⟨e, he, hn⟩ := h.near
  rw [hk.abs, hk.opQ] at hn
  exact ⟨h.like, h.low, e, he, hn⟩

theorem Cost.widen (hf : Fine A) {n n' d : ℕ} {q q' : Queue} {ψ φ : Wave} (h : Cost A n d q' q ψ φ) (hn : n ≤ n') :
    Cost A n' d q' q ψ φ := by
  obtain ⟨e, h1, h2⟩ := h
  exact ⟨e, h1, h2.widen hf hn⟩

/-- A method of the simulator. -/
theorem act_runs (hf : Fine A) (h : Like s δ) (hc : δ.live.card ≤ N) {f : Sim → Except Panic Sim}
    (hr : ∀ r, Rnd.Rel r (f s.sim) (f (rg r s.sim))) {m : Sim} (hm : f s.sim = .ok m) {U : Module.End ℂ Wave} {k : ℕ}
    (hs : Rnd.Step A s.sim m U k) (hl : Low B m) : Runs A N B (act f) s δ U k := by
  refine ⟨{ s with sim := m }, fun r => ?_, ⟨?_, hl, ?_⟩⟩
  · have := hr r
    unfold Rnd.Rel at this
    rw [hm] at this
    unfold act
    rw [show (rs r s).sim = rg r s.sim from rfl, this]
    rfl
  · exact ⟨hs.wf, fun q => by rw [h.live, show (({ s with sim := m } : Backend).sim.idMap) = m.idMap from rfl, hs.idMap],
      h.high, h.low, h.reg, h.touched⟩
  · obtain ⟨c, hc', hn⟩ := hs.near
    exact ⟨c, hc', Cost.widen hf hn (by rw [h.keys]; exact hc)⟩

theorem post_quiet {f : Except Panic Sim} {m : Sim} {P : Sim → Prop}
    (h : Post (fun p : Out × Sim => P p.2) (Sim.quiet f)) (hm : f = .ok m) : P m := by
  rw [hm] at h
  exact h _ rfl

/-- A gate of the simulator on a qubit in use. -/
theorem gateCall_runs (hf : Fine A) (h : Like s δ) (hc : δ.live.card ≤ N) (hB : 0 ≤ B) (hl : Low B s.sim) {q : ℕ}
    (hq : q ∈ δ.live) (g : Gate) (ht : A.u * (B + (Call.gate g q).turn A) + A.eta ≤ A.eps)
    (hh : ∀ θ, g = .ry θ → ¬ Rnd.HalfTurn A (s.sim.rxQ.get q)) :
    Runs A N (B + (Call.gate g q).turn A) (act (gateCall A q g)) s δ (gateL g.mat q) 6 := by
  obtain ⟨ha, hp⟩ := low_call (hf.pos.le) hB hl (.gate g q) ht
  obtain ⟨g', m, h1, h2, h3⟩ := gateCall_near hf h.wf ((h.live q).1 hq) g ha
  have hg : g' = g := by
    unfold Rnd.carriedOut at h1
    split at h1
    · rename_i θ q' heq
      injection heq with e1 e2
      subst e1 e2
      rw [if_neg (show ¬ ∃ b, s.sim.rxQ.get q = some b ∧ |A.cos (b / 2)| ≤ A.eps from hh θ rfl)] at h1
      injection h1 with e1
      exact e1.symm
    · injection h1 with e1
      exact e1.symm
  subst hg
  exact act_runs hf h hc (fun r => rel_gateCall q g') h2 h3 (post_quiet hp h2)

/-- The bound on pending angles that goes with gates that do not add to them. -/
theorem turn_zero (g : Gate) (q : ℕ) (h : ∀ θ, g ≠ .rx θ ∧ g ≠ .ry θ) : (Call.gate g q).turn A = 0 := by
  cases g <;> first | rfl | exact absurd rfl (h _).1 | exact absurd rfl (h _).2

theorem gateCall_plain (hf : Fine A) (h : Like s δ) (hc : δ.live.card ≤ N) (hB : 0 ≤ B) (hl : Low B s.sim) {q : ℕ}
    (hq : q ∈ δ.live) (g : Gate) (ht : A.u * B + A.eta ≤ A.eps) (hg : ∀ θ, g ≠ .rx θ ∧ g ≠ .ry θ) :
    Runs A N B (act (gateCall A q g)) s δ (gateL g.mat q) 6 := by
  have h0 := turn_zero (A := A) g q hg
  have := gateCall_runs hf h hc hB hl hq g (by rw [h0, add_zero]; exact ht) (fun θ hθ => absurd hθ (hg θ).2)
  rw [h0, add_zero] at this
  exact this

/-! ### Gates -/

theorem Runs.first {f : Backend → Except Stop Backend} {δ' : Device} {U : Module.End ℂ Wave} {k : ℕ} {qs : List ℕ}
    (hk : Kept A s (ensureAll qs s)) (h : Runs A N B f (ensureAll qs s) δ' U k) :
    Runs A N B (fun s => f (ensureAll qs s)) s δ' U k := by
  obtain ⟨s', h1, h2⟩ := h
  exact ⟨s', fun r => (congrArg f (rs_ensureAll r qs s)).trans (h1 r), hk.moves h2⟩

theorem card_use (hl : ∀ q ∈ δ.live, q < δ.high) (q : ℕ) : δ.live.card ≤ (δ.use q).live.card :=
  Finset.card_le_card fun _ hi => Back.live_use hl hi

theorem gate_runs (hf : Fine A) (h : Like s δ) (hB : 0 ≤ B) (hl : Low B s.sim) {q : ℕ} (hq : δ.Usable q)
    (hc : (δ.use q).live.card ≤ N) (g : Gate) (ht : A.u * (B + (Call.gate g q).turn A) + A.eta ≤ A.eps)
    (hh : ∀ θ, g = .ry θ → ¬ Rnd.HalfTurn A (s.sim.rxQ.get q)) :
    Runs A N (B + (Call.gate g q).turn A) (gate A g q) s (δ.use q) (gateL g.mat q) 6 := by
  obtain ⟨h1, k1⟩ := h.ensure (A := A) hq
  exact Runs.first (qs := [q]) k1 (gateCall_runs hf h1 hc hB (k1.low hl) (Back.mem_use h.low hq) g ht
    (fun θ hθ => by rw [k1.rxQ]; exact hh θ hθ))

theorem gate_plain (hf : Fine A) (h : Like s δ) (hB : 0 ≤ B) (hl : Low B s.sim) {q : ℕ} (hq : δ.Usable q)
    (hc : (δ.use q).live.card ≤ N) (g : Gate) (ht : A.u * B + A.eta ≤ A.eps) (hg : ∀ θ, g ≠ .rx θ ∧ g ≠ .ry θ) :
    Runs A N B (gate A g q) s (δ.use q) (gateL g.mat q) 6 := by
  obtain ⟨h1, k1⟩ := h.ensure (A := A) hq
  exact Runs.first (qs := [q]) k1 (gateCall_plain hf h1 hc hB (k1.low hl) (Back.mem_use h.low hq) g ht hg)

theorem ctrlCall_low {cs : List ℕ} {q : ℕ} {g : Gate} {m : Sim} (hf : Fine A) (hB : 0 ≤ B) (hl : Low B s.sim)
    (ht : A.u * B + A.eta ≤ A.eps) (hm : ctrlCall A cs q g s.sim = .ok m) : Low B m := by
  have := (low_call hf.pos.le hB hl (.ctrl g cs q) (by rw [show (Call.ctrl g cs q).turn A = 0 from rfl, add_zero]; exact ht)).2
  have := post_quiet this hm
  rwa [show (Call.ctrl g cs q).turn A = 0 from rfl, add_zero] at this

theorem ctl_runs (hf : Fine A) (h : Like s δ) (hB : 0 ≤ B) (hl : Low B s.sim) {cs : List ℕ} {q : ℕ}
    (hn : (cs ++ [q]).Nodup) (hu : ∀ i ∈ cs ++ [q], δ.Usable i) (hc : (δ.useAll (q :: cs)).live.card ≤ N) (g : Gate)
    (ht : A.u * B + A.eta ≤ A.eps) :
    Runs A N B (ctl A g cs q) s (δ.useAll (q :: cs)) (ctrlL cs g.mat q) (5 * cs.length + 7) := by
  obtain ⟨h1, k1, l1, _⟩ := h.ensureAll (A := A) (q :: cs) (fun i hi => hu i (by
    rcases List.mem_cons.1 hi with rfl | hi <;> simp_all))
  have hok : OpndsOk (ensureAll (q :: cs) s).sim.idMap cs q :=
    ⟨hn, h1.alloc fun i hi => l1 i (by simp only [List.mem_append, List.mem_singleton] at hi; simp; tauto)⟩
  obtain ⟨m, h2, h3⟩ := ctrlCall_near hf h1.wf hok g
  exact Runs.first (qs := q :: cs) k1 (act_runs hf h1 hc (fun r => rel_ctrlCall cs q g) h2 h3
    (ctrlCall_low hf hB (k1.low hl) ht h2))

end Qir.RBack
