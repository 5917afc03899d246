import Verif.Props.GenericBackDefs
import Verif.Proof.Generic4
import Verif.Proof.Backend3
import Verif.Proof.BackFrame

/-! # The backend under an arbitrary arithmetic -/

namespace Qir
namespace Gen
open Spec (Pauli)
open Qir.Out
open Qir.Back (grow resultPtr resultEqual nonIdentity)

variable {F : Type} {N : Num F} {lib : Lib F}

theorem Sound.books {L : Finset ℕ} {s : GSim F} (h : Sound L s) : Books L s where
  inv :=
    { core := ⟨h.apart, h.distinct, fun e he l hl => by
        obtain ⟨q, _, hq⟩ := h.placed e he l hl
        exact ⟨q, hq⟩⟩
      ops := fun op hop => ⟨(h.named op hop).1, fun i hi => (h.ids i).2 ((h.named op hop).2 i hi)⟩
      bound := h.room
      h := fun q hq => (h.ids q).2 (h.pending q (.inl hq))
      rx := fun q hq => (h.ids q).2 (h.pending q (.inr (.inl hq)))
      ry := fun q hq => (h.ids q).2 (h.pending q (.inr (.inr hq))) }
  ids := h.ids

namespace Kept

variable {δ : Ledger F} {s : GBackend F}

theorem books (h : Kept δ s) : Books δ.live s.sim := h.sim.books

end Kept

/-! ### Qubits on demand -/

namespace Ledger
variable {δ : Ledger F}

/-- All qubits in use are below the mark. -/
def Low (δ : Ledger F) : Prop := ∀ q ∈ δ.live, q < δ.high

theorem use_low (h : δ.Low) (q : ℕ) : (δ.use q).Low := by
  unfold use
  split
  · exact h
  · intro i hi
    simpa using hi

theorem mem_use (_ : δ.Low) {q : ℕ} (hq : δ.Usable q) : q ∈ (δ.use q).live := by
  unfold use
  split
  · rename_i hlt
    rcases hq with hq | ⟨_, hq⟩
    · exact hq
    · omega
  · simp

theorem use_mem {q : ℕ} (h : δ.Low) (hq : q ∈ δ.live) : δ.use q = δ := by
  unfold use
  rw [if_pos (h q hq)]

theorem mem_use_of_mem (h : δ.Low) {q i : ℕ} (hi : i ∈ δ.live) : i ∈ (δ.use q).live := by
  unfold use
  split
  · exact hi
  · have := h i hi
    simp only [Finset.mem_range]
    omega

theorem use_usable (h : δ.Low) {q i : ℕ} (_ : δ.Usable q) (hi : δ.Usable i) : (δ.use q).Usable i := by
  rcases hi with hi | ⟨h1, h2⟩
  · exact .inl (mem_use_of_mem h hi)
  · unfold use
    split
    · exact .inr ⟨h1, h2⟩
    · rename_i hlt
      rcases lt_or_ge i (q + 1) with h' | h'
      · exact .inl (by simpa using h')
      · exact .inr ⟨rfl, h'⟩

theorem useAll_cons (q : ℕ) (qs : List ℕ) : δ.useAll (q :: qs) = (δ.use q).useAll qs := rfl

theorem useAll_append (ps qs : List ℕ) : δ.useAll (ps ++ qs) = (δ.useAll ps).useAll qs := List.foldl_append

theorem mem_useAll_of_mem (qs : List ℕ) : ∀ {δ : Ledger F}, δ.Low → ∀ {i : ℕ}, i ∈ δ.live → i ∈ (δ.useAll qs).live := by
  induction qs with
  | nil => intro δ _ i hi; exact hi
  | cons q qs ih => intro δ h i hi; exact ih (use_low h q) (mem_use_of_mem h hi)

theorem mem_useAll (qs : List ℕ) : ∀ {δ : Ledger F}, δ.Low → (∀ i ∈ qs, δ.Usable i) → ∀ i ∈ qs, i ∈ (δ.useAll qs).live := by
  induction qs with
  | nil => intro δ _ _ i hi; cases hi
  | cons q qs ih =>
    intro δ h hu i hi
    have hq := hu q (by simp)
    rcases List.mem_cons.1 hi with rfl | hi
    · exact mem_useAll_of_mem qs (use_low h i) (mem_use h hq)
    · exact ih (use_low h q) (fun j hj => use_usable h hq (hu j (by simp [hj]))) i hi

theorem useAll_low (qs : List ℕ) : ∀ {δ : Ledger F}, δ.Low → (δ.useAll qs).Low := by
  induction qs with
  | nil => intro δ h; exact h
  | cons q qs ih => intro δ h; exact ih (use_low h q)

theorem useAll_usable (qs : List ℕ) : ∀ {δ : Ledger F}, δ.Low → (∀ i ∈ qs, δ.Usable i) → ∀ {i : ℕ}, δ.Usable i →
    (δ.useAll qs).Usable i := by
  induction qs with
  | nil => intro δ _ _ i hi; exact hi
  | cons q qs ih =>
    intro δ h hu i hi
    have hq := hu q (by simp)
    exact ih (use_low h q) (fun j hj => use_usable h hq (hu j (by simp [hj]))) (use_usable h hq hi)

theorem use_rng (q : ℕ) : (δ.use q).rng = δ.rng := by
  unfold use
  split <;> rfl

theorem useAll_rng (qs : List ℕ) : ∀ {δ : Ledger F}, (δ.useAll qs).rng = δ.rng := by
  induction qs with
  | nil => intro δ; rfl
  | cons q qs ih => intro δ; rw [useAll_cons, ih, use_rng]

theorem least_range (n : ℕ) : leastFree (Finset.range n) = n :=
  leastFree_unique (by simp) (fun j hj => by simpa using hj)

end Ledger

open Ledger

theorem allocate_books {L : Finset ℕ} {s : GSim F} (N : Num F) (h : Books L s) :
    (allocate s).1 = leastFree L ∧ Books (insert (leastFree L) L) (allocate s).2 ∧ (allocate s).2.rng = s.rng := by
  obtain ⟨o, s', h1, h2, h3, h4⟩ := call_goes (N := N) h .allocate trivial
  have h1' : (GOut.id (allocate s).1, (allocate s).2) = (o, s') := by
    have : call N .allocate s = .ok (.id (allocate s).1, (allocate s).2) := rfl
    rw [this] at h1
    exact Except.ok.inj h1
  obtain ⟨rfl, rfl⟩ := Prod.mk.inj h1'
  have h2' : GOut.id (F := F) (allocate s).1 = .id (leastFree L) := h2
  exact ⟨by injection h2', h3, h4⟩

theorem ensure_more (N : Num F) (q : ℕ) : ∀ (n : ℕ) {δ : Ledger F} {s : GBackend F}, Kept δ s →
    δ.live = Finset.range δ.high → q + 1 - δ.high = n → δ.high ≤ q + 1 →
    Kept { δ with live := Finset.range (q + 1), high := q + 1 } (ensure q s) := by
  intro n
  induction n with
  | zero =>
    intro δ s h hl hn hle
    have : q + 1 = δ.high := by omega
    unfold ensure
    rw [if_neg (by rw [h.high]; omega), this, ← hl]
    exact h
  | succ n ih =>
    intro δ s h hl hn hle
    unfold ensure
    rw [if_pos (by rw [h.high]; omega)]
    obtain ⟨_, h2, h3⟩ := allocate_books N h.books
    have hf : leastFree δ.live = δ.high := by rw [hl, least_range]
    rw [hf] at h2
    have hins : insert δ.high δ.live = Finset.range (δ.high + 1) := by rw [hl, Finset.range_add_one]
    have h1 : Kept { δ with live := Finset.range (δ.high + 1), high := δ.high + 1 }
        { s with sim := (allocate s.sim).2, max := s.max + 1 } :=
      { sim := by
          have := h2.sound
          rwa [hins] at this
        rng := h3.trans h.rng
        os := h.os
        high := by simp only [h.high]
        below := fun i hi => by simpa using hi
        size := h.size
        reg := h.reg }
    have h4 := ih h1 rfl (by simp only; omega) (by simp only; omega)
    exact h4

theorem ensure_kept {δ : Ledger F} {s : GBackend F} (N : Num F) (h : Kept δ s) {q : ℕ} (hq : δ.Usable q) :
    Kept (δ.use q) (ensure q s) := by
  unfold use
  split
  · rename_i hlt
    unfold ensure
    rw [if_neg (by rw [h.high]; omega)]
    exact h
  · rename_i hlt
    rcases hq with hq | ⟨hq, _⟩
    · exact absurd (h.below q hq) hlt
    · exact ensure_more N q _ h hq rfl (by omega)

theorem ensureAll_kept (N : Num F) (qs : List ℕ) : ∀ {δ : Ledger F} {s : GBackend F}, Kept δ s →
    (∀ i ∈ qs, δ.Usable i) → Kept (δ.useAll qs) (ensureAll qs s) := by
  induction qs with
  | nil => intro δ s h _; exact h
  | cons q qs ih =>
    intro δ s h hu
    have hq := hu q (by simp)
    exact ih (ensure_kept N h hq) fun i hi => use_usable h.below hq (hu i (by simp [hi]))

theorem ensure_live {δ : Ledger F} {s : GBackend F} (h : Kept δ s) {q : ℕ} (hq : q ∈ δ.live) : ensure q s = s := by
  unfold ensure
  rw [if_neg (by rw [h.high]; have := h.below q hq; omega)]

theorem ensureAll_live (qs : List ℕ) {δ : Ledger F} {s : GBackend F} (h : Kept δ s) (hq : ∀ i ∈ qs, i ∈ δ.live) :
    ensureAll qs s = s := by
  induction qs with
  | nil => rfl
  | cons q qs ih =>
    show ensureAll qs (ensure q s) = s
    rw [ensure_live h (hq q (by simp))]
    exact ih fun i hi => hq i (by simp [hi])

/-! ### Methods of the simulator -/

/-- The call returns, and the ledger is kept. -/
def Fine (δ : Ledger F) (r : Except GStop (GBackend F)) : Prop := ∃ s, r = .ok s ∧ Kept δ s

theorem Fine.bind {δ δ' : Ledger F} {r : Except GStop (GBackend F)} {k : GBackend F → Except GStop (GBackend F)}
    (h : Fine δ r) (hk : ∀ s, Kept δ s → Fine δ' (k s)) : Fine δ' (r >>= k) := by
  obtain ⟨s, rfl, h1⟩ := h
  exact hk s h1

theorem Kept.swapSim {δ : Ledger F} {s : GBackend F} (h : Kept δ s) {m : GSim F} {L : Finset ℕ} {r : ℕ → F} (hm : Books L m)
    (hr : m.rng = r) (hL : ∀ q ∈ L, q < δ.high) : Kept { δ with live := L, rng := r } { s with sim := m } :=
  { sim := hm.sound, rng := hr, os := h.os, high := h.high, below := hL, size := h.size, reg := h.reg }

theorem act_fine {δ : Ledger F} {s : GBackend F} (h : Kept δ s) (c : GCall F) {f : GSim F → Except Panic (GSim F)}
    (hf : ∀ m, call N c m = quiet (f m)) (ha : Allowed δ.live c) (hl : liveNext δ.live c = δ.live)
    (hd : drawn δ.live c = 0) : Fine δ (act f s) := by
  obtain ⟨o, m, h1, _, h3, h4⟩ := call_goes (N := N) h.books c ha
  rw [hf] at h1
  unfold act
  cases hr : f s.sim with
  | error p => rw [hr] at h1; cases h1
  | ok m' =>
    rw [hr] at h1
    have : m' = m := by
      have := Except.ok.inj h1
      exact (Prod.mk.inj this).2
    subst this
    rw [hl] at h3
    rw [hd] at h4
    exact ⟨_, rfl, h.swapSim h3 (h4.trans h.rng) h.below⟩

theorem ask_measure {δ : Ledger F} {s : GBackend F} (h : Kept δ s) {q : ℕ} (hq : q ∈ δ.live) :
    ∃ p s', ask (Gen.measure N q) s = .ok (N.lt (δ.rng 0) p, s') ∧ Kept δ.draw s' := by
  obtain ⟨o, m, h1, ⟨p, rfl⟩, h3, h4⟩ := call_goes (N := N) h.books (.measure q) hq
  have h1' : (Gen.measure N q s.sim >>= fun r => Except.ok (GOut.bit r.1, r.2)) =
      .ok (GOut.bit (N.lt (s.sim.rng 0) p), m) := h1
  unfold ask
  cases hr : Gen.measure N q s.sim with
  | error e => rw [hr] at h1'; cases h1'
  | ok r =>
    rw [hr] at h1'
    have h2 := Prod.mk.inj (Except.ok.inj h1')
    have h5 : r.1 = N.lt (s.sim.rng 0) p := by injection h2.1
    refine ⟨p, { s with sim := r.2 }, ?_, ?_⟩
    · rw [← h.rng, ← h5]; rfl
    · rw [h2.2]
      exact h.swapSim h3 (by rw [h4, h.rng]; rfl) h.below

theorem ask_jointMeasure {δ : Ledger F} {s : GBackend F} (h : Kept δ s) {qs : List ℕ} (hn : qs.Nodup)
    (hq : ∀ i ∈ qs, i ∈ δ.live) :
    ∃ p s', ask (Gen.jointMeasure N qs) s = .ok (N.lt (δ.rng 0) p, s') ∧ Kept δ.draw s' := by
  obtain ⟨o, m, h1, ⟨p, rfl⟩, h3, h4⟩ := call_goes (N := N) h.books (.jointMeasure qs) ⟨hn, hq⟩
  have h1' : (Gen.jointMeasure N qs s.sim >>= fun r => Except.ok (GOut.bit r.1, r.2)) =
      .ok (GOut.bit (N.lt (s.sim.rng 0) p), m) := h1
  unfold ask
  cases hr : Gen.jointMeasure N qs s.sim with
  | error e => rw [hr] at h1'; cases h1'
  | ok r =>
    rw [hr] at h1'
    have h2 := Prod.mk.inj (Except.ok.inj h1')
    have h5 : r.1 = N.lt (s.sim.rng 0) p := by injection h2.1
    refine ⟨p, { s with sim := r.2 }, ?_, ?_⟩
    · rw [← h.rng, ← h5]; rfl
    · rw [h2.2]
      exact h.swapSim h3 (by rw [h4, h.rng]; rfl) h.below

theorem ask_jointProbability {δ : Ledger F} {s : GBackend F} (h : Kept δ s) {qs : List ℕ} (hn : qs.Nodup)
    (hq : ∀ i ∈ qs, i ∈ δ.live) : ∃ p s', ask (Gen.jointProbability N qs) s = .ok (p, s') ∧ Kept δ s' := by
  obtain ⟨o, m, h1, ⟨p, rfl⟩, h3, h4⟩ := call_goes (N := N) h.books (.jointProb qs) ⟨hn, hq⟩
  have h1' : (Gen.jointProbability N qs s.sim >>= fun r => Except.ok (GOut.real r.1, r.2)) = .ok (GOut.real p, m) := h1
  unfold ask
  cases hr : Gen.jointProbability N qs s.sim with
  | error e => rw [hr] at h1'; cases h1'
  | ok r =>
    rw [hr] at h1'
    have h2 := Prod.mk.inj (Except.ok.inj h1')
    have h5 : r.1 = p := by injection h2.1
    refine ⟨p, { s with sim := r.2 }, by rw [← h5]; rfl, ?_⟩
    rw [h2.2]
    exact h.swapSim h3 (h4.trans h.rng) h.below

theorem ask_isZero {δ : Ledger F} {s : GBackend F} (h : Kept δ s) {q : ℕ} (hq : q ∈ δ.live) :
    ∃ p s', ask (Gen.qubitIsZero N q) s = .ok (N.nearlyZero p, s') ∧ Kept δ s' := by
  obtain ⟨o, m, h1, ⟨p, rfl⟩, h3, h4⟩ := call_goes (N := N) h.books (.isZero q) hq
  have h1' : (Gen.qubitIsZero N q s.sim >>= fun r => Except.ok (GOut.bit r.1, r.2)) = .ok (GOut.bit (N.nearlyZero p), m) := h1
  unfold ask
  cases hr : Gen.qubitIsZero N q s.sim with
  | error e => rw [hr] at h1'; cases h1'
  | ok r =>
    rw [hr] at h1'
    have h2 := Prod.mk.inj (Except.ok.inj h1')
    have h5 : r.1 = N.nearlyZero p := by injection h2.1
    refine ⟨p, { s with sim := r.2 }, by rw [← h5]; rfl, ?_⟩
    rw [h2.2]
    exact h.swapSim h3 (h4.trans h.rng) h.below

theorem ask_dump {δ : Ledger F} {s : GBackend F} (h : Kept δ s) (fmt : Cx F → String) :
    ∃ l s', ask (Gen.dump N fmt) s = .ok (shown fmt l, s') ∧ Ascending δ.live.card l ∧ s'.res = s.res ∧ Kept δ s' := by
  obtain ⟨o, m, h1, ⟨l, rfl, hl⟩, h3, h4⟩ := call_goes (N := N) h.books (.dump fmt) trivial
  have h1' : (Gen.dump N fmt s.sim >>= fun r => Except.ok (GOut.text r.1, r.2)) = .ok (GOut.text (shown fmt l), m) := h1
  unfold ask
  cases hr : Gen.dump N fmt s.sim with
  | error e => rw [hr] at h1'; cases h1'
  | ok r =>
    rw [hr] at h1'
    have h2 := Prod.mk.inj (Except.ok.inj h1')
    have h5 : r.1 = shown fmt l := by injection h2.1
    refine ⟨l, { s with sim := r.2 }, by rw [← h5]; rfl, hl, rfl, ?_⟩
    rw [h2.2]
    exact h.swapSim h3 (h4.trans h.rng) h.below

/-! ### Gates -/

variable {δ : Ledger F} {s : GBackend F}

theorem act_gate (h : Kept δ s) {q : ℕ} (hq : q ∈ δ.live) (g : GGate F) : Fine δ (act (Gen.gateCall N q g) s) :=
  act_fine h (.gate g q) (fun _ => rfl) hq rfl rfl

theorem act_ctrl (h : Kept δ s) {cs : List ℕ} {q : ℕ} (hn : (cs ++ [q]).Nodup) (hq : ∀ i ∈ cs ++ [q], i ∈ δ.live)
    (g : GGate F) : Fine δ (act (Gen.ctrlCall N cs q g) s) :=
  act_fine h (.ctrl g cs q) (fun _ => rfl) ⟨hn, hq⟩ rfl rfl

theorem gate_fine (h : Kept δ s) {q : ℕ} (hq : δ.Usable q) (g : GGate F) : Fine (δ.use q) (B.gate N g q s) :=
  act_gate (ensure_kept N h hq) (mem_use h.below hq) g

theorem gate_live (h : Kept δ s) {q : ℕ} (hq : q ∈ δ.live) (g : GGate F) : Fine δ (B.gate N g q s) := by
  have := gate_fine (N := N) h (.inl hq) g
  rwa [use_mem h.below hq] at this

theorem operands {cs : List ℕ} {q : ℕ} (hl : δ.Low) (hq : ∀ i ∈ cs ++ [q], δ.Usable i) :
    ∀ i ∈ cs ++ [q], i ∈ (δ.useAll (q :: cs)).live := by
  intro i hi
  exact mem_useAll (q :: cs) hl (fun j hj => hq j (by simpa [or_comm] using hj)) i (by simpa [or_comm] using hi)

theorem ctl_fine (h : Kept δ s) {cs : List ℕ} {q : ℕ} (hn : (cs ++ [q]).Nodup) (hq : ∀ i ∈ cs ++ [q], δ.Usable i)
    (g : GGate F) : Fine (δ.useAll (q :: cs)) (B.ctl N g cs q s) :=
  act_ctrl (ensureAll_kept N (q :: cs) h fun j hj => hq j (by simpa [or_comm] using hj)) hn (operands h.below hq) g

theorem useAll_mem (qs : List ℕ) (hl : δ.Low) (hq : ∀ i ∈ qs, i ∈ δ.live) : δ.useAll qs = δ := by
  induction qs with
  | nil => rfl
  | cons q qs ih =>
    rw [useAll_cons, use_mem hl (hq q (by simp))]
    exact ih fun i hi => hq i (by simp [hi])

theorem ctl_live (h : Kept δ s) {cs : List ℕ} {q : ℕ} (hn : (cs ++ [q]).Nodup) (hq : ∀ i ∈ cs ++ [q], i ∈ δ.live)
    (g : GGate F) : Fine δ (B.ctl N g cs q s) := by
  have := ctl_fine (N := N) h hn (fun i hi => .inl (hq i hi)) g
  rwa [useAll_mem (q :: cs) h.below fun j hj => hq j (by simpa [or_comm] using hj)] at this

theorem sx_fine (h : Kept δ s) {q : ℕ} (hq : δ.Usable q) : Fine (δ.use q) (B.sx N q s) := by
  have hm := mem_use h.below hq
  exact (gate_fine h hq _).bind fun s h => (gate_live h hm _).bind fun s h => gate_live h hm _

theorem rzz_fine (h : Kept δ s) {a b : ℕ} (hab : a ≠ b) (ha : δ.Usable a) (hb : δ.Usable b) (θ : F) :
    Fine (δ.useAll [a, b]) (B.rzz N θ a b s) := by
  have hu : ∀ i ∈ [b] ++ [a], δ.Usable i := by
    intro i hi
    rcases List.mem_cons.1 hi with rfl | hi
    · exact hb
    · rw [List.mem_singleton.1 hi]; exact ha
  have hm := operands h.below hu
  have hn : ([b] ++ [a]).Nodup := by simp [hab.symm]
  exact (ctl_fine h hn hu _).bind fun s h => (gate_live h (hm a (by simp)) _).bind fun s h => ctl_live h hn hm _

theorem rzz_live (h : Kept δ s) {a b : ℕ} (hab : a ≠ b) (ha : a ∈ δ.live) (hb : b ∈ δ.live) (θ : F) :
    Fine δ (B.rzz N θ a b s) := by
  have := rzz_fine (N := N) h hab (.inl ha) (.inl hb) θ
  rwa [useAll_mem [a, b] h.below (by simp [ha, hb])] at this

theorem rxx_fine (h : Kept δ s) {a b : ℕ} (hab : a ≠ b) (ha : δ.Usable a) (hb : δ.Usable b) (θ : F) :
    Fine (δ.useAll [a, b]) (B.rxx N θ a b s) := by
  have hm := mem_useAll [a, b] h.below (by simp [ha, hb])
  have h1 := hm a (by simp)
  have h2 := hm b (by simp)
  exact (gate_fine h ha _).bind fun s h' => (gate_fine h' (use_usable h.below ha hb) _).bind fun s h =>
    (rzz_live h hab h1 h2 θ).bind fun s h => (gate_live h h2 _).bind fun s h => gate_live h h1 _

theorem ryy_fine (h : Kept δ s) {a b : ℕ} (hab : a ≠ b) (ha : δ.Usable a) (hb : δ.Usable b) (θ : F) :
    Fine (δ.useAll [a, b]) (B.ryy N θ a b s) := by
  have hm := mem_useAll [a, b] h.below (by simp [ha, hb])
  have h1 := hm a (by simp)
  have h2 := hm b (by simp)
  have h0 := mem_use h.below ha
  exact (gate_fine h ha _).bind fun s h' => (gate_live h' h0 _).bind fun s h' => (gate_live h' h0 _).bind fun s h' =>
    (gate_fine h' (use_usable h.below ha hb) _).bind fun s h => (gate_live h h2 _).bind fun s h =>
    (gate_live h h2 _).bind fun s h => (rzz_live h hab h1 h2 θ).bind fun s h =>
    (gate_live h h2 _).bind fun s h => (gate_live h h2 _).bind fun s h => (gate_live h h2 _).bind fun s h =>
    (gate_live h h1 _).bind fun s h => (gate_live h h1 _).bind fun s h => gate_live h h1 _

theorem r_fine (h : Kept δ s) {p : Pauli} {q : ℕ} (hq : p = .I ∨ δ.Usable q) (θ : F) :
    Fine (if p = .I then δ else δ.use q) (B.r N p θ q s) := by
  cases p with
  | I => exact ⟨s, rfl, h⟩
  | X => exact gate_fine h (hq.resolve_left nofun) _
  | Y => exact gate_fine h (hq.resolve_left nofun) _
  | Z => exact gate_fine h (hq.resolve_left nofun) _

theorem rCtl_fine (h : Kept δ s) {cs : List ℕ} {p : Pauli} {q : ℕ} (hn : (cs ++ [q]).Nodup)
    (hq : ∀ i ∈ cs ++ [q], δ.Usable i) (θ : F) :
    Fine (if p = .I ∧ cs = [] then δ else δ.useAll (q :: cs)) (B.rCtl N cs p θ q s) := by
  cases p with
  | I =>
    cases cs with
    | nil => exact ⟨s, rfl, h⟩
    | cons c cs =>
      have hk := ensureAll_kept N (q :: c :: cs) h fun j hj => hq j (by simpa [or_comm, or_assoc, or_left_comm] using hj)
      have hm := operands h.below hq
      rw [if_neg (by simp)]
      refine act_fine (N := N) hk (.phase cs (N.cis (N.div (N.neg θ) N.two)) c) (fun _ => rfl) ⟨?_, ?_⟩ rfl rfl
      · have h1 : (c :: cs).Nodup := (List.nodup_append.1 hn).1
        exact (List.perm_append_singleton c cs).nodup_iff.2 h1
      · intro i hi
        refine hm i ?_
        simp only [List.mem_append, List.mem_cons, List.not_mem_nil, or_false] at hi ⊢
        tauto
  | X => rw [if_neg (by simp)]; exact ctl_fine h hn hq _
  | Y => rw [if_neg (by simp)]; exact ctl_fine h hn hq _
  | Z => rw [if_neg (by simp)]; exact ctl_fine h hn hq _

theorem exp_fine (h : Kept δ s) {ps : List Pauli} {qs : List ℕ} (hn : qs.Nodup) (hq : ∀ i ∈ qs, δ.Usable i)
    (hp : ps.length ≤ qs.length) (θ : F) : Fine (δ.useAll qs) (B.exp N ps θ qs s) :=
  act_fine (ensureAll_kept N qs h hq) (.exp [] (ps.map Sim.pauliArg) θ qs) (fun _ => rfl)
    ⟨hn, mem_useAll qs h.below hq, by simpa using hp⟩ rfl rfl

theorem expCtl_fine (h : Kept δ s) {cs : List ℕ} {ps : List Pauli} {qs : List ℕ} (hn : (cs ++ qs).Nodup)
    (hq : ∀ i ∈ cs ++ qs, δ.Usable i) (hp : ps.length ≤ qs.length) (θ : F) :
    Fine (δ.useAll (cs ++ qs)) (B.expCtl N cs ps θ qs s) := by
  have hk := ensureAll_kept N (cs ++ qs) h hq
  have he : ensureAll (cs ++ qs) s = ensureAll qs (ensureAll cs s) := List.foldl_append
  rw [he] at hk
  exact act_fine hk (.exp cs (ps.map Sim.pauliArg) θ qs) (fun _ => rfl)
    ⟨hn, mem_useAll _ h.below hq, by simpa using hp⟩ rfl rfl

theorem swap_fine (h : Kept δ s) {a b : ℕ} (ha : δ.Usable a) (hb : δ.Usable b) :
    Fine (δ.useAll [a, b]) (B.swap N a b s) := by
  have hu : ∀ i ∈ [a, b], δ.Usable i := by simp [ha, hb]
  have hm := mem_useAll [a, b] h.below hu
  exact act_fine (ensureAll_kept N [a, b] h hu) (.swap a b) (fun _ => rfl) ⟨hm a (by simp), hm b (by simp)⟩ rfl rfl

/-! ### Results -/

theorem length_grow (r : ℕ) (l : List Bool) : (grow r l).length = max l.length (r + 1) := by
  unfold grow
  split
  · rw [List.length_append, List.length_replicate]; omega
  · omega

theorem Kept.touch (h : Kept δ s) (r : ℕ) : Kept (δ.touch r) { s with res := grow r s.res } :=
  { sim := h.sim, rng := h.rng, os := h.os, high := h.high, below := h.below
    size := by rw [length_grow, h.size]; rfl
    reg := fun i => by rw [Back.grow_getD, h.reg]; rfl }

theorem Kept.store (h : Kept δ s) (r : ℕ) (v : Bool) : Kept (δ.store r v) { s with res := (grow r s.res).set r v } :=
  { sim := h.sim, rng := h.rng, os := h.os, high := h.high, below := h.below
    size := by rw [List.length_set, length_grow, h.size]; rfl
    reg := fun i => by
      show _ = Function.update δ.reg r v i
      have hg := Back.grow_length r s.res
      by_cases hi : i = r
      · subst hi
        rw [Function.update_self, List.getD_eq_getElem?_getD, List.getElem?_set_self hg]
        rfl
      · rw [Function.update_of_ne hi, List.getD_eq_getElem?_getD, List.getElem?_set_ne (Ne.symm hi),
          ← List.getD_eq_getElem?_getD, Back.grow_getD, h.reg] }

theorem Kept.clear (h : Kept δ s) {q : ℕ} (hq : q ∈ δ.live) (b : Bool) :
    Fine δ (if b then act (Gen.x N q) s else .ok s) := by
  cases b
  · exact ⟨s, rfl, h⟩
  · exact act_gate (N := N) h hq .x

/-! ### Bases -/

theorem forEach_fine {α : Type} {f : α → GBackend F → Except GStop (GBackend F)} (l : List α)
    (hf : ∀ a ∈ l, ∀ s, Kept δ s → Fine δ (f a s)) : ∀ s, Kept δ s → Fine δ (forEach f l s) := by
  induction l with
  | nil => intro s h; exact ⟨s, rfl, h⟩
  | cons a l ih =>
    intro s h
    exact (hf a (by simp) s h).bind fun s h => ih (fun a ha => hf a (by simp [ha])) s h

theorem mapOne_fine (pq : Pauli × ℕ) (hq : pq.2 ∈ δ.live) (s : GBackend F) (h : Kept δ s) : Fine δ (B.mapOne N pq s) := by
  obtain ⟨p, q⟩ := pq
  cases p with
  | I => exact ⟨s, rfl, h⟩
  | Z => exact ⟨s, rfl, h⟩
  | X => exact act_gate (N := N) h hq .h
  | Y => exact (act_gate (N := N) h hq .h).bind fun s h => (act_gate h hq .s).bind fun s h => act_gate (N := N) h hq .h

theorem unmapOne_fine (pq : Pauli × ℕ) (hq : pq.2 ∈ δ.live) (s : GBackend F) (h : Kept δ s) : Fine δ (B.unmapOne N pq s) := by
  obtain ⟨p, q⟩ := pq
  cases p with
  | I => exact ⟨s, rfl, h⟩
  | Z => exact ⟨s, rfl, h⟩
  | X => exact act_gate (N := N) h hq .h
  | Y => exact (act_gate (N := N) h hq .h).bind fun s h => (act_gate h hq .sadj).bind fun s h => act_gate (N := N) h hq .h

theorem support_eq (ps : List Pauli) (qs : List ℕ) : nonIdentity ps qs = support ps qs := rfl

theorem mapToZ_fine (h : Kept δ s) {ps : List Pauli} {qs : List ℕ} (hl : ps.length = qs.length)
    (hq : ∀ i ∈ (support ps qs).map Prod.snd, δ.Usable i) :
    ∃ s', B.mapToZ N ps qs s = .ok (support ps qs, s') ∧ Kept (δ.useAll ((support ps qs).map Prod.snd)) s' := by
  obtain ⟨s', h1, h2⟩ := forEach_fine (f := B.mapOne N) (support ps qs)
    (fun pq hpq => mapOne_fine pq (mem_useAll _ h.below hq _ (List.mem_map_of_mem hpq))) _ (ensureAll_kept N _ h hq)
  refine ⟨s', ?_, h2⟩
  unfold B.mapToZ
  rw [if_neg (by simpa using hl)]
  simp only [support_eq, h1]
  rfl

theorem unmapFromZ_fine (h : Kept δ s) {l : List (Pauli × ℕ)} (hq : ∀ i ∈ l.map Prod.snd, i ∈ δ.live) :
    Fine δ (B.unmapFromZ N l s) :=
  forEach_fine l (fun pq hpq => unmapOne_fine pq (hq _ (List.mem_map_of_mem hpq))) s h

end Gen
end Qir
