import Verif.Props.ReversibleBackDefs
import Verif.Proof.Amplitude
import Verif.Proof.GenericBack2

/-! # Classical programs on the backend -/

namespace Qir
namespace Gen
open Spec (Pauli)
open Qir.Out
open Ledger

variable {F : Type} {N : Num F} {lib : Lib F} {Z O : F → Prop} {δ : Ledger F} {f : ℕ → Bool} {z : Cx F} {s : GBackend F}

/-- The backend holds the bits `f` with amplitude `z`. -/
structure Clear (N : Num F) (Z O : F → Prop) (δ : Ledger F) (f : ℕ → Bool) (z : Cx F) (s : GBackend F) : Prop where
  kept : Kept δ s
  known : Known N Z O δ.live f z s.sim
  samples : UnitSamples N δ.rng

theorem Clear.unit (h : Clear N Z O δ f z s) : UnitSamples N s.sim.rng := by rw [h.kept.rng]; exact h.samples

/-- The call returns, and the bits are `f`. -/
def Sure (N : Num F) (Z O : F → Prop) (δ : Ledger F) (f : ℕ → Bool) (z : Cx F) (r : Except GStop (GBackend F)) : Prop :=
  ∃ s, r = .ok s ∧ Clear N Z O δ f z s

theorem allocate_known (D : Digits N Z O) (K : Keeps N Z O) {L : Finset ℕ} {m : GSim F} (h : Known N Z O L f z m) (hu : UnitSamples N m.rng) :
    Known N Z O (insert (leastFree L) L) f z (allocate m).2 :=
  (call_known D K h hu (c := .allocate) trivial trivial (o := .id (allocate m).1) rfl).2

theorem ensure_known_more (D : Digits N Z O) (K : Keeps N Z O) (q : ℕ) : ∀ (n : ℕ) {s : GBackend F} {L : Finset ℕ}, Known N Z O L f z s.sim →
    UnitSamples N s.sim.rng → q + 1 - s.max = n → ∃ L', Known N Z O L' f z (ensure q s).sim := by
  intro n
  induction n with
  | zero =>
    intro s L h _ hn
    unfold ensure
    rw [if_neg (by omega)]
    exact ⟨L, h⟩
  | succ n ih =>
    intro s L h hu hn
    unfold ensure
    rw [if_pos (by omega)]
    refine ih (allocate_known D K h hu) ?_ (by simp only; omega)
    obtain ⟨_, _, h3⟩ := allocate_books N h.pure.holds.books
    simp only [h3]
    exact hu

theorem ensure_clear (D : Digits N Z O) (K : Keeps N Z O) (h : Clear N Z O δ f z s) {q : ℕ} (hq : δ.Usable q) :
    Clear N Z O (δ.use q) f z (ensure q s) := by
  have hk := ensure_kept N h.kept hq
  obtain ⟨L', hp⟩ := ensure_known_more D K q _ h.known h.unit rfl
  refine ⟨hk, ⟨⟨⟨hk.books, hp.pure.holds.poss⟩, hp.pure.sharp,
    fun i hi => h.known.pure.off i fun hm => hi (mem_use_of_mem h.kept.below hm)⟩, hp.bears⟩, ?_⟩
  rw [use_rng]
  exact h.samples

theorem ensureAll_clear (D : Digits N Z O) (K : Keeps N Z O) (qs : List ℕ) : ∀ {δ : Ledger F} {s : GBackend F}, Clear N Z O δ f z s →
    (∀ i ∈ qs, δ.Usable i) → Clear N Z O (δ.useAll qs) f z (ensureAll qs s) := by
  induction qs with
  | nil => intro δ s h _; exact h
  | cons q qs ih =>
    intro δ s h hu
    have hq := hu q (by simp)
    exact ih (ensure_clear D K h hq) fun i hi => use_usable h.kept.below hq (hu i (by simp [hi]))

theorem act_clear (D : Digits N Z O) (K : Keeps N Z O) (h : Clear N Z O δ f z s) (c : GCall F) {g : GSim F → Except Panic (GSim F)}
    (hf : ∀ m, call N c m = quiet (g m)) (hc : ClassicCall c) (ha : Allowed δ.live c) (hl : liveNext δ.live c = δ.live)
    (hd : drawn δ.live c = 0) : Sure N Z O δ (moved f c) (grown N δ.live f z c) (act g s) := by
  obtain ⟨s', h1, h2⟩ := act_fine (N := N) h.kept c hf ha hl hd
  refine ⟨s', h1, h2, ?_, h.samples⟩
  unfold act at h1
  cases hr : g s.sim with
  | error p => rw [hr] at h1; cases h1
  | ok m =>
    rw [hr] at h1
    have h1' : s' = { s with sim := m } := (Except.ok.inj h1).symm
    subst h1'
    have := (call_known D K h.known h.unit hc ha (o := .none) (s' := m) (by rw [hf, hr]; rfl)).2
    rwa [hl] at this

theorem ask_measure_clear (D : Digits N Z O) (K : Keeps N Z O) (h : Clear N Z O δ f z s) {q : ℕ} (hq : q ∈ δ.live) :
    ∃ s', ask (Gen.measure N q) s = .ok (f q, s') ∧ Clear N Z O δ.draw f z s' := by
  obtain ⟨p, s', h1, h2⟩ := ask_measure (N := N) h.kept hq
  have h1' := h1
  unfold ask at h1
  cases hr : Gen.measure N q s.sim with
  | error p => rw [hr] at h1; cases h1
  | ok r =>
    rw [hr] at h1
    obtain ⟨hb, hs⟩ := Prod.mk.inj (Except.ok.inj h1)
    subst hs
    obtain ⟨ht, hp⟩ := call_known D K h.known h.unit (c := .measure q) trivial hq (o := .bit r.1) (s' := r.2)
      (by simp only [call, hr]; rfl)
    have ht' : GOut.bit (F := F) r.1 = .bit (f q) := ht
    injection ht' with ht'
    exact ⟨_, by rw [h1', ← hb, ht'], h2, hp, h.samples.shift 1⟩

theorem ask_jointMeasure_clear (D : Digits N Z O) (K : Keeps N Z O) (h : Clear N Z O δ f z s) {qs : List ℕ} (hn : qs.Nodup)
    (hq : ∀ i ∈ qs, i ∈ δ.live) :
    ∃ s', ask (Gen.jointMeasure N qs) s = .ok (odd qs f, s') ∧ Clear N Z O δ.draw f z s' := by
  obtain ⟨p, s', h1, h2⟩ := ask_jointMeasure (N := N) h.kept hn hq
  have h1' := h1
  unfold ask at h1
  cases hr : Gen.jointMeasure N qs s.sim with
  | error p => rw [hr] at h1; cases h1
  | ok r =>
    rw [hr] at h1
    obtain ⟨hb, hs⟩ := Prod.mk.inj (Except.ok.inj h1)
    subst hs
    obtain ⟨ht, hp⟩ := call_known D K h.known h.unit (c := .jointMeasure qs) trivial ⟨hn, hq⟩ (o := .bit r.1) (s' := r.2)
      (by simp only [call, hr]; rfl)
    have ht' : GOut.bit (F := F) r.1 = .bit (odd qs f) := ht
    injection ht' with ht'
    exact ⟨_, by rw [h1', ← hb, ht'], h2, hp, h.samples.shift 1⟩

theorem ask_jointProbability_clear (D : Digits N Z O) (K : Keeps N Z O) (h : Clear N Z O δ f z s) {qs : List ℕ} (hn : qs.Nodup)
    (hq : ∀ i ∈ qs, i ∈ δ.live) :
    ∃ s', ask (Gen.jointProbability N qs) s = .ok (if odd qs f then N.one else N.zero, s') ∧ Clear N Z O δ f z s' := by
  obtain ⟨p, s', h1, h2⟩ := ask_jointProbability (N := N) h.kept hn hq
  have h1' := h1
  unfold ask at h1
  cases hr : Gen.jointProbability N qs s.sim with
  | error p => rw [hr] at h1; cases h1
  | ok r =>
    rw [hr] at h1
    obtain ⟨hb, hs⟩ := Prod.mk.inj (Except.ok.inj h1)
    subst hs
    obtain ⟨ht, hp⟩ := call_known D K h.known h.unit (c := .jointProb qs) trivial ⟨hn, hq⟩ (o := .real r.1) (s' := r.2)
      (by simp only [call, hr]; rfl)
    have ht' : GOut.real (F := F) r.1 = .real (if odd qs f then N.one else N.zero) := ht
    injection ht' with ht'
    exact ⟨_, by rw [h1', ← hb, ht'], h2, hp, h.samples⟩

theorem ask_isZero_clear (D : Digits N Z O) (K : Keeps N Z O) (h : Clear N Z O δ f z s) {q : ℕ} (hq : q ∈ δ.live) :
    ∃ s', ask (Gen.qubitIsZero N q) s = .ok (!f q, s') ∧ Clear N Z O δ f z s' := by
  obtain ⟨p, s', h1, h2⟩ := ask_isZero (N := N) h.kept hq
  have h1' := h1
  unfold ask at h1
  cases hr : Gen.qubitIsZero N q s.sim with
  | error p => rw [hr] at h1; cases h1
  | ok r =>
    rw [hr] at h1
    obtain ⟨hb, hs⟩ := Prod.mk.inj (Except.ok.inj h1)
    subst hs
    obtain ⟨ht, hp⟩ := call_known D K h.known h.unit (c := .isZero q) trivial hq (o := .bit r.1) (s' := r.2)
      (by simp only [call, hr]; rfl)
    have ht' : GOut.bit (F := F) r.1 = .bit (!f q) := ht
    injection ht' with ht'
    exact ⟨_, by rw [h1', ← hb, ht'], h2, hp, h.samples⟩

/-! ### The machine beside the ledger -/

/-- The machine of a ledger and bits. -/
def machine (δ : Ledger F) (f : ℕ → Bool) (z : Cx F) : Bits F := ⟨δ.live, δ.high, f, z, δ.reg, δ.size⟩

theorem machine_use (q : ℕ) : (machine δ f z).use q = machine (δ.use q) f z := by
  unfold Bits.use Ledger.use
  show (if q < δ.high then _ else _) = _
  split <;> rfl

theorem machine_useAll (qs : List ℕ) : ∀ {δ : Ledger F}, (machine δ f z).useAll qs = machine (δ.useAll qs) f z := by
  induction qs with
  | nil => intro δ; rfl
  | cons q qs ih =>
    intro δ
    show ((machine δ f z).use q).useAll qs = machine ((δ.use q).useAll qs) f z
    rw [machine_use, ih]

theorem machine_recorded (r : ℕ) : (machine δ f z).recorded r = machine (δ.recorded r) f z := by
  unfold Bits.recorded Ledger.recorded
  show (if δ.size = 0 then _ else _) = _
  split <;> rfl

/-- The backend agrees with the machine. -/
def Agrees (N : Num F) (Z O : F → Prop) (m : Bits F) (s : GBackend F) : Prop :=
  ∃ δ, Clear N Z O δ m.bit m.amp s ∧ m = machine δ m.bit m.amp

theorem Agrees.of (h : Clear N Z O δ f z s) : Agrees N Z O (machine δ f z) s := ⟨δ, h, rfl⟩

/-- What a call of the library does, seen from the machine. -/
def Heeds (N : Num F) (lib : Lib F) (Z O : F → Prop) (m : Bits F) (c : GQCall F) (s : GBackend F) : Prop :=
  match m.step N lib c with
  | .error msg => qstep N lib c s = .error (.fail msg)
  | .ok (a, out, m') => ∃ s', qstep N lib c s = .ok (a, out, s') ∧ Agrees N Z O m' s'

theorem silent_sure {δ' : Ledger F} {f' : ℕ → Bool} {r : Except GStop (GBackend F)} (h : Sure N Z O δ' f' z r) {m' : Bits F}
    (hm : m' = machine δ' f' z) : ∃ s', silent r = .ok (GAns.unit, [], s') ∧ Agrees N Z O m' s' := by
  obtain ⟨s', rfl, h'⟩ := h
  exact ⟨s', rfl, hm ▸ .of h'⟩

theorem toggle_put (q : ℕ) (f : ℕ → Bool) : toggle [q] f = Function.update f q (!f q) := by
  funext r
  rw [Function.update_apply]
  unfold toggle
  by_cases h : r = q
  · subst h; simp
  · simp [h]

theorem Clear.clear (D : Digits N Z O) (K : Keeps N Z O) (h : Clear N Z O δ f z s) {q : ℕ} (hq : q ∈ δ.live) :
    Sure N Z O δ (Function.update f q false) z (if f q then act (Gen.x N q) s else .ok s) := by
  cases hb : f q
  · rw [show Function.update f q false = f by rw [← hb]; exact Function.update_eq_self q f]
    exact ⟨s, rfl, h⟩
  · have := act_clear (N := N) D K h (.gate .x q) (g := Gen.x N q) (fun _ => rfl) trivial hq rfl rfl
    rw [show moved f (GCall.gate (F := F) .x q) = Function.update f q false by
      simp only [moved, flipping, if_true, toggle_put, hb, Bool.not_true]] at this
    exact this

theorem Clear.touch (h : Clear N Z O δ f z s) (r : ℕ) :
    Clear N Z O (δ.touch r) f z { s with res := Back.grow r s.res } := ⟨h.kept.touch r, h.known, h.samples⟩

/-- A result stored in a register that is there. -/
theorem Clear.set (h : Clear N Z O (δ.touch r) f z s) (v : Bool) :
    Clear N Z O (δ.store r v) f z { s with res := s.res.set r v } := by
  refine ⟨?_, h.known, h.samples⟩
  have h2 := h.kept
  exact { sim := h2.sim, rng := h2.rng, os := h2.os, high := h2.high, below := h2.below
          size := by rw [List.length_set]; exact h2.size
          reg := fun i => by
            have hlen : r < s.res.length := by
              rw [h2.size]
              show r < max _ (r + 1)
              omega
            rw [Back.set_getD hlen, h2.reg]
            show _ = Function.update δ.reg r _ i
            rw [Function.update_apply]
            rfl }

theorem mz_sure (D : Digits N Z O) (K : Keeps N Z O) (h : Clear N Z O δ f z s) {q r : ℕ} (hq : δ.Usable q) :
    Sure N Z O ((δ.use q).draw.store r (f q)) f z (B.mz N q r s) := by
  have hk := (ensure_clear D K h hq).touch r
  obtain ⟨s', h1, h2⟩ := ask_measure_clear D K hk (mem_use h.kept.below hq : q ∈ (δ.use q).live)
  refine ⟨{ s' with res := s'.res.set r (f q) }, ?_, Clear.set (δ := (δ.use q).draw) h2 _⟩
  unfold B.mz
  simp only [h1]
  rfl

theorem mresetz_sure (D : Digits N Z O) (K : Keeps N Z O) (h : Clear N Z O δ f z s) {q r : ℕ} (hq : δ.Usable q) :
    Sure N Z O ((δ.use q).draw.store r (f q)) (Function.update f q false) z (B.mresetz N q r s) := by
  have hk := (ensure_clear D K h hq).touch r
  have hm : q ∈ (δ.use q).live := mem_use h.kept.below hq
  obtain ⟨s', h1, h2⟩ := ask_measure_clear D K hk hm
  obtain ⟨s'', h3, h4⟩ := h2.clear D K hm
  refine ⟨{ s'' with res := s''.res.set r (f q) }, ?_, Clear.set (δ := (δ.use q).draw) h4 _⟩
  unfold B.mresetz
  simp only [h1]
  show (if f q = true then (act (Gen.x N q) s' >>= fun s => _) else _) = _
  cases hb : f q with
  | false =>
    rw [hb] at h3
    have : s' = s'' := Except.ok.inj h3
    rw [this]
    rfl
  | true =>
    rw [hb] at h3
    have h3' : act (Gen.x N q) s' = .ok s'' := h3
    rw [if_pos rfl, h3']
    rfl

theorem reset_sure (D : Digits N Z O) (K : Keeps N Z O) (h : Clear N Z O δ f z s) {q : ℕ} (hq : δ.Usable q) :
    Sure N Z O (δ.use q).draw (Function.update f q false) z (B.reset N q s) := by
  have hm := mem_use h.kept.below hq
  obtain ⟨s', h1, h2⟩ := ask_measure_clear D K (ensure_clear D K h hq) hm
  unfold B.reset
  rw [h1]
  exact h2.clear D K hm

theorem forEach_idle {α : Type} {g : α → GBackend F → Except GStop (GBackend F)} (l : List α)
    (hg : ∀ a ∈ l, ∀ s, g a s = .ok s) (s : GBackend F) : forEach g l s = .ok s := by
  induction l with
  | nil => rfl
  | cons a l ih =>
    simp only [forEach, hg a (by simp)]
    exact ih fun a ha => hg a (by simp [ha])

theorem support_z {ps : List Pauli} {qs : List ℕ} (hz : ∀ p ∈ ps, p = .I ∨ p = .Z) : ∀ pq ∈ support ps qs, pq.1 = .Z := by
  intro pq h
  unfold support at h
  rw [List.mem_filter] at h
  have h1 := hz pq.1 (List.of_mem_zip (a := pq.1) (b := pq.2) h.1).1
  simp only [ne_eq, decide_eq_true_eq] at h
  exact h1.resolve_left h.2

theorem mapToZ_clear (D : Digits N Z O) (K : Keeps N Z O) (h : Clear N Z O δ f z s) {ps : List Pauli} {qs : List ℕ}
    (hz : ∀ p ∈ ps, p = .I ∨ p = .Z) (hl : ps.length = qs.length) (hq : ∀ i ∈ Bits.operands ps qs, δ.Usable i) :
    ∃ s', B.mapToZ N ps qs s = .ok (support ps qs, s') ∧ Clear N Z O (δ.useAll (Bits.operands ps qs)) f z s' := by
  refine ⟨ensureAll (Bits.operands ps qs) s, ?_, ensureAll_clear D K _ h hq⟩
  have := forEach_idle (g := B.mapOne N) (support ps qs) (fun pq hpq s => by
    unfold B.mapOne
    rw [support_z hz pq hpq]) (ensureAll (Bits.operands ps qs) s)
  unfold B.mapToZ
  rw [if_neg (by simpa using hl)]
  simp only [support_eq]
  rw [show List.map Prod.snd (support ps qs) = Bits.operands ps qs from rfl, this]
  rfl

theorem unmapFromZ_idle {ps : List Pauli} {qs : List ℕ} (hz : ∀ p ∈ ps, p = .I ∨ p = .Z) (s : GBackend F) :
    B.unmapFromZ N (support ps qs) s = .ok s :=
  forEach_idle (support ps qs) (fun pq hpq s => by
    unfold B.unmapOne
    rw [support_z hz pq hpq]) s

theorem release_sure (D : Digits N Z O) (K : Keeps N Z O) (h : Clear N Z O δ f z s) {q : ℕ} (hq : q ∈ δ.live) :
    ∃ δ', Sure N Z O δ' (Function.update f q false) (if δ.live.card = 1 then N.oneC else z) (B.qubitRelease N q s) ∧
      machine δ' (Function.update f q false) (if δ.live.card = 1 then N.oneC else z) =
        { (machine δ f z).put q false with
          live := δ.live.erase q, amp := if δ.live.card = 1 then N.oneC else z } := by
  obtain ⟨s', h1, h2⟩ := release_goes (N := N) h.kept hq
  have h1' := h1
  unfold B.qubitRelease act at h1
  cases hr : Gen.release N q s.sim with
  | error p => rw [hr] at h1; cases h1
  | ok m =>
    rw [hr] at h1
    have he : s' = { s with sim := m } := (Except.ok.inj h1).symm
    have hp := (call_known D K h.known h.unit (c := .release q) trivial hq (o := .none) (s' := m)
      (by simp only [call, hr]; rfl)).2
    have hm : moved f (GCall.release (F := F) q) = Function.update f q false := by
      funext r
      rw [Function.update_apply]
      rfl
    rw [hm] at hp
    have hp' : Known N Z O (δ.live.erase q) (Function.update f q false) (if δ.live.card = 1 then N.oneC else z) m := hp
    by_cases hs : δ.live = {q}
    · rw [if_pos hs] at h2
      have hl : δ.live.erase q = ∅ := by rw [hs]; simp
      refine ⟨_, ⟨s', h1', h2, ?_, h.samples⟩, ?_⟩
      · rw [he]
        rw [hl] at hp'
        exact hp'
      · rw [hl]
        rfl
    · rw [if_neg hs] at h2
      refine ⟨_, ⟨s', h1', h2, ?_, h.samples.shift 1⟩, rfl⟩
      rw [he]
      exact hp'

theorem Clear.recorded (h : Clear N Z O δ f z s) {r : ℕ} {b : Bool} {s' : GBackend F}
    (h1 : B.recordedResult r s = .ok (b, s')) (h2 : Kept (δ.recorded r) s') : Clear N Z O (δ.recorded r) f z s' := by
  have he : s'.sim = s.sim := by
    unfold B.recordedResult at h1
    split at h1
    · rw [← (Prod.mk.inj (Except.ok.inj h1)).2]
    · simp only [Back.grow_get?] at h1
      rw [← (Prod.mk.inj (Except.ok.inj h1)).2]
  refine ⟨h2, ?_, ?_⟩
  · rw [he]; unfold Ledger.recorded; split <;> exact h.known
  · unfold Ledger.recorded; split <;> exact h.samples

theorem qcall_heeds (D : Digits N Z O) (K : Keeps N Z O) {m : Bits F} (ha : Agrees N Z O m s) (c : GQCall F) (hc : m.Allows c) :
    Heeds N lib Z O m c s := by
  obtain ⟨δ, h, hm⟩ := ha
  generalize m.bit = f at h hm
  generalize m.amp = z at h hm
  subst hm
  have hu : ∀ {q}, (machine δ f z).Usable q → δ.Usable q := fun h => h
  have ops : ∀ {cs : List ℕ} {q : ℕ}, (∀ i ∈ cs ++ [q], δ.Usable i) → ∀ i ∈ q :: cs, δ.Usable i := fun hq j hj =>
    hq j (by simpa [or_comm] using hj)
  cases c with
  | gate g q =>
    refine silent_sure (act_clear (N := N) D K (ensure_clear D K h (hu hc.2)) (.gate g q) (fun _ => rfl) hc.1
      (mem_use h.kept.below (hu hc.2)) rfl rfl) ?_
    rw [machine_use]
    simp only [moved, grown, toggle_put]
    split <;> rfl
  | ctl g cs q =>
    refine silent_sure (act_clear (N := N) D K (ensureAll_clear D K (q :: cs) h (ops hc.2.2)) (.ctrl g cs q) (fun _ => rfl) hc.1
      ⟨hc.2.1, operands h.kept.below hc.2.2⟩ rfl rfl) ?_
    rw [machine_useAll]
    simp only [moved, grown, toggle_put]
    have : cs.all (machine δ f z).bit = true ↔ ∀ c ∈ cs, f c = true := by simp [machine]
    by_cases hh : ∀ c ∈ cs, f c = true
    · rw [if_pos (this.2 hh), if_pos hh]
      cases hf : flipping g
      · rw [if_neg (by simp), if_neg (by simp)]; rfl
      · rw [if_pos rfl, if_pos ⟨rfl, hh⟩]; rfl
    · rw [if_neg (fun h => hh (this.1 h)), if_neg (fun h => hh h.2), if_neg hh]
  | r p θ q => cases (show p = .I from hc); exact silent_sure ⟨s, rfl, h⟩ rfl
  | rAdj p θ q => cases (show p = .I from hc); exact silent_sure ⟨s, rfl, h⟩ rfl
  | swap a b =>
    have hq : ∀ i ∈ [a, b], δ.Usable i := by
      have h1 := hu hc.1
      have h2 := hu hc.2
      simp [h1, h2]
    have hmem := mem_useAll [a, b] h.kept.below hq
    refine silent_sure (act_clear (N := N) D K (ensureAll_clear D K [a, b] h hq) (.swap a b) (fun _ => rfl) trivial
      ⟨hmem a (by simp), hmem b (by simp)⟩ rfl rfl) ?_
    rw [machine_useAll]
    have : moved f (GCall.swap (F := F) a b) = Function.update (Function.update f b (f a)) a (f b) := by
      funext r
      simp only [moved, Function.update_apply]
    rw [this]
    rfl
  | reset q => exact silent_sure (reset_sure D K h (hu hc)) (by rw [machine_use]; rfl)
  | mresetz q r => exact silent_sure (mresetz_sure D K h (r := r) (hu hc)) (by rw [machine_use]; rfl)
  | mz q r => exact silent_sure (mz_sure D K h (r := r) (hu hc)) (by rw [machine_use]; rfl)
  | readResult r =>
    obtain ⟨s', h1, _⟩ := readResult_goes h.kept r
    have he : s' = { s with res := Back.grow r s.res } := by
      unfold B.readResult at h1
      simp only [Back.grow_get?] at h1
      exact (Prod.mk.inj (Except.ok.inj h1)).2.symm
    subst he
    exact ⟨_, by simp only [qstep, h1]; rfl, _, h.touch r, rfl⟩
  | writeResult v r => exact ⟨_, rfl, δ.store r v, ⟨h.kept.store r v, h.known, h.samples⟩, rfl⟩
  | m q =>
    obtain ⟨s', h1, h2⟩ := ask_measure_clear D K (ensure_clear D K h (hu hc)) (mem_use h.kept.below (hu hc))
    refine ⟨s', ?_, (δ.use q).draw, ?_, ?_⟩
    · simp only [qstep, B.m, h1]; rfl
    · rw [machine_use]; exact h2
    · rw [machine_use]; rfl
  | measure ps qs =>
    by_cases hl : ps.length = qs.length
    · have hq : ∀ i ∈ Bits.operands ps qs, δ.Usable i := hc.2.2
      obtain ⟨s1, h1, k1⟩ := mapToZ_clear D K h hc.1 hl hq
      obtain ⟨s2, h2, k2⟩ := ask_jointMeasure_clear D K k1 hc.2.1 (mem_useAll _ h.kept.below hq)
      simp only [Heeds, Bits.step, if_pos hl]
      refine ⟨s2, ?_, (δ.useAll (Bits.operands ps qs)).draw, ?_, ?_⟩
      · simp only [qstep, B.measure, h1, ok_bind]
        rw [show List.map Prod.snd (support ps qs) = Bits.operands ps qs from rfl, h2]
        simp only [ok_bind, unmapFromZ_idle hc.1]
        rfl
      · rw [machine_useAll]; exact k2
      · rw [machine_useAll]; rfl
    · simp only [Heeds, Bits.step, if_neg hl]
      simp only [qstep, B.measure, mapToZ_bad hl]
      rfl
  | isZero q =>
    obtain ⟨s', h1, h2⟩ := ask_isZero_clear D K (ensure_clear D K h (hu hc)) (mem_use h.kept.below (hu hc))
    refine ⟨s', ?_, δ.use q, ?_, ?_⟩
    · simp only [qstep, B.qubitIsZero, h1]; rfl
    · rw [machine_use]; exact h2
    · rw [machine_use]; rfl
  | assertProb ps qs result prob msg tol =>
    by_cases hl : ps.length = qs.length
    · have hq : ∀ i ∈ Bits.operands ps qs, δ.Usable i := hc.2.2
      obtain ⟨s1, h1, k1⟩ := mapToZ_clear D K h hc.1 hl hq
      obtain ⟨s2, h2, k2⟩ := ask_jointProbability_clear D K k1 hc.2.1 (mem_useAll _ h.kept.below hq)
      have hact : (if Back.resultEqual result (Back.resultPtr false) then
          N.sub N.one (if odd (Bits.operands ps qs) f then N.one else N.zero)
          else (if odd (Bits.operands ps qs) f then N.one else N.zero)) =
          if odd (Bits.operands ps qs) f = decide (result ≠ 0) then N.one else N.zero := by
        have hb : Back.resultEqual result (Back.resultPtr false) = decide (result = 0) := by
          by_cases hr : result = 0 <;> simp [Back.resultEqual, Back.resultPtr, hr]
        rw [hb]
        by_cases hr : result = 0 <;> cases odd (Bits.operands ps qs) f <;> simp [hr, D.one_sub, D.one_sub_one]
      have hrun : B.assertProb N lib ps qs result prob msg tol s =
          if N.lt tol (lib.abs (N.sub (if odd (Bits.operands ps qs) f = decide (result ≠ 0) then N.one else N.zero) prob))
          then .error (.fail msg) else .ok s2 := by
        simp only [B.assertProb, h1, ok_bind]
        rw [show List.map Prod.snd (support ps qs) = Bits.operands ps qs from rfl, h2]
        simp only [ok_bind, unmapFromZ_idle hc.1, hact]
      simp only [Heeds, Bits.step, if_pos hl, qstep, hrun]
      rw [show (machine δ f z).bit = f from rfl]
      by_cases hlt : N.lt tol (lib.abs (N.sub (if odd (Bits.operands ps qs) f = decide (result ≠ 0) then N.one else N.zero) prob)) = true
      · simp only [if_pos hlt]
        rfl
      · simp only [if_neg hlt]
        refine ⟨s2, rfl, ?_⟩
        rw [machine_useAll]
        exact .of k2
    · simp only [Heeds, Bits.step, if_neg hl]
      simp only [qstep, B.assertProb, mapToZ_bad hl]
      rfl
  | allocate =>
    obtain ⟨h1, h2⟩ := allocate_goes N h.kept
    refine ⟨_, by simp only [qstep, h1]; rfl, _, ⟨h2, ?_, h.samples⟩, rfl⟩
    exact allocate_known D K h.known h.unit
  | release q =>
    obtain ⟨δ', h1, h2⟩ := release_sure D K h (q := q) hc
    exact silent_sure h1 h2.symm
  | recordResult r tag =>
    obtain ⟨s', h1, h2⟩ := recorded_goes h.kept r
    have h3 := h.recorded h1 h2
    refine ⟨s', ?_, ?_⟩
    · simp only [qstep, h1, ← lines_record]; rfl
    · rw [machine_recorded]; exact .of h3
  | legacyResult r =>
    obtain ⟨s', h1, h2⟩ := recorded_goes h.kept r
    have h3 := h.recorded h1 h2
    refine ⟨s', ?_, ?_⟩
    · simp only [qstep, h1, ← lines_legacy]; rfl
    · rw [machine_recorded]; exact .of h3
  | record e hp => exact ⟨s, by simp only [qstep, lines_record], .of h⟩
  | legacy e hp => exact ⟨s, by simp only [qstep, lines_legacy], .of h⟩
  | fail msg => exact rfl
  | barrier => exact ⟨s, rfl, .of h⟩
  | reinit =>
    refine ⟨_, rfl, Ledger.init δ.rng δ.os, ⟨h.kept.fresh N, known_new D _, h.samples⟩, rfl⟩
  | sx => exact hc.elim
  | rxx => exact hc.elim
  | ryy => exact hc.elim
  | rzz => exact hc.elim
  | rCtl => exact hc.elim
  | rCtlAdj => exact hc.elim
  | exp => exact hc.elim
  | expAdj => exact hc.elim
  | expCtl => exact hc.elim
  | expCtlAdj => exact hc.elim
  | dump location =>
    have hc' : location = false := hc
    subst hc'
    obtain ⟨l, s', h1, _, _, h2⟩ := ask_dump (N := N) h.kept lib.amplitude
    obtain ⟨m, hr, rfl⟩ : ∃ m, Gen.dump N lib.amplitude s.sim = .ok (shown lib.amplitude l, m) ∧ s' = { s with sim := m } := by
      unfold ask at h1
      cases hr : Gen.dump N lib.amplitude s.sim with
      | error p => rw [hr] at h1; cases h1
      | ok r =>
        rw [hr] at h1
        obtain ⟨h3, h4⟩ := Prod.mk.inj (Except.ok.inj h1)
        exact ⟨r.2, by rw [← h3], h4.symm⟩
    have hcall : call N (.dump lib.amplitude) s.sim = .ok (.text (shown lib.amplitude l), m) := by
      simp only [call, hr]; rfl
    obtain ⟨ht, hp⟩ := call_known (c := .dump lib.amplitude) D K h.known h.unit trivial trivial hcall
    injection ht with ht
    refine ⟨_, ?_, δ, ⟨h2, hp, h.samples⟩, rfl⟩
    simp only [qstep, dumpB_text h.kept h1, ht]
    rfl
  | drawInt => exact hc.elim
  | drawDouble => exact hc.elim

theorem agrees_fresh (D : Digits N Z O) (s : GBackend F) (hu : UnitSamples N s.sim.rng) :
    Agrees N Z O (Bits.init N) (reinit N s) :=
  ⟨_, ⟨kept_reinit N s, known_new D _, hu⟩, rfl⟩

theorem Agrees.samples {m : Bits F} (h : Agrees N Z O m s) : UnitSamples N s.sim.rng := by
  obtain ⟨δ, h, _⟩ := h
  exact h.unit

end Gen
end Qir
