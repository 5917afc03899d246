import Verif.Proof.Course

/-! # The courses that a program may take: measurements, and every call -/

namespace Qir
namespace Gen
open Spec (Pauli)
open Qir.Out
open Ledger
open Back (bytesOf)

variable {F : Type} {N : Num F} {lib : Lib F} {δ δ' : Ledger F} {S S' : (ℕ → Bool) → Prop} {s : GBackend F}

theorem ask_sim {α : Type} {f : GSim F → Except Panic (α × GSim F)} {a : α} {s' : GBackend F} (h : ask f s = .ok (a, s')) :
    f s.sim = .ok (a, s'.sim) := by
  unfold ask at h
  cases hr : f s.sim with
  | error p => rw [hr] at h; cases h
  | ok r =>
    rw [hr] at h
    obtain ⟨rfl, rfl⟩ := Prod.mk.inj (Except.ok.inj h)
    rfl

theorem Trails.nonneg (h : Trails δ S s) (hr : Nonneg N δ.rng) : Nonneg N s.sim.rng := by rw [h.kept.rng]; exact hr

theorem measure_trails (h : Trails δ S s) (hr : Nonneg N δ.rng) {q : ℕ} (hq : q ∈ δ.live) :
    ∃ p s', ask (Gen.measure N q) s = .ok (N.lt (δ.rng 0) p, s') ∧
      Trails δ.draw (fun g => S g ∧ g q = N.lt (δ.rng 0) p) s' ∧ (N.lt (δ.rng 0) p = true → ∃ f, S f ∧ f q = true) := by
  obtain ⟨p, s', h1, h2⟩ := ask_measure (N := N) h.kept hq
  have hc : call N (.measure q) s.sim = .ok (.bit (N.lt (δ.rng 0) p), s'.sim) := by
    rw [call, ask_sim h1]; rfl
  obtain ⟨b, hb, hv⟩ := call_vouched h.holds (h.nonneg hr) (c := .measure q) hq hc
  injection hb with hb
  refine ⟨p, s', h1, ⟨h2, fun g hg => ?_⟩, fun ht => hv (hb ▸ ht)⟩
  obtain ⟨h3, h4⟩ := (call_holds h.holds (c := .measure q) hq hc).2.poss g hg
  injection h4 with h4
  exact ⟨h3, h4.symm⟩

theorem jointMeasure_trails (h : Trails δ S s) (hr : Nonneg N δ.rng) {qs : List ℕ} (hn : qs.Nodup)
    (hq : ∀ i ∈ qs, i ∈ δ.live) :
    ∃ p s', ask (Gen.jointMeasure N qs) s = .ok (N.lt (δ.rng 0) p, s') ∧
      Trails δ.draw (fun g => S g ∧ odd qs g = N.lt (δ.rng 0) p) s' ∧
      (N.lt (δ.rng 0) p = true → ∃ f, S f ∧ odd qs f = true) := by
  obtain ⟨p, s', h1, h2⟩ := ask_jointMeasure (N := N) h.kept hn hq
  have hc : call N (.jointMeasure qs) s.sim = .ok (.bit (N.lt (δ.rng 0) p), s'.sim) := by
    rw [call, ask_sim h1]; rfl
  obtain ⟨b, hb, hv⟩ := call_vouched h.holds (h.nonneg hr) (c := .jointMeasure qs) ⟨hn, hq⟩ hc
  injection hb with hb
  refine ⟨p, s', h1, ⟨h2, fun g hg => ?_⟩, fun ht => hv (hb ▸ ht)⟩
  obtain ⟨h3, h4⟩ := (call_holds h.holds (c := .jointMeasure qs) ⟨hn, hq⟩ hc).2.poss g hg
  injection h4 with h4
  exact ⟨h3, h4.symm⟩

theorem jointProbability_trails (h : Trails δ S s) (hr : Nonneg N δ.rng) {qs : List ℕ} (hn : qs.Nodup)
    (hq : ∀ i ∈ qs, i ∈ δ.live) :
    ∃ p s', ask (Gen.jointProbability N qs) s = .ok (p, s') ∧ Trails δ S s' ∧
      (p = N.zero ∨ ∃ f, S f ∧ odd qs f = true) := by
  obtain ⟨p, s', h1, h2⟩ := ask_jointProbability (N := N) h.kept hn hq
  have hc : call N (.jointProb qs) s.sim = .ok (.real p, s'.sim) := by
    rw [call, ask_sim h1]; rfl
  obtain ⟨b, hb, hv⟩ := call_vouched h.holds (h.nonneg hr) (c := .jointProb qs) ⟨hn, hq⟩ hc
  injection hb with hb
  exact ⟨p, s', h1, ⟨h2, (call_holds h.holds (c := .jointProb qs) ⟨hn, hq⟩ hc).2.poss⟩, hb ▸ hv⟩

theorem isZero_trails (h : Trails δ S s) (hr : Nonneg N δ.rng) {q : ℕ} (hq : q ∈ δ.live) :
    ∃ p s', ask (Gen.qubitIsZero N q) s = .ok (N.nearlyZero p, s') ∧ Trails δ S s' ∧
      (p = N.zero ∨ ∃ f, S f ∧ f q = true) := by
  obtain ⟨p, s', h1, h2⟩ := ask_isZero (N := N) h.kept hq
  have hc : call N (.isZero q) s.sim = .ok (.bit (N.nearlyZero p), s'.sim) := by
    rw [call, ask_sim h1]; rfl
  have ht : Trails δ S s' := ⟨h2, (call_holds h.holds (c := .isZero q) hq hc).2.poss⟩
  obtain ⟨b, hb, hv⟩ := call_vouched h.holds (h.nonneg hr) (c := .isZero q) hq hc
  injection hb with hb
  rcases hv with hv | hv
  · exact ⟨N.zero, s', by rw [h1, hb, hv], ht, .inl rfl⟩
  · exact ⟨p, s', h1, ht, .inr hv⟩

theorem dump_trails (h : Trails δ S s) (fmt : Cx F → String) :
    ∃ l s', ask (Gen.dump N fmt) s = .ok (shown fmt l, s') ∧ Ascending δ.live.card l ∧ Trails δ S s' ∧
      ∀ e ∈ l, ∃ f, S f ∧ Index δ.live e.1 f := by
  obtain ⟨l, s', h1, h2, _, h3⟩ := ask_dump (N := N) h.kept fmt
  have hc : call N (.dump fmt) s.sim = .ok (.text (shown fmt l), s'.sim) := by
    rw [call, ask_sim h1]; rfl
  obtain ⟨⟨l', hl, ha, hm⟩, hp⟩ := call_holds h.holds (c := .dump fmt) trivial hc
  injection hl with hl
  exact ⟨l', s', by rw [h1, hl], ha, ⟨h3, hp.poss⟩, hm⟩

/-! ### The calls of the library -/

theorem clear_trails (h : Trails δ S s) {q : ℕ} (hq : q ∈ δ.live) {b : Bool} (hb : ∀ f, S f → f q = b) :
    Runs δ (fun g => ∃ f, S f ∧ f q = b ∧ g = Function.update f q false) (if b then act (Gen.x N q) s else .ok s) := by
  cases b
  · exact ⟨s, rfl, h.mono fun f hf => ⟨f, hf, hb f hf, by
      funext r
      by_cases hr : r = q
      · subst hr; rw [Function.update_self, hb f hf]
      · rw [Function.update_of_ne hr]⟩⟩
  · refine Runs.mono (gate_trails (N := N) h hq .x) fun g ⟨f, hf, h1⟩ => ⟨f, hf, hb f hf, ?_⟩
    have h1 : g = toggle [q] f := h1
    subst h1
    funext r
    by_cases hr : r = q
    · subst hr; simp [toggle, hb f hf]
    · simp [toggle, hr]

theorem reset_trails (h : Trails δ S s) (hr : Nonneg N δ.rng) {q : ℕ} (hq : δ.Usable q) :
    ∃ p, Runs (δ.use q).draw (fun g => ∃ f, S f ∧ f q = N.lt (δ.rng 0) p ∧ g = Function.update f q false) (B.reset N q s) ∧
      (N.lt (δ.rng 0) p = true → ∃ f, S f ∧ f q = true) := by
  obtain ⟨p, s', h1, h2, h3⟩ := measure_trails (N := N) (ensure_trails N h hq) (by rw [use_rng]; exact hr)
    (mem_use h.kept.below hq)
  rw [use_rng] at h1 h2 h3
  refine ⟨p, ?_, h3⟩
  have hc := clear_trails (N := N) h2 (mem_use h.kept.below hq : q ∈ (δ.use q).draw.live) fun f hf => hf.2
  unfold B.reset
  rw [h1]
  exact Runs.mono hc fun g ⟨f, hf, h4, h5⟩ => ⟨f, hf.1, h4, h5⟩

theorem Trails.touch (h : Trails δ S s) (r : ℕ) : Trails (δ.touch r) S { s with res := Back.grow r s.res } :=
  ⟨h.kept.touch r, h.poss⟩

/-- Measuring and storing the result. -/
theorem Kept.stored {δ : Ledger F} {s' : GBackend F} {r : ℕ} {q : ℕ} (h : Kept ((δ.use q).touch r).draw s') (b : Bool) :
    Kept ((δ.use q).draw.store r b) { s' with res := s'.res.set r b } :=
  { sim := h.sim, rng := h.rng, os := h.os, high := h.high, below := h.below
    size := by rw [List.length_set]; exact h.size
    reg := fun i => by
      have hlen : r < s'.res.length := by
        rw [h.size]
        show r < max _ (r + 1)
        omega
      rw [Back.set_getD hlen, h.reg]
      show _ = Function.update (δ.use q).reg r _ i
      rw [Function.update_apply]
      rfl }

theorem mz_trails (h : Trails δ S s) (hr : Nonneg N δ.rng) {q : ℕ} (hq : δ.Usable q) (r : ℕ) :
    ∃ p, Runs ((δ.use q).draw.store r (N.lt (δ.rng 0) p)) (fun g => S g ∧ g q = N.lt (δ.rng 0) p) (B.mz N q r s) ∧
      (N.lt (δ.rng 0) p = true → ∃ f, S f ∧ f q = true) := by
  have hk := (ensure_trails N h hq).touch r
  have hm : q ∈ ((δ.use q).touch r).live := mem_use h.kept.below hq
  have hg : ((δ.use q).touch r).rng = δ.rng := use_rng q
  obtain ⟨p, s', h1, h2, h3⟩ := measure_trails (N := N) hk (by rw [hg]; exact hr) hm
  rw [hg] at h1 h2 h3
  refine ⟨p, ⟨_, ?_, h2.kept.stored _, h2.poss⟩, h3⟩
  unfold B.mz
  simp only [h1]
  rfl

theorem mresetz_trails (h : Trails δ S s) (hr : Nonneg N δ.rng) {q : ℕ} (hq : δ.Usable q) (r : ℕ) :
    ∃ p, Runs ((δ.use q).draw.store r (N.lt (δ.rng 0) p))
        (fun g => ∃ f, S f ∧ f q = N.lt (δ.rng 0) p ∧ g = Function.update f q false) (B.mresetz N q r s) ∧
      (N.lt (δ.rng 0) p = true → ∃ f, S f ∧ f q = true) := by
  have hk := (ensure_trails N h hq).touch r
  have hm : q ∈ ((δ.use q).touch r).live := mem_use h.kept.below hq
  have hg : ((δ.use q).touch r).rng = δ.rng := use_rng q
  obtain ⟨p, s', h1, h2, h3⟩ := measure_trails (N := N) hk (by rw [hg]; exact hr) hm
  rw [hg] at h1 h2 h3
  obtain ⟨s'', h4, h5⟩ := clear_trails (N := N) h2 (hm : q ∈ ((δ.use q).touch r).draw.live) fun f hf => hf.2
  refine ⟨p, ⟨{ s'' with res := s''.res.set r (N.lt (δ.rng 0) p) }, ?_, h5.kept.stored _, fun f hf => ?_⟩, h3⟩
  · unfold B.mresetz
    simp only [h1]
    show (if N.lt (δ.rng 0) p = true then (act (Gen.x N q) s' >>= fun s => _) else _) = _
    cases hb : N.lt (δ.rng 0) p with
    | false =>
      rw [hb] at h4
      have : s' = s'' := Except.ok.inj h4
      rw [this]
      rfl
    | true =>
      rw [hb] at h4
      have h4' : act (Gen.x N q) s' = .ok s'' := h4
      rw [if_pos rfl, h4']
      rfl
  · obtain ⟨e, he, h6, h7⟩ := h5.poss f hf
    exact ⟨e, he.1, h6, h7⟩

theorem m_trails (h : Trails δ S s) (hr : Nonneg N δ.rng) {q : ℕ} (hq : δ.Usable q) :
    ∃ p s', B.m N q s = .ok (pointer (N.lt (δ.rng 0) p), s') ∧
      Trails (δ.use q).draw (fun g => S g ∧ g q = N.lt (δ.rng 0) p) s' ∧
      (N.lt (δ.rng 0) p = true → ∃ f, S f ∧ f q = true) := by
  obtain ⟨p, s', h1, h2, h3⟩ := measure_trails (N := N) (ensure_trails N h hq) (by rw [use_rng]; exact hr)
    (mem_use h.kept.below hq)
  rw [use_rng] at h1 h2 h3
  refine ⟨p, s', ?_, h2, h3⟩
  unfold B.m
  rw [h1, ← resultPtr_pointer]
  rfl

/-! ### Bases -/

theorem mem_flipped {ps : List Pauli} {qs : List ℕ} {pq : Pauli × ℕ} (h : pq ∈ support ps qs) (hp : pq.1 = .X ∨ pq.1 = .Y) :
    pq.2 ∈ flipped ps qs := by
  unfold flipped
  refine List.mem_map_of_mem (List.mem_filter.2 ⟨(List.mem_filter.1 h).1, ?_⟩)
  simpa using hp

theorem act_off {qs : List ℕ} (h : Trails δ (img (Off qs) S) s) {q : ℕ} (hq : q ∈ δ.live) (hm : q ∈ qs) (a : GGate F) :
    Runs δ (img (Off qs) S) (act (Gen.gateCall N q a) s) := by
  refine (gate_trails h hq a).mono ?_
  rintro g ⟨f, ⟨e, he, h1⟩, h2⟩
  exact ⟨e, he, h1.trans ((acts_off h2).sub (by simpa using hm))⟩

theorem mapOne_trails {qs : List ℕ} {pq : Pauli × ℕ} (hq : pq.2 ∈ δ.live) (hp : pq.1 = .X ∨ pq.1 = .Y → pq.2 ∈ qs)
    (s : GBackend F) (h : Trails δ (img (Off qs) S) s) : Runs δ (img (Off qs) S) (B.mapOne N pq s) := by
  obtain ⟨p, q⟩ := pq
  cases p with
  | I => exact ⟨s, rfl, h⟩
  | Z => exact ⟨s, rfl, h⟩
  | X => exact act_off (N := N) h hq (hp (.inl rfl)) .h
  | Y =>
    have hm := hp (.inr rfl)
    exact (act_off (N := N) h hq hm .h).bind fun s h => (act_off h hq hm .s).bind fun s h => act_off (N := N) h hq hm .h

theorem unmapOne_trails {qs : List ℕ} {pq : Pauli × ℕ} (hq : pq.2 ∈ δ.live) (hp : pq.1 = .X ∨ pq.1 = .Y → pq.2 ∈ qs)
    (s : GBackend F) (h : Trails δ (img (Off qs) S) s) : Runs δ (img (Off qs) S) (B.unmapOne N pq s) := by
  obtain ⟨p, q⟩ := pq
  cases p with
  | I => exact ⟨s, rfl, h⟩
  | Z => exact ⟨s, rfl, h⟩
  | X => exact act_off (N := N) h hq (hp (.inl rfl)) .h
  | Y =>
    have hm := hp (.inr rfl)
    exact (act_off (N := N) h hq hm .h).bind fun s h => (act_off h hq hm .sadj).bind fun s h => act_off (N := N) h hq hm .h

theorem forEach_trails {α : Type} {f : α → GBackend F → Except GStop (GBackend F)} (l : List α)
    (hf : ∀ a ∈ l, ∀ s, Trails δ S s → Runs δ S (f a s)) : ∀ s, Trails δ S s → Runs δ S (forEach f l s) := by
  induction l with
  | nil => intro s h; exact ⟨s, rfl, h⟩
  | cons a l ih =>
    intro s h
    exact (hf a (by simp) s h).bind fun s h => ih (fun a ha => hf a (by simp [ha])) s h

theorem mapToZ_trails (h : Trails δ S s) {ps : List Pauli} {qs : List ℕ} (hl : ps.length = qs.length)
    (hq : ∀ i ∈ (support ps qs).map Prod.snd, δ.Usable i) :
    ∃ s', B.mapToZ N ps qs s = .ok (support ps qs, s') ∧
      Trails (δ.useAll ((support ps qs).map Prod.snd)) (img (Off (flipped ps qs)) S) s' := by
  obtain ⟨s', h1, h2⟩ := forEach_trails (f := B.mapOne N) (support ps qs)
    (fun pq hpq => mapOne_trails (mem_useAll _ h.kept.below hq _ (List.mem_map_of_mem hpq)) (mem_flipped hpq)) _
    ((ensureAll_trails N _ h hq).off (flipped ps qs))
  refine ⟨s', ?_, h2⟩
  unfold B.mapToZ
  rw [if_neg (by simpa using hl)]
  simp only [support_eq, h1]
  rfl

theorem unmapFromZ_trails (h : Trails δ S s) {ps : List Pauli} {qs : List ℕ}
    (hq : ∀ i ∈ (support ps qs).map Prod.snd, i ∈ δ.live) :
    Runs δ (img (Off (flipped ps qs)) S) (B.unmapFromZ N (support ps qs) s) :=
  forEach_trails (support ps qs) (fun _ hpq => unmapOne_trails (hq _ (List.mem_map_of_mem hpq)) (mem_flipped hpq)) s
    (h.off _)

theorem jointB_trails (h : Trails δ S s) (hr : Nonneg N δ.rng) {ps : List Pauli} {qs : List ℕ} (hl : ps.length = qs.length)
    (hn : ((support ps qs).map Prod.snd).Nodup) (hq : ∀ i ∈ (support ps qs).map Prod.snd, δ.Usable i) :
    ∃ p s', B.measure N ps qs s = .ok (pointer (N.lt (δ.rng 0) p), s') ∧
      Trails (δ.useAll ((support ps qs).map Prod.snd)).draw (fun g => ∃ f h, S f ∧ Off (flipped ps qs) f h ∧
        odd (involved ps qs) h = N.lt (δ.rng 0) p ∧ Off (flipped ps qs) h g) s' ∧
      (N.lt (δ.rng 0) p = true → ∃ f h, S f ∧ Off (flipped ps qs) f h ∧ odd (involved ps qs) h = true) := by
  obtain ⟨s1, h1, k1⟩ := mapToZ_trails (N := N) h hl hq
  have hm := mem_useAll _ h.kept.below hq
  obtain ⟨p, s2, h2, k2, k3⟩ := jointMeasure_trails (N := N) k1 (by rw [useAll_rng]; exact hr) hn hm
  obtain ⟨s3, h3, k4⟩ := unmapFromZ_trails (N := N) k2 hm
  rw [useAll_rng] at h2 k3 k4
  refine ⟨p, s3, ?_, k4.mono ?_, fun ht => ?_⟩
  · unfold B.measure
    simp only [h1]
    show (ask _ s1 >>= _) = _
    rw [h2]
    show (B.unmapFromZ N _ s2 >>= _) = _
    rw [h3, ← resultPtr_pointer]
    rfl
  · rintro g ⟨e, ⟨⟨f, hf, h4⟩, h5⟩, h6⟩
    exact ⟨f, e, hf, h4, h5, h6⟩
  · obtain ⟨e, ⟨f, hf, h4⟩, h5⟩ := k3 ht
    exact ⟨f, e, hf, h4, h5⟩

theorem assertProb_trails (h : Trails δ S s) (hr : Nonneg N δ.rng) {ps : List Pauli} {qs : List ℕ}
    (hl : ps.length = qs.length) (hn : ((support ps qs).map Prod.snd).Nodup)
    (hq : ∀ i ∈ (support ps qs).map Prod.snd, δ.Usable i) (result : ℕ) (prob : F) (msg : List Char) (tol : F) :
    ∃ p, (if N.lt tol (lib.abs (N.sub (if result = 0 then N.sub N.one p else p) prob)) then
        B.assertProb N lib ps qs result prob msg tol s = .error (.fail msg)
      else Runs (δ.useAll ((support ps qs).map Prod.snd)) (fun g => ∃ f, S f ∧ Off (flipped ps qs) f g)
        (B.assertProb N lib ps qs result prob msg tol s)) ∧
      (p = N.zero ∨ ∃ f h, S f ∧ Off (flipped ps qs) f h ∧ odd (involved ps qs) h = true) := by
  obtain ⟨s1, h1, k1⟩ := mapToZ_trails (N := N) h hl hq
  have hm := mem_useAll _ h.kept.below hq
  obtain ⟨p, s2, h2, k2, k3⟩ := jointProbability_trails (N := N) k1 (by rw [useAll_rng]; exact hr) hn hm
  have hu := unmapFromZ_trails (N := N) k2 hm
  refine ⟨p, ?_, k3.imp id fun ⟨e, ⟨f, hf, h4⟩, h5⟩ => ⟨f, e, hf, h4, h5⟩⟩
  have he : B.assertProb N lib ps qs result prob msg tol s =
      if N.lt tol (lib.abs (N.sub (if result = 0 then N.sub N.one p else p) prob)) then .error (.fail msg)
      else B.unmapFromZ N (support ps qs) s2 := by
    unfold B.assertProb
    simp only [h1]
    show (ask _ s1 >>= _) = _
    rw [h2]
    have hb : Back.resultEqual result (Back.resultPtr false) = decide (result = 0) := by
      by_cases hr : result = 0 <;> simp [Back.resultEqual, Back.resultPtr, hr]
    show (if N.lt tol (lib.abs (N.sub (if Back.resultEqual result (Back.resultPtr false) = true then _ else _) prob)) = true
      then _ else _) = _
    rw [hb]
    simp only [decide_eq_true_eq]
  rw [he]
  by_cases hlt : N.lt tol (lib.abs (N.sub (if result = 0 then N.sub N.one p else p) prob)) = true
  · rw [if_pos hlt, if_pos hlt]
  · rw [if_neg hlt, if_neg hlt]
    exact hu.mono fun g ⟨e, ⟨f, hf, h4⟩, h5⟩ => ⟨f, hf, h4.trans h5⟩

theorem release_trails (h : Trails δ S s) {q : ℕ} (hq : q ∈ δ.live) :
    Runs (if δ.live = {q} then { δ with live := ∅ } else { δ.draw with live := δ.live.erase q })
      (fun g => if δ.live = {q} then allZero g else ∃ f, S f ∧ g = Function.update f q false) (B.qubitRelease N q s) := by
  obtain ⟨s', h1, h2⟩ := release_goes (N := N) h.kept hq
  refine ⟨s', h1, h2, fun g hg => ?_⟩
  have hc : call N (.release q) s.sim = .ok (.none, s'.sim) := by
    unfold B.qubitRelease act at h1
    cases hr : Gen.release N q s.sim with
    | error p => rw [hr] at h1; cases h1
    | ok m =>
      rw [hr] at h1
      have : { s with sim := m } = s' := Except.ok.inj h1
      subst this
      show quiet (Gen.release N q s.sim) = _
      rw [hr]; rfl
  have hp := (call_holds h.holds (c := .release q) hq hc).2.poss g hg
  have he : δ.live.card = 1 ↔ δ.live = {q} := by
    constructor
    · intro hc
      obtain ⟨a, ha⟩ := Finset.card_eq_one.1 hc
      rw [ha] at hq ⊢
      rw [Finset.mem_singleton.1 hq]
    · intro hc
      rw [hc]; rfl
  simp only [possible, he] at hp
  split
  · rename_i hs
    rw [if_pos hs] at hp
    exact hp
  · rename_i hs
    rw [if_neg hs] at hp
    obtain ⟨f, hf, rfl⟩ := hp
    refine ⟨f, hf, ?_⟩
    funext r
    rw [Function.update_apply]

theorem allocate_trails (N : Num F) (h : Trails δ S s) :
    (B.qubitAllocate s).1 = leastFree δ.live ∧
      Trails { δ with live := insert (leastFree δ.live) δ.live, high := max δ.high (leastFree δ.live + 1) } S
        (B.qubitAllocate s).2 :=
  ⟨(allocate_goes N h.kept).1, (allocate_goes N h.kept).2, fun f hf => h.poss f (allocate_shr h.kept.books.inv f hf)⟩

theorem trails_reinit (N : Num F) (s : GBackend F) : Trails (init s.sim.rng s.os) allZero (Gen.reinit N s) :=
  ⟨kept_reinit N s, (holds_new N s.sim.rng).poss⟩

end Gen
end Qir
