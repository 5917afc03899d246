import Verif.Proof.GenericBack

/-! # The backend under an arbitrary arithmetic: every call -/

namespace Qir
namespace Gen
open Spec (Pauli)
open Qir.Out
open Ledger
open Back (bytesOf)

variable {F : Type} {N : Num F} {lib : Lib F} {δ : Ledger F} {s : GBackend F}

/-- What a call of the library does, seen from the ledger. -/
def Obeys (N : Num F) (lib : Lib F) (δ : Ledger F) (c : GQCall F) (o : Open F) (s : GBackend F) : Prop :=
  match δ.step N lib o c with
  | .error m => qstep N lib c s = .error (.fail m)
  | .ok (a, out, δ') => ∃ s', qstep N lib c s = .ok (a, out, s') ∧ Kept δ' s'

theorem silent_goes {δ' : Ledger F} {r : Except GStop (GBackend F)} (h : Fine δ' r) :
    ∃ s', silent r = .ok (GAns.unit, [], s') ∧ Kept δ' s' := by
  obtain ⟨s', rfl, h'⟩ := h
  exact ⟨s', rfl, h'⟩

theorem Kept.drewWords (h : Kept δ s) : Kept δ.words (drew s) :=
  { sim := h.sim, rng := h.rng, os := by rw [drew, h.os]; rfl, high := h.high, below := h.below, size := h.size, reg := h.reg }

theorem resultPtr_pointer (b : Bool) : Back.resultPtr b = pointer b := by cases b <;> rfl

theorem reset_fine (h : Kept δ s) {q : ℕ} (hq : δ.Usable q) : Fine (δ.use q).draw (B.reset N q s) := by
  obtain ⟨p, s', h1, h2⟩ := ask_measure (N := N) (ensure_kept N h hq) (mem_use h.below hq)
  unfold B.reset
  rw [h1]
  exact h2.clear (mem_use h.below hq) _

theorem use_touch (q r : ℕ) : (δ.use q).touch r = (δ.touch r).use q := by
  unfold use touch
  split <;> rfl

theorem mz_goes (h : Kept δ s) {q r : ℕ} (hq : δ.Usable q) :
    ∃ p, Fine ((δ.use q).draw.store r (N.lt (δ.rng 0) p)) (B.mz N q r s) := by
  have hk := (ensure_kept N h hq).touch r
  have hm : q ∈ ((δ.use q).touch r).live := mem_use h.below hq
  obtain ⟨p, s', h1, h2⟩ := ask_measure (N := N) hk hm
  refine ⟨p, ?_⟩
  have hr : ((δ.use q).touch r).rng 0 = δ.rng 0 := congrFun (use_rng q) 0
  rw [hr] at h1
  have hrun : B.mz N q r s = .ok { s' with res := s'.res.set r (N.lt (δ.rng 0) p) } := by
    unfold B.mz
    simp only [h1]
    rfl
  refine ⟨_, hrun, ?_⟩
  exact { sim := h2.sim, rng := h2.rng, os := h2.os, high := h2.high, below := h2.below
          size := by rw [List.length_set]; exact h2.size
          reg := fun i => by
            have hlen : r < s'.res.length := by
              rw [h2.size]
              show r < max _ (r + 1)
              omega
            rw [Back.set_getD hlen, h2.reg]
            show _ = Function.update (δ.use q).reg r _ i
            rw [Function.update_apply]
            rfl }

theorem mresetz_goes (h : Kept δ s) {q r : ℕ} (hq : δ.Usable q) :
    ∃ p, Fine ((δ.use q).draw.store r (N.lt (δ.rng 0) p)) (B.mresetz N q r s) := by
  have hk := (ensure_kept N h hq).touch r
  have hm : q ∈ ((δ.use q).touch r).live := mem_use h.below hq
  obtain ⟨p, s', h1, h2⟩ := ask_measure (N := N) hk hm
  refine ⟨p, ?_⟩
  have hr : ((δ.use q).touch r).rng 0 = δ.rng 0 := congrFun (use_rng q) 0
  rw [hr] at h1
  obtain ⟨s'', h3, h4⟩ := h2.clear (N := N) hm (N.lt (δ.rng 0) p)
  have hrun : B.mresetz N q r s = .ok { s'' with res := s''.res.set r (N.lt (δ.rng 0) p) } := by
    unfold B.mresetz
    simp only [h1]
    show (if N.lt (δ.rng 0) p = true then (act (Gen.x N q) s' >>= fun s => _) else _) = _
    cases hb : N.lt (δ.rng 0) p with
    | false =>
      rw [hb] at h3
      have : s' = s'' := Except.ok.inj h3
      rw [this]
      rfl
    | true =>
      rw [hb] at h3
      have h3' : act (Gen.x N q) s' = .ok s'' := h3
      rw [if_pos rfl, h3']
      rfl
  refine ⟨_, hrun, ?_⟩
  exact { sim := h4.sim, rng := h4.rng, os := h4.os, high := h4.high, below := h4.below
          size := by rw [List.length_set]; exact h4.size
          reg := fun i => by
            have hlen : r < s''.res.length := by
              rw [h4.size]
              show r < max _ (r + 1)
              omega
            rw [Back.set_getD hlen, h4.reg]
            show _ = Function.update (δ.use q).reg r _ i
            rw [Function.update_apply]
            rfl }

theorem m_goes (h : Kept δ s) {q : ℕ} (hq : δ.Usable q) :
    ∃ p s', B.m N q s = .ok (pointer (N.lt (δ.rng 0) p), s') ∧ Kept (δ.use q).draw s' := by
  obtain ⟨p, s', h1, h2⟩ := ask_measure (N := N) (ensure_kept N h hq) (mem_use h.below hq)
  rw [use_rng] at h1
  refine ⟨p, s', ?_, h2⟩
  unfold B.m
  rw [h1, ← resultPtr_pointer]
  rfl

theorem jointB_goes (h : Kept δ s) {ps : List Pauli} {qs : List ℕ} (hl : ps.length = qs.length)
    (hn : ((support ps qs).map Prod.snd).Nodup) (hq : ∀ i ∈ (support ps qs).map Prod.snd, δ.Usable i) :
    ∃ p s', B.measure N ps qs s = .ok (pointer (N.lt (δ.rng 0) p), s') ∧
      Kept (δ.useAll ((support ps qs).map Prod.snd)).draw s' := by
  obtain ⟨s1, h1, k1⟩ := mapToZ_fine (N := N) h hl hq
  have hm := mem_useAll _ h.below hq
  obtain ⟨p, s2, h2, k2⟩ := ask_jointMeasure (N := N) k1 hn hm
  obtain ⟨s3, h3, k3⟩ := unmapFromZ_fine (N := N) k2 hm
  rw [useAll_rng] at h2
  refine ⟨p, s3, ?_, k3⟩
  unfold B.measure
  simp only [h1]
  show (ask _ s1 >>= _) = _
  rw [h2]
  show (B.unmapFromZ N _ s2 >>= _) = _
  rw [h3, ← resultPtr_pointer]
  rfl

theorem mapToZ_bad {ps : List Pauli} {qs : List ℕ} (hl : ps.length ≠ qs.length) :
    B.mapToZ N ps qs s = .error (.fail sizeText) := by
  unfold B.mapToZ
  rw [if_pos hl]
  rfl

theorem assertProb_goes (h : Kept δ s) {ps : List Pauli} {qs : List ℕ} (hl : ps.length = qs.length)
    (hn : ((support ps qs).map Prod.snd).Nodup) (hq : ∀ i ∈ (support ps qs).map Prod.snd, δ.Usable i) (result : ℕ) (prob : F)
    (msg : List Char) (tol : F) :
    ∃ p, if N.lt tol (lib.abs (N.sub (if result = 0 then N.sub N.one p else p) prob)) then
        B.assertProb N lib ps qs result prob msg tol s = .error (.fail msg)
      else Fine (δ.useAll ((support ps qs).map Prod.snd)) (B.assertProb N lib ps qs result prob msg tol s) := by
  obtain ⟨s1, h1, k1⟩ := mapToZ_fine (N := N) h hl hq
  have hm := mem_useAll _ h.below hq
  obtain ⟨p, s2, h2, k2⟩ := ask_jointProbability (N := N) k1 hn hm
  have hu := unmapFromZ_fine (N := N) k2 hm
  refine ⟨p, ?_⟩
  have he : B.assertProb N lib ps qs result prob msg tol s =
      if N.lt tol (lib.abs (N.sub (if result = 0 then N.sub N.one p else p) prob)) then .error (.fail msg)
      else B.unmapFromZ N (support ps qs) s2 := by
    unfold B.assertProb
    simp only [h1]
    show (ask _ s1 >>= _) = _
    rw [h2]
    have hb : Back.resultEqual result (Back.resultPtr false) = decide (result = 0) := by
      by_cases hr : result = 0 <;> simp [Back.resultEqual, Back.resultPtr, hr]
    show (if N.lt tol (lib.abs (N.sub (if Back.resultEqual result (Back.resultPtr false) = true then _ else _) prob)) = true
      then _ else _) = _
    rw [hb]
    simp only [decide_eq_true_eq]
  rw [he]
  by_cases hlt : N.lt tol (lib.abs (N.sub (if result = 0 then N.sub N.one p else p) prob)) = true
  · rw [if_pos hlt, if_pos hlt]
  · rw [if_neg hlt, if_neg hlt]
    exact hu

theorem recorded_goes (h : Kept δ s) (r : ℕ) :
    ∃ s', B.recordedResult r s = .ok (δ.resultValue r, s') ∧ Kept (δ.recorded r) s' := by
  unfold B.recordedResult resultValue recorded
  by_cases hz : δ.size = 0
  · have : s.res.isEmpty = true := by
      have := h.size
      rw [hz] at this
      exact List.isEmpty_iff.2 (List.length_eq_zero_iff.1 this)
    rw [if_pos this, if_pos hz, if_pos hz]
    refine ⟨s, ?_, h⟩
    congr 1
  · have : ¬ s.res.isEmpty = true := by
      have := h.size
      intro he
      rw [List.isEmpty_iff] at he
      rw [he] at this
      exact hz this.symm
    rw [if_neg this, if_neg hz, if_neg hz]
    refine ⟨_, ?_, h.touch r⟩
    simp only [Back.grow_get?, h.reg]

theorem readResult_goes (h : Kept δ s) (r : ℕ) :
    ∃ s', B.readResult r s = .ok (δ.reg r, s') ∧ Kept (δ.touch r) s' := by
  refine ⟨_, ?_, h.touch r⟩
  unfold B.readResult
  simp only [Back.grow_get?, h.reg]

theorem allocate_goes (N : Num F) (h : Kept δ s) :
    (B.qubitAllocate s).1 = leastFree δ.live ∧
      Kept { δ with live := insert (leastFree δ.live) δ.live, high := max δ.high (leastFree δ.live + 1) }
        (B.qubitAllocate s).2 := by
  obtain ⟨h1, h2, h3⟩ := allocate_books N h.books
  refine ⟨h1, ?_⟩
  exact { sim := h2.sound, rng := h3.trans h.rng, os := h.os
          high := by show Nat.max s.max ((allocate s.sim).1 + 1) = _; rw [h1, h.high]
          below := fun i hi => by
            rcases Finset.mem_insert.1 hi with rfl | hi
            · show _ < max _ _; omega
            · have := h.below i hi
              show i < max _ _
              omega
          size := h.size, reg := h.reg }

theorem release_goes (h : Kept δ s) {q : ℕ} (hq : q ∈ δ.live) :
    Fine (if δ.live = {q} then { δ with live := ∅ } else { δ.draw with live := δ.live.erase q }) (B.qubitRelease N q s) := by
  obtain ⟨o, m, h1, _, h3, h4⟩ := call_goes (N := N) h.books (.release q) hq
  unfold B.qubitRelease act
  have hf : call N (.release q) s.sim = quiet (Gen.release N q s.sim) := rfl
  rw [hf] at h1
  cases hr : Gen.release N q s.sim with
  | error p => rw [hr] at h1; cases h1
  | ok m' =>
    rw [hr] at h1
    have : m' = m := (Prod.mk.inj (Except.ok.inj h1)).2
    subst this
    have h3' : Books (δ.live.erase q) m' := h3
    refine ⟨_, rfl, ?_⟩
    have hb : ∀ i ∈ δ.live.erase q, i < δ.high := fun i hi => h.below i (Finset.mem_of_mem_erase hi)
    by_cases hs : δ.live = {q}
    · rw [if_pos hs]
      have hd : drawn δ.live (GCall.release (F := F) q) = 0 := by simp [drawn, hs]
      rw [hd] at h4
      have he : δ.live.erase q = ∅ := by rw [hs]; simp
      rw [he] at h3'
      exact h.swapSim h3' (h4.trans h.rng) (by simp)
    · rw [if_neg hs]
      have hd : drawn δ.live (GCall.release (F := F) q) = 1 := by
        have hc : ¬ δ.live.card = 1 := fun hc => by
          obtain ⟨a, ha⟩ := Finset.card_eq_one.1 hc
          rw [ha] at hq hs
          exact hs (by rw [Finset.mem_singleton.1 hq])
        simp [drawn, hc]
      rw [hd] at h4
      exact h.swapSim h3' (by rw [h4, h.rng]; rfl) hb

theorem dumpB_text (h : Kept δ s) {t : String} {s' : GBackend F} (h1 : ask (Gen.dump N lib.amplitude) s = .ok (t, s')) :
    B.dumpMachine N lib false s = .ok
      ((if δ.size = 0 then [] else Run.utf8 "Global Results: " ++ lib.bits ((List.range δ.size).map δ.reg) ++ [10]) ++
        Run.utf8 t, s') := by
  have hres : s.res = (List.range δ.size).map δ.reg := by
    refine List.ext_getElem? fun i => ?_
    have hi := h.reg i
    rw [List.getD_eq_getElem?_getD] at hi
    by_cases hlt : i < δ.size
    · rw [List.getElem?_map, List.getElem?_range hlt]
      have hl : i < s.res.length := by rw [h.size]; exact hlt
      rw [List.getElem?_eq_getElem hl] at hi ⊢
      simpa using hi
    · rw [List.getElem?_eq_none (by rw [h.size]; omega), List.getElem?_eq_none (by simp; omega)]
  unfold B.dumpMachine
  simp only [h1]
  have he : s.res.isEmpty = decide (δ.size = 0) := by
    rw [← h.size]
    cases s.res <;> simp
  show Except.ok ((if s.res.isEmpty = true then _ else _) ++ _, s') = _
  rw [he, hres]
  simp only [decide_eq_true_eq]
  rfl

theorem dumpB_goes (h : Kept δ s) :
    ∃ l s', Ascending δ.live.card l ∧ B.dumpMachine N lib false s = .ok
      ((if δ.size = 0 then [] else Run.utf8 "Global Results: " ++ lib.bits ((List.range δ.size).map δ.reg) ++ [10]) ++
        Run.utf8 (shown lib.amplitude l), s') ∧ Kept δ s' :=
  let ⟨l, s', h1, h2, _, h4⟩ := ask_dump (N := N) h lib.amplitude
  ⟨l, s', h2, dumpB_text h h1, h4⟩

theorem kept_reinit (N : Num F) (s : GBackend F) : Kept (init s.sim.rng s.os) (Gen.reinit N s) :=
  { sim := (books_new N s.sim.rng).sound
    rng := rfl, os := rfl, high := rfl, below := fun q hq => absurd hq (by simp [init]), size := rfl
    reg := fun r => by simp [Gen.reinit, init] }

theorem Kept.fresh (N : Num F) (h : Kept δ s) : Kept (init δ.rng δ.os) (Gen.reinit N s) := by
  have := kept_reinit N s
  rwa [h.rng, h.os] at this

theorem kept_init (N : Num F) (rng : ℕ → F) (os : ℕ → ℕ) : Kept (init rng os) (GBackend.new N rng os) :=
  { sim := (books_new N rng).sound
    rng := rfl, os := rfl, high := rfl, below := fun q hq => absurd hq (by simp [init]), size := rfl
    reg := fun r => by simp [GBackend.new, init] }

theorem lines_record (e : Record) : bytesOf (emit e) = lines [.record e] := by
  rw [Back.bytesOf_emit]
  simp [lines, Event.line]

theorem lines_legacy (e : Legacy) : bytesOf (emitLegacy e) = lines [.legacy e] := by
  rw [Back.bytesOf_legacy]
  simp [lines]

/-- Every allowed call of the library: what it answers, writes and leaves. -/
theorem qcall_goes (h : Kept δ s) (c : GQCall F) (hc : δ.Allows N lib c) :
    ∃ o : Open F, Ascending δ.live.card o.entries ∧ Obeys N lib δ c o s := by
  have triv : ∀ p : F, Ascending δ.live.card (Open.mk p ([] : List (ℕ × Cx F))).entries := fun p =>
    ⟨List.Pairwise.nil, by simp⟩
  have any : ∀ {P : Open F → Prop}, (∀ o, P o) → ∃ o : Open F, Ascending δ.live.card o.entries ∧ P o := fun hP =>
    ⟨⟨N.one, []⟩, triv _, hP _⟩
  cases c with
  | gate g q => exact any fun _ => silent_goes (gate_fine h hc g)
  | ctl g cs q => exact any fun _ => silent_goes (ctl_fine h hc.1 hc.2 g)
  | sx q => exact any fun _ => silent_goes (sx_fine h hc)
  | rxx θ a b => exact any fun _ => silent_goes (rxx_fine h hc.1 hc.2.1 hc.2.2 θ)
  | ryy θ a b => exact any fun _ => silent_goes (ryy_fine h hc.1 hc.2.1 hc.2.2 θ)
  | rzz θ a b => exact any fun _ => silent_goes (rzz_fine h hc.1 hc.2.1 hc.2.2 θ)
  | r p θ q => exact any fun _ => silent_goes (r_fine h hc θ)
  | rAdj p θ q => exact any fun _ => silent_goes (r_fine h hc _)
  | rCtl cs p θ q => exact any fun _ => silent_goes (rCtl_fine h hc.1 hc.2 θ)
  | rCtlAdj cs p θ q => exact any fun _ => silent_goes (rCtl_fine h hc.1 hc.2 _)
  | exp ps θ qs => exact any fun _ => silent_goes (exp_fine h hc.1 hc.2.1 hc.2.2 θ)
  | expAdj ps θ qs => exact any fun _ => silent_goes (exp_fine h hc.1 hc.2.1 hc.2.2 _)
  | expCtl cs ps θ qs => exact any fun _ => silent_goes (expCtl_fine h hc.1 hc.2.1 hc.2.2 θ)
  | expCtlAdj cs ps θ qs => exact any fun _ => silent_goes (expCtl_fine h hc.1 hc.2.1 hc.2.2 _)
  | swap a b => exact any fun _ => silent_goes (swap_fine h hc.1 hc.2)
  | reset q => exact any fun _ => silent_goes (reset_fine h hc)
  | mresetz q r =>
    obtain ⟨p, hp⟩ := mresetz_goes (N := N) h (r := r) hc
    exact ⟨⟨p, []⟩, triv p, silent_goes hp⟩
  | mz q r =>
    obtain ⟨p, hp⟩ := mz_goes (N := N) h (r := r) hc
    exact ⟨⟨p, []⟩, triv p, silent_goes hp⟩
  | readResult r =>
    obtain ⟨s', h1, h2⟩ := readResult_goes h r
    exact any fun _ => ⟨s', by simp only [qstep, h1]; rfl, h2⟩
  | writeResult v r => exact any fun _ => ⟨_, rfl, h.store r v⟩
  | m q =>
    obtain ⟨p, s', h1, h2⟩ := m_goes (N := N) h hc
    exact ⟨⟨p, []⟩, triv p, s', by simp only [qstep, h1]; rfl, h2⟩
  | measure ps qs =>
    by_cases hl : ps.length = qs.length
    · obtain ⟨p, s', h1, h2⟩ := jointB_goes (N := N) h hl hc.1 hc.2
      refine ⟨⟨p, []⟩, triv p, ?_⟩
      simp only [Obeys, Ledger.step, if_pos hl]
      exact ⟨s', by simp only [qstep, h1]; rfl, h2⟩
    · refine any fun _ => ?_
      simp only [Obeys, Ledger.step, if_neg hl]
      simp only [qstep, B.measure, mapToZ_bad hl]
      rfl
  | isZero q =>
    obtain ⟨p, s', h1, h2⟩ := ask_isZero (N := N) (ensure_kept N h hc) (mem_use h.below hc)
    exact ⟨⟨p, []⟩, triv p, s', by simp only [qstep, B.qubitIsZero, h1]; rfl, h2⟩
  | assertProb ps qs result prob msg tol =>
    by_cases hl : ps.length = qs.length
    · obtain ⟨p, hp⟩ := assertProb_goes (N := N) (lib := lib) h hl hc.1 hc.2 result prob msg tol
      refine ⟨⟨p, []⟩, triv p, ?_⟩
      simp only [Obeys, Ledger.step, if_pos hl]
      by_cases hlt : N.lt tol (lib.abs (N.sub (if result = 0 then N.sub N.one p else p) prob)) = true
      · rw [if_pos hlt] at hp ⊢
        simp only [qstep, hp]
        rfl
      · rw [if_neg hlt] at hp ⊢
        exact silent_goes hp
    · refine any fun _ => ?_
      simp only [Obeys, Ledger.step, if_neg hl]
      simp only [qstep, B.assertProb, mapToZ_bad hl]
      rfl
  | allocate =>
    obtain ⟨h1, h2⟩ := allocate_goes N h
    exact any fun _ => ⟨_, by simp only [qstep, h1], h2⟩
  | release q => exact any fun _ => silent_goes (release_goes h hc)
  | recordResult r tag =>
    obtain ⟨s', h1, h2⟩ := recorded_goes h r
    refine any fun _ => ⟨s', ?_, h2⟩
    simp only [qstep, h1, ← lines_record]
    rfl
  | legacyResult r =>
    obtain ⟨s', h1, h2⟩ := recorded_goes h r
    refine any fun _ => ⟨s', ?_, h2⟩
    simp only [qstep, h1, ← lines_legacy]
    rfl
  | record e hp => exact any fun _ => ⟨s, by simp only [qstep, lines_record], h⟩
  | legacy e hp => exact any fun _ => ⟨s, by simp only [qstep, lines_legacy], h⟩
  | fail msg => exact any fun _ => rfl
  | dump location =>
    have hc' : location = false := hc
    subst hc'
    obtain ⟨l, s', h1, h2, h3⟩ := dumpB_goes (N := N) (lib := lib) h
    exact ⟨⟨N.one, l⟩, h1, s', by simp only [qstep, h2]; rfl, h3⟩
  | barrier => exact any fun _ => ⟨s, rfl, h⟩
  | reinit => exact any fun _ => ⟨_, rfl, h.fresh N⟩
  | drawInt min max =>
    refine any fun _ => ?_
    simp only [Obeys, Ledger.step, qstep, h.os]
    cases Std.drawRandomInt min max (δ.os 0) (δ.os 1) with
    | ok n => exact ⟨_, rfl, h.drewWords⟩
    | error e => rfl
  | drawDouble min max =>
    refine any fun _ => ?_
    simp only [Obeys, Ledger.step, qstep, h.os]
    by_cases hlt : N.lt max min = true
    · rw [if_pos hlt, if_pos hlt]
      rfl
    · rw [if_neg hlt, if_neg hlt]
      have hu := hc (by simpa using hlt) (δ.os 0)
      cases hx : lib.uniform min max (δ.os 0) with
      | some x => exact ⟨_, rfl, h.drewWords⟩
      | none => exact absurd hx hu

end Gen
end Qir
