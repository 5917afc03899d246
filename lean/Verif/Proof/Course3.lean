import Verif.Proof.Course2

/-! # The courses that a program may take: every call -/

namespace Qir
namespace Gen
open Spec (Pauli)
open Qir.Out
open Ledger
open Back (bytesOf)

variable {F : Type} {N : Num F} {lib : Lib F} {δ δ' : Ledger F} {S S' : (ℕ → Bool) → Prop} {s : GBackend F}

/-- What a call of the library does, seen from the ledger and from the basis states that are possible. -/
def Leaves (N : Num F) (lib : Lib F) (δ : Ledger F) (S : (ℕ → Bool) → Prop) (c : GQCall F) (o : Open F) (s : GBackend F) :
    Prop :=
  match δ.step N lib o c with
  | .error m => qstep N lib c s = .error (.fail m)
  | .ok (a, out, δ') => ∃ s', qstep N lib c s = .ok (a, out, s') ∧
    Trails δ' (fun g => next δ.live S (δ.outcome N o) g c) s'

theorem silent_runs {r : Except GStop (GBackend F)} (h : Runs δ' S' r) :
    ∃ s', silent r = .ok (GAns.unit, [], s') ∧ Trails δ' S' s' := by
  obtain ⟨s', rfl, h'⟩ := h
  exact ⟨s', rfl, h'⟩

theorem recorded_sim {r : ℕ} {v : Bool} {s' : GBackend F} (h : B.recordedResult r s = .ok (v, s')) : s'.sim = s.sim := by
  unfold B.recordedResult at h
  split at h
  · rw [(Prod.mk.inj (Except.ok.inj h)).2]
  · dsimp only at h
    split at h
    · rw [← (Prod.mk.inj (Except.ok.inj h)).2]
    · cases h

theorem readResult_sim {r : ℕ} {v : Bool} {s' : GBackend F} (h : B.readResult r s = .ok (v, s')) : s'.sim = s.sim := by
  unfold B.readResult at h
  dsimp only at h
  split at h
  · rw [← (Prod.mk.inj (Except.ok.inj h)).2]
  · cases h

/-- The possible states stay the same as long as the simulator does. -/
theorem Trails.idle (h : Trails δ S s) {s' : GBackend F} (hk : Kept δ' s') (hs : s'.sim = s.sim) :
    Trails δ' (fun g => ∃ f, S f ∧ g = f) s' :=
  ⟨hk, fun f hf => ⟨f, h.poss f (hs ▸ hf), rfl⟩⟩

theorem Trails.idle' (h : Trails δ S s) : Trails δ (fun g => ∃ f, S f ∧ g = f) s :=
  h.mono fun f hf => ⟨f, hf, rfl⟩

/-- Every allowed call of the library: what it answers, writes and leaves. -/
theorem qcall_trails (h : Trails δ S s) (hr : Nonneg N δ.rng) (c : GQCall F) (hc : δ.Allows N lib c) :
    ∃ o : Open F, Ascending δ.live.card o.entries ∧ Backed N δ S o c ∧ Leaves N lib δ S c o s := by
  have triv : ∀ p : F, Ascending δ.live.card (Open.mk p ([] : List (ℕ × Cx F))).entries := fun p =>
    ⟨List.Pairwise.nil, by simp⟩
  have any : ∀ {P Q : Open F → Prop}, (∀ o, P o) → (∀ o, Q o) →
      ∃ o : Open F, Ascending δ.live.card o.entries ∧ P o ∧ Q o := fun hP hQ => ⟨⟨N.zero, []⟩, triv _, hP _, hQ _⟩
  have t : ∀ _ : Open F, True := fun _ => trivial
  cases c with
  | gate g q => exact any t fun _ => silent_runs (gate_use h hc g)
  | ctl g cs q => exact any t fun _ => silent_runs (ctl_use h hc.1 hc.2 g)
  | sx q => exact any t fun _ => silent_runs (sx_trails h hc)
  | rxx θ a b => exact any t fun _ => silent_runs (rxx_trails h hc.1 hc.2.1 hc.2.2 θ)
  | ryy θ a b => exact any t fun _ => silent_runs (ryy_trails h hc.1 hc.2.1 hc.2.2 θ)
  | rzz θ a b =>
    exact any t fun _ => silent_runs ((rzz_trails h hc.1 hc.2.1 hc.2.2 θ).mono fun f hf => ⟨f, hf, rfl⟩)
  | r p θ q => exact any t fun _ => silent_runs (r_trails h hc θ)
  | rAdj p θ q => exact any t fun _ => silent_runs (r_trails h hc _)
  | rCtl cs p θ q => exact any t fun _ => silent_runs (rCtl_trails h hc.1 hc.2 θ)
  | rCtlAdj cs p θ q => exact any t fun _ => silent_runs (rCtl_trails h hc.1 hc.2 _)
  | exp ps θ qs => exact any t fun _ => silent_runs (exp_trails h hc.1 hc.2.1 hc.2.2 θ)
  | expAdj ps θ qs => exact any t fun _ => silent_runs (exp_trails h hc.1 hc.2.1 hc.2.2 _)
  | expCtl cs ps θ qs => exact any t fun _ => silent_runs (expCtl_trails h hc.1 hc.2.1 hc.2.2 θ)
  | expCtlAdj cs ps θ qs => exact any t fun _ => silent_runs (expCtl_trails h hc.1 hc.2.1 hc.2.2 _)
  | swap a b => exact any t fun _ => silent_runs (swap_trails h hc.1 hc.2)
  | reset q =>
    obtain ⟨p, hp, hv⟩ := reset_trails (N := N) h hr hc
    exact ⟨⟨p, []⟩, triv p, hv, silent_runs hp⟩
  | mresetz q r =>
    obtain ⟨p, hp, hv⟩ := mresetz_trails (N := N) h hr hc r
    exact ⟨⟨p, []⟩, triv p, hv, silent_runs hp⟩
  | mz q r =>
    obtain ⟨p, hp, hv⟩ := mz_trails (N := N) h hr hc r
    exact ⟨⟨p, []⟩, triv p, hv, silent_runs hp⟩
  | readResult r =>
    obtain ⟨s', h1, h2⟩ := readResult_goes h.kept r
    exact any t fun _ => ⟨s', by simp only [qstep, h1]; rfl, h.idle h2 (readResult_sim h1)⟩
  | writeResult v r => exact any t fun _ => ⟨_, rfl, h.idle (h.kept.store r v) rfl⟩
  | m q =>
    obtain ⟨p, s', h1, h2, h3⟩ := m_trails (N := N) h hr hc
    exact ⟨⟨p, []⟩, triv p, h3, s', by simp only [qstep, h1]; rfl, h2⟩
  | measure ps qs =>
    by_cases hl : ps.length = qs.length
    · obtain ⟨p, s', h1, h2, h3⟩ := jointB_trails (N := N) h hr hl hc.1 hc.2
      refine ⟨⟨p, []⟩, triv p, h3, ?_⟩
      simp only [Leaves, Ledger.step, if_pos hl]
      exact ⟨s', by simp only [qstep, h1]; rfl, h2⟩
    · refine ⟨⟨N.zero, []⟩, triv _, fun ht => ?_, ?_⟩
      · exact absurd ht (by simp [outcome, hr 0])
      · simp only [Leaves, Ledger.step, if_neg hl]
        simp only [qstep, B.measure, mapToZ_bad hl]
        rfl
  | isZero q =>
    obtain ⟨p, s', h1, h2, h3⟩ := isZero_trails (N := N) (ensure_trails N h hc) (by rw [use_rng]; exact hr)
      (mem_use h.kept.below hc)
    exact ⟨⟨p, []⟩, triv p, h3, s', by simp only [qstep, B.qubitIsZero, h1]; rfl, h2.idle'⟩
  | assertProb ps qs result prob msg tol =>
    by_cases hl : ps.length = qs.length
    · obtain ⟨p, hp, hv⟩ := assertProb_trails (N := N) (lib := lib) h hr hl hc.1 hc.2 result prob msg tol
      refine ⟨⟨p, []⟩, triv p, hv, ?_⟩
      simp only [Leaves, Ledger.step, if_pos hl]
      by_cases hlt : N.lt tol (lib.abs (N.sub (if result = 0 then N.sub N.one p else p) prob)) = true
      · rw [if_pos hlt] at hp ⊢
        simp only [qstep, hp]
        rfl
      · rw [if_neg hlt] at hp ⊢
        exact silent_runs hp
    · refine ⟨⟨N.zero, []⟩, triv _, .inl rfl, ?_⟩
      simp only [Leaves, Ledger.step, if_neg hl]
      simp only [qstep, B.assertProb, mapToZ_bad hl]
      rfl
  | allocate =>
    obtain ⟨h1, h2⟩ := allocate_trails N h
    exact any t fun _ => ⟨_, by simp only [qstep, h1], h2.idle'⟩
  | release q => exact any t fun _ => silent_runs (release_trails h hc)
  | recordResult r tag =>
    obtain ⟨s', h1, h2⟩ := recorded_goes h.kept r
    refine any t fun _ => ⟨s', ?_, h.idle h2 (recorded_sim h1)⟩
    simp only [qstep, h1, ← lines_record]
    rfl
  | legacyResult r =>
    obtain ⟨s', h1, h2⟩ := recorded_goes h.kept r
    refine any t fun _ => ⟨s', ?_, h.idle h2 (recorded_sim h1)⟩
    simp only [qstep, h1, ← lines_legacy]
    rfl
  | record e hp => exact any t fun _ => ⟨s, by simp only [qstep, lines_record], h.idle'⟩
  | legacy e hp => exact any t fun _ => ⟨s, by simp only [qstep, lines_legacy], h.idle'⟩
  | fail msg => exact any t fun _ => rfl
  | dump location =>
    have hc' : location = false := hc
    subst hc'
    obtain ⟨l, s', h1, h2, h3, h4⟩ := dump_trails (N := N) h lib.amplitude
    exact ⟨⟨N.one, l⟩, h2, h4, s', by simp only [qstep, dumpB_text h.kept h1]; rfl, h3.idle'⟩
  | barrier => exact any t fun _ => ⟨s, rfl, h.idle'⟩
  | reinit => exact any t fun _ => ⟨_, rfl, h.kept.fresh N, (trails_reinit N s).poss⟩
  | drawInt min max =>
    refine any t fun _ => ?_
    simp only [Leaves, Ledger.step, qstep, h.kept.os]
    cases Std.drawRandomInt min max (δ.os 0) (δ.os 1) with
    | ok n => exact ⟨_, rfl, h.idle h.kept.drewWords rfl⟩
    | error e => rfl
  | drawDouble min max =>
    refine any t fun _ => ?_
    simp only [Leaves, Ledger.step, qstep, h.kept.os]
    by_cases hlt : N.lt max min = true
    · rw [if_pos hlt, if_pos hlt]
      rfl
    · rw [if_neg hlt, if_neg hlt]
      have hu := hc (by simpa using hlt) (δ.os 0)
      cases hx : lib.uniform min max (δ.os 0) with
      | some x => exact ⟨_, rfl, h.idle h.kept.drewWords rfl⟩
      | none => exact absurd hx hu

/-! ### The source of randomness -/

theorem nonneg_ite {p : Prop} [Decidable p] {a b : Ledger F} (ha : Nonneg N a.rng) (hb : Nonneg N b.rng) :
    Nonneg N (if p then a else b).rng := by split <;> assumption

theorem Nonneg.tail {rng : ℕ → F} (h : Nonneg N rng) : Nonneg N fun i => rng (i + 1) := fun i => h (i + 1)

theorem step_nonneg (hr : Nonneg N δ.rng) {o : Open F} {c : GQCall F} {a : GAns F} {out : Bytes}
    (h : δ.step N lib o c = .ok (a, out, δ')) : Nonneg N δ'.rng := by
  have hu : ∀ q, Nonneg N (δ.use q).rng := fun q => by rw [use_rng]; exact hr
  have ha : ∀ qs, Nonneg N (δ.useAll qs).rng := fun q => by rw [useAll_rng]; exact hr
  have hs : ∀ {r : GAns F × Bytes × Ledger F}, (Except.ok (a, out, δ') : Except (List Char) _) = .ok r → r.2.2 = δ' :=
    fun h => by rw [← Except.ok.inj h]
  cases c <;> simp only [Ledger.step] at h
  case measure =>
    split at h
    · rw [← hs h.symm]; exact (ha _).tail
    · cases h
  case assertProb =>
    split at h
    · generalize N.lt _ _ = b at h
      cases b
      · rw [← hs h.symm]; exact ha _
      · cases h
    · cases h
  case fail => cases h
  case drawInt =>
    split at h
    · rw [← hs h.symm]; exact hr
    · cases h
  case drawDouble =>
    split at h
    · cases h
    · split at h
      · rw [← hs h.symm]; exact hr
      · cases h
  all_goals rw [← hs h.symm]
  all_goals first
    | exact hr
    | exact hu _
    | exact ha _
    | exact (hu _).tail
    | exact nonneg_ite hr (hu _)
    | exact nonneg_ite hr (ha _)
    | exact nonneg_ite hr hr.tail
    | (unfold recorded; exact nonneg_ite hr hr)

end Gen
end Qir
