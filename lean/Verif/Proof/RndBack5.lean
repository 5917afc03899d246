import Verif.Proof.RndBack4

/-!
# The backend with rounded arithmetic: all calls
-/

noncomputable section
namespace Qir.RBack
open Spec Sim Qir.Out Rnd
open Tol (Iso len)
open Qir.Back (Backend Fmt Stop act ask ensure ensureAll lift silent forEach grow resultPtr nonIdentity ensureAll_cons
  useAll_cons use_psi tail measures finding found bytesOf bytesOf_emit bytesOf_legacy lines_one)

variable {A : Arith} {N : ℕ} {B : ℝ} {s s' : Backend} {δ : Device}

/-- What there is to say about a call that goes on without measuring. -/
def Goes (A : Arith) (N : ℕ) (B : ℝ) (fmt : Fmt) (c : QCall) (s : Backend) (δ : Device) : Prop :=
  ∃ (a : QAns) (es : List Event) (δ' : Device) (U : Module.End ℂ Wave), Iso U ∧
    (∀ ψ, Device.step { δ with psi := ψ } c = .ok (a, es, { δ' with psi := U ψ })) ∧
    ∃ s', (∀ r, qstep A fmt c (rs r s) = .ok (a, lines es, rs r s')) ∧ Moves A N (B + turn A c) s s' δ' U (effort c)

/-- What there is to say about a call that fails. -/
def Stops (A : Arith) (fmt : Fmt) (c : QCall) (s : Backend) (δ : Device) : Prop :=
  ∃ m, (∀ ψ, Device.step { δ with psi := ψ } c = .error m) ∧ ∀ r, qstep A fmt c (rs r s) = .error (.fail m)

/-- What there is to say about a call that forgets the state. -/
def Drops (A : Arith) (B : ℝ) (fmt : Fmt) (c : QCall) (s : Backend) (δ : Device) : Prop :=
  ∃ δ' : Device, δ'.psi = ket zeroBasis ∧ (∀ ψ, Device.step { δ with psi := ψ } c = .ok (.unit, [], δ')) ∧
    ∃ s', (∀ r, qstep A fmt c (rs r s) = .ok (.unit, [], rs r s')) ∧ Like s' δ' ∧ Low B s'.sim ∧ s'.sim.opQ = [] ∧
      Rnd.abs A s'.sim = ket zeroBasis

/-- A call that touches the classical bookkeeping only. -/
theorem Goes.classical {fmt : Fmt} {c : QCall} {a : QAns} {es : List Event} {δ' : Device} (hf : Fine A) (hl : Low B s.sim)
    (hs : ∀ ψ, Device.step { δ with psi := ψ } c = .ok (a, es, { δ' with psi := ψ }))
    (hq : ∀ r, qstep A fmt c (rs r s) = .ok (a, lines es, rs r s')) (h : Like s' δ') (hk : Kept A s s') :
    Goes A N B fmt c s δ := by
  refine ⟨a, es, δ', 1, Tol.iso_one, hs, s', hq, ?_⟩
  have hl' : Low (B + turn A c) s.sim := hl.mono (by have := turn_nonneg' hf c; linarith)
  refine ⟨h, hk.low hl', 1, by simp, ?_⟩
  rw [hk.opQ]
  exact (Cost.of_eq (by rw [one_smul]; exact Rnd.finSupp_abs s.sim) (by rw [hk.abs, one_smul]; rfl)).mono (Nat.zero_le _)

theorem Applies.goes {fmt : Fmt} {c : QCall} (h : Applies A N B fmt c s δ) : Goes A N B fmt c s δ := by
  obtain ⟨U, h1, h2, s', h3, h4⟩ := h
  exact ⟨.unit, [], _, U, h1, h2, s', h3, h4⟩

theorem recorded_like (h : Like s δ) (n : ℕ) :
    ∃ s', (∀ r, Back.recordedResult n (rs r s) = .ok (δ.resultValue n, rs r s')) ∧ Like s' δ ∧ s'.sim = s.sim := by
  have ht := h.touched
  cases hd : δ.touched
  · rw [hd] at ht
    simp only [Bool.not_false] at ht
    refine ⟨s, fun r => ?_, h, rfl⟩
    unfold Back.recordedResult Device.resultValue
    rw [if_pos (show (rs r s).res.isEmpty = true from ht)]
    simp [hd, Back.resultEqual, Back.resultPtr]
  · rw [hd] at ht
    simp only [Bool.not_true] at ht
    have hg := h.grown n
    have e : { δ with touched := true } = δ := by rw [← hd]
    rw [e] at hg
    refine ⟨_, fun r => ?_, hg, rfl⟩
    unfold Back.recordedResult Device.resultValue
    rw [if_neg (show ¬ (rs r s).res.isEmpty = true by rw [show (rs r s).res = s.res from rfl, ht]; simp)]
    simp only [Back.grow_get?, hd, if_true]
    rw [← h.reg n]; rfl

theorem abs_new' (rng : ℕ → ℝ) : Rnd.abs A (Sim.new rng) = ket zeroBasis := by
  rw [abs_zero_new ⟨rfl, rfl, rfl⟩, Qir.abs_new rng]

theorem calm_calls (hf : Fine A) (fmt : Fmt) (h : Like s δ) (hB : 0 ≤ B) (hl : Low B s.sim) {c : QCall} (hp : Plain c)
    (hm : measures δ c = none) (hv : δ.Valid c) (ht : A.u * (B + turn A c) + A.eta ≤ A.eps) (hh : TurnOk A s c)
    (hc : ∀ a es δ', δ.step c = .ok (a, es, δ') → δ'.live.card ≤ N) :
    Goes A N B fmt c s δ ∨ Stops A fmt c s δ ∨ Drops A B fmt c s δ := by
  by_cases ho : IsOp c
  · refine .inl (op_applies hf fmt h hB hl ho hv ?_ ht hh).goes
    cases c <;> first | exact ho.elim | exact hc _ _ (Device.apply _ _ δ) rfl
  · cases c <;> first | exact (ho trivial).elim | exact hp.elim | (cases hm; done) | skip
    case readResult n =>
      refine .inl (.classical (a := .bit (δ.reg n)) (es := []) (s' := { s with res := grow n s.res }) hf hl
        (fun ψ => rfl) (fun r => ?_) (h.grown n) ⟨rfl, rfl, rfl, rfl⟩)
      simp only [qstep, Back.readResult, Back.grow_get?, ok_bind]
      rw [← h.reg n]; rfl
    case writeResult v n =>
      exact .inl (.classical (es := []) (s' := Back.writeResult v n s) hf hl (fun ψ => rfl) (fun r => rfl) (h.store n v)
        ⟨rfl, rfl, rfl, rfl⟩)
    case measure ps qs =>
      have hne : ¬ ps.length = qs.length := fun hl => by simp [measures, hl] at hm
      refine .inr (.inl ⟨Device.sizeText, fun ψ => by simp only [Device.step, if_neg hne], fun r => ?_⟩)
      simp only [qstep, measure, mapToZ]
      rw [if_pos hne]
      rfl
    case allocate =>
      refine .inl (.classical (a := .ptr δ.fresh) (es := []) (s' := (Back.qubitAllocate s).2)
        (δ' := { δ with live := insert δ.fresh δ.live, high := max δ.high (δ.fresh + 1) }) hf hl (fun ψ => rfl)
        (fun r => ?_) ?_ ⟨(allocate_abs h.wf).2, rfl, rfl, rfl⟩)
      · rw [← h.fresh]; rfl
      · refine ⟨(allocate_abs (A := A) h.wf).1, fun q => h.allocated q, ?_, ?_, h.reg, h.touched⟩
        · show Nat.max s.max (s.sim.allocate.1 + 1) = _
          rw [h.fresh, h.high]
        · intro q hq
          show q < max δ.high (δ.fresh + 1)
          rcases Finset.mem_insert.1 hq with rfl | hq
          · omega
          · have := h.low q hq; omega
    case release q =>
      have hq : δ.live = {q} := by
        by_contra hne
        simp [measures, hne] at hm
      have hit : ∀ r, (rg r s.sim).idMap.iter.length = 1 := fun r => by
        rw [show (rg r s.sim).idMap = s.sim.idMap from rfl, h.iter, hq]; rfl
      have ha : (s.sim.idMap.get q).isSome := (h.live q).1 hv
      obtain ⟨σ, h1, h2, h3, h4, h5, h6⟩ := release_only (A := A) ha (hit s.sim.rng)
      have h1' : σ =
          { s.sim with
            opQ := []
            hFlag := 0
            rxQ := IMap.empty
            ryQ := IMap.empty
            state := [(0, 1)]
            idMap := s.sim.idMap.remove q } := by
        unfold Rnd.release Rnd.releaseState at h1
        rw [if_pos (show s.sim.idMap.iter.length = 1 from hit s.sim.rng)] at h1
        injection h1 with h1
        exact h1.symm
      refine .inr (.inr ⟨{ δ with live := ∅, psi := ket zeroBasis }, rfl, fun ψ => ?_, { s with sim := σ }, fun r => ?_,
        ⟨h2, fun i => ?_, h.high, by simp, h.reg, h.touched⟩, low_release hl q _ h1, h5, h6⟩)
      · simp only [Device.step, hq, if_true]
      · subst h1'
        simp only [qstep, qubitRelease, act, silent, Rnd.release, Rnd.releaseState]
        rw [if_pos (show (rs r s).sim.idMap.iter.length = 1 from hit r)]
        rfl
      · show i ∈ (∅ : Finset ℕ) ↔ (σ.idMap.get i).isSome = true
        rw [h3, IMap.get_remove]
        by_cases hi : i = q
        · simp [hi]
        · have : i ∉ δ.live := by rw [hq]; simpa using hi
          rw [h.live] at this
          simp [hi, this]
    case recordResult n tag =>
      obtain ⟨s', e, h', hs⟩ := recorded_like h n
      refine .inl (.classical (a := .unit) (es := [.record (.result (δ.resultValue n) tag)]) hf hl (fun ψ => rfl) (fun r => ?_) h'
        ⟨by rw [hs], by rw [hs], by rw [hs], by rw [hs]⟩)
      simp only [qstep, e, ok_bind]
      rw [lines_one, show resultRecordOutput (δ.resultValue n) tag = emit (.result (δ.resultValue n) tag) from rfl,
        bytesOf_emit]
      rfl
    case legacyResult n =>
      obtain ⟨s', e, h', hs⟩ := recorded_like h n
      refine .inl (.classical (a := .unit) (es := [.legacy (.result (δ.resultValue n))]) hf hl (fun ψ => rfl) (fun r => ?_) h'
        ⟨by rw [hs], by rw [hs], by rw [hs], by rw [hs]⟩)
      simp only [qstep, e, ok_bind]
      rw [lines_one, bytesOf_legacy]
      rfl
    case record e hp =>
      exact .inl (.classical hf hl (fun ψ => rfl) (fun r => by simp only [qstep, bytesOf_emit, lines_one]; rfl) h .refl)
    case legacy e hp =>
      exact .inl (.classical hf hl (fun ψ => rfl) (fun r => by simp only [qstep, bytesOf_legacy, lines_one]) h .refl)
    case fail msg => exact .inr (.inl ⟨msg, fun ψ => rfl, fun r => rfl⟩)
    case barrier => exact .inl (.classical (es := []) hf hl (fun ψ => rfl) (fun r => rfl) h .refl)
    case reinit =>
      refine .inr (.inr ⟨Device.init δ.rng, rfl, fun ψ => rfl, Back.reinit s, fun r => rfl, ?_, ?_, rfl, ?_⟩)
      · exact ⟨wf_new _, by intro q; simp [Device.init, Back.reinit, Sim.new], rfl, by simp [Device.init], fun _ => rfl, rfl⟩
      · exact (low_new _).mono hB
      · exact abs_new' s.sim.rng

/-- Every measuring call. -/
theorem splits (hf : Fine A) (fmt : Fmt) (hB : 0 ≤ B) (ht : A.u * B + A.eta ≤ A.eps) (h : Like s δ) (hl : Low B s.sim)
    {c : QCall} {ps : List (Pauli × ℕ)} (hm : measures δ c = some ps) (hv : δ.Valid c)
    (hc : (δ.useAll c.uses).live.card ≤ N) : Splits A N B fmt c s δ ps := by
  cases c <;> try (cases hm; done)
  case reset q => cases hm; exact reset_splits hf fmt hB ht h hl hv hc
  case mresetz q n => cases hm; exact mresetz_splits hf fmt hB ht h hl hv hc n
  case mz q n => cases hm; exact mz_splits hf fmt hB ht h hl hv hc n
  case m q => cases hm; exact m_splits hf fmt hB ht h hl hv hc
  case measure ps' qs =>
    by_cases hne : ps'.length = qs.length
    · simp only [measures, if_pos hne, Option.some.injEq] at hm
      subst hm
      exact measure_splits hf fmt hB ht h hl hne hv.1 hv.2 hc
    · simp [measures, hne] at hm
  case release q =>
    by_cases hne : δ.live = {q}
    · simp [measures, hne] at hm
    · simp only [measures, if_neg hne, Option.some.injEq] at hm
      subst hm
      exact release_splits hf fmt h hl hv hc hne

end Qir.RBack
