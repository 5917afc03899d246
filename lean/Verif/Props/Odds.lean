import Verif.Proof.Odds
import Verif.Props.Settled

/-!
# The distribution of what a program that draws random numbers prints (C65)

The theorems of Settled.lean are about programs whose only randomness is that of measurements.  Here the program may also
draw integers and real numbers.  If the words they are drawn with are independent and uniform, and independent of
the samples for the measurements, then the shots of a session are again independent, each with the distribution
`odds byWords`, and this is within a small distance of the distribution with integers drawn evenly.
-/

noncomputable section
namespace Qir.Back
open Spec Sim Qir.Out Run MeasureTheory

variable {env : Env} {fmt : Fmt} {p : Prog QCall QAns}

/-! ### The backend and the ideal device with the same samples and words -/

theorem drawn_carriedOut (s : Backend) (c : QCall) : drawn (carriedOut s c) = drawn c := by
  unfold carriedOut
  split <;> first | rfl | (split <;> rfl)

theorem noDraw_of {c : QCall} (h : drawn c = .nothing) : NoDraw c := by
  cases c <;> trivial

theorem drawn_int {c : QCall} {min max : ℤ} (h : drawn c = .int min max) : c = .drawInt min max := by
  cases c <;> first | (cases h; rfl) | cases h

theorem drawn_real {c : QCall} {min max : ℝ} (h : drawn c = .real min max) : c = .drawDouble min max := by
  cases c <;> first | (cases h; rfl) | cases h

/-- One call. -/
theorem qref_dealt {s : Backend} {δ : Device} (he : env.eps = 0) (h : QRef s δ) (hw : ∀ n, s.os n < Std.words) {c : QCall}
    {k : QAns → Prog QCall QAns} (hp : Proper (.call (carriedOut s c) k) δ) :
    match dealStep (carriedOut s c) δ s.os with
    | .error m => qstep env fmt c s = .error (.fail m)
    | .ok (a, es, δ', os') => ∃ s', qstep env fmt c s = .ok (a, lines es, s') ∧ QRef s' δ' ∧ s'.os = os' ∧
        (∀ n, os' n < Std.words) ∧ Proper (k a) δ' := by
  cases hd : drawn c with
  | nothing =>
    have hd' : drawn (carriedOut s c) = .nothing := (drawn_carriedOut s c).trans hd
    simp only [Proper, hd'] at hp
    have hs := qref_carried (fmt := fmt) he h hp.1 hp.2.1
    simp only [dealStep, hd']
    cases hc : δ.step (carriedOut s c) with
    | error m => exact hs.2 m hc
    | ok x =>
      obtain ⟨a, es, δ'⟩ := x
      obtain ⟨s', e, h'⟩ := hs.1 a es δ' hc
      exact ⟨s', e, h', qstep_os_eq (noDraw_of hd) e, hw, hp.2.2 a es δ' hc⟩
  | int min max =>
    cases drawn_int hd
    have hp' : Std.IsI64 min ∧ Std.IsI64 max ∧ ∀ n, min ≤ n → n ≤ max → Proper (k (.int n)) δ := hp
    have hb := Std.C46_int min max hp'.1 hp'.2.1 (s.os 0) (s.os 1) (hw 0)
    show match dealStep (.drawInt min max) δ s.os with
      | .error m => _
      | .ok (a, es, δ', os') => _
    simp only [dealStep, drawn, qstep, show (nextWords s).1 = s.os 0 from rfl, show (nextWords s).2.1 = s.os 1 from rfl]
    cases hdr : Std.drawRandomInt min max (s.os 0) (s.os 1) with
    | error e => rfl
    | ok n =>
      exact ⟨_, rfl, ⟨h.sim, h.high, h.low, h.reg, h.touched⟩, rfl, fun n => hw _,
        hp'.2.2 n (hb.2.2 n hdr).1 (hb.2.2 n hdr).2⟩
  | real min max =>
    cases drawn_real hd
    have hp' : ∀ x, min ≤ x → x ≤ max → Proper (k (.real x)) δ := hp
    show match dealStep (.drawDouble min max) δ s.os with
      | .error m => _
      | .ok (a, es, δ', os') => _
    simp only [dealStep, drawn, qstep, show (nextWords s).1 = s.os 0 from rfl]
    cases hdr : Std.drawRandomDouble min max ((s.os 0 : ℝ) / ((Std.words : ℝ) - 1)) with
    | error e => rfl
    | ok x =>
      refine ⟨_, rfl, ⟨h.sim, h.high, h.low, h.reg, h.touched⟩, rfl, fun n => hw _, ?_⟩
      unfold Std.drawRandomDouble at hdr
      by_cases hle : min ≤ max
      · rw [if_neg (not_lt.2 hle)] at hdr
        cases hdr
        exact hp' _ (grid_bounds hle (hw 0)).1 (grid_bounds hle (hw 0)).2
      · rw [if_pos (not_le.1 hle)] at hdr
        cases hdr

theorem speech_deal (he : env.eps = 0) (p : Prog QCall QAns) : ∀ {P : Set Backend}
    (_ : ∀ s ∈ P, ∀ s' ∈ P, AlikeB s s') {s : Backend} {δ : Device}, s ∈ P → QRef s δ → (∀ n, s.os n < Std.words) →
    Proper (carry env fmt p P) δ →
    match deal (carry env fmt p P) δ (δ.rng, s.os) with
    | .error es => speech (step env fmt) p s = .error (lines es)
    | .ok (es, ω) => ∃ s', speech (step env fmt) p s = .ok (lines es, s') ∧ (s'.sim.rng, s'.os) = ω ∧
        InUnit s'.sim.rng ∧ ∀ n, s'.os n < Std.words := by
  induction p with
  | done => intro P _ s δ _ h hw _; exact ⟨s, rfl, by rw [h.sim.rng]; rfl, by rw [h.sim.rng]; exact h.sim.good.samples, hw⟩
  | call c k ih =>
    intro P hP s δ hsP h hw hm
    have hne : P.Nonempty := ⟨s, hsP⟩
    have hc : carried P c = carriedOut s c := by
      unfold carried
      rw [dif_pos hne]
      exact (hP s hsP _ hne.some_mem).carriedOut c
    unfold carry at hm ⊢
    rw [hc] at hm ⊢
    have hs := qref_dealt (fmt := fmt) he h hw hm
    simp only [deal, speech, show withRng δ.rng δ = δ from rfl]
    cases hc : dealStep (carriedOut s c) δ s.os with
    | error m =>
      simp only [hc] at hs
      simp only [step, hs, fail_line]
    | ok r =>
      obtain ⟨a, es, δ1, os1⟩ := r
      simp only [hc] at hs
      obtain ⟨s1, e1, h1, ho, hw1, hm1⟩ := hs
      have hP' : ∀ s ∈ after env fmt c a P, ∀ s' ∈ after env fmt c a P, AlikeB s s' := by
        rintro t ⟨u, hu, out, e⟩ t' ⟨u', hu', out', e'⟩
        exact rl_qstep env fmt (hP u hu u' hu') c _ _ e e'
      have := ih a hP' ⟨s, hsP, _, e1⟩ h1 (by rw [ho]; exact hw1) hm1
      rw [ho] at this
      simp only [step, e1]
      cases hi : deal (carry env fmt (k a) (after env fmt c a P)) δ1 (δ1.rng, os1) with
      | error es' =>
        simp only [hi] at this
        simp only [this, lines_append]
      | ok r =>
        obtain ⟨es', ω⟩ := r
        simp only [hi] at this
        obtain ⟨s2, e2, h2⟩ := this
        simp only [e2, lines_append]
        exact ⟨s2, rfl, h2⟩

theorem session_deal (he : env.eps = 0) (p : Prog QCall QAns)
    (hm : ∀ r, InUnit r → Proper (settled env fmt p) (Device.init r)) (n : ℕ) :
    ∀ s : Backend, InUnit s.sim.rng → (∀ n, s.os n < Std.words) →
    match iter (deal (settled env fmt p) blank) n (s.sim.rng, s.os) with
    | .error (ess, es) => session (step env fmt) reinit p n s = .error (ess.map lines, lines es)
    | .ok ess => ∃ s', session (step env fmt) reinit p n s = .ok (ess.map lines, s') := by
  induction n with
  | zero => intro s _ _; exact ⟨s, rfl⟩
  | succ n ih =>
    intro s hr hw
    have h1 := speech_deal he p fresh_alike ⟨_, s.os, hr, rfl⟩ (qref_new hr s.os) hw (hm _ hr)
    rw [← reinit_eq, init_eq, deal_withRng] at h1
    simp only [iter, session]
    change (match deal (settled env fmt p) blank (s.sim.rng, s.os) with
      | .error es => _
      | .ok (es, ω) => _) at h1
    cases hi : deal (settled env fmt p) blank (s.sim.rng, s.os) with
    | error es =>
      simp only [hi] at h1
      simp only [h1, List.map_nil]
    | ok r =>
      obtain ⟨es, ω⟩ := r
      simp only [hi] at h1
      obtain ⟨s1, e1, h1, hr1, hw1⟩ := h1
      have h2 := ih s1 hr1 hw1
      rw [h1] at h2
      simp only [e1]
      cases hj : iter (deal (settled env fmt p) blank) n ω with
      | error r =>
        obtain ⟨ess, es'⟩ := r
        simp only [hj] at h2
        simp only [h2, List.map_cons]
      | ok ess =>
        simp only [hj] at h2
        obtain ⟨s2, e2⟩ := h2
        simp only [e2, List.map_cons]
        exact ⟨_, rfl⟩

theorem written_deal (he : env.eps = 0) (hm : ∀ r, InUnit r → Proper (settled env fmt p) (Device.init r)) (n : ℕ)
    (s : Backend) {ω : (ℕ → ℝ) × (ℕ → ℕ)} (hr : InUnit ω.1) (hw : ∀ n, ω.2 n < Std.words) :
    written env fmt p n (supplied ω s) = match iter (deal (settled env fmt p) blank) n ω with
      | .ok ess => .ok (ess.map lines)
      | .error (ess, es) => .error (ess.map lines, lines es) := by
  have h1 := session_deal (fmt := fmt) he p hm n (supplied ω s) hr hw
  unfold written
  change (match iter (deal (settled env fmt p) blank) n ω with
    | .error (ess, es) => _
    | .ok ess => _) at h1
  cases hi : iter (deal (settled env fmt p) blank) n ω with
  | error e =>
    simp only [hi] at h1
    rw [h1]
    rfl
  | ok ess =>
    simp only [hi] at h1
    obtain ⟨s', h1⟩ := h1
    rw [h1]
    rfl

/-! ### C65 -/

/-- The probabilities add up to one. -/
theorem C65_total (hm : ∀ r, InUnit r → Proper p (Device.init r)) :
    odds byWords p blank (records Set.univ) + odds byWords p blank (failsWith Set.univ) = 1 :=
  (deal_lawful blank_fit hm).total

/-- **C65**.  With independent uniform samples and words, the outputs of the shots of a session are independent, and each
is in a given set of byte strings with the probability of the ideal device, given the program carried out; this for
programs that measure and draw numbers, whatever the backend was used for before. -/
theorem C65_shots (he : env.eps = 0) (hm : ∀ r, InUnit r → Proper (settled env fmt p) (Device.init r)) (s : Backend)
    (Bs : List (Set Bytes)) :
    sources {ω | ∃ outs, written env fmt p Bs.length (supplied ω s) = .ok outs ∧ List.Forall₂ (· ∈ ·) outs Bs} =
      (Bs.map fun B => ENNReal.ofReal (odds byWords (settled env fmt p) blank (records {es | lines es ∈ B}))).prod := by
  have h := (deal_lawful blank_fit hm).iters_law Bs.length (Bs.map fun B => {es | lines es ∈ B}) (by simp)
  rw [List.map_map] at h
  refine (measure_congr ?_).trans h
  filter_upwards [sources_good] with ω hω
  apply propext
  show (∃ outs, written env fmt p Bs.length (supplied ω s) = .ok outs ∧ List.Forall₂ (· ∈ ·) outs Bs) ↔
    ∃ ess, iter (deal (settled env fmt p) blank) Bs.length ω = .ok ess ∧
      List.Forall₂ (· ∈ ·) ess (Bs.map fun B => {es | lines es ∈ B})
  rw [written_deal he hm _ s hω.1 hω.2]
  cases hi : iter (deal (settled env fmt p) blank) Bs.length ω with
  | error e => simp
  | ok ess => simp

/-- **C65**, failures: the session fails in the shot after the given ones with the probability of the ideal device. -/
theorem C65_fails (he : env.eps = 0) (hm : ∀ r, InUnit r → Proper (settled env fmt p) (Device.init r)) (s : Backend)
    (Bs : List (Set Bytes)) (B : Set Bytes) (n : ℕ) (hl : Bs.length < n) :
    sources {ω | ∃ outs o, written env fmt p n (supplied ω s) = .error (outs, o) ∧
        List.Forall₂ (· ∈ ·) outs Bs ∧ o ∈ B} =
      (Bs.map fun B => ENNReal.ofReal (odds byWords (settled env fmt p) blank (records {es | lines es ∈ B}))).prod *
        ENNReal.ofReal (odds byWords (settled env fmt p) blank (failsWith {es | lines es ∈ B})) := by
  have h := (deal_lawful blank_fit hm).stops_law {es | lines es ∈ B} n (Bs.map fun B => {es | lines es ∈ B}) (by simpa)
  rw [List.map_map] at h
  refine (measure_congr ?_).trans h
  filter_upwards [sources_good] with ω hω
  apply propext
  show (∃ outs o, written env fmt p n (supplied ω s) = .error (outs, o) ∧ List.Forall₂ (· ∈ ·) outs Bs ∧ o ∈ B) ↔
    ∃ ess es, iter (deal (settled env fmt p) blank) n ω = .error (ess, es) ∧
      List.Forall₂ (· ∈ ·) ess (Bs.map fun B => {es | lines es ∈ B}) ∧ es ∈ {es | lines es ∈ B}
  rw [written_deal he hm _ s hω.1 hω.2]
  cases hi : iter (deal (settled env fmt p) blank) n ω with
  | error e => obtain ⟨ess, es⟩ := e; simp [and_assoc]
  | ok ess => simp

open Classical in
/-- **C65**, frequencies: if the program fails with probability zero, then for almost all samples and words every number
of shots succeeds, and the fraction of the shots that write something in a given set converges to its probability. -/
theorem C65_frequencies (he : env.eps = 0) (hm : ∀ r, InUnit r → Proper (settled env fmt p) (Device.init r))
    (hf : odds byWords (settled env fmt p) blank (failsWith Set.univ) = 0) (s : Backend) (B : Set Bytes) :
    ∀ᵐ ω ∂sources, ∃ out : ℕ → Bytes,
      (∀ n, written env fmt p n (supplied ω s) = .ok ((List.range n).map out)) ∧
      Filter.Tendsto (fun n : ℕ => (((List.range n).map out).countP (· ∈ B) : ℝ) / n) Filter.atTop
        (nhds (odds byWords (settled env fmt p) blank (records {es | lines es ∈ B}))) := by
  have h1 : odds byWords (settled env fmt p) blank (records Set.univ) = 1 := by have := C65_total hm; linarith
  have hl := deal_lawful blank_fit hm
  filter_upwards [sources_good, hl.all_ok h1, hl.freq h1 {es | lines es ∈ B}] with ω hω hok hfr
  refine ⟨fun i => lines (outcomeOf (deal (settled env fmt p) blank) i ω), fun n => ?_, ?_⟩
  · rw [written_deal he hm _ s hω.1 hω.2]
    obtain ⟨ess, e⟩ := hok n
    simp only [e]
    rw [iter_eq n e]
    simp [Function.comp_def]
  · refine hfr.congr fun n => ?_
    congr 1
    induction n with
    | zero => simp
    | succ n ih =>
      rw [Finset.sum_range_succ, ih, List.range_succ]
      simp [List.countP_append, List.countP_cons]

/-- **C65**, all outputs at once: the table of relative frequencies converges to the table of probabilities. -/
theorem C65_histogram (he : env.eps = 0) (hm : ∀ r, InUnit r → Proper (settled env fmt p) (Device.init r))
    (hf : odds byWords (settled env fmt p) blank (failsWith Set.univ) = 0) (s : Backend) :
    ∀ᵐ ω ∂sources, ∃ out : ℕ → Bytes,
      (∀ n, written env fmt p n (supplied ω s) = .ok ((List.range n).map out)) ∧
      ∀ b : Bytes, Filter.Tendsto (fun n : ℕ => (((List.range n).map out).count b : ℝ) / n) Filter.atTop
        (nhds (odds byWords (settled env fmt p) blank (records {es | lines es = b}))) := by
  have h := fun b : Bytes => C65_frequencies he hm hf s {b}
  rw [← ae_all_iff] at h
  filter_upwards [h] with r hr
  obtain ⟨out, h0, _⟩ := hr []
  refine ⟨out, h0, fun b => ?_⟩
  obtain ⟨out', h1, h2⟩ := hr b
  have : ∀ n, (List.range n).map out' = (List.range n).map out := fun n => by
    have := (h1 n).symm.trans (h0 n)
    simpa only [Except.ok.injEq] using this
  simp only [this] at h2
  simp only [Set.mem_singleton_iff] at h2
  refine h2.congr fun n => ?_
  congr 2
  exact List.countP_congr fun x _ => by simp

/-! ### The hypothesis -/

/-- Specification: the program never dumps the state. -/
def Undumped : Prog QCall QAns → Prop
  | .done => True
  | .call c k => (∀ l, c ≠ .dump l) ∧ ∀ a, Undumped (k a)

theorem proper_resigned (p : Prog QCall QAns) : ∀ {p' : Prog QCall QAns} {δ : Device}, ResignedProg p p' → Undumped p →
    Sensible fmt p δ → Proper p' δ := by
  induction p with
  | done => intro p' δ h _ _; rw [show p' = .done from h]; trivial
  | call c k ih =>
    rintro p' δ ⟨c', k', rfl, hc, hk⟩ hp hs
    cases hd : drawn c with
    | int min max =>
      cases drawn_int hd
      rw [show c' = .drawInt min max from hc]
      refine ⟨(hs.2.1 min max rfl).1, (hs.2.1 min max rfl).2, fun n h1 h2 => ?_⟩
      exact ih (.int n) (hk _) (hp.2 _) (hs.2.2 δ.psi (.int n) [] δ δ.psi ⟨n, h1, h2, rfl, rfl, rfl⟩)
    | real min max =>
      cases drawn_real hd
      rw [show c' = .drawDouble min max from hc]
      exact fun x h1 h2 =>
        ih (.real x) (hk _) (hp.2 _) (hs.2.2 δ.psi (.real x) [] δ δ.psi ⟨x, h1, h2, rfl, rfl, rfl⟩)
    | nothing =>
      have hdet : c.Determined := by cases c <;> first | trivial | exact absurd rfl (hp.1 _)
      obtain ⟨h1, h2, h3⟩ := hc.step (fmt := fmt) hdet δ
      have hd' : drawn c' = .nothing := by cases c' <;> first | rfl | exact h2.elim
      simp only [Proper, hd']
      refine ⟨h1 hs.1, h2, fun a es δ' e => ?_⟩
      obtain ⟨δ'', φ, hm, rfl⟩ := h3 a es δ' e
      exact ih a (hk a) (hp.2 a) (hs.2.2 δ.psi a _ δ'' φ hm)

/-- If the program makes sense whatever is measured and drawn, and never dumps the state, then the program carried out
meets the hypothesis of the theorems above. -/
theorem C65_proper (hp : Undumped p) (hs : ∀ r, Sensible fmt p (Device.init r)) (r : ℕ → ℝ) :
    Proper (settled env fmt p) (Device.init r) :=
  proper_resigned p (C57_resigned env fmt p) hp (hs r)

/-! ### Programs that do not draw -/

theorem odds_seeded (w : Lot) (p : Prog QCall QAns) : Seeded p → ∀ δ S, odds w p δ S = chance p δ S := by
  induction p with
  | done => intro _ δ S; rfl
  | call c k ih =>
    intro h δ S
    have hd : drawn c = .nothing := by cases c <;> first | rfl | exact h.1.elim
    simp only [odds, chance, hd]
    cases measures δ c with
    | some ps => simp only [ih _ (h.2 _)]
    | none =>
      cases δ.step c with
      | error m => rfl
      | ok x => simp only [ih _ (h.2 _)]

/-- For a program that draws nothing these are the probabilities of C57. -/
theorem C65_seeded (w : Lot) (h : Seeded p) (S : Set (List Event × Bool)) : odds w p blank S = chance p blank S :=
  odds_seeded w p h _ _

/-! ### The distance from fair draws -/

/-- Specification: a program that draws at most `m` integers, whatever the answers. -/
def DrawsAtMost : ℕ → Prog QCall QAns → Prop
  | _, .done => True
  | m, .call c k => match drawn c with
    | .int _ _ => ∃ m', m = m' + 1 ∧ ∀ a, DrawsAtMost m' (k a)
    | _ => ∀ a, DrawsAtMost m (k a)

/-- A distribution. -/
structure IsLot (w : Lot) : Prop where
  nonneg : ∀ a b n, 0 ≤ w a b n ∨ ¬ a ≤ b
  total : ∀ a b, Std.IsI64 a → Std.IsI64 b → a ≤ b → ∑ n ∈ Finset.Icc a b, w a b n = 1

theorem isLot_fair : IsLot fair := by
  refine ⟨fun a b n => ?_, fun a b _ _ h => ?_⟩
  · by_cases h : a ≤ b
    · left
      have : (a : ℝ) ≤ b := by exact_mod_cast h
      unfold fair
      exact div_nonneg zero_le_one (by linarith)
    · exact .inr h
  · have h1 : (a : ℝ) ≤ b := by exact_mod_cast h
    unfold fair
    rw [Finset.sum_const, Int.card_Icc, nsmul_eq_mul]
    have : (((b + 1 - a).toNat : ℕ) : ℝ) = b - a + 1 := by
      have h2 : (((b + 1 - a).toNat : ℕ) : ℤ) = b + 1 - a := Int.toNat_of_nonneg (by omega)
      have h3 : (((b + 1 - a).toNat : ℤ) : ℝ) = ((b + 1 - a : ℤ) : ℝ) := by rw [h2]
      push_cast at h3
      linarith
    rw [this, mul_one_div, div_self (by linarith)]

theorem isLot_byWords : IsLot byWords := by
  refine ⟨fun a b n => .inl (byWords_nonneg a b n), fun a b ha hb h => ?_⟩
  have hw : (Std.words : ℝ) ≠ 0 := Nat.cast_ne_zero.2 words_pos
  unfold byWords
  rw [← Finset.sum_div, ← Nat.cast_sum, Std.draws_total a b ha hb h, Nat.cast_pow, div_self (pow_ne_zero _ hw)]

theorem failure_le (m : List Char) (S : Set (List Event × Bool)) : failure m S ≤ 1 := by
  unfold failure; split <;> norm_num

theorem odds_bounds {w : Lot} (hw : IsLot w) (p : Prog QCall QAns) : ∀ {δ : Device}, Fit δ.psi →
    (∀ r, InUnit r → Proper p (withRng r δ)) → ∀ S, 0 ≤ odds w p δ S ∧ odds w p δ S ≤ 1 := by
  induction p with
  | done => intro δ _ _ S; unfold odds; split <;> norm_num
  | call c k ih =>
    intro δ hf hM S
    have hM0 := hM (fun _ => 0) (fun _ => by norm_num)
    cases hd : drawn c with
    | int min max =>
      simp only [Proper, hd] at hM hM0
      by_cases h : min ≤ max
      · simp only [odds, hd, if_pos h]
        have h0 : ∀ n, 0 ≤ w min max n := fun n => (hw.nonneg min max n).resolve_right (not_not.2 h)
        have next := fun n (hn : n ∈ Finset.Icc min max) => ih (.int n) hf (fun r hr =>
          (hM r hr).2.2 n (Finset.mem_Icc.1 hn).1 (Finset.mem_Icc.1 hn).2) S
        refine ⟨Finset.sum_nonneg fun n hn => mul_nonneg (h0 n) (next n hn).1, ?_⟩
        rw [← hw.total min max hM0.1 hM0.2.1 h]
        exact Finset.sum_le_sum fun n hn => mul_le_of_le_one_right (h0 n) (next n hn).2
      · simp only [odds, hd, if_neg h]
        exact ⟨failure_nonneg _ _, failure_le _ _⟩
    | real min max =>
      simp only [Proper, hd] at hM hM0
      have hw0 : (0 : ℝ) < Std.words := Nat.cast_pos.2 (Nat.pos_of_ne_zero words_pos)
      by_cases h : min ≤ max
      · simp only [odds, hd, if_pos h]
        have next := fun i (hi : i ∈ Finset.range Std.words) => ih (.real _) hf (fun r hr =>
          hM r hr _ (grid_bounds h (Finset.mem_range.1 hi)).1 (grid_bounds h (Finset.mem_range.1 hi)).2) S
        refine ⟨div_nonneg (Finset.sum_nonneg fun n hn => (next n hn).1) hw0.le, ?_⟩
        rw [div_le_one hw0]
        refine (Finset.sum_le_sum fun n hn => (next n hn).2).trans ?_
        rw [Finset.sum_const, Finset.card_range, nsmul_eq_mul, mul_one]
      · simp only [odds, hd, if_neg h]
        exact ⟨failure_nonneg _ _, failure_le _ _⟩
    | nothing =>
      simp only [Proper, hd] at hM hM0
      cases hm : measures δ c with
      | some ps =>
        obtain ⟨hn, hI⟩ := measures_ok hm hM0.1
        have hsum := hf.add hn hI
        have part : ∀ v, 0 ≤ pauliProb ps v δ.psi * odds w (k (finding v δ c).1) (finding v δ c).2 S ∧
            pauliProb ps v δ.psi * odds w (k (finding v δ c).1) (finding v δ c).2 S ≤ pauliProb ps v δ.psi := by
          intro v
          rcases (pauliProb_nonneg ps v δ.psi).eq_or_lt with h | h
          · rw [← h]; simp
          · obtain ⟨a1, a2⟩ := ih (finding v δ c).1 (hf.finding hm h) (proper_finding hf hm hM h) S
            exact ⟨mul_nonneg h.le a1, mul_le_of_le_one_right h.le a2⟩
        simp only [odds, hd, hm]
        exact ⟨add_nonneg (part true).1 (part false).1, (add_le_add (part true).2 (part false).2).trans hsum.le⟩
      | none =>
        cases hs : δ.step c with
        | error m =>
          simp only [odds, hd, hm, hs]
          exact ⟨failure_nonneg _ _, failure_le _ _⟩
        | ok x =>
          obtain ⟨a, es, δ'⟩ := x
          simp only [odds, hd, hm, hs]
          refine ih a (hf.calm hm hM0.1 hs) (fun r hr => (hM r hr).2.2 a es _ ?_) _
          rw [step_calm hm r, hs]
          rfl

/-- Two distributions of the integers, and the probabilities of a program. -/
theorem odds_close {w w' : Lot} (hw : IsLot w) (hw' : IsLot w') {e : ℝ} (he0 : 0 ≤ e)
    (he : ∀ a b, Std.IsI64 a → Std.IsI64 b → a ≤ b → ∑ n ∈ Finset.Icc a b, |w a b n - w' a b n| ≤ e)
    (p : Prog QCall QAns) : ∀ {m : ℕ} {δ : Device}, DrawsAtMost m p → Fit δ.psi →
    (∀ r, InUnit r → Proper p (withRng r δ)) → ∀ S, |odds w p δ S - odds w' p δ S| ≤ m * e := by
  induction p with
  | done => intro m δ _ _ _ S; simp only [odds, sub_self, abs_zero]; exact mul_nonneg (Nat.cast_nonneg _) he0
  | call c k ih =>
    intro m δ hD hf hM S
    have hM0 := hM (fun _ => 0) (fun _ => by norm_num)
    have hm0 : 0 ≤ (m : ℝ) * e := mul_nonneg (Nat.cast_nonneg _) he0
    cases hd : drawn c with
    | int min max =>
      simp only [Proper, hd] at hM hM0
      simp only [DrawsAtMost, hd] at hD
      by_cases h : min ≤ max
      · obtain ⟨m', rfl, hD⟩ := hD
        simp only [odds, hd, if_pos h]
        have h0 : ∀ n, 0 ≤ w min max n := fun n => (hw.nonneg min max n).resolve_right (not_not.2 h)
        have hp := fun n (hn : n ∈ Finset.Icc min max) => (fun r hr =>
          (hM r hr).2.2 n (Finset.mem_Icc.1 hn).1 (Finset.mem_Icc.1 hn).2 :
            ∀ r, InUnit r → Proper (k (.int n)) (withRng r δ))
        rw [← Finset.sum_sub_distrib]
        refine (Finset.abs_sum_le_sum_abs _ _).trans ?_
        have : ∀ n ∈ Finset.Icc min max, |w min max n * odds w (k (.int n)) δ S - w' min max n * odds w' (k (.int n)) δ S| ≤
            w min max n * (m' * e) + |w min max n - w' min max n| := by
          intro n hn
          have h1 := ih (.int n) (hD _) hf (hp n hn) S
          have h2 := odds_bounds hw' (k (.int n)) hf (hp n hn) S
          have e1 : w min max n * odds w (k (.int n)) δ S - w' min max n * odds w' (k (.int n)) δ S =
              w min max n * (odds w (k (.int n)) δ S - odds w' (k (.int n)) δ S) +
                (w min max n - w' min max n) * odds w' (k (.int n)) δ S := by ring
          rw [e1]
          refine (abs_add_le _ _).trans (add_le_add ?_ ?_)
          · rw [abs_mul, abs_of_nonneg (h0 n)]
            exact mul_le_mul_of_nonneg_left h1 (h0 n)
          · rw [abs_mul, abs_of_nonneg h2.1]
            exact mul_le_of_le_one_right (abs_nonneg _) h2.2
        refine (Finset.sum_le_sum this).trans ?_
        rw [Finset.sum_add_distrib, ← Finset.sum_mul, hw.total min max hM0.1 hM0.2.1 h, one_mul]
        have := he min max hM0.1 hM0.2.1 h
        push_cast
        linarith
      · simp only [odds, hd, if_neg h, sub_self, abs_zero]
        exact hm0
    | real min max =>
      simp only [Proper, hd] at hM hM0
      simp only [DrawsAtMost, hd] at hD
      have hw0 : (0 : ℝ) < Std.words := Nat.cast_pos.2 (Nat.pos_of_ne_zero words_pos)
      by_cases h : min ≤ max
      · simp only [odds, hd, if_pos h]
        rw [← sub_div, ← Finset.sum_sub_distrib, abs_div, abs_of_pos hw0, div_le_iff₀ hw0]
        refine (Finset.abs_sum_le_sum_abs _ _).trans ?_
        refine (Finset.sum_le_sum fun i hi => ih (.real _) (hD _) hf (fun r hr => hM r hr _
          (grid_bounds h (Finset.mem_range.1 hi)).1 (grid_bounds h (Finset.mem_range.1 hi)).2) S).trans ?_
        rw [Finset.sum_const, Finset.card_range, nsmul_eq_mul, mul_comm]
      · simp only [odds, hd, if_neg h, sub_self, abs_zero]
        exact hm0
    | nothing =>
      simp only [Proper, hd] at hM hM0
      simp only [DrawsAtMost, hd] at hD
      cases hm : measures δ c with
      | some ps =>
        obtain ⟨hn, hI⟩ := measures_ok hm hM0.1
        have hsum := hf.add hn hI
        have part : ∀ v, |pauliProb ps v δ.psi * odds w (k (finding v δ c).1) (finding v δ c).2 S -
            pauliProb ps v δ.psi * odds w' (k (finding v δ c).1) (finding v δ c).2 S| ≤
            pauliProb ps v δ.psi * (m * e) := by
          intro v
          rw [← mul_sub, abs_mul, abs_of_nonneg (pauliProb_nonneg _ _ _)]
          rcases (pauliProb_nonneg ps v δ.psi).eq_or_lt with h | h
          · rw [← h]; simp
          · exact mul_le_mul_of_nonneg_left
              (ih (finding v δ c).1 (hD _) (hf.finding hm h) (proper_finding hf hm hM h) S) h.le
        simp only [odds, hd, hm]
        rw [add_sub_add_comm]
        refine (abs_add_le _ _).trans ((add_le_add (part true) (part false)).trans ?_)
        rw [← add_mul, hsum, one_mul]
      | none =>
        cases hs : δ.step c with
        | error msg => simp only [odds, hd, hm, hs, sub_self, abs_zero]; exact hm0
        | ok x =>
          obtain ⟨a, es, δ'⟩ := x
          simp only [odds, hd, hm, hs]
          refine ih a (hD a) (hf.calm hm hM0.1 hs) (fun r hr => (hM r hr).2.2 a es _ ?_) _
          rw [step_calm hm r, hs]
          rfl

theorem byWords_fair (a b : ℤ) (ha : Std.IsI64 a) (hb : Std.IsI64 b) (h : a ≤ b) :
    ∑ n ∈ Finset.Icc a b, |byWords a b n - fair a b n| ≤ 1 / 2 ^ 64 := by
  have h1 : ∀ n ∈ Finset.Icc a b, |byWords a b n - fair a b n| ≤ 1 / 2 ^ 128 := fun n hn =>
    (Std.C59_nearly_uniform a b n ha hb (Finset.mem_Icc.1 hn)).le
  refine (Finset.sum_le_sum h1).trans ?_
  rw [Finset.sum_const, Int.card_Icc, nsmul_eq_mul]
  have h2 : (((b + 1 - a).toNat : ℕ) : ℝ) ≤ 2 ^ 64 := by
    have : (b + 1 - a).toNat ≤ 2 ^ 64 := by
      unfold Std.IsI64 at ha hb
      have : (2 : ℕ) ^ 64 = 18446744073709551616 := by norm_num
      omega
    exact_mod_cast this
  calc (((b + 1 - a).toNat : ℕ) : ℝ) * (1 / 2 ^ 128) ≤ 2 ^ 64 * (1 / 2 ^ 128) :=
        mul_le_mul_of_nonneg_right h2 (by positivity)
    _ = 1 / 2 ^ 64 := by norm_num

/-- **C65**, fairness: no event of a program that draws at most `m` integers has a probability that differs by more than
`m` times `2 ^ (-64)` from the one it would have if every integer between the bounds were equally likely. -/
theorem C65_fair {m : ℕ} (hD : DrawsAtMost m p) (hm : ∀ r, InUnit r → Proper p (Device.init r))
    (S : Set (List Event × Bool)) : |odds byWords p blank S - odds fair p blank S| ≤ m / 2 ^ 64 := by
  have := odds_close isLot_byWords isLot_fair (by positivity) byWords_fair p hD blank_fit hm S
  rwa [mul_one_div] at this

theorem drawsAtMost_resigned (p : Prog QCall QAns) : ∀ {m : ℕ} {p' : Prog QCall QAns}, ResignedProg p p' →
    DrawsAtMost m p → DrawsAtMost m p' := by
  induction p with
  | done => intro m p' h _; rw [show p' = .done from h]; trivial
  | call c k ih =>
    rintro m p' ⟨c', k', rfl, hc, hk⟩ hD
    have hd : drawn c' = drawn c := by
      unfold Resigned at hc
      split at hc
      · rcases hc with rfl | rfl <;> rfl
      · rcases hc with rfl | rfl <;> rfl
      · rcases hc with rfl | rfl <;> rfl
      · rw [hc]
    simp only [DrawsAtMost] at hD ⊢
    rw [hd]
    cases hc : drawn c with
    | int a b =>
      simp only [hc] at hD
      obtain ⟨m', rfl, hD⟩ := hD
      exact ⟨m', rfl, fun a => ih a (hk a) (hD a)⟩
    | real a b => simp only [hc] at hD; exact fun a => ih a (hk a) (hD a)
    | nothing => simp only [hc] at hD; exact fun a => ih a (hk a) (hD a)

/-- **C65** for one shot: the probability that it writes something in a given set is within `m` times `2 ^ (-64)` of what
it would be if all integers between the bounds were equally likely. -/
theorem C65_nearly {m : ℕ} (he : env.eps = 0) (hD : DrawsAtMost m p)
    (hm : ∀ r, InUnit r → Proper (settled env fmt p) (Device.init r)) (s : Backend) (B : Set Bytes) :
    |(sources {ω | ∃ out ∈ B, written env fmt p 1 (supplied ω s) = .ok [out]}).toReal -
      odds fair (settled env fmt p) blank (records {es | lines es ∈ B})| ≤ m / 2 ^ 64 := by
  have h := C65_shots (fmt := fmt) he hm s [B]
  have hs : {ω | ∃ outs, written env fmt p [B].length (supplied ω s) = .ok outs ∧ List.Forall₂ (· ∈ ·) outs [B]} =
      {ω | ∃ out ∈ B, written env fmt p 1 (supplied ω s) = .ok [out]} := by
    ext ω
    constructor
    · rintro ⟨outs, h1, h2⟩
      cases h2 with
      | cons h3 h4 => cases h4; exact ⟨_, h3, h1⟩
    · rintro ⟨out, h1, h2⟩
      exact ⟨[out], h2, .cons h1 .nil⟩
  rw [hs] at h
  simp only [List.map_cons, List.map_nil, List.prod_cons, List.prod_nil, mul_one] at h
  rw [h, ENNReal.toReal_ofReal (odds_nonneg byWords_nonneg _ _ _)]
  exact C65_fair (drawsAtMost_resigned p (C57_resigned env fmt p) hD) hm _

/-! ### A die -/

/-- Draw a number from one to six and record it. -/
def dice : Prog QCall QAns := .call (.drawInt 1 6) fun
  | .int n => .call (.record (.int n none) (fun _ _ h => nomatch h)) fun _ => .done
  | _ => .done

/-- Its line. -/
def pips (n : ℤ) : Bytes := lines [.record (.int n none)]

theorem pips_inj {n n' : ℤ} (h : pips n = pips n') : n = n' := by
  have : (Record.int n none).body = (Record.int n' none).body := by
    simpa [pips, lines, Event.line] using h
  have := body_inj this
  cases this
  rfl

theorem dice_noY : NoYProg dice := by
  refine ⟨trivial, fun a => ?_⟩
  dsimp only
  split
  · exact ⟨trivial, fun _ => trivial⟩
  · trivial

theorem dice_settled : settled env fmt dice = dice :=
  C57_unturned fun _ _ _ => dice_noY.noTurn _

theorem dice_proper (δ : Device) : Proper dice δ :=
  ⟨by unfold Std.IsI64; omega, by unfold Std.IsI64; omega, fun _ _ _ => ⟨trivial, trivial, fun _ _ _ _ => trivial⟩⟩

theorem dice_odds (w : Lot) (n : ℤ) (h1 : 1 ≤ n) (h6 : n ≤ 6) :
    odds w dice blank (records {es | lines es ∈ ({pips n} : Set Bytes)}) = w 1 6 n := by
  have e : ∀ n' : ℤ, odds w (.call (.record (.int n' none) (fun _ _ h => nomatch h)) fun _ => .done) blank
      (records {es | lines es ∈ ({pips n} : Set Bytes)}) = if n' = n then 1 else 0 := by
    intro n'
    simp only [odds, drawn, measures, Device.step, records, Set.mem_ofPred_eq, Set.mem_singleton_iff, and_true,
      List.append_nil]
    refine if_congr ⟨fun h => pips_inj h, fun h => by rw [h]; rfl⟩ rfl rfl
  show (if (1 : ℤ) ≤ 6 then ∑ n' ∈ Finset.Icc (1 : ℤ) 6, w 1 6 n' * odds w (.call (.record (.int n' none) (fun _ _ h =>
    nomatch h)) fun _ => .done) blank (records {es | lines es ∈ ({pips n} : Set Bytes)}) else _) = _
  rw [if_pos (by norm_num)]
  simp only [e, mul_ite, mul_one, mul_zero]
  rw [Finset.sum_ite_eq' (Finset.Icc (1 : ℤ) 6) n, if_pos (Finset.mem_Icc.2 ⟨h1, h6⟩)]

/-- The hypotheses are met by the die: each face comes up with the same probability, up to `2 ^ (-64)`. -/
theorem dice_shot (he : env.eps = 0) (s : Backend) (n : ℤ) (h1 : 1 ≤ n) (h6 : n ≤ 6) :
    |(sources {ω | ∃ out ∈ ({pips n} : Set Bytes), written env fmt dice 1 (supplied ω s) = .ok [out]}).toReal - 1 / 6| ≤
      1 / 2 ^ 64 := by
  have hD : DrawsAtMost 1 dice := ⟨0, rfl, fun a => by
    dsimp only
    split
    · exact fun _ => trivial
    · trivial⟩
  have h := C65_nearly (fmt := fmt) he hD (fun r _ => by rw [dice_settled]; exact dice_proper _) s {pips n}
  rw [dice_settled, dice_odds fair n h1 h6] at h
  have : fair 1 6 n = 1 / 6 := by unfold fair; norm_num
  rw [this] at h
  simpa using h

/-- Three throws in a row. -/
example (he : env.eps = 0) (s : Backend) :
    sources {ω | ∃ outs, written env fmt dice 3 (supplied ω s) = .ok outs ∧
      List.Forall₂ (· ∈ ·) outs [({pips 6} : Set Bytes), {pips 6}, {pips 6}]} =
      ENNReal.ofReal (byWords 1 6 6) ^ 3 := by
  have h := C65_shots (fmt := fmt) he (p := dice) (fun r _ => by rw [dice_settled]; exact dice_proper _) s
    [({pips 6} : Set Bytes), {pips 6}, {pips 6}]
  simp only [dice_settled, List.map_cons, List.map_nil, dice_odds byWords 6 (by norm_num) (by norm_num), List.prod_cons,
    List.prod_nil, mul_one] at h
  rw [pow_three]
  exact h

end Qir.Back
