import Verif.Proof.Streams
import Verif.Proof.Backend4

/-!
# From samples to probabilities
-/

noncomputable section
namespace Qir.Back
open Spec Sim Qir.Out Run MeasureTheory

/-- A state vector of length one. -/
structure Fit (ψ : Wave) : Prop where
  fin : FinSupp ψ
  norm : Spec.normSq ψ = 1

theorem Fit.ket (b : Basis) : Fit (Spec.ket b) := ⟨finSupp_ket b, normSq_ket b⟩

theorem Fit.ctrl {ψ : Wave} (h : Fit ψ) {cs : List ℕ} {U : Mat2} (hU : Isom U) {q : ℕ} (hq : q ∉ cs) :
    Fit (Spec.ctrl cs U q ψ) := ⟨h.fin.ctrl _ _ _, by rw [normSq_ctrl h.fin hU hq, h.norm]⟩

theorem Fit.exp {ψ : Wave} (h : Fit ψ) {cs : List ℕ} {ps : List (Pauli × ℕ)} (hn : (ps.map Prod.snd).Nodup)
    (hd : ∀ c ∈ cs, c ∉ ps.map Prod.snd) (θ : ℝ) : Fit (ctrlExp cs ps θ ψ) :=
  ⟨h.fin.exp _ _ _, by rw [normSq_ctrlExp h.fin hn hd, h.norm]⟩

theorem Fit.swap {ψ : Wave} (h : Fit ψ) (a b : ℕ) : Fit (swapQubits a b ψ) :=
  ⟨h.fin.swap a b, by rw [normSq_swap, h.norm]⟩

theorem Fit.post {ψ : Wave} (h : Fit ψ) {ps : List (Pauli × ℕ)} {v : Bool} (hp : 0 < pauliProb ps v ψ) :
    Fit (pauliPost ps v ψ) := by
  refine ⟨?_, ?_⟩
  · unfold pauliPost
    rw [real_smul_wave]
    exact (h.fin.pauliProj ps v).smul _
  · unfold pauliPost
    rw [real_smul_wave, normSq_smul]
    have : Spec.normSq (pauliProj ps v ψ) = pauliProb ps v ψ := rfl
    rw [this, Complex.normSq_ofReal, div_mul_div_comm, one_mul, Real.mul_self_sqrt hp.le, one_div, inv_mul_cancel₀ hp.ne']

theorem pauliProb_nonneg (ps : List (Pauli × ℕ)) (v : Bool) (ψ : Wave) : 0 ≤ pauliProb ps v ψ := by
  unfold pauliProb
  rw [normSq_eq]
  exact sumIf_nonneg _ _

theorem Fit.add {ψ : Wave} (h : Fit ψ) {l : List (Pauli × ℕ)} (hn : (l.map Prod.snd).Nodup)
    (hI : ∀ p ∈ l, p.1 ≠ .I) : pauliProb l true ψ + pauliProb l false ψ = 1 := by
  rw [← prob_mapL hn hI h.fin, ← prob_mapL hn hI h.fin, prob_add (h.fin.mapL l), normSq_mapL h.fin, h.norm]

/-- The same device with other samples. -/
def withRng (r : ℕ → ℝ) (δ : Device) : Device := { δ with rng := r }

theorem use_withRng (q : ℕ) (r : ℕ → ℝ) (δ : Device) : (withRng r δ).use q = withRng r (δ.use q) := by
  unfold Device.use withRng
  dsimp only
  split <;> rfl

theorem useAll_withRng (qs : List ℕ) (r : ℕ → ℝ) : ∀ δ : Device, (withRng r δ).useAll qs = withRng r (δ.useAll qs) := by
  induction qs with
  | nil => intro δ; rfl
  | cons q qs ih =>
    intro δ
    show ((withRng r δ).use q).useAll qs = withRng r ((δ.use q).useAll qs)
    rw [use_withRng, ih]

theorem apply_withRng (qs : List ℕ) (U : Wave → Wave) (r : ℕ → ℝ) (δ : Device) :
    (withRng r δ).apply qs U = withRng r (δ.apply qs U) := by
  unfold Device.apply
  rw [useAll_withRng]
  rfl

/-- A call that does not measure ignores the samples. -/
theorem step_calm {δ : Device} {c : QCall} (h : measures δ c = none) (r : ℕ → ℝ) :
    (withRng r δ).step c = (δ.step c).map fun x => (x.1, x.2.1, withRng r x.2.2) := by
  cases c with
  | measure ps qs =>
    have hl : ¬ ps.length = qs.length := fun hl => by simp [measures, hl] at h
    simp only [Device.step, if_neg hl]
    rfl
  | isZero q => simp only [Device.step, use_withRng]; rfl
  | assertProb ps qs result prob msg tol =>
    simp only [Device.step, useAll_withRng, show (withRng r δ).psi = δ.psi from rfl]
    split
    · split <;> rfl
    · rfl
  | release q =>
    have hl : δ.live = {q} := by
      by_contra hl
      simp [measures, hl] at h
    simp only [Device.step, show (withRng r δ).live = δ.live from rfl, if_pos hl]
    rfl
  | reset | mresetz | mz | m => cases h
  | _ => simp only [Device.step, apply_withRng]; rfl

/-- A call that measures compares the next sample with the probability of one. -/
theorem step_measures {δ : Device} {c : QCall} {ps : List (Pauli × ℕ)} (h : measures δ c = some ps) (r : ℕ → ℝ) :
    (withRng r δ).step c = .ok ((finding (decide (r 0 < pauliProb ps true δ.psi)) δ c).1, [],
      withRng (tail r) (finding (decide (r 0 < pauliProb ps true δ.psi)) δ c).2) := by
  cases c with
  | measure ps' qs =>
    by_cases hl : ps'.length = qs.length
    · simp only [measures, if_pos hl, Option.some.injEq] at h
      subst h
      simp only [Device.step, if_pos hl, finding, Device.observed, Device.outcome, found, useAll_withRng]
      rfl
    · simp [measures, hl] at h
  | release q =>
    by_cases hl : δ.live = {q}
    · simp [measures, hl] at h
    · simp only [measures, if_neg hl, Option.some.injEq] at h
      subst h
      simp only [Device.step, show (withRng r δ).live = δ.live from rfl, if_neg hl, finding, Device.observed,
        Device.outcome, found, useAll_withRng]
      rfl
  | reset | mresetz | mz | m =>
    cases h
    simp only [Device.step, finding, Device.observed, Device.outcome, found, useAll_withRng]
    rfl
  | _ => cases h

theorem zip_sublist (ps : List Pauli) : ∀ qs : List ℕ, ((ps.zip qs).map Prod.snd).Sublist qs := by
  induction ps with
  | nil => intro qs; simp
  | cons p ps ih =>
    intro qs
    cases qs with
    | nil => simp
    | cons q qs => simpa using ih qs

theorem Fit.calm {δ δ' : Device} (h : Fit δ.psi) {c : QCall} (hm : measures δ c = none) (hv : δ.Valid c)
    {a : QAns} {es : List Event} (hs : δ.step c = .ok (a, es, δ')) : Fit δ'.psi := by
  cases c with
  | gate g q => cases hs; exact h.ctrl (isom_gate g) List.not_mem_nil
  | ctl g cs q => cases hs; exact h.ctrl (isom_gate g) fun hc => (List.nodup_append.1 hv.1).2.2 q hc q (by simp) rfl
  | sx q => cases hs; exact h.ctrl isom_Sx List.not_mem_nil
  | rxx θ a b | ryy θ a b | rzz θ a b => cases hs; refine Fit.exp (cs := []) h ?_ (fun c hc => nomatch hc) _; simpa using hv.1
  | r p θ q | rAdj p θ q => cases hs; exact Fit.exp (cs := []) (ps := [(p, q)]) h (List.nodup_singleton q) (fun c hc => nomatch hc) _
  | rCtl cs p θ q | rCtlAdj cs p θ q =>
    cases hs
    exact h.exp (by simp) (fun c hc hq => by
      have := List.nodup_append.1 hv.1
      exact this.2.2 c hc c (by simpa using hq) rfl) _
  | exp ps θ qs | expAdj ps θ qs => cases hs; exact Fit.exp (cs := []) h (hv.1.sublist (zip_sublist ps qs)) (fun c hc => nomatch hc) _
  | expCtl cs ps θ qs | expCtlAdj cs ps θ qs =>
    cases hs
    have := List.nodup_append.1 hv.1
    exact h.exp (this.2.1.sublist (zip_sublist ps qs)) (fun c hc hq =>
      this.2.2 c hc c ((zip_sublist ps qs).subset hq) rfl) _
  | swap a b => cases hs; exact h.swap a b
  | release q =>
    have hl : δ.live = {q} := by
      by_contra hl
      simp [measures, hl] at hm
    simp only [Device.step, if_pos hl] at hs
    cases hs
    exact Fit.ket _
  | measure ps qs =>
    have hl : ¬ ps.length = qs.length := fun hl => by simp [measures, hl] at hm
    simp only [Device.step, if_neg hl] at hs
    cases hs
  | isZero q => cases hs; rw [use_psi]; exact h
  | assertProb ps qs result prob msg tol =>
    simp only [Device.step] at hs
    split at hs
    · split at hs
      · cases hs; rw [useAll_psi]; exact h
      · cases hs
    · cases hs
  | reset | mresetz | mz | m => cases hm
  | reinit => cases hs; exact Fit.ket _
  | fail => cases hs
  | _ => cases hs; exact h

theorem measures_ok {δ : Device} {c : QCall} {ps : List (Pauli × ℕ)} (hm : measures δ c = some ps) (hv : δ.Valid c) :
    (ps.map Prod.snd).Nodup ∧ ∀ p ∈ ps, p.1 ≠ .I := by
  cases c with
  | measure ps' qs =>
    by_cases hl : ps'.length = qs.length
    · simp only [measures, if_pos hl, Option.some.injEq] at hm
      subst hm
      exact ⟨hv.1, fun p hp => by simpa [support] using (List.mem_filter.1 hp).2⟩
    · simp [measures, hl] at hm
  | release q =>
    by_cases hl : δ.live = {q}
    · simp [measures, hl] at hm
    · simp only [measures, if_neg hl, Option.some.injEq] at hm
      subst hm
      simp
  | reset | mresetz | mz | m => cases hm; simp
  | _ => cases hm

theorem Fit.clear {δ : Device} (h : Fit δ.psi) (v : Bool) (q : ℕ) : Fit (δ.clear v q).psi := by
  cases v with
  | false => exact h
  | true => exact h.ctrl isom_X List.not_mem_nil

theorem Fit.finding {δ : Device} (h : Fit δ.psi) {c : QCall} {ps : List (Pauli × ℕ)} (hm : measures δ c = some ps)
    {v : Bool} (hp : 0 < pauliProb ps v δ.psi) : Fit (finding v δ c).2.psi := by
  have hf : Fit (found ps v δ).psi := h.post hp
  cases c with
  | measure ps' qs =>
    by_cases hl : ps'.length = qs.length
    · simp only [measures, if_pos hl, Option.some.injEq] at hm
      subst hm
      exact hf
    · simp [measures, hl] at hm
  | release q =>
    by_cases hl : δ.live = {q}
    · simp [measures, hl] at hm
    · simp only [measures, if_neg hl, Option.some.injEq] at hm
      subst hm
      exact hf.clear v q
  | reset | mresetz => cases hm; exact hf.clear v _
  | mz | m => cases hm; exact hf
  | _ => cases hm

theorem chance_nonneg (p : Prog QCall QAns) : ∀ δ S, 0 ≤ chance p δ S := by
  induction p with
  | done => intro δ S; unfold chance; split <;> norm_num
  | call c k ih =>
    intro δ S
    unfold chance
    split
    · exact add_nonneg (mul_nonneg (pauliProb_nonneg _ _ _) (ih _ _ _)) (mul_nonneg (pauliProb_nonneg _ _ _) (ih _ _ _))
    · split
      · split <;> norm_num
      · exact ih _ _ _

/-! ### The law of one shot -/

/-- The streams with which the program ends well, records something in `T` and leaves a stream in `A`. -/
def wellSet (p : Prog QCall QAns) (δ : Device) (T : Set (List Event)) (A : Set (ℕ → ℝ)) : Set (ℕ → ℝ) :=
  {r | ∃ es δ', idealRun p (withRng r δ) = .ok (es, δ') ∧ es ∈ T ∧ δ'.rng ∈ A}

/-- The streams with which the program fails, having recorded something in `T`. -/
def badSet (p : Prog QCall QAns) (δ : Device) (T : Set (List Event)) : Set (ℕ → ℝ) :=
  {r | ∃ es, idealRun p (withRng r δ) = .error es ∧ es ∈ T}

theorem run_well {c : QCall} {k : QAns → Prog QCall QAns} {δ δ' : Device} {a : QAns} {es : List Event}
    (h : δ.step c = .ok (a, es, δ')) (T : Set (List Event)) (A : Set (ℕ → ℝ)) :
    ((∃ es' δ'', idealRun (.call c k) δ = .ok (es', δ'') ∧ es' ∈ T ∧ δ''.rng ∈ A) ↔
      ∃ es' δ'', idealRun (k a) δ' = .ok (es', δ'') ∧ es ++ es' ∈ T ∧ δ''.rng ∈ A) ∧
    ((∃ es', idealRun (.call c k) δ = .error es' ∧ es' ∈ T) ↔
      ∃ es', idealRun (k a) δ' = .error es' ∧ es ++ es' ∈ T) := by
  simp only [idealRun, h]
  cases idealRun (k a) δ' with
  | error e => simp
  | ok x => obtain ⟨es', δ''⟩ := x; simp

theorem sets_measured {δ : Device} {c : QCall} {ps : List (Pauli × ℕ)} (hm : measures δ c = some ps)
    (k : QAns → Prog QCall QAns) (T : Set (List Event)) (A : Set (ℕ → ℝ)) :
    wellSet (.call c k) δ T A = {r | if r 0 < pauliProb ps true δ.psi
      then tail r ∈ wellSet (k (finding true δ c).1) (finding true δ c).2 T A
      else tail r ∈ wellSet (k (finding false δ c).1) (finding false δ c).2 T A} ∧
    badSet (.call c k) δ T = {r | if r 0 < pauliProb ps true δ.psi
      then tail r ∈ badSet (k (finding true δ c).1) (finding true δ c).2 T
      else tail r ∈ badSet (k (finding false δ c).1) (finding false δ c).2 T} := by
  constructor
  · ext r
    have := (run_well (k := k) (step_measures hm r) T A).1
    by_cases h : r 0 < pauliProb ps true δ.psi
    · simp only [h, decide_true, List.nil_append] at this
      simp only [wellSet, Set.mem_ofPred_eq, this, h, if_true]
    · simp only [h, decide_false, List.nil_append] at this
      simp only [wellSet, Set.mem_ofPred_eq, this, h, if_false]
  · ext r
    have := (run_well (k := k) (step_measures hm r) T Set.univ).2
    by_cases h : r 0 < pauliProb ps true δ.psi
    · simp only [h, decide_true, List.nil_append] at this
      simp only [badSet, Set.mem_ofPred_eq, this, h, if_true]
    · simp only [h, decide_false, List.nil_append] at this
      simp only [badSet, Set.mem_ofPred_eq, this, h, if_false]

theorem sets_calm {δ δ' : Device} {c : QCall} (hm : measures δ c = none) {a : QAns} {es : List Event}
    (hs : δ.step c = .ok (a, es, δ')) (k : QAns → Prog QCall QAns) (T : Set (List Event)) (A : Set (ℕ → ℝ)) :
    wellSet (.call c k) δ T A = wellSet (k a) δ' {es' | es ++ es' ∈ T} A ∧
    badSet (.call c k) δ T = badSet (k a) δ' {es' | es ++ es' ∈ T} := by
  have h : ∀ r, (withRng r δ).step c = .ok (a, es, withRng r δ') := by
    intro r
    rw [step_calm hm r, hs]
    rfl
  constructor
  · ext r
    exact (run_well (k := k) (h r) T A).1
  · ext r
    exact (run_well (k := k) (h r) T A).2

theorem sets_error {δ : Device} {c : QCall} (hm : measures δ c = none) {m : List Char}
    (hs : δ.step c = .error m) (k : QAns → Prog QCall QAns) (T : Set (List Event)) (A : Set (ℕ → ℝ)) :
    wellSet (.call c k) δ T A = ∅ ∧
    badSet (.call c k) δ T = {_r | [Event.record (.message m)] ∈ T} := by
  have h : ∀ r, (withRng r δ).step c = .error m := by
    intro r
    rw [step_calm hm r, hs]
    rfl
  constructor
  · ext r
    simp [wellSet, idealRun, h]
  · ext r
    simp [badSet, idealRun, h]

theorem measurable_sets (p : Prog QCall QAns) : ∀ (δ : Device) (T : Set (List Event)) {A : Set (ℕ → ℝ)},
    MeasurableSet A → MeasurableSet (wellSet p δ T A) ∧ MeasurableSet (badSet p δ T) := by
  induction p with
  | done =>
    intro δ T A hA
    by_cases h : [] ∈ T
    · have h1 : wellSet .done δ T A = A := by ext r; simp [wellSet, idealRun, h, withRng]
      have h2 : badSet .done δ T = ∅ := by ext r; simp [badSet, idealRun]
      rw [h1, h2]
      exact ⟨hA, .empty⟩
    · have h1 : wellSet .done δ T A = ∅ := by ext r; simp [wellSet, idealRun, h]
      have h2 : badSet .done δ T = ∅ := by ext r; simp [badSet, idealRun]
      rw [h1, h2]
      exact ⟨.empty, .empty⟩
  | call c k ih =>
    intro δ T A hA
    cases hm : measures δ c with
    | some ps =>
      rw [(sets_measured hm k T A).1, (sets_measured hm k T A).2]
      exact ⟨measurable_split (ih _ _ T hA).1 (ih _ _ T hA).1, measurable_split (ih _ _ T hA).2 (ih _ _ T hA).2⟩
    | none =>
      cases hs : δ.step c with
      | error m =>
        rw [(sets_error hm hs k T A).1, (sets_error hm hs k T A).2]
        exact ⟨.empty, MeasurableSet.const _⟩
      | ok x =>
        obtain ⟨a, es, δ'⟩ := x
        rw [(sets_calm hm hs k T A).1, (sets_calm hm hs k T A).2]
        exact ih _ _ _ hA

theorem InUnit.cons {x : ℝ} (h0 : 0 ≤ x) (h1 : x < 1) {r : ℕ → ℝ} (hr : InUnit r) : InUnit (cons x r)
  | 0 => ⟨h0, h1⟩
  | n + 1 => hr n

/-- The probability of a set of records is the measure of the streams that lead there; what is left of the stream is
independent of it. -/
theorem law (p : Prog QCall QAns) : ∀ {δ : Device}, Fit δ.psi →
    (∀ r, InUnit r → Meaningful p (withRng r δ)) → ∀ (T : Set (List Event)) {A : Set (ℕ → ℝ)}, MeasurableSet A →
    streams (wellSet p δ T A) = ENNReal.ofReal (chance p δ (records T)) * streams A ∧
    streams (badSet p δ T) = ENNReal.ofReal (chance p δ (failsWith T)) := by
  induction p with
  | done =>
    intro δ _ _ T A hA
    have h2 : badSet .done δ T = ∅ := by ext r; simp [badSet, idealRun]
    by_cases h : [] ∈ T
    · have h1 : wellSet .done δ T A = A := by ext r; simp [wellSet, idealRun, h, withRng]
      rw [h1, h2]
      simp [chance, records, failsWith, h]
    · have h1 : wellSet .done δ T A = ∅ := by ext r; simp [wellSet, idealRun, h]
      rw [h1, h2]
      simp [chance, records, failsWith, h]
  | call c k ih =>
    intro δ hf hM T A hA
    have hv : δ.Valid c := (hM (fun _ => 0) (fun _ => by norm_num)).1
    cases hm : measures δ c with
    | some ps =>
      obtain ⟨hn, hI⟩ := measures_ok hm hv
      have hsum := hf.add hn hI
      have p0 := pauliProb_nonneg ps true δ.psi
      have p1 := pauliProb_nonneg ps false δ.psi
      have e1 : 1 - pauliProb ps true δ.psi = pauliProb ps false δ.psi := by linarith
      have next : ∀ v, 0 < pauliProb ps v δ.psi →
          streams (wellSet (k (finding v δ c).1) (finding v δ c).2 T A) =
            ENNReal.ofReal (chance (k (finding v δ c).1) (finding v δ c).2 (records T)) * streams A ∧
          streams (badSet (k (finding v δ c).1) (finding v δ c).2 T) =
            ENNReal.ofReal (chance (k (finding v δ c).1) (finding v δ c).2 (failsWith T)) := by
        intro v hp
        refine ih _ (hf.finding hm hp) (fun r hr => ?_) T hA
        obtain ⟨x, x0, x1, hx⟩ : ∃ x : ℝ, 0 ≤ x ∧ x < 1 ∧ decide (x < pauliProb ps true δ.psi) = v := by
          cases v with
          | true => exact ⟨0, le_refl _, by norm_num, by simpa using hp⟩
          | false => exact ⟨pauliProb ps true δ.psi, p0, by linarith, by simp⟩
        have h1 := step_measures hm (cons x r)
        rw [cons_zero, hx, tail_cons] at h1
        exact (hM _ (hr.cons x0 x1)).2.2 _ _ _ h1
      have part : ∀ v, ENNReal.ofReal (pauliProb ps v δ.psi) *
            streams (wellSet (k (finding v δ c).1) (finding v δ c).2 T A) =
          ENNReal.ofReal (pauliProb ps v δ.psi * chance (k (finding v δ c).1) (finding v δ c).2 (records T)) *
            streams A ∧ ENNReal.ofReal (pauliProb ps v δ.psi) *
            streams (badSet (k (finding v δ c).1) (finding v δ c).2 T) =
          ENNReal.ofReal (pauliProb ps v δ.psi * chance (k (finding v δ c).1) (finding v δ c).2 (failsWith T)) := by
        intro v
        rcases (pauliProb_nonneg ps v δ.psi).eq_or_lt with h | h
        · rw [← h]; simp
        · obtain ⟨a1, a2⟩ := next v h
          rw [a1, a2, ENNReal.ofReal_mul h.le, ENNReal.ofReal_mul h.le, mul_assoc]
          exact ⟨rfl, rfl⟩
      have hch : ∀ S, chance (.call c k) δ S =
          pauliProb ps true δ.psi * chance (k (finding true δ c).1) (finding true δ c).2 S +
          pauliProb ps false δ.psi * chance (k (finding false δ c).1) (finding false δ c).2 S := by
        intro S
        simp only [chance, hm]
      constructor
      · rw [(sets_measured hm k T A).1, streams_split p0 (by linarith) (measurable_sets _ _ _ hA).1
          (measurable_sets _ _ _ hA).1, e1, (part true).1, (part false).1, hch, ENNReal.ofReal_add
          (mul_nonneg p0 (chance_nonneg _ _ _)) (mul_nonneg p1 (chance_nonneg _ _ _)), add_mul]
      · rw [(sets_measured hm k T A).2, streams_split p0 (by linarith) (measurable_sets _ _ _ hA).2
          (measurable_sets _ _ _ hA).2, e1, (part true).2, (part false).2, hch, ENNReal.ofReal_add
          (mul_nonneg p0 (chance_nonneg _ _ _)) (mul_nonneg p1 (chance_nonneg _ _ _))]
    | none =>
      cases hs : δ.step c with
      | error m =>
        rw [(sets_error hm hs k T A).1, (sets_error hm hs k T A).2]
        by_cases h : [Event.record (.message m)] ∈ T
        · simp [chance, hm, hs, records, failsWith, h]
        · simp [chance, hm, hs, records, failsWith, h]
      | ok x =>
        obtain ⟨a, es, δ'⟩ := x
        rw [(sets_calm hm hs k T A).1, (sets_calm hm hs k T A).2]
        have hch : ∀ S, chance (.call c k) δ S = chance (k a) δ' {o | (es ++ o.1, o.2) ∈ S} := by
          intro S
          simp only [chance, hm, hs]
        rw [hch, hch]
        refine ih a (hf.calm hm hv hs) (fun r hr => ?_) _ hA
        refine (hM r hr).2.2 a es _ ?_
        rw [step_calm hm r, hs]
        rfl

end Qir.Back
