import Verif.Proof.RndBack5
import Verif.Proof.WeighMeasure
import Verif.Proof.BackReach
import Verif.Proof.RndDeaf

/-!
# The distance of the distributions

By induction over the program: the probability of a set of outputs, as a function of the state vector, is a `Weight`, and
the measure of the streams of samples with which the code ends there is close to it.
-/

noncomputable section
namespace Qir.RBack
open Spec Sim Qir.Out Run Rnd MeasureTheory
open Tol (Iso len)
open Qir.Back (Backend Fmt Stop tail measures finding found lines_append Fit streams streams_split streams_unit
  measurable_split pauliProb_nonneg measures_ok cons setOs NoDraw)

variable {A : Arith} {N : ℕ} {B : ℝ} {s s' : Backend} {δ : Device} {fmt : Fmt}

/-- The output is in `S`, and what is left of the samples, if the program has ended well, is in `X`. -/
def Ends (S : Set (Bytes × Bool)) (X : Set (ℕ → ℝ)) : Except Bytes (Bytes × Backend) → Prop
  | .ok (out, s') => (out, true) ∈ S ∧ s'.sim.rng ∈ X
  | .error out => (out, false) ∈ S

/-- The streams with which the code ends in `S`, and leaves a stream in `X` if it ends well. -/
def ran (A : Arith) (fmt : Fmt) (p : Prog QCall QAns) (s : Backend) (S : Set (Bytes × Bool)) (X : Set (ℕ → ℝ)) :
    Set (ℕ → ℝ) := {r | Ends S X (speech (step A fmt) p (rs r s))}

/-- What has to follow once `out` has been written. -/
def rest (out : Bytes) (S : Set (Bytes × Bool)) : Set (Bytes × Bool) := {o | (out ++ o.1, o.2) ∈ S}

theorem rest_nil (S : Set (Bytes × Bool)) : rest [] S = S := rfl

theorem speech_ok {c : QCall} {k : QAns → Prog QCall QAns} {σ σ' : Backend} {a : QAns} {out : Bytes}
    (h : qstep A fmt c σ = .ok (a, out, σ')) (S : Set (Bytes × Bool)) (X : Set (ℕ → ℝ)) :
    Ends S X (speech (step A fmt) (.call c k) σ) ↔ Ends (rest out S) X (speech (step A fmt) (k a) σ') := by
  simp only [speech, step, h]
  cases speech (step A fmt) (k a) σ' with
  | error o => rfl
  | ok x => obtain ⟨o, σ''⟩ := x; rfl

/-- What holds of one backend holds with other words too. -/
theorem any_words {c : QCall} (hp : Plain c) (o : ℕ → ℕ) {r r' : ℕ → ℝ} {a : QAns} {out : Bytes}
    (h : qstep A fmt c (rs r s) = .ok (a, out, rs r' s')) :
    qstep A fmt c (rs r (setOs o s)) = .ok (a, out, rs r' (setOs o s')) := by
  have hn : NoDraw c := by cases c <;> trivial
  rw [show rs r (setOs o s) = setOs o (rs r s) from rfl, qstep_os c hn, h]
  rfl

theorem ran_goes {c : QCall} {k : QAns → Prog QCall QAns} {a : QAns} {out : Bytes}
    (h : ∀ r, qstep A fmt c (rs r s) = .ok (a, out, rs r s')) (S : Set (Bytes × Bool)) (X : Set (ℕ → ℝ)) :
    ran A fmt (.call c k) s S X = ran A fmt (k a) s' (rest out S) X := by
  ext r
  exact speech_ok (h r) S X

theorem ran_stops {c : QCall} {k : QAns → Prog QCall QAns} {m : List Char} (hp : Plain c) (w : ℕ → ℕ)
    (h : ∀ r, qstep A fmt c (rs r s) = .error (.fail m)) (S : Set (Bytes × Bool)) (X : Set (ℕ → ℝ)) :
    ran A fmt (.call c k) (setOs w s) S X = {_r | (lines [.record (.message m)], false) ∈ S} := by
  ext r
  have hn : NoDraw c := by cases c <;> trivial
  have h' : qstep A fmt c (rs r (setOs w s)) = .error (.fail m) := by
    rw [show rs r (setOs w s) = setOs w (rs r s) from rfl, qstep_os c hn, h]
    rfl
  show Ends S X (speech (step A fmt) (.call c k) (rs r (setOs w s))) ↔ _
  simp only [speech, step, h']
  show ((Stop.fail m).output, false) ∈ S ↔ _
  rw [show (Stop.fail m).output = Back.bytesOf (emit (.message m)) from rfl, Back.bytesOf_emit, Back.lines_one]
  rfl

theorem ran_splits {c : QCall} {k : QAns → Prog QCall QAns} {p : ℝ} {a : Bool → QAns} {f : Bool → Backend}
    (h : ∀ r, qstep A fmt c (rs r s) = .ok (a (decide (r 0 < p)), [], rs (tail r) (f (decide (r 0 < p)))))
    (S : Set (Bytes × Bool)) (X : Set (ℕ → ℝ)) :
    ran A fmt (.call c k) s S X = {r | if r 0 < p then tail r ∈ ran A fmt (k (a true)) (f true) S X
      else tail r ∈ ran A fmt (k (a false)) (f false) S X} := by
  ext r
  have h1 := speech_ok (k := k) (h r) S X
  rw [rest_nil] at h1
  refine h1.trans ?_
  by_cases hr : r 0 < p
  · simp only [hr, decide_true, Set.mem_ofPred_eq, if_true]
    rfl
  · simp only [hr, decide_false, Set.mem_ofPred_eq, if_false]
    rfl

/-- A comparison with any number. -/
theorem streams_clamp (p : ℝ) {X Y : Set (ℕ → ℝ)} (hX : MeasurableSet X)
    (hY : MeasurableSet Y) : streams {r | if r 0 < p then tail r ∈ X else tail r ∈ Y} =
      ENNReal.ofReal (clamp p) * streams X + ENNReal.ofReal (1 - clamp p) * streams Y := by
  rw [← streams_split (clamp_nonneg p) (clamp_le p) hX hY]
  refine measure_congr ?_
  filter_upwards [streams_unit] with r hr
  obtain ⟨h0, h1⟩ := hr 0
  have : r 0 < p ↔ r 0 < clamp p := by
    unfold clamp
    rw [lt_max_iff, lt_min_iff]
    constructor
    · exact fun h => .inr ⟨h1, h⟩
    · rintro (h | h)
      · linarith
      · exact h.2
  apply propext
  show (if r 0 < p then tail r ∈ X else tail r ∈ Y) ↔ (if r 0 < clamp p then tail r ∈ X else tail r ∈ Y)
  simp only [this]

theorem texts_rest (es : List Event) (S : Set (Bytes × Bool)) :
    {o : List Event × Bool | (es ++ o.1, o.2) ∈ texts S} = texts (rest (lines es) S) := by
  ext o
  show (lines (es ++ o.1), o.2) ∈ S ↔ (lines es ++ lines o.1, o.2) ∈ S
  rw [lines_append]

theorem measures_psi (δ : Device) (ψ : Wave) (c : QCall) : measures { δ with psi := ψ } c = measures δ c := by
  cases c <;> rfl

/-- The words are not used up. -/
def Keeps (A : Arith) (fmt : Fmt) (p : Prog QCall QAns) (s : Backend) : Prop :=
  ∀ w r out s', speech (step A fmt) p (rs r (setOs w s)) = .ok (out, s') → s'.os = w

theorem speech_next {c : QCall} {k : QAns → Prog QCall QAns} {σ σ' s' : Backend} {a : QAns} {out o : Bytes}
    (h : qstep A fmt c σ = .ok (a, out, σ')) (hs : speech (step A fmt) (.call c k) σ = .ok (o, s')) :
    ∃ o', speech (step A fmt) (k a) σ' = .ok (o', s') := by
  simp only [speech, step, h] at hs
  cases hk : speech (step A fmt) (k a) σ' with
  | error e => simp [hk] at hs
  | ok x =>
    simp only [hk, Except.ok.injEq, Prod.mk.injEq] at hs
    exact ⟨x.1, by rw [← hs.2]⟩

theorem Keeps.goes {c : QCall} {k : QAns → Prog QCall QAns} (hp : Plain c) {a : QAns} {out : Bytes}
    (h : ∀ r, qstep A fmt c (rs r s) = .ok (a, out, rs r s')) (hk : Keeps A fmt (k a) s') : Keeps A fmt (.call c k) s := by
  intro w r o t ht
  obtain ⟨o', h1⟩ := speech_next (any_words hp w (h r)) ht
  exact hk w r o' t h1

theorem Keeps.stops {c : QCall} {k : QAns → Prog QCall QAns} {m : List Char} (hp : Plain c)
    (h : ∀ r, qstep A fmt c (rs r s) = .error (.fail m)) : Keeps A fmt (.call c k) s := by
  intro w r o t ht
  have hn : NoDraw c := by cases c <;> trivial
  have h' : qstep A fmt c (rs r (setOs w s)) = .error (.fail m) := by
    rw [show rs r (setOs w s) = setOs w (rs r s) from rfl, qstep_os c hn, h]
    rfl
  simp only [speech, step, h'] at ht
  cases ht

theorem Keeps.splits {c : QCall} {k : QAns → Prog QCall QAns} (hp : Plain c) {p : ℝ} {a : Bool → QAns} {f : Bool → Backend}
    (h : ∀ r, qstep A fmt c (rs r s) = .ok (a (decide (r 0 < p)), [], rs (tail r) (f (decide (r 0 < p)))))
    (hk : ∀ v, Keeps A fmt (k (a v)) (f v)) : Keeps A fmt (.call c k) s := by
  intro w r o t ht
  obtain ⟨o', h1⟩ := speech_next (any_words hp w (h r)) ht
  exact hk _ w (tail r) o' t h1

/-- What the induction shows. -/
def Close (A : Arith) (N : ℕ) (fmt : Fmt) (p : Prog QCall QAns) (s : Backend) (δ : Device) (S : Set (Bytes × Bool))
    (W M : ℕ) : Prop :=
  Keeps A fmt p s ∧ ∃ F : Wave → ℝ, Weight F ∧ (∀ ψ, Fit ψ → Back.chance p { δ with psi := ψ } (texts S) = F ψ) ∧
    ∃ L : ℝ, 0 ≤ L ∧ L ≤ 1 ∧
      (∀ o X, MeasurableSet X → (X = Set.univ ∨ ∀ o, (o, false) ∉ S) →
        MeasurableSet (ran A fmt p (setOs o s) S X) ∧
          streams (ran A fmt p (setOs o s) S X) = ENNReal.ofReal L * streams X) ∧
      |L - F (Rnd.abs A s.sim)| ≤ 5 * off (Rnd.abs A s.sim) + 24 * Rnd.cost A N * (W + s.sim.opQ.length : ℕ) +
        100 * slip A N * M

theorem slip_nonneg (A : Arith) (N : ℕ) : 0 ≤ slip A N := by
  have := A.v_nonneg
  unfold slip
  positivity

theorem Close.mono (hf : Fine A) {p : Prog QCall QAns} {S : Set (Bytes × Bool)} {W M W' M' : ℕ} (h : Close A N fmt p s δ S W M)
    (hW : W ≤ W') (hM : M ≤ M') : Close A N fmt p s δ S W' M' := by
  obtain ⟨hk, F, h1, h2, L, h3, h4, h5, h6⟩ := h
  refine ⟨hk, F, h1, h2, L, h3, h4, h5, h6.trans ?_⟩
  have hc := cost_nonneg hf N
  have hs := slip_nonneg A N
  have e1 : ((W + s.sim.opQ.length : ℕ) : ℝ) ≤ (W' + s.sim.opQ.length : ℕ) := by exact_mod_cast Nat.add_le_add_right hW _
  have e2 : (M : ℝ) ≤ M' := by exact_mod_cast hM
  gcongr

open Classical in
/-- The program ends here, in one way. -/
theorem Close.leaf (hf : Fine A) {p : Prog QCall QAns} {S : Set (Bytes × Bool)} {o : Bytes × Bool} (W M : ℕ)
    (hc : ∀ ψ, Back.chance p { δ with psi := ψ } (texts S) = if o ∈ S then 1 else 0)
    (hk : Keeps A fmt p s) (hr : ∀ w X, ran A fmt p (setOs w s) S X = {r | o ∈ S ∧ (o.2 = true → r ∈ X)}) : Close A N fmt p s δ S W M := by
  have k0 : (0 : ℝ) ≤ if o ∈ S then 1 else 0 := by split <;> norm_num
  have k1 : (if o ∈ S then 1 else 0 : ℝ) ≤ 1 := by split <;> norm_num
  refine ⟨hk, _, Weight.const k0 k1, fun ψ h => by rw [hc, h.norm, one_mul], _, k0, k1, fun w X hX hor => ?_, ?_⟩
  · rw [hr]
    by_cases h : o ∈ S
    · by_cases h2 : o.2 = true
      · simp only [h, h2, true_and, true_imp_iff, if_true, ENNReal.ofReal_one, one_mul]
        exact ⟨hX, rfl⟩
      · have hu : X = Set.univ := hor.resolve_right fun hn => hn o.1 (by
          have : o = (o.1, false) := Prod.ext rfl (by simpa using h2)
          rwa [← this])
        subst hu
        simp only [h, true_and, Set.mem_univ, imp_true_iff, if_true, ENNReal.ofReal_one, one_mul]
        exact ⟨MeasurableSet.univ, rfl⟩
    · simp only [h, false_and, if_false, ENNReal.ofReal_zero, zero_mul]
      exact ⟨.empty, measure_empty⟩
  · refine (Weight.drop k0 k1 (B := 0) (by simp)).trans ?_
    have hc := cost_nonneg hf N
    have hs := slip_nonneg A N
    have : 0 ≤ 24 * Rnd.cost A N * ((W + s.sim.opQ.length : ℕ) : ℝ) + 100 * slip A N * M := by positivity
    linarith

theorem Close.goes (hf : Fine A) {c : QCall} {k : QAns → Prog QCall QAns} {S : Set (Bytes × Bool)} {W M : ℕ}
    (hm : measures δ c = none) (hpl : Plain c) {a : QAns} {es : List Event} {δ' : Device} {U : Module.End ℂ Wave} (hU : Iso U)
    (hs : ∀ ψ, Device.step { δ with psi := ψ } c = .ok (a, es, { δ' with psi := U ψ }))
    (hq : ∀ r, qstep A fmt c (rs r s) = .ok (a, lines es, rs r s')) {n : ℕ} (hmv : Moves A N B s s' δ' U n)
    (h : Close A N fmt (k a) s' δ' (rest (lines es) S) W M) : Close A N fmt (.call c k) s δ S (W + n) M := by
  obtain ⟨hk, F, h1, h2, L, h3, h4, h5, h6⟩ := h
  refine ⟨hk.goes hpl hq, _, h1.comp hU, fun ψ hψ => ?_, L, h3, h4, fun w X hX hor => ?_, ?_⟩
  · have hfit : Fit (U ψ) := ⟨hU.fin hψ.fin, by rw [← Tol.len_sq, hU.len hψ.fin, Tol.len_sq, hψ.norm]⟩
    rw [← h2 _ hfit]
    simp only [Back.chance, measures_psi, hm, hs, texts_rest]
  · rw [ran_goes fun r => any_words hpl w (hq r)]
    exact h5 w X hX (hor.imp_right fun hn o => hn _)
  · obtain ⟨e, he, hn⟩ := hmv.near
    exact Weight.gate hf h1 hU (Rnd.finSupp_abs s.sim) he hn h3 h4
      (by have := slip_nonneg A N; positivity) h6

theorem Close.drops (hf : Fine A) {c : QCall} {k : QAns → Prog QCall QAns} {S : Set (Bytes × Bool)} {W M : ℕ}
    (hm : measures δ c = none) (hpl : Plain c) {δ' : Device} (h0 : δ'.psi = ket zeroBasis)
    (hs : ∀ ψ, Device.step { δ with psi := ψ } c = .ok (.unit, [], δ'))
    (hq : ∀ r, qstep A fmt c (rs r s) = .ok (.unit, [], rs r s')) (ho : s'.sim.opQ = []) (ha : Rnd.abs A s'.sim = ket zeroBasis)
    (h : Close A N fmt (k .unit) s' δ' S W M) : Close A N fmt (.call c k) s δ S W M := by
  obtain ⟨hk, F, h1, h2, L, h3, h4, h5, h6⟩ := h
  have k0 := h1.nonneg (finSupp_ket zeroBasis)
  have k1 := h1.le (finSupp_ket zeroBasis)
  rw [normSq_ket] at k1
  refine ⟨hk.goes hpl hq, _, Weight.const k0 k1, fun ψ hψ => ?_, L, h3, h4, fun w X hX hor => ?_, ?_⟩
  · rw [hψ.norm, one_mul, ← h2 _ (Fit.ket _)]
    have : { δ' with psi := ket zeroBasis } = δ' := by rw [← h0]
    rw [this]
    simp only [Back.chance, measures_psi, hm, hs, List.nil_append]
    rfl
  · rw [ran_goes fun r => any_words hpl w (hq r)]
    exact h5 w X hX hor
  · rw [ha, ho] at h6
    have e0 : off (ket zeroBasis) = 0 := by unfold off; rw [normSq_ket]; simp
    rw [e0] at h6
    have h7 := Weight.drop k0 k1 (ψ := Rnd.abs A s.sim) h6
    have hc := cost_nonneg hf N
    have e1 : ((W + ([] : Queue).length : ℕ) : ℝ) ≤ (W + s.sim.opQ.length : ℕ) := by
      exact_mod_cast Nat.add_le_add_left (Nat.zero_le _) _
    have e2 : 24 * Rnd.cost A N * ((W + ([] : Queue).length : ℕ) : ℝ) ≤ 24 * Rnd.cost A N * (W + s.sim.opQ.length : ℕ) := by gcongr
    linarith

theorem found_weight {c : QCall} {ps : List (Pauli × ℕ)} (hm : measures δ c = some ps) (hv : δ.Valid c) {v : Bool}
    {V : Module.End ℂ Wave} (hV : Iso V)
    (hfind : ∀ ψ, finding v { δ with psi := ψ } c = ((finding v δ c).1, { (finding v δ c).2 with
        psi := ((1 / √(pauliProb ps v ψ) : ℝ) : ℂ) • V (proj (ps.map Prod.snd) v (mapL ps ψ)) }))
    {F : Wave → ℝ} (hF : Weight F) {p : Prog QCall QAns} {S : Set (List Event × Bool)}
    (h : ∀ ψ, Fit ψ → Back.chance p { (finding v δ c).2 with psi := ψ } S = F ψ) {ψ : Wave} (hψ : Fit ψ) :
    pauliProb ps v ψ * Back.chance p (finding v { δ with psi := ψ } c).2 S =
      F (V (proj (ps.map Prod.snd) v (mapL ps ψ))) := by
  obtain ⟨hn, hI⟩ := measures_ok hm hv
  have hfin : FinSupp (V (proj (ps.map Prod.snd) v (mapL ps ψ))) := hV.fin ((hψ.fin.mapL ps).proj _ _)
  have hN : Spec.normSq (V (proj (ps.map Prod.snd) v (mapL ps ψ))) = pauliProb ps v ψ := by
    rw [← Tol.len_sq, hV.len ((hψ.fin.mapL ps).proj _ _), Tol.len_sq, normSq_proj, prob_mapL hn hI hψ.fin]
  rcases (pauliProb_nonneg ps v ψ).eq_or_lt with hp | hp
  · have h1 := hF.nonneg hfin
    have h2 := hF.le hfin
    rw [hN, ← hp] at h2
    rw [← hp, zero_mul]
    linarith
  · have hfit : Fit (finding v { δ with psi := ψ } c).2.psi :=
      Fit.finding (δ := { δ with psi := ψ }) hψ (by rw [measures_psi]; exact hm) hp
    rw [hfind] at hfit ⊢
    rw [h _ hfit, hF.smul, Complex.normSq_ofReal, div_mul_div_comm, one_mul, Real.mul_self_sqrt hp.le]
    field_simp

theorem Close.splits (hf : Fine A) {c : QCall} {k : QAns → Prog QCall QAns} {S : Set (Bytes × Bool)} {W M : ℕ}
    {ps : List (Pauli × ℕ)} (hm : measures δ c = some ps) (hpl : Plain c) (hv : δ.Valid c) {t : Wave} {p : ℝ} {f : Bool → Backend}
    {V : Bool → Module.End ℂ Wave} {n m : ℕ} {e : ℂ} (he : ‖e‖ = 1) (htf : FinSupp t)
    (ht : Cost A N n [] s.sim.opQ t (e • mapL ps (Rnd.abs A s.sim)))
    (hp : len t ≤ 3 / 2 → slip A N ≤ 1 → |p - Spec.prob (ps.map Prod.snd) true t| ≤ slip A N)
    (hq : ∀ r, qstep A fmt c (rs r s) =
      .ok ((finding (decide (r 0 < p)) δ c).1, [], rs (tail r) (f (decide (r 0 < p)))))
    (hV : ∀ v, Iso (V v))
    (hφ : ∀ v, ∃ (φ : Wave) (e' : ℂ), ‖e'‖ = 1 ∧ Reach A N 1 φ ((factor A v p : ℂ) • proj (ps.map Prod.snd) v t) ∧
        Cost A N m (f v).sim.opQ [] (Rnd.abs A (f v).sim) (e' • V v φ))
    (hfind : ∀ v ψ, finding v { δ with psi := ψ } c = ((finding v δ c).1, { (finding v δ c).2 with
        psi := ((1 / √(pauliProb ps v ψ) : ℝ) : ℂ) • V v (proj (ps.map Prod.snd) v (mapL ps ψ)) }))
    (h : ∀ v, Close A N fmt (k (finding v δ c).1) (f v) (finding v δ c).2 S W M) :
    Close A N fmt (.call c k) s δ S (W + (n + m + 1)) (M + 1) := by
  choose hk F h1 h2 L h3 h4 h5 h6 using h
  choose φ e' he' hr hcφ using hφ
  have hc0 := clamp_nonneg p
  have hc1 := clamp_le p
  have hH : ∀ v, Weight fun χ => F v (V v χ) := fun v => (h1 v).comp (hV v)
  have hG : Weight fun ψ => F true (V true (proj (ps.map Prod.snd) true ψ)) + F false (V false (proj (ps.map Prod.snd) false ψ)) :=
    (hH true).split (hH false) (ps.map Prod.snd)
  have hR : 0 ≤ 100 * slip A N * M := by have := slip_nonneg A N; positivity
  have hcost := cost_nonneg hf N
  have l0 : 0 ≤ clamp p * L true + (1 - clamp p) * L false :=
    add_nonneg (mul_nonneg hc0 (h3 true)) (mul_nonneg (by linarith) (h3 false))
  have l1 : clamp p * L true + (1 - clamp p) * L false ≤ 1 := by
    have e1 := mul_le_mul_of_nonneg_left (h4 true) hc0
    have e2 := mul_le_mul_of_nonneg_left (h4 false) (show 0 ≤ 1 - clamp p by linarith)
    linarith
  refine ⟨Keeps.splits hpl (a := fun v => (finding v δ c).1) hq hk, _, hG.comp (iso_mapL ps), fun ψ hψ => ?_, clamp p * L true + (1 - clamp p) * L false, l0, l1,
    fun w X hX hor => ?_, ?_⟩
  · rw [← found_weight hm hv (hV true) (hfind true) (h1 true) (h2 true) hψ,
      ← found_weight hm hv (hV false) (hfind false) (h1 false) (h2 false) hψ]
    have e1 : ∀ v, (finding v { δ with psi := ψ } c).1 = (finding v δ c).1 := fun v => by rw [hfind v ψ]
    simp only [Back.chance, measures_psi, hm, e1]
  · obtain ⟨a1, a2⟩ := h5 true w X hX hor
    obtain ⟨b1, b2⟩ := h5 false w X hX hor
    rw [ran_splits (a := fun v => (finding v δ c).1) (f := fun v => setOs w (f v)) fun r => any_words hpl w (hq r)]
    refine ⟨measurable_split a1 b1, ?_⟩
    rw [streams_clamp p a1 b1, a2, b2, ENNReal.ofReal_add (mul_nonneg hc0 (h3 true)) (mul_nonneg (by linarith) (h3 false)),
      ENNReal.ofReal_mul hc0, ENNReal.ofReal_mul (by linarith), add_mul, mul_assoc, mul_assoc]
  · have g1 : ∀ v, |L v - F v (V v (φ v))| ≤ 5 * off (φ v) + (24 * Rnd.cost A N * (W + m + ([] : Queue).length : ℕ) + 100 * slip A N * M) := by
      intro v
      have := Weight.gate hf (h1 v) (hV v) (hr v).fin (he' v) (hcφ v) (h3 v) (h4 v) hR (h6 v)
      linarith
    have g2 := Weight.measured hf hH htf (N := N) rfl hp hr h3 h4 (by positivity) g1
    have g3 := Weight.gate hf hG (iso_mapL ps) (Rnd.finSupp_abs s.sim) he ht l0 l1 (w := W + m + 1)
      (R := 100 * slip A N * (M + 1 : ℕ)) (by have := slip_nonneg A N; positivity) (by
        refine g2.trans (le_of_eq ?_)
        unfold slip
        push_cast
        simp only [List.length_nil, Nat.cast_zero]
        ring)
    refine g3.trans (le_of_eq ?_)
    congr 3
    push_cast
    ring

theorem close (hf : Fine A) (p : Prog QCall QAns) : ∀ {s : Backend} {δ : Device} {B T : ℝ} {W M : ℕ}, Like s δ → 0 ≤ B →
    Low B s.sim → A.u * (B + T) + A.eta ≤ A.eps → Within A N p δ W M T → Turnless A fmt p s →
    ∀ S, Close A N fmt p s δ S W M := by
  induction p with
  | done =>
    intro s δ B T W M _ _ _ _ _ _ S
    refine .leaf hf (o := ([], true)) W M (fun ψ => rfl) (by rintro w r o t ⟨⟩; rfl) (fun w X => ?_)
    ext r
    show (([] : Bytes), true) ∈ S ∧ _ ↔ _
    simp
    exact fun _ => Iff.rfl
  | call c k ih =>
    intro s δ B T W M h hB hl ht hw htl S
    unfold Within at hw
    obtain ⟨hv, hpl, hW, hT, hw⟩ := hw
    obtain ⟨hok, hnext⟩ := htl
    have ht0 := turn_nonneg' hf c
    have hu := A.u_nonneg
    have ht1 : A.u * (B + turn A c) + A.eta ≤ A.eps := by
      have := mul_le_mul_of_nonneg_left (show B + turn A c ≤ B + T by linarith) hu
      linarith
    cases hm : measures δ c with
    | some ps =>
      rw [hm] at hw
      obtain ⟨hM, hw⟩ := hw
      obtain ⟨t, p, f, V, n, m, e, he, htf, hct, hnm, hp, hq, hrest⟩ := splits hf fmt hB (by
        have := mul_le_mul_of_nonneg_left (show B ≤ B + T by linarith) hu
        linarith) h hl hm hv (hw true).2.1
      have := Close.splits hf (k := k) (S := S) (W := W - effort c) (M := M - 1) hm hpl hv he htf hct hp hq
        (fun v => (hrest v).1) (fun v => (hrest v).2.2.2.1) (fun v => (hrest v).2.2.2.2) (fun v => by
          obtain ⟨_, r2, r3, _, _⟩ := hrest v
          refine ih _ r2 hB r3 ?_ (hw v).2.2 ?_ S
          · have := mul_le_mul_of_nonneg_left (show B + (T - turn A c) ≤ B + T by linarith) hu
            linarith
          · obtain ⟨x, hx⟩ : ∃ x : ℝ, decide (x < p) = v := by
              cases v
              · exact ⟨p, by simp⟩
              · exact ⟨p - 1, by simp⟩
            have := hq (cons x (f v).sim.rng)
            rw [Back.cons_zero, Back.tail_cons, hx] at this
            refine hnext (cons x (f v).sim.rng) _ [] _ ?_
            show step A fmt c (rs _ s) = _
            unfold step
            rw [this]
            rfl)
      exact this.mono hf (by omega) (by omega)
    | none =>
      rw [hm] at hw
      dsimp only at hw
      have hstep : ∀ {a out} {s' : Backend}, (∀ r, qstep A fmt c (rs r s) = .ok (a, out, rs r s')) → Turnless A fmt (k a) s' := by
        intro a out s' hq
        refine hnext s'.sim.rng a out _ ?_
        show step A fmt c (rs _ s) = _
        unfold step
        rw [hq]
        rfl
      rcases calm_calls hf fmt h hB hl hpl hm hv ht1 hok (fun a es δ' e => (hw a es δ' e).1) with hg | hg | hg
      · obtain ⟨a, es, δ', U, hU, hs, s', hq, hmv⟩ := hg
        have := ih a (hmv.like.psi (U δ.psi)) (by linarith : 0 ≤ B + turn A c) hmv.low (T := T - turn A c) (by
          rw [show B + turn A c + (T - turn A c) = B + T by ring]; exact ht) (hw a es _ (hs δ.psi)).2 (hstep hq) (rest (lines es) S)
        exact (Close.goes hf hm hpl hU hs hq hmv this).mono hf (by omega) le_rfl
      · obtain ⟨m, hs, hq⟩ := hg
        refine .leaf hf (o := (lines [.record (.message m)], false)) W M (fun ψ => ?_) (.stops hpl hq) (fun w X => ?_)
        · simp only [Back.chance, measures_psi, hm, hs]
          rfl
        · rw [ran_stops hpl w hq]
          ext r
          simp
      · obtain ⟨δ', h0, hs, s', hq, hlk, hlo, ho, ha⟩ := hg
        have := ih .unit hlk hB hlo (T := T - turn A c) (by
          have := mul_le_mul_of_nonneg_left (show B + (T - turn A c) ≤ B + T by linarith) hu
          linarith) (hw _ _ _ (hs δ.psi)).2 (hstep hq) S
        exact (Close.drops hf hm hpl h0 hs hq ho ha this).mono hf (by omega) le_rfl

end Qir.RBack
