import Verif.Proof.TV
import Verif.Props.Odds
import Verif.Props.TVDrawDefs

/-!
# The distance of the distributions for programs that draw random numbers

As `Proof/TV.lean`, with samples and words as sources.
-/

noncomputable section
namespace Qir.RBack
open Spec Sim Qir.Out Run Rnd MeasureTheory
open Tol (Iso len)
open Qir.Back (Backend Fmt Stop tail tailW measures finding found lines_append Fit sources sources_good sources_measured
  measurable_measured measurable_twice pauliProb_nonneg measures_ok cons setOs NoDraw supplied drawn odds byWords
  byWords_nonneg failure boundsText words_pos)

variable {A : Arith} {N : ℕ} {B : ℝ} {s s' : Backend} {δ : Device} {fmt : Fmt}

/-- The samples and words. -/
abbrev Source := (ℕ → ℝ) × (ℕ → ℕ)

/-- The words are words. -/
def worded : Set Source := {ω | ∀ n, ω.2 n < Std.words}

theorem measurable_worded : MeasurableSet worded := by
  have : worded = ⋂ n, (fun ω : Source => ω.2 n) ⁻¹' {x | x < Std.words} := by ext ω; simp [worded]
  rw [this]
  exact .iInter fun n => ((measurable_pi_apply n).comp measurable_snd) MeasurableSet.of_discrete

theorem sources_worded (X : Set Source) : sources (worded ∩ X) = sources X := by
  refine measure_congr ?_
  filter_upwards [sources_good] with ω h
  apply propext
  exact ⟨fun h => h.2, fun h' => ⟨h.2, h'⟩⟩

/-- The output is in `S`, and what is left of the sources, if the program has ended well, is in `X`. -/
def EndsD (S : Set (Bytes × Bool)) (X : Set Source) : Except Bytes (Bytes × Backend) → Prop
  | .ok (out, s') => (out, true) ∈ S ∧ (s'.sim.rng, s'.os) ∈ X
  | .error out => (out, false) ∈ S

/-- The sources with which the code ends in `S`, and leaves a source in `X` if it ends well. -/
def ranD (A : Arith) (fmt : Fmt) (p : Prog QCall QAns) (s : Backend) (S : Set (Bytes × Bool)) (X : Set Source) :
    Set Source := {ω | ω ∈ worded ∧ EndsD S X (speech (step A fmt) p (supplied ω s))}

theorem speechD_ok {c : QCall} {k : QAns → Prog QCall QAns} {σ σ' : Backend} {a : QAns} {out : Bytes}
    (h : qstep A fmt c σ = .ok (a, out, σ')) (S : Set (Bytes × Bool)) (X : Set Source) :
    EndsD S X (speech (step A fmt) (.call c k) σ) ↔ EndsD (rest out S) X (speech (step A fmt) (k a) σ') := by
  simp only [speech, step, h]
  cases speech (step A fmt) (k a) σ' with
  | error o => rfl
  | ok x => obtain ⟨o, σ''⟩ := x; rfl

theorem ranD_goes {c : QCall} (hp : Plain c) {k : QAns → Prog QCall QAns} {a : QAns} {out : Bytes}
    (h : ∀ r, qstep A fmt c (rs r s) = .ok (a, out, rs r s')) (S : Set (Bytes × Bool)) (X : Set Source) :
    ranD A fmt (.call c k) s S X = ranD A fmt (k a) s' (rest out S) X := by
  ext ω
  exact and_congr_right fun _ => speechD_ok (any_words hp ω.2 (h ω.1)) S X

theorem ranD_fails {c : QCall} {k : QAns → Prog QCall QAns} {m : List Char}
    (h : ∀ ω, qstep A fmt c (supplied ω s) = .error (.fail m)) (S : Set (Bytes × Bool)) (X : Set Source) :
    ranD A fmt (.call c k) s S X = {ω | ω ∈ worded ∧ (lines [.record (.message m)], false) ∈ S} := by
  ext ω
  refine and_congr_right fun _ => ?_
  simp only [speech, step, h]
  show ((Stop.fail m).output, false) ∈ S ↔ _
  rw [show (Stop.fail m).output = Back.bytesOf (emit (.message m)) from rfl, Back.bytesOf_emit, Back.lines_one]
  rfl

theorem any_stop {c : QCall} {m : List Char} (hp : Plain c) (h : ∀ r, qstep A fmt c (rs r s) = .error (.fail m))
    (ω : Source) : qstep A fmt c (supplied ω s) = .error (.fail m) := by
  have hn : NoDraw c := by cases c <;> trivial
  rw [show supplied ω s = setOs ω.2 (rs ω.1 s) from rfl, qstep_os c hn, h]
  rfl

theorem ranD_splits {c : QCall} (hpl : Plain c) {k : QAns → Prog QCall QAns} {p : ℝ} {a : Bool → QAns} {f : Bool → Backend}
    (h : ∀ r, qstep A fmt c (rs r s) = .ok (a (decide (r 0 < p)), [], rs (tail r) (f (decide (r 0 < p)))))
    (S : Set (Bytes × Bool)) (X : Set Source) :
    ranD A fmt (.call c k) s S X = {ω | if ω.1 0 < p then (tail ω.1, ω.2) ∈ ranD A fmt (k (a true)) (f true) S X
      else (tail ω.1, ω.2) ∈ ranD A fmt (k (a false)) (f false) S X} := by
  ext ω
  have h1 := speechD_ok (k := k) (any_words hpl ω.2 (h ω.1)) S X
  rw [rest_nil] at h1
  refine (and_congr_right fun _ => h1).trans ?_
  by_cases hr : ω.1 0 < p
  · simp only [hr, decide_true, Set.mem_ofPred_eq, if_true]
    rfl
  · simp only [hr, decide_false, Set.mem_ofPred_eq, if_false]
    rfl

/-- A comparison with any number. -/
theorem sources_clamp (p : ℝ) {X Y : Set Source} (hX : MeasurableSet X)
    (hY : MeasurableSet Y) : sources {ω | if ω.1 0 < p then (tail ω.1, ω.2) ∈ X else (tail ω.1, ω.2) ∈ Y} =
      ENNReal.ofReal (clamp p) * sources X + ENNReal.ofReal (1 - clamp p) * sources Y := by
  rw [← sources_measured (clamp_nonneg p) (clamp_le p) hX hY]
  refine measure_congr ?_
  filter_upwards [sources_good] with ω hr
  obtain ⟨h0, h1⟩ := hr.1 0
  have : ω.1 0 < p ↔ ω.1 0 < clamp p := by
    unfold clamp
    rw [lt_max_iff, lt_min_iff]
    constructor
    · exact fun h => .inr ⟨h1, h⟩
    · rintro (h | h)
      · linarith
      · exact h.2
  apply propext
  show (if ω.1 0 < p then (tail ω.1, ω.2) ∈ X else (tail ω.1, ω.2) ∈ Y) ↔
    (if ω.1 0 < clamp p then (tail ω.1, ω.2) ∈ X else (tail ω.1, ω.2) ∈ Y)
  simp only [this]

theorem worded_tails {ω : Source} (h : ω ∈ worded) : (ω.1, tailW (tailW ω.2)) ∈ worded := fun n => h (n + 2)

/-- An integer is drawn. -/
theorem ranD_int {min max : ℤ} (h : min ≤ max) {k : QAns → Prog QCall QAns} (S : Set (Bytes × Bool)) (X : Set Source) :
    ranD A fmt (.call (.drawInt min max) k) s S X = worded ∩ {ω | (ω.1, tailW (tailW ω.2)) ∈
      ranD A fmt (k (.int (Std.sampleInclusive min max (ω.2 0) (ω.2 1)))) s S X} := by
  ext ω
  refine and_congr_right fun hw => ?_
  have h1 : qstep A fmt (.drawInt min max) (supplied ω s) =
      .ok (.int (Std.sampleInclusive min max (ω.2 0) (ω.2 1)), [], supplied (ω.1, tailW (tailW ω.2)) s) := by
    simp only [qstep, Std.drawRandomInt, if_neg (not_lt.2 h)]
    rfl
  refine (speechD_ok h1 S X).trans ?_
  rw [rest_nil]
  exact ⟨fun e => ⟨worded_tails hw, e⟩, fun e => e.2⟩

/-- A real number is drawn. -/
theorem ranD_real {min max : ℝ} (h : min ≤ max) {k : QAns → Prog QCall QAns} (S : Set (Bytes × Bool)) (X : Set Source) :
    ranD A fmt (.call (.drawDouble min max) k) s S X = worded ∩ {ω | (ω.1, tailW (tailW ω.2)) ∈
      ranD A fmt (k (.real (min + (ω.2 0 : ℝ) / ((Std.words : ℝ) - 1) * (max - min)))) s S X} := by
  ext ω
  refine and_congr_right fun hw => ?_
  have h1 : qstep A fmt (.drawDouble min max) (supplied ω s) =
      .ok (.real (min + (ω.2 0 : ℝ) / ((Std.words : ℝ) - 1) * (max - min)), [],
        supplied (ω.1, tailW (tailW ω.2)) s) := by
    simp only [qstep, Std.drawRandomDouble, if_neg (not_lt.2 h), Std.sampleReal]
    rfl
  refine (speechD_ok h1 S X).trans ?_
  rw [rest_nil]
  exact ⟨fun e => ⟨worded_tails hw, e⟩, fun e => e.2⟩

/-! ### Mixtures -/

/-- First a number is drawn. -/
theorem Weight.mix {ι : Type} {I : Finset ι} {w : ι → ℝ} (h0 : ∀ i ∈ I, 0 ≤ w i) (h1 : ∑ i ∈ I, w i = 1)
    {F : ι → Wave → ℝ} (hF : ∀ i ∈ I, Weight (F i)) : Weight fun ψ => ∑ i ∈ I, w i * F i ψ := by
  refine ⟨fun a ψ => ?_, fun {ψ} h => ?_, fun {ψ} h => ?_, fun {χ χ'} h h' => ?_⟩
  · rw [Finset.mul_sum]
    refine Finset.sum_congr rfl fun i hi => ?_
    rw [(hF i hi).smul]
    ring
  · exact Finset.sum_nonneg fun i hi => mul_nonneg (h0 i hi) ((hF i hi).nonneg h)
  · refine (Finset.sum_le_sum fun i hi => mul_le_mul_of_nonneg_left ((hF i hi).le h) (h0 i hi)).trans ?_
    rw [← Finset.sum_mul, h1, one_mul]
  · rw [← Finset.sum_sub_distrib]
    refine (Finset.abs_sum_le_sum_abs _ _).trans ?_
    refine (Finset.sum_le_sum (g := fun i => w i * (len (χ - χ') * (len χ + len χ'))) fun i hi => ?_).trans ?_
    · rw [← mul_sub, abs_mul, abs_of_nonneg (h0 i hi)]
      exact mul_le_mul_of_nonneg_left ((hF i hi).lip h h') (h0 i hi)
    · rw [← Finset.sum_mul, h1, one_mul]

theorem mix_near {ι : Type} {I : Finset ι} {w : ι → ℝ} (h0 : ∀ i ∈ I, 0 ≤ w i) (h1 : ∑ i ∈ I, w i = 1)
    {x y : ι → ℝ} {b : ℝ} (h : ∀ i ∈ I, |x i - y i| ≤ b) : |∑ i ∈ I, w i * x i - ∑ i ∈ I, w i * y i| ≤ b := by
  rw [← Finset.sum_sub_distrib]
  refine (Finset.abs_sum_le_sum_abs _ _).trans ?_
  refine (Finset.sum_le_sum (g := fun i => w i * b) fun i hi => ?_).trans ?_
  · rw [← mul_sub, abs_mul, abs_of_nonneg (h0 i hi)]
    exact mul_le_mul_of_nonneg_left (h i hi) (h0 i hi)
  · rw [← Finset.sum_mul, h1, one_mul]

/-- What the induction shows. -/
def CloseD (A : Arith) (N : ℕ) (fmt : Fmt) (p : Prog QCall QAns) (s : Backend) (δ : Device) (S : Set (Bytes × Bool))
    (W M : ℕ) : Prop :=
  ∃ F : Wave → ℝ, Weight F ∧ (∀ ψ, Fit ψ → odds byWords p { δ with psi := ψ } (texts S) = F ψ) ∧
    ∃ L : ℝ, 0 ≤ L ∧ L ≤ 1 ∧
      (∀ X, MeasurableSet X → (X = Set.univ ∨ ∀ o, (o, false) ∉ S) →
        MeasurableSet (ranD A fmt p s S X) ∧ sources (ranD A fmt p s S X) = ENNReal.ofReal L * sources X) ∧
      |L - F (Rnd.abs A s.sim)| ≤ 5 * off (Rnd.abs A s.sim) + 24 * Rnd.cost A N * (W + s.sim.opQ.length : ℕ) +
        100 * slip A N * M

theorem CloseD.mono (hf : Fine A) {p : Prog QCall QAns} {S : Set (Bytes × Bool)} {W M W' M' : ℕ}
    (h : CloseD A N fmt p s δ S W M) (hW : W ≤ W') (hM : M ≤ M') : CloseD A N fmt p s δ S W' M' := by
  obtain ⟨F, h1, h2, L, h3, h4, h5, h6⟩ := h
  refine ⟨F, h1, h2, L, h3, h4, h5, h6.trans ?_⟩
  have hc := cost_nonneg hf N
  have hs := slip_nonneg A N
  have e1 : ((W + s.sim.opQ.length : ℕ) : ℝ) ≤ (W' + s.sim.opQ.length : ℕ) := by exact_mod_cast Nat.add_le_add_right hW _
  have e2 : (M : ℝ) ≤ M' := by exact_mod_cast hM
  gcongr

open Classical in
/-- The program ends here, in one way. -/
theorem CloseD.leaf (hf : Fine A) {p : Prog QCall QAns} {S : Set (Bytes × Bool)} {o : Bytes × Bool} (W M : ℕ)
    (hc : ∀ ψ, odds byWords p { δ with psi := ψ } (texts S) = if o ∈ S then 1 else 0)
    (hr : ∀ X, ranD A fmt p s S X = worded ∩ {ω | o ∈ S ∧ (o.2 = true → ω ∈ X)}) : CloseD A N fmt p s δ S W M := by
  have k0 : (0 : ℝ) ≤ if o ∈ S then 1 else 0 := by split <;> norm_num
  have k1 : (if o ∈ S then 1 else 0 : ℝ) ≤ 1 := by split <;> norm_num
  refine ⟨_, Weight.const k0 k1, fun ψ h => by rw [hc, h.norm, one_mul], _, k0, k1, fun X hX hor => ?_, ?_⟩
  · rw [hr, sources_worded]
    by_cases h : o ∈ S
    · by_cases h2 : o.2 = true
      · simp only [h, h2, true_and, true_imp_iff, if_true, ENNReal.ofReal_one, one_mul]
        exact ⟨measurable_worded.inter hX, rfl⟩
      · have hu : X = Set.univ := hor.resolve_right fun hn => hn o.1 (by
          have : o = (o.1, false) := Prod.ext rfl (by simpa using h2)
          rwa [← this])
        subst hu
        simp only [h, true_and, Set.mem_univ, imp_true_iff, if_true, ENNReal.ofReal_one, one_mul]
        exact ⟨measurable_worded.inter MeasurableSet.univ, rfl⟩
    · simp only [h, false_and, if_false, ENNReal.ofReal_zero, zero_mul]
      exact ⟨measurable_worded.inter .empty, measure_empty⟩
  · refine (Weight.drop k0 k1 (B := 0) (by simp)).trans ?_
    have hc := cost_nonneg hf N
    have hs := slip_nonneg A N
    have : 0 ≤ 24 * Rnd.cost A N * ((W + s.sim.opQ.length : ℕ) : ℝ) + 100 * slip A N * M := by positivity
    linarith

theorem CloseD.goes (hf : Fine A) {c : QCall} {k : QAns → Prog QCall QAns} {S : Set (Bytes × Bool)} {W M : ℕ}
    (hd : drawn c = .nothing)
    (hm : measures δ c = none) (hpl : Plain c) {a : QAns} {es : List Event} {δ' : Device} {U : Module.End ℂ Wave} (hU : Iso U)
    (hs : ∀ ψ, Device.step { δ with psi := ψ } c = .ok (a, es, { δ' with psi := U ψ }))
    (hq : ∀ r, qstep A fmt c (rs r s) = .ok (a, lines es, rs r s')) {n : ℕ} (hmv : Moves A N B s s' δ' U n)
    (h : CloseD A N fmt (k a) s' δ' (rest (lines es) S) W M) : CloseD A N fmt (.call c k) s δ S (W + n) M := by
  obtain ⟨F, h1, h2, L, h3, h4, h5, h6⟩ := h
  refine ⟨_, h1.comp hU, fun ψ hψ => ?_, L, h3, h4, fun X hX hor => ?_, ?_⟩
  · have hfit : Fit (U ψ) := ⟨hU.fin hψ.fin, by rw [← Tol.len_sq, hU.len hψ.fin, Tol.len_sq, hψ.norm]⟩
    rw [← h2 _ hfit]
    simp only [odds, hd, measures_psi, hm, hs, texts_rest]
  · rw [ranD_goes hpl hq]
    exact h5 X hX (hor.imp_right fun hn o => hn _)
  · obtain ⟨e, he, hn⟩ := hmv.near
    exact Weight.gate hf h1 hU (Rnd.finSupp_abs s.sim) he hn h3 h4
      (by have := slip_nonneg A N; positivity) h6

theorem CloseD.drops (hf : Fine A) {c : QCall} {k : QAns → Prog QCall QAns} {S : Set (Bytes × Bool)} {W M : ℕ}
    (hd : drawn c = .nothing) (hm : measures δ c = none) (hpl : Plain c) {δ' : Device} (h0 : δ'.psi = ket zeroBasis)
    (hs : ∀ ψ, Device.step { δ with psi := ψ } c = .ok (.unit, [], δ'))
    (hq : ∀ r, qstep A fmt c (rs r s) = .ok (.unit, [], rs r s')) (ho : s'.sim.opQ = []) (ha : Rnd.abs A s'.sim = ket zeroBasis)
    (h : CloseD A N fmt (k .unit) s' δ' S W M) : CloseD A N fmt (.call c k) s δ S W M := by
  obtain ⟨F, h1, h2, L, h3, h4, h5, h6⟩ := h
  have k0 := h1.nonneg (finSupp_ket zeroBasis)
  have k1 := h1.le (finSupp_ket zeroBasis)
  rw [normSq_ket] at k1
  refine ⟨_, Weight.const k0 k1, fun ψ hψ => ?_, L, h3, h4, fun X hX hor => ?_, ?_⟩
  · rw [hψ.norm, one_mul, ← h2 _ (Fit.ket _)]
    have : { δ' with psi := ket zeroBasis } = δ' := by rw [← h0]
    rw [this]
    simp only [odds, hd, measures_psi, hm, hs, List.nil_append]
    rfl
  · rw [ranD_goes hpl hq]
    exact h5 X hX hor
  · rw [ha, ho] at h6
    have e0 : off (ket zeroBasis) = 0 := by unfold off; rw [normSq_ket]; simp
    rw [e0] at h6
    have h7 := Weight.drop k0 k1 (ψ := Rnd.abs A s.sim) h6
    have hc := cost_nonneg hf N
    have e1 : ((W + ([] : Queue).length : ℕ) : ℝ) ≤ (W + s.sim.opQ.length : ℕ) := by
      exact_mod_cast Nat.add_le_add_left (Nat.zero_le _) _
    have e2 : 24 * Rnd.cost A N * ((W + ([] : Queue).length : ℕ) : ℝ) ≤ 24 * Rnd.cost A N * (W + s.sim.opQ.length : ℕ) := by gcongr
    linarith

/-- As `found_weight`. -/
theorem found_weightD {c : QCall} {ps : List (Pauli × ℕ)} (hm : measures δ c = some ps) (hv : δ.Valid c) {v : Bool}
    {V : Module.End ℂ Wave} (hV : Iso V)
    (hfind : ∀ ψ, finding v { δ with psi := ψ } c = ((finding v δ c).1, { (finding v δ c).2 with
        psi := ((1 / √(pauliProb ps v ψ) : ℝ) : ℂ) • V (proj (ps.map Prod.snd) v (mapL ps ψ)) }))
    {F : Wave → ℝ} (hF : Weight F) {g : Device → ℝ}
    (h : ∀ ψ, Fit ψ → g { (finding v δ c).2 with psi := ψ } = F ψ) {ψ : Wave} (hψ : Fit ψ) :
    pauliProb ps v ψ * g (finding v { δ with psi := ψ } c).2 =
      F (V (proj (ps.map Prod.snd) v (mapL ps ψ))) := by
  obtain ⟨hn, hI⟩ := measures_ok hm hv
  have hfin : FinSupp (V (proj (ps.map Prod.snd) v (mapL ps ψ))) := hV.fin ((hψ.fin.mapL ps).proj _ _)
  have hN : Spec.normSq (V (proj (ps.map Prod.snd) v (mapL ps ψ))) = pauliProb ps v ψ := by
    rw [← Tol.len_sq, hV.len ((hψ.fin.mapL ps).proj _ _), Tol.len_sq, normSq_proj, prob_mapL hn hI hψ.fin]
  rcases (pauliProb_nonneg ps v ψ).eq_or_lt with hp | hp
  · have h1 := hF.nonneg hfin
    have h2 := hF.le hfin
    rw [hN, ← hp] at h2
    rw [← hp, zero_mul]
    linarith
  · have hfit : Fit (finding v { δ with psi := ψ } c).2.psi :=
      Fit.finding (δ := { δ with psi := ψ }) hψ (by rw [measures_psi]; exact hm) hp
    rw [hfind] at hfit ⊢
    rw [h _ hfit, hF.smul, Complex.normSq_ofReal, div_mul_div_comm, one_mul, Real.mul_self_sqrt hp.le]
    field_simp

theorem CloseD.splits (hf : Fine A) {c : QCall} {k : QAns → Prog QCall QAns} {S : Set (Bytes × Bool)} {W M : ℕ}
    {ps : List (Pauli × ℕ)} (hd : drawn c = .nothing) (hm : measures δ c = some ps) (hpl : Plain c) (hv : δ.Valid c)
    {t : Wave} {p : ℝ} {f : Bool → Backend}
    {V : Bool → Module.End ℂ Wave} {n m : ℕ} {e : ℂ} (he : ‖e‖ = 1) (htf : FinSupp t)
    (ht : Cost A N n [] s.sim.opQ t (e • mapL ps (Rnd.abs A s.sim)))
    (hp : len t ≤ 3 / 2 → slip A N ≤ 1 → |p - Spec.prob (ps.map Prod.snd) true t| ≤ slip A N)
    (hq : ∀ r, qstep A fmt c (rs r s) =
      .ok ((finding (decide (r 0 < p)) δ c).1, [], rs (tail r) (f (decide (r 0 < p)))))
    (hV : ∀ v, Iso (V v))
    (hφ : ∀ v, ∃ (φ : Wave) (e' : ℂ), ‖e'‖ = 1 ∧ Reach A N 1 φ ((factor A v p : ℂ) • proj (ps.map Prod.snd) v t) ∧
        Cost A N m (f v).sim.opQ [] (Rnd.abs A (f v).sim) (e' • V v φ))
    (hfind : ∀ v ψ, finding v { δ with psi := ψ } c = ((finding v δ c).1, { (finding v δ c).2 with
        psi := ((1 / √(pauliProb ps v ψ) : ℝ) : ℂ) • V v (proj (ps.map Prod.snd) v (mapL ps ψ)) }))
    (h : ∀ v, CloseD A N fmt (k (finding v δ c).1) (f v) (finding v δ c).2 S W M) :
    CloseD A N fmt (.call c k) s δ S (W + (n + m + 1)) (M + 1) := by
  choose F h1 h2 L h3 h4 h5 h6 using h
  choose φ e' he' hr hcφ using hφ
  have hc0 := clamp_nonneg p
  have hc1 := clamp_le p
  have hH : ∀ v, Weight fun χ => F v (V v χ) := fun v => (h1 v).comp (hV v)
  have hG : Weight fun ψ => F true (V true (proj (ps.map Prod.snd) true ψ)) + F false (V false (proj (ps.map Prod.snd) false ψ)) :=
    (hH true).split (hH false) (ps.map Prod.snd)
  have hR : 0 ≤ 100 * slip A N * M := by have := slip_nonneg A N; positivity
  have hcost := cost_nonneg hf N
  have l0 : 0 ≤ clamp p * L true + (1 - clamp p) * L false :=
    add_nonneg (mul_nonneg hc0 (h3 true)) (mul_nonneg (by linarith) (h3 false))
  have l1 : clamp p * L true + (1 - clamp p) * L false ≤ 1 := by
    have e1 := mul_le_mul_of_nonneg_left (h4 true) hc0
    have e2 := mul_le_mul_of_nonneg_left (h4 false) (show 0 ≤ 1 - clamp p by linarith)
    linarith
  refine ⟨_, hG.comp (iso_mapL ps), fun ψ hψ => ?_, clamp p * L true + (1 - clamp p) * L false, l0, l1,
    fun X hX hor => ?_, ?_⟩
  · rw [← found_weightD hm hv (hV true) (hfind true) (h1 true) (g := fun δ => odds byWords _ δ _) (h2 true) hψ,
      ← found_weightD hm hv (hV false) (hfind false) (h1 false) (g := fun δ => odds byWords _ δ _) (h2 false) hψ]
    have e1 : ∀ v, (finding v { δ with psi := ψ } c).1 = (finding v δ c).1 := fun v => by rw [hfind v ψ]
    simp only [odds, hd, measures_psi, hm, e1]
  · obtain ⟨a1, a2⟩ := h5 true X hX hor
    obtain ⟨b1, b2⟩ := h5 false X hX hor
    rw [ranD_splits hpl (a := fun v => (finding v δ c).1) hq]
    refine ⟨measurable_measured a1 b1, ?_⟩
    rw [sources_clamp p a1 b1, a2, b2, ENNReal.ofReal_add (mul_nonneg hc0 (h3 true)) (mul_nonneg (by linarith) (h3 false)),
      ENNReal.ofReal_mul hc0, ENNReal.ofReal_mul (by linarith), add_mul, mul_assoc, mul_assoc]
  · have g1 : ∀ v, |L v - F v (V v (φ v))| ≤ 5 * off (φ v) + (24 * Rnd.cost A N * (W + m + ([] : Queue).length : ℕ) + 100 * slip A N * M) := by
      intro v
      have := Weight.gate hf (h1 v) (hV v) (hr v).fin (he' v) (hcφ v) (h3 v) (h4 v) hR (h6 v)
      linarith
    have g2 := Weight.measured hf hH htf (N := N) rfl hp hr h3 h4 (by positivity) g1
    have g3 := Weight.gate hf hG (iso_mapL ps) (Rnd.finSupp_abs s.sim) he ht l0 l1 (w := W + m + 1)
      (R := 100 * slip A N * (M + 1 : ℕ)) (by have := slip_nonneg A N; positivity) (by
        refine g2.trans (le_of_eq ?_)
        unfold slip
        push_cast
        simp only [List.length_nil, Nat.cast_zero]
        ring)
    refine g3.trans (le_of_eq ?_)
    congr 3
    push_cast
    ring

/-- A number is drawn. -/
theorem CloseD.draws {ι : Type} {I : Finset ι} {w : ι → ℝ} (w0 : ∀ i ∈ I, 0 ≤ w i) (w1 : ∑ i ∈ I, w i = 1)
    {p : Prog QCall QAns} {q : ι → Prog QCall QAns} {S : Set (Bytes × Bool)} {W M : ℕ}
    (ho : ∀ ψ, odds byWords p { δ with psi := ψ } (texts S) = ∑ i ∈ I, w i * odds byWords (q i) { δ with psi := ψ } (texts S))
    (hr : ∀ X, (∀ i ∈ I, MeasurableSet (ranD A fmt (q i) s S X)) → MeasurableSet (ranD A fmt p s S X) ∧
      sources (ranD A fmt p s S X) = ∑ i ∈ I, ENNReal.ofReal (w i) * sources (ranD A fmt (q i) s S X))
    (h : ∀ i ∈ I, CloseD A N fmt (q i) s δ S W M) : CloseD A N fmt p s δ S W M := by
  classical
  choose! F h1 h2 L h3 h4 h5 h6 using h
  refine ⟨_, Weight.mix w0 w1 h1, fun ψ hψ => ?_, ∑ i ∈ I, w i * L i,
    Finset.sum_nonneg fun i hi => mul_nonneg (w0 i hi) (h3 i hi), ?_, fun X hX hor => ?_, mix_near w0 w1 h6⟩
  · rw [ho]
    exact Finset.sum_congr rfl fun i hi => by rw [h2 i hi ψ hψ]
  · rw [← w1]
    exact Finset.sum_le_sum fun i hi => mul_le_of_le_one_right (w0 i hi) (h4 i hi)
  · obtain ⟨m, e⟩ := hr X fun i hi => (h5 i hi X hX hor).1
    refine ⟨m, ?_⟩
    rw [e, ENNReal.ofReal_sum_of_nonneg fun i hi => mul_nonneg (w0 i hi) (h3 i hi), Finset.sum_mul]
    refine Finset.sum_congr rfl fun i hi => ?_
    rw [(h5 i hi X hX hor).2, ENNReal.ofReal_mul (w0 i hi), mul_assoc]

open Classical in
theorem CloseD.int {min max : ℤ} (i1 : Std.IsI64 min) (i2 : Std.IsI64 max) (hle : min ≤ max)
    {k : QAns → Prog QCall QAns} {S : Set (Bytes × Bool)} {W M : ℕ}
    (h : ∀ n, min ≤ n → n ≤ max → CloseD A N fmt (k (.int n)) s δ S W M) :
    CloseD A N fmt (.call (.drawInt min max) k) s δ S W M := by
  refine CloseD.draws (I := Finset.Icc min max) (w := byWords min max) (q := fun n => k (.int n))
    (fun n _ => byWords_nonneg _ _ _) ?_ (fun ψ => ?_) (fun X hX => ?_)
    fun n hn => h n (Finset.mem_Icc.1 hn).1 (Finset.mem_Icc.1 hn).2
  · have hw : (Std.words : ℝ) ≠ 0 := Nat.cast_ne_zero.2 words_pos
    unfold byWords
    rw [← Finset.sum_div, ← Nat.cast_sum, Std.draws_total min max i1 i2 hle, Nat.cast_pow, div_self (pow_ne_zero _ hw)]
  · simp only [odds, drawn, if_pos hle]
  · let Y : ℤ → Set Source := fun n => if min ≤ n ∧ n ≤ max then ranD A fmt (k (.int n)) s S X else ∅
    have hY : ∀ n, MeasurableSet (Y n) := by
      intro n
      by_cases hn : min ≤ n ∧ n ≤ max
      · simp only [Y, if_pos hn]; exact hX n (Finset.mem_Icc.2 hn)
      · simp only [Y, if_neg hn]; exact .empty
    have e : ranD A fmt (.call (.drawInt min max) k) s S X = worded ∩ {ω | (ω.1, tailW (tailW ω.2)) ∈
        Y (Std.sampleInclusive min max (ω.2 0) (ω.2 1))} := by
      rw [ranD_int hle]
      ext ω
      refine and_congr_right fun hw => ?_
      show _ ∈ _ ↔ _ ∈ Y _
      simp only [Y, if_pos (Std.sample_bounds i1 i2 hle (w2 := ω.2 1) (hw 0))]
      rfl
    rw [e, sources_worded, Back.sources_int i1 i2 hle hY]
    refine ⟨measurable_worded.inter (measurable_twice fun v w => hY _), Finset.sum_congr rfl fun n hn => ?_⟩
    simp only [Y, if_pos (Finset.mem_Icc.1 hn)]

open Classical in
theorem CloseD.real {min max : ℝ} (hle : min ≤ max)
    {k : QAns → Prog QCall QAns} {S : Set (Bytes × Bool)} {W M : ℕ}
    (h : ∀ x, min ≤ x → x ≤ max → CloseD A N fmt (k (.real x)) s δ S W M) :
    CloseD A N fmt (.call (.drawDouble min max) k) s δ S W M := by
  have hw : (Std.words : ℝ) ≠ 0 := Nat.cast_ne_zero.2 words_pos
  have hw' : (0 : ℝ) < Std.words := Nat.cast_pos.2 (Nat.pos_of_ne_zero words_pos)
  let y : ℕ → ℝ := fun i => min + (i : ℝ) / ((Std.words : ℝ) - 1) * (max - min)
  refine CloseD.draws (I := Finset.range Std.words) (w := fun _ => (Std.words : ℝ)⁻¹) (q := fun i => k (.real (y i)))
    (fun n _ => inv_nonneg.2 (Nat.cast_nonneg _)) ?_ (fun ψ => ?_) (fun X hX => ?_)
    fun n hn => h _ (Back.grid_bounds hle (Finset.mem_range.1 hn)).1 (Back.grid_bounds hle (Finset.mem_range.1 hn)).2
  · rw [Finset.sum_const, Finset.card_range, nsmul_eq_mul, mul_inv_cancel₀ hw]
  · rw [← Finset.mul_sum, mul_comm, ← div_eq_mul_inv]
    simp only [odds, drawn, if_pos hle, y]
  · let Y : ℕ → Set Source := fun i => if i < Std.words then ranD A fmt (k (.real (y i))) s S X else ∅
    have hY : ∀ n, MeasurableSet (Y n) := by
      intro n
      by_cases hn : n < Std.words
      · simp only [Y, if_pos hn]; exact hX n (Finset.mem_range.2 hn)
      · simp only [Y, if_neg hn]; exact .empty
    have e : ranD A fmt (.call (.drawDouble min max) k) s S X = worded ∩ {ω | (ω.1, tailW (tailW ω.2)) ∈
        Y (ω.2 0)} := by
      rw [ranD_real hle]
      ext ω
      refine and_congr_right fun hw => ?_
      show _ ∈ _ ↔ _ ∈ Y _
      simp only [Y, if_pos (hw 0)]
      rfl
    rw [e, sources_worded, Back.sources_real hY]
    refine ⟨measurable_worded.inter (measurable_twice fun v _ => hY v), Finset.sum_congr rfl fun n hn => ?_⟩
    rw [ENNReal.ofReal_inv_of_pos hw', ENNReal.ofReal_natCast]
    simp only [Y, if_pos (Finset.mem_range.1 hn)]

theorem CloseD.fails (hf : Fine A) {c : QCall} {k : QAns → Prog QCall QAns} {S : Set (Bytes × Bool)} {m : List Char} (W M : ℕ)
    (ho : ∀ ψ, odds byWords (.call c k) { δ with psi := ψ } (texts S) = failure m (texts S))
    (h : ∀ ω, qstep A fmt c (supplied ω s) = .error (.fail m)) : CloseD A N fmt (.call c k) s δ S W M := by
  refine .leaf hf (o := (lines [.record (.message m)], false)) W M (fun ψ => ?_) (fun X => ?_)
  · rw [ho]
    rfl
  · rw [ranD_fails h]
    ext ω
    simp

theorem closeD (hf : Fine A) (p : Prog QCall QAns) : ∀ {s : Backend} {δ : Device} {B T : ℝ} {W M : ℕ}, Like s δ → 0 ≤ B →
    Low B s.sim → A.u * (B + T) + A.eta ≤ A.eps → WithinD A N p δ W M T → TurnlessD A fmt p s →
    ∀ S, CloseD A N fmt p s δ S W M := by
  induction p with
  | done =>
    intro s δ B T W M _ _ _ _ _ _ S
    refine .leaf hf (o := ([], true)) W M (fun ψ => rfl) (fun X => ?_)
    ext ω
    refine and_congr_right fun _ => ?_
    show (([] : Bytes), true) ∈ S ∧ _ ↔ _
    simp
    exact fun _ => Iff.rfl
  | call c k ih =>
    intro s δ B T W M h hB hl ht hw htl S
    unfold WithinD at hw
    unfold TurnlessD at htl
    cases hd : drawn c with
    | int min max =>
      rw [hd] at hw htl
      cases Back.drawn_int hd
      by_cases hle : min ≤ max
      · exact .int hw.1 hw.2.1 hle fun n h1 h2 => ih (.int n) h hB hl ht (hw.2.2 n h1 h2) (htl n h1 h2) S
      · refine .fails hf (m := boundsText) W M (fun ψ => ?_) (fun ω => ?_)
        · simp only [odds, drawn, if_neg hle]
        · simp only [qstep, Std.drawRandomInt, if_pos (not_le.1 hle)]
          rfl
    | real min max =>
      rw [hd] at hw htl
      cases Back.drawn_real hd
      by_cases hle : min ≤ max
      · exact .real hle fun n h1 h2 => ih (.real n) h hB hl ht (hw n h1 h2) (htl n h1 h2) S
      · refine .fails hf (m := boundsText) W M (fun ψ => ?_) (fun ω => ?_)
        · simp only [odds, drawn, if_neg hle]
        · simp only [qstep, Std.drawRandomDouble, if_pos (not_le.1 hle)]
          rfl
    | nothing =>
    rw [hd] at hw htl
    obtain ⟨hv, hpl, hW, hT, hw⟩ := hw
    obtain ⟨hok, hnext⟩ := htl
    have ht0 := turn_nonneg' hf c
    have hu := A.u_nonneg
    have ht1 : A.u * (B + turn A c) + A.eta ≤ A.eps := by
      have := mul_le_mul_of_nonneg_left (show B + turn A c ≤ B + T by linarith) hu
      linarith
    cases hm : measures δ c with
    | some ps =>
      rw [hm] at hw
      obtain ⟨hM, hw⟩ := hw
      obtain ⟨t, p, f, V, n, m, e, he, htf, hct, hnm, hp, hq, hrest⟩ := splits hf fmt hB (by
        have := mul_le_mul_of_nonneg_left (show B ≤ B + T by linarith) hu
        linarith) h hl hm hv (hw true).2.1
      have := CloseD.splits hf (k := k) (S := S) (W := W - effort c) (M := M - 1) hd hm hpl hv he htf hct hp hq
        (fun v => (hrest v).1) (fun v => (hrest v).2.2.2.1) (fun v => (hrest v).2.2.2.2) (fun v => by
          obtain ⟨_, r2, r3, _, _⟩ := hrest v
          refine ih _ r2 hB r3 ?_ (hw v).2.2 ?_ S
          · have := mul_le_mul_of_nonneg_left (show B + (T - turn A c) ≤ B + T by linarith) hu
            linarith
          · obtain ⟨x, hx⟩ : ∃ x : ℝ, decide (x < p) = v := by
              cases v
              · exact ⟨p, by simp⟩
              · exact ⟨p - 1, by simp⟩
            have := hq (cons x (f v).sim.rng)
            rw [Back.cons_zero, Back.tail_cons, hx] at this
            refine hnext (cons x (f v).sim.rng) _ [] _ ?_
            show step A fmt c (rs _ s) = _
            unfold step
            rw [this]
            rfl)
      exact this.mono hf (by omega) (by omega)
    | none =>
      rw [hm] at hw
      dsimp only at hw
      have hstep : ∀ {a out} {s' : Backend}, (∀ r, qstep A fmt c (rs r s) = .ok (a, out, rs r s')) → TurnlessD A fmt (k a) s' := by
        intro a out s' hq
        refine hnext s'.sim.rng a out _ ?_
        show step A fmt c (rs _ s) = _
        unfold step
        rw [hq]
        rfl
      rcases calm_calls hf fmt h hB hl hpl hm hv ht1 hok (fun a es δ' e => (hw a es δ' e).1) with hg | hg | hg
      · obtain ⟨a, es, δ', U, hU, hs, s', hq, hmv⟩ := hg
        have := ih a (hmv.like.psi (U δ.psi)) (by linarith : 0 ≤ B + turn A c) hmv.low (T := T - turn A c) (by
          rw [show B + turn A c + (T - turn A c) = B + T by ring]; exact ht) (hw a es _ (hs δ.psi)).2 (hstep hq) (rest (lines es) S)
        exact (CloseD.goes hf hd hm hpl hU hs hq hmv this).mono hf (by omega) le_rfl
      · obtain ⟨m, hs, hq⟩ := hg
        refine .fails hf (m := m) W M (fun ψ => ?_) (any_stop hpl hq)
        simp only [odds, hd, measures_psi, hm, hs]
      · obtain ⟨δ', h0, hs, s', hq, hlk, hlo, ho, ha⟩ := hg
        have := ih .unit hlk hB hlo (T := T - turn A c) (by
          have := mul_le_mul_of_nonneg_left (show B + (T - turn A c) ≤ B + T by linarith) hu
          linarith) (hw _ _ _ (hs δ.psi)).2 (hstep hq) S
        exact (CloseD.drops hf hd hm hpl h0 hs hq ho ha this).mono hf (by omega) le_rfl

end Qir.RBack
