import Verif.Proof.Sources
import Verif.Proof.Iterate
import Verif.Proof.Chance

/-!
# From samples and words to probabilities
-/

noncomputable section
namespace Qir.Back
open Spec Sim Qir.Out Run MeasureTheory

/-- One call of the ideal device that draws numbers with the given words. -/
def dealStep (c : QCall) (δ : Device) (os : ℕ → ℕ) : Except (List Char) (QAns × List Event × Device × (ℕ → ℕ)) :=
  match drawn c with
  | .int min max => match Std.drawRandomInt min max (os 0) (os 1) with
    | .ok n => .ok (.int n, [], δ, tailW (tailW os))
    | .error _ => .error boundsText
  | .real min max => match Std.drawRandomDouble min max (os 0 / (Std.words - 1)) with
    | .ok x => .ok (.real x, [], δ, tailW (tailW os))
    | .error _ => .error boundsText
  | .nothing => match δ.step c with
    | .ok x => .ok (x.1, x.2.1, x.2.2, os)
    | .error m => .error m

/-- A run of the ideal device with the given samples and words; it leaves the rest of them. -/
def deal : Prog QCall QAns → Device → (ℕ → ℝ) × (ℕ → ℕ) → Except (List Event) (List Event × ((ℕ → ℝ) × (ℕ → ℕ)))
  | .done, _, ω => .ok ([], ω)
  | .call c k, δ, ω => match dealStep c (withRng ω.1 δ) ω.2 with
    | .error m => .error [.record (.message m)]
    | .ok (a, es, δ', os') => match deal (k a) δ' (δ'.rng, os') with
      | .error es' => .error (es ++ es')
      | .ok (es', ω') => .ok (es ++ es', ω')

/-- The samples in the device do not matter. -/
theorem deal_withRng (p : Prog QCall QAns) (r : ℕ → ℝ) (δ : Device) (ω : (ℕ → ℝ) × (ℕ → ℕ)) :
    deal p (withRng r δ) ω = deal p δ ω := by
  cases p with
  | done => rfl
  | call c k => simp only [deal, show withRng ω.1 (withRng r δ) = withRng ω.1 δ from rfl]

/-- What comes after a call that succeeds. -/
def Onward (x y : Except (List Event) (List Event × ((ℕ → ℝ) × (ℕ → ℕ)))) (es : List Event) : Prop :=
  x = match y with
    | .error es' => .error (es ++ es')
    | .ok (es', ω') => .ok (es ++ es', ω')

theorem Onward.nil {x y : Except (List Event) (List Event × ((ℕ → ℝ) × (ℕ → ℕ)))} (h : Onward x y []) : x = y := by
  unfold Onward at h
  rw [h]
  cases y <;> rfl

theorem deal_ok {c : QCall} {k : QAns → Prog QCall QAns} {δ δ' : Device} {ω : (ℕ → ℝ) × (ℕ → ℕ)} {a : QAns}
    {es : List Event} {r : ℕ → ℝ} {os : ℕ → ℕ} (h : dealStep c (withRng ω.1 δ) ω.2 = .ok (a, es, withRng r δ', os)) :
    Onward (deal (.call c k) δ ω) (deal (k a) δ' (r, os)) es := by
  unfold Onward
  simp only [deal, h]
  rw [deal_withRng]
  rfl

theorem deal_error {c : QCall} {k : QAns → Prog QCall QAns} {δ : Device} {ω : (ℕ → ℝ) × (ℕ → ℕ)} {m : List Char}
    (h : dealStep c (withRng ω.1 δ) ω.2 = .error m) : deal (.call c k) δ ω = .error [.record (.message m)] := by
  simp only [deal, h]

/-! ### The kinds of calls -/

section Kinds

variable {c : QCall} {δ : Device} (k : QAns → Prog QCall QAns) (ω : (ℕ → ℝ) × (ℕ → ℕ))

theorem deal_measured (hd : drawn c = .nothing) {ps : List (Pauli × ℕ)} (hm : measures δ c = some ps) :
    deal (.call c k) δ ω = if ω.1 0 < pauliProb ps true δ.psi
      then deal (k (finding true δ c).1) (finding true δ c).2 (tail ω.1, ω.2)
      else deal (k (finding false δ c).1) (finding false δ c).2 (tail ω.1, ω.2) := by
  have h1 : dealStep c (withRng ω.1 δ) ω.2 = .ok ((finding (decide (ω.1 0 < pauliProb ps true δ.psi)) δ c).1, [],
      withRng (tail ω.1) (finding (decide (ω.1 0 < pauliProb ps true δ.psi)) δ c).2, ω.2) := by
    simp only [dealStep, hd, step_measures hm]
  by_cases h : ω.1 0 < pauliProb ps true δ.psi
  · rw [if_pos h]
    simp only [h, decide_true] at h1
    exact (deal_ok h1).nil
  · rw [if_neg h]
    simp only [h, decide_false] at h1
    exact (deal_ok h1).nil

theorem deal_calm (hd : drawn c = .nothing) (hm : measures δ c = none) {a : QAns} {es : List Event} {δ' : Device}
    (hs : δ.step c = .ok (a, es, δ')) : Onward (deal (.call c k) δ ω) (deal (k a) δ' ω) es := by
  have h1 : dealStep c (withRng ω.1 δ) ω.2 = .ok (a, es, withRng ω.1 δ', ω.2) := by
    simp only [dealStep, hd, step_calm hm, hs, Except.map]
  exact deal_ok h1

theorem deal_fails (hd : drawn c = .nothing) (hm : measures δ c = none) {m : List Char}
    (hs : δ.step c = .error m) : deal (.call c k) δ ω = .error [.record (.message m)] := by
  refine deal_error ?_
  simp only [dealStep, hd, step_calm hm, hs, Except.map]

theorem deal_int {min max : ℤ} (hd : drawn c = .int min max) (h : min ≤ max) :
    deal (.call c k) δ ω =
      deal (k (.int (Std.sampleInclusive min max (ω.2 0) (ω.2 1)))) δ (ω.1, tailW (tailW ω.2)) := by
  have h1 : dealStep c (withRng ω.1 δ) ω.2 =
      .ok (.int (Std.sampleInclusive min max (ω.2 0) (ω.2 1)), [], withRng ω.1 δ, tailW (tailW ω.2)) := by
    simp only [dealStep, hd, Std.drawRandomInt, if_neg (not_lt.2 h)]
  exact (deal_ok h1).nil

theorem deal_real {min max : ℝ} (hd : drawn c = .real min max) (h : min ≤ max) :
    deal (.call c k) δ ω =
      deal (k (.real (min + (ω.2 0 : ℝ) / ((Std.words : ℝ) - 1) * (max - min)))) δ (ω.1, tailW (tailW ω.2)) := by
  have h1 : dealStep c (withRng ω.1 δ) ω.2 =
      .ok (.real (min + (ω.2 0 : ℝ) / ((Std.words : ℝ) - 1) * (max - min)), [], withRng ω.1 δ, tailW (tailW ω.2)) := by
    simp only [dealStep, hd, Std.drawRandomDouble, if_neg (not_lt.2 h), Std.sampleReal]
  exact (deal_ok h1).nil

theorem deal_int_bad {min max : ℤ} (hd : drawn c = .int min max) (h : ¬ min ≤ max) :
    deal (.call c k) δ ω = .error [.record (.message boundsText)] := by
  refine deal_error ?_
  simp only [dealStep, hd, Std.drawRandomInt, if_pos (not_le.1 h)]

theorem deal_real_bad {min max : ℝ} (hd : drawn c = .real min max) (h : ¬ min ≤ max) :
    deal (.call c k) δ ω = .error [.record (.message boundsText)] := by
  refine deal_error ?_
  simp only [dealStep, hd, Std.drawRandomDouble, if_pos (not_le.1 h)]

end Kinds

/-! ### The sets -/

theorem Onward.win {x y : (ℕ → ℝ) × (ℕ → ℕ) → Except (List Event) (List Event × ((ℕ → ℝ) × (ℕ → ℕ)))}
    {es : List Event} (h : ∀ ω, Onward (x ω) (y ω) es) (T : Set (List Event)) (A : Set ((ℕ → ℝ) × (ℕ → ℕ))) :
    winSet x T A = winSet y {es' | es ++ es' ∈ T} A ∧ loseSet x T = loseSet y {es' | es ++ es' ∈ T} := by
  constructor
  · ext ω
    have := h ω
    unfold Onward at this
    simp only [winSet, Set.mem_ofPred_eq, this]
    cases y ω with
    | error e => simp
    | ok x => obtain ⟨es', ω'⟩ := x; simp
  · ext ω
    have := h ω
    unfold Onward at this
    simp only [loseSet, Set.mem_ofPred_eq, this]
    cases y ω with
    | error e => simp
    | ok x => obtain ⟨es', ω'⟩ := x; simp

theorem error_sets {Ω : Type} {x : Ω → Except (List Event) (List Event × Ω)} {e : List Event} (h : ∀ ω, x ω = .error e)
    (T : Set (List Event)) (A : Set Ω) : winSet x T A = ∅ ∧ loseSet x T = {_ω | e ∈ T} := by
  constructor
  · ext ω; simp [winSet, h]
  · ext ω; simp [loseSet, h]

section Sets

variable {c : QCall} {δ : Device} (k : QAns → Prog QCall QAns) (T : Set (List Event)) (A : Set ((ℕ → ℝ) × (ℕ → ℕ)))

theorem sets_measuredD (hd : drawn c = .nothing) {ps : List (Pauli × ℕ)} (hm : measures δ c = some ps) :
    winSet (deal (.call c k) δ) T A = {ω | if ω.1 0 < pauliProb ps true δ.psi
      then (tail ω.1, ω.2) ∈ winSet (deal (k (finding true δ c).1) (finding true δ c).2) T A
      else (tail ω.1, ω.2) ∈ winSet (deal (k (finding false δ c).1) (finding false δ c).2) T A} ∧
    loseSet (deal (.call c k) δ) T = {ω | if ω.1 0 < pauliProb ps true δ.psi
      then (tail ω.1, ω.2) ∈ loseSet (deal (k (finding true δ c).1) (finding true δ c).2) T
      else (tail ω.1, ω.2) ∈ loseSet (deal (k (finding false δ c).1) (finding false δ c).2) T} := by
  constructor <;>
  · ext ω
    by_cases h : ω.1 0 < pauliProb ps true δ.psi <;>
      simp [winSet, loseSet, deal_measured k ω hd hm, h]

theorem sets_int {min max : ℤ} (hd : drawn c = .int min max) (h : min ≤ max) :
    winSet (deal (.call c k) δ) T A = {ω | (ω.1, tailW (tailW ω.2)) ∈
      winSet (deal (k (.int (Std.sampleInclusive min max (ω.2 0) (ω.2 1)))) δ) T A} ∧
    loseSet (deal (.call c k) δ) T = {ω | (ω.1, tailW (tailW ω.2)) ∈
      loseSet (deal (k (.int (Std.sampleInclusive min max (ω.2 0) (ω.2 1)))) δ) T} := by
  constructor <;>
  · ext ω
    simp only [winSet, loseSet, Set.mem_ofPred_eq, deal_int k ω hd h]

theorem sets_real {min max : ℝ} (hd : drawn c = .real min max) (h : min ≤ max) :
    winSet (deal (.call c k) δ) T A = {ω | (ω.1, tailW (tailW ω.2)) ∈
      winSet (deal (k (.real (min + (ω.2 0 : ℝ) / ((Std.words : ℝ) - 1) * (max - min)))) δ) T A} ∧
    loseSet (deal (.call c k) δ) T = {ω | (ω.1, tailW (tailW ω.2)) ∈
      loseSet (deal (k (.real (min + (ω.2 0 : ℝ) / ((Std.words : ℝ) - 1) * (max - min)))) δ) T} := by
  constructor <;>
  · ext ω
    simp only [winSet, loseSet, Set.mem_ofPred_eq, deal_real k ω hd h]

end Sets

theorem done_sets (δ : Device) (T : Set (List Event)) (A : Set ((ℕ → ℝ) × (ℕ → ℕ))) :
    ([] ∈ T → winSet (deal .done δ) T A = A) ∧ ([] ∉ T → winSet (deal .done δ) T A = ∅) ∧
      loseSet (deal .done δ) T = ∅ := by
  refine ⟨fun h => ?_, fun h => ?_, ?_⟩ <;> ext ω
  · exact ⟨fun ⟨e, ω', h1, _, h2⟩ => by cases h1; exact h2, fun h1 => ⟨[], ω, rfl, h, h1⟩⟩
  · exact ⟨fun ⟨e, ω', h1, h2, _⟩ => by cases h1; exact absurd h2 h, fun h1 => h1.elim⟩
  · exact ⟨fun ⟨e, h1, _⟩ => (by cases h1), fun h1 => h1.elim⟩

theorem measurable_deal (p : Prog QCall QAns) : ∀ (δ : Device) (T : Set (List Event)) {A : Set ((ℕ → ℝ) × (ℕ → ℕ))},
    MeasurableSet A → MeasurableSet (winSet (deal p δ) T A) ∧ MeasurableSet (loseSet (deal p δ) T) := by
  induction p with
  | done =>
    intro δ T A hA
    obtain ⟨h1, h2, h3⟩ := done_sets δ T A
    rw [h3]
    by_cases h : [] ∈ T
    · rw [h1 h]; exact ⟨hA, .empty⟩
    · rw [h2 h]; exact ⟨.empty, .empty⟩
  | call c k ih =>
    intro δ T A hA
    have bad : ∀ {m}, (∀ ω, deal (.call c k) δ ω = .error m) →
        MeasurableSet (winSet (deal (.call c k) δ) T A) ∧ MeasurableSet (loseSet (deal (.call c k) δ) T) := by
      intro m h
      rw [(error_sets h T A).1, (error_sets h T A).2]
      exact ⟨.empty, MeasurableSet.const _⟩
    cases hd : drawn c with
    | int min max =>
      by_cases h : min ≤ max
      · rw [(sets_int k T A hd h).1, (sets_int k T A hd h).2]
        exact ⟨measurable_twice fun v w => (ih (.int (Std.sampleInclusive min max v w)) δ T hA).1,
          measurable_twice fun v w => (ih (.int (Std.sampleInclusive min max v w)) δ T hA).2⟩
      · exact bad fun ω => deal_int_bad k ω hd h
    | real min max =>
      by_cases h : min ≤ max
      · rw [(sets_real k T A hd h).1, (sets_real k T A hd h).2]
        exact ⟨measurable_twice fun v _ => (ih (.real (min + (v : ℝ) / ((Std.words : ℝ) - 1) * (max - min))) δ T hA).1,
          measurable_twice fun v _ => (ih (.real (min + (v : ℝ) / ((Std.words : ℝ) - 1) * (max - min))) δ T hA).2⟩
      · exact bad fun ω => deal_real_bad k ω hd h
    | nothing =>
      cases hm : measures δ c with
      | some ps =>
        rw [(sets_measuredD k T A hd hm).1, (sets_measuredD k T A hd hm).2]
        exact ⟨measurable_measured (ih _ _ T hA).1 (ih _ _ T hA).1, measurable_measured (ih _ _ T hA).2 (ih _ _ T hA).2⟩
      | none =>
        cases hs : δ.step c with
        | error m => exact bad fun ω => deal_fails k ω hd hm hs
        | ok x =>
          obtain ⟨a, es, δ'⟩ := x
          have := Onward.win (fun ω => deal_calm k ω hd hm hs) T A
          rw [this.1, this.2]
          exact ih _ _ _ hA

/-! ### The distribution of a drawn integer -/

theorem byWords_nonneg (min max n : ℤ) : 0 ≤ byWords min max n := by
  unfold byWords
  positivity

theorem sum_pairs (N : ℕ) (g : ℕ × ℕ → ℤ) (lo hi : ℤ) (h : ∀ w : ℕ × ℕ, w.1 < N → w.2 < N → lo ≤ g w ∧ g w ≤ hi)
    (x : ENNReal) (F : ℤ → ENNReal) :
    ∑ v ∈ Finset.range N, ∑ w ∈ Finset.range N, x * F (g (v, w)) =
      ∑ n ∈ Finset.Icc lo hi, ({w : ℕ × ℕ | (w.1 < N ∧ w.2 < N) ∧ g w = n}.ncard * x) * F n := by
  classical
  rw [← Finset.sum_product' (f := fun v w => x * F (g (v, w))), ← Finset.sum_fiberwise_of_maps_to (g := g)
    (t := Finset.Icc lo hi) (fun w hw => by
      rw [Finset.mem_product, Finset.mem_range, Finset.mem_range] at hw
      exact Finset.mem_Icc.2 (h w hw.1 hw.2))]
  refine Finset.sum_congr rfl fun n _ => ?_
  rw [Std.ncard_pairs N fun w => g w = n, mul_assoc, ← nsmul_eq_mul, ← Finset.sum_const]
  refine Finset.sum_congr (by congr) fun w hw => ?_
  rw [(Finset.mem_filter.1 hw).2]

theorem ofReal_byWords (min max n : ℤ) : ENNReal.ofReal (byWords min max n) =
    Std.draws min max n * ((Std.words : ENNReal)⁻¹ * (Std.words : ENNReal)⁻¹) := by
  have hw : (0 : ℝ) < Std.words := Nat.cast_pos.2 (Nat.pos_of_ne_zero words_pos)
  unfold byWords
  rw [div_eq_mul_inv, ENNReal.ofReal_mul (Nat.cast_nonneg _), ENNReal.ofReal_natCast, pow_two, mul_inv,
    ENNReal.ofReal_mul (inv_nonneg.2 hw.le), ENNReal.ofReal_inv_of_pos hw, ENNReal.ofReal_natCast]

/-- Two words are used to draw an integer. -/
theorem sources_int {min max : ℤ} (h1 : Std.IsI64 min) (h2 : Std.IsI64 max) (h : min ≤ max)
    {X : ℤ → Set ((ℕ → ℝ) × (ℕ → ℕ))} (hX : ∀ n, MeasurableSet (X n)) :
    sources {ω | (ω.1, tailW (tailW ω.2)) ∈ X (Std.sampleInclusive min max (ω.2 0) (ω.2 1))} =
      ∑ n ∈ Finset.Icc min max, ENNReal.ofReal (byWords min max n) * sources (X n) := by
  rw [sources_twice (X := fun v w => X (Std.sampleInclusive min max v w)) fun v w => hX _,
    sum_pairs Std.words (fun w => Std.sampleInclusive min max w.1 w.2) min max
      (fun w hw _ => Std.sample_bounds h1 h2 h hw) _ fun n => sources (X n)]
  refine Finset.sum_congr rfl fun n _ => ?_
  rw [ofReal_byWords]
  congr 3
  unfold Std.draws Std.drawRandomInt
  simp only [gt_iff_lt, not_lt.2 h, if_false, Except.ok.injEq]

/-- Two words are used to draw a real number, and the second is wasted. -/
theorem sources_real {X : ℕ → Set ((ℕ → ℝ) × (ℕ → ℕ))} (hX : ∀ n, MeasurableSet (X n)) :
    sources {ω | (ω.1, tailW (tailW ω.2)) ∈ X (ω.2 0)} =
      ∑ i ∈ Finset.range Std.words, (Std.words : ENNReal)⁻¹ * sources (X i) := by
  have hw : (Std.words : ENNReal) ≠ 0 := Nat.cast_ne_zero.2 words_pos
  rw [sources_twice (X := fun v _ => X v) fun v w => hX _]
  refine Finset.sum_congr rfl fun v _ => ?_
  rw [Finset.sum_const, Finset.card_range, nsmul_eq_mul, ← mul_assoc, ← mul_assoc,
    ENNReal.mul_inv_cancel hw (ENNReal.natCast_ne_top _), one_mul]

/-! ### The law -/

theorem failure_nonneg (m : List Char) (S : Set (List Event × Bool)) : 0 ≤ failure m S := by
  unfold failure; split <;> norm_num

theorem odds_nonneg {w : Lot} (hw : ∀ a b n, 0 ≤ w a b n) (p : Prog QCall QAns) : ∀ δ S, 0 ≤ odds w p δ S := by
  induction p with
  | done => intro δ S; unfold odds; split <;> norm_num
  | call c k ih =>
    intro δ S
    unfold odds
    split
    · split
      · exact Finset.sum_nonneg fun n _ => mul_nonneg (hw _ _ _) (ih _ _ _)
      · exact failure_nonneg _ _
    · split
      · exact div_nonneg (Finset.sum_nonneg fun i _ => ih _ _ _) (Nat.cast_nonneg _)
      · exact failure_nonneg _ _
    · split
      · exact add_nonneg (mul_nonneg (pauliProb_nonneg _ _ _) (ih _ _ _)) (mul_nonneg (pauliProb_nonneg _ _ _) (ih _ _ _))
      · split
        · exact failure_nonneg _ _
        · exact ih _ _ _

theorem grid_bounds {min max : ℝ} (h : min ≤ max) {i : ℕ} (hi : i < Std.words) :
    min ≤ min + (i : ℝ) / ((Std.words : ℝ) - 1) * (max - min) ∧
      min + (i : ℝ) / ((Std.words : ℝ) - 1) * (max - min) ≤ max := by
  have h1 : (i : ℝ) ≤ (Std.words : ℝ) - 1 := by
    have : ((i + 1 : ℕ) : ℝ) ≤ (Std.words : ℝ) := by exact_mod_cast hi
    push_cast at this; linarith
  have h2 : (0 : ℝ) ≤ (Std.words : ℝ) - 1 := le_trans (Nat.cast_nonneg _) h1
  have h3 : (0 : ℝ) ≤ (i : ℝ) / ((Std.words : ℝ) - 1) := div_nonneg (Nat.cast_nonneg _) h2
  have h4 : (i : ℝ) / ((Std.words : ℝ) - 1) ≤ 1 := div_le_one_of_le₀ h1 h2
  constructor <;> nlinarith

theorem proper_finding {c : QCall} {k : QAns → Prog QCall QAns} {δ : Device} (hf : Fit δ.psi) {ps : List (Pauli × ℕ)}
    (hm : measures δ c = some ps) (hM : ∀ r, InUnit r → (withRng r δ).Valid c ∧ c.Determined ∧
      ∀ a es δ', (withRng r δ).step c = .ok (a, es, δ') → Proper (k a) δ') {v : Bool} (h : 0 < pauliProb ps v δ.psi)
    (r : ℕ → ℝ) (hr : InUnit r) : Proper (k (finding v δ c).1) (withRng r (finding v δ c).2) := by
  obtain ⟨hn, hI⟩ := measures_ok hm (hM (fun _ => 0) (fun _ => by norm_num)).1
  have hsum := hf.add (ψ := δ.psi) hn hI
  obtain ⟨x, x0, x1, hx⟩ : ∃ x : ℝ, 0 ≤ x ∧ x < 1 ∧ decide (x < pauliProb ps true δ.psi) = v := by
    cases v with
    | true => exact ⟨0, le_refl _, by norm_num, by simpa using h⟩
    | false => exact ⟨pauliProb ps true δ.psi, pauliProb_nonneg _ _ _, by linarith, by simp⟩
  have h1 := step_measures hm (cons x r)
  rw [cons_zero, hx, tail_cons] at h1
  exact (hM _ (hr.cons x0 x1)).2.2 _ _ _ h1

/-- The probability of a set of records is the measure of the sources that lead there; what is left of the sources is
independent of it. -/
theorem deal_law (p : Prog QCall QAns) : ∀ {δ : Device}, Fit δ.psi →
    (∀ r, InUnit r → Proper p (withRng r δ)) → ∀ (T : Set (List Event)) {A : Set ((ℕ → ℝ) × (ℕ → ℕ))}, MeasurableSet A →
    sources (winSet (deal p δ) T A) = ENNReal.ofReal (odds byWords p δ (records T)) * sources A ∧
    sources (loseSet (deal p δ) T) = ENNReal.ofReal (odds byWords p δ (failsWith T)) := by
  have nn := fun p δ S => odds_nonneg byWords_nonneg p δ S
  induction p with
  | done =>
    intro δ _ _ T A hA
    obtain ⟨h1, h2, h3⟩ := done_sets δ T A
    rw [h3]
    by_cases h : [] ∈ T
    · rw [h1 h]; simp [odds, records, failsWith, h]
    · rw [h2 h]; simp [odds, records, failsWith, h]
  | call c k ih =>
    intro δ hf hM T A hA
    have hM0 := hM (fun _ => 0) (fun _ => by norm_num)
    have bad : ∀ {m}, (∀ ω, deal (.call c k) δ ω = .error [.record (.message m)]) →
        (∀ S, odds byWords (.call c k) δ S = failure m S) →
        sources (winSet (deal (.call c k) δ) T A) = ENNReal.ofReal (odds byWords (.call c k) δ (records T)) * sources A ∧
        sources (loseSet (deal (.call c k) δ) T) = ENNReal.ofReal (odds byWords (.call c k) δ (failsWith T)) := by
      intro m h ho
      rw [(error_sets h T A).1, (error_sets h T A).2, ho, ho]
      by_cases h' : [Event.record (.message m)] ∈ T
      · simp [failure, records, failsWith, h']
      · simp [failure, records, failsWith, h']
    cases hd : drawn c with
    | int min max =>
      simp only [Proper, hd] at hM hM0
      by_cases h : min ≤ max
      · have ho : ∀ S, odds byWords (.call c k) δ S =
            ∑ n ∈ Finset.Icc min max, byWords min max n * odds byWords (k (.int n)) δ S := by
          intro S
          simp only [odds, hd, if_pos h]
        have next : ∀ n ∈ Finset.Icc min max, _ := fun n hn => ih (.int n) hf (fun r hr =>
          (hM r hr).2.2 n (Finset.mem_Icc.1 hn).1 (Finset.mem_Icc.1 hn).2) T hA
        rw [(sets_int k T A hd h).1, (sets_int k T A hd h).2,
          sources_int hM0.1 hM0.2.1 h (X := fun n => winSet (deal (k (.int n)) δ) T A) fun n => (measurable_deal _ _ _ hA).1,
          sources_int hM0.1 hM0.2.1 h (X := fun n => loseSet (deal (k (.int n)) δ) T) fun n => (measurable_deal _ _ _ hA).2,
          ho, ho, ENNReal.ofReal_sum_of_nonneg fun n _ => mul_nonneg (byWords_nonneg _ _ _) (nn _ _ _),
          ENNReal.ofReal_sum_of_nonneg fun n _ => mul_nonneg (byWords_nonneg _ _ _) (nn _ _ _), Finset.sum_mul]
        constructor
        · refine Finset.sum_congr rfl fun n hn => ?_
          rw [(next n hn).1, ENNReal.ofReal_mul (byWords_nonneg _ _ _), mul_assoc]
        · refine Finset.sum_congr rfl fun n hn => ?_
          rw [(next n hn).2, ENNReal.ofReal_mul (byWords_nonneg _ _ _)]
      · exact bad (fun ω => deal_int_bad k ω hd h) fun S => by simp only [odds, hd, if_neg h]
    | real min max =>
      simp only [Proper, hd] at hM hM0
      by_cases h : min ≤ max
      · let y : ℕ → ℝ := fun i => min + (i : ℝ) / ((Std.words : ℝ) - 1) * (max - min)
        have hw : (0 : ℝ) < Std.words := Nat.cast_pos.2 (Nat.pos_of_ne_zero words_pos)
        have ho : ∀ S, ENNReal.ofReal (odds byWords (.call c k) δ S) = ∑ i ∈ Finset.range Std.words,
            (Std.words : ENNReal)⁻¹ * ENNReal.ofReal (odds byWords (k (.real (y i))) δ S) := by
          intro S
          have : odds byWords (.call c k) δ S =
              (∑ i ∈ Finset.range Std.words, odds byWords (k (.real (y i))) δ S) / Std.words := by
            simp only [odds, hd, if_pos h, y]
          rw [this, div_eq_mul_inv, mul_comm, ENNReal.ofReal_mul (inv_nonneg.2 hw.le), ENNReal.ofReal_inv_of_pos hw,
            ENNReal.ofReal_natCast, ENNReal.ofReal_sum_of_nonneg fun n _ => nn _ _ _, Finset.mul_sum]
        have next : ∀ i ∈ Finset.range Std.words, _ := fun i hi => ih (.real (y i)) hf (fun r hr =>
          hM r hr (y i) (grid_bounds h (Finset.mem_range.1 hi)).1 (grid_bounds h (Finset.mem_range.1 hi)).2) T hA
        rw [(sets_real k T A hd h).1, (sets_real k T A hd h).2,
          sources_real (X := fun i => winSet (deal (k (.real (y i))) δ) T A) fun n => (measurable_deal _ _ _ hA).1,
          sources_real (X := fun i => loseSet (deal (k (.real (y i))) δ) T) fun n => (measurable_deal _ _ _ hA).2,
          ho, ho, Finset.sum_mul]
        constructor
        · refine Finset.sum_congr rfl fun n hn => ?_
          rw [(next n hn).1, mul_assoc]
        · refine Finset.sum_congr rfl fun n hn => ?_
          rw [(next n hn).2]
      · exact bad (fun ω => deal_real_bad k ω hd h) fun S => by simp only [odds, hd, if_neg h]
    | nothing =>
      simp only [Proper, hd] at hM hM0
      have hv : δ.Valid c := hM0.1
      cases hm : measures δ c with
      | some ps =>
        obtain ⟨hn, hI⟩ := measures_ok hm hv
        have hsum := hf.add hn hI
        have p0 := pauliProb_nonneg ps true δ.psi
        have p1 := pauliProb_nonneg ps false δ.psi
        have e1 : 1 - pauliProb ps true δ.psi = pauliProb ps false δ.psi := by linarith
        have part : ∀ v, ENNReal.ofReal (pauliProb ps v δ.psi) *
              sources (winSet (deal (k (finding v δ c).1) (finding v δ c).2) T A) =
            ENNReal.ofReal (pauliProb ps v δ.psi * odds byWords (k (finding v δ c).1) (finding v δ c).2 (records T)) *
              sources A ∧ ENNReal.ofReal (pauliProb ps v δ.psi) *
              sources (loseSet (deal (k (finding v δ c).1) (finding v δ c).2) T) =
            ENNReal.ofReal (pauliProb ps v δ.psi *
              odds byWords (k (finding v δ c).1) (finding v δ c).2 (failsWith T)) := by
          intro v
          rcases (pauliProb_nonneg ps v δ.psi).eq_or_lt with h | h
          · rw [← h]; simp
          · obtain ⟨a1, a2⟩ := ih (finding v δ c).1 (hf.finding hm h) (proper_finding hf hm hM h) T hA
            rw [a1, a2, ENNReal.ofReal_mul h.le, ENNReal.ofReal_mul h.le, mul_assoc]
            exact ⟨rfl, rfl⟩
        have hch : ∀ S, odds byWords (.call c k) δ S =
            pauliProb ps true δ.psi * odds byWords (k (finding true δ c).1) (finding true δ c).2 S +
            pauliProb ps false δ.psi * odds byWords (k (finding false δ c).1) (finding false δ c).2 S := by
          intro S
          simp only [odds, hd, hm]
        constructor
        · rw [(sets_measuredD k T A hd hm).1, sources_measured p0 (by linarith) (measurable_deal _ _ _ hA).1
            (measurable_deal _ _ _ hA).1, e1, (part true).1, (part false).1, hch, ENNReal.ofReal_add
            (mul_nonneg p0 (nn _ _ _)) (mul_nonneg p1 (nn _ _ _)), add_mul]
        · rw [(sets_measuredD k T A hd hm).2, sources_measured p0 (by linarith) (measurable_deal _ _ _ hA).2
            (measurable_deal _ _ _ hA).2, e1, (part true).2, (part false).2, hch, ENNReal.ofReal_add
            (mul_nonneg p0 (nn _ _ _)) (mul_nonneg p1 (nn _ _ _))]
      | none =>
        cases hs : δ.step c with
        | error m => exact bad (fun ω => deal_fails k ω hd hm hs) fun S => by simp only [odds, hd, hm, hs]
        | ok x =>
          obtain ⟨a, es, δ'⟩ := x
          have hw := Onward.win (fun ω => deal_calm k ω hd hm hs) T A
          have hch : ∀ S, odds byWords (.call c k) δ S = odds byWords (k a) δ' {o | (es ++ o.1, o.2) ∈ S} := by
            intro S
            simp only [odds, hd, hm, hs]
          rw [hw.1, hw.2, hch, hch]
          refine ih a (hf.calm hm hv hs) (fun r hr => ?_) _ hA
          refine (hM r hr).2.2 a es _ ?_
          rw [step_calm hm r, hs]
          rfl

/-- The shots of the ideal device obey the law. -/
theorem deal_lawful {p : Prog QCall QAns} {δ : Device} (hf : Fit δ.psi) (hM : ∀ r, InUnit r → Proper p (withRng r δ)) :
    Lawful sources (deal p δ) (fun T => odds byWords p δ (records T)) (fun T => odds byWords p δ (failsWith T)) where
  nonneg _ := odds_nonneg byWords_nonneg _ _ _
  nonneg_bad _ := odds_nonneg byWords_nonneg _ _ _
  win T _ hA := (measurable_deal p δ T hA).1
  lose T := (measurable_deal p δ T MeasurableSet.univ).2
  law T _ hA := (deal_law p hf hM T hA).1
  law_bad T := (deal_law p hf hM T MeasurableSet.univ).2

end Qir.Back
