import Mathlib.Probability.StrongLaw

/-!
# Repeating a random experiment

An experiment takes what it needs from a source of randomness and hands on the rest.  If the rest is independent of the
outcome and distributed as the source was, then repetitions are independent and the relative frequencies converge.
-/

noncomputable section
namespace Qir.Back
open MeasureTheory

variable {Ω E : Type}

/-- The sources with which the experiment succeeds with an outcome in `T` and leaves a source in `A`. -/
def winSet (f : Ω → Except E (E × Ω)) (T : Set E) (A : Set Ω) : Set Ω := {ω | ∃ e ω', f ω = .ok (e, ω') ∧ e ∈ T ∧ ω' ∈ A}

/-- The sources with which it fails with an outcome in `T`. -/
def loseSet (f : Ω → Except E (E × Ω)) (T : Set E) : Set Ω := {ω | ∃ e, f ω = .error e ∧ e ∈ T}

/-- The distribution of the outcome is given by `good` and `bad`, and the rest of the source is as good as new. -/
structure Lawful [MeasurableSpace Ω] (μ : Measure Ω) (f : Ω → Except E (E × Ω)) (good bad : Set E → ℝ) : Prop where
  nonneg : ∀ T, 0 ≤ good T
  nonneg_bad : ∀ T, 0 ≤ bad T
  win : ∀ (T : Set E) {A : Set Ω}, MeasurableSet A → MeasurableSet (winSet f T A)
  lose : ∀ T, MeasurableSet (loseSet f T)
  law : ∀ (T : Set E) {A : Set Ω}, MeasurableSet A → μ (winSet f T A) = ENNReal.ofReal (good T) * μ A
  law_bad : ∀ T, μ (loseSet f T) = ENNReal.ofReal (bad T)

/-- Several repetitions; the first failure ends them. -/
def iter (f : Ω → Except E (E × Ω)) : ℕ → Ω → Except (List E × E) (List E)
  | 0, _ => .ok []
  | n + 1, ω => match f ω with
    | .error e => .error ([], e)
    | .ok (e, ω') => match iter f n ω' with
      | .error (es, e') => .error (e :: es, e')
      | .ok es => .ok (e :: es)

variable {f : Ω → Except E (E × Ω)}

/-- The sources with which every repetition succeeds, with outcomes in the given sets. -/
def itersSet (f : Ω → Except E (E × Ω)) (n : ℕ) (Ts : List (Set E)) : Set Ω :=
  {ω | ∃ es, iter f n ω = .ok es ∧ List.Forall₂ (· ∈ ·) es Ts}

/-- The sources with which a repetition fails, with an outcome in `T'`, those before it having outcomes in the given
sets. -/
def stopsSet (f : Ω → Except E (E × Ω)) (n : ℕ) (Ts : List (Set E)) (T' : Set E) : Set Ω :=
  {ω | ∃ es e, iter f n ω = .error (es, e) ∧ List.Forall₂ (· ∈ ·) es Ts ∧ e ∈ T'}

theorem iters_cons (n : ℕ) (T : Set E) (Ts : List (Set E)) :
    itersSet f (n + 1) (T :: Ts) = winSet f T (itersSet f n Ts) := by
  ext ω
  simp only [itersSet, winSet, Set.mem_ofPred_eq, iter]
  cases f ω with
  | error e => simp
  | ok x =>
    obtain ⟨es, ω'⟩ := x
    dsimp only
    cases h : iter f n ω' with
    | error e => simp [h]
    | ok ess => simp [h]

theorem stops_cons (n : ℕ) (T T' : Set E) (Ts : List (Set E)) :
    stopsSet f (n + 1) (T :: Ts) T' = winSet f T (stopsSet f n Ts T') := by
  ext ω
  simp only [stopsSet, winSet, Set.mem_ofPred_eq, iter]
  cases f ω with
  | error e => simp
  | ok x =>
    obtain ⟨es, ω'⟩ := x
    dsimp only
    cases h : iter f n ω' with
    | error e => obtain ⟨ess, es'⟩ := e; simp [h, and_assoc]
    | ok ess => simp [h]

theorem stops_now (n : ℕ) (T' : Set E) : stopsSet f (n + 1) [] T' = loseSet f T' := by
  ext ω
  simp only [stopsSet, loseSet, Set.mem_ofPred_eq, iter]
  cases f ω with
  | error e => simp
  | ok x =>
    obtain ⟨es, ω'⟩ := x
    dsimp only
    cases iter f n ω' with
    | error e => obtain ⟨ess, es'⟩ := e; simp
    | ok ess => simp

namespace Lawful

variable [MeasurableSpace Ω] {μ : Measure Ω} {good bad : Set E → ℝ}

theorem total [IsProbabilityMeasure μ] (h : Lawful μ f good bad) : good Set.univ + bad Set.univ = 1 := by
  have h1 := h.law Set.univ MeasurableSet.univ
  have h2 := h.law_bad Set.univ
  have hu : winSet f Set.univ Set.univ ∪ loseSet f Set.univ = Set.univ := by
    ext ω
    simp only [winSet, loseSet, Set.mem_union, Set.mem_ofPred_eq, Set.mem_univ, and_true, iff_true]
    cases f ω with
    | error e => exact .inr ⟨e, rfl⟩
    | ok x => exact .inl ⟨x.1, x.2, rfl⟩
  have hd : Disjoint (winSet f Set.univ Set.univ) (loseSet f Set.univ) := by
    rw [Set.disjoint_left]
    rintro ω ⟨es, ω', e1, _⟩ ⟨es', e2, _⟩
    rw [e1] at e2
    cases e2
  have := measure_union (μ := μ) hd (h.lose _)
  rw [hu, measure_univ, h1, h2, measure_univ, mul_one, ← ENNReal.ofReal_add (h.nonneg _) (h.nonneg_bad _)] at this
  have h3 := congrArg ENNReal.toReal this
  rw [ENNReal.toReal_ofReal (add_nonneg (h.nonneg _) (h.nonneg_bad _))] at h3
  simpa using h3.symm

theorem measurable_iters (h : Lawful μ f good bad) (n : ℕ) : ∀ Ts : List (Set E), Ts.length = n →
    MeasurableSet (itersSet f n Ts) := by
  induction n with
  | zero =>
    intro Ts hl
    rw [List.length_eq_zero_iff] at hl
    subst hl
    simp [itersSet, iter]
  | succ n ih =>
    intro Ts hl
    obtain ⟨T, Ts, rfl⟩ := List.exists_cons_of_length_eq_add_one hl
    rw [iters_cons]
    exact h.win T (ih Ts (by simpa using hl))

theorem measurable_stops (h : Lawful μ f good bad) (T' : Set E) (n : ℕ) : ∀ Ts : List (Set E), Ts.length < n →
    MeasurableSet (stopsSet f n Ts T') := by
  induction n with
  | zero => intro Ts hl; cases hl
  | succ n ih =>
    intro Ts hl
    cases Ts with
    | nil => rw [stops_now]; exact h.lose T'
    | cons T Ts =>
      rw [stops_cons]
      exact h.win T (ih Ts (by simpa using hl))

theorem iters_law [IsProbabilityMeasure μ] (h : Lawful μ f good bad) (n : ℕ) : ∀ Ts : List (Set E), Ts.length = n →
    μ (itersSet f n Ts) = (Ts.map fun T => ENNReal.ofReal (good T)).prod := by
  induction n with
  | zero =>
    intro Ts hl
    rw [List.length_eq_zero_iff] at hl
    subst hl
    simp [itersSet, iter]
  | succ n ih =>
    intro Ts hl
    obtain ⟨T, Ts, rfl⟩ := List.exists_cons_of_length_eq_add_one hl
    rw [iters_cons, h.law T (h.measurable_iters n Ts (by simpa using hl)), ih Ts (by simpa using hl), List.map_cons,
      List.prod_cons]

theorem stops_law (h : Lawful μ f good bad) (T' : Set E) (n : ℕ) : ∀ Ts : List (Set E), Ts.length < n →
    μ (stopsSet f n Ts T') = (Ts.map fun T => ENNReal.ofReal (good T)).prod * ENNReal.ofReal (bad T') := by
  induction n with
  | zero => intro Ts hl; cases hl
  | succ n ih =>
    intro Ts hl
    cases Ts with
    | nil => rw [stops_now, h.law_bad]; simp
    | cons T Ts =>
      rw [stops_cons, h.law T (h.measurable_stops T' n Ts (by simpa using hl)), ih Ts (by simpa using hl),
        List.map_cons, List.prod_cons, mul_assoc]

end Lawful

/-- The outcome of repetition `i`. -/
def outcomeOf (f : Ω → Except E (E × Ω)) : ℕ → Ω → E
  | 0, ω => match f ω with
    | .ok (e, _) => e
    | .error e => e
  | i + 1, ω => match f ω with
    | .ok (_, ω') => outcomeOf f i ω'
    | .error e => e

theorem iter_eq (n : ℕ) : ∀ {ω : Ω} {es}, iter f n ω = .ok es → es = (List.range n).map fun i => outcomeOf f i ω := by
  induction n with
  | zero => intro ω es h; cases h; rfl
  | succ n ih =>
    intro ω es h
    rw [List.range_succ_eq_map]
    simp only [iter] at h
    cases hi : f ω with
    | error e => simp [hi] at h
    | ok x =>
      obtain ⟨e, ω'⟩ := x
      simp only [hi] at h
      cases hj : iter f n ω' with
      | error e => simp [hj] at h
      | ok es' =>
        simp only [hj, Except.ok.injEq] at h
        subst h
        rw [ih hj]
        simp [outcomeOf, hi, Function.comp_def]

theorem iter_iff {ω : Ω} (hr : ∀ n, ∃ es, iter f n ω = .ok es) (n : ℕ) (F : ℕ → Set E) :
    ω ∈ itersSet f n ((List.range n).map F) ↔ ∀ i < n, outcomeOf f i ω ∈ F i := by
  obtain ⟨es, e⟩ := hr n
  unfold itersSet
  rw [Set.mem_ofPred_eq, e]
  simp only [Except.ok.injEq, exists_eq_left', iter_eq n e, List.forall₂_map_left_iff, List.forall₂_map_right_iff,
    List.forall₂_same, List.mem_range]

namespace Lawful

variable [MeasurableSpace Ω] {μ : Measure Ω} {good bad : Set E → ℝ} [IsProbabilityMeasure μ]

theorem all_ok (h : Lawful μ f good bad) (h1 : good Set.univ = 1) : ∀ᵐ ω ∂μ, ∀ n, ∃ es, iter f n ω = .ok es := by
  rw [ae_all_iff]
  intro n
  have h0 := h.iters_law n (List.replicate n Set.univ) (by simp)
  have h2 := h.measurable_iters n (List.replicate n Set.univ) (by simp)
  simp only [List.map_replicate, h1, ENNReal.ofReal_one, List.prod_replicate, one_pow] at h0
  rw [← prob_compl_eq_zero_iff h2] at h0
  refine measure_mono_null ?_ h0
  rintro ω hr ⟨es, e, _⟩
  exact hr ⟨es, e⟩

theorem outcomes (h : Lawful μ f good bad) (h1 : good Set.univ = 1) (n : ℕ) (F : ℕ → Set E) :
    NullMeasurableSet {ω | ∀ i < n, outcomeOf f i ω ∈ F i} μ ∧
    μ {ω | ∀ i < n, outcomeOf f i ω ∈ F i} = ∏ i ∈ Finset.range n, ENNReal.ofReal (good (F i)) := by
  have he : itersSet f n ((List.range n).map F) =ᵐ[μ] {ω | ∀ i < n, outcomeOf f i ω ∈ F i} := by
    filter_upwards [h.all_ok h1] with ω hr
    exact propext (iter_iff hr n F)
  refine ⟨(h.measurable_iters n _ (by simp)).nullMeasurableSet.congr he, ?_⟩
  rw [← measure_congr he, h.iters_law n _ (by simp), List.map_map, Finset.prod_range, ← List.prod_ofFn]
  congr 1
  rw [List.ofFn_eq_map, ← List.map_coe_finRange_eq_range, List.map_map]
  rfl

theorem one (h : Lawful μ f good bad) (h1 : good Set.univ = 1) (i : ℕ) (T : Set E) :
    NullMeasurableSet {ω | outcomeOf f i ω ∈ T} μ ∧ μ {ω | outcomeOf f i ω ∈ T} = ENNReal.ofReal (good T) := by
  have h0 := h.outcomes h1 (i + 1) fun j => if j = i then T else Set.univ
  have he : {ω | ∀ j < i + 1, outcomeOf f j ω ∈ if j = i then T else Set.univ} = {ω | outcomeOf f i ω ∈ T} := by
    ext ω
    refine ⟨fun h => by simpa using h i (by omega), fun h j _ => ?_⟩
    split
    · next e => rw [e]; exact h
    · trivial
  rw [he] at h0
  refine ⟨h0.1, h0.2.trans ?_⟩
  rw [Finset.prod_eq_single i]
  · simp
  · intro j _ e; simp [e, h1]
  · intro e; simp at e

theorem two (h : Lawful μ f good bad) (h1 : good Set.univ = 1) {i j : ℕ} (hij : i ≠ j) (T U : Set E) :
    μ ({ω | outcomeOf f i ω ∈ T} ∩ {ω | outcomeOf f j ω ∈ U}) =
      ENNReal.ofReal (good T) * ENNReal.ofReal (good U) := by
  have h0 := h.outcomes h1 (i + j + 1) fun k => if k = i then T else if k = j then U else Set.univ
  have he : {ω | ∀ k < i + j + 1, outcomeOf f k ω ∈ if k = i then T else if k = j then U else Set.univ} =
      {ω | outcomeOf f i ω ∈ T} ∩ {ω | outcomeOf f j ω ∈ U} := by
    ext ω
    refine ⟨fun h => ⟨by simpa using h i (by omega), by simpa [hij.symm] using h j (by omega)⟩, fun h k _ => ?_⟩
    split
    · next e => rw [e]; exact h.1
    · split
      · next e => rw [e]; exact h.2
      · trivial
  rw [he] at h0
  rw [h0.2, Finset.prod_eq_mul i j hij]
  · simp [hij.symm]
  · intro k _ e; simp [e.1, e.2, h1]
  · intro e; simp at e
  · intro e; simp at e

open Classical in
/-- The relative frequency of a set of outcomes converges to its probability. -/
theorem freq (h : Lawful μ f good bad) (h1 : good Set.univ = 1) (T : Set E) : ∀ᵐ ω ∂μ, Filter.Tendsto
      (fun n : ℕ => (∑ i ∈ Finset.range n, if outcomeOf f i ω ∈ T then (1 : ℝ) else 0) / n) Filter.atTop
      (nhds (good T)) := by
  let g : E → ℝ := fun es => if es ∈ T then 1 else 0
  let X : ℕ → Ω → ℝ := fun i ω => g (outcomeOf f i ω)
  have hX : ∀ i, X i = Set.indicator {ω | outcomeOf f i ω ∈ T} fun _ => 1 := by
    intro i
    funext ω
    by_cases h : outcomeOf f i ω ∈ T <;> simp [X, g, h]
  have hae : ∀ i, AEMeasurable (X i) μ := by
    intro i
    rw [hX]
    exact aemeasurable_const.indicator₀ (h.one h1 i T).1
  have hpre : ∀ i (s : Set ℝ), X i ⁻¹' s = {ω | outcomeOf f i ω ∈ g ⁻¹' s} := fun _ _ => rfl
  have h' := ProbabilityTheory.strong_law_ae_real (μ := μ) X ?_ ?_ ?_
  · have hi : ∫ ω, X 0 ω ∂μ = good T := by
      rw [hX, integral_indicator₀ (h.one h1 0 T).1, setIntegral_const, Measure.real, (h.one h1 0 T).2,
        ENNReal.toReal_ofReal (h.nonneg _), smul_eq_mul, mul_one]
    rw [hi] at h'
    exact h'
  · rw [hX]
    exact IntegrableOn.integrable_indicator₀ (integrable_const _).integrableOn (h.one h1 0 T).1
  · intro i j hij
    rw [Function.onFun, ProbabilityTheory.indepFun_iff_measure_inter_preimage_eq_mul]
    intro s t _ _
    rw [hpre, hpre, h.two h1 hij, (h.one h1 i _).2, (h.one h1 j _).2]
  · intro i
    refine ⟨hae i, hae 0, Measure.ext fun s hs => ?_⟩
    rw [Measure.map_apply_of_aemeasurable (hae i) hs, Measure.map_apply_of_aemeasurable (hae 0) hs, hpre, hpre,
      (h.one h1 i _).2, (h.one h1 0 _).2]

end Lawful

end Qir.Back
