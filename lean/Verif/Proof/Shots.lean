import Verif.Proof.Chance
import Mathlib.Probability.StrongLaw

/-!
# Shots with random samples (C57, C58)
-/

noncomputable section
namespace Qir.Back
open Spec Sim Qir.Out Run MeasureTheory

variable {env : Env} {fmt : Fmt}

theorem init_eq (r : ℕ → ℝ) : Device.init r = withRng r blank := rfl

theorem blank_fit : Fit blank.psi := Fit.ket _

/-! ### Shots on the ideal device -/

theorem shots_well (p : Prog QCall QAns) (n : ℕ) (T : Set (List Event)) (Ts : List (Set (List Event))) :
    {r | ∃ ess, idealShots p (n + 1) r = .ok ess ∧ List.Forall₂ (· ∈ ·) ess (T :: Ts)} =
      wellSet p blank T {r | ∃ ess, idealShots p n r = .ok ess ∧ List.Forall₂ (· ∈ ·) ess Ts} := by
  ext r
  simp only [wellSet, Set.mem_ofPred_eq, ← init_eq, idealShots]
  cases idealRun p (Device.init r) with
  | error e => simp
  | ok x =>
    obtain ⟨es, δ⟩ := x
    dsimp only
    cases h : idealShots p n δ.rng with
    | error e => simp [h]
    | ok ess => simp [h]

theorem shots_bad (p : Prog QCall QAns) (n : ℕ) (T T' : Set (List Event)) (Ts : List (Set (List Event))) :
    {r | ∃ ess es, idealShots p (n + 1) r = .error (ess, es) ∧ List.Forall₂ (· ∈ ·) ess (T :: Ts) ∧ es ∈ T'} =
      wellSet p blank T {r | ∃ ess es, idealShots p n r = .error (ess, es) ∧
        List.Forall₂ (· ∈ ·) ess Ts ∧ es ∈ T'} := by
  ext r
  simp only [wellSet, Set.mem_ofPred_eq, ← init_eq, idealShots]
  cases idealRun p (Device.init r) with
  | error e => simp
  | ok x =>
    obtain ⟨es, δ⟩ := x
    dsimp only
    cases h : idealShots p n δ.rng with
    | error e => obtain ⟨ess, es'⟩ := e; simp [h, and_assoc]
    | ok ess => simp [h]

theorem shots_bad_now (p : Prog QCall QAns) (n : ℕ) (T' : Set (List Event)) :
    {r | ∃ ess es, idealShots p (n + 1) r = .error (ess, es) ∧ List.Forall₂ (· ∈ ·) ess ([] : List (Set (List Event))) ∧
        es ∈ T'} =
      badSet p blank T' := by
  ext r
  simp only [badSet, Set.mem_ofPred_eq, ← init_eq, idealShots]
  cases idealRun p (Device.init r) with
  | error e => simp
  | ok x =>
    obtain ⟨es, δ⟩ := x
    dsimp only
    cases idealShots p n δ.rng with
    | error e => obtain ⟨ess, es'⟩ := e; simp
    | ok ess => simp

theorem measurable_shots (p : Prog QCall QAns) (n : ℕ) : ∀ Ts : List (Set (List Event)), Ts.length = n →
    MeasurableSet {r | ∃ ess, idealShots p n r = .ok ess ∧ List.Forall₂ (· ∈ ·) ess Ts} := by
  induction n with
  | zero =>
    intro Ts h
    rw [List.length_eq_zero_iff] at h
    subst h
    simp [idealShots]
  | succ n ih =>
    intro Ts h
    obtain ⟨T, Ts, rfl⟩ := List.exists_cons_of_length_eq_add_one h
    rw [shots_well]
    exact (measurable_sets p blank T (ih Ts (by simpa using h))).1

theorem measurable_fails (p : Prog QCall QAns) (T' : Set (List Event)) (n : ℕ) :
    ∀ Ts : List (Set (List Event)), Ts.length < n →
    MeasurableSet {r | ∃ ess es, idealShots p n r = .error (ess, es) ∧ List.Forall₂ (· ∈ ·) ess Ts ∧ es ∈ T'} := by
  induction n with
  | zero => intro Ts h; cases h
  | succ n ih =>
    intro Ts h
    cases Ts with
    | nil => rw [shots_bad_now]; exact (measurable_sets p blank T' MeasurableSet.univ).2
    | cons T Ts =>
      rw [shots_bad]
      exact (measurable_sets p blank T (ih Ts (by simpa using h))).1

variable {p : Prog QCall QAns}

theorem shots_law (hm : ∀ r, InUnit r → Meaningful p (Device.init r)) (n : ℕ) :
    ∀ Ts : List (Set (List Event)), Ts.length = n →
    streams {r | ∃ ess, idealShots p n r = .ok ess ∧ List.Forall₂ (· ∈ ·) ess Ts} =
      (Ts.map fun T => ENNReal.ofReal (chance p blank (records T))).prod := by
  induction n with
  | zero =>
    intro Ts h
    rw [List.length_eq_zero_iff] at h
    subst h
    simp [idealShots]
  | succ n ih =>
    intro Ts h
    obtain ⟨T, Ts, rfl⟩ := List.exists_cons_of_length_eq_add_one h
    rw [shots_well, (law p blank_fit hm T (measurable_shots p n Ts (by simpa using h))).1,
      ih Ts (by simpa using h), List.map_cons, List.prod_cons]

theorem fails_law (hm : ∀ r, InUnit r → Meaningful p (Device.init r)) (T' : Set (List Event)) (n : ℕ) :
    ∀ Ts : List (Set (List Event)), Ts.length < n →
    streams {r | ∃ ess es, idealShots p n r = .error (ess, es) ∧ List.Forall₂ (· ∈ ·) ess Ts ∧ es ∈ T'} =
      (Ts.map fun T => ENNReal.ofReal (chance p blank (records T))).prod *
        ENNReal.ofReal (chance p blank (failsWith T')) := by
  induction n with
  | zero => intro Ts h; cases h
  | succ n ih =>
    intro Ts h
    cases Ts with
    | nil => rw [shots_bad_now, (law p blank_fit hm T' MeasurableSet.univ).2]; simp
    | cons T Ts =>
      rw [shots_bad, (law p blank_fit hm T (measurable_fails p T' n Ts (by simpa using h))).1,
        ih Ts (by simpa using h), List.map_cons, List.prod_cons, mul_assoc]

/-! ### The shots of a program that does not fail -/

/-- What shot `i` records. -/
def shot (p : Prog QCall QAns) : ℕ → (ℕ → ℝ) → List Event
  | 0, r => match idealRun p (Device.init r) with
    | .ok (es, _) => es
    | .error es => es
  | i + 1, r => match idealRun p (Device.init r) with
    | .ok (_, δ) => shot p i δ.rng
    | .error es => es

theorem shots_eq (n : ℕ) : ∀ {r : ℕ → ℝ} {ess}, idealShots p n r = .ok ess →
    ess = (List.range n).map fun i => shot p i r := by
  induction n with
  | zero => intro r ess h; cases h; rfl
  | succ n ih =>
    intro r ess h
    rw [List.range_succ_eq_map]
    simp only [idealShots] at h
    cases hi : idealRun p (Device.init r) with
    | error e => simp [hi] at h
    | ok x =>
      obtain ⟨es, δ⟩ := x
      simp only [hi] at h
      cases hj : idealShots p n δ.rng with
      | error e => simp [hj] at h
      | ok ess' =>
        simp only [hj, Except.ok.injEq] at h
        subst h
        rw [ih hj]
        simp [shot, hi, Function.comp_def]

theorem shots_ok (hm : ∀ r, InUnit r → Meaningful p (Device.init r)) (h1 : chance p blank (records Set.univ) = 1) :
    ∀ᵐ r ∂streams, ∀ n, ∃ ess, idealShots p n r = .ok ess := by
  rw [ae_all_iff]
  intro n
  have h := shots_law hm n (List.replicate n Set.univ) (by simp)
  have h2 := measurable_shots p n (List.replicate n Set.univ) (by simp)
  simp only [List.map_replicate, h1, ENNReal.ofReal_one, List.prod_replicate, one_pow] at h
  rw [← prob_compl_eq_zero_iff h2] at h
  refine measure_mono_null ?_ h
  rintro r hr ⟨ess, e, _⟩
  exact hr ⟨ess, e⟩

theorem shots_iff {r : ℕ → ℝ} (hr : ∀ n, ∃ ess, idealShots p n r = .ok ess) (n : ℕ) (F : ℕ → Set (List Event)) :
    (∃ ess, idealShots p n r = .ok ess ∧ List.Forall₂ (· ∈ ·) ess ((List.range n).map F)) ↔
      ∀ i < n, shot p i r ∈ F i := by
  obtain ⟨ess, e⟩ := hr n
  rw [e]
  simp only [Except.ok.injEq, exists_eq_left', shots_eq n e, List.forall₂_map_left_iff, List.forall₂_map_right_iff,
    List.forall₂_same, List.mem_range]

theorem shot_law (hm : ∀ r, InUnit r → Meaningful p (Device.init r)) (h1 : chance p blank (records Set.univ) = 1)
    (n : ℕ) (F : ℕ → Set (List Event)) : NullMeasurableSet {r | ∀ i < n, shot p i r ∈ F i} streams ∧
    streams {r | ∀ i < n, shot p i r ∈ F i} =
      ∏ i ∈ Finset.range n, ENNReal.ofReal (chance p blank (records (F i))) := by
  have h : {r | ∃ ess, idealShots p n r = .ok ess ∧ List.Forall₂ (· ∈ ·) ess ((List.range n).map F)} =ᵐ[streams]
      {r | ∀ i < n, shot p i r ∈ F i} := by
    filter_upwards [shots_ok hm h1] with r hr
    exact propext (shots_iff hr n F)
  refine ⟨(measurable_shots p n _ (by simp)).nullMeasurableSet.congr h, ?_⟩
  rw [← measure_congr h, shots_law hm n _ (by simp), List.map_map, Finset.prod_range, ← List.prod_ofFn]
  congr 1
  rw [List.ofFn_eq_map, ← List.map_coe_finRange_eq_range, List.map_map]
  rfl

theorem shot_one (hm : ∀ r, InUnit r → Meaningful p (Device.init r)) (h1 : chance p blank (records Set.univ) = 1)
    (i : ℕ) (T : Set (List Event)) : NullMeasurableSet {r | shot p i r ∈ T} streams ∧
    streams {r | shot p i r ∈ T} = ENNReal.ofReal (chance p blank (records T)) := by
  have h := shot_law hm h1 (i + 1) fun j => if j = i then T else Set.univ
  have he : {r | ∀ j < i + 1, shot p j r ∈ if j = i then T else Set.univ} = {r | shot p i r ∈ T} := by
    ext r
    refine ⟨fun h => by simpa using h i (by omega), fun h j _ => ?_⟩
    split
    · next e => rw [e]; exact h
    · trivial
  rw [he] at h
  refine ⟨h.1, h.2.trans ?_⟩
  rw [Finset.prod_eq_single i]
  · simp
  · intro j _ e; simp [e, h1]
  · intro e; simp at e

theorem shot_two (hm : ∀ r, InUnit r → Meaningful p (Device.init r)) (h1 : chance p blank (records Set.univ) = 1)
    {i j : ℕ} (hij : i ≠ j) (T U : Set (List Event)) :
    streams ({r | shot p i r ∈ T} ∩ {r | shot p j r ∈ U}) =
      ENNReal.ofReal (chance p blank (records T)) * ENNReal.ofReal (chance p blank (records U)) := by
  have h := shot_law hm h1 (i + j + 1) fun k => if k = i then T else if k = j then U else Set.univ
  have he : {r | ∀ k < i + j + 1, shot p k r ∈ if k = i then T else if k = j then U else Set.univ} =
      {r | shot p i r ∈ T} ∩ {r | shot p j r ∈ U} := by
    ext r
    refine ⟨fun h => ⟨by simpa using h i (by omega), by simpa [hij.symm] using h j (by omega)⟩, fun h k _ => ?_⟩
    split
    · next e => rw [e]; exact h.1
    · split
      · next e => rw [e]; exact h.2
      · trivial
  rw [he] at h
  rw [h.2, Finset.prod_eq_mul i j hij]
  · simp [hij.symm]
  · intro k _ e; simp [e.1, e.2, h1]
  · intro e; simp at e
  · intro e; simp at e

open Classical in
/-- The relative frequency of a set of records converges to its probability. -/
theorem shot_freq (hm : ∀ r, InUnit r → Meaningful p (Device.init r)) (h1 : chance p blank (records Set.univ) = 1)
    (T : Set (List Event)) : ∀ᵐ r ∂streams, Filter.Tendsto
      (fun n : ℕ => (∑ i ∈ Finset.range n, if shot p i r ∈ T then (1 : ℝ) else 0) / n) Filter.atTop
      (nhds (chance p blank (records T))) := by
  let g : List Event → ℝ := fun es => if es ∈ T then 1 else 0
  let X : ℕ → (ℕ → ℝ) → ℝ := fun i r => g (shot p i r)
  have hX : ∀ i, X i = Set.indicator {r | shot p i r ∈ T} fun _ => 1 := by
    intro i
    funext r
    by_cases h : shot p i r ∈ T <;> simp [X, g, h]
  have hae : ∀ i, AEMeasurable (X i) streams := by
    intro i
    rw [hX]
    exact aemeasurable_const.indicator₀ (shot_one hm h1 i T).1
  have hpre : ∀ i (s : Set ℝ), X i ⁻¹' s = {r | shot p i r ∈ g ⁻¹' s} := fun _ _ => rfl
  have h := ProbabilityTheory.strong_law_ae_real (μ := streams) X ?_ ?_ ?_
  · have hi : ∫ r, X 0 r ∂streams = chance p blank (records T) := by
      rw [hX, integral_indicator₀ (shot_one hm h1 0 T).1, setIntegral_const, Measure.real, (shot_one hm h1 0 T).2,
        ENNReal.toReal_ofReal (chance_nonneg _ _ _), smul_eq_mul, mul_one]
    rw [hi] at h
    exact h
  · rw [hX]
    exact IntegrableOn.integrable_indicator₀ (integrable_const _).integrableOn (shot_one hm h1 0 T).1
  · intro i j hij
    rw [Function.onFun, ProbabilityTheory.indepFun_iff_measure_inter_preimage_eq_mul]
    intro s t _ _
    rw [hpre, hpre, shot_two hm h1 hij, (shot_one hm h1 i _).2, (shot_one hm h1 j _).2]
  · intro i
    refine ⟨hae i, hae 0, Measure.ext fun s hs => ?_⟩
    rw [Measure.map_apply_of_aemeasurable (hae i) hs, Measure.map_apply_of_aemeasurable (hae 0) hs, hpre, hpre,
      (shot_one hm h1 i _).2, (shot_one hm h1 0 _).2]

end Qir.Back
