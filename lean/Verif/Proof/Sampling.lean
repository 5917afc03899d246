import Verif.Proof.Shots
import Mathlib.Probability.Moments.SubGaussian

/-!
# Finitely many shots: the lemmas for C95
-/

noncomputable section
namespace Qir.Back.Samp
open Spec Sim Qir.Out Run MeasureTheory

variable {p : Prog QCall QAns}

/-! ### How many shots -/

open Classical in
/-- All of `n` shots succeed and exactly `k` of them record something in `T`. -/
def counted (p : Prog QCall QAns) (T : Set (List Event)) (n k : ℕ) : Set (ℕ → ℝ) :=
  {r | ∃ ess, idealShots p n r = .ok ess ∧ ess.countP (· ∈ T) = k}

theorem counted_zero (T : Set (List Event)) (k : ℕ) : counted p T 0 k = if k = 0 then Set.univ else ∅ := by
  ext r
  by_cases h : k = 0
  · simp [counted, idealShots, h]
  · simp [counted, idealShots, h, Ne.symm h]

theorem counted_succ (T : Set (List Event)) (n k : ℕ) : counted p T (n + 1) (k + 1) =
    wellSet p blank T (counted p T n k) ∪ wellSet p blank Tᶜ (counted p T n (k + 1)) := by
  classical
  ext r
  simp only [counted, wellSet, Set.mem_union, Set.mem_ofPred_eq, idealShots, ← init_eq]
  cases hi : idealRun p (Device.init r) with
  | error e => simp
  | ok x =>
    obtain ⟨es, δ⟩ := x
    cases hs : idealShots p n δ.rng with
    | error e => simp [hs]
    | ok ess =>
      by_cases h : es ∈ T <;> simp [hs, h]

theorem counted_none (T : Set (List Event)) (n : ℕ) : counted p T (n + 1) 0 =
    wellSet p blank Tᶜ (counted p T n 0) := by
  classical
  ext r
  simp only [counted, wellSet, Set.mem_ofPred_eq, idealShots, ← init_eq]
  cases hi : idealRun p (Device.init r) with
  | error e => simp
  | ok x =>
    obtain ⟨es, δ⟩ := x
    cases hs : idealShots p n δ.rng with
    | error e => simp [hs]
    | ok ess =>
      by_cases h : es ∈ T <;> simp [hs, h]

theorem counted_measurable (T : Set (List Event)) (n : ℕ) : ∀ k, MeasurableSet (counted p T n k) := by
  induction n with
  | zero => intro k; rw [counted_zero]; split <;> simp
  | succ n ih =>
    intro k
    cases k with
    | zero => rw [counted_none]; exact (measurable_sets p blank _ (ih 0)).1
    | succ k =>
      rw [counted_succ]
      exact (measurable_sets p blank _ (ih k)).1.union (measurable_sets p blank _ (ih (k + 1))).1

/-- The number of shots that record something in a set is distributed binomially. -/
theorem counted_law (hm : ∀ r, InUnit r → Meaningful p (Device.init r)) (T : Set (List Event)) (n : ℕ) : ∀ k,
    streams (counted p T n k) = ENNReal.ofReal (n.choose k * chance p blank (records T) ^ k *
      chance p blank (records Tᶜ) ^ (n - k)) := by
  have ha := chance_nonneg p blank (records T)
  have hb := chance_nonneg p blank (records Tᶜ)
  induction n with
  | zero =>
    intro k
    rw [counted_zero]
    cases k <;> simp
  | succ n ih =>
    intro k
    cases k with
    | zero =>
      rw [counted_none, (law p blank_fit hm _ (counted_measurable T n 0)).1, ih, ← ENNReal.ofReal_mul hb]
      congr 1
      simp [pow_succ']
    | succ k =>
      have hd : Disjoint (wellSet p blank T (counted p T n k)) (wellSet p blank Tᶜ (counted p T n (k + 1))) := by
        rw [Set.disjoint_left]
        rintro r ⟨es, δ, e1, h1, _⟩ ⟨es', δ', e2, h2, _⟩
        rw [e1] at e2
        cases e2
        exact h2 h1
      rw [counted_succ, measure_union hd (measurable_sets p blank _ (counted_measurable T n (k + 1))).1,
        (law p blank_fit hm _ (counted_measurable T n k)).1, (law p blank_fit hm _ (counted_measurable T n (k + 1))).1,
        ih, ih, ← ENNReal.ofReal_mul hb, ← ENNReal.ofReal_mul ha, ← ENNReal.ofReal_add (by positivity) (by positivity)]
      congr 1
      rw [Nat.choose_succ_succ, Nat.add_sub_add_right]
      rcases Nat.lt_or_ge n (k + 1) with h | h
      · rw [Nat.choose_eq_zero_of_lt h]
        push_cast
        ring
      · obtain ⟨m, rfl⟩ := Nat.exists_eq_add_of_le h
        rw [show k + 1 + m - k = m + 1 by omega, show k + 1 + m - (k + 1) = m by omega]
        push_cast
        ring

/-! ### How far from the probability -/

open Classical in
/-- The indicator of a recording. -/
def hit (p : Prog QCall QAns) (T : Set (List Event)) (i : ℕ) (r : ℕ → ℝ) : ℝ := if shot p i r ∈ T then 1 else 0

theorem hit_eq (T : Set (List Event)) (i : ℕ) : hit p T i = Set.indicator {r | shot p i r ∈ T} fun _ => 1 := by
  classical
  funext r
  by_cases h : shot p i r ∈ T <;> simp [hit, h]

theorem hit_ae (hm : ∀ r, InUnit r → Meaningful p (Device.init r)) (h1 : chance p blank (records Set.univ) = 1)
    (T : Set (List Event)) (i : ℕ) : AEMeasurable (hit p T i) streams := by
  rw [hit_eq]
  exact aemeasurable_const.indicator₀ (shot_one hm h1 i T).1

theorem hit_mean (hm : ∀ r, InUnit r → Meaningful p (Device.init r)) (h1 : chance p blank (records Set.univ) = 1)
    (T : Set (List Event)) (i : ℕ) : ∫ r, hit p T i r ∂streams = chance p blank (records T) := by
  rw [hit_eq, integral_indicator₀ (shot_one hm h1 i T).1, setIntegral_const, Measure.real, (shot_one hm h1 i T).2,
    ENNReal.toReal_ofReal (chance_nonneg _ _ _), smul_eq_mul, mul_one]

theorem hit_indep (hm : ∀ r, InUnit r → Meaningful p (Device.init r)) (h1 : chance p blank (records Set.univ) = 1)
    (T : Set (List Event)) : ProbabilityTheory.iIndepFun (hit p T) streams := by
  classical
  rw [ProbabilityTheory.iIndepFun_iff_measure_inter_preimage_eq_mul]
  intro S sets _
  let g : List Event → ℝ := fun es => if es ∈ T then 1 else 0
  have hpre : ∀ i, hit p T i ⁻¹' sets i = {r | shot p i r ∈ g ⁻¹' sets i} := fun _ => rfl
  let F : ℕ → Set (List Event) := fun i => if i ∈ S then g ⁻¹' sets i else Set.univ
  obtain ⟨n, hn⟩ : ∃ n, S ⊆ Finset.range n := ⟨S.sup id + 1, fun i hi => by
    have := Finset.le_sup (f := id) hi
    simp only [id_eq] at this
    rw [Finset.mem_range]; omega⟩
  have h := (shot_law hm h1 n F).2
  have hs : {r | ∀ i < n, shot p i r ∈ F i} = ⋂ i ∈ S, hit p T i ⁻¹' sets i := by
    ext r
    simp only [Set.mem_ofPred_eq, Set.mem_iInter, hpre]
    constructor
    · intro h i hi
      have := h i (Finset.mem_range.1 (hn hi))
      simpa [F, hi] using this
    · intro h i _
      by_cases hi : i ∈ S
      · simpa [F, hi] using h i hi
      · simp [F, hi]
  rw [← hs, h, ← Finset.prod_subset hn]
  · refine Finset.prod_congr rfl fun i hi => ?_
    rw [hpre, (shot_one hm h1 i _).2]
    simp [F, hi]
  · intro i _ hi
    simp [F, hi, h1]

open ProbabilityTheory in
/-- Hoeffding's inequality for the shots. -/
theorem hits_tail (hm : ∀ r, InUnit r → Meaningful p (Device.init r)) (h1 : chance p blank (records Set.univ) = 1)
    (T : Set (List Event)) (n : ℕ) {t : ℝ} (ht : 0 ≤ t) :
    streams.real {r | n * t ≤ |∑ i ∈ Finset.range n, hit p T i r - n * chance p blank (records T)|} ≤
      2 * Real.exp (-2 * n * t ^ 2) := by
  rcases Nat.eq_zero_or_pos n with rfl | hn
  · have : streams.real {r | ((0 : ℕ) : ℝ) * t ≤ |∑ i ∈ Finset.range 0, hit p T i r - ((0 : ℕ) : ℝ) * chance p blank (records T)|} ≤ 1 :=
      measureReal_le_one
    refine this.trans ?_
    simp
  set c := chance p blank (records T) with hc
  have hsub : ∀ i, HasSubgaussianMGF (fun r => hit p T i r - c) ((‖(1 : ℝ) - 0‖₊ / 2) ^ 2) streams := by
    intro i
    have := hasSubgaussianMGF_of_mem_Icc (a := 0) (b := 1) (hit_ae hm h1 T i)
      (.of_forall fun r => by unfold hit; split <;> simp)
    rwa [hit_mean hm h1] at this
  have hind : iIndepFun (fun i r => hit p T i r - c) streams :=
    (hit_indep hm h1 T).comp (fun _ x => x - c) fun _ => by fun_prop
  have hind' : iIndepFun (fun i r => -(hit p T i r - c)) streams :=
    (hit_indep hm h1 T).comp (fun _ x => -(x - c)) fun _ => by fun_prop
  have hε : 0 ≤ n * t := by positivity
  have up := HasSubgaussianMGF.measure_sum_range_ge_le_of_iIndepFun hind (n := n) (fun i _ => hsub i) hε
  have dn := HasSubgaussianMGF.measure_sum_range_ge_le_of_iIndepFun hind' (n := n) (fun i _ => (hsub i).neg) hε
  have he : Real.exp (-(n * t) ^ 2 / (2 * n * (((‖(1 : ℝ) - 0‖₊ / 2) ^ 2 : NNReal) : ℝ))) = Real.exp (-2 * n * t ^ 2) := by
    congr 1
    have : (n : ℝ) ≠ 0 := by positivity
    push_cast
    simp
    field_simp
  rw [he] at up dn
  have hs : {r | n * t ≤ |∑ i ∈ Finset.range n, hit p T i r - n * c|} ⊆
      {r | n * t ≤ ∑ i ∈ Finset.range n, (hit p T i r - c)} ∪
        {r | n * t ≤ ∑ i ∈ Finset.range n, -(hit p T i r - c)} := by
    intro r hr
    simp only [Set.mem_ofPred_eq, Set.mem_union, Finset.sum_neg_distrib, Finset.sum_sub_distrib, Finset.sum_const,
      Finset.card_range, nsmul_eq_mul] at hr ⊢
    exact le_abs.1 hr
  refine (measureReal_mono hs).trans ((measureReal_union_le _ _).trans ?_)
  linarith

end Qir.Back.Samp
