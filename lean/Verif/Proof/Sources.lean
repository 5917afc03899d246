import Verif.Props.OddsDefs
import Verif.Proof.Streams

/-!
# The two sources of randomness
-/

noncomputable section
namespace Qir.Back
open MeasureTheory Set

/-- Put a word in front. -/
def consW (x : ℕ) (r : ℕ → ℕ) : ℕ → ℕ
  | 0 => x
  | n + 1 => r n

/-- Drop the first word. -/
def tailW (r : ℕ → ℕ) : ℕ → ℕ := fun n => r (n + 1)

@[simp] theorem consW_zero (x : ℕ) (r : ℕ → ℕ) : consW x r 0 = x := rfl
@[simp] theorem tailW_consW (x : ℕ) (r : ℕ → ℕ) : tailW (consW x r) = r := rfl

theorem measurable_consW : Measurable fun z : ℕ × (ℕ → ℕ) => consW z.1 z.2 := by
  refine measurable_pi_lambda _ fun n => ?_
  cases n with
  | zero => exact measurable_fst
  | succ n => exact (measurable_pi_apply n).comp measurable_snd

theorem measurable_tailW : Measurable tailW := measurable_pi_lambda _ fun n => measurable_pi_apply (n + 1)

theorem infinitePi_cons (μ : Measure ℕ) [IsProbabilityMeasure μ] :
    (μ.prod (Measure.infinitePi fun _ : ℕ => μ)).map (fun z => consW z.1 z.2) = Measure.infinitePi fun _ : ℕ => μ := by
  refine Measure.eq_infinitePi _ fun s t ht => ?_
  classical
  obtain ⟨N, hN⟩ : ∃ N, s ⊆ Finset.range (N + 1) :=
    ⟨s.sup id, fun i hi => Finset.mem_range.2 (Nat.lt_succ_of_le (Finset.le_sup (f := id) hi))⟩
  set t' : ℕ → Set ℕ := fun i => if i ∈ s then t i else univ with ht'
  have hpi : (s : Set ℕ).pi t = (Finset.range (N + 1) : Set ℕ).pi t' := by
    ext r
    simp only [mem_pi, Finset.mem_coe, ht']
    constructor
    · intro h i _
      split
      · exact h i ‹_›
      · trivial
    · intro h i hi
      have := h i (hN hi)
      rwa [if_pos hi] at this
  have hprod : ∏ i ∈ s, μ (t i) = ∏ i ∈ Finset.range (N + 1), μ (t' i) := by
    rw [← Finset.prod_subset hN (f := fun i => μ (t' i))]
    · exact Finset.prod_congr rfl fun i hi => by simp only [ht', if_pos hi]
    · intro i _ hi
      simp only [ht', if_neg hi, measure_univ]
  rw [hpi, hprod, Measure.map_apply measurable_consW
    (MeasurableSet.pi (Finset.countable_toSet _) fun i _ => MeasurableSet.of_discrete)]
  have hpre : (fun z : ℕ × (ℕ → ℕ) => consW z.1 z.2) ⁻¹' (Finset.range (N + 1) : Set ℕ).pi t' =
      t' 0 ×ˢ (Finset.range N : Set ℕ).pi (fun i => t' (i + 1)) := by
    ext ⟨x, r⟩
    simp only [mem_preimage, mem_pi, Finset.coe_range, mem_Iio, mem_prod]
    constructor
    · intro h
      exact ⟨h 0 (Nat.succ_pos _), fun i hi => h (i + 1) (by omega)⟩
    · rintro ⟨h0, h1⟩ i hi
      cases i with
      | zero => exact h0
      | succ i => exact h1 i (by omega)
  rw [hpre, Measure.prod_prod, Finset.prod_range_succ', mul_comm]
  congr 1
  exact Measure.infinitePi_pi _ fun i _ => MeasurableSet.of_discrete

theorem wordStreams_cons : (word.prod wordStreams).map (fun z => consW z.1 z.2) = wordStreams := infinitePi_cons word

theorem lintegral_evenly (n : ℕ) (f : ℕ → ENNReal) :
    ∫⁻ x, f x ∂(evenly n) = ∑ w ∈ Finset.range n, (n : ENNReal)⁻¹ * f w := by
  unfold evenly
  rw [lintegral_finsetSum_measure]
  refine Finset.sum_congr rfl fun w _ => ?_
  rw [lintegral_smul_measure, lintegral_dirac, smul_eq_mul]

theorem lintegral_word (f : ℕ → ENNReal) :
    ∫⁻ x, f x ∂word = ∑ w ∈ Finset.range Std.words, (Std.words : ENNReal)⁻¹ * f w := lintegral_evenly _ f

/-- What depends on the first word and the rest. -/
theorem wordStreams_split {X : ℕ → Set (ℕ → ℕ)} (hX : ∀ w, MeasurableSet (X w)) :
    wordStreams {os | tailW os ∈ X (os 0)} =
      ∑ w ∈ Finset.range Std.words, (Std.words : ENNReal)⁻¹ * wordStreams (X w) := by
  have hm : MeasurableSet {os : ℕ → ℕ | tailW os ∈ X (os 0)} := by
    have : {os : ℕ → ℕ | tailW os ∈ X (os 0)} = ⋃ w, ((fun os : ℕ → ℕ => os 0) ⁻¹' {w}) ∩ tailW ⁻¹' X w := by
      ext os; simp
    rw [this]
    exact MeasurableSet.iUnion fun w => (measurable_pi_apply 0 MeasurableSet.of_discrete).inter (measurable_tailW (hX w))
  rw [← wordStreams_cons, Measure.map_apply measurable_consW hm, Measure.prod_apply (measurable_consW hm),
    lintegral_word, wordStreams_cons]
  rfl

/-! ### Both sources -/

theorem measurable_measured {p : ℝ} {X Y : Set ((ℕ → ℝ) × (ℕ → ℕ))} (hX : MeasurableSet X) (hY : MeasurableSet Y) :
    MeasurableSet {ω : (ℕ → ℝ) × (ℕ → ℕ) | if ω.1 0 < p then (tail ω.1, ω.2) ∈ X else (tail ω.1, ω.2) ∈ Y} := by
  have ht : Measurable fun ω : (ℕ → ℝ) × (ℕ → ℕ) => (tail ω.1, ω.2) :=
    (measurable_tail.comp measurable_fst).prodMk measurable_snd
  have h0 : Measurable fun ω : (ℕ → ℝ) × (ℕ → ℕ) => ω.1 0 := (measurable_pi_apply 0).comp measurable_fst
  have hs : {ω : (ℕ → ℝ) × (ℕ → ℕ) | if ω.1 0 < p then (tail ω.1, ω.2) ∈ X else (tail ω.1, ω.2) ∈ Y} =
      ((fun ω => ω.1 0) ⁻¹' {x | x < p} ∩ (fun ω => (tail ω.1, ω.2)) ⁻¹' X) ∪
        ((fun ω => ω.1 0) ⁻¹' {x | ¬ x < p} ∩ (fun ω => (tail ω.1, ω.2)) ⁻¹' Y) := by
    ext ω
    by_cases h : ω.1 0 < p <;> simp [h, -not_lt]
  rw [hs]
  exact ((h0 measurableSet_Iio).inter (ht hX)).union ((h0 measurableSet_Iio.compl).inter (ht hY))

/-- A measurement: the first sample decides, the rest goes on. -/
theorem sources_measured {p : ℝ} (h0 : 0 ≤ p) (h1 : p ≤ 1) {X Y : Set ((ℕ → ℝ) × (ℕ → ℕ))} (hX : MeasurableSet X)
    (hY : MeasurableSet Y) :
    sources {ω | if ω.1 0 < p then (tail ω.1, ω.2) ∈ X else (tail ω.1, ω.2) ∈ Y} =
      ENNReal.ofReal p * sources X + ENNReal.ofReal (1 - p) * sources Y := by
  unfold sources
  rw [Measure.prod_apply_symm (measurable_measured hX hY), Measure.prod_apply_symm hX, Measure.prod_apply_symm hY,
    ← lintegral_const_mul _ (measurable_measure_prodMk_right hX), ← lintegral_const_mul _ (measurable_measure_prodMk_right hY),
    ← lintegral_add_left ((measurable_measure_prodMk_right hX).const_mul _)]
  refine lintegral_congr fun os => ?_
  exact streams_split h0 h1 (measurable_prodMk_right hX) (measurable_prodMk_right hY)

theorem measurable_worded {X : ℕ → Set ((ℕ → ℝ) × (ℕ → ℕ))} (hX : ∀ w, MeasurableSet (X w)) :
    MeasurableSet {ω : (ℕ → ℝ) × (ℕ → ℕ) | (ω.1, tailW ω.2) ∈ X (ω.2 0)} := by
  have ht : Measurable fun ω : (ℕ → ℝ) × (ℕ → ℕ) => (ω.1, tailW ω.2) :=
    measurable_fst.prodMk (measurable_tailW.comp measurable_snd)
  have h0 : Measurable fun ω : (ℕ → ℝ) × (ℕ → ℕ) => ω.2 0 := (measurable_pi_apply 0).comp measurable_snd
  have hs : {ω : (ℕ → ℝ) × (ℕ → ℕ) | (ω.1, tailW ω.2) ∈ X (ω.2 0)} =
      ⋃ w, ((fun ω => ω.2 0) ⁻¹' {w}) ∩ (fun ω => (ω.1, tailW ω.2)) ⁻¹' X w := by
    ext ω; simp
  rw [hs]
  exact MeasurableSet.iUnion fun w => (h0 MeasurableSet.of_discrete).inter (ht (hX w))

/-- The first word is used, the rest goes on. -/
theorem sources_worded {X : ℕ → Set ((ℕ → ℝ) × (ℕ → ℕ))} (hX : ∀ w, MeasurableSet (X w)) :
    sources {ω | (ω.1, tailW ω.2) ∈ X (ω.2 0)} =
      ∑ w ∈ Finset.range Std.words, (Std.words : ENNReal)⁻¹ * sources (X w) := by
  unfold sources
  rw [Measure.prod_apply (measurable_worded hX)]
  have : ∀ r : ℕ → ℝ, wordStreams (Prod.mk r ⁻¹' {ω | (ω.1, tailW ω.2) ∈ X (ω.2 0)}) =
      ∑ w ∈ Finset.range Std.words, (Std.words : ENNReal)⁻¹ * wordStreams (Prod.mk r ⁻¹' X w) := fun r =>
    wordStreams_split fun w => measurable_prodMk_left (hX w)
  simp only [this]
  rw [lintegral_finsetSum _ fun w _ => (measurable_measure_prodMk_left (hX w)).const_mul _]
  refine Finset.sum_congr rfl fun w _ => ?_
  rw [lintegral_const_mul _ (measurable_measure_prodMk_left (hX w)), Measure.prod_apply (hX w)]

theorem measurable_twice {X : ℕ → ℕ → Set ((ℕ → ℝ) × (ℕ → ℕ))} (hX : ∀ v w, MeasurableSet (X v w)) :
    MeasurableSet {ω : (ℕ → ℝ) × (ℕ → ℕ) | (ω.1, tailW (tailW ω.2)) ∈ X (ω.2 0) (ω.2 1)} :=
  measurable_worded (X := fun v => {ω | (ω.1, tailW ω.2) ∈ X v (ω.2 0)}) fun v => measurable_worded (hX v)

/-- Two words are used. -/
theorem sources_twice {X : ℕ → ℕ → Set ((ℕ → ℝ) × (ℕ → ℕ))} (hX : ∀ v w, MeasurableSet (X v w)) :
    sources {ω | (ω.1, tailW (tailW ω.2)) ∈ X (ω.2 0) (ω.2 1)} =
      ∑ v ∈ Finset.range Std.words, ∑ w ∈ Finset.range Std.words,
        ((Std.words : ENNReal)⁻¹ * (Std.words : ENNReal)⁻¹) * sources (X v w) := by
  have h := sources_worded (X := fun v => {ω | (ω.1, tailW ω.2) ∈ X v (ω.2 0)}) fun v => measurable_worded (hX v)
  refine Eq.trans h (Finset.sum_congr rfl fun v _ => ?_)
  rw [sources_worded (hX v), Finset.mul_sum]
  exact Finset.sum_congr rfl fun w _ => (mul_assoc _ _ _).symm

theorem evenly_lt (n : ℕ) : ∀ᵐ x ∂(evenly n), x < n := by
  rw [ae_iff]
  have e : evenly n {a | ¬ a < n} = ∫⁻ x, {a : ℕ | ¬ a < n}.indicator 1 x ∂(evenly n) := by
    rw [lintegral_indicator_one MeasurableSet.of_discrete]
  rw [e, lintegral_evenly]
  refine Finset.sum_eq_zero fun w hw => ?_
  rw [Set.indicator_of_notMem (by simpa using hw), mul_zero]

/-- Almost all sources have samples in the unit interval and words that are words. -/
theorem sources_good : ∀ᵐ ω ∂sources, InUnit ω.1 ∧ ∀ n, ω.2 n < Std.words := by
  have h1 : ∀ᵐ ω ∂sources, InUnit ω.1 := by
    unfold sources
    exact Measure.quasiMeasurePreserving_fst.ae streams_unit
  have h2 : ∀ᵐ ω ∂sources, ∀ n, ω.2 n < Std.words := by
    unfold sources
    refine Measure.quasiMeasurePreserving_snd.ae (p := fun os : ℕ → ℕ => ∀ n, os n < Std.words) ?_
    rw [ae_all_iff]
    intro n
    have h := Measure.infinitePi_map_eval (fun _ : ℕ => word) n
    have h2 : ∀ᵐ x ∂word, x < Std.words := evenly_lt _
    rw [← h] at h2
    exact ae_of_ae_map (measurable_pi_apply n).aemeasurable h2
  filter_upwards [h1, h2] with ω a b
  exact ⟨a, b⟩

end Qir.Back
