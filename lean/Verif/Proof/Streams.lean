import Verif.Props.ChanceDefs

/-!
# Streams of independent uniform samples
-/

noncomputable section
namespace Qir.Back
open MeasureTheory Set

/-- Put a sample in front. -/
def cons (x : ℝ) (r : ℕ → ℝ) : ℕ → ℝ
  | 0 => x
  | n + 1 => r n

/-- Drop the first sample. -/
def tail (r : ℕ → ℝ) : ℕ → ℝ := fun n => r (n + 1)

@[simp] theorem cons_zero (x : ℝ) (r : ℕ → ℝ) : cons x r 0 = x := rfl
@[simp] theorem cons_succ (x : ℝ) (r : ℕ → ℝ) (n : ℕ) : cons x r (n + 1) = r n := rfl
@[simp] theorem tail_cons (x : ℝ) (r : ℕ → ℝ) : tail (cons x r) = r := rfl

theorem measurable_cons : Measurable fun z : ℝ × (ℕ → ℝ) => cons z.1 z.2 := by
  refine measurable_pi_lambda _ fun n => ?_
  cases n with
  | zero => exact measurable_fst
  | succ n => exact (measurable_pi_apply n).comp measurable_snd

theorem measurable_tail : Measurable tail := measurable_pi_lambda _ fun n => measurable_pi_apply (n + 1)

theorem streams_cons : (uniform.prod streams).map (fun z => cons z.1 z.2) = streams := by
  refine Measure.eq_infinitePi _ fun s t ht => ?_
  classical
  obtain ⟨N, hN⟩ : ∃ N, s ⊆ Finset.range (N + 1) :=
    ⟨s.sup id, fun i hi => Finset.mem_range.2 (Nat.lt_succ_of_le (Finset.le_sup (f := id) hi))⟩
  set t' : ℕ → Set ℝ := fun i => if i ∈ s then t i else univ with ht'
  have hm : ∀ i, MeasurableSet (t' i) := by
    intro i
    by_cases h : i ∈ s
    · simp only [ht', if_pos h]; exact ht i
    · simp only [ht', if_neg h]; exact MeasurableSet.univ
  have hpi : (s : Set ℕ).pi t = (Finset.range (N + 1) : Set ℕ).pi t' := by
    ext r
    simp only [mem_pi, Finset.mem_coe, ht']
    constructor
    · intro h i _
      split
      · exact h i ‹_›
      · trivial
    · intro h i hi
      have := h i (hN hi)
      rwa [if_pos hi] at this
  have hprod : ∏ i ∈ s, uniform (t i) = ∏ i ∈ Finset.range (N + 1), uniform (t' i) := by
    rw [← Finset.prod_subset hN (f := fun i => uniform (t' i))]
    · exact Finset.prod_congr rfl fun i hi => by simp only [ht', if_pos hi]
    · intro i _ hi
      simp only [ht', if_neg hi, measure_univ]
  rw [hpi, hprod, Measure.map_apply measurable_cons (MeasurableSet.pi (Finset.countable_toSet _) fun i _ => hm i)]
  have hpre : (fun z : ℝ × (ℕ → ℝ) => cons z.1 z.2) ⁻¹' (Finset.range (N + 1) : Set ℕ).pi t' =
      t' 0 ×ˢ (Finset.range N : Set ℕ).pi (fun i => t' (i + 1)) := by
    ext ⟨x, r⟩
    simp only [mem_preimage, mem_pi, Finset.coe_range, mem_Iio, mem_prod]
    constructor
    · intro h
      exact ⟨h 0 (Nat.succ_pos _), fun i hi => h (i + 1) (by omega)⟩
    · rintro ⟨h0, h1⟩ i hi
      cases i with
      | zero => exact h0
      | succ i => exact h1 i (by omega)
  rw [hpre, Measure.prod_prod, Finset.prod_range_succ', mul_comm]
  congr 1
  exact Measure.infinitePi_pi _ fun i _ => hm (i + 1)

theorem uniform_lt {p : ℝ} (h1 : p ≤ 1) : uniform {x | x < p} = ENNReal.ofReal p := by
  unfold uniform
  rw [Measure.restrict_apply (show MeasurableSet {x : ℝ | x < p} from measurableSet_Iio)]
  have : {x : ℝ | x < p} ∩ Ico 0 1 = Ico 0 p := by
    ext x
    constructor
    · rintro ⟨a, b, c⟩; exact ⟨b, a⟩
    · rintro ⟨a, b⟩; exact ⟨b, a, lt_of_lt_of_le b h1⟩
  rw [this, Real.volume_Ico, sub_zero]

theorem uniform_ge {p : ℝ} (h0 : 0 ≤ p) (h1 : p ≤ 1) : uniform {x | ¬ x < p} = ENNReal.ofReal (1 - p) := by
  have : {x : ℝ | ¬ x < p} = {x | x < p}ᶜ := rfl
  rw [this, prob_compl_eq_one_sub (show MeasurableSet {x : ℝ | x < p} from measurableSet_Iio), uniform_lt h1, ENNReal.ofReal_sub _ h0, ENNReal.ofReal_one]

/-- The first sample decides, the rest goes on. -/
theorem streams_split {p : ℝ} (h0 : 0 ≤ p) (h1 : p ≤ 1) {X Y : Set (ℕ → ℝ)} (hX : MeasurableSet X)
    (hY : MeasurableSet Y) : streams {r | if r 0 < p then tail r ∈ X else tail r ∈ Y} =
      ENNReal.ofReal p * streams X + ENNReal.ofReal (1 - p) * streams Y := by
  have hs : {r : ℕ → ℝ | if r 0 < p then tail r ∈ X else tail r ∈ Y} =
      ((fun r : ℕ → ℝ => r 0) ⁻¹' {x | x < p} ∩ tail ⁻¹' X) ∪
        ((fun r : ℕ → ℝ => r 0) ⁻¹' {x | ¬ x < p} ∩ tail ⁻¹' Y) := by
    ext r
    by_cases h : r 0 < p <;> simp [h, -not_lt]
  have m1 : MeasurableSet ((fun r : ℕ → ℝ => r 0) ⁻¹' {x | x < p} ∩ tail ⁻¹' X) :=
    (measurable_pi_apply 0 measurableSet_Iio).inter (measurable_tail hX)
  have m2 : MeasurableSet ((fun r : ℕ → ℝ => r 0) ⁻¹' {x | ¬ x < p} ∩ tail ⁻¹' Y) :=
    (measurable_pi_apply 0 measurableSet_Iio.compl).inter (measurable_tail hY)
  rw [hs, measure_union (Disjoint.inter_left _ (Disjoint.inter_right _ ?_)) m2]
  · congr 1
    · rw [← streams_cons, Measure.map_apply measurable_cons m1]
      have : (fun z : ℝ × (ℕ → ℝ) => cons z.1 z.2) ⁻¹'
          ((fun r : ℕ → ℝ => r 0) ⁻¹' {x | x < p} ∩ tail ⁻¹' X) = {x | x < p} ×ˢ X := by
        ext ⟨x, r⟩; simp
      rw [this, Measure.prod_prod, uniform_lt h1, streams_cons]
    · rw [← streams_cons, Measure.map_apply measurable_cons m2]
      have : (fun z : ℝ × (ℕ → ℝ) => cons z.1 z.2) ⁻¹'
          ((fun r : ℕ → ℝ => r 0) ⁻¹' {x | ¬ x < p} ∩ tail ⁻¹' Y) = {x | ¬ x < p} ×ˢ Y := by
        ext ⟨x, r⟩; simp
      rw [this, Measure.prod_prod, uniform_ge h0 h1, streams_cons]
  · rw [Set.disjoint_left]
    intro r a b
    exact b a

theorem measurable_split {p : ℝ} {X Y : Set (ℕ → ℝ)} (hX : MeasurableSet X) (hY : MeasurableSet Y) :
    MeasurableSet {r : ℕ → ℝ | if r 0 < p then tail r ∈ X else tail r ∈ Y} := by
  have hs : {r : ℕ → ℝ | if r 0 < p then tail r ∈ X else tail r ∈ Y} =
      ((fun r : ℕ → ℝ => r 0) ⁻¹' {x | x < p} ∩ tail ⁻¹' X) ∪
        ((fun r : ℕ → ℝ => r 0) ⁻¹' {x | ¬ x < p} ∩ tail ⁻¹' Y) := by
    ext r
    by_cases h : r 0 < p <;> simp [h, -not_lt]
  rw [hs]
  exact ((measurable_pi_apply 0 measurableSet_Iio).inter (measurable_tail hX)).union
    ((measurable_pi_apply 0 measurableSet_Iio.compl).inter (measurable_tail hY))

/-- Almost every stream stays in the unit interval. -/
theorem streams_unit : ∀ᵐ r ∂streams, ∀ n, 0 ≤ r n ∧ r n < 1 := by
  rw [ae_all_iff]
  intro n
  have h := Measure.infinitePi_map_eval (fun _ : ℕ => uniform) n
  have h2 : ∀ᵐ x ∂uniform, 0 ≤ x ∧ x < 1 := by
    unfold uniform
    exact ae_restrict_mem measurableSet_Ico
  rw [← h] at h2
  exact ae_of_ae_map (measurable_pi_apply n).aemeasurable h2

end Qir.Back
