import Verif.Proof.Binomial

/-!
# Counting outputs whose sequences have product probabilities: the lemmas for C95 with rounding
-/

noncomputable section
namespace Qir.Tally
open MeasureTheory

variable {Ω E F : Type*} (X : ℕ → Ω → Except F (List E))

/-- The outputs are in the given sets. -/
def inSets (Bs : List (Set E)) : Set Ω := {r | ∃ outs, X Bs.length r = .ok outs ∧ List.Forall₂ (· ∈ ·) outs Bs}

open Classical in
/-- The first outputs are in the given sets, and of the `n` others exactly `k` are in `B`. -/
def tallied (B : Set E) (Bs : List (Set E)) (n k : ℕ) : Set Ω := {r | ∃ o₁ o₂, X (Bs.length + n) r = .ok (o₁ ++ o₂) ∧
  List.Forall₂ (· ∈ ·) o₁ Bs ∧ o₂.length = n ∧ o₂.countP (· ∈ B) = k}

theorem tallied_zero (B : Set E) (Bs : List (Set E)) (k : ℕ) :
    tallied X B Bs 0 k = if k = 0 then inSets X Bs else ∅ := by
  ext r
  simp only [tallied, inSets, Nat.add_zero, Set.mem_ofPred_eq, List.length_eq_zero_iff]
  split
  · next h =>
    subst h
    constructor
    · rintro ⟨o₁, o₂, e, h, rfl, _⟩
      exact ⟨o₁, by simpa using e, h⟩
    · rintro ⟨o, e, h⟩
      exact ⟨o, [], by simpa using e, h, rfl, rfl⟩
  · next h =>
    simp only [Set.mem_empty_iff_false, iff_false]
    rintro ⟨o₁, o₂, _, _, rfl, e⟩
    exact h (by simpa using e.symm)

theorem forall₂_snoc {R : E → Set E → Prop} {C : Set E} : ∀ {Bs : List (Set E)} {l : List E},
    List.Forall₂ R l (Bs ++ [C]) → ∃ o x, l = o ++ [x] ∧ List.Forall₂ R o Bs ∧ R x C := by
  intro Bs
  induction Bs with
  | nil =>
    intro l h
    obtain ⟨x, l', hx, h', rfl⟩ := List.forall₂_cons_right_iff.1 h
    cases h'
    exact ⟨[], x, rfl, .nil, hx⟩
  | cons B Bs ih =>
    intro l h
    obtain ⟨y, l', hy, h', rfl⟩ := List.forall₂_cons_right_iff.1 h
    obtain ⟨o, x, rfl, ho, hx⟩ := ih h'
    exact ⟨y :: o, x, rfl, .cons hy ho, hx⟩

open Classical in
theorem tallied_next {B C : Set E} {Bs : List (Set E)} {n k : ℕ} {r : Ω} : r ∈ tallied X B (Bs ++ [C]) n k ↔
    ∃ o₁ x o₂, X (Bs.length + (n + 1)) r = .ok (o₁ ++ x :: o₂) ∧ List.Forall₂ (· ∈ ·) o₁ Bs ∧ x ∈ C ∧ o₂.length = n ∧
      o₂.countP (· ∈ B) = k := by
  simp only [tallied, Set.mem_ofPred_eq, List.length_append, List.length_singleton]
  rw [show Bs.length + 1 + n = Bs.length + (n + 1) by omega]
  constructor
  · rintro ⟨o₁, o₂, e, h, hl, hc⟩
    obtain ⟨o, x, rfl, ho, hx⟩ := forall₂_snoc h
    exact ⟨o, x, o₂, by simpa using e, ho, hx, hl, hc⟩
  · rintro ⟨o₁, x, o₂, e, h, hx, hl, hc⟩
    exact ⟨o₁ ++ [x], o₂, by simpa using e, List.rel_append h (.cons hx .nil), hl, hc⟩

open Classical in
theorem tallied_some {B : Set E} {Bs : List (Set E)} {n k : ℕ} {r : Ω} : r ∈ tallied X B Bs (n + 1) k ↔
    ∃ o₁ x o₂, X (Bs.length + (n + 1)) r = .ok (o₁ ++ x :: o₂) ∧ List.Forall₂ (· ∈ ·) o₁ Bs ∧ o₂.length = n ∧
      (x :: o₂).countP (· ∈ B) = k := by
  simp only [tallied, Set.mem_ofPred_eq]
  constructor
  · rintro ⟨o₁, o₂, e, h, hl, hc⟩
    obtain ⟨x, o₂, rfl⟩ := List.exists_cons_of_length_eq_add_one hl
    exact ⟨o₁, x, o₂, e, h, by simpa using hl, hc⟩
  · rintro ⟨o₁, x, o₂, e, h, hl, hc⟩
    exact ⟨o₁, x :: o₂, e, h, by simpa using hl, hc⟩

theorem tallied_succ (B : Set E) (Bs : List (Set E)) (n k : ℕ) : tallied X B Bs (n + 1) (k + 1) =
    tallied X B (Bs ++ [B]) n k ∪ tallied X B (Bs ++ [Bᶜ]) n (k + 1) := by
  classical
  ext r
  rw [Set.mem_union, tallied_some, tallied_next, tallied_next]
  constructor
  · rintro ⟨o₁, x, o₂, e, h, hl, hc⟩
    by_cases hx : x ∈ B
    · exact .inl ⟨o₁, x, o₂, e, h, hx, hl, by simpa [List.countP_cons, hx] using hc⟩
    · exact .inr ⟨o₁, x, o₂, e, h, hx, hl, by simpa [List.countP_cons, hx] using hc⟩
  · rintro (⟨o₁, x, o₂, e, h, hx, hl, hc⟩ | ⟨o₁, x, o₂, e, h, hx, hl, hc⟩)
    · exact ⟨o₁, x, o₂, e, h, hl, by simpa [List.countP_cons, hx] using hc⟩
    · have hx : x ∉ B := hx
      exact ⟨o₁, x, o₂, e, h, hl, by simpa [List.countP_cons, hx] using hc⟩

theorem tallied_none (B : Set E) (Bs : List (Set E)) (n : ℕ) : tallied X B Bs (n + 1) 0 =
    tallied X B (Bs ++ [Bᶜ]) n 0 := by
  classical
  ext r
  rw [tallied_some, tallied_next]
  constructor
  · rintro ⟨o₁, x, o₂, e, h, hl, hc⟩
    by_cases hx : x ∈ B
    · simp [hx] at hc
    · exact ⟨o₁, x, o₂, e, h, hx, hl, by simpa [List.countP_cons, hx] using hc⟩
  · rintro ⟨o₁, x, o₂, e, h, hx, hl, hc⟩
    have hx : x ∉ B := hx
    exact ⟨o₁, x, o₂, e, h, hl, by simpa [List.countP_cons, hx] using hc⟩

theorem tallied_disjoint (B : Set E) (Bs : List (Set E)) (n k k' : ℕ) :
    Disjoint (tallied X B (Bs ++ [B]) n k) (tallied X B (Bs ++ [Bᶜ]) n k') := by
  classical
  rw [Set.disjoint_left]
  intro r h1 h2
  obtain ⟨o₁, x, o₂, e, h, hx, _⟩ := (tallied_next X).1 h1
  obtain ⟨o₁', x', o₂', e', h', hx', _⟩ := (tallied_next X).1 h2
  rw [e] at e'
  have h3 := Except.ok.inj e'
  have h4 := List.append_inj h3 (h.length_eq.trans h'.length_eq.symm)
  have h5 := (List.cons.inj h4.2).1
  exact hx' (h5 ▸ hx)

variable {X} {P : Set E → ℝ}

section
variable [MeasurableSpace Ω] {μ : Measure Ω}

theorem tallied_law (hX : ∀ Bs, MeasurableSet (inSets X Bs) ∧
    μ (inSets X Bs) = (Bs.map fun B => ENNReal.ofReal (P B)).prod) (hP : ∀ B, 0 ≤ P B) (B : Set E) (n : ℕ) :
    ∀ k Bs, MeasurableSet (tallied X B Bs n k) ∧ μ (tallied X B Bs n k) =
      (Bs.map fun B => ENNReal.ofReal (P B)).prod * ENNReal.ofReal (n.choose k * P B ^ k * P Bᶜ ^ (n - k)) := by
  have ha := hP B
  have hb := hP Bᶜ
  induction n with
  | zero =>
    intro k Bs
    rw [tallied_zero]
    cases k with
    | zero => simpa using hX Bs
    | succ k => simp
  | succ n ih =>
    intro k Bs
    cases k with
    | zero =>
      rw [tallied_none]
      refine ⟨(ih 0 _).1, ?_⟩
      rw [(ih 0 _).2, List.map_append, List.prod_append]
      simp only [List.map_singleton, List.prod_singleton]
      rw [mul_assoc, ← ENNReal.ofReal_mul hb]
      congr 2
      simp [pow_succ']
    | succ k =>
      rw [tallied_succ]
      refine ⟨(ih k _).1.union (ih (k + 1) _).1, ?_⟩
      rw [measure_union (tallied_disjoint X B Bs n k (k + 1)) (ih (k + 1) _).1, (ih k _).2, (ih (k + 1) _).2,
        List.map_append, List.prod_append, List.map_append, List.prod_append]
      simp only [List.map_singleton, List.prod_singleton]
      rw [mul_assoc _ (ENNReal.ofReal (P B)), mul_assoc _ (ENNReal.ofReal (P Bᶜ)), ← mul_add, ← ENNReal.ofReal_mul hb, ← ENNReal.ofReal_mul ha,
        ← ENNReal.ofReal_add (by positivity) (by positivity)]
      congr 2
      rw [Nat.choose_succ_succ, Nat.add_sub_add_right]
      rcases Nat.lt_or_ge n (k + 1) with h | h
      · rw [Nat.choose_eq_zero_of_lt h]
        push_cast
        ring
      · obtain ⟨m, rfl⟩ := Nat.exists_eq_add_of_le h
        rw [show k + 1 + m - k = m + 1 by omega, show k + 1 + m - (k + 1) = m by omega]
        push_cast
        ring

end

open Classical in
theorem tallied_nil (hl : ∀ n r outs, X n r = .ok outs → outs.length = n) (B : Set E) (n k : ℕ) :
    tallied X B [] n k = {r | ∃ outs, X n r = .ok outs ∧ outs.countP (· ∈ B) = k} := by
  ext r
  simp only [tallied, List.length_nil, Nat.zero_add, Set.mem_ofPred_eq]
  constructor
  · rintro ⟨o₁, o₂, e, h, _, hc⟩
    cases h
    exact ⟨o₂, e, hc⟩
  · rintro ⟨o, e, hc⟩
    exact ⟨[], o, e, .nil, hl _ _ _ e, hc⟩

theorem inSets_univ (hl : ∀ n r outs, X n r = .ok outs → outs.length = n) (n : ℕ) :
    inSets X (List.replicate n Set.univ) = {r | ∃ outs, X n r = .ok outs} := by
  ext r
  simp only [inSets, List.length_replicate, Set.mem_ofPred_eq]
  refine ⟨fun ⟨o, e, _⟩ => ⟨o, e⟩, fun ⟨o, e⟩ => ⟨o, e, ?_⟩⟩
  rw [List.forall₂_iff_get]
  exact ⟨by simpa using hl _ _ _ e, fun i h1 h2 => by simp⟩

variable [MeasurableSpace Ω] {μ : Measure Ω}

open Classical in
/-- The relative frequency is off by `t` or more, or something fails. -/
theorem off (hX : ∀ Bs, MeasurableSet (inSets X Bs) ∧
    μ (inSets X Bs) = (Bs.map fun B => ENNReal.ofReal (P B)).prod) (hP : ∀ B, 0 ≤ P B)
    (hl : ∀ n r outs, X n r = .ok outs → outs.length = n) [IsProbabilityMeasure μ] (B : Set E) {n : ℕ} (hn : 0 < n)
    {t : ℝ} (ht : 0 ≤ t) :
    μ.real {r | ¬ ∃ outs, X n r = .ok outs ∧ |(outs.countP (· ∈ B) : ℝ) / n - P B| < t} ≤
      2 * Real.exp (-2 * n * t ^ 2) + (1 - P Set.univ ^ n) := by
  have hab : P B + P Bᶜ ≤ 1 := by
    have h1 := tallied_law hX hP B 1 1 []
    have h0 := tallied_law hX hP B 1 0 []
    simp only [List.map_nil, List.prod_nil, one_mul, Nat.choose_self, Nat.cast_one, pow_one, Nat.sub_self, pow_zero,
      mul_one, Nat.choose_zero_right, Nat.sub_zero] at h0 h1
    have hd : Disjoint (tallied X B [] 1 1) (tallied X B [] 1 0) := by
      rw [Set.disjoint_left, tallied_nil hl, tallied_nil hl]
      rintro r ⟨o, e, h⟩ ⟨o', e', h'⟩
      rw [e] at e'
      cases e'
      omega
    have h2 := measure_union (μ := μ) hd h0.1
    rw [h1.2, h0.2, ← ENNReal.ofReal_add (hP _) (hP _)] at h2
    have h3 : μ (tallied X B [] 1 1 ∪ tallied X B [] 1 0) ≤ 1 := prob_le_one
    rw [h2] at h3
    exact ENNReal.ofReal_le_one.1 h3
  let D := (Finset.range (n + 1)).filter fun k : ℕ => n * t ≤ |(k : ℝ) - n * P B|
  have h0 : (0 : ℝ) < n := by exact_mod_cast hn
  have hsub : {r | ¬ ∃ outs, X n r = .ok outs ∧ |(outs.countP (· ∈ B) : ℝ) / n - P B| < t} ⊆
      (⋃ k ∈ D, tallied X B [] n k) ∪ (inSets X (List.replicate n Set.univ))ᶜ := by
    intro r hr
    rw [inSets_univ hl]
    by_cases ho : ∃ outs, X n r = .ok outs
    · left
      obtain ⟨outs, e⟩ := ho
      have h2 : t ≤ |(outs.countP (· ∈ B) : ℝ) / n - P B| := not_lt.1 fun h => hr ⟨_, e, h⟩
      have h3 := mul_le_mul_of_nonneg_left h2 h0.le
      rw [← abs_of_pos h0, ← abs_mul, abs_of_pos h0, mul_sub, mul_div_cancel₀ _ h0.ne'] at h3
      simp only [Set.mem_iUnion, tallied_nil hl]
      refine ⟨outs.countP (· ∈ B), Finset.mem_filter.2 ⟨Finset.mem_range.2 (Nat.lt_succ_of_le ?_), h3⟩, outs, e, rfl⟩
      exact (List.countP_le_length).trans (hl _ _ _ e).le
    · exact .inr ho
  have e1 : μ.real (⋃ k ∈ D, tallied X B [] n k) ≤ 2 * Real.exp (-2 * n * t ^ 2) := by
    refine (measureReal_biUnion_finset_le _ _).trans (le_trans (le_of_eq ?_) (Bern.tails (hP B) (hP Bᶜ) hab n ht))
    refine Finset.sum_congr rfl fun k _ => ?_
    have ha := hP B
    have hb := hP Bᶜ
    rw [measureReal_def, (tallied_law hX hP B n k []).2, List.map_nil, List.prod_nil, one_mul,
      ENNReal.toReal_ofReal (by positivity)]
  have e2 : μ.real (inSets X (List.replicate n Set.univ))ᶜ = 1 - P Set.univ ^ n := by
    rw [measureReal_compl (hX _).1, measureReal_def, measureReal_def, measure_univ, (hX _).2, List.map_replicate,
      List.prod_replicate, ENNReal.toReal_pow, ENNReal.toReal_ofReal (hP _), ENNReal.toReal_one]
  refine (measureReal_mono hsub).trans ((measureReal_union_le _ _).trans ?_)
  rw [e2]
  exact add_le_add e1 le_rfl

end Qir.Tally
