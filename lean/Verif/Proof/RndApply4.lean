import Verif.Proof.RndApply3

/-! The matrix `apply` multiplies by when it is given a rounded unitary matrix and controls. -/

noncomputable section
namespace Qir.Rnd
open Spec Function Sim Tol

variable {A : Arith} {N : ℕ}

theorem extend_top {c n : ℕ} {U : ℕ → ℕ → ℂ} {i j : ℕ} (h : i < (2 ^ c - 1) * 2 ^ n ∨ j < (2 ^ c - 1) * 2 ^ n) :
    extend c n U i j = if i = j then 1 else 0 := by
  unfold extend
  rw [if_neg (by omega)]

theorem extend_low {c n : ℕ} {U : ℕ → ℕ → ℂ} (i j : ℕ) :
    extend c n U ((2 ^ c - 1) * 2 ^ n + i) ((2 ^ c - 1) * 2 ^ n + j) = U i j := by
  unfold extend
  rw [if_pos (by omega), Nat.add_sub_cancel_left, Nat.add_sub_cancel_left]

theorem extend_size (c n : ℕ) : (2 ^ c - 1) * 2 ^ n + 2 ^ n = 2 ^ (c + n) := by
  have h : 1 ≤ 2 ^ c := Nat.one_le_two_pow
  rw [pow_add, Nat.sub_mul, one_mul, Nat.sub_add_cancel (Nat.le_mul_of_pos_left _ h)]

theorem extend_unitary {c n : ℕ} {U : ℕ → ℕ → ℂ} (hU : Unitary (2 ^ n) U) : Unitary (2 ^ (c + n)) (extend c n U) := by
  intro k hk l hl
  rw [← extend_size] at hk hl ⊢
  set K := (2 ^ c - 1) * 2 ^ n with hK
  rw [Finset.sum_range_add]
  have top : ∀ {j}, j < K → ∀ i, extend c n U j i = if j = i then 1 else 0 := fun h i => extend_top (Or.inl h)
  by_cases hkK : k < K
  · have h2 : ∑ x ∈ Finset.range (2 ^ n), (starRingEnd ℂ) (extend c n U (K + x) k) * extend c n U (K + x) l = 0 := by
      apply Finset.sum_eq_zero
      intro x _
      rw [extend_top (i := K + x) (j := k) (Or.inr hkK), if_neg (by omega)]
      simp
    rw [h2, add_zero, Finset.sum_eq_single_of_mem k (Finset.mem_range.2 hkK)]
    · rw [top hkK, top hkK, if_pos rfl]; simp
    · intro j hj hjk
      rw [top (Finset.mem_range.1 hj) k, if_neg hjk]; simp
  · obtain ⟨k', rfl⟩ := Nat.exists_eq_add_of_le (not_lt.1 hkK)
    have h1 : ∑ x ∈ Finset.range K, (starRingEnd ℂ) (extend c n U x (K + k')) * extend c n U x l = 0 := by
      apply Finset.sum_eq_zero
      intro x hx
      have := Finset.mem_range.1 hx
      rw [top this, if_neg (by omega)]; simp
    rw [h1, zero_add]
    by_cases hlK : l < K
    · rw [if_neg (by omega)]
      apply Finset.sum_eq_zero
      intro x _
      rw [extend_top (i := K + x) (j := l) (Or.inr hlK), if_neg (by omega), mul_zero]
    · obtain ⟨l', rfl⟩ := Nat.exists_eq_add_of_le (not_lt.1 hlK)
      simp only [hK, extend_low]
      rw [hU k' (by omega) l' (by omega)]
      simp

theorem entries_close {U : ℕ → ℕ → ℂ} {i j : ℕ} (h : ‖U i j‖ ≤ 1) : ‖A.entries U i j - U i j‖ ≤ 2 * A.v := by
  have hu := A.u_nonneg
  have h1 : |(A.entries U i j - U i j).re| ≤ A.v := by
    refine (A.fl_err (U i j).re).trans ?_
    have := (Complex.abs_re_le_norm (U i j)).trans h
    unfold Arith.v
    nlinarith
  have h2 : |(A.entries U i j - U i j).im| ≤ A.v := by
    refine (A.fl_err (U i j).im).trans ?_
    have := (Complex.abs_im_le_norm (U i j)).trans h
    unfold Arith.v
    nlinarith
  exact (Complex.norm_le_abs_re_add_abs_im _).trans (by linarith)

theorem given {U : ℕ → ℕ → ℂ} {cs ts : List ℕ} (hU : Unitary (2 ^ ts.length) U) :
    Given A (controlled ⟨2 ^ ts.length, 2 ^ ts.length, A.entries U⟩ cs.length) (2 ^ (cs ++ ts).length)
      (extend cs.length ts.length U) := by
  refine ⟨controlled_rows rfl, ?_, ?_⟩
  · rw [List.length_append]; exact extend_unitary hU
  · intro j hj l hl
    rw [controlled_entry (n := ts.length) rfl rfl]
    rw [List.length_append, ← extend_size] at hj hl
    unfold extend
    split
    · exact entries_close (norm_unitary hU (by omega) (by omega))
    · rw [sub_self, norm_zero]
      have := A.v_nonneg
      linarith

theorem matL_extend {cs ts : List ℕ} (hn : (cs ++ ts).Nodup) (U : ℕ → ℕ → ℂ) :
    matL [] (extend cs.length ts.length U) (cs ++ ts) = matL cs U ts := by
  ext1 ψ
  rw [matL_apply, matL_apply]
  exact applyMatrix_extend hn U ψ

theorem track_apply (hf : Fine A) {d : ℝ} {s : Sim} {σ : Ideal} (h : Tracks A N d s σ) {cs ts : List ℕ}
    (hn : (cs ++ ts).Nodup) (ht : ∀ q ∈ cs ++ ts, q ∈ σ.live) {U : ℕ → ℕ → ℂ} (hU : Unitary (2 ^ ts.length) U)
    (hu : ∀ l < (cs ++ ts).length, Used s.idMap l)
    (hd : d + passes (cs ++ ts).length * cost A N ≤ 1 / 2) :
    ∃ s', Rnd.apply A ⟨2 ^ ts.length, 2 ^ ts.length, A.entries U⟩ ts (some cs) s = .ok s' ∧
      Tracks A N (d + passes (cs ++ ts).length * cost A N) s' { σ with psi := applyMatrix cs U ts σ.psi } ∧
      ∀ l, Used s'.idMap l ↔ Used s.idMap l := by
  rw [apply_some rfl rfl]
  obtain ⟨c, d1, hc, hd1, ha⟩ := h.psi
  have h0 := cost_nonneg hf N
  have hle : cost A s.idMap.keys.length ≤ cost A N := cost_mono hf h.le
  have hk : ((passes (cs ++ ts).length + s.opQ.length : ℕ) : ℝ) * cost A s.idMap.keys.length ≤
      passes (cs ++ ts).length * cost A N + s.opQ.length * cost A N := by
    push_cast
    rw [← add_mul]
    exact mul_le_mul_of_nonneg_left hle (by positivity)
  have hl1 := near_len ha
  have hl2 := len_add (finSupp_sub ha.fin' ha.fin) ha.fin
  rw [sub_add_cancel, ← neg_sub, len_neg] at hl2
  rw [len_good h.good hc] at hl1 hl2
  have hle' := ha.le
  obtain ⟨s', g1, g2, g3, g4, g5, g6⟩ := applyOn_near hf h.wf hn (h.alloc ht) hu (given (A := A) hU)
    (by linarith) (by linarith)
  rw [matL_extend hn] at g6
  refine ⟨s', g1, ⟨g2, ?_, g3.trans h.rng, h.card, ?_, h.good.matrix hn ht hU⟩, g5⟩
  · intro q; rw [g4 q]; exact h.live q
  · have := h.cost hf (iso_matL hn hU) (e := 1) (by simp) (by rw [one_smul]; exact g6) hd
    simpa only [matL_apply] using this

end Qir.Rnd
