import Verif.Spec.Unitary
import Verif.Proof.Norm
import Verif.Proof.Refine

/-! # Matrices on several qubits: norms, kets, controls -/

noncomputable section
namespace Qir
open Spec Function

theorem rowOf_nil (b : Basis) : rowOf [] b = 0 := rfl

theorem rowOf_append_one (qs : List ℕ) (q : ℕ) (b : Basis) :
    rowOf (qs ++ [q]) b = 2 * rowOf qs b + (if b q then 1 else 0) := by
  simp [rowOf]

theorem rowOf_append (qs ts : List ℕ) (b : Basis) :
    rowOf (qs ++ ts) b = rowOf qs b * 2 ^ ts.length + rowOf ts b := by
  induction ts using List.reverseRecOn with
  | nil => simp [rowOf_nil]
  | append_singleton ts t ih =>
    rw [← List.append_assoc, rowOf_append_one, rowOf_append_one, ih, List.length_append, List.length_singleton,
      pow_succ]
    ring

theorem rowOf_lt (qs : List ℕ) (b : Basis) : rowOf qs b < 2 ^ qs.length := by
  induction qs using List.reverseRecOn with
  | nil => simp [rowOf_nil]
  | append_singleton qs q ih =>
    rw [rowOf_append_one, List.length_append, List.length_singleton, pow_succ]
    split <;> omega

theorem testBit_rowOf (qs : List ℕ) (b : Basis) (p : ℕ) (hp : p < qs.length) :
    (rowOf qs b).testBit p = b (qs[qs.length - 1 - p]'(by omega)) := by
  induction qs using List.reverseRecOn generalizing p with
  | nil => simp at hp
  | append_singleton qs q ih =>
    rw [rowOf_append_one]
    cases p with
    | zero =>
      have : (qs ++ [q])[(qs ++ [q]).length - 1 - 0]'(by simp) = q := by
        simp
      rw [this]
      cases b q <;> simp
    | succ p =>
      simp only [List.length_append, List.length_singleton] at hp
      have h1 : (2 * rowOf qs b + (if b q then 1 else 0)).testBit (p + 1) = (rowOf qs b).testBit p := by
        rw [Nat.testBit_succ]
        congr 1
        split <;> omega
      rw [h1, ih p (by omega)]
      congr 1
      rw [List.getElem_append_left (by simp; omega)]
      simp only [List.length_append, List.length_singleton]
      congr 1
      omega

theorem eq_of_bits {n a b : ℕ} (ha : a < 2 ^ n) (hb : b < 2 ^ n) (h : ∀ p < n, a.testBit p = b.testBit p) : a = b := by
  apply Nat.eq_of_testBit_eq
  intro p
  by_cases hp : p < n
  · exact h p hp
  · rw [Nat.testBit_lt_two_pow (lt_of_lt_of_le ha (Nat.pow_le_pow_right (by norm_num) (by omega))),
      Nat.testBit_lt_two_pow (lt_of_lt_of_le hb (Nat.pow_le_pow_right (by norm_num) (by omega)))]

theorem setRow_of_not_mem {qs : List ℕ} {q : ℕ} (h : q ∉ qs) (k : ℕ) (b : Basis) : setRow qs k b q = b q := by
  simp [setRow, h]

theorem setRow_getElem {qs : List ℕ} (hn : qs.Nodup) {i : ℕ} (hi : i < qs.length) (k : ℕ) (b : Basis) :
    setRow qs k b qs[i] = k.testBit (qs.length - 1 - i) := by
  unfold setRow
  rw [if_pos (List.getElem_mem hi), List.Nodup.idxOf_getElem hn]

theorem rowOf_setRow {qs : List ℕ} (hn : qs.Nodup) {k : ℕ} (hk : k < 2 ^ qs.length) (b : Basis) :
    rowOf qs (setRow qs k b) = k := by
  apply eq_of_bits (rowOf_lt _ _) hk
  intro p hp
  rw [testBit_rowOf _ _ _ hp, setRow_getElem hn]
  congr 1
  omega

theorem setRow_setRow (qs : List ℕ) (k l : ℕ) (b : Basis) : setRow qs k (setRow qs l b) = setRow qs k b := by
  funext q; unfold setRow; split <;> rfl

theorem setRow_rowOf (qs : List ℕ) (b : Basis) : setRow qs (rowOf qs b) b = b := by
  funext q
  unfold setRow
  split
  · rename_i h
    have h1 := List.idxOf_lt_length_iff.2 h
    rw [testBit_rowOf _ _ _ (by omega)]
    congr 1
    have : qs.length - 1 - (qs.length - 1 - qs.idxOf q) = qs.idxOf q := by omega
    simp only [this]
    exact List.getElem_idxOf h1
  · rfl

theorem xor_lt {n a b : ℕ} (ha : a < 2 ^ n) (hb : b < 2 ^ n) : a ^^^ b < 2 ^ n := Nat.xor_lt_two_pow ha hb

/-- Exclusive or of the number written by `qs` with `k`. -/
def xorRow (qs : List ℕ) (hn : qs.Nodup) (k : ℕ) (hk : k < 2 ^ qs.length) : Basis ≃ Basis where
  toFun b := setRow qs (rowOf qs b ^^^ k) b
  invFun b := setRow qs (rowOf qs b ^^^ k) b
  left_inv b := by
    show setRow qs (rowOf qs (setRow qs _ b) ^^^ k) (setRow qs _ b) = b
    rw [rowOf_setRow hn (xor_lt (rowOf_lt _ _) hk), setRow_setRow, Nat.xor_xor_cancel_right, setRow_rowOf]
  right_inv b := by
    show setRow qs (rowOf qs (setRow qs _ b) ^^^ k) (setRow qs _ b) = b
    rw [rowOf_setRow hn (xor_lt (rowOf_lt _ _) hk), setRow_setRow, Nat.xor_xor_cancel_right, setRow_rowOf]

theorem sum_xor {n r : ℕ} (hr : r < 2 ^ n) (f : ℕ → ℝ) :
    ∑ k ∈ Finset.range (2 ^ n), f (r ^^^ k) = ∑ k ∈ Finset.range (2 ^ n), f k := by
  apply Finset.sum_bij' (fun k _ => r ^^^ k) (fun k _ => r ^^^ k)
  · intro k hk; simp only [Finset.mem_range] at *; exact xor_lt hr hk
  · intro k hk; simp only [Finset.mem_range] at *; exact xor_lt hr hk
  · intro k _; simp
  · intro k _; simp
  · intro k _; rfl

theorem normSq_rows {qs : List ℕ} (hn : qs.Nodup) {φ : Wave} (h : FinSupp φ) :
    (2 ^ qs.length : ℕ) * Spec.normSq φ =
      ∑ᶠ b, ∑ k ∈ Finset.range (2 ^ qs.length), Complex.normSq (φ (setRow qs k b)) := by
  have h1 : ∀ b, ∑ k ∈ Finset.range (2 ^ qs.length), Complex.normSq (φ (setRow qs k b)) =
      ∑ k : Fin (2 ^ qs.length), Complex.normSq (φ (xorRow qs hn k k.2 b)) := by
    intro b
    rw [← sum_xor (rowOf_lt qs b), ← Fin.sum_univ_eq_sum_range
      (fun k => Complex.normSq (φ (setRow qs (rowOf qs b ^^^ k) b)))]
    rfl
  simp only [h1]
  rw [finsum_sum_comm]
  · have h2 : ∀ k : Fin (2 ^ qs.length), ∑ᶠ b, Complex.normSq (φ (xorRow qs hn k k.2 b)) = Spec.normSq φ := by
      intro k
      exact finsum_comp_equiv (xorRow qs hn k k.2) (f := fun b => Complex.normSq (φ b))
    simp only [h2, Finset.sum_const, Finset.card_univ, Fintype.card_fin, nsmul_eq_mul]
  · intro k _
    have h3 : (support fun b => Complex.normSq (φ (xorRow qs hn k k.2 b))) =
        (xorRow qs hn k k.2) ⁻¹' support φ := by
      ext b; simp [support]
    show (support _).Finite
    rw [h3]
    exact h.preimage ((xorRow qs hn k k.2).injective.injOn)

/-- A matrix with orthonormal columns preserves lengths. -/
theorem unitary_isometry {n : ℕ} {U : ℕ → ℕ → ℂ} (hU : Unitary n U) (x : ℕ → ℂ) :
    ∑ j ∈ Finset.range n, Complex.normSq (∑ k ∈ Finset.range n, U j k * x k) =
      ∑ k ∈ Finset.range n, Complex.normSq (x k) := by
  have key : (∑ j ∈ Finset.range n, Complex.normSq (∑ k ∈ Finset.range n, U j k * x k) : ℂ) =
      ∑ k ∈ Finset.range n, (Complex.normSq (x k) : ℂ) := by
    calc (∑ j ∈ Finset.range n, Complex.normSq (∑ k ∈ Finset.range n, U j k * x k) : ℂ)
        = ∑ j ∈ Finset.range n, (∑ k ∈ Finset.range n, (starRingEnd ℂ) (U j k) * (starRingEnd ℂ) (x k)) *
            (∑ l ∈ Finset.range n, U j l * x l) := by
          apply Finset.sum_congr rfl
          intro j _
          rw [Complex.normSq_eq_conj_mul_self, map_sum]
          simp only [map_mul]
      _ = ∑ j ∈ Finset.range n, ∑ k ∈ Finset.range n, ∑ l ∈ Finset.range n,
            (starRingEnd ℂ) (x k) * x l * ((starRingEnd ℂ) (U j k) * U j l) := by
          apply Finset.sum_congr rfl
          intro j _
          rw [Finset.sum_mul_sum]
          apply Finset.sum_congr rfl
          intro k _
          apply Finset.sum_congr rfl
          intro l _
          ring
      _ = ∑ k ∈ Finset.range n, ∑ l ∈ Finset.range n,
            (starRingEnd ℂ) (x k) * x l * ∑ j ∈ Finset.range n, ((starRingEnd ℂ) (U j k) * U j l) := by
          rw [Finset.sum_comm]
          apply Finset.sum_congr rfl
          intro k _
          rw [Finset.sum_comm]
          apply Finset.sum_congr rfl
          intro l _
          rw [Finset.mul_sum]
      _ = ∑ k ∈ Finset.range n, ∑ l ∈ Finset.range n,
            (starRingEnd ℂ) (x k) * x l * if k = l then 1 else 0 := by
          apply Finset.sum_congr rfl
          intro k hk
          apply Finset.sum_congr rfl
          intro l hl
          rw [hU k (Finset.mem_range.1 hk) l (Finset.mem_range.1 hl)]
      _ = ∑ k ∈ Finset.range n, (Complex.normSq (x k) : ℂ) := by
          apply Finset.sum_congr rfl
          intro k hk
          simp only [mul_ite, mul_one, mul_zero, Finset.sum_ite_eq, hk, if_true]
          rw [Complex.normSq_eq_conj_mul_self]
  exact_mod_cast key

/-- `applyMatrix` as a linear map. -/
def matL (cs : List ℕ) (U : ℕ → ℕ → ℂ) (ts : List ℕ) : Module.End ℂ Wave where
  toFun := applyMatrix cs U ts
  map_add' ψ φ := by
    funext b
    simp only [applyMatrix, Pi.add_apply]
    split
    · rw [← Finset.sum_add_distrib]
      apply Finset.sum_congr rfl; intro k _; ring
    · rfl
  map_smul' c ψ := by
    funext b
    simp only [applyMatrix, Pi.smul_apply, smul_eq_mul, RingHom.id_apply]
    split
    · rw [Finset.mul_sum]
      apply Finset.sum_congr rfl; intro k _; ring
    · rfl

theorem matL_apply (cs : List ℕ) (U : ℕ → ℕ → ℂ) (ts : List ℕ) (ψ : Wave) :
    matL cs U ts ψ = applyMatrix cs U ts ψ := rfl

theorem FinSupp.matrix {ψ : Wave} (h : FinSupp ψ) (cs : List ℕ) (U : ℕ → ℕ → ℂ) {ts : List ℕ} (hn : ts.Nodup) :
    FinSupp (applyMatrix cs U ts ψ) := by
  have h2 : (support ψ ∪ ⋃ k : Fin (2 ^ ts.length), (xorRow ts hn k k.2) ⁻¹' support ψ).Finite := by
    apply h.union
    apply Set.finite_iUnion
    intro k
    exact h.preimage ((xorRow ts hn k k.2).injective.injOn)
  refine h2.subset ?_
  intro b hb
  by_contra hc
  apply hb
  simp only [Set.mem_union, Set.mem_iUnion, Set.mem_preimage, not_or, not_exists, notMem_support] at hc
  unfold applyMatrix
  split
  · apply Finset.sum_eq_zero
    intro k hk
    have h3 := hc.2 ⟨rowOf ts b ^^^ k, xor_lt (rowOf_lt _ _) (Finset.mem_range.1 hk)⟩
    have h4 : (xorRow ts hn (rowOf ts b ^^^ k) (xor_lt (rowOf_lt _ _) (Finset.mem_range.1 hk))) b = setRow ts k b := by
      show setRow ts (rowOf ts b ^^^ (rowOf ts b ^^^ k)) b = _
      rw [Nat.xor_xor_cancel_left]
    rw [h4] at h3
    rw [h3, mul_zero]
  · exact hc.1

theorem normSq_matrix {ψ : Wave} (h : FinSupp ψ) {cs ts : List ℕ} (hn : (cs ++ ts).Nodup) {U : ℕ → ℕ → ℂ}
    (hU : Unitary (2 ^ ts.length) U) : Spec.normSq (applyMatrix cs U ts ψ) = Spec.normSq ψ := by
  have hnt := (List.nodup_append.1 hn).2.1
  have hd : ∀ c ∈ cs, c ∉ ts := fun c hc hm => (List.nodup_append.1 hn).2.2 c hc c hm rfl
  have h1 := normSq_rows hnt h
  have h2 := normSq_rows hnt (h.matrix cs U hnt)
  have h3 : ∀ b, ∑ k ∈ Finset.range (2 ^ ts.length), Complex.normSq (applyMatrix cs U ts ψ (setRow ts k b)) =
      ∑ k ∈ Finset.range (2 ^ ts.length), Complex.normSq (ψ (setRow ts k b)) := by
    intro b
    have hc : ∀ k, (∀ c ∈ cs, setRow ts k b c = true) ↔ ∀ c ∈ cs, b c = true := by
      intro k
      apply forall_congr'; intro c
      apply imp_congr_right; intro hc
      rw [setRow_of_not_mem (hd c hc)]
    simp only [applyMatrix, hc]
    split
    · rw [← unitary_isometry hU (fun k => ψ (setRow ts k b))]
      apply Finset.sum_congr rfl
      intro j hj
      rw [rowOf_setRow hnt (Finset.mem_range.1 hj)]
      simp only [setRow_setRow]
    · rfl
  simp only [h3] at h2
  rw [← h1] at h2
  exact mul_left_cancel₀ (by positivity) h2

/-- The image of a basis vector. -/
theorem matL_ket {ts : List ℕ} (hn : ts.Nodup) (U : ℕ → ℕ → ℂ) (b : Basis) :
    matL [] U ts (ket b) = ∑ j ∈ Finset.range (2 ^ ts.length), U j (rowOf ts b) • ket (setRow ts j b) := by
  funext b'
  rw [matL_apply, Finset.sum_apply]
  simp only [applyMatrix, List.not_mem_nil, false_imp_iff, implies_true, if_true, Pi.smul_apply, smul_eq_mul]
  by_cases h : ∃ j, b' = setRow ts j b
  · obtain ⟨j, rfl⟩ := h
    have h1 : ∀ k ∈ Finset.range (2 ^ ts.length), U (rowOf ts (setRow ts j b)) k * ket b (setRow ts k (setRow ts j b)) =
        if k = rowOf ts b then U (rowOf ts (setRow ts j b)) (rowOf ts b) else 0 := by
      intro k hk
      rw [setRow_setRow]
      by_cases hkr : k = rowOf ts b
      · rw [if_pos hkr, hkr, setRow_rowOf]; simp [ket]
      · rw [if_neg hkr]
        have : setRow ts k b ≠ b := by
          intro hc
          apply hkr
          rw [← hc, rowOf_setRow hn (Finset.mem_range.1 hk)]
        simp [ket, this]
    have h2 : ∀ i ∈ Finset.range (2 ^ ts.length), U i (rowOf ts b) * ket (setRow ts i b) (setRow ts j b) =
        if i = rowOf ts (setRow ts j b) then U (rowOf ts (setRow ts j b)) (rowOf ts b) else 0 := by
      intro i hi
      by_cases hir : i = rowOf ts (setRow ts j b)
      · rw [if_pos hir]
        have : setRow ts i b = setRow ts j b := by
          rw [hir, ← setRow_setRow ts _ j, setRow_rowOf]
        rw [this, ← hir]; simp [ket]
      · rw [if_neg hir]
        have : setRow ts j b ≠ setRow ts i b := by
          intro hc
          apply hir
          rw [hc, rowOf_setRow hn (Finset.mem_range.1 hi)]
        simp [ket, this]
    rw [Finset.sum_congr rfl h1, Finset.sum_congr rfl h2]
    simp [rowOf_lt]
  · rw [Finset.sum_eq_zero, Finset.sum_eq_zero]
    · intro i _
      have : b' ≠ setRow ts i b := fun hc => h ⟨i, hc⟩
      simp [ket, this]
    · intro k _
      have : setRow ts k b' ≠ b := by
        intro hc
        apply h
        refine ⟨rowOf ts b', ?_⟩
        rw [← hc, setRow_setRow, setRow_rowOf]
      simp [ket, this]

theorem setRow_update_comm {ts : List ℕ} {q : ℕ} (hq : q ∉ ts) (k : ℕ) (b : Basis) (v : Bool) :
    setRow ts k (update b q v) = update (setRow ts k b) q v := by
  funext r
  by_cases hr : r = q
  · subst hr; simp [setRow, hq]
  · simp [setRow, update_of_ne hr]

theorem rowOf_congr {qs : List ℕ} {b b' : Basis} (h : ∀ q ∈ qs, b q = b' q) : rowOf qs b = rowOf qs b' := by
  apply eq_of_bits (rowOf_lt _ _) (rowOf_lt _ _)
  intro p hp
  rw [testBit_rowOf _ _ _ hp, testBit_rowOf _ _ _ hp]
  exact h _ (List.getElem_mem _)

theorem rowOf_update {ts : List ℕ} {q : ℕ} (hq : q ∉ ts) (b : Basis) (v : Bool) :
    rowOf ts (update b q v) = rowOf ts b := by
  apply rowOf_congr
  intro r hr
  rw [update_of_ne]
  rintro rfl; exact hq hr

/-- Operators on other qubits commute with the matrix. -/
theorem matL_comm_gateL {cs ts : List ℕ} {q : ℕ} (hc : q ∉ cs) (ht : q ∉ ts) (U : ℕ → ℕ → ℂ) (V : Mat2) :
    matL cs U ts * gateL V q = gateL V q * matL cs U ts := by
  apply LinearMap.ext
  intro ψ
  funext b
  have hcu : ∀ v, (∀ c ∈ cs, update b q v c = true) ↔ ∀ c ∈ cs, b c = true := by
    intro v
    apply forall_congr'; intro c
    apply imp_congr_right; intro hm
    rw [update_of_ne]
    rintro rfl; exact hc hm
  show applyMatrix cs U ts (Spec.ctrl [] V q ψ) b = Spec.ctrl [] V q (applyMatrix cs U ts ψ) b
  simp only [applyMatrix, Spec.ctrl, List.not_mem_nil, false_imp_iff, implies_true, if_true, hcu]
  split
  · rw [Finset.mul_sum, Finset.mul_sum, ← Finset.sum_add_distrib]
    apply Finset.sum_congr rfl
    intro k _
    rw [rowOf_update ht, rowOf_update ht, setRow_update_comm ht, setRow_update_comm ht, setRow_of_not_mem ht]
    ring
  · rfl

/-- A matrix on one qubit. -/
theorem applyMatrix_one (cs : List ℕ) (U : ℕ → ℕ → ℂ) (q : ℕ) :
    applyMatrix cs U [q] = Spec.ctrl cs (mat (U 0 0) (U 0 1) (U 1 0) (U 1 1)) q := by
  funext ψ b
  have h0 : setRow [q] 0 b = update b q false := by
    funext r; by_cases hr : r = q <;> simp [setRow, hr]
  have h1 : setRow [q] 1 b = update b q true := by
    funext r; by_cases hr : r = q <;> simp [setRow, hr]
  simp only [applyMatrix, Spec.ctrl, List.length_singleton, pow_one, Finset.sum_range_succ, Finset.sum_range_zero,
    h0, h1, zero_add]
  split
  · cases hb : b q <;> simp [rowOf, mat, hb]
  · rfl

/-! ### Controls -/

/-- The matrix that is `U` on its last `2 ^ n` rows and columns and the identity elsewhere. -/
def extend (c n : ℕ) (U : ℕ → ℕ → ℂ) : ℕ → ℕ → ℂ := fun i j =>
  if (2 ^ c - 1) * 2 ^ n ≤ i ∧ (2 ^ c - 1) * 2 ^ n ≤ j then U (i - (2 ^ c - 1) * 2 ^ n) (j - (2 ^ c - 1) * 2 ^ n)
  else if i = j then 1 else 0

theorem rowOf_all {cs : List ℕ} {b : Basis} : rowOf cs b = 2 ^ cs.length - 1 ↔ ∀ c ∈ cs, b c = true := by
  constructor
  · intro h c hc
    obtain ⟨i, hi, rfl⟩ := List.getElem_of_mem hc
    have h1 := testBit_rowOf cs b (cs.length - 1 - i) (by omega)
    rw [h, Nat.testBit_two_pow_sub_one] at h1
    have h2 : cs.length - 1 - (cs.length - 1 - i) = i := by omega
    simp only [h2] at h1
    rw [← h1]
    simp; omega
  · intro h
    apply eq_of_bits (rowOf_lt _ _) (Nat.sub_lt (by positivity) one_pos)
    intro p hp
    rw [testBit_rowOf _ _ _ hp, Nat.testBit_two_pow_sub_one, h _ (List.getElem_mem _)]
    simp [hp]

theorem applyMatrix_extend {cs ts : List ℕ} (hn : (cs ++ ts).Nodup) (U : ℕ → ℕ → ℂ) (ψ : Wave) :
    applyMatrix [] (extend cs.length ts.length U) (cs ++ ts) ψ = applyMatrix cs U ts ψ := by
  have hd : ∀ c ∈ cs, c ∉ ts := fun c hc hm => (List.nodup_append.1 hn).2.2 c hc c hm rfl
  funext b
  have hlen : 2 ^ (cs ++ ts).length = (2 ^ cs.length - 1) * 2 ^ ts.length + 2 ^ ts.length := by
    rw [List.length_append, pow_add, Nat.sub_mul, one_mul, Nat.sub_add_cancel]
    exact Nat.le_mul_of_pos_left _ (by positivity)
  have hrow := rowOf_append cs ts b
  simp only [applyMatrix, List.not_mem_nil, false_imp_iff, implies_true, if_true]
  by_cases hc : ∀ c ∈ cs, b c = true
  · rw [if_pos hc]
    rw [rowOf_all.2 hc] at hrow
    rw [hlen, Finset.sum_range_add, Finset.sum_eq_zero, zero_add]
    · apply Finset.sum_congr rfl
      intro k hk
      have hk' := Finset.mem_range.1 hk
      have h1 : extend cs.length ts.length U (rowOf (cs ++ ts) b) ((2 ^ cs.length - 1) * 2 ^ ts.length + k) =
          U (rowOf ts b) k := by
        unfold extend
        rw [hrow, if_pos ⟨Nat.le_add_right _ _, Nat.le_add_right _ _⟩, Nat.add_sub_cancel_left, Nat.add_sub_cancel_left]
      rw [h1]
      congr 2
      funext q
      by_cases hq : q ∈ cs
      · rw [setRow_of_not_mem (hd q hq), hc q hq]
        have hi := List.idxOf_lt_length_iff.2 hq
        simp only [setRow, List.mem_append, hq, true_or, if_true, List.length_append,
          List.idxOf_append_of_mem hq]
        rw [mul_comm, Nat.testBit_two_pow_mul_add _ hk', if_neg (by omega), Nat.testBit_two_pow_sub_one]
        simp; omega
      · by_cases ht : q ∈ ts
        · have hi := List.idxOf_lt_length_iff.2 ht
          simp only [setRow, List.mem_append, ht, or_true, if_true, List.length_append,
            List.idxOf_append_of_notMem hq]
          rw [mul_comm, Nat.testBit_two_pow_mul_add _ hk', if_pos (by omega)]
          congr 1
          omega
        · rw [setRow_of_not_mem ht, setRow_of_not_mem (by simp [hq, ht])]
    · intro k hk
      have hk' := Finset.mem_range.1 hk
      unfold extend
      rw [if_neg (by omega), if_neg (by rw [hrow]; omega), zero_mul]
  · rw [if_neg hc]
    have hlt : rowOf (cs ++ ts) b < (2 ^ cs.length - 1) * 2 ^ ts.length := by
      have h1 : rowOf cs b ≠ 2 ^ cs.length - 1 := fun h => hc (rowOf_all.1 h)
      have h2 := rowOf_lt cs b
      have h3 := rowOf_lt ts b
      rw [hrow]
      have h4 : (rowOf cs b + 1) * 2 ^ ts.length ≤ (2 ^ cs.length - 1) * 2 ^ ts.length :=
        Nat.mul_le_mul_right _ (by omega)
      rw [Nat.add_mul, one_mul] at h4
      omega
    rw [Finset.sum_eq_single (rowOf (cs ++ ts) b)]
    · rw [setRow_rowOf]
      unfold extend
      rw [if_neg (by omega), if_pos rfl, one_mul]
    · intro k _ hne
      unfold extend
      rw [if_neg (by omega), if_neg (Ne.symm hne), zero_mul]
    · intro h
      exact absurd (Finset.mem_range.2 (rowOf_lt _ _)) h

end Qir
