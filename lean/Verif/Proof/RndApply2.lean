import Verif.Proof.RndApply

/-! The whole multiplication of `apply` with rounded arithmetic. -/

noncomputable section
namespace Qir.Rnd
open Spec Function Sim Tol

variable {A : Arith}

theorem norm_le_len {ψ : Wave} (h : FinSupp ψ) (b : Basis) : ‖ψ b‖ ≤ len ψ := by
  unfold len
  apply Real.le_sqrt_of_sq_le
  rw [← Complex.normSq_eq_norm_sq]
  unfold normSq
  have hfin : (support fun b => Complex.normSq (ψ b)).Finite := by
    refine h.subset ?_
    intro b hb hz
    apply hb
    simp [hz]
  exact single_le_finsum b hfin (fun c => Complex.normSq_nonneg _)

theorem iso_matL {cs ts : List ℕ} (hn : (cs ++ ts).Nodup) {U : ℕ → ℕ → ℂ} (hU : Unitary (2 ^ ts.length) U) :
    Iso (matL cs U ts) :=
  ⟨fun h => h.matrix _ _ (List.nodup_append.1 hn).2.1, fun h => by
    unfold Tol.len
    rw [matL_apply, normSq_matrix h hn hU]⟩

/-- The entry is spread over a block that contains `b`. -/
def Touches (m : IMap ℕ) (n : ℕ) (b : Basis) (e : ℕ × ℂ) : Prop := ∃ j < n, b = idBits m (e.1 / n * n + j)

open Classical in
/-- The number of entries of the list spread over the block of `b`. -/
def touched (m : IMap ℕ) (n : ℕ) (b : Basis) (l : List (ℕ × ℂ)) : ℕ := l.countP (fun e => decide (Touches m n b e))

theorem touched_le {m : IMap ℕ} {ts : List ℕ} (h : Low m ts) {l : List (ℕ × ℂ)} (hc : Core m l) (b : Basis) :
    touched m (2 ^ ts.length) b l ≤ 2 ^ ts.length := by
  classical
  set n := 2 ^ ts.length with hn
  have hpos : 0 < n := by rw [hn]; positivity
  unfold touched
  rw [List.countP_eq_length_filter]
  set f := l.filter (fun e => decide (Touches m n b e)) with hf
  have hsame : ∀ e ∈ f, ∀ e' ∈ f, e.1 / n = e'.1 / n := by
    intro e he e' he'
    obtain ⟨h1, h2⟩ := List.mem_filter.1 he
    obtain ⟨h3, h4⟩ := List.mem_filter.1 he'
    obtain ⟨j, hj, hb⟩ := of_decide_eq_true h2
    obtain ⟨j', hj', hb'⟩ := of_decide_eq_true h4
    have := idBits_inj (bitsIn_split h (hc.bits e h1) hj) (bitsIn_split h (hc.bits e' h3) hj') (hb.symm.trans hb')
    rw [← hn] at this
    have e1 : (e.1 / n * n + j) / n = e.1 / n := by
      rw [Nat.add_comm, Nat.add_mul_div_right _ _ hpos, Nat.div_eq_of_lt hj, zero_add]
    have e2 : (e'.1 / n * n + j') / n = e'.1 / n := by
      rw [Nat.add_comm, Nat.add_mul_div_right _ _ hpos, Nat.div_eq_of_lt hj', zero_add]
    rw [← e1, ← e2, this]
  have hnd : (f.map (fun e => e.1 % n)).Nodup := by
    have h0 : (f.map Prod.fst).Nodup := ((List.filter_sublist (l := l)).map _).nodup hc.nodup
    have h1 : f.map (fun e => e.1 % n) = (f.map Prod.fst).map (fun k => k % n) := by simp [List.map_map, Function.comp_def]
    rw [h1]
    apply h0.map_on
    intro k hk k' hk' hkk
    obtain ⟨e, he, rfl⟩ := List.mem_map.1 hk
    obtain ⟨e', he', rfl⟩ := List.mem_map.1 hk'
    have := hsame e he e' he'
    rw [← Nat.div_add_mod e.1 n, ← Nat.div_add_mod e'.1 n, this, hkk]
  have hsub : f.map (fun e => e.1 % n) ⊆ List.range n := by
    intro k hk
    obtain ⟨e, _, rfl⟩ := List.mem_map.1 hk
    exact List.mem_range.2 (Nat.mod_lt _ hpos)
  have := (hnd.subperm hsub).length_le
  simpa using this

theorem core_append_left {m : IMap ℕ} {l l' : List (ℕ × ℂ)} (h : Core m (l ++ l')) : Core m l :=
  core_sublist (List.sublist_append_left _ _) h

theorem len_view_sublist {m : IMap ℕ} {l l' : List (ℕ × ℂ)} (h : Core m l) (hs : l'.Sublist l) :
    len (view m l') ≤ len (view m l) := by
  apply len_le_len
  rw [normSq_view h, normSq_view (core_sublist hs h)]
  apply (hs.map _).sum_le_sum
  intro x hx
  obtain ⟨e, _, rfl⟩ := List.mem_map.1 hx
  exact Complex.normSq_nonneg _

theorem scatter_fold (hf : Fine A) {m : IMap ℕ} {ts : List ℕ} (hn : ts.Nodup) (h : Low m ts) {u : Mat}
    {U : ℕ → ℕ → ℂ} (hg : Given A u (2 ^ ts.length) U) (hD : (2 ^ ts.length : ℕ) * slip A ≤ 3 / 2)
    (rest : List (ℕ × ℂ)) : ∀ (done acc : List (ℕ × ℂ)), Core m (done ++ rest) →
      len (view m (done ++ rest)) ≤ 3 / 2 → Core m acc →
      (∀ b, ‖view m acc b - matL [] U ts (view m done) b‖ ≤ slip A * touched m (2 ^ ts.length) b done) →
      Core m (rest.foldl (Rnd.scatter A u) acc) ∧
        ∀ b, ‖view m (rest.foldl (Rnd.scatter A u) acc) b - matL [] U ts (view m (done ++ rest)) b‖ ≤
          slip A * touched m (2 ^ ts.length) b (done ++ rest) := by
  classical
  have hs0 := slip_nonneg hf
  induction rest with
  | nil => intro done acc _ _ hc hb; rw [List.append_nil]; exact ⟨hc, hb⟩
  | cons e rest ih =>
    intro done acc hl hlen hc hb
    have e1 : done ++ e :: rest = (done ++ [e]) ++ rest := by simp
    have hdone := core_append_left hl
    have hiso := iso_matL (cs := []) (ts := ts) (by simpa using hn) hg.unitary
    have hz : ∀ b, ‖view m acc b‖ ≤ 3 := by
      intro b
      have h1 := norm_le_len (hiso.fin (finSupp_view m done)) b
      rw [hiso.len (finSupp_view m done)] at h1
      have h2 := len_view_sublist hl (List.sublist_append_left done (e :: rest))
      have h3 := hb b
      have h4 : slip A * touched m (2 ^ ts.length) b done ≤ 3 / 2 := by
        refine le_trans ?_ hD
        rw [mul_comm]
        exact mul_le_mul_of_nonneg_right (by exact_mod_cast touched_le h hdone b) hs0
      have h5 := norm_add_le (view m acc b - matL [] U ts (view m done) b) (matL [] U ts (view m done) b)
      rw [sub_add_cancel] at h5
      linarith
    have hmem : e ∈ done ++ e :: rest := by simp
    have ha : ‖e.2‖ ≤ 3 / 2 := by
      have := norm_le_len (finSupp_view m (done ++ e :: rest)) (idBits m e.1)
      rw [view_apply_mem hl hmem] at this
      linarith
    obtain ⟨hc1, y, hy, hv⟩ := scatter_near hf hn h hg (hl.bits e hmem) ha hc hz
    rw [List.foldl_cons, e1]
    rw [e1] at hl hlen
    refine ih (done ++ [e]) _ hl hlen hc1 ?_
    intro b
    have h1 : view m (Rnd.scatter A u acc e) b - matL [] U ts (view m (done ++ [e])) b =
        (view m acc b - matL [] U ts (view m done) b) +
          (∑ j ∈ Finset.range (2 ^ ts.length), y j • ket (idBits m (e.1 / 2 ^ ts.length * 2 ^ ts.length + j))) b := by
      rw [hv, view_append, map_add]
      simp only [view_cons, view_nil, add_zero, Pi.add_apply]
      ring
    rw [h1]
    have h2 : ‖(∑ j ∈ Finset.range (2 ^ ts.length),
        y j • ket (idBits m (e.1 / 2 ^ ts.length * 2 ^ ts.length + j))) b‖ ≤
        if Touches m (2 ^ ts.length) b e then slip A else 0 := by
      rw [Finset.sum_apply]
      split
      · rename_i ht
        obtain ⟨j, hj, rfl⟩ := ht
        rw [Finset.sum_eq_single_of_mem j (Finset.mem_range.2 hj)]
        · simp only [Pi.smul_apply, ket, if_true, smul_eq_mul, mul_one]
          exact hy j
        · intro i hi hij
          have hb1 := bitsIn_split h (hl.bits e (by simp)) (Finset.mem_range.1 hi)
          have hb2 := bitsIn_split h (hl.bits e (by simp)) hj
          have : idBits m (e.1 / 2 ^ ts.length * 2 ^ ts.length + j) ≠ idBits m (e.1 / 2 ^ ts.length * 2 ^ ts.length + i) := by
            intro hc'
            have := idBits_inj hb2 hb1 hc'
            omega
          simp [ket, this]
      · rename_i ht
        rw [Finset.sum_eq_zero]
        · simp
        · intro j hj
          have : b ≠ idBits m (e.1 / 2 ^ ts.length * 2 ^ ts.length + j) :=
            fun hc' => ht ⟨j, Finset.mem_range.1 hj, hc'⟩
          simp [ket, this]
    refine (norm_add_le _ _).trans ((add_le_add (hb b) h2).trans ?_)
    unfold touched
    rw [List.countP_append, List.countP_singleton]
    by_cases ht : Touches m (2 ^ ts.length) b e
    · simp only [ht, if_true, decide_true]; push_cast; linarith
    · simp only [ht, if_false, decide_false]; simp

/-- A wave with small amplitudes on the basis states of `n` qubits. -/
theorem len_le_sup {m : IMap ℕ} (hi : Inj m) {K : List ℕ} (hK : ∀ k ∈ K, BitsIn m k) {χ : Wave}
    (hs : ∀ b, χ b ≠ 0 → ∃ k ∈ K, b = idBits m k) {B : ℝ} (hB0 : 0 ≤ B) (hB : ∀ b, ‖χ b‖ ≤ B) :
    len χ ≤ B * √(2 ^ m.keys.length) := by
  classical
  apply len_le_of (by positivity)
  rw [mul_pow, Real.sq_sqrt (by positivity)]
  set S := K.toFinset.image (idBits m) with hS
  have hsub : (support fun b => Complex.normSq (χ b)) ⊆ ↑S := by
    intro b hb
    have : χ b ≠ 0 := by intro h0; apply hb; simp [h0]
    obtain ⟨k, hk, rfl⟩ := hs b this
    exact Finset.mem_coe.2 (Finset.mem_image.2 ⟨k, List.mem_toFinset.2 hk, rfl⟩)
  unfold normSq
  rw [finsum_eq_sum_of_support_subset _ hsub]
  have h1 : ∑ b ∈ S, Complex.normSq (χ b) ≤ ∑ _b ∈ S, B ^ 2 := by
    apply Finset.sum_le_sum
    intro b _
    rw [Complex.normSq_eq_norm_sq]
    exact pow_le_pow_left₀ (norm_nonneg _) (hB b) 2
  refine h1.trans ?_
  rw [Finset.sum_const, nsmul_eq_mul, mul_comm]
  apply mul_le_mul_of_nonneg_left _ (by positivity)
  have h2 : Core m (K.dedup.map (fun k => (k, (0 : ℂ)))) := by
    refine ⟨hi, ?_, ?_⟩
    · rw [List.map_map]
      have : Prod.fst ∘ (fun k : ℕ => (k, (0 : ℂ))) = id := rfl
      rw [this, List.map_id]
      exact List.nodup_dedup _
    · intro e he
      obtain ⟨k, hk, rfl⟩ := List.mem_map.1 he
      exact hK k (List.mem_dedup.1 hk)
  have h3 := Core.length_le h2
  rw [List.length_map] at h3
  have h4 : S.card ≤ K.dedup.length := by
    refine Finset.card_image_le.trans ?_
    rw [List.card_toFinset]
  exact_mod_cast h4.trans h3

theorem scatter_reach (hf : Fine A) {m : IMap ℕ} {ts : List ℕ} (hn : ts.Nodup) (h : Low m ts) {u : Mat}
    {U : ℕ → ℕ → ℂ} (hg : Given A u (2 ^ ts.length) U) {l : List (ℕ × ℂ)} (hc : Core m l)
    (hl : len (view m l) + (2 ^ ts.length : ℕ) * cost A m.keys.length ≤ 3 / 2) :
    Core m (l.foldl (Rnd.scatter A u) []) ∧
      Near ((2 ^ ts.length : ℕ) * cost A m.keys.length) (view m (l.foldl (Rnd.scatter A u) []))
        (matL [] U ts (view m l)) := by
  have hs0 := slip_nonneg hf
  have hiso := iso_matL (cs := []) (ts := ts) (by simpa using hn) hg.unitary
  have h1 : (1 : ℝ) ≤ √(2 ^ m.keys.length) := Real.one_le_sqrt.2 (one_le_pow₀ (by norm_num))
  have hn0 : (0 : ℝ) ≤ ((2 ^ ts.length : ℕ) : ℝ) := Nat.cast_nonneg _
  have hlen0 := len_nonneg (view m l)
  have hcost : ((2 ^ ts.length : ℕ) : ℝ) * slip A ≤ (2 ^ ts.length : ℕ) * cost A m.keys.length := by
    rw [cost_eq]
    apply mul_le_mul_of_nonneg_left _ hn0
    nlinarith
  have hcost0 : 0 ≤ ((2 ^ ts.length : ℕ) : ℝ) * slip A := by positivity
  obtain ⟨hc1, hb⟩ := scatter_fold hf hn h hg (by linarith) l [] [] (by simpa using hc) (by
    rw [List.nil_append]; linarith) ⟨hc.inj, by simp, by simp⟩ (by intro b; simp [touched])
  rw [List.nil_append] at hb
  refine ⟨hc1, finSupp_view _ _, hiso.fin (finSupp_view _ _), ?_⟩
  obtain ⟨hc2, hv2⟩ := scatter_all hn h (u := ⟨2 ^ ts.length, 2 ^ ts.length, U⟩) rfl l [] ⟨hc.inj, by simp, by simp⟩ hc.bits
  rw [view_nil, zero_add] at hv2
  set X := l.foldl (Rnd.scatter A u) [] with hX
  set Y := l.foldl (Sim.scatter 0 ⟨2 ^ ts.length, 2 ^ ts.length, U⟩) [] with hY
  have := len_le_sup hc.inj (K := X.map Prod.fst ++ Y.map Prod.fst) (χ := view m X - matL [] U ts (view m l))
    (B := (2 ^ ts.length : ℕ) * slip A) (by
      intro k hk
      rcases List.mem_append.1 hk with hk | hk
      · obtain ⟨e, he, rfl⟩ := List.mem_map.1 hk; exact hc1.bits e he
      · obtain ⟨e, he, rfl⟩ := List.mem_map.1 hk; exact hc2.bits e he) (by
      intro b hb'
      by_contra hno
      apply hb'
      have hx : view m X b = 0 := by
        apply view_apply_of_not_mem
        intro e he heq
        exact hno ⟨e.1, List.mem_append.2 (.inl (List.mem_map_of_mem he)), heq.symm⟩
      have hy : view m Y b = 0 := by
        apply view_apply_of_not_mem
        intro e he heq
        exact hno ⟨e.1, List.mem_append.2 (.inr (List.mem_map_of_mem he)), heq.symm⟩
      rw [Pi.sub_apply, hx, ← hv2, hy, sub_zero]) hcost0 (by
      intro b
      rw [Pi.sub_apply]
      refine (hb b).trans ?_
      rw [mul_comm]
      exact mul_le_mul_of_nonneg_right (by exact_mod_cast touched_le h hc b) hs0)
  refine this.trans (le_of_eq ?_)
  rw [cost_eq]; ring

end Qir.Rnd
