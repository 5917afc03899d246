import Verif.Model.RoundedApply
import Verif.Proof.RndGates2
import Verif.Proof.Apply2

/-! The multiplication of `apply` with rounded arithmetic. -/

noncomputable section
namespace Qir.Rnd
open Spec Function Sim Tol

variable {A : Arith}

/-- What one addition to an amplitude may go wrong by. -/
def slip (A : Arith) : ℝ := 2 * A.eps * √2

theorem slip_nonneg (hf : Fine A) : 0 ≤ slip A := by have := hf.pos; unfold slip; positivity

theorem sqrt_two_ge : (7 / 5 : ℝ) ≤ √2 := by
  apply Real.le_sqrt_of_sq_le; norm_num

theorem cost_eq (A : Arith) (n : ℕ) : cost A n = slip A * √(2 ^ n) := rfl

theorem mul_comm' (z w : ℂ) : A.mul z w = A.mul w z := by
  unfold Arith.mul
  rw [mul_comm z.re w.re, mul_comm z.im w.im, mul_comm z.re w.im, mul_comm z.im w.re, add_comm]

theorem norm_le_of_nearlyZero {z : ℂ} (he : 0 ≤ A.eps) (h : NearlyZero A.eps z) : ‖z‖ ≤ √2 * A.eps := by
  have h1 := normSq_le_of_nearlyZero h
  rw [Complex.normSq_eq_norm_sq] at h1
  apply le_of_sq_le_sq _ (by positivity)
  rw [mul_pow, Real.sq_sqrt (by norm_num)]
  exact h1

/-- A rounded addition to the map is an addition to the map of a slightly different number. -/
theorem addEntry_as {loc : ℕ} (w : ℂ) {acc : List (ℕ × ℂ)} (h : (acc.map Prod.fst).Nodup) :
    ∃ c, Rnd.addEntry A loc w acc = Sim.addEntry loc c acc ∧
      ((∃ z, (loc, z) ∈ acc ∧ c = A.add z w - z) ∨ ((∀ e ∈ acc, e.1 ≠ loc) ∧ c = w)) := by
  unfold Rnd.addEntry Sim.addEntry
  by_cases hc : (acc.any fun e => e.1 == loc) = true
  · obtain ⟨⟨k, z⟩, he, hl⟩ := List.any_eq_true.1 hc
    simp only [beq_iff_eq] at hl
    subst hl
    refine ⟨A.add z w - z, ?_, .inl ⟨z, he, rfl⟩⟩
    rw [if_pos hc, if_pos hc]
    apply List.map_congr_left
    intro x hx
    by_cases hk : x.1 = k
    · have : x = (k, z) := by
        have := List.inj_on_of_nodup_map h hx he hk
        exact this
      subst this
      simp
    · simp [hk]
  · refine ⟨w, by rw [if_neg hc, if_neg hc], .inr ⟨?_, rfl⟩⟩
    intro e he hl
    exact hc (List.any_eq_true.2 ⟨e, he, by simpa using hl⟩)

theorem view_without {m : IMap ℕ} {loc : ℕ} {v : ℂ} {acc : List (ℕ × ℂ)} (h : (acc.map Prod.fst).Nodup)
    (hm : (loc, v) ∈ acc) :
    view m (acc.filter (fun e => decide (e.1 ≠ loc))) = view m acc + (-v) • ket (idBits m loc) := by
  induction acc with
  | nil => simp at hm
  | cons a acc ih =>
    simp only [List.map_cons, List.nodup_cons] at h
    by_cases ha : a.1 = loc
    · have ha2 : a = (loc, v) := by
        rcases List.mem_cons.1 hm with h1 | h1
        · exact h1.symm
        · exact absurd (List.mem_map_of_mem (f := Prod.fst) h1) (by rw [← ha]; exact h.1)
      have hrest : acc.filter (fun e => decide (e.1 ≠ loc)) = acc := by
        rw [List.filter_eq_self]
        intro x hx
        simp only [decide_eq_true_eq]
        intro hc
        apply h.1
        rw [ha, ← hc]
        exact List.mem_map_of_mem hx
      rw [List.filter_cons_of_neg (by simp [ha]), hrest, view_cons, ha2]
      simp only [entryWave]
      module
    · have hm' : (loc, v) ∈ acc := by
        rcases List.mem_cons.1 hm with h1 | h1
        · exact absurd (by rw [← h1]) ha
        · exact h1
      rw [List.filter_cons_of_pos (by simp [ha]), view_cons, view_cons, ih h.2 hm']
      abel

theorem view_drop {m : IMap ℕ} (he : 0 ≤ A.eps) (loc : ℕ) {acc : List (ℕ × ℂ)} (h : (acc.map Prod.fst).Nodup) :
    ∃ y : ℂ, ‖y‖ ≤ √2 * A.eps ∧ view m (dropZero A.eps loc acc) = view m acc + y • ket (idBits m loc) := by
  have h0 : ∃ y : ℂ, ‖y‖ ≤ √2 * A.eps ∧ view m acc = view m acc + y • ket (idBits m loc) :=
    ⟨0, by rw [norm_zero]; positivity, by simp⟩
  unfold dropZero
  split
  · rename_i v hv
    split
    · rename_i hz
      exact ⟨-v, by rw [norm_neg]; exact norm_le_of_nearlyZero he hz, view_without h (lookupMap_mem hv)⟩
    · exact h0
  · exact h0

/-- The addition of one product to the map. -/
theorem put_spec (hf : Fine A) {m : IMap ℕ} {acc : List (ℕ × ℂ)} (hc : Core m acc) {loc : ℕ} (hb : BitsIn m loc)
    {u w a : ℂ} (hu : ‖u - w‖ ≤ 2 * A.v) (hw : ‖w‖ ≤ 1) (ha : ‖a‖ ≤ 3 / 2)
    (hz : ‖view m acc (idBits m loc)‖ ≤ 3) :
    Core m (dropZero A.eps loc (Rnd.addEntry A loc (A.mul u a) acc)) ∧
      ∃ y : ℂ, ‖y‖ ≤ slip A ∧ view m (dropZero A.eps loc (Rnd.addEntry A loc (A.mul u a) acc)) =
        view m acc + (w * a + y) • ket (idBits m loc) := by
  have hv := A.v_nonneg
  have hv2 := hf.small
  have hfine := hf.fine
  have heps := hf.pos
  obtain ⟨c, h1, h2⟩ := addEntry_as (A := A) (loc := loc) (A.mul u a) hc.nodup
  rw [h1]
  obtain ⟨h3, h4⟩ := addEntry_keys loc c acc hc.nodup
  have hs := dropZero_sublist A.eps loc (Sim.addEntry loc c acc)
  refine ⟨⟨hc.inj, (hs.map Prod.fst).nodup h3, ?_⟩, ?_⟩
  · intro x hx
    rcases h4 x (hs.mem hx) with h5 | ⟨e', h5, h6⟩
    · rw [h5]; exact hb
    · rw [← h6]; exact hc.bits e' h5
  · obtain ⟨y, h5, h6⟩ := view_drop (A := A) (m := m) heps.le loc h3
    rw [h6, view_addEntry _ _ _ _ hc.nodup]
    have hm := mul_err' hf a (by norm_num) hu hw
    rw [mul_comm' a u, mul_comm a w] at hm
    have hm' : ‖A.mul u a - w * a‖ ≤ 20 * A.v := by nlinarith
    have hcw : ‖c - w * a‖ ≤ 28 * A.v := by
      rcases h2 with ⟨z, hz1, rfl⟩ | ⟨_, rfl⟩
      · have hz2 := view_apply_mem hc hz1
        simp only at hz2
        rw [hz2] at hz
        have h7 := add_err (A := A) z (A.mul u a)
        have h8 := A.u_le_v
        have h9 := A.eta_le_v
        have hwa : ‖w * a‖ ≤ 3 / 2 := by rw [norm_mul]; nlinarith [norm_nonneg a, norm_nonneg w]
        have h10 : ‖A.mul u a‖ ≤ 20 * A.v + 3 / 2 := by
          have := norm_add_le (A.mul u a - w * a) (w * a)
          rw [sub_add_cancel] at this
          linarith
        have h11 := norm_add_le z (A.mul u a)
        have h12 : A.u * ‖z + A.mul u a‖ ≤ A.v * 5 :=
          mul_le_mul h8 (by linarith) (norm_nonneg _) hv
        rw [show A.add z (A.mul u a) - z - w * a =
          (A.add z (A.mul u a) - (z + A.mul u a)) + (A.mul u a - w * a) by ring]
        refine (norm_add_le _ _).trans ?_
        linarith
      · linarith
    refine ⟨c - w * a + y, ?_, ?_⟩
    · refine (norm_add_le _ _).trans ?_
      have := sqrt_two_ge
      unfold slip
      nlinarith
    · module

theorem norm_unitary {n : ℕ} {U : ℕ → ℕ → ℂ} (hU : Unitary n U) {j l : ℕ} (hj : j < n) (hl : l < n) : ‖U j l‖ ≤ 1 := by
  have h := hU l hl l hl
  rw [if_pos rfl] at h
  have h1 : ∑ j ∈ Finset.range n, ‖U j l‖ ^ 2 = 1 := by
    have : (∑ j ∈ Finset.range n, ((‖U j l‖ ^ 2 : ℝ) : ℂ)) = 1 := by
      rw [← h]
      apply Finset.sum_congr rfl
      intro i _
      rw [← Complex.normSq_eq_norm_sq, Complex.normSq_eq_conj_mul_self]
    exact_mod_cast this
  have h2 := Finset.single_le_sum (f := fun j => ‖U j l‖ ^ 2) (fun _ _ => by positivity) (Finset.mem_range.2 hj)
  rw [h1] at h2
  nlinarith [norm_nonneg (U j l)]

/-- The matrix in use is, but for rounding, the unitary matrix `U`. -/
structure Given (A : Arith) (u : Mat) (n : ℕ) (U : ℕ → ℕ → ℂ) : Prop where
  rows : u.rows = n
  unitary : Unitary n U
  close : ∀ j < n, ∀ l < n, ‖u.entry j l - U j l‖ ≤ 2 * A.v

theorem scatter_near (hf : Fine A) {m : IMap ℕ} {ts : List ℕ} (hn : ts.Nodup) (h : Low m ts) {u : Mat}
    {U : ℕ → ℕ → ℂ} (hg : Given A u (2 ^ ts.length) U) {e : ℕ × ℂ} (he : BitsIn m e.1) (ha : ‖e.2‖ ≤ 3 / 2)
    {acc : List (ℕ × ℂ)} (hc : Core m acc) (hz : ∀ b, ‖view m acc b‖ ≤ 3) :
    Core m (Rnd.scatter A u acc e) ∧ ∃ y : ℕ → ℂ, (∀ j, ‖y j‖ ≤ slip A) ∧
      view m (Rnd.scatter A u acc e) = view m acc + matL [] U ts (entryWave m e) +
        ∑ j ∈ Finset.range (2 ^ ts.length), y j • ket (idBits m (e.1 / 2 ^ ts.length * 2 ^ ts.length + j)) := by
  classical
  set n := 2 ^ ts.length with hnD
  have hpos : 0 < n := by rw [hnD]; positivity
  have hl : e.1 % n < n := Nat.mod_lt _ hpos
  have hs0 := slip_nonneg hf
  have key : ∀ js : List ℕ, js.Nodup → (∀ j ∈ js, j < n) → ∀ acc, Core m acc →
      (∀ j ∈ js, ‖view m acc (idBits m (e.1 / n * n + j))‖ ≤ 3) →
      Core m (js.foldl (fun accum j => dropZero A.eps (e.1 / n * n + j)
        (Rnd.addEntry A (e.1 / n * n + j) (A.mul (u.entry j (e.1 % n)) e.2) accum)) acc) ∧
      ∃ y : ℕ → ℂ, (∀ j, ‖y j‖ ≤ slip A) ∧
      view m (js.foldl (fun accum j => dropZero A.eps (e.1 / n * n + j)
        (Rnd.addEntry A (e.1 / n * n + j) (A.mul (u.entry j (e.1 % n)) e.2) accum)) acc) =
      view m acc + (js.map (fun j => (U j (e.1 % n) * e.2 + y j) • ket (idBits m (e.1 / n * n + j)))).sum := by
    intro js
    induction js with
    | nil => intro _ _ acc hc _; exact ⟨hc, fun _ => 0, by simpa using hs0, by simp⟩
    | cons j js ih =>
      intro hnd hj acc hc hz
      rw [List.foldl_cons]
      have hjn := hj j (by simp)
      have hb := bitsIn_split h he hjn
      rw [← hnD] at hb
      obtain ⟨hc1, y1, hy1, hv1⟩ := put_spec hf hc hb (hg.close j hjn _ hl) (norm_unitary hg.unitary hjn hl) ha (hz j (by simp))
      rw [List.nodup_cons] at hnd
      obtain ⟨hc2, y2, hy2, hv2⟩ := ih hnd.2 (fun j hj' => hj j (by simp [hj'])) _ hc1 (by
        intro i hi
        rw [hv1, Pi.add_apply, Pi.smul_apply]
        have hb' := bitsIn_split h he (hj i (by simp [hi]))
        rw [← hnD] at hb'
        have hne : idBits m (e.1 / n * n + i) ≠ idBits m (e.1 / n * n + j) := by
          intro hc'
          have := idBits_inj hb' hb hc'
          have : i = j := by omega
          subst this
          exact hnd.1 hi
        have : ket (idBits m (e.1 / n * n + j)) (idBits m (e.1 / n * n + i)) = 0 := by simp [ket, hne]
        rw [this, smul_zero, add_zero]
        exact hz i (by simp [hi]))
      refine ⟨hc2, Function.update y2 j y1, ?_, ?_⟩
      · intro i
        by_cases hi : i = j
        · subst hi; simpa using hy1
        · rw [Function.update_of_ne hi]; exact hy2 i
      · rw [hv2, hv1, List.map_cons, List.sum_cons, Function.update_self]
        have : js.map (fun i => (U i (e.1 % n) * e.2 + Function.update y2 j y1 i) • ket (idBits m (e.1 / n * n + i))) =
            js.map (fun i => (U i (e.1 % n) * e.2 + y2 i) • ket (idBits m (e.1 / n * n + i))) := by
          apply List.map_congr_left
          intro i hi
          have hij : i ≠ j := by rintro rfl; exact hnd.1 hi
          rw [Function.update_of_ne hij]
        rw [this]
        abel
  unfold Rnd.scatter
  simp only [hg.rows]
  set js := (List.range n).filter (fun j => !decide (NearlyZero A.eps (u.entry j (e.1 % n)))) with hjs
  have hnd : js.Nodup := List.nodup_range.filter _
  obtain ⟨hc1, y, hy, hv⟩ := key js hnd (fun j hj => List.mem_range.1 (List.mem_filter.1 hj).1) acc hc
    (fun j _ => hz _)
  refine ⟨hc1, fun j => if j ∈ js then y j else if j < n then -(U j (e.1 % n) * e.2) else 0, ?_, ?_⟩
  · intro j
    dsimp only
    split
    · exact hy j
    · split
      · rename_i h1 h2
        have h3 : NearlyZero A.eps (u.entry j (e.1 % n)) := by
          by_contra hc'
          exact h1 (List.mem_filter.2 ⟨List.mem_range.2 h2, by simp [hc']⟩)
        have h4 := norm_le_of_nearlyZero hf.nonneg h3
        have h5 := hg.close j h2 _ hl
        have h6 : ‖U j (e.1 % n)‖ ≤ √2 * A.eps + 2 * A.v := by
          have := norm_sub_le_norm_sub_add_norm_sub (U j (e.1 % n)) (u.entry j (e.1 % n)) 0
          rw [sub_zero, sub_zero, norm_sub_rev] at this
          linarith
        rw [norm_neg, norm_mul]
        have hv0 := A.v_nonneg
        have hfine := hf.fine
        have heps := hf.pos
        have hsq := sqrt_two_ge
        have h7 : ‖U j (e.1 % n)‖ * ‖e.2‖ ≤ (√2 * A.eps + 2 * A.v) * (3 / 2) :=
          mul_le_mul h6 ha (norm_nonneg _) (by positivity)
        unfold slip
        nlinarith
      · simpa using hs0
  · rw [hv, add_assoc]
    congr 1
    rw [entryWave, map_smul, matL_ket hn, rowOf_idBits h, Finset.smul_sum, ← Finset.sum_add_distrib, ← hnD]
    have h2 : (js.map (fun j => (U j (e.1 % n) * e.2 + y j) • ket (idBits m (e.1 / n * n + j)))).sum =
        ∑ j ∈ Finset.range n, if j ∈ js then (U j (e.1 % n) * e.2 + y j) • ket (idBits m (e.1 / n * n + j)) else 0 := by
      rw [← Finset.sum_filter]
      have : Finset.filter (fun j => j ∈ js) (Finset.range n) = js.toFinset := by
        ext j
        simp only [Finset.mem_filter, Finset.mem_range, List.mem_toFinset]
        exact ⟨fun hh => hh.2, fun hh => ⟨List.mem_range.1 (List.mem_filter.1 hh).1, hh⟩⟩
      rw [this, List.sum_toFinset _ hnd]
    rw [h2]
    apply Finset.sum_congr rfl
    intro j hj
    have hjn := Finset.mem_range.1 hj
    rw [setRow_idBits hn hc.inj h _ (by rw [← hnD]; exact hjn), ← hnD, smul_smul]
    by_cases hjj : j ∈ js
    · simp only [if_pos hjj]; module
    · simp only [if_neg hjj, if_pos hjn]; module

end Qir.Rnd
