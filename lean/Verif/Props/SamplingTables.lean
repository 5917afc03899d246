import Verif.Proof.ChanceParts
import Verif.Props.Rearrange
import Verif.Props.SamplingRounded

/-!
# Tables of relative frequencies from finitely many shots (C95)

`C95_tail` is about one set of outputs.  Here are whole tables: several sets at once, all sets at once, and telling two
programs apart by their outputs.
-/

noncomputable section
namespace Qir.Back
open Spec Sim Qir.Out Run MeasureTheory

variable {env : Env} {fmt : Fmt} {p q : Prog QCall QAns}

open Classical in
/-- **C95**, tables: if the program fails with probability zero, then all of `m` relative frequencies are within `t` of the
probabilities except with probability `2 m exp (-2 n t²)`. -/
theorem C95_table {ι : Type} (he : env.eps = 0) (hm : ∀ r, InUnit r → Meaningful p (Device.init r))
    (hn : ∀ (r : ℕ → ℝ) (os : ℕ → ℕ), InUnit r → NoTurn env fmt p (Backend.new r os))
    (hf : chance p blank (failsWith Set.univ) = 0) (s : Backend) (I : Finset ι) (hI : I.Nonempty) (B : ι → Set Bytes)
    {n : ℕ} (h0 : 0 < n) {t : ℝ} (ht : 0 ≤ t) :
    streams {r | ¬ ∃ outs, written env fmt p n (resampled r s) = .ok outs ∧
      ∀ i ∈ I, |(outs.countP (· ∈ B i) : ℝ) / n - chance p blank (records {es | lines es ∈ B i})| < t} ≤
        ENNReal.ofReal (I.card * (2 * Real.exp (-2 * n * t ^ 2))) := by
  have hsub : {r | ¬ ∃ outs, written env fmt p n (resampled r s) = .ok outs ∧
      ∀ i ∈ I, |(outs.countP (· ∈ B i) : ℝ) / n - chance p blank (records {es | lines es ∈ B i})| < t} ⊆
      ⋃ i ∈ I, {r | ¬ ∃ outs, written env fmt p n (resampled r s) = .ok outs ∧
        |(outs.countP (· ∈ B i) : ℝ) / n - chance p blank (records {es | lines es ∈ B i})| < t} := by
    intro r hr
    by_contra hc
    have hc : ∀ i ∈ I, ∃ outs, written env fmt p n (resampled r s) = .ok outs ∧
        |(outs.countP (· ∈ B i) : ℝ) / n - chance p blank (records {es | lines es ∈ B i})| < t :=
      fun i hi => not_not.1 fun hx => hc (Set.mem_biUnion (Finset.mem_coe.2 hi) hx)
    obtain ⟨i, hi⟩ := hI
    obtain ⟨outs, e, _⟩ := hc i hi
    refine hr ⟨outs, e, fun j hj => ?_⟩
    obtain ⟨outs', e', h'⟩ := hc j hj
    rw [e] at e'
    cases e'
    exact h'
  refine (measure_mono hsub).trans ((measure_biUnion_finset_le I _).trans
    ((Finset.sum_le_sum fun i _ => C95_tail he hm hn hf s (B i) h0 ht).trans ?_))
  rw [Finset.sum_const, nsmul_eq_mul, ENNReal.ofReal_mul (Nat.cast_nonneg _), ENNReal.ofReal_natCast]

open Classical in
/-- **C95**, the whole distribution: if the program writes one of the byte strings in `L` with probability one, then the
relative frequencies of *all* sets of outputs are within `t` of the probabilities, at the same time, except with probability
`2 ^ (|L| + 1) exp (-2 n t²)`. -/
theorem C95_all (he : env.eps = 0) (hm : ∀ r, InUnit r → Meaningful p (Device.init r))
    (hn : ∀ (r : ℕ → ℝ) (os : ℕ → ℕ), InUnit r → NoTurn env fmt p (Backend.new r os)) (s : Backend) (L : Finset Bytes)
    (hL : chance p blank (records {es | lines es ∈ L}) = 1) {n : ℕ} (h0 : 0 < n) {t : ℝ} (ht : 0 ≤ t) :
    streams {r | ¬ ∃ outs, written env fmt p n (resampled r s) = .ok outs ∧
      ∀ B : Set Bytes, |(outs.countP (· ∈ B) : ℝ) / n - chance p blank (records {es | lines es ∈ B})| < t} ≤
        ENNReal.ofReal (2 ^ (L.card + 1) * Real.exp (-2 * n * t ^ 2)) := by
  have htot := C57_total hm
  have hparts := chance_parts p blank (records Set.univ) (records {es | lines es ∈ L})
  rw [Set.inter_eq_right.2 (show records {es | lines es ∈ L} ⊆ records Set.univ from fun o h => ⟨trivial, h.2⟩), hL]
    at hparts
  have hf0 := chance_nonneg p blank (failsWith Set.univ)
  have hd0 := chance_nonneg p blank (records Set.univ \ records {es | lines es ∈ L})
  have hf : chance p blank (failsWith Set.univ) = 0 := by linarith
  have hout : ∀ S : Set (List Event × Bool), S ⊆ records Set.univ \ records {es | lines es ∈ L} → chance p blank S = 0 :=
    fun S hS => le_antisymm ((chance_less hS blank).trans (by linarith)) (chance_nonneg _ _ _)
  have hP : ∀ B : Set Bytes, chance p blank (records {es | lines es ∈ B}) =
      chance p blank (records {es | lines es ∈ B ∩ L}) := by
    intro B
    rw [chance_parts p blank (records {es | lines es ∈ B}) (records {es | lines es ∈ L}),
      hout (records {es | lines es ∈ B} \ _) (fun o h => ⟨⟨trivial, h.1.2⟩, h.2⟩), add_zero]
    congr 1
    ext o
    exact ⟨fun h => ⟨⟨h.1.1, h.2.1⟩, h.1.2⟩, fun h => ⟨⟨h.1.1, h.2⟩, h.1.2, h.2⟩⟩
  have hin : ∀ᵐ r ∂streams, ∀ outs, written env fmt p n (resampled r s) = .ok outs → ∀ b ∈ outs, b ∈ L := by
    obtain ⟨C, hC⟩ : ∃ C : Set Bytes, C = (L : Set Bytes)ᶜ := ⟨_, rfl⟩
    have hk : ∀ k : ℕ, ∀ᵐ r ∂streams, ¬ ∃ outs, written env fmt p n (resampled r s) = .ok outs ∧
        outs.countP (· ∈ C) = k + 1 := by
      intro k
      have h := C95_count he hm hn s C n (k + 1)
      rw [hout (records {es | lines es ∈ C})
        (fun o h => ⟨⟨trivial, h.2⟩, fun h' => (hC ▸ h.1 : lines o.1 ∈ (L : Set Bytes)ᶜ) h'.1⟩), pow_succ, mul_zero, mul_zero, zero_mul, ENNReal.ofReal_zero] at h
      filter_upwards [measure_eq_zero_iff_ae_notMem.1 h] with r hr hx using hr hx
    filter_upwards [ae_all_iff.2 hk] with r hr outs e b hb
    by_contra hbL
    have hpos : 0 < outs.countP (· ∈ C) := List.countP_pos_iff.2 ⟨b, hb, by simpa [hC] using hbL⟩
    exact hr (outs.countP (· ∈ C) - 1) ⟨outs, e, by omega⟩
  have h := C95_table he hm hn hf s L.powerset ⟨∅, by simp⟩ (fun C => (C : Set Bytes)) h0 ht
  rw [Finset.card_powerset, Nat.cast_pow, Nat.cast_ofNat, ← mul_assoc, ← pow_succ] at h
  refine (measure_mono_ae ?_).trans h
  filter_upwards [hin] with r hr hb hc
  obtain ⟨outs, e, hc⟩ := hc
  refine hb ⟨outs, e, fun B => ?_⟩
  have h1 := hc (L.filter (· ∈ B)) (by simp)
  have h2 : ((L.filter (· ∈ B) : Finset Bytes) : Set Bytes) = B ∩ L := by ext; simp [and_comm]
  rw [h2, ← hP] at h1
  have h3 : outs.countP (· ∈ B) = outs.countP (· ∈ ((L.filter (· ∈ B) : Finset Bytes) : Set Bytes)) :=
    List.countP_congr fun b hb => by simp [hr outs e b hb]
  rw [h3]
  convert h1 using 5
  simp [and_comm]

open Classical in
/-- **C95**, telling programs apart: if one program writes something in `B` with a probability larger by `2 t` or more than
another one, then it is found on the right side of the middle except with probability `2 exp (-2 n t²)`, and so is the other
one. -/
theorem C95_apart (he : env.eps = 0) (hm : ∀ r, InUnit r → Meaningful p (Device.init r))
    (hn : ∀ (r : ℕ → ℝ) (os : ℕ → ℕ), InUnit r → NoTurn env fmt p (Backend.new r os))
    (hf : chance p blank (failsWith Set.univ) = 0) (hm' : ∀ r, InUnit r → Meaningful q (Device.init r))
    (hn' : ∀ (r : ℕ → ℝ) (os : ℕ → ℕ), InUnit r → NoTurn env fmt q (Backend.new r os))
    (hf' : chance q blank (failsWith Set.univ) = 0) (s : Backend) (B : Set Bytes) {n : ℕ} (h0 : 0 < n) {t m : ℝ}
    (ht : 0 ≤ t) (hp : m + t ≤ chance p blank (records {es | lines es ∈ B}))
    (hq : chance q blank (records {es | lines es ∈ B}) ≤ m - t) :
    streams {r | ¬ ∃ outs, written env fmt p n (resampled r s) = .ok outs ∧ m < (outs.countP (· ∈ B) : ℝ) / n} ≤
      ENNReal.ofReal (2 * Real.exp (-2 * n * t ^ 2)) ∧
    streams {r | ¬ ∃ outs, written env fmt q n (resampled r s) = .ok outs ∧ (outs.countP (· ∈ B) : ℝ) / n < m} ≤
      ENNReal.ofReal (2 * Real.exp (-2 * n * t ^ 2)) := by
  refine ⟨(measure_mono ?_).trans (C95_tail he hm hn hf s B h0 ht),
    (measure_mono ?_).trans (C95_tail he hm' hn' hf' s B h0 ht)⟩
  · rintro r hr ⟨outs, e, h⟩
    exact hr ⟨outs, e, by linarith [(abs_lt.1 h).1]⟩
  · rintro r hr ⟨outs, e, h⟩
    exact hr ⟨outs, e, by linarith [(abs_lt.1 h).2]⟩

/-! ### The coin -/

open Classical in
theorem coin_both : chance coin blank (records {es | lines es ∈ ({bitLine false, bitLine true} : Finset Bytes)}) = 1 := by
  rw [coin_chance]
  simp only [Set.mem_ofPred_eq, coin_lines]
  simp
  norm_num

open Classical in
example (he : env.eps = 0) (s : Backend) :
    streams {r | ¬ ∃ outs, written env fmt coin 1000 (resampled r s) = .ok outs ∧
      ∀ B : Set Bytes, |(outs.countP (· ∈ B) : ℝ) / (1000 : ℕ) - chance coin blank (records {es | lines es ∈ B})| <
        6 / 100} ≤ ENNReal.ofReal (8 / 1000) := by
  refine (C95_all (fmt := fmt) he (fun r _ => coin_meaningful r) (fun r os _ => coin_noY.noTurn _) s _ coin_both
    (n := 1000) (by norm_num) (t := 6 / 100) (by norm_num)).trans (ENNReal.ofReal_le_ofReal ?_)
  have hc : ({bitLine false, bitLine true} : Finset Bytes).card ≤ 2 := Finset.card_le_two
  have h1 : (2 : ℝ) ^ (({bitLine false, bitLine true} : Finset Bytes).card + 1) ≤ 8 :=
    (pow_le_pow_right₀ (by norm_num) (Nat.succ_le_succ hc)).trans (by norm_num)
  have h2 := mul_le_mul h1 RBack.thousand (Real.exp_pos _).le (by norm_num)
  linarith

/-- Output a register that is zero. -/
def zeroOnly : Prog QCall QAns := .call (.writeResult false 0) fun _ => .call (.recordResult 0 none) fun _ => .done

theorem zeroOnly_fixed : Fixed zeroOnly :=
  ⟨trivial, trivial, trivial, trivial, fun _ => ⟨trivial, trivial, trivial, trivial, fun _ => trivial⟩⟩

open Classical in
theorem zeroOnly_chance (S : Set (List Event × Bool)) :
    chance zeroOnly blank S = if ([.record (.result false none)], true) ∈ S then 1 else 0 := rfl

/-- A coin is told from a program that always writes zero by whether ones are written in more than a quarter of the
shots. -/
example (he : env.eps = 0) (s : Backend) {n : ℕ} (h0 : 0 < n) :
    streams {r | ¬ ∃ outs, written env fmt coin n (resampled r s) = .ok outs ∧
      1 / 4 < (outs.count (bitLine true) : ℝ) / n} ≤ ENNReal.ofReal (2 * Real.exp (-2 * n * (1 / 4) ^ 2)) ∧
    streams {r | ¬ ∃ outs, written env fmt zeroOnly n (resampled r s) = .ok outs ∧
      (outs.count (bitLine true) : ℝ) / n < 1 / 4} ≤ ENNReal.ofReal (2 * Real.exp (-2 * n * (1 / 4) ^ 2)) := by
  classical
  have h := C95_apart (fmt := fmt) he (fun r _ => coin_meaningful r) (fun r os _ => coin_noY.noTurn _) coin_sure
    (fun _ _ => zeroOnly_fixed.meaningful rfl) (fun _ _ _ => zeroOnly_fixed.noY.noTurn _)
    (by rw [zeroOnly_chance]; simp [failsWith]) s {bitLine true} h0 (t := 1 / 4) (m := 1 / 4) (by norm_num)
    (by rw [coin_bit]; norm_num) (by
      have hne : bitLine false ≠ bitLine true := fun h => by cases bitLine_inj h
      rw [zeroOnly_chance, if_neg]
      · norm_num
      · rintro ⟨hx, _⟩
        have hx : lines [.record (.result false none)] ∈ ({bitLine true} : Set Bytes) := hx
        rw [coin_lines] at hx
        exact hne hx)
  simpa only [countP_single _ _ rfl] using h

end Qir.Back

namespace Qir.RBack
open Spec Sim Qir.Out Run Rnd MeasureTheory
open Qir.Back (Backend Fmt streams blank records resampled chance coin coin_noY bitLine coin_bit)

variable {A : Arith} {N W M : ℕ} {T : ℝ} {fmt : Fmt} {p : Prog QCall QAns}

open Classical in
/-- **C95**, tables, the code with rounded arithmetic and its tolerance. -/
theorem C95_rounded_table {ι : Type} (h0 : 0 < A.eps) (h1 : A.eps ≤ 1 / 4) (h2 : 1000 * (A.u + A.eta) ≤ A.eps)
    (hw : Within A N p blank W M T) (hT : A.u * T + A.eta ≤ A.eps)
    (ht : Turnless A fmt p (Backend.new (fun _ => 0) fun _ => 0)) (hf : chance p blank (records Set.univ) = 1)
    (s : Backend) (I : Finset ι) (hI : I.Nonempty) (B : ι → Set Bytes) {n : ℕ} (hn : 0 < n) {t : ℝ} (ht0 : 0 ≤ t) :
    streams.real {r | ¬ ∃ outs, written A fmt p n (resampled r s) = .ok outs ∧
      ∀ i ∈ I, |(outs.countP (· ∈ B i) : ℝ) / n - chance p blank (records {es | lines es ∈ B i})| < t + gap A N W M} ≤
        I.card * (2 * Real.exp (-2 * n * t ^ 2) + n * gap A N W M) := by
  have hsub : {r | ¬ ∃ outs, written A fmt p n (resampled r s) = .ok outs ∧
      ∀ i ∈ I, |(outs.countP (· ∈ B i) : ℝ) / n - chance p blank (records {es | lines es ∈ B i})| < t + gap A N W M} ⊆
      ⋃ i ∈ I, {r | ¬ ∃ outs, written A fmt p n (resampled r s) = .ok outs ∧
        |(outs.countP (· ∈ B i) : ℝ) / n - chance p blank (records {es | lines es ∈ B i})| < t + gap A N W M} := by
    intro r hr
    by_contra hc
    have hc : ∀ i ∈ I, ∃ outs, written A fmt p n (resampled r s) = .ok outs ∧
        |(outs.countP (· ∈ B i) : ℝ) / n - chance p blank (records {es | lines es ∈ B i})| < t + gap A N W M :=
      fun i hi => not_not.1 fun hx => hc (Set.mem_biUnion (Finset.mem_coe.2 hi) hx)
    obtain ⟨i, hi⟩ := hI
    obtain ⟨outs, e, _⟩ := hc i hi
    refine hr ⟨outs, e, fun j hj => ?_⟩
    obtain ⟨outs', e', h'⟩ := hc j hj
    rw [e] at e'
    cases e'
    exact h'
  refine (measureReal_mono hsub (measure_ne_top _ _)).trans ((measureReal_biUnion_finset_le I _).trans
    ((Finset.sum_le_sum fun i _ => C95_rounded h0 h1 h2 hw hT ht hf s (B i) hn ht0).trans ?_))
  rw [Finset.sum_const, nsmul_eq_mul]

/-- Both rows of the table of the coin in double precision, with 1000 shots. -/
example (shuffle : List (ℕ × ℂ) → List (ℕ × ℂ)) (hs : ∀ l, (shuffle l).Perm l) (s : Backend) :
    streams.real {r | ¬ ∃ outs, written (binary64 shuffle hs) fmt coin 1000 (resampled r s) = .ok outs ∧
      ∀ b : Bool, |(outs.count (bitLine b) : ℝ) / 1000 - 1 / 2| < 61 / 1000} ≤ 6 / 1000 := by
  classical
  obtain ⟨h0, h1, h2⟩ := C62_binary64 shuffle hs
  obtain ⟨hT, hg⟩ := C63_binary64 shuffle hs
  have hone : chance coin blank (records Set.univ) = 1 := by
    have h := Back.C57_total (p := coin) fun r _ => Back.coin_meaningful r
    rw [Back.coin_sure] at h
    linarith
  have h := C95_rounded_table (fmt := fmt) h0 h1 h2 (coin_within _) (hT 0 (by norm_num)) (C63_no_turn coin_noY _) hone s
    Finset.univ Finset.univ_nonempty (fun b => {bitLine b}) (n := 1000) (by norm_num) (t := 6 / 100) (by norm_num)
  simp only [coin_bit, Back.countP_single _ _ rfl, Finset.card_univ, Fintype.card_bool] at h
  have hgap : gap (binary64 shuffle hs) 2 67 1 ≤ 1e-6 := by
    refine (hg 2 67 1).trans ?_
    have : √((2 : ℝ) ^ 2) = 2 := by rw [Real.sqrt_sq (by norm_num)]
    rw [this]
    norm_num
  refine (measureReal_mono ?_ (measure_ne_top _ _)).trans (h.trans ?_)
  · intro r hr ⟨outs, e, hc⟩
    refine hr ⟨outs, e, fun b => ?_⟩
    have hc := hc b (Finset.mem_univ b)
    push_cast at hc
    linarith
  · have := thousand
    push_cast at this ⊢
    linarith

end Qir.RBack
