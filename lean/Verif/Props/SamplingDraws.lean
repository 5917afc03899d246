import Verif.Props.SamplingRounded
import Verif.Props.TVDraw

/-!
# Finitely many shots of programs that draw random numbers (C95)

`sources` is the measure of independent uniform samples and words, `odds` the probability on the ideal device
(`Props/OddsDefs.lean`).
-/

noncomputable section
namespace Qir.Back
open Spec Sim Qir.Out Run MeasureTheory

variable {env : Env} {fmt : Fmt} {p : Prog QCall QAns}

theorem iter_length {Ω E : Type} {f : Ω → Except E (E × Ω)} (n : ℕ) (ω : Ω) (es : List E) (h : iter f n ω = .ok es) :
    es.length = n := by
  rw [iter_eq n h]
  simp

open Classical in
/-- **C95**, programs that draw: the number of shots that write something in a set is distributed binomially. -/
theorem C95_drawn_count (he : env.eps = 0) (hm : ∀ r, InUnit r → Proper (settled env fmt p) (Device.init r)) (s : Backend)
    (B : Set Bytes) (n k : ℕ) :
    sources {ω | ∃ outs, written env fmt p n (supplied ω s) = .ok outs ∧ outs.countP (· ∈ B) = k} =
      ENNReal.ofReal (n.choose k * odds byWords (settled env fmt p) blank (records {es | lines es ∈ B}) ^ k *
        odds byWords (settled env fmt p) blank (records {es | lines es ∉ B}) ^ (n - k)) := by
  have hl := deal_lawful blank_fit hm
  have h := (Tally.tallied_law (X := iter (deal (settled env fmt p) blank)) (μ := sources)
    (fun Ts => ⟨hl.measurable_iters _ Ts rfl, hl.iters_law _ Ts rfl⟩) hl.nonneg {es | lines es ∈ B} n k []).2
  rw [Tally.tallied_nil iter_length, List.map_nil, List.prod_nil, one_mul] at h
  refine (measure_congr ?_).trans h
  filter_upwards [sources_good] with ω hω
  apply propext
  show (∃ outs, written env fmt p n (supplied ω s) = .ok outs ∧ outs.countP (· ∈ B) = k) ↔
    ∃ ess, iter (deal (settled env fmt p) blank) n ω = .ok ess ∧ ess.countP (· ∈ {es | lines es ∈ B}) = k
  rw [written_deal he hm _ s hω.1 hω.2]
  cases hi : iter (deal (settled env fmt p) blank) n ω with
  | error e => simp
  | ok ess => simp [List.countP_map, Function.comp_def]

open Classical in
/-- **C95**, programs that draw: if the program fails with probability zero, the relative frequency of a set of outputs is
off by `t` or more with probability at most `2 exp (-2 n t²)`. -/
theorem C95_drawn_tail (he : env.eps = 0) (hm : ∀ r, InUnit r → Proper (settled env fmt p) (Device.init r))
    (hf : odds byWords (settled env fmt p) blank (failsWith Set.univ) = 0) (s : Backend) (B : Set Bytes) {n : ℕ}
    (h0 : 0 < n) {t : ℝ} (ht : 0 ≤ t) :
    sources.real {ω | ¬ ∃ outs, written env fmt p n (supplied ω s) = .ok outs ∧
      |(outs.countP (· ∈ B) : ℝ) / n - odds byWords (settled env fmt p) blank (records {es | lines es ∈ B})| < t} ≤
        2 * Real.exp (-2 * n * t ^ 2) := by
  have h1 : odds byWords (settled env fmt p) blank (records Set.univ) = 1 := by have := C65_total hm; linarith
  have hl := deal_lawful blank_fit hm
  have h := Tally.off (X := iter (deal (settled env fmt p) blank)) (μ := sources)
    (fun Ts => ⟨hl.measurable_iters _ Ts rfl, hl.iters_law _ Ts rfl⟩) hl.nonneg iter_length {es | lines es ∈ B} h0 ht
  simp only [h1, one_pow, sub_self, add_zero] at h
  refine le_trans (le_of_eq ?_) h
  rw [measureReal_def, measureReal_def]
  congr 1
  refine measure_congr ?_
  filter_upwards [sources_good] with ω hω
  apply propext
  refine not_congr ?_
  rw [written_deal he hm _ s hω.1 hω.2]
  cases hi : iter (deal (settled env fmt p) blank) n ω with
  | error e => simp
  | ok ess => simp [List.countP_map, Function.comp_def]

/-! ### The die -/

theorem dice_ends : odds byWords dice blank (failsWith Set.univ) = 0 := by
  have e : ∀ n' : ℤ, odds byWords (.call (.record (.int n' none) (fun _ _ h => nomatch h)) fun _ => .done) blank
      (failsWith Set.univ) = 0 := by
    intro n'
    simp [odds, drawn, measures, Device.step, failsWith]
  show (if (1 : ℤ) ≤ 6 then ∑ n' ∈ Finset.Icc (1 : ℤ) 6, byWords 1 6 n' * odds byWords (.call (.record (.int n' none)
    (fun _ _ h => nomatch h)) fun _ => .done) blank (failsWith Set.univ) else _) = _
  rw [if_pos (by norm_num)]
  simp [e]

/-- The fraction of sixes among `n` throws. -/
theorem C95_dice (he : env.eps = 0) (s : Backend) {n : ℕ} (h0 : 0 < n) {t : ℝ} (ht : 0 ≤ t) :
    sources.real {ω | ¬ ∃ outs, written env fmt dice n (supplied ω s) = .ok outs ∧
      |(outs.count (pips 6) : ℝ) / n - byWords 1 6 6| < t} ≤ 2 * Real.exp (-2 * n * t ^ 2) := by
  classical
  have h := C95_drawn_tail (fmt := fmt) (p := dice) he (fun r _ => by rw [dice_settled]; exact dice_proper _)
    (by rw [dice_settled]; exact dice_ends) s {pips 6} h0 ht
  rw [dice_settled, dice_odds byWords 6 (by norm_num) (by norm_num)] at h
  simp only [countP_single _ _ rfl] at h
  exact h

/-- Nothing but sixes. -/
example (he : env.eps = 0) (s : Backend) (n : ℕ) :
    sources {ω | ∃ outs, written env fmt dice n (supplied ω s) = .ok outs ∧ outs.count (pips 6) = n} =
      ENNReal.ofReal (byWords 1 6 6 ^ n) := by
  classical
  have h := C95_drawn_count (fmt := fmt) (p := dice) he (fun r _ => by rw [dice_settled]; exact dice_proper _) s {pips 6} n n
  rw [dice_settled, dice_odds byWords 6 (by norm_num) (by norm_num)] at h
  simp only [countP_single _ _ rfl] at h
  simpa using h

end Qir.Back

namespace Qir.RBack
open Spec Sim Qir.Out Run Rnd MeasureTheory
open Qir.Back (Backend Fmt sources sources_good blank records failsWith coin bitLine supplied odds byWords fair iter
  iter_length)

variable {A : Arith} {N W M : ℕ} {T : ℝ} {fmt : Fmt} {p : Prog QCall QAns}

open Classical in
/-- **C95**, programs that draw, the code with rounded arithmetic and its tolerance: if the program ends well with
probability one on the ideal device, the relative frequency of a set of outputs among `n` shots is off by `t + gap` or more
(or a shot fails) with probability at most `2 exp (-2 n t²) + n gap`. -/
theorem C95_drawn_rounded (h0 : 0 < A.eps) (h1 : A.eps ≤ 1 / 4) (h2 : 1000 * (A.u + A.eta) ≤ A.eps)
    (hw : WithinD A N p blank W M T) (hT : A.u * T + A.eta ≤ A.eps)
    (ht : TurnlessD A fmt p (Backend.new (fun _ => 0) fun _ => 0)) (hf : odds byWords p blank (records Set.univ) = 1)
    (s : Backend) (B : Set Bytes) {n : ℕ} (hn : 0 < n) {t : ℝ} (ht0 : 0 ≤ t) :
    sources.real {ω | ¬ ∃ outs, written A fmt p n (supplied ω s) = .ok outs ∧
      |(outs.countP (· ∈ B) : ℝ) / n - odds byWords p blank (records {es | lines es ∈ B})| < t + gap A N W M} ≤
        2 * Real.exp (-2 * n * t ^ 2) + n * gap A N W M := by
  have h := one_shotD ⟨h0, h1, h2⟩ hw hT ht
  choose P hP _ _ dP using fun B => h (good B)
  choose Q hQ _ _ dQ using fun B => h (bad B)
  have hl := shot_lawful hP hQ
  have hoff := Tally.off (X := iter (shot A fmt p)) (μ := sources)
    (fun Ts => ⟨hl.measurable_iters _ Ts rfl, hl.iters_law _ Ts rfl⟩) hl.nonneg iter_length B hn ht0
  have hu : 1 - gap A N W M ≤ P Set.univ := by
    have := dP Set.univ
    rw [texts_good, show {es | lines es ∈ (Set.univ : Set Bytes)} = Set.univ from rfl, hf] at this
    linarith [(abs_le.1 this).1]
  have hb : 1 - P Set.univ ^ n ≤ n * gap A N W M := by
    have h3 := one_add_mul_le_pow (a := P Set.univ - 1) (by linarith [(hP Set.univ).1]) n
    rw [add_sub_cancel] at h3
    have h4 : (n : ℝ) * (1 - P Set.univ) ≤ n * gap A N W M := mul_le_mul_of_nonneg_left (by linarith) (by positivity)
    linarith
  refine le_trans ?_ (hoff.trans (by linarith))
  rw [measureReal_def, measureReal_def]
  refine ENNReal.toReal_mono (measure_ne_top _ _) (measure_mono_ae ?_)
  filter_upwards [sources_good] with ω hω
  intro hr
  have hr : ¬ ∃ outs, written A fmt p n (supplied ω s) = .ok outs ∧
      |(outs.countP (· ∈ B) : ℝ) / n - odds byWords p blank (records {es | lines es ∈ B})| < t + gap A N W M := hr
  show ¬ ∃ outs, iter (shot A fmt p) n ω = .ok outs ∧ |(outs.countP (· ∈ B) : ℝ) / n - P B| < t
  rintro ⟨outs, e, hc⟩
  rw [← written_iter n s hω.2] at e
  refine hr ⟨outs, e, ?_⟩
  have h5 := abs_sub_le ((outs.countP (· ∈ B) : ℝ) / n) (P B) (odds byWords p blank (records {es | lines es ∈ B}))
  have h6 := dP B
  rw [texts_good] at h6
  linarith

/-! ### A concrete program -/

theorem sometimes_ends (A : Arith) : odds byWords sometimes blank (records Set.univ) = 1 := by
  have e : ∀ n : ℤ, odds byWords (if n ≤ 2 then coin else .done) blank (failsWith Set.univ) = 0 := by
    intro n
    split
    · rw [Back.odds_seeded _ _ coin_seeded]
      exact Back.coin_sure
    · exact if_neg fun h => by cases h.2
  have hz : odds byWords sometimes blank (failsWith Set.univ) = 0 := by
    show (if (1 : ℤ) ≤ 6 then ∑ n ∈ Finset.Icc (1 : ℤ) 6, byWords 1 6 n * odds byWords (if n ≤ 2 then coin else .done) blank
      (failsWith Set.univ) else _) = _
    rw [if_pos (by norm_num)]
    simp [e]
  have := Back.C65_total fun r _ => (sometimes_within A).proper r
  linarith

/-- **C95** for a program that draws a number and tosses a coin if it is small, in double precision: with 1000 shots the
fraction of each line is within 0.061 of one sixth except with a probability of at most 0.003. -/
theorem C95_sometimes (shuffle : List (ℕ × ℂ) → List (ℕ × ℂ)) (hs : ∀ l, (shuffle l).Perm l) (s : Backend) (b : Bool) :
    sources.real {ω | ¬ ∃ outs, written (binary64 shuffle hs) fmt sometimes 1000 (supplied ω s) = .ok outs ∧
      |(outs.count (bitLine b) : ℝ) / 1000 - 1 / 6| < 61 / 1000} ≤ 3 / 1000 := by
  classical
  obtain ⟨h0, h1, h2⟩ := C62_binary64 shuffle hs
  obtain ⟨hT, hg⟩ := C63_binary64 shuffle hs
  have h := C95_drawn_rounded (fmt := fmt) h0 h1 h2 (sometimes_within _) (hT 0 (by norm_num)) (C68_no_turn sometimes_noY _)
    (sometimes_ends (binary64 shuffle hs)) s {bitLine b} (n := 1000) (by norm_num) (t := 6 / 100) (by norm_num)
  have hfair := Back.C65_fair sometimes_draws (fun r _ => (sometimes_within (binary64 shuffle hs)).proper r)
    (records {es | lines es ∈ ({bitLine b} : Set Bytes)})
  have hodds := sometimes_odds b
  rw [texts_good] at hodds
  rw [hodds] at hfair
  simp only [Back.countP_single _ _ rfl] at h
  have hgap : gap (binary64 shuffle hs) 2 67 1 ≤ 1e-6 := by
    refine (hg 2 67 1).trans ?_
    have : √((2 : ℝ) ^ 2) = 2 := by rw [Real.sqrt_sq (by norm_num)]
    rw [this]
    norm_num
  refine (measureReal_mono ?_).trans (h.trans ?_)
  · intro r hr ⟨outs, e, hc⟩
    refine hr ⟨outs, e, ?_⟩
    push_cast at hc
    have h5 := abs_sub_le ((outs.count (bitLine b) : ℝ) / 1000)
      (odds byWords sometimes blank (records {es | lines es ∈ ({bitLine b} : Set Bytes)})) (1 / 6)
    have h6 : ((1 : ℕ) : ℝ) / 2 ^ 64 ≤ 1e-6 := by norm_num
    linarith
  · have := thousand
    push_cast at this ⊢
    linarith

end Qir.RBack
