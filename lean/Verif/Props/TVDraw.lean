import Verif.Proof.TVDrawShots
import Verif.Props.TotalVariation

/-!
# Rounding and the tolerance in programs that draw random numbers (C68)

C63 is about programs whose only randomness is that of measurements.  Here the program may also draw integers and real
numbers, and what is drawn may decide what is done, or be the angle of a rotation.  `sources` is the measure of independent
uniform samples and words, `odds` the probability on the ideal device (`Props/OddsDefs.lean`).
-/

noncomputable section
namespace Qir.RBack
open Spec Sim Qir.Out Run Rnd MeasureTheory
open Qir.Back (Backend Fmt sources sources_good blank blank_fit records failsWith chance NoYProg coin coin_noY bitLine coin_bit
  supplied odds byWords fair DrawsAtMost Proper drawn measures iter outcomeOf iter_eq)

variable {A : Arith} {N W M : ℕ} {T : ℝ} {fmt : Fmt} {p : Prog QCall QAns}

/-- **C68**.  One shot: the probability that the code writes something in a set and ends as asked for is within `gap` of the
probability on the ideal device, for every set, though the program may draw numbers as it goes.  For every arithmetic whose
rounding errors are at most a thousandth of the tolerance; every program whose calls make sense whatever is measured and
drawn, with at most `N` qubits, `W` passes over the state vector, `M` measurements and angles up to `T`. -/
theorem C68_distance (h0 : 0 < A.eps) (h1 : A.eps ≤ 1 / 4) (h2 : 1000 * (A.u + A.eta) ≤ A.eps)
    (hw : WithinD A N p blank W M T) (hT : A.u * T + A.eta ≤ A.eps)
    (ht : TurnlessD A fmt p (Backend.new (fun _ => 0) fun _ => 0)) (S : Set (Bytes × Bool)) :
    NullMeasurableSet {ω | outcome A fmt p (Backend.new ω.1 ω.2) ∈ S} sources ∧
    |sources.real {ω | outcome A fmt p (Backend.new ω.1 ω.2) ∈ S} - odds byWords p blank (texts S)| ≤ gap A N W M := by
  obtain ⟨L, ⟨l0, l1, hL⟩, _, _, hd⟩ := one_shotD ⟨h0, h1, h2⟩ hw hT ht S
  obtain ⟨m, e⟩ := hL Set.univ .univ (.inl rfl)
  have hs : ranD A fmt p idle S Set.univ =ᵐ[sources] {ω | outcome A fmt p (Backend.new ω.1 ω.2) ∈ S} := by
    filter_upwards [sources_good] with ω hω
    apply propext
    show ω ∈ worded ∧ EndsD S Set.univ (speech (step A fmt) p (Backend.new ω.1 ω.2)) ↔
      outcome A fmt p (Backend.new ω.1 ω.2) ∈ S
    unfold outcome
    cases speech (step A fmt) p (Backend.new ω.1 ω.2) with
    | error e => exact ⟨fun h => h.2, fun h => ⟨hω.2, h⟩⟩
    | ok x => exact ⟨fun h => h.2.1, fun h => ⟨hω.2, h, trivial⟩⟩
  refine ⟨m.nullMeasurableSet.congr hs, ?_⟩
  rw [measureReal_def, ← measure_congr hs, e]
  simpa [ENNReal.toReal_ofReal l0] using hd

/-- **C68**.  The same against the ideal device whose integers are drawn evenly: each integer adds at most `2 ^ (-64)`. -/
theorem C68_fair (h0 : 0 < A.eps) (h1 : A.eps ≤ 1 / 4) (h2 : 1000 * (A.u + A.eta) ≤ A.eps)
    (hw : WithinD A N p blank W M T) (hT : A.u * T + A.eta ≤ A.eps)
    (ht : TurnlessD A fmt p (Backend.new (fun _ => 0) fun _ => 0)) {m : ℕ} (hm : DrawsAtMost m p) (S : Set (Bytes × Bool)) :
    |sources.real {ω | outcome A fmt p (Backend.new ω.1 ω.2) ∈ S} - odds fair p blank (texts S)| ≤
      gap A N W M + m / 2 ^ 64 := by
  have e1 := (C68_distance h0 h1 h2 hw hT ht S).2
  have e2 := Back.C65_fair hm (fun r _ => hw.proper r) (texts S)
  exact (abs_sub_le _ _ _).trans (add_le_add e1 e2)

/-- **C68**.  Sessions: the outputs of the shots are independent exactly, whatever the backend was used for before, and
identically distributed, with probabilities within `gap` of those of the ideal device. -/
theorem C68_shots (h0 : 0 < A.eps) (h1 : A.eps ≤ 1 / 4) (h2 : 1000 * (A.u + A.eta) ≤ A.eps)
    (hw : WithinD A N p blank W M T) (hT : A.u * T + A.eta ≤ A.eps)
    (ht : TurnlessD A fmt p (Backend.new (fun _ => 0) fun _ => 0)) :
    ∃ P Q : Set Bytes → ℝ,
      (∀ B, 0 ≤ P B ∧ P B ≤ 1 ∧ |P B - odds byWords p blank (records {es | lines es ∈ B})| ≤ gap A N W M) ∧
      (∀ B, 0 ≤ Q B ∧ Q B ≤ 1 ∧ |Q B - odds byWords p blank (failsWith {es | lines es ∈ B})| ≤ gap A N W M) ∧
      (∀ (s : Backend) (Bs : List (Set Bytes)),
        sources {ω | ∃ outs, written A fmt p Bs.length (supplied ω s) = .ok outs ∧ List.Forall₂ (· ∈ ·) outs Bs} =
          (Bs.map fun B => ENNReal.ofReal (P B)).prod) ∧
      ∀ (s : Backend) (Bs : List (Set Bytes)) (B : Set Bytes) (n : ℕ), Bs.length < n →
        sources {ω | ∃ outs o, written A fmt p n (supplied ω s) = .error (outs, o) ∧
            List.Forall₂ (· ∈ ·) outs Bs ∧ o ∈ B} =
          (Bs.map fun B => ENNReal.ofReal (P B)).prod * ENNReal.ofReal (Q B) := by
  have h := one_shotD ⟨h0, h1, h2⟩ hw hT ht
  choose P hP _ _ dP using fun B => h (good B)
  choose Q hQ _ _ dQ using fun B => h (bad B)
  have hl := shot_lawful hP hQ
  refine ⟨P, Q, fun B => ⟨(hP B).1, (hP B).2.1, dP B⟩, fun B => ⟨(hQ B).1, (hQ B).2.1, dQ B⟩, fun s Bs => ?_, fun s Bs B n hn => ?_⟩
  · rw [← hl.iters_law Bs.length Bs rfl]
    refine measure_congr ?_
    filter_upwards [sources_good] with ω hω
    apply propext
    show (∃ outs, written A fmt p Bs.length (supplied ω s) = .ok outs ∧ _) ↔ ∃ outs, iter _ _ _ = .ok outs ∧ _
    rw [written_iter _ s hω.2]
  · rw [← hl.stops_law B n Bs hn]
    refine measure_congr ?_
    filter_upwards [sources_good] with ω hω
    apply propext
    show (∃ outs o, written A fmt p n (supplied ω s) = .error (outs, o) ∧ _) ↔ ∃ outs o, iter _ _ _ = .error (outs, o) ∧ _
    rw [written_iter _ s hω.2]

/-- **C68**.  The probability of a sequence of outputs is within `gap` for each shot of that on the ideal device. -/
theorem C68_sessions (h0 : 0 < A.eps) (h1 : A.eps ≤ 1 / 4) (h2 : 1000 * (A.u + A.eta) ≤ A.eps)
    (hw : WithinD A N p blank W M T) (hT : A.u * T + A.eta ≤ A.eps)
    (ht : TurnlessD A fmt p (Backend.new (fun _ => 0) fun _ => 0)) (s : Backend) (Bs : List (Set Bytes)) :
    |sources.real {ω | ∃ outs, written A fmt p Bs.length (supplied ω s) = .ok outs ∧ List.Forall₂ (· ∈ ·) outs Bs} -
      (Bs.map fun B => odds byWords p blank (records {es | lines es ∈ B})).prod| ≤ Bs.length * gap A N W M := by
  obtain ⟨P, _, hP, _, hs, _⟩ := C68_shots h0 h1 h2 hw hT ht
  have hc : ∀ B, 0 ≤ odds byWords p blank (records {es | lines es ∈ B}) ∧
      odds byWords p blank (records {es | lines es ∈ B}) ≤ 1 := fun B => by
    obtain ⟨_, _, c0, c1, _⟩ := one_shotD ⟨h0, h1, h2⟩ hw hT ht (good B)
    exact ⟨c0, c1⟩
  have e : sources.real {ω | ∃ outs, written A fmt p Bs.length (supplied ω s) = .ok outs ∧
      List.Forall₂ (· ∈ ·) outs Bs} = (Bs.map P).prod := by
    rw [measureReal_def, hs s Bs]
    induction Bs with
    | nil => simp
    | cons B Bs ih =>
      rw [List.map_cons, List.prod_cons, ENNReal.toReal_mul, ih, ENNReal.toReal_ofReal (hP B).1, List.map_cons,
        List.prod_cons]
  rw [e]
  exact (prod_near (fun B => ⟨(hP B).1, (hP B).2.1, (hc B).1, (hc B).2, (hP B).2.2⟩) Bs).2.2.2.2

open Classical in
/-- **C68**.  Frequencies: if the program never fails, then for almost all samples and words every number of shots
succeeds, and the fraction of the shots that write something in a given set converges, to a number within `gap` of the
probability on the ideal device. -/
theorem C68_frequencies (h0 : 0 < A.eps) (h1 : A.eps ≤ 1 / 4) (h2 : 1000 * (A.u + A.eta) ≤ A.eps)
    (hw : WithinD A N p blank W M T) (hT : A.u * T + A.eta ≤ A.eps)
    (ht : TurnlessD A fmt p (Backend.new (fun _ => 0) fun _ => 0))
    (hok : ∀ r os, (∀ n, os n < Std.words) → (outcome A fmt p (Backend.new r os)).2 = true) (s : Backend) (B : Set Bytes) :
    ∃ P : ℝ, |P - odds byWords p blank (records {es | lines es ∈ B})| ≤ gap A N W M ∧
      ∀ᵐ ω ∂sources, ∃ out : ℕ → Bytes,
        (∀ n, written A fmt p n (supplied ω s) = .ok ((List.range n).map out)) ∧
        Filter.Tendsto (fun n : ℕ => (((List.range n).map out).countP (· ∈ B) : ℝ) / n) Filter.atTop (nhds P) := by
  have h := one_shotD ⟨h0, h1, h2⟩ hw hT ht
  choose P hP _ _ dP using fun B => h (good B)
  choose Q hQ _ _ dQ using fun B => h (bad B)
  have hl := shot_lawful hP hQ
  have hu : P Set.univ = 1 := by
    have e := hl.law Set.univ MeasurableSet.univ
    have hall : sources (Back.winSet (shot A fmt p) Set.univ Set.univ) = 1 := by
      rw [← measure_univ (μ := sources)]
      refine measure_congr ?_
      filter_upwards [sources_good] with ω hω
      apply propext
      refine ⟨fun _ => trivial, fun _ => ?_⟩
      have := hok ω.1 ω.2 hω.2
      show ∃ e ω', shot A fmt p ω = .ok (e, ω') ∧ _
      unfold outcome at this
      unfold shot
      rw [if_pos (show ω ∈ worded from hω.2)]
      cases hs : speech (step A fmt) p (Backend.new ω.1 ω.2) with
      | error e => simp [hs] at this
      | ok x => exact ⟨_, _, rfl, trivial, trivial⟩
    rw [hall, measure_univ, mul_one] at e
    have := congrArg ENNReal.toReal e
    rw [ENNReal.toReal_ofReal (hP _).1] at this
    simpa using this.symm
  refine ⟨P B, dP B, ?_⟩
  filter_upwards [sources_good, hl.all_ok hu, hl.freq hu B] with ω hω hok hfr
  refine ⟨fun i => outcomeOf (shot A fmt p) i ω, fun n => ?_, ?_⟩
  · rw [written_iter _ s hω.2]
    obtain ⟨ess, e⟩ := hok n
    rw [e, iter_eq n e]
  · refine hfr.congr fun n => ?_
    congr 1
    induction n with
    | zero => simp
    | succ n ih =>
      rw [Finset.sum_range_succ, ih, List.range_succ]
      simp [List.countP_append, List.countP_cons]

/-- The hypotheses of C63 are those of C68 for programs that draw nothing, and the probabilities are the same. -/
theorem C68_plain (h : Within A N p blank W M T) : WithinD A N p blank W M T := h.draws

/-- The last hypothesis holds for programs without uncontrolled rotations about Y. -/
theorem C68_no_turn (h : NoYProg p) (s : Backend) : TurnlessD A fmt p s := .of_noY h s

/-! ### A concrete program -/

/-- Draw a number from one to six; toss the coin of `Props/Session.lean` if it is at most two. -/
def sometimes : Prog QCall QAns := .call (.drawInt 1 6) fun
  | .int n => if n ≤ 2 then coin else .done
  | _ => .done

theorem sometimes_within (A : Arith) : WithinD A 2 sometimes blank 67 1 0 := by
  refine ⟨by unfold Std.IsI64; omega, by unfold Std.IsI64; omega, fun n _ _ => ?_⟩
  dsimp only
  split
  · exact C68_plain (coin_within A)
  · trivial

theorem sometimes_noY : NoYProg sometimes := by
  refine ⟨trivial, fun a => ?_⟩
  dsimp only
  split
  · split
    · exact coin_noY
    · trivial
  · trivial

theorem coin_seeded : Back.Seeded coin := by
  refine ⟨trivial, fun a => ⟨trivial, fun a => ⟨trivial, fun a => ⟨trivial, fun a => ?_⟩⟩⟩⟩
  dsimp only
  split
  · exact ⟨trivial, fun a => ⟨trivial, fun a => trivial⟩⟩
  · exact ⟨trivial, fun a => trivial⟩

theorem drawsAtMost_seeded {m : ℕ} : ∀ {p : Prog QCall QAns}, Back.Seeded p → DrawsAtMost m p := by
  intro p
  induction p with
  | done => intro _; trivial
  | call c k ih =>
    intro h
    have hd : drawn c = .nothing := by cases c <;> first | rfl | exact h.1.elim
    unfold DrawsAtMost
    rw [hd]
    exact fun a => ih a (h.2 a)

theorem sometimes_draws : DrawsAtMost 1 sometimes := by
  refine ⟨0, rfl, fun a => ?_⟩
  dsimp only
  split
  · split
    · exact drawsAtMost_seeded coin_seeded
    · trivial
  · trivial

theorem sometimes_odds (b : Bool) : odds fair sometimes blank (texts (good {bitLine b})) = 1 / 6 := by
  have e : ∀ n : ℤ, odds fair (if n ≤ 2 then coin else .done) blank (texts (good {bitLine b})) = if n ≤ 2 then 1 / 2 else 0 := by
    intro n
    split
    · rw [Back.odds_seeded _ _ coin_seeded, texts_good, coin_bit]
    · have : ¬ (([] : Bytes), true) ∈ good {bitLine b} := by
        rintro ⟨h, _⟩
        cases b <;> cases h
      exact if_neg this
  show (if (1 : ℤ) ≤ 6 then ∑ n ∈ Finset.Icc (1 : ℤ) 6, fair 1 6 n * odds fair (if n ≤ 2 then coin else .done) blank
    (texts (good {bitLine b})) else _) = _
  rw [if_pos (by norm_num)]
  simp only [e]
  rw [show Finset.Icc (1 : ℤ) 6 = {1, 2, 3, 4, 5, 6} from rfl]
  norm_num [fair]

/-- **C68** for this program, in double precision, whatever the order of iteration: each line has probability one sixth
within two millionths. -/
theorem C68_sometimes (shuffle : List (ℕ × ℂ) → List (ℕ × ℂ)) (hs : ∀ l, (shuffle l).Perm l) (b : Bool) :
    |sources.real {ω | outcome (binary64 shuffle hs) fmt sometimes (Backend.new ω.1 ω.2) = (bitLine b, true)} - 1 / 6| ≤
      2e-6 := by
  obtain ⟨h0, h1, h2⟩ := C62_binary64 shuffle hs
  obtain ⟨hT, hg⟩ := C63_binary64 shuffle hs
  have h := C68_fair (fmt := fmt) h0 h1 h2 (sometimes_within _) (hT 0 (by norm_num)) (C68_no_turn sometimes_noY _)
    sometimes_draws (good {bitLine b})
  rw [sometimes_odds] at h
  have hset : {ω : Source | outcome (binary64 shuffle hs) fmt sometimes (Backend.new ω.1 ω.2) = (bitLine b, true)} =
      {ω | outcome (binary64 shuffle hs) fmt sometimes (Backend.new ω.1 ω.2) ∈ good {bitLine b}} := by
    ext r
    simp [good, Prod.ext_iff]
  rw [hset]
  refine h.trans ((add_le_add_left (hg 2 67 1) _).trans ?_)
  have : √((2 : ℝ) ^ 2) = 2 := by rw [Real.sqrt_sq (by norm_num)]
  rw [this]
  norm_num

end Qir.RBack
