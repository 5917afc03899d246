import Verif.Proof.GenericApply2
import Verif.Proof.GenericApplyExact
import Verif.Proof.Outcome
import Verif.Props.Generic

/-!
# C82: matrices, whatever the numbers do

`apply` among the other calls under an arbitrary arithmetic `N`.  A call that is allowed panics in two cases only: a
location below the number of operands belongs to no qubit (F4), or the matrix leaves no entry at all.  Otherwise
the history goes on, the state is in order, and the basis states listed are those that the entries of the matrix which
count can produce.
-/

namespace Qir
namespace Gen
open Function

variable {F : Type}

/-- Every history of allowed calls runs to its end with the answers due, or is ended by a matrix: with an index out of
bounds where a location below the number of its operands belongs to no qubit, and with the assertion elsewhere. -/
theorem C82_run (N : Num F) (rng : ℕ → F) (cs : List (GXCall F)) (hv : ValidX ∅ cs) :
    (∃ os s, runX N cs (new N rng) = .ok (os, s) ∧ AnswersX N ∅ rng cs os ∧ Sound (liveAfterX ∅ cs) s ∧
      s.rng = fun n => rng (n + drawnByX ∅ cs)) ∨
    ∃ pre ks U ts post os s, cs = pre ++ .apply ks U ts :: post ∧ runX N pre (new N rng) = .ok (os, s) ∧
      ((Gap s (ks ++ ts).length ∧ runX N cs (new N rng) = .error .outOfBounds) ∨
        (¬ Gap s (ks ++ ts).length ∧ runX N cs (new N rng) = .error .assertion)) := by
  rcases runX_goes cs (books_new N rng) hv with ⟨os, s, h1, h2, h3, h4⟩ | ⟨pre, ks, U, ts, post, os, s, h1, h2, _, h4⟩
  · exact .inl ⟨os, s, h1, h2, h3.sound, h4⟩
  · exact .inr ⟨pre, ks, U, ts, post, os, s, h1, h2, h4⟩

theorem books_run {N : Num F} {rng : ℕ → F} {cs : List (GXCall F)} (hv : ValidX ∅ cs) {os : List (GOut F)} {s : GSim F}
    (h : runX N cs (new N rng) = .ok (os, s)) : Books (liveAfterX ∅ cs) s := by
  rcases runX_goes cs (books_new N rng) hv with ⟨os', s', h1, h2, h3, h4⟩ | ⟨_, _, _, _, _, _, _, _, _, _, h4⟩
  · rw [h] at h1; cases h1; exact h3
  · rcases h4 with ⟨_, e⟩ | ⟨_, e⟩ <;> · rw [h] at e; cases e

/-- A history that gives back no qubit never indexes out of bounds. -/
theorem C82_no_release (N : Num F) (rng : ℕ → F) (cs : List (GXCall F)) (hv : ValidX ∅ cs)
    (hk : ∀ q, GXCall.base (.release q) ∉ cs) :
    (∃ os s, runX N cs (new N rng) = .ok (os, s)) ∨ runX N cs (new N rng) = .error .assertion := by
  rcases runX_goes cs (books_new N rng) hv with ⟨os, s, h1, _⟩ | ⟨pre, ks, U, ts, post, os, s, rfl, h2, _, h4⟩
  · exact .inl ⟨os, s, h1⟩
  · right
    rw [validX_append] at hv
    have hd : Dense (liveAfterX ∅ pre) s := runX_dense pre (books_new N rng) (dense_new rng) hv.1 (by
      intro c hc
      cases c with
      | base c =>
        cases c with
        | release q => exact absurd (List.mem_append_left _ hc) (hk q)
        | _ => rfl
      | apply _ _ _ => rfl) h2
    rcases h4 with ⟨g, _⟩ | ⟨_, e⟩
    · exact absurd g (hd.no_gap hv.2.1.1 hv.2.1.2)
    · exact e

/-- Nor does a matrix right after the state was read out. -/
theorem C82_after_dump (N : Num F) (rng : ℕ → F) (pre : List (GXCall F)) {c : GCall F}
    (hc : c = .getState ∨ ∃ fmt, c = .dump fmt) {ks ts : List ℕ} {U : ℕ → ℕ → Cx F} {os : List (GOut F)} {s : GSim F}
    (hv : ValidX ∅ (pre ++ [.base c, .apply ks U ts])) (h : runX N (pre ++ [.base c]) (new N rng) = .ok (os, s)) :
    (∃ s', callX N (.apply ks U ts) s = .ok (.none, s')) ∨ callX N (.apply ks U ts) s = .error .assertion := by
  rw [validX_append] at hv
  rw [runX_append] at h
  obtain ⟨⟨os1, s1⟩, h1, h⟩ := bind_ok h
  obtain ⟨⟨os2, s2⟩, h2, h⟩ := bind_ok h
  cases h
  obtain ⟨⟨o, s3⟩, h3, h2⟩ := bind_ok (show (callX N (.base c) s1 >>= _) = _ from h2)
  cases h2
  have hb := books_run hv.1 h1
  have hl : liveNextX (liveAfterX ∅ pre) (GXCall.base c : GXCall F) = liveAfterX ∅ pre := by
    rcases hc with rfl | ⟨fmt, rfl⟩ <;> rfl
  have hv2 := hv.2.2.1
  rw [hl] at hv2
  have hd := dense_after hb hc h3
  obtain ⟨o', s3', k1, _, k3, _⟩ := call_goes (N := N) hb c (by rcases hc with rfl | ⟨fmt, rfl⟩ <;> trivial)
  rw [show call N c s1 = .ok (o, s) from h3] at k1
  obtain ⟨rfl, rfl⟩ := Prod.mk.inj (Except.ok.inj k1)
  have hb3 : Books (liveAfterX ∅ pre) s := by
    have : liveNext (liveAfterX ∅ pre) c = liveAfterX ∅ pre := hl
    rwa [this] at k3
  obtain ⟨s4, _, _, _, k4, _⟩ := (apply_goes (N := N) hb3 U hv2.1 hv2.2).2 (hd.no_gap hv2.1 hv2.2)
  by_cases he : s4.state = []
  · right; rw [k4, if_pos he]
  · left; exact ⟨s4, by rw [k4, if_neg he]⟩

/-- An index out of bounds is due exactly where a location below the number of operands belongs to no qubit. -/
theorem C82_gap (N : Num F) (rng : ℕ → F) (pre : List (GXCall F)) {ks ts : List ℕ} {U : ℕ → ℕ → Cx F}
    {os : List (GOut F)} {s : GSim F} (hv : ValidX ∅ (pre ++ [.apply ks U ts]))
    (h : runX N pre (new N rng) = .ok (os, s)) :
    callX N (.apply ks U ts) s = .error .outOfBounds ↔ Gap s (ks ++ ts).length := by
  rw [validX_append] at hv
  obtain ⟨h1, h2⟩ := apply_goes (N := N) (books_run hv.1 h) U hv.2.1.1 hv.2.1.2
  refine ⟨fun he => ?_, h1⟩
  by_contra hg
  obtain ⟨s', _, _, _, k, _⟩ := h2 hg
  rw [he] at k
  split at k <;> cases k

/-- Wrong operands are refused: a matrix that is not square or not of the size of its targets, a qubit named twice, a qubit
not in use. -/
theorem C82_rejects (N : Num F) (rng : ℕ → F) (pre : List (GXCall F)) {os : List (GOut F)} {s : GSim F}
    (hv : ValidX ∅ pre) (h : runX N pre (new N rng) = .ok (os, s)) (u : GMat F) (ts : List ℕ) (ctrls : Option (List ℕ))
    (hbad : u.rows ≠ u.cols ∨ u.cols ≠ 2 ^ ts.length ∨ ¬ (ctrls.getD [] ++ ts).Nodup ∨
      ∃ q ∈ ctrls.getD [] ++ ts, q ∉ liveAfterX ∅ pre) :
    ∃ e, apply N u ts ctrls s = .error e := by
  cases hr : apply N u ts ctrls s with
  | error e => exact ⟨e, rfl⟩
  | ok s' =>
    obtain ⟨h1, h2, h3, h4⟩ := apply_ok (books_run hv h) hr
    rcases hbad with hb | hb | hb | ⟨q, hq, hb⟩
    · exact absurd h1 hb
    · exact absurd h2 hb
    · exact absurd h3 hb
    · exact absurd (h4 q hq) hb

/-- Every listing contains possible basis states only, if zero counts as zero. -/
theorem C82_possible (N : Num F) (hz : N.nearlyZeroC ⟨N.zero, N.zero⟩ = true) (rng : ℕ → F) (cs : List (GXCall F))
    (hv : ValidX ∅ cs) {os : List (GOut F)} {s : GSim F} (h : runX N cs (new N rng) = .ok (os, s)) :
    AgreeX N ∅ allZero cs os := (runX_holds hz cs (holds_new N rng) hv h).1

/-- The state vector never has more entries than the product of the growth factors of the calls. -/
theorem C82_memory (N : Num F) (hz : N.nearlyZeroC ⟨N.zero, N.zero⟩ = true) (rng : ℕ → F) (cs : List (GXCall F))
    (hv : ValidX ∅ cs) {os : List (GOut F)} {s : GSim F} (h : runX N cs (new N rng) = .ok (os, s)) :
    s.state.length ≤ (cs.map (growth N)).prod := by
  obtain ⟨ha, hb⟩ := runX_holds hz cs (holds_new N rng) hv h
  obtain ⟨T, hT, hm⟩ := AtMost.reachedX cs le_rfl atMost_zero ha
  have := length_le_poss hb.books.inv (fun f hf => hm f (hb.poss f hf))
  omega

/-- A matrix whose entries that count lead nowhere from any possible basis state panics. -/
theorem C82_vanishes (N : Num F) (hz : N.nearlyZeroC ⟨N.zero, N.zero⟩ = true) (rng : ℕ → F) (pre : List (GXCall F))
    {ks ts : List ℕ} {U : ℕ → ℕ → Cx F} {os : List (GOut F)} {s : GSim F} (hv : ValidX ∅ (pre ++ [.apply ks U ts]))
    (h : runX N pre (new N rng) = .ok (os, s))
    (hU : ∀ f, reachedX N ∅ allZero pre os f → ∀ g, ¬ MatrixActs N ks U ts f g) :
    (Gap s (ks ++ ts).length ∧ callX N (.apply ks U ts) s = .error .outOfBounds) ∨
      (¬ Gap s (ks ++ ts).length ∧ callX N (.apply ks U ts) s = .error .assertion) := by
  rw [validX_append] at hv
  have hh := (runX_holds hz pre (holds_new N rng) hv.1 h).2
  obtain ⟨h1, h2⟩ := apply_goes (N := N) hh.books U hv.2.1.1 hv.2.1.2
  by_cases hg : Gap s (ks ++ ts).length
  · exact .inl ⟨hg, h1 hg⟩
  · obtain ⟨s', _, _, _, k, hst⟩ := h2 hg
    have : s'.state = [] := by
      by_contra hne
      obtain ⟨g, hg⟩ := poss_some hne
      obtain ⟨f, hf, hfg⟩ := hst hz g hg
      exact hU f (hh.poss f hf) g hfg
    rw [if_pos this] at k
    exact .inr ⟨hg, k⟩

/-- Conversely, where a matrix went through, some basis state is possible. -/
theorem C82_witness (N : Num F) (hz : N.nearlyZeroC ⟨N.zero, N.zero⟩ = true) (rng : ℕ → F) (pre : List (GXCall F))
    {ks ts : List ℕ} {U : ℕ → ℕ → Cx F} {os : List (GOut F)} {s : GSim F} (hv : ValidX ∅ (pre ++ [.apply ks U ts]))
    (h : runX N pre (new N rng) = .ok (os, s)) {s' : GSim F} (hs : callX N (.apply ks U ts) s = .ok (.none, s')) :
    ∃ f g, reachedX N ∅ allZero pre os f ∧ MatrixActs N ks U ts f g := by
  by_contra hc
  rcases C82_vanishes N hz rng pre hv h (fun f hf g hg => hc ⟨f, g, hf, hg⟩) with ⟨_, e⟩ | ⟨_, e⟩ <;>
  · rw [hs] at e; cases e

/-- Once the state vector is empty, every matrix panics. -/
theorem C82_empty (N : Num F) (rng : ℕ → F) (pre : List (GXCall F)) {ks ts : List ℕ} {U : ℕ → ℕ → Cx F}
    {os : List (GOut F)} {s : GSim F} (hv : ValidX ∅ (pre ++ [.apply ks U ts]))
    (h : runX N pre (new N rng) = .ok (os, s)) (he : s.state = []) :
    (Gap s (ks ++ ts).length ∧ callX N (.apply ks U ts) s = .error .outOfBounds) ∨
      (¬ Gap s (ks ++ ts).length ∧ callX N (.apply ks U ts) s = .error .assertion) := by
  rw [validX_append] at hv
  exact apply_empty (books_run hv.1 h) U hv.2.1.1 hv.2.1.2 he

/-- The state vector may be empty: the history of `C73_nan` goes on with measurements, but a matrix ends it, whatever its
entries, even the identity. -/
theorem C82_nan (N : Num F) (nan : F) (h : IsNaN N nan) (rng : ℕ → F) (U : ℕ → ℕ → Cx F) :
    runX N [.base .allocate, .base (.gate .h 0), .base (.gate (.rz nan) 0), .base (.gate .h 0), .base .getState,
      .apply [] U [0]] (new N rng) = .error .assertion := by
  obtain ⟨s, hr, he⟩ := C73_nan N nan h rng
  rw [← runX_base] at hr
  have h0 : leastFree ∅ = 0 := leastFree_range 0
  have hv : ValidX ∅ ([GCall.allocate, .gate .h 0, .gate (.rz nan) 0, .gate .h 0, .getState].map GXCall.base ++
      [.apply [] U [0]]) := by
    simp [ValidX, AllowedX, Allowed, liveNextX, liveNext, h0]
  have hk := C82_no_release N rng _ hv (by intro q; simp)
  rw [show ([.base .allocate, .base (.gate .h 0), .base (.gate (.rz nan) 0), .base (.gate .h 0), .base .getState,
      .apply [] U [0]] : List (GXCall F)) = [GCall.allocate, .gate .h 0, .gate (.rz nan) 0, .gate .h 0, .getState].map GXCall.base ++
      [.apply [] U [0]] from rfl]
  rcases hk with ⟨os, s', hk⟩ | hk
  · rw [runX_append, hr, ok_bind] at hk
    rcases C82_empty N rng _ hv hr he with ⟨_, e⟩ | ⟨_, e⟩ <;>
    · simp only [runX, e] at hk; cases hk
  · exact hk

/-- A matrix without controls whose entries are all not-a-numbers counts as zero: it panics. -/
theorem C82_nan_matrix (N : Num F) (hz : N.nearlyZeroC ⟨N.zero, N.zero⟩ = true) (nan : F) (hn : IsNaN N nan) (rng : ℕ → F)
    (pre : List (GXCall F)) {ts : List ℕ} {os : List (GOut F)} {s : GSim F}
    (hv : ValidX ∅ (pre ++ [.apply [] (fun _ _ => ⟨nan, nan⟩) ts])) (h : runX N pre (new N rng) = .ok (os, s)) :
    (Gap s ts.length ∧ callX N (.apply [] (fun _ _ => ⟨nan, nan⟩) ts) s = .error .outOfBounds) ∨
      (¬ Gap s ts.length ∧ callX N (.apply [] (fun _ _ => ⟨nan, nan⟩) ts) s = .error .assertion) := by
  refine C82_vanishes N hz rng pre hv h (fun f _ g hg => ?_)
  unfold MatrixActs at hg
  rw [if_pos (by simp)] at hg
  rw [(C73_nearly_zero N nan hn).2] at hg
  exact absurd hg.2 (by simp)

/-- With the arithmetic of the real numbers this is `Model/Apply`, which C19 is about: every history, valid or not, has the
same answers, the same final state and the same panics. -/
theorem C82_exact (env : Env) (cs : List Spec.XCall) (rng : ℕ → ℝ) :
    Sim.runX env cs (Sim.new rng) = (runX (realNum env) (cs.map ofXCall) (new (realNum env) rng)).map toRun :=
  runX_real env cs rng

/-! ### The hypotheses can be met -/

theorem ratNaN_zero : ratNaN.nearlyZeroC ⟨ratNaN.zero, ratNaN.zero⟩ = true := by
  have : ratNaN.nearlyZero ratNaN.zero = true := by
    show decide (Max.max (0 : ℚ) 0 - Min.min 0 0 ≤ 1 / 10 ^ 10) = true
    simp
  simp only [Num.nearlyZeroC, this, Bool.and_self]

/-- The matrix of a NOT gate. -/
def notMatrix (N : Num F) (i j : ℕ) : Cx F := if i = j then ⟨N.zero, N.zero⟩ else N.oneC

/-- A controlled NOT as a matrix on a pair, and the state read out. -/
def matrixSample (N : Num F) : List (GXCall F) :=
  [.base .allocate, .base .allocate, .base (.gate .x 0), .apply [0] (notMatrix N) [1], .base .getState]

theorem matrixSample_valid (N : Num F) : ValidX ∅ (matrixSample N) := by
  have := sample_live (F := F)
  simp only [matrixSample, ValidX, AllowedX, liveNextX, this]
  simp [Allowed, liveNext]

example (rng : ℕ → Option ℚ) {os : List (GOut (Option ℚ))} {s : GSim (Option ℚ)}
    (h : runX ratNaN (matrixSample ratNaN) (new ratNaN rng) = .ok (os, s)) :
    AgreeX ratNaN ∅ allZero (matrixSample ratNaN) os := C82_possible ratNaN ratNaN_zero rng _ (matrixSample_valid _) h

theorem ratNaN_one : ratNaN.nearlyZeroC ratNaN.oneC = false := by
  have : ratNaN.nearlyZero ratNaN.one = false := by
    show decide (Max.max (1 : ℚ) 0 - Min.min 0 1 ≤ 1 / 10 ^ 10) = false
    norm_num
  simp only [Num.nearlyZeroC, Num.oneC, this, Bool.false_and]

/-- A history that ends well: the matrix of a NOT gate on a fresh qubit. -/
example (rng : ℕ → Option ℚ) : ∃ s, runX ratNaN [.base .allocate, .apply [] (notMatrix ratNaN) [0]] (new ratNaN rng) =
    .ok ([.id 0, .none], s) ∧ s.state = [(1, ratNaN.oneC)] := by
  have h5 : allocate (new ratNaN rng) = (0, one [(0, ratNaN.oneC)] rng 0 []) := by
    have : (new ratNaN rng).idMap.values.mergeSort (fun a b => decide (a ≤ b)) = [] := List.mergeSort_nil
    simp only [allocate, this]
    rfl
  have hc : (controlled ratNaN ⟨2, 2, notMatrix ratNaN⟩ 0).entry 0 0 = ⟨ratNaN.zero, ratNaN.zero⟩ := rfl
  have hd : (controlled ratNaN ⟨2, 2, notMatrix ratNaN⟩ 0).entry 1 0 = ratNaN.oneC := rfl
  have hm : ratNaN.mulC ratNaN.oneC ratNaN.oneC = ratNaN.oneC := by
    simp only [Num.mulC, Num.oneC]
    congr 1
    · show some ((1 : ℚ) * 1 - 0 * 0) = some 1
      norm_num
    · show some ((1 : ℚ) * 0 + 0 * 1) = some 0
      norm_num
  have hs : scatter ratNaN (controlled ratNaN ⟨2, 2, notMatrix ratNaN⟩ 0) [] (0, ratNaN.oneC) = [(1, ratNaN.oneC)] := by
    have hf : ((List.range 2).filter fun j => !ratNaN.nearlyZeroC
        ((controlled ratNaN ⟨2, 2, notMatrix ratNaN⟩ 0).entry j 0)) = [1] := by
      simp only [List.range, List.range.loop, List.filter, hc, hd, ratNaN_zero, ratNaN_one, Bool.not_true, Bool.not_false]
    show (((List.range 2).filter fun j => !ratNaN.nearlyZeroC
        ((controlled ratNaN ⟨2, 2, notMatrix ratNaN⟩ 0).entry j 0)).foldl _ []) = _
    rw [hf]
    show dropZero ratNaN 1 [(1, ratNaN.mulC ratNaN.oneC ratNaN.oneC)] = _
    rw [hm]
    show (if ratNaN.nearlyZeroC ratNaN.oneC then _ else _) = _
    rw [ratNaN_one]
    rfl
  have ha : callX ratNaN (.apply [] (notMatrix ratNaN) [0]) (one [(0, ratNaN.oneC)] rng 0 []) =
      .ok (.none, one [(1, ratNaN.oneC)] rng 0 []) := by
    have e1 : Sim.checkForDuplicates [0] = .ok () := rfl
    have e2 : flushQueue ratNaN [0] .HRxRy (one [(0, ratNaN.oneC)] rng 0 []) = .ok (one [(0, ratNaN.oneC)] rng 0 []) := by
      have : flushH ratNaN 0 (one [(0, ratNaN.oneC)] rng 0 []) = .ok (one [(0, ratNaN.oneC)] rng 0 []) := by
        unfold flushH
        rw [if_neg (by simp [one])]
      rw [flushQueue, flushLoop, flushOne, this]
      rfl
    have e3 : place ratNaN 0 [0] (one [(0, ratNaN.oneC)] rng 0 []) = .ok (one [(0, ratNaN.oneC)] rng 0 []) := rfl
    have e4 : (one [(0, ratNaN.oneC)] rng 0 []).state = [(0, ratNaN.oneC)] := rfl
    have e5 : ∀ l, ratNaN.shuffle l = l := fun _ => rfl
    have e6 : apply ratNaN ⟨2 ^ [0].length, 2 ^ [0].length, notMatrix ratNaN⟩ [0] (some []) (one [(0, ratNaN.oneC)] rng 0 []) =
      applyOn ratNaN (controlled ratNaN ⟨2, 2, notMatrix ratNaN⟩ 0) [0] (one [(0, ratNaN.oneC)] rng 0 []) := rfl
    simp only [callX, e6, applyOn, e1, e2, e3, e4, e5, ok_bind, List.reverse_cons, List.reverse_nil, List.nil_append,
      List.foldl, hs, List.isEmpty_cons, Bool.false_eq_true, if_false]
    rfl
  refine ⟨one [(1, ratNaN.oneC)] rng 0 [], ?_, rfl⟩
  have h6 : callX ratNaN (.base .allocate) (new ratNaN rng) = .ok (.id 0, one [(0, ratNaN.oneC)] rng 0 []) := by
    simp only [callX, call, h5]
  simp only [runX, h6, ok_bind, ha, pure_ok]

end Gen
end Qir
