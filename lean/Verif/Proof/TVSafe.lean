import Verif.Proof.TVDrawShots

/-!
# Programs that do not fail

If the ideal device does not fail, whatever is found and drawn, then the code does not fail either.
-/

noncomputable section
namespace Qir.RBack
open Spec Sim Qir.Out Run Rnd
open Qir.Back (Backend Fmt tailW measures finding supplied drawn cons setOs)

variable {A : Arith} {N : ℕ} {B : ℝ} {s s' : Backend} {δ : Device} {fmt : Fmt}

theorem speech_goes {c : QCall} {k : QAns → Prog QCall QAns} {σ σ' : Backend} {a : QAns} {out : Bytes}
    (h : qstep A fmt c σ = .ok (a, out, σ')) (hk : ∃ x, speech (step A fmt) (k a) σ' = .ok x) :
    ∃ x, speech (step A fmt) (.call c k) σ = .ok x := by
  obtain ⟨⟨o, σ''⟩, hk⟩ := hk
  exact ⟨(out ++ o, σ''), by simp only [speech, step, h, hk]⟩

theorem never_fails (hf : Fine A) (p : Prog QCall QAns) : ∀ {s : Backend} {δ : Device} {B T : ℝ} {W M : ℕ}, Like s δ →
    0 ≤ B → Low B s.sim → A.u * (B + T) + A.eta ≤ A.eps → WithinD A N p δ W M T → TurnlessD A fmt p s → Safe p δ →
    ∀ ω ∈ worded, ∃ x, speech (step A fmt) p (supplied ω s) = .ok x := by
  induction p with
  | done => intro s δ B T W M _ _ _ _ _ _ _ ω _; exact ⟨_, rfl⟩
  | call c k ih =>
    intro s δ B T W M h hB hl ht hw htl hs ω hω
    unfold WithinD at hw
    unfold TurnlessD at htl
    unfold Safe at hs
    cases hd : drawn c with
    | int min max =>
      rw [hd] at hw htl hs
      cases Back.drawn_int hd
      obtain ⟨b1, b2⟩ := Std.sample_bounds hw.1 hw.2.1 hs.1 (w2 := ω.2 1) (hω 0)
      have h1 : qstep A fmt (.drawInt min max) (supplied ω s) =
          .ok (.int (Std.sampleInclusive min max (ω.2 0) (ω.2 1)), [], supplied (ω.1, tailW (tailW ω.2)) s) := by
        simp only [qstep, Std.drawRandomInt, if_neg (not_lt.2 hs.1)]
        rfl
      exact speech_goes h1 (ih _ h hB hl ht (hw.2.2 _ b1 b2) (htl _ b1 b2) (hs.2 _ b1 b2) _ (worded_tails hω))
    | real min max =>
      rw [hd] at hw htl hs
      cases Back.drawn_real hd
      obtain ⟨b1, b2⟩ := Back.grid_bounds hs.1 (hω 0)
      have h1 : qstep A fmt (.drawDouble min max) (supplied ω s) =
          .ok (.real (min + (ω.2 0 : ℝ) / ((Std.words : ℝ) - 1) * (max - min)), [],
            supplied (ω.1, tailW (tailW ω.2)) s) := by
        simp only [qstep, Std.drawRandomDouble, if_neg (not_lt.2 hs.1), Std.sampleReal]
        rfl
      exact speech_goes h1 (ih _ h hB hl ht (hw _ b1 b2) (htl _ b1 b2) (hs.2 _ b1 b2) _ (worded_tails hω))
    | nothing =>
    rw [hd] at hw htl hs
    obtain ⟨hv, hpl, hW, hT, hw⟩ := hw
    obtain ⟨hok, hnext⟩ := htl
    have ht0 := turn_nonneg' hf c
    have hu := A.u_nonneg
    have ht1 : A.u * (B + turn A c) + A.eta ≤ A.eps := by
      have := mul_le_mul_of_nonneg_left (show B + turn A c ≤ B + T by linarith) hu
      linarith
    cases hm : measures δ c with
    | some ps =>
      rw [hm] at hw hs
      obtain ⟨hM, hw⟩ := hw
      obtain ⟨t, p, f, V, n, m, e, he, htf, hct, hnm, hp, hq, hrest⟩ := splits hf fmt hB (by
        have := mul_le_mul_of_nonneg_left (show B ≤ B + T by linarith) hu
        linarith) h hl hm hv (hw true).2.1
      obtain ⟨_, r2, r3, _, _⟩ := hrest (decide (ω.1 0 < p))
      refine speech_goes (any_words hpl ω.2 (hq ω.1)) (ih _ r2 hB r3 (T := T - turn A c) ?_ (hw _).2.2 ?_ (hs _)
        (Back.tail ω.1, ω.2) hω)
      · have := mul_le_mul_of_nonneg_left (show B + (T - turn A c) ≤ B + T by linarith) hu
        linarith
      · have := hq (cons (ω.1 0) (f (decide (ω.1 0 < p))).sim.rng)
        rw [Back.cons_zero, Back.tail_cons] at this
        refine hnext (cons (ω.1 0) (f (decide (ω.1 0 < p))).sim.rng) _ [] _ ?_
        show step A fmt c (rs _ s) = _
        unfold step
        rw [this]
        rfl
    | none =>
      rw [hm] at hw hs
      dsimp only at hw hs
      obtain ⟨a', es', δ'', hst, hs⟩ := hs
      have hstep : ∀ {a out} {s' : Backend}, (∀ r, qstep A fmt c (rs r s) = .ok (a, out, rs r s')) → TurnlessD A fmt (k a) s' := by
        intro a out s' hq
        refine hnext s'.sim.rng a out _ ?_
        show step A fmt c (rs _ s) = _
        unfold step
        rw [hq]
        rfl
      rcases calm_calls hf fmt h hB hl hpl hm hv ht1 hok (fun a es δ' e => (hw a es δ' e).1) with hg | hg | hg
      · obtain ⟨a, es, δ', U, hU, hg, s', hq, hmv⟩ := hg
        have e := (hg δ.psi).symm.trans hst
        simp only [Except.ok.injEq, Prod.mk.injEq] at e
        obtain ⟨rfl, rfl, rfl⟩ := e
        exact speech_goes (any_words hpl ω.2 (hq ω.1)) (ih a (hmv.like.psi (U δ.psi)) (by linarith : 0 ≤ B + turn A c)
          hmv.low (T := T - turn A c) (by rw [show B + turn A c + (T - turn A c) = B + T by ring]; exact ht)
          (hw a es _ (hg δ.psi)).2 (hstep hq) hs ω hω)
      · obtain ⟨m, hg, hq⟩ := hg
        have e := (hg δ.psi).symm.trans hst
        cases e
      · obtain ⟨δ', h0, hg, s', hq, hlk, hlo, ho, ha⟩ := hg
        have e := (hg δ.psi).symm.trans hst
        cases e
        exact speech_goes (any_words hpl ω.2 (hq ω.1)) (ih .unit hlk hB hlo (T := T - turn A c) (by
          have := mul_le_mul_of_nonneg_left (show B + (T - turn A c) ≤ B + T by linarith) hu
          linarith) (hw _ _ _ (hg δ.psi)).2 (hstep hq) hs ω hω)

end Qir.RBack
