import Verif.Props.ClassicalDefs
import Verif.Proof.Classical4
import Verif.Props.Generic

/-!
# C75: only possible basis states are ever listed, whatever the numbers do

A reading of the calls without amplitudes, `Props/ClassicalDefs`, says which basis states may come about.  The simulator
stays within it under an arbitrary arithmetic `N`: with rounding, infinities and not-a-numbers a basis state may get lost,
but none appears from nowhere.
-/

namespace Qir
namespace Gen

variable {F : Type}

/-- Every listing in every history contains possible basis states only, each once and in ascending order. -/
theorem C75_run (N : Num F) (rng : ℕ → F) (cs : List (GCall F)) (hv : Valid ∅ cs) :
    ∃ os s, runCalls N cs (new N rng) = .ok (os, s) ∧ Agree N ∅ allZero cs os := by
  obtain ⟨os, s, h, ha, _⟩ := run_holds cs (holds_new N rng) hv
  exact ⟨os, s, h, ha⟩

/-- The state vector never has more entries than two to the number of Hadamard gates and rotations so far, and so never
more than one entry in a circuit without them. -/
theorem C75_memory (N : Num F) (rng : ℕ → F) (cs : List (GCall F)) (hv : Valid ∅ cs) :
    ∃ os s, runCalls N cs (new N rng) = .ok (os, s) ∧ s.state.length ≤ 2 ^ cs.countP branching := by
  obtain ⟨os, s, h, _, _⟩ := run_holds cs (holds_new N rng) hv
  exact ⟨os, s, h, state_bound N rng cs hv h⟩

/-- Nor has a listing. -/
theorem C75_listing (N : Num F) (rng : ℕ → F) (cs : List (GCall F)) (hv : Valid ∅ (cs ++ [.getState])) :
    ∃ os l n s, runCalls N (cs ++ [.getState]) (new N rng) = .ok (os ++ [.state l n], s) ∧
      l.length ≤ 2 ^ cs.countP branching := by
  obtain ⟨os, s, h, ha, _⟩ := run_holds (N := N) _ (holds_new N rng) hv
  obtain ⟨os1, os2, rfl, o, os3, rfl, ⟨l, rfl, _, _⟩, rfl⟩ := Agree.append cs _ ha
  exact ⟨os1, l, _, s, h, listing_bound N rng cs hv h⟩

/-- After a measurement only basis states with the measured bit are listed. -/
theorem C75_measured (N : Num F) (rng : ℕ → F) (cs : List (GCall F)) (q : ℕ)
    (hv : Valid ∅ (cs ++ [.measure q, .getState])) :
    ∃ os b l n s, runCalls N (cs ++ [.measure q, .getState]) (new N rng) = .ok (os ++ [.bit b, .state l n], s) ∧
      ∀ e ∈ l, e.1.testBit ((liveAfter ∅ cs).filter (· < q)).card = b := by
  obtain ⟨os, s, h, ha, _⟩ := run_holds (N := N) _ (holds_new N rng) hv
  have hq : q ∈ liveAfter ∅ cs := by
    have : ∀ (cs : List (GCall F)) L, Valid L (cs ++ [.measure q, .getState]) → q ∈ liveAfter L cs := by
      intro cs
      induction cs with
      | nil => intro L h; exact h.1
      | cons c cs ih => intro L h; exact ih _ h.2
    exact this cs ∅ hv
  obtain ⟨os1, os2, rfl, o, os3, rfl, _, o', os4, rfl, ⟨l, rfl, _, hl⟩, rfl⟩ := Agree.append cs _ ha
  have hb : ∃ b, o = .bit b := by
    have h0 := h
    rw [runCalls_append] at h0
    obtain ⟨⟨p1, s1⟩, _, h0⟩ := bind_ok h0
    obtain ⟨⟨p2, s2⟩, h2, h0⟩ := bind_ok h0
    simp only [runCalls, call] at h2
    obtain ⟨⟨o2, s3⟩, h3, h2⟩ := bind_ok h2
    obtain ⟨⟨p4, s4⟩, h4, h2⟩ := bind_ok h2
    obtain ⟨⟨b, s5⟩, _, h3⟩ := bind_ok h3
    obtain ⟨⟨o5, s6⟩, _, h4⟩ := bind_ok h4
    cases h4
    cases h3
    cases h2
    injection h0 with h0
    injection h0 with h0 _
    have := (List.append_inj' h0 rfl).2
    injection this with this _
    exact ⟨b, this.symm⟩
  obtain ⟨b, rfl⟩ := hb
  refine ⟨os1, b, l, _, s, h, fun e he => ?_⟩
  obtain ⟨f, ⟨_, hf⟩, hi⟩ := hl e he
  injection hf with hf
  rw [hf]
  exact hi q hq

/-! ### The hypotheses can be met -/

/-- The preparation of an entangled pair. -/
def pair : List (GCall F) := [.allocate, .allocate, .gate .h 0, .ctrl .x [0] 1]

theorem pair_live : liveAfter (F := F) ∅ pair = {0, 1} := sample_live

theorem pair_valid : Valid (F := F) ∅ (pair ++ [.measure 0, .getState]) := by
  have h := sample_live (F := F)
  refine ⟨trivial, trivial, ?_⟩
  rw [h]
  simp [Valid, Allowed, liveNext]

theorem pair_valid' : Valid (F := F) ∅ (pair ++ [.getState]) := by
  have h := sample_live (F := F)
  refine ⟨trivial, trivial, ?_⟩
  rw [h]
  simp [Valid, Allowed, liveNext]

/-- An entangled pair never lists anything but 00 and 11, whatever the arithmetic. -/
theorem C75_pair (N : Num F) (rng : ℕ → F) :
    ∃ os l s, runCalls N (pair ++ [.getState]) (new N rng) = .ok (os ++ [.state l 2], s) ∧
      ∀ e ∈ l, e.1 = 0 ∨ e.1 = 3 := by
  obtain ⟨os, s, h, ha⟩ := C75_run N rng _ pair_valid'
  obtain ⟨os1, os2, rfl, hrest⟩ := Agree.append pair _ ha
  obtain ⟨o, os3, rfl, ⟨l, rfl, hasc, hl⟩, rfl⟩ := hrest
  rw [pair_live] at h hasc hl
  refine ⟨os1, l, s, h, fun e he => ?_⟩
  obtain ⟨f, hf, hi⟩ := hl e he
  have hlt : e.1 < 4 := hasc.2 e he
  have h0 := hi 0 (by simp)
  have h1 := hi 1 (by simp)
  have e0 : (({0, 1} : Finset ℕ).filter (· < 0)).card = 0 := rfl
  have e1 : (({0, 1} : Finset ℕ).filter (· < 1)).card = 1 := rfl
  rw [e0] at h0
  rw [e1] at h1
  have heq : f 0 = f 1 := by
    have hlen : os1.length = 4 := by
      have h2 := h
      rw [runCalls_append] at h2
      obtain ⟨⟨p1, s1⟩, h3, h2⟩ := bind_ok h2
      obtain ⟨⟨p2, s2⟩, h4, h2⟩ := bind_ok h2
      simp only [runCalls] at h4
      obtain ⟨⟨o, s3⟩, _, h4⟩ := bind_ok h4
      cases h4
      injection h2 with h2
      injection h2 with h2 _
      obtain ⟨h5, _⟩ := List.append_inj' h2 rfl
      simp only [pair, runCalls] at h3
      obtain ⟨⟨o1, s4⟩, _, h3⟩ := bind_ok h3
      obtain ⟨⟨o2, s5⟩, h6, h3⟩ := bind_ok h3
      cases h3
      obtain ⟨⟨o3, s6⟩, _, h6⟩ := bind_ok h6
      obtain ⟨⟨o4, s7⟩, h7, h6⟩ := bind_ok h6
      cases h6
      obtain ⟨⟨o5, s8⟩, _, h7⟩ := bind_ok h7
      obtain ⟨⟨o6, s9⟩, h8, h7⟩ := bind_ok h7
      cases h7
      obtain ⟨⟨o7, s10⟩, _, h8⟩ := bind_ok h8
      cases h8
      rw [← h5]
      rfl
    match os1, hlen with
    | [a, b, c, d], _ =>
      obtain ⟨f2, ⟨f1, hf1, ha1⟩, ha2⟩ := hf
      have hf1 : f1 = fun _ => false := hf1
      have ha1 : f2 = f1 ∨ f2 = toggle [0] f1 := ha1
      subst hf1
      rcases ha1 with rfl | rfl
      · simp at ha2
        rw [ha2]
      · simp [toggle, Acts] at ha2
        rw [ha2]
        simp [toggle]
  rw [← h0, ← h1] at heq
  rcases (by omega : e.1 = 0 ∨ e.1 = 1 ∨ e.1 = 2 ∨ e.1 = 3) with h | h | h | h
  · exact .inl h
  · rw [h] at heq; exact absurd heq (by decide)
  · rw [h] at heq; exact absurd heq (by decide)
  · exact .inr h

example (N : Num F) (rng : ℕ → F) : ∃ os b l n s,
    runCalls N (pair ++ [.measure 0, .getState]) (new N rng) = .ok (os ++ [.bit b, .state l n], s) ∧
      ∀ e ∈ l, e.1.testBit (({0, 1} : Finset ℕ).filter (· < 0)).card = b := by
  have := C75_measured N rng pair 0 pair_valid
  rwa [pair_live] at this

example (N : Num F) (rng : ℕ → F) : ∃ os l n s,
    runCalls N (pair ++ [.getState]) (new N rng) = .ok (os ++ [.state l n], s) ∧ l.length ≤ 2 :=
  C75_listing N rng pair pair_valid'

example (N : Num F) (rng : ℕ → F) (θ : F) :
    ∃ os s, runCalls N (sample θ) (new N rng) = .ok (os, s) ∧ s.state.length ≤ 8 :=
  C75_memory N rng _ (sample_valid θ)

end Gen
end Qir
