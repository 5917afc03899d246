import Verif.Props.OutcomeDefs
import Verif.Proof.Outcome
import Verif.Proof.Outcome2
import Verif.Props.Classical

/-!
# C80: which outcomes of a measurement may be observed, whatever the numbers do

An answer one always agrees with a basis state that is possible after the answers so far.  An answer zero need not: the
amplitudes may be rounded so that the probability of a certain one comes out below the sample.  Then no basis state is
left, and the simulator carries on with an empty state vector, which answers zero to everything.
-/

noncomputable section
namespace Qir
namespace Gen

variable {F : Type}

/-- **C80**.  In every history every answer one agrees with a possible basis state, for an arbitrary arithmetic and all
samples that are not below zero. -/
theorem C80_run (N : Num F) (rng : ℕ → F) (hr : Nonneg N rng) (cs : List (GCall F)) (hv : Valid ∅ cs) :
    ∃ os s, runCalls N cs (new N rng) = .ok (os, s) ∧ Agree N ∅ allZero cs os ∧ AllVouched N ∅ allZero cs os :=
  run_vouched cs (holds_new N rng) hr hv

/-- A measurement at the end of a history answers one only if some basis state that is possible after the answers so far
has the bit set. -/
theorem C80_measured (N : Num F) (rng : ℕ → F) (hr : Nonneg N rng) (cs : List (GCall F)) (q : ℕ)
    (hv : Valid ∅ (cs ++ [.measure q])) :
    ∃ os b s, runCalls N (cs ++ [.measure q]) (new N rng) = .ok (os ++ [.bit b], s) ∧ os.length = cs.length ∧
      (b = true → ∃ f, reached N ∅ allZero cs os f ∧ f q = true) := by
  obtain ⟨os, s, h, ha, hw⟩ := C80_run N rng hr _ hv
  obtain ⟨os1, os2, rfl, hl, o, os3, rfl, _, rfl⟩ := Agree.cut cs _ ha
  obtain ⟨⟨b, rfl, hb⟩, _⟩ := AllVouched.append cs _ hl hw
  exact ⟨os1, b, s, h, hl, hb⟩

/-- A qubit that is zero in every possible basis state is measured as zero. -/
theorem C80_certain (N : Num F) (rng : ℕ → F) (hr : Nonneg N rng) (cs : List (GCall F)) (q : ℕ)
    (hv : Valid ∅ (cs ++ [.measure q]))
    (hz : ∀ os f, reached N ∅ allZero cs os f → os.length = cs.length → f q = false) :
    ∃ os s, runCalls N (cs ++ [.measure q]) (new N rng) = .ok (os ++ [.bit false], s) := by
  obtain ⟨os, b, s, h, hl, hb⟩ := C80_measured N rng hr cs q hv
  cases b with
  | false => exact ⟨os, s, h⟩
  | true =>
    obtain ⟨f, hf, hq⟩ := hb rfl
    rw [hz os f hf hl] at hq
    cases hq

/-- A measurement that is repeated at once.  After zero it gives zero again; and whenever a basis state is left in the
end, it gives the same answer again. -/
theorem C80_repeat (N : Num F) (rng : ℕ → F) (hr : Nonneg N rng) (cs : List (GCall F)) (q : ℕ)
    (hv : Valid ∅ (cs ++ [.measure q, .measure q, .getState])) :
    ∃ os a b l n s, runCalls N (cs ++ [.measure q, .measure q, .getState]) (new N rng) =
        .ok (os ++ [.bit a, .bit b, .state l n], s) ∧ (a = false → b = false) ∧ (l ≠ [] → a = b) := by
  obtain ⟨os, s, h, ha, hw⟩ := C80_run N rng hr _ hv
  obtain ⟨os1, os2, rfl, hl, o1, os3, rfl, _, o2, os4, rfl, _, o3, os5, rfl, ⟨l, rfl, _, hm⟩, rfl⟩ := Agree.cut cs _ ha
  obtain ⟨⟨a, rfl, _⟩, ⟨b, rfl, hb⟩, _⟩ := AllVouched.append cs _ hl hw
  refine ⟨os1, a, b, l, _, s, h, ?_, ?_⟩
  · rintro rfl
    cases b with
    | false => rfl
    | true =>
      obtain ⟨f, ⟨_, hf⟩, hq⟩ := hb rfl
      rw [hq] at hf
      cases hf
  · intro hn
    obtain ⟨e, he⟩ := List.exists_mem_of_ne_nil _ hn
    obtain ⟨f, ⟨⟨_, h1⟩, h2⟩, _⟩ := hm e he
    injection h1 with h1
    injection h2 with h2
    rw [h1, h2]

/-- Once the answers agree with no basis state, every measurement answers zero, every probability is zero and every
listing is empty, until the last qubit is released. -/
theorem C80_lost (N : Num F) (rng : ℕ → F) (hr : Nonneg N rng) (cs ds : List (GCall F)) (hv : Valid ∅ (cs ++ ds)) :
    ∃ os1 os2 s, runCalls N (cs ++ ds) (new N rng) = .ok (os1 ++ os2, s) ∧ os1.length = cs.length ∧
      (Unexplained N cs os1 → NeverAlone (liveAfter ∅ cs) ds → List.Forall₂ (Blank N) ds os2) := by
  obtain ⟨os, s, h, ha, hw⟩ := C80_run N rng hr _ hv
  obtain ⟨os1, os2, rfl, hl, hrest⟩ := Agree.cut cs _ ha
  exact ⟨os1, os2, s, h, hl, fun hu hn => blank_run ds hu hn hrest (AllVouched.append cs _ hl hw)⟩

/-- The two qubits of an entangled pair.  If the first is measured as zero, so is the second; and whenever a basis state
is left in the end, they are measured alike. -/
theorem C80_pair (N : Num F) (rng : ℕ → F) (hr : Nonneg N rng) :
    ∃ os a b l n s, runCalls N (pair ++ [.measure 0, .measure 1, .getState]) (new N rng) =
        .ok (os ++ [.bit a, .bit b, .state l n], s) ∧ (a = false → b = false) ∧ (l ≠ [] → a = b) := by
  have hv : Valid (F := F) ∅ (pair ++ [.measure 0, .measure 1, .getState]) := by
    have h := sample_live (F := F)
    refine ⟨trivial, trivial, ?_⟩
    rw [h]
    simp [Valid, Allowed, liveNext]
  obtain ⟨os, s, h, ha, hw⟩ := C80_run N rng hr _ hv
  obtain ⟨os1, os2, rfl, hl, o1, os3, rfl, _, o2, os4, rfl, _, o3, os5, rfl, ⟨l, rfl, _, hm⟩, rfl⟩ := Agree.cut pair _ ha
  obtain ⟨⟨a, rfl, _⟩, ⟨b, rfl, hb⟩, _⟩ := AllVouched.append pair _ hl hw
  have heq : ∀ f, reached N ∅ allZero pair os1 f → f 0 = f 1 := by
    intro f hf
    match os1, hl with
    | [a, b, c, d], _ =>
      obtain ⟨f2, ⟨f1, hf1, ha1⟩, ha2⟩ := hf
      have hf1 : f1 = fun _ => false := hf1
      have ha1 : f2 = f1 ∨ f2 = toggle [0] f1 := ha1
      subst hf1
      rcases ha1 with rfl | rfl
      · simp at ha2
        rw [ha2]
      · simp [toggle, Acts] at ha2
        rw [ha2]
        simp [toggle]
  refine ⟨os1, a, b, l, _, s, h, ?_, ?_⟩
  · rintro rfl
    cases b with
    | false => rfl
    | true =>
      obtain ⟨f, ⟨hf, h0⟩, h1⟩ := hb rfl
      injection h0 with h0
      rw [← heq f hf, ← h0] at h1
      cases h1
  · intro hn
    obtain ⟨e, he⟩ := List.exists_mem_of_ne_nil _ hn
    obtain ⟨f, ⟨⟨hf, h1⟩, h2⟩, _⟩ := hm e he
    injection h1 with h1
    injection h2 with h2
    rw [h1, h2, heq f hf]

/-- In double precision a repeated measurement may give the opposite answer.  Two qubits are allocated; a Hadamard gate
on the first, a CNOT and a Hadamard gate on the second leave four amplitudes of modulus 1/2, and the second qubit is
measured twice.  The first measurement gives one.  The amplitudes that remain are rounded so that the probability of one
comes out as 1 - 2⁻⁵², and with a larger sample the second measurement gives zero and leaves an empty state vector. -/
theorem C80_double (rng : ℕ → ℝ) (h0 : rng 0 < 1 / 2) (h1 : 1 - 1 / 2 ^ 52 ≤ rng 1) :
    ∃ s, runCalls doubleNum
        [.allocate, .allocate, .gate .h 0, .ctrl .x [0] 1, .gate .h 1, .measure 1, .measure 1, .getState]
        (new doubleNum rng) =
      .ok ([.id 0, .id 1, .none, .none, .none, .bit true, .bit false, .state [] 2], s) :=
  double_twice rng h0 h1

/-! ### The hypotheses can be met -/

/-- The samples 0, 1 - 2⁻⁵³, 0, 0, …: all of them are doubles that the generator may produce. -/
def unlucky (n : ℕ) : ℝ := if n = 1 then 1 - 1 / 2 ^ 53 else 0

theorem unlucky_nonneg : Nonneg doubleNum unlucky := by
  intro n
  show decide (unlucky n < 0) = false
  unfold unlucky
  split <;> norm_num

theorem unlucky_unit (n : ℕ) : 0 ≤ unlucky n ∧ unlucky n < 1 := by
  unfold unlucky
  split <;> norm_num

/-- The answers of this run agree with no basis state, so an X gate on the qubit does not make it one. -/
example : ∃ os s, runCalls doubleNum (twice ++ [.gate .x 1, .measure 1, .jointProb [0, 1], .getState])
      (new doubleNum unlucky) =
        .ok ([.id 0, .id 1, .none, .none, .none, .bit true, .bit false, .state [] 2] ++ os, s) ∧
      List.Forall₂ (Blank doubleNum) [.gate .x 1, .measure 1, .jointProb [0, 1], .getState] os := by
  obtain ⟨s0, h0⟩ := C80_double unlucky (by norm_num [unlucky]) (by norm_num [unlucky])
  have hlive : liveAfter (F := ℝ) ∅ twice = {0, 1} := sample_live
  have hv : Valid (F := ℝ) ∅ (twice ++ [.gate .x 1, .measure 1, .jointProb [0, 1], .getState]) := by
    have h := sample_live (F := ℝ)
    refine ⟨trivial, trivial, ?_⟩
    rw [h]
    simp [Valid, Allowed, liveNext]
  obtain ⟨os1, os2, s, h, hl, hb⟩ := C80_lost doubleNum unlucky unlucky_nonneg twice _ hv
  have e1 : os1 = [.id 0, .id 1, .none, .none, .none, .bit true, .bit false, .state [] 2] := by
    have h2 := h
    rw [runCalls_append, show runCalls doubleNum twice (new doubleNum unlucky) = _ from h0] at h2
    obtain ⟨⟨p1, s1⟩, hp, h2⟩ := bind_ok h2
    obtain ⟨⟨p2, s2⟩, _, h2⟩ := bind_ok h2
    obtain ⟨h3, _⟩ := Prod.mk.inj (Except.ok.inj h2)
    obtain ⟨rfl, _⟩ := Prod.mk.inj (Except.ok.inj hp)
    exact (List.append_inj h3 hl.symm).1.symm
  subst e1
  refine ⟨os2, s, h, hb ?_ (by rw [hlive]; simp [NeverAlone, liveNext])⟩
  rintro f ⟨⟨_, h1⟩, h2⟩
  injection h1 with h1
  injection h2 with h2
  rw [← h1] at h2
  cases h2

example (N : Num F) (rng : ℕ → F) (hr : Nonneg N rng) :
    ∃ os a b l n s, runCalls N (pair ++ [.measure 1, .measure 1, .getState]) (new N rng) =
        .ok (os ++ [.bit a, .bit b, .state l n], s) ∧ (a = false → b = false) ∧ (l ≠ [] → a = b) := by
  refine C80_repeat N rng hr pair 1 ?_
  have h := sample_live (F := F)
  refine ⟨trivial, trivial, ?_⟩
  rw [h]
  simp [Valid, Allowed, liveNext]

/-- A CNOT leaves its control alone, whatever the arithmetic. -/
example (N : Num F) (rng : ℕ → F) (hr : Nonneg N rng) : ∃ os s,
    runCalls N ([.allocate, .allocate, .gate .h 1, .ctrl .x [0] 1] ++ [.measure 0]) (new N rng) =
      .ok (os ++ [.bit false], s) := by
  refine C80_certain N rng hr _ 0 ?_ ?_
  · have h := sample_live (F := F)
    refine ⟨trivial, trivial, ?_⟩
    rw [h]
    simp [Valid, Allowed, liveNext]
  · intro os f hf hl
    match os, hl with
    | [a, b, c, d], _ =>
      obtain ⟨f2, ⟨f1, hf1, ha1⟩, ha2⟩ := hf
      have hf1 : f1 = fun _ => false := hf1
      have ha1 : f2 = f1 ∨ f2 = toggle [1] f1 := ha1
      subst hf1
      rcases ha1 with rfl | rfl
      · simp at ha2
        rw [ha2]
      · simp [toggle] at ha2
        rw [ha2]
        simp [toggle]

end Gen
end Qir
