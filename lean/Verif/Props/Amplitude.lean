import Verif.Props.AmplitudeDefs
import Verif.Proof.Amplitude
import Verif.Props.Reversible

/-!
# C79: the one amplitude of a classical circuit

The answers of the simulator on a classical circuit, dumps included, are a function of the history alone, given by a
machine with one bit for each qubit and one amplitude.  The amplitude is the power of i that the gates ask for.
-/

noncomputable section
namespace Qir
namespace Gen

variable {F : Type}

/-- **C79**.  Every history of a classical circuit gets the answers of the machine, to the last digit and the sign of
the last zero, whatever the samples. -/
theorem C79_run (N : Num F) (Z O : F → Prop) (D : Digits N Z O) (hk : Keeps N Z O) (rng : ℕ → F) (hr : UnitSamples N rng)
    (cs : List (GCall F)) (hc : ∀ c ∈ cs, ClassicCall c) (hv : Valid ∅ cs) :
    ∃ s, runCalls N cs (new N rng) = .ok (answers N ∅ (fun _ => false) N.oneC cs, s) :=
  run_known D hk cs (known_new D rng) hr hc hv

/-- So no answer depends on the seed. -/
theorem C79_seed (N : Num F) (Z O : F → Prop) (D : Digits N Z O) (hk : Keeps N Z O) (rng rng' : ℕ → F)
    (hr : UnitSamples N rng) (hr' : UnitSamples N rng') (cs : List (GCall F)) (hc : ∀ c ∈ cs, ClassicCall c)
    (hv : Valid ∅ cs) :
    ∃ os s s', runCalls N cs (new N rng) = .ok (os, s) ∧ runCalls N cs (new N rng') = .ok (os, s') := by
  obtain ⟨s, h⟩ := C79_run N Z O D hk rng hr cs hc hv
  obtain ⟨s', h'⟩ := C79_run N Z O D hk rng' hr' cs hc hv
  exact ⟨_, s, s', h, h'⟩

/-! ### The power of i -/

section power
variable {N : Num F} {Z : F → Prop}

/-- One or minus one. -/
def PlusMinus (N : Num F) (x : F) : Prop := x = N.one ∨ x = N.neg N.one

theorem power_one (D : Digits N Z (PlusMinus N)) : Power N Z 0 N.oneC := .inl ⟨rfl, rfl, D.zero⟩
theorem power_i (D : Digits N Z (PlusMinus N)) : Power N Z 1 N.iC := .inr (.inl ⟨rfl, D.zero, rfl⟩)
theorem power_neg_one (D : Digits N Z (PlusMinus N)) : Power N Z 2 (N.negC N.oneC) :=
  .inr (.inr (.inl ⟨rfl, rfl, D.neg_zero _ D.zero⟩))
theorem power_neg_i (D : Digits N Z (PlusMinus N)) : Power N Z 3 (N.negC N.iC) :=
  .inr (.inr (.inr ⟨rfl, D.neg_zero _ D.zero, rfl⟩))

theorem power_mul (D : Digits N Z (PlusMinus N)) (S : Signs N Z) {p q : ZMod 4} {z w : Cx F} (hz : Power N Z p z)
    (hw : Power N Z q w) : Power N Z (p + q) (N.mulC z w) := by
  have i1 : PlusMinus N N.one := .inl rfl
  have i2 : PlusMinus N (N.neg N.one) := .inr rfl
  have m1 := S.mul_one _ i1
  have m2 := S.mul_one _ i2
  have m3 := S.mul_neg _ i1
  have m4 := S.mul_neg _ i2
  have e := S.neg_neg
  unfold Num.mulC
  rcases hz with ⟨rfl, h1, h2⟩ | ⟨rfl, h1, h2⟩ | ⟨rfl, h1, h2⟩ | ⟨rfl, h1, h2⟩ <;>
    rcases hw with ⟨rfl, h3, h4⟩ | ⟨rfl, h3, h4⟩ | ⟨rfl, h3, h4⟩ | ⟨rfl, h3, h4⟩ <;>
    simp only [h1, h2, h3, h4]
  · exact .inl ⟨rfl, by rw [m1, S.sub_zero _ _ i1 (D.mul_zz _ _ h2 h4)], D.add_zz _ _ (D.mul_oz _ _ i1 h4) (D.mul_zo _ _ h2 i1)⟩
  · exact .inr (.inl ⟨rfl, D.sub_zz _ _ (D.mul_oz _ _ i1 h3) (D.mul_zo _ _ h2 i1), by rw [m1, S.add_zero _ _ i1 (D.mul_zz _ _ h2 h3)]⟩)
  · exact .inr (.inr (.inl ⟨rfl, by rw [m3, S.sub_zero _ _ i2 (D.mul_zz _ _ h2 h4)], D.add_zz _ _ (D.mul_oz _ _ i1 h4) (D.mul_zo _ _ h2 i2)⟩))
  · exact .inr (.inr (.inr ⟨rfl, D.sub_zz _ _ (D.mul_oz _ _ i1 h3) (D.mul_zo _ _ h2 i2), by rw [m3, S.add_zero _ _ i2 (D.mul_zz _ _ h2 h3)]⟩))
  · exact .inr (.inl ⟨rfl, D.sub_zz _ _ (D.mul_zo _ _ h1 i1) (D.mul_oz _ _ i1 h4), by rw [m1, S.zero_add _ _ i1 (D.mul_zz _ _ h1 h4)]⟩)
  · exact .inr (.inr (.inl ⟨rfl, by rw [m1, S.zero_sub _ _ i1 (D.mul_zz _ _ h1 h3)], D.add_zz _ _ (D.mul_zo _ _ h1 i1) (D.mul_oz _ _ i1 h3)⟩))
  · exact .inr (.inr (.inr ⟨rfl, D.sub_zz _ _ (D.mul_zo _ _ h1 i2) (D.mul_oz _ _ i1 h4), by rw [m3, S.zero_add _ _ i2 (D.mul_zz _ _ h1 h4)]⟩))
  · exact .inl ⟨rfl, by rw [m3, S.zero_sub _ _ i2 (D.mul_zz _ _ h1 h3), e], D.add_zz _ _ (D.mul_zo _ _ h1 i2) (D.mul_oz _ _ i1 h3)⟩
  · exact .inr (.inr (.inl ⟨rfl, by rw [m2, S.sub_zero _ _ i2 (D.mul_zz _ _ h2 h4)], D.add_zz _ _ (D.mul_oz _ _ i2 h4) (D.mul_zo _ _ h2 i1)⟩))
  · exact .inr (.inr (.inr ⟨rfl, D.sub_zz _ _ (D.mul_oz _ _ i2 h3) (D.mul_zo _ _ h2 i1), by rw [m2, S.add_zero _ _ i2 (D.mul_zz _ _ h2 h3)]⟩))
  · exact .inl ⟨rfl, by rw [m4, e, S.sub_zero _ _ i1 (D.mul_zz _ _ h2 h4)], D.add_zz _ _ (D.mul_oz _ _ i2 h4) (D.mul_zo _ _ h2 i2)⟩
  · exact .inr (.inl ⟨rfl, D.sub_zz _ _ (D.mul_oz _ _ i2 h3) (D.mul_zo _ _ h2 i2), by rw [m4, e, S.add_zero _ _ i1 (D.mul_zz _ _ h2 h3)]⟩)
  · exact .inr (.inr (.inr ⟨rfl, D.sub_zz _ _ (D.mul_zo _ _ h1 i1) (D.mul_oz _ _ i2 h4), by rw [m2, S.zero_add _ _ i2 (D.mul_zz _ _ h1 h4)]⟩))
  · exact .inl ⟨rfl, by rw [m2, S.zero_sub _ _ i2 (D.mul_zz _ _ h1 h3), e], D.add_zz _ _ (D.mul_zo _ _ h1 i1) (D.mul_oz _ _ i2 h3)⟩
  · exact .inr (.inl ⟨rfl, D.sub_zz _ _ (D.mul_zo _ _ h1 i2) (D.mul_oz _ _ i2 h4), by rw [m4, e, S.zero_add _ _ i1 (D.mul_zz _ _ h1 h4)]⟩)
  · exact .inr (.inr (.inl ⟨rfl, by rw [m4, e, S.zero_sub _ _ i1 (D.mul_zz _ _ h1 h3)], D.add_zz _ _ (D.mul_zo _ _ h1 i2) (D.mul_oz _ _ i2 h3)⟩))

theorem power_spun (D : Digits N Z (PlusMinus N)) (S : Signs N Z) {p : ZMod 4} {z : Cx F} (hz : Power N Z p z) (b : Bool)
    (g : GGate F) : Power N Z (p + turn b g) (spun N b z g) := by
  have h0 := fun {q : ZMod 4} {w} (h : Power N Z q w) => power_mul D S hz h
  cases g <;> simp only [spun, turn, _root_.add_zero] <;> try exact hz
  · cases b
    · exact h0 (power_i D)
    · exact h0 (power_neg_i D)
  · cases b
    · have := h0 (power_one D); simpa using this
    · exact h0 (power_neg_one D)
  · cases b
    · have := h0 (power_one D); simpa using this
    · exact h0 (power_i D)
  · cases b
    · have := h0 (power_one D); simpa using this
    · exact h0 (power_neg_i D)

theorem power_grown (D : Digits N Z (PlusMinus N)) (S : Signs N Z) (L : Finset ℕ) (f : ℕ → Bool) {p : ZMod 4} {z : Cx F}
    (hz : Power N Z p z) (c : GCall F) : Power N Z (turned L f p c) (grown N L f z c) := by
  cases c with
  | gate g q => exact power_spun D S hz _ g
  | ctrl g cs q =>
    simp only [turned, grown]
    split
    · exact power_spun D S hz _ g
    · exact hz
  | release q =>
    simp only [turned, grown]
    split
    · exact power_one D
    · exact hz
  | _ => exact hz

end power

/-- The amplitude of the machine is the power of i that the gates ask for, up to the sign of the part that is zero. -/
theorem C79_power (N : Num F) (Z : F → Prop) (D : Digits N Z (PlusMinus N)) (S : Signs N Z) (cs : List (GCall F)) :
    ∀ (L : Finset ℕ) (f : ℕ → Bool) (z : Cx F) (p : ZMod 4), Power N Z p z →
      Power N Z (ending N cs (L, f, z, p)).2.2.2 (ending N cs (L, f, z, p)).2.2.1 := by
  induction cs with
  | nil => intro L f z p h; exact h
  | cons c cs ih => intro L f z p h; exact ih _ _ _ _ (power_grown D S L f h c)

theorem answers_then (N : Num F) (c : GCall F) (cs : List (GCall F)) : ∀ (L : Finset ℕ) (f : ℕ → Bool) (z : Cx F) (p : ZMod 4),
    answers N L f z (cs ++ [c]) = answers N L f z cs ++
      [answer N (ending N cs (L, f, z, p)).1 (ending N cs (L, f, z, p)).2.1 (ending N cs (L, f, z, p)).2.2.1 c] := by
  induction cs with
  | nil => intro L f z p; rfl
  | cons d cs ih =>
    intro L f z p
    simp only [List.cons_append, answers]
    rw [ih _ _ _ (turned L f p d)]
    rfl

theorem valid_then (c : GCall F) (cs : List (GCall F)) : ∀ (L : Finset ℕ), Valid L cs → (∀ L', Allowed L' c) →
    Valid L (cs ++ [c]) := by
  induction cs with
  | nil => intro L _ h; exact ⟨h L, trivial⟩
  | cons d cs ih => intro L hv h; exact ⟨hv.1, ih _ hv.2 h⟩

/-- `get_state` after any classical circuit gives one entry: the index made of the bits, and the power of i. -/
theorem C79_state (N : Num F) (Z : F → Prop) (D : Digits N Z (PlusMinus N)) (S : Signs N Z) (hk : Keeps N Z (PlusMinus N))
    (rng : ℕ → F) (hr : UnitSamples N rng) (cs : List (GCall F)) (hc : ∀ c ∈ cs, ClassicCall c) (hv : Valid ∅ cs) :
    ∃ os s L f z p, ending N cs (∅, fun _ => false, N.oneC, 0) = (L, f, z, p) ∧
      runCalls N (cs ++ [.getState]) (new N rng) = .ok (os ++ [.state [(indexOf L f, z)] L.card], s) ∧ Power N Z p z := by
  obtain ⟨s, h⟩ := C79_run N Z _ D hk rng hr (cs ++ [.getState])
    (fun c hm => (List.mem_append.1 hm).elim (hc c) fun h => by rw [List.mem_singleton.1 h]; trivial)
    (valid_then .getState _ _ hv fun _ => trivial)
  rw [answers_then N _ _ _ _ _ 0] at h
  have hp := C79_power N Z D S cs ∅ (fun _ => false) N.oneC 0 (power_one D)
  exact ⟨_, s, _, _, _, _, rfl, h, hp⟩

/-! ### The laws hold for rounded real numbers -/

theorem rounded_keeps {fl : ℝ → ℝ} {eps : ℝ} (h0 : fl 0 = 0) (h1 : fl 1 = 1) (hm : fl (-1) = -1) :
    Keeps (roundedNum fl eps) (fun x => x = 0) (fun x => x = 1 ∨ x = -1) := by
  rintro x (rfl | rfl | rfl) <;> simp [roundedNum, h0, h1, hm]

theorem rounded_signs {fl : ℝ → ℝ} {eps : ℝ} (h1 : fl 1 = 1) (hm : fl (-1) = -1) :
    Signs (roundedNum fl eps) (fun x => x = 0) where
  neg_neg := by simp [roundedNum]
  mul_one x h := by rcases h with rfl | rfl <;> simp [roundedNum, h1, hm]
  mul_neg x h := by rcases h with rfl | rfl <;> simp [roundedNum, h1, hm]
  add_zero x z h hz := by subst hz; rcases h with rfl | rfl <;> simp [roundedNum, h1, hm]
  zero_add x z h hz := by subst hz; rcases h with rfl | rfl <;> simp [roundedNum, h1, hm]
  sub_zero x z h hz := by subst hz; rcases h with rfl | rfl <;> simp [roundedNum, h1, hm]
  zero_sub x z h hz := by subst hz; rcases h with rfl | rfl <;> simp [roundedNum, h1, hm]

theorem double_keeps : Keeps doubleNum (fun x => x = 0) (fun x => x = 1 ∨ x = -1) :=
  rounded_keeps (roundTo_zero _ _) roundTo_one roundTo_neg_one

/-- A circuit whose amplitude becomes i: two qubits, X, S, a controlled Y, a measurement, and S again. -/
def turning : List (GCall F) :=
  [.allocate, .allocate, .gate .x 0, .gate .s 0, .ctrl .y [0] 1, .measure 1, .ctrl .sadj [0] 1, .gate .x 0]

theorem turning_valid : Valid (F := F) ∅ turning := by
  have h := sample_live (F := F)
  refine ⟨trivial, trivial, ?_⟩
  rw [h]
  simp [Valid, Allowed, liveNext]

theorem turning_classic : ∀ c ∈ turning (F := F), ClassicCall c := by simp [turning, ClassicCall, ClassicGate]

/-- In double precision the state is i times |10⟩ for every seed: the index is 2, the real part 0 and the imaginary part 1. -/
example (rng : ℕ → ℝ) (h : ∀ n, 0 ≤ rng n ∧ rng n < 1) :
    ∃ os s, runCalls doubleNum (turning ++ [.getState]) (new doubleNum rng) = .ok (os ++ [.state [(2, ⟨0, 1⟩)] 2], s) := by
  obtain ⟨os, s, L, f, z, p, he, h1, h2⟩ := C79_state doubleNum (fun x => x = 0) double_digits
    (rounded_signs roundTo_one roundTo_neg_one) double_keeps rng (double_samples h) _ turning_classic turning_valid
  refine ⟨os, s, h1.trans ?_⟩
  have l0 : leastFree ∅ = 0 := leastFree_range 0
  have l1 : insert (leastFree (insert 0 ∅)) (insert 0 (∅ : Finset ℕ)) = {0, 1} := by
    have := sample_live (F := ℝ)
    simpa only [liveNext, l0] using this
  simp only [turning, ending, liveNext, l0, l1] at he
  obtain ⟨hL, hf, -, hp⟩ : L = {0, 1} ∧ (f 0 = false ∧ f 1 = true) ∧ True ∧ p = 1 := by
    simp only [Prod.mk.injEq] at he
    obtain ⟨rfl, rfl, _, rfl⟩ := he
    refine ⟨rfl, ⟨by simp [moved, flipping, toggle], by simp [moved, flipping, toggle]⟩, trivial, ?_⟩
    simp [turned, turn, moved, flipping, toggle]
    decide
  subst hL hp
  have hs : ({0, 1} : Finset ℕ).sort (· ≤ ·) = [0, 1] := by
    rw [show ({0, 1} : Finset ℕ) = Finset.range 2 from rfl, Finset.sort_range]; rfl
  have hi : indexOf {0, 1} f = 2 := by simp [indexOf, hs, number, hf.1, hf.2]
  have hz : z = ⟨0, 1⟩ := by
    rcases h2 with ⟨h, _⟩ | ⟨_, h3, h4⟩ | ⟨h, _⟩ | ⟨h, _⟩
    · exact absurd h (by decide)
    · cases z; simp only at h3 h4; rw [h3, h4]; rfl
    · exact absurd h (by decide)
    · exact absurd h (by decide)
  rw [hi, hz]
  rfl

/-! ### Signed zeros -/

/-- The numbers 0, -0, 1 and -1 (sign, and whether it is a one) with the rules of IEEE 754 for them.  The sum of 1 and 1 is
outside and never needed. -/
def signed : Num (Bool × Bool) :=
  let value (x : Bool × Bool) : ℤ := if x.2 then (if x.1 then -1 else 1) else 0
  let neg (x : Bool × Bool) : Bool × Bool := (!x.1, x.2)
  let add (x y : Bool × Bool) : Bool × Bool :=
    if x.2 then (if y.2 ∧ y.1 ≠ x.1 then (false, false) else x) else if y.2 then y else (x.1 && y.1, false)
  { zero := (false, false), one := (false, true), two := (false, true), eps := (false, false), fracSqrt2 := (false, true)
    add := add
    sub := fun x y => add x (neg y)
    mul := fun x y => (x.1 != y.1, x.2 && y.2)
    div := fun x _ => x
    neg := neg
    max := fun x y => if value x < value y then y else x
    min := fun x y => if value x < value y then x else y
    sqrt := fun x => x
    cos := fun x => x
    sin := fun x => x
    lt := fun x y => decide (value x < value y)
    le := fun x y => decide (value x ≤ value y)
    eq := fun x y => decide (value x = value y)
    shuffle := fun l => l
    shuffle_perm := fun l => List.Perm.refl l }

theorem signed_digits : Digits signed (fun x => x.2 = false) (PlusMinus signed) := by
  have h : ∀ x, PlusMinus signed x ↔ x.2 = true := by unfold PlusMinus; decide
  have e : PlusMinus signed = fun x => x.2 = true := funext fun x => propext (h x)
  rw [e]
  constructor <;> decide

theorem signed_keeps : Keeps signed (fun x => x.2 = false) (PlusMinus signed) := by
  unfold Keeps PlusMinus; decide

theorem signed_signs : Signs signed (fun x => x.2 = false) := by constructor <;> decide

/-- Zeros have signs, and they are seen: Z and S twice are the same gate, but after X the one leaves -1-0i, the other
-1+0i.  So what a dump shows is not a function of the quantum state. -/
theorem C79_signed_zero (rng : ℕ → Bool × Bool) (hr : UnitSamples signed rng) :
    ∃ s s', runCalls signed [.allocate, .gate .x 0, .gate .z 0, .getState] (new signed rng) =
        .ok ([.id 0, .none, .none, .state [(1, ⟨(true, true), (true, false)⟩)] 1], s) ∧
      runCalls signed [.allocate, .gate .x 0, .gate .s 0, .gate .s 0, .getState] (new signed rng) =
        .ok ([.id 0, .none, .none, .none, .state [(1, ⟨(true, true), (false, false)⟩)] 1], s') := by
  have l0 : leastFree ∅ = 0 := leastFree_range 0
  have hs : ({0} : Finset ℕ).sort (· ≤ ·) = [0] := Finset.sort_singleton _ _
  obtain ⟨s, h⟩ := C79_run signed _ _ signed_digits signed_keeps rng hr
    [.allocate, .gate .x 0, .gate .z 0, .getState] (by simp [ClassicCall, ClassicGate])
    (by simp [Valid, Allowed, liveNext, l0])
  obtain ⟨s', h'⟩ := C79_run signed _ _ signed_digits signed_keeps rng hr
    [.allocate, .gate .x 0, .gate .s 0, .gate .s 0, .getState] (by simp [ClassicCall, ClassicGate])
    (by simp [Valid, Allowed, liveNext, l0])
  refine ⟨s, s', h.trans ?_, h'.trans ?_⟩ <;>
    simp [answers, answer, liveNext, l0, moved, flipping, grown, spun, toggle, indexOf, hs, number, signed, Num.mulC,
      Num.negC, Num.oneC, Num.iC]

/-- The samples of the theorem exist. -/
example : UnitSamples signed (fun _ => (false, false)) := fun _ => ⟨rfl, rfl⟩

end Gen
end Qir
