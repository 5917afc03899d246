import Verif.Props.ReversibleDefs
import Verif.Proof.Reversible
import Verif.Props.Generic
import Verif.Props.Classical
import Verif.Model.Binary64
import Verif.Props.GenericReal

/-!
# C76: classical circuits are simulated exactly

For X, Y, Z, S, their adjoints and controlled versions (CNOT, Toffoli and so on), exchanges, allocation, release,
measurements and queries.  Nothing is assumed of the arithmetic but what it does with 0, 1 and -1.
-/

noncomputable section
namespace Qir
namespace Gen

variable {F : Type}

/-- Every history of a classical circuit gets the answers of the circuit on bits, whatever the samples. -/
theorem C76_run (N : Num F) (Z O : F → Prop) (D : Digits N Z O) (rng : ℕ → F) (hr : UnitSamples N rng)
    (cs : List (GCall F)) (hc : ∀ c ∈ cs, ClassicCall c) (hv : Valid ∅ cs) :
    ∃ os s, runCalls N cs (new N rng) = .ok (os, s) ∧ Tells N Z O ∅ (fun _ => false) cs os :=
  run_pure D cs (pure_new D rng) hr hc hv

/-- The answers that are not states. -/
def plain : GOut F → Option (GOut F)
  | .state _ _ => none
  | .text _ => none
  | o => some o

theorem tells_plain {N : Num F} {Z O : F → Prop} : ∀ {cs : List (GCall F)} {L : Finset ℕ} {f : ℕ → Bool}
    {os os' : List (GOut F)}, Tells N Z O L f cs os → Tells N Z O L f cs os' → os.map plain = os'.map plain
  | [], _, _, _, _, h, h' => by rw [h, h']
  | c :: cs, L, f, _, _, h, h' => by
    obtain ⟨o, os, rfl, h1, h2⟩ := h
    obtain ⟨o', os', rfl, h1', h2'⟩ := h'
    rw [List.map_cons, List.map_cons, tells_plain h2 h2']
    congr 1
    cases c with
    | getState =>
      obtain ⟨_, _, rfl, _⟩ := h1
      obtain ⟨_, _, rfl, _⟩ := h1'
      rfl
    | dump =>
      obtain ⟨_, _, rfl, _⟩ := h1
      obtain ⟨_, _, rfl, _⟩ := h1'
      rfl
    | _ => rw [show o = _ from h1, show o' = _ from h1']

/-- So no answer but the phase of the one amplitude that is left can depend on the seed. -/
theorem C76_seed (N : Num F) (Z O : F → Prop) (D : Digits N Z O) (rng rng' : ℕ → F) (hr : UnitSamples N rng)
    (hr' : UnitSamples N rng') (cs : List (GCall F)) (hc : ∀ c ∈ cs, ClassicCall c) (hv : Valid ∅ cs) :
    ∃ os s os' s', runCalls N cs (new N rng) = .ok (os, s) ∧ runCalls N cs (new N rng') = .ok (os', s') ∧
      os.map plain = os'.map plain := by
  obtain ⟨os, s, h, ht⟩ := C76_run N Z O D rng hr cs hc hv
  obtain ⟨os', s', h', ht'⟩ := C76_run N Z O D rng' hr' cs hc hv
  exact ⟨os, s, os', s', h, h', tells_plain ht ht'⟩

/-! ### The laws hold for rounded real numbers -/

/-- Real numbers with a rounding after each operation. -/
def roundedNum (fl : ℝ → ℝ) (eps : ℝ) : Num ℝ where
  zero := 0
  one := 1
  two := 2
  eps := eps
  fracSqrt2 := fl (1 / Real.sqrt 2)
  add x y := fl (x + y)
  sub x y := fl (x - y)
  mul x y := fl (x * y)
  div x y := fl (x / y)
  neg x := -x
  max := max
  min := min
  sqrt x := fl (Real.sqrt x)
  cos x := fl (Real.cos x)
  sin x := fl (Real.sin x)
  lt x y := decide (x < y)
  le x y := decide (x ≤ y)
  eq x y := decide (x = y)
  shuffle l := l
  shuffle_perm l := List.Perm.refl l

theorem rounded_digits {fl : ℝ → ℝ} {eps : ℝ} (h0 : fl 0 = 0) (h1 : fl 1 = 1) (hm : fl (-1) = -1) (he : 0 ≤ eps)
    (he' : eps < 1) : Digits (roundedNum fl eps) (fun x => x = 0) (fun x => x = 1 ∨ x = -1) where
  zero := rfl
  one := .inl rfl
  neg_zero x h := by simp [roundedNum, h]
  neg_one x h := by rcases h with rfl | rfl <;> simp [roundedNum]
  mul_zz x y h h' := by subst h h'; simp [roundedNum, h0]
  mul_zo x y h _ := by subst h; simp [roundedNum, h0]
  mul_oz x y _ h := by subst h; simp [roundedNum, h0]
  mul_oo x y h h' := by rcases h with rfl | rfl <;> rcases h' with rfl | rfl <;> simp [roundedNum, h1, hm]
  add_zz x y h h' := by subst h h'; simp [roundedNum, h0]
  add_zo x y h h' := by subst h; rcases h' with rfl | rfl <;> simp [roundedNum, h1, hm]
  add_oz x y h h' := by subst h'; rcases h with rfl | rfl <;> simp [roundedNum, h1, hm]
  sub_zz x y h h' := by subst h h'; simp [roundedNum, h0]
  sub_zo x y h h' := by subst h; rcases h' with rfl | rfl <;> simp [roundedNum, h1, hm]
  sub_oz x y h h' := by subst h'; rcases h with rfl | rfl <;> simp [roundedNum, h1, hm]
  square x h := by rcases h with rfl | rfl <;> simp [roundedNum, h1]
  one_add x h := by subst h; simp [roundedNum, h1]
  add_one x h := by subst h; simp [roundedNum, h1]
  one_sub := by simp [roundedNum, h1]
  one_sub_one := by simp [roundedNum, h0]
  sqrt_one := by simp [roundedNum, h1]
  div_one := by simp [roundedNum, h1]
  tiny := by simp [Num.nearlyZero, roundedNum, h0, he]
  big := by simp [Num.nearlyZero, roundedNum, h1, he']

theorem roundTo_zero (p m : ℤ) : roundTo p m 0 = 0 := by simp [roundTo]

theorem roundTo_one : roundTo 53 (-1022) 1 = 1 := by
  have : place 53 (-1022) 1 = -52 := by simp [place]
  rw [roundTo, this]
  have h : (1 : ℝ) / 2 ^ (-52 : ℤ) = ((2 ^ 52 : ℤ) : ℝ) := by norm_num
  rw [h, round_intCast]
  norm_num

theorem roundTo_neg_one : roundTo 53 (-1022) (-1) = -1 := by
  have : place 53 (-1022) (-1) = -52 := by simp [place]
  rw [roundTo, this]
  have h : (-1 : ℝ) / 2 ^ (-52 : ℤ) = ((-2 ^ 52 : ℤ) : ℝ) := by norm_num
  rw [h, round_intCast]
  norm_num

/-- Double precision. -/
def doubleNum : Num ℝ := roundedNum (roundTo 53 (-1022)) 1e-10

theorem double_digits : Digits doubleNum (fun x => x = 0) (fun x => x = 1 ∨ x = -1) :=
  rounded_digits (roundTo_zero _ _) roundTo_one roundTo_neg_one (by norm_num) (by norm_num)

theorem double_samples {rng : ℕ → ℝ} (h : ∀ n, 0 ≤ rng n ∧ rng n < 1) : UnitSamples doubleNum rng := fun n =>
  ⟨by show decide (rng n < 1) = true; simpa using (h n).2,
    by show decide (rng n < 0) = false; simpa using (h n).1⟩

/-- A CNOT, a controlled Y, a phase and measurements. -/
def reversible : List (GCall F) :=
  [.allocate, .allocate, .gate .x 0, .ctrl .x [0] 1, .gate .s 1, .ctrl .y [1] 0, .swap 0 1, .measure 0, .measure 1,
    .jointMeasure [0, 1], .release 0, .getState]

theorem reversible_valid : Valid (F := F) ∅ reversible := by
  have h := sample_live (F := F)
  refine ⟨trivial, trivial, ?_⟩
  rw [h]
  simp [Valid, Allowed, liveNext]

theorem reversible_classic : ∀ c ∈ reversible (F := F), ClassicCall c := by
  simp [reversible, ClassicCall, ClassicGate]

/-- In double precision the circuit answers one, zero and an odd parity, for every seed. -/
example (rng : ℕ → ℝ) (h : ∀ n, 0 ≤ rng n ∧ rng n < 1) :
    ∃ (o : GOut ℝ) (s : GSim ℝ), runCalls doubleNum reversible (new doubleNum rng) =
      .ok ([.id 0, .id 1, .none, .none, .none, .none, .none, .bit true, .bit false, .bit true, .none, o], s) ∧
      ∃ z, o = .state [(0, z)] 1 := by
  obtain ⟨os, s, h1, h2⟩ := C76_run _ _ _ double_digits rng (double_samples h) _ reversible_classic reversible_valid
  obtain ⟨o1, os1, rfl, e1, h2⟩ := h2
  obtain ⟨o2, os2, rfl, e2, h2⟩ := h2
  rw [sample_live] at h2
  obtain ⟨o3, os3, rfl, e3, h2⟩ := h2
  obtain ⟨o4, os4, rfl, e4, h2⟩ := h2
  obtain ⟨o5, os5, rfl, e5, h2⟩ := h2
  obtain ⟨o6, os6, rfl, e6, h2⟩ := h2
  obtain ⟨o7, os7, rfl, e7, h2⟩ := h2
  obtain ⟨o8, os8, rfl, e8, h2⟩ := h2
  obtain ⟨o9, os9, rfl, e9, h2⟩ := h2
  obtain ⟨o10, os10, rfl, e10, h2⟩ := h2
  obtain ⟨o11, os11, rfl, e11, h2⟩ := h2
  obtain ⟨o12, os12, rfl, e12, rfl⟩ := h2
  have l0 : leastFree ∅ = 0 := leastFree_range 0
  have l1 : leastFree (liveNext (F := ℝ) ∅ .allocate) = 1 := by
    simp only [liveNext, l0]; exact leastFree_range 1
  simp only [Told, l0, l1] at e1 e2
  simp [Told, moved, flipping, toggle, odd] at e3 e4 e5 e6 e7 e8 e9 e10 e11
  subst e1 e2 e3 e4 e5 e6 e7 e8 e9 e10 e11
  refine ⟨o12, s, h1, ?_⟩
  obtain ⟨k, z, rfl, hk, hi, _⟩ := e12
  simp only [liveNext] at hk hi ⊢
  have hl : ({0, 1} : Finset ℕ).erase 0 = {1} := rfl
  rw [hl] at hk hi ⊢
  have h3 := hi 1 (by simp)
  rw [show (({1} : Finset ℕ).filter (· < 1)).card = 0 from rfl] at h3
  simp [moved, flipping, toggle] at h3
  have hk2 : k < 2 := hk
  have hk0 : k = 0 := by omega
  subst hk0
  exact ⟨z, rfl⟩

end Gen
end Qir
