import Verif.Props.Amplitude
import Verif.Proof.Outcome
import Verif.Proof.Twin2

/-!
# A measurement in double precision that is not repeatable

The run of `C80_double`: first for an abstract arithmetic, then with the numbers of double precision.  None of the
roundings is a tie.
-/

noncomputable section
namespace Qir
namespace Gen

theorem roundTo_eq {x : ℝ} (k n : ℤ) (hk : -1022 ≤ k) (h1 : (2 : ℝ) ^ k ≤ |x|) (h2 : |x| < 2 ^ (k + 1))
    (h3 : |x - n * 2 ^ (k - 52)| < 2 ^ (k - 53)) : roundTo 53 (-1022) x = n * 2 ^ (k - 52) := by
  have hx : 0 < |x| := lt_of_lt_of_le (by positivity) h1
  have hl : Int.log 2 |x| = k := by
    refine le_antisymm ?_ ?_
    · have := (Int.lt_zpow_iff_log_lt (b := 2) (by norm_num) hx (x := k + 1)).1 (by exact_mod_cast h2)
      omega
    · exact (Int.zpow_le_iff_le_log (b := 2) (by norm_num) hx).1 (by exact_mod_cast h1)
  have hp : place 53 (-1022) x = k - 52 := by
    rw [place, hl, max_eq_left hk]; ring
  have hpos : (0 : ℝ) < 2 ^ (k - 52) := by positivity
  have hh : (2 : ℝ) ^ (k - 53) = 2 ^ (k - 52) / 2 := by
    rw [show k - 53 = (k - 52) - 1 by ring, zpow_sub_one₀ (by norm_num)]; ring
  rw [roundTo, hp]
  congr 2
  rw [round_eq, Int.floor_eq_iff]
  rw [hh, abs_lt] at h3
  constructor
  · rw [← sub_le_iff_le_add, le_div_iff₀ hpos]
    nlinarith [h3.1]
  · rw [← lt_sub_iff_add_lt, div_lt_iff₀ hpos]
    nlinarith [h3.2]

/-- `1/√2`, its square and so on in double precision. -/
theorem double_root : roundTo 53 (-1022) (1 / √2) = 6369051672525773 / 2 ^ 53 := by
  have h : (1 : ℝ) / √2 = √(1 / 2) := by rw [Real.sqrt_div (by norm_num), Real.sqrt_one]
  have l : (6369051672525773 / 2 ^ 53 - 1 / 2 ^ 54 : ℝ) < √(1 / 2) := Real.lt_sqrt_of_sq_lt (by norm_num)
  have u : √(1 / 2) < (6369051672525773 / 2 ^ 53 + 1 / 2 ^ 54 : ℝ) :=
    (Real.sqrt_lt' (by norm_num)).2 (by norm_num)
  rw [h, roundTo_eq (-1) 6369051672525773 (by norm_num)]
  · norm_num
  · rw [abs_of_nonneg (Real.sqrt_nonneg _)]; refine le_trans ?_ l.le; norm_num
  · rw [abs_of_nonneg (Real.sqrt_nonneg _)]; refine lt_of_lt_of_le u ?_; norm_num
  · rw [abs_lt]; norm_num at l u ⊢; constructor <;> linarith

theorem double_sqrt : roundTo 53 (-1022) √(4503599627370498 / 2 ^ 53) = 6369051672525774 / 2 ^ 53 := by
  have l : (6369051672525774 / 2 ^ 53 - 1 / 2 ^ 54 : ℝ) < √(4503599627370498 / 2 ^ 53) :=
    Real.lt_sqrt_of_sq_lt (by norm_num)
  have u : √(4503599627370498 / 2 ^ 53) < (6369051672525774 / 2 ^ 53 + 1 / 2 ^ 54 : ℝ) :=
    (Real.sqrt_lt' (by norm_num)).2 (by norm_num)
  rw [roundTo_eq (-1) 6369051672525774 (by norm_num)]
  · norm_num
  · rw [abs_of_nonneg (Real.sqrt_nonneg _)]; refine le_trans ?_ l.le; norm_num
  · rw [abs_of_nonneg (Real.sqrt_nonneg _)]; refine lt_of_lt_of_le u ?_; norm_num
  · rw [abs_lt]; norm_num at l u ⊢; constructor <;> linarith

macro "dbl " k:term "," n:term : tactic =>
  `(tactic| (rw [roundTo_eq $k $n (by norm_num) (by norm_num [abs_of_neg]) (by norm_num [abs_of_neg])
    (by norm_num [abs_lt])]; norm_num))

/-- The numbers of the example: the square of the root, its square, and so on. -/
theorem double_numbers :
    roundTo 53 (-1022) (6369051672525773 / 2 ^ 53) = 6369051672525773 / 2 ^ 53 ∧
    roundTo 53 (-1022) (6369051672525773 / 2 ^ 53 * (6369051672525773 / 2 ^ 53)) = 4503599627370497 / 2 ^ 53 ∧
    roundTo 53 (-1022) (4503599627370497 / 2 ^ 53) = 4503599627370497 / 2 ^ 53 ∧
    roundTo 53 (-1022) (-(4503599627370497 / 2 ^ 53)) = -(4503599627370497 / 2 ^ 53) ∧
    roundTo 53 (-1022) (4503599627370497 / 2 ^ 53 * (4503599627370497 / 2 ^ 53)) = 4503599627370498 / 2 ^ 54 ∧
    roundTo 53 (-1022) (4503599627370498 / 2 ^ 54) = 4503599627370498 / 2 ^ 54 ∧
    roundTo 53 (-1022) (4503599627370498 / 2 ^ 54 + 4503599627370498 / 2 ^ 54) = 4503599627370498 / 2 ^ 53 ∧
    roundTo 53 (-1022) (1 / (6369051672525774 / 2 ^ 53)) = 6369051672525771 / 2 ^ 52 ∧
    roundTo 53 (-1022) (4503599627370497 / 2 ^ 53 * (6369051672525771 / 2 ^ 52)) = 6369051672525772 / 2 ^ 53 ∧
    roundTo 53 (-1022) (-(4503599627370497 / 2 ^ 53) * (6369051672525771 / 2 ^ 52)) = -(6369051672525772 / 2 ^ 53) ∧
    roundTo 53 (-1022) (6369051672525772 / 2 ^ 53 * (6369051672525772 / 2 ^ 53)) = 9007199254740990 / 2 ^ 54 ∧
    roundTo 53 (-1022) (9007199254740990 / 2 ^ 54) = 9007199254740990 / 2 ^ 54 ∧
    roundTo 53 (-1022) (9007199254740990 / 2 ^ 54 + 9007199254740990 / 2 ^ 54) = 9007199254740990 / 2 ^ 53 := by
  refine ⟨?_, ?_, ?_, ?_, ?_, ?_, ?_, ?_, ?_, ?_, ?_, ?_, ?_⟩
  · dbl (-1), 6369051672525773
  · dbl (-1), 4503599627370497
  · dbl (-1), 4503599627370497
  · dbl (-1), (-4503599627370497)
  · dbl (-2), 4503599627370498
  · dbl (-2), 4503599627370498
  · dbl (-1), 4503599627370498
  · dbl 0, 6369051672525771
  · dbl (-1), 6369051672525772
  · dbl (-1), (-6369051672525772)
  · dbl (-2), 9007199254740990
  · dbl (-2), 9007199254740990
  · dbl (-1), 9007199254740990

variable {F : Type} {N : Num F}

def twoQubits : IMap ℕ := IMap.insert (IMap.insert IMap.empty 0 0) 1 1
def two (st : List (ℕ × Cx F)) (rng : ℕ → F) (f : ℕ) (ops : List (List ℕ × ℕ × GOp F)) : GSim F :=
  ⟨st, twoQubits, rng, f, IMap.empty, IMap.empty, ops⟩

theorem two_alloc (rng : ℕ → F) : runCalls N [.allocate, .allocate] (new N rng) =
    .ok ([.id 0, .id 1], two [(0, N.oneC)] rng 0 []) := by
  have h5 : allocate (new N rng) = (0, one [(0, N.oneC)] rng 0 []) := by
    have : (new N rng).idMap.values.mergeSort (fun a b => decide (a ≤ b)) = [] := List.mergeSort_nil
    simp only [allocate, this]
    rfl
  have h6 : allocate (one [(0, N.oneC)] rng 0 []) = (1, two [(0, N.oneC)] rng 0 []) := by
    have : (one [(0, N.oneC)] rng 0 []).idMap.values.mergeSort (fun a b => decide (a ≤ b)) = [0] :=
      List.mergeSort_singleton _
    simp only [allocate, this]
    rfl
  simp only [runCalls, show ∀ s, call N .allocate s = .ok (.id (allocate s).1, (allocate s).2) from fun _ => rfl, h5,
    ok_bind, h6]
  rfl

theorem two_flush {st : List (ℕ × Cx F)} {rng : ℕ → F} {f t : ℕ} {ops : List (List ℕ × ℕ × GOp F)}
    (hf : f.testBit t = true)
    (ht : Sim.resolveAndCheck twoQubits t [] = .ok (t, []))
    (hr : resolveOps twoQubits ops = .ok ops) (hsh : ∀ l, N.shuffle l = l) {st' : List (ℕ × Cx F)}
    (hs : (collectMap (st.map (applyOps N ops))).flatMap (mchEntry N (collectMap (st.map (applyOps N ops))) [] t) = st') :
    flushQueue N [t] .HRxRy (two st rng f ops) = .ok (two st' rng (setBit f t false) []) := by
  have h1 : takeOps (two st rng f ops) = .ok (ops, two st rng f []) := by
    unfold takeOps
    rw [show (two st rng f ops).opQ = ops from rfl, show (two st rng f ops).idMap = twoQubits from rfl, hr]
    rfl
  have h5 : applyMch N [] t (two st rng f ops) = .ok (two st' rng f []) := by
    unfold applyMch
    rw [show (two st rng f ops).idMap = twoQubits from rfl, ht]
    simp only [ok_bind, h1]
    rw [hsh, ← hs]
    rfl
  have h6 : flushH N t (two st rng f ops) = .ok (two st' rng (setBit f t false) []) := by
    unfold flushH
    rw [show (two st rng f ops).hFlag = f from rfl, if_pos hf, h5]; rfl
  rw [flushQueue, flushLoop, flushOne, h6]; rfl

theorem two_h (rng : ℕ → F) (st : List (ℕ × Cx F)) (f t : ℕ) (ops : List (List ℕ × ℕ × GOp F)) :
    call N (.gate .h t) (two st rng f ops) = .ok (.none, two st rng (setBit f t (!f.testBit t)) ops) := by
  rw [call, gateCall, show h N t (two st rng f ops) = .ok (two st rng (setBit f t (!f.testBit t)) ops) from rfl]; rfl

theorem two_cx (rng : ℕ → F) (hs : ∀ l, N.shuffle l = l) : call N (.ctrl .x [0] 1) (two [(0, N.oneC)] rng 1 []) =
    .ok (.none, two [(0, N.scale N.oneC N.fracSqrt2), (1, N.scale (N.scale N.oneC N.fracSqrt2) N.one)] rng 0
      [([0], 1, .X)]) := by
  have h7 : flushQueue N [0] .HRxRy (two [(0, N.oneC)] rng 1 []) = .ok (two [(0, N.scale N.oneC N.fracSqrt2),
      (1, N.scale (N.scale N.oneC N.fracSqrt2) N.one)] rng 0 []) :=
    two_flush rfl rfl rfl hs (by
      rw [show collectMap ([(0, N.oneC)].map (applyOps N [])) = [(0, N.oneC)] from rfl]
      simp [mchEntry, lookupMap, setBit])
  have h8 : mcxFlushCtls N 0 [] 1 (two [(0, N.oneC)] rng 1 []) = flushQueue N [0] .HRxRy (two [(0, N.oneC)] rng 1 []) := by
    simp only [mcxFlushCtls, flushIf, two]
    simp [IMap.containsKey, IMap.empty, show Nat.testBit 1 1 = false from by decide]
  rw [call, ctrlCall, mcx, show flushIf N ((two [(0, N.oneC)] rng 1 []).ryQ.containsKey 1) [1] .HRxRy
      (two [(0, N.oneC)] rng 1 []) = .ok (two [(0, N.oneC)] rng 1 []) from rfl, ok_bind, h8, h7, ok_bind,
    if_neg (by simp [two])]
  rfl

/-- The state before the measurements. -/
def spread (N : Num F) : List (ℕ × Cx F) :=
  let a := N.scale N.oneC N.fracSqrt2
  let b := N.scale a N.one
  [(0, N.scale a N.fracSqrt2), (2, N.scale (N.scale a N.fracSqrt2) N.one), (1, N.scale b N.fracSqrt2),
    (3, N.scale (N.scale b N.fracSqrt2) (N.neg N.one))]

theorem two_measure (rng : ℕ → F) (st : List (ℕ × Cx F)) : call N (.measure 1) (two st rng 0 []) =
    (let p := st.foldl (fun a e => if e.1.testBit 1 then N.add a (N.normSqr e.2) else a) N.zero
     let b := N.lt (rng 0) p
     .ok (.bit b, two (st.filterMap fun e => if e.1.testBit 1 = b then
      some (e.1, N.scale e.2 (N.div N.one (N.sqrt (if b then p else N.sub N.one p)))) else none)
      (fun n => rng (n + 1)) 0 [])) := by
  have h8 : maybeFlush N [1] .HRxRy (two st rng 0 []) = .ok (two st rng 0 []) := by
    unfold maybeFlush
    rw [if_neg (by simp [two, hasQueued, IMap.containsKey, IMap.empty])]
  have h9 : Sim.resolveId (two st rng 0 []).idMap 1 = .ok 1 := rfl
  have h10 : st.map (applyOps N []) = st := List.map_id _
  simp only [call, measure, h8, ok_bind, h9, nextSample, checkJointProbability, takeOps,
    show resolveOps (two st rng 0 []).idMap (two st rng 0 []).opQ = .ok [] from rfl, pure_ok,
    show (two st rng 0 []).state = st from rfl, h10, jointCollapse, oddParity_single]
  rfl

/-- The state after the first Hadamard gate. -/
def halfway (N : Num F) : List (ℕ × Cx F) :=
  [(0, N.scale N.oneC N.fracSqrt2), (1, N.scale (N.scale N.oneC N.fracSqrt2) N.one)]

theorem two_measure' (rng : ℕ → F) (hs : ∀ l, N.shuffle l = l) :
    call N (.measure 1) (two (halfway N) rng 2 [([0], 1, .X)]) =
    call N (.measure 1) (two (spread N) rng 0 []) := by
  have h7 : flushQueue N [1] .HRxRy (two (halfway N) rng 2 [([0], 1, .X)]) =
    .ok (two (spread N) rng 0 []) :=
    two_flush rfl rfl rfl hs (by
      have : [(0, N.scale N.oneC N.fracSqrt2), (1, N.scale (N.scale N.oneC N.fracSqrt2) N.one)].map
          (applyOps N [([0], 1, .X)]) =
        [(0, N.scale N.oneC N.fracSqrt2), (3, N.scale (N.scale N.oneC N.fracSqrt2) N.one)] := by
        simp [applyOps, applyOp, xTransform, setBit]
      rw [halfway, this, show collectMap [(0, N.scale N.oneC N.fracSqrt2), (3, N.scale (N.scale N.oneC N.fracSqrt2) N.one)] =
        [(0, N.scale N.oneC N.fracSqrt2), (3, N.scale (N.scale N.oneC N.fracSqrt2) N.one)] from rfl]
      simp [mchEntry, lookupMap, setBit, spread, show Nat.testBit 3 1 = true from by decide])
  have h8 : maybeFlush N [1] .HRxRy (two (halfway N) rng 2 [([0], 1, .X)]) =
    .ok (two (spread N) rng 0 []) := by
    unfold maybeFlush
    rw [if_pos (by simp [two, hasQueued, show Nat.testBit 2 1 = true from by decide]), h7]
  have h9 : maybeFlush N [1] .HRxRy (two (spread N) rng 0 []) = .ok (two (spread N) rng 0 []) := by
    unfold maybeFlush
    rw [if_neg (by simp [two, hasQueued, IMap.containsKey, IMap.empty])]
  simp only [call, measure, h8, h9]

/-- Make an entangled pair, apply a Hadamard gate to the second qubit and measure it twice. -/
def twice : List (GCall F) :=
  [.allocate, .allocate, .gate .h 0, .ctrl .x [0] 1, .gate .h 1, .measure 1, .measure 1, .getState]

theorem twice_run (hs : ∀ l, N.shuffle l = l) (rng : ℕ → F) (a b x y p k p' : F)
    (hsp : spread N = [(0, ⟨a, b⟩), (2, ⟨a, b⟩), (1, ⟨a, b⟩), (3, ⟨x, y⟩)])
    (hp : N.add (N.add N.zero (N.normSqr ⟨a, b⟩)) (N.normSqr ⟨x, y⟩) = p) (hk : N.div N.one (N.sqrt p) = k)
    (hp' : N.add (N.add N.zero (N.normSqr (N.scale ⟨a, b⟩ k))) (N.normSqr (N.scale ⟨x, y⟩ k)) = p')
    (h0 : N.lt (rng 0) p = true) (h1 : N.lt (rng 1) p' = false) :
    ∃ s, runCalls N twice (new N rng) =
      .ok ([.id 0, .id 1, .none, .none, .none, .bit true, .bit false, .state [] 2], s) := by
  have b1 : setBit 0 0 (!(0 : ℕ).testBit 0) = 1 := rfl
  have b2 : setBit 0 1 (!(0 : ℕ).testBit 1) = 2 := rfl
  have t0 : Nat.testBit 2 1 = true := by decide
  have t1 : Nat.testBit 3 1 = true := by decide
  have t2 : Nat.testBit 1 1 = false := by decide
  have m1 : call N (.measure 1) (two (spread N) rng 0 []) = .ok (.bit true,
      two [(2, N.scale ⟨a, b⟩ k), (3, N.scale ⟨x, y⟩ k)] (fun n => rng (n + 1)) 0 []) := by
    rw [two_measure, hsp]
    simp [t0, t1, t2, hp, h0, hk]
  have m2 : call N (.measure 1) (two [(2, N.scale ⟨a, b⟩ k), (3, N.scale ⟨x, y⟩ k)] (fun n => rng (n + 1)) 0 []) =
      .ok (.bit false, two [] (fun n => rng (n + 1 + 1)) 0 []) := by
    rw [two_measure]
    simp [t0, t1, hp', h1]
  have h4 : ∀ rng : ℕ → F, call N .getState (two [] rng 0 []) = .ok (.state [] 2, two [] rng 0 []) := by
    intro rng
    have h8 : (two ([] : List (ℕ × Cx F)) rng 0 []).idMap.iter.map Prod.fst = [0, 1] := rfl
    have h7 : flushQueue N [0, 1] .HRxRy (two [] rng 0 []) = .ok (two [] rng 0 []) := by
      simp [flushQueue, flushLoop, flushOne, flushH, flushRx, flushRy, flushOps, two, IMap.get, IMap.empty]
    have h9 : sortState ([] : List (ℕ × Cx F)) = [] := List.mergeSort_nil
    have h10 : relocate N 0 [0, 1] (two [] rng 0 []) = .ok (two [] rng 0 []) := rfl
    simp only [call, getState, h8, h7, ok_bind]
    rw [h10]
    simp only [ok_bind, pure_ok]
    rw [show (two ([] : List (ℕ × Cx F)) rng 0 []).state = [] from rfl, h9]
    rfl
  refine ⟨two [] (fun n => rng (n + 1 + 1)) 0 [], ?_⟩
  rw [show (twice : List (GCall F)) = [.allocate, .allocate] ++
    [.gate .h 0, .ctrl .x [0] 1, .gate .h 1, .measure 1, .measure 1, .getState] from rfl, runCalls_append, two_alloc]
  have m0 := two_measure' rng hs
  unfold halfway at m0
  simp only [runCalls, ok_bind, two_h, b1, b2, two_cx rng hs, m0, m1, m2, h4]
  rfl

theorem double_spread : spread doubleNum = [(0, ⟨4503599627370497 / 2 ^ 53, 0⟩), (2, ⟨4503599627370497 / 2 ^ 53, 0⟩),
    (1, ⟨4503599627370497 / 2 ^ 53, 0⟩), (3, ⟨-(4503599627370497 / 2 ^ 53), 0⟩)] := by
  obtain ⟨n1, n2, n3, n4, -⟩ := double_numbers
  have hr : doubleNum.fracSqrt2 = 6369051672525773 / 2 ^ 53 := double_root
  simp only [spread, Num.scale, Num.oneC, hr]
  simp only [doubleNum, roundedNum, one_mul, mul_one, mul_neg, zero_mul, neg_zero, roundTo_zero, n1, n2, n3, n4]

theorem double_twice (rng : ℕ → ℝ) (h0 : rng 0 < 1 / 2) (h1 : 1 - 1 / 2 ^ 52 ≤ rng 1) :
    ∃ s, runCalls doubleNum twice (new doubleNum rng) =
      .ok ([.id 0, .id 1, .none, .none, .none, .bit true, .bit false, .state [] 2], s) := by
  obtain ⟨n1, n2, n3, n4, n5, n6, n7, n8, n9, n10, n11, n12, n13⟩ := double_numbers
  refine twice_run (fun _ => rfl) rng _ _ _ _ (4503599627370498 / 2 ^ 53) (6369051672525771 / 2 ^ 52)
    (9007199254740990 / 2 ^ 53) double_spread ?_ ?_ ?_ ?_ ?_
  · simp only [Num.normSqr, doubleNum, roundedNum, mul_zero, roundTo_zero, add_zero, zero_add, neg_mul_neg, n5, n6, n7]
  · show roundTo 53 (-1022) (1 / roundTo 53 (-1022) √(4503599627370498 / 2 ^ 53)) = _
    rw [double_sqrt, n8]
  · simp only [Num.normSqr, Num.scale, doubleNum, roundedNum, zero_mul, mul_zero, roundTo_zero, add_zero, zero_add, n9, n10,
      neg_mul_neg, n11, n12, n13]
  · show decide (rng 0 < 4503599627370498 / 2 ^ 53) = true
    simp only [decide_eq_true_eq]
    refine lt_trans h0 ?_
    norm_num
  · show decide (rng 1 < 9007199254740990 / 2 ^ 53) = false
    simp only [decide_eq_false_iff_not, not_lt]
    refine le_trans ?_ h1
    norm_num

end Gen
end Qir
