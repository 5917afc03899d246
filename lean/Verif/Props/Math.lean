import Verif.Proof.Bytes
import Mathlib.Tactic.Linarith
import Mathlib.Tactic.Ring
import Mathlib.Tactic.FieldSimp
import Mathlib.Tactic.NormNum
import Mathlib.Algebra.Ring.Parity
import Mathlib.Algebra.Order.Field.Basic

/-!
# C44, C45, C46: remainder, big integers, random draws
-/

namespace Qir.Std

/-! ### C44: the IEEE remainder -/

/-- `n` is an integer nearest to `q`. -/
def Nearest (q : ℝ) (n : ℤ) : Prop := ∀ m : ℤ, |q - n| ≤ |q - m|

/-- `q` lies half way between two integers. -/
def Tie (q : ℝ) : Prop := ∃ m : ℤ, q = m + 1 / 2

/-- `r` is the remainder of IEEE 754: the quotient is rounded to nearest, and to even when there are two
nearest integers. -/
def IeeeRem (x y r : ℝ) : Prop :=
  ∃ n : ℤ, r = x - y * n ∧ Nearest (x / y) n ∧ (Tie (x / y) → Even n)

theorem roundAway_close (q : ℝ) : |q - roundAway q| ≤ 1 / 2 := by
  unfold roundAway
  split_ifs
  · have h1 := Int.floor_le (q + 1 / 2)
    have h2 := Int.lt_floor_add_one (q + 1 / 2)
    rw [abs_le]; constructor <;> linarith
  · have h1 := Int.le_ceil (q - 1 / 2)
    have h2 := Int.ceil_lt_add_one (q - 1 / 2)
    rw [abs_le]; constructor <;> linarith

theorem nearest_iff (q : ℝ) (n : ℤ) : Nearest q n ↔ |q - n| ≤ 1 / 2 := by
  constructor
  · exact fun h => (h _).trans (roundAway_close q)
  · intro h m
    by_cases hm : m = n
    · rw [hm]
    · have h1 : (1 : ℝ) ≤ |(n : ℝ) - m| := by
        rw [← Int.cast_sub, ← Int.cast_abs]
        exact_mod_cast Int.one_le_abs (sub_ne_zero.mpr (Ne.symm hm))
      have h2 : |(n : ℝ) - m| ≤ |q - m| + |q - n| := by
        have := abs_sub (q - m) (q - n)
        rwa [show q - (m : ℝ) - (q - n) = n - m by ring] at this
      linarith

/-- Rounding away from zero is the only nearest integer unless there is a tie. -/
theorem nearest_unique {q : ℝ} {n m : ℤ} (ht : ¬ Tie q) (hn : Nearest q n) (hm : Nearest q m) : n = m := by
  rw [nearest_iff, abs_le] at hn hm
  by_contra hne
  rcases lt_or_gt_of_ne hne with h | h
  · have h' : (n : ℝ) + 1 ≤ m := by exact_mod_cast h
    exact ht ⟨n, by linarith⟩
  · have h' : (m : ℝ) + 1 ≤ n := by exact_mod_cast h
    exact ht ⟨m, by linarith⟩

/-- The quotient is always rounded to a nearest integer, so the result is at most half of `y`. -/
theorem C44_nearest_partial (x y : ℝ) (hy : y ≠ 0) :
    (∃ n : ℤ, ieeeRemainder x y = x - y * n ∧ Nearest (x / y) n) ∧ |ieeeRemainder x y| ≤ |y| / 2 := by
  refine ⟨⟨_, rfl, (nearest_iff _ _).mpr (roundAway_close _)⟩, ?_⟩
  have h : ieeeRemainder x y = y * (x / y - roundAway (x / y)) := by
    unfold ieeeRemainder; field_simp
  rw [h, abs_mul]
  have := roundAway_close (x / y)
  have h0 := abs_nonneg y
  nlinarith

/-- Full claim: `∀ x y, y ≠ 0 → IeeeRem x y (ieeeRemainder x y)`.  It is false (see the next theorem but one);
it holds whenever the quotient is not half way between two integers. -/
theorem C44_partial (x y : ℝ) (hy : y ≠ 0) (ht : ¬ Tie (x / y)) (r : ℝ) :
    ieeeRemainder x y = r ↔ IeeeRem x y r := by
  obtain ⟨n, hn, hnear⟩ := (C44_nearest_partial x y hy).1
  constructor
  · rintro rfl
    exact ⟨n, hn, hnear, fun h => absurd h ht⟩
  · rintro ⟨m, hm, hnear', _⟩
    rw [hn, hm, nearest_unique ht hnear hnear']

/-- Exactly when the result is the IEEE one: no tie, or the quotient rounded away from zero is even. -/
theorem C44_exactly_partial (x y : ℝ) (hy : y ≠ 0) :
    IeeeRem x y (ieeeRemainder x y) ↔ ¬ Tie (x / y) ∨ Even (roundAway (x / y)) := by
  constructor
  · rintro ⟨n, hn, -, he⟩
    by_cases ht : Tie (x / y)
    · right
      have h1 : y * (roundAway (x / y) : ℝ) = y * n := by
        unfold ieeeRemainder at hn; linarith
      have h2 : roundAway (x / y) = n := by exact_mod_cast mul_left_cancel₀ hy h1
      rw [h2]; exact he ht
    · exact .inl ht
  · intro h
    refine ⟨roundAway (x / y), rfl, (nearest_iff _ _).mpr (roundAway_close _), fun ht => ?_⟩
    rcases h with h | h
    · exact absurd ht h
    · exact h

/-- The code's answer to the remainder of 1 by 2 is -1; the standard's is 1. -/
theorem C44_counterexample :
    ieeeRemainder 1 2 = -1 ∧ IeeeRem 1 2 1 ∧ ¬ IeeeRem 1 2 (ieeeRemainder 1 2) := by
  have hr : roundAway ((1 : ℝ) / 2) = 1 := by
    unfold roundAway
    rw [if_pos (by norm_num), show (1 : ℝ) / 2 + 1 / 2 = ((1 : ℤ) : ℝ) by norm_num, Int.floor_intCast]
  have ht : Tie ((1 : ℝ) / 2) := ⟨0, by norm_num⟩
  refine ⟨?_, ⟨0, by norm_num, (nearest_iff _ _).mpr ?_, fun _ => ⟨0, rfl⟩⟩, ?_⟩
  · unfold ieeeRemainder; rw [hr]; norm_num
  · rw [Int.cast_zero, sub_zero, abs_of_pos (by norm_num)]
  · rw [C44_exactly_partial 1 2 (by norm_num), hr]
    rintro (h | h)
    · exact h ht
    · exact absurd h (by decide)

/-- A quotient that is no tie: 7 by 4 gives -1. -/
example : ¬ Tie ((7 : ℝ) / 4) ∧ ieeeRemainder 7 4 = -1 := by
  constructor
  · rintro ⟨m, hm⟩
    have : (4 * m + 2 : ℝ) = 7 := by linarith
    have h : 4 * m + 2 = 7 := by exact_mod_cast this
    omega
  · have : roundAway ((7 : ℝ) / 4) = 2 := by
      unfold roundAway
      rw [if_pos (by norm_num), Int.floor_eq_iff]
      norm_num
    unfold ieeeRemainder; rw [this]; norm_num

/-! ### C45: big integers -/

/-- The number a list of bytes stands for: weights 1, 256, 256², …, minus 256^length when the last byte has
its top bit. -/
def signedValue (l : List UInt8) : ℤ :=
  (l.zipIdx.map fun bi : UInt8 × ℕ => (bi.1.toNat : ℤ) * 256 ^ bi.2).sum -
    if ∃ b ∈ l.getLast?, 128 ≤ b.toNat then 256 ^ l.length else 0

theorem weights (l : List UInt8) (k : ℕ) :
    ((l.zipIdx k).map fun bi : UInt8 × ℕ => (bi.1.toNat : ℤ) * 256 ^ bi.2).sum = 256 ^ k * (ofBytesLE l : ℤ) := by
  induction l generalizing k with
  | nil => simp [ofBytesLE]
  | cons b l ih =>
    rw [List.zipIdx_cons, List.map_cons, List.sum_cons, ih]
    simp only [ofBytesLE]
    push_cast
    ring

theorem signedValue_eq {l : List UInt8} (h : l ≠ []) :
    signedValue l = (ofBytesLE l : ℤ) - if 256 ^ l.length ≤ 2 * ofBytesLE l then 256 ^ l.length else 0 := by
  unfold signedValue
  rw [weights, pow_zero, one_mul]
  congr 1
  refine if_congr ?_ rfl rfl
  rw [← last_high h]
  cases hl : l.getLast? with
  | none => exact absurd (List.getLast?_eq_none_iff.mp hl) h
  | some b =>
    simp only [Option.mem_def, Option.some.injEq, exists_eq_left', Option.getD_some]
    rw [gt_iff_lt, UInt8.lt_iff_toNat_lt]
    exact Iff.rfl

theorem signedValue_range {l : List UInt8} (h : l ≠ []) :
    -(256 ^ l.length : ℤ) ≤ 2 * signedValue l ∧ 2 * signedValue l < 256 ^ l.length := by
  rw [signedValue_eq h]
  have hl := ofBytesLE_lt l
  have hc : ((256 ^ l.length : ℕ) : ℤ) = 256 ^ l.length := by push_cast; rfl
  rw [← hc]
  generalize 256 ^ l.length = P at *
  split_ifs <;> omega

/-- `bigint_create_array` reads the bytes as the two's complement little-endian number they stand for. -/
theorem C45_read (l : List UInt8) : fromSignedBytes l = signedValue l := by
  by_cases h : l = []
  · subst h; rfl
  · rw [signedValue_eq h]
    unfold fromSignedBytes
    have hh := last_high h
    have hl := ofBytesLE_lt l
    cases hv : l.getLast? with
    | none => exact absurd (List.getLast?_eq_none_iff.mp hv) h
    | some b =>
      rw [hv, Option.getD_some] at hh
      simp only [hh]
      have hc : ((256 ^ l.length : ℕ) : ℤ) = 256 ^ l.length := by push_cast; rfl
      rw [twosComplement_value, if_pos rfl, ← hc]
      generalize 256 ^ l.length = P at *
      split_ifs with h1
      · rw [Nat.mod_eq_of_lt (by omega)]; omega
      · omega

/-- The bytes before the complement, with the magnitude and the length they have. -/
theorem toSignedBytes_cases (a : ℤ) :
    ∃ B : List UInt8, B ≠ [] ∧ ofBytesLE B = a.natAbs ∧
      toSignedBytes a = (if a < 0 then twosComplement true B else B) ∧
      (0 ≤ a → 2 * a.natAbs < 256 ^ B.length) ∧ (a < 0 → 2 * a.natAbs ≤ 256 ^ B.length) ∧
      (B.length = 1 ∨ (0 ≤ a ∧ 256 ^ (B.length - 1) ≤ 2 * a.natAbs) ∨
        (a < 0 ∧ 256 ^ (B.length - 1) < 2 * a.natAbs)) := by
  have hne := bytesLE_ne_nil a.natAbs
  have hv := ofBytesLE_bytesLE a.natAbs
  have hlt := ofBytesLE_lt (bytesLE a.natAbs)
  have hlen := bytesLE_length a.natAbs
  have hh := last_high hne
  have hf := last_half hne
  rw [hv] at hlt hh hf
  unfold toSignedBytes
  simp only []
  generalize bytesLE a.natAbs = C at *
  have h256 : 256 ^ (C.length - 1 + 1) = 256 ^ (C.length - 1) * 256 := pow_succ ..
  rw [Nat.sub_add_cancel (List.length_pos_iff.mpr hne)] at h256
  have hpos : 0 < 256 ^ (C.length - 1) := Nat.pow_pos (by decide)
  by_cases hc : C.getLast?.getD 0 > 0x7f ∧
      ¬ (C.getLast?.getD 0 = 0x80 ∧ C.dropLast.all (· == 0) = true ∧ a < 0)
  · refine ⟨C ++ [0], by simp, by rw [ofBytesLE_append_zero, hv], by rw [if_pos hc], ?_⟩
    have h1 := hh.mp hc.1
    have h2 : a < 0 → 256 ^ C.length ≠ 2 * a.natAbs := fun h3 h4 => by
      obtain ⟨h5, h6⟩ := hf.mpr h4
      exact hc.2 ⟨h5, h6, h3⟩
    simp only [List.length_append, List.length_singleton, Nat.add_sub_cancel, pow_succ]
    generalize 256 ^ C.length = P at *
    refine ⟨fun h => ?_, fun h => ?_, .inr ?_⟩
    · omega
    · omega
    · by_cases h3 : 0 ≤ a
      · exact .inl ⟨h3, h1⟩
      · have := h2 (by omega)
        exact .inr ⟨by omega, by omega⟩
  · refine ⟨C, hne, hv, by rw [if_neg hc], ?_⟩
    have h2 : 256 ^ C.length ≤ 2 * a.natAbs → a < 0 ∧ 256 ^ C.length = 2 * a.natAbs := fun h3 => by
      have h4 : C.getLast?.getD 0 = 0x80 ∧ C.dropLast.all (· == 0) = true ∧ a < 0 := by
        by_contra h5
        exact hc ⟨hh.mpr h3, h5⟩
      exact ⟨h4.2.2, hf.mp ⟨h4.1, h4.2.1⟩⟩
    generalize 256 ^ C.length = P at *
    generalize 256 ^ (C.length - 1) = R at *
    refine ⟨fun h => ?_, fun h => ?_, ?_⟩
    · by_contra h3
      have := h2 (by omega)
      omega
    · by_contra h3
      have := h2 (by omega)
      omega
    · rcases hlen with h3 | h3
      · exact .inl h3
      · right
        by_cases h4 : 0 ≤ a
        · exact .inl ⟨h4, by omega⟩
        · exact .inr ⟨by omega, by omega⟩

theorem toSignedBytes_ne_nil (a : ℤ) : toSignedBytes a ≠ [] := by
  obtain ⟨B, hne, -, hB, -⟩ := toSignedBytes_cases a
  rw [hB]
  split_ifs
  · rw [← List.length_pos_iff, twosComplement_length]; exact List.length_pos_iff.mpr hne
  · exact hne

/-- The data bytes of a big integer stand for it. -/
theorem C45_data (a : ℤ) : signedValue (toSignedBytes a) = a := by
  rw [signedValue_eq (toSignedBytes_ne_nil a)]
  obtain ⟨B, hne, hv, hB, hpos, hneg, -⟩ := toSignedBytes_cases a
  rw [hB]
  have hlt := ofBytesLE_lt B
  rw [hv] at hlt
  by_cases h : a < 0
  · have hc : ((256 ^ B.length : ℕ) : ℤ) = 256 ^ B.length := by push_cast; rfl
    rw [if_pos h, twosComplement_length, twosComplement_value, if_pos rfl, hv, ← hc]
    have h1 := hneg h
    generalize 256 ^ B.length = P at *
    rw [Nat.mod_eq_of_lt (by omega), if_pos (by omega)]
    omega
  · rw [if_neg h, hv]
    have h1 := hpos (by omega)
    generalize 256 ^ B.length = P at *
    rw [if_neg (by omega)]
    omega

/-- No shorter list of bytes stands for the number, and no other list of that length does. -/
theorem C45_minimal (a : ℤ) (l : List UInt8) (hl : l ≠ []) (hv : signedValue l = a) :
    (toSignedBytes a).length ≤ l.length ∧ (l.length = (toSignedBytes a).length → l = toSignedBytes a) := by
  refine ⟨?_, fun hlen => ?_⟩
  · obtain ⟨B, hne, -, hB, -, -, hmin⟩ := toSignedBytes_cases a
    have hlen : (toSignedBytes a).length = B.length := by
      rw [hB]; split_ifs
      · exact twosComplement_length ..
      · rfl
    rw [hlen]
    by_contra hlt
    have hp := List.length_pos_iff.mpr hl
    have hr := signedValue_range hl
    rw [hv] at hr
    have hle : 256 ^ l.length ≤ 256 ^ (B.length - 1) := Nat.pow_le_pow_right (by decide) (by omega)
    have hc : ((256 ^ l.length : ℕ) : ℤ) = 256 ^ l.length := by push_cast; rfl
    rw [← hc] at hr
    generalize 256 ^ l.length = P at *
    generalize 256 ^ (B.length - 1) = R at *
    rcases hmin with h | h | h
    · omega
    · omega
    · omega
  · have h1 := C45_data a
    have hne := toSignedBytes_ne_nil a
    generalize toSignedBytes a = m at *
    have h2 : ofBytesLE l = ofBytesLE m := by
      rw [← hv, signedValue_eq hne, signedValue_eq hl, hlen] at h1
      have h3 := ofBytesLE_lt l
      have h4 := ofBytesLE_lt m
      rw [hlen] at h3
      have hc : ((256 ^ m.length : ℕ) : ℤ) = 256 ^ m.length := by push_cast; rfl
      rw [← hc] at h1
      generalize 256 ^ m.length = P at *
      split_ifs at h1 <;> omega
    clear h1 hne hl hv
    induction l generalizing m with
    | nil => cases m with
      | nil => rfl
      | cons => simp at hlen
    | cons b l ih => cases m with
      | nil => simp at hlen
      | cons c m =>
        simp only [ofBytesLE] at h2
        have hb := b.toNat_lt
        have hc := c.toNat_lt
        rw [ih m (by simpa using hlen) (by omega), UInt8.toNat_inj.mp (by omega : b.toNat = c.toNat)]

theorem readBigint_alloc (h : Heap) (a : ℤ) : (h.alloc (.bigint a)).2.readBigint (h.alloc (.bigint a)).1 = .ok a := by
  simp [Heap.readBigint, Heap.alloc, Heap.read, Heap.set, bind, Except.bind]

/-- Through the heap: the data of a big integer, given back to `bigint_create_array`, makes an equal one; the
length reported is the number of those bytes. -/
theorem C45_round_trip (h : Heap) (p : Addr) (a : ℤ) (hp : h.readBigint p = .ok a) :
    ∃ l, bigintGetData p h = .ok l ∧
      (bigintCreateArray l h).2.readBigint (bigintCreateArray l h).1 = .ok a ∧
      (∀ n, bigintGetLength p h = .ok n → n = l.length) ∧
      (bigintGetLength p h = .error .panic ↔ 4294967296 ≤ l.length) := by
  refine ⟨toSignedBytes a, by simp [bigintGetData, hp, bind, Except.bind], ?_, ?_, ?_⟩
  · have : fromSignedBytes (toSignedBytes a) = a := by rw [C45_read, C45_data]
    rw [bigintCreateArray, this]; exact readBigint_alloc h a
  · intro n
    simp only [bigintGetLength, hp, bind, Except.bind]
    split_ifs <;> simp_all
  · simp only [bigintGetLength, hp, bind, Except.bind]
    split_ifs <;> simp_all

/-- Quotient and remainder: they are the only pair with the sign of the remainder that of the dividend. -/
theorem C45_divide (a b : ℤ) (hb : b ≠ 0) :
    a = (divRem a b).1 * b + (divRem a b).2 ∧ |(divRem a b).2| < |b| ∧
      ((divRem a b).2 = 0 ∨ (divRem a b).2.sign = a.sign) := by
  have hd : (a.natAbs : ℤ) = b.natAbs * ((a.natAbs / b.natAbs : ℕ) : ℤ) + ((a.natAbs % b.natAbs : ℕ) : ℤ) := by
    exact_mod_cast (Nat.div_add_mod _ _).symm
  have hr : a.natAbs % b.natAbs < b.natAbs := Nat.mod_lt _ (Int.natAbs_pos.mpr hb)
  have hle : a.natAbs % b.natAbs ≤ a.natAbs := Nat.mod_le _ _
  have ha : a.sign * (a.natAbs : ℤ) = a := Int.sign_mul_natAbs a
  have hbb : b < 0 ∧ (b.natAbs : ℤ) = -b ∨ 0 < b ∧ (b.natAbs : ℤ) = b := by omega
  have hs : (divRem a b).2 = a.sign * ((a.natAbs % b.natAbs : ℕ) : ℤ) := by
    unfold divRem; simp only []; split_ifs <;> rfl
  have hq : (divRem a b).1 * b = a.sign * (b.natAbs * ((a.natAbs / b.natAbs : ℕ) : ℤ)) := by
    unfold divRem
    rcases hbb with ⟨h, h'⟩ | ⟨h, h'⟩
    · simp only [h, if_true]; rw [h']; ring
    · simp only [not_lt.mpr h.le, if_false]; rw [h']; ring
  refine ⟨?_, ?_, ?_⟩
  · rw [hq, hs, ← mul_add, ← hd, ha]
  · rw [hs, Int.abs_eq_natAbs, Int.abs_eq_natAbs, Int.natAbs_mul, Int.natAbs_natCast]
    have : a.sign.natAbs ≤ 1 := by
      rcases lt_trichotomy a 0 with h | h | h
      · rw [Int.sign_eq_neg_one_of_neg h]; decide
      · rw [h]; decide
      · rw [Int.sign_eq_one_of_pos h]; decide
    have h2 : a.sign.natAbs * (a.natAbs % b.natAbs) ≤ 1 * (a.natAbs % b.natAbs) := Nat.mul_le_mul_right _ this
    omega
  · by_cases h0 : a.natAbs % b.natAbs = 0
    · left; rw [hs, h0]; simp
    · right
      have h1 : ((a.natAbs % b.natAbs : ℕ) : ℤ).sign = 1 :=
        Int.sign_eq_one_of_pos (by exact_mod_cast Nat.pos_of_ne_zero h0)
      rw [hs, Int.sign_mul, Int.sign_sign, h1, mul_one]

/-- Through the heap: division by zero panics, otherwise new objects with the quotient and the remainder. -/
theorem C45_divide_heap (h : Heap) (p q : Addr) (a b : ℤ) (hp : h.readBigint p = .ok a)
    (hq : h.readBigint q = .ok b) :
    (b = 0 → bigintDivide p q h = .error .panic ∧ bigintModulus p q h = .error .panic) ∧
      (b ≠ 0 → ∃ pd pm hd hm d m, bigintDivide p q h = .ok (pd, hd) ∧ bigintModulus p q h = .ok (pm, hm) ∧
        hd.readBigint pd = .ok d ∧ hm.readBigint pm = .ok m ∧
        a = d * b + m ∧ |m| < |b| ∧ (m = 0 ∨ m.sign = a.sign)) := by
  constructor
  · intro hb
    simp [bigintDivide, bigintModulus, hp, hq, hb, bind, Except.bind]
  · intro hb
    refine ⟨(h.alloc (.bigint (divRem a b).1)).1, (h.alloc (.bigint (divRem a b).2)).1,
      (h.alloc (.bigint (divRem a b).1)).2, (h.alloc (.bigint (divRem a b).2)).2, (divRem a b).1, (divRem a b).2,
      ?_, ?_, readBigint_alloc .., readBigint_alloc .., C45_divide a b hb⟩
    · simp only [bigintDivide, hp, hq, hb, bind, Except.bind, if_false]
    · simp only [bigintModulus, hp, hq, hb, bind, Except.bind, if_false]

/-- Cases: -128 fits one byte, 128 needs two; -7 by 2 is -3, remainder -1. -/
example : toSignedBytes (-128) = [128] ∧ toSignedBytes 128 = [128, 0] ∧ toSignedBytes (-129) = [127, 255] ∧
    toSignedBytes 0 = [0] ∧ divRem (-7) 2 = (-3, -1) ∧ divRem 7 (-2) = (-3, 1) := by
  simp [toSignedBytes, bytesLE, twosComplement, divRem]
  decide +kernel

/-! ### C46: random draws -/

/-- The values of `i64`. -/
def IsI64 (a : ℤ) : Prop := -9223372036854775808 ≤ a ∧ a < 9223372036854775808

theorem wrap64_id {a : ℤ} (h : IsI64 a) : wrap64 a = a := by
  unfold wrap64; unfold IsI64 at h; omega

theorem wrap64_i64 (a : ℤ) : IsI64 (wrap64 a) := by
  unfold wrap64 IsI64; omega

theorem sample_bounds {low high : ℤ} (hl : IsI64 low) (hh : IsI64 high) (hle : low ≤ high) {w1 w2 : ℕ}
    (h1 : w1 < words) :
    low ≤ sampleInclusive low high w1 w2 ∧ sampleInclusive low high w1 w2 ≤ high := by
  unfold sampleInclusive
  simp only []
  by_cases hfull : high - low + 1 = 18446744073709551616
  · have hr : ((high - low + 1) % 18446744073709551616).toNat = 0 := by rw [hfull]; rfl
    rw [if_pos hr]
    have := wrap64_i64 w1
    unfold IsI64 at *
    omega
  · obtain ⟨r, hr⟩ : ∃ r : ℕ, high - low + 1 = r := ⟨(high - low + 1).toNat, by omega⟩
    have hrange : ((high - low + 1) % 18446744073709551616).toNat = r := by
      unfold IsI64 at *; omega
    rw [hrange]
    have hr0 : 0 < r := by omega
    have hrw : r < words := by unfold IsI64 words at *; omega
    rw [if_neg hr0.ne']
    have hdm := Nat.div_add_mod (w1 * r) words
    have hup : w1 * r ≤ (words - 1) * r := Nat.mul_le_mul_right _ (by omega)
    have hup' : (words - 1) * r + r = words * r := by
      rw [Nat.sub_mul, one_mul, Nat.sub_add_cancel]
      exact Nat.le_mul_of_pos_left _ (by omega)
    have hmod := Nat.mod_lt (w1 * r) (by omega : 0 < words)
    have hwr : (words - r) % words = words - r := Nat.mod_eq_of_lt (by omega)
    rw [hwr]
    generalize w1 * r % words = lo at *
    generalize w1 * r / words = q at *
    have hq : q < r := by
      by_contra hge
      have : words * r ≤ words * q := Nat.mul_le_mul_left _ (by omega)
      omega
    have key : ∀ e : ℕ, e < r → low ≤ wrap64 (low + (e : ℕ)) ∧ wrap64 (low + (e : ℕ)) ≤ high := fun e he => by
      rw [wrap64_id (by unfold IsI64 at *; omega)]
      omega
    split_ifs with h3 h4
    · refine key (q + 1) ?_
      by_contra hge
      have hq' : q = r - 1 := by omega
      have : words * q + words = words * r := by
        rw [hq', Nat.mul_sub, mul_one, Nat.sub_add_cancel]
        exact Nat.le_mul_of_pos_right _ hr0
      omega
    · exact key (q + 0) (by omega)
    · exact key q hq

/-- An integer drawn lies between the bounds, and the call fails exactly when the minimum is above the maximum. -/
theorem C46_int (min max : ℤ) (hmin : IsI64 min) (hmax : IsI64 max) (w1 w2 : ℕ)
    (h1 : w1 < words) :
    (drawRandomInt min max w1 w2 = .error .panic ↔ min > max) ∧
      (∀ e, drawRandomInt min max w1 w2 = .error e → e = .panic) ∧
      ∀ n, drawRandomInt min max w1 w2 = .ok n → min ≤ n ∧ n ≤ max := by
  unfold drawRandomInt
  split_ifs with h
  · simp [h]
  · refine ⟨by simp [h], by simp, ?_⟩
    rintro n ⟨⟩
    exact sample_bounds hmin hmax (by omega) h1

/-- Every integer between the bounds can be drawn, the bounds included. -/
theorem C46_int_all (min max k : ℤ) (hmin : IsI64 min) (hmax : IsI64 max) (hk : min ≤ k ∧ k ≤ max) :
    ∃ w1 w2 : ℕ, w1 < words ∧ w2 < words ∧ drawRandomInt min max w1 w2 = .ok k := by
  have hw : 0 < words := by unfold words; omega
  unfold drawRandomInt
  simp only [gt_iff_lt, show ¬ max < min by omega, if_false, Except.ok.injEq]
  unfold sampleInclusive
  simp only []
  by_cases hfull : max - min + 1 = 18446744073709551616
  · have hr : ((max - min + 1) % 18446744073709551616).toNat = 0 := by rw [hfull]; rfl
    refine ⟨(k % 18446744073709551616).toNat, 0, by unfold words; omega, hw, ?_⟩
    rw [if_pos hr]
    unfold wrap64 IsI64 at *
    omega
  · obtain ⟨r, hr⟩ : ∃ r : ℕ, max - min + 1 = r := ⟨(max - min + 1).toNat, by omega⟩
    have hrange : ((max - min + 1) % 18446744073709551616).toNat = r := by
      unfold IsI64 at *; omega
    rw [hrange]
    have hr0 : 0 < r := by omega
    have hrw : r < words := by unfold IsI64 words at *; omega
    obtain ⟨j, hj⟩ : ∃ j : ℕ, k - min = j := ⟨(k - min).toNat, by omega⟩
    have hjr : j < r := by omega
    -- the least word whose product with the range reaches `j` times the number of words
    have hd := Nat.div_add_mod (j * words + (r - 1)) r
    have hm := Nat.mod_lt (j * words + (r - 1)) hr0
    generalize (j * words + (r - 1)) / r = w at *
    generalize (j * words + (r - 1)) % r = t at *
    have hprod : w * r = j * words + (r - 1 - t) := by rw [mul_comm]; omega
    have hlt : r - 1 - t < words := by omega
    have hdiv : w * r / words = j := by
      rw [hprod, mul_comm, Nat.mul_add_div hw, Nat.div_eq_of_lt hlt, add_zero]
    have hmod : w * r % words = r - 1 - t := by
      rw [hprod, mul_comm, Nat.mul_add_mod, Nat.mod_eq_of_lt hlt]
    refine ⟨w, 0, ?_, hw, ?_⟩
    · by_contra hge
      have h1 : words * r ≤ w * r := Nat.mul_le_mul_right _ (by omega)
      have h2 : (j + 1) * words ≤ r * words := Nat.mul_le_mul_right _ (by omega)
      have h3 : (j + 1) * words = j * words + words := by ring
      have h4 : r * words = words * r := mul_comm _ _
      omega
    · rw [if_neg hr0.ne', hdiv, hmod]
      have hmin' : wrap64 (min + (j : ℤ)) = k := by
        rw [wrap64_id (by unfold IsI64 at *; omega)]; omega
      split_ifs with h3 h4
      · rw [Nat.zero_mul, Nat.zero_div] at h4; omega
      · exact hmin'
      · exact hmin'

/-- A double drawn lies between the bounds; the call fails exactly when the minimum is above the maximum; every
number between the bounds is drawn for some random number. -/
theorem C46_double (min max : ℝ) :
    (∀ u, drawRandomDouble min max u = .error .panic ↔ min > max) ∧
      (∀ u x, 0 ≤ u → u ≤ 1 → drawRandomDouble min max u = .ok x → min ≤ x ∧ x ≤ max) ∧
      ∀ x, min ≤ x → x ≤ max → ∃ u, 0 ≤ u ∧ u ≤ 1 ∧ drawRandomDouble min max u = .ok x := by
  refine ⟨fun u => ?_, fun u x h0 h1 => ?_, fun x hx hx' => ?_⟩
  · unfold drawRandomDouble; split_ifs with h <;> simp [h]
  · unfold drawRandomDouble
    split_ifs with h
    · simp
    · rintro ⟨⟩
      unfold sampleReal
      constructor <;> nlinarith
  · have hle : ¬ min > max := by linarith
    rcases eq_or_lt_of_le (hx.trans hx') with h | h
    · refine ⟨0, le_rfl, zero_le_one, ?_⟩
      unfold drawRandomDouble sampleReal
      rw [if_neg hle]
      congr 1; linarith
    · have hp : 0 < max - min := by linarith
      refine ⟨(x - min) / (max - min), div_nonneg (by linarith) hp.le, (div_le_one hp).mpr (by linarith), ?_⟩
      unfold drawRandomDouble sampleReal
      rw [if_neg hle]
      congr 1
      field_simp
      ring

/-- Cases: the full range of `i64`, a die, and bounds in the wrong order. -/
example : drawRandomInt (-9223372036854775808) 9223372036854775807 5 0 = .ok 5 ∧
    drawRandomInt 1 6 18446744073709551615 18446744073709551615 = .ok 6 ∧
    drawRandomInt 1 6 0 0 = .ok 1 ∧ drawRandomInt 2 1 7 7 = .error .panic := by
  decide +kernel

end Qir.Std
