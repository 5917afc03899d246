import Verif.Spec.Values
import Verif.Props.Math

/-!
# Lemmas about values
-/

namespace Qir.Std

open Heap

/-! ### Bits -/

theorem bitOf_testBit (a : ℤ) (k : ℕ) : bitOf a k ↔ a.testBit k = true := by
  unfold bitOf
  induction k generalizing a with
  | zero =>
    rw [pow_zero, Int.ediv_one]
    conv_rhs => rw [← Int.bit_decomp a]
    rw [Int.testBit_bit_zero]
    have := Int.bodd_add_div2 a
    cases h : a.bodd <;> simp [h] at this ⊢ <;> omega
  | succ k ih =>
    conv_rhs => rw [← Int.bit_decomp a]
    rw [Int.testBit_bit_succ, ← ih, Int.div2_val, pow_succ', Int.ediv_ediv_of_nonneg (by norm_num)]

theorem bitOf_ext {a b : ℤ} (h : ∀ k, bitOf a k ↔ bitOf b k) : a = b := by
  have key : ∀ n : ℕ, ∀ a b : ℤ, a.natAbs + b.natAbs ≤ n → (∀ k, bitOf a k ↔ bitOf b k) → a = b := by
    intro n
    induction n using Nat.strong_induction_on with
    | _ n ih =>
      intro a b hn h
      have h0 := h 0
      simp only [bitOf, pow_zero, Int.ediv_one] at h0
      have hs : ∀ k, bitOf (a / 2) k ↔ bitOf (b / 2) k := by
        intro k
        have := h (k + 1)
        simpa only [bitOf, pow_succ', ← Int.ediv_ediv_of_nonneg (show (0 : ℤ) ≤ 2 by norm_num)] using this
      by_cases hlt : (a / 2).natAbs + (b / 2).natAbs < n
      · have := ih _ hlt _ _ le_rfl hs
        omega
      · -- both are 0 or -1
        have ha : a = 0 ∨ a = -1 := by omega
        have hb : b = 0 ∨ b = -1 := by omega
        rcases ha with rfl | rfl <;> rcases hb with rfl | rfl <;> first | rfl | (exfalso; norm_num at h0)
  exact key _ a b le_rfl h

theorem notBig_eq (a : ℤ) : notBig a = -a - 1 := by
  unfold notBig; split_ifs <;> omega

theorem bitOf_not (a : ℤ) (k : ℕ) : bitOf (notBig a) k ↔ ¬ bitOf a k := by
  rw [notBig_eq]
  unfold bitOf
  have hp : (0 : ℤ) < 2 ^ k := by positivity
  have : (-a - 1) / 2 ^ k = -(a / 2 ^ k) - 1 := by
    rw [Int.ediv_eq_iff_of_pos hp]
    have h1 := Int.emod_add_mul_ediv a (2 ^ k)
    have h2 := Int.emod_nonneg a hp.ne'
    have h3 := Int.emod_lt_of_pos a hp
    constructor <;> nlinarith
  rw [this]
  omega

theorem shrBig_eq (a : ℤ) (n : ℕ) : shrBig a n = a / 2 ^ n := by
  have hp : (0 : ℤ) < 2 ^ n := by positivity
  unfold shrBig
  simp only [Nat.shiftRight_eq_div_pow]
  symm
  rw [Int.ediv_eq_iff_of_pos hp]
  have h1 := Nat.mod_add_div a.natAbs (2 ^ n)
  have h2 := Nat.mod_lt a.natAbs (show 0 < 2 ^ n by positivity)
  have hz : n = 0 → a.natAbs % 2 ^ n = 0 := by rintro rfl; simp [Nat.mod_one]
  zify at h1 h2
  rcases lt_trichotomy a 0 with h | rfl | h
  · rw [Int.sign_eq_neg_one_of_neg h]
    have ha : |a| = -a := abs_of_neg h
    split_ifs with hr
    · have h3 : (0 : ℤ) < |a| % 2 ^ n := by
        have := hr.2.2
        have h4 := Int.emod_nonneg |a| hp.ne'
        have h5 : |a| % 2 ^ n ≠ 0 := by
          intro h6; apply this; zify; exact h6
        omega
      push_cast
      rw [ha] at h1 h2 h3 ⊢
      constructor <;> nlinarith
    · have h3 : |a| % 2 ^ n = 0 := by
        by_contra h6
        exact hr ⟨h, by by_contra h7; exact h6 (by have := hz (by omega); zify at this; exact this),
          fun h8 => h6 (by zify at h8; exact h8)⟩
      push_cast
      rw [ha] at h1 h2 h3 ⊢
      constructor <;> nlinarith
  · simp
  · rw [Int.sign_eq_one_of_pos h, if_neg (by omega)]
    have ha : |a| = a := abs_of_pos h
    push_cast
    rw [ha] at h1 h2 ⊢
    have h4 := Int.emod_nonneg a hp.ne'
    constructor <;> nlinarith

theorem shl_eq (a : ℤ) (n : ℕ) : a.sign * ((a.natAbs <<< n : ℕ) : ℤ) = a * 2 ^ n := by
  rw [Nat.shiftLeft_eq]
  push_cast
  rw [← mul_assoc]
  congr 1
  have := Int.sign_mul_natAbs a
  rwa [Int.natCast_natAbs] at this

/-! ### Uniqueness -/

theorem UnOp.result_unique {o : UnOp} {a c d : ℤ} (h : o.Result a c) (h' : o.Result a d) : c = d := by
  cases o with
  | neg => simp only [UnOp.Result] at h h'; omega
  | not => exact bitOf_ext fun k => (h k).trans (h' k).symm
  | pow n => exact h.trans h'.symm
  | shl n => exact h.trans h'.symm
  | shr n =>
    have hp : (0 : ℤ) < 2 ^ n := by positivity
    have h1 : c < d + 1 := lt_of_mul_lt_mul_right (h.1.trans_lt h'.2) hp.le
    have h2 : d < c + 1 := lt_of_mul_lt_mul_right (h'.1.trans_lt h.2) hp.le
    omega

theorem divide_unique {a b q r q' r' : ℤ} (h : a = b * q + r) (hr : |r| < |b|) (hs : 0 ≤ a * r)
    (h' : a = b * q' + r') (hr' : |r'| < |b|) (hs' : 0 ≤ a * r') : q = q' ∧ r = r' := by
  have hd : r - r' = b * (q' - q) := by linarith
  have hlt : |r - r'| < |b| := by
    rcases lt_trichotomy a 0 with ha | rfl | ha
    · have h1 : r ≤ 0 := by by_contra h1; nlinarith
      have h2 : r' ≤ 0 := by by_contra h2; nlinarith
      rw [abs_of_nonpos h1] at hr; rw [abs_of_nonpos h2] at hr'
      rw [abs_lt]; constructor <;> linarith
    · have e1 : r = 0 := by
        by_contra h1
        have : b ∣ r := ⟨-q, by linarith⟩
        exact absurd (Int.eq_zero_of_abs_lt_dvd ((abs_dvd b r).mpr this) hr) h1
      have e2 : r' = 0 := by
        by_contra h1
        have : b ∣ r' := ⟨-q', by linarith⟩
        exact absurd (Int.eq_zero_of_abs_lt_dvd ((abs_dvd b r').mpr this) hr') h1
      rw [e1] at hr ⊢
      rw [e2]; simpa using hr
    · have h1 : 0 ≤ r := by by_contra h1; nlinarith
      have h2 : 0 ≤ r' := by by_contra h2; nlinarith
      rw [abs_of_nonneg h1] at hr; rw [abs_of_nonneg h2] at hr'
      rw [abs_lt]; constructor <;> linarith
  have h0 : r - r' = 0 := Int.eq_zero_of_abs_lt_dvd ((abs_dvd b _).mpr ⟨_, hd⟩) hlt
  have hb : b ≠ 0 := by rintro rfl; simp at hr; exact absurd hr (not_lt.mpr (abs_nonneg r))
  refine ⟨?_, by linarith⟩
  rw [h0] at hd
  rcases mul_eq_zero.mp hd.symm with h1 | h1
  · exact absurd h1 hb
  · linarith

theorem BinOp.result_unique {o : BinOp} {a b c d : ℤ} (h : o.Result a b c) (h' : o.Result a b d) : c = d := by
  cases o with
  | add => exact h.trans h'.symm
  | sub => simp only [BinOp.Result] at h h'; omega
  | mul => exact h.trans h'.symm
  | div =>
    obtain ⟨r, h1, h2, h3⟩ := h
    obtain ⟨r', h1', h2', h3'⟩ := h'
    exact (divide_unique h1 h2 h3 h1' h2' h3').1
  | mod =>
    obtain ⟨r, h1, h2, h3⟩ := h
    obtain ⟨r', h1', h2', h3'⟩ := h'
    exact (divide_unique h1 h2 h3 h1' h2' h3').2
  | and => exact bitOf_ext fun k => (h k).trans (h' k).symm
  | or => exact bitOf_ext fun k => (h k).trans (h' k).symm
  | xor => exact bitOf_ext fun k => (h k).trans (h' k).symm

theorem Means.unique {σ : Addr → Option ℤ} {e : BigExpr} {a b : ℤ} (h : Means σ e a) (h' : Means σ e b) :
    a = b := by
  induction h generalizing b with
  | obj h => cases h' with | obj h' => rw [h] at h'; exact Option.some.inj h'
  | ofInt n => cases h'; rfl
  | ofBytes l => cases h'; rfl
  | un _ hr ih => cases h' with | un h1 hr' => cases ih h1; exact UnOp.result_unique hr hr'
  | bin _ _ hr ih1 ih2 =>
    cases h' with | bin h1 h2 hr' => cases ih1 h1; cases ih2 h2; exact BinOp.result_unique hr hr'

theorem bytesValue_eq (l : List UInt8) : fromSignedBytes l = bytesValue l := by
  rw [C45_read]
  unfold signedValue
  rw [weights, pow_zero, one_mul]
  induction l with
  | nil => rfl
  | cons b l ih =>
    cases l with
    | nil =>
      simp only [bytesValue, ofBytesLE, List.getLast?_singleton, Option.mem_def, Option.some.injEq,
        exists_eq_left', List.length_singleton, pow_one]
      have := UInt8.toNat_lt b
      split_ifs <;> omega
    | cons c l =>
      rw [bytesValue, ← ih, List.getLast?_cons_cons]
      · simp only [ofBytesLE, List.length_cons]
        split_ifs <;> push_cast <;> ring
      · simp

/-! ### Heaps that have grown -/

/-- Nothing is known of the names still to come. -/
def Unused (h : Heap) : Prop := ∀ q, h.next ≤ q → h.box q = none ∧ q ∉ h.dropped ∧ q ∉ h.freed

/-- `h'` comes from `h` by creating objects and releasing all of them except those in `K`. -/
structure Grown (h h' : Heap) (K : Addr → Option Obj) : Prop where
  le : h.next ≤ h'.next
  old : ∀ q < h.next, h'.box q = h.box q ∧ h'.dropped.count q = h.dropped.count q ∧
    h'.freed.count q = h.freed.count q
  kept : ∀ q v, K q = some v → h.next ≤ q ∧ q < h'.next ∧ h'.box q = some ⟨1, 1, some v⟩ ∧
    q ∉ h'.dropped ∧ q ∉ h'.freed
  gone : ∀ q, h.next ≤ q → K q = none → h'.box q = none ∧
    (q < h'.next → h'.dropped.count q = 1 ∧ h'.freed.count q = 1) ∧
    (h'.next ≤ q → q ∉ h'.dropped ∧ q ∉ h'.freed)

theorem Grown.refl {h : Heap} (hu : Unused h) : Grown h h fun _ => none where
  le := le_rfl
  old _ _ := ⟨rfl, rfl, rfl⟩
  kept _ _ hk := nomatch hk
  gone q hq _ := ⟨(hu q hq).1, fun hl => absurd hl (not_lt.mpr hq), fun _ => (hu q hq).2⟩

variable {h h' : Heap} {K : Addr → Option Obj}

theorem Grown.unused (hg : Grown h h' K) : K h'.next = none := by
  cases hk : K h'.next with
  | none => rfl
  | some v => exact absurd (hg.kept _ _ hk).2.1 (lt_irrefl _)

theorem Grown.alloc (hg : Grown h h' K) (v : Obj) :
    Grown h (h'.alloc v).2 (Function.update K h'.next (some v)) where
  le := hg.le.trans (Nat.le_succ _)
  old q hq := by
    have hne : q ≠ h'.next := (hq.trans_le hg.le).ne
    obtain ⟨h1, h2, h3⟩ := hg.old q hq
    refine ⟨?_, h2, h3⟩
    simp only [Heap.alloc, Heap.set]
    rw [Function.update_of_ne hne]; exact h1
  kept q w hk := by
    simp only [Heap.alloc, Heap.set]
    by_cases hq : q = h'.next
    · subst hq
      rw [Function.update_self] at hk; cases hk
      rw [Function.update_self]
      have := hg.gone h'.next hg.le hg.unused
      exact ⟨hg.le, Nat.lt_succ_self _, rfl, (this.2.2 le_rfl).1, (this.2.2 le_rfl).2⟩
    · rw [Function.update_of_ne hq] at hk ⊢
      obtain ⟨h1, h2, h3, h4, h5⟩ := hg.kept q w hk
      exact ⟨h1, h2.trans (Nat.lt_succ_self _), h3, h4, h5⟩
  gone q hq hk := by
    simp only [Heap.alloc, Heap.set]
    have hne : q ≠ h'.next := by rintro rfl; simp at hk
    rw [Function.update_of_ne hne] at hk ⊢
    obtain ⟨h1, h2, h3⟩ := hg.gone q hq hk
    exact ⟨h1, fun h4 => h2 (by omega), fun h4 => h3 (by omega)⟩

theorem Grown.read_kept (hg : Grown h h' K) {p : Addr} {v : Obj} (hk : K p = some v) : h'.read p = .ok v := by
  simp only [Heap.read, (hg.kept p v hk).2.2.1]

theorem Grown.read_old (hg : Grown h h' K) (hu : Unused h) {p : Addr} {v : Obj} (hr : h.read p = .ok v) :
    h'.read p = .ok v := by
  have hp : p < h.next := by
    by_contra hp
    simp only [Heap.read, (hu p (not_lt.mp hp)).1] at hr
    cases hr
  simpa only [Heap.read, (hg.old p hp).1] using hr

/-- Releasing an object that was kept. -/
theorem Grown.release (hg : Grown h h' K) {p : Addr} {v : Obj} (hk : K p = some v) :
    ∃ h'', updateCounts p (-1) false h' = .ok h'' ∧ h''.next = h'.next ∧
      Grown h h'' (Function.update K p none) := by
  obtain ⟨h1, h2, h3, h4, h5⟩ := hg.kept p v hk
  refine ⟨({ h'.set p ⟨0, 1, none⟩ with dropped := p :: h'.dropped } : Heap).dealloc p, ?_, rfl, ?_⟩
  · simp [updateCounts, iterate, countDown, decStrong, decWeak, h3, Heap.set, bind, Except.bind]
  · have hbox : ∀ q, (({ h'.set p ⟨0, 1, none⟩ with dropped := p :: h'.dropped } : Heap).dealloc p).box q =
        if q = p then none else h'.box q := by
      intro q
      simp only [Heap.dealloc, Heap.set]
      by_cases hq : q = p
      · subst hq; simp
      · rw [Function.update_of_ne hq, Function.update_of_ne hq, if_neg hq]
    constructor
    · exact hg.le
    · intro q hq
      have hne : q ≠ p := by omega
      rw [hbox, if_neg hne]
      simp only [Heap.dealloc, Heap.set, List.count_cons, beq_iff_eq, hne.symm, if_false]
      exact hg.old q hq
    · intro q w hkq
      have hne : q ≠ p := by rintro rfl; simp at hkq
      rw [Function.update_of_ne hne] at hkq
      rw [hbox, if_neg hne]
      simp only [Heap.dealloc, Heap.set, List.mem_cons, hne, false_or]
      exact hg.kept q w hkq
    · intro q hq hkq
      rw [hbox]
      by_cases hne : q = p
      · subst hne
        rw [if_pos rfl]
        refine ⟨rfl, fun _ => ⟨?_, ?_⟩, fun h6 => absurd h2 (not_lt.mpr h6)⟩
        · simp only [Heap.dealloc, Heap.set, List.count_cons_self, List.count_eq_zero.mpr h4]
        · simp only [Heap.dealloc, Heap.set, List.count_cons_self, List.count_eq_zero.mpr h5]
      · rw [Function.update_of_ne hne] at hkq
        rw [if_neg hne]
        simp only [Heap.dealloc, Heap.set, List.count_cons, beq_iff_eq, Ne.symm hne, if_false, List.mem_cons,
          hne, false_or]
        exact hg.gone q hq hkq

/-! ### The calls -/

theorem readBigint_of {p : Addr} {a : ℤ} (hr : h.read p = .ok (.bigint a)) : h.readBigint p = .ok a := by
  simp only [Heap.readBigint, hr, bind, Except.bind]

theorem readString_of {p : Addr} {s : List UInt8} (hr : h.read p = .ok (.string s)) :
    h.readString p = .ok s := by
  simp only [Heap.readString, hr, bind, Except.bind]

theorem UnOp.call_eq (o : UnOp) (a : ℤ) : ∃ c, o.Result a c ∧
    ∀ (h : Heap) (p : Addr), h.read p = .ok (.bigint a) → o.call p h = .ok (h.alloc (.bigint c)) := by
  cases o with
  | neg =>
    refine ⟨a * -1, by simp only [UnOp.Result]; ring, fun h p hr => ?_⟩
    simp only [UnOp.call, bigintNegate, readBigint_of hr, bind, Except.bind]
  | not =>
    refine ⟨notBig a, bitOf_not a, fun h p hr => ?_⟩
    simp only [UnOp.call, bigintBitnot, readBigint_of hr, bind, Except.bind]
  | pow n =>
    refine ⟨a ^ n, (List.prod_replicate n a).symm, fun h p hr => ?_⟩
    simp only [UnOp.call, bigintPower, readBigint_of hr, bind, Except.bind]
  | shl n =>
    refine ⟨_, shl_eq a n, fun h p hr => ?_⟩
    simp only [UnOp.call, bigintShiftleft, readBigint_of hr, bind, Except.bind]
  | shr n =>
    refine ⟨shrBig a n, ?_, fun h p hr => ?_⟩
    · have hp : (0 : ℤ) < 2 ^ n := by positivity
      rw [shrBig_eq]
      have := (Int.ediv_eq_iff_of_pos (x := a) (y := a / 2 ^ n) hp).mp rfl
      simp only [UnOp.Result]
      constructor <;> nlinarith [this.1, this.2]
    · simp only [UnOp.call, bigintShiftright, readBigint_of hr, bind, Except.bind]

theorem divide_result {a b : ℤ} (hb : b ≠ 0) :
    BinOp.div.Result a b (divRem a b).1 ∧ BinOp.mod.Result a b (divRem a b).2 := by
  obtain ⟨h1, h2, h3⟩ := C45_divide a b hb
  have h4 : 0 ≤ a * (divRem a b).2 := by
    rcases h3 with h3 | h3
    · rw [h3]; simp
    · rw [← Int.sign_nonneg_iff, Int.sign_mul, h3]
      exact mul_self_nonneg _
  rw [mul_comm] at h1
  exact ⟨⟨_, h1, h2, h4⟩, ⟨_, h1, h2, h4⟩⟩

theorem BinOp.call_eq (o : BinOp) (a b : ℤ) :
    (∃ c, o.Result a b c ∧ ∀ (h : Heap) (p q : Addr), h.read p = .ok (.bigint a) →
      h.read q = .ok (.bigint b) → o.call p q h = .ok (h.alloc (.bigint c))) ∨
    ((∀ c, ¬ o.Result a b c) ∧ ∀ (h : Heap) (p q : Addr), h.read p = .ok (.bigint a) →
      h.read q = .ok (.bigint b) → o.call p q h = .error .panic) := by
  cases o with
  | add =>
    refine .inl ⟨a + b, rfl, fun h p q hp hq => ?_⟩
    simp only [BinOp.call, bigintAdd, readBigint_of hp, readBigint_of hq, bind, Except.bind]
  | sub =>
    refine .inl ⟨a - b, by simp only [BinOp.Result]; ring, fun h p q hp hq => ?_⟩
    simp only [BinOp.call, bigintSubtract, readBigint_of hp, readBigint_of hq, bind, Except.bind]
  | mul =>
    refine .inl ⟨a * b, rfl, fun h p q hp hq => ?_⟩
    simp only [BinOp.call, bigintMultiply, readBigint_of hp, readBigint_of hq, bind, Except.bind]
  | div =>
    by_cases hb : b = 0
    · refine .inr ⟨fun c ⟨r, _, h2, _⟩ => ?_, fun h p q hp hq => ?_⟩
      · rw [hb, abs_zero] at h2; exact absurd h2 (not_lt.mpr (abs_nonneg r))
      · simp only [BinOp.call, bigintDivide, readBigint_of hp, readBigint_of hq, bind, Except.bind, hb, if_true]
    · refine .inl ⟨_, (divide_result hb).1, fun h p q hp hq => ?_⟩
      simp only [BinOp.call, bigintDivide, readBigint_of hp, readBigint_of hq, bind, Except.bind, hb, if_false]
  | mod =>
    by_cases hb : b = 0
    · refine .inr ⟨fun c ⟨r, _, h2, _⟩ => ?_, fun h p q hp hq => ?_⟩
      · rw [hb, abs_zero] at h2; exact absurd h2 (not_lt.mpr (abs_nonneg c))
      · simp only [BinOp.call, bigintModulus, readBigint_of hp, readBigint_of hq, bind, Except.bind, hb, if_true]
    · refine .inl ⟨_, (divide_result hb).2, fun h p q hp hq => ?_⟩
      simp only [BinOp.call, bigintModulus, readBigint_of hp, readBigint_of hq, bind, Except.bind, hb, if_false]
  | and =>
    refine .inl ⟨Int.land a b, fun k => ?_, fun h p q hp hq => ?_⟩
    · simp only [bitOf_testBit, Int.testBit_land, Bool.and_eq_true]
    · simp only [BinOp.call, bigintBitand, readBigint_of hp, readBigint_of hq, bind, Except.bind]
  | or =>
    refine .inl ⟨Int.lor a b, fun k => ?_, fun h p q hp hq => ?_⟩
    · simp only [bitOf_testBit, Int.testBit_lor, Bool.or_eq_true]
    · simp only [BinOp.call, bigintBitor, readBigint_of hp, readBigint_of hq, bind, Except.bind]
  | xor =>
    refine .inl ⟨Int.xor a b, fun k => ?_, fun h p q hp hq => ?_⟩
    · simp only [bitOf_testBit, Int.testBit_lxor]
      cases a.testBit k <;> cases b.testBit k <;> simp
    · simp only [BinOp.call, bigintBitxor, readBigint_of hp, readBigint_of hq, bind, Except.bind]

/-! ### Expressions -/

/-- Evaluation from `h1` to `h'` has put the value `v` at `x`; `h` is the heap at the beginning. -/
def Placed (h h1 h' : Heap) (K : Addr → Option Obj) (x : Held) (v : Obj) : Prop :=
  (x.own = true ∧ h1.next ≤ x.at_ ∧ Grown h h' (Function.update K x.at_ (some v))) ∨
    (x.own = false ∧ h.read x.at_ = .ok v ∧ h1.next ≤ h'.next ∧ Grown h h' K)

variable {h1 h2 : Heap} {x y : Held} {v w : Obj}

theorem Placed.le (hp : Placed h h1 h' K x v) : h1.next ≤ h'.next := by
  rcases hp with ⟨-, h2, h3⟩ | ⟨-, -, h2, -⟩
  · exact h2.trans (h3.kept _ _ (Function.update_self ..)).2.1.le
  · exact h2

/-- What is kept after the evaluation. -/
def Held.keep (K : Addr → Option Obj) (x : Held) (v : Obj) : Addr → Option Obj :=
  if x.own then Function.update K x.at_ (some v) else K

theorem Placed.grown (hp : Placed h h1 h' K x v) : Grown h h' (x.keep K v) := by
  rcases hp with ⟨h1, -, h3⟩ | ⟨h1, -, -, h3⟩ <;> simp only [Held.keep, h1] <;> simpa using h3

theorem Placed.read (hp : Placed h h1 h' K x v) (hu : Unused h) : h'.read x.at_ = .ok v := by
  rcases hp with ⟨-, -, h3⟩ | ⟨-, h2, -, h3⟩
  · exact h3.read_kept (Function.update_self ..)
  · exact h3.read_old hu h2

theorem Grown.none_of_le (hg : Grown h h1 K) {q : Addr} (hq : h1.next ≤ q) : K q = none := by
  cases hk : K q with
  | none => rfl
  | some v => exact absurd (hg.kept _ _ hk).2.1 (not_lt.mpr hq)

/-- After the second evaluation the first value is still there. -/
theorem Placed.read_later (hx : Placed h h1 h2 K x v) (hy : Placed h h2 h' (x.keep K v) y w) (hu : Unused h) :
    h'.read x.at_ = .ok v := by
  rcases hx with ⟨a1, -, a3⟩ | ⟨-, a2, -, -⟩
  · have hk : y.keep (x.keep K v) w x.at_ = some v := by
      have e : x.keep K v x.at_ = some v := by simp [Held.keep, a1]
      rcases hy with ⟨b1, b2, -⟩ | ⟨b1, -⟩
      · have : x.at_ ≠ y.at_ := by
          have := (a3.kept _ _ (Function.update_self ..)).2.1
          omega
        simp only [Held.keep, b1, if_true]
        rw [Function.update_of_ne this]; exact e
      · rw [Held.keep, b1]; exact e
    exact hy.grown.read_kept hk
  · exact hy.grown.read_old hu a2

/-- Release after use. -/
def Held.drop (K : Addr → Option Obj) (x : Held) : Addr → Option Obj :=
  if x.own then Function.update K x.at_ none else K

theorem Grown.done (hg : Grown h h' K) (hk : x.own = true → ∃ v, K x.at_ = some v) :
    ∃ h'', x.doneBig h' = .ok h'' ∧ x.doneStr h' = .ok h'' ∧ h''.next = h'.next ∧ Grown h h'' (x.drop K) := by
  cases ho : x.own with
  | false =>
    refine ⟨h', by simp [Held.doneBig, ho], by simp [Held.doneStr, ho], rfl, ?_⟩
    simpa [Held.drop, ho] using hg
  | true =>
    obtain ⟨v, hv⟩ := hk ho
    obtain ⟨h'', a1, a2, a3⟩ := hg.release hv
    refine ⟨h'', by simpa [Held.doneBig, ho, bigintUpdateRef] using a1,
      by simpa [Held.doneStr, ho, stringUpdateRef] using a1, a2, ?_⟩
    simpa [Held.drop, ho] using a3

/-- One operand: the new object is made and the operand released. -/
theorem finish_one (hg : Grown h h1 K) (hx : Placed h h1 h2 K x v) (w : Obj) :
    ∃ h', x.doneBig (h2.alloc w).2 = .ok h' ∧ x.doneStr (h2.alloc w).2 = .ok h' ∧
      Placed h h1 h' K ⟨(h2.alloc w).1, true⟩ w := by
  have hle := hx.le
  have ha := hx.grown.alloc w
  have hlt : x.own = true → x.at_ < h2.next ∧ K x.at_ = none := by
    intro ho
    rcases hx with ⟨-, a2, a3⟩ | ⟨a1, -⟩
    · exact ⟨(a3.kept _ _ (Function.update_self ..)).2.1, hg.none_of_le a2⟩
    · rw [a1] at ho; cases ho
  obtain ⟨h', b1, b2, b3, b4⟩ := ha.done (x := x) (by
    intro ho
    refine ⟨v, ?_⟩
    rw [Function.update_of_ne (hlt ho).1.ne]
    simp [Held.keep, ho])
  refine ⟨h', b1, b2, .inl ⟨rfl, hle, ?_⟩⟩
  convert b4 using 1
  funext q
  show Function.update K h2.next (some w) q = _
  by_cases ho : x.own = true
  · obtain ⟨c1, c2⟩ := hlt ho
    simp only [Held.drop, Held.keep, ho, if_true]
    by_cases hq : q = x.at_
    · subst hq; simp [c1.ne, c2]
    · rw [Function.update_of_ne hq]
      by_cases hq' : q = h2.next
      · subst hq'; simp
      · simp [hq', hq]
  · simp [Held.drop, Held.keep, ho]

/-- Two operands. -/
theorem finish_two (hg : Grown h h1 K) {h3 : Heap} (hx : Placed h h1 h2 K x v)
    (hy : Placed h h2 h3 (x.keep K v) y w) (z : Obj) :
    ∃ h4 h', x.doneBig (h3.alloc z).2 = .ok h4 ∧ x.doneStr (h3.alloc z).2 = .ok h4 ∧
      y.doneBig h4 = .ok h' ∧ y.doneStr h4 = .ok h' ∧ Placed h h1 h' K ⟨(h3.alloc z).1, true⟩ z := by
  have hle := hx.le.trans hy.le
  have ha := hy.grown.alloc z
  have hlx : x.own = true → x.at_ < h2.next ∧ K x.at_ = none := by
    intro ho
    rcases hx with ⟨-, a2, a3⟩ | ⟨a1, -⟩
    · exact ⟨(a3.kept _ _ (Function.update_self ..)).2.1, hg.none_of_le a2⟩
    · rw [a1] at ho; cases ho
  have hly : y.own = true → h2.next ≤ y.at_ ∧ y.at_ < h3.next ∧ K y.at_ = none := by
    intro ho
    rcases hy with ⟨-, a2, a3⟩ | ⟨a1, -⟩
    · exact ⟨a2, (a3.kept _ _ (Function.update_self ..)).2.1, hg.none_of_le (hx.le.trans a2)⟩
    · rw [a1] at ho; cases ho
  have hyle := hy.le
  obtain ⟨h4, b1, b2, b3, b4⟩ := ha.done (x := x) (by
    intro ho
    have := hlx ho
    refine ⟨v, ?_⟩
    rw [Function.update_of_ne (by omega)]
    have e : x.keep K v x.at_ = some v := by simp [Held.keep, ho]
    by_cases hy' : y.own = true
    · have := hly hy'
      simp only [Held.keep, hy', if_true]
      rw [Function.update_of_ne (by omega)]; exact e
    · rw [Held.keep, if_neg hy']; exact e)
  obtain ⟨h', c1, c2, c3, c4⟩ := b4.done (x := y) (by
    intro ho
    have := hly ho
    refine ⟨w, ?_⟩
    have e : Function.update (y.keep (x.keep K v) w) h3.next (some z) y.at_ = some w := by
      rw [Function.update_of_ne (by omega)]; simp [Held.keep, ho]
    by_cases hx' : x.own = true
    · have := hlx hx'
      simp only [Held.drop, hx', if_true]
      rw [Function.update_of_ne (by omega)]; exact e
    · rw [Held.drop, if_neg hx']; exact e)
  refine ⟨h4, h', b1, b2, c1, c2, .inl ⟨rfl, hle, ?_⟩⟩
  convert c4 using 1
  funext q
  show Function.update K h3.next (some z) q = _
  by_cases hox : x.own = true <;> by_cases hoy : y.own = true <;>
    simp only [Held.drop, Held.keep, hox, hoy, if_true, Bool.false_eq_true, if_false, Function.update_apply]
  · obtain ⟨d1, d2⟩ := hlx hox
    obtain ⟨d3, d4, d5⟩ := hly hoy
    split_ifs <;> first | rfl | omega | simp_all
  · obtain ⟨d1, d2⟩ := hlx hox
    split_ifs <;> first | rfl | omega | simp_all
  · obtain ⟨d3, d4, d5⟩ := hly hoy
    split_ifs <;> first | rfl | omega | simp_all

/-- Two operands and no new object. -/
theorem finish_none (hg : Grown h h1 K) {h3 : Heap} (hx : Placed h h1 h2 K x v)
    (hy : Placed h h2 h3 (x.keep K v) y w) :
    ∃ h4 h', x.doneBig h3 = .ok h4 ∧ x.doneStr h3 = .ok h4 ∧
      y.doneBig h4 = .ok h' ∧ y.doneStr h4 = .ok h' ∧ Grown h h' K := by
  have ha := hy.grown
  have hlx : x.own = true → x.at_ < h2.next ∧ K x.at_ = none := by
    intro ho
    rcases hx with ⟨-, a2, a3⟩ | ⟨a1, -⟩
    · exact ⟨(a3.kept _ _ (Function.update_self ..)).2.1, hg.none_of_le a2⟩
    · rw [a1] at ho; cases ho
  have hly : y.own = true → h2.next ≤ y.at_ ∧ y.at_ < h3.next ∧ K y.at_ = none := by
    intro ho
    rcases hy with ⟨-, a2, a3⟩ | ⟨a1, -⟩
    · exact ⟨a2, (a3.kept _ _ (Function.update_self ..)).2.1, hg.none_of_le (hx.le.trans a2)⟩
    · rw [a1] at ho; cases ho
  obtain ⟨h4, b1, b2, b3, b4⟩ := ha.done (x := x) (by
    intro ho
    have := hlx ho
    refine ⟨v, ?_⟩
    have e : x.keep K v x.at_ = some v := by simp [Held.keep, ho]
    by_cases hy' : y.own = true
    · have := hly hy'
      simp only [Held.keep, hy', if_true]
      rw [Function.update_of_ne (by omega)]; exact e
    · rw [Held.keep, if_neg hy']; exact e)
  obtain ⟨h', c1, c2, c3, c4⟩ := b4.done (x := y) (by
    intro ho
    have := hly ho
    refine ⟨w, ?_⟩
    have e : y.keep (x.keep K v) w y.at_ = some w := by simp [Held.keep, ho]
    by_cases hx' : x.own = true
    · have := hlx hx'
      simp only [Held.drop, hx', if_true]
      rw [Function.update_of_ne (by omega)]; exact e
    · rw [Held.drop, if_neg hx']; exact e)
  refine ⟨h4, h', b1, b2, c1, c2, ?_⟩
  convert c4 using 1
  funext q
  by_cases hox : x.own = true <;> by_cases hoy : y.own = true <;>
    simp only [Held.drop, Held.keep, hox, hoy, if_true, Bool.false_eq_true, if_false, Function.update_apply]
  · obtain ⟨d1, d2⟩ := hlx hox
    obtain ⟨d3, d4, d5⟩ := hly hoy
    split_ifs <;> first | rfl | omega | simp_all
  · obtain ⟨d1, d2⟩ := hlx hox
    split_ifs <;> first | rfl | omega | simp_all
  · obtain ⟨d3, d4, d5⟩ := hly hoy
    split_ifs <;> first | rfl | omega | simp_all

theorem bigsOf_eq {p : Addr} {a : ℤ} : bigsOf h p = some a ↔ h.read p = .ok (.bigint a) := by
  unfold bigsOf
  split <;> simp_all

theorem stringsOf_eq {p : Addr} {s : List UInt8} : stringsOf h p = some s ↔ h.read p = .ok (.string s) := by
  unfold stringsOf
  split <;> simp_all

theorem placed_alloc (hg : Grown h h1 K) (v : Obj) : Placed h h1 (h1.alloc v).2 K ⟨(h1.alloc v).1, true⟩ v :=
  .inl ⟨rfl, le_rfl, hg.alloc v⟩

theorem evalBig_spec (hu : Unused h) (e : BigExpr) : ∀ {h1 : Heap} {K : Addr → Option Obj}, Grown h h1 K →
    e.Known (bigsOf h) →
    (∃ x h' a, evalBig e h1 = .ok (x, h') ∧ Means (bigsOf h) e a ∧ Placed h h1 h' K x (.bigint a)) ∨
      (evalBig e h1 = .error .panic ∧ ∀ a, ¬ Means (bigsOf h) e a) := by
  induction e with
  | obj p =>
    intro h1 K hg hk
    obtain ⟨a, ha⟩ := Option.ne_none_iff_exists'.mp hk
    exact .inl ⟨_, _, a, rfl, .obj ha, .inr ⟨rfl, bigsOf_eq.mp ha, le_rfl, hg⟩⟩
  | ofInt n =>
    intro h1 K hg _
    exact .inl ⟨_, _, n, rfl, .ofInt n, placed_alloc hg _⟩
  | ofBytes l =>
    intro h1 K hg _
    refine .inl ⟨_, _, _, rfl, .ofBytes l, ?_⟩
    have := placed_alloc hg (.bigint (fromSignedBytes l))
    rw [bytesValue_eq] at this
    simpa [fresh, bigintCreateArray, bytesValue_eq] using this
  | un o e ih =>
    intro h1 K hg hk
    rcases ih hg hk with ⟨x, h2, a, e1, m1, p1⟩ | ⟨e1, m1⟩
    · obtain ⟨c, hc, hcall⟩ := o.call_eq a
      obtain ⟨h', d1, -, d3⟩ := finish_one hg p1 (.bigint c)
      refine .inl ⟨_, h', c, ?_, .un m1 hc, d3⟩
      simp only [evalBig, e1, bind, Except.bind, hcall h2 x.at_ (p1.read hu), d1]
      rfl
    · refine .inr ⟨by simp only [evalBig, e1, bind, Except.bind], fun c hm => ?_⟩
      cases hm with | un m _ => exact m1 _ m
  | bin o e f ihe ihf =>
    intro h1 K hg hk
    rcases ihe hg hk.1 with ⟨x, h2, a, e1, m1, p1⟩ | ⟨e1, m1⟩
    · rcases ihf p1.grown hk.2 with ⟨y, h3, b, e2, m2, p2⟩ | ⟨e2, m2⟩
      · rcases o.call_eq a b with ⟨c, hc, hcall⟩ | ⟨hno, hcall⟩
        · obtain ⟨h4, h', d1, -, d2, -, d3⟩ := finish_two hg p1 p2 (.bigint c)
          refine .inl ⟨_, h', c, ?_, .bin m1 m2 hc, d3⟩
          simp only [evalBig, e1, e2, bind, Except.bind,
            hcall h3 x.at_ y.at_ (p1.read_later p2 hu) (p2.read hu), d1, d2]
          rfl
        · refine .inr ⟨?_, fun c hm => ?_⟩
          · simp only [evalBig, e1, e2, bind, Except.bind,
              hcall h3 x.at_ y.at_ (p1.read_later p2 hu) (p2.read hu)]
          · cases hm with
            | bin ma mb hr => rw [ma.unique m1, mb.unique m2] at hr; exact hno c hr
      · refine .inr ⟨by simp only [evalBig, e1, e2, bind, Except.bind], fun c hm => ?_⟩
        cases hm with | bin _ m _ => exact m2 _ m
    · refine .inr ⟨by simp only [evalBig, e1, bind, Except.bind], fun c hm => ?_⟩
      cases hm with | bin m _ _ => exact m1 _ m

end Qir.Std
