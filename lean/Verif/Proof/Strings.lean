import Verif.Proof.Values
import Verif.Proof.Output
import Mathlib.Data.List.Induction

/-!
# Lemmas about strings
-/

namespace Qir.Std

open Heap Out

/-! ### Decimal notation -/

theorem isDigit_iff {c : Char} : c.isDigit = true ↔ '0' ≤ c ∧ c ≤ '9' := by
  simp only [Char.isDigit, Bool.and_eq_true, decide_eq_true_eq]
  exact Iff.rfl

theorem digitsValue_eq (l : List Char) : digitsValue l = Nat.ofDigitChars 10 l 0 := rfl

theorem digitsValue_append (l : List Char) (c : Char) :
    digitsValue (l ++ [c]) = 10 * digitsValue l + (c.toNat - 48) := by
  unfold digitsValue
  rw [List.foldl_append]; rfl

theorem digitChar_of {c : Char} (hc : '0' ≤ c ∧ c ≤ '9') :
    c.toNat - 48 < 10 ∧ Nat.digitChar (c.toNat - 48) = c := by
  have h1 : 48 ≤ c.toNat := hc.1
  have h2 : c.toNat ≤ 57 := hc.2
  refine ⟨by omega, Char.toNat_inj.mp ?_⟩
  rw [Nat.toNat_digitChar_of_lt_ten (by omega)]; omega

theorem digitsValue_pos {c : Char} {l : List Char} (hc : '0' ≤ c ∧ c ≤ '9') (h0 : c ≠ '0') :
    0 < digitsValue (c :: l) := by
  induction l using List.reverseRecOn with
  | nil =>
    have h1 : 48 ≤ c.toNat := hc.1
    have h3 : c.toNat ≠ 48 := fun h => h0 (Char.toNat_inj.mp h)
    show 0 < 10 * 0 + (c.toNat - 48)
    omega
  | append_singleton l d ih =>
    rw [← List.cons_append, digitsValue_append]; omega

theorem Digits.eq : ∀ {l : List Char} {n : ℕ}, Digits l n → l = digits n := by
  intro l
  induction l using List.reverseRecOn with
  | nil => intro n h; exact absurd rfl h.1
  | append_singleton l c ih =>
    rintro n ⟨-, h2, h3, rfl⟩
    have hc := digitChar_of (h2 c (by simp))
    rw [digitsValue_append]
    cases l with
    | nil =>
      simp only [List.nil_append, digits]
      rw [show digitsValue [] = 0 from rfl, Nat.mul_zero, Nat.zero_add, Nat.toDigits_of_lt_base hc.1, hc.2]
    | cons d l =>
      have hd : '0' ≤ d ∧ d ≤ '9' := h2 d (by simp)
      have h0 : d ≠ '0' := by
        rintro rfl
        have := h3 rfl
        simp at this
      have := ih (n := digitsValue (d :: l)) ⟨by simp, fun c hc => h2 c (by simp only [List.mem_append]; exact .inl hc),
        fun h => absurd (Option.some.inj h) h0, rfl⟩
      unfold digits at this ⊢
      rw [← Nat.toDigits_append_toDigits (by decide) (digitsValue_pos hd h0) hc.1, ← this,
        Nat.toDigits_of_lt_base hc.1, hc.2]

theorem digits_head {n : ℕ} (h : (digits n).head? = some '0') : digits n = ['0'] := by
  induction n using Nat.strong_induction_on with
  | _ n ih =>
    unfold digits at *
    by_cases hn : n < 10
    · rw [Nat.toDigits_of_lt_base hn] at h ⊢
      simp at h; rw [h]; rfl
    · rw [Nat.toDigits_of_base_le (by decide) (by omega)] at h
      rw [List.head?_append_of_ne_nil _ Nat.toDigits_ne_nil] at h
      have h1 := ih (n / 10) (by omega) h
      have h2 := congrArg (fun l => Nat.ofDigitChars 10 l 0) h1
      simp only [Nat.ofDigitChars_ten_toDigits] at h2
      have h3 : Nat.ofDigitChars 10 ['0'] 0 = 0 := rfl
      omega

theorem digits_spec (n : ℕ) : Digits (digits n) n :=
  ⟨digits_ne_nil n, fun _ hc => isDigit_iff.mp (digit_of_mem hc), digits_head,
    by rw [digitsValue_eq]; exact Nat.ofDigitChars_ten_toDigits⟩

theorem digits_iff {l : List Char} {n : ℕ} : Digits l n ↔ l = digits n :=
  ⟨Digits.eq, fun h => h ▸ digits_spec n⟩

theorem decimal_iff {l : List Char} {n : ℤ} : Decimal l n ↔ l = intText n := by
  unfold Decimal intText
  simp only [digits_iff]
  split_ifs with hn
  · have : (-n).toNat = n.natAbs := by omega
    rw [this]
    constructor
    · rintro (⟨h, -⟩ | ⟨-, ds, h, rfl⟩)
      · omega
      · exact h
    · intro h; exact .inr ⟨hn, _, h, rfl⟩
  · have : n.toNat = n.natAbs := by omega
    rw [this]
    constructor
    · rintro (⟨-, h⟩ | ⟨h, -⟩)
      · exact h
      · exact absurd h hn
    · intro h; exact .inl ⟨by omega, h⟩

theorem point_iff {l : List Char} {d : Double} : Point l d ↔ l = doubleText d := by
  match d with
  | .nan => exact Iff.rfl
  | .inf false => exact Iff.rfl
  | .inf true => exact Iff.rfl
  | .finite neg whole [] hn =>
    simp only [Point, digits_iff, exists_eq_left, doubleText, if_true, sign, List.append_assoc]
    exact Iff.rfl
  | .finite neg whole (d :: frac) hn =>
    have key : ∀ a : Fin 10, Char.ofNat (48 + a.val) = Nat.digitChar a.val := by decide
    have hm : (d :: frac).map (fun d => Char.ofNat (48 + d.val)) = (d :: frac).map fun d => Nat.digitChar d.val :=
      List.map_congr_left fun a _ => key a
    simp only [Point, digits_iff, exists_eq_left, doubleText, sign, List.append_assoc, reduceCtorEq, if_false]
    rw [hm]
    exact Iff.rfl

theorem rangeReads_iff {l : List Char} {r : Range} : RangeReads l r ↔ l = rangeText r := by
  unfold RangeReads rangeText
  simp only [decimal_iff]
  constructor
  · rintro ⟨_, _, _, rfl, rfl, rfl, rfl⟩
    split_ifs with h <;> simp_all
  · rintro rfl
    refine ⟨_, _, _, rfl, rfl, rfl, ?_⟩
    split_ifs with h <;> simp_all

/-! ### Strings -/

theorem cstr_end (s rest : List UInt8) (hs : 0 ∉ s) : cstr (s ++ 0 :: rest) = s := by
  unfold cstr
  induction s with
  | nil => rfl
  | cons b s ih =>
    have hb : b ≠ 0 := fun h => hs (h ▸ List.mem_cons_self)
    rw [List.cons_append, List.takeWhile_cons_of_pos (by simpa using hb), ih fun h => hs (List.mem_cons_of_mem _ h)]

theorem stringCreateFrom_eq (s rest : List UInt8) (hs : 0 ∉ s) (h : Heap) :
    stringCreateFrom (s ++ 0 :: rest) h = .ok (h.alloc (.string s)) := by
  unfold stringCreateFrom
  rw [cstr_end s rest hs, if_neg (by simp), if_neg hs]

theorem split_end {mem : List UInt8} (hm : 0 ∈ mem) : ∃ s rest, mem = s ++ 0 :: rest ∧ 0 ∉ s := by
  induction mem with
  | nil => simp at hm
  | cons b mem ih =>
    by_cases hb : b = 0
    · exact ⟨[], mem, by simp [hb], by simp⟩
    · obtain ⟨s, rest, h1, h2⟩ := ih ((List.mem_cons.mp hm).resolve_left (Ne.symm hb))
      refine ⟨b :: s, rest, by simp [h1], ?_⟩
      rw [List.mem_cons, not_or]
      exact ⟨Ne.symm hb, h2⟩

theorem convert_eq {text : List Char} (hf : Field text) (h : Heap) :
    convert text h = .ok (h.alloc (.string (ascii text))) := by
  have h0 : (0 : UInt8) ∉ ascii text := hf.notMem (n := 0) (by omega)
  unfold convert
  rw [if_neg h0, stringCreateFrom_eq _ [] h0]

theorem rangeText_field (r : Range) : Field (rangeText r) := by
  unfold rangeText
  refine .append (.append (.append (intText_field _) (by decide)) ?_) (intText_field _)
  split_ifs
  · exact .append (intText_field _) (by decide)
  · intro c hc; simp at hc

theorem pauli_eq (P : PauliArg) (h : Heap) :
    pauliToString P h = .ok (h.alloc (.string (ascii ("Pauli".toList ++ [P.letter])))) := by
  cases P <;> exact convert_eq (by decide) h

theorem Reads.unique {σ : Addr → Option ℤ} {τ : Addr → Option (List UInt8)} {e : StrExpr} {s t : List UInt8}
    (hs : Reads σ τ e s) (ht : Reads σ τ e t) : s = t := by
  induction hs generalizing t with
  | obj h => cases ht with | obj h' => rw [h] at h'; exact Option.some.inj h'
  | @lit s rest h0 =>
    generalize hm : s ++ 0 :: rest = mem at ht
    cases ht with
    | @lit s' rest' h0' =>
      have := cstr_end s rest h0
      rw [hm, cstr_end _ _ h0'] at this
      exact this.symm
  | ofInt h => cases ht with | ofInt h' => rw [decimal_iff.mp h, decimal_iff.mp h']
  | ofDouble h => cases ht with | ofDouble h' => rw [point_iff.mp h, point_iff.mp h']
  | ofTrue => cases ht; rfl
  | ofFalse => cases ht; rfl
  | ofPauli P => cases ht; rfl
  | ofRange h => cases ht with | ofRange h' => rw [rangeReads_iff.mp h, rangeReads_iff.mp h']
  | ofBig m h => cases ht with | ofBig m' h' => rw [decimal_iff.mp h, decimal_iff.mp h', m.unique m']
  | cat _ _ ih1 ih2 => cases ht with | cat h1 h2 => rw [ih1 h1, ih2 h2]

variable {h h1 h' : Heap} {K : Addr → Option Obj}

/-- The texts of the program have no zero byte. -/
theorem Reads.no_zero {σ : Addr → Option ℤ} {τ : Addr → Option (List UInt8)} {e : StrExpr} {s : List UInt8}
    (hτ : ∀ p s, τ p = some s → 0 ∉ s) (hs : Reads σ τ e s) : 0 ∉ s := by
  induction hs with
  | obj h => exact hτ _ _ h
  | lit h0 => exact h0
  | ofInt h => rw [decimal_iff.mp h]; exact (intText_field _).notMem (n := 0) (by omega)
  | ofDouble h => rw [point_iff.mp h]; exact (doubleText_field _).notMem (n := 0) (by omega)
  | ofTrue => decide
  | ofFalse => decide
  | ofPauli P => exact Field.notMem (n := 0) (by cases P <;> decide) (by omega)
  | ofRange h => rw [rangeReads_iff.mp h]; exact (rangeText_field _).notMem (n := 0) (by omega)
  | ofBig _ h => rw [decimal_iff.mp h]; exact (intText_field _).notMem (n := 0) (by omega)
  | cat _ _ ih1 ih2 => rw [List.mem_append, not_or]; exact ⟨ih1, ih2⟩

theorem evalStr_spec (hu : Unused h) (hz : ∀ p s, stringsOf h p = some s → 0 ∉ s) (e : StrExpr) :
    ∀ {h1 : Heap} {K : Addr → Option Obj}, Grown h h1 K → e.Known (bigsOf h) (stringsOf h) →
    (∃ x h' s, evalStr e h1 = .ok (x, h') ∧ Reads (bigsOf h) (stringsOf h) e s ∧
        Placed h h1 h' K x (.string s)) ∨
      (evalStr e h1 = .error .panic ∧ ∀ s, ¬ Reads (bigsOf h) (stringsOf h) e s) := by
  induction e with
  | obj p =>
    intro h1 K hg hk
    obtain ⟨a, ha⟩ := Option.ne_none_iff_exists'.mp hk
    exact .inl ⟨_, _, a, rfl, .obj ha, .inr ⟨rfl, stringsOf_eq.mp ha, le_rfl, hg⟩⟩
  | lit mem =>
    intro h1 K hg hk
    obtain ⟨s, rest, rfl, h0⟩ := split_end hk
    refine .inl ⟨_, _, s, ?_, .lit h0, placed_alloc hg _⟩
    simp only [evalStr, stringCreateFrom_eq s rest h0]; rfl
  | ofInt n =>
    intro h1 K hg _
    refine .inl ⟨_, _, _, ?_, .ofInt (decimal_iff.mpr rfl), placed_alloc hg _⟩
    simp only [evalStr, intToString, convert_eq (intText_field n)]; rfl
  | ofDouble d =>
    intro h1 K hg _
    refine .inl ⟨_, _, _, ?_, .ofDouble (point_iff.mpr rfl), placed_alloc hg _⟩
    simp only [evalStr, doubleToString, convert_eq (doubleText_field d)]; rfl
  | ofBool b =>
    intro h1 K hg _
    cases b
    · refine .inl ⟨_, _, _, ?_, .ofFalse, placed_alloc hg _⟩
      simp only [evalStr, boolToString, convert_eq (boolText_field false)]; rfl
    · refine .inl ⟨_, _, _, ?_, .ofTrue, placed_alloc hg _⟩
      simp only [evalStr, boolToString, convert_eq (boolText_field true)]; rfl
  | ofPauli P =>
    intro h1 K hg _
    refine .inl ⟨_, _, _, ?_, .ofPauli P, placed_alloc hg _⟩
    simp only [evalStr, pauli_eq]; rfl
  | ofRange r =>
    intro h1 K hg _
    refine .inl ⟨_, _, _, ?_, .ofRange (rangeReads_iff.mpr rfl), placed_alloc hg _⟩
    simp only [evalStr, rangeToString, convert_eq (rangeText_field r)]; rfl
  | ofBig e =>
    intro h1 K hg hk
    rcases evalBig_spec hu e hg hk with ⟨x, h2, a, e1, m1, p1⟩ | ⟨e1, m1⟩
    · obtain ⟨h', d1, -, d3⟩ := finish_one hg p1 (.string (ascii (intText a)))
      refine .inl ⟨_, h', _, ?_, .ofBig m1 (decimal_iff.mpr rfl), d3⟩
      simp only [evalStr, e1, bind, Except.bind, bigintToString, readBigint_of (p1.read hu),
        convert_eq (intText_field a), d1]
      rfl
    · refine .inr ⟨by simp only [evalStr, e1, bind, Except.bind], fun c hm => ?_⟩
      cases hm with | ofBig m _ => exact m1 _ m
  | cat e f ihe ihf =>
    intro h1 K hg hk
    rcases ihe hg hk.1 with ⟨x, h2, s, e1, m1, p1⟩ | ⟨e1, m1⟩
    · rcases ihf p1.grown hk.2 with ⟨y, h3, t, e2, m2, p2⟩ | ⟨e2, m2⟩
      · obtain ⟨h4, h', -, d1, -, d2, d3⟩ := finish_two hg p1 p2 (.string (s ++ t))
        have hn := (Reads.cat m1 m2).no_zero hz
        refine .inl ⟨_, h', _, ?_, .cat m1 m2, d3⟩
        simp only [evalStr, e1, e2, bind, Except.bind, stringJoin, readString_of (p1.read_later p2 hu),
          readString_of (p2.read hu), if_neg hn, d1, d2]
        rfl
      · refine .inr ⟨by simp only [evalStr, e1, e2, bind, Except.bind], fun c hm => ?_⟩
        cases hm with | cat _ m => exact m2 _ m
    · refine .inr ⟨by simp only [evalStr, e1, bind, Except.bind], fun c hm => ?_⟩
      cases hm with | cat m _ => exact m1 _ m

theorem compareBig_spec (hu : Unused h) (hg : Grown h h1 K) {cmp : Addr → Addr → Heap → Except Fault Bool}
    {f : ℤ → ℤ → Bool} (hc : ∀ (h : Heap) (p q : Addr) (a b : ℤ), h.read p = .ok (.bigint a) →
      h.read q = .ok (.bigint b) → cmp p q h = .ok (f a b)) (e e' : BigExpr) (hk : e.Known (bigsOf h))
    (hk' : e'.Known (bigsOf h)) :
    (∃ h' a b, compareBig cmp e e' h1 = .ok (f a b, h') ∧ Means (bigsOf h) e a ∧ Means (bigsOf h) e' b ∧
        Grown h h' K) ∨
      (compareBig cmp e e' h1 = .error .panic ∧
        ((∀ a, ¬ Means (bigsOf h) e a) ∨ ∀ b, ¬ Means (bigsOf h) e' b)) := by
  rcases evalBig_spec hu e hg hk with ⟨x, h2, a, e1, m1, p1⟩ | ⟨e1, m1⟩
  · rcases evalBig_spec hu e' p1.grown hk' with ⟨y, h3, b, e2, m2, p2⟩ | ⟨e2, m2⟩
    · obtain ⟨h4, h', d1, -, d2, -, d3⟩ := finish_none hg p1 p2
      refine .inl ⟨h', a, b, ?_, m1, m2, d3⟩
      simp only [compareBig, e1, e2, bind, Except.bind,
        hc h3 x.at_ y.at_ a b (p1.read_later p2 hu) (p2.read hu), d1, d2]
      rfl
    · exact .inr ⟨by simp only [compareBig, e1, e2, bind, Except.bind], .inr m2⟩
  · exact .inr ⟨by simp only [compareBig, e1, bind, Except.bind], .inl m1⟩

theorem evalQuery_spec (hu : Unused h) (hz : ∀ p s, stringsOf h p = some s → 0 ∉ s) (hg : Grown h h1 K)
    (Q : Query) (hk : Q.Known (bigsOf h) (stringsOf h)) :
    (∃ b h' P, evalQuery Q h1 = .ok (b, h') ∧ Answers (bigsOf h) (stringsOf h) Q P ∧ (b = true ↔ P) ∧
        Grown h h' K) ∨
      (evalQuery Q h1 = .error .panic ∧ ∀ P, ¬ Answers (bigsOf h) (stringsOf h) Q P) := by
  cases Q with
  | equal e f =>
    rcases compareBig_spec hu hg (cmp := bigintEqual) (f := fun a b => decide (a = b)) (by
      intro h p q a b hp hq
      simp only [bigintEqual, readBigint_of hp, readBigint_of hq, bind, Except.bind]) e f hk.1 hk.2 with
      ⟨h', a, b, e1, m1, m2, g⟩ | ⟨e1, m⟩
    · exact .inl ⟨_, h', _, e1, .equal m1 m2, by simp, g⟩
    · refine .inr ⟨e1, fun P hP => ?_⟩
      cases hP with | equal h1 h2 => exact m.elim (fun m => m _ h1) fun m => m _ h2
  | greater e f =>
    rcases compareBig_spec hu hg (cmp := bigintGreater) (f := fun a b => decide (a > b)) (by
      intro h p q a b hp hq
      simp only [bigintGreater, readBigint_of hp, readBigint_of hq, bind, Except.bind]) e f hk.1 hk.2 with
      ⟨h', a, b, e1, m1, m2, g⟩ | ⟨e1, m⟩
    · exact .inl ⟨_, h', _, e1, .greater m1 m2, by simp, g⟩
    · refine .inr ⟨e1, fun P hP => ?_⟩
      cases hP with | greater h1 h2 => exact m.elim (fun m => m _ h1) fun m => m _ h2
  | greaterEq e f =>
    rcases compareBig_spec hu hg (cmp := bigintGreaterEq) (f := fun a b => decide (a ≥ b)) (by
      intro h p q a b hp hq
      simp only [bigintGreaterEq, readBigint_of hp, readBigint_of hq, bind, Except.bind]) e f hk.1 hk.2 with
      ⟨h', a, b, e1, m1, m2, g⟩ | ⟨e1, m⟩
    · exact .inl ⟨_, h', _, e1, .greaterEq m1 m2, by simp, g⟩
    · refine .inr ⟨e1, fun P hP => ?_⟩
      cases hP with | greaterEq h1 h2 => exact m.elim (fun m => m _ h1) fun m => m _ h2
  | same e f =>
    rcases evalStr_spec hu hz e hg hk.1 with ⟨x, h2, s, e1, m1, p1⟩ | ⟨e1, m1⟩
    · rcases evalStr_spec hu hz f p1.grown hk.2 with ⟨y, h3, t, e2, m2, p2⟩ | ⟨e2, m2⟩
      · obtain ⟨h4, h', -, d1, -, d2, d3⟩ := finish_none hg p1 p2
        refine .inl ⟨decide (s = t), h', _, ?_, .same m1 m2, by simp, d3⟩
        simp only [evalQuery, e1, e2, bind, Except.bind, stringEqual, readString_of (p1.read_later p2 hu),
          readString_of (p2.read hu), d1, d2]
        rfl
      · refine .inr ⟨by simp only [evalQuery, e1, e2, bind, Except.bind], fun P hP => ?_⟩
        cases hP with | same _ h2 => exact m2 _ h2
    · refine .inr ⟨by simp only [evalQuery, e1, bind, Except.bind], fun P hP => ?_⟩
      cases hP with | same h1 _ => exact m1 _ h1

end Qir.Std
