import Verif.Model.Values

/-!
# Arithmetic and text, as a specification

Expressions in big integers and strings, what they mean, and how a compiled program evaluates them: one
call of the runtime for each operation, and each intermediate result is released after its use.
-/

namespace Qir.Std

open Out

/-! ### Expressions -/

/-- Operations on one big integer. -/
inductive UnOp
  | neg | not | pow (n : ℕ) | shl (n : ℕ) | shr (n : ℕ)

/-- Operations on two big integers. -/
inductive BinOp
  | add | sub | mul | div | mod | and | or | xor

/-- Expressions for big integers; `obj p` is an object the program holds already. -/
inductive BigExpr
  | obj (p : Addr)
  | ofInt (n : ℤ)
  | ofBytes (l : List UInt8)
  | un (o : UnOp) (e : BigExpr)
  | bin (o : BinOp) (e f : BigExpr)

/-- Expressions for strings. -/
inductive StrExpr
  | obj (p : Addr)
  | lit (mem : List UInt8)
  | ofInt (n : ℤ)
  | ofDouble (d : Double)
  | ofBool (b : Bool)
  | ofPauli (P : PauliArg)
  | ofRange (r : Range)
  | ofBig (e : BigExpr)
  | cat (s t : StrExpr)

/-- Questions. -/
inductive Query
  | equal (e f : BigExpr)
  | greater (e f : BigExpr)
  | greaterEq (e f : BigExpr)
  | same (s t : StrExpr)

/-! ### Meaning -/

/-- Digit `k` of the two's complement of an integer. -/
def bitOf (a : ℤ) (k : ℕ) : Prop := (a / 2 ^ k) % 2 = 1

/-- `c` is the result of the operation on `a`. -/
def UnOp.Result : UnOp → ℤ → ℤ → Prop
  | .neg, a, c => a + c = 0
  | .not, a, c => ∀ k, bitOf c k ↔ ¬ bitOf a k
  | .pow n, a, c => c = (List.replicate n a).prod
  | .shl n, a, c => c = a * 2 ^ n
  | .shr n, a, c => c * 2 ^ n ≤ a ∧ a < (c + 1) * 2 ^ n

/-- `c` is the result of the operation on `a` and `b`. -/
def BinOp.Result : BinOp → ℤ → ℤ → ℤ → Prop
  | .add, a, b, c => c = a + b
  | .sub, a, b, c => b + c = a
  | .mul, a, b, c => c = a * b
  | .div, a, b, c => ∃ r, a = b * c + r ∧ |r| < |b| ∧ 0 ≤ a * r
  | .mod, a, b, c => ∃ q, a = b * q + c ∧ |c| < |b| ∧ 0 ≤ a * c
  | .and, a, b, c => ∀ k, bitOf c k ↔ bitOf a k ∧ bitOf b k
  | .or, a, b, c => ∀ k, bitOf c k ↔ bitOf a k ∨ bitOf b k
  | .xor, a, b, c => ∀ k, bitOf c k ↔ ¬ (bitOf a k ↔ bitOf b k)

/-- The integer an array of bytes stands for: two's complement, lowest byte first. -/
def bytesValue : List UInt8 → ℤ
  | [] => 0
  | [b] => if b.toNat < 128 then b.toNat else b.toNat - 256
  | b :: l => b.toNat + 256 * bytesValue l

/-- The value of an expression, when the objects have the values `σ`. -/
inductive Means (σ : Addr → Option ℤ) : BigExpr → ℤ → Prop
  | obj {p : Addr} {a : ℤ} : σ p = some a → Means σ (.obj p) a
  | ofInt (n : ℤ) : Means σ (.ofInt n) n
  | ofBytes (l : List UInt8) : Means σ (.ofBytes l) (bytesValue l)
  | un {o : UnOp} {e : BigExpr} {a c : ℤ} : Means σ e a → o.Result a c → Means σ (.un o e) c
  | bin {o : BinOp} {e f : BigExpr} {a b c : ℤ} : Means σ e a → Means σ f b → o.Result a b c →
      Means σ (.bin o e f) c

/-- The number that decimal digits stand for. -/
def digitsValue (l : List Char) : ℕ := l.foldl (fun n c => 10 * n + (c.toNat - '0'.toNat)) 0

/-- `l` is the decimal notation of `n`: digits, no superfluous zero in front. -/
def Digits (l : List Char) (n : ℕ) : Prop :=
  l ≠ [] ∧ (∀ c ∈ l, '0' ≤ c ∧ c ≤ '9') ∧ (l.head? = some '0' → l = ['0']) ∧ digitsValue l = n

/-- `l` is the decimal notation of the integer `n`. -/
def Decimal (l : List Char) (n : ℤ) : Prop :=
  (0 ≤ n ∧ Digits l n.toNat) ∨ (n < 0 ∧ ∃ ds, l = '-' :: ds ∧ Digits ds (-n).toNat)

/-- `l` is the text of a double: a word, or digits on both sides of a decimal point. -/
def Point (l : List Char) : Double → Prop
  | .nan => l = ['N', 'a', 'N']
  | .inf false => l = ['i', 'n', 'f']
  | .inf true => l = ['-', 'i', 'n', 'f']
  | .finite neg whole frac _ => ∃ ds, Digits ds whole ∧
      l = (if neg then ['-'] else []) ++ ds ++ '.' ::
        match frac with
        | [] => ['0']
        | _ => frac.map fun d => Char.ofNat (48 + d.val)

/-- `l` is the text of a range: the bounds, with a step other than one in between. -/
def RangeReads (l : List Char) (r : Range) : Prop :=
  ∃ a s b, Decimal a r.start ∧ Decimal s r.step ∧ Decimal b r.stop ∧
    l = if r.step = 1 then a ++ ['.', '.'] ++ b else a ++ ['.', '.'] ++ s ++ ['.', '.'] ++ b

/-- The name of a Pauli matrix. -/
def PauliArg.letter : PauliArg → Char
  | .I => 'I' | .X => 'X' | .Y => 'Y' | .Z => 'Z'

/-- The text of a string expression, when the objects have the values `σ` and `τ`. -/
inductive Reads (σ : Addr → Option ℤ) (τ : Addr → Option (List UInt8)) : StrExpr → List UInt8 → Prop
  | obj {p : Addr} {s : List UInt8} : τ p = some s → Reads σ τ (.obj p) s
  | lit {s rest : List UInt8} : 0 ∉ s → Reads σ τ (.lit (s ++ 0 :: rest)) s
  | ofInt {n : ℤ} {l : List Char} : Decimal l n → Reads σ τ (.ofInt n) (ascii l)
  | ofDouble {d : Double} {l : List Char} : Point l d → Reads σ τ (.ofDouble d) (ascii l)
  | ofTrue : Reads σ τ (.ofBool true) (ascii ['t', 'r', 'u', 'e'])
  | ofFalse : Reads σ τ (.ofBool false) (ascii ['f', 'a', 'l', 's', 'e'])
  | ofPauli (P : PauliArg) : Reads σ τ (.ofPauli P) (ascii ("Pauli".toList ++ [P.letter]))
  | ofRange {r : Range} {l : List Char} : RangeReads l r → Reads σ τ (.ofRange r) (ascii l)
  | ofBig {e : BigExpr} {a : ℤ} {l : List Char} : Means σ e a → Decimal l a → Reads σ τ (.ofBig e) (ascii l)
  | cat {e f : StrExpr} {s t : List UInt8} : Reads σ τ e s → Reads σ τ f t → Reads σ τ (.cat e f) (s ++ t)

/-- The program holds the objects of the expression. -/
def BigExpr.Known (σ : Addr → Option ℤ) : BigExpr → Prop
  | .obj p => σ p ≠ none
  | .ofInt _ | .ofBytes _ => True
  | .un _ e => e.Known σ
  | .bin _ e f => e.Known σ ∧ f.Known σ

/-- The program holds the objects of the expression, and its literals have an end. -/
def StrExpr.Known (σ : Addr → Option ℤ) (τ : Addr → Option (List UInt8)) : StrExpr → Prop
  | .obj p => τ p ≠ none
  | .lit mem => 0 ∈ mem
  | .ofInt _ | .ofDouble _ | .ofBool _ | .ofPauli _ | .ofRange _ => True
  | .ofBig e => e.Known σ
  | .cat e f => e.Known σ τ ∧ f.Known σ τ

/-- The same for a question. -/
def Query.Known (σ : Addr → Option ℤ) (τ : Addr → Option (List UInt8)) : Query → Prop
  | .equal e f | .greater e f | .greaterEq e f => e.Known σ ∧ f.Known σ
  | .same e f => e.Known σ τ ∧ f.Known σ τ

/-- The answer to a question. -/
inductive Answers (σ : Addr → Option ℤ) (τ : Addr → Option (List UInt8)) : Query → Prop → Prop
  | equal {e f : BigExpr} {a b : ℤ} : Means σ e a → Means σ f b → Answers σ τ (.equal e f) (a = b)
  | greater {e f : BigExpr} {a b : ℤ} : Means σ e a → Means σ f b → Answers σ τ (.greater e f) (b < a)
  | greaterEq {e f : BigExpr} {a b : ℤ} : Means σ e a → Means σ f b → Answers σ τ (.greaterEq e f) (b ≤ a)
  | same {e f : StrExpr} {s t : List UInt8} : Reads σ τ e s → Reads σ τ f t → Answers σ τ (.same e f) (s = t)

/-- The values of the big integers of a heap. -/
def bigsOf (h : Heap) (p : Addr) : Option ℤ :=
  match h.read p with
  | .ok (.bigint a) => some a
  | _ => none

/-- The texts of the strings of a heap. -/
def stringsOf (h : Heap) (p : Addr) : Option (List UInt8) :=
  match h.read p with
  | .ok (.string s) => some s
  | _ => none

/-! ### Evaluation by a program -/

/-- The runtime function of an operation. -/
def UnOp.call : UnOp → Addr → Heap → Except Fault (Addr × Heap)
  | .neg => bigintNegate
  | .not => bigintBitnot
  | .pow n => fun p => bigintPower p n
  | .shl n => fun p => bigintShiftleft p n
  | .shr n => fun p => bigintShiftright p n

/-- The runtime function of an operation. -/
def BinOp.call : BinOp → Addr → Addr → Heap → Except Fault (Addr × Heap)
  | .add => bigintAdd
  | .sub => bigintSubtract
  | .mul => bigintMultiply
  | .div => bigintDivide
  | .mod => bigintModulus
  | .and => bigintBitand
  | .or => bigintBitor
  | .xor => bigintBitxor

/-- Where a value is: the object, and whether it is an intermediate result to be released. -/
structure Held where
  at_ : Addr
  own : Bool

/-- Release a big integer after its use. -/
def Held.doneBig (x : Held) (h : Heap) : Except Fault Heap :=
  if x.own then Heap.bigintUpdateRef x.at_ (-1) h else .ok h

/-- Release a string after its use. -/
def Held.doneStr (x : Held) (h : Heap) : Except Fault Heap :=
  if x.own then Heap.stringUpdateRef x.at_ (-1) h else .ok h

/-- A new object is an intermediate result. -/
def fresh (r : Addr × Heap) : Held × Heap := (⟨r.1, true⟩, r.2)

/-- Evaluate an expression for a big integer. -/
def evalBig : BigExpr → Heap → Except Fault (Held × Heap)
  | .obj p, h => .ok (⟨p, false⟩, h)
  | .ofInt n, h => .ok (fresh (Heap.bigintCreate n h))
  | .ofBytes l, h => .ok (fresh (bigintCreateArray l h))
  | .un o e, h => do
    let (x, h) ← evalBig e h
    let (r, h) ← o.call x.at_ h
    let h ← x.doneBig h
    return (⟨r, true⟩, h)
  | .bin o e f, h => do
    let (x, h) ← evalBig e h
    let (y, h) ← evalBig f h
    let (r, h) ← o.call x.at_ y.at_ h
    let h ← x.doneBig h
    let h ← y.doneBig h
    return (⟨r, true⟩, h)

/-- Evaluate an expression for a string. -/
def evalStr : StrExpr → Heap → Except Fault (Held × Heap)
  | .obj p, h => .ok (⟨p, false⟩, h)
  | .lit mem, h => fresh <$> stringCreateFrom mem h
  | .ofInt n, h => fresh <$> intToString n h
  | .ofDouble d, h => fresh <$> doubleToString d h
  | .ofBool b, h => fresh <$> boolToString b h
  | .ofPauli P, h => fresh <$> pauliToString P h
  | .ofRange r, h => fresh <$> rangeToString r h
  | .ofBig e, h => do
    let (x, h) ← evalBig e h
    let (r, h) ← bigintToString x.at_ h
    let h ← x.doneBig h
    return (⟨r, true⟩, h)
  | .cat e f, h => do
    let (x, h) ← evalStr e h
    let (y, h) ← evalStr f h
    let (r, h) ← stringJoin x.at_ y.at_ h
    let h ← x.doneStr h
    let h ← y.doneStr h
    return (⟨r, true⟩, h)

/-- Evaluate both sides of a comparison of big integers, compare, release. -/
def compareBig (cmp : Addr → Addr → Heap → Except Fault Bool) (e f : BigExpr) (h : Heap) :
    Except Fault (Bool × Heap) := do
  let (x, h) ← evalBig e h
  let (y, h) ← evalBig f h
  let b ← cmp x.at_ y.at_ h
  let h ← x.doneBig h
  let h ← y.doneBig h
  return (b, h)

/-- Answer a question. -/
def evalQuery : Query → Heap → Except Fault (Bool × Heap)
  | .equal e f, h => compareBig bigintEqual e f h
  | .greater e f, h => compareBig bigintGreater e f h
  | .greaterEq e f, h => compareBig bigintGreaterEq e f h
  | .same e f, h => do
    let (x, h) ← evalStr e h
    let (y, h) ← evalStr f h
    let b ← stringEqual x.at_ y.at_ h
    let h ← x.doneStr h
    let h ← y.doneStr h
    return (b, h)

end Qir.Std
