import Verif.Model.Heap

/-!
# What a client of the reference counted objects may rely on

A store of objects with two numbers each: how many references and how many aliases the client holds.
Nothing here knows about strong and weak counts, headers or boxes.  An object is *live* while it has
references.
-/

namespace Qir.Std

/-- The types of objects. -/
inductive Kind
  | array | tuple | callable | string | bigint
deriving DecidableEq

/-- The requests of a client. -/
inductive Act
  | newArray (elemSize count : ℕ)
  | newTuple (words : ℕ)
  | newCallable (funcTable memTable : ℕ) (capTuple : Addr)
  | newString (s : List UInt8)
  | newBigint (n : ℤ)
  | ref (k : Kind) (p : Addr) (update : ℤ)
  | alias (k : Kind) (p : Addr) (update : ℤ)
  | copy (k : Kind) (p : Addr) (force : Bool)
  | concat (p q : Addr)
  | joinStrings (p q : Addr)
  | storeElement (p : Addr) (i : ℕ) (v : List UInt8)
  | storeWord (p : Addr) (i : ℕ) (w : ℕ)
  | makeAdjoint (p : Addr)
  | makeControlled (p : Addr)

namespace Spec

/-- The contents of an object. -/
inductive Content
  | array (elemSize : ℕ) (data : List UInt8)
  | tuple (words : List ℕ)
  | callable (c : Callable)
  | string (s : List UInt8)
  | bigint (n : ℤ)
deriving DecidableEq

def Content.kind : Content → Kind
  | .array .. => .array
  | .tuple .. => .tuple
  | .callable .. => .callable
  | .string .. => .string
  | .bigint .. => .bigint

/-- One object, from its creation on for ever. -/
structure Entry where
  refs : ℕ
  aliases : ℕ
  content : Content

/-- All objects ever created; `next` is the name the next one gets. -/
structure Store where
  next : Addr
  entry : Addr → Option Entry

namespace Store

def empty : Store := { next := 1, entry := fun _ => none }

/-- Create an object: one reference, no alias. -/
def create (st : Store) (c : Content) : Option Addr × Store :=
  (some st.next,
    { next := st.next + 1, entry := fun q => if q = st.next then some ⟨1, 0, c⟩ else st.entry q })

/-- Change one object and no other. -/
def change (st : Store) (p : Addr) (f : Entry → Entry) : Store :=
  { st with entry := fun q => if q = p then (st.entry q).map f else st.entry q }

/-- There is a live object of kind `k` at `p`. -/
def Live (st : Store) (k : Kind) (p : Addr) : Prop :=
  ∃ e, st.entry p = some e ∧ 0 < e.refs ∧ e.content.kind = k

/-- What the client is entitled to do.

* Counts never become negative.
* Only live objects are used.  As an exception aliases may be given up after the last reference,
  except for tuples.
* Only arrays, tuples and callables have aliases and can be copied.
* Writes are within bounds. -/
def Allowed (st : Store) : Act → Prop
  | .newArray .. | .newTuple .. | .newCallable .. | .newString .. | .newBigint .. => True
  | .ref k p u => ∃ e, st.entry p = some e ∧ e.content.kind = k ∧ 0 < e.refs ∧ 0 ≤ (e.refs : ℤ) + u
  | .alias k p u => ∃ e, st.entry p = some e ∧ e.content.kind = k ∧ 0 ≤ (e.aliases : ℤ) + u ∧
      k ≠ .string ∧ k ≠ .bigint ∧ (0 < e.refs ∨ k ≠ .tuple ∧ 0 < e.aliases)
  | .copy k p _ => st.Live k p ∧ k ≠ .string ∧ k ≠ .bigint
  | .concat p q => ∃ e f s d d', st.entry p = some e ∧ st.entry q = some f ∧ 0 < e.refs ∧ 0 < f.refs ∧
      e.content = .array s d ∧ f.content = .array s d'
  | .joinStrings p q => st.Live .string p ∧ st.Live .string q
  | .storeElement p i v => ∃ e s d, st.entry p = some e ∧ 0 < e.refs ∧ e.content = .array s d ∧
      v.length = s ∧ s * i + s ≤ d.length
  | .storeWord p i _ => ∃ e ws, st.entry p = some e ∧ 0 < e.refs ∧ e.content = .tuple ws ∧ i < ws.length
  | .makeAdjoint p | .makeControlled p => st.Live .callable p

/-- `d` with the bytes from `o` on replaced by `v`. -/
def splice (d : List UInt8) (o : ℕ) (v : List UInt8) : List UInt8 :=
  d.mapIdx fun j b => if o ≤ j ∧ j < o + v.length then v.getD (j - o) b else b

/-- What a request does, if the client is entitled to it. -/
def act (st : Store) : Act → Option Addr × Store
  | .newArray s n => st.create (.array s (List.replicate (s * n) 0))
  | .newTuple n => st.create (.tuple (List.replicate n 0))
  | .newCallable f m c => st.create (.callable ⟨f, m, c, false, 0⟩)
  | .newString s => st.create (.string s)
  | .newBigint n => st.create (.bigint n)
  | .ref _ p u => (none, st.change p fun e => { e with refs := (e.refs + u).toNat })
  | .alias _ p u => (none, st.change p fun e => { e with aliases := (e.aliases + u).toNat })
  | .copy _ p force =>
    match st.entry p with
    | some e =>
      if force = true ∨ 0 < e.aliases then st.create e.content
      else (some p, st.change p fun e => { e with refs := e.refs + 1 })
    | none => (none, st)
  | .concat p q =>
    match st.entry p, st.entry q with
    | some ⟨_, _, .array s d⟩, some ⟨_, _, .array _ d'⟩ => st.create (.array s (d ++ d'))
    | _, _ => (none, st)
  | .joinStrings p q =>
    match st.entry p, st.entry q with
    | some ⟨_, _, .string s⟩, some ⟨_, _, .string t⟩ => st.create (.string (s ++ t))
    | _, _ => (none, st)
  | .storeElement p i v => (none, st.change p fun e =>
      match e.content with
      | .array s d => { e with content := .array s (splice d (s * i) v) }
      | _ => e)
  | .storeWord p i w => (none, st.change p fun e =>
      match e.content with
      | .tuple ws => { e with content := .tuple (ws.set i w) }
      | _ => e)
  | .makeAdjoint p => (none, st.change p fun e =>
      match e.content with
      | .callable c => { e with content := .callable { c with isAdj := !c.isAdj } }
      | _ => e)
  | .makeControlled p => (none, st.change p fun e =>
      match e.content with
      | .callable c => { e with content := .callable { c with ctlsCount := c.ctlsCount + 1 } }
      | _ => e)

/-- A whole session: the names returned and the store at the end. -/
def run : List Act → Store → List (Option Addr) × Store
  | [], st => ([], st)
  | a :: as, st =>
    let (r, st) := st.act a
    let (rs, st) := run as st
    (r :: rs, st)

/-- The client was entitled to every request. -/
def AllowedRun : List Act → Store → Prop
  | [], _ => True
  | a :: as, st => st.Allowed a ∧ AllowedRun as (st.act a).2

end Store
end Spec

namespace Heap

/-- The model of a request: the `extern "C"` function it stands for. -/
def act (h : Heap) : Act → Except Fault (Option Addr × Heap)
  | .newArray s n => .ok (some (h.arrayCreate s n).1, (h.arrayCreate s n).2)
  | .newTuple n => .ok (some (h.tupleCreate n).1, (h.tupleCreate n).2)
  | .newCallable f m c => .ok (some (h.callableCreate f m c).1, (h.callableCreate f m c).2)
  | .newString s => .ok (some (h.stringCreate s).1, (h.stringCreate s).2)
  | .newBigint n => .ok (some (h.bigintCreate n).1, (h.bigintCreate n).2)
  | .ref k p u => do
    let h ← match k with
      | .array => arrayUpdateRef p u h
      | .tuple => tupleUpdateRef p u h
      | .callable => callableUpdateRef p u h
      | .string => stringUpdateRef p u h
      | .bigint => bigintUpdateRef p u h
    return (none, h)
  | .alias k p u => do
    let h ← match k with
      | .array => arrayUpdateAlias p u h
      | .tuple => tupleUpdateAlias p u h
      | .callable => callableUpdateAlias p u h
      | .string | .bigint => .error .undefined
    return (none, h)
  | .copy k p force => do
    let r ← match k with
      | .array => arrayCopy p force h
      | .tuple => tupleCopy p force h
      | .callable => callableCopy p force h
      | .string | .bigint => .error .undefined
    return (some r.1, r.2)
  | .concat p q => do
    let r ← arrayConcatenate p q h
    return (some r.1, r.2)
  | .joinStrings p q => do
    let r ← stringConcatenate p q h
    return (some r.1, r.2)
  | .storeElement p i v => do
    let h ← arrayStore p i v h
    return (none, h)
  | .storeWord p i w => do
    let h ← tupleStore p i w h
    return (none, h)
  | .makeAdjoint p => do
    let h ← callableMakeAdjoint p h
    return (none, h)
  | .makeControlled p => do
    let h ← callableMakeControlled p h
    return (none, h)

/-- A whole session. -/
def run : List Act → Heap → Except Fault (List (Option Addr) × Heap)
  | [], h => .ok ([], h)
  | a :: as, h => do
    let (r, h) ← h.act a
    let (rs, h) ← run as h
    return (r :: rs, h)

end Heap
end Qir.Std
