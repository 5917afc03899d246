import Verif.Model.Memory
import Verif.Proof.Base

/-!
# C83: the memory a program asks for is its own

Specification: arrays of bytes.  `__quantum__rt__memory_allocate` adds an array of zeros, a write changes one byte of one
array, and nothing else changes any.
-/

namespace Qir
namespace Mem

/-- The arrays after an event. -/
def become : Event → List (List UInt8) → List (List UInt8)
  | .allocate size _, l => l ++ [List.replicate size 0]
  | .store k i v, l => l.modify k fun x => x.set i v
  | _, l => l

/-- The byte that an event reads. -/
def read : Event → List (List UInt8) → Option UInt8
  | .load k i, l => l[k]?.bind fun x => x[i]?
  | _, _ => none

/-- Everything that a history reads. -/
def readAll : List Event → List (List UInt8) → List UInt8
  | [], _ => []
  | e :: es, l => (read e l).toList ++ readAll es (become e l)

/-- The end that is due to an event, on a machine with `bits` bits. -/
def refused (bits : ℕ) : Event → Option Fault
  | .allocate size choice =>
    if 2 ^ bits ≤ size then some .tooLarge else if 2 ^ (bits - 1) ≤ size then some .capacity
    else if size ≠ 0 ∧ choice = none then some .exhausted else none
  | _ => none

/-- Two blocks that have no byte in common. -/
def Apart (b c : Block) : Prop := ∀ i < b.2, ∀ j < c.2, b.1 + i ≠ c.1 + j

/-- What the allocator of the system promises: never null, and apart from everything in use. -/
def Fresh (m : Machine) (b : Block) : Prop := b.1 ≠ 0 ∧ ∀ c ∈ m.leaked ++ m.owned, Apart b c

/-- The program stays within its blocks, the rest of the process within those of its own, and the allocator keeps its
promise. -/
def Proper (m : Machine) : Event → Prop
  | .allocate size choice => ∀ a, choice = some a → size ≠ 0 → Fresh m (a, size)
  | .store k i _ | .load k i => ∃ b, m.leaked[k]? = some b ∧ i < b.2
  | .take size a => Fresh m (a, size)
  | .write j i _ => ∃ b, m.owned[j]? = some b ∧ i < b.2
  | .free j => j < m.owned.length

/-- So does every event of a history. -/
def AllProper (bits : ℕ) : List Event → Machine → Prop
  | [], _ => True
  | e :: es, m => Proper m e ∧ ∀ o m', step bits e m = .ok (o, m') → AllProper bits es m'

/-- The memory at the start, whatever it contains. -/
def Machine.start (byte : ℕ → UInt8) : Machine := ⟨byte, [], []⟩

/-- The invariant: the blocks hold the arrays and are apart. -/
structure Holds (m : Machine) (l : List (List UInt8)) : Prop where
  sizes : m.leaked.map Prod.snd = l.map List.length
  bytes : ∀ (k : ℕ) (b : Block) (x : List UInt8), m.leaked[k]? = some b → l[k]? = some x → ∀ (i : ℕ) (v : UInt8), x[i]? = some v → m.byte (b.1 + i) = v
  mine : m.leaked.Pairwise Apart
  other : m.owned.Pairwise Apart
  cross : ∀ b ∈ m.leaked, ∀ c ∈ m.owned, Apart b c
  notnull : ∀ b ∈ m.leaked, b.1 ≠ 0

theorem Apart.symm {b c : Block} (h : Apart b c) : Apart c b := fun i hi j hj he => h j hj i hi he.symm

theorem holds_start (byte : ℕ → UInt8) : Holds (.start byte) [] :=
  ⟨rfl, by simp [Machine.start], by simp [Machine.start], by simp [Machine.start], by simp [Machine.start],
    by simp [Machine.start]⟩

theorem Holds.length {m : Machine} {l : List (List UInt8)} (h : Holds m l) : m.leaked.length = l.length := by
  have := congrArg List.length h.sizes
  simpa using this

theorem Holds.size {m : Machine} {l : List (List UInt8)} (h : Holds m l) {k : ℕ} {b : Block} {x : List UInt8}
    (hb : m.leaked[k]? = some b) (hx : l[k]? = some x) : b.2 = x.length := by
  have := congrArg (fun y => y[k]?) h.sizes
  simpa [hb, hx] using this

/-- A new block. -/
theorem Holds.add {m : Machine} {l : List (List UInt8)} (h : Holds m l) {a n : ℕ} (hf : Fresh m (a, n)) :
    Holds { m with byte := clear a n m.byte, leaked := m.leaked ++ [(a, n)] } (l ++ [List.replicate n 0]) := by
  refine ⟨by simp [h.sizes], ?_, ?_, h.other, ?_, ?_⟩
  · intro k b x hb hx i v hv
    have hl := h.length
    have hi : i < x.length := (List.getElem?_eq_some_iff.1 hv).1
    rcases lt_trichotomy k m.leaked.length with hk | hk | hk
    · rw [List.getElem?_append_left hk] at hb
      rw [List.getElem?_append_left (hl ▸ hk)] at hx
      have hs := h.size hb hx
      have hap := hf.2 b (List.mem_append_left _ (List.mem_of_getElem? hb))
      show clear a n m.byte (b.1 + i) = v
      unfold clear
      rw [if_neg]
      · exact h.bytes k b x hb hx i v hv
      · rintro ⟨h1, h2⟩
        exact hap (b.1 + i - a) (by show _ < n; omega) i (by omega) (by show a + _ = _; omega)
    · subst hk
      rw [List.getElem?_append_right (le_refl _)] at hb
      rw [List.getElem?_append_right (le_of_eq hl.symm)] at hx
      simp [hl] at hb hx
      subst hb; subst hx
      have hin : i < n := by simpa using hi
      have : v = 0 := by
        rw [List.getElem?_replicate, if_pos hin] at hv
        exact (Option.some.inj hv).symm
      subst this
      show clear a n m.byte (a + i) = 0
      unfold clear
      rw [if_pos ⟨by omega, by omega⟩]
    · rw [List.getElem?_eq_none (by simp; omega)] at hb
      cases hb
  · rw [List.pairwise_append]
    refine ⟨h.mine, List.pairwise_singleton _ _, ?_⟩
    intro b hb c hc
    rw [List.mem_singleton.1 hc]
    exact (hf.2 b (List.mem_append_left _ hb)).symm
  · intro b hb c hc
    rcases List.mem_append.1 hb with hb | hb
    · exact h.cross b hb c hc
    · rw [List.mem_singleton.1 hb]
      exact hf.2 c (List.mem_append_right _ hc)
  · intro b hb
    rcases List.mem_append.1 hb with hb | hb
    · exact h.notnull b hb
    · rw [List.mem_singleton.1 hb]; exact hf.1

theorem apart_of {bs : List Block} (h : bs.Pairwise Apart) {j k : ℕ} {b c : Block} (hb : bs[j]? = some b)
    (hc : bs[k]? = some c) (hn : j ≠ k) : Apart b c := by
  obtain ⟨h1, rfl⟩ := List.getElem?_eq_some_iff.1 hb
  obtain ⟨h2, rfl⟩ := List.getElem?_eq_some_iff.1 hc
  rcases Nat.lt_or_gt_of_ne hn with h3 | h3
  · exact List.pairwise_iff_getElem.1 h j k h1 h2 h3
  · exact (List.pairwise_iff_getElem.1 h k j h2 h1 h3).symm

/-- **C83**, one event. -/
theorem C83_event {bits : ℕ} {m : Machine} {l : List (List UInt8)} (h : Holds m l) (e : Event) (hp : Proper m e) :
    match refused bits e with
    | some f => step bits e m = .error f
    | none => ∃ m', step bits e m = .ok (read e l, m') ∧ Holds m' (become e l) := by
  cases e with
  | allocate size choice =>
    simp only [refused, step, memoryAllocate]
    by_cases h1 : 2 ^ bits ≤ size
    · simp only [if_pos h1]; rfl
    · simp only [if_neg h1]
      by_cases h2 : 2 ^ (bits - 1) ≤ size
      · simp only [if_pos h2]; rfl
      · simp only [if_neg h2]
        by_cases h3 : size = 0
        · subst h3
          simp only [ne_eq, not_true_eq_false, false_and, if_false, if_true]
          refine ⟨_, rfl, ?_⟩
          have := h.add (a := 1) (n := 0) ⟨by simp, fun c _ i hi => absurd hi (Nat.not_lt_zero i)⟩
          have hc : clear 1 0 m.byte = m.byte := by
            funext p
            unfold clear
            rw [if_neg (by omega)]
          rw [hc] at this
          exact this
        · cases choice with
          | none => simp [h3]
          | some a =>
            simp only [h3, if_false]
            simp only [reduceCtorEq, and_false, if_false]
            exact ⟨_, rfl, h.add (hp a rfl h3)⟩
  | store k i v =>
    obtain ⟨b, hb, hi⟩ := hp
    simp only [refused, step, hb]
    refine ⟨_, rfl, ?_, ?_, h.mine, h.other, h.cross, h.notnull⟩
    · show m.leaked.map Prod.snd = (l.modify k _).map List.length
      rw [h.sizes]
      apply List.ext_getElem?
      intro j
      simp only [List.getElem?_map, List.getElem?_modify]
      cases l[j]? with
      | none => simp
      | some x => by_cases hj : k = j <;> simp [hj]
    · intro k' b' x' hb' hx' i' v' hv'
      show Function.update m.byte (b.1 + i) v (b'.1 + i') = v'
      simp only [become, List.getElem?_modify] at hx'
      by_cases hk : k = k'
      · subst hk
        obtain rfl : b = b' := Option.some.inj (hb.symm.trans hb')
        cases hx : l[k]? with
        | none => simp [hx] at hx'
        | some x =>
          simp [hx] at hx'
          subst hx'
          rw [List.getElem?_set] at hv'
          by_cases hii : i = i'
          · subst hii
            rw [if_pos rfl] at hv'
            split at hv'
            · rw [Function.update_self]; exact Option.some.inj hv'
            · cases hv'
          · rw [if_neg hii] at hv'
            rw [Function.update_of_ne (by omega)]
            exact h.bytes k b x hb hx i' v' hv'
      · have hx : l[k']? = some x' := by
          cases hy : l[k']? with
          | none => simp [hy] at hx'
          | some y => simpa [hy, hk] using hx'
        rw [Function.update_of_ne]
        · exact h.bytes k' b' x' hb' hx i' v' hv'
        · have hi' : i' < x'.length := (List.getElem?_eq_some_iff.1 hv').1
          exact apart_of h.mine hb' hb (fun e => hk e.symm) i' (by rw [h.size hb' hx]; exact hi') i hi
  | load k i =>
    obtain ⟨b, hb, hi⟩ := hp
    simp only [refused, step, hb]
    refine ⟨m, ?_, h⟩
    have hk : k < l.length := by
      rw [← h.length]
      exact (List.getElem?_eq_some_iff.1 hb).1
    have hx : l[k]? = some l[k] := List.getElem?_eq_getElem hk
    have hi' : i < l[k].length := by rw [← h.size hb hx]; exact hi
    have hv : l[k][i]? = some l[k][i] := List.getElem?_eq_getElem hi'
    simp only [read, hx, Option.bind_some, hv]
    rw [h.bytes k b _ hb hx i _ hv]
  | take size a =>
    refine ⟨_, rfl, h.sizes, h.bytes, h.mine, ?_, ?_, h.notnull⟩
    · show (m.owned ++ [(a, size)]).Pairwise Apart
      rw [List.pairwise_append]
      refine ⟨h.other, List.pairwise_singleton _ _, ?_⟩
      intro b hb c hc
      rw [List.mem_singleton.1 hc]
      exact (hp.2 b (List.mem_append_right _ hb)).symm
    · intro b hb c hc
      rcases List.mem_append.1 hc with hc | hc
      · exact h.cross b hb c hc
      · rw [List.mem_singleton.1 hc]
        exact (hp.2 b (List.mem_append_left _ hb)).symm
  | write j i v =>
    obtain ⟨c, hc, hi⟩ := hp
    simp only [refused, step, hc]
    refine ⟨_, rfl, h.sizes, ?_, h.mine, h.other, h.cross, h.notnull⟩
    intro k b x hb hx i' v' hv'
    show Function.update m.byte (c.1 + i) v (b.1 + i') = v'
    rw [Function.update_of_ne]
    · exact h.bytes k b x hb hx i' v' hv'
    · have hi' : i' < x.length := (List.getElem?_eq_some_iff.1 hv').1
      exact h.cross b (List.mem_of_getElem? hb) c (List.mem_of_getElem? hc) i' (by rw [h.size hb hx]; exact hi') i hi
  | free j =>
    refine ⟨_, rfl, h.sizes, h.bytes, h.mine, h.other.sublist (List.eraseIdx_sublist ..), ?_, h.notnull⟩
    intro b hb c hc
    exact h.cross b hb c (List.mem_of_mem_eraseIdx hc)

/-- The first end that is due to a history. -/
def firstRefused (bits : ℕ) (es : List Event) : Option Fault := es.findSome? (refused bits)

/-- **C83**.  Whatever the memory contains at first, and whatever the rest of the process does with its own blocks: a program
reads zero where it has not written and otherwise what it last wrote there, or the process ends for one of the three reasons
that `refused` gives, with the first of them. -/
theorem C83_memory (bits : ℕ) (es : List Event) : ∀ {m : Machine} {l : List (List UInt8)}, Holds m l → AllProper bits es m →
    match firstRefused bits es with
    | some f => run bits es m = .error f
    | none => ∃ m', run bits es m = .ok (readAll es l, m') ∧ Holds m' (es.foldl (fun l e => become e l) l) := by
  induction es with
  | nil => intro m l h _; exact ⟨m, rfl, h⟩
  | cons e es ih =>
    intro m l h hp
    have h1 := C83_event (bits := bits) h e hp.1
    simp only [firstRefused, List.findSome?_cons]
    cases hr : refused bits e with
    | some f =>
      simp only [hr] at h1
      simp only [run, h1]
      rfl
    | none =>
      simp only [hr] at h1
      obtain ⟨m', h2, h3⟩ := h1
      have h4 := ih h3 (hp.2 _ _ h2)
      unfold firstRefused at h4
      cases hf : es.findSome? (refused bits) with
      | some f =>
        simp only [hf] at h4
        simp only [run, h2, ok_bind, h4]
        rfl
      | none =>
        simp only [hf] at h4
        obtain ⟨m'', h5, h6⟩ := h4
        exact ⟨m'', by simp only [run, h2, ok_bind, h5, pure_ok, readAll], h6⟩

/-- From the start of the process. -/
theorem C83_process (bits : ℕ) (byte : ℕ → UInt8) (es : List Event) (hp : AllProper bits es (.start byte))
    (hf : firstRefused bits es = none) :
    ∃ m, run bits es (.start byte) = .ok (readAll es [], m) ∧ (∀ b ∈ m.leaked, b.1 ≠ 0) ∧ m.leaked.Pairwise Apart ∧
      m.leaked.map Prod.snd = es.filterMap fun e => match e with | .allocate n _ => some n | _ => none := by
  have h := C83_memory bits es (holds_start byte) hp
  rw [hf] at h
  obtain ⟨m, h1, h2⟩ := h
  refine ⟨m, h1, h2.notnull, h2.mine, h2.sizes.trans ?_⟩
  have : ∀ (es : List Event) (l : List (List UInt8)), (es.foldl (fun l e => become e l) l).map List.length =
      l.map List.length ++ es.filterMap fun e => match e with | .allocate n _ => some n | _ => none := by
    intro es
    induction es with
    | nil => intro l; simp
    | cons e es ih =>
      intro l
      rw [List.foldl_cons, ih]
      cases e with
      | allocate n c => simp [become]
      | store k i v =>
        simp only [become, List.filterMap_cons]
        congr 1
        apply List.ext_getElem?
        intro j
        simp only [List.getElem?_map, List.getElem?_modify]
        cases l[j]? with
        | none => simp
        | some x => by_cases hj : k = j <;> simp [hj]
      | _ => simp [become]
  simpa using this es []

/-- Memory of size zero is not null, but all of it has the same address. -/
theorem C83_empty (bits : ℕ) (choice : Option ℕ) (m : Machine) :
    memoryAllocate bits 0 choice m = .ok (1, { m with leaked := m.leaked ++ [(1, 0)] }) := by
  unfold memoryAllocate
  rw [if_neg (by simp), if_neg (by simp)]
  rfl

/-! ### The hypotheses can be met -/

/-- A block of two bytes, then one where a freed block was; memory that was not zero before. -/
def sample : List Event :=
  [.allocate 2 (some 100), .store 0 1 7, .take 4 200, .write 0 0 9, .free 0, .allocate 4 (some 200), .store 1 3 5, .load 0 0,
    .load 0 1, .load 1 0, .load 1 3, .allocate 0 none]

example : ∃ m, run 64 sample (.start fun _ => 255) = .ok ([0, 7, 0, 5], m) ∧ (∀ b ∈ m.leaked, b.1 ≠ 0) ∧
    m.leaked.Pairwise Apart ∧ m.leaked.map Prod.snd = [2, 4, 0] := by
  refine C83_process 64 (fun _ => 255) sample ?_ (by decide)
  refine ⟨?_, fun _ _ h => ?_⟩
  · rintro a h _
    cases h
    exact ⟨by simp, by simp [Machine.start]⟩
  cases h
  refine ⟨⟨_, rfl, by decide⟩, fun _ _ h => ?_⟩
  cases h
  refine ⟨⟨by simp, ?_⟩, fun _ _ h => ?_⟩
  · simp [Machine.start, Apart]; omega
  cases h
  refine ⟨⟨_, rfl, by decide⟩, fun _ _ h => ?_⟩
  cases h
  refine ⟨by show 0 < 1; simp, fun _ _ h => ?_⟩
  cases h
  refine ⟨?_, fun _ _ h => ?_⟩
  · rintro a h _
    cases h
    refine ⟨by simp, ?_⟩
    simp [Machine.start, Apart]; omega
  cases h
  refine ⟨⟨_, rfl, by decide⟩, fun _ _ h => ?_⟩
  cases h
  refine ⟨⟨_, rfl, by decide⟩, fun _ _ h => ?_⟩
  cases h
  refine ⟨⟨_, rfl, by decide⟩, fun _ _ h => ?_⟩
  cases h
  refine ⟨⟨_, rfl, by decide⟩, fun _ _ h => ?_⟩
  cases h
  refine ⟨⟨_, rfl, by decide⟩, fun _ _ h => ?_⟩
  cases h
  exact ⟨fun a h _ => (by cases h), fun _ _ _ => trivial⟩

end Mem
end Qir
