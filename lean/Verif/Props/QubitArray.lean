import Verif.Proof.QubitArray

/-!
# Arrays of qubits (C37)

C37 asks that releasing an array of qubits releases every qubit of it and the memory of the array, including its
payload.  The first half holds (`C37_release_partial`).  The second half fails in every count state
(`C37_counterexample`): the code lowers the alias count, the wrong one of the two counts.
-/

noncomputable section
namespace Qir.Back
open Spec Function Sim Qir.Out Qir.Std

variable {env : Env} {fmt : Fmt} {s : Backend} {L : Finset ℕ} {ψ : Wave}

/-- The object at `p` is an array holding these qubits, with these counts of references and aliases: the counts as
`stdlib` documents them, where the weak count of a live `Rc` is one more than the number of aliases. -/
def HoldsQubits (h : Heap) (p : ℕ) (refs aliases : ℕ) (qs : List ℕ) : Prop :=
  h.box p = some ⟨refs, aliases + 1, some (.array ⟨8, qs.flatMap (leBytes 8)⟩)⟩

/-- The memory of the object at `p` is released: its value was dropped, which releases the payload, and its box was
deallocated. -/
def Reclaimed (h : Heap) (p : ℕ) : Prop := p ∈ h.dropped ∧ p ∈ h.freed

/-- The element of index `i`, read through the element pointer, is the `i`-th qubit; the size is the number of
qubits.  (So `HoldsQubits` means what it says.) -/
theorem holds_means {h : Heap} {p refs aliases : ℕ} {qs : List ℕ} (hh : HoldsQubits h p refs aliases qs)
    (hq : ∀ q ∈ qs, q < 2 ^ 64) : h.arrayGetSize p = .ok qs.length ∧
    ∀ i (hi : i < qs.length), ∃ w, h.arrayLoad p i = .ok w ∧ leWord w = qs[i] := by
  refine ⟨size_of hh, fun i hi => ?_⟩
  have e : qs = qs.take i ++ qs[i] :: qs.drop (i + 1) := by
    rw [List.getElem_cons_drop, List.take_append_drop]
  have hl : (qs.take i).length = i := by rw [List.length_take]; omega
  have := load_word (p := p) (h := h) (a := refs) (b := aliases + 1) (pre := qs.take i) (q := qs[i])
    (post := qs.drop (i + 1)) (hq _ (List.getElem_mem hi)) (by rw [← e]; exact hh)
  rwa [hl] at this

/-- **Allocation**: in every reachable state and for every size and heap, `qubit_allocate_array` succeeds, returns a
new array with one reference and no alias that holds as many qubits as asked for, in increasing order, the lowest
identifiers that are not in use; the state of the qubits in use stays as it is (up to the global phase) and nothing
else on the heap changes. -/
theorem C37_allocate (he : env.eps = 0) (hr : QReach env fmt s) (hs : Shows env s.sim L ψ) (h : Heap) (n : ℕ)
    (hn : L.card + n ≤ 2 ^ 64) : ∃ (qs : List ℕ) (s' : Backend) (h' : Heap) (w : ℂ),
    qubitAllocateArray n ⟨s, h⟩ = .ok (h.next, ⟨s', h'⟩) ∧
    qs.length = n ∧ qs.Pairwise (· < ·) ∧ (∀ q ∈ qs, q ∉ L) ∧ (∀ q ∈ qs, ∀ m < q, m ∈ L ∪ qs.toFinset) ∧
    (∀ q ∈ qs, q < 2 ^ 64) ∧
    QReach env fmt s' ∧ ‖w‖ = 1 ∧ Shows env s'.sim (L ∪ qs.toFinset) (w • ψ) ∧
    HoldsQubits h' h.next 1 0 qs ∧ (∀ p, p ≠ h.next → h'.box p = h.box p) ∧
    h'.dropped = h.dropped ∧ h'.freed = h.freed ∧ h'.next = h.next + 1 := by
  obtain ⟨qs, δ', h1, h2, h3, h4, h5, h6, h7, h8⟩ := allocate_many n (s.device L ψ)
  obtain ⟨s', e, hr', hq'⟩ := (qref_run (fmt := fmt) he _ (hr.rel he hs) (allocate_valid n _)
    (runOkQ_of (by intro c hc; rw [List.eq_of_mem_replicate hc]; exact ⟨trivial, trivial⟩) _)).1 _ _ _ h1
  obtain ⟨w, hw, hs'⟩ := hr'.shows he
  rw [h7, h8] at hs'
  have hc : Heap.arrayCreate 8 n h = (h.next, { h.set h.next ⟨1, 1, some (.array
    ⟨8, List.replicate (8 * n) 0⟩)⟩ with next := h.next + 1 }) := rfl
  have hf := fillArray_run (env := env) (fmt := fmt) (p := h.next) (a := 1) (b := 1) n []
    (h := { h.set h.next ⟨1, 1, some (.array ⟨8, List.replicate (8 * n) 0⟩)⟩ with next := h.next + 1 })
    (by simp [Heap.set]) e
  refine ⟨qs, s', Heap.set { h.set h.next ⟨1, 1, some (.array ⟨8, List.replicate (8 * n) 0⟩)⟩ with
      next := h.next + 1 } h.next ⟨1, 1, some (.array ⟨8, qs.flatMap (leBytes 8)⟩)⟩, w, ?_, h2, h3, h4, h5,
    fun q hq => lt_of_lt_of_le (h6 q hq) hn, hq' hr, hw, hs', ?_, ?_, rfl, rfl, rfl⟩
  · unfold qubitAllocateArray
    rw [hc]
    show (fillArray h.next n 0 ⟨s, _⟩ >>= fun m => pure (h.next, m)) = _
    rw [show (0 : ℕ) = ([] : List ℕ).length from rfl, hf]
    rfl
  · exact box_of_set _ _ _
  · intro p hp
    simp [Heap.set, hp]

/-- **Release, what holds**: in every reachable state, for every array that holds distinct qubits in use and in every
count state, `qubit_release_array` succeeds and releases every qubit of the array: the device has gone through
releasing them one after the other, and what is in use afterwards is what was in use before without them.  What is
missing for C37: the memory of the array (`C37_counterexample`); instead the alias count goes down by one, and with no
alias the box is deallocated. -/
theorem C37_release_partial (he : env.eps = 0) (hr : QReach env fmt s) (hs : Shows env s.sim L ψ) {h : Heap}
    {p refs aliases : ℕ} {qs : List ℕ} (hh : HoldsQubits h p refs aliases qs) (hb : ∀ q ∈ qs, q < 2 ^ 64)
    (hn : qs.Nodup) (hl : ∀ q ∈ qs, q ∈ L) : ∃ (s' : Backend) (h' : Heap) (δ' : Device) (as : List QAns) (w : ℂ),
    qubitReleaseArray env p ⟨s, h⟩ = .ok ⟨s', h'⟩ ∧
    (s.device L ψ).run (qs.map .release) = .ok (as, [], δ') ∧ s'.device δ'.live δ'.psi = δ' ∧
    QReach env fmt s' ∧ ‖w‖ = 1 ∧ Shows env s'.sim (L \ qs.toFinset) (w • δ'.psi) ∧
    h' = if aliases = 0 then h.dealloc p
      else h.set p ⟨refs, aliases, some (.array ⟨8, qs.flatMap (leBytes 8)⟩)⟩ := by
  obtain ⟨hv, as, δ', h1, h2⟩ := release_many_dev qs (s.device L ψ) hn hl
  obtain ⟨s', e, hr', hq'⟩ := (qref_run (fmt := fmt) he _ (hr.rel he hs) hv
    (runOkQ_of (by intro c hc; obtain ⟨q, _, rfl⟩ := List.mem_map.1 hc; exact ⟨trivial, trivial⟩) _)).1 _ _ _ h1
  obtain ⟨w, hw, hs'⟩ := hr'.shows he
  rw [h2] at hs'
  refine ⟨s', _, δ', as, w, ?_, h1, hr'.device_eq, hq' hr, hw, hs', rfl⟩
  have hf := emptyArray_run (env := env) (fmt := fmt) qs [] hb hh e
  unfold qubitReleaseArray
  rw [size_of hh]
  show (emptyArray env p qs.length 0 ⟨s, h⟩ >>= fun m => liftHeap (m.heap.arrayUpdateAlias p (-1)) >>= fun heap =>
    pure (Rt.mk m.dev heap)) = _
  rw [show (0 : ℕ) = ([] : List ℕ).length from rfl, hf]
  show (liftHeap (h.arrayUpdateAlias p (-1)) >>= fun heap => pure (Rt.mk s' heap)) = _
  rw [alias_down hh]
  rfl

/-- No call of `qubit_release_array`, in whatever state of the process and on whatever pointer, drops a value: the
payload is never released. -/
theorem C37_never_drops {p : ℕ} {m m' : Rt} (e : qubitReleaseArray env p m = .ok m') :
    m'.heap.dropped = m.heap.dropped := by
  obtain ⟨n, _, e⟩ := hbind_ok e
  obtain ⟨m1, e1, e⟩ := hbind_ok e
  obtain ⟨h, e2, e⟩ := hbind_ok e
  cases e
  rw [show (Rt.mk m1.dev h).heap = h from rfl, alias_dropped (liftHeap_ok e2), emptyArray_heap e1]

/-- **The property is false** in every count state: whatever the numbers of references and aliases, an array whose
payload is still there when it is passed to `qubit_release_array` is not released.  With an alias left, the box and
the references to it are as before; with none, the box is gone although there are references to it. -/
theorem C37_counterexample (he : env.eps = 0) (hr : QReach env fmt s) (hs : Shows env s.sim L ψ) {h : Heap}
    {p refs aliases : ℕ} {qs : List ℕ} (hh : HoldsQubits h p refs aliases qs) (hb : ∀ q ∈ qs, q < 2 ^ 64)
    (hn : qs.Nodup) (hl : ∀ q ∈ qs, q ∈ L) (hd : p ∉ h.dropped) : ∃ m',
    qubitReleaseArray env p ⟨s, h⟩ = .ok m' ∧ ¬ Reclaimed m'.heap p ∧
    (aliases = 0 → p ∈ m'.heap.freed ∧ m'.heap.box p = none) ∧
    (0 < aliases → HoldsQubits m'.heap p refs (aliases - 1) qs ∧ m'.heap.freed = h.freed) := by
  obtain ⟨s', h', δ', as, w, e, _, _, _, _, _, e'⟩ := C37_release_partial he hr hs hh hb hn hl
  refine ⟨_, e, fun hc => hd ?_, fun h0 => ?_, fun h0 => ?_⟩
  · rw [← C37_never_drops e]; exact hc.1
  · rw [e', if_pos h0]
    exact ⟨by simp [Heap.dealloc], by simp [Heap.dealloc]⟩
  · rw [e', if_neg (by omega)]
    refine ⟨?_, rfl⟩
    unfold HoldsQubits
    rw [show aliases - 1 + 1 = aliases by omega]
    exact box_of_set _ _ _

/-- The leak cannot be repaired afterwards when there was no alias: every later count update of the array, even the
one that would have been right, is a use of freed memory. -/
theorem C37_beyond_repair (he : env.eps = 0) (hr : QReach env fmt s) (hs : Shows env s.sim L ψ) {h : Heap}
    {p refs : ℕ} {qs : List ℕ} (hh : HoldsQubits h p refs 0 qs) (hb : ∀ q ∈ qs, q < 2 ^ 64) (hn : qs.Nodup)
    (hl : ∀ q ∈ qs, q ∈ L) : ∃ m', qubitReleaseArray env p ⟨s, h⟩ = .ok m' ∧
    (∀ k : ℤ, k ≠ 0 → m'.heap.arrayUpdateRef p k = .error .undefined ∧
      m'.heap.arrayUpdateAlias p k = .error .undefined) ∧ m'.heap.readArray p = .error .undefined := by
  obtain ⟨s', h', δ', as, w, e, _, _, _, _, _, e'⟩ := C37_release_partial he hr hs hh hb hn hl
  have hx : h'.box p = none := by rw [e', if_pos rfl]; simp [Heap.dealloc]
  have key : ∀ (k : ℤ), k ≠ 0 → ∀ a, h'.updateCounts p k a = .error .undefined := by
    intro k hk a
    unfold Heap.updateCounts
    split
    · obtain ⟨j, hj⟩ : ∃ j, k.toNat = j + 1 := ⟨k.toNat - 1, by omega⟩
      rw [hj]
      have : Heap.countUp p a h' = .error .undefined := by
        cases a <;> simp [Heap.countUp, Heap.incStrong, Heap.incWeak, hx]
      show (Heap.countUp p a h' >>= _) = _
      rw [this]; rfl
    · obtain ⟨j, hj⟩ : ∃ j, (-k).toNat = j + 1 := ⟨(-k).toNat - 1, by omega⟩
      rw [hj]
      have : Heap.countDown p a h' = .error .undefined := by
        cases a
        · simp [Heap.countDown, Heap.decStrong, hx]
        · show (Heap.incWeak p h' >>= _) = _
          have : Heap.incWeak p h' = .error .undefined := by simp [Heap.incWeak, hx]
          rw [this]; rfl
      show (Heap.countDown p a h' >>= _) = _
      rw [this]; rfl
  exact ⟨_, e, fun k hk => ⟨key k hk false, key k hk true⟩, by
    show h'.readArray p = _
    have : h'.read p = .error .undefined := by simp [Heap.read, hx]
    unfold Heap.readArray
    rw [this]; rfl⟩

/-- What was asked for can be had: lowering the count of references instead reclaims an array with one reference and
no alias. -/
theorem C37_repair {h : Heap} {p : ℕ} {qs : List ℕ} (hh : HoldsQubits h p 1 0 qs) :
    ∃ h', h.arrayUpdateRef p (-1) = .ok h' ∧ Reclaimed h' p := by
  have h1 : Heap.decStrong p h = .ok ({ h.set p ⟨0, 1, none⟩ with dropped := p :: h.dropped }.dealloc p) := by
    unfold Heap.decStrong
    rw [hh]
    show Heap.decWeak p { h.set p ⟨0, 1, none⟩ with dropped := p :: h.dropped } = _
    unfold Heap.decWeak
    rw [show ({ h.set p ⟨0, 1, none⟩ with dropped := p :: h.dropped } : Heap).box p = some ⟨0, 1, none⟩ from
      box_of_set _ _ _]
    rfl
  refine ⟨{ h.set p ⟨0, 1, none⟩ with dropped := p :: h.dropped }.dealloc p, ?_, ?_⟩
  · show (Heap.decStrong p h >>= fun h => Heap.iterate (Heap.countDown p false) 0 h) = _
    rw [h1]; rfl
  · exact ⟨by simp [Heap.dealloc], by simp [Heap.dealloc]⟩

/-- **A whole life**: from every reachable state and every heap in which the next address is new, allocating an array
of any size and releasing it again leaves the qubits in use as before but the memory of the array unreclaimed. -/
theorem C37_leak (he : env.eps = 0) (hr : QReach env fmt s) (hs : Shows env s.sim L ψ) {h : Heap}
    (hd : h.next ∉ h.dropped) (n : ℕ) (hn : L.card + n ≤ 2 ^ 64) : ∃ (m m' : Rt) (φ : Wave),
    qubitAllocateArray n ⟨s, h⟩ = .ok (h.next, m) ∧ qubitReleaseArray env h.next m = .ok m' ∧
    Shows env m'.dev.sim L φ ∧ h.next ∈ m'.heap.freed ∧ h.next ∉ m'.heap.dropped ∧ ¬ Reclaimed m'.heap h.next := by
  obtain ⟨qs, s1, h1, w, e, _, hp, hf, _, hb, hr1, _, hs1, hh, _, hd1, _, _⟩ := C37_allocate he hr hs h n hn
  have hnd : qs.Nodup := hp.imp (fun h => ne_of_lt h)
  obtain ⟨s2, h2, δ2, as, w2, e2, _, _, _, _, hs2, eh⟩ := C37_release_partial he hr1 hs1 hh hb hnd
    (fun q hq => Finset.mem_union_right _ (List.mem_toFinset.2 hq))
  have hL : (L ∪ qs.toFinset) \ qs.toFinset = L := by
    ext x
    simp only [Finset.mem_sdiff, Finset.mem_union, List.mem_toFinset]
    constructor
    · rintro ⟨h | h, h'⟩
      · exact h
      · exact absurd h h'
    · intro hx; exact ⟨.inl hx, fun hc => hf x hc hx⟩
  rw [hL] at hs2
  have hdr : h.next ∉ h2.dropped := by
    rw [show h2.dropped = h1.dropped from C37_never_drops e2, hd1]; exact hd
  refine ⟨_, _, _, e, e2, hs2, ?_, hdr, fun hc => hdr hc.1⟩
  show h.next ∈ h2.freed
  rw [eh, if_pos rfl]
  simp [Heap.dealloc]

/-- The hypotheses are met, for example, by a new process: an array of three qubits. -/
example (he : env.eps = 0) {rng : ℕ → ℝ} (hrng : ∀ n, 0 ≤ rng n ∧ rng n < 1) (os : ℕ → ℕ) : ∃ (m m' : Rt),
    qubitAllocateArray 3 ⟨Backend.new rng os, Heap.empty⟩ = .ok (1, m) ∧
    qubitReleaseArray env 1 m = .ok m' ∧ 1 ∈ m'.heap.freed ∧ 1 ∉ m'.heap.dropped := by
  have hr : QReach env ⟨fun _ => [], fun _ => ""⟩ (Backend.new rng os) := .new hrng os
  obtain ⟨w, _, hs⟩ := (qref_new hrng os).shows (env := env) he
  obtain ⟨m, m', φ, e1, e2, _, e3, e4, _⟩ := C37_leak he hr hs (h := Heap.empty) (by simp [Heap.empty]) 3
    (by simp [Device.init])
  exact ⟨m, m', e1, e2, e3, e4⟩

/-- Memory with the lowest byte first. -/
example : [1, 258].flatMap (leBytes 8) = [1, 0, 0, 0, 0, 0, 0, 0, 2, 1, 0, 0, 0, 0, 0, 0] := by decide

end Qir.Back
