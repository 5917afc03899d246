import Verif.Model.QubitArray
import Verif.Proof.BackReach

/-! Arrays of qubits: bytes of words, the loops. -/

noncomputable section
namespace Qir.Back
open Spec Function Sim Qir.Out Qir.Std

variable {env : Env} {fmt : Fmt}

theorem hbind_ok {α β : Type} {r : Except Halt α} {f : α → Except Halt β} {b : β}
    (h : (r >>= f) = .ok b) : ∃ a, r = .ok a ∧ f a = .ok b := by
  cases r with
  | error e => cases h
  | ok a => exact ⟨a, rfl, h⟩

theorem liftHeap_ok {α : Type} {r : Except Fault α} {a : α} (h : liftHeap r = .ok a) : r = .ok a := by
  cases r with
  | error e => cases h
  | ok b => cases h; rfl

/-! ### Words -/

theorem leBytes_length (k n : ℕ) : (leBytes k n).length = k := by
  induction k generalizing n with
  | zero => rfl
  | succ k ih => simp [leBytes, ih]

theorem leWord_leBytes (k n : ℕ) : leWord (leBytes k n) = n % 256 ^ k := by
  induction k generalizing n with
  | zero => simp [leBytes, leWord, Nat.mod_one]
  | succ k ih =>
    simp only [leBytes, leWord, ih]
    have h1 : (UInt8.ofNat (n % 256)).toNat = n % 256 := by simp
    rw [h1, pow_succ', Nat.mod_mul]

theorem word_of_lt {q : ℕ} (h : q < 2 ^ 64) : leWord (leBytes 8 q) = q := by
  rw [leWord_leBytes]
  exact Nat.mod_eq_of_lt (by norm_num at h ⊢; exact h)

/-- The memory of an array of words. -/
theorem words_length (qs : List ℕ) : (qs.flatMap (leBytes 8)).length = 8 * qs.length := by
  induction qs with
  | nil => rfl
  | cons q qs ih => simp only [List.flatMap_cons, List.length_append, leBytes_length, ih, List.length_cons]; omega

theorem words_slice (pre : List ℕ) (q : ℕ) (post : List ℕ) :
    (((pre ++ q :: post).flatMap (leBytes 8)).drop (8 * pre.length)).take 8 = leBytes 8 q := by
  rw [List.flatMap_append, ← words_length, List.drop_left, List.flatMap_cons]
  exact List.take_left' (leBytes_length 8 q)

/-! ### The heap side -/

theorem readArray_of {p : ℕ} {h : Heap} {a b : ℕ} {v : QirArray} (e : h.box p = some ⟨a, b, some (.array v)⟩) :
    h.readArray p = .ok v := by
  simp only [Heap.readArray, Heap.read, e]; rfl

theorem write_of {p : ℕ} {h : Heap} {a b : ℕ} {v : Obj} {w : Obj} (e : h.box p = some ⟨a, b, some v⟩) :
    h.write p w = .ok (h.set p ⟨a, b, some w⟩) := by
  simp only [Heap.write, e]

theorem arrayStore_of {p : ℕ} {h : Heap} {a b : ℕ} {z i : ℕ} {d w : List UInt8}
    (e : h.box p = some ⟨a, b, some (.array ⟨z, d⟩)⟩) (hw : w.length = z) (hi : z * i + z ≤ d.length) :
    h.arrayStore p i w = .ok (h.set p ⟨a, b, some (.array ⟨z, d.take (z * i) ++ w ++ d.drop (z * i + z)⟩)⟩) := by
  unfold Heap.arrayStore
  rw [readArray_of e]
  exact (if_pos ⟨hw, hi⟩).trans (write_of e)

theorem arrayLoad_of {p : ℕ} {h : Heap} {a b : ℕ} {z i : ℕ} {d : List UInt8}
    (e : h.box p = some ⟨a, b, some (.array ⟨z, d⟩)⟩) (hi : z * i + z ≤ d.length) :
    h.arrayLoad p i = .ok ((d.drop (z * i)).take z) := by
  unfold Heap.arrayLoad
  rw [readArray_of e]
  exact if_pos hi

theorem zeros_split (a b : ℕ) : (List.replicate (a + b) (0 : UInt8)).drop a = List.replicate b 0 := by
  rw [List.drop_replicate]; congr 1; omega

theorem store_next {p : ℕ} {h : Heap} {a b : ℕ} {qs : List ℕ} {k : ℕ} (q : ℕ)
    (e : h.box p = some ⟨a, b, some (.array ⟨8, qs.flatMap (leBytes 8) ++ List.replicate (8 * (k + 1)) 0⟩)⟩) :
    h.arrayStore p qs.length (leBytes 8 q) = .ok (h.set p ⟨a, b, some (.array
      ⟨8, (qs ++ [q]).flatMap (leBytes 8) ++ List.replicate (8 * k) 0⟩)⟩) := by
  rw [arrayStore_of e (leBytes_length 8 q) (by
    rw [List.length_append, words_length, List.length_replicate]; omega)]
  have h1 : List.take (8 * qs.length) (qs.flatMap (leBytes 8) ++ List.replicate (8 * (k + 1)) 0) = qs.flatMap (leBytes 8) := by
    rw [← words_length, List.take_left]
  have h2 : List.drop (8 * qs.length + 8) (qs.flatMap (leBytes 8) ++ List.replicate (8 * (k + 1)) 0) =
      List.replicate (8 * k) 0 := by
    rw [← List.drop_drop, ← words_length, List.drop_left, show 8 * (k + 1) = 8 + 8 * k by ring, zeros_split]
  rw [h1, h2, List.flatMap_append]
  simp

theorem load_word {p : ℕ} {h : Heap} {a b : ℕ} {pre post : List ℕ} {q : ℕ} (hq : q < 2 ^ 64)
    (e : h.box p = some ⟨a, b, some (.array ⟨8, (pre ++ q :: post).flatMap (leBytes 8)⟩)⟩) :
    ∃ w, h.arrayLoad p pre.length = .ok w ∧ leWord w = q := by
  refine ⟨leBytes 8 q, ?_, word_of_lt hq⟩
  rw [arrayLoad_of e (by rw [words_length, List.length_append, List.length_cons]; omega), words_slice]

theorem size_of {p : ℕ} {h : Heap} {a b : ℕ} {qs : List ℕ}
    (e : h.box p = some ⟨a, b, some (.array ⟨8, qs.flatMap (leBytes 8)⟩)⟩) : h.arrayGetSize p = .ok qs.length := by
  have h1 : h.arrayGetSize p = .ok ((qs.flatMap (leBytes 8)).length / 8) := by
    unfold Heap.arrayGetSize
    rw [readArray_of e]
    rfl
  rw [h1, words_length, Nat.mul_div_cancel_left _ (by norm_num)]

theorem set_set (h : Heap) (p : ℕ) (x y : Box) : (h.set p x).set p y = h.set p y := by
  simp [Heap.set]

theorem set_dealloc (h : Heap) (p : ℕ) (x : Box) : (h.set p x).dealloc p = h.dealloc p := by
  simp [Heap.set, Heap.dealloc]

theorem box_of_set (h : Heap) (p : ℕ) (x : Box) : (h.set p x).box p = some x := by simp [Heap.set]

theorem alias_down {p : ℕ} {h : Heap} {a b : ℕ} {v : Option Obj} (e : h.box p = some ⟨a, b + 1, v⟩) :
    h.arrayUpdateAlias p (-1) = .ok (if b = 0 then h.dealloc p else h.set p ⟨a, b, v⟩) := by
  have h1 : Heap.incWeak p h = .ok (h.set p ⟨a, b + 2, v⟩) := by simp only [Heap.incWeak, e]
  have h2 : Heap.decWeak p (h.set p ⟨a, b + 2, v⟩) = .ok (h.set p ⟨a, b + 1, v⟩) := by
    simp only [Heap.decWeak, box_of_set]
    rw [if_neg (by omega), if_neg (by omega), set_set]
    rfl
  have h3 : Heap.decWeak p (h.set p ⟨a, b + 1, v⟩) = .ok (if b = 0 then h.dealloc p else h.set p ⟨a, b, v⟩) := by
    simp only [Heap.decWeak, box_of_set]
    rw [if_neg (by omega)]
    by_cases hb : b = 0
    · rw [if_pos (by omega), if_pos hb, set_dealloc]
    · rw [if_neg (by omega), if_neg hb, set_set]
      rfl
  show (Heap.countDown p true h >>= fun h => Heap.iterate (Heap.countDown p true) 0 h) = _
  have h4 : Heap.countDown p true h = .ok (if b = 0 then h.dealloc p else h.set p ⟨a, b, v⟩) := by
    show (Heap.incWeak p h >>= fun h => Heap.decWeak p h >>= fun h => Heap.decWeak p h) = _
    rw [h1]
    show (Heap.decWeak p (h.set p ⟨a, b + 2, v⟩) >>= fun h => Heap.decWeak p h) = _
    rw [h2]
    exact h3
  rw [h4]; rfl

/-- Deallocating weak references never drops the value. -/
theorem decWeak_dropped {p : ℕ} {h h' : Heap} (e : Heap.decWeak p h = .ok h') : h'.dropped = h.dropped := by
  unfold Heap.decWeak at e
  split at e
  · split at e
    · cases e
    · split at e <;> cases e <;> rfl
  · cases e

theorem alias_dropped {p : ℕ} {h h' : Heap} (e : h.arrayUpdateAlias p (-1) = .ok h') : h'.dropped = h.dropped := by
  have e : (Heap.countDown p true h >>= fun h => Heap.iterate (Heap.countDown p true) 0 h) = .ok h' := e
  have e : (((Heap.incWeak p h >>= fun h => Heap.decWeak p h >>= fun h => Heap.decWeak p h) >>= Except.ok) :
    Except Fault Heap) = .ok h' := e
  cases h1 : Heap.incWeak p h with
  | error _ => rw [h1] at e; cases e
  | ok x =>
    rw [h1] at e
    have e : ((Heap.decWeak p x >>= fun h => Heap.decWeak p h) >>= Except.ok) = .ok h' := e
    cases h2 : Heap.decWeak p x with
    | error _ => rw [h2] at e; cases e
    | ok y =>
      rw [h2] at e
      have e : (Heap.decWeak p y >>= Except.ok) = .ok h' := e
      cases h3 : Heap.decWeak p y with
      | error _ => rw [h3] at e; cases e
      | ok z =>
        rw [h3] at e
        cases e
        rw [decWeak_dropped h3, decWeak_dropped h2]
        unfold Heap.incWeak at h1
        split at h1
        · cases h1; rfl
        · cases h1

/-! ### The loops -/

theorem emptyArray_heap {p k i : ℕ} {m m' : Rt} (e : emptyArray env p k i m = .ok m') : m'.heap = m.heap := by
  induction k generalizing i m with
  | zero => cases e; rfl
  | succ k ih =>
    obtain ⟨w, _, e⟩ := hbind_ok e
    obtain ⟨d, _, e⟩ := hbind_ok e
    rw [ih e]

/-- The loop of the release does the release calls, for the words of the array. -/
theorem emptyArray_run {p : ℕ} {h : Heap} {a b : ℕ} (post : List ℕ) : ∀ (pre : List ℕ) {s s' : Backend}
    {as : List QAns} {out : Bytes}, (∀ q ∈ post, q < 2 ^ 64) →
    h.box p = some ⟨a, b, some (.array ⟨8, (pre ++ post).flatMap (leBytes 8)⟩)⟩ →
    runQ env fmt (post.map .release) s = .ok (as, out, s') →
    emptyArray env p post.length pre.length ⟨s, h⟩ = .ok ⟨s', h⟩ := by
  induction post with
  | nil =>
    intro pre s s' as out _ _ e
    cases e; rfl
  | cons q post ih =>
    intro pre s s' as out hq hb e
    obtain ⟨w, hw, hwq⟩ := load_word (hq q (by simp)) hb
    have e : (qstep env fmt (.release q) s >>= fun x => runQ env fmt (post.map .release) x.2.2 >>= fun y =>
      pure (x.1 :: y.1, x.2.1 ++ y.2.1, y.2.2)) = .ok (as, out, s') := e
    have hstep : qstep env fmt (.release q) s = silent (qubitRelease env q s) := rfl
    cases h1 : qubitRelease env q s with
    | error x => rw [hstep, h1] at e; cases e
    | ok s1 =>
      rw [hstep, h1] at e
      have e : (runQ env fmt (post.map .release) s1 >>= fun y =>
        (pure (QAns.unit :: y.1, [] ++ y.2.1, y.2.2) : Except Stop _)) = .ok (as, out, s') := e
      cases h2 : runQ env fmt (post.map .release) s1 with
      | error x => rw [h2] at e; cases e
      | ok y =>
        obtain ⟨as', out', s2⟩ := y
        rw [h2] at e
        cases e
        have := ih (pre ++ [q]) (fun r hr => hq r (by simp [hr])) (by rw [List.append_assoc]; exact hb) h2
        rw [List.length_append, List.length_singleton] at this
        show (liftHeap (h.arrayLoad p pre.length) >>= fun w => liftDev (qubitRelease env (leWord w) s) >>= fun dev =>
          emptyArray env p post.length (pre.length + 1) ⟨dev, h⟩) = _
        rw [hw]
        show (liftDev (qubitRelease env (leWord w) s) >>= fun dev =>
          emptyArray env p post.length (pre.length + 1) ⟨dev, h⟩) = _
        rw [hwq, h1]
        exact this

/-- The loop of the allocation does the allocation calls and stores their answers. -/
theorem fillArray_run {p a b : ℕ} (k : ℕ) : ∀ (pre : List ℕ) {s s' : Backend} {h : Heap} {qs : List ℕ} {out : Bytes},
    h.box p = some ⟨a, b, some (.array ⟨8, pre.flatMap (leBytes 8) ++ List.replicate (8 * k) 0⟩)⟩ →
    runQ env fmt (List.replicate k .allocate) s = .ok (qs.map .ptr, out, s') →
    fillArray p k pre.length ⟨s, h⟩ =
      .ok ⟨s', h.set p ⟨a, b, some (.array ⟨8, (pre ++ qs).flatMap (leBytes 8)⟩)⟩⟩ := by
  induction k with
  | zero =>
    intro pre s s' h qs out hb e
    have e : (Except.ok ([], [], s) : Except Stop _) = .ok (qs.map QAns.ptr, out, s') := e
    have hq : qs = [] := by
      have : ([] : List QAns) = qs.map .ptr := by injection e with e; injection e
      exact List.map_eq_nil_iff.1 this.symm
    subst hq
    have hs : s = s' := by injection e with e; injection e with _ e; injection e
    subst hs
    have : h.set p ⟨a, b, some (.array ⟨8, (pre ++ []).flatMap (leBytes 8)⟩)⟩ = h := by
      have hu : Function.update h.box p (h.box p) = h.box := Function.update_eq_self p h.box
      have hb : h.box p = some ⟨a, b, some (.array ⟨8, pre.flatMap (leBytes 8) ++ []⟩)⟩ := hb
      rw [List.append_nil] at hb ⊢
      unfold Heap.set
      rw [← hb, hu]
    rw [this]; rfl
  | succ k ih =>
    intro pre s s' h qs out hb e
    have e : (runQ env fmt (List.replicate k .allocate) (qubitAllocate s).2 >>= fun y =>
      (pure (QAns.ptr (qubitAllocate s).1 :: y.1, [] ++ y.2.1, y.2.2) : Except Stop _)) = .ok (qs.map .ptr, out, s') := e
    cases h2 : runQ env fmt (List.replicate k .allocate) (qubitAllocate s).2 with
    | error x => rw [h2] at e; cases e
    | ok y =>
      obtain ⟨as', out', s2⟩ := y
      rw [h2] at e
      have e : (Except.ok (QAns.ptr (qubitAllocate s).1 :: as', [] ++ out', s2) : Except Stop _) =
        .ok (qs.map .ptr, out, s') := e
      have e1 : QAns.ptr (qubitAllocate s).1 :: as' = qs.map .ptr := by injection e with e; injection e
      have e2 : s2 = s' := by injection e with e; injection e with _ e; injection e
      subst e2
      cases qs with
      | nil => cases e1
      | cons q qs =>
        rw [List.map_cons] at e1
        injection e1 with e3 e4
        injection e3 with e3
        subst e4
        have hst := store_next (qubitAllocate s).1 hb
        have hb' := box_of_set h p ⟨a, b, some (.array
          ⟨8, (pre ++ [(qubitAllocate s).1]).flatMap (leBytes 8) ++ List.replicate (8 * k) 0⟩)⟩
        have := ih (pre ++ [(qubitAllocate s).1]) hb' h2
        rw [List.length_append, List.length_singleton, set_set, List.append_assoc] at this
        show (liftHeap (h.arrayStore p pre.length (leBytes 8 (qubitAllocate s).1)) >>= fun heap =>
          fillArray p k (pre.length + 1) ⟨(qubitAllocate s).2, heap⟩) = _
        rw [hst, ← e3]
        exact this

/-! ### The ideal device -/

theorem fresh_notMem (δ : Device) : δ.fresh ∉ δ.live := by
  have : δ.fresh ∈ {n | n ∉ δ.live} := Nat.sInf_mem (Infinite.exists_notMem_finset δ.live)
  exact this

theorem mem_of_lt_fresh {δ : Device} {m : ℕ} (h : m < δ.fresh) : m ∈ δ.live := by
  by_contra hc
  exact absurd (Nat.sInf_le (show m ∈ {n | n ∉ δ.live} from hc)) (not_le.2 h)

theorem fresh_le_card (δ : Device) : δ.fresh ≤ δ.live.card := by
  have : Finset.range δ.fresh ⊆ δ.live := fun m hm => mem_of_lt_fresh (Finset.mem_range.1 hm)
  have := Finset.card_le_card this
  rwa [Finset.card_range] at this

theorem allocate_many (n : ℕ) : ∀ (δ : Device), ∃ (qs : List ℕ) (δ' : Device),
    δ.run (List.replicate n .allocate) = .ok (qs.map .ptr, [], δ') ∧ qs.length = n ∧ qs.Pairwise (· < ·) ∧
    (∀ q ∈ qs, q ∉ δ.live) ∧ (∀ q ∈ qs, ∀ m < q, m ∈ δ.live ∪ qs.toFinset) ∧ (∀ q ∈ qs, q < δ.live.card + n) ∧
    δ'.live = δ.live ∪ qs.toFinset ∧ δ'.psi = δ.psi := by
  induction n with
  | zero => intro δ; exact ⟨[], δ, rfl, rfl, .nil, by simp, by simp, by simp, by simp, rfl⟩
  | succ n ih =>
    intro δ
    obtain ⟨qs, δ', h1, h2, h3, h4, h5, h6, h7, h8⟩ :=
      ih { δ with live := insert δ.fresh δ.live, high := max δ.high (δ.fresh + 1) }
    have hlt : ∀ q ∈ qs, δ.fresh < q := by
      intro q hq
      have h := h4 q hq
      simp only [Finset.mem_insert, not_or] at h
      by_contra hc
      exact h.2 (mem_of_lt_fresh (by omega))
    have hu : insert δ.fresh δ.live ∪ qs.toFinset = δ.live ∪ (δ.fresh :: qs).toFinset := by
      ext x; simp
    refine ⟨δ.fresh :: qs, δ', ?_, by simp [h2], List.pairwise_cons.2 ⟨hlt, h3⟩, ?_, ?_, ?_, ?_, h8⟩
    · show (δ.step .allocate >>= fun x => x.2.2.run (List.replicate n .allocate) >>= fun y =>
        (pure (x.1 :: y.1, x.2.1 ++ y.2.1, y.2.2) : Except (List Char) _)) = _
      show (Device.run { δ with live := insert δ.fresh δ.live, high := max δ.high (δ.fresh + 1) }
        (List.replicate n .allocate) >>= fun y =>
        (pure (QAns.ptr δ.fresh :: y.1, [] ++ y.2.1, y.2.2) : Except (List Char) _)) = _
      rw [h1]; rfl
    · intro q hq
      rcases List.mem_cons.1 hq with rfl | hq
      · exact fresh_notMem δ
      · have := h4 q hq
        simp only [Finset.mem_insert, not_or] at this
        exact this.2
    · intro q hq m hm
      rcases List.mem_cons.1 hq with rfl | hq
      · exact Finset.mem_union_left _ (mem_of_lt_fresh hm)
      · have := h5 q hq m hm
        rw [← hu]; exact this
    · intro q hq
      rcases List.mem_cons.1 hq with rfl | hq
      · have := fresh_le_card δ; omega
      · have := h6 q hq
        simp only [Finset.card_insert_of_notMem (fresh_notMem δ)] at this
        omega
    · rw [h7]; exact hu

theorem allocate_valid (n : ℕ) : ∀ δ : Device, δ.ValidRun (List.replicate n .allocate) := by
  induction n with
  | zero => intro δ; trivial
  | succ n ih => intro δ; exact ⟨trivial, fun _ _ δ' _ => ih δ'⟩

theorem release_step_live {δ δ' : Device} {q : ℕ} {a : QAns} {es : List Event}
    (h : δ.step (.release q) = .ok (a, es, δ')) : a = .unit ∧ es = [] ∧ δ'.live = δ.live.erase q := by
  have h : (if δ.live = {q} then .ok (.unit, [], { δ with live := ∅, psi := ket zeroBasis })
    else .ok (.unit, [], { (δ.observed [(.Z, q)]).clear (δ.outcome [(.Z, q)]) q with live := δ.live.erase q }) :
      Except (List Char) (QAns × List Event × Device)) = .ok (a, es, δ') := h
  split at h
  · rename_i hl; cases h; refine ⟨rfl, rfl, ?_⟩; rw [hl]; simp
  · cases h; exact ⟨rfl, rfl, rfl⟩

theorem release_many_dev (qs : List ℕ) : ∀ (δ : Device), qs.Nodup → (∀ q ∈ qs, q ∈ δ.live) →
    δ.ValidRun (qs.map .release) ∧ ∃ (as : List QAns) (δ' : Device),
      δ.run (qs.map .release) = .ok (as, [], δ') ∧ δ'.live = δ.live \ qs.toFinset := by
  induction qs with
  | nil => intro δ _ _; exact ⟨trivial, [], δ, rfl, by simp⟩
  | cons q qs ih =>
    intro δ hn hl
    have hn' := List.nodup_cons.1 hn
    have hl' : ∀ {δ1 : Device}, δ1.live = δ.live.erase q → ∀ r ∈ qs, r ∈ δ1.live := by
      intro δ1 e r hr
      rw [e, Finset.mem_erase]
      exact ⟨fun c => hn'.1 (c ▸ hr), hl r (by simp [hr])⟩
    refine ⟨⟨hl q (by simp), fun a es δ1 h => (ih δ1 hn'.2 (hl' (release_step_live h).2.2)).1⟩, ?_⟩
    have : ∃ δ1, δ.step (.release q) = .ok (.unit, [], δ1) := by
      show ∃ δ1, (if δ.live = {q} then .ok (.unit, [], { δ with live := ∅, psi := ket zeroBasis })
        else .ok (.unit, [], { (δ.observed [(.Z, q)]).clear (δ.outcome [(.Z, q)]) q with live := δ.live.erase q }) :
          Except (List Char) (QAns × List Event × Device)) = _
      split <;> exact ⟨_, rfl⟩
    obtain ⟨δ1, h1⟩ := this
    obtain ⟨as, δ', h2, h3⟩ := (ih δ1 hn'.2 (hl' (release_step_live h1).2.2)).2
    refine ⟨.unit :: as, δ', ?_, ?_⟩
    · show (δ.step (.release q) >>= fun x => x.2.2.run (qs.map .release) >>= fun y =>
        (pure (x.1 :: y.1, x.2.1 ++ y.2.1, y.2.2) : Except (List Char) _)) = _
      rw [h1]
      show (δ1.run (qs.map .release) >>= fun y => (pure (QAns.unit :: y.1, [] ++ y.2.1, y.2.2) :
        Except (List Char) _)) = _
      rw [h2]; rfl
    · rw [h3, (release_step_live h1).2.2]
      ext x; simp; tauto

end Qir.Back
