import Verif.Model.Apply
import Verif.Proof.IMap
import Verif.Proof.Bits
import Mathlib.Data.Set.Card

/-!
# How many amplitudes are stored

The number of stored amplitudes times two to the number of gates still pending does not grow but by the calls that
request a superposition.
-/

noncomputable section
namespace Qir

namespace IMap
variable {V : Type}

/-- The keys present. -/
def present (m : IMap V) : Set ℕ := {q | m.containsKey q = true}

theorem mem_present {m : IMap V} {q : ℕ} : q ∈ m.present ↔ (m.get q).isSome = true := by
  unfold present
  rw [Set.mem_ofPred_eq, containsKey_eq]

theorem present_finite (m : IMap V) : m.present.Finite := by
  refine (Set.finite_lt_nat m.vals.length).subset fun q hq => ?_
  rw [mem_present] at hq
  by_contra hc
  unfold get at hq
  rw [Set.mem_ofPred_eq] at hc
  rw [List.getElem?_eq_none (by omega)] at hq
  simp at hq

theorem present_modify (m : IMap V) (i : ℕ) (f : V → V) : (m.modify i f).present = m.present := by
  ext q
  rw [mem_present, mem_present, get_modify]
  split
  · rename_i h; subst h; simp
  · rfl

theorem present_remove (m : IMap V) (i : ℕ) : (m.remove i).present = m.present \ {i} := by
  ext q
  rw [Set.mem_sdiff, mem_present, mem_present, get_remove]
  split
  · rename_i h; simp [h]
  · rename_i h; simp [h]

theorem present_insert (m : IMap V) (i : ℕ) (v : V) : (m.insert i v).present = Insert.insert i m.present := by
  ext q
  rw [Set.mem_insert_iff, mem_present, mem_present, get_insert]
  split
  · rename_i h; simp [h]
  · rename_i h; simp [h]

/-- The number of keys. -/
def size (m : IMap V) : ℕ := m.present.ncard

theorem size_modify (m : IMap V) (i : ℕ) (f : V → V) : (m.modify i f).size = m.size := by
  unfold size; rw [present_modify]

theorem size_remove_le (m : IMap V) (i : ℕ) : (m.remove i).size ≤ m.size := by
  unfold size; rw [present_remove]
  exact Set.ncard_le_ncard Set.sdiff_subset m.present_finite

theorem size_remove {m : IMap V} {i : ℕ} {v : V} (h : m.get i = some v) : (m.remove i).size + 1 = m.size := by
  unfold size; rw [present_remove]
  exact Set.ncard_sdiff_singleton_add_one (mem_present.2 (by simp [h])) m.present_finite

theorem size_insert_le (m : IMap V) (i : ℕ) (v : V) : (m.insert i v).size ≤ m.size + 1 := by
  unfold size; rw [present_insert]
  exact Set.ncard_insert_le _ _

theorem size_empty : (empty : IMap V).size = 0 := by
  have : (empty : IMap V).present = ∅ := by
    ext q
    rw [mem_present]
    simp [empty, get]
  unfold size; rw [this, Set.ncard_empty]

end IMap

/-- The one bits. -/
def ones (n : ℕ) : Set ℕ := {q | n.testBit q = true}

theorem ones_finite (n : ℕ) : (ones n).Finite := by
  refine (Set.finite_lt_nat n).subset fun q hq => ?_
  by_contra hc
  rw [Set.mem_ofPred_eq] at hc
  have : n.testBit q = false := Nat.testBit_lt_two_pow (lt_of_le_of_lt (by omega) Nat.lt_two_pow_self)
  unfold ones at hq
  rw [Set.mem_ofPred_eq, this] at hq
  cases hq

theorem ones_setBit (n i : ℕ) (b : Bool) : ones (setBit n i b) = if b then insert i (ones n) else ones n \ {i} := by
  ext q
  have : q ∈ ones (setBit n i b) ↔ (if q = i then b else n.testBit q) = true := by
    unfold ones; rw [Set.mem_ofPred_eq, testBit_setBit]
  rw [this]
  cases b
  · by_cases h : q = i <;> simp [h, ones]
  · by_cases h : q = i <;> simp [h, ones]

theorem ones_zero : ones 0 = ∅ := by ext q; simp [ones]

namespace Sim

/-- The number of gates in the queues that can double the number of amplitudes. -/
def pend (s : Sim) : ℕ := (ones s.hFlag).ncard + s.rxQ.size + s.ryQ.size

/-- The amplitudes that can be stored once nothing is pending. -/
def Fits (B : ℕ) (s : Sim) : Prop := s.state.length * 2 ^ s.pend ≤ B

theorem Fits.of_le {B : ℕ} {s s' : Sim} (h : s.Fits B) (h1 : s'.state.length ≤ s.state.length) (h2 : s'.pend ≤ s.pend) :
    s'.Fits B :=
  le_trans (Nat.mul_le_mul h1 (Nat.pow_le_pow_right (by norm_num) h2)) h

theorem Fits.spend {B : ℕ} {s s' : Sim} (h : s.Fits B) (h1 : s'.state.length ≤ 2 * s.state.length)
    (h2 : s'.pend + 1 ≤ s.pend) : s'.Fits B := by
  refine le_trans (Nat.mul_le_mul h1 (le_refl _)) (le_trans ?_ h)
  rw [mul_comm 2, mul_assoc, ← pow_succ']
  exact Nat.mul_le_mul_left _ (Nat.pow_le_pow_right (by norm_num) h2)

theorem Fits.grow {B : ℕ} {s s' : Sim} (h : s.Fits B) (k : ℕ) (h1 : s'.state.length ≤ 2 ^ k * s.state.length)
    (h2 : s'.pend ≤ s.pend) : s'.Fits (2 ^ k * B) := by
  refine le_trans (Nat.mul_le_mul h1 (Nat.pow_le_pow_right (by norm_num) h2)) ?_
  rw [mul_assoc]
  exact Nat.mul_le_mul_left _ h

theorem Fits.wait {B : ℕ} {s s' : Sim} (h : s.Fits B) (h1 : s'.state.length ≤ s.state.length)
    (h2 : s'.pend ≤ s.pend + 1) : s'.Fits (2 ^ 1 * B) := by
  refine le_trans (Nat.mul_le_mul h1 (Nat.pow_le_pow_right (by norm_num) h2)) ?_
  rw [pow_succ, ← mul_assoc, mul_comm _ 2]
  exact Nat.mul_le_mul_left _ h

theorem Fits.mono {B B' : ℕ} {s : Sim} (h : s.Fits B) (hB : B ≤ B') : s.Fits B' := le_trans h hB

/-- If the call succeeds, the result satisfies `P`. -/
def Then {α : Type} (r : Except Panic α) (P : α → Prop) : Prop := ∀ a, r = .ok a → P a

theorem Then.ok {α : Type} {a : α} {P : α → Prop} (h : P a) : Then (.ok a) P := by
  intro b hb; cases hb; exact h

theorem Then.pure {α : Type} {a : α} {P : α → Prop} (h : P a) : Then (Pure.pure a) P := Then.ok h

theorem Then.err {α : Type} {e : Panic} {P : α → Prop} : Then (.error e) P := by
  intro b hb; cases hb

theorem Then.bind {α β : Type} {r : Except Panic α} {P : α → Prop} {f : α → Except Panic β} {Q : β → Prop}
    (h : Then r P) (hf : ∀ a, P a → Then (f a) Q) : Then (r >>= f) Q := by
  intro b hb
  cases r with
  | error e => cases hb
  | ok a => exact hf a (h a rfl) b hb

theorem Then.any {α : Type} {r : Except Panic α} : Then r fun _ => True := fun _ _ => trivial

/-! ### Queues and tables -/

theorem takeOps_same (s : Sim) : Then (takeOps s) fun r => r.2 = { s with opQ := [] } := by
  unfold takeOps
  exact Then.any.bind fun a _ => .ok rfl

variable {B : ℕ} {env : Env} {s : Sim}

theorem flushOps_fits (h : s.Fits B) : Then (flushOps s) (Fits B) := by
  unfold flushOps
  split
  · exact .ok h
  · refine (takeOps_same s).bind fun a ha => .ok ?_
    rw [ha]
    exact h.of_le (by simp) le_rfl

theorem enqueueOp_fits (target : ℕ) (ctls : List ℕ) (op : OpCode) (h : s.Fits B) :
    Then (enqueueOp target ctls op s) (Fits B) := by
  unfold enqueueOp
  dsimp only
  split
  · exact (flushOps_fits h).bind fun a ha => .ok (ha.of_le le_rfl le_rfl)
  · exact (Then.ok h).bind fun a ha => .ok (ha.of_le le_rfl le_rfl)

theorem enqueueIf_fits (c : Bool) (target : ℕ) (ctls : List ℕ) (op : OpCode) (h : s.Fits B) :
    Then (enqueueIf c target ctls op s) (Fits B) := by
  unfold enqueueIf
  split
  · exact enqueueOp_fits _ _ _ h
  · exact .ok h

theorem insertPair_length (m : List (ℕ × ℂ)) (p : ℕ × ℂ) : (insertPair m p).length ≤ m.length + 1 := by
  unfold insertPair
  split <;> simp

theorem collectMap_length (l : List (ℕ × ℂ)) : (collectMap l).length ≤ l.length := by
  have key : ∀ (l m : List (ℕ × ℂ)), (l.foldl insertPair m).length ≤ m.length + l.length := by
    intro l
    induction l with
    | nil => intro m; simp
    | cons p t ih =>
      intro m
      rw [List.foldl_cons, List.length_cons]
      have h1 := ih (insertPair m p)
      have h2 := insertPair_length m p
      omega
  have := key l []
  rw [List.length_nil, zero_add] at this
  exact this

theorem flatMap_length {α : Type} (l : List α) (f : α → List (ℕ × ℂ)) (k : ℕ) (h : ∀ a, (f a).length ≤ k) :
    (l.flatMap f).length ≤ k * l.length := by
  induction l with
  | nil => simp
  | cons a t ih =>
    rw [List.flatMap_cons, List.length_append, List.length_cons, Nat.mul_succ]
    have := h a
    omega

theorem collected (env : Env) (l : List (ℕ × ℂ)) : (env.shuffle (collectMap l)).length ≤ l.length :=
  le_trans (env.shuffle_perm _).length_eq.le (collectMap_length l)

theorem two_optional (p q : Prop) [Decidable p] [Decidable q] (a b : ℕ × ℂ) :
    ((if p then [] else [a]) ++ (if q then [] else [b])).length ≤ 2 := by
  rw [List.length_append]
  split <;> split <;> simp

theorem mchEntry_length (eps : ℝ) (m : List (ℕ × ℂ)) (ctls : List ℕ) (target : ℕ) (e : ℕ × ℂ) :
    (mchEntry eps m ctls target e).length ≤ 2 := by
  unfold mchEntry
  split
  · dsimp only
    split
    · simp
    · split
      · exact two_optional _ _ _ _
      · simp
  · simp

theorem rotEntry_length (eps : ℝ) (m : List (ℕ × ℂ)) (ctls : List ℕ) (target : ℕ) (a b c : ℂ) (e : ℕ × ℂ) :
    (rotEntry eps m ctls target a b c e).length ≤ 2 := by
  unfold rotEntry
  split
  · dsimp only
    split
    · split <;> simp
    · split
      · exact two_optional _ _ _ _
      · simp
  · simp

theorem expEntry_length (eps : ℝ) (m : List (ℕ × ℂ)) (ctls : List ℕ) (xy yz : ℕ) (a b c : ℂ) (e : ℕ × ℂ) :
    (expEntry eps m ctls xy yz a b c e).length ≤ 2 := by
  unfold expEntry
  split
  · dsimp only
    split
    · simp
    · split
      · exact two_optional _ _ _ _
      · simp
  · simp

/-- What a gate that creates superpositions does. -/
def Doubled (s s' : Sim) : Prop :=
  s'.state.length ≤ 2 * s.state.length ∧ s'.hFlag = s.hFlag ∧ s'.rxQ = s.rxQ ∧ s'.ryQ = s.ryQ

theorem applyMch_doubled (env : Env) (ctls : List ℕ) (target : ℕ) (s : Sim) :
    Then (applyMch env ctls target s) (Doubled s) := by
  unfold applyMch
  refine Then.any.bind fun a _ => (takeOps_same s).bind fun b hb => .ok ⟨?_, ?_, ?_, ?_⟩ <;> rw [hb]
  dsimp only
  refine le_trans (flatMap_length _ _ 2 (mchEntry_length _ _ _ _)) (Nat.mul_le_mul_left _ ?_)
  exact le_trans (collected _ _) (by simp)

/-- The flags and the keys of the tables are the same, and there are at most as many amplitudes, or twice as many. -/
def Rotated (k : ℕ) (s s' : Sim) : Prop :=
  s'.state.length ≤ k * s.state.length ∧ s'.hFlag = s.hFlag ∧ s'.rxQ.present = s.rxQ.present ∧
    s'.ryQ.present = s.ryQ.present

theorem Rotated.refl (s : Sim) : Rotated 1 s s := ⟨by omega, rfl, rfl, rfl⟩

theorem Rotated.trans {k : ℕ} {a b c : Sim} (h : Rotated 1 a b) (h' : Rotated k b c) : Rotated k a c := by
  refine ⟨le_trans h'.1 (Nat.mul_le_mul_left _ (by simpa using h.1)), h'.2.1.trans h.2.1, h'.2.2.1.trans h.2.2.1,
    h'.2.2.2.trans h.2.2.2⟩

theorem Rotated.more {a b : Sim} (h : Rotated 1 a b) : Rotated 2 a b :=
  ⟨le_trans h.1 (by omega), h.2.1, h.2.2.1, h.2.2.2⟩

theorem Rotated.pend {k : ℕ} {a b : Sim} (h : Rotated k a b) : b.pend = a.pend := by
  unfold Sim.pend IMap.size
  rw [h.2.1, h.2.2.1, h.2.2.2]

theorem flushOps_rotated (s : Sim) : Then (flushOps s) (Rotated 1 s) := by
  unfold flushOps
  split
  · exact .ok (.refl s)
  · refine (takeOps_same s).bind fun a ha => .ok ?_
    rw [ha]
    exact ⟨by simp, rfl, rfl, rfl⟩

theorem enqueueOp_rotated (target : ℕ) (ctls : List ℕ) (op : OpCode) (s : Sim) :
    Then (enqueueOp target ctls op s) (Rotated 1 s) := by
  unfold enqueueOp
  dsimp only
  split
  · exact (flushOps_rotated s).bind fun a ha => .ok (ha.trans ⟨by simp, rfl, rfl, rfl⟩)
  · exact (Then.ok (Rotated.refl s)).bind fun a ha => .ok (ha.trans ⟨by simp, rfl, rfl, rfl⟩)

theorem enqueueOp_rotated' {s₀ : Sim} (h : Rotated 1 s₀ s) (target : ℕ) (ctls : List ℕ) (op : OpCode) :
    Then (enqueueOp target ctls op s) (Rotated 1 s₀) := fun a ha => h.trans (enqueueOp_rotated _ _ _ _ a ha)

theorem x_rotated (target : ℕ) (s : Sim) : Then (x target s) (Rotated 1 s) := by
  unfold x
  have : Rotated 1 s { s with ryQ := s.ryQ.modify target (fun a => a * (-1)) } :=
    ⟨by simp, rfl, rfl, IMap.present_modify _ _ _⟩
  dsimp only
  split <;> exact enqueueOp_rotated' this _ _ _

theorem y_rotated (target : ℕ) (s : Sim) : Then (y target s) (Rotated 1 s) := by
  unfold y
  have : Rotated 1 s { s with rxQ := s.rxQ.modify target (fun a => a * (-1)) } :=
    ⟨by simp, rfl, IMap.present_modify _ _ _, rfl⟩
  exact enqueueOp_rotated' this _ _ _

theorem z_rotated (target : ℕ) (s : Sim) : Then (z target s) (Rotated 1 s) := by
  unfold z
  have : Rotated 1 s { s with ryQ := s.ryQ.modify target (fun a => a * (-1)), rxQ := s.rxQ.modify target (fun a => a * (-1)) } :=
    ⟨by simp, rfl, IMap.present_modify _ _ _, IMap.present_modify _ _ _⟩
  dsimp only
  split <;> exact enqueueOp_rotated' this _ _ _

theorem Fits.rotated {s' : Sim} (h : s.Fits B) (hr : Rotated 1 s s') : s'.Fits B :=
  h.of_le (by simpa using hr.1) hr.pend.le

/-- A rotation, given that the Pauli gate it may be replaced by keeps the bound. -/
theorem mcrotation_rotated (env : Env) (pauli : Sim → Except Panic Sim) (ctls : List ℕ) (theta : ℝ) (target : ℕ)
    (sf : Bool) (s : Sim) (hp : Then (pauli s) (Rotated 1 s)) :
    Then (mcrotation env pauli ctls theta target sf s) (Rotated 2 s) := by
  unfold mcrotation
  dsimp only
  split
  · refine hp.bind fun a ha => Then.any.bind fun b _ => ?_
    generalize (rotM01 theta sf * if sf = true then Complex.I else 1) = w
    split
    · refine (takeOps_same a).bind fun c hc => .ok (ha.trans ?_)
      rw [hc]
      exact ⟨by simp; omega, rfl, rfl, rfl⟩
    · exact .ok ha.more
  · split
    · split
      · refine (takeOps_same s).bind fun c hc => Then.any.bind fun b _ => .ok ?_
        rw [hc]
        exact ⟨by simp; omega, rfl, rfl, rfl⟩
      · exact .ok (Rotated.refl s).more
    · refine Then.any.bind fun a _ => (takeOps_same s).bind fun c hc => .ok ?_
      rw [hc]
      refine ⟨?_, rfl, rfl, rfl⟩
      dsimp only
      refine le_trans (flatMap_length _ _ 2 (rotEntry_length _ _ _ _ _ _ _)) (Nat.mul_le_mul_left _ ?_)
      exact le_trans (collected _ _) (by simp)

theorem mcrotation_fits (env : Env) (pauli : Sim → Except Panic Sim) (ctls : List ℕ) (theta : ℝ) (target : ℕ)
    (sf : Bool) (hp : Then (pauli s) (Fits B)) (h : s.Fits B) :
    Then (mcrotation env pauli ctls theta target sf s) (Fits (2 ^ 1 * B)) := by
  unfold mcrotation
  dsimp only
  split
  · refine hp.bind fun a ha => Then.any.bind fun b _ => ?_
    generalize (rotM01 theta sf * if sf = true then Complex.I else 1) = w
    split
    · refine (takeOps_same a).bind fun c hc => .ok ?_
      rw [hc]
      exact ha.grow 1 (by simp; omega) le_rfl
    · exact .ok (ha.mono (by omega))
  · split
    · split
      · refine (takeOps_same s).bind fun c hc => Then.any.bind fun b _ => .ok ?_
        rw [hc]
        exact h.grow 1 (by simp; omega) le_rfl
      · exact .ok (h.mono (by omega))
    · refine Then.any.bind fun a _ => (takeOps_same s).bind fun c hc => .ok ?_
      rw [hc]
      refine h.grow 1 ?_ le_rfl
      dsimp only
      refine le_trans (flatMap_length _ _ 2 (rotEntry_length _ _ _ _ _ _ _)) (Nat.mul_le_mul_left _ ?_)
      exact le_trans (collected _ _) (by simp)

/-! ### Flushing -/

theorem flushH_fits (env : Env) (target : ℕ) (h : s.Fits B) : Then (flushH env target s) (Fits B) := by
  unfold flushH
  split
  · rename_i hb
    refine (applyMch_doubled env [] target s).bind fun a ha => .ok ?_
    refine h.spend ha.1 ?_
    unfold pend
    dsimp only
    rw [ha.2.1, ha.2.2.1, ha.2.2.2, ones_setBit]
    have := Set.ncard_sdiff_singleton_add_one (s := ones s.hFlag) (a := target) hb (ones_finite _)
    simp only [Bool.false_eq_true, if_false]
    omega
  · exact .ok h

theorem flushRx_fits (env : Env) (target : ℕ) (h : s.Fits B) : Then (flushRx env target s) (Fits B) := by
  unfold flushRx
  split
  · rename_i theta ht
    refine (mcrotation_rotated env (x target) [] theta target false s (x_rotated _ _)).bind fun a ha => .ok ?_
    refine h.spend ha.1 ?_
    rw [← ha.pend]
    have hm : target ∈ a.rxQ.present := by rw [ha.2.2.1, IMap.mem_present, ht]; rfl
    obtain ⟨v, hv⟩ := Option.isSome_iff_exists.1 (IMap.mem_present.1 hm)
    have := IMap.size_remove hv
    unfold pend
    dsimp only
    omega
  · exact .ok h

theorem flushRy_fits (env : Env) (target : ℕ) (h : s.Fits B) : Then (flushRy env target s) (Fits B) := by
  unfold flushRy
  split
  · rename_i theta ht
    refine (mcrotation_rotated env (y target) [] theta target true s (y_rotated _ _)).bind fun a ha => .ok ?_
    refine h.spend ha.1 ?_
    rw [← ha.pend]
    have hm : target ∈ a.ryQ.present := by rw [ha.2.2.2, IMap.mem_present, ht]; rfl
    obtain ⟨v, hv⟩ := Option.isSome_iff_exists.1 (IMap.mem_present.1 hm)
    have := IMap.size_remove hv
    unfold pend
    dsimp only
    omega
  · exact .ok h

theorem flushOne_fits (env : Env) (level : FlushLevel) (target : ℕ) (h : s.Fits B) :
    Then (flushOne env level target s) (Fits B) := by
  unfold flushOne
  refine (flushH_fits env target h).bind fun a ha => ?_
  cases level
  · exact .ok ha
  · exact flushRx_fits env target ha
  · exact (flushRx_fits env target ha).bind fun b hb => flushRy_fits env target hb

theorem flushLoop_fits (env : Env) (level : FlushLevel) (qs : List ℕ) : ∀ {s : Sim}, s.Fits B →
    Then (flushLoop env level qs s) (Fits B) := by
  induction qs with
  | nil => intro s h; exact .ok h
  | cons q t ih => intro s h; exact (flushOne_fits env level q h).bind fun a ha => ih ha

theorem flushQueue_fits (env : Env) (qs : List ℕ) (level : FlushLevel) (h : s.Fits B) :
    Then (flushQueue env qs level s) (Fits B) :=
  (flushLoop_fits env level qs h).bind fun _ ha => flushOps_fits ha

theorem maybeFlush_fits (env : Env) (qs : List ℕ) (level : FlushLevel) (h : s.Fits B) :
    Then (maybeFlush env qs level s) (Fits B) := by
  unfold maybeFlush
  split
  · exact flushQueue_fits env qs level h
  · exact .ok h

theorem flushIf_fits (env : Env) (c : Bool) (qs : List ℕ) (level : FlushLevel) (h : s.Fits B) :
    Then (flushIf env c qs level s) (Fits B) := by
  unfold flushIf
  split
  · exact flushQueue_fits env qs level h
  · exact .ok h

/-! ### The gates -/

theorem mcx_fits (env : Env) (cs : List ℕ) (q : ℕ) (h : s.Fits B) : Then (mcx env cs q s) (Fits B) := by
  unfold mcx
  cases cs with
  | nil => exact fun a ha => h.rotated (x_rotated q s a ha)
  | cons c0 cs =>
    refine (flushIf_fits env _ _ _ h).bind fun a ha => ?_
    have : Then (mcxFlushCtls env c0 cs q a) (Fits B) := by
      unfold mcxFlushCtls
      split
      · exact maybeFlush_fits env _ _ ha
      · exact flushIf_fits env _ _ _ ha
    refine this.bind fun b hb => ?_
    split
    · split <;> exact enqueueOp_fits _ _ _ hb
    · exact enqueueOp_fits _ _ _ hb

theorem mcy_fits (env : Env) (cs : List ℕ) (q : ℕ) (h : s.Fits B) : Then (mcy env cs q s) (Fits B) := by
  unfold mcy
  cases cs with
  | nil => exact fun a ha => h.rotated (y_rotated q s a ha)
  | cons c0 cs =>
    exact (maybeFlush_fits env _ _ h).bind fun a ha => (flushIf_fits env _ _ _ ha).bind fun b hb =>
      (enqueueIf_fits _ _ _ _ hb).bind fun c hc => enqueueOp_fits _ _ _ hc

theorem mcz_fits (env : Env) (cs : List ℕ) (q : ℕ) (h : s.Fits B) : Then (mcz env cs q s) (Fits B) := by
  unfold mcz
  cases cs with
  | nil => exact fun a ha => h.rotated (z_rotated q s a ha)
  | cons c0 cs =>
    dsimp only
    split
    · split <;> exact enqueueOp_fits _ _ _ h
    · exact (flushQueue_fits env _ _ h).bind fun a ha => (flushQueue_fits env _ _ ha).bind fun b hb =>
        enqueueOp_fits _ _ _ hb

theorem diagGate_fits (env : Env) (op : OpCode) (q : ℕ) (h : s.Fits B) : Then (diagGate env op q s) (Fits B) :=
  (maybeFlush_fits env _ _ h).bind fun _ ha => enqueueOp_fits _ _ _ ha

theorem mcDiagGate_fits (env : Env) (op : OpCode) (cs : List ℕ) (q : ℕ) (h : s.Fits B) :
    Then (mcDiagGate env op cs q s) (Fits B) :=
  (maybeFlush_fits env _ _ h).bind fun _ ha => (maybeFlush_fits env _ _ ha).bind fun _ hb => enqueueOp_fits _ _ _ hb

theorem mcphase_fits (env : Env) (cs : List ℕ) (φ : ℂ) (q : ℕ) (h : s.Fits B) :
    Then (mcphase env cs φ q s) (Fits B) :=
  (flushQueue_fits env _ _ h).bind fun _ ha => (flushQueue_fits env _ _ ha).bind fun _ hb => Then.any.bind fun _ _ =>
    .ok (hb.of_le (by simp) le_rfl)

theorem h_fits (env : Env) (q : ℕ) (h : s.Fits B) : Then (Sim.h env q s) (Fits (2 ^ 1 * B)) := by
  unfold Sim.h
  have h0 : Fits B { s with ryQ := s.ryQ.modify q (fun a => a * (-1)) } :=
    h.of_le le_rfl (by unfold pend; rw [IMap.size_modify])
  refine (flushIf_fits env _ _ _ h0).bind fun a ha => .ok ?_
  refine ha.wait le_rfl ?_
  unfold pend
  dsimp only
  rw [ones_setBit]
  split
  · have := Set.ncard_insert_le q (ones a.hFlag)
    omega
  · have := Set.ncard_le_ncard (s := ones a.hFlag \ {q}) Set.sdiff_subset (ones_finite _)
    omega

theorem mch_fits (env : Env) (cs : List ℕ) (q : ℕ) (h : s.Fits B) : Then (mch env cs q s) (Fits (2 ^ 1 * B)) := by
  unfold mch
  refine (flushQueue_fits env _ _ h).bind fun a ha => (flushIf_fits env _ _ _ ha).bind fun b hb c hc => ?_
  obtain ⟨h1, h2, h3, h4⟩ := applyMch_doubled env cs q b c hc
  exact hb.grow 1 h1 (by unfold pend; rw [h2, h3, h4])

theorem size_addAngle (eps : ℝ) (m : IMap ℝ) (q : ℕ) (θ : ℝ) : (addAngle eps m q θ).size ≤ m.size + 1 := by
  unfold addAngle
  split
  · dsimp only
    split
    · exact le_trans (IMap.size_remove_le _ _) (by rw [IMap.size_modify]; omega)
    · rw [IMap.size_modify]; omega
  · exact IMap.size_insert_le _ _ _

theorem rx_fits (env : Env) (θ : ℝ) (q : ℕ) (h : s.Fits B) : Then (rx env θ q s) (Fits (2 ^ 1 * B)) := by
  unfold rx
  refine (flushIf_fits env _ _ _ h).bind fun a ha => .ok (ha.wait le_rfl ?_)
  have := size_addAngle env.eps a.rxQ q θ
  unfold pend
  dsimp only
  omega

theorem ry_fits (env : Env) (θ : ℝ) (q : ℕ) (h : s.Fits B) : Then (ry env θ q s) (Fits (2 ^ 1 * B)) := by
  refine .ok (h.wait le_rfl ?_)
  have := size_addAngle env.eps s.ryQ q θ
  unfold pend
  dsimp only
  omega

theorem mcrx_fits (env : Env) (cs : List ℕ) (θ : ℝ) (q : ℕ) (h : s.Fits B) :
    Then (mcrx env cs θ q s) (Fits (2 ^ 1 * B)) := by
  unfold mcrx
  refine (flushQueue_fits env _ _ h).bind fun a ha => ?_
  dsimp only
  split
  · exact (flushQueue_fits env _ _ ha).bind fun b hb => mcrotation_fits env _ _ _ _ _ (mcx_fits env _ _ hb) hb
  · exact (flushIf_fits env _ _ _ ha).bind fun b hb => mcrotation_fits env _ _ _ _ _ (mcx_fits env _ _ hb) hb

theorem mcry_fits (env : Env) (cs : List ℕ) (θ : ℝ) (q : ℕ) (h : s.Fits B) :
    Then (mcry env cs θ q s) (Fits (2 ^ 1 * B)) := by
  unfold mcry
  refine (flushQueue_fits env _ _ h).bind fun a ha => ?_
  dsimp only
  split
  · exact (flushQueue_fits env _ _ ha).bind fun b hb => mcrotation_fits env _ _ _ _ _ (mcy_fits env _ _ hb) hb
  · exact (flushIf_fits env _ _ _ ha).bind fun b hb => mcrotation_fits env _ _ _ _ _ (mcy_fits env _ _ hb) hb

/-! ### Exponentials -/

theorem expMasks_diag {ps : List MPauli} (hp : ∀ p ∈ ps, p = .I ∨ p = .Z) : ∀ (ts : List ℕ) (m : ExpMasks),
    Then (expMasks ps ts m) fun k => k.xy = m.xy := by
  induction ps with
  | nil => intro ts m; exact .ok rfl
  | cons p ps ih =>
    have hp' : ∀ p ∈ ps, p = .I ∨ p = .Z := fun p h => hp p (by simp [h])
    intro ts m
    rcases hp p (by simp) with rfl | rfl
    · unfold expMasks; exact ih hp' _ _
    · cases ts with
      | nil => unfold expMasks; exact .err
      | cons t ts => unfold expMasks; exact ih hp' _ _

theorem expDiag_length (eps : ℝ) (cs : List ℕ) (yz : ℕ) (a b : ℂ) (l : List (ℕ × ℂ)) :
    (expDiag eps cs yz a b l).length ≤ l.length := by
  unfold expDiag
  dsimp only
  split
  · exact List.length_filterMap_le _ _
  · split
    · exact List.length_filterMap_le _ _
    · simp

theorem expState_length (env : Env) (cs : List ℕ) (mk : ExpMasks) (θ : ℝ) (l : List (ℕ × ℂ)) :
    (expState env cs mk θ l).length ≤ (if mk.xy = 0 then 1 else 2) * l.length := by
  unfold expState
  dsimp only
  split
  · rw [one_mul]; exact expDiag_length _ _ _ _ _ _
  · exact le_trans (flatMap_length _ _ 2 (expEntry_length _ _ _ _ _ _ _ _)) (Nat.mul_le_mul_left _ (collected _ _))

theorem mcexp_fits (env : Env) (cs : List ℕ) (ps : List MPauli) (θ : ℝ) (ts : List ℕ) (k : ℕ) (hk : k ≤ 1)
    (hp : k = 0 → ∀ p ∈ ps, p = .I ∨ p = .Z) (h : s.Fits B) : Then (mcexp env cs ps θ ts s) (Fits (2 ^ k * B)) := by
  unfold mcexp
  refine (flushQueue_fits env _ _ h).bind fun a ha => (flushQueue_fits env _ _ ha).bind fun b hb =>
    Then.any.bind fun cs' _ => Then.any.bind fun ts' _ => Then.any.bind fun _ _ => ?_
  have hm : Then (expMasks ps ts' { xy := 0, yz := 0, yCount := 0 }) fun mk => k = 0 → mk.xy = 0 := by
    intro mk hmk h0
    exact expMasks_diag (hp h0) ts' _ mk hmk
  refine hm.bind fun mk hmk => .ok (hb.grow k ?_ le_rfl)
  refine le_trans (expState_length _ _ _ _ _) (Nat.mul_le_mul_right _ ?_)
  rcases Nat.le_one_iff_eq_zero_or_eq_one.1 hk with rfl | rfl
  · simp [hmk rfl]
  · split <;> simp

/-! ### Measurements, releases, states -/

theorem checkJoint_fits (locs : List ℕ) (h : s.Fits B) :
    Then (checkJointProbability locs s) fun r => Fits B r.2 := by
  unfold checkJointProbability
  refine (takeOps_same s).bind fun a ha => .ok ?_
  rw [ha]
  exact h.of_le (by simp) le_rfl

theorem jointCollapse_fits (locs : List ℕ) (v : Bool) (r : ℝ) (h : s.Fits B) : Fits B (jointCollapse locs v r s) :=
  h.of_le (List.length_filterMap_le _ _) le_rfl

theorem jointProbability_fits (env : Env) (ids : List ℕ) (h : s.Fits B) :
    Then (jointProbability env ids s) fun r => Fits B r.2 :=
  (maybeFlush_fits env _ _ h).bind fun _ ha => Then.any.bind fun _ _ => Then.any.bind fun _ _ => checkJoint_fits _ ha

theorem qubitIsZero_fits (env : Env) (id : ℕ) (h : s.Fits B) : Then (qubitIsZero env id s) fun r => Fits B r.2 :=
  (jointProbability_fits env _ h).bind fun _ ha => .ok ha

theorem measure_fits (env : Env) (id : ℕ) (h : s.Fits B) : Then (measure env id s) fun r => Fits B r.2 := by
  unfold measure
  refine (maybeFlush_fits env _ _ h).bind fun a ha => Then.any.bind fun loc _ => ?_
  have h' : Fits B a.nextSample.2 := ha.of_le le_rfl le_rfl
  exact (checkJoint_fits [loc] h').bind fun b hb => .ok (jointCollapse_fits _ _ _ hb)

theorem forceCollapse_fits (env : Env) (v : Bool) (id : ℕ) (h : s.Fits B) :
    Then (forceCollapse env v id s) fun r => Fits B r.2 := by
  unfold forceCollapse
  refine (maybeFlush_fits env _ _ h).bind fun a ha => Then.any.bind fun loc _ =>
    (checkJoint_fits [loc] ha).bind fun b hb => .ok ?_
  dsimp only
  split
  · exact jointCollapse_fits _ _ _ hb
  · exact hb

theorem jointMeasure_fits (env : Env) (ids : List ℕ) (h : s.Fits B) :
    Then (jointMeasure env ids s) fun r => Fits B r.2 := by
  unfold jointMeasure
  refine (maybeFlush_fits env _ _ h).bind fun a ha => Then.any.bind fun _ _ => Then.any.bind fun locs _ => ?_
  have h' : Fits B a.nextSample.2 := ha.of_le le_rfl le_rfl
  exact (checkJoint_fits locs h').bind fun b hb => .ok (jointCollapse_fits _ _ _ hb)

theorem release_fits (env : Env) (id : ℕ) (hB : 1 ≤ B) (h : s.Fits B) : Then (release env id s) (Fits B) := by
  unfold release
  have : Then (releaseState env id s) (Fits B) := by
    unfold releaseState
    split
    · refine .ok ?_
      unfold Fits pend
      simp [ones_zero, IMap.size_empty, hB]
    · refine (measure_fits env id h).bind fun a ha => Then.any.bind fun loc _ => ?_
      split
      · exact .ok (ha.of_le (by simp) le_rfl)
      · exact .ok ha
  exact this.bind fun a ha => .ok (ha.of_le le_rfl le_rfl)

theorem present_swapEntries_size (m : IMap ℝ) (a b : ℕ) : (swapEntries m a b).size ≤ m.size := by
  unfold IMap.size
  have hsub : (swapEntries m a b).present ⊆ (Equiv.swap a b) '' m.present := by
    intro q hq
    refine ⟨Equiv.swap a b q, ?_, by simp⟩
    rw [IMap.mem_present] at hq ⊢
    unfold swapEntries at hq
    dsimp only at hq
    by_cases h1 : q = a
    · subst h1
      rw [Equiv.swap_apply_left]
      cases hb : m.get b with
      | some v => rfl
      | none => rw [hb] at hq; simp [IMap.get_remove] at hq
    · by_cases h2 : q = b
      · subst h2
        rw [Equiv.swap_apply_right]
        cases ha : m.get a with
        | some v => rfl
        | none => cases hb : m.get q <;> rw [ha, hb] at hq <;>
            simp [IMap.get_remove, IMap.get_insert, h1] at hq
      · rw [Equiv.swap_apply_of_ne_of_ne h1 h2]
        cases ha : m.get a <;> cases hb : m.get b <;> rw [ha, hb] at hq <;>
            simpa [IMap.get_remove, IMap.get_insert, h1, h2] using hq
  exact le_trans (Set.ncard_le_ncard hsub (m.present_finite.image _))
    (Set.ncard_image_le m.present_finite)

theorem ones_swap (n a b : ℕ) :
    (ones (setBit (setBit n a (n.testBit b)) b (n.testBit a))).ncard ≤ (ones n).ncard := by
  have hsub : ones (setBit (setBit n a (n.testBit b)) b (n.testBit a)) ⊆ (Equiv.swap a b) '' ones n := by
    intro q hq
    refine ⟨Equiv.swap a b q, ?_, by simp⟩
    unfold ones at hq ⊢
    rw [Set.mem_ofPred_eq, testBit_setBit, testBit_setBit] at hq
    rw [Set.mem_ofPred_eq]
    by_cases h1 : q = a
    · subst h1
      rw [Equiv.swap_apply_left]
      by_cases h2 : q = b
      · subst h2; simpa using hq
      · simpa [h2] using hq
    · by_cases h2 : q = b
      · subst h2
        rw [Equiv.swap_apply_right]
        simpa using hq
      · rw [Equiv.swap_apply_of_ne_of_ne h1 h2]
        simpa [h1, h2] using hq
  exact le_trans (Set.ncard_le_ncard hsub ((ones_finite n).image _)) (Set.ncard_image_le (ones_finite n))

theorem swapQubitIds_fits (a b : ℕ) (h : s.Fits B) : Then (swapQubitIds a b s) (Fits B) := by
  unfold swapQubitIds
  refine (flushOps_fits h).bind fun t ht => Then.any.bind fun _ _ => Then.any.bind fun _ _ => .ok (ht.of_le le_rfl ?_)
  have h1 := ones_swap t.hFlag a b
  have h2 := present_swapEntries_size t.rxQ a b
  have h3 := present_swapEntries_size t.ryQ a b
  unfold pend
  dsimp only
  omega

theorem swapQubitState_fits (env : Env) (a b : ℕ) (h : s.Fits B) : Then (swapQubitState env a b s) (Fits B) := by
  unfold swapQubitState
  split
  · exact .ok h
  · exact (flushQueue_fits env _ _ h).bind fun t ht => .ok (ht.of_le (by simp) le_rfl)

theorem relocateOne_fits (env : Env) (i k : ℕ) (h : s.Fits B) : Then (relocateOne env i k s) (Fits B) := by
  unfold relocateOne
  refine Then.any.bind fun loc _ => ?_
  split
  · refine (swapQubitState_fits env _ _ h).bind fun t ht => .ok ?_
    split <;> exact ht.of_le le_rfl le_rfl
  · exact .ok h

theorem relocate_fits (env : Env) (ks : List ℕ) : ∀ (i : ℕ) {s : Sim}, s.Fits B → Then (relocate env i ks s) (Fits B) := by
  induction ks with
  | nil => intro i s h; exact .ok h
  | cons k ks ih => intro i s h; exact (relocateOne_fits env i k h).bind fun a ha => ih _ ha

theorem getState_fits (env : Env) (h : s.Fits B) :
    Then (getState env s) fun r => Fits B r.2 ∧ r.1.1.length ≤ B := by
  unfold getState
  refine (flushQueue_fits env _ _ h).bind fun a ha => (relocate_fits env _ 0 ha).bind fun b hb => .ok ⟨hb, ?_⟩
  unfold sortState
  rw [List.length_mergeSort]
  exact le_trans (Nat.le_mul_of_pos_right _ (by positivity)) hb

theorem dump_fits (env : Env) (fmt : ℂ → String) (h : s.Fits B) : Then (dump env fmt s) fun r => Fits B r.2 := by
  unfold dump
  refine (flushQueue_fits env _ _ h).bind fun a ha => (relocate_fits env _ 0 ha).bind fun b hb => .ok ?_
  exact hb.of_le (by simp [sortState]) le_rfl

/-! ### Matrices -/

theorem addEntry_length (loc : ℕ) (v : ℂ) (l : List (ℕ × ℂ)) : (addEntry loc v l).length ≤ l.length + 1 := by
  unfold addEntry
  split <;> simp

theorem dropZero_length (eps : ℝ) (loc : ℕ) (l : List (ℕ × ℂ)) : (dropZero eps loc l).length ≤ l.length := by
  unfold dropZero
  split
  · split
    · exact List.length_filter_le _ _
    · exact le_rfl
  · exact le_rfl

open Classical in
/-- The rows a column of the matrix writes to. -/
def column (eps : ℝ) (u : Mat) (l : ℕ) : List ℕ :=
  (List.range u.rows).filter (fun j => !decide (NearlyZero eps (u.entry j l)))

theorem scatter_length (eps : ℝ) (u : Mat) (k : ℕ) (hk : ∀ l, (column eps u l).length ≤ k) (acc : List (ℕ × ℂ))
    (e : ℕ × ℂ) : (scatter eps u acc e).length ≤ acc.length + k := by
  have key : ∀ (js : List ℕ) (acc : List (ℕ × ℂ)) (f : ℕ → ℕ) (g : ℕ → ℂ),
      (js.foldl (fun acc j => dropZero eps (f j) (addEntry (f j) (g j) acc)) acc).length ≤ acc.length + js.length := by
    intro js
    induction js with
    | nil => intro acc f g; simp
    | cons j js ih =>
      intro acc f g
      rw [List.foldl_cons, List.length_cons]
      have h1 := ih (dropZero eps (f j) (addEntry (f j) (g j) acc)) f g
      have h2 := dropZero_length eps (f j) (addEntry (f j) (g j) acc)
      have h3 := addEntry_length (f j) (g j) acc
      omega
  exact le_trans (key (column eps u (e.1 % u.rows)) acc _ _) (Nat.add_le_add_left (hk _) _)

theorem scattered_length (eps : ℝ) (u : Mat) (k : ℕ) (hk : ∀ l, (column eps u l).length ≤ k) (st : List (ℕ × ℂ)) :
    (st.foldl (scatter eps u) []).length ≤ k * st.length := by
  have key : ∀ (st acc : List (ℕ × ℂ)), (st.foldl (scatter eps u) acc).length ≤ acc.length + k * st.length := by
    intro st
    induction st with
    | nil => intro acc; simp
    | cons e t ih =>
      intro acc
      rw [List.foldl_cons, List.length_cons, Nat.mul_succ]
      have h1 := ih (scatter eps u acc e)
      have h2 := scatter_length eps u k hk acc e
      omega
  simpa using key st []

theorem column_length (eps : ℝ) (u : Mat) (l : ℕ) : (column eps u l).length ≤ u.rows := by
  unfold column
  exact le_trans (List.length_filter_le _ _) (by simp)

theorem nearlyZero_zero {eps : ℝ} (h : 0 ≤ eps) : NearlyZero eps 0 := by
  unfold NearlyZero NearlyZeroR
  simp [h]

theorem filter_one {l : List ℕ} (hl : l.Nodup) (p : ℕ → Bool) (i : ℕ) (h : ∀ j ∈ l, p j = true → j = i) :
    (l.filter p).length ≤ 1 := by
  have h1 : (l.filter p).Nodup := hl.filter _
  have h2 : l.filter p ⊆ [i] := by
    intro j hj
    rw [List.mem_filter] at hj
    simp [h j hj.1 hj.2]
  simpa using (List.subperm_of_subset h1 h2).length_le

/-- Controls do not spread: outside the block of the matrix there is only the diagonal. -/
theorem column_controlled {eps : ℝ} (he : 0 ≤ eps) (u : Mat) (hr : 0 < u.rows) (hu : u.cols = u.rows) (n l : ℕ) :
    (column eps (controlled u n) l).length ≤ u.rows := by
  unfold column
  have hsize : u.rows ≤ u.rows * 2 ^ n := Nat.le_mul_of_pos_right _ (by positivity)
  by_cases hl : u.rows * 2 ^ n - u.cols ≤ l
  · set d := u.rows * 2 ^ n - u.rows with hd
    rw [show (controlled u n).rows = d + u.rows by unfold controlled; dsimp only; omega, List.range_add,
      List.filter_append, List.length_append]
    have h1 : ((List.range d).filter fun j => !decide (NearlyZero eps ((controlled u n).entry j l))) = [] := by
      rw [List.filter_eq_nil_iff]
      intro j hj
      rw [List.mem_range] at hj
      have : (controlled u n).entry j l = 0 := by
        unfold controlled
        dsimp only
        rw [if_neg (by omega), if_neg (by omega)]
      rw [this]
      simp [nearlyZero_zero he]
    rw [h1]
    simp only [List.length_nil, zero_add]
    exact le_trans (List.length_filter_le _ _) (by simp)
  · refine le_trans (filter_one List.nodup_range _ l fun j _ hj => ?_) hr
    by_contra hne
    have : (controlled u n).entry j l = 0 := by
      unfold controlled
      dsimp only
      rw [if_neg (by omega), if_neg hne]
    rw [this] at hj
    simp [nearlyZero_zero he] at hj

theorem place_fits (env : Env) (ts : List ℕ) : ∀ (i : ℕ) {s : Sim}, s.Fits B → Then (place env i ts s) (Fits B) := by
  induction ts with
  | nil => intro i s h; exact .ok h
  | cons q ts ih =>
    intro i s h
    have : Then (placeOne env i q s) (Fits B) := by
      unfold placeOne
      refine Then.any.bind fun loc _ => ?_
      dsimp only
      split
      · exact (Then.any).bind fun _ _ => (swapQubitState_fits env _ _ h).bind fun t ht => .ok (ht.of_le le_rfl le_rfl)
      · exact (Then.any).bind fun _ _ => (swapQubitState_fits env _ _ h).bind fun t ht => .ok (ht.of_le le_rfl le_rfl)
    exact this.bind fun a ha => ih _ ha

theorem apply_fits (env : Env) (he : 0 ≤ env.eps) (U : ℕ → ℕ → ℂ) (ts cs : List ℕ) (h : s.Fits B) :
    Then (apply env ⟨2 ^ ts.length, 2 ^ ts.length, U⟩ ts (some cs) s) (Fits (2 ^ ts.length * B)) := by
  unfold apply
  simp only [ne_eq, not_true_eq_false, if_false]
  refine Then.any.bind fun _ _ => (flushQueue_fits env _ _ h).bind fun a ha => (place_fits env _ 0 ha).bind fun b hb => ?_
  split
  · exact .err
  · refine .ok (hb.grow _ ?_ le_rfl)
    dsimp only
    rw [(env.shuffle_perm _).length_eq]
    exact scattered_length _ _ _ (column_controlled he _ (by positivity) rfl _) _

end Sim
end Qir
