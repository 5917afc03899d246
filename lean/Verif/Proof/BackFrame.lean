import Verif.Model.Backend
import Verif.Props.BackDefs
import Verif.Proof.Base

/-! What the calls of the backend do not look at and do not change, in any state: the result registers and the
unseeded words. -/

noncomputable section
namespace Qir.Back
open Spec Sim Qir.Out

variable {env : Env} {fmt : Fmt} {s s' : Backend}

/-- Other registers and words. -/
def put (l : List Bool) (o : ℕ → ℕ) (s : Backend) : Backend := { s with res := l, os := o }

@[simp] theorem put_sim (l : List Bool) (o : ℕ → ℕ) (s : Backend) : (put l o s).sim = s.sim := rfl
@[simp] theorem put_max (l : List Bool) (o : ℕ → ℕ) (s : Backend) : (put l o s).max = s.max := rfl
@[simp] theorem put_res (l : List Bool) (o : ℕ → ℕ) (s : Backend) : (put l o s).res = l := rfl
@[simp] theorem put_os (l : List Bool) (o : ℕ → ℕ) (s : Backend) : (put l o s).os = o := rfl
theorem put_put (l l' : List Bool) (o o' : ℕ → ℕ) (s : Backend) : put l o (put l' o' s) = put l o s := rfl
theorem put_self (s : Backend) : put s.res s.os s = s := rfl

/-- A function that does not look at the registers or words and does not change them. -/
def Blind (f : Backend → Except Stop Backend) : Prop :=
  ∀ l o s, f (put l o s) = (f s).map (put l o)

/-- The same with a result. -/
def BlindA {α : Type} (f : Backend → Except Stop (α × Backend)) : Prop :=
  ∀ l o s, f (put l o s) = (f s).map (fun r => (r.1, put l o r.2))

theorem Blind.res {f : Backend → Except Stop Backend} (h : Blind f) (e : f s = .ok s') :
    s'.res = s.res ∧ s'.os = s.os := by
  have := h s.res s.os s
  rw [put_self, e] at this
  simp only [Except.map, Except.ok.injEq] at this
  rw [this]; exact ⟨rfl, rfl⟩

theorem BlindA.res {α : Type} {f : Backend → Except Stop (α × Backend)} (h : BlindA f) {a : α}
    (e : f s = .ok (a, s')) : s'.res = s.res ∧ s'.os = s.os := by
  have := h s.res s.os s
  rw [put_self, e] at this
  simp only [Except.map, Except.ok.injEq, Prod.mk.injEq, true_and] at this
  rw [this]; exact ⟨rfl, rfl⟩

theorem ensure_put (q : ℕ) (l : List Bool) (o : ℕ → ℕ) (s : Backend) :
    ensure q (put l o s) = put l o (ensure q s) := by
  generalize hn : q + 1 - s.max = n
  induction n generalizing s with
  | zero =>
    rw [ensure, if_neg (by simp; omega)]
    conv_rhs => rw [ensure, if_neg (by omega)]
  | succ n ih =>
    rw [ensure, if_pos (by simp; omega)]
    conv_rhs => rw [ensure, if_pos (by omega)]
    have := ih { s with sim := s.sim.allocate.2, max := s.max + 1 } (by simp; omega)
    exact this

theorem ensureAll_put (qs : List ℕ) (l : List Bool) (o : ℕ → ℕ) (s : Backend) :
    ensureAll qs (put l o s) = put l o (ensureAll qs s) := by
  unfold ensureAll
  induction qs generalizing s with
  | nil => rfl
  | cons q qs ih => simp only [List.foldl_cons, ensure_put, ih]

theorem blind_act (f : Sim → Except Panic Sim) : Blind (act f) := by
  intro l o s
  simp only [act, put_sim]
  cases f s.sim <;> rfl

theorem blind_ask {α : Type} (f : Sim → Except Panic (α × Sim)) : BlindA (ask f) := by
  intro l o s
  simp only [ask, put_sim]
  cases f s.sim <;> rfl

theorem blind_ok : Blind (fun s => .ok s) := fun _ _ _ => rfl

theorem Blind.ensure {f : Backend → Except Stop Backend} (h : Blind f) (q : ℕ) : Blind (fun s => f (ensure q s)) :=
  fun l o s => by simp only [ensure_put, h l o]

theorem Blind.ensureAll {f : Backend → Except Stop Backend} (h : Blind f) (qs : List ℕ) :
    Blind (fun s => f (ensureAll qs s)) :=
  fun l o s => by simp only [ensureAll_put, h l o]

theorem BlindA.ensure {α : Type} {f : Backend → Except Stop (α × Backend)} (h : BlindA f) (q : ℕ) :
    BlindA (fun s => f (ensure q s)) :=
  fun l o s => by simp only [ensure_put, h l o]

theorem Blind.bind {f g : Backend → Except Stop Backend} (hf : Blind f) (hg : Blind g) :
    Blind (fun s => f s >>= g) := fun l o s => by
  simp only [hf l o s]
  cases f s with
  | error e => rfl
  | ok s1 => exact hg l o s1

theorem BlindA.bind {α : Type} {f : Backend → Except Stop (α × Backend)} {g : α → Backend → Except Stop Backend}
    (hf : BlindA f) (hg : ∀ a, Blind (g a)) : Blind (fun s => f s >>= fun r => g r.1 r.2) := fun l o s => by
  simp only [hf l o s]
  cases f s with
  | error e => rfl
  | ok s1 => exact hg s1.1 l o s1.2

theorem BlindA.bindA {α β : Type} {f : Backend → Except Stop (α × Backend)}
    {g : α → Backend → Except Stop (β × Backend)} (hf : BlindA f) (hg : ∀ a, BlindA (g a)) :
    BlindA (fun s => f s >>= fun r => g r.1 r.2) := fun l o s => by
  simp only [hf l o s]
  cases f s with
  | error e => rfl
  | ok s1 => exact hg s1.1 l o s1.2

theorem Blind.bindA {β : Type} {f : Backend → Except Stop Backend}
    {g : Backend → Except Stop (β × Backend)} (hf : Blind f) (hg : BlindA g) :
    BlindA (fun s => f s >>= g) := fun l o s => by
  simp only [hf l o s]
  cases f s with
  | error e => rfl
  | ok s1 => exact hg l o s1

theorem blind_pure {α : Type} (a : α) : BlindA (fun s => .ok (a, s)) := fun _ _ _ => rfl

theorem Blind.forEach {α : Type} {f : α → Backend → Except Stop Backend} (h : ∀ a, Blind (f a)) (l : List α) :
    Blind (forEach f l) := by
  induction l with
  | nil => exact blind_ok
  | cons a l ih => exact (h a).bind ih

theorem blind_gate (g : Gate) (q : ℕ) : Blind (gate env g q) := (blind_act _).ensure q
theorem blind_ctl (g : Gate) (cs : List ℕ) (q : ℕ) : Blind (ctl env g cs q) := ((blind_act _).ensureAll cs).ensure q
theorem blind_sx (q : ℕ) : Blind (sx env q) := (blind_gate _ q).bind ((blind_gate _ q).bind (blind_gate _ q))
theorem blind_rzz (θ : ℝ) (a b : ℕ) : Blind (rzz env θ a b) :=
  (blind_ctl _ _ _).bind ((blind_gate _ _).bind (blind_ctl _ _ _))
theorem blind_rxx (θ : ℝ) (a b : ℕ) : Blind (rxx env θ a b) :=
  (blind_gate _ _).bind ((blind_gate _ _).bind ((blind_rzz _ _ _).bind ((blind_gate _ _).bind (blind_gate _ _))))
theorem blind_ryy (θ : ℝ) (a b : ℕ) : Blind (ryy env θ a b) :=
  (blind_gate _ _).bind ((blind_gate _ _).bind ((blind_gate _ _).bind ((blind_gate _ _).bind ((blind_gate _ _).bind
    ((blind_gate _ _).bind ((blind_rzz _ _ _).bind ((blind_gate _ _).bind ((blind_gate _ _).bind
      ((blind_gate _ _).bind ((blind_gate _ _).bind ((blind_gate _ _).bind (blind_gate _ _))))))))))))
theorem blind_r (p : Pauli) (θ : ℝ) (q : ℕ) : Blind (r env p θ q) := by
  cases p <;> first | exact blind_ok | exact blind_gate _ _
theorem blind_rCtl (cs : List ℕ) (p : Pauli) (θ : ℝ) (q : ℕ) : Blind (rCtl env cs p θ q) := by
  cases p
  · cases cs with
    | nil => exact blind_ok
    | cons c cs => exact ((blind_act _).ensureAll (c :: cs)).ensure q
  all_goals exact blind_ctl _ _ _
theorem blind_expCtl (cs : List ℕ) (ps : List Pauli) (θ : ℝ) (qs : List ℕ) : Blind (expCtl env cs ps θ qs) :=
  ((blind_act _).ensureAll qs).ensureAll cs
theorem blind_exp (ps : List Pauli) (θ : ℝ) (qs : List ℕ) : Blind (exp env ps θ qs) := (blind_act _).ensureAll qs
theorem blind_swap (a b : ℕ) : Blind (swap a b) := ((blind_act _).ensure b).ensure a
theorem blind_clear (b : Bool) (q : ℕ) :
    Blind (fun s => if b then act (x q) s else (pure s : Except Stop Backend)) := by
  cases b
  · exact blind_ok
  · exact blind_act _
theorem blind_reset (q : ℕ) : Blind (reset env q) := ((blind_ask _).bind (fun b => blind_clear b q)).ensure q
theorem blind_m (q : ℕ) : BlindA (m env q) := ((blind_ask _).bindA fun b => blind_pure (resultPtr b)).ensure q
theorem blind_mapOne (p : Pauli × ℕ) : Blind (mapOne env p) := by
  obtain ⟨p, q⟩ := p
  cases p
  · exact blind_ok
  · exact blind_act _
  · exact blind_ok
  · exact (blind_act _).bind ((blind_act _).bind (blind_act _))
theorem blind_unmapOne (p : Pauli × ℕ) : Blind (unmapOne env p) := by
  obtain ⟨p, q⟩ := p
  cases p
  · exact blind_ok
  · exact blind_act _
  · exact blind_ok
  · exact (blind_act _).bind ((blind_act _).bind (blind_act _))
theorem blind_mapToZ (ps : List Pauli) (qs : List ℕ) : BlindA (mapToZ env ps qs) := by
  unfold mapToZ
  split
  · exact fun _ _ _ => rfl
  · exact ((Blind.forEach blind_mapOne _).ensureAll _).bindA (blind_pure _)
theorem blind_unmapFromZ (l : List (Pauli × ℕ)) : Blind (unmapFromZ env l) := Blind.forEach blind_unmapOne l
theorem blind_measure (ps : List Pauli) (qs : List ℕ) : BlindA (measure env ps qs) :=
  (blind_mapToZ ps qs).bindA fun l => (blind_ask (jointMeasure env (l.map Prod.snd))).bindA fun b =>
    (blind_unmapFromZ l).bindA (blind_pure (resultPtr b))
theorem blind_isZero (q : ℕ) : BlindA (qubitIsZero env q) := (blind_ask _).ensure q
theorem blind_assertProb (ps : List Pauli) (qs : List ℕ) (n : ℕ) (p : ℝ) (msg : List Char) (t : ℝ) :
    Blind (assertProb env ps qs n p msg t) := by
  unfold assertProb
  refine (blind_mapToZ ps qs).bind (g := fun combined s => do
    let (p', s) ← ask (jointProbability env (combined.map Prod.snd)) s
    let actual := if resultEqual n (resultPtr false) then 1 - p' else p'
    if |actual - p| > t then .error (.fail msg) else unmapFromZ env combined s) fun l => ?_
  refine (blind_ask _).bind (g := fun p' s =>
    let actual := if resultEqual n (resultPtr false) then 1 - p' else p'
    if |actual - p| > t then .error (.fail msg) else unmapFromZ env l s) fun p' => ?_
  simp only
  split
  · split
    · exact fun _ _ _ => rfl
    · exact blind_unmapFromZ l
  · split
    · exact fun _ _ _ => rfl
    · exact blind_unmapFromZ l
theorem blind_release (q : ℕ) : Blind (qubitRelease env q) := blind_act _

/-- What `mz` does, in terms of `m`. -/
theorem mz_m (q r : ℕ) (s : Backend) : mz env q r s = (m env q s).map (fun p =>
    { p.2 with res := (grow r s.res).set r (decide (p.1 = 1)) }) := by
  have hb := blind_ask (Sim.measure env q) (grow r (ensure q s).res) (ensure q s).os (ensure q s)
  have e : put (grow r (ensure q s).res) (ensure q s).os (ensure q s) =
      { ensure q s with res := grow r (ensure q s).res } := rfl
  rw [e] at hb
  have h1 : (ensure q s).res = s.res := by
    have := ensure_put q s.res s.os s
    rw [put_self] at this
    rw [this]; rfl
  simp only [mz, m, hb]
  cases hk : ask (Sim.measure env q) (ensure q s) with
  | error e => rfl
  | ok p =>
    obtain ⟨b, s1⟩ := p
    simp only [Except.map, ok_bind, pure_ok, put, h1]
    have h2 := (blind_ask (Sim.measure env q)).res hk
    congr 2
    · cases b <;> rfl
    · exact h2.2.symm

theorem mresetz_reset (q r : ℕ) (s : Backend) : mresetz env q r s = (do
    let p ← m env q s
    let s' ← reset env q s
    return { s' with res := (grow r s.res).set r (decide (p.1 = 1)) }) := by
  have hb := blind_ask (Sim.measure env q) (grow r (ensure q s).res) (ensure q s).os (ensure q s)
  have e : put (grow r (ensure q s).res) (ensure q s).os (ensure q s) =
      { ensure q s with res := grow r (ensure q s).res } := rfl
  rw [e] at hb
  have h1 : (ensure q s).res = s.res := by
    have := ensure_put q s.res s.os s
    rw [put_self] at this
    rw [this]; rfl
  simp only [mresetz, m, reset, hb]
  cases hk : ask (Sim.measure env q) (ensure q s) with
  | error e => rfl
  | ok p =>
    obtain ⟨b, s1⟩ := p
    have h2 := (blind_ask (Sim.measure env q)).res hk
    simp only [Except.map, ok_bind, pure_ok, h1]
    cases b
    · simp only [Bool.false_eq_true, if_false, resultPtr, ok_bind, put, Except.ok.injEq, Backend.mk.injEq, true_and]
      exact ⟨rfl, h2.2.symm⟩
    · simp only [if_true, resultPtr]
      rw [blind_act (x q)]
      cases hx : act (x q) s1 with
      | error e => rfl
      | ok s2 =>
        have h3 := (blind_act (x q)).res hx
        simp only [Except.map, ok_bind, put, Except.ok.injEq, Backend.mk.injEq, true_and]
        exact ⟨rfl, by rw [h3.2, h2.2]⟩

/-! ### The registers -/

theorem grow_length (r : ℕ) (l : List Bool) : r < (grow r l).length := by
  unfold grow; split
  · simp; omega
  · omega

theorem grow_getD (r : ℕ) (l : List Bool) (i : ℕ) : (grow r l).getD i false = l.getD i false := by
  unfold grow; split
  · by_cases hi : i < l.length
    · simp [List.getD, List.getElem?_append_left hi]
    · rw [List.getD, List.getElem?_append_right (by omega), List.getD,
        List.getElem?_eq_none (l := l) (by omega), List.getElem?_replicate]
      split <;> rfl
  · rfl

theorem set_getD {l : List Bool} {r : ℕ} (hr : r < l.length) (v : Bool) (i : ℕ) :
    (l.set r v).getD i false = if i = r then v else l.getD i false := by
  simp only [List.getD]
  rw [List.getElem?_set]
  by_cases h : r = i
  · subst h; simp [hr]
  · simp [h, Ne.symm h]

theorem grow_get? (r : ℕ) (l : List Bool) : (grow r l)[r]? = some (l.getD r false) := by
  rw [← grow_getD r l r, List.getD, List.getElem?_eq_getElem (grow_length r l)]; rfl

theorem silent_inv {r : Except Stop Backend} {a : QAns} {out : Bytes} (h : silent r = .ok (a, out, s')) :
    r = .ok s' ∧ a = .unit ∧ out = [] := by
  cases r with
  | error e => simp [silent] at h
  | ok s => simp [silent] at h; obtain ⟨rfl, rfl, rfl⟩ := h; exact ⟨rfl, rfl, rfl⟩

theorem silent_res {f : Backend → Except Stop Backend} (hf : Blind f) {a : QAns} {out : Bytes}
    (h : silent (f s) = .ok (a, out, s')) : s'.res = s.res := (hf.res (silent_inv h).1).1

/-- Every call leaves the registers it does not store to as they are. -/
theorem qstep_reg {c : QCall} {a : QAns} {out : Bytes} (h : qstep env fmt c s = .ok (a, out, s')) (hc : c ≠ .reinit)
    (i : ℕ) : (c.stores ≠ some i) → s'.reg i = s.reg i := by
  have same : s'.res = s.res → s'.reg i = s.reg i := fun e => by unfold Backend.reg; rw [e]
  intro hi
  cases c <;> simp only [qstep] at h
  case gate g q => exact same (silent_res (blind_gate g q) h)
  case ctl g cs q => exact same (silent_res (blind_ctl g cs q) h)
  case sx q => exact same (silent_res (blind_sx q) h)
  case rxx θ a b => exact same (silent_res (blind_rxx θ a b) h)
  case ryy θ a b => exact same (silent_res (blind_ryy θ a b) h)
  case rzz θ a b => exact same (silent_res (blind_rzz θ a b) h)
  case r p θ q => exact same (silent_res (blind_r p θ q) h)
  case rAdj p θ q => exact same (silent_res (blind_r p (-θ) q) h)
  case rCtl cs p θ q => exact same (silent_res (blind_rCtl cs p θ q) h)
  case rCtlAdj cs p θ q => exact same (silent_res (blind_rCtl cs p (-θ) q) h)
  case exp ps θ qs => exact same (silent_res (blind_exp ps θ qs) h)
  case expAdj ps θ qs => exact same (silent_res (blind_exp ps (-θ) qs) h)
  case expCtl cs ps θ qs => exact same (silent_res (blind_expCtl cs ps θ qs) h)
  case expCtlAdj cs ps θ qs => exact same (silent_res (blind_expCtl cs ps (-θ) qs) h)
  case swap a b => exact same (silent_res (blind_swap a b) h)
  case reset q => exact same (silent_res (blind_reset q) h)
  case mresetz q r =>
    have hr : i ≠ r := fun e => hi (by rw [e]; rfl)
    have h := (silent_inv h).1
    rw [mresetz_reset] at h
    cases hm : m env q s with
    | error e => rw [hm] at h; cases h
    | ok p =>
      rw [hm] at h
      cases hx : reset env q s with
      | error e => simp only [ok_bind, hx, error_bind] at h; cases h
      | ok s1 =>
        simp only [ok_bind, hx, pure_ok, Except.ok.injEq] at h
        subst h
        simp only [Backend.reg, set_getD (grow_length r _), grow_getD, if_neg hr]
  case mz q r =>
    have hr : i ≠ r := fun e => hi (by rw [e]; rfl)
    have h := (silent_inv h).1
    rw [mz_m] at h
    cases hm : m env q s with
    | error e => rw [hm] at h; cases h
    | ok p =>
      rw [hm] at h
      simp only [Except.map, Except.ok.injEq] at h
      subst h
      simp only [Backend.reg, set_getD (grow_length r _), grow_getD, if_neg hr]
  case readResult r =>
    simp only [readResult, grow_get?, ok_bind, pure_ok, Except.ok.injEq, Prod.mk.injEq] at h
    obtain ⟨_, _, rfl⟩ := h
    exact grow_getD r s.res i
  case writeResult v r =>
    have hr : i ≠ r := fun e => hi (by rw [e]; rfl)
    simp only [Except.ok.injEq, Prod.mk.injEq] at h
    obtain ⟨_, _, rfl⟩ := h
    simp only [writeResult, Backend.reg, set_getD (grow_length r _), grow_getD, if_neg hr]
  case m q =>
    cases hm : m env q s with
    | error e => rw [hm] at h; cases h
    | ok p =>
      rw [hm] at h
      simp only [ok_bind, pure_ok, Except.ok.injEq, Prod.mk.injEq] at h
      obtain ⟨_, _, rfl⟩ := h
      exact same ((blind_m q).res hm).1
  case measure ps qs =>
    cases hm : measure env ps qs s with
    | error e => rw [hm] at h; cases h
    | ok p =>
      rw [hm] at h
      simp only [ok_bind, pure_ok, Except.ok.injEq, Prod.mk.injEq] at h
      obtain ⟨_, _, rfl⟩ := h
      exact same ((blind_measure ps qs).res hm).1
  case isZero q =>
    cases hm : qubitIsZero env q s with
    | error e => rw [hm] at h; cases h
    | ok p =>
      rw [hm] at h
      simp only [ok_bind, pure_ok, Except.ok.injEq, Prod.mk.injEq] at h
      obtain ⟨_, _, rfl⟩ := h
      exact same ((blind_isZero q).res hm).1
  case assertProb ps qs n p msg t => exact same (silent_res (blind_assertProb ps qs n p msg t) h)
  case allocate =>
    simp only [Except.ok.injEq, Prod.mk.injEq] at h
    obtain ⟨_, _, rfl⟩ := h
    rfl
  case release q => exact same (silent_res (blind_release q) h)
  case recordResult r tag =>
    simp only [recordedResult, grow_get?] at h
    split at h
    · simp only [ok_bind, pure_ok, Except.ok.injEq, Prod.mk.injEq] at h
      obtain ⟨_, _, rfl⟩ := h
      rfl
    · simp only [ok_bind, pure_ok, Except.ok.injEq, Prod.mk.injEq] at h
      obtain ⟨_, _, rfl⟩ := h
      exact grow_getD r s.res i
  case legacyResult r =>
    simp only [recordedResult, grow_get?] at h
    split at h
    · simp only [ok_bind, pure_ok, Except.ok.injEq, Prod.mk.injEq] at h
      obtain ⟨_, _, rfl⟩ := h
      rfl
    · simp only [ok_bind, pure_ok, Except.ok.injEq, Prod.mk.injEq] at h
      obtain ⟨_, _, rfl⟩ := h
      exact grow_getD r s.res i
  case dump l =>
    cases l
    · simp only [dumpMachine, Bool.false_eq_true, if_false] at h
      cases hm : ask (dump env fmt.amplitude) s with
      | error e => rw [hm] at h; cases h
      | ok p =>
        rw [hm] at h
        simp only [ok_bind, pure_ok, Except.ok.injEq, Prod.mk.injEq] at h
        obtain ⟨_, _, rfl⟩ := h
        exact same ((blind_ask _).res hm).1
    · simp [dumpMachine] at h
  case reinit => exact absurd rfl hc
  case fail msg => cases h
  case drawInt lo hi =>
    split at h <;> cases h
    rfl
  case drawDouble lo hi =>
    split at h <;> cases h
    rfl
  all_goals
    simp only [Except.ok.injEq, Prod.mk.injEq] at h
    obtain ⟨_, _, rfl⟩ := h
    rfl

end Qir.Back
