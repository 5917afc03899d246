import Verif.Model.RoundedBackend
import Verif.Proof.Seeds

/-!
# Only the draws look at the unseeded words, with rounded arithmetic too
-/

noncomputable section
namespace Qir.RBack
open Spec Sim Qir.Out
open Qir.Back (Backend Fmt Stop act ask ensure ensureAll lift silent forEach grow resultPtr nonIdentity setOs blind_act
  blind_ask ensure_put ensureAll_put NoDraw)

variable {A : Arith} {fmt : Fmt}

/-- A function that does not look at the words. -/
def Deaf (f : Backend → Except Stop Backend) : Prop := ∀ o s, f (setOs o s) = (f s).map (setOs o)

/-- The same with a result. -/
def DeafA {α : Type} (f : Backend → Except Stop (α × Backend)) : Prop :=
  ∀ o s, f (setOs o s) = (f s).map fun r => (r.1, setOs o r.2)

theorem deaf_act (f : Sim → Except Panic Sim) : Deaf (act f) := (blind_act f).os
theorem deaf_ask {α : Type} (f : Sim → Except Panic (α × Sim)) : DeafA (ask f) := (blind_ask f).os
theorem deaf_ok : Deaf fun s => .ok s := fun _ _ => rfl
theorem deaf_pure {α : Type} (a : α) : DeafA fun s => .ok (a, s) := fun _ _ => rfl

/-- A change of the state that does not look at the words. -/
def Still (g : Backend → Backend) : Prop := ∀ o s, g (setOs o s) = setOs o (g s)

theorem still_ensure (q : ℕ) : Still (ensure q) := fun o s => by
  have h1 := ensure_put q s.res o s
  have h2 := ensure_put q s.res s.os s
  rw [Back.put_self] at h2
  rw [show setOs o s = Back.put s.res o s from rfl, h1, h2]
  rfl

theorem still_ensureAll (qs : List ℕ) : Still (ensureAll qs) := fun o s => by
  have h1 := ensureAll_put qs s.res o s
  have h2 := ensureAll_put qs s.res s.os s
  rw [Back.put_self] at h2
  rw [show setOs o s = Back.put s.res o s from rfl, h1, h2]
  rfl

theorem Deaf.after {f : Backend → Except Stop Backend} (h : Deaf f) {g : Backend → Backend} (hg : Still g) :
    Deaf fun s => f (g s) := fun o s => by simp only [hg o s, h o]

theorem DeafA.after {α : Type} {f : Backend → Except Stop (α × Backend)} (h : DeafA f) {g : Backend → Backend} (hg : Still g) :
    DeafA fun s => f (g s) := fun o s => by simp only [hg o s, h o]

theorem Deaf.bind {f g : Backend → Except Stop Backend} (hf : Deaf f) (hg : Deaf g) : Deaf fun s => f s >>= g := fun o s => by
  simp only [hf o s]
  cases f s with
  | error e => rfl
  | ok s1 => exact hg o s1

theorem DeafA.bind {α : Type} {f : Backend → Except Stop (α × Backend)} {g : α → Backend → Except Stop Backend}
    (hf : DeafA f) (hg : ∀ a, Deaf (g a)) : Deaf fun s => f s >>= fun r => g r.1 r.2 := fun o s => by
  simp only [hf o s]
  cases f s with
  | error e => rfl
  | ok s1 => exact hg s1.1 o s1.2

theorem DeafA.bindA {α β : Type} {f : Backend → Except Stop (α × Backend)}
    {g : α → Backend → Except Stop (β × Backend)} (hf : DeafA f) (hg : ∀ a, DeafA (g a)) :
    DeafA fun s => f s >>= fun r => g r.1 r.2 := fun o s => by
  simp only [hf o s]
  cases f s with
  | error e => rfl
  | ok s1 => exact hg s1.1 o s1.2

theorem Deaf.bindA {β : Type} {f : Backend → Except Stop Backend} {g : Backend → Except Stop (β × Backend)} (hf : Deaf f)
    (hg : DeafA g) : DeafA fun s => f s >>= g := fun o s => by
  simp only [hf o s]
  cases f s with
  | error e => rfl
  | ok s1 => exact hg o s1

theorem Deaf.forEach {α : Type} {f : α → Backend → Except Stop Backend} (h : ∀ a, Deaf (f a)) (l : List α) :
    Deaf (forEach f l) := by
  induction l with
  | nil => exact deaf_ok
  | cons a l ih => exact (h a).bind ih

theorem deaf_gate (g : Gate) (q : ℕ) : Deaf (gate A g q) := (deaf_act _).after (still_ensure q)
theorem deaf_ctl (g : Gate) (cs : List ℕ) (q : ℕ) : Deaf (ctl A g cs q) :=
  ((deaf_act _).after (still_ensureAll cs)).after (still_ensure q)
theorem deaf_sx (q : ℕ) : Deaf (sx A q) := (deaf_gate _ q).bind ((deaf_gate _ q).bind (deaf_gate _ q))
theorem deaf_rzz (θ : ℝ) (a b : ℕ) : Deaf (rzz A θ a b) := (deaf_ctl _ _ _).bind ((deaf_gate _ _).bind (deaf_ctl _ _ _))
theorem deaf_rxx (θ : ℝ) (a b : ℕ) : Deaf (rxx A θ a b) :=
  (deaf_gate _ _).bind ((deaf_gate _ _).bind ((deaf_rzz _ _ _).bind ((deaf_gate _ _).bind (deaf_gate _ _))))
theorem deaf_ryy (θ : ℝ) (a b : ℕ) : Deaf (ryy A θ a b) :=
  (deaf_gate _ _).bind ((deaf_gate _ _).bind ((deaf_gate _ _).bind ((deaf_gate _ _).bind ((deaf_gate _ _).bind
    ((deaf_gate _ _).bind ((deaf_rzz _ _ _).bind ((deaf_gate _ _).bind ((deaf_gate _ _).bind
      ((deaf_gate _ _).bind ((deaf_gate _ _).bind ((deaf_gate _ _).bind (deaf_gate _ _))))))))))))
theorem deaf_r (p : Pauli) (θ : ℝ) (q : ℕ) : Deaf (r A p θ q) := by
  cases p <;> first | exact deaf_ok | exact deaf_gate _ _
theorem deaf_rCtl (cs : List ℕ) (p : Pauli) (θ : ℝ) (q : ℕ) : Deaf (rCtl A cs p θ q) := by
  cases p
  · cases cs with
    | nil => exact deaf_ok
    | cons c cs => exact ((deaf_act _).after (still_ensureAll (c :: cs))).after (still_ensure q)
  all_goals exact deaf_ctl _ _ _
theorem deaf_expCtl (cs : List ℕ) (ps : List Pauli) (θ : ℝ) (qs : List ℕ) : Deaf (expCtl A cs ps θ qs) :=
  ((deaf_act _).after (still_ensureAll qs)).after (still_ensureAll cs)
theorem deaf_exp (ps : List Pauli) (θ : ℝ) (qs : List ℕ) : Deaf (exp A ps θ qs) := (deaf_act _).after (still_ensureAll qs)
theorem deaf_swap (a b : ℕ) : Deaf (swap A a b) := ((deaf_act _).after (still_ensure b)).after (still_ensure a)
theorem deaf_clear (b : Bool) (q : ℕ) : Deaf fun s => if b then act (Rnd.x A q) s else (pure s : Except Stop Backend) := by
  cases b
  · exact deaf_ok
  · exact deaf_act _
theorem deaf_reset (q : ℕ) : Deaf (reset A q) := ((deaf_ask _).bind fun b => deaf_clear b q).after (still_ensure q)
theorem deaf_m (q : ℕ) : DeafA (m A q) := ((deaf_ask _).bindA fun b => deaf_pure (resultPtr b)).after (still_ensure q)

theorem still_grow (n : ℕ) : Still fun s => { s with res := grow n s.res } := fun _ _ => rfl
theorem deaf_set (n : ℕ) (b : Bool) : Deaf fun s => .ok { s with res := s.res.set n b } := fun _ _ => rfl
theorem deaf_mz (q n : ℕ) : Deaf (mz A q n) :=
  (((deaf_ask _).bind fun b => deaf_set n b).after (still_grow n)).after (still_ensure q)
theorem deaf_mresetz (q n : ℕ) : Deaf (mresetz A q n) := by
  have h : Deaf fun s => ask (Rnd.measure A q) { ensure q s with res := grow n (ensure q s).res } >>= fun r =>
      (if r.1 then act (Rnd.x A q) r.2 else (pure r.2 : Except Stop Backend)) >>= fun s =>
        .ok { s with res := s.res.set n r.1 } :=
    (((deaf_ask _).bind fun b => (deaf_clear b q).bind (deaf_set n b)).after (still_grow n)).after (still_ensure q)
  have e : mresetz A q n = fun s => ask (Rnd.measure A q) { ensure q s with res := grow n (ensure q s).res } >>= fun r =>
      (if r.1 then act (Rnd.x A q) r.2 else (pure r.2 : Except Stop Backend)) >>= fun s =>
        .ok { s with res := s.res.set n r.1 } := by
    funext s
    unfold mresetz
    dsimp only
    cases ask (Rnd.measure A q) { ensure q s with res := grow n (ensure q s).res } with
    | error e => rfl
    | ok x =>
      obtain ⟨b, s1⟩ := x
      cases b <;> rfl
  rw [e]
  exact h

theorem deaf_mapOne (p : Pauli × ℕ) : Deaf (mapOne A p) := by
  obtain ⟨p, q⟩ := p
  cases p
  · exact deaf_ok
  · exact deaf_act _
  · exact deaf_ok
  · exact (deaf_act _).bind ((deaf_act _).bind (deaf_act _))
theorem deaf_unmapOne (p : Pauli × ℕ) : Deaf (unmapOne A p) := by
  obtain ⟨p, q⟩ := p
  cases p
  · exact deaf_ok
  · exact deaf_act _
  · exact deaf_ok
  · exact (deaf_act _).bind ((deaf_act _).bind (deaf_act _))
theorem deaf_mapToZ (ps : List Pauli) (qs : List ℕ) : DeafA (mapToZ A ps qs) := by
  unfold mapToZ
  split
  · exact fun _ _ => rfl
  · exact ((Deaf.forEach deaf_mapOne _).after (still_ensureAll _)).bindA (deaf_pure _)
theorem deaf_unmapFromZ (l : List (Pauli × ℕ)) : Deaf (unmapFromZ A l) := Deaf.forEach deaf_unmapOne l
theorem deaf_measure (ps : List Pauli) (qs : List ℕ) : DeafA (measure A ps qs) :=
  (deaf_mapToZ ps qs).bindA fun l => (deaf_ask (Rnd.jointMeasure A (l.map Prod.snd))).bindA fun b =>
    (deaf_unmapFromZ l).bindA (deaf_pure (resultPtr b))
theorem deaf_isZero (q : ℕ) : DeafA (qubitIsZero A q) := (deaf_ask _).after (still_ensure q)
open Classical in
theorem deaf_assertProb (ps : List Pauli) (qs : List ℕ) (n : ℕ) (p : ℝ) (msg : List Char) (t : ℝ) :
    Deaf (assertProb A ps qs n p msg t) := by
  unfold assertProb
  refine (deaf_mapToZ ps qs).bind (g := fun combined s => ask (Rnd.jointProbability A (combined.map Prod.snd)) s >>= fun x =>
    if |A.fl ((if Back.resultEqual n (resultPtr false) then A.fl (1 - x.1) else x.1) - p)| > t then .error (.fail msg)
    else unmapFromZ A combined x.2) fun l => ?_
  refine (deaf_ask _).bind (g := fun p' s =>
    if |A.fl ((if Back.resultEqual n (resultPtr false) then A.fl (1 - p') else p') - p)| > t then .error (.fail msg)
    else unmapFromZ A l s) fun p' => ?_
  by_cases h : |A.fl ((if Back.resultEqual n (resultPtr false) then A.fl (1 - p') else p') - p)| > t
  · simp only [if_pos h]
    exact fun _ _ => rfl
  · simp only [if_neg h]
    exact deaf_unmapFromZ l
theorem deaf_release (q : ℕ) : Deaf (qubitRelease A q) := deaf_act _

theorem deaf_silent {f : Backend → Except Stop Backend} (h : Deaf f) (o : ℕ → ℕ) (s : Backend) :
    silent (f (setOs o s)) = (silent (f s)).map fun r => (r.1, r.2.1, setOs o r.2.2) := by
  rw [h]
  cases f s <;> rfl

theorem qstep_os (c : QCall) (hc : NoDraw c) (o : ℕ → ℕ) (s : Backend) :
    qstep A fmt c (setOs o s) = (qstep A fmt c s).map fun r => (r.1, r.2.1, setOs o r.2.2) := by
  have hres : (setOs o s).res = s.res := rfl
  cases c <;> simp only [qstep]
  case gate g q => exact deaf_silent (deaf_gate g q) o s
  case ctl g cs q => exact deaf_silent (deaf_ctl g cs q) o s
  case sx q => exact deaf_silent (deaf_sx q) o s
  case rxx θ a b => exact deaf_silent (deaf_rxx θ a b) o s
  case ryy θ a b => exact deaf_silent (deaf_ryy θ a b) o s
  case rzz θ a b => exact deaf_silent (deaf_rzz θ a b) o s
  case r p θ q => exact deaf_silent (deaf_r p θ q) o s
  case rAdj p θ q => exact deaf_silent (deaf_r p (-θ) q) o s
  case rCtl cs p θ q => exact deaf_silent (deaf_rCtl cs p θ q) o s
  case rCtlAdj cs p θ q => exact deaf_silent (deaf_rCtl cs p (-θ) q) o s
  case exp ps θ qs => exact deaf_silent (deaf_exp ps θ qs) o s
  case expAdj ps θ qs => exact deaf_silent (deaf_exp ps (-θ) qs) o s
  case expCtl cs ps θ qs => exact deaf_silent (deaf_expCtl cs ps θ qs) o s
  case expCtlAdj cs ps θ qs => exact deaf_silent (deaf_expCtl cs ps (-θ) qs) o s
  case swap a b => exact deaf_silent (deaf_swap a b) o s
  case reset q => exact deaf_silent (deaf_reset q) o s
  case mresetz q n => exact deaf_silent (deaf_mresetz q n) o s
  case mz q n => exact deaf_silent (deaf_mz q n) o s
  case readResult n =>
    simp only [Back.readResult, Back.grow_get?, ok_bind, pure_ok, hres]
    rfl
  case m q =>
    rw [deaf_m q]
    cases m A q s <;> rfl
  case measure ps qs =>
    rw [deaf_measure ps qs]
    cases measure A ps qs s <;> rfl
  case isZero q =>
    rw [deaf_isZero q]
    cases qubitIsZero A q s <;> rfl
  case assertProb ps qs n p msg t => exact deaf_silent (deaf_assertProb ps qs n p msg t) o s
  case release q => exact deaf_silent (deaf_release q) o s
  case recordResult n tag =>
    simp only [Back.recordedResult, Back.grow_get?, hres]
    split <;> rfl
  case legacyResult n =>
    simp only [Back.recordedResult, Back.grow_get?, hres]
    split <;> rfl
  case dump l =>
    cases l
    · simp only [dumpMachine, Bool.false_eq_true, if_false, hres, deaf_ask (Rnd.dump A fmt.amplitude) o s]
      cases ask (Rnd.dump A fmt.amplitude) s <;> rfl
    · rfl
  case drawInt lo hi => exact hc.elim
  case drawDouble lo hi => exact hc.elim
  all_goals rfl

end Qir.RBack
