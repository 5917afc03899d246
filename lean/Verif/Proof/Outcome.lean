import Verif.Props.OutcomeDefs
import Verif.Proof.Classical4

/-!
# Measurements that answer one have a reason
-/

namespace Qir
namespace Gen

variable {F : Type} {N : Num F}

open Qir.Sim (oddParity locMask)

theorem probability_zero (mask : ℕ) (l : List (ℕ × Cx F)) (h : ∀ e ∈ l, oddParity e.1 mask = false) (a : F) :
    l.foldl (fun accum e => if oddParity e.1 mask then N.add accum (N.normSqr e.2) else accum) a = a := by
  induction l generalizing a with
  | nil => rfl
  | cons e l ih =>
    rw [List.foldl_cons, if_neg (by rw [h e (by simp)]; simp)]
    exact ih (fun e he => h e (by simp [he])) a

/-- If no entry has the parity, the computed probability is zero. -/
theorem check_zero {s s2 : GSim F} {locs : List ℕ} {p c : F} (h : checkJointProbability N locs s = .ok (p, s2))
    (hn : (jointCollapse N locs true c s2).state = []) : p = N.zero := by
  unfold checkJointProbability at h
  simp only at h
  obtain ⟨⟨rops, s0⟩, _, h2⟩ := bind_ok h
  obtain ⟨rfl, rfl⟩ := Prod.mk.inj (Except.ok.inj h2)
  refine probability_zero _ _ (fun e he => ?_) _
  by_contra hne
  have ht : oddParity e.1 (locMask locs) = true := by simpa using hne
  have : (e.1, N.scale e.2 (N.div N.one (N.sqrt (if true then c else N.sub N.one c)))) ∈
      (jointCollapse N locs true c { s0 with state := s0.state.map (applyOps N rops) }).state :=
    List.mem_filterMap.2 ⟨e, he, by rw [if_pos ht]⟩
  rw [hn] at this
  cases this

/-- If the sample is below the computed probability, an entry is left. -/
theorem collapse_some {s s2 : GSim F} {locs : List ℕ} {p c x : F} (hx : N.lt x N.zero = false)
    (h : checkJointProbability N locs s = .ok (p, s2)) (hp : N.lt x p = true) :
    (jointCollapse N locs true c s2).state ≠ [] := fun hn => by
  rw [check_zero h hn, hx] at hp
  cases hp

theorem poss_some {s : GSim F} (h : s.state ≠ []) : ∃ f, Poss s f := by
  obtain ⟨e, he⟩ := List.exists_mem_of_ne_nil _ h
  exact ⟨_, _, ⟨e, he, rfl⟩, fun _ _ => rfl⟩

theorem measure_some {s s' : GSim F} (hi : Inv s) (hr : Nonneg N s.rng) {id : ℕ} (h : measure N id s = .ok (true, s')) :
    s'.state ≠ [] := by
  unfold measure at h
  obtain ⟨s1, h1, h⟩ := bind_ok h
  obtain ⟨loc, _, h⟩ := bind_ok h
  dsimp only [nextSample] at h
  obtain ⟨⟨p, s2⟩, h3, h⟩ := bind_ok h
  obtain ⟨h4, h5⟩ := Prod.mk.inj (Except.ok.inj h)
  rw [← h5, h4]
  refine collapse_some ?_ h3 h4
  rw [((maybeFlush_goes _ hi).get h1).1.rng]
  exact hr 0

theorem jointMeasure_some {s s' : GSim F} (hi : Inv s) (hr : Nonneg N s.rng) {ids : List ℕ}
    (h : jointMeasure N ids s = .ok (true, s')) : s'.state ≠ [] := by
  unfold jointMeasure at h
  obtain ⟨s1, h1, h⟩ := bind_ok h
  obtain ⟨_, _, h⟩ := bind_ok h
  obtain ⟨locs, _, h⟩ := bind_ok h
  dsimp only [nextSample] at h
  obtain ⟨⟨p, s2⟩, h3, h⟩ := bind_ok h
  obtain ⟨h4, h5⟩ := Prod.mk.inj (Except.ok.inj h)
  rw [← h5, h4]
  refine collapse_some ?_ h3 h4
  rw [((maybeFlush_goes _ hi).get h1).1.rng]
  exact hr 0

theorem jointProbability_some {s s' : GSim F} (hi : Inv s) {ids : List ℕ} (hn : ids.Nodup) {p : F}
    (h : jointProbability N ids s = .ok (p, s')) : p = N.zero ∨ ∃ f, Poss s f ∧ odd ids f = true := by
  unfold jointProbability at h
  obtain ⟨s1, h1, h⟩ := bind_ok h
  obtain ⟨_, _, h⟩ := bind_ok h
  obtain ⟨locs, h2, h⟩ := bind_ok h
  obtain ⟨hd, hq⟩ := (maybeFlush_goes _ hi).get h1
  by_cases hz : (jointCollapse N locs true p s').state = []
  · exact .inl (check_zero h hz)
  · obtain ⟨f, hf⟩ := poss_some hz
    obtain ⟨h3, h4⟩ := collapse_poss hd.inv (resolveIds_eq_ok.1 h2) hn hq h _ _ hf
    exact .inr ⟨f, maybeFlush_shr hi h1 f h3, h4⟩

theorem call_vouched {L : Finset ℕ} {S : (ℕ → Bool) → Prop} {s s' : GSim F} (hb : Holds L S s) (hr : Nonneg N s.rng)
    {c : GCall F} {o : GOut F} (hv : Allowed L c) (h : call N c s = .ok (o, s')) : Vouched N S c o := by
  obtain ⟨_, hb'⟩ := call_holds hb hv h
  cases c with
  | measure q =>
    obtain ⟨⟨b, s1⟩, h1, h2⟩ := bind_ok h
    obtain ⟨rfl, rfl⟩ := Prod.mk.inj (Except.ok.inj h2)
    refine ⟨b, rfl, ?_⟩
    rintro rfl
    obtain ⟨f, hf⟩ := poss_some (measure_some hb.books.inv hr h1)
    obtain ⟨hS, ho⟩ := hb'.poss f hf
    injection ho with ho
    exact ⟨f, hS, ho.symm⟩
  | jointMeasure qs =>
    obtain ⟨⟨b, s1⟩, h1, h2⟩ := bind_ok h
    obtain ⟨rfl, rfl⟩ := Prod.mk.inj (Except.ok.inj h2)
    refine ⟨b, rfl, ?_⟩
    rintro rfl
    obtain ⟨f, hf⟩ := poss_some (jointMeasure_some hb.books.inv hr h1)
    obtain ⟨hS, ho⟩ := hb'.poss f hf
    injection ho with ho
    exact ⟨f, hS, ho.symm⟩
  | jointProb qs =>
    obtain ⟨⟨p, s1⟩, h1, h2⟩ := bind_ok h
    obtain ⟨rfl, rfl⟩ := Prod.mk.inj (Except.ok.inj h2)
    refine ⟨p, rfl, (jointProbability_some hb.books.inv hv.1 h1).imp_right ?_⟩
    rintro ⟨f, hf, ho⟩
    exact ⟨f, hb.poss f hf, ho⟩
  | isZero q =>
    obtain ⟨⟨b, s1⟩, h1, h2⟩ := bind_ok h
    obtain ⟨rfl, rfl⟩ := Prod.mk.inj (Except.ok.inj h2)
    unfold qubitIsZero at h1
    obtain ⟨⟨p, s2⟩, h3, h4⟩ := bind_ok h1
    obtain ⟨rfl, rfl⟩ := Prod.mk.inj (Except.ok.inj h4)
    refine ⟨_, rfl, ?_⟩
    rcases jointProbability_some hb.books.inv (by simp) h3 with rfl | ⟨f, hf, ho⟩
    · exact .inl rfl
    · refine .inr ⟨f, hb.poss f hf, ?_⟩
      rw [← parity_odd, parity_singleton] at ho
      exact ho
  | _ => trivial

theorem run_vouched (cs : List (GCall F)) : ∀ {L : Finset ℕ} {S : (ℕ → Bool) → Prop} {s : GSim F}, Holds L S s →
    Nonneg N s.rng → Valid L cs → ∃ os s', runCalls N cs s = .ok (os, s') ∧ Agree N L S cs os ∧ AllVouched N L S cs os := by
  induction cs with
  | nil => intro L S s _ _ _; exact ⟨[], s, rfl, rfl, trivial⟩
  | cons c cs ih =>
    intro L S s hb hr hv
    obtain ⟨o, s1, h1, _, _, hrng⟩ := call_goes (N := N) hb.books c hv.1
    obtain ⟨hsh, hb1⟩ := call_holds hb hv.1 h1
    have hr1 : Nonneg N s1.rng := fun n => by rw [hrng]; exact hr _
    obtain ⟨os, s2, h2, ha2, hb2⟩ := ih hb1 hr1 hv.2
    exact ⟨o :: os, s2, by simp only [runCalls, h1, ok_bind, h2]; rfl, ⟨o, os, rfl, hsh, ha2⟩,
      call_vouched hb hr hv.1 h1, hb2⟩

theorem AllVouched.append (cs ds : List (GCall F)) : ∀ {L : Finset ℕ} {S : (ℕ → Bool) → Prop} {os os' : List (GOut F)},
    os.length = cs.length → AllVouched N L S (cs ++ ds) (os ++ os') →
      AllVouched N (liveAfter L cs) (reached N L S cs os) ds os' := by
  induction cs with
  | nil =>
    intro L S os os' hl h
    have : os = [] := List.length_eq_zero_iff.1 (by simpa using hl)
    subst this
    exact h
  | cons c cs ih =>
    intro L S os os' hl h
    cases os with
    | nil => simp at hl
    | cons o os => exact ih (by simpa using hl) h.2

theorem Agree.cut (cs ds : List (GCall F)) : ∀ {L : Finset ℕ} {S : (ℕ → Bool) → Prop} {os : List (GOut F)},
    Agree N L S (cs ++ ds) os → ∃ os1 os2, os = os1 ++ os2 ∧ os1.length = cs.length ∧
      Agree N (liveAfter L cs) (reached N L S cs os1) ds os2 := by
  induction cs with
  | nil => intro L S os h; exact ⟨[], os, rfl, rfl, h⟩
  | cons c cs ih =>
    intro L S os h
    obtain ⟨o, os', rfl, _, h⟩ := h
    obtain ⟨os1, os2, rfl, hl, h2⟩ := ih h
    exact ⟨o :: os1, os2, rfl, by simp [hl], h2⟩

theorem possible_none {L : Finset ℕ} {S : (ℕ → Bool) → Prop} (hS : ∀ f, ¬ S f) {c : GCall F}
    (hc : L.card = 1 → ∀ q, c ≠ .release q) (o : GOut F) (g : ℕ → Bool) : ¬ possible N L S g c o := by
  intro h
  cases c with
  | gate a q => obtain ⟨f, hf, _⟩ := h; exact hS f hf
  | ctrl a cs q => obtain ⟨f, hf, _⟩ := h; exact hS f hf
  | exp cs ps θ ts => obtain ⟨f, hf, _⟩ := h; exact hS f hf
  | swap a b => obtain ⟨f, hf, _⟩ := h; exact hS f hf
  | release q =>
    simp only [possible] at h
    split at h
    · rename_i h1; exact hc h1 q rfl
    · obtain ⟨f, hf, _⟩ := h; exact hS f hf
  | measure q => exact hS g h.1
  | jointMeasure qs => exact hS g h.1
  | collapse v q => exact hS g h.1
  | _ => exact hS g h

theorem blank_run (ds : List (GCall F)) : ∀ {L : Finset ℕ} {S : (ℕ → Bool) → Prop} {os : List (GOut F)}, (∀ f, ¬ S f) →
    NeverAlone L ds → Agree N L S ds os → AllVouched N L S ds os → List.Forall₂ (Blank N) ds os := by
  induction ds with
  | nil =>
    intro L S os _ _ h _
    have : os = [] := h
    subst this
    exact .nil
  | cons c ds ih =>
    intro L S os hS hn ha hv
    obtain ⟨o, os, rfl, hsh, ha⟩ := ha
    refine .cons ?_ (ih (possible_none hS hn.1 o) hn.2 ha hv.2)
    have h1 := hv.1
    have none : ∀ {l : List (ℕ × Cx F)}, (∀ e ∈ l, ∃ f, S f ∧ Index L e.1 f) → l = [] := fun h =>
      List.eq_nil_iff_forall_not_mem.2 fun e he => by obtain ⟨f, hf, _⟩ := h e he; exact hS f hf
    cases c with
    | measure q =>
      obtain ⟨b, rfl, h⟩ := h1
      cases b
      · rfl
      · obtain ⟨f, hf, _⟩ := h rfl; exact absurd hf (hS f)
    | jointMeasure qs =>
      obtain ⟨b, rfl, h⟩ := h1
      cases b
      · rfl
      · obtain ⟨f, hf, _⟩ := h rfl; exact absurd hf (hS f)
    | jointProb qs =>
      obtain ⟨p, rfl, rfl | ⟨f, hf, _⟩⟩ := h1
      · rfl
      · exact absurd hf (hS f)
    | isZero q =>
      obtain ⟨p, rfl, rfl | ⟨f, hf, _⟩⟩ := h1
      · rfl
      · exact absurd hf (hS f)
    | getState =>
      obtain ⟨l, rfl, _, hl⟩ := hsh
      rw [none hl]
      exact ⟨_, rfl⟩
    | dump fmt =>
      obtain ⟨l, rfl, _, hl⟩ := hsh
      rw [none hl]
      rfl
    | _ => trivial

end Gen
end Qir
