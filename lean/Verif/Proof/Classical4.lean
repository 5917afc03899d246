import Verif.Proof.Classical3

/-! # How many basis states there can be -/

namespace Qir
namespace Gen
open Function

variable {F : Type} {N : Num F}

theorem opStep_opStep {op : List ℕ × ℕ × GOp F} (h : (op.1 ++ [op.2.1]).Nodup) (b : ℕ → Bool) :
    opStep op (opStep op b) = b := by
  have ht : ∀ c ∈ op.1, c ≠ op.2.1 := fun c hc he => by
    rw [List.nodup_append] at h
    exact h.2.2 c hc _ (by simp) he
  unfold opStep
  by_cases hc : flips op.2.2 = true ∧ ∀ c ∈ op.1, b c = true
  · have : flips op.2.2 = true ∧ ∀ c ∈ op.1, toggle [op.2.1] b c = true :=
      ⟨hc.1, fun c hm => by rw [toggle_ne (ht c hm)]; exact hc.2 c hm⟩
    rw [if_pos hc, if_pos this, toggle_toggle]
  · rw [if_neg hc, if_neg hc]

theorem after_inj : ∀ {ops : List (List ℕ × ℕ × GOp F)}, (∀ op ∈ ops, (op.1 ++ [op.2.1]).Nodup) →
    Injective (after ops)
  | [], _ => fun _ _ h => h
  | op :: ops, h => fun b b' hb => by
    have := after_inj (ops := ops) (fun o ho => h o (by simp [ho])) hb
    have h2 := congrArg (opStep op) this
    rwa [opStep_opStep (h op (by simp)), opStep_opStep (h op (by simp))] at h2

/-- No more entries than possible basis states. -/
theorem length_le_poss {s : GSim F} (hi : Inv s) {T : List (ℕ → Bool)} (h : ∀ f, Poss s f → f ∈ T) :
    s.state.length ≤ T.length := by
  have hinj : (s.state.map fun e => after s.opQ (idBits s.idMap e.1)).Nodup := by
    have : s.state.Pairwise (fun e e' => e.1 ≠ e'.1) := by
      have := hi.core.nodup
      rwa [List.Nodup, List.pairwise_map] at this
    rw [List.Nodup, List.pairwise_map]
    refine this.imp_of_mem (fun {e e'} he he' hne heq => hne ?_)
    exact idBits_inj (hi.core.bits e he) (hi.core.bits e' he') (after_inj (fun op ho => (hi.ops op ho).1) heq)
  have hsub : (s.state.map fun e => after s.opQ (idBits s.idMap e.1)) ⊆ T := by
    intro f hf
    obtain ⟨e, he, rfl⟩ := List.mem_map.1 hf
    exact h _ ⟨_, ⟨e, he, rfl⟩, fun _ _ => rfl⟩
  have := (List.subperm_of_subset hinj hsub).length_le
  rwa [List.length_map] at this

/-- At most `n` basis states. -/
def AtMost (n : ℕ) (S : (ℕ → Bool) → Prop) : Prop := ∃ T : List (ℕ → Bool), T.length ≤ n ∧ ∀ f, S f → f ∈ T

theorem AtMost.mono {n m : ℕ} (h : n ≤ m) {S S' : (ℕ → Bool) → Prop} (hS : ∀ f, S' f → S f) : AtMost n S → AtMost m S' :=
  fun ⟨T, hT, hm⟩ => ⟨T, hT.trans h, fun f hf => hm f (hS f hf)⟩

theorem AtMost.image {n : ℕ} {S S' : (ℕ → Bool) → Prop} (u : (ℕ → Bool) → ℕ → Bool)
    (hS : ∀ g, S' g → ∃ f, S f ∧ g = u f) : AtMost n S → AtMost n S' :=
  fun ⟨T, hT, hm⟩ => ⟨T.map u, by rwa [List.length_map], fun g hg => by
    obtain ⟨f, hf, rfl⟩ := hS g hg
    exact List.mem_map.2 ⟨f, hm f hf, rfl⟩⟩

theorem AtMost.fork {n : ℕ} {S S' : (ℕ → Bool) → Prop} (u : (ℕ → Bool) → ℕ → Bool)
    (hS : ∀ g, S' g → ∃ f, S f ∧ (g = f ∨ g = u f)) : AtMost n S → AtMost (n * 2) S' :=
  fun ⟨T, hT, hm⟩ => ⟨T ++ T.map u, by rw [List.length_append, List.length_map]; omega, fun g hg => by
    obtain ⟨f, hf, rfl | rfl⟩ := hS g hg
    · exact List.mem_append.2 (.inl (hm _ hf))
    · exact List.mem_append.2 (.inr (List.mem_map.2 ⟨f, hm f hf, rfl⟩))⟩

theorem AtMost.call {n : ℕ} (hn : 1 ≤ n) {L : Finset ℕ} {S : (ℕ → Bool) → Prop} (h : AtMost n S) (c : GCall F) (o : GOut F) :
    AtMost (if branching c then n * 2 else n) (fun g => possible N L S g c o) := by
  classical
  cases c with
  | gate a q =>
    cases a with
    | x => exact h.image (toggle [q]) (fun g hg => hg)
    | y => exact h.image (toggle [q]) (fun g hg => hg)
    | h => exact h.fork (toggle [q]) (fun g hg => hg)
    | rx => exact h.fork (toggle [q]) (fun g hg => hg)
    | ry => exact h.fork (toggle [q]) (fun g hg => hg)
    | _ => exact h.image id (fun g hg => hg)
  | ctrl a cs q =>
    have det : ∀ b : GGate F, (∀ f g : ℕ → Bool, Acts q f g b → g = toggle [q] f) →
        AtMost n (fun g => possible N L S g (.ctrl b cs q) o) := fun b hb =>
      h.image (fun f => if ∀ c ∈ cs, f c = true then toggle [q] f else f) (fun g ⟨f, hf, hg⟩ => ⟨f, hf, by
        split at hg
        · rw [if_pos (by assumption)]; exact hb f g hg
        · rw [if_neg (by assumption)]; exact hg⟩)
    have two : ∀ b : GGate F, (∀ f g : ℕ → Bool, Acts q f g b → g = f ∨ g = toggle [q] f) →
        AtMost (n * 2) (fun g => possible N L S g (.ctrl b cs q) o) := fun b hb =>
      h.fork (toggle [q]) (fun g ⟨f, hf, hg⟩ => ⟨f, hf, by
        split at hg
        · exact hb f g hg
        · exact .inl hg⟩)
    have one : ∀ b : GGate F, (∀ f g : ℕ → Bool, Acts q f g b → g = f) →
        AtMost n (fun g => possible N L S g (.ctrl b cs q) o) := fun b hb =>
      h.image id (fun g ⟨f, hf, hg⟩ => ⟨f, hf, by
        split at hg
        · exact hb f g hg
        · exact hg⟩)
    cases a with
    | x => exact det _ (fun _ _ h => h)
    | y => exact det _ (fun _ _ h => h)
    | h => exact two _ (fun _ _ h => h)
    | rx => exact two _ (fun _ _ h => h)
    | ry => exact two _ (fun _ _ h => h)
    | _ => exact one _ (fun _ _ h => h)
  | exp cs ps θ ts =>
    by_cases hc : changed ps ts = []
    · simp only [branching, hc, List.isEmpty_nil, Bool.not_true, Bool.false_eq_true, if_false]
      refine h.image id (fun g ⟨f, hf, hg⟩ => ⟨f, hf, ?_⟩)
      have ht : toggle [] f = f := by funext q; simp [toggle]
      rw [hc, ht, or_self, ite_self] at hg
      exact hg
    · have : (changed ps ts).isEmpty = false := by rw [Bool.eq_false_iff, ne_eq, List.isEmpty_iff]; exact hc
      simp only [branching, this, Bool.not_false, if_true]
      refine h.fork (toggle (changed ps ts)) (fun g ⟨f, hf, hg⟩ => ⟨f, hf, ?_⟩)
      split at hg
      · exact hg
      · exact .inl hg
  | swap a b =>
    refine h.image (fun f => f ∘ Equiv.swap a b) (fun g ⟨f, hf, h1, h2, h3⟩ => ⟨f, hf, ?_⟩)
    funext q
    by_cases ha : q = a
    · subst ha; simp [h1]
    · by_cases hb : q = b
      · subst hb; simp [h2]
      · simp [Equiv.swap_apply_of_ne_of_ne ha hb, h3 q ha hb]
  | release q =>
    by_cases hc : L.card = 1
    · refine ⟨[fun _ => false], hn, fun g hg => ?_⟩
      simp only [possible, if_pos hc] at hg
      rw [hg]; simp
    · refine h.image (fun f r => if r = q then false else f r) (fun g hg => ?_)
      simpa only [possible, if_neg hc] using hg
  | measure q => exact h.mono le_rfl (fun _ hg => hg.1)
  | jointMeasure qs => exact h.mono le_rfl (fun _ hg => hg.1)
  | collapse v q => exact h.mono le_rfl (fun _ hg => hg.1)
  | _ => exact h

theorem AtMost.reached (cs : List (GCall F)) : ∀ {n : ℕ}, 1 ≤ n → ∀ {L : Finset ℕ}
    {S : (ℕ → Bool) → Prop} {os : List (GOut F)}, AtMost n S → Agree N L S cs os →
    AtMost (n * 2 ^ cs.countP branching) (reached N L S cs os) := by
  induction cs with
  | nil =>
    intro n hn L S os h ha
    simpa [Gen.reached] using h
  | cons c cs ih =>
    intro n hn L S os h ha
    obtain ⟨o, os', rfl, _, ha⟩ := ha
    have h1 := h.call (N := N) (L := L) hn c o
    refine (ih (n := if branching c then n * 2 else n) (by split <;> omega) h1 ha).mono (le_of_eq ?_) (fun _ h => h)
    rw [List.countP_cons]
    split <;> simp [pow_succ]
    ring

theorem atMost_zero : AtMost 1 allZero := ⟨[fun _ => false], le_rfl, fun f hf => by rw [hf]; simp⟩

/-- A listing has as many entries as the state that it leaves. -/
theorem getState_length {s s' : GSim F} {l : List (ℕ × Cx F)} {n : ℕ}
    (h : call N .getState s = .ok (.state l n, s')) : l.length = s'.state.length := by
  simp only [call] at h
  obtain ⟨⟨⟨l', n'⟩, s1⟩, h1, h⟩ := bind_ok h
  cases h
  unfold getState at h1
  obtain ⟨s2, h4, h1⟩ := bind_ok h1
  obtain ⟨s3, h5, h1⟩ := bind_ok h1
  cases h1
  exact (sortState_perm _).length_eq

theorem state_bound (N : Num F) (rng : ℕ → F) (cs : List (GCall F)) (hv : Valid ∅ cs) {os : List (GOut F)} {s : GSim F}
    (h : runCalls N cs (new N rng) = .ok (os, s)) : s.state.length ≤ 2 ^ cs.countP branching := by
  obtain ⟨os', s', h', ha, hb⟩ := run_holds cs (holds_new N rng) hv
  rw [h] at h'; cases h'
  obtain ⟨T, hT, hm⟩ := AtMost.reached cs le_rfl atMost_zero ha
  have := length_le_poss hb.books.inv (fun f hf => hm f (hb.poss f hf))
  omega

theorem listing_bound (N : Num F) (rng : ℕ → F) (cs : List (GCall F)) (hv : Valid ∅ (cs ++ [.getState]))
    {os : List (GOut F)} {l : List (ℕ × Cx F)} {n : ℕ} {s : GSim F}
    (h : runCalls N (cs ++ [.getState]) (new N rng) = .ok (os ++ [.state l n], s)) :
    l.length ≤ 2 ^ cs.countP branching := by
  have h0 := h
  rw [runCalls_append] at h
  obtain ⟨⟨os1, s1⟩, h1, h⟩ := bind_ok h
  obtain ⟨⟨os2, s2⟩, h2, h⟩ := bind_ok h
  simp only [runCalls] at h2
  obtain ⟨⟨o, s3⟩, h4, h2⟩ := bind_ok h2
  cases h2
  injection h with h
  injection h with h3 h5
  obtain ⟨_, h6⟩ := List.append_inj' h3 rfl
  injection h6 with h6
  subst h5 h6
  rw [getState_length h4]
  have := state_bound N rng _ hv h0
  simpa [branching] using this

theorem Agree.append (cs ds : List (GCall F)) : ∀ {L : Finset ℕ} {S : (ℕ → Bool) → Prop} {os : List (GOut F)},
    Agree N L S (cs ++ ds) os → ∃ os1 os2, os = os1 ++ os2 ∧ Agree N (liveAfter L cs) (reached N L S cs os1) ds os2 := by
  induction cs with
  | nil => intro L S os h; exact ⟨[], os, rfl, h⟩
  | cons c cs ih =>
    intro L S os h
    obtain ⟨o, os', rfl, _, h⟩ := h
    obtain ⟨os1, os2, rfl, h2⟩ := ih h
    exact ⟨o :: os1, os2, rfl, h2⟩

end Gen
end Qir
