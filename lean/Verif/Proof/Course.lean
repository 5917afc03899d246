import Verif.Props.CourseDefs
import Verif.Proof.GenericBack2
import Verif.Proof.Classical3
import Verif.Proof.Outcome

/-! # The courses that a program may take: gates -/

namespace Qir
namespace Gen
open Spec (Pauli)
open Qir.Out
open Ledger
open Qir.Back (grow resultPtr resultEqual nonIdentity)

variable {F : Type} {N : Num F} {lib : Lib F} {δ δ' : Ledger F} {S S' : (ℕ → Bool) → Prop} {s : GBackend F}

/-- The ledger is kept, and the basis states are among those in `S`. -/
structure Trails (δ : Ledger F) (S : (ℕ → Bool) → Prop) (s : GBackend F) : Prop where
  kept : Kept δ s
  poss : ∀ f, Poss s.sim f → S f

theorem Trails.holds (h : Trails δ S s) : Holds δ.live S s.sim := ⟨h.kept.books, h.poss⟩

theorem Trails.mono (h : Trails δ S s) (hS : ∀ f, S f → S' f) : Trails δ S' s := ⟨h.kept, fun f hf => hS f (h.poss f hf)⟩

/-- The call returns, and so it goes on. -/
def Runs (δ : Ledger F) (S : (ℕ → Bool) → Prop) (r : Except GStop (GBackend F)) : Prop := ∃ s, r = .ok s ∧ Trails δ S s

theorem Runs.bind {r : Except GStop (GBackend F)} {k : GBackend F → Except GStop (GBackend F)}
    (h : Runs δ S r) (hk : ∀ s, Trails δ S s → Runs δ' S' (k s)) : Runs δ' S' (r >>= k) := by
  obtain ⟨s, rfl, h1⟩ := h
  exact hk s h1

theorem Runs.mono {r : Except GStop (GBackend F)} (h : Runs δ S r) (hS : ∀ f, S f → S' f) : Runs δ S' r := by
  obtain ⟨s, h1, h2⟩ := h
  exact ⟨s, h1, h2.mono hS⟩

/-- The image of a set of basis states. -/
def img (G : (ℕ → Bool) → (ℕ → Bool) → Prop) (S : (ℕ → Bool) → Prop) : (ℕ → Bool) → Prop := fun g => ∃ f, S f ∧ G f g

/-! ### Qubits on demand -/

theorem ensure_poss (N : Num F) (q : ℕ) : ∀ (n : ℕ) {L : Finset ℕ} {s : GBackend F}, Books L s.sim → q + 1 - s.max = n →
    ∀ f, Poss (ensure q s).sim f → Poss s.sim f := by
  intro n
  induction n with
  | zero =>
    intro L s h hn f hf
    unfold ensure at hf
    rwa [if_neg (by omega)] at hf
  | succ n ih =>
    intro L s h hn f hf
    unfold ensure at hf
    rw [if_pos (by omega)] at hf
    obtain ⟨_, h2, _⟩ := allocate_books N h
    exact allocate_shr h.inv f (ih (s := { s with sim := (allocate s.sim).2, max := s.max + 1 }) h2 (by simp only; omega) f hf)

theorem ensure_trails (N : Num F) (h : Trails δ S s) {q : ℕ} (hq : δ.Usable q) : Trails (δ.use q) S (ensure q s) :=
  ⟨ensure_kept N h.kept hq, fun f hf => h.poss f (ensure_poss N q _ h.kept.books rfl f hf)⟩

theorem ensureAll_trails (N : Num F) (qs : List ℕ) : ∀ {δ : Ledger F} {s : GBackend F}, Trails δ S s →
    (∀ i ∈ qs, δ.Usable i) → Trails (δ.useAll qs) S (ensureAll qs s) := by
  induction qs with
  | nil => intro δ s h _; exact h
  | cons q qs ih =>
    intro δ s h hu
    have hq := hu q (by simp)
    exact ih (ensure_trails N h hq) fun i hi => use_usable h.kept.below hq (hu i (by simp [hi]))

/-! ### Methods of the simulator -/

theorem act_trails (h : Trails δ S s) (c : GCall F) {f : GSim F → Except Panic (GSim F)}
    (hf : ∀ m, call N c m = quiet (f m)) (ha : Allowed δ.live c) (hl : liveNext δ.live c = δ.live)
    (hd : drawn δ.live c = 0) : Runs δ (fun g => possible N δ.live S g c .none) (act f s) := by
  obtain ⟨s', h1, h2⟩ := act_fine h.kept c hf ha hl hd
  refine ⟨s', h1, h2, ?_⟩
  unfold act at h1
  cases hr : f s.sim with
  | error p => rw [hr] at h1; cases h1
  | ok m =>
    rw [hr] at h1
    have : { s with sim := m } = s' := Except.ok.inj h1
    subst this
    have hc : call N c s.sim = .ok (.none, m) := by rw [hf, hr]; rfl
    exact (call_holds h.holds ha hc).2.poss

theorem acts_off {q : ℕ} {f g : ℕ → Bool} {a : GGate F} (h : Acts q f g a) : Off [q] f g := by
  have h1 : Off [q] f f := fun _ _ => rfl
  have h2 : Off [q] f (toggle [q] f) := fun r hr => by simp only [toggle, if_neg hr]
  cases a <;> simp only [Acts] at h
  all_goals first
    | (rcases h with rfl | rfl; exacts [h1, h2])
    | (subst h; first | exact h1 | exact h2)

theorem gate_trails (h : Trails δ S s) {q : ℕ} (hq : q ∈ δ.live) (a : GGate F) :
    Runs δ (img (fun f g => Acts q f g a) S) (act (Gen.gateCall N q a) s) :=
  act_trails h (.gate a q) (fun _ => rfl) hq rfl rfl

theorem gate_use (h : Trails δ S s) {q : ℕ} (hq : δ.Usable q) (a : GGate F) :
    Runs (δ.use q) (img (fun f g => Acts q f g a) S) (B.gate N a q s) :=
  gate_trails (ensure_trails N h hq) (mem_use h.kept.below hq) a

theorem gate_at (h : Trails δ S s) {q : ℕ} (hq : q ∈ δ.live) (a : GGate F) :
    Runs δ (img (fun f g => Acts q f g a) S) (B.gate N a q s) := by
  have := gate_use (N := N) h (.inl hq) a
  rwa [use_mem h.kept.below hq] at this

theorem ctrl_trails (h : Trails δ S s) {cs : List ℕ} {q : ℕ} (hn : (cs ++ [q]).Nodup) (hq : ∀ i ∈ cs ++ [q], i ∈ δ.live)
    (a : GGate F) :
    Runs δ (img (fun f g => if ∀ c ∈ cs, f c = true then Acts q f g a else g = f) S) (act (Gen.ctrlCall N cs q a) s) :=
  act_trails h (.ctrl a cs q) (fun _ => rfl) ⟨hn, hq⟩ rfl rfl

theorem ctl_use (h : Trails δ S s) {cs : List ℕ} {q : ℕ} (hn : (cs ++ [q]).Nodup) (hq : ∀ i ∈ cs ++ [q], δ.Usable i)
    (a : GGate F) : Runs (δ.useAll (q :: cs))
      (img (fun f g => if ∀ c ∈ cs, f c = true then Acts q f g a else g = f) S) (B.ctl N a cs q s) :=
  ctrl_trails (ensureAll_trails N (q :: cs) h fun j hj => hq j (by simpa [or_comm] using hj)) hn (operands h.kept.below hq) a

theorem ctl_at (h : Trails δ S s) {cs : List ℕ} {q : ℕ} (hn : (cs ++ [q]).Nodup) (hq : ∀ i ∈ cs ++ [q], i ∈ δ.live)
    (a : GGate F) :
    Runs δ (img (fun f g => if ∀ c ∈ cs, f c = true then Acts q f g a else g = f) S) (B.ctl N a cs q s) := by
  have := ctl_use (N := N) h hn (fun i hi => .inl (hq i hi)) a
  rwa [useAll_mem (q :: cs) h.kept.below fun j hj => hq j (by simpa [or_comm] using hj)] at this

/-! ### Gates made of gates -/

theorem Off.refl (qs : List ℕ) (f : ℕ → Bool) : Off qs f f := fun _ _ => rfl

theorem Off.trans {qs : List ℕ} {f g h : ℕ → Bool} (h1 : Off qs f g) (h2 : Off qs g h) : Off qs f h :=
  fun q hq => (h2 q hq).trans (h1 q hq)

theorem Off.sub {ps qs : List ℕ} {f g : ℕ → Bool} (h : Off ps f g) (hs : ∀ q ∈ ps, q ∈ qs) : Off qs f g :=
  fun q hq => h q fun hp => hq (hs q hp)

/-- A gate on one of several qubits. -/
theorem gate_off {qs : List ℕ} (h : Trails δ (img (Off qs) S) s) {q : ℕ} (hq : q ∈ δ.live) (hm : q ∈ qs) (a : GGate F) :
    Runs δ (img (Off qs) S) (B.gate N a q s) := by
  refine (gate_at h hq a).mono ?_
  rintro g ⟨f, ⟨e, he, h1⟩, h2⟩
  exact ⟨e, he, h1.trans ((acts_off h2).sub (by simpa using hm))⟩

theorem gate_use_off {qs : List ℕ} (h : Trails δ (img (Off qs) S) s) {q : ℕ} (hq : δ.Usable q) (hm : q ∈ qs) (a : GGate F) :
    Runs (δ.use q) (img (Off qs) S) (B.gate N a q s) := by
  refine (gate_use h hq a).mono ?_
  rintro g ⟨f, ⟨e, he, h1⟩, h2⟩
  exact ⟨e, he, h1.trans ((acts_off h2).sub (by simpa using hm))⟩

theorem Trails.off (h : Trails δ S s) (qs : List ℕ) : Trails δ (img (Off qs) S) s :=
  h.mono fun f hf => ⟨f, hf, .refl _ _⟩

theorem sx_trails (h : Trails δ S s) {q : ℕ} (hq : δ.Usable q) : Runs (δ.use q) (img (Off [q]) S) (B.sx N q s) := by
  have hm := mem_use h.kept.below hq
  exact (gate_use_off (h.off [q]) hq (by simp) _).bind fun s h => (gate_off h hm (by simp) _).bind fun s h =>
    gate_off h hm (by simp) _

theorem rzz_trails (h : Trails δ S s) {a b : ℕ} (hab : a ≠ b) (ha : δ.Usable a) (hb : δ.Usable b) (θ : F) :
    Runs (δ.useAll [a, b]) S (B.rzz N θ a b s) := by
  have hu : ∀ i ∈ [b] ++ [a], δ.Usable i := by
    intro i hi
    rcases List.mem_cons.1 hi with rfl | hi
    · exact hb
    · rw [List.mem_singleton.1 hi]; exact ha
  have hm := operands h.kept.below hu
  have hn : ([b] ++ [a]).Nodup := by simp [hab.symm]
  refine Runs.mono ((ctl_use h hn hu _).bind fun s h => (gate_at h (hm a (by simp)) _).bind fun s h =>
    ctl_at h hn hm _) ?_
  rintro g ⟨f3, ⟨f2, ⟨f1, h1, h2⟩, h3⟩, h4⟩
  have h3 : f3 = f2 := h3
  subst h3
  have hc : ∀ f : ℕ → Bool, (∀ c ∈ [b], f c = true) ↔ f b = true := by simp
  simp only [hc, Acts] at h2 h4
  split at h2
  · rename_i hf
    subst h2
    have e : toggle [a] f1 b = f1 b := by simp [toggle, hab.symm]
    rw [e, if_pos hf] at h4
    subst h4
    have : toggle [a] (toggle [a] f1) = f1 := by
      funext r
      by_cases hr : r = a <;> simp [toggle, hr]
    rwa [this]
  · rename_i hf
    subst h2
    rw [if_neg hf] at h4
    rwa [h4]

theorem rzz_at (h : Trails δ S s) {a b : ℕ} (hab : a ≠ b) (ha : a ∈ δ.live) (hb : b ∈ δ.live) (θ : F) :
    Runs δ S (B.rzz N θ a b s) := by
  have := rzz_trails (N := N) h hab (.inl ha) (.inl hb) θ
  rwa [useAll_mem [a, b] h.kept.below (by simp [ha, hb])] at this

theorem rxx_trails (h : Trails δ S s) {a b : ℕ} (hab : a ≠ b) (ha : δ.Usable a) (hb : δ.Usable b) (θ : F) :
    Runs (δ.useAll [a, b]) (img (Off [a, b]) S) (B.rxx N θ a b s) := by
  have hl := h.kept.below
  have hm := mem_useAll [a, b] hl (by simp [ha, hb])
  have h1 := hm a (by simp)
  have h2 := hm b (by simp)
  exact (gate_use_off (h.off [a, b]) ha (by simp) _).bind fun s h' =>
    (gate_use_off h' (use_usable hl ha hb) (by simp) _).bind fun s h =>
    (rzz_at h hab h1 h2 θ).bind fun s h => (gate_off h h2 (by simp) _).bind fun s h => gate_off h h1 (by simp) _

theorem ryy_trails (h : Trails δ S s) {a b : ℕ} (hab : a ≠ b) (ha : δ.Usable a) (hb : δ.Usable b) (θ : F) :
    Runs (δ.useAll [a, b]) (img (Off [a, b]) S) (B.ryy N θ a b s) := by
  have hl := h.kept.below
  have hm := mem_useAll [a, b] hl (by simp [ha, hb])
  have h1 := hm a (by simp)
  have h2 := hm b (by simp)
  have h0 := mem_use hl ha
  have ma : a ∈ [a, b] := by simp
  have mb : b ∈ [a, b] := by simp
  exact (gate_use_off (h.off [a, b]) ha ma _).bind fun s h' => (gate_off h' h0 ma _).bind fun s h' =>
    (gate_off h' h0 ma _).bind fun s h' =>
    (gate_use_off h' (use_usable hl ha hb) mb _).bind fun s h => (gate_off h h2 mb _).bind fun s h =>
    (gate_off h h2 mb _).bind fun s h => (rzz_at h hab h1 h2 θ).bind fun s h =>
    (gate_off h h2 mb _).bind fun s h => (gate_off h h2 mb _).bind fun s h => (gate_off h h2 mb _).bind fun s h =>
    (gate_off h h1 ma _).bind fun s h => (gate_off h h1 ma _).bind fun s h => gate_off h h1 ma _

theorem img_eq {S : (ℕ → Bool) → Prop} (f : ℕ → Bool) (h : S f) : img (fun f g => g = f) S f := ⟨f, h, rfl⟩

theorem r_trails (h : Trails δ S s) {p : Pauli} {q : ℕ} (hq : p = .I ∨ δ.Usable q) (θ : F) :
    Runs (if p = .I then δ else δ.use q) (img (fun f g => if p = .X ∨ p = .Y then Off [q] f g else g = f) S)
      (B.r N p θ q s) := by
  cases p with
  | I => exact ⟨s, rfl, h.mono fun f hf => ⟨f, hf, by simp⟩⟩
  | X => exact (gate_use h (hq.resolve_left nofun) _).mono fun g ⟨f, hf, h1⟩ => ⟨f, hf, by simpa using acts_off h1⟩
  | Y => exact (gate_use h (hq.resolve_left nofun) _).mono fun g ⟨f, hf, h1⟩ => ⟨f, hf, by simpa using acts_off h1⟩
  | Z => exact (gate_use h (hq.resolve_left nofun) _).mono fun g ⟨f, hf, h1⟩ => ⟨f, hf, by simpa [Acts] using h1⟩

theorem rCtl_trails (h : Trails δ S s) {cs : List ℕ} {p : Pauli} {q : ℕ} (hn : (cs ++ [q]).Nodup)
    (hq : ∀ i ∈ cs ++ [q], δ.Usable i) (θ : F) :
    Runs (if p = .I ∧ cs = [] then δ else δ.useAll (q :: cs))
      (img (fun f g => if (p = .X ∨ p = .Y) ∧ ∀ c ∈ cs, f c = true then Off [q] f g else g = f) S)
      (B.rCtl N cs p θ q s) := by
  cases p with
  | I =>
    cases cs with
    | nil => exact ⟨s, rfl, h.mono fun f hf => ⟨f, hf, by simp⟩⟩
    | cons c cs =>
      have hk := ensureAll_trails N (q :: c :: cs) h fun j hj => hq j (by simpa [or_comm, or_assoc, or_left_comm] using hj)
      have hm := operands h.kept.below hq
      rw [if_neg (by simp)]
      refine Runs.mono (act_trails (N := N) hk (.phase cs (N.cis (N.div (N.neg θ) N.two)) c) (fun _ => rfl) ⟨?_, ?_⟩ rfl rfl)
        fun f hf => ⟨f, hf, by simp⟩
      · have h1 : (c :: cs).Nodup := (List.nodup_append.1 hn).1
        exact (List.perm_append_singleton c cs).nodup_iff.2 h1
      · intro i hi
        refine hm i ?_
        simp only [List.mem_append, List.mem_cons, List.not_mem_nil, or_false] at hi ⊢
        tauto
  | X =>
    rw [if_neg (by simp)]
    refine (ctl_use h hn hq _).mono fun g ⟨f, hf, h1⟩ => ⟨f, hf, ?_⟩
    dsimp only at h1 ⊢
    by_cases hc : ∀ c ∈ cs, f c = true
    · rw [if_pos hc] at h1; rw [if_pos ⟨.inl rfl, hc⟩]; exact acts_off h1
    · rw [if_neg hc] at h1; rw [if_neg fun h => hc h.2]; exact h1
  | Y =>
    rw [if_neg (by simp)]
    refine (ctl_use h hn hq _).mono fun g ⟨f, hf, h1⟩ => ⟨f, hf, ?_⟩
    dsimp only at h1 ⊢
    by_cases hc : ∀ c ∈ cs, f c = true
    · rw [if_pos hc] at h1; rw [if_pos ⟨.inr rfl, hc⟩]; exact acts_off h1
    · rw [if_neg hc] at h1; rw [if_neg fun h => hc h.2]; exact h1
  | Z =>
    rw [if_neg (by simp)]
    refine (ctl_use h hn hq _).mono fun g ⟨f, hf, h1⟩ => ⟨f, hf, ?_⟩
    dsimp only at h1 ⊢
    rw [if_neg (by simp)]
    split at h1
    · exact h1
    · exact h1

theorem changed_flipped (ps : List Pauli) (qs : List ℕ) : changed (ps.map Sim.pauliArg) qs = flipped ps qs := by
  unfold changed flipped
  rw [List.zip_map_left, List.filter_map, List.map_map]
  congr 1
  refine List.filter_congr fun p _ => ?_
  obtain ⟨p, q⟩ := p
  cases p <;> simp [Sim.pauliArg]

theorem exp_trails (h : Trails δ S s) {ps : List Pauli} {qs : List ℕ} (hn : qs.Nodup) (hq : ∀ i ∈ qs, δ.Usable i)
    (hp : ps.length ≤ qs.length) (θ : F) :
    Runs (δ.useAll qs) (img (fun f g => g = f ∨ g = toggle (flipped ps qs) f) S) (B.exp N ps θ qs s) := by
  refine Runs.mono (act_trails (ensureAll_trails N qs h hq) (.exp [] (ps.map Sim.pauliArg) θ qs) (fun _ => rfl)
    ⟨hn, mem_useAll qs h.kept.below hq, by simpa using hp⟩ rfl rfl) fun g ⟨f, hf, h1⟩ => ⟨f, hf, ?_⟩
  dsimp only
  rw [← changed_flipped]
  simpa using h1

theorem expCtl_trails (h : Trails δ S s) {cs : List ℕ} {ps : List Pauli} {qs : List ℕ} (hn : (cs ++ qs).Nodup)
    (hq : ∀ i ∈ cs ++ qs, δ.Usable i) (hp : ps.length ≤ qs.length) (θ : F) :
    Runs (δ.useAll (cs ++ qs)) (img (fun f g => g = f ∨ ((∀ c ∈ cs, f c = true) ∧ g = toggle (flipped ps qs) f)) S)
      (B.expCtl N cs ps θ qs s) := by
  have hk := ensureAll_trails N (cs ++ qs) h hq
  have he : ensureAll (cs ++ qs) s = ensureAll qs (ensureAll cs s) := List.foldl_append
  rw [he] at hk
  refine Runs.mono (act_trails hk (.exp cs (ps.map Sim.pauliArg) θ qs) (fun _ => rfl)
    ⟨hn, mem_useAll _ h.kept.below hq, by simpa using hp⟩ rfl rfl) fun g ⟨f, hf, h1⟩ => ⟨f, hf, ?_⟩
  dsimp only
  rw [← changed_flipped]
  split at h1
  · rename_i hc
    exact h1.imp id fun h => ⟨hc, h⟩
  · exact .inl h1

theorem swap_trails (h : Trails δ S s) {a b : ℕ} (ha : δ.Usable a) (hb : δ.Usable b) :
    Runs (δ.useAll [a, b]) (img (fun f g => g a = f b ∧ g b = f a ∧ ∀ q, q ≠ a → q ≠ b → g q = f q) S) (B.swap N a b s) := by
  have hu : ∀ i ∈ [a, b], δ.Usable i := by simp [ha, hb]
  have hm := mem_useAll [a, b] h.kept.below hu
  exact act_trails (ensureAll_trails N [a, b] h hu) (.swap a b) (fun _ => rfl) ⟨hm a (by simp), hm b (by simp)⟩ rfl rfl

end Gen
end Qir
