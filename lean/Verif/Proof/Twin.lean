import Verif.Proof.Order
import Verif.Proof.Walk2

/-!
Two runs of the simulator that differ only in the order in which hash maps are visited.

`Twin s s'`: the same simulator, but for the order of the amplitude list; the indices of the list are
pairwise different and use only allocated locations.
-/

noncomputable section
namespace Qir
open Spec Function Sim

/-- The same outcome: the same panic, or related results. -/
def Both {E α : Type} (R : α → α → Prop) : Except E α → Except E α → Prop
  | .ok a, .ok b => R a b
  | .error e, .error e' => e = e'
  | _, _ => False

/-- The same simulator, but for the order of the amplitude list. -/
def Twin (s s' : Sim) : Prop :=
  Core s.idMap s.state ∧ ∃ st, s' = { s with state := st } ∧ st.Perm s.state

/-- The same answer, and simulators that differ only in that order. -/
def TwinV {α : Type} (r r' : α × Sim) : Prop := r.1 = r'.1 ∧ Twin r.2 r'.2

theorem Both.bind {E α β : Type} {R : α → α → Prop} {S : β → β → Prop} {x x' : Except E α}
    {f f' : α → Except E β} (h : Both R x x') (hf : ∀ a b, R a b → Both S (f a) (f' b)) :
    Both S (x >>= f) (x' >>= f') := by
  cases x <;> cases x'
  · exact h
  · exact h.elim
  · exact h.elim
  · exact hf _ _ h

theorem Both.same {E α β : Type} {S : β → β → Prop} {x : Except E α}
    {f f' : α → Except E β} (hf : ∀ a, x = .ok a → Both S (f a) (f' a)) :
    Both S (x >>= f) (x >>= f') := by
  cases x with
  | error e => exact rfl
  | ok a => exact hf a rfl

theorem Both.ok {E α : Type} {R : α → α → Prop} {a b : α} (h : R a b) :
    Both (E := E) R (.ok a) (.ok b) := h

theorem Both.mono {E α : Type} {R S : α → α → Prop} {x x' : Except E α} (h : Both R x x')
    (hi : ∀ a b, R a b → S a b) : Both S x x' := by
  cases x <;> cases x'
  · exact h
  · exact h.elim
  · exact h.elim
  · exact hi _ _ h

theorem Twin.of {s : Sim} (hc : Core s.idMap s.state) {st : List (ℕ × ℂ)} (hp : st.Perm s.state) :
    Twin s { s with state := st } := ⟨hc, st, rfl, hp⟩

theorem lookup_perm {l l' : List (ℕ × ℂ)} (h : (l.map Prod.fst).Nodup) (hp : l'.Perm l) :
    lookupMap l' = lookupMap l := by
  have h' : (l'.map Prod.fst).Nodup := ((hp.map _).nodup_iff).2 h
  funext k
  cases hk : lookupMap l k with
  | none =>
    rw [lookupMap_eq_none h] at hk
    rw [lookupMap_eq_none h']
    intro hc
    exact hk (((hp.map _).mem_iff).1 hc)
  | some v =>
    rw [lookupMap_eq_some h] at hk
    rw [lookupMap_eq_some h']
    exact hp.mem_iff.2 hk

theorem shuffle_perm2 {env env' : Env} {m : IMap ℕ} {l l' : List (ℕ × ℂ)} (h : Core m l) (hp : l'.Perm l) :
    (env'.shuffle (collectMap l')).Perm (env.shuffle (collectMap l)) := by
  rw [collectMap_nodup h.nodup, collectMap_nodup (h.perm hp).nodup]
  exact ((env'.shuffle_perm _).trans hp).trans (env.shuffle_perm _).symm

theorem resolveIds_locs {m : IMap ℕ} {ids locs : List ℕ} (h : resolveIds m ids = .ok locs) :
    List.Forall₂ (fun i l => m.get i = some l) ids locs := by
  induction ids generalizing locs with
  | nil => cases h; exact .nil
  | cons i ids ih =>
    unfold resolveIds at h
    obtain ⟨l, h1, h⟩ := bind_ok h
    obtain ⟨ls, h2, h⟩ := bind_ok h
    cases h
    exact .cons (resolveId_ok h1) (ih h2)

theorem resolveAndCheck_locs {m : IMap ℕ} {t : ℕ} {cs : List ℕ} {tl : ℕ} {csl : List ℕ}
    (h : resolveAndCheck m t cs = .ok (tl, csl)) :
    List.Forall₂ (fun i l => m.get i = some l) cs csl ∧ m.get t = some tl ∧ t ∉ cs := by
  have hok := resolveAndCheck_inv h .X
  unfold resolveAndCheck at h
  obtain ⟨_, h0, h⟩ := bind_ok h
  obtain ⟨l, h1, h⟩ := bind_ok h
  obtain ⟨ls, h2, h⟩ := bind_ok h
  cases h
  refine ⟨resolveIds_locs h2, resolveId_ok h1, ?_⟩
  have := hok.1
  rw [List.nodup_append] at this
  intro hc
  exact this.2.2 t hc t (by simp) rfl

/-! ### The operation queue -/

theorem twin_takeOps {s s' : Sim} (h : Twin s s') :
    Both (fun p p' => p.1 = p'.1 ∧ Twin p.2 p'.2 ∧ p.2.idMap = s.idMap ∧
      Core p.2.idMap (p.2.state.map (applyOps p.1))) s.takeOps s'.takeOps := by
  obtain ⟨hc, st, rfl, hp⟩ := h
  unfold takeOps
  apply Both.same
  intro ops hr
  exact ⟨rfl, ⟨hc, st, rfl, hp⟩, rfl, hc.applyOps hr⟩

theorem twin_flushOps {s s' : Sim} (h : Twin s s') : Both Twin s.flushOps s'.flushOps := by
  have ht := twin_takeOps h
  obtain ⟨hc, st, rfl, hp⟩ := h
  unfold flushOps
  simp only
  split
  · exact ⟨hc, st, rfl, hp⟩
  · apply ht.bind
    rintro ⟨ops, a⟩ ⟨_, b⟩ ⟨rfl, ⟨h1, st', rfl, h2⟩, _, h3⟩
    exact Both.ok ⟨h3, _, rfl, h2.map _⟩

theorem twin_enqueue {s s' : Sim} (h : Twin s s') (t : ℕ) (cs : List ℕ) (o : OpCode) :
    Both Twin (s.enqueueOp t cs o) (s'.enqueueOp t cs o) := by
  have hf := twin_flushOps h
  obtain ⟨hc, st, rfl, hp⟩ := h
  unfold enqueueOp
  simp only
  split
  · apply hf.bind
    rintro a b ⟨h1, st', rfl, h2⟩
    exact Both.ok ⟨h1, _, rfl, h2⟩
  · exact Both.ok ⟨hc, _, rfl, hp⟩

theorem twin_x {s s' : Sim} (h : Twin s s') (t : ℕ) : Both Twin (s.x t) (s'.x t) := by
  obtain ⟨hc, st, rfl, hp⟩ := h
  unfold x
  simp only
  split
  · refine twin_enqueue ?_ _ _ _
    exact ⟨hc, _, rfl, hp⟩
  · refine twin_enqueue ?_ _ _ _
    exact ⟨hc, _, rfl, hp⟩

theorem twin_y {s s' : Sim} (h : Twin s s') (t : ℕ) : Both Twin (s.y t) (s'.y t) := by
  obtain ⟨hc, st, rfl, hp⟩ := h
  unfold y
  refine twin_enqueue ?_ _ _ _
  exact ⟨hc, _, rfl, hp⟩

theorem twin_z {s s' : Sim} (h : Twin s s') (t : ℕ) : Both Twin (s.z t) (s'.z t) := by
  obtain ⟨hc, st, rfl, hp⟩ := h
  unfold z
  simp only
  split
  · refine twin_enqueue ?_ _ _ _
    exact ⟨hc, _, rfl, hp⟩
  · refine twin_enqueue ?_ _ _ _
    exact ⟨hc, _, rfl, hp⟩

/-! ### Gates that change the support -/

theorem mchEntry_congr {eps : ℝ} {l l' : List (ℕ × ℂ)} (h : lookupMap l' = lookupMap l) (cs : List ℕ) (t : ℕ) :
    mchEntry eps l' cs t = mchEntry eps l cs t := by
  funext e; unfold mchEntry; rw [h]

theorem rotEntry_congr {eps : ℝ} {l l' : List (ℕ × ℂ)} (h : lookupMap l' = lookupMap l) (cs : List ℕ) (t : ℕ)
    (a b c : ℂ) : rotEntry eps l' cs t a b c = rotEntry eps l cs t a b c := by
  funext e; unfold rotEntry; rw [h]

theorem expEntry_congr {eps : ℝ} {l l' : List (ℕ × ℂ)} (h : lookupMap l' = lookupMap l) (cs : List ℕ)
    (x y : ℕ) (a b c : ℂ) : expEntry eps l' cs x y a b c = expEntry eps l cs x y a b c := by
  funext e; unfold expEntry; rw [h]

variable {env env' : Env}

theorem twin_applyMch (he : env'.eps = env.eps) {s s' : Sim} (h : Twin s s') (cs : List ℕ) (t : ℕ) :
    Both Twin (s.applyMch env cs t) (s'.applyMch env' cs t) := by
  have ht := twin_takeOps h
  obtain ⟨hc, st, rfl, hp⟩ := h
  unfold applyMch
  simp only
  apply Both.same
  rintro ⟨tl, csl⟩ hr
  obtain ⟨g1, g2, g3⟩ := resolveAndCheck_locs hr
  apply ht.bind
  rintro ⟨ops, a⟩ ⟨_, b⟩ ⟨rfl, ⟨h1, st', rfl, h2⟩, h0, h3⟩
  simp only at h0 h1 h2 h3 ⊢
  have hsh := shuffle_perm2 (env := env) (env' := env') h3 (h2.map (applyOps ops))
  have hcs := h3.shuffled env
  apply Both.ok
  rw [he, mchEntry_congr (lookup_perm hcs.nodup hsh)]
  rw [← h0] at g1 g2
  exact ⟨core_mch hcs _ g1 g2 g3, _, rfl, hsh.flatMap_right _⟩

theorem map_scale (cs : List ℕ) (f : ℂ) (ops : List (List ℕ × ℕ × OpCode)) (st : List (ℕ × ℂ)) :
    st.map (fun e => scaleIf cs f (applyOps ops e)) = (st.map (applyOps ops)).map (scaleIf cs f) := by
  rw [List.map_map]; rfl

theorem twin_mcrotation (he : env'.eps = env.eps) {p p' : Sim → Except Panic Sim}
    (hpp : ∀ s s', Twin s s' → Both Twin (p s) (p' s')) {s s' : Sim} (h : Twin s s') (cs : List ℕ)
    (θ : ℝ) (t : ℕ) (b : Bool) :
    Both Twin (s.mcrotation env p cs θ t b) (s'.mcrotation env' p' cs θ t b) := by
  unfold mcrotation
  simp only [he]
  split
  · apply (hpp s s' h).bind
    intro s s' h
    have ht := twin_takeOps h
    obtain ⟨hc, st, rfl, hp⟩ := h
    simp only
    apply Both.same
    rintro ⟨tl, csl⟩ hr
    simp only
    generalize rotM01 θ b * (if b = true then Complex.I else 1) = fac
    split
    · apply ht.bind
      rintro ⟨ops, a⟩ ⟨_, b⟩ ⟨rfl, ⟨h1, st', rfl, h2⟩, h0, h3⟩
      apply Both.ok
      rw [map_scale, map_scale]
      exact ⟨h3.mapKey _ (scaleIf_fst _ _), _, rfl, (h2.map _).map _⟩
    · exact Both.ok ⟨hc, _, rfl, hp⟩
  · split
    · split
      · have ht := twin_takeOps h
        obtain ⟨hc, st, rfl, hp⟩ := h
        apply ht.bind
        rintro ⟨ops, a⟩ ⟨_, b⟩ ⟨rfl, ⟨h1, st', rfl, h2⟩, h0, h3⟩
        simp only
        apply Both.same
        rintro ⟨tl, csl⟩ hr
        apply Both.ok
        simp only
        rw [map_scale, map_scale]
        exact ⟨h3.mapKey _ (scaleIf_fst _ _), _, rfl, (h2.map _).map _⟩
      · exact h
    · have ht := twin_takeOps h
      obtain ⟨hc, st, rfl, hp⟩ := h
      simp only
      apply Both.same
      rintro ⟨tl, csl⟩ hr
      obtain ⟨g1, g2, g3⟩ := resolveAndCheck_locs hr
      apply ht.bind
      rintro ⟨ops, a⟩ ⟨_, b⟩ ⟨rfl, ⟨h1, st', rfl, h2⟩, h0, h3⟩
      simp only at h0 h1 h2 h3 ⊢
      have hsh := shuffle_perm2 (env := env) (env' := env') h3 (h2.map (applyOps ops))
      have hcs := h3.shuffled env
      apply Both.ok
      rw [rotEntry_congr (lookup_perm hcs.nodup hsh)]
      rw [← h0] at g1 g2
      exact ⟨core_rot hcs _ g1 g2 g3 _ _ _, _, rfl, hsh.flatMap_right _⟩

/-! ### Flushing -/

theorem twin_flushRx (he : env'.eps = env.eps) {s s' : Sim} (h : Twin s s') (t : ℕ) :
    Both Twin (s.flushRx env t) (s'.flushRx env' t) := by
  have hr := fun θ => twin_mcrotation he (fun s s' h => twin_x h t) h [] θ t false
  obtain ⟨hc, st, rfl, hp⟩ := h
  unfold flushRx
  simp only
  split
  · apply (hr _).bind
    rintro a b ⟨h1, st', rfl, h2⟩
    exact Both.ok ⟨h1, _, rfl, h2⟩
  · exact ⟨hc, _, rfl, hp⟩

theorem twin_flushRy (he : env'.eps = env.eps) {s s' : Sim} (h : Twin s s') (t : ℕ) :
    Both Twin (s.flushRy env t) (s'.flushRy env' t) := by
  have hr := fun θ => twin_mcrotation he (fun s s' h => twin_y h t) h [] θ t true
  obtain ⟨hc, st, rfl, hp⟩ := h
  unfold flushRy
  simp only
  split
  · apply (hr _).bind
    rintro a b ⟨h1, st', rfl, h2⟩
    exact Both.ok ⟨h1, _, rfl, h2⟩
  · exact ⟨hc, _, rfl, hp⟩

theorem twin_flushH (he : env'.eps = env.eps) {s s' : Sim} (h : Twin s s') (t : ℕ) :
    Both Twin (s.flushH env t) (s'.flushH env' t) := by
  have hr := twin_applyMch he h [] t
  obtain ⟨hc, st, rfl, hp⟩ := h
  unfold flushH
  simp only
  split
  · apply hr.bind
    rintro a b ⟨h1, st', rfl, h2⟩
    exact Both.ok ⟨h1, _, rfl, h2⟩
  · exact ⟨hc, _, rfl, hp⟩

theorem twin_flushOne (he : env'.eps = env.eps) {s s' : Sim} (h : Twin s s') (l : FlushLevel) (t : ℕ) :
    Both Twin (s.flushOne env l t) (s'.flushOne env' l t) := by
  unfold flushOne
  apply (twin_flushH he h t).bind
  intro a b h
  cases l
  · exact Both.ok h
  · exact twin_flushRx he h t
  · exact (twin_flushRx he h t).bind fun a b h => twin_flushRy he h t

theorem twin_flushLoop (he : env'.eps = env.eps) (l : FlushLevel) (ids : List ℕ) {s s' : Sim} (h : Twin s s') :
    Both Twin (s.flushLoop env l ids) (s'.flushLoop env' l ids) := by
  induction ids generalizing s s' with
  | nil => exact h
  | cons t ids ih => exact (twin_flushOne he h l t).bind fun a b h => ih h

theorem twin_flushQueue (he : env'.eps = env.eps) {s s' : Sim} (h : Twin s s') (ids : List ℕ) (l : FlushLevel) :
    Both Twin (s.flushQueue env ids l) (s'.flushQueue env' ids l) :=
  (twin_flushLoop he l ids h).bind fun _ _ h => twin_flushOps h

theorem Twin.hasQueued {s s' : Sim} (h : Twin s s') (q : ℕ) : s'.hasQueued q = s.hasQueued q := by
  obtain ⟨_, st, rfl, _⟩ := h; rfl

theorem twin_maybeFlush (he : env'.eps = env.eps) {s s' : Sim} (h : Twin s s') (ids : List ℕ) (l : FlushLevel) :
    Both Twin (s.maybeFlush env ids l) (s'.maybeFlush env' ids l) := by
  unfold maybeFlush
  simp only [h.hasQueued]
  split
  · exact twin_flushQueue he h ids l
  · exact h

theorem twin_flushIf (he : env'.eps = env.eps) {s s' : Sim} (h : Twin s s') (c : Bool) (ids : List ℕ)
    (l : FlushLevel) : Both Twin (s.flushIf env c ids l) (s'.flushIf env' c ids l) := by
  unfold flushIf
  split
  · exact twin_flushQueue he h ids l
  · exact h

/-! ### Gates -/

theorem Twin.fields {s s' : Sim} (h : Twin s s') :
    s'.idMap = s.idMap ∧ s'.rng = s.rng ∧ s'.hFlag = s.hFlag ∧ s'.rxQ = s.rxQ ∧ s'.ryQ = s.ryQ ∧
      s'.opQ = s.opQ := by
  obtain ⟨_, st, rfl, _⟩ := h; exact ⟨rfl, rfl, rfl, rfl, rfl, rfl⟩

theorem Twin.set {s s' : Sim} (h : Twin s s') (hf : ℕ) (rx ry : IMap ℝ) :
    Twin { s with hFlag := hf, rxQ := rx, ryQ := ry } { s' with hFlag := hf, rxQ := rx, ryQ := ry } := by
  obtain ⟨h1, st, rfl, h2⟩ := h; exact ⟨h1, _, rfl, h2⟩

theorem twin_mcx (he : env'.eps = env.eps) {s s' : Sim} (h : Twin s s') (cs : List ℕ) (t : ℕ) :
    Both Twin (s.mcx env cs t) (s'.mcx env' cs t) := by
  unfold mcx
  cases cs with
  | nil => exact twin_x h t
  | cons c0 cs =>
    simp only [h.fields]
    apply (twin_flushIf he h _ _ _).bind
    intro s s' h
    apply Both.bind (R := Twin)
    · unfold mcxFlushCtls
      simp only [h.fields]
      split
      · exact twin_maybeFlush he h _ _
      · exact twin_flushIf he h _ _ _
    · intro s s' h
      simp only [h.fields]
      split
      · split
        · exact twin_enqueue h _ _ _
        · exact twin_enqueue h _ _ _
      · exact twin_enqueue h _ _ _

theorem twin_mcy (he : env'.eps = env.eps) {s s' : Sim} (h : Twin s s') (cs : List ℕ) (t : ℕ) :
    Both Twin (s.mcy env cs t) (s'.mcy env' cs t) := by
  unfold mcy
  cases cs with
  | nil => exact twin_y h t
  | cons c0 cs =>
    apply (twin_maybeFlush he h _ _).bind
    intro s s' h
    simp only [h.fields]
    apply (twin_flushIf he h _ _ _).bind
    intro s s' h
    apply Both.bind (R := Twin)
    · unfold enqueueIf
      simp only [h.fields]
      split
      · exact twin_enqueue h _ _ _
      · exact h
    · intro s s' h
      exact twin_enqueue h _ _ _

theorem phaseIf_fst (cs : List ℕ) (φ : ℂ) (t : ℕ) (e : ℕ × ℂ) :
    (if cs.all (fun c => e.1.testBit c) then phaseTransform φ e t else e).1 = e.1 := by
  split <;> rfl

theorem twin_mcphase (he : env'.eps = env.eps) {s s' : Sim} (h : Twin s s') (cs : List ℕ) (φ : ℂ) (t : ℕ) :
    Both Twin (s.mcphase env cs φ t) (s'.mcphase env' cs φ t) := by
  unfold mcphase
  apply (twin_flushQueue he h _ _).bind
  intro s s' h
  apply (twin_flushQueue he h _ _).bind
  rintro s s' ⟨hc, st, rfl, hp⟩
  simp only
  apply Both.same
  rintro ⟨tl, csl⟩ hr
  exact Both.ok ⟨hc.mapKey _ (phaseIf_fst _ _ _), _, rfl, hp.map _⟩

theorem Twin.mczCount {s s' : Sim} (h : Twin s s') (cs : List ℕ) (t : ℕ) :
    s'.mczCount cs t = s.mczCount cs t := by
  obtain ⟨_, st, rfl, _⟩ := h; rfl

theorem twin_mcz (he : env'.eps = env.eps) {s s' : Sim} (h : Twin s s') (cs : List ℕ) (t : ℕ) :
    Both Twin (s.mcz env cs t) (s'.mcz env' cs t) := by
  unfold mcz
  cases cs with
  | nil => exact twin_z h t
  | cons c0 cs =>
    simp only [h.mczCount, h.fields]
    split
    · split
      · exact twin_enqueue h _ _ _
      · exact twin_enqueue h _ _ _
    · apply (twin_flushQueue he h _ _).bind
      intro s s' h
      apply (twin_flushQueue he h _ _).bind
      intro s s' h
      exact twin_enqueue h _ _ _

theorem twin_diag (he : env'.eps = env.eps) {s s' : Sim} (h : Twin s s') (o : OpCode) (t : ℕ) :
    Both Twin (s.diagGate env o t) (s'.diagGate env' o t) :=
  (twin_maybeFlush he h _ _).bind fun _ _ h => twin_enqueue h _ _ _

theorem twin_mcDiag (he : env'.eps = env.eps) {s s' : Sim} (h : Twin s s') (o : OpCode) (cs : List ℕ) (t : ℕ) :
    Both Twin (s.mcDiagGate env o cs t) (s'.mcDiagGate env' o cs t) :=
  (twin_maybeFlush he h _ _).bind fun _ _ h =>
    (twin_maybeFlush he h _ _).bind fun _ _ h => twin_enqueue h _ _ _

theorem twin_h (he : env'.eps = env.eps) {s s' : Sim} (h : Twin s s') (t : ℕ) :
    Both Twin (s.h env t) (s'.h env' t) := by
  unfold Sim.h
  have h0 := h.set s.hFlag s.rxQ (s.ryQ.modify t (fun a => a * (-1)))
  have hb := twin_flushIf he h0 (s.rxQ.containsKey t) [t] .HRx
  obtain ⟨hc, st, rfl, hp⟩ := h
  apply hb.bind
  rintro a b ⟨h1, st', rfl, h2⟩
  exact Both.ok ⟨h1, _, rfl, h2⟩

theorem twin_mch (he : env'.eps = env.eps) {s s' : Sim} (h : Twin s s') (cs : List ℕ) (t : ℕ) :
    Both Twin (s.mch env cs t) (s'.mch env' cs t) := by
  unfold mch
  apply (twin_flushQueue he h _ _).bind
  intro s s' h
  simp only [h.fields]
  apply (twin_flushIf he h _ _ _).bind
  intro s s' h
  exact twin_applyMch he h _ _

theorem twin_rx (he : env'.eps = env.eps) {s s' : Sim} (h : Twin s s') (θ : ℝ) (t : ℕ) :
    Both Twin (s.rx env θ t) (s'.rx env' θ t) := by
  unfold rx
  simp only [h.fields]
  apply (twin_flushIf he h _ _ _).bind
  rintro a b ⟨h1, st', rfl, h2⟩
  rw [he]
  exact Both.ok ⟨h1, _, rfl, h2⟩

theorem twin_ry (he : env'.eps = env.eps) {s s' : Sim} (h : Twin s s') (θ : ℝ) (t : ℕ) :
    Both Twin (s.ry env θ t) (s'.ry env' θ t) := by
  obtain ⟨h1, st', rfl, h2⟩ := h
  unfold ry
  rw [he]
  exact Both.ok ⟨h1, _, rfl, h2⟩

theorem twin_mcrx (he : env'.eps = env.eps) {s s' : Sim} (h : Twin s s') (cs : List ℕ) (θ : ℝ) (t : ℕ) :
    Both Twin (s.mcrx env cs θ t) (s'.mcrx env' cs θ t) := by
  unfold mcrx
  apply (twin_flushQueue he h _ _).bind
  intro s s' h
  simp only [h.fields]
  split
  · exact (twin_flushQueue he h _ _).bind fun s s' h =>
      twin_mcrotation he (fun s s' h => twin_mcx he h cs t) h _ _ _ _
  · exact (twin_flushIf he h _ _ _).bind fun s s' h =>
      twin_mcrotation he (fun s s' h => twin_mcx he h cs t) h _ _ _ _

theorem twin_mcry (he : env'.eps = env.eps) {s s' : Sim} (h : Twin s s') (cs : List ℕ) (θ : ℝ) (t : ℕ) :
    Both Twin (s.mcry env cs θ t) (s'.mcry env' cs θ t) := by
  unfold mcry
  apply (twin_flushQueue he h _ _).bind
  intro s s' h
  simp only [h.fields]
  split
  · exact (twin_flushQueue he h _ _).bind fun s s' h =>
      twin_mcrotation he (fun s s' h => twin_mcy he h cs t) h _ _ _ _
  · exact (twin_flushIf he h _ _ _).bind fun s s' h =>
      twin_mcrotation he (fun s s' h => twin_mcy he h cs t) h _ _ _ _

theorem twin_gateCall (he : env'.eps = env.eps) {s s' : Sim} (h : Twin s s') (g : Gate) (q : ℕ) :
    Both Twin (gateCall env q g s) (gateCall env' q g s') := by
  cases g <;> unfold gateCall
  · exact twin_x h q
  · exact twin_y h q
  · exact twin_z h q
  · exact twin_h he h q
  · exact twin_diag he h _ q
  · exact twin_diag he h _ q
  · exact twin_diag he h _ q
  · exact twin_diag he h _ q
  · exact twin_rx he h _ q
  · exact twin_ry he h _ q
  · exact twin_diag he h _ q

theorem twin_ctrlCall (he : env'.eps = env.eps) {s s' : Sim} (h : Twin s s') (g : Gate) (cs : List ℕ) (q : ℕ) :
    Both Twin (ctrlCall env cs q g s) (ctrlCall env' cs q g s') := by
  cases g <;> unfold ctrlCall
  · exact twin_mcx he h cs q
  · exact twin_mcy he h cs q
  · exact twin_mcz he h cs q
  · exact twin_mch he h cs q
  · exact twin_mcDiag he h _ cs q
  · exact twin_mcDiag he h _ cs q
  · exact twin_mcDiag he h _ cs q
  · exact twin_mcDiag he h _ cs q
  · exact twin_mcrx he h cs _ q
  · exact twin_mcry he h cs _ q
  · exact twin_mcDiag he h _ cs q

end Qir
