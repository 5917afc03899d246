import Verif.Proof.RndApply4
import Verif.Proof.RndAngles
import Verif.Props.RoundedApplyDefs

/-! Histories with `apply` in rounded arithmetic. -/

noncomputable section
namespace Qir.Rnd
open Spec Function Sim Tol

variable {A : Arith} {N : ℕ} {B : ℝ}

theorem low_placeOne {s : Sim} (h : Low B s) (i k : ℕ) : Post (Low B) (placeOne A i k s) := by
  unfold placeOne
  refine Post.any fun _ => ?_
  cases findByLoc s.idMap i with
  | none => intro a ha; cases ha
  | some id =>
    show Post (Low B) (swapQubitState A _ i s >>= _)
    refine Post.bind (P := Low B) ?_ fun s1 h1 => Post.pure h1
    unfold swapQubitState
    split
    · exact Post.ok h
    · exact (low_flushQueue h _ _).bind fun _ h1 => Post.pure h1

theorem low_place (ks : List ℕ) : ∀ (i : ℕ) {s : Sim}, Low B s → Post (Low B) (place A i ks s) := by
  induction ks with
  | nil => intro i s h; exact Post.ok h
  | cons k ks ih => intro i s h; exact (low_placeOne h i k).bind fun _ h1 => ih _ h1

theorem low_apply {s : Sim} (h : Low B s) (u : Mat) (hu : u.cols = u.rows) (ts cs : List ℕ)
    (hl : u.rows = 2 ^ ts.length) : Post (Low B) (apply A u ts (some cs) s) := by
  rw [apply_some hu hl]
  unfold applyOn
  refine Post.any fun _ => (low_flushQueue h _ _).bind fun _ h1 => (low_place _ _ h1).bind fun _ h2 => ?_
  dsimp only
  split
  · intro a ha; cases ha
  · exact Post.pure h2

theorem low_callX (he : 0 ≤ A.eps) (hB : 0 ≤ B) {s : Sim} (h : Low B s) (c : Call)
    (ha : A.u * (B + c.turn A) + A.eta ≤ A.eps) : AngleCall A s c ∧
      ∀ o s', callX A (.base c) s = .ok (o, s') → Low (B + c.turn A) s' :=
  ⟨(low_call he hB h c ha).1, fun o s' hs => (low_call he hB h c ha).2 (o, s') hs⟩

theorem carriedOutX_live (A : Arith) (s : Sim) (c : XCall) (σ : Ideal) :
    (σ.xstep (carriedOutX A s c)).live = (σ.xstep c).live := by
  cases c with
  | base c => exact carriedOut_live A s c σ
  | apply _ _ _ => rfl

theorem passes_le (t : ℕ) : passes t ≤ 5 * (2 ^ t + 3 * t) := by unfold passes; have := Nat.one_le_two_pow (n := t); omega

theorem xvalidRun_of_live (cs : List XCall) : ∀ {σ τ : Ideal}, σ.live = τ.live →
    (σ.XValidRun cs ↔ τ.XValidRun cs) := by
  have live_congr : ∀ {σ τ : Ideal}, σ.live = τ.live → ∀ c : XCall, (σ.xstep c).live = (τ.xstep c).live := by
    intro σ τ h c
    cases c with
    | base c => exact live_step_congr h c
    | apply _ _ _ => exact h
  induction cs with
  | nil => intro σ τ _; exact Iff.rfl
  | cons c cs ih =>
    intro σ τ h
    have h1 : σ.XValid c ↔ τ.XValid c := by
      cases c with
      | base c => exact valid_congr h c
      | apply _ _ _ => simp only [Ideal.XValid, h]
    exact and_congr h1 (ih (live_congr h c))

variable {s : Sim}

theorem packed_getState (hf : Fine A) (hw : Qir.WF s) {l : List (ℕ × ℂ)} {n : ℕ} {s' : Sim}
    (h : Rnd.getState A s = .ok ((l, n), s')) : Packed s'.idMap := by
  obtain ⟨s1, s2, h1, h2, _, _, _, hsome, _, _, hg⟩ := arrange_near hf hw
  unfold Rnd.getState at h
  simp only [show s.idMap.iter.map Prod.fst = s.idMap.keys from rfl, h1, h2, ok_bind, pure_ok] at h
  cases h
  exact used_arranged (by intro q; rw [hsome]; exact IMap.mem_keys _ _) hg

theorem packed_dump (hf : Fine A) (hw : Qir.WF s) {fmt : ℂ → String} {t : String} {s' : Sim}
    (h : Rnd.dump A fmt s = .ok (t, s')) : Packed s'.idMap := by
  obtain ⟨s1, s2, h1, h2, _, _, _, hsome, _, _, hg⟩ := arrange_near hf hw
  unfold Rnd.dump at h
  simp only [show s.idMap.iter.map Prod.fst = s.idMap.keys from rfl, h1, h2, ok_bind, pure_ok] at h
  cases h
  exact used_arranged (by intro q; rw [hsome]; exact IMap.mem_keys _ _) hg

theorem packed_call (hf : Fine A) {d : ℝ} {σ : Ideal} (h : Tracks A N d s σ) {c : Call} (hv : σ.Valid c) (hang : AngleCall A s c)
    (hrel : ∀ q, c ≠ .release q) {o : Out} {s' : Sim} (hc : Rnd.call A c s = .ok (o, s')) (hp : Packed s.idMap) :
    Packed s'.idMap := by
  cases c with
  | gate g q =>
    obtain ⟨g', s1, _, h1, h2⟩ := gateCall_near hf h.wf ((h.live q).1 hv) g hang
    have := quiet_inv hc
    rw [h1] at this; cases this
    rw [h2.idMap]; exact hp
  | ctrl g cs q =>
    obtain ⟨s1, h1, h2⟩ := ctrlCall_near hf h.wf (h.opnds hv) g
    have := quiet_inv hc
    rw [h1] at this; cases this
    rw [h2.idMap]; exact hp
  | phase cs φ q =>
    obtain ⟨s1, h1, h2⟩ := mcphase_step hf h.wf (h.opnds ⟨hv.1, hv.2.1⟩) φ (isom_phase_norm hv.2.2)
    have := quiet_inv hc
    rw [h1] at this; cases this
    rw [h2.idMap]; exact hp
  | exp cs ps θ ts =>
    obtain ⟨s1, h1, h2⟩ := mcexp_step hf h.wf (ps := ps.map pauliArg) θ hv.1 (h.alloc hv.2.1)
      (by simpa using hv.2.2)
    have := quiet_inv hc
    rw [h1] at this; cases this
    rw [h2.idMap]; exact hp
  | swap a b =>
    have := quiet_inv hc
    unfold Rnd.swapQubitIds at this
    obtain ⟨s1, h1, this⟩ := bind_ok this
    obtain ⟨la, hla, this⟩ := bind_ok this
    obtain ⟨lb, hlb, this⟩ := bind_ok this
    cases this
    have hid : s1.idMap = s.idMap := by
      obtain ⟨s1', g1, g2, _⟩ := Same.flushOps hf h.wf
      rw [h1] at g1; cases g1
      exact g2.idMap
    have ha : s.idMap.get a = some la := by
      rw [← hid]
      unfold resolveId at hla
      revert hla
      dsimp only
      cases s1.idMap.get a <;> intro hla <;> cases hla
      rfl
    have hb : s.idMap.get b = some lb := by
      rw [← hid]
      unfold resolveId at hlb
      revert hlb
      dsimp only
      cases s1.idMap.get b <;> intro hlb <;> cases hlb
      rfl
    refine hp.of_used (fun l => ?_)
    show Used ((s1.idMap.modify a (fun _ => lb)).modify b (fun _ => la)) l ↔ _
    rw [hid]
    have hget : ∀ r, ((s.idMap.modify a (fun _ => lb)).modify b (fun _ => la)).get r =
        s.idMap.get (Equiv.swap a b r) := by
      intro r
      by_cases hrb : r = b
      · subst hrb
        rw [IMap.get_modify_same, IMap.get_modify, Equiv.swap_apply_right]
        by_cases hra : r = a
        · subst hra; simp [ha]
        · rw [if_neg hra, hb, ha]; rfl
      · rw [IMap.get_modify, if_neg hrb, IMap.get_modify]
        by_cases hra : r = a
        · subst hra; rw [if_pos rfl, Equiv.swap_apply_left, ha, hb]; rfl
        · rw [if_neg hra, Equiv.swap_apply_of_ne_of_ne hra hrb]
    constructor
    · rintro ⟨r, hr⟩; rw [hget] at hr; exact ⟨_, hr⟩
    · rintro ⟨r, hr⟩; exact ⟨Equiv.swap a b r, by rw [hget, Equiv.swap_apply_self]; exact hr⟩
  | allocate =>
    cases hc
    have hfree := firstFree_spec (sorted_values h.wf.b.core.inj)
    have hk := (newKey_spec s.idMap).1
    have hget : ∀ r, s.allocate.2.idMap.get r = if r = firstFree (s.idMap.iter.map Prod.fst) then
        some (firstFree (s.idMap.values.mergeSort (fun a b => decide (a ≤ b)))) else s.idMap.get r := by
      intro r
      show (s.idMap.insert _ _).get r = _
      rw [IMap.get_insert]
    have hmono : ∀ j, Used s.idMap j → Used s.allocate.2.idMap j := by
      rintro j ⟨i, hi⟩
      refine ⟨i, ?_⟩
      rw [hget, if_neg]
      · exact hi
      · rintro rfl; rw [hk] at hi; cases hi
    rintro l ⟨r, hr⟩ j hj
    rw [hget] at hr
    split at hr
    · cases hr
      have := hfree.2 j hj
      rw [List.mem_mergeSort, mem_values] at this
      exact hmono j this
    · exact hmono j (hp l ⟨r, hr⟩ j hj)
  | release q => exact absurd rfl (hrel q)
  | measure q =>
    obtain ⟨t, p, s1, hs, _, _, h1, hm⟩ := measure_near hf h.wf ((h.live q).1 hv)
    simp only [Rnd.call, h1, ok_bind, pure_ok] at hc
    cases hc
    rw [hm.idMap, hs.idMap]; exact hp
  | jointMeasure qs =>
    obtain ⟨t, p, s1, hs, _, _, h1, hm⟩ := jointMeasure_near hf h.wf hv.1 (h.alloc hv.2)
    simp only [Rnd.call, h1, ok_bind, pure_ok] at hc
    cases hc
    rw [hm.idMap, hs.idMap]; exact hp
  | jointProb qs =>
    obtain ⟨p, s1, h1, hs, _⟩ := jointProbability_near hf h.wf hv.1 (h.alloc hv.2)
    simp only [Rnd.call, h1, ok_bind, pure_ok] at hc
    cases hc
    rw [hs.idMap]; exact hp
  | isZero q =>
    obtain ⟨p, s1, h1, hs, _⟩ := jointProbability_near hf h.wf (ids := [q]) (by simp)
      (by intro i hi; simp only [List.mem_singleton] at hi; subst hi; exact (h.live _).1 hv)
    simp only [Rnd.call, Rnd.qubitIsZero, h1, ok_bind, pure_ok] at hc
    cases hc
    rw [hs.idMap]; exact hp
  | collapse v q =>
    obtain ⟨t, p, s1, hs, _, _, h1, _, hid, _⟩ := forceCollapse_near hf h.wf ((h.live q).1 hv) v
    simp only [Rnd.call, h1, ok_bind, pure_ok] at hc
    cases hc
    rw [hid, hs.idMap]; exact hp
  | getState =>
    obtain ⟨⟨⟨l, n⟩, s1⟩, h1, hc⟩ := bind_ok hc
    cases hc
    exact packed_getState hf h.wf h1
  | dump fmt =>
    obtain ⟨⟨t, s1⟩, h1, hc⟩ := bind_ok hc
    cases hc
    exact packed_dump hf h.wf h1

theorem track_runX (hf : Fine A) (cs : List XCall) :
    ∀ {d B : ℝ} {s : Sim} {σ : Ideal}, Tracks A N d s σ → σ.XValidRun cs → 0 ≤ B → Low B s →
      A.u * (B + totalTurnX A cs) + A.eta ≤ A.eps →
      (NoGap A s cs ∨ Packed s.idMap ∧ ∀ q, XCall.base (.release q) ∉ cs) →
      σ.AllDecidedX A N d (executedX A s cs) →
      ∃ os s', Rnd.runX A cs s = .ok (os, s') ∧ σ.AnswersNearX A N d (executedX A s cs) os := by
  have he := hf.pos.le
  have tn : ∀ c : XCall, 0 ≤ c.turn A := by
    intro c
    cases c with
    | base c => exact turn_nonneg he c
    | apply _ _ _ => exact le_rfl
  have ttn : ∀ cs : List XCall, 0 ≤ totalTurnX A cs := by
    intro cs
    induction cs with
    | nil => exact le_rfl
    | cons c cs ih => exact add_nonneg (tn c) ih
  induction cs with
  | nil => intro d B s σ h _ _ _ _ _ _; exact ⟨[], s, rfl, rfl⟩
  | cons c cs ih =>
    intro d B s σ h hv hB hlow hang hgap hd
    have ha' : A.u * (B + c.turn A + totalTurnX A cs) + A.eta ≤ A.eps := by
      rw [add_assoc]; exact hang
    have key : ∃ o s1, callX A c s = .ok (o, s1) ∧ σ.AnswerNearX A N d (carriedOutX A s c) o ∧
        Tracks A N (σ.afterX A N d (carriedOutX A s c)) s1 (σ.xstep (carriedOutX A s c)) ∧
        Low (B + c.turn A) s1 ∧ ((∀ q, c ≠ .base (.release q)) → Packed s.idMap → Packed s1.idMap) := by
      have hd1 : σ.DecidedX A N d (carriedOutX A s c) := by
        unfold executedX at hd; exact hd.1
      cases c with
      | base c =>
        have h3 := mul_nonneg A.u_nonneg (ttn cs)
        have ha1 : A.u * (B + c.turn A) + A.eta ≤ A.eps := by
          have : (XCall.base c).turn A = c.turn A := rfl
          rw [this] at ha'
          linarith
        obtain ⟨h4, h5⟩ := low_callX he hB hlow c ha1
        obtain ⟨o, s1, h1, ha, ht⟩ := track_call hf h hv.1 h4 hd1
        exact ⟨o, s1, h1, ha, ht, h5 o s1 h1, fun hr hp => packed_call hf h hv.1 h4 (fun q hq => hr q (by rw [hq])) h1 hp⟩
      | apply ks U ts =>
        have hu : ∀ l < (ks ++ ts).length, Used s.idMap l := by
          apply used_of_not_gap
          rcases hgap with hgap | ⟨hp, _⟩
          · exact hgap.1
          · exact hp.no_gap hv.1.1 (h.alloc hv.1.2.1) h.wf.b.core.inj
        have hle : d + passes (ks ++ ts).length * cost A N ≤ σ.reachX A N d (.apply ks U ts) := by
          have h1 := cost_le hf N
          have h2 : (passes (ks ++ ts).length : ℝ) ≤ ((5 * (2 ^ (ks ++ ts).length + 3 * (ks ++ ts).length) : ℕ) : ℝ) :=
            Nat.cast_le.2 (passes_le _)
          have h3 := mul_le_mul h2 h1 (cost_nonneg hf N) (Nat.cast_nonneg _)
          unfold Ideal.reachX XCall.work
          push_cast at h3 ⊢
          linarith
        obtain ⟨s1, h1, h2, h3⟩ := track_apply hf h hv.1.1 hv.1.2.1 hv.1.2.2 hu (hle.trans hd1)
        refine ⟨.none, s1, by simp only [callX, quiet, h1, ok_bind, pure_ok], rfl, h2.mono hle, ?_,
          fun _ hp => hp.of_used h3⟩
        have : Low B s1 := low_apply hlow _ rfl ts ks rfl s1 h1
        exact this.mono (le_add_of_nonneg_right le_rfl)
    obtain ⟨o, s1, h1, ha, ht, hl, hp1⟩ := key
    have he' : executedX A s (c :: cs) = carriedOutX A s c :: executedX A s1 cs := by
      simp only [executedX, h1]
    rw [he'] at hd ⊢
    obtain ⟨os, s2, h2, ha2⟩ := ih ht ((xvalidRun_of_live cs (carriedOutX_live A s c σ)).2 hv.2)
      (add_nonneg hB (tn c)) hl ha' (by
        rcases hgap with hgap | ⟨hp, hr⟩
        · exact .inl (hgap.2 o s1 h1)
        · exact .inr ⟨hp1 (fun q hq => hr q (by simp [hq])) hp, fun q hq => hr q (by simp [hq])⟩) hd.2
    exact ⟨o :: os, s2, by simp only [Rnd.runX, h1, ok_bind, h2, pure_ok], ⟨o, os, rfl, ha, ha2⟩⟩

end Qir.Rnd
