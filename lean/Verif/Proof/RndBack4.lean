import Verif.Proof.RndBack3
import Verif.Proof.RndMeasure
import Verif.Proof.Chance

/-! The backend with rounded arithmetic: measurements. -/

noncomputable section
namespace Qir.RBack
open Spec Sim Qir.Out Rnd
open Tol (Iso len iso_ctrl iso_gate iso_exp iso_swap)
open Qir.Back (Backend Fmt Stop act ask ensure ensureAll lift silent forEach grow resultPtr nonIdentity ensureAll_cons
  useAll_cons use_psi apply_psi_mul useAll_with useAll_psi measures finding found tail)

variable {A : Arith} {N : ℕ} {B : ℝ} {s s' : Backend} {δ δ' δ'' : Device}

/-- The bound on the error of a computed probability. -/
def slip (A : Arith) (N : ℕ) : ℝ := 18 * 2 ^ N * A.v

/-- A measurement of the parity of qubits in use. -/
theorem look (hf : Fine A) (h : Like s δ) (hl : Low B s.sim) (hc : δ.live.card ≤ N) {ids : List ℕ} (hn : ids.Nodup)
    (hq : ∀ i ∈ ids, i ∈ δ.live) :
    ∃ (t : Sim) (p : ℝ) (f : Bool → Sim), t.idMap = s.sim.idMap ∧
      Cost A N (5 * ids.length) [] s.sim.opQ (Rnd.abs A t) (Rnd.abs A s.sim) ∧
      (len (Rnd.abs A t) ≤ 3 / 2 → slip A N ≤ 1 → |p - Spec.prob ids true (Rnd.abs A t)| ≤ slip A N) ∧
      (∀ r, ask (jointMeasure A ids) (rs r s) =
        .ok (decide (r 0 < p), rs (tail r) { s with sim := f (decide (r 0 < p)) })) ∧
      ∀ v, Like { s with sim := f v } δ ∧ Low B (f v) ∧ (f v).opQ = [] ∧
        (∃ r, jointMeasure A ids (rg r s.sim) = .ok (v, rg (tail r) (f v)) ∧ Rnd.Measured A ids v p t (rg (fun n => t.rng (n + 1)) (f v))) ∧
        Reach A N 1 (Rnd.abs A (f v)) ((factor A v p : ℂ) • proj ids v (Rnd.abs A t)) := by
  have hk : s.sim.idMap.keys.length ≤ N := by rw [h.keys]; exact hc
  obtain ⟨t, p, f, hs, ho, hp, hj, hm⟩ := jointMeasure_branch hf h.wf hn (h.alloc hq)
  have hle : 18 * 2 ^ s.sim.idMap.keys.length * A.v ≤ slip A N := by
    unfold slip
    have h2 : (2 : ℝ) ^ s.sim.idMap.keys.length ≤ 2 ^ N := pow_le_pow_right₀ (by norm_num) hk
    have := A.v_nonneg
    gcongr
  refine ⟨t, p, f, hs.idMap, ?_, fun h1 h2 => (hp h1 (hle.trans h2)).trans hle, fun r => ?_, fun v => ?_⟩
  · have := hs.near
    rw [ho] at this
    exact Cost.widen hf this hk
  · unfold ask
    rw [show (rs r s).sim = rg r s.sim from rfl, hj]
    rfl
  · have hv := hm v
    obtain ⟨x, hx⟩ : ∃ x : ℝ, decide (x < p) = v := by
      cases v
      · exact ⟨p, by simp⟩
      · exact ⟨p - 1, by simp⟩
    have h1 := hj (fun _ => x)
    rw [hx] at h1
    have hkt : t.idMap.keys.length ≤ N := by rw [hs.idMap]; exact hk
    refine ⟨⟨⟨hv.wf.b, hv.wf.queued⟩, fun q => ?_, h.high, h.low, h.reg, h.touched⟩, ?_, hv.ops, ⟨_, h1, hv⟩, hv.abs.widen hf hkt⟩
    · rw [h.live, ← hs.idMap, ← hv.idMap]
      rfl
    · exact low_jointMeasure (A := A) (s := rg (fun _ => x) s.sim) hl ids _ h1

/-- What there is to say about a measuring call. -/
def Splits (A : Arith) (N : ℕ) (B : ℝ) (fmt : Fmt) (c : QCall) (s : Backend) (δ : Device) (ps : List (Pauli × ℕ)) : Prop :=
  ∃ (t : Wave) (p : ℝ) (f : Bool → Backend) (V : Bool → Module.End ℂ Wave) (k m : ℕ) (e : ℂ),
    ‖e‖ = 1 ∧ FinSupp t ∧ Cost A N k [] s.sim.opQ t (e • mapL ps (Rnd.abs A s.sim)) ∧ k + m + 1 ≤ effort c ∧
    (len t ≤ 3 / 2 → slip A N ≤ 1 → |p - Spec.prob (ps.map Prod.snd) true t| ≤ slip A N) ∧
    (∀ r, qstep A fmt c (rs r s) =
      .ok ((finding (decide (r 0 < p)) δ c).1, [], rs (tail r) (f (decide (r 0 < p))))) ∧
    ∀ v, Iso (V v) ∧ Like (f v) (finding v δ c).2 ∧ Low B (f v).sim ∧
      (∃ (φ : Wave) (e' : ℂ), ‖e'‖ = 1 ∧ Reach A N 1 φ ((factor A v p : ℂ) • proj (ps.map Prod.snd) v t) ∧
        Cost A N m (f v).sim.opQ [] (Rnd.abs A (f v).sim) (e' • V v φ)) ∧
      ∀ ψ, finding v { δ with psi := ψ } c = ((finding v δ c).1, { (finding v δ c).2 with
        psi := ((1 / √(pauliProb ps v ψ) : ℝ) : ℂ) • V v (proj (ps.map Prod.snd) v (mapL ps ψ)) })

theorem mapL_Z (q : ℕ) (ψ : Wave) : mapL [(.Z, q)] ψ = ψ := LinearMap.congr_fun (gateL_one q) ψ

/-- Turning a qubit found to be one back to zero. -/
def undo (v : Bool) (q : ℕ) : Module.End ℂ Wave := if v then gateL matX q else 1

theorem iso_undo (v : Bool) (q : ℕ) : Iso (undo v q) := by
  unfold undo
  split
  · exact iso_gate isom_X q
  · exact Tol.iso_one

theorem undo_does (hf : Fine A) {q : ℕ} (h : Ready A N B δ) (hq : q ∈ δ.live) (v : Bool) :
    Does A N B (fun s => if v then act (Rnd.x A q) s else pure s) δ δ (undo v q) 6 := by
  cases v
  · exact Does.id.mono (by norm_num)
  · exact call_does hf h hq .x (by simp)

theorem clear_psi (v : Bool) (q : ℕ) (δ : Device) : δ.clear v q = { δ with psi := undo v q δ.psi } := by
  unfold Device.clear undo
  cases v <;> rfl

theorem post_proj {ps : List (Pauli × ℕ)} (hn : (ps.map Prod.snd).Nodup) (hI : ∀ p ∈ ps, p.1 ≠ .I) (v : Bool) (ψ : Wave) :
    pauliPost ps v ψ = ((1 / √(pauliProb ps v ψ) : ℝ) : ℂ) • unmapL ps (proj (ps.map Prod.snd) v (mapL ps ψ)) := by
  unfold pauliPost
  rw [real_smul_wave, pauliProj_mapL hn hI, ← Module.End.mul_apply, unmapL_mapL hn, Module.End.one_apply]

theorem found_with (ps : List (Pauli × ℕ)) (v : Bool) (ψ : Wave) :
    found ps v { δ with psi := ψ } = { found ps v δ with psi := pauliPost ps v ψ } := by
  unfold found
  rw [useAll_with]

theorem post_Z (q : ℕ) (v : Bool) (ψ : Wave) : pauliPost [(.Z, q)] v ψ =
    ((1 / √(pauliProb [(.Z, q)] v ψ) : ℝ) : ℂ) • proj [q] v (mapL [(.Z, q)] ψ) := by
  rw [post_proj (by simp) (by simp)]
  congr 1
  exact LinearMap.congr_fun (gateL_one q) _

/-- The calls that measure one qubit, have it turned to zero or not, and keep the outcome or not. -/
theorem one_splits (hf : Fine A) (fmt : Fmt) (hB : 0 ≤ B) (ht : A.u * B + A.eta ≤ A.eps) (h : Like s δ) (hl : Low B s.sim)
    {c : QCall} {q : ℕ} (hq : δ.Usable q) (hc : (δ.use q).live.card ≤ N) (hef : 12 ≤ effort c)
    (s0 : Backend) (δ0 : Device) (h0 : Like s0 δ0) (e0 : s0.sim = (ensure q s).sim) (hlive : δ0.live = (δ.use q).live)
    (b : Bool) (g : Bool → Backend → Backend) (hg : ∀ v s, (g v s).sim = s.sim) (hgr : ∀ v r s, g v (rs r s) = rs r (g v s))
    (hrun : ∀ r, qstep A fmt c (rs r s) = 
      ask (Rnd.measure A q) (rs r s0) >>= fun x =>
        (if b then (if x.1 then act (Rnd.x A q) x.2 else pure x.2) else pure x.2) >>= fun s =>
          pure ((finding x.1 δ c).1, [], g x.1 s))
    (hlike : ∀ v s, s.res = s0.res → Like s δ0 → Like (g v s) (finding v δ c).2)
    (hfind : ∀ v ψ, finding v { δ with psi := ψ } c = ((finding v δ c).1, { (finding v δ c).2 with
        psi := (if b then undo v q else 1) (pauliPost [(.Z, q)] v ψ) })) :
    Splits A N B fmt c s δ [(.Z, q)] := by
  obtain ⟨_, k1⟩ := h.ensure (A := A) hq
  have hm : q ∈ δ0.live := by rw [hlive]; exact Back.mem_use h.low hq
  have hc0 : δ0.live.card ≤ N := by rw [hlive]; exact hc
  have hl0 : Low B s0.sim := by rw [e0]; exact k1.low hl
  have hr0 : Ready A N B δ0 := ⟨h0.low, hc0, hB, ht⟩
  obtain ⟨t, p, f, _, ht1, ht2, ht3, ht4⟩ := look hf h0 hl0 hc0 (ids := [q]) (by simp) (by simpa using hm)
  -- the second half
  have hsec : ∀ v, ∃ s', (∀ r, (if b then (if v then act (Rnd.x A q) (rs r { s0 with sim := f v }) else
        pure (rs r { s0 with sim := f v })) else pure (rs r { s0 with sim := f v })) =
          (.ok (rs r s') : Except Stop Backend)) ∧ s'.res = s0.res ∧
        Moves A N B { s0 with sim := f v } s' δ0 (if b then undo v q else 1) 6 := by
    intro v
    obtain ⟨a1, a2, _⟩ := ht4 v
    cases b
    · exact ⟨_, fun r => rfl, rfl, (Moves.refl a1 a2).mono (by norm_num)⟩
    · obtain ⟨s', e1, e2⟩ := undo_does hf hr0 hm v _ a1 a2
      refine ⟨s', e1, ?_, e2⟩
      have := e1 (fun _ => 0)
      revert this
      cases v
      · intro this
        simp only [Bool.false_eq_true, if_false, pure_ok, Except.ok.injEq] at this
        exact (congrArg Backend.res this).symm
      · simp only [if_true]
        unfold act
        cases hx : Rnd.x A q (rs (fun _ => 0) { s0 with sim := f true }).sim with
        | error e => intro this; simp [lift] at this
        | ok a =>
          intro this
          simp only [lift, ok_bind, pure_ok, Except.ok.injEq] at this
          exact (congrArg Backend.res this).symm
  choose s' e1 e2 e3 using hsec
  refine ⟨Rnd.abs A t, p, fun v => g v (s' v), fun v => if b then undo v q else 1, 5, 6, 1, by simp, Rnd.finSupp_abs t,
    ?_, hef, ht2, fun r => ?_, fun v => ⟨?_, ?_, ?_, ?_, ?_⟩⟩
  · rw [one_smul, mapL_Z, ← k1.abs, ← k1.opQ, ← e0]
    exact ht1
  · rw [hrun]
    rw [show Rnd.measure A q = jointMeasure A [q] from funext (Rnd.measure_eq_jointMeasure A q), ht3 r, ok_bind]
    dsimp only
    rw [e1, ok_bind, pure_ok, hgr]
  · cases b
    · exact Tol.iso_one
    · exact iso_undo v q
  · exact hlike v _ (e2 v) (e3 v).like
  · rw [hg]; exact (e3 v).low
  · obtain ⟨a1, a2, a3, _, a5⟩ := ht4 v
    obtain ⟨e', he', hn'⟩ := (e3 v).near
    refine ⟨Rnd.abs A (f v), e', he', a5, ?_⟩
    rw [hg]
    have : ({ s0 with sim := f v } : Backend).sim.opQ = [] := a3
    rw [this] at hn'
    exact hn'
  · intro ψ
    rw [hfind, post_Z, map_smul]
    rfl

theorem Like.grown (h : Like s δ) (r : ℕ) : Like { s with res := grow r s.res } { δ with touched := true } :=
  ⟨h.wf, h.live, h.high, h.low, fun i => (Back.grow_getD r s.res i).trans (h.reg i), Back.grow_ne r s.res⟩

theorem Like.store (h : Like s δ) (r : ℕ) (v : Bool) : Like { s with res := (grow r s.res).set r v } (δ.store r v) := by
  refine ⟨h.wf, h.live, h.high, h.low, ?_, ?_⟩
  · intro i
    show ((grow r s.res).set r v).getD i false = Function.update δ.reg r v i
    rw [Back.set_getD (Back.grow_length r _), Back.grow_getD, Function.update_apply]
    split
    · rfl
    · exact h.reg i
  · show ((grow r s.res).set r v).isEmpty = !true
    have := Back.grow_length r s.res
    cases hg : (grow r s.res).set r v with
    | nil =>
      have hg' := congrArg List.length hg
      rw [List.length_set, List.length_nil] at hg'
      omega
    | cons => rfl

/-- Storing in registers already there. -/
theorem Like.stored (h : Like s { δ with touched := true }) {r : ℕ} (hr : r < s.res.length) (v : Bool) :
    Like { s with res := s.res.set r v } (δ.store r v) := by
  refine ⟨h.wf, h.live, h.high, h.low, ?_, ?_⟩
  · intro i
    show (s.res.set r v).getD i false = Function.update δ.reg r v i
    rw [Back.set_getD hr, Function.update_apply]
    split
    · rfl
    · exact h.reg i
  · show (s.res.set r v).isEmpty = !true
    cases hg : s.res.set r v with
    | nil =>
      have hg' := congrArg List.length hg
      rw [List.length_set, List.length_nil] at hg'
      omega
    | cons => rfl

theorem undo_found (q : ℕ) (v : Bool) (ψ : Wave) : (found [(.Z, q)] v { δ with psi := ψ }).clear v q =
    { (found [(.Z, q)] v δ).clear v q with psi := undo v q (pauliPost [(.Z, q)] v ψ) } := by
  rw [found_with, clear_psi, clear_psi]

theorem reset_splits (hf : Fine A) (fmt : Fmt) (hB : 0 ≤ B) (ht : A.u * B + A.eta ≤ A.eps) (h : Like s δ) (hl : Low B s.sim)
    {q : ℕ} (hq : δ.Usable q) (hc : (δ.use q).live.card ≤ N) : Splits A N B fmt (.reset q) s δ [(.Z, q)] := by
  obtain ⟨h1, _⟩ := h.ensure (A := A) hq
  refine one_splits hf fmt hB ht h hl hq hc (by simp [effort, QCall.uses]) (ensure q s) (δ.use q) h1 rfl rfl true
    (fun _ s => s) (fun _ _ => rfl) (fun _ _ _ => rfl) (fun r => ?_) (fun v s' _ hs => ?_) (fun v ψ => ?_)
  · show silent (reset A q (rs r s)) = _
    unfold reset
    rw [rs_ensure r q _ rfl]
    cases ask (Rnd.measure A q) (rs r (ensure q s)) with
    | error e => rfl
    | ok x =>
      obtain ⟨v, s1⟩ := x
      cases v
      · rfl
      · simp only [ok_bind, if_true]
        cases act (Rnd.x A q) s1 <;> rfl
  · show Like s' ((found [(.Z, q)] v δ).clear v q)
    rw [clear_psi]
    exact hs.psi _
  · show (QAns.unit, (found [(.Z, q)] v { δ with psi := ψ }).clear v q) = _
    rw [undo_found]
    rfl

theorem m_splits (hf : Fine A) (fmt : Fmt) (hB : 0 ≤ B) (ht : A.u * B + A.eta ≤ A.eps) (h : Like s δ) (hl : Low B s.sim)
    {q : ℕ} (hq : δ.Usable q) (hc : (δ.use q).live.card ≤ N) : Splits A N B fmt (.m q) s δ [(.Z, q)] := by
  obtain ⟨h1, _⟩ := h.ensure (A := A) hq
  refine one_splits hf fmt hB ht h hl hq hc (by simp [effort, QCall.uses]) (ensure q s) (δ.use q) h1 rfl rfl false
    (fun _ s => s) (fun _ _ => rfl) (fun _ _ _ => rfl) (fun r => ?_) (fun v s' _ hs => ?_) (fun v ψ => ?_)
  · show (do
      let (n, s) ← m A q (rs r s)
      return (QAns.ptr n, [], s)) = _
    unfold m
    rw [rs_ensure r q _ rfl]
    cases ask (Rnd.measure A q) (rs r (ensure q s)) with
    | error e => rfl
    | ok x => rfl
  · exact hs.psi _
  · show (_, found [(.Z, q)] v { δ with psi := ψ }) = _
    rw [found_with]
    rfl

theorem mz_splits (hf : Fine A) (fmt : Fmt) (hB : 0 ≤ B) (ht : A.u * B + A.eta ≤ A.eps) (h : Like s δ) (hl : Low B s.sim)
    {q : ℕ} (hq : δ.Usable q) (hc : (δ.use q).live.card ≤ N) (n : ℕ) : Splits A N B fmt (.mz q n) s δ [(.Z, q)] := by
  obtain ⟨h1, _⟩ := h.ensure (A := A) hq
  refine one_splits hf fmt hB ht h hl hq hc (by simp [effort, QCall.uses])
    { ensure q s with res := grow n (ensure q s).res } { δ.use q with touched := true } (h1.grown n) rfl rfl false
    (fun v s => { s with res := s.res.set n v }) (fun _ _ => rfl) (fun _ _ _ => rfl) (fun r => ?_) (fun v s' hr hs => ?_)
    (fun v ψ => ?_)
  · show silent (mz A q n (rs r s)) = _
    unfold mz
    rw [rs_ensure r q _ rfl]
    show silent (do
      let (b, s) ← ask (Rnd.measure A q) (rs r { ensure q s with res := grow n (ensure q s).res })
      return { s with res := s.res.set n b }) = _
    cases ask (Rnd.measure A q) (rs r { ensure q s with res := grow n (ensure q s).res }) with
    | error e => rfl
    | ok x => rfl
  · exact (hs.stored (by rw [hr]; exact Back.grow_length n _) v).psi _
  · show (_, (found [(.Z, q)] v { δ with psi := ψ }).store n v) = _
    rw [found_with]
    rfl

theorem mresetz_splits (hf : Fine A) (fmt : Fmt) (hB : 0 ≤ B) (ht : A.u * B + A.eta ≤ A.eps) (h : Like s δ)
    (hl : Low B s.sim) {q : ℕ} (hq : δ.Usable q) (hc : (δ.use q).live.card ≤ N) (n : ℕ) :
    Splits A N B fmt (.mresetz q n) s δ [(.Z, q)] := by
  obtain ⟨h1, _⟩ := h.ensure (A := A) hq
  refine one_splits hf fmt hB ht h hl hq hc (by simp [effort, QCall.uses])
    { ensure q s with res := grow n (ensure q s).res } { δ.use q with touched := true } (h1.grown n) rfl rfl true
    (fun v s => { s with res := s.res.set n v }) (fun _ _ => rfl) (fun _ _ _ => rfl) (fun r => ?_) (fun v s' hr hs => ?_)
    (fun v ψ => ?_)
  · show silent (mresetz A q n (rs r s)) = _
    unfold mresetz
    rw [rs_ensure r q _ rfl]
    dsimp only
    rw [show ({ rs r (ensure q s) with res := grow n (rs r (ensure q s)).res } : Backend) =
      rs r { ensure q s with res := grow n (ensure q s).res } from rfl]
    cases ask (Rnd.measure A q) (rs r { ensure q s with res := grow n (ensure q s).res }) with
    | error e => rfl
    | ok x =>
      obtain ⟨v, s1⟩ := x
      cases v
      · rfl
      · simp only [ok_bind, if_true]
        cases act (Rnd.x A q) s1 <;> rfl
  · have := (hs.stored (by rw [hr]; exact Back.grow_length n _) v).psi (undo v q (pauliPost [(.Z, q)] v δ.psi))
    show Like _ (((found [(.Z, q)] v δ).clear v q).store n v)
    rw [clear_psi]
    exact this
  · show (_, ((found [(.Z, q)] v { δ with psi := ψ }).clear v q).store n v) = _
    rw [undo_found]
    rfl

theorem measure_splits (hf : Fine A) (fmt : Fmt) (hB : 0 ≤ B) (ht : A.u * B + A.eta ≤ A.eps) (h : Like s δ)
    (hl : Low B s.sim) {ps : List Pauli} {qs : List ℕ} (hlen : ps.length = qs.length)
    (hn : ((support ps qs).map Prod.snd).Nodup) (hu : ∀ i ∈ (support ps qs).map Prod.snd, δ.Usable i)
    (hc : (δ.useAll ((support ps qs).map Prod.snd)).live.card ≤ N) :
    Splits A N B fmt (.measure ps qs) s δ (support ps qs) := by
  set l := support ps qs with hsup
  have hI : ∀ p ∈ l, p.1 ≠ .I := Back.nonIdentity_ne
  obtain ⟨h1, k1, l1, _⟩ := h.ensureAll (A := A) (l.map Prod.snd) hu
  have hr : Ready A N B (δ.useAll (l.map Prod.snd)) := ⟨h1.low, hc, hB, ht⟩
  obtain ⟨s1, e1, m1⟩ := map_does hf hr l (fun p hp => l1 p.2 (List.mem_map_of_mem hp)) _ h1 (k1.low hl)
  obtain ⟨t, p, f, _, ht1, ht2, ht3, ht4⟩ := look hf m1.like m1.low hc hn l1
  have hsec := fun v => unmap_does hf hr l (fun p hp => l1 p.2 (List.mem_map_of_mem hp)) { s1 with sim := f v }
    (ht4 v).1 (ht4 v).2.1
  choose s' e2 m2 using hsec
  obtain ⟨e, he, hne⟩ := (k1.moves m1).near
  refine ⟨Rnd.abs A t, p, s', fun _ => unmapL l, 18 * l.length + 5 * l.length, 18 * l.length, e, he, Rnd.finSupp_abs t,
    ?_, ?_, ht2, fun r => ?_, fun v => ⟨iso_unmapL l, (m2 v).like.psi _, (m2 v).low, ?_, ?_⟩⟩
  · exact (ht1.trans hne hf).mono (by rw [List.length_map]; omega)
  · show _ ≤ 41 * l.length + 1
    omega
  · show (do
      let (n, s) ← measure A ps qs (rs r s)
      return (QAns.ptr n, [], s)) = _
    have hz : mapToZ A ps qs (rs r s) = .ok (l, rs r s1) := by
      unfold mapToZ
      rw [if_neg (by simp [hlen])]
      show (do
        let s ← forEach (mapOne A) l (ensureAll (l.map Prod.snd) (rs r s))
        return (l, s)) = _
      rw [rs_ensureAll, e1 r]
      rfl
    unfold measure
    rw [hz, ok_bind]
    dsimp only
    rw [ht3 r, ok_bind]
    dsimp only
    rw [e2, ok_bind, pure_ok]
    rfl
  · obtain ⟨a1, a2, a3, _, a5⟩ := ht4 v
    obtain ⟨e', he', hn'⟩ := (m2 v).near
    refine ⟨Rnd.abs A (f v), e', he', a5, ?_⟩
    have : ({ s1 with sim := f v } : Backend).sim.opQ = [] := a3
    rw [this] at hn'
    exact hn'
  · intro ψ
    show (_, found l v { δ with psi := ψ }) = _
    rw [found_with, post_proj hn hI]
    rfl

/-- A release after the measurement. -/
def released (q : ℕ) (v : Bool) (σ : Sim) : Except Panic Sim := do
  let loc ← indexId σ.idMap q
  return { σ with
    state := if v then σ.state.map (fun e => if e.1.testBit loc then (setBit e.1 loc false, e.2) else e) else σ.state
    idMap := σ.idMap.remove q }

theorem release_eq {σ σ' : Sim} {q : ℕ} {v : Bool} (hlen : σ.idMap.iter.length ≠ 1)
    (h : Rnd.measure A q σ = .ok (v, σ')) : Rnd.release A q σ = released q v σ' := by
  unfold Rnd.release Rnd.releaseState released
  rw [if_neg hlen, h, ok_bind]
  dsimp only
  cases indexId σ'.idMap q with
  | error e => rfl
  | ok loc => cases v <;> rfl

theorem released_rg (q : ℕ) (v : Bool) (σ : Sim) (r : ℕ → ℝ) : released q v (rg r σ) = (released q v σ).map (rg r) := by
  unfold released
  rw [show (rg r σ).idMap = σ.idMap from rfl]
  cases indexId σ.idMap q <;> rfl

theorem Like.iter (h : Like s δ) : s.sim.idMap.iter.length = δ.live.card := by
  rw [← h.keys]
  unfold IMap.keys
  rw [List.length_map]

theorem release_splits (hf : Fine A) (fmt : Fmt) (h : Like s δ) (hl : Low B s.sim) {q : ℕ} (hq : q ∈ δ.live)
    (hc : δ.live.card ≤ N) (hne : δ.live ≠ {q}) : Splits A N B fmt (.release q) s δ [(.Z, q)] := by
  obtain ⟨t, p, f, ht0, ht1, ht2, ht3, ht4⟩ := look hf h hl hc (ids := [q]) (by simp) (by simpa using hq)
  have hit : ∀ r, (rg r s.sim).idMap.iter.length ≠ 1 := by
    intro r h1
    have h2 : δ.live.card = 1 := h.iter.symm.trans h1
    obtain ⟨a, ha⟩ := Finset.card_eq_one.1 h2
    rw [ha, Finset.mem_singleton] at hq
    exact hne (by rw [ha, hq])
  have ha : (t.idMap.get q).isSome := by rw [ht0]; exact (h.live q).1 hq
  have hrel : ∀ v, ∃ s' : Sim, (∀ r, decide (r 0 < p) = v → release A q (rg r s.sim) = .ok (rg (tail r) s')) ∧
      Qir.WF s' ∧ s'.idMap = t.idMap.remove q ∧ s'.opQ = [] ∧ Rnd.abs A s' = undo v q (Rnd.abs A (f v)) ∧ Low B s' := by
    intro v
    obtain ⟨_, _, _, ⟨r0, hj, hm⟩, _⟩ := ht4 v
    have hm0 : Rnd.measure A q (rg r0 s.sim) = .ok (v, rg (tail r0) (f v)) := by
      rw [Rnd.measure_eq_jointMeasure]; exact hj
    have hM : Rnd.Measured A [q] v p (rg r0 t) (rg (tail r0) (f v)) :=
      ⟨⟨hm.wf.b, hm.wf.queued⟩, hm.idMap, rfl, hm.ops, hm.quiet, hm.bits, hm.abs⟩
    obtain ⟨σ, g1, g2, g3, _, g5, g6⟩ := release_measured (A := A) (t := rg r0 t) ha (hit r0) hm0 hM
    have hlow : Low B σ := low_release (A := A) (s := rg r0 s.sim) hl q _ g1
    rw [release_eq (hit r0) hm0, released_rg] at g1
    cases hz : released q v (f v) with
    | error e => rw [hz] at g1; cases g1
    | ok σ' =>
      rw [hz] at g1
      have g7 : rg (tail r0) σ' = σ := by injection g1
      subst g7
      refine ⟨σ', fun r hr => ?_, ⟨g2.b, g2.queued⟩, g3, g5, g6, hlow⟩
      have hm1 : Rnd.measure A q (rg r s.sim) = .ok (v, rg (tail r) (f v)) := by
        have := ht3 r
        rw [hr] at this
        rw [Rnd.measure_eq_jointMeasure]
        unfold ask at this
        rw [show (rs r s).sim = rg r s.sim from rfl] at this
        revert this
        cases jointMeasure A [q] (rg r s.sim) with
        | error e => intro this; cases this
        | ok x =>
          intro this
          injection this with this
          injection this with a1 a2
          have a3 := congrArg Backend.sim a2
          exact congrArg Except.ok (Prod.ext a1 a3)
      rw [release_eq (hit r) hm1, released_rg, hz]
      rfl
  choose s' e1 e2 e3 e4 e5 e6 using hrel
  refine ⟨Rnd.abs A t, p, fun v => { s with sim := s' v }, fun v => undo v q, 5, 0, 1, by simp, Rnd.finSupp_abs t,
    ?_, by simp [effort, QCall.uses], ht2, fun r => ?_, fun v => ⟨iso_undo v q, ?_, e6 v, ?_, ?_⟩⟩
  · rw [one_smul, mapL_Z]
    exact ht1
  · show silent (act (release A q) (rs r s)) = _
    unfold act
    rw [show (rs r s).sim = rg r s.sim from rfl, e1 _ r rfl]
    rfl
  · have hu : δ.useAll [q] = δ := Back.apply_live [q] (by simpa using hq) h.low
    have hx : (finding v δ (.release q)).2 = { δ with live := δ.live.erase q, psi := undo v q (pauliPost [(.Z, q)] v δ.psi) } := by
      show ({ (found [(.Z, q)] v δ).clear v q with live := δ.live.erase q } : Device) = _
      rw [clear_psi]
      unfold found
      rw [show List.map Prod.snd [(Pauli.Z, q)] = [q] from rfl, hu]
    rw [hx]
    refine ⟨e2 v, fun i => ?_, h.high, fun i hi => h.low i (Finset.mem_of_mem_erase hi), h.reg, h.touched⟩
    show i ∈ δ.live.erase q ↔ ((s' v).idMap.get i).isSome = true
    rw [e3, ht0, IMap.get_remove, Finset.mem_erase, h.live]
    by_cases hi : i = q <;> simp [hi]
  · refine ⟨Rnd.abs A (f v), 1, by simp, (ht4 v).2.2.2.2, ?_⟩
    show Cost A N 0 (s' v).opQ [] (Rnd.abs A (s' v)) _
    rw [e4, one_smul, e5]
    exact .refl ((iso_undo v q).fin (Rnd.finSupp_abs _))
  · intro ψ
    show (_, ({ (found [(.Z, q)] v { δ with psi := ψ }).clear v q with live := δ.live.erase q } : Device)) = _
    rw [undo_found, post_Z, map_smul]
    rfl

end Qir.RBack
