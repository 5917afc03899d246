import Verif.Proof.RndApply2
import Verif.Proof.RndTrack

/-! `apply` with rounded arithmetic as one step of the simulator. -/

noncomputable section
namespace Qir.Rnd
open Spec Function Sim Tol

variable {A : Arith} {N : ℕ}

/-- What moving an operand leaves unchanged, and by how much it changes the represented state. -/
structure Moved (A : Arith) (s s' : Sim) (d : ℕ) : Prop where
  wf : Qir.WF s'
  rng : s'.rng = s.rng
  near : Cost A s.idMap.keys.length d s'.opQ s.opQ (abs A s') (abs A s)
  some : ∀ i, (s'.idMap.get i).isSome = (s.idMap.get i).isSome
  calm : ∀ q, s.hasQueued q = false → s'.hasQueued q = false
  ops : s.opQ = [] → s'.opQ = []
  used : ∀ l, Used s'.idMap l ↔ Used s.idMap l

theorem Moved.refl {s : Sim} (h : Qir.WF s) : Moved A s s 0 :=
  ⟨h, rfl, .refl (finSupp_abs s), fun _ => rfl, fun _ h => h, id, fun _ => Iff.rfl⟩

theorem Moved.trans (hf : Fine A) {s s1 s2 : Sim} {d d' : ℕ} (h : Moved A s s1 d) (h' : Moved A s1 s2 d') :
    Moved A s s2 (d + d') :=
  ⟨h'.wf, h'.rng.trans h.rng, by
    have h1 := h'.near
    rw [IMap.keys_congr _ _ h.some] at h1
    rw [Nat.add_comm]
    exact h1.trans h.near hf, fun i => (h'.some i).trans (h.some i),
    fun q hq => h'.calm q (h.calm q hq), fun ho => h'.ops (h.ops ho),
    fun l => (h'.used l).trans (h.used l)⟩

theorem Moved.mono {s s' : Sim} {d d' : ℕ} (h : Moved A s s' d) (hd : d ≤ d') : Moved A s s' d' :=
  ⟨h.wf, h.rng, h.near.mono hd, h.some, h.calm, h.ops, h.used⟩

theorem abs_moved {s s' : Sim} (ho : s.opQ = []) (ho' : s'.opQ = []) (hp : ∀ q, pend A s' q = pend A s q)
    (hsome : ∀ i, (s'.idMap.get i).isSome = (s.idMap.get i).isSome)
    (hv : view s'.idMap s'.state = view s.idMap s.state) : abs A s' = abs A s := by
  unfold abs base
  rw [ho, ho', hv, IMap.keys_congr _ _ hsome, pendL_congr (fun q _ => hp q)]

theorem placeOne_spec (hf : Fine A) {s : Sim} (hw : Qir.WF s) {index key loc sk : ℕ}
    (hk : s.idMap.get key = some loc) (hsk : findByLoc s.idMap index = some sk) :
    ∃ s', Rnd.placeOne A index key s = .ok s' ∧ Moved A s s' 10 ∧
      ∀ i, s'.idMap.get i = (s.idMap.get i).map (Equiv.swap loc index) := by
  have hg := findByLoc_some hsk
  unfold Rnd.placeOne resolveId
  simp only [hk, ok_bind, hsk]
  by_cases hne : loc = index
  · subst hne
    have : sk = key := hw.b.core.inj _ _ _ hg hk
    subst this
    refine ⟨s, ?_, (Moved.refl hw).mono (by omega), ?_⟩
    · unfold Rnd.swapQubitState
      simp only [if_true, ok_bind, modify_same hk, pure_ok]
    · intro i; simp
  · obtain ⟨s1, h1, hs1, hc1, ho1⟩ := flushQueue_spec hf .HRxRy [loc, index] hw
    have hget : ∀ i, ((s1.idMap.modify sk (fun _ => loc)).modify key (fun _ => index)).get i =
        (s1.idMap.get i).map (Equiv.swap loc index) := by
      rw [hs1.idMap]
      intro i
      have hskk : sk ≠ key := by
        rintro rfl; rw [hg] at hk; cases hk; exact hne rfl
      rw [IMap.get_modify]
      by_cases hi : i = key
      · subst hi
        rw [if_pos rfl, IMap.get_modify, if_neg (Ne.symm hskk), hk]; simp
      · rw [if_neg hi, IMap.get_modify]
        by_cases his : i = sk
        · subst his; rw [if_pos rfl, hg]; simp
        · rw [if_neg his]
          cases hgi : s.idMap.get i with
          | none => rfl
          | some l =>
            have h1 : l ≠ loc := by rintro rfl; exact hi (hw.b.core.inj _ _ _ hgi hk)
            have h2 : l ≠ index := by rintro rfl; exact his (hw.b.core.inj _ _ _ hgi hg)
            rw [Option.map_some, Equiv.swap_apply_of_ne_of_ne h1 h2]
    obtain ⟨hcore, hview⟩ := relabel_spec hs1.wf.b.core hne hget
    have hsome : ∀ i, (((s1.idMap.modify sk (fun _ => loc)).modify key (fun _ => index)).get i).isSome =
        (s1.idMap.get i).isSome := by
      intro i; rw [hget]; simp
    refine ⟨{ s1 with
      state := s1.state.map (swapKey loc index)
      idMap := (s1.idMap.modify sk (fun _ => loc)).modify key (fun _ => index) }, ?_, ⟨⟨?_, ?_⟩, hs1.rng, ?_, ?_, ?_, ?_, ?_⟩, ?_⟩
    · unfold Rnd.swapQubitState
      simp only [if_neg hne, h1, ok_bind, pure_ok]
    · show WFB _ _ s1.opQ
      rw [ho1]; exact WFB.nil hcore
    · intro q hq
      rw [hsome]
      exact hs1.wf.queued q hq
    · have e : abs A { s1 with
          state := s1.state.map (swapKey loc index)
          idMap := (s1.idMap.modify sk (fun _ => loc)).modify key (fun _ => index) } = abs A s1 :=
        abs_moved ho1 ho1 (fun _ => rfl) hsome hview
      rw [e]
      exact hs1.near
    · intro i
      rw [hsome, hs1.idMap]
    · intro q hq
      exact hc1.mono_queued hq
    · intro _; exact ho1
    · exact used_swap ⟨key, hk⟩ ⟨sk, hg⟩ (by intro i; rw [hget, hs1.idMap])
    · intro i; rw [hget, hs1.idMap]

theorem place_spec (hf : Fine A) (rest : List ℕ) :
    ∀ (done : List ℕ) (s : Sim), Qir.WF s → (done ++ rest).Nodup → Alloc s.idMap (done ++ rest) →
      (∀ j (hj : j < done.length), s.idMap.get done[j] = some j) →
      (∀ l < (done ++ rest).length, Used s.idMap l) →
      ∃ s', Rnd.place A done.length rest s = .ok s' ∧ Moved A s s' (10 * rest.length) ∧
        (∀ j (hj : j < (done ++ rest).length), s'.idMap.get (done ++ rest)[j] = some j) := by
  induction rest with
  | nil =>
    intro done s hw _ _ hd _
    refine ⟨s, rfl, Moved.refl hw, ?_⟩
    intro j hj
    simp only [List.append_nil] at hj ⊢
    exact hd j hj
  | cons t rest ih =>
    intro done s hw hn ha hd hu
    obtain ⟨loc, hloc⟩ := Option.isSome_iff_exists.1 (ha t (by simp))
    obtain ⟨sk, hsk⟩ := findByLoc_used (hu done.length (by simp))
    obtain ⟨s1, h1, hm1, hg1⟩ := placeOne_spec hf hw hloc hsk
    have e : done ++ t :: rest = (done ++ [t]) ++ rest := by simp
    rw [e] at hn ha hu
    have hus := used_swap (m' := s1.idMap) ⟨t, hloc⟩ ⟨sk, findByLoc_some hsk⟩ hg1
    obtain ⟨s2, h2, hm2, hg2⟩ := ih (done ++ [t]) s1 hm1.wf hn
      (fun i hi => by rw [hm1.some]; exact ha i hi) (by
        intro j hj
        simp only [List.length_append, List.length_singleton] at hj
        rw [hg1]
        by_cases hjd : j < done.length
        · rw [List.getElem_append_left hjd, hd j hjd, Option.map_some]
          congr 1
          apply Equiv.swap_apply_of_ne_of_ne
          · rintro rfl
            have h3 := hw.b.core.inj _ _ _ (hd j hjd) hloc
            have h4 := List.nodup_append.1 (List.nodup_append.1 hn).1
            exact h4.2.2 t (h3 ▸ List.getElem_mem hjd) t (by simp) rfl
          · omega
        · have hj' : j = done.length := by omega
          subst hj'
          rw [List.getElem_append_right (le_refl _)]
          simp [hloc]) (fun l hl => (hus l).2 (hu l hl))
    refine ⟨s2, ?_, (hm1.trans hf hm2).mono (by rw [List.length_cons]; omega), ?_⟩
    · unfold Rnd.place
      simp only [h1, ok_bind]
      rw [List.length_append, List.length_singleton] at h2
      exact h2
    · intro j hj
      have := hg2 j (by rw [← e]; exact hj)
      simp only [e]
      exact this

/-- `apply` after the choice of operands and matrix. -/
def applyOn (A : Arith) (u : Mat) (ops : List ℕ) (s : Sim) : Except Panic Sim := do
  checkForDuplicates ops
  let s ← flushQueue A ops .HRxRy s
  let s ← place A 0 ops.reverse s
  let s := { s with state := A.shuffle (s.state.foldl (scatter A u) []) }
  if s.state.isEmpty then .error .assertion
  else return s

theorem apply_some {u : Mat} {ts cs : List ℕ} {s : Sim} (h1 : u.cols = u.rows)
    (h2 : u.rows = 2 ^ ts.length) :
    Rnd.apply A u ts (some cs) s = applyOn A (controlled u cs.length) (cs ++ ts) s := by
  unfold Rnd.apply
  rw [if_neg (by simp [h1]), if_neg (by simp [h1, h2])]
  rfl

/-- The number of passes an application to `t` operands costs. -/
def passes (t : ℕ) : ℕ := 2 ^ t + 15 * t

theorem applyOn_near (hf : Fine A) {s : Sim} (hw : Qir.WF s) {ops : List ℕ} (hn : ops.Nodup)
    (ha : Alloc s.idMap ops) (hu : ∀ l < ops.length, Used s.idMap l) {u : Mat} {U : ℕ → ℕ → ℂ}
    (hg : Given A u (2 ^ ops.length) U)
    (hlo : (passes ops.length + s.opQ.length : ℕ) * cost A s.idMap.keys.length < len (abs A s))
    (hhi : len (abs A s) + (passes ops.length + s.opQ.length : ℕ) * cost A s.idMap.keys.length ≤ 3 / 2) :
    ∃ s', applyOn A u ops s = .ok s' ∧ Qir.WF s' ∧ s'.rng = s.rng ∧
      (∀ i, (s'.idMap.get i).isSome = (s.idMap.get i).isSome) ∧
      (∀ l, Used s'.idMap l ↔ Used s.idMap l) ∧
      Cost A s.idMap.keys.length (passes ops.length) s'.opQ s.opQ (abs A s') (matL [] U ops (abs A s)) := by
  obtain ⟨s1, h1, hs1, hc1, ho1⟩ := flushQueue_spec hf .HRxRy ops hw
  have hrev : ([] ++ ops.reverse).Nodup := by simpa using List.nodup_reverse.2 hn
  have hla : Alloc s1.idMap ([] ++ ops.reverse) := by
    intro i hi; rw [hs1.idMap]; exact ha i (by simpa using hi)
  have hus : ∀ l < ([] ++ ops.reverse).length, Used s1.idMap l := by
    intro l hl; rw [hs1.idMap]; exact hu l (by simpa using hl)
  obtain ⟨s2, h2, hm2, hp2⟩ := place_spec hf ops.reverse [] s1 hs1.wf hrev hla (by simp) hus
  have hlow : Low s2.idMap ops := by
    intro p hp
    have := hp2 p (by simpa using hp)
    simpa [List.getElem_reverse] using this
  have hb2 := hm2.wf.b
  have ho2 := hm2.ops ho1
  have hkeys : s2.idMap.keys.length = s.idMap.keys.length := by
    rw [IMap.keys_congr _ _ hm2.some, hs1.idMap]
  have hc0 := cost_nonneg hf s.idMap.keys.length
  -- up to here
  have hcost : Cost A s.idMap.keys.length (15 * ops.length) s2.opQ s.opQ (abs A s2) (abs A s) := by
    have hh := hm2.near
    rw [hs1.idMap, List.length_reverse] at hh
    exact (hh.trans hs1.near hf).mono (by omega)
  obtain ⟨e, he, hr⟩ := hcost
  rw [ho2, List.length_nil, Nat.add_zero] at he
  have he' : (e : ℝ) ≤ (15 * ops.length + s.opQ.length : ℕ) := by exact_mod_cast he
  have hsplit : ((passes ops.length + s.opQ.length : ℕ) : ℝ) * cost A s.idMap.keys.length =
      (2 ^ ops.length : ℕ) * cost A s.idMap.keys.length +
        (15 * ops.length + s.opQ.length : ℕ) * cost A s.idMap.keys.length := by
    unfold passes; push_cast; ring
  have hec : (e : ℝ) * cost A s.idMap.keys.length ≤ (15 * ops.length + s.opQ.length : ℕ) * cost A s.idMap.keys.length :=
    mul_le_mul_of_nonneg_right he' hc0
  have hpc : 0 ≤ ((2 ^ ops.length : ℕ) : ℝ) * cost A s.idMap.keys.length := mul_nonneg (Nat.cast_nonneg _) hc0
  rw [hsplit] at hlo hhi
  have hn2 := hr.near (by linarith)
  have hl2 := near_len hn2
  have hl2' : len (abs A s) ≤ len (abs A s2) + e * cost A s.idMap.keys.length := by
    have := len_add (finSupp_sub hn2.fin' hn2.fin) hn2.fin
    rw [sub_add_cancel, ← neg_sub, len_neg] at this
    linarith [hn2.le]
  have hbase : view s2.idMap s2.state = base s2 := by unfold base; rw [ho2]; rfl
  have hlb : len (view s2.idMap s2.state) = len (abs A s2) := by rw [hbase, len_abs]
  obtain ⟨hcore, hnear⟩ := scatter_reach hf hn hlow hg hb2.core (by rw [hkeys, hlb]; linarith)
  rw [hkeys] at hnear
  set st := A.shuffle (s2.state.foldl (Rnd.scatter A u) []) with hst
  have hperm : st.Perm (s2.state.foldl (Rnd.scatter A u) []) := A.shuffle_perm _
  rw [← view_perm hperm] at hnear
  have hcm : matL [] U ops * pendL (pend A s2) s2.idMap.keys = pendL (pend A s2) s2.idMap.keys * matL [] U ops := by
    apply comm_pendL_of
    intro q
    by_cases hq : q ∈ ops
    · left; exact pend_of_not_queued (hm2.calm q (hc1.not_queued hq))
    · right; exact matL_comm_gateL (by simp) hq _ _
  have hiso := iso_matL (cs := []) (ts := ops) (by simpa using hn) hg.unitary
  have habs : Near ((2 ^ ops.length : ℕ) * cost A s.idMap.keys.length) (abs A { s2 with state := st })
      (matL [] U ops (abs A s2)) := by
    have e1 : abs A { s2 with state := st } = pendL (pend A s2) s2.idMap.keys (view s2.idMap st) := by
      unfold abs base
      simp only [ho2]
      rfl
    have e2 : matL [] U ops (abs A s2) = pendL (pend A s2) s2.idMap.keys (matL [] U ops (view s2.idMap s2.state)) := by
      rw [hbase]
      exact LinearMap.congr_fun hcm _
    rw [e1, e2]
    exact hnear.map (iso_pend s2)
  have hne : st.isEmpty = false := by
    cases hst' : st with
    | cons _ _ => rfl
    | nil =>
      exfalso
      rw [hst', view_nil] at hnear
      have := hnear.le
      rw [zero_sub, len_neg, hiso.len (finSupp_view _ _), hlb] at this
      linarith
  refine ⟨{ s2 with state := st }, ?_, ⟨?_, hm2.wf.queued⟩, hm2.rng.trans hs1.rng, ?_, ?_, e + 2 ^ ops.length, ?_, ?_⟩
  · unfold applyOn checkForDuplicates
    rw [if_pos hn]
    simp only [ok_bind, h1]
    simp only [List.length_nil] at h2
    rw [h2]
    simp only [ok_bind, ← hst]
    rw [hne]
    rfl
  · show WFB s2.idMap st s2.opQ
    rw [ho2]
    exact WFB.nil (hcore.perm hperm)
  · intro i; rw [← hs1.idMap]; exact hm2.some i
  · intro l; rw [← hs1.idMap]; exact hm2.used l
  · show e + 2 ^ ops.length + s2.opQ.length ≤ _
    rw [ho2, List.length_nil]
    unfold passes
    omega
  · refine ⟨finSupp_abs _, hiso.fin (finSupp_abs _), fun _ => ?_⟩
    have := (habs.trans (hn2.map hiso)).le
    push_cast at this ⊢
    linarith

end Qir.Rnd
