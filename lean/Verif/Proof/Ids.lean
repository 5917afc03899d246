import Verif.Proof.Measure

/-! Allocation, release and exchange of identifiers. -/

noncomputable section
namespace Qir
open Spec Function Sim

/-! ### The first free number -/

theorem firstFree_aux (l : List ℕ) (n : ℕ) (hs : l.Pairwise (· < ·)) (hge : ∀ a ∈ l, n ≤ a) :
    ∃ r, (match ((l.zipIdx n).takeWhile (fun p => p.2 == p.1)).getLast? with
        | some p => p.1 + 1
        | none => n) = r ∧ n ≤ r ∧ r ∉ l ∧ ∀ j, n ≤ j → j < r → j ∈ l := by
  induction l generalizing n with
  | nil => exact ⟨n, rfl, le_refl n, by simp, by intro j h1 h2; omega⟩
  | cons a l ih =>
    rw [List.pairwise_cons] at hs
    by_cases ha : n = a
    · subst ha
      obtain ⟨r, hr, h1, h2, h3⟩ := ih (n + 1) hs.2 (fun b hb => hs.1 b hb)
      refine ⟨r, ?_, by omega, ?_, ?_⟩
      · rw [List.zipIdx_cons, List.takeWhile_cons]
        simp only [BEq.rfl, if_true]
        rw [List.getLast?_cons]
        cases hgl : ((l.zipIdx (n + 1)).takeWhile (fun p => p.2 == p.1)).getLast? with
        | none => rw [hgl] at hr; simpa using hr
        | some p => rw [hgl] at hr; simpa using hr
      · simp only [List.mem_cons, not_or]; exact ⟨by omega, h2⟩
      · intro j hj1 hj2
        by_cases hj : j = n
        · subst hj; simp
        · exact List.mem_cons_of_mem _ (h3 j (by omega) hj2)
    · refine ⟨n, ?_, le_refl n, ?_, by intro j h1 h2; omega⟩
      · rw [List.zipIdx_cons, List.takeWhile_cons]
        simp [ha]
      · have h0 := hge a (by simp)
        simp only [List.mem_cons, not_or]
        refine ⟨ha, fun hc => ?_⟩
        have := hs.1 n hc
        omega

theorem firstFree_spec {l : List ℕ} (hs : l.Pairwise (· < ·)) :
    firstFree l ∉ l ∧ ∀ j, j < firstFree l → j ∈ l := by
  obtain ⟨r, hr, _, h2, h3⟩ := firstFree_aux l 0 hs (by simp)
  have : firstFree l = r := by
    unfold firstFree; rw [← hr]; rfl
  rw [this]
  exact ⟨h2, fun j hj => h3 j (by omega) hj⟩

theorem values_nodup {m : IMap ℕ} (hm : Inj m) : m.values.Nodup := by
  rw [IMap.values_eq]
  have hk := IMap.keys_nodup m
  unfold IMap.keys at hk
  have hn : m.iter.Nodup := hk.of_map
  apply List.Nodup.map_on _ hn
  rintro ⟨a, v⟩ ha ⟨b, w⟩ hb h
  simp only at h
  subst h
  have := hm a b v ((IMap.mem_iter _ _ _).1 ha) ((IMap.mem_iter _ _ _).1 hb)
  rw [this]

theorem mem_values {m : IMap ℕ} {l : ℕ} : l ∈ m.values ↔ ∃ i, m.get i = some l := by
  rw [IMap.values_eq, List.mem_map]
  constructor
  · rintro ⟨⟨i, v⟩, h, rfl⟩; exact ⟨i, (IMap.mem_iter _ _ _).1 h⟩
  · rintro ⟨i, h⟩; exact ⟨(i, l), (IMap.mem_iter _ _ _).2 h, rfl⟩

theorem sorted_values {m : IMap ℕ} (hm : Inj m) :
    (m.values.mergeSort (fun a b => decide (a ≤ b))).Pairwise (· < ·) := by
  have h1 : (m.values.mergeSort (fun a b => decide (a ≤ b))).Pairwise (fun a b => decide (a ≤ b)) := by
    apply List.pairwise_mergeSort
    · intro a b c h1 h2; simp only [decide_eq_true_eq] at *; omega
    · intro a b; simp only [Bool.or_eq_true, decide_eq_true_eq]; omega
  have h2 : (m.values.mergeSort (fun a b => decide (a ≤ b))).Nodup :=
    ((List.mergeSort_perm _ _).nodup_iff).2 (values_nodup hm)
  have := h1.and h2
  refine this.imp ?_
  intro a b ⟨h1, h2⟩
  simp only [decide_eq_true_eq] at h1
  omega

/-- The location `allocate` gives a new qubit is not in use. -/
theorem newVal_fresh {m : IMap ℕ} (hm : Inj m) (i : ℕ) :
    m.get i ≠ some (firstFree (m.values.mergeSort (fun a b => decide (a ≤ b)))) := by
  intro h
  apply (firstFree_spec (sorted_values hm)).1
  rw [List.mem_mergeSort]
  exact mem_values.2 ⟨i, h⟩

theorem newKey_spec (m : IMap ℕ) :
    m.get (firstFree (m.iter.map Prod.fst)) = none ∧
      ∀ j < firstFree (m.iter.map Prod.fst), (m.get j).isSome := by
  obtain ⟨h1, h2⟩ := firstFree_spec (IMap.keys_sorted m)
  constructor
  · rw [← Option.not_isSome_iff_eq_none, ← IMap.mem_keys]; exact h1
  · intro j hj
    rw [← IMap.mem_keys]; exact h2 j hj

/-! ### Changing the list of allocated qubits -/

theorem pendL_perm {P : ℕ → Mat2} {L L' : List ℕ} (h : L.Perm L') : pendL P L = pendL P L' := by
  induction h with
  | nil => rfl
  | cons q _ ih => rw [pendL_cons, pendL_cons, ih]
  | swap a b l =>
    rw [pendL_cons, pendL_cons, pendL_cons, pendL_cons, ← mul_assoc, ← mul_assoc]
    by_cases hab : a = b
    · rw [hab]
    · rw [ctrlL_comm_gateL hab (by simp)]
  | trans _ _ ih1 ih2 => rw [ih1, ih2]

theorem keys_insert_perm (m : IMap ℕ) {i v : ℕ} (h : m.get i = none) :
    (m.insert i v).keys.Perm (i :: m.keys) := by
  have hi : i ∉ m.keys := by rw [IMap.mem_keys, h]; simp
  rw [List.perm_ext_iff_of_nodup (IMap.keys_nodup _) (List.nodup_cons.2 ⟨hi, IMap.keys_nodup _⟩)]
  intro a
  rw [List.mem_cons, IMap.mem_keys, IMap.mem_keys, IMap.get_insert]
  by_cases ha : a = i
  · simp [ha]
  · simp [ha]

theorem keys_remove_perm (m : IMap ℕ) {i : ℕ} (h : (m.get i).isSome) :
    m.keys.Perm (i :: (m.remove i).keys) := by
  have hi : i ∉ (m.remove i).keys := by rw [IMap.mem_keys, IMap.get_remove]; simp
  rw [List.perm_ext_iff_of_nodup (IMap.keys_nodup _) (List.nodup_cons.2 ⟨hi, IMap.keys_nodup _⟩)]
  intro a
  rw [List.mem_cons, IMap.mem_keys, IMap.mem_keys, IMap.get_remove]
  by_cases ha : a = i
  · simp [ha, h]
  · simp [ha]

theorem view_congr {m m' : IMap ℕ} {st : List (ℕ × ℂ)} (h : ∀ e ∈ st, idBits m e.1 = idBits m' e.1) :
    view m st = view m' st := by
  unfold view
  congr 1
  apply List.map_congr_left
  intro e he
  unfold entryWave
  rw [h e he]

theorem opndsOk_mono {m m' : IMap ℕ} {cs : List ℕ} {t : ℕ} (h : OpndsOk m cs t)
    (hm : ∀ i, (m.get i).isSome → (m'.get i).isSome) : OpndsOk m' cs t :=
  ⟨h.1, fun i hi => hm i (h.2 i hi)⟩

theorem not_queued_of_none {s : Sim} (hw : WF s) {q : ℕ} (h : s.idMap.get q = none) :
    s.hasQueued q = false := by
  by_contra hc
  rw [Bool.not_eq_false] at hc
  have := hw.queued q hc
  rw [h] at this; simp at this

theorem insert_spec {s : Sim} (hw : WF s) {key val : ℕ} (hk1 : s.idMap.get key = none)
    (hv : ∀ i, s.idMap.get i ≠ some val) :
    WF { s with idMap := s.idMap.insert key val } ∧
      (∀ j, ((s.idMap.insert key val).get j).isSome = (decide (j = key) || (s.idMap.get j).isSome)) ∧
      abs { s with idMap := s.idMap.insert key val } = abs s := by
  have hget : ∀ j, (s.idMap.insert key val).get j = if j = key then some val else s.idMap.get j :=
    fun j => IMap.get_insert _ _ _ _
  have hmono : ∀ i, (s.idMap.get i).isSome → ((s.idMap.insert key val).get i).isSome := by
    intro i hi
    rw [hget]; split
    · rfl
    · exact hi
  have hbits : ∀ e ∈ s.state, e.1.testBit val = false := by
    intro e he
    by_contra hc
    rw [Bool.not_eq_false] at hc
    obtain ⟨i, hi⟩ := hw.b.core.bits e he val hc
    exact hv i hi
  refine ⟨⟨⟨⟨?_, hw.b.core.nodup, ?_⟩, ?_⟩, ?_⟩, ?_, ?_⟩
  · intro i j l hi hj
    rw [hget] at hi hj
    split at hi <;> split at hj
    · rename_i h1 h2; rw [h1, h2]
    · cases hi; exact absurd hj (hv j)
    · cases hj; exact absurd hi (hv i)
    · exact hw.b.core.inj i j l hi hj
  · intro e he l hl
    obtain ⟨i, hi⟩ := hw.b.core.bits e he l hl
    refine ⟨i, ?_⟩
    rw [hget, if_neg]
    · exact hi
    · rintro rfl; rw [hk1] at hi; cases hi
  · intro op hop; exact opndsOk_mono (hw.b.ops op hop) hmono
  · intro q hq; exact hmono q (hw.queued q hq)
  · intro j
    rw [hget]
    by_cases hj : j = key <;> simp [hj]
  · show pendL (pend s) (s.idMap.insert key val).keys
      (opsL s.opQ (view (s.idMap.insert key val) s.state)) = _
    rw [pendL_perm (keys_insert_perm _ hk1), pendL_cons,
      pend_of_not_queued (not_queued_of_none hw hk1), gateL_one, one_mul]
    rw [view_congr (m' := s.idMap)]
    · rfl
    · intro e he
      funext r
      unfold idBits
      rw [hget]
      by_cases hr : r = key
      · subst hr
        rw [if_pos rfl, hk1]
        exact hbits e he
      · rw [if_neg hr]

theorem allocate_spec {s : Sim} (hw : WF s) :
    s.idMap.get s.allocate.1 = none ∧ (∀ j < s.allocate.1, (s.idMap.get j).isSome) ∧
      WF s.allocate.2 ∧
      (∀ j, (s.allocate.2.idMap.get j).isSome = (decide (j = s.allocate.1) || (s.idMap.get j).isSome)) ∧
      s.allocate.2.rng = s.rng ∧ abs s.allocate.2 = abs s := by
  obtain ⟨hk1, hk2⟩ := newKey_spec s.idMap
  obtain ⟨h1, h2, h3⟩ := insert_spec hw hk1 (newVal_fresh hw.b.core.inj)
  exact ⟨hk1, hk2, h1, h2, rfl, h3⟩

/-! ### Release -/

theorem parity_singleton (q : ℕ) (b : Basis) : parity [q] b = b q := by simp [parity]

theorem idBits_remove {m : IMap ℕ} {id loc : ℕ} (hl : m.get id = some loc) {k : ℕ}
    (hk : k.testBit loc = false) : idBits (m.remove id) k = idBits m k := by
  funext r
  unfold idBits
  rw [IMap.get_remove]
  by_cases hr : r = id
  · subst hr; rw [if_pos rfl, hl]; exact hk.symm
  · rw [if_neg hr]

theorem release_many {env : Env} (he : env.eps = 0) {s : Sim} (hw : WF s) {id : ℕ}
    (ha : (s.idMap.get id).isSome) (hlen : s.idMap.iter.length ≠ 1) :
    ∃ s', s.release env id = .ok s' ∧ WF s' ∧ s'.idMap = s.idMap.remove id ∧
      s'.rng = (fun n => s.rng (n + 1)) ∧
      abs s' = (if decide (s.rng 0 < prob [id] true (abs s)) then gateL matX id else 1)
        ((scaling (decide (s.rng 0 < prob [id] true (abs s))) (prob [id] true (abs s)) : ℂ) •
          proj [id] (decide (s.rng 0 < prob [id] true (abs s))) (abs s)) := by
  obtain ⟨s1, h1, hm⟩ := measure_spec he hw ha
  generalize hres : decide (s.rng 0 < prob [id] true (abs s)) = res at h1 hm ⊢
  obtain ⟨loc, hloc⟩ := Option.isSome_iff_exists.1 ha
  have hloc1 : s1.idMap.get id = some loc := by rw [hm.idMap]; exact hloc
  have hbit : ∀ e ∈ s1.state, e.1.testBit loc = res := by
    intro e hee
    have := hm.bits e hee
    rw [parity_singleton, idBits_of hloc1] at this
    exact this
  -- the entries with the qubit set to zero
  obtain ⟨st, hst, hcore, hv, hz⟩ : ∃ st, s.releaseState env id = .ok { s1 with state := st } ∧
      Core s1.idMap st ∧ view s1.idMap st = (if res then gateL matX id else 1) (view s1.idMap s1.state) ∧
      ∀ e ∈ st, e.1.testBit loc = false := by
    unfold releaseState
    rw [if_neg hlen]
    simp only [h1, ok_bind, indexId, hloc1]
    cases res
    · exact ⟨s1.state, by simp, hm.wf.b.core, by simp, hbit⟩
    · refine ⟨_, rfl, ?_, ?_, ?_⟩
      · refine ⟨hm.wf.b.core.inj, ?_, ?_⟩
        · rw [List.map_map]
          apply List.Nodup.map_on
          · intro a ha b hb hab
            have h1 := hbit a ha
            have h2 := hbit b hb
            simp only [comp_apply, h1, h2, if_true] at hab
            have hkey : a.1 = b.1 := by
              apply Nat.eq_of_testBit_eq
              intro l
              by_cases hl : l = loc
              · subst hl; rw [h1, h2]
              · have := congrArg (fun n => n.testBit l) hab
                simp only [testBit_setBit, if_neg hl] at this
                exact this
            exact List.inj_on_of_nodup_map hm.wf.b.core.nodup ha hb hkey
          · exact hm.wf.b.core.nodup.of_map
        · intro e hee
          obtain ⟨e', he', rfl⟩ := List.mem_map.1 hee
          simp only [hbit e' he', if_true]
          intro l hl
          rw [testBit_setBit] at hl
          split at hl
          · cases hl
          · exact hm.wf.b.core.bits e' he' l hl
      · simp only [if_true]
        apply view_map_of
        intro e hee
        simp only [hbit e hee, if_true]
        unfold entryWave
        rw [map_smul, ctrlL_apply, ctrl_ket (by simp)]
        simp only [List.not_mem_nil, false_imp_iff, implies_true, if_true]
        rw [idBits_setBit hm.wf.b.core.inj hloc1, idBits_of hloc1, hbit e hee]
        simp [matX, mat]
      · intro e hee
        obtain ⟨e', he', rfl⟩ := List.mem_map.1 hee
        simp only [hbit e' he', if_true]
        rw [testBit_setBit, if_pos rfl]
  have hq : ∀ q, s1.hasQueued q = true → q ≠ id := by
    rintro q hq rfl
    rw [hm.quiet q (by simp)] at hq; cases hq
  refine ⟨{ s1 with state := st, idMap := s1.idMap.remove id }, ?_, ⟨⟨⟨?_, hcore.nodup, ?_⟩, ?_⟩, ?_⟩,
    by rw [← hm.idMap], hm.rng, ?_⟩
  · unfold release
    simp only [hst, ok_bind]
    rfl
  · intro i j l hi hj
    simp only [IMap.get_remove] at hi hj
    split at hi
    · cases hi
    · split at hj
      · cases hj
      · exact hcore.inj i j l hi hj
  · intro e hee l hl
    obtain ⟨i, hi⟩ := hcore.bits e hee l hl
    refine ⟨i, ?_⟩
    simp only [IMap.get_remove]
    rw [if_neg]
    · exact hi
    · rintro rfl
      rw [hloc1] at hi
      cases hi
      rw [hz e hee] at hl
      cases hl
  · intro op hop
    have : op ∈ s1.opQ := hop
    rw [hm.ops] at this; simp at this
  · intro q hqq
    have hqq' : s1.hasQueued q = true := hqq
    simp only [IMap.get_remove]
    rw [if_neg (hq q hqq')]
    exact hm.wf.queued q hqq'
  · show pendL (pend s1) (s1.idMap.remove id).keys (opsL s1.opQ (view (s1.idMap.remove id) st)) = _
    have hpid : pend s1 id = 1 := pend_of_not_queued (hm.quiet id (by simp))
    have hA : (if res then gateL matX id else 1 : Module.End ℂ Wave) * pendL (pend s1) s1.idMap.keys =
        pendL (pend s1) s1.idMap.keys * (if res then gateL matX id else 1) := by
      apply comm_pendL_of
      intro r
      by_cases hr : r = id
      · left; rw [hr]; exact hpid
      · right
        cases res
        · simp
        · exact ctrlL_comm_gateL hr (by simp) _ _
    rw [view_congr (m' := s1.idMap) (fun e hee => idBits_remove hloc1 (hz e hee)), hv, hm.ops]
    have hkeys : pendL (pend s1) (s1.idMap.remove id).keys = pendL (pend s1) s1.idMap.keys := by
      rw [pendL_perm (keys_remove_perm s1.idMap (by rw [hloc1]; rfl)), pendL_cons, hpid, gateL_one,
        one_mul]
    rw [hkeys, ← hm.abs]
    unfold Qir.abs base
    rw [hm.ops]
    simp only [opsL_nil, Module.End.one_apply]
    rw [← Module.End.mul_apply, ← hA, Module.End.mul_apply]

/-- Releasing the only qubit restores the initial state and draws no random sample. -/
theorem release_last {env : Env} {s : Sim} {id : ℕ}
    (ha : (s.idMap.get id).isSome) (hlen : s.idMap.iter.length = 1) :
    ∃ s', s.release env id = .ok s' ∧ WF s' ∧ s'.idMap = s.idMap.remove id ∧ s'.rng = s.rng ∧
      abs s' = ket zeroBasis := by
  have hnone : ∀ j, (s.idMap.remove id).get j = none := by
    intro j
    rw [IMap.get_remove]
    split
    · rfl
    · rename_i hj
      by_contra hc
      have h1 : id ∈ s.idMap.keys := (IMap.mem_keys _ _).2 ha
      have h2 : j ∈ s.idMap.keys := (IMap.mem_keys _ _).2 (Option.isSome_iff_ne_none.2 hc)
      have hlk : s.idMap.keys.length = 1 := by unfold IMap.keys; rw [List.length_map]; exact hlen
      obtain ⟨a, hka⟩ := List.length_eq_one_iff.1 hlk
      rw [hka, List.mem_singleton] at h1 h2
      exact hj (h2.trans h1.symm)
  refine ⟨{ s with
    opQ := []
    hFlag := 0
    rxQ := IMap.empty
    ryQ := IMap.empty
    state := [(0, 1)]
    idMap := s.idMap.remove id }, ?_, ?_, rfl, rfl, ?_⟩
  · unfold release releaseState
    rw [if_pos hlen]
    simp only [ok_bind]
    rfl
  · refine ⟨⟨⟨?_, by simp, ?_⟩, by simp⟩, ?_⟩
    · intro i j l hi
      simp only [hnone] at hi; cases hi
    · intro e hee l hl
      simp only [List.mem_singleton] at hee
      subst hee
      simp at hl
    · intro q hq
      rw [hasQueued_eq] at hq
      simp at hq
  · have hk : (s.idMap.remove id).keys = [] := by
      rw [List.eq_nil_iff_forall_not_mem]
      intro j hj
      rw [IMap.mem_keys, hnone] at hj; cases hj
    show pendL _ (s.idMap.remove id).keys (opsL [] (view (s.idMap.remove id) [(0, 1)])) = _
    rw [hk]
    simp only [pendL_nil, opsL_nil, Module.End.one_apply, view_cons, view_nil, add_zero, entryWave,
      one_smul]
    congr 1
    funext j
    simp [idBits, hnone, zeroBasis]

/-! ### Exchanging two identifiers -/

/-- `swapQubits` as a linear map. -/
def swapL (a b : ℕ) : Module.End ℂ Wave where
  toFun := swapQubits a b
  map_add' _ _ := rfl
  map_smul' _ _ := rfl

theorem swapL_apply (a b : ℕ) (ψ : Wave) : swapL a b ψ = swapQubits a b ψ := rfl

theorem update_comp_swap (a b q : ℕ) (v : Bool) (bits : Basis) :
    (fun r => update bits q v (Equiv.swap a b r)) =
      update (fun r => bits (Equiv.swap a b r)) (Equiv.swap a b q) v := by
  funext r
  by_cases hr : r = Equiv.swap a b q
  · subst hr; simp
  · rw [update_of_ne hr, update_of_ne]
    intro h
    apply hr
    rw [← h]; simp

theorem swapL_gateL (a b : ℕ) (U : Mat2) (q : ℕ) :
    swapL a b * gateL U q = gateL U (Equiv.swap a b q) * swapL a b := by
  ext ψ bits
  rw [Module.End.mul_apply, Module.End.mul_apply, gateL_apply_apply, swapL_apply, swapL_apply]
  unfold swapQubits
  rw [gateL_apply_apply]
  have h : ∀ v, (fun r => update bits (Equiv.swap a b q) v (Equiv.swap a b r)) =
      update (fun r => bits (Equiv.swap a b r)) q v := by
    intro v; rw [update_comp_swap]; simp
  simp only [h]

theorem swapL_pendL (a b : ℕ) (P : ℕ → Mat2) (L : List ℕ) :
    swapL a b * pendL P L =
      pendL (fun q => P (Equiv.swap a b q)) (L.map (Equiv.swap a b)) * swapL a b := by
  induction L with
  | nil => simp
  | cons q L ih =>
    rw [pendL_cons, List.map_cons, pendL_cons, ← mul_assoc, swapL_gateL, mul_assoc, ih]
    simp only [Equiv.swap_apply_self, mul_assoc]

theorem swapL_ket (a b : ℕ) (bits : Basis) :
    swapL a b (ket bits) = ket (fun q => bits (Equiv.swap a b q)) := by
  funext b'
  rw [swapL_apply]
  unfold swapQubits ket
  have : ((fun q => b' (Equiv.swap a b q)) = bits) ↔ (b' = fun q => bits (Equiv.swap a b q)) := by
    constructor
    · intro h; rw [← h]; funext q; simp
    · intro h; rw [h]; funext q; simp
  by_cases h : b' = fun q => bits (Equiv.swap a b q)
  · rw [if_pos h, if_pos (this.2 h)]
  · rw [if_neg h, if_neg (fun hh => h (this.1 hh))]

theorem get_swapEntries (q : IMap ℝ) (a b r : ℕ) :
    (swapEntries q a b).get r = q.get (Equiv.swap a b r) := by
  unfold swapEntries
  by_cases hra : r = a
  · subst hra
    rw [Equiv.swap_apply_left]
    cases h2 : q.get b <;> simp [IMap.get_insert, IMap.get_remove]
  · by_cases hrb : r = b
    · subst hrb
      rw [Equiv.swap_apply_right]
      cases h1 : q.get a <;> cases h2 : q.get r <;>
        simp [IMap.get_insert, IMap.get_remove, hra]
    · rw [Equiv.swap_apply_of_ne_of_ne hra hrb]
      cases h1 : q.get a <;> cases h2 : q.get b <;>
        simp [IMap.get_insert, IMap.get_remove, hra, hrb]

theorem testBit_swapFlag (n a b r : ℕ) :
    (setBit (setBit n a (n.testBit b)) b (n.testBit a)).testBit r = n.testBit (Equiv.swap a b r) := by
  rw [testBit_setBit, testBit_setBit]
  by_cases hrb : r = b
  · subst hrb; rw [Equiv.swap_apply_right, if_pos rfl]
  · rw [if_neg hrb]
    by_cases hra : r = a
    · subst hra; rw [Equiv.swap_apply_left, if_pos rfl]
    · rw [if_neg hra, Equiv.swap_apply_of_ne_of_ne hra hrb]

theorem map_swap_perm {L : List ℕ} (hL : L.Nodup) {a b : ℕ} (ha : a ∈ L) (hb : b ∈ L) :
    (L.map (Equiv.swap a b)).Perm L := by
  rw [List.perm_ext_iff_of_nodup (hL.map (Equiv.swap a b).injective) hL]
  intro r
  rw [List.mem_map]
  have key : ∀ r, r ∈ L → Equiv.swap a b r ∈ L := by
    intro r hr
    by_cases hra : r = a
    · subst hra; rw [Equiv.swap_apply_left]; exact hb
    · by_cases hrb : r = b
      · subst hrb; rw [Equiv.swap_apply_right]; exact ha
      · rw [Equiv.swap_apply_of_ne_of_ne hra hrb]; exact hr
  constructor
  · rintro ⟨c, hc, rfl⟩; exact key c hc
  · intro hr; exact ⟨_, key r hr, by simp⟩

theorem swapQubitIds_spec {s : Sim} (hw : WF s) {a b : ℕ} (ha : (s.idMap.get a).isSome)
    (hb : (s.idMap.get b).isSome) :
    ∃ s', s.swapQubitIds a b = .ok s' ∧ WF s' ∧ (∀ j, (s'.idMap.get j).isSome = (s.idMap.get j).isSome) ∧
      s'.rng = s.rng ∧ abs s' = swapQubits a b (abs s) := by
  obtain ⟨st, h1, hcore, hv⟩ := flushOps_spec hw.b
  obtain ⟨la, hla⟩ := Option.isSome_iff_exists.1 ha
  obtain ⟨lb, hlb⟩ := Option.isSome_iff_exists.1 hb
  have hget : ∀ r, ((s.idMap.modify a (fun _ => lb)).modify b (fun _ => la)).get r =
      s.idMap.get (Equiv.swap a b r) := by
    intro r
    by_cases hrb : r = b
    · subst hrb
      rw [IMap.get_modify_same, IMap.get_modify, Equiv.swap_apply_right]
      by_cases hra : r = a
      · subst hra; simp [hla]
      · rw [if_neg hra, hlb, hla]; rfl
    · rw [IMap.get_modify, if_neg hrb, IMap.get_modify]
      by_cases hra : r = a
      · subst hra; rw [if_pos rfl, Equiv.swap_apply_left, hla, hlb]; rfl
      · rw [if_neg hra, Equiv.swap_apply_of_ne_of_ne hra hrb]
  have hsome : ∀ r, (s.idMap.get (Equiv.swap a b r)).isSome = (s.idMap.get r).isSome := by
    intro r
    by_cases hra : r = a
    · subst hra; rw [Equiv.swap_apply_left, hla, hlb]; rfl
    · by_cases hrb : r = b
      · subst hrb; rw [Equiv.swap_apply_right, hla, hlb]; rfl
      · rw [Equiv.swap_apply_of_ne_of_ne hra hrb]
  refine ⟨{ s with
    state := st
    opQ := []
    hFlag := setBit (setBit s.hFlag a (s.hFlag.testBit b)) b (s.hFlag.testBit a)
    rxQ := swapEntries s.rxQ a b
    ryQ := swapEntries s.ryQ a b
    idMap := (s.idMap.modify a (fun _ => lb)).modify b (fun _ => la) },
    ?_, ⟨⟨⟨?_, hcore.nodup, ?_⟩, by simp⟩, ?_⟩, ?_, rfl, ?_⟩
  · unfold swapQubitIds
    simp only [h1, ok_bind, resolveId, hla, hlb]
    rfl
  · intro i j l hi hj
    simp only [hget] at hi hj
    exact (Equiv.swap a b).injective (hcore.inj _ _ l hi hj)
  · intro e he l hl
    obtain ⟨i, hi⟩ := hcore.bits e he l hl
    refine ⟨Equiv.swap a b i, ?_⟩
    simp only [hget]
    simpa using hi
  · intro q hq
    rw [hasQueued_eq] at hq
    simp only [get_swapEntries, testBit_swapFlag] at hq
    simp only [hget]
    apply hw.queued
    rw [hasQueued_eq]; exact hq
  · intro j; simp only [hget, hsome]
  · have hkeys : ((s.idMap.modify a (fun _ => lb)).modify b (fun _ => la)).keys = s.idMap.keys :=
      IMap.keys_congr _ _ (fun k => by rw [hget, hsome])
    have hidb : ∀ k, idBits ((s.idMap.modify a (fun _ => lb)).modify b (fun _ => la)) k =
        fun q => idBits s.idMap k (Equiv.swap a b q) := by
      intro k; funext q; unfold idBits; rw [hget]
    have hview : view ((s.idMap.modify a (fun _ => lb)).modify b (fun _ => la)) st =
        swapL a b (view s.idMap st) := by
      have := view_map_of (m := s.idMap)
        (m' := (s.idMap.modify a (fun _ => lb)).modify b (fun _ => la)) (A := swapL a b)
        (f := id) (st := st) (by
          intro e _
          unfold entryWave
          rw [map_smul, swapL_ket, id, hidb])
      simpa using this
    rw [← swapL_apply]
    unfold Qir.abs base
    simp only [opsL_nil, Module.End.one_apply, hkeys, hview, hv]
    rw [← Module.End.mul_apply, ← Module.End.mul_apply, swapL_pendL, pendL_perm (map_swap_perm
      (IMap.keys_nodup _) ((IMap.mem_keys _ _).2 ha) ((IMap.mem_keys _ _).2 hb))]
    congr 1
    congr 1
    apply pendL_congr
    intro q _
    unfold pend
    simp only [get_swapEntries, testBit_swapFlag]

end Qir
