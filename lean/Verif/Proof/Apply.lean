import Verif.Model.Apply
import Verif.Proof.Matrix
import Verif.Proof.Order

/-! # `apply`: moving the operands and multiplying by the matrix -/

noncomputable section
namespace Qir
open Spec Sim Function

theorem modify_same {m : IMap ℕ} {k v : ℕ} (h : m.get k = some v) : m.modify k (fun _ => v) = m := by
  unfold IMap.get at h
  unfold IMap.modify
  have h1 : m.vals[k]? = some (some v) := by
    cases hv : m.vals[k]? with
    | none => rw [hv] at h; cases h
    | some o => rw [hv] at h; simp at h; rw [h]
  rw [h1]
  obtain ⟨hk, h2⟩ := List.getElem?_eq_some_iff.1 h1
  simp only
  congr 1
  rw [← h2, List.set_getElem_self]

theorem abs_moved {s s' : Sim} (ho : s.opQ = []) (ho' : s'.opQ = []) (hp : ∀ q, pend s' q = pend s q)
    (hsome : ∀ i, (s'.idMap.get i).isSome = (s.idMap.get i).isSome)
    (hv : view s'.idMap s'.state = view s.idMap s.state) : abs s' = abs s := by
  unfold Qir.abs base
  rw [ho, ho', hv, IMap.keys_congr _ _ hsome, pendL_congr (fun q _ => hp q)]

/-- The location is in use. -/
def Used (m : IMap ℕ) (l : ℕ) : Prop := ∃ i, m.get i = some l

theorem findByLoc_used {m : IMap ℕ} {l : ℕ} (h : Used m l) : ∃ k, findByLoc m l = some k := by
  cases hf : findByLoc m l with
  | some k => exact ⟨k, rfl⟩
  | none => obtain ⟨i, hi⟩ := h; exact absurd hi (findByLoc_none hf i)

theorem findByLoc_unused {m : IMap ℕ} {l : ℕ} (h : ¬ Used m l) : findByLoc m l = none := by
  cases hf : findByLoc m l with
  | none => rfl
  | some k => exact absurd ⟨k, findByLoc_some hf⟩ h

/-- Exchanging two locations in use does not change which are in use. -/
theorem used_swap {m m' : IMap ℕ} {a b : ℕ} (ha : Used m a) (hb : Used m b)
    (h : ∀ i, m'.get i = (m.get i).map (Equiv.swap a b)) (l : ℕ) : Used m' l ↔ Used m l := by
  have key : ∀ l, Used m' l ↔ Used m (Equiv.swap a b l) := by
    intro l
    constructor
    · rintro ⟨i, hi⟩
      rw [h] at hi
      obtain ⟨l', h1, h2⟩ := Option.map_eq_some_iff.1 hi
      exact ⟨i, by rw [h1, ← h2, Equiv.swap_apply_self]⟩
    · rintro ⟨i, hi⟩
      exact ⟨i, by rw [h, hi, Option.map_some, Equiv.swap_apply_self]⟩
  rw [key]
  by_cases h1 : l = a
  · subst h1; rw [Equiv.swap_apply_left]; exact ⟨fun _ => ha, fun _ => hb⟩
  · by_cases h2 : l = b
    · subst h2; rw [Equiv.swap_apply_right]; exact ⟨fun _ => hb, fun _ => ha⟩
    · rw [Equiv.swap_apply_of_ne_of_ne h1 h2]

/-- What moving an operand leaves unchanged. -/
structure Moved (s s' : Sim) : Prop where
  wf : WF s'
  rng : s'.rng = s.rng
  abs : Qir.abs s' = Qir.abs s
  some : ∀ i, (s'.idMap.get i).isSome = (s.idMap.get i).isSome
  calm : ∀ q, s.hasQueued q = false → s'.hasQueued q = false
  ops : s.opQ = [] → s'.opQ = []
  used : ∀ l, Used s'.idMap l ↔ Used s.idMap l

theorem Moved.refl {s : Sim} (h : WF s) : Moved s s := ⟨h, rfl, rfl, fun _ => rfl, fun _ h => h, id, fun _ => Iff.rfl⟩

theorem Moved.trans {s s1 s2 : Sim} (h : Moved s s1) (h' : Moved s1 s2) : Moved s s2 :=
  ⟨h'.wf, h'.rng.trans h.rng, h'.abs.trans h.abs, fun i => (h'.some i).trans (h.some i),
    fun q hq => h'.calm q (h.calm q hq), fun ho => h'.ops (h.ops ho),
    fun l => (h'.used l).trans (h.used l)⟩

theorem placeOne_spec {env : Env} (he : env.eps = 0) {s : Sim} (hw : WF s) {index key loc sk : ℕ}
    (hk : s.idMap.get key = some loc) (hsk : findByLoc s.idMap index = some sk) :
    ∃ s', s.placeOne env index key = .ok s' ∧ Moved s s' ∧
      ∀ i, s'.idMap.get i = (s.idMap.get i).map (Equiv.swap loc index) := by
  have hg := findByLoc_some hsk
  unfold placeOne resolveId
  simp only [hk, ok_bind, hsk]
  by_cases hne : loc = index
  · subst hne
    have : sk = key := hw.b.core.inj _ _ _ hg hk
    subst this
    refine ⟨s, ?_, Moved.refl hw, ?_⟩
    · unfold swapQubitState
      simp only [if_true, ok_bind, modify_same hk, pure_ok]
    · intro i; simp
  · obtain ⟨s1, h1, hs1, hc1, ho1⟩ := flushQueue_spec he .HRxRy [loc, index] hw
    have hget : ∀ i, ((s1.idMap.modify sk (fun _ => loc)).modify key (fun _ => index)).get i =
        (s1.idMap.get i).map (Equiv.swap loc index) := by
      rw [hs1.idMap]
      intro i
      have hskk : sk ≠ key := by
        rintro rfl; rw [hg] at hk; cases hk; exact hne rfl
      rw [IMap.get_modify]
      by_cases hi : i = key
      · subst hi
        rw [if_pos rfl, IMap.get_modify, if_neg (Ne.symm hskk), hk]; simp
      · rw [if_neg hi, IMap.get_modify]
        by_cases his : i = sk
        · subst his; rw [if_pos rfl, hg]; simp
        · rw [if_neg his]
          cases hgi : s.idMap.get i with
          | none => rfl
          | some l =>
            have h1 : l ≠ loc := by rintro rfl; exact hi (hw.b.core.inj _ _ _ hgi hk)
            have h2 : l ≠ index := by rintro rfl; exact his (hw.b.core.inj _ _ _ hgi hg)
            rw [Option.map_some, Equiv.swap_apply_of_ne_of_ne h1 h2]
    obtain ⟨hcore, hview⟩ := relabel_spec hs1.wf.b.core hne hget
    have hsome : ∀ i, (((s1.idMap.modify sk (fun _ => loc)).modify key (fun _ => index)).get i).isSome =
        (s1.idMap.get i).isSome := by
      intro i; rw [hget]; simp
    refine ⟨{ s1 with
      state := s1.state.map (swapKey loc index)
      idMap := (s1.idMap.modify sk (fun _ => loc)).modify key (fun _ => index) }, ?_, ⟨⟨?_, ?_⟩, hs1.rng, ?_, ?_, ?_, ?_, ?_⟩, ?_⟩
    · unfold swapQubitState
      simp only [if_neg hne, h1, ok_bind, pure_ok]
    · show WFB _ _ s1.opQ
      rw [ho1]; exact WFB.nil hcore
    · intro q hq
      rw [hsome]
      exact hs1.wf.queued q hq
    · rw [← hs1.abs]
      exact abs_moved ho1 ho1 (fun _ => rfl) hsome hview
    · intro i
      rw [hsome, hs1.idMap]
    · intro q hq
      exact hc1.mono_queued hq
    · intro _; exact ho1
    · exact used_swap ⟨key, hk⟩ ⟨sk, hg⟩ (by intro i; rw [hget, hs1.idMap])
    · intro i; rw [hget, hs1.idMap]

theorem place_spec {env : Env} (he : env.eps = 0) (rest : List ℕ) :
    ∀ (done : List ℕ) (s : Sim), WF s → (done ++ rest).Nodup → Alloc s.idMap (done ++ rest) →
      (∀ j (hj : j < done.length), s.idMap.get done[j] = some j) →
      (∀ l < (done ++ rest).length, Used s.idMap l) →
      ∃ s', s.place env done.length rest = .ok s' ∧ Moved s s' ∧
        (∀ j (hj : j < (done ++ rest).length), s'.idMap.get (done ++ rest)[j] = some j) := by
  induction rest with
  | nil =>
    intro done s hw _ _ hd _
    refine ⟨s, rfl, Moved.refl hw, ?_⟩
    intro j hj
    simp only [List.append_nil] at hj ⊢
    exact hd j hj
  | cons t rest ih =>
    intro done s hw hn ha hd hu
    obtain ⟨loc, hloc⟩ := Option.isSome_iff_exists.1 (ha t (by simp))
    obtain ⟨sk, hsk⟩ := findByLoc_used (hu done.length (by simp))
    obtain ⟨s1, h1, hm1, hg1⟩ := placeOne_spec he hw hloc hsk
    have e : done ++ t :: rest = (done ++ [t]) ++ rest := by simp
    rw [e] at hn ha hu
    have hus := used_swap (m' := s1.idMap) ⟨t, hloc⟩ ⟨sk, findByLoc_some hsk⟩ hg1
    obtain ⟨s2, h2, hm2, hg2⟩ := ih (done ++ [t]) s1 hm1.wf hn
      (fun i hi => by rw [hm1.some]; exact ha i hi) (by
        intro j hj
        simp only [List.length_append, List.length_singleton] at hj
        rw [hg1]
        by_cases hjd : j < done.length
        · rw [List.getElem_append_left hjd, hd j hjd, Option.map_some]
          congr 1
          apply Equiv.swap_apply_of_ne_of_ne
          · rintro rfl
            have h3 := hw.b.core.inj _ _ _ (hd j hjd) hloc
            have h4 := List.nodup_append.1 (List.nodup_append.1 hn).1
            exact h4.2.2 t (h3 ▸ List.getElem_mem hjd) t (by simp) rfl
          · omega
        · have hj' : j = done.length := by omega
          subst hj'
          rw [List.getElem_append_right (le_refl _)]
          simp [hloc]) (fun l hl => (hus l).2 (hu l hl))
    refine ⟨s2, ?_, hm1.trans hm2, ?_⟩
    · unfold place
      simp only [h1, ok_bind]
      rw [List.length_append, List.length_singleton] at h2
      exact h2
    · intro j hj
      have := hg2 j (by rw [← e]; exact hj)
      simp only [e]
      exact this

/-- If a location below the number of operands is not in use, the loop panics. -/
theorem place_panics {env : Env} (he : env.eps = 0) (rest : List ℕ) : ∀ (n : ℕ) (s : Sim), WF s →
    Alloc s.idMap rest → (∃ l, n ≤ l ∧ l < n + rest.length ∧ ¬ Used s.idMap l) →
    s.place env n rest = .error .outOfBounds := by
  induction rest with
  | nil => rintro n s _ _ ⟨l, h1, h2, _⟩; simp at h2; omega
  | cons t rest ih =>
    rintro n s hw ha ⟨l, h1, h2, h3⟩
    obtain ⟨loc, hloc⟩ := Option.isSome_iff_exists.1 (ha t (by simp))
    by_cases hu : Used s.idMap n
    · obtain ⟨sk, hsk⟩ := findByLoc_used hu
      obtain ⟨s1, g1, hm1, hg1⟩ := placeOne_spec he hw hloc hsk
      have hus := used_swap (m' := s1.idMap) ⟨t, hloc⟩ ⟨sk, findByLoc_some hsk⟩ hg1
      unfold place
      simp only [g1, ok_bind]
      apply ih (n + 1) s1 hm1.wf (fun i hi => by rw [hm1.some]; exact ha i (by simp [hi]))
      refine ⟨l, ?_, by simp at h2; omega, fun hc => h3 ((hus l).1 hc)⟩
      rcases Nat.lt_or_ge n l with h | h
      · exact h
      · exfalso
        have : n = l := by omega
        subst this; exact h3 hu
    · unfold place placeOne resolveId
      simp only [hloc, ok_bind, findByLoc_unused hu]
      rfl

/-! ### Multiplying by the matrix -/

/-- The operands are at the lowest locations, the last one at location zero. -/
def Low (m : IMap ℕ) (ts : List ℕ) : Prop :=
  ∀ p (hp : p < ts.length), m.get (ts[ts.length - 1 - p]'(by omega)) = some p

theorem Low.at {m : IMap ℕ} {ts : List ℕ} (h : Low m ts) {i : ℕ} (hi : i < ts.length) :
    m.get ts[i] = some (ts.length - 1 - i) := by
  have := h (ts.length - 1 - i) (by omega)
  have e : ts.length - 1 - (ts.length - 1 - i) = i := by omega
  simp only [e] at this
  exact this

theorem rowOf_idBits {m : IMap ℕ} {ts : List ℕ} (h : Low m ts) (k : ℕ) :
    rowOf ts (idBits m k) = k % 2 ^ ts.length := by
  apply eq_of_bits (rowOf_lt _ _) (Nat.mod_lt _ (by positivity))
  intro p hp
  rw [testBit_rowOf _ _ _ hp, Nat.testBit_mod_two_pow]
  unfold idBits
  rw [h p hp]
  simp [hp]

theorem testBit_split (k n j l : ℕ) (hj : j < 2 ^ n) :
    (k / 2 ^ n * 2 ^ n + j).testBit l = if l < n then j.testBit l else k.testBit l := by
  rw [mul_comm, Nat.testBit_two_pow_mul_add _ hj]
  split
  · rfl
  · rw [Nat.testBit_div_two_pow]
    congr 1; omega

theorem setRow_idBits {m : IMap ℕ} {ts : List ℕ} (hn : ts.Nodup) (hi : Inj m) (h : Low m ts) (k : ℕ) {j : ℕ}
    (hj : j < 2 ^ ts.length) :
    setRow ts j (idBits m k) = idBits m (k / 2 ^ ts.length * 2 ^ ts.length + j) := by
  funext q
  by_cases hq : q ∈ ts
  · obtain ⟨i, hil, rfl⟩ := List.getElem_of_mem hq
    rw [setRow_getElem hn]
    unfold idBits
    rw [h.at hil]
    simp only [testBit_split _ _ _ _ hj]
    rw [if_pos (by omega)]
  · rw [setRow_of_not_mem hq]
    unfold idBits
    cases hg : m.get q with
    | none => rfl
    | some l =>
      simp only [testBit_split _ _ _ _ hj]
      rw [if_neg]
      intro hl
      apply hq
      rw [hi _ _ _ hg (h l hl)]
      exact List.getElem_mem _

theorem bitsIn_split {m : IMap ℕ} {ts : List ℕ} (h : Low m ts) {k j : ℕ} (hk : BitsIn m k)
    (hj : j < 2 ^ ts.length) : BitsIn m (k / 2 ^ ts.length * 2 ^ ts.length + j) := by
  intro l hl
  rw [testBit_split _ _ _ _ hj] at hl
  by_cases hlt : l < ts.length
  · exact ⟨_, h l hlt⟩
  · rw [if_neg hlt] at hl; exact hk l hl

theorem lookupMap_mem {l : List (ℕ × ℂ)} {k : ℕ} {v : ℂ} (h : lookupMap l k = some v) : (k, v) ∈ l := by
  unfold lookupMap at h
  obtain ⟨⟨a, b⟩, h1, rfl⟩ := Option.map_eq_some_iff.1 h
  have h2 := List.find?_some h1
  simp only [beq_iff_eq] at h2
  subst h2
  exact List.mem_of_find?_eq_some h1

theorem addEntry_keys (loc : ℕ) (v : ℂ) (acc : List (ℕ × ℂ)) (h : (acc.map Prod.fst).Nodup) :
    ((addEntry loc v acc).map Prod.fst).Nodup ∧
      ∀ e ∈ addEntry loc v acc, e.1 = loc ∨ ∃ e' ∈ acc, e'.1 = e.1 := by
  unfold addEntry
  split
  · have e : (acc.map (fun e => if e.1 == loc then (e.1, e.2 + v) else e)).map Prod.fst = acc.map Prod.fst := by
      rw [List.map_map]
      apply List.map_congr_left
      intro e _
      simp only [comp_apply]
      split <;> rfl
    refine ⟨by rw [e]; exact h, ?_⟩
    intro x hx
    have : x.1 ∈ acc.map Prod.fst := by rw [← e]; exact List.mem_map_of_mem hx
    obtain ⟨e', h1, h2⟩ := List.mem_map.1 this
    exact .inr ⟨e', h1, h2⟩
  · rename_i hc
    simp only [List.any_eq_true, not_exists, not_and, Bool.not_eq_true, beq_eq_false_iff_ne, beq_iff_eq] at hc
    refine ⟨?_, ?_⟩
    · rw [List.map_append, List.nodup_append]
      refine ⟨h, by simp, ?_⟩
      intro a ha b hb
      obtain ⟨e', h1, rfl⟩ := List.mem_map.1 ha
      simp only [List.map_cons, List.map_nil, List.mem_singleton] at hb
      subst hb
      exact hc e' h1
    · intro x hx
      rcases List.mem_append.1 hx with h1 | h1
      · exact .inr ⟨x, h1, rfl⟩
      · simp only [List.mem_singleton] at h1
        subst h1; exact .inl rfl

theorem view_addEntry (m : IMap ℕ) (loc : ℕ) (v : ℂ) (acc : List (ℕ × ℂ)) (h : (acc.map Prod.fst).Nodup) :
    view m (addEntry loc v acc) = view m acc + v • ket (idBits m loc) := by
  unfold addEntry
  split
  · rename_i hc
    obtain ⟨e, he, hl⟩ := List.any_eq_true.1 hc
    simp only [beq_iff_eq] at hl
    clear hc
    induction acc with
    | nil => simp at he
    | cons a acc ih =>
      rw [List.map_cons, view_cons, view_cons]
      simp only [List.map_cons, List.nodup_cons] at h
      by_cases ha : a.1 = loc
      · have hrest : acc.map (fun e => if e.1 == loc then (e.1, e.2 + v) else e) = acc := by
          conv_rhs => rw [← List.map_id acc]
          apply List.map_congr_left
          intro x hx
          have : x.1 ≠ loc := by
            intro hc
            apply h.1
            rw [ha, ← hc]
            exact List.mem_map_of_mem hx
          simp [this]
        rw [hrest]
        simp only [ha, beq_self_eq_true, if_true, entryWave, add_smul]
        abel
      · have he' : e ∈ acc := by
          rcases List.mem_cons.1 he with rfl | h1
          · exact absurd hl ha
          · exact h1
        rw [ih h.2 he']
        simp only [show (a.1 == loc) = false by simpa using ha, Bool.false_eq_true, if_false]
        abel
  · rw [view_append]
    simp [view, entryWave]

theorem dropZero_sublist (eps : ℝ) (loc : ℕ) (acc : List (ℕ × ℂ)) : (dropZero eps loc acc).Sublist acc := by
  unfold dropZero
  split
  · split
    · exact List.filter_sublist
    · exact List.Sublist.refl _
  · exact List.Sublist.refl _

theorem view_dropZero (m : IMap ℕ) (loc : ℕ) (acc : List (ℕ × ℂ)) (h : (acc.map Prod.fst).Nodup) :
    view m (dropZero 0 loc acc) = view m acc := by
  unfold dropZero
  split
  · rename_i v hv
    split
    · rename_i hz
      rw [nearlyZero_zero] at hz
      subst hz
      have hm := lookupMap_mem hv
      clear hv
      induction acc with
      | nil => rfl
      | cons a acc ih =>
        simp only [List.map_cons, List.nodup_cons] at h
        by_cases ha : a.1 = loc
        · have ha2 : a = (loc, 0) := by
            rcases List.mem_cons.1 hm with h1 | h1
            · exact h1.symm
            · exact absurd (List.mem_map_of_mem (f := Prod.fst) h1) (by rw [← ha]; exact h.1)
          have hrest : acc.filter (fun e => decide (e.1 ≠ loc)) = acc := by
            rw [List.filter_eq_self]
            intro x hx
            simp only [decide_eq_true_eq]
            intro hc
            apply h.1
            rw [ha, ← hc]
            exact List.mem_map_of_mem hx
          rw [List.filter_cons_of_neg (by simp [ha]), hrest, view_cons, ha2]
          simp [entryWave]
        · have hm' : (loc, (0 : ℂ)) ∈ acc := by
            rcases List.mem_cons.1 hm with h1 | h1
            · exact absurd (by rw [← h1]) ha
            · exact h1
          rw [List.filter_cons_of_pos (by simp [ha]), view_cons, view_cons, ih h.2 hm']
    · rfl
  · rfl

/-- Any tolerance: the accumulated map has distinct keys, all of them made of bits in use. -/
theorem scatter_core {m : IMap ℕ} {ts : List ℕ} (h : Low m ts) {u : Mat} (hu : u.rows = 2 ^ ts.length) (eps : ℝ)
    {e : ℕ × ℂ} (he : BitsIn m e.1) {acc : List (ℕ × ℂ)} (hc : Core m acc) : Core m (scatter eps u acc e) := by
  unfold scatter
  simp only
  have : ∀ js : List ℕ, (∀ j ∈ js, j < 2 ^ ts.length) → ∀ acc, Core m acc →
      Core m (js.foldl (fun accum j => dropZero eps (e.1 / u.rows * u.rows + j)
        (addEntry (e.1 / u.rows * u.rows + j) (u.entry j (e.1 % u.rows) * e.2) accum)) acc) := by
    intro js
    induction js with
    | nil => intro _ acc hc; exact hc
    | cons j js ih =>
      intro hj acc hc
      rw [List.foldl_cons]
      apply ih (fun j hj' => hj j (by simp [hj']))
      obtain ⟨h1, h2⟩ := addEntry_keys (e.1 / u.rows * u.rows + j) (u.entry j (e.1 % u.rows) * e.2) acc hc.nodup
      have hs := dropZero_sublist eps (e.1 / u.rows * u.rows + j)
        (addEntry (e.1 / u.rows * u.rows + j) (u.entry j (e.1 % u.rows) * e.2) acc)
      refine ⟨hc.inj, (hs.map Prod.fst).nodup h1, ?_⟩
      intro x hx
      rcases h2 x (hs.mem hx) with h3 | ⟨e', h3, h4⟩
      · rw [h3, hu]; exact bitsIn_split h he (hj j (by simp))
      · rw [← h4]; exact hc.bits e' h3
  apply this _ _ acc hc
  intro j hj
  rw [← hu]
  exact List.mem_range.1 (List.mem_filter.1 hj).1

theorem view_scatter {m : IMap ℕ} {ts : List ℕ} (hn : ts.Nodup) (h : Low m ts) {u : Mat}
    (hu : u.rows = 2 ^ ts.length) {e : ℕ × ℂ} (he : BitsIn m e.1) {acc : List (ℕ × ℂ)} (hc : Core m acc) :
    view m (scatter 0 u acc e) = view m acc + matL [] u.entry ts (entryWave m e) := by
  have key : ∀ js : List ℕ, (∀ j ∈ js, j < 2 ^ ts.length) → ∀ acc, Core m acc →
      view m (js.foldl (fun accum j => dropZero 0 (e.1 / u.rows * u.rows + j)
        (addEntry (e.1 / u.rows * u.rows + j) (u.entry j (e.1 % u.rows) * e.2) accum)) acc) =
      view m acc + (js.map (fun j => (u.entry j (e.1 % u.rows) * e.2) • ket (idBits m (e.1 / u.rows * u.rows + j)))).sum := by
    intro js
    induction js with
    | nil => intro _ acc hc; simp
    | cons j js ih =>
      intro hj acc hc
      obtain ⟨h1, h2⟩ := addEntry_keys (e.1 / u.rows * u.rows + j) (u.entry j (e.1 % u.rows) * e.2) acc hc.nodup
      have hs := dropZero_sublist 0 (e.1 / u.rows * u.rows + j)
        (addEntry (e.1 / u.rows * u.rows + j) (u.entry j (e.1 % u.rows) * e.2) acc)
      rw [List.foldl_cons, ih (fun j hj' => hj j (by simp [hj']))]
      · rw [view_dropZero _ _ _ h1, view_addEntry _ _ _ _ hc.nodup, List.map_cons, List.sum_cons]
        abel
      · refine ⟨hc.inj, (hs.map Prod.fst).nodup h1, ?_⟩
        intro x hx
        rcases h2 x (hs.mem hx) with h3 | ⟨e', h3, h4⟩
        · rw [h3, hu]; exact bitsIn_split h he (hj j (by simp))
        · rw [← h4]; exact hc.bits e' h3
  unfold scatter
  simp only
  rw [key _ _ acc hc]
  · congr 1
    rw [entryWave, map_smul, matL_ket hn, rowOf_idBits h, ← hu, Finset.smul_sum]
    have h1 : ∀ js : List ℕ, ((js.filter (fun j => !decide (NearlyZero 0 (u.entry j (e.1 % u.rows))))).map
        (fun j => (u.entry j (e.1 % u.rows) * e.2) • ket (idBits m (e.1 / u.rows * u.rows + j)))).sum =
        (js.map (fun j => (u.entry j (e.1 % u.rows) * e.2) • ket (idBits m (e.1 / u.rows * u.rows + j)))).sum := by
      intro js
      induction js with
      | nil => rfl
      | cons j js ih =>
        by_cases hz : u.entry j (e.1 % u.rows) = 0
        · rw [List.filter_cons_of_neg (by simp [nearlyZero_zero, hz]), ih, List.map_cons, List.sum_cons, hz]
          simp
        · rw [List.filter_cons_of_pos (by simp [nearlyZero_zero, hz]), List.map_cons, List.map_cons, List.sum_cons,
            List.sum_cons, ih]
    rw [h1]
    have h2 : ∀ n : ℕ, ∀ f : ℕ → Wave, ((List.range n).map f).sum = ∑ j ∈ Finset.range n, f j := by
      intro n f
      induction n with
      | zero => simp
      | succ n ih => rw [List.range_succ, List.map_append, List.sum_append, ih, Finset.sum_range_succ]; simp
    rw [h2]
    apply Finset.sum_congr rfl
    intro j hj
    rw [setRow_idBits hn hc.inj h _ (by rw [← hu]; exact Finset.mem_range.1 hj), ← hu, smul_smul, mul_comm]
  · intro j hj
    rw [← hu]
    exact List.mem_range.1 (List.mem_filter.1 hj).1

theorem scatter_all {m : IMap ℕ} {ts : List ℕ} (hn : ts.Nodup) (h : Low m ts) {u : Mat}
    (hu : u.rows = 2 ^ ts.length) (st : List (ℕ × ℂ)) : ∀ (acc : List (ℕ × ℂ)), Core m acc →
      (∀ e ∈ st, BitsIn m e.1) → Core m (st.foldl (scatter 0 u) acc) ∧
        view m (st.foldl (scatter 0 u) acc) = view m acc + matL [] u.entry ts (view m st) := by
  induction st with
  | nil => intro acc hc _; exact ⟨hc, by simp⟩
  | cons e st ih =>
    intro acc hc hb
    rw [List.foldl_cons]
    obtain ⟨h1, h2⟩ := ih _ (scatter_core h hu 0 (hb e (by simp)) hc) (fun e he => hb e (by simp [he]))
    refine ⟨h1, ?_⟩
    rw [h2, view_scatter hn h hu (hb e (by simp)) hc, view_cons, map_add]
    abel

end Qir
