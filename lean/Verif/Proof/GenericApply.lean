import Verif.Model.GenericApply
import Verif.Proof.Classical3
import Verif.Proof.Apply

/-! # `apply` under an arbitrary arithmetic -/

namespace Qir
namespace Gen
open Function Spec
open Qir.Sim (resolveId checkForDuplicates findByLoc)

variable {F : Type} {N : Num F}

/-! ### Moving the operands -/

/-- What moving an operand leaves unchanged. -/
structure GMoved (s s' : GSim F) : Prop where
  inv : Inv s'
  ops : s'.opQ = []
  rng : s'.rng = s.rng
  some : ∀ i, (s'.idMap.get i).isSome = (s.idMap.get i).isSome
  calm : ∀ q, hasQueued s q = false → hasQueued s' q = false
  used : ∀ l, Used s'.idMap l ↔ Used s.idMap l
  shr : Shr s s'

theorem GMoved.refl {s : GSim F} (h : Inv s) (ho : s.opQ = []) : GMoved s s :=
  ⟨h, ho, rfl, fun _ => rfl, fun _ h => h, fun _ => Iff.rfl, Shr.refl s⟩

theorem GMoved.trans {s s1 s2 : GSim F} (h : GMoved s s1) (h' : GMoved s1 s2) : GMoved s s2 :=
  ⟨h'.inv, h'.ops, h'.rng.trans h.rng, fun i => (h'.some i).trans (h.some i), fun q hq => h'.calm q (h.calm q hq),
    fun l => (h'.used l).trans (h.used l), h.shr.trans h'.shr⟩

theorem placeOne_goes {s : GSim F} (hi : Inv s) (ho : s.opQ = []) {index key loc sk : ℕ}
    (hk : s.idMap.get key = some loc) (hsk : findByLoc s.idMap index = some sk) :
    ∃ s', placeOne N index key s = .ok s' ∧ GMoved s s' ∧
      ∀ i, s'.idMap.get i = (s.idMap.get i).map (Equiv.swap loc index) := by
  have hg := findByLoc_some hsk
  unfold placeOne resolveId
  simp only [hk, ok_bind, hsk]
  by_cases hne : loc = index
  · subst hne
    have : sk = key := hi.core.inj _ _ _ hg hk
    subst this
    refine ⟨s, ?_, GMoved.refl hi ho, ?_⟩
    · unfold swapQubitState
      simp only [if_true, ok_bind, modify_same hk, pure_ok]
    · intro i; simp
  · obtain ⟨s1, h1, hd, ho1, -⟩ := flushQueue_goes (N := N) .HRxRy [loc, index] hi
    have hget : ∀ i, ((s1.idMap.modify sk (fun _ => loc)).modify key (fun _ => index)).get i =
        (s1.idMap.get i).map (Equiv.swap loc index) := by
      rw [hd.idMap]
      intro i
      have hskk : sk ≠ key := by
        rintro rfl; rw [hg] at hk; cases hk; exact hne rfl
      rw [IMap.get_modify]
      by_cases hik : i = key
      · subst hik
        rw [if_pos rfl, IMap.get_modify, if_neg (Ne.symm hskk), hk]; simp
      · rw [if_neg hik, IMap.get_modify]
        by_cases his : i = sk
        · subst his; rw [if_pos rfl, hg]; simp
        · rw [if_neg his]
          cases hgi : s.idMap.get i with
          | none => rfl
          | some l =>
            have h1 : l ≠ loc := by rintro rfl; exact hik (hi.core.inj _ _ _ hgi hk)
            have h2 : l ≠ index := by rintro rfl; exact his (hi.core.inj _ _ _ hgi hg)
            rw [Option.map_some, Equiv.swap_apply_of_ne_of_ne h1 h2]
    have hcore := relabel_core hd.inv.core hne hget
    have hsome : ∀ i, (((s1.idMap.modify sk (fun _ => loc)).modify key (fun _ => index)).get i).isSome =
        (s1.idMap.get i).isSome := by
      intro i; rw [hget]; simp
    refine ⟨{ s1 with
      state := s1.state.map (swapKey loc index)
      idMap := (s1.idMap.modify sk (fun _ => loc)).modify key (fun _ => index) }, ?_,
      ⟨⟨hcore, ?_, ?_, ?_, ?_, ?_⟩, ho1, hd.rng, ?_, fun q hq => hd.none hq, ?_, ?_⟩, ?_⟩
    · unfold swapQubitState
      simp only [if_neg hne, h1, ok_bind, pure_ok]
    · intro op hop; rw [ho1] at hop; simp at hop
    · show s1.opQ.length ≤ _
      rw [ho1]; simp
    · intro q hq; rw [hsome]; exact hd.inv.h q hq
    · intro q hq; rw [hsome]; exact hd.inv.rx q hq
    · intro q hq; rw [hsome]; exact hd.inv.ry q hq
    · intro i; rw [hsome, hd.idMap]
    · exact used_swap ⟨key, hk⟩ ⟨sk, hg⟩ (by intro i; rw [hget, hd.idMap])
    · refine (flushQueue_shr hi h1).trans (shr_eff (fun _ h => h) ?_)
      intro b hb
      obtain ⟨e, he, rfl⟩ := (eff_empty (s := { s1 with
        state := s1.state.map (swapKey loc index)
        idMap := (s1.idMap.modify sk (fun _ => loc)).modify key (fun _ => index) }) ho1).1 hb
      obtain ⟨e0, he0, rfl⟩ := List.mem_map.1 he
      refine (eff_empty ho1).2 ⟨e0, he0, ?_⟩
      funext q
      unfold idBits
      rw [hget]
      cases s1.idMap.get q with
      | none => rfl
      | some l =>
        simp only [Option.map_some]
        rw [testBit_swapKey hne, Equiv.swap_apply_self]
    · intro i; rw [hget, hd.idMap]

theorem place_goes (rest : List ℕ) :
    ∀ (done : List ℕ) (s : GSim F), Inv s → s.opQ = [] → (done ++ rest).Nodup → Alloc s.idMap (done ++ rest) →
      (∀ j (hj : j < done.length), s.idMap.get done[j] = some j) →
      (∀ l < (done ++ rest).length, Used s.idMap l) →
      ∃ s', place N done.length rest s = .ok s' ∧ GMoved s s' ∧
        (∀ j (hj : j < (done ++ rest).length), s'.idMap.get (done ++ rest)[j] = some j) := by
  induction rest with
  | nil =>
    intro done s hw ho _ _ hd _
    refine ⟨s, rfl, GMoved.refl hw ho, ?_⟩
    intro j hj
    simp only [List.append_nil] at hj ⊢
    exact hd j hj
  | cons t rest ih =>
    intro done s hw ho hn ha hd hu
    obtain ⟨loc, hloc⟩ := Option.isSome_iff_exists.1 (ha t (by simp))
    obtain ⟨sk, hsk⟩ := findByLoc_used (hu done.length (by simp))
    obtain ⟨s1, h1, hm1, hg1⟩ := placeOne_goes (N := N) hw ho hloc hsk
    have e : done ++ t :: rest = (done ++ [t]) ++ rest := by simp
    rw [e] at hn ha hu
    have hus := used_swap (m' := s1.idMap) ⟨t, hloc⟩ ⟨sk, findByLoc_some hsk⟩ hg1
    obtain ⟨s2, h2, hm2, hg2⟩ := ih (done ++ [t]) s1 hm1.inv hm1.ops hn
      (fun i hi => by rw [hm1.some]; exact ha i hi) (by
        intro j hj
        simp only [List.length_append, List.length_singleton] at hj
        rw [hg1]
        by_cases hjd : j < done.length
        · rw [List.getElem_append_left hjd, hd j hjd, Option.map_some]
          congr 1
          apply Equiv.swap_apply_of_ne_of_ne
          · rintro rfl
            have h3 := hw.core.inj _ _ _ (hd j hjd) hloc
            have h4 := List.nodup_append.1 (List.nodup_append.1 hn).1
            exact h4.2.2 t (h3 ▸ List.getElem_mem hjd) t (by simp) rfl
          · omega
        · have hj' : j = done.length := by omega
          subst hj'
          rw [List.getElem_append_right (le_refl _)]
          simp [hloc]) (fun l hl => (hus l).2 (hu l hl))
    refine ⟨s2, ?_, hm1.trans hm2, ?_⟩
    · unfold place
      simp only [h1, ok_bind]
      rw [List.length_append, List.length_singleton] at h2
      exact h2
    · intro j hj
      have := hg2 j (by rw [← e]; exact hj)
      simp only [e]
      exact this

/-- If a location below the number of operands is not in use, the loop panics. -/
theorem place_gap (rest : List ℕ) : ∀ (n : ℕ) (s : GSim F), Inv s → s.opQ = [] →
    Alloc s.idMap rest → (∃ l, n ≤ l ∧ l < n + rest.length ∧ ¬ Used s.idMap l) →
    place N n rest s = .error .outOfBounds := by
  induction rest with
  | nil => rintro n s _ _ _ ⟨l, h1, h2, _⟩; simp at h2; omega
  | cons t rest ih =>
    rintro n s hw ho ha ⟨l, h1, h2, h3⟩
    obtain ⟨loc, hloc⟩ := Option.isSome_iff_exists.1 (ha t (by simp))
    by_cases hu : Used s.idMap n
    · obtain ⟨sk, hsk⟩ := findByLoc_used hu
      obtain ⟨s1, g1, hm1, hg1⟩ := placeOne_goes (N := N) hw ho hloc hsk
      have hus := used_swap (m' := s1.idMap) ⟨t, hloc⟩ ⟨sk, findByLoc_some hsk⟩ hg1
      unfold place
      simp only [g1, ok_bind]
      apply ih (n + 1) s1 hm1.inv hm1.ops (fun i hi => by rw [hm1.some]; exact ha i (by simp [hi]))
      refine ⟨l, ?_, by simp at h2; omega, fun hc => h3 ((hus l).1 hc)⟩
      rcases Nat.lt_or_ge n l with h | h
      · exact h
      · exfalso
        have : n = l := by omega
        subst this; exact h3 hu
    · unfold place placeOne resolveId
      simp only [hloc, ok_bind, findByLoc_unused hu]
      rfl

/-! ### Multiplying by the matrix -/

theorem addEntry_keys' (loc : ℕ) (v : Cx F) (acc : List (ℕ × Cx F)) (h : (acc.map Prod.fst).Nodup) :
    ((addEntry N loc v acc).map Prod.fst).Nodup ∧
      ∀ e ∈ addEntry N loc v acc, e.1 = loc ∨ ∃ e' ∈ acc, e'.1 = e.1 := by
  unfold addEntry
  split
  · have e : (acc.map (fun e => if e.1 == loc then (e.1, N.addC e.2 v) else e)).map Prod.fst = acc.map Prod.fst := by
      rw [List.map_map]
      apply List.map_congr_left
      intro e _
      simp only [Function.comp]
      split <;> rfl
    refine ⟨by rw [e]; exact h, ?_⟩
    intro x hx
    right
    have hx1 : x.1 ∈ acc.map Prod.fst := by rw [← e]; exact List.mem_map_of_mem hx
    obtain ⟨e', he', h'⟩ := List.mem_map.1 hx1
    exact ⟨e', he', h'⟩
  · rename_i hc
    constructor
    · rw [List.map_append, List.nodup_append]
      refine ⟨h, by simp, ?_⟩
      intro a ha b hb
      simp only [List.map_cons, List.map_nil, List.mem_singleton] at hb
      subst hb
      rintro rfl
      obtain ⟨e, he, rfl⟩ := List.mem_map.1 ha
      exact hc (List.any_eq_true.2 ⟨e, he, by simp⟩)
    · intro e he
      rw [List.mem_append] at he
      rcases he with he | he
      · exact .inr ⟨e, he, rfl⟩
      · left; simp only [List.mem_singleton] at he; rw [he]

theorem dropZero_sub (loc : ℕ) (acc : List (ℕ × Cx F)) : (dropZero N loc acc).Sublist acc := by
  unfold dropZero
  split
  · split
    · exact List.filter_sublist
    · exact List.Sublist.refl _
  · exact List.Sublist.refl _

/-- The indices after one entry: those before, and those which the column of the matrix reaches. -/
theorem scatter_keys (u : GMat F) (e : ℕ × Cx F) (acc : List (ℕ × Cx F)) (h : (acc.map Prod.fst).Nodup) :
    ((scatter N u acc e).map Prod.fst).Nodup ∧ ∀ x ∈ scatter N u acc e, (∃ x' ∈ acc, x'.1 = x.1) ∨
      ∃ j < u.rows, N.nearlyZeroC (u.entry j (e.1 % u.rows)) = false ∧ x.1 = e.1 / u.rows * u.rows + j := by
  unfold scatter
  simp only
  have : ∀ js : List ℕ, (∀ j ∈ js, j < u.rows ∧ N.nearlyZeroC (u.entry j (e.1 % u.rows)) = false) →
      ∀ acc : List (ℕ × Cx F), (acc.map Prod.fst).Nodup →
      ((js.foldl (fun accum j => dropZero N (e.1 / u.rows * u.rows + j)
        (addEntry N (e.1 / u.rows * u.rows + j) (N.mulC (u.entry j (e.1 % u.rows)) e.2) accum)) acc).map
          Prod.fst).Nodup ∧
      ∀ x ∈ js.foldl (fun accum j => dropZero N (e.1 / u.rows * u.rows + j)
        (addEntry N (e.1 / u.rows * u.rows + j) (N.mulC (u.entry j (e.1 % u.rows)) e.2) accum)) acc,
        (∃ x' ∈ acc, x'.1 = x.1) ∨
          ∃ j < u.rows, N.nearlyZeroC (u.entry j (e.1 % u.rows)) = false ∧ x.1 = e.1 / u.rows * u.rows + j := by
    intro js
    induction js with
    | nil => intro _ acc h; exact ⟨h, fun x hx => .inl ⟨x, hx, rfl⟩⟩
    | cons j js ih =>
      intro hjs acc h
      rw [List.foldl_cons]
      obtain ⟨h1, h2⟩ := addEntry_keys' (N := N) (e.1 / u.rows * u.rows + j)
        (N.mulC (u.entry j (e.1 % u.rows)) e.2) acc h
      have hs := dropZero_sub (N := N) (e.1 / u.rows * u.rows + j)
        (addEntry N (e.1 / u.rows * u.rows + j) (N.mulC (u.entry j (e.1 % u.rows)) e.2) acc)
      obtain ⟨h3, h4⟩ := ih (fun k hk => hjs k (by simp [hk])) _ (h1.sublist (hs.map _))
      refine ⟨h3, fun x hx => ?_⟩
      rcases h4 x hx with ⟨x', hx', he⟩ | hr
      · rcases h2 x' (hs.subset hx') with hl | ⟨y, hy, hye⟩
        · right
          exact ⟨j, (hjs j (by simp)).1, (hjs j (by simp)).2, by rw [← he, hl]⟩
        · left; exact ⟨y, hy, hye.trans he⟩
      · right; exact hr
  apply this _ _ _ h
  intro j hj
  obtain ⟨h1, h2⟩ := List.mem_filter.1 hj
  exact ⟨List.mem_range.1 h1, by simpa using h2⟩

theorem scatter_all_keys (u : GMat F) (st : List (ℕ × Cx F)) : ∀ (acc : List (ℕ × Cx F)), (acc.map Prod.fst).Nodup →
    ((st.foldl (scatter N u) acc).map Prod.fst).Nodup ∧ ∀ x ∈ st.foldl (scatter N u) acc, (∃ x' ∈ acc, x'.1 = x.1) ∨
      ∃ e ∈ st, ∃ j < u.rows, N.nearlyZeroC (u.entry j (e.1 % u.rows)) = false ∧
        x.1 = e.1 / u.rows * u.rows + j := by
  induction st with
  | nil => intro acc h; exact ⟨h, fun x hx => .inl ⟨x, hx, rfl⟩⟩
  | cons e st ih =>
    intro acc h
    rw [List.foldl_cons]
    obtain ⟨h1, h2⟩ := scatter_keys (N := N) u e acc h
    obtain ⟨h3, h4⟩ := ih _ h1
    refine ⟨h3, fun x hx => ?_⟩
    rcases h4 x hx with ⟨x', hx', he⟩ | ⟨e', he', hr⟩
    · rcases h2 x' hx' with ⟨y, hy, hye⟩ | ⟨j, hj, hz, hk⟩
      · left; exact ⟨y, hy, hye.trans he⟩
      · right; exact ⟨e, by simp, j, hj, hz, by rw [← he, hk]⟩
    · right; exact ⟨e', by simp [he'], hr⟩

/-! ### The whole function -/

/-- The two states differ on the listed qubits only, and the matrix has an entry for the change that counts. -/
def Reaches (N : Num F) (U : ℕ → ℕ → Cx F) (ts : List ℕ) (f g : ℕ → Bool) : Prop :=
  (∀ q, q ∉ ts → g q = f q) ∧ N.nearlyZeroC (U (rowOf ts g) (rowOf ts f)) = false

/-- What `applyOn` does to a simulator in order. -/
theorem applyOn_goes {s : GSim F} (hi : Inv s) {u : GMat F} {ts : List ℕ} (hn : ts.Nodup) (ha : Alloc s.idMap ts)
    (hr : u.rows = 2 ^ ts.length) :
    ((∃ l < ts.length, ¬ Used s.idMap l) → applyOn N u ts s = .error .outOfBounds) ∧
    ((∀ l < ts.length, Used s.idMap l) → ∃ s', Inv s' ∧ (∀ i, (s'.idMap.get i).isSome = (s.idMap.get i).isSome) ∧
      s'.rng = s.rng ∧ (∀ l, Used s'.idMap l ↔ Used s.idMap l) ∧
      applyOn N u ts s = (if s'.state = [] then .error .assertion else .ok s') ∧
      Steps (Reaches N u.entry ts) s s') := by
  obtain ⟨s1, h1, hd, ho1, hq1⟩ := flushQueue_goes (N := N) .HRxRy ts hi
  have hc : checkForDuplicates ts = .ok () := by unfold checkForDuplicates; rw [if_pos hn]
  have ha1 : Alloc s1.idMap ts.reverse := fun i hm => by rw [hd.idMap]; exact ha i (List.mem_reverse.1 hm)
  constructor
  · rintro ⟨l, hl, hul⟩
    have h2 := place_gap (N := N) ts.reverse 0 s1 hd.inv ho1 ha1
      ⟨l, by omega, by simpa using hl, by rw [hd.idMap]; exact hul⟩
    unfold applyOn
    simp only [hc, ok_bind, h1, h2]
    rfl
  · intro hu
    obtain ⟨s2, h2, hm, hg⟩ := place_goes (N := N) ts.reverse [] s1 hd.inv ho1 (by simpa using hn)
      (by simpa using ha1) (by intro j hj; simp at hj) (by
        intro l hl
        rw [hd.idMap]
        exact hu l (by simpa using hl))
    have hlow : Low s2.idMap ts := by
      intro p hp
      have := hg p (by simpa using hp)
      simp only [List.nil_append, List.getElem_reverse] at this
      exact this
    obtain ⟨hk1, hk2⟩ := scatter_all_keys (N := N) u s2.state [] (by simp)
    have hk3 : ∀ x ∈ s2.state.foldl (scatter N u) [], ∃ e ∈ s2.state, ∃ j < 2 ^ ts.length,
        N.nearlyZeroC (u.entry j (e.1 % 2 ^ ts.length)) = false ∧ x.1 = e.1 / 2 ^ ts.length * 2 ^ ts.length + j := by
      intro x hx
      rcases hk2 x hx with ⟨x', hx', _⟩ | h
      · simp at hx'
      · rw [hr] at h; exact h
    have hcore : GCore s2.idMap (N.shuffle (s2.state.foldl (scatter N u) [])) := by
      refine GCore.perm ⟨hm.inv.core.inj, hk1, ?_⟩ (N.shuffle_perm _)
      intro x hx
      obtain ⟨e, he, j, hj, _, hxe⟩ := hk3 x hx
      rw [hxe]
      exact bitsIn_split hlow (hm.inv.core.bits e he) hj
    refine ⟨{ s2 with state := N.shuffle (s2.state.foldl (scatter N u) []) },
      ⟨hcore, hm.inv.ops, hm.inv.bound, hm.inv.h, hm.inv.rx, hm.inv.ry⟩, fun i => ?_, hm.rng.trans hd.rng,
      fun l => ?_, ?_, ?_⟩
    · show (s2.idMap.get i).isSome = _
      rw [hm.some, hd.idMap]
    · show Used s2.idMap l ↔ _
      rw [hm.used, hd.idMap]
    · unfold applyOn
      simp only [List.length_nil] at h2
      simp only [hc, ok_bind, h1, h2, List.isEmpty_iff]
      split <;> rfl
    · refine Steps.after ((flushQueue_shr hi h1).trans hm.shr) ?_
      rintro g ⟨b', hb', hgb⟩
      obtain ⟨x, hx, rfl⟩ := (eff_empty (s := { s2 with state := N.shuffle (s2.state.foldl (scatter N u) []) })
        hm.ops).1 hb'
      obtain ⟨e, he, j, hj, hz, hxe⟩ := hk3 x ((N.shuffle_perm _).mem_iff.1 hx)
      simp only at hgb
      have hset : idBits s2.idMap x.1 = setRow ts j (idBits s2.idMap e.1) := by
        rw [hxe, setRow_idBits hn hm.inv.core.inj hlow e.1 hj]
      have hoff : ∀ q, q ∉ ts → idBits s2.idMap x.1 q = idBits s2.idMap e.1 q := by
        intro q hq; rw [hset, setRow, if_neg hq]
      have hcalm : ∀ q ∈ ts, hasQueued s2 q = false := fun q hq => hm.calm q (hq1 rfl q hq)
      have hgt : ∀ q ∈ ts, g q = idBits s2.idMap x.1 q := fun q hq => hgb q (hcalm q hq)
      have e1 : rowOf ts g = j := by
        rw [rowOf_congr hgt, rowOf_idBits hlow, hxe, mul_comm, Nat.mul_add_mod, Nat.mod_eq_of_lt hj]
      have e2 : rowOf ts (fun q => if q ∈ ts then idBits s2.idMap e.1 q else g q) = e.1 % 2 ^ ts.length := by
        rw [rowOf_congr (fun q hq => if_pos hq), rowOf_idBits hlow]
      refine ⟨fun q => if q ∈ ts then idBits s2.idMap e.1 q else g q,
        ⟨idBits s2.idMap e.1, (eff_empty hm.ops).2 ⟨e, he, rfl⟩, fun q hq => ?_⟩, ?_, ?_⟩
      · by_cases hqt : q ∈ ts
        · exact if_pos hqt
        · show (if q ∈ ts then _ else _) = _
          rw [if_neg hqt, hgb q hq, hoff q hqt]
      · intro q hq
        show _ = if q ∈ ts then _ else _
        rw [if_neg hq]
      · rw [e1, e2]; exact hz

end Gen
end Qir
