import Verif.Proof.Shots
import Verif.Props.Session

/-!
# The distribution of what a run prints (C57, C58)

If the samples are independent and uniform (`streams`), then the shots of a session are independent of each other, each
prints what quantum mechanics says with the probability quantum mechanics says (`chance`), and the relative frequencies
converge to these probabilities.
-/

noncomputable section
namespace Qir.Back
open Spec Sim Qir.Out Run MeasureTheory

variable {env : Env} {fmt : Fmt} {p : Prog QCall QAns}

/-! ### C57 -/

/-- The backend with other samples. -/
def resampled (r : ℕ → ℝ) (s : Backend) : Backend := { s with sim := { s.sim with rng := r } }

/-- The probabilities of a program add up to one. -/
theorem C57_total (hm : ∀ r, InUnit r → Meaningful p (Device.init r)) :
    chance p blank (records Set.univ) + chance p blank (failsWith Set.univ) = 1 := by
  obtain ⟨h1, h2⟩ := law p blank_fit hm Set.univ MeasurableSet.univ
  obtain ⟨_, m2⟩ := measurable_sets p blank Set.univ MeasurableSet.univ
  have hu : wellSet p blank Set.univ Set.univ ∪ badSet p blank Set.univ = Set.univ := by
    ext r
    simp only [wellSet, badSet, Set.mem_union, Set.mem_ofPred_eq, Set.mem_univ, and_true, iff_true]
    cases idealRun p (withRng r blank) with
    | error e => exact .inr ⟨e, rfl⟩
    | ok x => exact .inl ⟨x.1, x.2, rfl⟩
  have hd : Disjoint (wellSet p blank Set.univ Set.univ) (badSet p blank Set.univ) := by
    rw [Set.disjoint_left]
    rintro r ⟨es, δ, e1, _⟩ ⟨es', e2, _⟩
    rw [e1] at e2
    cases e2
  have := measure_union (μ := streams) hd m2
  rw [hu, measure_univ, h1, h2, measure_univ, mul_one, ← ENNReal.ofReal_add (chance_nonneg _ _ _) (chance_nonneg _ _ _)]
    at this
  have h3 := congrArg ENNReal.toReal this
  rw [ENNReal.toReal_ofReal (add_nonneg (chance_nonneg _ _ _) (chance_nonneg _ _ _))] at h3
  simpa using h3.symm

/-- What the shots of a session write, or how it fails. -/
def written (env : Env) (fmt : Fmt) (p : Prog QCall QAns) (n : ℕ) (s : Backend) :
    Except (List Bytes × Bytes) (List Bytes) := (session (step env fmt) reinit p n s).map Prod.fst

/-- The shots of `p` write what those of `p'` write on the ideal device. -/
def Writes (env : Env) (fmt : Fmt) (p p' : Prog QCall QAns) : Prop := ∀ (n : ℕ) (s : Backend), InUnit s.sim.rng →
  written env fmt p n s = match idealShots p' n s.sim.rng with
    | .ok ess => .ok (ess.map lines)
    | .error (ess, es) => .error (ess.map lines, lines es)

theorem written_ideal (he : env.eps = 0) (hm : ∀ r, InUnit r → Meaningful p (Device.init r))
    (hn : ∀ (r : ℕ → ℝ) (os : ℕ → ℕ), InUnit r → NoTurn env fmt p (Backend.new r os)) : Writes env fmt p p := by
  intro n s hs
  have h1 := session_ideal (fmt := fmt) he p hm hn n s hs
  unfold written
  cases hi : idealShots p n s.sim.rng with
  | error e =>
    simp only [hi] at h1
    rw [h1]
    rfl
  | ok ess =>
    simp only [hi] at h1
    obtain ⟨s', h1⟩ := h1
    rw [h1]
    rfl

theorem Writes.shots {p' : Prog QCall QAns} (hw : Writes env fmt p p')
    (hm : ∀ r, InUnit r → Meaningful p' (Device.init r)) (s : Backend) (Bs : List (Set Bytes)) :
    streams {r | ∃ outs, written env fmt p Bs.length (resampled r s) = .ok outs ∧ List.Forall₂ (· ∈ ·) outs Bs} =
      (Bs.map fun B => ENNReal.ofReal (chance p' blank (records {es | lines es ∈ B}))).prod := by
  have h := shots_law hm Bs.length (Bs.map fun B => {es | lines es ∈ B}) (by simp)
  rw [List.map_map] at h
  refine (measure_congr ?_).trans h
  filter_upwards [streams_unit] with r hr
  apply propext
  show (∃ outs, written env fmt p Bs.length (resampled r s) = .ok outs ∧ List.Forall₂ (· ∈ ·) outs Bs) ↔
    ∃ ess, idealShots p' Bs.length r = .ok ess ∧ List.Forall₂ (· ∈ ·) ess (Bs.map fun B => {es | lines es ∈ B})
  rw [hw _ (resampled r s) hr]
  show (∃ outs, (match idealShots p' Bs.length r with
      | .ok ess => .ok (ess.map lines)
      | .error (ess, es) => .error (ess.map lines, lines es)) = Except.ok outs ∧ _) ↔ _
  cases hi : idealShots p' Bs.length r with
  | error e => simp
  | ok ess => simp

theorem Writes.fails {p' : Prog QCall QAns} (hw : Writes env fmt p p')
    (hm : ∀ r, InUnit r → Meaningful p' (Device.init r)) (s : Backend)
    (Bs : List (Set Bytes)) (B : Set Bytes) (n : ℕ) (hl : Bs.length < n) :
    streams {r | ∃ outs o, written env fmt p n (resampled r s) = .error (outs, o) ∧
        List.Forall₂ (· ∈ ·) outs Bs ∧ o ∈ B} =
      (Bs.map fun B => ENNReal.ofReal (chance p' blank (records {es | lines es ∈ B}))).prod *
        ENNReal.ofReal (chance p' blank (failsWith {es | lines es ∈ B})) := by
  have h := fails_law hm {es | lines es ∈ B} n (Bs.map fun B => {es | lines es ∈ B}) (by simpa)
  rw [List.map_map] at h
  refine (measure_congr ?_).trans h
  filter_upwards [streams_unit] with r hr
  apply propext
  show (∃ outs o, written env fmt p n (resampled r s) = .error (outs, o) ∧ List.Forall₂ (· ∈ ·) outs Bs ∧ o ∈ B) ↔
    ∃ ess es, idealShots p' n r = .error (ess, es) ∧ List.Forall₂ (· ∈ ·) ess (Bs.map fun B => {es | lines es ∈ B}) ∧
      es ∈ {es | lines es ∈ B}
  rw [hw _ (resampled r s) hr]
  show (∃ outs o, (match idealShots p' n r with
      | .ok ess => .ok (ess.map lines)
      | .error (ess, es) => .error (ess.map lines, lines es)) = Except.error (outs, o) ∧ _) ↔ _
  cases hi : idealShots p' n r with
  | error e => obtain ⟨ess, es⟩ := e; simp [and_assoc]
  | ok ess => simp

/-- **C57**.  With independent uniform samples, the outputs of the shots of a session are independent, and each is in
a given set of byte strings with the probability of the ideal device, whatever the backend was used for before. -/
theorem C57_shots (he : env.eps = 0) (hm : ∀ r, InUnit r → Meaningful p (Device.init r))
    (hn : ∀ (r : ℕ → ℝ) (os : ℕ → ℕ), InUnit r → NoTurn env fmt p (Backend.new r os)) (s : Backend)
    (Bs : List (Set Bytes)) :
    streams {r | ∃ outs, written env fmt p Bs.length (resampled r s) = .ok outs ∧ List.Forall₂ (· ∈ ·) outs Bs} =
      (Bs.map fun B => ENNReal.ofReal (chance p blank (records {es | lines es ∈ B}))).prod :=
  (written_ideal he hm hn).shots hm s Bs

/-- **C57**, failures: the session fails in the shot after the given ones with the probability of the ideal device. -/
theorem C57_fails (he : env.eps = 0) (hm : ∀ r, InUnit r → Meaningful p (Device.init r))
    (hn : ∀ (r : ℕ → ℝ) (os : ℕ → ℕ), InUnit r → NoTurn env fmt p (Backend.new r os)) (s : Backend)
    (Bs : List (Set Bytes)) (B : Set Bytes) (n : ℕ) (hl : Bs.length < n) :
    streams {r | ∃ outs o, written env fmt p n (resampled r s) = .error (outs, o) ∧
        List.Forall₂ (· ∈ ·) outs Bs ∧ o ∈ B} =
      (Bs.map fun B => ENNReal.ofReal (chance p blank (records {es | lines es ∈ B}))).prod *
        ENNReal.ofReal (chance p blank (failsWith {es | lines es ∈ B})) :=
  (written_ideal he hm hn).fails hm s Bs B n hl

/-- **C57** for the runner: the transcript of a run of a module consists of the blocks of the shots, and these are
distributed as above. -/
theorem C57_run (toStdOut : Bool) (fs : List Func) (code : Func → Prog QCall QAns)
    (name : Option String) (f : Func) (n : ℕ) (s : Backend) (io : Io) (hb : ∃ m, bindFunctions fs = .ok m)
    (hf : chooseEntryPoint fs name = .ok f) (hp : f.params = 0) (hr : Ready toStdOut io) :
    match written env fmt (code f) n s with
    | .ok outs => ∃ s' io', runModule (step env fmt) reinit toStdOut fs code name n s io = .ok (s', io') ∧
        seen toStdOut io' = seen toStdOut io ++ outs.flatMap (block f.attrs)
    | .error (outs, o) => ∃ io',
        runModule (step env fmt) reinit toStdOut fs code name n s io = .error (.aborted, io') ∧
        seen toStdOut io' = seen toStdOut io ++ outs.flatMap (block f.attrs) ++
          utf8 "START\n" ++ f.attrs.flatMap metadataLine ++ (if io.recorder.useStdOut then o else []) ∧
        io'.recorder.buffer = if io.recorder.useStdOut then [] else o := by
  have h := runShots_session (step env fmt) reinit toStdOut f hp (code f) n s io hr
  rw [runModule_eq hb hf]
  unfold written
  cases hi : session (step env fmt) reinit (code f) n s with
  | error e =>
    obtain ⟨outs, o⟩ := e
    simp only [hi] at h
    obtain ⟨io', e1, e2, e3, -⟩ := h
    exact ⟨io', e1, e2, e3⟩
  | ok x =>
    obtain ⟨outs, s'⟩ := x
    simp only [hi] at h
    obtain ⟨io', e1, _, _, e2, _⟩ := h
    exact ⟨s', io', e1, e2⟩

/-! ### C58 -/

open Classical in
theorem Writes.frequencies {p' : Prog QCall QAns} (hw : Writes env fmt p p')
    (hm : ∀ r, InUnit r → Meaningful p' (Device.init r))
    (hf : chance p' blank (failsWith Set.univ) = 0) (s : Backend) (B : Set Bytes) :
    ∀ᵐ r ∂streams, ∃ out : ℕ → Bytes,
      (∀ n, written env fmt p n (resampled r s) = .ok ((List.range n).map out)) ∧
      Filter.Tendsto (fun n : ℕ => (((List.range n).map out).countP (· ∈ B) : ℝ) / n) Filter.atTop
        (nhds (chance p' blank (records {es | lines es ∈ B}))) := by
  have h1 : chance p' blank (records Set.univ) = 1 := by have := C57_total hm; linarith
  filter_upwards [streams_unit, shots_ok hm h1, shot_freq hm h1 {es | lines es ∈ B}] with r hr hok hfr
  refine ⟨fun i => lines (shot p' i r), fun n => ?_, ?_⟩
  · rw [hw _ (resampled r s) hr]
    obtain ⟨ess, e⟩ := hok n
    have e' : idealShots p' n (resampled r s).sim.rng = .ok ess := e
    simp only [e']
    rw [shots_eq n e]
    simp [Function.comp_def]
  · refine hfr.congr fun n => ?_
    congr 1
    induction n with
    | zero => simp
    | succ n ih =>
      rw [Finset.sum_range_succ, ih, List.range_succ]
      simp [List.countP_append, List.countP_cons]

instance : Countable Bytes := by
  have : Countable UInt8 := Function.Injective.countable (f := UInt8.toNat) fun _ _ h => UInt8.toNat_inj.1 h
  exact inferInstanceAs (Countable (List UInt8))

theorem Writes.histogram {p' : Prog QCall QAns} (hw : Writes env fmt p p')
    (hm : ∀ r, InUnit r → Meaningful p' (Device.init r))
    (hf : chance p' blank (failsWith Set.univ) = 0) (s : Backend) :
    ∀ᵐ r ∂streams, ∃ out : ℕ → Bytes,
      (∀ n, written env fmt p n (resampled r s) = .ok ((List.range n).map out)) ∧
      ∀ b : Bytes, Filter.Tendsto (fun n : ℕ => (((List.range n).map out).count b : ℝ) / n) Filter.atTop
        (nhds (chance p' blank (records {es | lines es = b}))) := by
  have h := fun b : Bytes => hw.frequencies hm hf s {b}
  rw [← ae_all_iff] at h
  filter_upwards [h] with r hr
  obtain ⟨out, h0, _⟩ := hr []
  refine ⟨out, h0, fun b => ?_⟩
  obtain ⟨out', h1, h2⟩ := hr b
  have : ∀ n, (List.range n).map out' = (List.range n).map out := fun n => by
    have := (h1 n).symm.trans (h0 n)
    simpa only [Except.ok.injEq] using this
  simp only [this] at h2
  simp only [Set.mem_singleton_iff] at h2
  refine h2.congr fun n => ?_
  congr 2
  exact List.countP_congr fun x _ => by simp

open Classical in
/-- **C58**.  If the program fails with probability zero, then for almost every stream of samples every number of shots
succeeds, and for every set of byte strings the fraction of the shots that write something in it converges to
the probability of the ideal device. -/
theorem C58_frequencies (he : env.eps = 0) (hm : ∀ r, InUnit r → Meaningful p (Device.init r))
    (hn : ∀ (r : ℕ → ℝ) (os : ℕ → ℕ), InUnit r → NoTurn env fmt p (Backend.new r os))
    (hf : chance p blank (failsWith Set.univ) = 0) (s : Backend) (B : Set Bytes) :
    ∀ᵐ r ∂streams, ∃ out : ℕ → Bytes,
      (∀ n, written env fmt p n (resampled r s) = .ok ((List.range n).map out)) ∧
      Filter.Tendsto (fun n : ℕ => (((List.range n).map out).countP (· ∈ B) : ℝ) / n) Filter.atTop
        (nhds (chance p blank (records {es | lines es ∈ B}))) :=
  (written_ideal he hm hn).frequencies hm hf s B

/-- **C58**, all outputs at once: the table of relative frequencies converges to the table of probabilities. -/
theorem C58_histogram (he : env.eps = 0) (hm : ∀ r, InUnit r → Meaningful p (Device.init r))
    (hn : ∀ (r : ℕ → ℝ) (os : ℕ → ℕ), InUnit r → NoTurn env fmt p (Backend.new r os))
    (hf : chance p blank (failsWith Set.univ) = 0) (s : Backend) :
    ∀ᵐ r ∂streams, ∃ out : ℕ → Bytes,
      (∀ n, written env fmt p n (resampled r s) = .ok ((List.range n).map out)) ∧
      ∀ b : Bytes, Filter.Tendsto (fun n : ℕ => (((List.range n).map out).count b : ℝ) / n) Filter.atTop
        (nhds (chance p blank (records {es | lines es = b}))) :=
  (written_ideal he hm hn).histogram hm hf s

/-! ### The coin -/

theorem coin_chance (T : Set (List Event)) [DecidablePred (· ∈ T)] : chance coin blank (records T) =
    (if [.record (.result true none)] ∈ T then 1 / 2 else 0) +
      if [.record (.result false none)] ∈ T then 1 / 2 else 0 := by
  have h := (law coin blank_fit (fun r _ => coin_meaningful r) T MeasurableSet.univ).1
  have hs : wellSet coin blank T Set.univ = {r | if r 0 < 1 / 2
      then tail r ∈ {_r : ℕ → ℝ | [Event.record (.result true none)] ∈ T}
      else tail r ∈ {_r : ℕ → ℝ | [Event.record (.result false none)] ∈ T}} := by
    ext r
    obtain ⟨δ, -, -, e⟩ := coin_run r
    simp only [wellSet, ← init_eq, e, Set.mem_ofPred_eq]
    by_cases hr : r 0 < 1 / 2 <;> simp only [hr] <;> simp
  rw [hs, streams_split (by norm_num) (by norm_num) (by simp) (by simp), measure_univ, mul_one] at h
  have h2 := congrArg ENNReal.toReal h
  rw [ENNReal.toReal_ofReal (chance_nonneg _ _ _)] at h2
  rw [← h2]
  by_cases h3 : [Event.record (.result true none)] ∈ T <;> by_cases h4 : [Event.record (.result false none)] ∈ T <;>
    simp [h3, h4, ENNReal.toReal_add] <;> norm_num

/-- The line of a result without a label. -/
def bitLine (b : Bool) : Bytes := if b then utf8 "OUTPUT\tRESULT\t1\n" else utf8 "OUTPUT\tRESULT\t0\n"

theorem coin_lines (b : Bool) : lines [.record (.result b none)] = bitLine b := by
  cases b <;> decide +kernel

theorem bitLine_inj {b c : Bool} (h : bitLine b = bitLine c) : b = c := by
  cases b <;> cases c <;> first | rfl | (exfalso; revert h; decide +kernel)

theorem coin_bit (b : Bool) : chance coin blank (records {es | lines es ∈ ({bitLine b} : Set Bytes)}) = 1 / 2 := by
  classical
  rw [coin_chance]
  simp only [Set.mem_ofPred_eq, coin_lines, Set.mem_singleton_iff]
  have h : bitLine true ≠ bitLine false := fun h => by cases bitLine_inj h
  cases b
  · simp [h]
  · simp [h.symm]

/-- **C57** for the coin: every sequence of `n` results is equally likely. -/
theorem C57_coin (he : env.eps = 0) (s : Backend) (bs : List Bool) :
    streams {r | written env fmt coin bs.length (resampled r s) = .ok (bs.map bitLine)} =
      ENNReal.ofReal (1 / 2) ^ bs.length := by
  have h := C57_shots (fmt := fmt) he (fun r _ => coin_meaningful r) (fun r os _ => coin_noY.noTurn _) s
    (bs.map fun b => {bitLine b})
  rw [List.map_map, List.length_map] at h
  have h2 : ∀ b, ((fun B => ENNReal.ofReal (chance coin blank (records {es | lines es ∈ B}))) ∘
      fun b => ({bitLine b} : Set Bytes)) b = ENNReal.ofReal (1 / 2) := fun b => by
    rw [Function.comp_apply, coin_bit]
  rw [List.map_congr_left (fun b _ => h2 b), List.map_const', List.prod_replicate] at h
  rw [← h]
  congr 1
  ext r
  simp only [Set.mem_ofPred_eq, List.forall₂_map_right_iff, Set.mem_singleton_iff]
  constructor
  · intro e
    exact ⟨_, e, by simp [List.forall₂_map_left_iff, List.forall₂_same]⟩
  · rintro ⟨outs, e, h3⟩
    rw [e]
    congr 1
    exact (List.forall₂_eq_eq_eq ▸ (List.forall₂_map_right_iff.2 h3) : outs = bs.map bitLine)

theorem coin_sure : chance coin blank (failsWith Set.univ) = 0 := by
  classical
  have h := C57_total (p := coin) fun r _ => coin_meaningful r
  rw [coin_chance] at h
  simp only [Set.mem_univ, if_true] at h
  linarith

/-- **C58** for the coin: the fraction of each result converges to one half. -/
theorem C58_coin (he : env.eps = 0) (s : Backend) : ∀ᵐ r ∂streams, ∃ bit : ℕ → Bool,
    (∀ n, written env fmt coin n (resampled r s) = .ok ((List.range n).map fun i => bitLine (bit i))) ∧
    Filter.Tendsto (fun n : ℕ => (((List.range n).map bit).count true : ℝ) / n) Filter.atTop (nhds (1 / 2)) := by
  classical
  have h := C58_frequencies (fmt := fmt) he (fun r _ => coin_meaningful r) (fun r os _ => coin_noY.noTurn _) coin_sure s
    {bitLine true}
  filter_upwards [streams_unit, h] with r hr h
  obtain ⟨out, h1, h2⟩ := h
  rw [coin_bit] at h2
  have ho : ∀ i, out i = bitLine (decide (r i < 1 / 2)) := by
    intro i
    have h3 := (written_ideal (fmt := fmt) he (fun r _ => coin_meaningful r) (fun r os _ => coin_noY.noTurn _) (i + 1)
      (resampled r s) hr).symm.trans (h1 (i + 1))
    have h4 : idealShots coin (i + 1) (resampled r s).sim.rng = _ := coin_shots r (i + 1)
    simp only [h4, List.map_map, Except.ok.injEq] at h3
    have h5 := List.map_inj_left.1 h3 i (by simp)
    rw [← h5, Function.comp_apply, coin_lines]
  refine ⟨fun i => decide (r i < 1 / 2), fun n => by rw [h1]; simp [ho], h2.congr fun n => ?_⟩
  congr 2
  rw [List.count, List.countP_map, List.countP_map]
  refine List.countP_congr fun i _ => ?_
  simp only [Function.comp_apply, ho, Set.mem_singleton_iff, decide_eq_true_eq, beq_iff_eq]
  exact ⟨fun h => by simpa using bitLine_inj h, fun h => by rw [decide_eq_true h]⟩

end Qir.Back
