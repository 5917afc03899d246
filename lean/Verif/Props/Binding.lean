import Verif.Model.Runner
import Mathlib.Data.List.Basic
import Mathlib.Tactic.Common

/-!
# Binding of external functions (C42)
-/

namespace Qir.Run

/-! ## Specification -/

/-- The markers of the legacy output format. -/
def legacyMarkers : List String :=
  ["__quantum__rt__array_end_record_output", "__quantum__rt__array_start_record_output",
   "__quantum__rt__tuple_end_record_output", "__quantum__rt__tuple_start_record_output"]

/-- The output functions that exist in a legacy and a current form. -/
def recordNames : List String :=
  ["__quantum__rt__bool_record_output", "__quantum__rt__double_record_output",
   "__quantum__rt__int_record_output", "__quantum__rt__result_record_output"]

/-- The two functions whose stated number of parameters is not that of the implementation. -/
def wrongCount : List String :=
  ["__quantum__qis__assertmeasurementprobability__ctl", "quantum__rt__array_slice_1d"]

/-- Declarations that are accepted although the implementation takes another number of parameters. -/
def Misfit (f : Func) : Prop :=
  (f.name ∈ legacyMarkers ∧ f.params ≠ 0) ∨ (f.name ∈ recordNames ∧ f.params ≠ 1 ∧ f.params ≠ 2) ∨
    f.name ∈ wrongCount

/-- The function outside the module that a declaration may stand for: the one of its name, and for
`__quantum__qis__m__body` with two parameters `__quantum__qis__mz__body`. -/
def Stands (f : Func) (impl : Impl) : Prop :=
  impl.name = f.name ∨
    (f.name = "__quantum__qis__m__body" ∧ f.params = 2 ∧ impl.name = "__quantum__qis__mz__body")

/-- The declaration belongs to the legacy format. -/
def UsesLegacy (f : Func) : Prop := f.name ∈ legacyMarkers ∨ (f.name ∈ recordNames ∧ f.params = 1)

/-- The declaration belongs to the current format, arrays and tuples not counted. -/
def UsesCurrent (f : Func) : Prop := f.name ∈ recordNames ∧ f.params ≠ 1

/-- The functions that are bound by name and number of parameters alone. -/
def countTable : List (String × ℕ) := bindSteps.filterMap fun s => match s with
  | .bind n c _ => some (n, c)
  | _ => none

/-- A declaration that is accepted on its own. -/
def Accepted (f : Func) : Prop :=
  f.name ∈ legacyMarkers ∨ f.name ∈ recordNames ∨
    (f.name = "__quantum__qis__m__body" ∧ (f.params = 1 ∨ f.params = 2)) ∨ (f.name, f.params) ∈ countTable

/-! ## Proof -/

/-- What is checked of the table of statements. -/
def stepOk : BindStep → Bool
  | .bind n c a => (if n ∈ wrongCount then c ≠ a else c = a) ∧ n ∉ legacyMarkers ∧ n ∉ recordNames ∧
      n ≠ "__quantum__qis__m__body"
  | .legacyOutput n => n ∈ legacyMarkers ∧ n ∉ recordNames ∧ n ∉ wrongCount
  | .outputRecord n => n ∈ recordNames ∧ n ∉ legacyMarkers ∧ n ∉ wrongCount
  | .measure => "__quantum__qis__m__body" ∉ legacyMarkers ∧ "__quantum__qis__m__body" ∉ recordNames ∧
      "__quantum__qis__m__body" ∉ wrongCount

theorem steps_ok : ∀ s ∈ bindSteps, stepOk s = true := by decide +kernel

/-- The mapping of a declaration is as it should be. -/
structure Fits (f : Func) (impl : Impl) : Prop where
  stands : Stands f impl
  count : impl.params = f.params ↔ ¬ Misfit f
  legacy : impl.legacy = true ↔ UsesLegacy f

/-- The invariant of the sequence of statements, `d` being the declarations of the module. -/
structure Inv (d : List (String × Func)) (st : BindState) : Prop where
  sub : ∀ e ∈ st.decls, e ∈ d
  all : ∀ e ∈ d, e ∈ st.decls ∨ ∃ impl, (e.2, impl) ∈ st.mapped ∧ Fits e.2 impl ∧
    (UsesLegacy e.2 → true ∈ st.legacy) ∧ (UsesCurrent e.2 → false ∈ st.legacy)

theorem get_mem {name : String} {d : List (String × Func)} {f : Func} (h : get name d = some f) :
    (name, f) ∈ d := by
  induction d with
  | nil => simp [get] at h
  | cons e d ih =>
    obtain ⟨k, g⟩ := e
    simp only [get] at h
    split_ifs at h with hk
    · cases h; rw [hk]; exact List.mem_cons_self
    · exact List.mem_cons_of_mem _ (ih h)

theorem get_none {name : String} {d : List (String × Func)} (h : get name d = none) (f : Func) :
    (name, f) ∉ d := by
  induction d with
  | nil => simp
  | cons e d ih =>
    obtain ⟨k, g⟩ := e
    simp only [get] at h
    split_ifs at h with hk
    intro hm
    rcases List.mem_cons.mp hm with hm | hm
    · cases hm; exact hk rfl
    · exact ih h hm

theorem Inv.map {d : List (String × Func)} (hd : ∀ e ∈ d, e.1 = e.2.name)
    (hu : ∀ e ∈ d, ∀ e' ∈ d, e.1 = e'.1 → e = e') {st st' : BindState} (h : Inv d st) {name : String}
    {f : Func} (hg : get name st.decls = some f) {impl : Impl} (hfit : f.name = name → Fits f impl)
    (h1 : st'.decls = remove name st.decls) (h2 : st'.mapped = (f, impl) :: st.mapped)
    (h3 : ∀ b ∈ st.legacy, b ∈ st'.legacy) (h4 : f.name = name → UsesLegacy f → true ∈ st'.legacy)
    (h5 : f.name = name → UsesCurrent f → false ∈ st'.legacy) : Inv d st' := by
  have hm := get_mem hg
  have hn : f.name = name := (hd _ (h.sub _ hm)).symm
  constructor
  · intro e he
    rw [h1, remove, List.mem_filter] at he
    exact h.sub e he.1
  · intro e he
    rcases h.all e he with he' | ⟨impl', a, b, c, c'⟩
    · by_cases hk : e.1 = name
      · have : e = (name, f) := hu e he _ (h.sub _ hm) hk
        subst this
        exact .inr ⟨impl, by rw [h2]; exact List.mem_cons_self, hfit hn, h4 hn, h5 hn⟩
      · refine .inl ?_
        rw [h1, remove, List.mem_filter]
        exact ⟨he', by simpa using hk⟩
    · exact .inr ⟨impl', by rw [h2]; exact List.mem_cons_of_mem _ a, b, fun x => h3 _ (c x),
        fun x => h3 _ (c' x)⟩

theorem Inv.step {d : List (String × Func)} (hd : ∀ e ∈ d, e.1 = e.2.name)
    (hu : ∀ e ∈ d, ∀ e' ∈ d, e.1 = e'.1 → e = e') {st st' : BindState} (h : Inv d st) {s : BindStep}
    (hs : stepOk s = true) (hb : bindStep s st = .ok st') : Inv d st' := by
  cases s with
  | bind name count arity =>
    simp only [bindStep] at hb
    cases hg : get name st.decls with
    | none => rw [hg] at hb; cases hb; exact h
    | some f =>
      simp only [hg] at hb
      split_ifs at hb with hc
      cases hb
      simp only [stepOk, decide_eq_true_eq] at hs
      obtain ⟨s1, s2, s3, -⟩ := hs
      have hc : f.params = count := by simpa using hc
      refine h.map hd hu hg (impl := ⟨name, false, arity⟩) (fun hn => ⟨.inl hn.symm, ?_, ?_⟩) rfl rfl
        (fun _ x => x) ?_ ?_
      · simp only [Misfit, hn, s2, s3, false_and, false_or]
        split_ifs at s1 with hw
        · simp only [hw, not_true_eq_false, iff_false, hc]; exact fun e => s1 e.symm
        · simp [hw, hc, s1]
      · simp [UsesLegacy, hn, s2, s3]
      · intro hn hl; simp [UsesLegacy, hn, s2, s3] at hl
      · intro hn hl; simp [UsesCurrent, hn, s3] at hl
  | legacyOutput name =>
    simp only [bindStep] at hb
    cases hg : get name st.decls with
    | none => rw [hg] at hb; cases hb; exact h
    | some f =>
      simp only [hg] at hb
      cases hb
      simp only [stepOk, decide_eq_true_eq] at hs
      obtain ⟨s1, s2, s3⟩ := hs
      refine h.map hd hu hg (impl := ⟨name, true, 0⟩) (fun hn => ⟨.inl hn.symm, ?_, ?_⟩) rfl rfl
        (fun _ x => List.mem_cons_of_mem _ x) ?_ ?_
      · simp only [Misfit, hn, s1, s2, s3, false_and, or_false, true_and, not_not]; exact eq_comm
      · simp [UsesLegacy, hn, s1]
      · intro hn hl; simp
      · intro hn hl; simp [UsesCurrent, hn, s2] at hl
  | outputRecord name =>
    simp only [bindStep] at hb
    cases hg : get name st.decls with
    | none => rw [hg] at hb; cases hb; exact h
    | some f =>
      simp only [stepOk, decide_eq_true_eq] at hs
      obtain ⟨s1, s2, s3⟩ := hs
      simp only [hg] at hb
      split_ifs at hb with hc
      · cases hb
        refine h.map hd hu hg (impl := ⟨name, true, 1⟩) (fun hn => ⟨.inl hn.symm, ?_, ?_⟩) rfl rfl
          (fun _ x => List.mem_cons_of_mem _ x) ?_ ?_
        · simp [Misfit, hn, s2, s3, hc]
        · simp [UsesLegacy, hn, s1, hc]
        · intro hn hl; simp
        · intro hn hl; simp [UsesCurrent, hc] at hl
      · cases hb
        refine h.map hd hu hg (impl := ⟨name, false, 2⟩) (fun hn => ⟨.inl hn.symm, ?_, ?_⟩) rfl rfl
          (fun _ x => List.mem_cons_of_mem _ x) ?_ ?_
        · simp only [Misfit, hn, s1, s2, s3, false_and, false_or, or_false, true_and, ne_eq, hc,
            not_false_eq_true, not_not]; exact eq_comm
        · simp [UsesLegacy, hn, s2, hc]
        · intro hn hl; simp [UsesLegacy, hn, s2, hc] at hl
        · intro hn hl; simp
  | measure =>
    simp only [bindStep] at hb
    cases hg : get "__quantum__qis__m__body" st.decls with
    | none => rw [hg] at hb; cases hb; exact h
    | some f =>
      simp only [stepOk, decide_eq_true_eq] at hs
      obtain ⟨s1, s2, s3⟩ := hs
      simp only [hg] at hb
      split_ifs at hb with hc hc'
      · cases hb
        refine h.map hd hu hg (impl := ⟨"__quantum__qis__mz__body", false, 2⟩)
          (fun hn => ⟨.inr ⟨hn, hc, rfl⟩, ?_, ?_⟩) rfl rfl (fun _ x => x) ?_ ?_
        · simp only [Misfit, hn, s1, s2, s3, false_and, or_false, not_false_eq_true, iff_true, hc]
        · simp only [UsesLegacy, hn, s1, s2, false_and, or_false, iff_false]; decide
        · intro hn hl; simp only [UsesLegacy, hn, s1, s2, false_and, or_false] at hl
        · intro hn hl; simp only [UsesCurrent, hn, s2, false_and] at hl
      · cases hb
        refine h.map hd hu hg (impl := ⟨"__quantum__qis__m__body", false, 1⟩)
          (fun hn => ⟨.inl hn.symm, ?_, ?_⟩) rfl rfl (fun _ x => x) ?_ ?_
        · simp only [Misfit, hn, s1, s2, s3, false_and, or_false, not_false_eq_true, iff_true, hc']
        · simp only [UsesLegacy, hn, s1, s2, false_and, or_false, iff_false]; decide
        · intro hn hl; simp only [UsesLegacy, hn, s1, s2, false_and, or_false] at hl
        · intro hn hl; simp only [UsesCurrent, hn, s2, false_and] at hl

theorem Inv.steps {d : List (String × Func)} (hd : ∀ e ∈ d, e.1 = e.2.name)
    (hu : ∀ e ∈ d, ∀ e' ∈ d, e.1 = e'.1 → e = e') : ∀ {ss : List BindStep} {st st' : BindState}, Inv d st →
    (∀ s ∈ ss, stepOk s = true) → bindAll ss st = .ok st' → Inv d st'
  | [], st, st', h, _, hb => by cases hb; exact h
  | s :: ss, st, st', h, hs, hb => by
    simp only [bindAll] at hb
    cases h1 : bindStep s st with
    | error e => simp [h1] at hb
    | ok st1 =>
      simp only [h1] at hb
      exact Inv.steps hd hu (h.step hd hu (hs s List.mem_cons_self) h1)
        (fun x hx => hs x (List.mem_cons_of_mem _ hx)) hb

theorem declarations_sound (fs : List Func) : ∀ e ∈ declarations fs,
    e.1 = e.2.name ∧ e.2 ∈ fs ∧ external e.2 = true := by
  have key : ∀ (l : List Func) (d : List (String × Func)),
      ∀ e ∈ l.foldl (fun d f => insert f.name f d) d, e ∈ d ∨ (e.1 = e.2.name ∧ e.2 ∈ l) := by
    intro l
    induction l with
    | nil => intro d e he; exact .inl he
    | cons f l ih =>
      intro d e he
      rcases ih _ e he with h | ⟨h1, h2⟩
      · simp only [insert, remove, List.mem_cons, List.mem_filter] at h
        rcases h with rfl | h
        · exact .inr ⟨rfl, List.mem_cons_self⟩
        · exact .inl h.1
      · exact .inr ⟨h1, List.mem_cons_of_mem _ h2⟩
  intro e he
  rcases key _ _ e he with h | ⟨h1, h2⟩
  · simp at h
  · rw [List.mem_filter] at h2
    exact ⟨h1, h2⟩

theorem declarations_complete (fs : List Func) (hn : (fs.map Func.name).Nodup) {f : Func} (hf : f ∈ fs)
    (he : external f = true) : (f.name, f) ∈ declarations fs := by
  have key : ∀ (l : List Func) (d : List (String × Func)), (l.map Func.name).Nodup →
      (∀ g ∈ l, (g.name, g) ∈ l.foldl (fun d f => insert f.name f d) d) ∧
      ∀ e ∈ d, (∀ g ∈ l, g.name ≠ e.1) → e ∈ l.foldl (fun d f => insert f.name f d) d := by
    intro l
    induction l with
    | nil => intro d _; exact ⟨by simp, fun e he _ => he⟩
    | cons a l ih =>
      intro d hn
      rw [List.map_cons, List.nodup_cons] at hn
      obtain ⟨h1, h2⟩ := ih (insert a.name a d) hn.2
      refine ⟨?_, ?_⟩
      · intro g hg
        rcases List.mem_cons.mp hg with rfl | hg
        · refine h2 _ (by simp [insert]) fun x hx e => hn.1 ?_
          rw [show g.name = x.name from e.symm]; exact List.mem_map_of_mem hx
        · exact h1 g hg
      · intro e he hne
        refine h2 e ?_ fun g hg => hne g (List.mem_cons_of_mem _ hg)
        simp only [insert, remove, List.mem_cons, List.mem_filter]
        exact .inr ⟨he, by simpa using (hne a List.mem_cons_self).symm⟩
  refine (key (fs.filter external) [] ?_).1 f (List.mem_filter.mpr ⟨hf, he⟩)
  exact hn.sublist (List.filter_sublist.map _)

theorem name_inj {fs : List Func} (hn : (fs.map Func.name).Nodup) {f g : Func} (hf : f ∈ fs) (hg : g ∈ fs)
    (h : f.name = g.name) : f = g := by
  induction fs with
  | nil => simp at hf
  | cons a fs ih =>
    rw [List.map_cons, List.nodup_cons] at hn
    rcases List.mem_cons.mp hf with hf' | hf' <;> rcases List.mem_cons.mp hg with hg' | hg'
    · rw [hf', hg']
    · exact absurd (hf' ▸ h ▸ List.mem_map_of_mem hg') hn.1
    · exact absurd (hg' ▸ h ▸ List.mem_map_of_mem hf') hn.1
    · exact ih hn.2 hf' hg'

theorem bound {fs : List Func} (hn : (fs.map Func.name).Nodup) {maps : List (Func × Impl)}
    (h : bindFunctions fs = .ok maps) : ∃ legacy : List Bool,
    (∀ f ∈ fs, external f = true → ∃ impl, (f, impl) ∈ maps ∧ Fits f impl ∧
      (UsesLegacy f → true ∈ legacy) ∧ (UsesCurrent f → false ∈ legacy)) ∧
    ¬ (true ∈ legacy ∧ false ∈ legacy) := by
  unfold bindFunctions at h
  cases hb : bindAll bindSteps ⟨declarations fs, [], []⟩ with
  | error e => simp [hb] at h
  | ok st =>
    simp only [hb] at h
    split_ifs at h with h1 h2
    cases h
    have hd : ∀ e ∈ declarations fs, e.1 = e.2.name := fun e he => (declarations_sound fs e he).1
    have hu : ∀ e ∈ declarations fs, ∀ e' ∈ declarations fs, e.1 = e'.1 → e = e' := by
      intro e he e' he' hee
      have a := declarations_sound fs e he
      have b := declarations_sound fs e' he'
      have : e.2 = e'.2 := name_inj hn a.2.1 b.2.1 (by rw [← a.1, ← b.1, hee])
      exact Prod.ext hee this
    have inv := Inv.steps hd hu (st := ⟨declarations fs, [], []⟩) ⟨fun e he => he, fun e he => .inl he⟩
      steps_ok hb
    refine ⟨st.legacy, ?_, ?_⟩
    · intro f hf he
      rcases inv.all _ (declarations_complete fs hn hf he) with h | h
      · rw [List.isEmpty_iff] at h2; rw [h2] at h; simp at h
      · exact h
    · rintro ⟨a, b⟩
      apply h1
      simp only [Bool.not_eq_true', Bool.or_eq_false_iff, List.all_eq_false]
      exact ⟨⟨_, b, by decide⟩, ⟨_, a, by decide⟩⟩

/-- The name a statement is about. -/
def nameOf : BindStep → String
  | .bind n _ _ | .legacyOutput n | .outputRecord n => n
  | .measure => "__quantum__qis__m__body"

/-- The statement does not return an error on this declaration. -/
def Passes : BindStep → Func → Prop
  | .bind _ c _, f => f.params = c
  | .measure, f => f.params = 1 ∨ f.params = 2
  | _, _ => True

theorem step_passes {s : BindStep} {st : BindState} (hs : stepOk s = true)
    (hd : ∀ e ∈ st.decls, e.1 = e.2.name)
    (hp : ∀ e ∈ st.decls, e.1 = nameOf s → Passes s e.2) :
    ∃ st', bindStep s st = .ok st' ∧ (∀ e ∈ st'.decls, e ∈ st.decls ∧ e.1 ≠ nameOf s) ∧
      ∀ b ∈ st'.legacy, b ∈ st.legacy ∨ ∃ e ∈ st.decls,
        (b = true ∧ UsesLegacy e.2) ∨ (b = false ∧ UsesCurrent e.2) := by
  have hrem : ∀ {name e}, e ∈ remove name st.decls → e ∈ st.decls ∧ e.1 ≠ name := by
    intro name e he
    rw [remove, List.mem_filter] at he
    exact ⟨he.1, by simpa using he.2⟩
  have hnone : get (nameOf s) st.decls = none → ∀ e ∈ st.decls, e ∈ st.decls ∧ e.1 ≠ nameOf s := by
    intro h e he
    refine ⟨he, fun hk => get_none h e.2 ?_⟩
    rw [← hk]; exact he
  cases s with
  | bind name count arity =>
    simp only [bindStep]
    cases hg : get name st.decls with
    | none => exact ⟨st, rfl, hnone hg, fun b hb => .inl hb⟩
    | some f =>
      have := hp _ (get_mem hg) rfl
      simp only [Passes] at this
      simp only [this, ne_eq, not_true_eq_false, if_false]
      exact ⟨_, rfl, fun e he => hrem he, fun b hb => .inl hb⟩
  | legacyOutput name =>
    simp only [bindStep]
    simp only [stepOk, decide_eq_true_eq] at hs
    cases hg : get name st.decls with
    | none => exact ⟨st, rfl, hnone hg, fun b hb => .inl hb⟩
    | some f =>
      have hn : name = f.name := hd _ (get_mem hg)
      refine ⟨_, rfl, fun e he => hrem he, fun b hb => ?_⟩
      rcases List.mem_cons.mp hb with rfl | hb
      · exact .inr ⟨_, get_mem hg, .inl ⟨rfl, .inl (hn ▸ hs.1)⟩⟩
      · exact .inl hb
  | outputRecord name =>
    simp only [bindStep]
    simp only [stepOk, decide_eq_true_eq] at hs
    cases hg : get name st.decls with
    | none => exact ⟨st, rfl, hnone hg, fun b hb => .inl hb⟩
    | some f =>
      have hn : name = f.name := hd _ (get_mem hg)
      by_cases hc : f.params = 1
      · simp only [hc, if_true]
        refine ⟨_, rfl, fun e he => hrem he, fun b hb => ?_⟩
        rcases List.mem_cons.mp hb with rfl | hb
        · exact .inr ⟨_, get_mem hg, .inl ⟨rfl, .inr ⟨hn ▸ hs.1, hc⟩⟩⟩
        · exact .inl hb
      · simp only [hc, if_false]
        refine ⟨_, rfl, fun e he => hrem he, fun b hb => ?_⟩
        rcases List.mem_cons.mp hb with rfl | hb
        · exact .inr ⟨_, get_mem hg, .inr ⟨rfl, hn ▸ hs.1, hc⟩⟩
        · exact .inl hb
  | measure =>
    simp only [bindStep]
    cases hg : get "__quantum__qis__m__body" st.decls with
    | none => exact ⟨st, rfl, hnone hg, fun b hb => .inl hb⟩
    | some f =>
      have := hp _ (get_mem hg) rfl
      simp only [Passes] at this
      rcases this with h | h <;> simp only [h]
      · exact ⟨_, rfl, fun e he => hrem he, fun b hb => .inl hb⟩
      · exact ⟨_, rfl, fun e he => hrem he, fun b hb => .inl hb⟩

theorem steps_pass : ∀ {ss : List BindStep} {st : BindState}, (∀ s ∈ ss, stepOk s = true) →
    (∀ e ∈ st.decls, e.1 = e.2.name) → (∀ s ∈ ss, ∀ e ∈ st.decls, e.1 = nameOf s → Passes s e.2) →
    ∃ st', bindAll ss st = .ok st' ∧ (∀ e ∈ st'.decls, e ∈ st.decls ∧ ∀ s ∈ ss, e.1 ≠ nameOf s) ∧
      ∀ b ∈ st'.legacy, b ∈ st.legacy ∨ ∃ e ∈ st.decls,
        (b = true ∧ UsesLegacy e.2) ∨ (b = false ∧ UsesCurrent e.2)
  | [], st, _, _, _ => ⟨st, rfl, fun e he => ⟨he, by simp⟩, fun b hb => .inl hb⟩
  | s :: ss, st, hs, hd, hp => by
    obtain ⟨st1, h1, h2, h3⟩ := step_passes (hs s List.mem_cons_self) hd (hp s List.mem_cons_self)
    obtain ⟨st2, h4, h5, h6⟩ := steps_pass (ss := ss) (st := st1)
      (fun x hx => hs x (List.mem_cons_of_mem _ hx)) (fun e he => hd e (h2 e he).1)
      (fun x hx e he => hp x (List.mem_cons_of_mem _ hx) e (h2 e he).1)
    refine ⟨st2, by simp only [bindAll, h1]; exact h4, ?_, ?_⟩
    · intro e he
      refine ⟨(h2 e (h5 e he).1).1, fun x hx => ?_⟩
      rcases List.mem_cons.mp hx with rfl | hx
      · exact (h2 e (h5 e he).1).2
      · exact (h5 e he).2 x hx
    · intro b hb
      rcases h6 b hb with hb | ⟨e, he, hb⟩
      · exact h3 b hb
      · exact .inr ⟨e, (h2 e he).1, hb⟩

theorem table_nodup : (countTable.map Prod.fst).Nodup := by decide +kernel

theorem names_covered : ∀ n ∈ "__quantum__qis__m__body" :: (legacyMarkers ++ recordNames),
    n ∈ bindSteps.map nameOf := by decide +kernel

theorem mem_countTable {n : String} {c : ℕ} :
    (n, c) ∈ countTable ↔ ∃ a, BindStep.bind n c a ∈ bindSteps := by
  unfold countTable
  rw [List.mem_filterMap]
  constructor
  · rintro ⟨s, hs, h⟩
    cases s <;> simp at h
    obtain ⟨rfl, rfl⟩ := h
    exact ⟨_, hs⟩
  · rintro ⟨a, h⟩
    exact ⟨_, h, rfl⟩

theorem table_unique {n : String} {c c' : ℕ} (h : (n, c) ∈ countTable) (h' : (n, c') ∈ countTable) :
    c = c' := by
  have key : ∀ {l : List (String × ℕ)}, (l.map Prod.fst).Nodup → (n, c) ∈ l → (n, c') ∈ l → c = c' := by
    intro l
    induction l with
    | nil => intro _ h; simp at h
    | cons a l ih =>
      intro hn h h'
      rw [List.map_cons, List.nodup_cons] at hn
      rcases List.mem_cons.mp h with h | h <;> rcases List.mem_cons.mp h' with h' | h'
      · rw [← h'] at h; exact (Prod.ext_iff.mp h).2
      · exact absurd (List.mem_map.mpr ⟨_, h', by rw [← h]⟩) hn.1
      · exact absurd (List.mem_map.mpr ⟨_, h, by rw [← h']⟩) hn.1
      · exact ih hn.2 h h'
  exact key table_nodup h h'

theorem passes_of_accepted {s : BindStep} (hs : s ∈ bindSteps) {f : Func} (hf : Accepted f)
    (hn : f.name = nameOf s) : Passes s f := by
  have ok := steps_ok s hs
  cases s with
  | bind n c a =>
    simp only [stepOk, decide_eq_true_eq] at ok
    obtain ⟨-, h1, h2, h3⟩ := ok
    simp only [nameOf] at hn
    simp only [Accepted, hn, h1, h2, h3, false_or, false_and] at hf
    exact table_unique hf (mem_countTable.mpr ⟨a, hs⟩)
  | measure =>
    simp only [stepOk, decide_eq_true_eq] at ok
    obtain ⟨h1, h2, -⟩ := ok
    simp only [nameOf] at hn
    simp only [Accepted, hn, h1, h2, false_or, true_and] at hf
    rcases hf with hf | hf
    · exact hf
    · obtain ⟨a, ha⟩ := mem_countTable.mp hf
      have := steps_ok _ ha
      simp only [stepOk, decide_eq_true_eq] at this
      exact absurd rfl this.2.2.2
  | legacyOutput n => trivial
  | outputRecord n => trivial

/-! ## C42

Full statement: if `bind_functions` succeeds, every external function of the module is bound to an
implementation with the same number of parameters, and legacy and current output recording are never mixed.
This fails for the declarations in `Misfit` (`C42_count_counterexample`), and for mixtures that involve
`array_record_output` or `tuple_record_output` (`C42_mixing_counterexample`).  Everything else is proved. -/

/-- If binding succeeds, every external function of the module is bound to the implementation it stands for,
and the numbers of parameters agree except for exactly the declarations in `Misfit`. -/
theorem C42_bound_partial (fs : List Func) (hn : (fs.map Func.name).Nodup) (maps : List (Func × Impl))
    (h : bindFunctions fs = .ok maps) : ∀ f ∈ fs, f.blocks = 0 → ¬ f.name.startsWith "llvm." →
    ∃ impl, (f, impl) ∈ maps ∧ Stands f impl ∧ (impl.params = f.params ↔ ¬ Misfit f) ∧
      (impl.legacy = true ↔ UsesLegacy f) := by
  intro f hf h0 hl
  obtain ⟨l, h1, -⟩ := bound hn h
  obtain ⟨impl, h2, h3, -⟩ := h1 f hf (by simp [external, h0, hl])
  exact ⟨impl, h2, h3.1, h3.2, h3.3⟩

/-- If binding succeeds, the module does not declare both a legacy output function and the current form of
a bool, double, int or result output function. -/
theorem C42_not_mixed_partial (fs : List Func) (hn : (fs.map Func.name).Nodup) (maps : List (Func × Impl))
    (h : bindFunctions fs = .ok maps) : ¬ ∃ f ∈ fs, ∃ g ∈ fs, f.blocks = 0 ∧ g.blocks = 0 ∧
    ¬ f.name.startsWith "llvm." ∧ ¬ g.name.startsWith "llvm." ∧ UsesLegacy f ∧ UsesCurrent g := by
  rintro ⟨f, hf, g, hg, hf0, hg0, hfl, hgl, h1, h2⟩
  obtain ⟨legacy, ha, hb⟩ := bound hn h
  obtain ⟨_, -, -, a, -⟩ := ha f hf (by simp [external, hf0, hfl])
  obtain ⟨_, -, -, -, b⟩ := ha g hg (by simp [external, hg0, hgl])
  exact hb ⟨a h1, b h2⟩

/-- Conversely, a module all of whose declarations are accepted one by one and that does not mix the formats
is bound. -/
theorem C42_accepts (fs : List Func)
    (ha : ∀ f ∈ fs, f.blocks = 0 → ¬ f.name.startsWith "llvm." → Accepted f)
    (hm : ¬ ∃ f ∈ fs, ∃ g ∈ fs, f.blocks = 0 ∧ g.blocks = 0 ∧
      ¬ f.name.startsWith "llvm." ∧ ¬ g.name.startsWith "llvm." ∧ UsesLegacy f ∧ UsesCurrent g) :
    ∃ maps, bindFunctions fs = .ok maps := by
  have ext : ∀ {f : Func}, external f = true → f.blocks = 0 ∧ ¬ f.name.startsWith "llvm." := by
    intro f hf
    simpa [external] using hf
  have hacc : ∀ e ∈ declarations fs, Accepted e.2 := by
    intro e he
    obtain ⟨-, h2, h3⟩ := declarations_sound fs e he
    exact ha _ h2 (ext h3).1 (ext h3).2
  obtain ⟨st, h1, h2, h3⟩ := steps_pass (ss := bindSteps) (st := ⟨declarations fs, [], []⟩) steps_ok
    (fun e he => (declarations_sound fs e he).1)
    (fun s hs e he hk => passes_of_accepted hs (hacc e he) ((declarations_sound fs e he).1.symm.trans hk))
  have hempty : st.decls = [] := by
    rw [List.eq_nil_iff_forall_not_mem]
    intro e he
    obtain ⟨h4, h5⟩ := h2 e he
    have hnm := (declarations_sound fs e h4).1
    have hin : e.1 ∈ bindSteps.map nameOf := by
      rw [hnm]
      rcases hacc e h4 with h | h | ⟨h, -⟩ | h
      · exact names_covered _ (List.mem_cons_of_mem _ (List.mem_append_left _ h))
      · exact names_covered _ (List.mem_cons_of_mem _ (List.mem_append_right _ h))
      · rw [h]; exact names_covered _ List.mem_cons_self
      · obtain ⟨a, h⟩ := mem_countTable.mp h
        exact List.mem_map.mpr ⟨_, h, rfl⟩
    obtain ⟨s, hs, hk⟩ := List.mem_map.mp hin
    exact h5 s hs hk.symm
  have hleg : ¬ (true ∈ st.legacy ∧ false ∈ st.legacy) := by
    rintro ⟨a, b⟩
    rcases h3 _ a with a | ⟨e, he, a⟩
    · simp at a
    rcases h3 _ b with b | ⟨e', he', b⟩
    · simp at b
    have a : UsesLegacy e.2 := by simpa using a
    have b : UsesCurrent e'.2 := by simpa using b
    obtain ⟨-, x1, x2⟩ := declarations_sound fs e he
    obtain ⟨-, y1, y2⟩ := declarations_sound fs e' he'
    exact hm ⟨_, x1, _, y1, (ext x2).1, (ext y2).1, (ext x2).2, (ext y2).2, a, b⟩
  refine ⟨st.mapped, ?_⟩
  have hcond : (!(st.legacy.all (fun b => b) || st.legacy.all (fun b => !b))) = false := by
    by_cases ht : true ∈ st.legacy
    · have hf : false ∉ st.legacy := fun h => hleg ⟨ht, h⟩
      have : st.legacy.all (fun b => b) = true := by
        rw [List.all_eq_true]
        intro b hb
        cases b
        · exact absurd hb hf
        · rfl
      simp [this]
    · have : st.legacy.all (fun b => !b) = true := by
        rw [List.all_eq_true]
        intro b hb
        cases b
        · rfl
        · exact absurd hb ht
      simp [this]
  simp only [bindFunctions, h1, hcond, hempty]
  rfl

/-- The declarations of a small program meet the conditions. -/
example : Accepted ⟨"__quantum__qis__h__body", 1, 0, []⟩ ∧ Accepted ⟨"__quantum__rt__int_record_output", 2, 0, []⟩ :=
  ⟨.inr (.inr (.inr (by decide +kernel))), .inr (.inl (by decide))⟩

/-- The declaration with six parameters is accepted, and bound to a function with two. -/
theorem C42_count_counterexample : ∃ f impl, bindFunctions [f] = .ok [(f, impl)] ∧ f.blocks = 0 ∧
    impl.name = f.name ∧ impl.params ≠ f.params :=
  ⟨⟨"__quantum__qis__assertmeasurementprobability__ctl", 6, 0, []⟩,
    ⟨"__quantum__qis__assertmeasurementprobability__ctl", false, 2⟩, by decide +kernel, rfl, rfl, by decide⟩

/-- An array in the current format and an integer in the legacy format are accepted together. -/
theorem C42_mixing_counterexample : ∃ f g m, bindFunctions [f, g] = .ok m ∧
    f.name = "__quantum__rt__array_record_output" ∧ UsesLegacy g ∧
    (∃ impl, (f, impl) ∈ m ∧ impl.legacy = false) ∧ (∃ impl, (g, impl) ∈ m ∧ impl.legacy = true) :=
  ⟨⟨"__quantum__rt__array_record_output", 2, 0, []⟩, ⟨"__quantum__rt__int_record_output", 1, 0, []⟩,
    [(⟨"__quantum__rt__int_record_output", 1, 0, []⟩, ⟨"__quantum__rt__int_record_output", true, 1⟩),
     (⟨"__quantum__rt__array_record_output", 2, 0, []⟩, ⟨"__quantum__rt__array_record_output", false, 2⟩)],
    by decide +kernel, rfl, .inr ⟨by decide, rfl⟩, ⟨_, .tail _ (.head _), rfl⟩, ⟨_, .head _, rfl⟩⟩

end Qir.Run
