import Verif.Proof.IMap
import Verif.Proof.Wave
import Verif.Proof.Bits
import Mathlib.Analysis.SpecialFunctions.Trigonometric.Basic
import Mathlib.Data.List.Forall2

/-! The wave function stored in a sparse state, and the effect of queued operations on it. -/

noncomputable section
namespace Qir
open Spec Function Sim

/-- Distinct identifiers have distinct locations. -/
def Inj (m : IMap ℕ) : Prop := ∀ i j l, m.get i = some l → m.get j = some l → i = j

/-- All identifiers of the list are allocated. -/
def Alloc (m : IMap ℕ) (ids : List ℕ) : Prop := ∀ i ∈ ids, (m.get i).isSome

/-- Every one bit of the index belongs to an allocated qubit. -/
def BitsIn (m : IMap ℕ) (k : ℕ) : Prop := ∀ l, k.testBit l = true → ∃ i, m.get i = some l

/-- The basis state (by identifier) an index (by location) stands for. -/
def idBits (m : IMap ℕ) (k : ℕ) : Basis := fun id =>
  match m.get id with
  | some l => k.testBit l
  | none => false

/-- The wave function of one entry. -/
def entryWave (m : IMap ℕ) (e : ℕ × ℂ) : Wave := e.2 • ket (idBits m e.1)

/-- The wave function of a sparse state. -/
def view (m : IMap ℕ) (st : List (ℕ × ℂ)) : Wave := (st.map (entryWave m)).sum

@[simp] theorem view_nil (m : IMap ℕ) : view m [] = 0 := rfl
theorem view_cons (m : IMap ℕ) (e : ℕ × ℂ) (st : List (ℕ × ℂ)) :
    view m (e :: st) = entryWave m e + view m st := by simp [view]
theorem view_append (m : IMap ℕ) (st st' : List (ℕ × ℂ)) :
    view m (st ++ st') = view m st + view m st' := by simp [view]
theorem view_perm {m : IMap ℕ} {st st' : List (ℕ × ℂ)} (h : st.Perm st') :
    view m st = view m st' := (h.map _).sum_eq

theorem view_map_of {m m' : IMap ℕ} {A : Module.End ℂ Wave} {f : ℕ × ℂ → ℕ × ℂ} {st : List (ℕ × ℂ)}
    (h : ∀ e ∈ st, entryWave m' (f e) = A (entryWave m e)) :
    view m' (st.map f) = A (view m st) := by
  induction st with
  | nil => simp
  | cons e st ih =>
    rw [List.map_cons, view_cons, view_cons, map_add, h e (by simp),
      ih (fun e' he => h e' (by simp [he]))]

theorem idBits_of {m : IMap ℕ} {t tl : ℕ} (h : m.get t = some tl) (k : ℕ) :
    idBits m k t = k.testBit tl := by simp [idBits, h]

theorem idBits_of_testBit {m : IMap ℕ} (hm : Inj m) {t tl : ℕ} (h : m.get t = some tl) {k k' : ℕ}
    {v : Bool} (hk : ∀ l, k'.testBit l = if l = tl then v else k.testBit l) :
    idBits m k' = update (idBits m k) t v := by
  funext r
  by_cases hr : r = t
  · subst hr; rw [update_self, idBits_of h, hk]; simp
  · rw [update_of_ne hr]
    unfold idBits
    cases hg : m.get r with
    | none => rfl
    | some l =>
      have : l ≠ tl := by rintro rfl; exact hr (hm _ _ _ hg h)
      simp [hk, this]

theorem idBits_setBit {m : IMap ℕ} (hm : Inj m) {t tl : ℕ} (h : m.get t = some tl) (k : ℕ) (v : Bool) :
    idBits m (setBit k tl v) = update (idBits m k) t v :=
  idBits_of_testBit hm h (fun l => testBit_setBit _ _ _ _)

theorem idBits_flip {m : IMap ℕ} (hm : Inj m) {t tl : ℕ} (h : m.get t = some tl) (k : ℕ) :
    idBits m (k ^^^ setBit 0 tl true) = update (idBits m k) t (!k.testBit tl) :=
  idBits_of_testBit hm h (fun l => by
    rw [testBit_flip]
    by_cases hl : l = tl
    · subst hl; simp
    · simp [hl])

/-! ### Resolution of identifiers -/

theorem resolveIds_eq_ok {m : IMap ℕ} {ids locs : List ℕ} :
    resolveIds m ids = .ok locs ↔ List.Forall₂ (fun i l => m.get i = some l) ids locs := by
  induction ids generalizing locs with
  | nil =>
    simp only [resolveIds]
    constructor
    · intro h; cases h; exact .nil
    · intro h; cases h; rfl
  | cons i t ih =>
    simp only [resolveIds, resolveId]
    cases hg : m.get i with
    | none =>
      simp only [bind, Except.bind]
      constructor
      · intro h; cases h
      · intro h; cases h with | cons h1 _ => rw [hg] at h1; cases h1
    | some l =>
      cases hr : resolveIds m t with
      | error e =>
        simp only [bind, Except.bind]
        constructor
        · intro h; cases h
        · intro h
          cases h with
          | cons h1 h2 => rw [ih.2 h2] at hr; cases hr
      | ok rest =>
        simp only [bind, Except.bind, pure, Except.pure]
        constructor
        · intro h; cases h; exact .cons hg (ih.1 hr)
        · intro h
          cases h with
          | cons h1 h2 =>
            rw [hg] at h1; cases h1
            rw [ih.2 h2] at hr; cases hr; rfl

theorem resolveIds_ok {m : IMap ℕ} {ids : List ℕ} (h : Alloc m ids) :
    ∃ locs, resolveIds m ids = .ok locs := by
  induction ids with
  | nil => exact ⟨[], rfl⟩
  | cons i t ih =>
    obtain ⟨l, hl⟩ := Option.isSome_iff_exists.1 (h i (by simp))
    obtain ⟨rest, hr⟩ := ih (fun j hj => h j (by simp [hj]))
    exact ⟨l :: rest, by simp [resolveIds, resolveId, hl, hr, bind, Except.bind, pure, Except.pure]⟩

theorem alloc_of_forall₂ {m : IMap ℕ} {ids locs : List ℕ}
    (h : List.Forall₂ (fun i l => m.get i = some l) ids locs) : Alloc m ids := by
  induction h with
  | nil => intro i hi; simp at hi
  | cons h1 _ ih =>
    intro i hi
    rcases List.mem_cons.1 hi with rfl | hi
    · rw [h1]; rfl
    · exact ih i hi

/-- A gate's operands are distinct allocated qubits. -/
def OpndsOk (m : IMap ℕ) (ctls : List ℕ) (target : ℕ) : Prop :=
  (ctls ++ [target]).Nodup ∧ Alloc m (ctls ++ [target])

theorem resolveAndCheck_eq_ok {m : IMap ℕ} {target : ℕ} {ctls : List ℕ} {r : ℕ × List ℕ} :
    resolveAndCheck m target ctls = .ok r ↔
      (ctls ++ [target]).Nodup ∧ m.get target = some r.1 ∧
        List.Forall₂ (fun i l => m.get i = some l) ctls r.2 := by
  unfold resolveAndCheck checkForDuplicates resolveId
  by_cases hd : (ctls ++ [target]).Nodup
  · simp only [if_pos hd, hd, true_and, bind, Except.bind]
    cases hg : m.get target with
    | none =>
      constructor
      · intro h; cases h
      · rintro ⟨h, _⟩; cases h
    | some l =>
      simp only
      cases hr : resolveIds m ctls with
      | error e =>
        constructor
        · intro h; cases h
        · rintro ⟨_, h⟩; rw [resolveIds_eq_ok.2 h] at hr; cases hr
      | ok rest =>
        simp only [pure, Except.pure]
        constructor
        · intro h; cases h; exact ⟨rfl, resolveIds_eq_ok.1 hr⟩
        · rintro ⟨h1, h2⟩
          rw [resolveIds_eq_ok.2 h2] at hr; cases hr; cases h1; rfl
  · simp only [if_neg hd, hd, false_and, iff_false, bind, Except.bind]
    intro h; cases h

theorem resolveAndCheck_ok {m : IMap ℕ} {target : ℕ} {ctls : List ℕ} (h : OpndsOk m ctls target) :
    ∃ tl csl, resolveAndCheck m target ctls = .ok (tl, csl) ∧ m.get target = some tl ∧
      List.Forall₂ (fun i l => m.get i = some l) ctls csl := by
  obtain ⟨tl, ht⟩ := Option.isSome_iff_exists.1 (h.2 target (by simp))
  obtain ⟨csl, hc⟩ := resolveIds_ok (m := m) (ids := ctls) (fun i hi => h.2 i (by simp [hi]))
  exact ⟨tl, csl, resolveAndCheck_eq_ok.2 ⟨h.1, ht, resolveIds_eq_ok.1 hc⟩, ht, resolveIds_eq_ok.1 hc⟩

theorem opndsOk_of_resolve {m : IMap ℕ} {target : ℕ} {ctls : List ℕ} {r : ℕ × List ℕ}
    (h : resolveAndCheck m target ctls = .ok r) : OpndsOk m ctls target := by
  obtain ⟨h1, h2, h3⟩ := resolveAndCheck_eq_ok.1 h
  refine ⟨h1, ?_⟩
  intro i hi
  rcases List.mem_append.1 hi with hi | hi
  · exact alloc_of_forall₂ h3 i hi
  · simp at hi; subst hi; rw [h2]; rfl

theorem OpndsOk.not_mem {m : IMap ℕ} {ctls : List ℕ} {target : ℕ} (h : OpndsOk m ctls target) :
    target ∉ ctls := by
  have := h.1
  rw [List.nodup_append] at this
  intro hc
  exact this.2.2 target hc target (by simp) rfl

theorem all_ctls_iff {m : IMap ℕ} {ids locs : List ℕ}
    (h : List.Forall₂ (fun i l => m.get i = some l) ids locs) (k : ℕ) :
    (locs.all (fun c => k.testBit c) = true) ↔ ∀ c ∈ ids, idBits m k c = true := by
  induction h with
  | nil => simp
  | cons h1 _ ih =>
    rw [List.all_cons, Bool.and_eq_true, ih, List.forall_mem_cons, idBits_of h1]

theorem not_mem_locs {m : IMap ℕ} (hm : Inj m) {ids locs : List ℕ}
    (h : List.Forall₂ (fun i l => m.get i = some l) ids locs) {t tl : ℕ} (ht : m.get t = some tl)
    (hn : t ∉ ids) : tl ∉ locs := by
  induction h with
  | nil => simp
  | cons h1 _ ih =>
    simp only [List.mem_cons, not_or] at hn ⊢
    refine ⟨?_, ih hn.2⟩
    rintro rfl
    exact hn.1 (hm _ _ _ ht h1)

/-! ### Queued operations -/

/-- The matrix of a queued operation. -/
def opMat : OpCode → Mat2
  | .X => matX
  | .Y => matY
  | .Z => matZ
  | .S => matS
  | .Sadj => matSadj
  | .T => matT
  | .Tadj => matTadj
  | .Rz θ => matRz θ

/-- The operator of one queued operation. -/
def opL (op : List ℕ × ℕ × OpCode) : Module.End ℂ Wave := ctrlL op.1 (opMat op.2.2) op.2.1

/-- The operator of a queue: the first operation acts first. -/
def opsL (ops : List (List ℕ × ℕ × OpCode)) : Module.End ℂ Wave :=
  ops.foldl (fun A op => opL op * A) 1

theorem foldl_opL (ops : List (List ℕ × ℕ × OpCode)) (A : Module.End ℂ Wave) :
    ops.foldl (fun A op => opL op * A) A = opsL ops * A := by
  induction ops generalizing A with
  | nil => simp [opsL]
  | cons op ops ih =>
    have h1 : opsL (op :: ops) = opsL ops * (opL op * 1) := ih (opL op * 1)
    rw [List.foldl_cons, ih, h1, mul_one, mul_assoc]

@[simp] theorem opsL_nil : opsL [] = 1 := rfl
theorem opsL_cons (op : List ℕ × ℕ × OpCode) (ops : List (List ℕ × ℕ × OpCode)) :
    opsL (op :: ops) = opsL ops * opL op := by
  rw [opsL, List.foldl_cons, foldl_opL, mul_one]
theorem opsL_snoc (op : List ℕ × ℕ × OpCode) (ops : List (List ℕ × ℕ × OpCode)) :
    opsL (ops ++ [op]) = opL op * opsL ops := by simp [opsL, List.foldl_append]

theorem tPhase : (⟨fracSqrt2, fracSqrt2⟩ : ℂ) = Complex.exp (Complex.I * (Real.pi / 4)) := by
  rw [mul_comm, Complex.exp_mul_I]
  have h1 : Complex.cos ((Real.pi : ℂ) / 4) = ((Real.cos (Real.pi / 4) : ℝ) : ℂ) := by push_cast; rfl
  have h2 : Complex.sin ((Real.pi : ℂ) / 4) = ((Real.sin (Real.pi / 4) : ℝ) : ℂ) := by push_cast; rfl
  rw [h1, h2, Real.cos_pi_div_four, Real.sin_pi_div_four]
  have : fracSqrt2 = Real.sqrt 2 / 2 := by
    unfold fracSqrt2
    rw [div_eq_div_iff (by positivity) (by norm_num), Real.mul_self_sqrt (by norm_num)]; norm_num
  rw [this]
  apply Complex.ext <;> simp

theorem tadjPhase : (⟨fracSqrt2, -fracSqrt2⟩ : ℂ) = Complex.exp (-(Complex.I * (Real.pi / 4))) := by
  rw [← mul_neg, mul_comm, Complex.exp_mul_I]
  have h1 : Complex.cos (-((Real.pi : ℂ) / 4)) = ((Real.cos (Real.pi / 4) : ℝ) : ℂ) := by
    rw [Complex.cos_neg]; push_cast; rfl
  have h2 : Complex.sin (-((Real.pi : ℂ) / 4)) = ((-Real.sin (Real.pi / 4) : ℝ) : ℂ) := by
    rw [Complex.sin_neg]; push_cast; rfl
  rw [h1, h2, Real.cos_pi_div_four, Real.sin_pi_div_four]
  have : fracSqrt2 = Real.sqrt 2 / 2 := by
    unfold fracSqrt2
    rw [div_eq_div_iff (by positivity) (by norm_num), Real.mul_self_sqrt (by norm_num)]; norm_num
  rw [this]
  apply Complex.ext <;> simp

/-- Diagonal gates multiply a basis vector by a diagonal entry. -/
theorem ctrl_ket_diag {cs : List ℕ} {q : ℕ} (hq : q ∉ cs) (a d : ℂ) (b : Basis) :
    ctrl cs (mat a 0 0 d) q (ket b) =
      if ∀ c ∈ cs, b c = true then (if b q then d else a) • ket b else ket b := by
  rw [ctrl_ket hq]
  split
  · cases h : b q
    · have : update b q false = b := by rw [← h]; exact update_eq_self _ _
      simp [mat, this]
    · have : update b q true = b := by rw [← h]; exact update_eq_self _ _
      simp [mat, this]
  · rfl

theorem entryWave_smul (m : IMap ℕ) (k : ℕ) (v c : ℂ) :
    entryWave m (k, v * c) = v • (c • ket (idBits m k)) := by simp [entryWave, mul_smul]

theorem entryWave_phase {m : IMap ℕ} {cs csl : List ℕ} {t tl : ℕ}
    (hcs : List.Forall₂ (fun i l => m.get i = some l) cs csl) (ht : m.get t = some tl)
    (hn : t ∉ cs) (a d : ℂ) (e : ℕ × ℂ) :
    entryWave m (if csl.all (fun c => e.1.testBit c) then
        (e.1, e.2 * (if e.1.testBit tl then d else a)) else e) =
      ctrlL cs (mat a 0 0 d) t (entryWave m e) := by
  rw [show entryWave m e = e.2 • ket (idBits m e.1) from rfl, map_smul, ctrlL_apply,
    ctrl_ket_diag hn]
  by_cases h : csl.all (fun c => e.1.testBit c) = true
  · rw [if_pos h, if_pos ((all_ctls_iff hcs e.1).1 h), entryWave_smul, idBits_of ht]
  · rw [if_neg h, if_neg (fun h' => h ((all_ctls_iff hcs e.1).2 h'))]; rfl

theorem entryWave_applyOp {m : IMap ℕ} (hm : Inj m) {cs csl : List ℕ} {t tl : ℕ}
    (hcs : List.Forall₂ (fun i l => m.get i = some l) cs csl) (ht : m.get t = some tl)
    (hn : t ∉ cs) (op : OpCode) (e : ℕ × ℂ) :
    entryWave m (applyOp (csl, tl, op) e) = opL (cs, t, op) (entryWave m e) := by
  have hphase := fun φ => entryWave_phase hcs ht hn 1 φ e
  unfold opL
  cases op with
  | X =>
    simp only [opMat]
    rw [show entryWave m e = e.2 • ket (idBits m e.1) from rfl, map_smul, ctrlL_apply, ctrl_ket hn]
    unfold applyOp xTransform
    simp only
    by_cases h : csl.all (fun c => e.1.testBit c) = true
    · rw [if_pos h, if_pos ((all_ctls_iff hcs e.1).1 h)]
      simp only [entryWave, idBits_setBit hm ht, idBits_of ht]
      cases hb : e.1.testBit tl <;> simp [matX, mat]
    · rw [if_neg h, if_neg (fun h' => h ((all_ctls_iff hcs e.1).2 h'))]; rfl
  | Y =>
    simp only [opMat]
    rw [show entryWave m e = e.2 • ket (idBits m e.1) from rfl, map_smul, ctrlL_apply, ctrl_ket hn]
    unfold applyOp yTransform
    simp only
    by_cases h : csl.all (fun c => e.1.testBit c) = true
    · rw [if_pos h, if_pos ((all_ctls_iff hcs e.1).1 h)]
      simp only [entryWave, idBits_setBit hm ht, idBits_of ht, testBit_setBit]
      cases hb : e.1.testBit tl <;> simp [matY, mat, mul_smul]
    · rw [if_neg h, if_neg (fun h' => h ((all_ctls_iff hcs e.1).2 h'))]; rfl
  | Z => exact hphase (-1)
  | S => exact hphase _
  | Sadj => exact hphase _
  | T =>
    have := hphase (⟨fracSqrt2, fracSqrt2⟩)
    simp only [opMat, matT, matPhase, ← tPhase]
    exact this
  | Tadj =>
    have := hphase (⟨fracSqrt2, -fracSqrt2⟩)
    simp only [opMat, matTadj, matPhase, ← tadjPhase]
    exact this
  | Rz θ =>
    have := entryWave_phase hcs ht hn (Complex.exp (-(Complex.I * (θ / 2))))
      (Complex.exp (Complex.I * (θ / 2))) e
    simp only [opMat, matRz]
    rw [← this]
    have h1 : (⟨0, θ / 2 * (if e.1.testBit tl then (1 : ℝ) else -1)⟩ : ℂ)
        = if e.1.testBit tl then Complex.I * (θ / 2) else -(Complex.I * (θ / 2)) := by
      split
      · apply Complex.ext <;> simp
      · apply Complex.ext <;> simp
    unfold applyOp rzTransform
    simp only [h1]
    cases e.1.testBit tl <;> simp

theorem resolveOps_cons_ok {m : IMap ℕ} {op : List ℕ × ℕ × OpCode} {ops rops : List (List ℕ × ℕ × OpCode)}
    (h : resolveOps m (op :: ops) = .ok rops) :
    ∃ tl csl rest, rops = (csl, tl, op.2.2) :: rest ∧ resolveOps m ops = .ok rest ∧
      resolveAndCheck m op.2.1 op.1 = .ok (tl, csl) := by
  obtain ⟨c, t, o⟩ := op
  simp only [resolveOps, bind, Except.bind] at h
  cases hr : resolveAndCheck m t c with
  | error e => rw [hr] at h; cases h
  | ok r =>
    rw [hr] at h
    obtain ⟨tl, csl⟩ := r
    simp only at h
    cases hr2 : resolveOps m ops with
    | error e => rw [hr2] at h; cases h
    | ok rest =>
      rw [hr2] at h
      simp only [pure, Except.pure] at h
      cases h
      exact ⟨tl, csl, rest, rfl, rfl, rfl⟩

theorem resolveOps_ok {m : IMap ℕ} {ops : List (List ℕ × ℕ × OpCode)}
    (h : ∀ op ∈ ops, OpndsOk m op.1 op.2.1) : ∃ rops, resolveOps m ops = .ok rops := by
  induction ops with
  | nil => exact ⟨[], rfl⟩
  | cons op ops ih =>
    obtain ⟨rest, hr⟩ := ih (fun o ho => h o (by simp [ho]))
    obtain ⟨tl, csl, h1, _⟩ := resolveAndCheck_ok (h op (by simp))
    obtain ⟨c, t, o⟩ := op
    refine ⟨(csl, tl, o) :: rest, ?_⟩
    simp only [resolveOps, bind, Except.bind]
    rw [h1, hr]; rfl

theorem opnds_of_resolveOps {m : IMap ℕ} {ops rops : List (List ℕ × ℕ × OpCode)}
    (h : resolveOps m ops = .ok rops) : ∀ op ∈ ops, OpndsOk m op.1 op.2.1 := by
  induction ops generalizing rops with
  | nil => simp
  | cons op ops ih =>
    obtain ⟨tl, csl, rest, _, hr, h1⟩ := resolveOps_cons_ok h
    intro o ho
    rcases List.mem_cons.1 ho with rfl | ho
    · exact opndsOk_of_resolve h1
    · exact ih hr o ho

theorem entryWave_applyOps {m : IMap ℕ} (hm : Inj m) {ops rops : List (List ℕ × ℕ × OpCode)}
    (h : resolveOps m ops = .ok rops) (e : ℕ × ℂ) :
    entryWave m (applyOps rops e) = opsL ops (entryWave m e) := by
  induction ops generalizing rops e with
  | nil => simp [resolveOps] at h; subst h; simp [applyOps]
  | cons op ops ih =>
    obtain ⟨tl, csl, rest, rfl, hr, h1⟩ := resolveOps_cons_ok h
    obtain ⟨h2, h3, h4⟩ := resolveAndCheck_eq_ok.1 h1
    rw [applyOps, List.foldl_cons, opsL_cons, Module.End.mul_apply]
    rw [← entryWave_applyOp hm h4 h3 (opndsOk_of_resolve h1).not_mem]
    exact ih hr _

theorem view_applyOps {m : IMap ℕ} (hm : Inj m) {ops rops : List (List ℕ × ℕ × OpCode)}
    (h : resolveOps m ops = .ok rops) (st : List (ℕ × ℂ)) :
    view m (st.map (applyOps rops)) = opsL ops (view m st) :=
  view_map_of (fun e _ => entryWave_applyOps hm h e)

/-! ### Effect of queued operations on indices -/

/-- How an operation changes an index. -/
def opKey (op : List ℕ × ℕ × OpCode) (k : ℕ) : ℕ := (applyOp op (k, 0)).1

theorem applyOp_fst (op : List ℕ × ℕ × OpCode) (e : ℕ × ℂ) : (applyOp op e).1 = opKey op e.1 := by
  unfold opKey applyOp
  simp only
  split
  · cases op.2.2 <;> rfl
  · rfl

theorem testBit_opKey (op : List ℕ × ℕ × OpCode) (k l : ℕ) :
    (opKey op k).testBit l = k.testBit l ∨ l = op.2.1 := by
  unfold opKey applyOp
  simp only
  by_cases hl : l = op.2.1
  · right; exact hl
  · left
    split
    · cases op.2.2 <;>
        simp [xTransform, yTransform, zTransform, sTransform, sadjTransform, tTransform,
          tadjTransform, rzTransform, phaseTransform, testBit_setBit, hl]
    · rfl

theorem all_congr_testBit {cs : List ℕ} {k k' : ℕ} (h : ∀ c ∈ cs, k'.testBit c = k.testBit c) :
    (cs.all fun c => k'.testBit c) = cs.all fun c => k.testBit c := by
  induction cs with
  | nil => rfl
  | cons c cs ih =>
    rw [List.all_cons, List.all_cons, h c (by simp), ih (fun c' hc' => h c' (by simp [hc']))]

theorem opKey_invol {cs : List ℕ} {t : ℕ} (ht : t ∉ cs) (op : OpCode) (k : ℕ) :
    opKey (cs, t, op) (opKey (cs, t, op) k) = k := by
  have hall : ∀ v, (cs.all fun c => (setBit k t v).testBit c) = cs.all fun c => k.testBit c := by
    intro v
    apply all_congr_testBit
    intro c hc
    rw [testBit_setBit, if_neg (by rintro rfl; exact ht hc)]
  unfold opKey applyOp
  simp only
  cases h : cs.all fun c => k.testBit c
  · simp [h]
  · cases op <;>
      simp only [xTransform, yTransform, zTransform, sTransform, sadjTransform, tTransform,
          tadjTransform, rzTransform, phaseTransform, if_true, h, hall]
    · apply Nat.eq_of_testBit_eq; intro l; simp only [testBit_setBit]; split
      · rename_i h2; subst h2; simp
      · rfl
    · apply Nat.eq_of_testBit_eq; intro l; simp only [testBit_setBit]; split
      · rename_i h2; subst h2; simp
      · rfl

theorem opKey_inj {cs : List ℕ} {t : ℕ} (ht : t ∉ cs) (op : OpCode) :
    Function.Injective (opKey (cs, t, op)) :=
  Function.LeftInverse.injective (g := opKey (cs, t, op)) (opKey_invol ht op)

/-- How a list of operations changes an index. -/
def opsKey (ops : List (List ℕ × ℕ × OpCode)) (k : ℕ) : ℕ := ops.foldl (fun k op => opKey op k) k

theorem applyOps_fst (ops : List (List ℕ × ℕ × OpCode)) (e : ℕ × ℂ) :
    (applyOps ops e).1 = opsKey ops e.1 := by
  induction ops generalizing e with
  | nil => rfl
  | cons op ops ih =>
    have := ih (applyOp op e)
    rw [applyOp_fst] at this
    exact this

theorem opsKey_inj {m : IMap ℕ} (hm : Inj m) {ops rops : List (List ℕ × ℕ × OpCode)}
    (h : resolveOps m ops = .ok rops) : Function.Injective (opsKey rops) := by
  induction ops generalizing rops with
  | nil => simp [resolveOps] at h; subst h; exact fun _ _ h => h
  | cons op ops ih =>
    obtain ⟨tl, csl, rest, rfl, hr, h1⟩ := resolveOps_cons_ok h
    obtain ⟨h2, h3, h4⟩ := resolveAndCheck_eq_ok.1 h1
    intro a b hab
    have := ih hr hab
    exact opKey_inj (not_mem_locs hm h4 h3 (opndsOk_of_resolve h1).not_mem) _ this

theorem opsKey_bitsIn {m : IMap ℕ} {ops rops : List (List ℕ × ℕ × OpCode)}
    (h : resolveOps m ops = .ok rops) {k : ℕ} (hk : BitsIn m k) : BitsIn m (opsKey rops k) := by
  induction ops generalizing rops k with
  | nil => simp [resolveOps] at h; subst h; exact hk
  | cons op ops ih =>
    obtain ⟨tl, csl, rest, rfl, hr, h1⟩ := resolveOps_cons_ok h
    obtain ⟨h2, h3, h4⟩ := resolveAndCheck_eq_ok.1 h1
    apply ih hr
    intro l hl
    rcases testBit_opKey (csl, tl, op.2.2) k l with h5 | h5
    · rw [h5] at hl; exact hk l hl
    · exact ⟨op.2.1, by rw [h5]; exact h3⟩

end Qir
