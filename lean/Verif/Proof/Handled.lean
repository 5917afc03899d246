import Verif.Props.HandledDefs
import Verif.Proof.Rewrite

/-!
# Dynamic allocation
-/

noncomputable section
namespace Qir.Back.Arr
open Spec Sim Qir.Out Run

variable {σ : Equiv.Perm ℕ}

/-! ### Calls -/

theorem onQubits_congr {f g : ℕ → ℕ} {c : QCall} (h : ∀ q ∈ named c, f q = g q) : onQubits f c = onQubits g c := by
  have hl : ∀ l : List ℕ, (∀ q ∈ l, f q = g q) → l.map f = l.map g := fun l hl => List.map_congr_left hl
  cases c with
  | gate | sx | r | rAdj | reset | mresetz | mz | m | isZero | release =>
    simp only [onQubits, h _ (List.mem_singleton.2 rfl)]
  | ctl g' cs q | rCtl cs p θ q | rCtlAdj cs p θ q =>
    simp only [onQubits, hl cs fun q' hq => h q' (List.mem_append_left _ hq), h q (by simp [named])]
  | rxx θ a b | ryy θ a b | rzz θ a b | swap a b =>
    simp only [onQubits, h a (by simp [named]), h b (by simp [named])]
  | exp ps θ qs => exact congrArg (QCall.exp ps θ) (hl qs h)
  | expAdj ps θ qs => exact congrArg (QCall.expAdj ps θ) (hl qs h)
  | measure ps qs => exact congrArg (QCall.measure ps) (hl qs h)
  | assertProb ps qs result prob msg tol =>
    exact congrArg (fun qs => QCall.assertProb ps qs result prob msg tol) (hl qs h)
  | expCtl cs ps θ qs | expCtlAdj cs ps θ qs =>
    simp only [onQubits, hl cs fun q' hq => h q' (List.mem_append_left _ hq),
      hl qs fun q' hq => h q' (List.mem_append_right _ hq)]
  | _ => rfl

theorem uses_named (c : QCall) : ∀ q ∈ c.uses, q ∈ named c := by
  intro q hq
  cases c with
  | r p θ q' | rAdj p θ q' =>
    simp only [QCall.uses] at hq
    split at hq
    · cases hq
    · exact hq
  | rCtl cs p θ q' | rCtlAdj cs p θ q' =>
    simp only [QCall.uses] at hq
    split at hq
    · cases hq
    · simpa [named, or_comm] using hq
  | ctl g cs q' => simpa [named, QCall.uses, or_comm] using hq
  | measure ps qs | assertProb ps qs result prob msg tol =>
    simp only [QCall.uses, List.mem_map] at hq
    obtain ⟨p, hp, rfl⟩ := hq
    exact (zip_sublist ps qs).subset (List.mem_map_of_mem (List.mem_of_mem_filter hp))
  | _ => first | exact hq | cases hq

theorem named_onQubits (f : ℕ → ℕ) (c : QCall) : named (onQubits f c) = (named c).map f := by
  cases c <;> simp [named, onQubits]

theorem movable_onQubits {f : ℕ → ℕ} {c : QCall} (h : Movable c) : Movable (onQubits f c) := by
  cases c with
  | measure ps qs => exact (show ps.length = qs.length from h).trans (List.length_map f).symm
  | _ => first | exact h.elim | trivial

theorem movable_static {c : QCall} (h : Movable c) : c.Static := by
  cases c <;> first | exact h.elim | trivial

theorem movable_determined {c : QCall} (h : Movable c) : c.Determined := by
  cases c <;> first | exact h.elim | trivial

theorem distinct_onQubits (σ : Equiv.Perm ℕ) {c : QCall} (h : c.Distinct) : (onQubits σ c).Distinct := by
  have hn : ∀ l : List ℕ, l.Nodup → (l.map σ).Nodup := fun l hl => hl.map σ.injective
  cases c with
  | ctl g cs q => simpa [onQubits, QCall.Distinct] using hn _ h
  | rxx θ a b | ryy θ a b | rzz θ a b => exact fun e => h (σ.injective e)
  | rCtl cs P θ q | rCtlAdj cs P θ q => simpa [onQubits, QCall.Distinct] using hn _ h
  | exp ps θ qs | expAdj ps θ qs => exact ⟨hn _ h.1, by rw [List.length_map]; exact h.2⟩
  | expCtl cs ps θ qs | expCtlAdj cs ps θ qs =>
    refine ⟨?_, by rw [List.length_map]; exact h.2⟩
    rw [← List.map_append]
    exact hn _ h.1
  | measure ps qs | assertProb ps qs result prob msg tol =>
    show ((support ps (qs.map σ)).map Prod.snd).Nodup
    have := hn _ h
    rw [List.map_map] at this
    rw [support_moved, moved, List.map_map]
    exact this
  | _ => exact h

/-- A call on qubits in use makes sense. -/
theorem valid_live {δ : Device} {c : QCall} (hm : Movable c) (hd : c.Distinct) (h : ∀ q ∈ named c, q ∈ δ.live) :
    δ.Valid c := by
  have hu : ∀ q ∈ named c, δ.Usable q := fun q hq => .inl (h q hq)
  cases c with
  | gate | sx | reset | mresetz | mz | m => exact hu _ (List.mem_singleton.2 rfl)
  | r p θ q | rAdj p θ q => exact .inr (hu _ (List.mem_singleton.2 rfl))
  | ctl g cs q | rCtl cs P θ q | rCtlAdj cs P θ q => exact ⟨hd, hu⟩
  | rxx θ a b | ryy θ a b | rzz θ a b => exact ⟨hd, hu _ (by simp [named]), hu _ (by simp [named])⟩
  | swap a b => exact ⟨hu _ (by simp [named]), hu _ (by simp [named])⟩
  | exp ps θ qs | expAdj ps θ qs => exact ⟨hd.1, hu, hd.2⟩
  | expCtl cs ps θ qs | expCtlAdj cs ps θ qs => exact ⟨hd.1, hu, hd.2⟩
  | measure ps qs => exact ⟨hd, fun q hq => hu q (uses_named (.measure ps qs) q hq)⟩
  | isZero | assertProb | release | dump => exact hm.elim
  | _ => trivial

theorem useAll_live {δ : Device} {qs : List ℕ} (h : ∀ q ∈ qs, q < δ.high) : δ.useAll qs = δ := by
  induction qs with
  | nil => rfl
  | cons q qs ih =>
    rw [useAll_cons, show δ.use q = δ from if_pos (h q (by simp))]
    exact ih fun q hq => h q (by simp [hq])

theorem step_live {δ δ' : Device} {c : QCall} (hm : Movable c) {a : QAns} {es : List Event}
    (hs : δ.step c = .ok (a, es, δ')) : δ'.live = (δ.useAll c.uses).live ∧ δ'.high = (δ.useAll c.uses).high := by
  cases c with
  | measure ps qs =>
    simp only [Device.step, if_pos (show _ = _ from hm)] at hs
    cases hs
    exact ⟨rfl, rfl⟩
  | isZero | assertProb | allocate | release | fail | dump | reinit | drawInt | drawDouble => exact hm.elim
  | _ => cases hs; exact ⟨rfl, rfl⟩

/-! ### Qubits that are zero -/

/-- All qubits but those of `H` are zero. -/
def Clean (H : Finset ℕ) (ψ : Wave) : Prop := ∀ b, ψ b ≠ 0 → ∀ q, b q = true → q ∈ H

theorem clean_iff {H : Finset ℕ} {ψ : Wave} : Clean H ψ ↔ ∀ q ∉ H, gateL ones q ψ = 0 := by
  constructor
  · intro h q hq
    funext b
    rw [ones_apply]
    split
    · rename_i hb
      by_contra h0
      exact hq (h b h0 q hb)
    · rfl
  · intro h b hb q hq
    by_contra hn
    have := congrFun (h q hn) b
    rw [ones_apply, if_pos hq] at this
    exact hb this

theorem Clean.within {H : Finset ℕ} {ψ : Wave} (h : Clean H ψ) {A : List ℕ} (hA : ∀ q ∈ A, q ∈ H)
    {F : Module.End ℂ Wave} (hF : F ∈ OnQubits A) : Clean H (F ψ) := by
  rw [clean_iff] at h ⊢
  intro q hq
  have hdis : List.Disjoint A [q] := by
    intro x hx hx'
    rw [List.mem_singleton] at hx'
    exact hq (hx' ▸ hA x hx)
  have hc := OnQubits.commute hdis hF (gate_within (List.mem_singleton.2 rfl) ones)
  have := LinearMap.congr_fun hc.eq ψ
  rw [Module.End.mul_apply, Module.End.mul_apply] at this
  rw [← this, h q hq, map_zero]

theorem Clean.smul {H : Finset ℕ} {ψ : Wave} (h : Clean H ψ) (c : ℂ) : Clean H (c • ψ) :=
  fun b hb => h b fun h0 => hb (by rw [Pi.smul_apply, h0, smul_zero])

theorem Clean.next {H : Finset ℕ} {δ : Device} (h : Clean H δ.psi) {c : QCall} (hm : Movable c)
    (hc : ∀ q ∈ c.uses, q ∈ H) (v : Bool) : Clean H (next c v δ).psi := by
  show Clean H ((1 / Real.sqrt (weight c v δ) : ℝ) • kraus c v δ.psi)
  rw [real_smul_wave]
  exact (h.within hc (kraus_within hm v)).smul _

theorem proj_Z (q : ℕ) (v : Bool) (ψ : Wave) (b : Basis) :
    pauliProjL [(.Z, q)] v ψ b = if b q = v then ψ b else 0 := by
  rw [pauliProjL_apply]
  have h : pauliString [(.Z, q)] ψ b = if b q then -ψ b else ψ b := by
    show Spec.ctrl [] matZ q ψ b = _
    rw [← ctrlL_apply]
    show gateL matZ q ψ b = _
    rw [gateL_apply_apply]
    have hb : Function.update b q (b q) = b := Function.update_eq_self _ _
    cases hq : b q <;> rw [hq] at hb <;> simp [matZ, mat, hb]
  show (1 / 2 : ℂ) * (ψ b + (if v then (-1 : ℂ) else 1) * pauliString [(.Z, q)] ψ b) = _
  rw [h]
  cases v <;> cases b q <;> simp <;> ring

/-- A qubit that has been reset is zero. -/
theorem Clean.reset {H : Finset ℕ} {δ : Device} (h : Clean H δ.psi) {q : ℕ} (hq : q ∈ H) (v : Bool) :
    Clean (H.erase q) (Arr.next (.reset q) v δ).psi := by
  have hn := h.next (c := .reset q) trivial (by simpa [QCall.uses] using hq) v
  intro b hb r hr
  refine Finset.mem_erase.2 ⟨?_, hn b hb r hr⟩
  rintro rfl
  apply hb
  show ((1 / Real.sqrt (weight (.reset r) v δ) : ℝ) • kraus (.reset r) v δ.psi) b = 0
  rw [real_smul_wave, Pi.smul_apply]
  have : kraus (.reset r) v δ.psi b = 0 := by
    show (if v then gateL matX r else 1) (pauliProjL [(.Z, r)] v δ.psi) b = 0
    cases v
    · rw [if_neg (by simp), Module.End.one_apply, proj_Z, if_neg (by simp [hr])]
    · rw [if_pos rfl, gateL_apply_apply]
      simp [matX, mat, hr, proj_Z]
  rw [this, smul_zero]

/-- When all qubits are zero there is nothing but a phase. -/
theorem Clean.phase {ψ : Wave} (h : Clean ∅ ψ) (hf : Fit ψ) : ∃ c : ℂ, Complex.normSq c = 1 ∧ ψ = c • Spec.ket zeroBasis := by
  have he : ψ = ψ zeroBasis • Spec.ket zeroBasis := by
    funext b
    by_cases hb : b = zeroBasis
    · subst hb
      rw [Pi.smul_apply, Spec.ket, if_pos rfl, smul_eq_mul, mul_one]
    · have h0 : ψ b = 0 := by
        by_contra h0
        apply hb
        funext q
        by_contra hq
        have : b q = true := by simpa [zeroBasis] using hq
        simpa using h b h0 q this
      rw [Pi.smul_apply, h0, Spec.ket, if_neg hb, smul_zero]
  refine ⟨_, ?_, he⟩
  have hn := hf.norm
  rw [he, normSq_smul, normSq_ket, mul_one] at hn
  exact hn

/-- Qubits that are zero may be renamed. -/
theorem relabel_congr {H : Finset ℕ} {ψ : Wave} (h : Clean H ψ) {τ : Equiv.Perm ℕ} (ht : ∀ q ∈ H, τ q = σ q) :
    relabel τ ψ = relabel σ ψ := by
  have key : ∀ (σ τ : Equiv.Perm ℕ), (∀ q ∈ H, τ q = σ q) → ∀ b : Basis, ψ (fun q => b (σ q)) ≠ 0 →
      (fun q => b (τ q)) = fun q => b (σ q) := by
    intro σ τ ht b hb
    funext q
    by_cases hq : q ∈ H
    · rw [ht q hq]
    · have h1 : b (σ q) = false := by
        by_contra h1
        exact hq (h _ hb q (by simpa using h1))
      rw [h1]
      by_contra h2
      have h3 := h _ hb (σ.symm (τ q)) (by simpa using h2)
      have h4 := ht _ h3
      rw [Equiv.apply_symm_apply] at h4
      have := τ.injective h4
      rw [this] at h3
      exact hq h3
  funext b
  unfold relabel
  by_cases h1 : ψ (fun q => b (σ q)) = 0
  · by_cases h2 : ψ (fun q => b (τ q)) = 0
    · rw [h1, h2]
    · rw [key τ σ (fun q hq => (ht q hq).symm) b h2]
  · rw [key σ τ ht b h1]

theorem fresh_not_live (δ : Device) : δ.fresh ∉ δ.live :=
  Nat.sInf_mem (s := {n | n ∉ δ.live}) ⟨_, Infinite.exists_notMem_finset δ.live |>.choose_spec⟩

/-! ### The names -/

/-- The handles held are names for different qubits, which are those in use. -/
structure Held (f : ℕ → ℕ) (H : Finset ℕ) (n : ℕ) (δ : Device) (σ : Equiv.Perm ℕ) : Prop where
  names : ∀ h ∈ H, σ h = f h
  live : δ.live = H.image f
  high : ∀ q ∈ δ.live, q < δ.high
  below : ∀ h ∈ H, h < n

variable {f : ℕ → ℕ} {H : Finset ℕ} {n : ℕ} {δ δ' : Device}

/-- The names after another allocation. -/
def given (σ : Equiv.Perm ℕ) (n q : ℕ) : Equiv.Perm ℕ := σ.trans (Equiv.swap (σ n) q)

theorem Held.agree (h : Held f H n δ σ) {q : ℕ} (hq : q ∉ δ.live) : ∀ h ∈ H, given σ n q h = σ h := by
  intro x hx
  refine Equiv.swap_apply_of_ne_of_ne ?_ ?_
  · intro e
    have := σ.injective e
    exact absurd (h.below x hx) (by omega)
  · rintro rfl
    apply hq
    rw [h.live, h.names x hx]
    exact Finset.mem_image_of_mem f hx

theorem Held.allocate (h : Held f H n δ σ) : Held (Function.update f n δ.fresh) (insert n H) (n + 1)
    { δ with live := insert δ.fresh δ.live, high := max δ.high (δ.fresh + 1) } (given σ n δ.fresh) := by
  have hn : n ∉ H := fun hn => absurd (h.below n hn) (by omega)
  have hu : ∀ x ∈ H, Function.update f n δ.fresh x = f x := fun x hx =>
    Function.update_of_ne (by rintro rfl; exact hn hx) _ _
  refine ⟨?_, ?_, ?_, ?_⟩
  · intro x hx
    rcases Finset.mem_insert.1 hx with rfl | hx
    · rw [Function.update_self]
      exact Equiv.swap_apply_left _ _
    · rw [h.agree (fresh_not_live δ) x hx, hu x hx, h.names x hx]
  · show insert δ.fresh δ.live = _
    rw [Finset.image_insert, Function.update_self, Finset.image_congr (g := f) (fun x hx => hu x hx), h.live]
  · intro q hq
    show q < max δ.high (δ.fresh + 1)
    rcases Finset.mem_insert.1 hq with rfl | hq
    · omega
    · have := h.high q hq
      omega
  · intro x hx
    rcases Finset.mem_insert.1 hx with rfl | hx
    · omega
    · have := h.below x hx
      omega

theorem Held.release (h : Held f H n δ σ) {x : ℕ} (hx : x ∈ H) {δ' : Device} (hl : δ'.live = δ.live.erase (f x))
    (hh : δ'.high = δ.high) : Held f (H.erase x) n δ' σ := by
  refine ⟨fun y hy => h.names y (Finset.mem_of_mem_erase hy), ?_, ?_, fun y hy => h.below y (Finset.mem_of_mem_erase hy)⟩
  · rw [hl, h.live]
    ext q
    simp only [Finset.mem_erase, Finset.mem_image]
    constructor
    · rintro ⟨hq, y, hy, rfl⟩
      exact ⟨y, ⟨fun e => hq (by rw [e]), hy⟩, rfl⟩
    · rintro ⟨y, ⟨hy, hyH⟩, rfl⟩
      refine ⟨?_, y, hyH, rfl⟩
      rw [← h.names y hyH, ← h.names x hx]
      exact fun e => hy (σ.injective e)
  · intro q hq
    rw [hh]
    rw [hl] at hq
    exact h.high q (Finset.mem_of_mem_erase hq)

theorem Held.same (h : Held f H n δ σ) {δ' : Device} (hl : δ'.live = δ.live) (hh : δ'.high = δ.high) :
    Held f H n δ' σ := ⟨h.names, hl.trans h.live, by rw [hl, hh]; exact h.high, h.below⟩

theorem Held.names_live (h : Held f H n δ σ) {c : QCall} (hc : ∀ q ∈ named c, q ∈ H) :
    ∀ q ∈ named (onQubits f c), q ∈ δ.live := by
  rw [named_onQubits, h.live]
  intro q hq
  obtain ⟨y, hy, rfl⟩ := List.mem_map.1 hq
  exact Finset.mem_image_of_mem f (hc y hy)

theorem Held.used (h : Held f H n δ σ) {c : QCall} (hc : ∀ q ∈ named c, q ∈ H) :
    δ.useAll (onQubits f c).uses = δ :=
  useAll_live fun q hq => h.high q (h.names_live hc q (uses_named _ q hq))

theorem Held.call_eq (h : Held f H n δ σ) {c : QCall} (hc : ∀ q ∈ named c, q ∈ H) :
    onQubits f c = onQubits σ c := onQubits_congr fun q hq => (h.names q (hc q hq)).symm

/-- The program with dynamic allocation makes sense. -/
theorem dynamic_meaningful {p : Handled} : ∀ {f : ℕ → ℕ} {H : Finset ℕ} {n : ℕ} {δ : Device} {σ : Equiv.Perm ℕ},
    p.Scoped H n → Held f H n δ σ → Meaningful (p.dynamic f n) δ := by
  induction p with
  | done => intros; trivial
  | allocate k ih =>
    intro f H n δ σ hp h
    refine ⟨trivial, trivial, fun a es δ' hs => ?_⟩
    cases hs
    exact ih hp h.allocate
  | release x k ih =>
    intro f H n δ σ hp h
    refine ⟨?_, trivial, fun a es δ' hs => ?_⟩
    · show f x ∈ δ.live
      rw [h.live]
      exact Finset.mem_image_of_mem f hp.1
    · have hu : δ.useAll [f x] = δ := useAll_live fun q hq => h.high q (by
        rw [List.mem_singleton.1 hq, h.live]
        exact Finset.mem_image_of_mem f hp.1)
      simp only [Device.step] at hs
      split at hs
      · rename_i hl
        cases hs
        refine ih hp.2 (h.release hp.1 ?_ rfl)
        rw [hl]
        simp
      · cases hs
        refine ih hp.2 (h.release hp.1 rfl ?_)
        exact show (δ.useAll [f x]).high = δ.high by rw [hu]
  | call c k ih =>
    intro f H n δ σ hp h
    obtain ⟨hm, hd, hc, hk⟩ := hp
    refine ⟨valid_live (movable_onQubits hm) ?_ (h.names_live hc), movable_determined (movable_onQubits hm), fun a es δ' hs => ?_⟩
    · rw [h.call_eq hc]
      exact distinct_onQubits σ hd
    · obtain ⟨h1, h2⟩ := step_live (movable_onQubits hm) hs
      rw [h.used hc] at h1 h2
      exact ih a (hk a) (h.same h1 h2)

/-! ### The probabilities -/

theorem Alike.arm (h : Alike σ δ δ') (hf : Fit δ.psi) (hf' : Fit δ'.psi) {c : QCall} (hm : Movable c) (hd : c.Distinct)
    (v : Bool) : weight (onQubits σ c) v δ' = weight c v δ ∧ (weight c v δ ≠ 0 →
      reply (onQubits σ c) v δ' = reply c v δ ∧ noted (onQubits σ c) δ' = noted c δ ∧
        Alike σ (next c v δ) (next (onQubits σ c) v δ')) := by
  have hs := movable_static hm
  have hm' := movable_onQubits (f := σ) hm
  have hd' := distinct_onQubits σ hd
  have hq := Alike.measures (σ := σ) (δ := δ) (δ' := δ') hs
  cases h1 : Back.measures δ c with
  | some ps =>
    rw [h1] at hq
    obtain ⟨a1, a2, a3⟩ := arm_measures hm hf h1 v
    obtain ⟨b1, b2, b3⟩ := arm_measures hm' hf' hq v
    refine ⟨by rw [a2, b2, h.psi.prob], fun _ => ?_⟩
    have := h.finding hs v
    rw [a1, b1] at this
    exact ⟨this.1, by rw [a3, b3], this.2⟩
  | none =>
    rw [h1] at hq
    obtain ⟨a1, a2, a3⟩ := arm_calm hm hd hf h1
    obtain ⟨b1, b2, b3⟩ := arm_calm hm' hd' hf' hq
    cases v
    · exact ⟨by rw [a3, b3], fun h0 => absurd a3 h0⟩
    · refine ⟨by rw [a2, b2], fun _ => ?_⟩
      have := h.step hs
      unfold stepped at this
      rw [a1, b1] at this
      obtain ⟨e, hd⟩ := this
      exact ⟨congrArg Prod.fst e, congrArg Prod.snd e, hd⟩

/-- The two devices. -/
structure Paired (f : ℕ → ℕ) (H : Finset ℕ) (n : ℕ) (δ δ' : Device) (σ : Equiv.Perm ℕ) : Prop where
  held : Held f H n δ' σ
  alike : Alike σ δ δ'
  fit : Fit δ.psi
  fit' : Fit δ'.psi
  clean : Clean H δ.psi

theorem chance_dynamic {p : Handled} : ∀ {f : ℕ → ℕ} {H : Finset ℕ} {n : ℕ} {δ δ' : Device} {σ : Equiv.Perm ℕ},
    p.Scoped H n → Paired f H n δ δ' σ → ∀ S, chance (p.dynamic f n) δ' S = chance p.static δ S := by
  induction p with
  | done => intros; rfl
  | allocate k ih =>
    intro f H n δ δ' σ hp h S
    refine ih hp ⟨h.held.allocate, ⟨?_, h.alike.rng, h.alike.reg, h.alike.touched⟩, h.fit, h.fit',
      fun b hb q hq => Finset.mem_insert_of_mem (h.clean b hb q hq)⟩ S
    obtain ⟨c, hc, e⟩ := h.alike.psi
    refine ⟨c, hc, ?_⟩
    rw [relabel_congr h.clean (h.held.agree (fresh_not_live δ'))]
    exact e
  | release x k ih =>
    intro f H n δ δ' σ hp h S
    have hx : f x = σ x := (h.held.names x hp.1).symm
    have hu : δ'.useAll [f x] = δ' := useAll_live fun q hq => h.held.high q (by
        rw [List.mem_singleton.1 hq, h.held.live]
        exact Finset.mem_image_of_mem f hp.1)
    show chance (.call (.release (f x)) fun _ => k.dynamic f n) δ' S = chance (.call (.reset x) fun _ => k.static) δ S
    have hr := chance_arm (c := .reset x) trivial trivial h.fit (fun _ => k.static) S
    have hw := weight_add (c := .reset x) trivial trivial h.fit
    by_cases hl : δ'.live = {f x}
    · have hk : ∀ v, weight (.reset x) v δ ≠ 0 → chance k.static (next (.reset x) v δ) S =
          chance (k.dynamic f n) { δ' with live := ∅, psi := ket zeroBasis } S := by
        intro v hv
        have hH : H.erase x = ∅ := by
          have := h.held.release hp.1 (δ' := { δ' with live := ∅, psi := ket zeroBasis }) (by rw [hl]; simp) rfl
          have h2 := this.live.symm
          exact Finset.image_eq_empty.1 h2
        have hc := h.clean.reset hp.1 v
        rw [hH] at hc
        have hf := fit_next (c := .reset x) trivial h.fit hv
        obtain ⟨c, hc1, he⟩ := hc.phase hf
        refine (ih (σ := σ) (δ' := { δ' with live := ∅, psi := ket zeroBasis }) hp.2
          ⟨h.held.release hp.1 (by rw [hl]; simp) rfl, ⟨?_, ?_, ?_, ?_⟩, hf, Fit.ket _, ?_⟩ S).symm
        · refine ⟨c⁻¹, by rw [map_inv₀, hc1, inv_one], ?_⟩
          have h0 : c ≠ 0 := by
            rintro rfl
            simp at hc1
          rw [he, relabel_smul, relabel_ket, smul_smul, inv_mul_cancel₀ h0, one_smul]
        · rw [h.alike.rng]
          exact (useAll_rng _ _).symm
        · exact h.alike.reg
        · exact h.alike.touched
        · rw [hH]; exact hc
      have hd : chance (.call (.release (f x)) fun _ => k.dynamic f n) δ' S =
          chance (k.dynamic f n) { δ' with live := ∅, psi := ket zeroBasis } S := by
        rw [chance]
        simp only [measures, if_pos hl, Device.step]
        rfl
      rw [hd, hr]
      have hk' : ∀ v, weight (.reset x) v δ * chance k.static (next (.reset x) v δ) S =
          weight (.reset x) v δ * chance (k.dynamic f n) { δ' with live := ∅, psi := ket zeroBasis } S := by
        intro v
        by_cases hv : weight (.reset x) v δ = 0
        · rw [hv, zero_mul, zero_mul]
        · rw [hk v hv]
      refine Eq.trans ?_ (congrArg₂ (· + ·) (hk' true) (hk' false)).symm
      rw [← add_mul, hw, one_mul]
    · have hd : chance (.call (.release (f x)) fun _ => k.dynamic f n) δ' S =
          weight (.reset (f x)) true δ' * chance (k.dynamic f n)
            { next (.reset (f x)) true δ' with live := δ'.live.erase (f x) } S +
          weight (.reset (f x)) false δ' * chance (k.dynamic f n)
            { next (.reset (f x)) false δ' with live := δ'.live.erase (f x) } S := by
        have a := fun v => arm_measures (c := .reset (f x)) (δ := δ') (ps := [(.Z, f x)]) trivial h.fit' rfl v
        have a1 : ∀ v, (found [(.Z, f x)] v δ').clear v (f x) = next (.reset (f x)) v δ' := fun v =>
          congrArg Prod.snd (a v).1
        rw [(a true).2.1, (a false).2.1, ← a1, ← a1, chance]
        simp only [measures, if_neg hl]
        rfl
      rw [hd, hr]
      have hk : ∀ v, weight (.reset (f x)) v δ' * chance (k.dynamic f n)
            { next (.reset (f x)) v δ' with live := δ'.live.erase (f x) } S =
          weight (.reset x) v δ * chance k.static (next (.reset x) v δ) S := by
        intro v
        have ha := h.alike.arm h.fit h.fit' (c := .reset x) trivial trivial v
        rw [show onQubits σ (.reset x) = .reset (f x) by rw [hx]; rfl] at ha
        rw [ha.1]
        by_cases hv : weight (.reset x) v δ = 0
        · rw [hv, zero_mul, zero_mul]
        · have hv' : weight (.reset (f x)) v δ' ≠ 0 := by rw [ha.1]; exact hv
          have hal := (ha.2 hv).2.2
          rw [ih (δ' := { next (.reset (f x)) v δ' with live := δ'.live.erase (f x) }) hp.2
            ⟨h.held.release hp.1 rfl (show (δ'.useAll [f x]).high = δ'.high by rw [hu]), ⟨hal.psi, hal.rng, hal.reg, hal.touched⟩,
            fit_next (c := .reset x) trivial h.fit hv, fit_next (c := .reset (f x)) trivial h.fit' hv',
            h.clean.reset hp.1 v⟩ S]
      exact congrArg₂ (· + ·) (hk true) (hk false)
  | call c k ih =>
    intro f H n δ δ' σ hp h S
    obtain ⟨hm, hd, hc, hk⟩ := hp
    have e := h.held.call_eq hc
    have hm' : Movable (onQubits f c) := movable_onQubits hm
    have hd' : (onQubits f c).Distinct := by rw [e]; exact distinct_onQubits σ hd
    show chance (.call (onQubits f c) fun a => (k a).dynamic f n) δ' S = chance (.call c fun a => (k a).static) δ S
    rw [chance_arm hm hd h.fit, chance_arm hm' hd' h.fit']
    have key : ∀ v, weight (onQubits f c) v δ' * chance ((k (reply (onQubits f c) v δ')).dynamic f n)
          (next (onQubits f c) v δ') (shifted (noted (onQubits f c) δ') S) =
        weight c v δ * chance (k (reply c v δ)).static (next c v δ) (shifted (noted c δ) S) := by
      intro v
      have ha := h.alike.arm h.fit h.fit' hm hd v
      rw [← e] at ha
      rw [ha.1]
      by_cases hv : weight c v δ = 0
      · rw [hv, zero_mul, zero_mul]
      · have hv' : weight (onQubits f c) v δ' ≠ 0 := by rw [ha.1]; exact hv
        obtain ⟨h1, h2, h3⟩ := ha.2 hv
        rw [h1, h2]
        have hu := h.held.used hc
        rw [ih _ (δ' := next (onQubits f c) v δ') (hk _) ⟨h.held.same (δ' := next (onQubits f c) v δ')
          (show (δ'.useAll _).live = _ by rw [hu]) (show (δ'.useAll _).high = _ by rw [hu]), h3,
          fit_next hm h.fit hv, fit_next hm' h.fit' hv', h.clean.next hm (fun q hq => hc q (uses_named c q hq)) v⟩]
    exact congrArg₂ (· + ·) (key true) (key false)

end Qir.Back.Arr
