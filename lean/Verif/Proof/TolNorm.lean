import Verif.Proof.Norm
import Verif.Proof.Exp2
import Mathlib.Analysis.InnerProductSpace.PiL2

/-! The distance between state vectors, and what dropping small amplitudes costs. -/

noncomputable section
namespace Qir.Tol
open Spec Function Sim

/-- The length of a state vector. -/
def len (ψ : Wave) : ℝ := √(normSq ψ)

theorem normSq_nonneg (ψ : Wave) : 0 ≤ normSq ψ := by rw [normSq_eq]; exact sumIf_nonneg _ _

theorem len_nonneg (ψ : Wave) : 0 ≤ len ψ := Real.sqrt_nonneg _

theorem len_sq (ψ : Wave) : len ψ ^ 2 = normSq ψ := Real.sq_sqrt (normSq_nonneg ψ)

theorem len_le_of {ψ : Wave} {d : ℝ} (hd : 0 ≤ d) (h : normSq ψ ≤ d ^ 2) : len ψ ≤ d := by
  unfold len; exact Real.sqrt_le_iff.2 ⟨hd, h⟩

theorem len_le_len {ψ φ : Wave} (h : normSq ψ ≤ normSq φ) : len ψ ≤ len φ := Real.sqrt_le_sqrt h

theorem normSq_finset {ψ : Wave} {S : Finset Basis} (h : support ψ ⊆ S) :
    normSq ψ = ∑ b ∈ S, Complex.normSq (ψ b) := by
  unfold normSq
  apply finsum_eq_sum_of_support_subset
  intro b hb
  apply h
  simp only [mem_support] at hb ⊢
  intro h0; apply hb; simp [h0]

theorem len_add {ψ φ : Wave} (h : FinSupp ψ) (h' : FinSupp φ) : len (ψ + φ) ≤ len ψ + len φ := by
  classical
  set S := h.toFinset ∪ h'.toFinset with hS
  have h1 : support ψ ⊆ (S : Set Basis) := by
    intro b hb
    exact Finset.mem_union_left _ ((Set.Finite.mem_toFinset h).2 hb)
  have h2 : support φ ⊆ (S : Set Basis) := by
    intro b hb
    exact Finset.mem_union_right _ ((Set.Finite.mem_toFinset h').2 hb)
  have h3 : support (ψ + φ) ⊆ (S : Set Basis) := (support_add _ _).trans (Set.union_subset h1 h2)
  have key : ∀ χ : Wave, support χ ⊆ (S : Set Basis) →
      len χ = ‖(WithLp.toLp 2 (fun b : S => χ b) : EuclideanSpace ℂ S)‖ := by
    intro χ hχ
    rw [EuclideanSpace.norm_eq, len, normSq_finset hχ, ← Finset.sum_coe_sort S]
    congr 1
    apply Finset.sum_congr rfl
    intro b _
    rw [Complex.normSq_eq_norm_sq]
  rw [key _ h1, key _ h2, key _ h3]
  have : (WithLp.toLp 2 (fun b : S => (ψ + φ) b) : EuclideanSpace ℂ S) =
      WithLp.toLp 2 (fun b : S => ψ b) + WithLp.toLp 2 (fun b : S => φ b) := by ext b; rfl
  rw [this]
  exact norm_add_le _ _

theorem normSq_smul (c : ℂ) (ψ : Wave) : normSq (c • ψ) = Complex.normSq c * normSq ψ := by
  rw [normSq_eq, normSq_eq]; exact sumIf_smul _ c ψ

theorem len_smul {c : ℂ} (hc : ‖c‖ = 1) (ψ : Wave) : len (c • ψ) = len ψ := by
  unfold len; rw [normSq_smul, Complex.normSq_eq_norm_sq, hc]; simp

theorem len_neg (ψ : Wave) : len (-ψ) = len ψ := by
  have := len_smul (c := -1) (by simp) ψ
  rwa [neg_one_smul] at this

@[simp] theorem len_zero : len 0 = 0 := by
  unfold len
  have := normSq_smul 0 0
  rw [zero_smul, map_zero, zero_mul] at this
  rw [this, Real.sqrt_zero]

theorem finSupp_neg {ψ : Wave} (h : FinSupp ψ) : FinSupp (-ψ) := by
  have := h.smul (-1)
  rwa [neg_one_smul] at this

theorem finSupp_sub {ψ φ : Wave} (h : FinSupp ψ) (h' : FinSupp φ) : FinSupp (ψ - φ) := by
  rw [sub_eq_add_neg]; exact h.add (finSupp_neg h')

/-- Two state vectors at distance at most `d`. -/
structure Near (d : ℝ) (ψ φ : Wave) : Prop where
  fin : FinSupp ψ
  fin' : FinSupp φ
  le : len (ψ - φ) ≤ d

theorem Near.refl {ψ : Wave} (h : FinSupp ψ) : Near 0 ψ ψ := ⟨h, h, by rw [sub_self]; simp⟩

theorem Near.of_eq {ψ φ : Wave} (h : FinSupp ψ) (e : φ = ψ) : Near 0 φ ψ := by rw [e]; exact .refl h

theorem Near.mono {d d' : ℝ} {ψ φ : Wave} (h : Near d ψ φ) (hd : d ≤ d') : Near d' ψ φ :=
  ⟨h.fin, h.fin', h.le.trans hd⟩

theorem Near.trans {d d' : ℝ} {ψ φ χ : Wave} (h : Near d ψ φ) (h' : Near d' φ χ) :
    Near (d + d') ψ χ := by
  refine ⟨h.fin, h'.fin', ?_⟩
  have := len_add (finSupp_sub h.fin h.fin') (finSupp_sub h'.fin h'.fin')
  rw [sub_add_sub_cancel] at this
  exact this.trans (add_le_add h.le h'.le)

theorem Near.smul {d : ℝ} {ψ φ : Wave} (h : Near d ψ φ) {c : ℂ} (hc : ‖c‖ = 1) :
    Near d (c • ψ) (c • φ) :=
  ⟨h.fin.smul c, h.fin'.smul c, by rw [← smul_sub, len_smul hc]; exact h.le⟩

/-- Operators that preserve lengths. -/
structure Iso (U : Module.End ℂ Wave) : Prop where
  fin : ∀ {ψ}, FinSupp ψ → FinSupp (U ψ)
  len : ∀ {ψ}, FinSupp ψ → len (U ψ) = len ψ

theorem Near.map {d : ℝ} {ψ φ : Wave} (h : Near d ψ φ) {U : Module.End ℂ Wave} (hU : Iso U) :
    Near d (U ψ) (U φ) :=
  ⟨hU.fin h.fin, hU.fin h.fin', by rw [← map_sub, hU.len (finSupp_sub h.fin h.fin')]; exact h.le⟩

theorem iso_one : Iso 1 := ⟨fun h => h, fun _ => rfl⟩

theorem Iso.mul {U V : Module.End ℂ Wave} (hU : Iso U) (hV : Iso V) : Iso (U * V) :=
  ⟨fun h => hU.fin (hV.fin h), fun h => (hU.len (hV.fin h)).trans (hV.len h)⟩

theorem iso_ctrl {cs : List ℕ} {U : Mat2} (hU : Isom U) {q : ℕ} (hq : q ∉ cs) : Iso (ctrlL cs U q) :=
  ⟨fun h => h.ctrl cs U q, fun h => by
    unfold Tol.len
    rw [normSq_eq, normSq_eq]
    exact congrArg _ (sumIf_ctrl h hU hq (by simp))⟩

theorem iso_gate {U : Mat2} (hU : Isom U) (q : ℕ) : Iso (gateL U q) := iso_ctrl hU (by simp)

theorem iso_pendL {P : ℕ → Mat2} (hP : ∀ q, Isom (P q)) (L : List ℕ) : Iso (pendL P L) := by
  induction L with
  | nil => exact iso_one
  | cons q L ih => rw [pendL_cons]; exact (iso_gate (hP q) q).mul ih

theorem isom_neg {U : Mat2} (hU : Isom U) : Isom (-U) := by
  intro x y
  have := hU x y
  rw [← this]
  simp only [Matrix.neg_apply, neg_mul]
  rw [← neg_add, ← neg_add, Complex.normSq_neg, Complex.normSq_neg]

theorem isom_opMat (op : OpCode) : Isom (opMat op) := by
  cases op
  · exact isom_X
  · exact isom_Y
  · exact isom_Z
  · exact isom_S
  · exact isom_Sadj
  · exact isom_T
  · exact isom_Tadj
  · exact isom_Rz _

/-! ### Operators that are small, or nearly the identity -/

/-- A matrix that stretches squared lengths by at most `k`. -/
def Bound (k : ℝ) (N : Mat2) : Prop := ∀ x y : ℂ,
  Complex.normSq (N false false * x + N false true * y) +
    Complex.normSq (N true false * x + N true true * y) ≤ k * (Complex.normSq x + Complex.normSq y)

theorem two_normSq {φ : Wave} (h : FinSupp φ) (q : ℕ) :
    normSq φ + normSq φ = ∑ᶠ b, (Complex.normSq (φ b) + Complex.normSq (φ (flipAt q b))) := by
  have hf : (support fun b => Complex.normSq (φ b)).Finite := by
    refine h.subset ?_
    intro b hb h0; apply hb; simp [h0]
  rw [finsum_add_distrib hf]
  · congr 1
    exact (finsum_comp_equiv (flipAt q) (f := fun b => Complex.normSq (φ b))).symm
  · exact hf.preimage ((flipAt q).injective.injOn)

/-- Comparing two waves pair by pair. -/
theorem normSq_le_of_pairs {φ ψ : Wave} (h : FinSupp φ) (h' : FinSupp ψ) (q : ℕ) {k : ℝ}
    (hp : ∀ b, b q = false →
      Complex.normSq (φ b) + Complex.normSq (φ (update b q true)) ≤
        k * (Complex.normSq (ψ b) + Complex.normSq (ψ (update b q true)))) :
    normSq φ ≤ k * normSq ψ := by
  have hp2 : ∀ b, Complex.normSq (φ b) + Complex.normSq (φ (flipAt q b)) ≤
      k * (Complex.normSq (ψ b) + Complex.normSq (ψ (flipAt q b))) := by
    intro b
    rw [flipAt_apply]
    cases hb : b q
    · exact hp b hb
    · have := hp (update b q false) (by simp)
      rw [update_idem, show update b q true = b by rw [← hb]; exact update_eq_self _ _] at this
      simp only [Bool.not_true]
      linarith
  have e1 := two_normSq h q
  have e2 := two_normSq h' q
  have fin : ∀ {χ : Wave}, FinSupp χ →
      (support fun b => Complex.normSq (χ b) + Complex.normSq (χ (flipAt q b))).Finite := by
    intro χ hχ
    refine (hχ.union (hχ.image (flipAt q))).subset ?_
    intro b hb
    by_contra hc
    simp only [Set.mem_union, mem_support, Set.mem_image, not_or, not_exists, not_and, ne_eq,
      not_not] at hc
    apply hb
    have h3 : χ (flipAt q b) = 0 := by
      by_contra h0
      exact hc.2 (flipAt q b) h0 ((flipAt q).left_inv b)
    simp [hc.1, h3]
  have e3 : ∑ᶠ b, (Complex.normSq (φ b) + Complex.normSq (φ (flipAt q b))) ≤
      ∑ᶠ b, k * (Complex.normSq (ψ b) + Complex.normSq (ψ (flipAt q b))) := by
    refine finsum_le_finsum' (fin h) ?_ hp2
    refine (fin h').subset ?_
    intro b hb h0; apply hb; simp only at h0; simp only [h0, mul_zero]
  rw [← mul_finsum] at e3
  rw [← e1, ← e2] at e3
  linarith

theorem ctrl_sub_apply (cs : List ℕ) (U V : Mat2) (q : ℕ) (ψ : Wave) (b : Basis) :
    (ctrlL cs U q ψ - ctrlL cs V q ψ) b = if ∀ c ∈ cs, b c = true then
      (U - V) (b q) false * ψ (update b q false) + (U - V) (b q) true * ψ (update b q true) else 0 := by
  rw [Pi.sub_apply, ctrlL_apply, ctrlL_apply]
  unfold ctrl
  split
  · simp only [Matrix.sub_apply]; ring
  · ring

/-- Controlled gates with close matrices are close. -/
theorem near_ctrl {cs : List ℕ} {q : ℕ} (hq : q ∉ cs) {U V : Mat2} {d : ℝ} (hd : 0 ≤ d)
    (hB : Bound (d ^ 2) (U - V)) {ψ : Wave} (h : FinSupp ψ) :
    Near (d * len ψ) (ctrlL cs U q ψ) (ctrlL cs V q ψ) := by
  refine ⟨h.ctrl _ _ _, h.ctrl _ _ _, ?_⟩
  apply len_le_of (mul_nonneg hd (len_nonneg _))
  rw [mul_pow, len_sq]
  apply normSq_le_of_pairs (finSupp_sub (h.ctrl _ _ _) (h.ctrl _ _ _)) h q
  intro b hb
  have e := fun b => ctrl_sub_apply cs U V q ψ b
  simp only [ctrlL_apply] at e
  simp only [ctrlL_apply, e]
  by_cases hc : ∀ c ∈ cs, b c = true
  · rw [if_pos hc, if_pos ((ctrls_update hq b _).2 hc)]
    have hself : update b q false = b := by rw [← hb]; exact update_eq_self _ _
    simp only [update_self, update_idem, hb, hself]
    exact hB _ _
  · rw [if_neg hc, if_neg (fun h => hc ((ctrls_update hq b _).1 h))]
    simp only [map_zero, add_zero]
    have := Complex.normSq_nonneg (ψ b)
    have := Complex.normSq_nonneg (ψ (update b q true))
    positivity

/-- Contractions. -/
theorem len_ctrl_le {cs : List ℕ} {q : ℕ} (hq : q ∉ cs) {U : Mat2} (hB : Bound 1 U) {ψ : Wave}
    (h : FinSupp ψ) : len (ctrlL cs U q ψ) ≤ len ψ := by
  apply len_le_len
  rw [← one_mul (normSq ψ)]
  apply normSq_le_of_pairs (h.ctrl _ _ _) h q
  intro b hb
  simp only [ctrlL_apply, ctrl]
  by_cases hc : ∀ c ∈ cs, b c = true
  · rw [if_pos hc, if_pos ((ctrls_update hq b _).2 hc)]
    have hself : update b q false = b := by rw [← hb]; exact update_eq_self _ _
    simp only [update_self, update_idem, hb, hself]
    exact hB _ _
  · rw [if_neg hc, if_neg (fun h => hc ((ctrls_update hq b _).1 h)), one_mul]

/-! ### Dropping stored amplitudes -/

/-- `l'` is `l` without some entries of squared amplitude at most `δ`. -/
inductive Drop (δ : ℝ) : List (ℕ × ℂ) → List (ℕ × ℂ) → Prop
  | nil : Drop δ [] []
  | keep (e : ℕ × ℂ) {l l' : List (ℕ × ℂ)} : Drop δ l l' → Drop δ (e :: l) (e :: l')
  | drop (e : ℕ × ℂ) {l l' : List (ℕ × ℂ)} : Complex.normSq e.2 ≤ δ → Drop δ l l' → Drop δ (e :: l) l'

theorem Drop.refl (δ : ℝ) (l : List (ℕ × ℂ)) : Drop δ l l := by
  induction l with
  | nil => exact .nil
  | cons e l ih => exact .keep e ih

theorem Drop.append {δ : ℝ} {a a' b b' : List (ℕ × ℂ)} (h : Drop δ a a') (h' : Drop δ b b') :
    Drop δ (a ++ b) (a' ++ b') := by
  induction h with
  | nil => exact h'
  | keep e _ ih => exact .keep e ih
  | drop e he _ ih => exact .drop e he ih

theorem Drop.flatMap {δ : ℝ} {f f' : ℕ × ℂ → List (ℕ × ℂ)} (h : ∀ e, Drop δ (f e) (f' e))
    (l : List (ℕ × ℂ)) : Drop δ (l.flatMap f) (l.flatMap f') := by
  induction l with
  | nil => exact .nil
  | cons e l ih => rw [List.flatMap_cons, List.flatMap_cons]; exact (h e).append ih

theorem Drop.sublist {δ : ℝ} {l l' : List (ℕ × ℂ)} (h : Drop δ l l') : l'.Sublist l := by
  induction h with
  | nil => exact .slnil
  | keep e _ ih => exact ih.cons_cons e
  | drop e _ _ ih => exact ih.cons e

theorem core_sublist {m : IMap ℕ} {l l' : List (ℕ × ℂ)} (h : l'.Sublist l) (hc : Core m l) : Core m l' :=
  ⟨hc.inj, (h.map Prod.fst).nodup hc.nodup, fun e he => hc.bits e (h.subset he)⟩

theorem normSq_view {m : IMap ℕ} {l : List (ℕ × ℂ)} (h : Core m l) :
    normSq (view m l) = (l.map (fun e => Complex.normSq e.2)).sum := by
  rw [normSq_eq, sumIf_view _ h]; simp

/-- What was dropped. -/
theorem Drop.split {δ : ℝ} {l l' : List (ℕ × ℂ)} (h : Drop δ l l') (m : IMap ℕ) :
    ∃ r, r.Sublist l ∧ (∀ e ∈ r, Complex.normSq e.2 ≤ δ) ∧ view m l = view m l' + view m r ∧
      (l.map (fun e => Complex.normSq e.2)).sum =
        (l'.map (fun e => Complex.normSq e.2)).sum + (r.map (fun e => Complex.normSq e.2)).sum := by
  induction h with
  | nil => exact ⟨[], .slnil, by simp, by simp, by simp⟩
  | keep e _ ih =>
    obtain ⟨r, h1, h2, h3, h4⟩ := ih
    exact ⟨r, h1.cons e, h2, by rw [view_cons, view_cons, h3, add_assoc], by
      rw [List.map_cons, List.map_cons, List.sum_cons, List.sum_cons, h4, add_assoc]⟩
  | drop e he _ ih =>
    obtain ⟨r, h1, h2, h3, h4⟩ := ih
    refine ⟨e :: r, h1.cons_cons e, ?_, by rw [view_cons, view_cons, h3]; abel, by
      rw [List.map_cons, List.map_cons, List.sum_cons, List.sum_cons, h4]; ring⟩
    intro e' he'
    rcases List.mem_cons.1 he' with rfl | he'
    · exact he
    · exact h2 e' he'

/-- A stored state has at most `2 ^ n` entries for `n` allocated qubits. -/
theorem Core.length_le {m : IMap ℕ} {l : List (ℕ × ℂ)} (h : Core m l) :
    l.length ≤ 2 ^ m.keys.length := by
  classical
  have hinj : ∀ k ∈ l.map Prod.fst, ∀ k' ∈ l.map Prod.fst,
      m.keys.map (idBits m k) = m.keys.map (idBits m k') → k = k' := by
    intro k hk k' hk' e
    obtain ⟨a, ha, rfl⟩ := List.mem_map.1 hk
    obtain ⟨a', ha', rfl⟩ := List.mem_map.1 hk'
    apply idBits_inj (h.bits a ha) (h.bits a' ha')
    funext q
    by_cases hq : q ∈ m.keys
    · exact List.map_inj_left.1 e q hq
    · have : m.get q = none := by
        have := (IMap.mem_keys m q).not.1 hq
        simpa using this
      simp [idBits, this]
  have h1 : ((l.map Prod.fst).map (fun k => m.keys.map (idBits m k))).Nodup :=
    h.nodup.map_on hinj
  have h2 : ((l.map Prod.fst).map (fun k => m.keys.map (idBits m k))).toFinset ⊆
      (Finset.univ : Finset (List.Vector Bool m.keys.length)).image List.Vector.toList := by
    intro v hv
    rw [List.mem_toFinset] at hv
    obtain ⟨k, _, rfl⟩ := List.mem_map.1 hv
    exact Finset.mem_image.2 ⟨⟨m.keys.map (idBits m k), by simp⟩, Finset.mem_univ _, rfl⟩
  have h3 := (Finset.card_le_card h2).trans Finset.card_image_le
  rw [List.toFinset_card_of_nodup h1, Finset.card_univ, card_vector] at h3
  simpa using h3

theorem sum_le_length {l : List (ℕ × ℂ)} {δ : ℝ} (h : ∀ e ∈ l, Complex.normSq e.2 ≤ δ) :
    (l.map (fun e => Complex.normSq e.2)).sum ≤ l.length * δ := by
  induction l with
  | nil => simp
  | cons e l ih =>
    rw [List.map_cons, List.sum_cons, List.length_cons]
    have h1 := h e (by simp)
    have h2 := ih (fun e he => h e (List.mem_cons_of_mem _ he))
    push_cast
    linarith

/-- The cost of one pass over the stored amplitudes: at most `2 ^ n` entries with both components
at most `eps`. -/
def unit (eps : ℝ) (n : ℕ) : ℝ := eps * √2 * √(2 ^ n)

theorem unit_nonneg {eps : ℝ} (h : 0 ≤ eps) (n : ℕ) : 0 ≤ unit eps n := by
  unfold unit; positivity

theorem unit_sq (eps : ℝ) (n : ℕ) : unit eps n ^ 2 = 2 ^ n * (2 * eps ^ 2) := by
  unfold unit
  rw [mul_pow, mul_pow, Real.sq_sqrt (by norm_num), Real.sq_sqrt (by positivity)]
  ring

theorem le_unit {eps : ℝ} (h : 0 ≤ eps) (n : ℕ) : eps * √2 ≤ unit eps n := by
  unfold unit
  have h1 : (1 : ℝ) ≤ √(2 ^ n) := by
    rw [Real.one_le_sqrt]
    exact one_le_pow₀ (by norm_num)
  have h2 : 0 ≤ eps * √2 := by positivity
  nlinarith

theorem unit_mono {eps : ℝ} (h : 0 ≤ eps) {n n' : ℕ} (hn : n ≤ n') : unit eps n ≤ unit eps n' := by
  unfold unit
  apply mul_le_mul_of_nonneg_left _ (by positivity)
  apply Real.sqrt_le_sqrt
  exact pow_le_pow_right₀ (by norm_num) hn

theorem Drop.near {eps : ℝ} (he : 0 ≤ eps) {l l' : List (ℕ × ℂ)} (h : Drop (2 * eps ^ 2) l l')
    {m : IMap ℕ} (hc : Core m l) :
    Near (unit eps m.keys.length) (view m l') (view m l) ∧ len (view m l') ≤ len (view m l) := by
  obtain ⟨r, h1, h2, h3, h4⟩ := h.split m
  have hcr := core_sublist h1 hc
  have hlr : (0 : ℝ) ≤ (r.map (fun e => Complex.normSq e.2)).sum := by
    rw [← normSq_view hcr]; exact normSq_nonneg _
  refine ⟨⟨finSupp_view _ _, finSupp_view _ _, ?_⟩, ?_⟩
  · rw [h3, sub_add_cancel_left, len_neg]
    apply len_le_of (unit_nonneg he _)
    rw [normSq_view hcr, unit_sq]
    refine (sum_le_length h2).trans ?_
    apply mul_le_mul_of_nonneg_right _ (by positivity)
    exact_mod_cast Core.length_le hcr
  · apply len_le_len
    rw [normSq_view hc, normSq_view (core_sublist h.sublist hc), h4]
    linarith

theorem nearlyZeroR_iff {eps x : ℝ} : NearlyZeroR eps x ↔ |x| ≤ eps := by
  unfold NearlyZeroR
  rcases le_total x 0 with hx | hx
  · rw [max_eq_right hx, min_eq_right hx, abs_of_nonpos hx]; simp
  · rw [max_eq_left hx, min_eq_left hx, abs_of_nonneg hx]; simp

theorem normSq_le_of_nearlyZero {eps : ℝ} {z : ℂ} (h : NearlyZero eps z) :
    Complex.normSq z ≤ 2 * eps ^ 2 := by
  have h1 := sq_le_sq' (abs_le.1 (nearlyZeroR_iff.1 h.1)).1 (abs_le.1 (nearlyZeroR_iff.1 h.1)).2
  have h2 := sq_le_sq' (abs_le.1 (nearlyZeroR_iff.1 h.2)).1 (abs_le.1 (nearlyZeroR_iff.1 h.2)).2
  rw [Complex.normSq_apply]
  nlinarith

theorem nearlyZero_of_zero {eps : ℝ} (he : 0 ≤ eps) {z : ℂ} (h : NearlyZero 0 z) : NearlyZero eps z := by
  rw [nearlyZero_zero] at h
  subst h
  exact ⟨nearlyZeroR_iff.2 (by simpa using he), nearlyZeroR_iff.2 (by simpa using he)⟩

theorem drop_if {eps δ : ℝ} (he : 0 ≤ eps) {z : ℂ} {e : ℕ × ℂ}
    (h : NearlyZero eps z → Complex.normSq e.2 ≤ δ) :
    Drop δ (if NearlyZero 0 z then [] else [e]) (if NearlyZero eps z then [] else [e]) := by
  by_cases h0 : NearlyZero 0 z
  · rw [if_pos h0, if_pos (nearlyZero_of_zero he h0)]; exact .nil
  · rw [if_neg h0]
    by_cases h1 : NearlyZero eps z
    · rw [if_pos h1]; exact .drop e (h h1) .nil
    · rw [if_neg h1]; exact .refl _ _

theorem normSq_fracSqrt2 : Complex.normSq (fracSqrt2 : ℂ) ≤ 1 := by
  rw [fracSqrt2, Complex.normSq_ofReal, div_mul_div_comm, Real.mul_self_sqrt (by norm_num)]; norm_num

theorem mchEntry_drop {eps : ℝ} (he : 0 ≤ eps) (m : List (ℕ × ℂ)) (cs : List ℕ) (t : ℕ) (e : ℕ × ℂ) :
    Drop (2 * eps ^ 2) (mchEntry 0 m cs t e) (mchEntry eps m cs t e) := by
  have hf : ∀ z : ℂ, NearlyZero eps z → Complex.normSq (z * fracSqrt2) ≤ 2 * eps ^ 2 := by
    intro z hz
    rw [Complex.normSq_mul]
    have h1 := normSq_le_of_nearlyZero hz
    have h2 := normSq_fracSqrt2
    have h3 := Complex.normSq_nonneg z
    nlinarith
  unfold mchEntry
  split
  · simp only
    split
    · exact .refl _ _
    · split
      · exact (drop_if he (hf _)).append (drop_if he (hf _))
      · exact .refl _ _
  · exact .refl _ _

theorem rotEntry_drop {eps : ℝ} (he : 0 ≤ eps) (m : List (ℕ × ℂ)) (cs : List ℕ) (t : ℕ)
    (m00 m01 m10 : ℂ) (e : ℕ × ℂ) :
    Drop (2 * eps ^ 2) (rotEntry 0 m cs t m00 m01 m10 e) (rotEntry eps m cs t m00 m01 m10 e) := by
  unfold rotEntry
  split
  · simp only
    split
    · exact .refl _ _
    · split
      · refine Drop.append (drop_if he ?_) (drop_if he ?_) <;> exact normSq_le_of_nearlyZero
      · exact .refl _ _
  · exact .refl _ _

theorem expEntry_drop {eps : ℝ} (he : 0 ≤ eps) (m : List (ℕ × ℂ)) (cs : List ℕ) (xy yz : ℕ)
    (a b c : ℂ) (e : ℕ × ℂ) :
    Drop (2 * eps ^ 2) (expEntry 0 m cs xy yz a b c e) (expEntry eps m cs xy yz a b c e) := by
  unfold expEntry
  split
  · simp only
    split
    · exact .refl _ _
    · split
      · refine Drop.append (drop_if he ?_) (drop_if he ?_) <;> exact normSq_le_of_nearlyZero
      · exact .refl _ _
  · exact .refl _ _

end Qir.Tol
