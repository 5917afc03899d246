import Verif.Model.Exp
import Verif.Proof.Measure

/-! The multi-qubit exponential. -/

noncomputable section
namespace Qir
open Spec Function Sim

/-- The operator a factor stands for. -/
def MPauli.spec : MPauli → Pauli
  | .I => .I
  | .X => .X
  | .Z => .Z
  | .Y => .Y

/-- Factors paired with the qubits they act on. -/
def factors (ps : List MPauli) (ts : List ℕ) : List (Pauli × ℕ) := (ps.map MPauli.spec).zip ts

/-! ### Pauli strings on basis states -/

def isXY : Pauli → Bool
  | .X => true
  | .Y => true
  | _ => false

def isYZ : Pauli → Bool
  | .Z => true
  | .Y => true
  | _ => false

/-- The qubits flipped by the string. -/
def xyOf (ps : List (Pauli × ℕ)) : List ℕ := (ps.filter (fun p => isXY p.1)).map Prod.snd
/-- The qubits whose value gives a sign. -/
def yzOf (ps : List (Pauli × ℕ)) : List ℕ := (ps.filter (fun p => isYZ p.1)).map Prod.snd
/-- The number of `Y` factors. -/
def yOf (ps : List (Pauli × ℕ)) : ℕ := (ps.filter (fun p => p.1 = .Y)).length

/-- The basis state with the listed qubits flipped. -/
def flipAll (qs : List ℕ) (b : Basis) : Basis := fun q => if q ∈ qs then !b q else b q

/-- The phase a string gives to a basis state. -/
def strPhase (ps : List (Pauli × ℕ)) (b : Basis) : ℂ :=
  Complex.I ^ yOf ps * (if parity (yzOf ps) b then -1 else 1)

theorem flipAll_flipAll (qs : List ℕ) (b : Basis) : flipAll qs (flipAll qs b) = b := by
  funext q; unfold flipAll; by_cases h : q ∈ qs <;> simp [h]

theorem update_flipAll {qs : List ℕ} {q : ℕ} (b : Basis) (v : Bool) (hv : v = !b q) :
    update (flipAll qs b) q v = flipAll (q :: qs) b := by
  funext r
  unfold flipAll
  by_cases h : r = q
  · subst h; simp [hv]
  · simp [h]

theorem update_flipAll' {qs : List ℕ} {q : ℕ} (hq : q ∉ qs) (b : Basis) (v : Bool) (hv : v = b q) :
    update (flipAll qs b) q v = flipAll qs b := by
  funext r
  unfold flipAll
  by_cases h : r = q
  · subst h; simp [hv, hq]
  · simp [h]

theorem pauliString_smul (ps : List (Pauli × ℕ)) (c : ℂ) (ψ : Wave) :
    pauliString ps (c • ψ) = c • pauliString ps ψ := by
  induction ps with
  | nil => rfl
  | cons p ps ih =>
    show ctrl [] _ _ (pauliString ps (c • ψ)) = c • ctrl [] _ _ (pauliString ps ψ)
    rw [ih]; exact map_smul (gateL p.1.mat p.2) c (pauliString ps ψ)

theorem pauliString_add (ps : List (Pauli × ℕ)) (φ ψ : Wave) :
    pauliString ps (φ + ψ) = pauliString ps φ + pauliString ps ψ := by
  induction ps with
  | nil => rfl
  | cons p ps ih =>
    show ctrl [] _ _ (pauliString ps (φ + ψ)) = ctrl [] _ _ (pauliString ps φ) + ctrl [] _ _ (pauliString ps ψ)
    rw [ih]; exact map_add (gateL p.1.mat p.2) _ _

theorem mem_xyOf_snd {ps : List (Pauli × ℕ)} {q : ℕ} (h : q ∈ xyOf ps) : q ∈ ps.map Prod.snd := by
  unfold xyOf at h
  obtain ⟨p, hp, rfl⟩ := List.mem_map.1 h
  exact List.mem_map.2 ⟨p, (List.mem_filter.1 hp).1, rfl⟩

theorem mem_yzOf_snd {ps : List (Pauli × ℕ)} {q : ℕ} (h : q ∈ yzOf ps) : q ∈ ps.map Prod.snd := by
  unfold yzOf at h
  obtain ⟨p, hp, rfl⟩ := List.mem_map.1 h
  exact List.mem_map.2 ⟨p, (List.mem_filter.1 hp).1, rfl⟩

theorem parity_cons (q : ℕ) (qs : List ℕ) (b : Basis) : parity (q :: qs) b = xor (b q) (parity qs b) := rfl

theorem pauliString_ket {ps : List (Pauli × ℕ)} (hn : (ps.map Prod.snd).Nodup) (b : Basis) :
    pauliString ps (ket b) = strPhase ps b • ket (flipAll (xyOf ps) b) := by
  induction ps with
  | nil =>
    have : flipAll (xyOf []) b = b := by funext q; simp [flipAll, xyOf]
    simp [pauliString, strPhase, yOf, yzOf, parity, this]
  | cons p ps ih =>
    obtain ⟨p, q⟩ := p
    rw [List.map_cons, List.nodup_cons] at hn
    have hq : q ∉ xyOf ps := fun h => hn.1 (mem_xyOf_snd h)
    show ctrl [] p.mat q (pauliString ps (ket b)) = _
    rw [ih hn.2]
    have h1 : ctrl [] p.mat q (strPhase ps b • ket (flipAll (xyOf ps) b)) =
        strPhase ps b • ctrl [] p.mat q (ket (flipAll (xyOf ps) b)) :=
      map_smul (gateL p.mat q) _ _
    have hbq : flipAll (xyOf ps) b q = b q := by simp [flipAll, hq]
    rw [h1, ctrl_ket (by simp), if_pos (by simp), hbq]
    cases p
    · have hx : xyOf ((Pauli.I, q) :: ps) = xyOf ps := rfl
      have hs : strPhase ((Pauli.I, q) :: ps) b = strPhase ps b := rfl
      rw [hx, hs]
      cases h : b q
      · rw [update_flipAll' hq b false h.symm]; simp [Pauli.mat]
      · rw [update_flipAll' hq b true h.symm]; simp [Pauli.mat]
    · have hx : xyOf ((Pauli.X, q) :: ps) = q :: xyOf ps := rfl
      have hs : strPhase ((Pauli.X, q) :: ps) b = strPhase ps b := rfl
      rw [hx, hs]
      cases h : b q
      · rw [update_flipAll b true (by simp [h])]; simp [Pauli.mat, matX, mat]
      · rw [update_flipAll b false (by simp [h])]; simp [Pauli.mat, matX, mat]
    · have hx : xyOf ((Pauli.Z, q) :: ps) = xyOf ps := rfl
      have hs : strPhase ((Pauli.Z, q) :: ps) b = strPhase ps b * (if b q then -1 else 1) := by
        show Complex.I ^ yOf ps * (if parity (q :: yzOf ps) b then -1 else 1) =
          Complex.I ^ yOf ps * (if parity (yzOf ps) b then -1 else 1) * _
        rw [parity_cons]
        cases b q <;> cases parity (yzOf ps) b <;> simp
      rw [hx, hs]
      cases h : b q
      · rw [update_flipAll' hq b false h.symm]; simp [Pauli.mat, matZ, mat]
      · rw [update_flipAll' hq b true h.symm]; simp [Pauli.mat, matZ, mat]
    · have hx : xyOf ((Pauli.Y, q) :: ps) = q :: xyOf ps := rfl
      have hs : strPhase ((Pauli.Y, q) :: ps) b = strPhase ps b * (if b q then -Complex.I else Complex.I) := by
        show Complex.I ^ (yOf ps + 1) * (if parity (q :: yzOf ps) b then -1 else 1) =
          Complex.I ^ yOf ps * (if parity (yzOf ps) b then -1 else 1) * _
        rw [parity_cons, pow_succ]
        cases b q <;> cases parity (yzOf ps) b <;> simp
      rw [hx, hs]
      cases h : b q
      · rw [update_flipAll b true (by simp [h])]; simp [Pauli.mat, matY, mat, mul_smul]
      · rw [update_flipAll b false (by simp [h])]; simp [Pauli.mat, matY, mat, mul_smul]

/-- The value of a Pauli string on a state. -/
theorem pauliString_apply {ps : List (Pauli × ℕ)} (hn : (ps.map Prod.snd).Nodup) (ψ : Wave) (b : Basis) :
    pauliString ps ψ b = strPhase ps (flipAll (xyOf ps) b) * ψ (flipAll (xyOf ps) b) := by
  induction ps generalizing b with
  | nil =>
    have : flipAll (xyOf []) b = b := by funext q; simp [flipAll, xyOf]
    rw [this]
    simp [pauliString, strPhase, yOf, yzOf, parity]
  | cons p ps ih =>
    obtain ⟨p, q⟩ := p
    rw [List.map_cons, List.nodup_cons] at hn
    have hq : q ∉ xyOf ps := fun h => hn.1 (mem_xyOf_snd h)
    have hq' : q ∉ yzOf ps := fun h => hn.1 (mem_yzOf_snd h)
    have hpar : ∀ b v, strPhase ps (update b q v) = strPhase ps b := by
      intro b v
      unfold strPhase
      rw [parity_update hq']
    have hfl : ∀ v, flipAll (xyOf ps) (update b q v) = update (flipAll (xyOf ps) b) q v := by
      intro v
      funext r
      unfold flipAll
      by_cases hr : r = q
      · subst hr; simp [hq]
      · simp [hr]
    have hval : ∀ v, pauliString ps ψ (update b q v) =
        strPhase ps (flipAll (xyOf ps) b) * ψ (update (flipAll (xyOf ps) b) q v) := by
      intro v
      rw [ih hn.2, hfl, hpar]
    have h1 : pauliString ((p, q) :: ps) ψ b =
        p.mat (b q) false * pauliString ps ψ (update b q false) +
          p.mat (b q) true * pauliString ps ψ (update b q true) :=
      gateL_apply_apply p.mat q _ b
    rw [h1, hval, hval]
    have hself : ∀ v, v = b q → update (flipAll (xyOf ps) b) q v = flipAll (xyOf ps) b :=
      fun v hv => update_flipAll' hq b v hv
    have hoth : ∀ v, v = !b q → update (flipAll (xyOf ps) b) q v = flipAll (q :: xyOf ps) b :=
      fun v hv => update_flipAll b v hv
    have hph : strPhase ps (flipAll (q :: xyOf ps) b) = strPhase ps (flipAll (xyOf ps) b) := by
      rw [← hoth _ rfl, hpar]
    have hfq : flipAll (xyOf ps) b q = b q := by simp [flipAll, hq]
    have hfq' : flipAll (q :: xyOf ps) b q = !b q := by simp [flipAll]
    cases p
    · have hx : xyOf ((Pauli.I, q) :: ps) = xyOf ps := rfl
      have hs : ∀ b, strPhase ((Pauli.I, q) :: ps) b = strPhase ps b := fun _ => rfl
      rw [hx, hs]
      cases h : b q
      · rw [hself false h.symm]; simp [Pauli.mat]
      · rw [hself true h.symm]; simp [Pauli.mat]
    · have hx : xyOf ((Pauli.X, q) :: ps) = q :: xyOf ps := rfl
      have hs : ∀ b, strPhase ((Pauli.X, q) :: ps) b = strPhase ps b := fun _ => rfl
      rw [hx, hs, hph]
      cases h : b q
      · rw [hoth true (by simp [h])]; simp [Pauli.mat, matX, mat]
      · rw [hoth false (by simp [h])]; simp [Pauli.mat, matX, mat]
    · have hx : xyOf ((Pauli.Z, q) :: ps) = xyOf ps := rfl
      have hs : ∀ b, strPhase ((Pauli.Z, q) :: ps) b = strPhase ps b * (if b q then -1 else 1) := by
        intro b
        show Complex.I ^ yOf ps * (if parity (q :: yzOf ps) b then -1 else 1) =
          Complex.I ^ yOf ps * (if parity (yzOf ps) b then -1 else 1) * _
        rw [parity_cons]
        cases b q <;> cases parity (yzOf ps) b <;> simp
      rw [hx, hs, hfq]
      cases h : b q
      · rw [hself false h.symm]; simp [Pauli.mat, matZ, mat]
      · rw [hself true h.symm]; simp [Pauli.mat, matZ, mat]
    · have hx : xyOf ((Pauli.Y, q) :: ps) = q :: xyOf ps := rfl
      have hs : ∀ b, strPhase ((Pauli.Y, q) :: ps) b = strPhase ps b * (if b q then -Complex.I else Complex.I) := by
        intro b
        show Complex.I ^ (yOf ps + 1) * (if parity (q :: yzOf ps) b then -1 else 1) =
          Complex.I ^ yOf ps * (if parity (yzOf ps) b then -1 else 1) * _
        rw [parity_cons, pow_succ]
        cases b q <;> cases parity (yzOf ps) b <;> simp
      rw [hx, hs, hph, hfq']
      cases h : b q
      · rw [hoth true (by simp [h])]; simp [Pauli.mat, matY, mat]; ring
      · rw [hoth false (by simp [h])]; simp [Pauli.mat, matY, mat]; ring

/-- `ctrlExp` as a linear map. -/
def expL (cs : List ℕ) (ps : List (Pauli × ℕ)) (θ : ℝ) : Module.End ℂ Wave where
  toFun := ctrlExp cs ps θ
  map_add' φ ψ := by
    funext b
    simp only [ctrlExp, Pi.add_apply, pauliString_add]
    split <;> ring
  map_smul' c ψ := by
    funext b
    simp only [ctrlExp, Pi.smul_apply, pauliString_smul, smul_eq_mul, RingHom.id_apply]
    split <;> ring

theorem expL_apply (cs : List ℕ) (ps : List (Pauli × ℕ)) (θ : ℝ) (ψ : Wave) :
    expL cs ps θ ψ = ctrlExp cs ps θ ψ := rfl

theorem ctrls_flipAll {cs qs : List ℕ} (h : ∀ c ∈ cs, c ∉ qs) (b : Basis) :
    (∀ c ∈ cs, flipAll qs b c = true) ↔ ∀ c ∈ cs, b c = true := by
  constructor
  · intro h1 c hc; have := h1 c hc; simpa [flipAll, h c hc] using this
  · intro h1 c hc; simpa [flipAll, h c hc] using h1 c hc

theorem ctrlExp_ket {cs : List ℕ} {ps : List (Pauli × ℕ)} (hn : (ps.map Prod.snd).Nodup)
    (hd : ∀ c ∈ cs, c ∉ xyOf ps) (θ : ℝ) (b : Basis) :
    ctrlExp cs ps θ (ket b) = if ∀ c ∈ cs, b c = true then
        (Real.cos θ : ℂ) • ket b +
          (Complex.I * Real.sin θ * strPhase ps b) • ket (flipAll (xyOf ps) b)
      else ket b := by
  funext b'
  unfold ctrlExp
  rw [pauliString_ket hn]
  by_cases h1 : b' = b
  · subst h1
    by_cases hc : ∀ c ∈ cs, b' c = true
    · rw [if_pos hc, if_pos hc]; simp; ring
    · rw [if_neg hc, if_neg hc]
  · by_cases h2 : b' = flipAll (xyOf ps) b
    · have h3 : (∀ c ∈ cs, b' c = true) ↔ ∀ c ∈ cs, b c = true := by
        rw [h2]; exact ctrls_flipAll hd b
      by_cases hc : ∀ c ∈ cs, b c = true
      · rw [if_pos hc, if_pos (h3.2 hc)]; simp; ring
      · rw [if_neg hc, if_neg (fun h => hc (h3.1 h))]
    · have e1 : ket b b' = 0 := by simp [ket, h1]
      have e2 : ket (flipAll (xyOf ps) b) b' = 0 := by simp [ket, h2]
      split <;> split <;> simp [e1, e2]

/-! ### Phases -/

theorem parity_flip (L qs : List ℕ) (b : Basis) :
    parity qs (flipAll L b) = xor (parity qs b) (parity qs (fun q => decide (q ∈ L))) := by
  induction qs with
  | nil => rfl
  | cons q qs ih =>
    rw [parity_cons, parity_cons, parity_cons, ih]
    unfold flipAll
    by_cases h : q ∈ L
    · simp only [h, if_true, decide_true]
      cases b q <;> cases parity qs b <;> cases parity qs (fun q => decide (q ∈ L)) <;> rfl
    · simp only [h, if_false, decide_false]
      cases b q <;> cases parity qs b <;> cases parity qs (fun q => decide (q ∈ L)) <;> rfl

theorem parity_congr {qs : List ℕ} {b b' : Basis} (h : ∀ q ∈ qs, b q = b' q) :
    parity qs b = parity qs b' := by
  induction qs with
  | nil => rfl
  | cons q qs ih =>
    rw [parity_cons, parity_cons, h q (by simp), ih (fun r hr => h r (by simp [hr]))]

theorem parity_yz_xy {ps : List (Pauli × ℕ)} (hn : (ps.map Prod.snd).Nodup) :
    parity (yzOf ps) (fun q => decide (q ∈ xyOf ps)) = (yOf ps % 2 == 1) := by
  induction ps with
  | nil => rfl
  | cons p ps ih =>
    obtain ⟨p, q⟩ := p
    rw [List.map_cons, List.nodup_cons] at hn
    have hq : q ∉ xyOf ps := fun h => hn.1 (mem_xyOf_snd h)
    have hq' : q ∉ yzOf ps := fun h => hn.1 (mem_yzOf_snd h)
    have hc : parity (yzOf ps) (fun r => decide (r ∈ q :: xyOf ps)) =
        parity (yzOf ps) (fun r => decide (r ∈ xyOf ps)) := by
      apply parity_congr
      intro r hr
      have : r ≠ q := by rintro rfl; exact hq' hr
      simp [this]
    cases p
    · exact ih hn.2
    · show parity (yzOf ps) (fun r => decide (r ∈ q :: xyOf ps)) = _
      rw [hc]; exact ih hn.2
    · show parity (q :: yzOf ps) (fun r => decide (r ∈ xyOf ps)) = _
      rw [parity_cons, ih hn.2]
      simp [hq, yOf]
    · show parity (q :: yzOf ps) (fun r => decide (r ∈ q :: xyOf ps)) = ((yOf ps + 1) % 2 == 1)
      rw [parity_cons, hc, ih hn.2]
      rcases Nat.mod_two_eq_zero_or_one (yOf ps) with h | h
      · have : (yOf ps + 1) % 2 = 1 := by omega
        simp [h, this]
      · have : (yOf ps + 1) % 2 = 0 := by omega
        simp [h, this]

theorem strPhase_flip {ps : List (Pauli × ℕ)} (hn : (ps.map Prod.snd).Nodup) (b : Basis) :
    strPhase ps (flipAll (xyOf ps) b) = strPhase ps b * (if yOf ps % 2 = 0 then 1 else -1) := by
  unfold strPhase
  rw [parity_flip, parity_yz_xy hn]
  rcases Nat.mod_two_eq_zero_or_one (yOf ps) with h | h
  · simp [h]
  · cases parity (yzOf ps) b <;> simp [h]

theorem strPhase_mul {ps : List (Pauli × ℕ)} (hn : (ps.map Prod.snd).Nodup) (b : Basis) :
    strPhase ps b * strPhase ps (flipAll (xyOf ps) b) = 1 := by
  rw [strPhase_flip hn]
  have h2 : (Complex.I ^ yOf ps) * (Complex.I ^ yOf ps) = (-1) ^ yOf ps := by
    rw [← mul_pow, Complex.I_mul_I]
  have h3 : (-1 : ℂ) ^ yOf ps * (if yOf ps % 2 = 0 then 1 else -1) = 1 := by
    rcases Nat.mod_two_eq_zero_or_one (yOf ps) with h | h
    · rw [(Nat.even_iff.2 h).neg_one_pow]; simp [h]
    · rw [(Nat.odd_iff.2 h).neg_one_pow]; simp [h]
  unfold strPhase
  rw [show ∀ x y z : ℂ, x * y * (x * y * z) = (x * x) * z * (y * y) by intros; ring, h2, h3]
  split <;> norm_num

theorem normSq_strPhase (ps : List (Pauli × ℕ)) (b : Basis) : Complex.normSq (strPhase ps b) = 1 := by
  unfold strPhase
  rw [map_mul, map_pow, Complex.normSq_I, one_pow, one_mul]
  split <;> simp

theorem yPhase_eq (n : ℕ) : yPhase n = Complex.I ^ n := by
  have h : Complex.I ^ n = Complex.I ^ (n % 4) := by
    conv_lhs => rw [← Nat.div_add_mod n 4]
    rw [pow_add, pow_mul, Complex.I_pow_four, one_pow, one_mul]
  rw [h]
  have h4 : n % 4 < 4 := Nat.mod_lt _ (by norm_num)
  unfold yPhase
  generalize n % 4 = r at *
  rcases (by omega : r = 0 ∨ r = 1 ∨ r = 2 ∨ r = 3) with rfl | rfl | rfl | rfl
  · simp
  · simp
  · simp
  · simp [pow_succ]

/-! ### Masks -/

theorem expMasks_spec : ∀ (ps : List MPauli) (ts : List ℕ) (mk : ExpMasks), ps.length ≤ ts.length →
    ∃ mk', expMasks ps ts mk = .ok mk' ∧
      (∀ l, mk'.xy.testBit l = (mk.xy.testBit l || decide (l ∈ xyOf (factors ps ts)))) ∧
      (∀ l, mk'.yz.testBit l = (mk.yz.testBit l || decide (l ∈ yzOf (factors ps ts)))) ∧
      mk'.yCount = mk.yCount + yOf (factors ps ts) := by
  intro ps
  induction ps with
  | nil =>
    intro ts mk _
    exact ⟨mk, rfl, by simp [factors, xyOf], by simp [factors, yzOf], by simp [factors, yOf]⟩
  | cons p ps ih =>
    intro ts mk hlen
    cases ts with
    | nil => simp at hlen
    | cons t ts =>
      have hlen' : ps.length ≤ ts.length := by simpa using hlen
      have hset : ∀ (n l : ℕ) (L : List ℕ), ((setBit n t true).testBit l || decide (l ∈ L)) =
          (n.testBit l || decide (l ∈ t :: L)) := by
        intro n l L
        rw [testBit_setBit]
        by_cases h : l = t
        · subst h; simp
        · simp [h]
      cases p
      · obtain ⟨mk', h1, h2, h3, h4⟩ := ih ts mk hlen'
        exact ⟨mk', h1, h2, h3, h4⟩
      · obtain ⟨mk', h1, h2, h3, h4⟩ := ih ts { mk with xy := setBit mk.xy t true } hlen'
        refine ⟨mk', h1, ?_, h3, h4⟩
        intro l; rw [h2, hset]; rfl
      · obtain ⟨mk', h1, h2, h3, h4⟩ := ih ts { mk with yz := setBit mk.yz t true } hlen'
        refine ⟨mk', h1, h2, ?_, h4⟩
        intro l; rw [h3, hset]; rfl
      · obtain ⟨mk', h1, h2, h3, h4⟩ := ih ts
          { xy := setBit mk.xy t true, yz := setBit mk.yz t true, yCount := mk.yCount + 1 } hlen'
        refine ⟨mk', h1, ?_, ?_, ?_⟩
        · intro l; rw [h2, hset]; rfl
        · intro l; rw [h3, hset]; rfl
        · rw [h4]
          show mk.yCount + 1 + yOf (factors ps ts) = mk.yCount + (yOf (factors ps ts) + 1)
          omega

theorem adjacentDup_sorted {l : List ℕ} (h : l.Pairwise (· ≤ ·)) : adjacentDup l = false ↔ l.Nodup := by
  induction l with
  | nil => simp [adjacentDup]
  | cons a l ih =>
    rw [List.pairwise_cons] at h
    cases l with
    | nil => simp [adjacentDup]
    | cons b l =>
      rw [adjacentDup, Bool.or_eq_false_iff, ih h.2, List.nodup_cons (a := a)]
      simp only [beq_eq_false_iff_ne]
      constructor
      · rintro ⟨h1, h2⟩
        refine ⟨?_, h2⟩
        intro hm
        have hab := h.1 b (by simp)
        rcases List.mem_cons.1 hm with rfl | hm
        · exact h1 rfl
        · have := (List.pairwise_cons.1 h.2).1 a hm
          omega
      · rintro ⟨h1, h2⟩
        exact ⟨fun h => h1 (by simp [h]), h2⟩

theorem expCheckDup_eq (cs ts : List ℕ) :
    expCheckDup cs ts = if (cs ++ ts).Nodup then .ok () else .error .duplicateQubit := by
  unfold expCheckDup
  have hs : ((cs ++ ts).mergeSort (fun a b => decide (a ≤ b))).Pairwise (· ≤ ·) := by
    have := List.pairwise_mergeSort (le := fun a b : ℕ => decide (a ≤ b))
      (by intro a b c; simp only [decide_eq_true_eq]; omega)
      (by intro a b; simp only [Bool.or_eq_true, decide_eq_true_eq]; omega) (cs ++ ts)
    exact this.imp (by intro a b; simp)
  have h1 := adjacentDup_sorted hs
  have h2 : ((cs ++ ts).mergeSort (fun a b => decide (a ≤ b))).Nodup ↔ (cs ++ ts).Nodup :=
    (List.mergeSort_perm _ _).nodup_iff
  rw [h2] at h1
  by_cases h : (cs ++ ts).Nodup
  · rw [if_pos h, h1.2 h]; simp
  · rw [if_neg h, if_pos]
    by_contra hc
    exact h (h1.1 (by simpa using hc))

/-! ### Locations and identifiers -/

theorem mem_locs_iff {m : IMap ℕ} (hm : Inj m) {ids locs : List ℕ}
    (h : List.Forall₂ (fun i l => m.get i = some l) ids locs) {q l : ℕ} (hq : m.get q = some l) :
    l ∈ locs ↔ q ∈ ids := by
  constructor
  · intro hl
    by_contra hn
    exact not_mem_locs hm h hq hn hl
  · intro hi
    induction h with
    | nil => simp at hi
    | cons h1 _ ih =>
      rcases List.mem_cons.1 hi with rfl | hi
      · rw [hq] at h1; cases h1; simp
      · exact List.mem_cons_of_mem _ (ih hi)

theorem factors_forall₂ {m : IMap ℕ} {ts tsl : List ℕ}
    (h : List.Forall₂ (fun i l => m.get i = some l) ts tsl) (ps : List MPauli) (f : Pauli → Bool) :
    List.Forall₂ (fun i l => m.get i = some l)
      (((factors ps ts).filter (fun p => f p.1)).map Prod.snd)
      (((factors ps tsl).filter (fun p => f p.1)).map Prod.snd) := by
  unfold factors
  induction h generalizing ps with
  | nil => simp
  | cons h1 _ ih =>
    cases ps with
    | nil => simp
    | cons p ps =>
      simp only [List.map_cons, List.zip_cons_cons, List.filter_cons]
      split
      · simp only [List.map_cons]; exact .cons h1 (ih ps)
      · exact ih ps

theorem yOf_congr {ts tsl : List ℕ} (h : ts.length = tsl.length) (ps : List MPauli) :
    yOf (factors ps tsl) = yOf (factors ps ts) := by
  induction ts generalizing tsl ps with
  | nil =>
    cases tsl with
    | nil => rfl
    | cons => simp at h
  | cons t ts ih =>
    cases tsl with
    | nil => simp at h
    | cons t' tsl =>
      cases ps with
      | nil => rfl
      | cons p ps =>
        have := ih (tsl := tsl) (by simpa using h) ps
        unfold yOf factors at this ⊢
        simp only [List.map_cons, List.zip_cons_cons, List.filter_cons]
        split
        · simp only [List.length_cons]; rw [this]
        · exact this

theorem factors_snd_sublist (ps : List MPauli) (ts : List ℕ) :
    ((factors ps ts).map Prod.snd).Sublist ts := by
  unfold factors
  generalize ps.map MPauli.spec = L
  induction ts generalizing L with
  | nil => cases L <;> simp
  | cons t ts ih =>
    cases L with
    | nil => simp
    | cons p L =>
      simp only [List.zip_cons_cons, List.map_cons]
      exact (ih L).cons_cons t

theorem idBits_xor {m : IMap ℕ} (hm : Inj m) {ids locs : List ℕ}
    (h : List.Forall₂ (fun i l => m.get i = some l) ids locs) {xy : ℕ}
    (hx : ∀ l, xy.testBit l = decide (l ∈ locs)) (k : ℕ) :
    idBits m (k ^^^ xy) = flipAll ids (idBits m k) := by
  funext q
  unfold flipAll idBits
  cases hq : m.get q with
  | none =>
    have : q ∉ ids := by
      intro hc
      have := alloc_of_forall₂ h q hc
      rw [hq] at this; cases this
    simp [this]
  | some l =>
    simp only [Nat.testBit_xor, hx, mem_locs_iff hm h hq]
    by_cases hc : q ∈ ids <;> simp [hc]

/-- What the state update needs to know about the masks. -/
structure MaskOk (m : IMap ℕ) (cs csl : List ℕ) (F : List (Pauli × ℕ)) (mk : ExpMasks) : Prop where
  inj : Inj m
  ctl : List.Forall₂ (fun i l => m.get i = some l) cs csl
  nodup : (F.map Prod.snd).Nodup
  disj : ∀ c ∈ cs, c ∉ F.map Prod.snd
  xy : ∀ k, idBits m (k ^^^ mk.xy) = flipAll (xyOf F) (idBits m k)
  yz : ∀ k, oddParity k mk.yz = parity (yzOf F) (idBits m k)
  y : mk.yCount = yOf F
  bits : ∀ l, mk.xy.testBit l = true → (∃ i, i ∉ cs ∧ m.get i = some l)

theorem MaskOk.entry {m : IMap ℕ} {cs csl : List ℕ} {F : List (Pauli × ℕ)} {mk : ExpMasks}
    (h : MaskOk m cs csl F mk) (θ : ℝ) (k : ℕ) (v : ℂ) :
    expL cs F θ (entryWave m (k, v)) =
      if csl.all (fun c => k.testBit c) then
        (v * (Real.cos θ : ℂ)) • ket (idBits m k) +
          (v * (Complex.I * Real.sin θ * (Complex.I ^ yOf F * (if oddParity k mk.yz then -1 else 1)))) •
            ket (idBits m (k ^^^ mk.xy))
      else entryWave m (k, v) := by
  have hd : ∀ c ∈ cs, c ∉ xyOf F := fun c hc hx => h.disj c hc (mem_xyOf_snd hx)
  rw [entryWave, map_smul, expL_apply, ctrlExp_ket h.nodup hd, h.xy, h.yz]
  by_cases hc : csl.all (fun c => k.testBit c) = true
  · rw [if_pos hc, if_pos ((all_ctls_iff h.ctl k).1 hc), smul_add, smul_smul, smul_smul]; rfl
  · rw [if_neg hc, if_neg (fun h1 => hc ((all_ctls_iff h.ctl k).2 h1))]

theorem expCoeffs (θ : ℝ) : (⟨Real.cos θ, 0⟩ : ℂ) = (Real.cos θ : ℂ) ∧
    (⟨0, Real.sin θ⟩ : ℂ) = Complex.I * (Real.sin θ : ℂ) := by
  constructor
  · rfl
  · apply Complex.ext <;> simp [-Complex.ofReal_sin]

theorem expDiag_ne (θ : ℝ) : Complex.I * (Real.sin θ : ℂ) + (Real.cos θ : ℂ) ≠ 0 ∧
    2 * (Real.cos θ : ℂ) - (Complex.I * (Real.sin θ : ℂ) + (Real.cos θ : ℂ)) ≠ 0 := by
  have hsq := Real.sin_sq_add_cos_sq θ
  constructor
  · intro h
    have h1 := congrArg Complex.re h
    have h2 := congrArg Complex.im h
    simp [-Complex.ofReal_sin, -Complex.ofReal_cos] at h1 h2
    rw [h1, h2] at hsq; norm_num at hsq
  · intro h
    have h1 := congrArg Complex.re h
    have h2 := congrArg Complex.im h
    simp [-Complex.ofReal_sin, -Complex.ofReal_cos] at h1 h2
    have h3 : Real.cos θ = 0 := by linarith
    rw [h3, h2] at hsq; norm_num at hsq

theorem expState_diag {env : Env} (he : env.eps = 0) {m : IMap ℕ} {cs csl : List ℕ}
    {F : List (Pauli × ℕ)} {mk : ExpMasks} (h : MaskOk m cs csl F mk) (θ : ℝ) {st : List (ℕ × ℂ)}
    (hcore : Core m st) (hx : mk.xy = 0) :
    Core m (expState env csl mk θ st) ∧ view m (expState env csl mk θ st) = expL cs F θ (view m st) := by
  have hy : yOf F % 2 = 0 ∧ yOf F = 0 := by
    have h0 : xyOf F = [] := by
      cases hF : xyOf F with
      | nil => rfl
      | cons q L =>
        exfalso
        have hq : q ∈ xyOf F := by rw [hF]; simp
        have := congrFun (h.xy 0) q
        rw [hx, Nat.xor_zero] at this
        unfold flipAll at this
        rw [if_pos hq] at this
        cases hb : idBits m 0 q <;> rw [hb] at this <;> cases this
    have : yOf F = 0 := by
      unfold yOf
      rw [List.length_eq_zero_iff, List.filter_eq_nil_iff]
      intro p hp hY
      have : p.2 ∈ xyOf F := List.mem_map.2 ⟨p, List.mem_filter.2 ⟨hp, by
        have : p.1 = Pauli.Y := by simpa using hY
        rw [this]; rfl⟩, rfl⟩
      rw [h0] at this; simp at this
    exact ⟨by rw [this], this⟩
  unfold expState expDiag
  rw [if_pos hx]
  simp only [(expCoeffs θ).1, (expCoeffs θ).2, he, nearlyZero_zero]
  rw [if_neg (expDiag_ne θ).1, if_neg (expDiag_ne θ).2]
  constructor
  · apply hcore.mapKey
    intro e; split <;> rfl
  · apply view_map_of
    intro e _
    obtain ⟨k, v⟩ := e
    rw [h.entry, hx, Nat.xor_zero, hy.2]
    by_cases hc : csl.all (fun c => k.testBit c) = true
    · simp only [hc, if_true]
      cases hp : oddParity k mk.yz
      · simp only [if_true, entryWave, ← add_smul]
        congr 1; simp; ring
      · simp only [entryWave, ← add_smul]
        congr 1; simp; ring
    · simp only [hc, if_false]; rfl

theorem xor_testBit_ctl {m : IMap ℕ} {cs csl : List ℕ} {F : List (Pauli × ℕ)} {mk : ExpMasks}
    (h : MaskOk m cs csl F mk) (k : ℕ) :
    (csl.all fun c => (k ^^^ mk.xy).testBit c) = csl.all fun c => k.testBit c := by
  have hd : ∀ c ∈ cs, c ∉ xyOf F := fun c hc hx => h.disj c hc (mem_xyOf_snd hx)
  rw [Bool.eq_iff_iff, all_ctls_iff h.ctl, all_ctls_iff h.ctl, h.xy, ctrls_flipAll hd]

theorem pairing_exp {m : IMap ℕ} {cs csl : List ℕ} {F : List (Pauli × ℕ)} {mk : ExpMasks}
    (h : MaskOk m cs csl F mk) (hx : mk.xy ≠ 0) :
    Pairing (fun k => k ^^^ mk.xy) (fun k => csl.all fun c => k.testBit c)
      (fun k => decide (k < k ^^^ mk.xy)) where
  invol k := by rw [Nat.xor_assoc, Nat.xor_self, Nat.xor_zero]
  ne k := by
    intro hk
    apply hx
    have : k ^^^ (k ^^^ mk.xy) = k ^^^ k := by rw [hk]
    rwa [← Nat.xor_assoc, Nat.xor_self, Nat.zero_xor] at this
  ctl k := xor_testBit_ctl h k
  rep k := by
    have hne : k ^^^ mk.xy ≠ k := by
      intro hk
      apply hx
      have : k ^^^ (k ^^^ mk.xy) = k ^^^ k := by rw [hk]
      rwa [← Nat.xor_assoc, Nat.xor_self, Nat.zero_xor] at this
    simp only [Nat.xor_assoc, Nat.xor_self, Nat.xor_zero]
    by_cases hlt : k < k ^^^ mk.xy
    · simp [hlt, Nat.le_of_lt hlt]
    · have : k ^^^ mk.xy < k := by omega
      simp [hlt, this]

theorem oddParity_xor {m : IMap ℕ} {cs csl : List ℕ} {F : List (Pauli × ℕ)} {mk : ExpMasks}
    (h : MaskOk m cs csl F mk) (k : ℕ) :
    (if oddParity (k ^^^ mk.xy) mk.yz then (-1 : ℂ) else 1) =
      (if oddParity k mk.yz then -1 else 1) * (if yOf F % 2 = 0 then 1 else -1) := by
  rw [h.yz, h.yz, h.xy, parity_flip, parity_yz_xy h.nodup]
  rcases Nat.mod_two_eq_zero_or_one (yOf F) with hy | hy
  · simp [hy]
  · cases parity (yzOf F) (idBits m k) <;> simp [hy]

theorem mem_prune {P : Prop} [Decidable P] {z : ℂ} {i k : ℕ}
    (h : k ∈ (if P then [] else [(i, z)] : List (ℕ × ℂ)).map Prod.fst) : k = i := by
  split at h
  · simp at h
  · simpa using h

theorem nodup_prune {P Q : Prop} [Decidable P] [Decidable Q] {z w : ℂ} {i j : ℕ} (h : i ≠ j) :
    (((if P then [] else [(i, z)] : List (ℕ × ℂ)) ++ (if Q then [] else [(j, w)])).map Prod.fst).Nodup := by
  by_cases hP : P <;> by_cases hQ : Q <;> simp [hP, hQ, h]

theorem expState_mixed {env : Env} (he : env.eps = 0) {m : IMap ℕ} {cs csl : List ℕ}
    {F : List (Pauli × ℕ)} {mk : ExpMasks} (h : MaskOk m cs csl F mk) (θ : ℝ) {st : List (ℕ × ℂ)}
    (hcore : Core m st) (hx : mk.xy ≠ 0) :
    Core m (expState env csl mk θ st) ∧ view m (expState env csl mk θ st) = expL cs F θ (view m st) := by
  unfold expState
  rw [if_neg hx]
  simp only
  rw [← view_shuffled hcore env]
  have hcore' := hcore.shuffled env
  generalize env.shuffle (collectMap st) = l at *
  have hp := pairing_exp h hx
  have hne := hp.ne
  rw [he, (expCoeffs θ).1, (expCoeffs θ).2, yPhase_eq, h.y]
  set pc : ℂ := Complex.I * (Real.sin θ : ℂ) * Complex.I ^ yOf F with hpc
  have h2 : ∀ e ∈ l, ∀ k ∈ ((expEntry 0 l csl mk.xy mk.yz (Real.cos θ : ℂ) pc
      (if yOf F % 2 = 0 then pc else -pc) e).map Prod.fst),
      k = e.1 ∨ ((csl.all fun c => e.1.testBit c) = true ∧ k = e.1 ^^^ mk.xy) := by
    intro e _ k hk
    unfold expEntry at hk
    split at hk
    · rename_i hc
      simp only at hk
      split at hk
      · simp only [List.map_cons, List.map_nil, List.mem_cons, List.not_mem_nil, or_false] at hk
        rcases hk with rfl | rfl
        · left; rfl
        · right; exact ⟨hc, rfl⟩
      · split at hk
        · rw [List.map_append, List.mem_append] at hk
          rcases hk with hk | hk
          · left; exact mem_prune hk
          · right; exact ⟨hc, mem_prune hk⟩
        · simp at hk
    · left; simpa using hk
  constructor
  · refine ⟨hcore'.inj, ?_, ?_⟩
    · refine pair_nodup hcore'.nodup _ hp ?_ h2 ?_
      · intro e _
        have hn1 : e.1 ≠ e.1 ^^^ mk.xy := fun hc => hne e.1 hc.symm
        unfold expEntry
        split
        · simp only
          split
          · simp only [List.map_cons, List.map_nil]
            simp [hn1]
          · split
            · exact nodup_prune hn1
            · simp
        · simp
      · intro e _ w hc hw hr
        have hr' : ¬ e.1 < e.1 ^^^ mk.xy := by simpa using hr
        simp only [expEntry, hc, if_true, hw, hr', if_false]
    · intro e hm
      obtain ⟨e', he', hm'⟩ := List.mem_flatMap.1 hm
      rcases h2 e' he' e.1 (List.mem_map.2 ⟨e, hm', rfl⟩) with h1 | ⟨_, h1⟩
      · rw [h1]; exact hcore'.bits e' he'
      · rw [h1]
        intro b hb
        rw [Nat.testBit_xor] at hb
        cases hxb : mk.xy.testBit b
        · rw [hxb] at hb; exact hcore'.bits e' he' b (by simpa using hb)
        · obtain ⟨i, _, hi⟩ := h.bits b hxb; exact ⟨i, hi⟩
  · rw [pair_sum hcore'.nodup (expL cs F θ) _ (fun _ => 0) hp]
    · simp
    · intro e _ hc
      obtain ⟨k, v⟩ := e
      simp only at hc
      rw [h.entry]
      simp only [expEntry, hc, Bool.false_eq_true, if_false]
      simp [view]
    · intro e _ hc hw
      obtain ⟨k, v⟩ := e
      simp only at hc hw
      rw [h.entry]
      simp only [expEntry, hc, if_true, hw]
      simp only [view, List.map_cons, List.map_nil, List.sum_cons, List.sum_nil, add_zero, entryWave]
      congr 2
      cases oddParity k mk.yz <;> simp [hpc]
    · intro e _ w hc hw hr
      obtain ⟨k, v⟩ := e
      simp only at hc hw hr
      have hc' : (csl.all fun c => (k ^^^ mk.xy).testBit c) = true := by rw [xor_testBit_ctl h]; exact hc
      have hr' : k < k ^^^ mk.xy := by simpa using hr
      rw [h.entry, h.entry, if_pos hc, if_pos hc', Nat.xor_assoc, Nat.xor_self, Nat.xor_zero,
        oddParity_xor h]
      simp only [expEntry, hc, if_true, hw, hr', view_append, add_zero]
      have hprune : ∀ (z : ℂ) (i : ℕ), view m (if NearlyZero 0 z then [] else [(i, z)]) =
          z • ket (idBits m i) := by
        intro z i
        by_cases hz : z = 0
        · rw [if_pos ((nearlyZero_zero z).2 hz)]; simp [hz]
        · rw [if_neg (fun h => hz ((nearlyZero_zero z).1 h))]; simp [view, entryWave]
      rw [hprune, hprune]
      have e1 : (v * (Real.cos θ : ℂ) + w * (if oddParity k mk.yz = true then
          -(if yOf F % 2 = 0 then pc else -pc) else (if yOf F % 2 = 0 then pc else -pc))) =
          v * (Real.cos θ : ℂ) + w * (Complex.I * (Real.sin θ : ℂ) * (Complex.I ^ yOf F *
            ((if oddParity k mk.yz then -1 else 1) * (if yOf F % 2 = 0 then 1 else -1)))) := by
        rw [hpc]
        cases oddParity k mk.yz <;> by_cases hy : yOf F % 2 = 0 <;> simp [hy] <;> ring
      have e2 : (w * (Real.cos θ : ℂ) + v * (if oddParity k mk.yz = true then -pc else pc)) =
          w * (Real.cos θ : ℂ) + v * (Complex.I * (Real.sin θ : ℂ) * (Complex.I ^ yOf F *
            (if oddParity k mk.yz then -1 else 1))) := by
        rw [hpc]
        cases oddParity k mk.yz <;> simp <;> ring
      rw [e1, e2, add_smul, add_smul]
      abel
    · intro e _ w hc hw hr
      have hr' : ¬ e.1 < e.1 ^^^ mk.xy := by simpa using hr
      simp only [expEntry, hc, if_true, hw, hr', if_false]
    · intro e _ _; rfl

end Qir
