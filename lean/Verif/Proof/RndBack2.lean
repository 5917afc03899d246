import Verif.Proof.RndBack
import Verif.Props.TVDefs

/-! The backend with rounded arithmetic: composite gates. -/

noncomputable section
namespace Qir.RBack
open Spec Sim Qir.Out Rnd
open Tol (Iso iso_ctrl iso_gate iso_one iso_exp iso_swap)
open Qir.Back (Backend Fmt Stop act ask ensure ensureAll lift silent forEach grow resultPtr nonIdentity ensureAll_cons
  useAll_cons use_psi apply_psi_mul)

variable {A : Arith} {N : ℕ} {B : ℝ} {s s' : Backend} {δ δ' δ'' : Device}

/-- A function that only needs to know the bookkeeping. -/
def Does (A : Arith) (N : ℕ) (B : ℝ) (f : Backend → Except Stop Backend) (δ δ' : Device) (U : Module.End ℂ Wave)
    (k : ℕ) : Prop :=
  ∀ s, Like s δ → Low B s.sim → Runs A N B f s δ' U k

theorem Does.bind (hf : Fine A) {f g : Backend → Except Stop Backend} {U V : Module.End ℂ Wave} {k m : ℕ}
    (h : Does A N B f δ δ' U k) (h' : Does A N B g δ' δ'' V m) (hV : Iso V) :
    Does A N B (fun s => f s >>= g) δ δ'' (V * U) (k + m) := by
  intro s h1 h2
  obtain ⟨s1, e1, m1⟩ := h s h1 h2
  obtain ⟨s2, e2, m2⟩ := h' s1 m1.like m1.low
  exact ⟨s2, fun r => by show f (rs r s) >>= g = _; rw [e1 r]; exact e2 r, m1.trans hf m2 hV⟩

theorem Does.id : Does A N B (fun s => .ok s) δ δ 1 0 :=
  fun s h1 h2 => ⟨s, fun _ => rfl, .refl h1 h2⟩

theorem Does.mono {f : Backend → Except Stop Backend} {U : Module.End ℂ Wave} {k m : ℕ} (h : Does A N B f δ δ' U k)
    (hk : k ≤ m) : Does A N B f δ δ' U m := by
  intro s h1 h2
  obtain ⟨s1, e1, m1⟩ := h s h1 h2
  exact ⟨s1, e1, m1.mono hk⟩

theorem Does.phase {f : Backend → Except Stop Backend} {U V : Module.End ℂ Wave} {k : ℕ} (h : Does A N B f δ δ' U k)
    {w : ℂ} (hw : ‖w‖ = 1) (hU : ∀ ψ, V ψ = w • U ψ) : Does A N B f δ δ' V k := by
  intro s h1 h2
  obtain ⟨s1, e1, m1⟩ := h s h1 h2
  exact ⟨s1, e1, m1.phase hw hU⟩

theorem Does.eq {f : Backend → Except Stop Backend} {U V : Module.End ℂ Wave} {k : ℕ} (h : Does A N B f δ δ' U k)
    (hU : ∀ ψ, V ψ = U ψ) : Does A N B f δ δ' V k :=
  h.phase (w := 1) (by simp) (fun ψ => by rw [hU, one_smul])

/-! ### Qubits in use -/

theorem use_live (hl : ∀ q ∈ δ.live, q < δ.high) {q : ℕ} (hq : q ∈ δ.live) : δ.use q = δ := if_pos (hl q hq)

/-- What is known about a device. -/
structure Ready (A : Arith) (N : ℕ) (B : ℝ) (δ : Device) : Prop where
  low : ∀ q ∈ δ.live, q < δ.high
  card : δ.live.card ≤ N
  pos : 0 ≤ B
  angle : A.u * B + A.eta ≤ A.eps

theorem use_low' {q : ℕ} (hl : ∀ q ∈ δ.live, q < δ.high) : ∀ i ∈ (δ.use q).live, i < (δ.use q).high := by
  intro i hi
  unfold Device.use at hi ⊢
  split at hi
  · rename_i h; rw [if_pos h]; exact hl i hi
  · rename_i h; rw [if_neg h]; exact Finset.mem_range.1 hi

theorem Ready.of_use {q : ℕ} (hl : ∀ q ∈ δ.live, q < δ.high) (h : Ready A N B (δ.use q)) : Ready A N B δ :=
  ⟨hl, (card_use hl q).trans h.card, h.pos, h.angle⟩

theorem gate_does (hf : Fine A) {q : ℕ} (h : Ready A N B (δ.use q)) (hq : δ.Usable q)
    (g : Gate) (hg : ∀ θ, g ≠ .rx θ ∧ g ≠ .ry θ) :
    Does A N B (gate A g q) δ (δ.use q) (gateL g.mat q) 6 :=
  fun _ h1 h2 => gate_plain hf h1 h.pos h2 hq h.card g h.angle hg

theorem gate_does' (hf : Fine A) {q : ℕ} (h : Ready A N B δ) (hq : q ∈ δ.live) (g : Gate)
    (hg : ∀ θ, g ≠ .rx θ ∧ g ≠ .ry θ) : Does A N B (gate A g q) δ δ (gateL g.mat q) 6 := by
  have := gate_does (A := A) (N := N) (B := B) hf (by rw [use_live h.low hq]; exact h) (.inl hq) g hg
  rwa [use_live h.low hq] at this

theorem call_does (hf : Fine A) {q : ℕ} (h : Ready A N B δ) (hq : q ∈ δ.live) (g : Gate)
    (hg : ∀ θ, g ≠ .rx θ ∧ g ≠ .ry θ) : Does A N B (act (gateCall A q g)) δ δ (gateL g.mat q) 6 :=
  fun _ h1 h2 => gateCall_plain hf h1 h.card h.pos h2 hq g h.angle hg

theorem ctl_does (hf : Fine A) {cs : List ℕ} {q : ℕ} (h : Ready A N B (δ.useAll (q :: cs)))
    (hn : (cs ++ [q]).Nodup) (hu : ∀ i ∈ cs ++ [q], δ.Usable i) (g : Gate) :
    Does A N B (ctl A g cs q) δ (δ.useAll (q :: cs)) (ctrlL cs g.mat q) (5 * cs.length + 7) :=
  fun _ h1 h2 => ctl_runs hf h1 h.pos h2 hn hu h.card g h.angle

theorem iso_g (g : Gate) (q : ℕ) : Iso (gateL g.mat q) := iso_gate (isom_gate g) q

theorem gateL_mul3 (q : ℕ) (U V W : Mat2) (ψ : Wave) :
    gateL U q (gateL V q (gateL W q ψ)) = gateL (U * (V * W)) q ψ := by
  show ctrl [] U q (ctrl [] V q (ctrl [] W q ψ)) = ctrl [] _ q ψ
  rw [apply_psi_mul, apply_psi_mul, Matrix.mul_assoc]

/-- `H`, `S` or its inverse, `H`. -/
theorem hsh_does (hf : Fine A) {q : ℕ} (hl : ∀ q ∈ δ.live, q < δ.high) (h : Ready A N B (δ.use q)) (hq : δ.Usable q)
    (g : Gate) (hg : ∀ θ, g ≠ .rx θ ∧ g ≠ .ry θ) :
    Does A N B (fun s => gate A .h q s >>= fun s => gate A g q s >>= gate A .h q) δ (δ.use q)
      (gateL (matH * (g.mat * matH)) q) 18 := by
  have hm := Back.mem_use hl hq
  refine ((gate_does hf h hq .h (by simp)).bind hf ((gate_does' hf h hm g hg).bind hf
    (gate_does' hf h hm .h (by simp)) (iso_g _ _)) ((iso_g .h q).mul (iso_g g q))).eq fun ψ => ?_
  exact (gateL_mul3 q _ _ _ ψ).symm

theorem sx_does (hf : Fine A) {q : ℕ} (hl : ∀ q ∈ δ.live, q < δ.high) (h : Ready A N B (δ.use q)) (hq : δ.Usable q) :
    Does A N B (sx A q) δ (δ.use q) (gateL matSx q) 18 := by
  have := hsh_does (A := A) hf hl h hq .s (by simp)
  rw [show Gate.s.mat = matS from rfl, H_S_H] at this
  exact this

theorem rzz_does (hf : Fine A) {a b : ℕ} (hl : ∀ q ∈ δ.live, q < δ.high) (h : Ready A N B (δ.useAll [a, b]))
    (hab : a ≠ b) (ha : δ.Usable a) (hb : δ.Usable b) (θ : ℝ) :
    Does A N B (rzz A θ a b) δ (δ.useAll [a, b]) (expL [] [(.Z, a), (.Z, b)] (-(θ / 2))) 30 := by
  have hn : ([b] ++ [a]).Nodup := by simp [hab.symm]
  have hb' := Back.usable_use hl ha hb
  have hla : a ∈ (δ.useAll [a, b]).live := Back.live_use (use_low' hl) (Back.mem_use hl ha)
  have hlb : b ∈ (δ.useAll [a, b]).live := Back.mem_use (use_low' hl) hb'
  have hs : (δ.useAll [a, b]).useAll [a, b] = δ.useAll [a, b] :=
    Back.apply_live [a, b] (by simp [hla, hlb]) h.low
  have h1 := ctl_does (cs := [b]) (q := a) hf h hn (by simp [ha, hb]) .x
  have h3 := ctl_does (A := A) (N := N) (B := B) (δ := δ.useAll [a, b]) (cs := [b]) (q := a) hf (by rw [hs]; exact h) hn
    (fun i hi => .inl (by
      simp only [List.cons_append, List.nil_append, List.mem_cons, List.not_mem_nil, or_false] at hi
      rcases hi with rfl | rfl <;> assumption)) .x
  rw [hs] at h3
  refine ((h1.bind hf ((gate_does' hf h hla (.rz θ) (by simp)).bind hf h3
    (iso_ctrl (isom_gate _) (by simp [hab]))) ((iso_ctrl (isom_gate _) (by simp [hab])).mul (iso_g _ _))).mono
    (by norm_num)).eq fun ψ => ?_
  exact (cx_rz_cx hab θ ψ).symm

theorem rxx_does (hf : Fine A) {a b : ℕ} (hl : ∀ q ∈ δ.live, q < δ.high) (h : Ready A N B (δ.useAll [a, b]))
    (hab : a ≠ b) (ha : δ.Usable a) (hb : δ.Usable b) (θ : ℝ) :
    Does A N B (rxx A θ a b) δ (δ.useAll [a, b]) (expL [] [(.X, a), (.X, b)] (-(θ / 2))) 54 := by
  have hl' := use_low' (q := a) hl
  have hb' := Back.usable_use hl ha hb
  have hla : a ∈ (δ.useAll [a, b]).live := Back.live_use hl' (Back.mem_use hl ha)
  have hlb : b ∈ (δ.useAll [a, b]).live := Back.mem_use hl' hb'
  have hs : (δ.useAll [a, b]).useAll [a, b] = δ.useAll [a, b] :=
    Back.apply_live [a, b] (by simp [hla, hlb]) h.low
  have h1 := gate_does (A := A) hf (Ready.of_use hl' h) ha .h (by simp)
  have h2 := gate_does (A := A) (δ := δ.use a) hf h hb' .h (by simp)
  have h3 := rzz_does (A := A) (N := N) (B := B) (δ := δ.useAll [a, b]) hf h.low (by rw [hs]; exact h) hab (.inl hla) (.inl hlb) θ
  rw [hs] at h3
  have h4 := gate_does' (A := A) hf h hlb .h (by simp)
  have h5 := gate_does' (A := A) hf h hla .h (by simp)
  have i3 : Iso (expL [] [(.Z, a), (.Z, b)] (-(θ / 2))) := iso_exp (by simp [hab]) (by simp) _
  have hn : (List.map Prod.snd [(Pauli.X, a), (Pauli.X, b)]).Nodup := by simp [hab]
  refine ((h1.bind hf (h2.bind hf (h3.bind hf (h4.bind hf h5 (iso_g _ _)) ((iso_g _ _).mul (iso_g _ _)))
    (((iso_g _ _).mul (iso_g _ _)).mul i3)) ((((iso_g _ _).mul (iso_g _ _)).mul i3).mul (iso_g _ _))).mono
    (by norm_num)).eq fun ψ => ?_
  have e := exp_mapL (ps := [(.X, a), (.X, b)]) hn (by simp) (-(θ / 2)) ψ
  have hc : ∀ φ : Wave, ctrl [] matH a (ctrl [] matH b φ) = ctrl [] matH b (ctrl [] matH a φ) := fun φ =>
    LinearMap.congr_fun (ctrlL_comm_gateL (cs := []) (q := a) (r := b) hab.symm (by simp) matH matH) φ
  show ctrlExp [] [(.X, a), (.X, b)] (-(θ / 2)) ψ = ctrl [] matH a (ctrl [] matH b
    (ctrlExp [] [(.Z, a), (.Z, b)] (-(θ / 2)) (ctrl [] matH b (ctrl [] matH a ψ))))
  rw [← e, hc]
  rfl

theorem Does.congr {f g : Backend → Except Stop Backend} {U : Module.End ℂ Wave} {k : ℕ} (h : Does A N B f δ δ' U k)
    (hg : ∀ s, g s = f s) : Does A N B g δ δ' U k := by
  rw [funext hg]; exact h

theorem ryy_does (hf : Fine A) {a b : ℕ} (hl : ∀ q ∈ δ.live, q < δ.high) (h : Ready A N B (δ.useAll [a, b]))
    (hab : a ≠ b) (ha : δ.Usable a) (hb : δ.Usable b) (θ : ℝ) :
    Does A N B (ryy A θ a b) δ (δ.useAll [a, b]) (expL [] [(.Y, a), (.Y, b)] (-(θ / 2))) 102 := by
  have hl' := use_low' (q := a) hl
  have hb' := Back.usable_use hl ha hb
  have hla : a ∈ (δ.useAll [a, b]).live := Back.live_use hl' (Back.mem_use hl ha)
  have hlb : b ∈ (δ.useAll [a, b]).live := Back.mem_use hl' hb'
  have hs : (δ.useAll [a, b]).useAll [a, b] = δ.useAll [a, b] :=
    Back.apply_live [a, b] (by simp [hla, hlb]) h.low
  have ua : (δ.useAll [a, b]).use a = δ.useAll [a, b] := use_live h.low hla
  have ub : (δ.useAll [a, b]).use b = δ.useAll [a, b] := use_live h.low hlb
  have h1 := hsh_does (A := A) hf hl (Ready.of_use hl' h) ha .s (by simp)
  have h2 := hsh_does (A := A) (δ := δ.use a) hf hl' h hb' .s (by simp)
  have h3 := rzz_does (A := A) (N := N) (B := B) (δ := δ.useAll [a, b]) hf h.low (by rw [hs]; exact h) hab (.inl hla) (.inl hlb) θ
  rw [hs] at h3
  have h4 := hsh_does (A := A) (N := N) (B := B) (q := b) hf h.low (by rw [ub]; exact h) (.inl hlb) .sadj (by simp)
  have h5 := hsh_does (A := A) (N := N) (B := B) (q := a) hf h.low (by rw [ua]; exact h) (.inl hla) .sadj (by simp)
  rw [ub] at h4
  rw [ua] at h5
  rw [show Gate.s.mat = matS from rfl, H_S_H] at h1 h2
  rw [show Gate.sadj.mat = matSadj from rfl, H_Sadj_H] at h4 h5
  have i3 : Iso (expL [] [(.Z, a), (.Z, b)] (-(θ / 2))) := iso_exp (by simp [hab]) (by simp) _
  have ia : ∀ q, Iso (gateL matSxAdj q) := fun q => iso_gate isom_SxAdj q
  have ib : ∀ q, Iso (gateL matSx q) := fun q => iso_gate isom_Sx q
  have hn : (List.map Prod.snd [(Pauli.Y, a), (Pauli.Y, b)]).Nodup := by simp [hab]
  refine (((h1.bind hf (h2.bind hf (h3.bind hf (h4.bind hf h5 (ia a)) ((ia a).mul (ia b)))
    (((ia a).mul (ia b)).mul i3)) ((((ia a).mul (ia b)).mul i3).mul (ib b))).mono
    (m := 102) (by norm_num)).congr ?_).eq fun ψ => ?_
  · intro s
    simp only [ryy, bind_assoc]
  have e := exp_mapL (ps := [(.Y, a), (.Y, b)]) hn (by simp) (-(θ / 2)) ψ
  have hc : ∀ φ : Wave, ctrl [] matSxAdj a (ctrl [] matSxAdj b φ) = ctrl [] matSxAdj b (ctrl [] matSxAdj a φ) :=
    fun φ => LinearMap.congr_fun
      (ctrlL_comm_gateL (cs := []) (q := a) (r := b) hab.symm (by simp) matSxAdj matSxAdj) φ
  show ctrlExp [] [(.Y, a), (.Y, b)] (-(θ / 2)) ψ = ctrl [] matSxAdj a (ctrl [] matSxAdj b
      (ctrlExp [] [(.Z, a), (.Z, b)] (-(θ / 2)) (ctrl [] matSx b (ctrl [] matSx a ψ))))
  rw [← e, hc]
  rfl

/-! ### Rotations, phases, exponentials, exchanges -/

theorem useAll_low (qs : List ℕ) : ∀ {δ : Device}, (∀ q ∈ δ.live, q < δ.high) →
    ∀ i ∈ (δ.useAll qs).live, i < (δ.useAll qs).high := by
  induction qs with
  | nil => intro δ h; exact h
  | cons q qs ih => intro δ h; exact ih (use_low' h)

/-- The exact phase beside the one computed. -/
theorem phase_err (A : Arith) (x : ℝ) : ‖(⟨A.cos x, A.sin x⟩ : ℂ) - Complex.exp (Complex.mk 0 x)‖ ≤ 30 * A.v := by
  have h := norm_le_add_abs ((⟨A.cos x, A.sin x⟩ : ℂ) - Complex.exp (Complex.mk 0 x))
  have h1 := A.cos_err x
  have h2 := A.sin_err x
  have h3 := A.u_nonneg
  have h4 := A.eta_nonneg
  rw [show Complex.mk 0 x = ((x : ℝ) : ℂ) * Complex.I by apply Complex.ext <;> simp] at h ⊢
  simp only [Complex.sub_re, Complex.sub_im, Complex.exp_ofReal_mul_I_re, Complex.exp_ofReal_mul_I_im] at h
  unfold Arith.v
  linarith

theorem mcphase_does (hf : Fine A) {cs : List ℕ} {q : ℕ} (h : Ready A N B δ) (hn : (cs ++ [q]).Nodup)
    (hu : ∀ i ∈ cs ++ [q], i ∈ δ.live) (θ : ℝ) :
    Does A N B (act (mcphase A cs ⟨A.cos θ, A.sin θ⟩ q)) δ δ (ctrlL cs (matPhase (Complex.exp (Complex.mk 0 θ))) q)
      (5 * cs.length + 6) := by
  intro s h1 h2
  have hw : ‖Complex.exp (Complex.mk 0 θ)‖ = 1 := by
    rw [show Complex.mk 0 θ = ((θ : ℝ) : ℂ) * Complex.I by apply Complex.ext <;> simp]
    exact Complex.norm_exp_ofReal_mul_I _
  obtain ⟨m, h3, h4⟩ := mcphase_near hf h1.wf (cs := cs) (t := q) ⟨hn, h1.alloc hu⟩ ⟨A.cos θ, A.sin θ⟩ _ (phase_err A θ)
    (isom_phase_norm hw)
  exact act_runs hf h1 h.card (fun r => rel_mcphase _ _ _) h3 h4 (low_mcphase h2 _ _ _ _ h3)

theorem mcexp_does (hf : Fine A) {cs : List ℕ} {ps : List Pauli} {qs : List ℕ} (h : Ready A N B (δ.useAll (cs ++ qs)))
    (hn : (cs ++ qs).Nodup) (hu : ∀ i ∈ cs ++ qs, δ.Usable i) (hl : ps.length ≤ qs.length) (θ : ℝ) :
    Does A N B (expCtl A cs ps θ qs) δ (δ.useAll (cs ++ qs)) (expL cs (ps.zip qs) θ) (5 * (cs ++ qs).length + 1) := by
  intro s h1 h2
  obtain ⟨h3, k3, l3, _⟩ := h1.ensureAll (A := A) (cs ++ qs) hu
  obtain ⟨m, h4, h5⟩ := Rnd.mcexp_step hf h3.wf (ps := ps.map pauliArg) θ hn (h3.alloc l3) (by simpa using hl)
  rw [factors_pauliArg] at h5
  have := Runs.first (qs := cs ++ qs) k3 (act_runs hf h3 h.card (fun r => rel_mcexp _ _ _ _) h4 h5
    (low_mcexp (k3.low h2) _ _ _ _ _ h4))
  have ea : ∀ s, ensureAll (cs ++ qs) s = ensureAll qs (ensureAll cs s) := by simp [ensureAll]
  simp only [ea] at this
  exact this

theorem swap_does (hf : Fine A) {a b : ℕ} (h : Ready A N B (δ.useAll [a, b])) (ha : δ.Usable a) (hb : δ.Usable b) :
    Does A N B (swap A a b) δ (δ.useAll [a, b]) (swapL a b) 0 := by
  intro s h1 h2
  obtain ⟨h3, k3, l3, _⟩ := h1.ensureAll (A := A) [a, b] (by simp [ha, hb])
  obtain ⟨m, e1, e2, e3, _, e5⟩ := swapQubitIds_abs (A := A) hf h3.wf ((h3.live a).1 (l3 a (by simp)))
    ((h3.live b).1 (l3 b (by simp)))
  refine Runs.first (qs := [a, b]) (f := act (swapQubitIds A a b)) k3
    ⟨{ ensureAll [a, b] s with sim := m }, fun r => ?_, ⟨?_, low_swapQubitIds (k3.low h2) _ _ _ e1, 1, by simp, ?_⟩⟩
  · have := rel_swapQubitIds (A := A) (r := r) (s := (ensureAll [a, b] s).sim) a b
    unfold Rnd.Rel at this
    rw [e1] at this
    unfold act
    rw [show (rs r (ensureAll [a, b] s)).sim = rg r (ensureAll [a, b] s).sim from rfl, this]
    rfl
  · refine ⟨e2, fun q => ?_, h3.high, h3.low, h3.reg, h3.touched⟩
    rw [h3.live, ← e3]
  · rw [one_smul]
    exact Cost.widen hf e5 (by rw [h3.keys]; exact h.card)

end Qir.RBack
