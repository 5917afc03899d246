import Verif.Proof.RndBack2

/-! The backend with rounded arithmetic: every call that applies an operator, and the changes of basis. -/

noncomputable section
namespace Qir.RBack
open Spec Sim Qir.Out Rnd
open Tol (Iso iso_ctrl iso_gate iso_one iso_exp iso_swap)
open Qir.Back (Backend Fmt Stop act ask ensure ensureAll lift silent forEach grow resultPtr nonIdentity ensureAll_cons
  useAll_cons use_psi apply_psi_mul useAll_with useAll_psi)

variable {A : Arith} {N : ℕ} {B : ℝ} {s s' : Backend} {δ δ' δ'' : Device}

theorem norm_phase (θ : ℝ) : ‖Complex.exp ((θ : ℂ) * Complex.I)‖ = 1 := Complex.norm_exp_ofReal_mul_I _

theorem rCtl_does (hf : Fine A) {p : Pauli} {cs : List ℕ} {q : ℕ}
    (h : Ready A N B (δ.useAll (if p = .I ∧ cs = [] then [] else q :: cs))) (hn : (cs ++ [q]).Nodup)
    (hu : ∀ i ∈ cs ++ [q], δ.Usable i) (θ : ℝ) :
    Does A N B (rCtl A cs p θ q) δ (δ.useAll (if p = .I ∧ cs = [] then [] else q :: cs))
      (expL cs [(p, q)] (-(θ / 2))) (5 * cs.length + 7) := by
  have key : ∀ g : Gate, (∀ ψ, expL cs [(p, q)] (-(θ / 2)) ψ = ctrlL cs g.mat q ψ) → p ≠ .I →
      Does A N B (ctl A g cs q) δ (δ.useAll (if p = .I ∧ cs = [] then [] else q :: cs))
        (expL cs [(p, q)] (-(θ / 2))) (5 * cs.length + 7) := by
    intro g hg hp
    rw [if_neg (by tauto)] at h ⊢
    exact (ctl_does hf h hn hu g).eq hg
  cases p
  · cases cs with
    | nil =>
      intro s h1 h2
      refine ⟨s, fun _ => rfl, ((Moves.refl (N := N) h1 h2).phase (norm_phase (-(θ / 2))) fun ψ => ?_).mono (by simp)⟩
      exact ctrlExp_I q (-(θ / 2)) ψ
    | cons c cs =>
      intro s h1 h2
      rw [if_neg (by simp)] at h ⊢
      obtain ⟨h3, k3, l3, _⟩ := h1.ensureAll (A := A) (q :: c :: cs) (by
        intro i hi
        apply hu
        simp only [List.mem_cons, List.mem_append, List.cons_append] at hi ⊢
        tauto)
      have hnd : (cs ++ [c]).Nodup := by
        have : (c :: cs).Nodup := (List.nodup_append.1 hn).1
        rw [List.nodup_append]
        rw [List.nodup_cons] at this
        exact ⟨this.2, by simp, by rintro x hx y hy rfl; simp at hy; exact this.1 (hy ▸ hx)⟩
      have h4 := mcphase_does (A := A) (cs := cs) (q := c) hf h hnd (fun i hi => l3 i (by simp at hi ⊢; tauto)) (-θ / 2)
      have h5 := Runs.first k3 (h4 _ h3 (k3.low h2))
      obtain ⟨s', e1, e2⟩ := h5
      refine ⟨s', e1, (e2.eq fun ψ => ?_).mono (by simp; omega)⟩
      have e := ctrl_phase_I c cs q (-(θ / 2))
      show ctrlExp _ _ _ _ = ctrl _ _ _ _
      rw [← e, show -(θ / 2) = -θ / 2 by ring]
  · exact key (.rx θ) (fun ψ => congrFun (ctrl_Rx cs q θ).symm ψ) (by decide)
  · exact key (.rz θ) (fun ψ => congrFun (ctrl_Rz cs q θ).symm ψ) (by decide)
  · exact key (.ry θ) (fun ψ => congrFun (ctrl_Ry cs q θ).symm ψ) (by decide)

/-- The calls that apply an operator. -/
def IsOp : QCall → Prop
  | .gate _ _ | .ctl _ _ _ | .sx _ | .rxx _ _ _ | .ryy _ _ _ | .rzz _ _ _ | .r _ _ _ | .rAdj _ _ _ | .rCtl _ _ _ _
  | .rCtlAdj _ _ _ _ | .exp _ _ _ | .expAdj _ _ _ | .expCtl _ _ _ _ | .expCtlAdj _ _ _ _ | .swap _ _ => True
  | _ => False

theorem turn_nonneg' (hf : Fine A) (c : QCall) : 0 ≤ turn A c := by
  have := hf.pos
  unfold turn
  split <;> positivity

/-- What there is to say about a call that applies an operator. -/
def Applies (A : Arith) (N : ℕ) (B : ℝ) (fmt : Fmt) (c : QCall) (s : Backend) (δ : Device) : Prop :=
  ∃ U : Module.End ℂ Wave, Iso U ∧
    (∀ ψ, Device.step { δ with psi := ψ } c = .ok (.unit, [], { δ.useAll c.uses with psi := U ψ })) ∧
    ∃ s', (∀ r, qstep A fmt c (rs r s) = .ok (.unit, [], rs r s')) ∧
      Moves A N (B + turn A c) s s' (δ.useAll c.uses) U (effort c)

theorem Applies.intro {fmt : Fmt} {c : QCall} {f : Backend → Except Stop Backend} (hc : ∀ s, qstep A fmt c s = silent (f s))
    {U : Module.End ℂ Wave} (hU : Iso U) {k : ℕ} (hk : k ≤ effort c)
    (hs : ∀ ψ, Device.step { δ with psi := ψ } c = .ok (.unit, [], Device.apply c.uses U { δ with psi := ψ }))
    (h : Runs A N (B + turn A c) f s (δ.useAll c.uses) U k) : Applies A N B fmt c s δ := by
  obtain ⟨s', h1, h2⟩ := h
  refine ⟨U, hU, fun ψ => ?_, s', fun r => ?_, h2.mono hk⟩
  · rw [hs]
    unfold Device.apply
    rw [useAll_with]
  · rw [hc, h1]; rfl

/-- The rotation of a single qubit. -/
theorem r_runs (hf : Fine A) (h : Like s δ) (hB : 0 ≤ B) (hl : Low B s.sim) {p : Pauli} {q : ℕ} (hq : p = .I ∨ δ.Usable q)
    (hc : (δ.useAll (if p = .I then [] else [q])).live.card ≤ N) (θ : ℝ)
    (ht : A.u * (B + turn A (.r p θ q)) + A.eta ≤ A.eps)
    (hh : p = .Y → ¬ Rnd.HalfTurn A (s.sim.rxQ.get q)) :
    Runs A N (B + turn A (.r p θ q)) (r A p θ q) s (δ.useAll (if p = .I then [] else [q]))
      (expL [] [(p, q)] (-(θ / 2))) 6 := by
  cases p
  · refine ⟨s, fun _ => rfl, ((Moves.refl (N := N) h ?_).phase (norm_phase (-(θ / 2))) fun ψ => ?_).mono (by simp)⟩
    · show Low (B + 0) s.sim
      rw [add_zero]; exact hl
    · exact ctrlExp_I q (-(θ / 2)) ψ
  · obtain ⟨s', h1, h2⟩ := gate_runs hf h hB hl (hq.resolve_left (by decide)) hc (.rx θ) ht (by simp)
    exact ⟨s', h1, h2.eq fun ψ => congrFun (ctrl_Rx [] q θ).symm ψ⟩
  · obtain ⟨s', h1, h2⟩ := gate_runs hf h hB hl (hq.resolve_left (by decide)) hc (.rz θ) ht (by simp)
    exact ⟨s', h1, h2.eq fun ψ => congrFun (ctrl_Rz [] q θ).symm ψ⟩
  · obtain ⟨s', h1, h2⟩ := gate_runs hf h hB hl (hq.resolve_left (by decide)) hc (.ry θ) ht (fun _ _ => hh rfl)
    exact ⟨s', h1, h2.eq fun ψ => congrFun (ctrl_Ry [] q θ).symm ψ⟩

theorem op_applies (hf : Fine A) (fmt : Fmt) (h : Like s δ) (hB : 0 ≤ B) (hl : Low B s.sim) {c : QCall} (ho : IsOp c)
    (hv : δ.Valid c) (hc : (δ.useAll c.uses).live.card ≤ N) (ht : A.u * (B + turn A c) + A.eta ≤ A.eps)
    (hh : TurnOk A s c) : Applies A N B fmt c s δ := by
  have hrdy : Ready A N (B + turn A c) (δ.useAll c.uses) :=
    ⟨useAll_low _ h.low, hc, add_nonneg hB (turn_nonneg' hf c), ht⟩
  have hl' : Low (B + turn A c) s.sim := hl.mono (by have := turn_nonneg' hf c; linarith)
  cases c <;> try exact ho.elim
  case gate g q =>
    refine .intro (fun _ => rfl) (iso_g g q) (by simp [effort, QCall.uses]) (fun ψ => rfl)
      (k := 6) (f := gate A g q) ?_
    have ht' : turn A (.gate g q) = (Call.gate g q).turn A := by cases g <;> rfl
    rw [ht'] at ht ⊢
    exact gate_runs hf h hB hl hv hc g ht (fun θ hθ => by subst hθ; exact hh)
  case ctl g cs q =>
    exact .intro (fun _ => rfl) (iso_ctrl (isom_gate g) (by
      have := hv.1
      rw [List.nodup_append] at this
      intro hm
      exact this.2.2 _ hm q (by simp) rfl)) (by simp [effort, QCall.uses]) (fun ψ => rfl) (ctl_does hf hrdy hv.1 hv.2 g _ h hl')
  case sx q =>
    exact .intro (fun _ => rfl) (iso_gate isom_Sx q) le_rfl (fun ψ => rfl) (sx_does hf h.low hrdy hv _ h hl')
  case rxx θ a b =>
    exact .intro (fun _ => rfl) (iso_exp (by simp [hv.1]) (by simp) _) le_rfl (fun ψ => rfl)
      (rxx_does hf h.low hrdy hv.1 hv.2.1 hv.2.2 θ _ h hl')
  case ryy θ a b =>
    exact .intro (fun _ => rfl) (iso_exp (by simp [hv.1]) (by simp) _) le_rfl (fun ψ => rfl)
      (ryy_does hf h.low hrdy hv.1 hv.2.1 hv.2.2 θ _ h hl')
  case rzz θ a b =>
    exact .intro (fun _ => rfl) (iso_exp (by simp [hv.1]) (by simp) _) le_rfl (fun ψ => rfl)
      (rzz_does hf h.low hrdy hv.1 hv.2.1 hv.2.2 θ _ h hl')
  case r p θ q =>
    exact .intro (fun _ => rfl) (iso_exp (by simp) (by simp) _) (by simp [effort]) (fun ψ => rfl)
      (r_runs hf h hB hl hv hc θ ht (by rintro rfl; exact hh))
  case rAdj p θ q =>
    have ht' : turn A (.rAdj p θ q) = turn A (.r p (-θ) q) := by cases p <;> simp [turn]
    rw [ht'] at ht
    refine .intro (f := r A p (-θ) q) (U := expL [] [(p, q)] (θ / 2)) (k := 6) (fun _ => rfl) (iso_exp (by simp) (by simp) _)
      (by simp [effort]) (fun ψ => rfl) ?_
    rw [ht']
    have := r_runs hf h hB hl hv hc (-θ) ht (by rintro rfl; exact hh)
    rw [show -(-θ / 2) = θ / 2 by ring] at this
    exact this
  case rCtl cs p θ q =>
    exact .intro (fun _ => rfl) (iso_exp (by simp) (by
      have := hv.1
      rw [List.nodup_append] at this
      intro c hm hq
      exact this.2.2 _ hm q (by simp) (by simpa using hq)) _)
      (by simp only [effort, QCall.uses]; split <;> simp_all; try omega) (fun ψ => rfl) (rCtl_does hf hrdy hv.1 hv.2 θ _ h hl')
  case rCtlAdj cs p θ q =>
    refine .intro (f := rCtl A cs p (-θ) q) (U := expL cs [(p, q)] (θ / 2)) (k := 5 * cs.length + 7) (fun _ => rfl) (iso_exp (by simp) (by
      have := hv.1
      rw [List.nodup_append] at this
      intro c hm hq
      exact this.2.2 _ hm q (by simp) (by simpa using hq)) _)
      (by simp only [effort, QCall.uses]; split <;> simp_all; try omega) (fun ψ => rfl) ?_
    have := rCtl_does hf hrdy hv.1 hv.2 (-θ) _ h hl'
    rw [show -(-θ / 2) = θ / 2 by ring] at this
    exact this
  case exp ps θ qs =>
    exact .intro (f := expCtl A [] ps θ qs) (fun _ => rfl) (iso_exp (hv.1.sublist (zip_snd_sublist _ _)) (by simp) _)
      (by simp [effort, QCall.uses]) (fun ψ => rfl)
      (mcexp_does (cs := []) hf hrdy hv.1 hv.2.1 hv.2.2 θ _ h hl')
  case expAdj ps θ qs =>
    exact .intro (f := expCtl A [] ps (-θ) qs) (fun _ => rfl) (iso_exp (hv.1.sublist (zip_snd_sublist _ _)) (by simp) _)
      (by simp [effort, QCall.uses]) (fun ψ => rfl)
      (mcexp_does (cs := []) hf hrdy hv.1 hv.2.1 hv.2.2 (-θ) _ h hl')
  case expCtl cs ps θ qs =>
    have hn := List.nodup_append.1 hv.1
    exact .intro (f := expCtl A cs ps θ qs) (fun _ => rfl) (iso_exp (hn.2.1.sublist (zip_snd_sublist _ _))
      (fun c hc hm => hn.2.2 c hc c ((zip_snd_sublist _ _).subset hm) rfl) _)
      (by simp [effort, QCall.uses]) (fun ψ => rfl)
      (mcexp_does hf hrdy hv.1 hv.2.1 hv.2.2 θ _ h hl')
  case expCtlAdj cs ps θ qs =>
    have hn := List.nodup_append.1 hv.1
    exact .intro (f := expCtl A cs ps (-θ) qs) (fun _ => rfl) (iso_exp (hn.2.1.sublist (zip_snd_sublist _ _))
      (fun c hc hm => hn.2.2 c hc c ((zip_snd_sublist _ _).subset hm) rfl) _)
      (by simp [effort, QCall.uses]) (fun ψ => rfl)
      (mcexp_does hf hrdy hv.1 hv.2.1 hv.2.2 (-θ) _ h hl')
  case swap a b =>
    exact .intro (fun _ => rfl) (iso_swap a b) (Nat.zero_le _) (fun ψ => rfl) (swap_does hf hrdy hv.1 hv.2 _ h hl')

/-! ### Changes of basis -/

theorem iso_fromZ (p : Pauli) : Isom (fromZ p) := by
  cases p
  · exact isom_one
  · exact isom_H
  · exact isom_one
  · exact isom_SxAdj

theorem iso_mapL (ps : List (Pauli × ℕ)) : Iso (mapL ps) := by
  induction ps with
  | nil => exact Tol.iso_one
  | cons p ps ih => exact ih.mul (iso_gate (isom_toZ _) _)

theorem iso_unmapL (ps : List (Pauli × ℕ)) : Iso (unmapL ps) := by
  induction ps with
  | nil => exact Tol.iso_one
  | cons p ps ih => exact ih.mul (iso_gate (iso_fromZ _) _)

theorem one_does {q : ℕ} : Does A N B (fun s => .ok s) δ δ (gateL 1 q) 18 :=
  (Does.id.mono (by norm_num)).eq fun ψ => LinearMap.congr_fun (gateL_one q) ψ

theorem act_hsh (hf : Fine A) {q : ℕ} (h : Ready A N B δ) (hm : q ∈ δ.live) (g : Gate)
    (hg : ∀ θ, g ≠ .rx θ ∧ g ≠ .ry θ) :
    Does A N B (fun s => act (gateCall A q .h) s >>= fun s => act (gateCall A q g) s >>= act (gateCall A q .h)) δ δ
      (gateL (matH * (g.mat * matH)) q) 18 := by
  refine ((call_does hf h hm .h (by simp)).bind hf ((call_does hf h hm g hg).bind hf
    (call_does hf h hm .h (by simp)) (iso_g _ _)) ((iso_g .h q).mul (iso_g g q))).eq fun ψ => ?_
  exact (gateL_mul3 q _ _ _ ψ).symm

theorem mapOne_does (hf : Fine A) {p : Pauli × ℕ} (h : Ready A N B δ) (hq : p.2 ∈ δ.live) :
    Does A N B (mapOne A p) δ δ (gateL (toZ p.1) p.2) 18 := by
  obtain ⟨p, q⟩ := p
  cases p
  · exact one_does
  · exact (call_does hf h hq .h (by simp)).mono (by norm_num)
  · exact one_does
  · have := act_hsh hf h hq .s (by simp)
    rw [show Gate.s.mat = matS from rfl, H_S_H] at this
    exact this

theorem unmapOne_does (hf : Fine A) {p : Pauli × ℕ} (h : Ready A N B δ) (hq : p.2 ∈ δ.live) :
    Does A N B (unmapOne A p) δ δ (gateL (fromZ p.1) p.2) 18 := by
  obtain ⟨p, q⟩ := p
  cases p
  · exact one_does
  · exact (call_does hf h hq .h (by simp)).mono (by norm_num)
  · exact one_does
  · have := act_hsh hf h hq .sadj (by simp)
    rw [show Gate.sadj.mat = matSadj from rfl, H_Sadj_H] at this
    exact this

theorem map_does (hf : Fine A) (h : Ready A N B δ) (ps : List (Pauli × ℕ)) (hq : ∀ p ∈ ps, p.2 ∈ δ.live) :
    Does A N B (forEach (mapOne A) ps) δ δ (mapL ps) (18 * ps.length) := by
  induction ps with
  | nil => exact .id
  | cons p ps ih =>
    exact ((mapOne_does hf h (hq p List.mem_cons_self)).bind hf (ih fun x hx => hq x (List.mem_cons_of_mem _ hx))
      (iso_mapL ps)).mono (by simp; omega)

theorem unmap_does (hf : Fine A) (h : Ready A N B δ) (ps : List (Pauli × ℕ)) (hq : ∀ p ∈ ps, p.2 ∈ δ.live) :
    Does A N B (unmapFromZ A ps) δ δ (unmapL ps) (18 * ps.length) := by
  induction ps with
  | nil => exact .id
  | cons p ps ih =>
    exact ((unmapOne_does hf h (hq p List.mem_cons_self)).bind hf (ih fun x hx => hq x (List.mem_cons_of_mem _ hx))
      (iso_unmapL ps)).mono (by simp; omega)

end Qir.RBack
