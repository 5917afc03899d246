import Verif.Proof.Walk2

/-! Gates with invalid operands. -/

noncomputable section
namespace Qir
open Spec Sim

theorem enqueue_bad {s s' : Sim} {m : IMap ℕ} {t : ℕ} {cs : List ℕ} {o o' : OpCode}
    (h : s.enqueueOp t cs o = .ok s') (hm : s.idMap = m := by rfl) :
    OpOk m (cs, t, o') ∨ HasBad s' := by
  subst hm
  obtain ⟨hk, hm⟩ := enqueueOp_mem h
  by_cases hc : OpOk s.idMap (cs, t, o)
  · exact .inl ⟨hc.1, hc.2⟩
  · exact .inr ⟨_, hm, by rw [hk.ids]; exact hc⟩

theorem x_bad {s s' : Sim} {t : ℕ} (h : s.x t = .ok s') : OpOk s.idMap ([], t, .X) ∨ HasBad s' := by
  unfold x at h
  simp only at h
  split at h <;> exact enqueue_bad h

theorem y_bad {s s' : Sim} {t : ℕ} (h : s.y t = .ok s') : OpOk s.idMap ([], t, .X) ∨ HasBad s' := by
  unfold y at h
  exact enqueue_bad h

theorem z_bad {s s' : Sim} {t : ℕ} (h : s.z t = .ok s') : OpOk s.idMap ([], t, .X) ∨ HasBad s' := by
  unfold z at h
  simp only at h
  split at h <;> exact enqueue_bad h

theorem diag_bad {env : Env} {o : OpCode} {s s' : Sim} {t : ℕ} (h : s.diagGate env o t = .ok s') :
    OpOk s.idMap ([], t, .X) ∨ HasBad s' := by
  unfold diagGate at h
  obtain ⟨s1, h1, h⟩ := bind_ok h
  rw [← (keep_maybeFlush h1).ids]
  exact enqueue_bad h

theorem mcDiag_bad {env : Env} {o : OpCode} {s s' : Sim} {t : ℕ} {cs : List ℕ}
    (h : s.mcDiagGate env o cs t = .ok s') : OpOk s.idMap (cs, t, .X) ∨ HasBad s' := by
  unfold mcDiagGate at h
  obtain ⟨s1, h1, h⟩ := bind_ok h
  obtain ⟨s2, h2, h⟩ := bind_ok h
  rw [← (keep_maybeFlush h1).ids, ← (keep_maybeFlush h2).ids]
  exact enqueue_bad h

theorem opOk_swap {m : IMap ℕ} {a b : ℕ} {o o' : OpCode} (h : OpOk m ([a], b, o)) : OpOk m ([b], a, o') := by
  obtain ⟨h1, h2⟩ := h
  refine ⟨?_, ?_⟩
  · simp only [List.singleton_append, List.nodup_cons, List.mem_singleton, List.not_mem_nil,
      not_false_eq_true, List.nodup_nil, and_true] at h1 ⊢
    exact fun h => h1 h.symm
  · intro i hi
    apply h2
    simp only [List.singleton_append, List.mem_cons, List.not_mem_nil, or_false] at hi ⊢
    tauto

theorem mcx_bad {env : Env} {s s' : Sim} {t : ℕ} {cs : List ℕ} (h : s.mcx env cs t = .ok s') :
    OpOk s.idMap (cs, t, .X) ∨ HasBad s' := by
  unfold mcx at h
  split at h
  · exact x_bad h
  · rename_i c0 ctls'
    obtain ⟨s1, h1, h⟩ := bind_ok h
    obtain ⟨s2, h2, h⟩ := bind_ok h
    have hk : Keep s s2 := by
      refine (keep_flushIf h1).trans ?_
      unfold mcxFlushCtls at h2
      split at h2
      · exact keep_maybeFlush h2
      · exact keep_flushIf h2
    rw [← hk.ids]
    split at h
    · split at h
      · rename_i hl
        have hnil : ctls' = [] := by
          have := hl.1
          simp only [List.length_cons] at this
          exact List.eq_nil_of_length_eq_zero (by omega)
        rw [hnil]
        rcases enqueue_bad (o' := .X) h with h | h
        · exact .inl (opOk_swap h)
        · exact .inr h
      · exact enqueue_bad h
    · exact enqueue_bad h

theorem mcy_bad {env : Env} {s s' : Sim} {t : ℕ} {cs : List ℕ} (h : s.mcy env cs t = .ok s') :
    OpOk s.idMap (cs, t, .X) ∨ HasBad s' := by
  unfold mcy at h
  split at h
  · exact y_bad h
  · obtain ⟨s1, h1, h⟩ := bind_ok h
    obtain ⟨s2, h2, h⟩ := bind_ok h
    obtain ⟨s3, h3, h⟩ := bind_ok h
    have hk : Keep s s3 := by
      refine (keep_maybeFlush h1).trans ((keep_flushIf h2).trans ?_)
      unfold enqueueIf at h3
      split at h3
      · exact keep_enqueue h3
      · cases h3; exact .refl _
    rw [← hk.ids]
    exact enqueue_bad h

theorem opOk_replace {m : IMap ℕ} {cs : List ℕ} {t k : ℕ} {o o' : OpCode} (hk : k ∈ cs)
    (h : OpOk m (cs.map (fun c => if c = k then t else c), k, o)) : OpOk m (cs, t, o') := by
  obtain ⟨h1, h2⟩ := h
  simp only at h1 h2
  rw [List.nodup_append] at h1
  obtain ⟨hn, _, hd⟩ := h1
  have hkt : t ∈ cs.map (fun c => if c = k then t else c) := List.mem_map.2 ⟨k, hk, by simp⟩
  have hne : t ≠ k := hd t hkt k (by simp)
  have hinj := List.inj_on_of_nodup_map hn
  refine ⟨?_, ?_⟩
  · rw [List.nodup_append]
    refine ⟨List.Nodup.of_map _ hn, by simp, ?_⟩
    intro a ha b hb
    rw [List.mem_singleton] at hb
    subst hb
    intro hab
    subst hab
    exact hne (hinj ha hk (by simp [hne]))
  · intro i hi
    apply h2
    rcases List.mem_append.1 hi with hi | hi
    · by_cases hik : i = k
      · simp [hik]
      · exact List.mem_append_left _ (List.mem_map.2 ⟨i, hi, by simp [hik]⟩)
    · rw [List.mem_singleton] at hi
      rw [hi]
      exact List.mem_append_left _ hkt

theorem mcz_bad {env : Env} {s s' : Sim} {t : ℕ} {cs : List ℕ} (h : s.mcz env cs t = .ok s') :
    OpOk s.idMap (cs, t, .X) ∨ HasBad s' := by
  unfold mcz at h
  split at h
  · exact z_bad h
  · split at h
    · split at h
      · rename_i k hk
        rcases enqueue_bad (o' := .X) h with h | h
        · exact .inl (opOk_replace (List.mem_of_find?_eq_some hk) h)
        · exact .inr h
      · exact enqueue_bad h
    · obtain ⟨s1, h1, h⟩ := bind_ok h
      obtain ⟨s2, h2, h⟩ := bind_ok h
      rw [← (keep_flushQueue h1).1.ids, ← (keep_flushQueue h2).1.ids]
      exact enqueue_bad h

theorem mcrotation_bad {env : Env} {s s' : Sim} {p : Sim → Except Panic Sim} {t : ℕ} {cs : List ℕ}
    {θ : ℝ} {f : Bool} (hp : ∀ s s', p s = .ok s' → Keep s s')
    (h : s.mcrotation env p cs θ t f = .ok s') :
    OpOk s.idMap (cs, t, .X) ∨ (NearlyZero env.eps (rotM01 θ f) ∧ s' = s) := by
  unfold mcrotation at h
  simp only at h
  split at h
  · obtain ⟨s1, h1, h⟩ := bind_ok h
    obtain ⟨⟨_, cs'⟩, h2, h⟩ := bind_ok h
    rw [← (hp _ _ h1).ids]
    exact .inl (resolveAndCheck_inv h2 _)
  · split at h
    · split at h
      · obtain ⟨⟨ops, s2⟩, h3, h⟩ := bind_ok h
        obtain ⟨⟨_, cs'⟩, h2, h⟩ := bind_ok h
        rw [← (keep_take h3).ids]
        exact .inl (resolveAndCheck_inv h2 _)
      · rename_i hz _
        cases h; exact .inr ⟨hz, rfl⟩
    · obtain ⟨⟨_, cs'⟩, h2, h⟩ := bind_ok h
      exact .inl (resolveAndCheck_inv h2 _)

/-- The angle of a controlled rotation about X or Y is (nearly) a multiple of a full turn, so that
the code returns without doing anything. -/
def NoTurn (env : Env) : Gate → Prop
  | .rx θ => NearlyZero env.eps (rotM01 θ false)
  | .ry θ => NearlyZero env.eps (rotM01 θ true)
  | _ => False

theorem ctrlCall_bad {env : Env} {s s' : Sim} {g : Gate} {cs : List ℕ} {q : ℕ}
    (h : s.ctrlCall env cs q g = .ok s') : OpOk s.idMap (cs, q, .X) ∨ HasBad s' ∨ NoTurn env g := by
  have wrap : ∀ {P Q : Prop}, P ∨ Q → P ∨ Q ∨ NoTurn env g := fun h => h.imp_right .inl
  cases g with
  | x => exact wrap (mcx_bad h)
  | y => exact wrap (mcy_bad h)
  | z => exact wrap (mcz_bad h)
  | h => exact .inl (keep_mch h).2.1
  | s => exact wrap (mcDiag_bad h)
  | sadj => exact wrap (mcDiag_bad h)
  | t => exact wrap (mcDiag_bad h)
  | tadj => exact wrap (mcDiag_bad h)
  | rx θ =>
    have h : s.mcrx env cs θ q = .ok s' := h
    unfold mcrx at h
    obtain ⟨s1, h1, h⟩ := bind_ok h
    have key : OpOk s1.idMap (cs, q, .X) ∨ NoTurn env (.rx θ) := by
      simp only at h
      split at h
      · obtain ⟨s2, h2, h⟩ := bind_ok h
        rw [← (keep_flushQueue h2).1.ids]
        exact (mcrotation_bad (fun _ _ h => keep_mcx h) h).imp_right (·.1)
      · obtain ⟨s2, h2, h⟩ := bind_ok h
        rw [← (keep_flushIf h2).ids]
        exact (mcrotation_bad (fun _ _ h => keep_mcx h) h).imp_right (·.1)
    rw [(keep_flushQueue h1).1.ids] at key
    exact key.imp_right .inr
  | ry θ =>
    have h : s.mcry env cs θ q = .ok s' := h
    unfold mcry at h
    obtain ⟨s1, h1, h⟩ := bind_ok h
    have key : OpOk s1.idMap (cs, q, .X) ∨ NoTurn env (.ry θ) := by
      simp only at h
      split at h
      · obtain ⟨s2, h2, h⟩ := bind_ok h
        rw [← (keep_flushQueue h2).1.ids]
        exact (mcrotation_bad (fun _ _ h => keep_mcy h) h).imp_right (·.1)
      · obtain ⟨s2, h2, h⟩ := bind_ok h
        rw [← (keep_flushIf h2).ids]
        exact (mcrotation_bad (fun _ _ h => keep_mcy h) h).imp_right (·.1)
    rw [(keep_flushQueue h1).1.ids] at key
    exact key.imp_right .inr
  | rz θ => exact wrap (mcDiag_bad h)

theorem gateCall_bad {env : Env} {s s' : Sim} {g : Gate} {q : ℕ}
    (hg : g ≠ .h ∧ (∀ θ, g ≠ .rx θ) ∧ ∀ θ, g ≠ .ry θ) (h : s.gateCall env q g = .ok s') :
    OpOk s.idMap ([], q, .X) ∨ HasBad s' := by
  cases g with
  | x => exact x_bad h
  | y => exact y_bad h
  | z => exact z_bad h
  | h => exact absurd rfl hg.1
  | s => exact diag_bad h
  | sadj => exact diag_bad h
  | t => exact diag_bad h
  | tadj => exact diag_bad h
  | rx θ => exact absurd rfl (hg.2.1 θ)
  | ry θ => exact absurd rfl (hg.2.2 θ)
  | rz θ => exact diag_bad h

theorem runCalls_cons {env : Env} {c : Call} {cs : List Call} {o : Out} {os : List Out} {s s1 s2 : Sim}
    (h1 : call env c s = .ok (o, s1)) (h2 : runCalls env cs s1 = .ok (os, s2)) :
    runCalls env (c :: cs) s = .ok (o :: os, s2) := by
  simp only [runCalls, h1, h2, ok_bind, pure_ok]

theorem call_of_measure {env : Env} {q : ℕ} {b : Bool} {s s' : Sim} (h : s.measure env q = .ok (b, s')) :
    call env (.measure q) s = .ok (.bit b, s') := by
  simp only [call, h, ok_bind, pure_ok]

theorem call_bad_ids {env : Env} {c : Call} {s s' : Sim} {o : Out} (hg : c.IsGate)
    (h : call env c s = .ok (o, s')) (hb : HasBad s) : s'.idMap = s.idMap := by
  cases c with
  | gate g q =>
    have h := quiet_inv h
    cases g with
    | rx θ => exact (bound_rx h).1
    | _ => exact (keep_gateCall (fun _ => by simp) h).ids
  | ctrl g cs q => exact (keep_ctrlCall (quiet_inv h)).ids
  | phase cs φ q => exact absurd hb (keep_mcphase (quiet_inv h)).2.2
  | exp cs ps θ ts => exact absurd hb (keep_mcexp (quiet_inv h)).2.2.2
  | swap a b => exact absurd hb (mild_swap (quiet_inv h)).2
  | _ => exact hg.elim

/-- With an invalid operation in the queue, no run without allocation, and without release of the
last qubit, gets past an observation. -/
theorem run_bad {env : Env} {cs : List Call} : ∀ {s s' : Sim} {os : List Out}, HasBad s →
    Call.allocate ∉ cs → (s.idMap.iter.length ≠ 1 ∨ ∀ q, Call.release q ∉ cs) →
    runCalls env cs s = .ok (os, s') → ∀ c ∈ cs, c.IsGate := by
  induction cs with
  | nil => simp
  | cons c cs ih =>
    intro s s' os hb ha hr h
    obtain ⟨o, s1, os', h1, h2, _⟩ := run_cons h
    rw [List.mem_cons, not_or] at ha
    have hrel : ∀ q, c ≠ .release q := by
      rintro q rfl
      rcases hr with hr | hr
      · exact ((mild_release (quiet_inv h1)).2 hr).1 hb
      · exact hr q (by simp)
    obtain ⟨hb1, hg⟩ := call_bad (Ne.symm ha.1) hrel h1 hb
    have hg2 := ih hb1 ha.2 (by
      rw [call_bad_ids hg h1 hb]
      exact hr.imp_right (fun hr q hc => hr q (by simp [hc]))) h2
    simpa using ⟨hg, hg2⟩

end Qir
