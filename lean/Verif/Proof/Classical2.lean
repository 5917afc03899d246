import Verif.Proof.Classical
import Verif.Proof.Generic4

/-! # Which basis states the calls can bring about, under an arbitrary arithmetic -/

namespace Qir
namespace Gen
open Function
open Qir.Sim (resolveId resolveIds indexId resolveAndCheck checkForDuplicates firstFree locMask oddParity findByLoc
  ExpMasks expMasks expCheckDup)

variable {F : Type} {N : Num F}

theorem mcx_steps {s s' : GSim F} (hi : Inv s) {cs : List ℕ} {t : ℕ} (hok : OpndsOk s.idMap cs t)
    (h : mcx N cs t s = .ok s') : Steps (fun f g => g = ctrlFlip cs t f) s s' := by
  cases cs with
  | nil => exact x_steps hi (OpndsOk.target hok) h
  | cons c0 cs =>
    unfold mcx at h
    simp only at h
    obtain ⟨s1, h1, h'⟩ := bind_ok h
    clear h
    obtain ⟨s2, h2, h⟩ := bind_ok h'
    clear h'
    have hd1 := (flushIf_down _ _ _ hi).get h1
    have hctl : Down s1 s2 ∧ Shr s1 s2 ∧ (s2.hFlag.testBit t = false → ∀ c ∈ c0 :: cs, hasQueued s2 c = false) := by
      unfold mcxFlushCtls at h2
      split at h2
      · have := (maybeFlush_goes _ hd1.inv).get h2
        exact ⟨this.1, maybeFlush_shr hd1.inv h2, fun _ => this.2⟩
      · rename_i hlen
        have hcs : cs = [] := by
          cases cs with
          | nil => rfl
          | cons a l => simp at hlen
        subst hcs
        unfold flushIf at h2
        split at h2
        · have := (flushQueue_goes _ _ hd1.inv).get h2
          exact ⟨this.1, flushQueue_shr hd1.inv h2, fun _ => this.2.2 rfl⟩
        · rename_i hc
          cases h2
          refine ⟨Down.refl hd1.inv, Shr.refl _, fun hh c hm => ?_⟩
          rw [List.mem_singleton] at hm
          subst hm
          rw [hh, IMap.containsKey_eq, IMap.containsKey_eq] at hc
          simp only [Bool.not_false, Bool.and_true, Bool.not_eq_true, Bool.or_eq_false_iff] at hc
          rw [hasQueued_eq, hc.1.1, hc.1.2, hc.2]; rfl
    obtain ⟨hd2, hs2, hq2⟩ := hctl
    refine Steps.after ((flushIf_shr hi h1).trans hs2) ?_
    have hok2 := (hd1.trans hd2).ok hok
    split at h
    · rename_i hh
      split at h
      · rename_i hl
        have : cs = [] := by simpa using hl.1
        subst this
        have hok3 : OpndsOk s2.idMap [t] c0 := by
          refine ⟨?_, ?_⟩
          · have := hok2.1
            simp only [List.cons_append, List.nil_append, List.nodup_cons, List.mem_singleton] at this ⊢
            exact ⟨fun e => this.1 e.symm, by simp⟩
          · intro i hi
            apply hok2.2
            simp only [List.cons_append, List.nil_append, List.mem_cons, List.not_mem_nil, or_false] at hi ⊢
            exact hi.symm
        exact (enqueueOp_free hd2.inv hok3 h (queued_of_h hl.2)).ctrlFlip (queued_of_h hh) hok2.not_mem
      · exact (enqueueOp_diag hd2.inv hok2 h rfl).ctrlFlip (queued_of_h hh) hok2.not_mem
    · rename_i hh
      exact enqueueOp_flip hd2.inv hok2 h rfl (hq2 (by simpa using hh))

theorem mcy_steps {s s' : GSim F} (hi : Inv s) {cs : List ℕ} {t : ℕ} (hok : OpndsOk s.idMap cs t)
    (h : mcy N cs t s = .ok s') : Steps (fun f g => g = ctrlFlip cs t f) s s' := by
  cases cs with
  | nil => exact y_steps hi (OpndsOk.target hok) h
  | cons c0 cs =>
    unfold mcy at h
    simp only at h
    obtain ⟨s1, h1, h⟩ := bind_ok h
    obtain ⟨s2, h2, h⟩ := bind_ok h
    obtain ⟨s3, h3, h⟩ := bind_ok h
    have hd1 := (maybeFlush_goes _ hi).get h1
    have hd2 := (flushIf_down _ _ _ hd1.1.inv).get h2
    have hd12 := hd1.1.trans hd2
    have h3' : Down s2 s3 ∧ Shr s2 s3 := by
      unfold enqueueIf at h3
      split at h3
      · have hok' := opnds_tail (hd12.ok hok)
        exact ⟨(enqueueOp_goes hd2.inv _ hok').get h3, enqueueOp_diag hd2.inv hok' h3 rfl⟩
      · cases h3; exact ⟨Down.refl hd2.inv, Shr.refl _⟩
    refine Steps.after (((maybeFlush_shr hi h1).trans (flushIf_shr hd1.1.inv h2)).trans h3'.2) ?_
    exact enqueueOp_flip h3'.1.inv ((hd12.trans h3'.1).ok hok) h rfl
      (fun c hc => h3'.1.none (hd2.none (hd1.2 c hc)))

theorem mczWeight_even {s : GSim F} {q : ℕ} (h : s.hFlag.testBit q = false) : mczWeight s q % 2 = 0 := by
  unfold mczWeight
  rw [if_neg (by rw [h]; simp)]
  split <;> rfl

theorem mczSum_even {s : GSim F} (cs : List ℕ) (h : ∀ c ∈ cs, s.hFlag.testBit c = false) : ∀ a, a % 2 = 0 →
    cs.foldl (fun accum c => accum + mczWeight s c) a % 2 = 0 := by
  induction cs with
  | nil => intro a ha; exact ha
  | cons c cs ih =>
    intro a ha
    rw [List.foldl_cons]
    apply ih (fun c hc => h c (by simp [hc]))
    have := mczWeight_even (h c (by simp))
    omega

theorem mcz_shr {s s' : GSim F} (hi : Inv s) {cs : List ℕ} {t : ℕ} (hok : OpndsOk s.idMap cs t)
    (h : mcz N cs t s = .ok s') : Shr s s' := by
  cases cs with
  | nil => exact z_shr hi (OpndsOk.target hok) h
  | cons c0 cs =>
    unfold mcz at h
    simp only at h
    split at h
    · rename_i hcount
      split at h
      · rename_i hCtl hf
        have hh := List.find?_some hf
        exact enqueueOp_free hi (opnds_exchange hok (List.mem_of_find?_eq_some hf)) h (queued_of_h hh)
      · rename_i hf
        rw [List.find?_eq_none] at hf
        have he := mczSum_even (s := s) (c0 :: cs) (fun c hc => by simpa using hf c hc) 0 rfl
        refine enqueueOp_free hi hok h (queued_of_h ?_)
        by_contra hc
        have ht := mczWeight_even (s := s) (q := t) (by simpa using hc)
        unfold mczCount at hcount
        omega
    · obtain ⟨s1, h1, h⟩ := bind_ok h
      obtain ⟨s2, h2, h⟩ := bind_ok h
      have hd1 := (flushQueue_down _ _ hi).get h1
      have hd2 := (flushQueue_down _ _ hd1.inv).get h2
      exact ((flushQueue_shr hi h1).trans (flushQueue_shr hd1.inv h2)).trans
        (enqueueOp_diag hd2.inv ((hd1.trans hd2).ok hok) h rfl)

/-- New amplitudes only. -/
theorem shr_map {s : GSim F} (f : ℕ × Cx F → ℕ × Cx F) (hf : ∀ e, (f e).1 = e.1) :
    Shr s { s with state := s.state.map f } := by
  refine shr_eff (s' := { s with state := s.state.map f }) (fun q (h : hasQueued s q = false) => h) ?_
  rintro b ⟨e, he, rfl⟩
  obtain ⟨e0, he0, rfl⟩ := List.mem_map.1 he
  exact ⟨e0, he0, by rw [hf]⟩

theorem mcphase_shr {s s' : GSim F} (hi : Inv s) {cs : List ℕ} {t : ℕ} {φ : Cx F}
    (h : mcphase N cs φ t s = .ok s') : Shr s s' := by
  unfold mcphase at h
  obtain ⟨s1, h1, h⟩ := bind_ok h
  obtain ⟨s2, h2, h⟩ := bind_ok h
  obtain ⟨⟨tl, csl⟩, h3, h⟩ := bind_ok h
  cases h
  have hd1 := (flushQueue_down _ _ hi).get h1
  refine ((flushQueue_shr hi h1).trans (flushQueue_shr hd1.inv h2)).trans (shr_map _ fun e => ?_)
  split
  · unfold phaseTransform; split <;> rfl
  · rfl

theorem diagGate_shr {s s' : GSim F} (hi : Inv s) {t : ℕ} {op : GOp F} (ht : (s.idMap.get t).isSome)
    (hf : flips op = false) (h : diagGate N op t s = .ok s') : Shr s s' := by
  unfold diagGate at h
  obtain ⟨s1, h1, h⟩ := bind_ok h
  have hd1 := (maybeFlush_down _ hi).get h1
  exact (maybeFlush_shr hi h1).trans (enqueueOp_diag hd1.inv (hd1.ok (single_ok ht)) h hf)

theorem mcDiagGate_shr {s s' : GSim F} (hi : Inv s) {cs : List ℕ} {t : ℕ} {op : GOp F} (hok : OpndsOk s.idMap cs t)
    (hf : flips op = false) (h : mcDiagGate N op cs t s = .ok s') : Shr s s' := by
  unfold mcDiagGate at h
  obtain ⟨s1, h1, h⟩ := bind_ok h
  obtain ⟨s2, h2, h⟩ := bind_ok h
  have hd1 := (maybeFlush_down _ hi).get h1
  have hd2 := (maybeFlush_down _ hd1.inv).get h2
  exact ((maybeFlush_shr hi h1).trans (maybeFlush_shr hd1.inv h2)).trans
    (enqueueOp_diag hd2.inv ((hd1.trans hd2).ok hok) h hf)

theorem mch_steps {s s' : GSim F} (hi : Inv s) {cs : List ℕ} {t : ℕ} (hok : OpndsOk s.idMap cs t)
    (h : mch N cs t s = .ok s') : Steps (Turn cs t) s s' := by
  unfold mch at h
  obtain ⟨s1, h1, h⟩ := bind_ok h
  obtain ⟨s2, h2, h⟩ := bind_ok h
  have hd1 := (flushQueue_goes _ _ hi).get h1
  have hd2 := (flushIf_down _ _ _ hd1.1.inv).get h2
  exact Steps.after ((flushQueue_shr hi h1).trans (flushIf_shr hd1.1.inv h2))
    (applyMch_steps hd2.inv ((hd1.1.trans hd2).ok hok) h (fun c hc => hd2.none (hd1.2.2 rfl c hc)))

theorem mcrx_steps {s s' : GSim F} (hi : Inv s) {cs : List ℕ} {t : ℕ} {θ : F} (hok : OpndsOk s.idMap cs t)
    (h : mcrx N cs θ t s = .ok s') : Steps (Turn cs t) s s' := by
  unfold mcrx at h
  obtain ⟨s1, h1, h⟩ := bind_ok h
  have hd1 := (flushQueue_goes _ _ hi).get h1
  have key : ∀ s2, Down s1 s2 → Shr s1 s2 → mcrotation N (mcx N cs t) cs θ t false s2 = .ok s' →
      Steps (Turn cs t) s s' := by
    intro s2 hd2 hs2 hr
    have hok2 := (hd1.1.trans hd2).ok hok
    refine Steps.after ((flushQueue_shr hi h1).trans hs2) (mcrotation_steps hd2.inv hok2 (mcx_goes hd2.inv hok2)
      (fun s3 h3 => (mcx_steps hd2.inv hok2 h3).mono ?_) (fun c hc => hd2.none (hd1.2.2 rfl c hc)) hr)
    rintro f g rfl; exact turn_ctrlFlip _ _ _
  dsimp only at h
  split at h
  · obtain ⟨s2, h2, h⟩ := bind_ok h
    exact key s2 ((flushQueue_down _ _ hd1.1.inv).get h2) (flushQueue_shr hd1.1.inv h2) h
  · obtain ⟨s2, h2, h⟩ := bind_ok h
    exact key s2 ((flushIf_down _ _ _ hd1.1.inv).get h2) (flushIf_shr hd1.1.inv h2) h

theorem mcry_steps {s s' : GSim F} (hi : Inv s) {cs : List ℕ} {t : ℕ} {θ : F} (hok : OpndsOk s.idMap cs t)
    (h : mcry N cs θ t s = .ok s') : Steps (Turn cs t) s s' := by
  unfold mcry at h
  obtain ⟨s1, h1, h⟩ := bind_ok h
  have hd1 := (flushQueue_goes _ _ hi).get h1
  have key : ∀ s2, Down s1 s2 → Shr s1 s2 → mcrotation N (mcy N cs t) cs θ t true s2 = .ok s' →
      Steps (Turn cs t) s s' := by
    intro s2 hd2 hs2 hr
    have hok2 := (hd1.1.trans hd2).ok hok
    refine Steps.after ((flushQueue_shr hi h1).trans hs2) (mcrotation_steps hd2.inv hok2 (mcy_goes hd2.inv hok2)
      (fun s3 h3 => (mcy_steps hd2.inv hok2 h3).mono ?_) (fun c hc => hd2.none (hd1.2.2 rfl c hc)) hr)
    rintro f g rfl; exact turn_ctrlFlip _ _ _
  dsimp only at h
  split at h
  · obtain ⟨s2, h2, h⟩ := bind_ok h
    exact key s2 ((flushQueue_down _ _ hd1.1.inv).get h2) (flushQueue_shr hd1.1.inv h2) h
  · obtain ⟨s2, h2, h⟩ := bind_ok h
    exact key s2 ((flushIf_down _ _ _ hd1.1.inv).get h2) (flushIf_shr hd1.1.inv h2) h

/-! ### Gates that leave something queued -/

theorem h_steps {s s' : GSim F} (hi : Inv s) {t : ℕ} (hr : h N t s = .ok s') : Steps (Turn [] t) s s' := by
  unfold h at hr
  simp only at hr
  obtain ⟨s1, h1, hr⟩ := bind_ok hr
  cases hr
  have hd0 := Down.modifyRy hi t (fun a => N.mul a (N.neg N.one))
  refine Steps.after ((shr_modifyRy s t (fun a => N.mul a (N.neg N.one))).trans (flushIf_shr hd0.inv h1))
    (steps_free (fun q hq hqq => ?_) (fun _ h => h))
  rw [hasQueued_eq] at hqq ⊢
  simp only [Bool.or_eq_false_iff] at hqq ⊢
  refine ⟨⟨?_, hqq.1.2⟩, hqq.2⟩
  rw [testBit_setBit, if_neg hq]
  exact hqq.1.1

theorem rx_steps {s s' : GSim F} (hi : Inv s) {t : ℕ} {θ : F} (hr : rx N θ t s = .ok s') : Steps (Turn [] t) s s' := by
  unfold rx at hr
  obtain ⟨s1, h1, hr⟩ := bind_ok hr
  cases hr
  refine Steps.after (flushIf_shr hi h1) (steps_free (fun q hq hqq => ?_) (fun _ h => h))
  rw [hasQueued_eq] at hqq ⊢
  simp only [Bool.or_eq_false_iff] at hqq ⊢
  refine ⟨⟨hqq.1.1, ?_⟩, hqq.2⟩
  by_contra hc
  rcases addAngle_some (by rwa [Bool.not_eq_false] at hc) with h | h
  · exact hq h
  · rw [hqq.1.2] at h; cases h

theorem ry_steps {s s' : GSim F} {t : ℕ} {θ : F} (hr : ry N θ t s = .ok s') : Steps (Turn [] t) s s' := by
  unfold ry at hr
  cases hr
  refine steps_free (fun q hq hqq => ?_) (fun _ h => h)
  rw [hasQueued_eq] at hqq ⊢
  simp only [Bool.or_eq_false_iff] at hqq ⊢
  refine ⟨hqq.1, ?_⟩
  by_contra hc
  rcases addAngle_some (by rwa [Bool.not_eq_false] at hc) with h | h
  · exact hq h
  · rw [hqq.2] at h; cases h

theorem ctrlFlip_nil (t : ℕ) (f : ℕ → Bool) : ctrlFlip [] t f = toggle [t] f := by simp [ctrlFlip]

theorem gateCall_steps {s s' : GSim F} (hi : Inv s) {t : ℕ} (ht : (s.idMap.get t).isSome) {g : GGate F}
    (h : gateCall N t g s = .ok s') : Steps (fun f f' => Acts t f f' g) s s' := by
  have one : ∀ {s s' : GSim F}, Steps (fun f g => g = ctrlFlip [] t f) s s' → Steps (fun f g => g = toggle [t] f) s s' :=
    fun h => h.mono fun f g hg => by rw [hg, ctrlFlip_nil]
  have two : ∀ {s s' : GSim F}, Steps (Turn [] t) s s' → Steps (fun f g => g = f ∨ g = toggle [t] f) s s' :=
    fun h => h.mono fun f g hg => hg.imp id And.right
  cases g with
  | x => exact one (x_steps hi ht h)
  | y => exact one (y_steps hi ht h)
  | z => exact (z_shr hi ht h).steps
  | h => exact two (h_steps hi h)
  | s => exact (diagGate_shr hi ht rfl h).steps
  | sadj => exact (diagGate_shr hi ht rfl h).steps
  | t => exact (diagGate_shr hi ht rfl h).steps
  | tadj => exact (diagGate_shr hi ht rfl h).steps
  | rx θ => exact two (rx_steps hi h)
  | ry θ => exact two (ry_steps h)
  | rz θ => exact (diagGate_shr hi ht rfl h).steps

theorem ctrlCall_steps {s s' : GSim F} (hi : Inv s) {cs : List ℕ} {t : ℕ} (hok : OpndsOk s.idMap cs t) {g : GGate F}
    (h : ctrlCall N cs t g s = .ok s') :
    Steps (fun f f' => if ∀ c ∈ cs, f c = true then Acts t f f' g else f' = f) s s' := by
  have one : ∀ {s s' : GSim F}, Steps (fun f g => g = ctrlFlip cs t f) s s' →
      Steps (fun f g => if ∀ c ∈ cs, f c = true then g = toggle [t] f else g = f) s s' :=
    fun h => h.mono fun f g hg => by rw [hg, ctrlFlip]; split <;> rfl
  have two : ∀ {s s' : GSim F}, Steps (Turn cs t) s s' →
      Steps (fun f g => if ∀ c ∈ cs, f c = true then g = f ∨ g = toggle [t] f else g = f) s s' :=
    fun h => h.mono fun f g hg => by
      rcases hg with rfl | ⟨h1, h2⟩
      · split
        · exact .inl rfl
        · rfl
      · rw [if_pos h1]; exact .inr h2
  have zero : ∀ {s s' : GSim F}, Shr s s' →
      Steps (fun f g => if ∀ c ∈ cs, f c = true then g = f else g = f) s s' :=
    fun h => h.steps.mono fun f g hg => by split <;> exact hg
  cases g with
  | x => exact one (mcx_steps hi hok h)
  | y => exact one (mcy_steps hi hok h)
  | z => exact zero (mcz_shr hi hok h)
  | h => exact two (mch_steps hi hok h)
  | rx θ => exact two (mcrx_steps hi hok h)
  | ry θ => exact two (mcry_steps hi hok h)
  | s => exact zero (mcDiagGate_shr hi hok rfl h)
  | sadj => exact zero (mcDiagGate_shr hi hok rfl h)
  | t => exact zero (mcDiagGate_shr hi hok rfl h)
  | tadj => exact zero (mcDiagGate_shr hi hok rfl h)
  | rz θ => exact zero (mcDiagGate_shr hi hok rfl h)

/-! ### The exponential -/

theorem keys_exp {l : List (ℕ × Cx F)} {cs : List ℕ} {xy yz : ℕ} {a b c : Cx F} {e e' : ℕ × Cx F}
    (h : e' ∈ expEntry N l cs xy yz a b c e) :
    e'.1 = e.1 ∨ ((cs.all fun c => e.1.testBit c) = true ∧ e'.1 = e.1 ^^^ xy) := by
  unfold expEntry at h
  split at h
  · rename_i hc
    simp only at h
    split at h
    · simp only [List.mem_cons, List.not_mem_nil, or_false] at h
      rcases h with rfl | rfl
      · left; rfl
      · right; exact ⟨hc, rfl⟩
    · split at h
      · rw [List.mem_append] at h
        rcases h with h | h
        · left; exact mem_prune (List.mem_map.2 ⟨e', h, rfl⟩)
        · right; exact ⟨hc, mem_prune (List.mem_map.2 ⟨e', h, rfl⟩)⟩
      · simp at h
  · left
    rw [List.mem_singleton] at h
    rw [h]

theorem xyOf_factors (ps : List MPauli) (ts : List ℕ) : xyOf (factors ps ts) = changed ps ts := by
  unfold xyOf factors changed
  induction ps generalizing ts with
  | nil => rfl
  | cons p ps ih =>
    cases ts with
    | nil => rfl
    | cons t ts =>
      have ih := ih ts
      cases p
      · exact ih
      · exact congrArg (t :: ·) ih
      · exact ih
      · exact congrArg (t :: ·) ih

theorem mem_expState {m : IMap ℕ} {st : List (ℕ × Cx F)} (hc : GCore m st) {csl : List ℕ} {mk : ExpMasks} {θ : F}
    {e : ℕ × Cx F} (h : e ∈ expState N csl mk θ st) : ∃ e0 ∈ st, e.1 = e0.1 ∨
      ((csl.all fun c => e0.1.testBit c) = true ∧ e.1 = e0.1 ^^^ mk.xy) := by
  unfold expState at h
  simp only at h
  split at h
  · unfold expDiag at h
    simp only at h
    split at h
    · obtain ⟨e0, h0, he⟩ := List.mem_filterMap.1 h
      split at he
      · cases he; exact ⟨e0, h0, .inl rfl⟩
      · cases he
    · split at h
      · obtain ⟨e0, h0, he⟩ := List.mem_filterMap.1 h
        split at he
        · cases he; exact ⟨e0, h0, .inl rfl⟩
        · cases he
      · obtain ⟨e0, h0, rfl⟩ := List.mem_map.1 h
        refine ⟨e0, h0, .inl ?_⟩
        split <;> rfl
  · obtain ⟨e0, h0, he⟩ := List.mem_flatMap.1 h
    exact ⟨e0, mem_shuffled hc h0, keys_exp he⟩

theorem mem_changed {ps : List MPauli} {ts : List ℕ} {q : ℕ} (h : q ∈ changed ps ts) : q ∈ ts := by
  unfold changed at h
  obtain ⟨p, hp, rfl⟩ := List.mem_map.1 h
  exact (List.of_mem_zip (List.mem_filter.1 hp).1).2

theorem mcexp_steps {s s' : GSim F} (hi : Inv s) {cs ts : List ℕ} {ps : List MPauli} {θ : F} (hn : (cs ++ ts).Nodup)
    (ha : Alloc s.idMap (cs ++ ts)) (hlen : ps.length ≤ ts.length) (h : mcexp N cs ps θ ts s = .ok s') :
    Steps (fun f g => if ∀ c ∈ cs, f c = true then (g = f ∨ g = toggle (changed ps ts) f) else g = f) s s' := by
  unfold mcexp at h
  obtain ⟨s1, h1, h⟩ := bind_ok h
  obtain ⟨s2, h2, h⟩ := bind_ok h
  have hd1 := (flushQueue_goes _ _ hi).get h1
  have hd2 := (flushQueue_goes _ _ hd1.1.inv).get h2
  rw [← (hd1.1.trans hd2.1).idMap] at ha
  obtain ⟨csl, tsl, mk, hcs, hts, hnl, hmk, hok⟩ := maskOk_of hd2.1.inv.core.inj hn ha hlen
  simp only [hcs, hts, ok_bind, expCheckDup_eq, if_pos hnl, hmk] at h
  cases h
  refine Steps.after ((flushQueue_shr hi h1).trans (flushQueue_shr hd1.1.inv h2)) ?_
  have hqc : ∀ c ∈ cs, hasQueued s2 c = false := fun c hc => hd2.1.none (hd1.2.2 rfl c hc)
  have hops := hd2.2.1
  rintro g ⟨b, hb, hg⟩
  obtain ⟨e, he, rfl⟩ := (eff_empty (s := { s2 with state := expState N csl mk θ s2.state }) hops).1 hb
  obtain ⟨e0, he0, hk⟩ := mem_expState hd2.1.inv.core he
  simp only at hg
  rcases hk with hk | ⟨hc, hk⟩
  · refine ⟨g, ⟨_, (eff_empty hops).2 ⟨e0, he0, rfl⟩, fun q hq => ?_⟩, ?_⟩
    · rw [hg q hq, hk]
    · by_cases hcc : ∀ c ∈ cs, g c = true
      · simp only [if_pos hcc]; exact .inl trivial
      · simp only [if_neg hcc]
  · have hx := hok.xy e0.1
    rw [xyOf_factors] at hx
    rw [hk, hx] at hg
    refine ⟨toggle (changed ps ts) g, ⟨_, (eff_empty hops).2 ⟨e0, he0, rfl⟩, fun q hq => ?_⟩, ?_⟩
    · have := hg q hq
      unfold flipAll at this
      unfold toggle
      split
      · rename_i hm
        rw [if_pos hm] at this
        rw [this]; simp
      · rename_i hm
        rw [if_neg hm] at this; exact this
    · suffices hall : ∀ c ∈ cs, toggle (changed ps ts) g c = true by
        simp only [if_pos hall]
        exact .inr (toggle_toggle _ _).symm
      · intro c hcm
        have hcn : c ∉ changed ps ts := by
          intro hm
          exact (List.nodup_append.1 hn).2.2 c hcm c (mem_changed hm) rfl
        unfold toggle
        rw [if_neg hcn, hg c (hqc c hcm), flipAll, if_neg hcn]
        exact (all_ctls_iff hok.ctl e0.1).1 hc c hcm

end Gen
end Qir
