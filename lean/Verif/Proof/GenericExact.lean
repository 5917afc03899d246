import Verif.Props.GenericReal
import Verif.Proof.RoundedExact

/-! With the arithmetic of the real numbers, the functions of `Model/Generic` are those of `Model/Sim`. -/

noncomputable section
namespace Qir
namespace Gen
open Sim (resolveId resolveIds indexId resolveAndCheck checkForDuplicates firstFree locMask oddParity findByLoc
  ExpMasks expMasks expCheckDup)

variable (env : Env)

local notation "A" => Arith.exact env
local notation "N" => realNum env

/-! ### Numbers -/

theorem toC_one : toC (N).oneC = 1 := rfl
theorem toC_i : toC (N).iC = Complex.I := rfl
theorem toC_neg (z : Cx ℝ) : toC ((N).negC z) = -toC z := rfl
theorem toC_mul (z w : Cx ℝ) : toC ((N).mulC z w) = (A).mul (toC z) (toC w) := rfl
theorem toC_scale (z : Cx ℝ) (r : ℝ) : toC ((N).scale z r) = (A).scale (toC z) r := rfl
theorem toC_add (z w : Cx ℝ) : toC ((N).addC z w) = (A).add (toC z) (toC w) := rfl
theorem toC_sub (z w : Cx ℝ) : toC ((N).subC z w) = (A).sub (toC z) (toC w) := rfl
theorem normSqr_eq (z : Cx ℝ) : (N).normSqr z = (A).normSqr (toC z) := rfl
theorem toC_cis (x : ℝ) : toC ((N).cis x) = ⟨Real.cos x, Real.sin x⟩ := by
  show (⟨1 * Real.cos x, 1 * Real.sin x⟩ : ℂ) = _
  rw [one_mul, one_mul]

theorem nearlyZero_eq (x : ℝ) : (N).nearlyZero x = decide (NearlyZeroR env.eps x) := by
  rw [Bool.eq_iff_iff]
  exact decide_eq_true_iff.trans decide_eq_true_iff.symm

theorem nearlyZeroC_eq (z : Cx ℝ) : (N).nearlyZeroC z = decide (NearlyZero env.eps (toC z)) := by
  show ((N).nearlyZero z.re && (N).nearlyZero z.im) = _
  rw [nearlyZero_eq, nearlyZero_eq, Bool.eq_iff_iff]
  rw [decide_eq_true_iff, Bool.and_eq_true, decide_eq_true_iff, decide_eq_true_iff]
  rfl

theorem eqC_eq (z w : Cx ℝ) : (N).eqC z w = decide (toC z = toC w) := by
  show (decide (z.re = w.re) && decide (z.im = w.im)) = _
  rw [Bool.eq_iff_iff]
  simp [Complex.ext_iff, toC]

theorem shuffle_eq (l : List (ℕ × Cx ℝ)) : ((N).shuffle l).map toE = (A).shuffle (l.map toE) := map_ofE_toE _

/-! ### Panics -/

section
variable {α β γ : Type}

theorem bind_of_map (f : α → β) (r : Except Panic α) (k : β → Except Panic γ) :
    (Except.map f r >>= k) = r >>= fun a => k (f a) := by cases r <;> rfl

theorem map_of_bind (f : β → γ) (r : Except Panic α) (k : α → Except Panic β) :
    Except.map f (r >>= k) = r >>= fun a => Except.map f (k a) := by cases r <;> rfl

theorem map_ok (f : α → β) (a : α) : Except.map f (.ok a : Except Panic α) = .ok (f a) := rfl
theorem map_pure (f : α → β) (a : α) : Except.map f (pure a : Except Panic α) = pure (f a) := rfl
theorem map_ite (f : α → β) (c : Prop) [Decidable c] (x y : Except Panic α) :
    Except.map f (if c then x else y) = if c then Except.map f x else Except.map f y := by split <;> rfl
end

theorem mapIf {c c' : Prop} [Decidable c] [Decidable c'] (hc : c ↔ c') {a b : List (ℕ × Cx ℝ)} {a' b' : List (ℕ × ℂ)}
    (ha : a.map toE = a') (hb : b.map toE = b') : (if c then a else b).map toE = if c' then a' else b' := by
  by_cases h : c
  · rw [if_pos h, if_pos (hc.mp h), ha]
  · rw [if_neg h, if_neg (fun h' => h (hc.mpr h')), hb]

theorem exIf {α β : Type} {f : α → β} {c c' : Prop} [Decidable c] [Decidable c'] (hc : c ↔ c') {x y : Except Panic α}
    {x' y' : Except Panic β} (hx : x' = x.map f) (hy : y' = y.map f) :
    (if c' then x' else y') = (if c then x else y).map f := by
  by_cases h : c
  · rw [if_pos h, if_pos (hc.mp h), hx]
  · rw [if_neg h, if_neg (fun h' => h (hc.mpr h')), hy]

theorem appIf {α β : Type} (f : α → β) {c c' : Prop} [Decidable c] [Decidable c'] (hc : c ↔ c') {x y : α} {x' y' : β}
    (hx : f x = x') (hy : f y = y') : f (if c then x else y) = if c' then x' else y' := by
  by_cases h : c
  · rw [if_pos h, if_pos (hc.mp h), hx]
  · rw [if_neg h, if_neg (fun h' => h (hc.mpr h')), hy]

theorem bindSame {α β γ δ : Type} {f : α → β} {g : γ → δ} {r : Except Panic α} {r' : Except Panic β}
    {k : α → Except Panic γ} {k' : β → Except Panic δ} (h : r' = r.map f) (hk : ∀ a, k' (f a) = (k a).map g) :
    (r' >>= k') = (r >>= k).map g := by
  subst h
  cases r with
  | error p => rfl
  | ok a => exact hk a

theorem bindSelf {α γ δ : Type} {g : γ → δ} {r r' : Except Panic α} (hr : r' = r)
    {k : α → Except Panic γ} {k' : α → Except Panic δ} (hk : ∀ a, k' a = (k a).map g) :
    (r' >>= k') = (r >>= k).map g := by
  subst hr
  cases r' with
  | error p => rfl
  | ok a => exact hk a

theorem near_iff (env : Env) (z : Cx ℝ) : (realNum env).nearlyZeroC z = true ↔ NearlyZero env.eps (toC z) := by
  rw [nearlyZeroC_eq, decide_eq_true_iff]

theorem near0_iff (env : Env) (x : ℝ) : (realNum env).nearlyZero x = true ↔ NearlyZeroR env.eps x := by
  rw [nearlyZero_eq, decide_eq_true_iff]

/-! ### Maps -/

theorem insertPair_eq (m : List (ℕ × Cx ℝ)) (p : ℕ × Cx ℝ) :
    (insertPair m p).map toE = Sim.insertPair (m.map toE) (toE p) := by
  unfold insertPair Sim.insertPair
  simp only [List.any_map, Function.comp_def, toE_fst]
  split
  · simp only [List.map_map]
    apply List.map_congr_left
    intro q _
    simp only [Function.comp, toE_fst]
    by_cases hq : (q.1 == p.1) = true <;> simp only [hq, if_true, Bool.false_eq_true, if_false]
  · simp

theorem collectMap_eq (l : List (ℕ × Cx ℝ)) : (collectMap l).map toE = Sim.collectMap (l.map toE) := by
  unfold collectMap Sim.collectMap
  suffices h : ∀ m, (l.foldl insertPair m).map toE = (l.map toE).foldl Sim.insertPair (m.map toE) from h []
  induction l with
  | nil => intro m; rfl
  | cons e l ih => intro m; simp only [List.foldl, List.map, ih, insertPair_eq]

theorem lookupMap_eq (m : List (ℕ × Cx ℝ)) (k : ℕ) : Sim.lookupMap (m.map toE) k = (lookupMap m k).map toC := by
  unfold lookupMap Sim.lookupMap
  simp only [List.find?_map, Function.comp_def, toE_fst, Option.map_map]
  rfl

theorem resolveOps_eq (m : IMap ℕ) (q : List (List ℕ × ℕ × GOp ℝ)) :
    Sim.resolveOps m (q.map toQ) = (resolveOps m q).map (·.map toQ) := by
  induction q with
  | nil => rfl
  | cons o q ih =>
    obtain ⟨cs, t, op⟩ := o
    simp only [List.map, toQ, Sim.resolveOps, resolveOps]
    rw [ih]
    simp only [map_of_bind, bind_of_map]
    rfl

theorem takeOps_eq (s : GSim ℝ) : Sim.takeOps (toSim s) = (takeOps s).map fun r => (r.1.map toQ, toSim r.2) := by
  simp only [Sim.takeOps, takeOps, map_of_bind]
  rw [show (toSim s).opQ = s.opQ.map toQ from rfl, resolveOps_eq, bind_of_map]
  rfl

/-! ### Queued operations -/

theorem applyOp_eq (op : List ℕ × ℕ × GOp ℝ) (e : ℕ × Cx ℝ) :
    toE (applyOp N op e) = Rnd.applyOp A (toQ op) (toE e) := by
  obtain ⟨cs, t, op⟩ := op
  unfold applyOp Rnd.applyOp
  by_cases hc : cs.all (fun c => e.1.testBit c) = true
  · rw [if_pos hc, if_pos (show ((toQ (cs, t, op)).1.all fun c => (toE e).1.testBit c) = true from hc)]
    have hy : toC (if (setBit e.1 t (!e.1.testBit t)).testBit t = true then (N).iC else (N).negC (N).iC) =
        if (setBit e.1 t (!e.1.testBit t)).testBit t = true then Complex.I else -Complex.I := by split <;> rfl
    have hp : ∀ z, toC (if e.1.testBit t = true then z else (N).oneC) =
        if e.1.testBit t = true then toC z else 1 := by intro z; split <;> rfl
    have hr : (if e.1.testBit t = true then (N).one else (N).neg (N).one) = if e.1.testBit t = true then (1 : ℝ) else -1 := by
      split <;> rfl
    cases op with
    | X => rfl
    | Rz θ =>
      show (e.1, toC ((N).mulC e.2 ((N).cis ((N).mul ((N).div θ (N).two) _)))) = _
      rw [toC_mul, toC_cis, hr]
      rfl
    | Y =>
      show (_, toC ((N).mulC e.2 _)) = _
      rw [toC_mul, hy]
      rfl
    | _ =>
      show (_, toC ((N).mulC e.2 _)) = _
      rw [toC_mul, hp]
      rfl
  · rw [if_neg hc, if_neg (show ¬((toQ (cs, t, op)).1.all fun c => (toE e).1.testBit c) = true from hc)]

theorem applyOps_eq (ops : List (List ℕ × ℕ × GOp ℝ)) (e : ℕ × Cx ℝ) :
    toE (applyOps N ops e) = Rnd.applyOps A (ops.map toQ) (toE e) := by
  unfold applyOps Rnd.applyOps
  induction ops generalizing e with
  | nil => rfl
  | cons o ops ih => simp only [List.foldl, List.map, ih, applyOp_eq]

theorem map_applyOps (ops : List (List ℕ × ℕ × GOp ℝ)) (l : List (ℕ × Cx ℝ)) :
    (l.map (applyOps N ops)).map toE = (l.map toE).map (Rnd.applyOps A (ops.map toQ)) := by
  rw [List.map_map, List.map_map]
  exact List.map_congr_left fun e _ => applyOps_eq env ops e

theorem flushOps_eq (s : GSim ℝ) : Rnd.flushOps A (toSim s) = (flushOps N s).map toSim := by
  unfold flushOps Rnd.flushOps
  rw [map_ite]
  congr 1
  · simp [toSim]
  · rw [takeOps_eq, bind_of_map, map_of_bind]
    congr 1
    funext r
    simp only [map_pure, toSim, map_applyOps]

theorem enqueueOp_eq (t : ℕ) (cs : List ℕ) (op : GOp ℝ) (s : GSim ℝ) :
    Rnd.enqueueOp A t cs (toOp op) (toSim s) = (enqueueOp N t cs op s).map toSim := by
  have hp : ∀ r : GSim ℝ, ({ toSim r with opQ := (toSim r).opQ ++ [(cs, t, toOp op)] } : Sim) =
      toSim { r with opQ := r.opQ ++ [(cs, t, op)] } := by
    intro r
    simp [toSim, toQ]
  unfold enqueueOp Rnd.enqueueOp
  refine exIf (by rw [show (toSim s).opQ.length = s.opQ.length by simp [toSim]]) ?_ ?_
  · rw [flushOps_eq, bind_of_map, map_of_bind]
    congr 1
    funext r
    exact congrArg Except.ok (hp r)
  · exact congrArg Except.ok (hp s)

/-! ### Gates that change the support -/

theorem mchEntry_eq (m : List (ℕ × Cx ℝ)) (cs : List ℕ) (t : ℕ) (e : ℕ × Cx ℝ) :
    (mchEntry N m cs t e).map toE = Rnd.mchEntry A (m.map toE) cs t (toE e) := by
  unfold mchEntry Rnd.mchEntry
  refine mapIf Iff.rfl ?_ rfl
  simp only [toE_fst, lookupMap_eq]
  cases lookupMap m (e.1 ^^^ setBit 0 t true) with
  | none =>
    have hb : (if e.1.testBit t = true then (N).neg (N).one else (N).one) = if e.1.testBit t = true then (-1 : ℝ) else 1 := by
      split <;> rfl
    simp only [Option.map, hb]
    rfl
  | some v =>
    refine mapIf Iff.rfl ?_ rfl
    rw [List.map_append]
    congr 1
    · exact mapIf (near_iff env _) rfl rfl
    · exact mapIf (near_iff env _) rfl rfl

theorem rotEntry_eq (m : List (ℕ × Cx ℝ)) (cs : List ℕ) (t : ℕ) (a b c : Cx ℝ) (e : ℕ × Cx ℝ) :
    (rotEntry N m cs t a b c e).map toE = Rnd.rotEntry A (m.map toE) cs t (toC a) (toC b) (toC c) (toE e) := by
  unfold rotEntry Rnd.rotEntry
  refine mapIf Iff.rfl ?_ rfl
  simp only [toE_fst, lookupMap_eq]
  cases lookupMap m (e.1 ^^^ setBit 0 t true) with
  | none => exact mapIf Iff.rfl rfl rfl
  | some v =>
    refine mapIf Iff.rfl ?_ rfl
    rw [List.map_append]
    congr 1
    · exact mapIf (near_iff env _) rfl rfl
    · exact mapIf (near_iff env _) rfl rfl

theorem expEntry_eq (m : List (ℕ × Cx ℝ)) (cs : List ℕ) (xy yz : ℕ) (a b c : Cx ℝ) (e : ℕ × Cx ℝ) :
    (expEntry N m cs xy yz a b c e).map toE =
      Rnd.expEntry A (m.map toE) cs xy yz (toC a) (toC b) (toC c) (toE e) := by
  have hif : ∀ (z : Cx ℝ), toC (if oddParity e.1 yz = true then (N).negC z else z) =
      if oddParity e.1 yz = true then -toC z else toC z := by
    intro z; split <;> rfl
  have hif' : ∀ (z : Cx ℝ), toC (if oddParity e.1 yz = false then z else (N).negC z) =
      if oddParity e.1 yz = false then toC z else -toC z := by
    intro z; split <;> rfl
  unfold expEntry Rnd.expEntry
  refine mapIf Iff.rfl ?_ rfl
  simp only [toE_fst, lookupMap_eq]
  cases lookupMap m (e.1 ^^^ xy) with
  | none =>
    simp only [Option.map, List.map, toE, toC_mul, hif']
    rfl
  | some v =>
    refine mapIf Iff.rfl ?_ rfl
    rw [List.map_append]
    congr 1
    · exact mapIf ((near_iff env _).trans (by rw [toC_add, toC_mul, toC_mul, hif]; rfl)) rfl
        (by simp only [List.map, toE, toC_add, toC_mul, hif]; rfl)
    · exact mapIf ((near_iff env _).trans (by rw [toC_add, toC_mul, toC_mul, hif]; rfl)) rfl
        (by simp only [List.map, toE, toC_add, toC_mul, hif]; rfl)

theorem flatMap_eq (f : ℕ × Cx ℝ → List (ℕ × Cx ℝ)) (g : ℕ × ℂ → List (ℕ × ℂ)) (h : ∀ e, (f e).map toE = g (toE e))
    (l : List (ℕ × Cx ℝ)) : (l.flatMap f).map toE = (l.map toE).flatMap g := by
  induction l with
  | nil => rfl
  | cons e l ih => simp only [List.flatMap_cons, List.map_append, List.map, ih, h]

theorem applyMch_eq (cs : List ℕ) (t : ℕ) (s : GSim ℝ) :
    Rnd.applyMch A cs t (toSim s) = (applyMch N cs t s).map toSim := by
  unfold applyMch Rnd.applyMch
  refine bindSelf rfl fun r => ?_
  refine bindSame (takeOps_eq s) fun o => ?_
  refine congrArg Except.ok ?_
  simp only [toSim, ← map_applyOps, ← collectMap_eq, ← shuffle_eq]
  rw [flatMap_eq _ _ (mchEntry_eq env _ r.2 r.1)]

theorem scaleIf_eq (cs : List ℕ) (z : Cx ℝ) (e : ℕ × Cx ℝ) :
    toE (scaleIf N cs z e) = Rnd.scaleIf A cs (toC z) (toE e) := appIf toE Iff.rfl rfl rfl

theorem map_scaleIf (cs : List ℕ) (z : Cx ℝ) (ops : List (List ℕ × ℕ × GOp ℝ)) (l : List (ℕ × Cx ℝ)) :
    (l.map fun e => scaleIf N cs z (applyOps N ops e)).map toE =
      (l.map toE).map fun e => Rnd.scaleIf A cs (toC z) (Rnd.applyOps A (ops.map toQ) e) := by
  rw [List.map_map, List.map_map]
  apply List.map_congr_left
  intro e _
  simp only [Function.comp, scaleIf_eq, applyOps_eq]

theorem rotM00_eq (θ : ℝ) : toC (rotM00 N θ) = Rnd.rotM00 A θ := rfl

theorem rotM01_eq (θ : ℝ) (b : Bool) : toC (rotM01 N θ b) = Rnd.rotM01 A θ b := by
  unfold rotM01 Rnd.rotM01
  rw [toC_mul]
  congr 1
  split <;> rfl

theorem mcrotation_eq (p : GSim ℝ → Except Panic (GSim ℝ)) (p' : Sim → Except Panic Sim)
    (hp : ∀ s, p' (toSim s) = (p s).map toSim) (cs : List ℕ) (θ : ℝ) (t : ℕ) (b : Bool) (s : GSim ℝ) :
    Rnd.mcrotation A p' cs θ t b (toSim s) = (mcrotation N p cs θ t b s).map toSim := by
  have hf : toC ((N).mulC (rotM01 N θ b) (if b = true then (N).iC else (N).oneC)) =
      (A).mul (Rnd.rotM01 A θ b) (if b = true then Complex.I else 1) := by
    rw [toC_mul, rotM01_eq]
    congr 1
    exact appIf toC Iff.rfl rfl rfl
  have hs : toC ((N).scale (rotM01 N θ b) (if b = true then (N).neg (N).one else (N).one)) =
      (A).scale (Rnd.rotM01 A θ b) (if b = true then -1 else 1) := by
    rw [toC_scale, rotM01_eq]
    congr 1
  unfold mcrotation Rnd.mcrotation
  refine exIf ((near_iff env _).trans (by rw [rotM00_eq]; rfl)) ?_ (exIf ((near_iff env _).trans (by rw [rotM01_eq]; rfl))
    (exIf ((near_iff env _).trans (by rw [toC_add, rotM00_eq]; rfl)) ?_ rfl) ?_)
  · refine bindSame (hp s) fun r => ?_
    refine bindSelf rfl fun q => ?_
    refine exIf ?_ ?_ rfl
    · rw [eqC_eq, hf, toC_one]
      simp
    · refine bindSame (takeOps_eq r) fun o => ?_
      refine congrArg Except.ok ?_
      simp only [toSim, map_scaleIf, hf]
  · refine bindSame (takeOps_eq s) fun o => ?_
    refine bindSelf rfl fun q => ?_
    refine congrArg Except.ok ?_
    simp only [toSim, map_scaleIf]
    rfl
  · refine bindSelf rfl fun q => ?_
    refine bindSame (takeOps_eq s) fun o => ?_
    refine congrArg Except.ok ?_
    simp only [toSim, ← map_applyOps, ← collectMap_eq, ← shuffle_eq]
    rw [flatMap_eq _ _ (rotEntry_eq env _ q.2 q.1 _ _ _), hs, rotM00_eq, rotM01_eq]

/-! ### Single gates and queues -/

/-- `angle *= -1.0` in the queue of rotations about Y. -/
def negRy (t : ℕ) (s : GSim ℝ) : GSim ℝ := { s with ryQ := s.ryQ.modify t fun a => (N).mul a ((N).neg (N).one) }

/-- `angle *= -1.0` in the queue of rotations about X. -/
def negRx (t : ℕ) (s : GSim ℝ) : GSim ℝ := { s with rxQ := s.rxQ.modify t fun a => (N).mul a ((N).neg (N).one) }

theorem x_eq (t : ℕ) (s : GSim ℝ) : Rnd.x A t (toSim s) = (x N t s).map toSim :=
  exIf Iff.rfl (enqueueOp_eq env t [] .Z (negRy env t s)) (enqueueOp_eq env t [] .X (negRy env t s))

theorem y_eq (t : ℕ) (s : GSim ℝ) : Rnd.y A t (toSim s) = (y N t s).map toSim :=
  enqueueOp_eq env t [] .Y (negRx env t s)

theorem z_eq (t : ℕ) (s : GSim ℝ) : Rnd.z A t (toSim s) = (z N t s).map toSim :=
  exIf Iff.rfl (enqueueOp_eq env t [] .X (negRx env t (negRy env t s)))
    (enqueueOp_eq env t [] .Z (negRx env t (negRy env t s)))

theorem flushRx_eq (t : ℕ) (s : GSim ℝ) : Rnd.flushRx A t (toSim s) = (flushRx N t s).map toSim := by
  unfold flushRx Rnd.flushRx
  rw [show (toSim s).rxQ = s.rxQ from rfl]
  cases s.rxQ.get t with
  | none => rfl
  | some θ => exact bindSame (mcrotation_eq env _ _ (x_eq env t) [] θ t false s) fun _ => rfl

theorem flushRy_eq (t : ℕ) (s : GSim ℝ) : Rnd.flushRy A t (toSim s) = (flushRy N t s).map toSim := by
  unfold flushRy Rnd.flushRy
  rw [show (toSim s).ryQ = s.ryQ from rfl]
  cases s.ryQ.get t with
  | none => rfl
  | some θ => exact bindSame (mcrotation_eq env _ _ (y_eq env t) [] θ t true s) fun _ => rfl

theorem flushH_eq (t : ℕ) (s : GSim ℝ) : Rnd.flushH A t (toSim s) = (flushH N t s).map toSim :=
  exIf Iff.rfl (bindSame (applyMch_eq env [] t s) fun _ => rfl) rfl

theorem flushOne_eq (l : FlushLevel) (t : ℕ) (s : GSim ℝ) :
    Rnd.flushOne A l t (toSim s) = (flushOne N l t s).map toSim := by
  unfold flushOne Rnd.flushOne
  refine bindSame (flushH_eq env t s) fun r => ?_
  cases l with
  | H => rfl
  | HRx => exact flushRx_eq env t r
  | HRxRy => exact bindSame (flushRx_eq env t r) fun r => flushRy_eq env t r

theorem flushLoop_eq (l : FlushLevel) (qs : List ℕ) (s : GSim ℝ) :
    Rnd.flushLoop A l qs (toSim s) = (flushLoop N l qs s).map toSim := by
  induction qs generalizing s with
  | nil => rfl
  | cons q qs ih => exact bindSame (flushOne_eq env l q s) ih

theorem flushQueue_eq (qs : List ℕ) (l : FlushLevel) (s : GSim ℝ) :
    Rnd.flushQueue A qs l (toSim s) = (flushQueue N qs l s).map toSim :=
  bindSame (flushLoop_eq env l qs s) (flushOps_eq env)

theorem maybeFlush_eq (qs : List ℕ) (l : FlushLevel) (s : GSim ℝ) :
    Rnd.maybeFlush A qs l (toSim s) = (maybeFlush N qs l s).map toSim :=
  exIf Iff.rfl (flushQueue_eq env qs l s) rfl

theorem flushIf_eq (c : Bool) (qs : List ℕ) (l : FlushLevel) (s : GSim ℝ) :
    Rnd.flushIf A c qs l (toSim s) = (flushIf N c qs l s).map toSim :=
  exIf Iff.rfl (flushQueue_eq env qs l s) rfl

/-! ### Public gates -/

theorem mcxFlushCtls_eq (c : ℕ) (cs : List ℕ) (t : ℕ) (s : GSim ℝ) :
    Rnd.mcxFlushCtls A c cs t (toSim s) = (mcxFlushCtls N c cs t s).map toSim :=
  exIf Iff.rfl (maybeFlush_eq env _ _ s) (flushIf_eq env _ _ _ s)

theorem mcx_eq (cs : List ℕ) (t : ℕ) (s : GSim ℝ) : Rnd.mcx A cs t (toSim s) = (mcx N cs t s).map toSim := by
  cases cs with
  | nil => exact x_eq env t s
  | cons c cs =>
    refine bindSame (flushIf_eq env _ _ _ s) fun r => ?_
    refine bindSame (mcxFlushCtls_eq env c cs t r) fun r => ?_
    exact exIf Iff.rfl (exIf Iff.rfl (enqueueOp_eq env _ _ .X r) (enqueueOp_eq env _ _ .Z r)) (enqueueOp_eq env _ _ .X r)

theorem mcy_eq (cs : List ℕ) (t : ℕ) (s : GSim ℝ) : Rnd.mcy A cs t (toSim s) = (mcy N cs t s).map toSim := by
  cases cs with
  | nil => exact y_eq env t s
  | cons c cs =>
    refine bindSame (maybeFlush_eq env _ _ s) fun r => ?_
    refine bindSame (flushIf_eq env _ _ _ r) fun r => ?_
    refine bindSame (f := toSim) (exIf Iff.rfl (enqueueOp_eq env _ _ .Z r) rfl) fun r => ?_
    exact enqueueOp_eq env _ _ .Y r

theorem mcphase_eq (cs : List ℕ) (φ : Cx ℝ) (t : ℕ) (s : GSim ℝ) :
    Rnd.mcphase A cs (toC φ) t (toSim s) = (mcphase N cs φ t s).map toSim := by
  unfold mcphase Rnd.mcphase
  refine bindSame (flushQueue_eq env _ _ s) fun r => ?_
  refine bindSame (flushQueue_eq env _ _ r) fun r => ?_
  refine bindSelf rfl fun q => ?_
  refine congrArg Except.ok ?_
  simp only [toSim]
  congr 1
  rw [List.map_map, List.map_map]
  apply List.map_congr_left
  intro e _
  refine (appIf toE Iff.rfl ?_ rfl).symm
  show (_, toC ((N).mulC e.2 _)) = _
  rw [toC_mul]
  exact congrArg (fun z => (e.1, (A).mul (toC e.2) z)) (appIf toC Iff.rfl rfl rfl)

theorem mczCount_eq (cs : List ℕ) (t : ℕ) (s : GSim ℝ) : Sim.mczCount (toSim s) cs t = mczCount s cs t := rfl

theorem mcz_eq (cs : List ℕ) (t : ℕ) (s : GSim ℝ) : Rnd.mcz A cs t (toSim s) = (mcz N cs t s).map toSim := by
  cases cs with
  | nil => exact z_eq env t s
  | cons c cs =>
    refine exIf Iff.rfl ?_ ?_
    · rw [show (toSim s).hFlag = s.hFlag from rfl]
      cases (c :: cs).find? (fun c => s.hFlag.testBit c) with
      | none => exact enqueueOp_eq env _ _ .X s
      | some a => exact enqueueOp_eq env _ _ .X s
    · refine bindSame (flushQueue_eq env _ _ s) fun r => ?_
      refine bindSame (flushQueue_eq env _ _ r) fun r => ?_
      exact enqueueOp_eq env _ _ .Z r

theorem diagGate_eq (op : GOp ℝ) (t : ℕ) (s : GSim ℝ) :
    Rnd.diagGate A (toOp op) t (toSim s) = (diagGate N op t s).map toSim :=
  bindSame (maybeFlush_eq env _ _ s) fun r => enqueueOp_eq env _ _ op r

theorem mcDiagGate_eq (op : GOp ℝ) (cs : List ℕ) (t : ℕ) (s : GSim ℝ) :
    Rnd.mcDiagGate A (toOp op) cs t (toSim s) = (mcDiagGate N op cs t s).map toSim :=
  bindSame (maybeFlush_eq env _ _ s) fun r => bindSame (maybeFlush_eq env _ _ r) fun r => enqueueOp_eq env _ _ op r

theorem h_eq (t : ℕ) (s : GSim ℝ) : Rnd.h A t (toSim s) = (h N t s).map toSim :=
  bindSame (flushIf_eq env _ _ _ (negRy env t s)) fun _ => rfl

theorem mch_eq (cs : List ℕ) (t : ℕ) (s : GSim ℝ) : Rnd.mch A cs t (toSim s) = (mch N cs t s).map toSim :=
  bindSame (flushQueue_eq env _ _ s) fun r => bindSame (flushIf_eq env _ _ _ r) fun r => applyMch_eq env _ _ r

theorem addAngle_eq (q : IMap ℝ) (t : ℕ) (θ : ℝ) : Rnd.addAngle A q t θ = addAngle N q t θ := by
  unfold addAngle Rnd.addAngle
  cases q.get t with
  | none => rfl
  | some a => exact (appIf id (near0_iff env _) rfl rfl).symm

theorem rx_eq (θ : ℝ) (t : ℕ) (s : GSim ℝ) : Rnd.rx A θ t (toSim s) = (rx N θ t s).map toSim := by
  refine bindSame (flushIf_eq env _ _ _ s) fun r => ?_
  refine congrArg Except.ok ?_
  simp only [toSim, addAngle_eq]

theorem ry_eq (θ : ℝ) (t : ℕ) (s : GSim ℝ) : Rnd.ry A θ t (toSim s) = (ry N θ t s).map toSim := by
  refine congrArg Except.ok ?_
  simp only [toSim, addAngle_eq]

theorem mcrx_eq (cs : List ℕ) (θ : ℝ) (t : ℕ) (s : GSim ℝ) : Rnd.mcrx A cs θ t (toSim s) = (mcrx N cs θ t s).map toSim := by
  refine bindSame (flushQueue_eq env _ _ s) fun r => ?_
  exact exIf Iff.rfl
    (bindSame (flushQueue_eq env _ _ r) fun r => mcrotation_eq env _ _ (mcx_eq env cs t) _ _ _ _ r)
    (bindSame (flushIf_eq env _ _ _ r) fun r => mcrotation_eq env _ _ (mcx_eq env cs t) _ _ _ _ r)

theorem mcry_eq (cs : List ℕ) (θ : ℝ) (t : ℕ) (s : GSim ℝ) : Rnd.mcry A cs θ t (toSim s) = (mcry N cs θ t s).map toSim := by
  refine bindSame (flushQueue_eq env _ _ s) fun r => ?_
  exact exIf Iff.rfl
    (bindSame (flushQueue_eq env _ _ r) fun r => mcrotation_eq env _ _ (mcy_eq env cs t) _ _ _ _ r)
    (bindSame (flushIf_eq env _ _ _ r) fun r => mcrotation_eq env _ _ (mcy_eq env cs t) _ _ _ _ r)

/-! ### The exponential -/

theorem filterMap_eq (f : ℕ × Cx ℝ → Option (ℕ × Cx ℝ)) (g : ℕ × ℂ → Option (ℕ × ℂ))
    (h : ∀ e, (f e).map toE = g (toE e)) (l : List (ℕ × Cx ℝ)) : (l.filterMap f).map toE = (l.map toE).filterMap g := by
  rw [List.map_filterMap, List.filterMap_map]
  exact congrArg (fun k => List.filterMap k l) (funext h)

theorem expDiag_eq (cs : List ℕ) (yz : ℕ) (a b : Cx ℝ) (l : List (ℕ × Cx ℝ)) :
    (expDiag N cs yz a b l).map toE = Rnd.expDiag A cs yz (toC a) (toC b) (l.map toE) := by
  have h2 : toC ((N).subC ⟨(N).mul (N).two a.re, (N).mul (N).two a.im⟩ ((N).addC b a)) =
      (A).sub ((A).scale (toC a) 2) ((A).add (toC b) (toC a)) := by
    rw [toC_sub]
    congr 1
    show (⟨2 * a.re, 2 * a.im⟩ : ℂ) = ⟨a.re * 2, a.im * 2⟩
    rw [mul_comm, mul_comm a.im]
  unfold expDiag Rnd.expDiag
  refine mapIf (near_iff env _) ?_ (mapIf ((near_iff env _).trans (by rw [h2]; rfl)) ?_ ?_)
  · refine filterMap_eq _ _ (fun e => appIf (Option.map toE) Iff.rfl ?_ rfl) l
    show some (e.1, toC ((N).mulC e.2 _)) = _
    rw [toC_mul, h2]
    rfl
  · exact filterMap_eq _ _ (fun e => appIf (Option.map toE) Iff.rfl rfl rfl) l
  · rw [List.map_map, List.map_map]
    apply List.map_congr_left
    intro e _
    refine appIf toE Iff.rfl ?_ rfl
    show (e.1, toC ((N).mulC e.2 _)) = _
    rw [toC_mul]
    exact congrArg (fun z => (e.1, (A).mul (toC e.2) z)) (appIf toC Iff.rfl rfl h2)

theorem yPhase_eq (n : ℕ) : toC (yPhase N n) = Sim.yPhase n :=
  appIf toC Iff.rfl rfl (appIf toC Iff.rfl rfl (appIf toC Iff.rfl rfl rfl))

theorem expState_eq (cs : List ℕ) (mk : ExpMasks) (θ : ℝ) (l : List (ℕ × Cx ℝ)) :
    (expState N cs mk θ l).map toE = Rnd.expState A cs mk θ (l.map toE) := by
  unfold expState Rnd.expState
  refine mapIf Iff.rfl (expDiag_eq env cs mk.yz ⟨Real.cos θ, 0⟩ ⟨0, Real.sin θ⟩ l) ?_
  simp only [← collectMap_eq, ← shuffle_eq]
  rw [flatMap_eq _ _ (expEntry_eq env _ cs mk.xy mk.yz _ _ _)]
  rw [toC_mul, yPhase_eq, appIf toC Iff.rfl (toC_mul env _ _) (toC_neg env _), toC_mul, yPhase_eq]
  rfl

theorem mcexp_eq (cs : List ℕ) (ps : List MPauli) (θ : ℝ) (ts : List ℕ) (s : GSim ℝ) :
    Rnd.mcexp A cs ps θ ts (toSim s) = (mcexp N cs ps θ ts s).map toSim := by
  refine bindSame (flushQueue_eq env _ _ s) fun r => ?_
  refine bindSame (flushQueue_eq env _ _ r) fun r => ?_
  refine bindSelf rfl fun a => ?_
  refine bindSelf rfl fun b => ?_
  refine bindSelf rfl fun _ => ?_
  refine bindSelf rfl fun mk => ?_
  refine congrArg Except.ok ?_
  simp only [toSim, expState_eq]

/-! ### Swaps and queries -/

/-- An answer and a state. -/
def toP {α : Type} (r : α × GSim ℝ) : α × Sim := (r.1, toSim r.2)

theorem allocate_eq (s : GSim ℝ) : (toSim s).allocate = toP (allocate s) := rfl

theorem swapEntries_eq (q : IMap ℝ) (a b : ℕ) : Sim.swapEntries q a b = swapEntries q a b := by
  unfold Sim.swapEntries swapEntries
  cases q.get a <;> cases q.get b <;> rfl

theorem swapQubitIds_eq (a b : ℕ) (s : GSim ℝ) : Rnd.swapQubitIds A a b (toSim s) = (swapQubitIds N a b s).map toSim := by
  refine bindSame (flushOps_eq env s) fun _ => bindSelf rfl fun _ => bindSelf rfl fun _ => congrArg Except.ok ?_
  simp only [toSim, swapEntries_eq]

theorem checkJointProbability_eq (ls : List ℕ) (s : GSim ℝ) :
    Rnd.checkJointProbability A ls (toSim s) = (checkJointProbability N ls s).map toP := by
  refine bindSame (takeOps_eq s) fun o => ?_
  refine congrArg Except.ok ?_
  simp only [toP, toSim, ← map_applyOps]
  congr 1
  rw [List.foldl_map]
  rfl

theorem jointProbability_eq (qs : List ℕ) (s : GSim ℝ) :
    Rnd.jointProbability A qs (toSim s) = (jointProbability N qs s).map toP :=
  bindSame (maybeFlush_eq env _ _ s) fun r => bindSelf rfl fun _ => bindSelf rfl fun ls => checkJointProbability_eq env ls r

theorem qubitIsZero_eq (q : ℕ) (s : GSim ℝ) : Rnd.qubitIsZero A q (toSim s) = (qubitIsZero N q s).map toP := by
  refine bindSame (jointProbability_eq env [q] s) fun r => ?_
  refine congrArg Except.ok (Prod.ext ?_ rfl)
  exact (nearlyZero_eq env r.1).symm

theorem jointCollapse_eq (ls : List ℕ) (v : Bool) (p : ℝ) (s : GSim ℝ) :
    Rnd.jointCollapse A ls v p (toSim s) = toSim (jointCollapse N ls v p s) := by
  unfold jointCollapse Rnd.jointCollapse
  simp only [toSim]
  congr 1
  refine (filterMap_eq _ _ (fun e => appIf (Option.map toE) Iff.rfl ?_ rfl) s.state).symm
  show some (e.1, toC ((N).scale e.2 _)) = _
  rw [toC_scale]
  rfl

theorem measure_eq (q : ℕ) (s : GSim ℝ) : Rnd.measure A q (toSim s) = (measure N q s).map toP := by
  refine bindSame (maybeFlush_eq env _ _ s) fun r => ?_
  refine bindSelf rfl fun l => ?_
  refine bindSame (checkJointProbability_eq env [l] (nextSample r).2) fun a => ?_
  refine congrArg Except.ok (Prod.ext rfl ?_)
  exact jointCollapse_eq env _ _ _ _

theorem jointMeasure_eq (qs : List ℕ) (s : GSim ℝ) : Rnd.jointMeasure A qs (toSim s) = (jointMeasure N qs s).map toP := by
  refine bindSame (maybeFlush_eq env _ _ s) fun r => ?_
  refine bindSelf rfl fun _ => ?_
  refine bindSelf rfl fun l => ?_
  refine bindSame (checkJointProbability_eq env l (nextSample r).2) fun a => ?_
  refine congrArg Except.ok (Prod.ext rfl ?_)
  exact jointCollapse_eq env _ _ _ _

theorem forceCollapse_eq (v : Bool) (q : ℕ) (s : GSim ℝ) :
    Rnd.forceCollapse A v q (toSim s) = (forceCollapse N v q s).map toP := by
  refine bindSame (maybeFlush_eq env _ _ s) fun r => ?_
  refine bindSelf rfl fun l => ?_
  refine bindSame (checkJointProbability_eq env [l] r) fun a => ?_
  refine congrArg Except.ok (Prod.ext rfl ?_)
  refine (appIf toSim ?_ (jointCollapse_eq env _ _ _ _).symm rfl).symm
  rw [nearlyZero_eq, nearlyZero_eq]
  show _ ↔ (v = true ∧ ¬ NearlyZeroR env.eps a.1) ∨ (v = false ∧ ¬ NearlyZeroR env.eps (1 - a.1))
  rw [show (N).sub (N).one a.1 = 1 - a.1 from rfl]
  cases v <;> simp

theorem releaseState_eq (q : ℕ) (s : GSim ℝ) : Rnd.releaseState A q (toSim s) = (releaseState N q s).map toSim := by
  refine exIf Iff.rfl rfl ?_
  refine bindSame (measure_eq env q s) fun r => ?_
  refine bindSelf rfl fun l => ?_
  refine exIf Iff.rfl (congrArg Except.ok ?_) rfl
  simp only [toSim]
  congr 1
  rw [List.map_map, List.map_map]
  refine List.map_congr_left fun e _ => ?_
  by_cases h : e.1.testBit l = true <;> simp [toE, h]

theorem release_eq (q : ℕ) (s : GSim ℝ) : Rnd.release A q (toSim s) = (release N q s).map toSim :=
  bindSame (releaseState_eq env q s) fun _ => rfl

theorem swapQubitState_eq (a b : ℕ) (s : GSim ℝ) :
    Rnd.swapQubitState A a b (toSim s) = (swapQubitState N a b s).map toSim := by
  refine exIf Iff.rfl rfl (bindSame (flushQueue_eq env _ _ s) fun r => congrArg Except.ok ?_)
  simp only [toSim]
  congr 1
  rw [List.map_map, List.map_map]
  exact List.map_congr_left fun e _ => by
    by_cases h : e.1.testBit a = e.1.testBit b <;> simp [Sim.swapKey, swapKey, toE, h]

theorem relocateOne_eq (i k : ℕ) (s : GSim ℝ) : Rnd.relocateOne A i k (toSim s) = (relocateOne N i k s).map toSim := by
  refine bindSelf rfl fun l => exIf Iff.rfl (bindSame (swapQubitState_eq env l i s) fun r => ?_) rfl
  rw [show (toSim r).idMap = r.idMap from rfl]
  cases findByLoc r.idMap i <;> rfl

theorem relocate_eq (i : ℕ) (ks : List ℕ) (s : GSim ℝ) : Rnd.relocate A i ks (toSim s) = (relocate N i ks s).map toSim := by
  induction ks generalizing i s with
  | nil => rfl
  | cons k ks ih => exact bindSame (relocateOne_eq env i k s) fun r => ih (i + 1) r

theorem sortState_eq (l : List (ℕ × Cx ℝ)) : (sortState l).map toE = Sim.sortState (l.map toE) := by
  unfold sortState Sim.sortState
  exact List.map_mergeSort fun _ _ _ _ => rfl

def toState (r : (List (ℕ × Cx ℝ) × ℕ) × GSim ℝ) : (List (ℕ × ℂ) × ℕ) × Sim := ((r.1.1.map toE, r.1.2), toSim r.2)

theorem getState_eq (s : GSim ℝ) : Rnd.getState A (toSim s) = (getState N s).map toState := by
  refine bindSame (flushQueue_eq env _ _ s) fun r => bindSame (relocate_eq env 0 _ r) fun r => ?_
  refine congrArg Except.ok (Prod.ext (Prod.ext ?_ rfl) rfl)
  exact (sortState_eq r.state).symm

theorem dump_eq (fmt : ℂ → String) (s : GSim ℝ) :
    Rnd.dump A fmt (toSim s) = (dump N (fun z => fmt (toC z)) s).map toP := by
  refine bindSame (flushQueue_eq env _ _ s) fun r => bindSame (relocate_eq env 0 _ r) fun r => ?_
  refine congrArg Except.ok (Prod.ext ?_ ?_)
  · simp only [toP, toSim, ← sortState_eq, Sim.dumpText, dumpText, List.foldl_map]
    rfl
  · simp only [toP, toSim, ← sortState_eq]

/-! ### Calls -/

theorem gateCall_eq (g : Spec.Gate) (q : ℕ) (s : GSim ℝ) :
    Rnd.gateCall A q g (toSim s) = (gateCall N q (ofGate g) s).map toSim := by
  cases g with
  | x => exact x_eq env q s
  | y => exact y_eq env q s
  | z => exact z_eq env q s
  | h => exact h_eq env q s
  | s => exact diagGate_eq env .S q s
  | sadj => exact diagGate_eq env .Sadj q s
  | t => exact diagGate_eq env .T q s
  | tadj => exact diagGate_eq env .Tadj q s
  | rx θ => exact rx_eq env θ q s
  | ry θ => exact ry_eq env θ q s
  | rz θ => exact diagGate_eq env (.Rz θ) q s

theorem ctrlCall_eq (g : Spec.Gate) (cs : List ℕ) (q : ℕ) (s : GSim ℝ) :
    Rnd.ctrlCall A cs q g (toSim s) = (ctrlCall N cs q (ofGate g) s).map toSim := by
  cases g with
  | x => exact mcx_eq env cs q s
  | y => exact mcy_eq env cs q s
  | z => exact mcz_eq env cs q s
  | h => exact mch_eq env cs q s
  | s => exact mcDiagGate_eq env .S cs q s
  | sadj => exact mcDiagGate_eq env .Sadj cs q s
  | t => exact mcDiagGate_eq env .T cs q s
  | tadj => exact mcDiagGate_eq env .Tadj cs q s
  | rx θ => exact mcrx_eq env cs θ q s
  | ry θ => exact mcry_eq env cs θ q s
  | rz θ => exact mcDiagGate_eq env (.Rz θ) cs q s

def toR (r : GOut ℝ × GSim ℝ) : Spec.Out × Sim := (toOut r.1, toSim r.2)

theorem call_eq (c : Spec.Call) (s : GSim ℝ) : Rnd.call A c (toSim s) = (call N (ofCall c) s).map toR := by
  cases c with
  | gate g q => exact bindSame (gateCall_eq env g q s) fun _ => rfl
  | ctrl g cs q => exact bindSame (ctrlCall_eq env g cs q s) fun _ => rfl
  | phase cs φ q => exact bindSame (mcphase_eq env cs (ofC φ) q s) fun _ => rfl
  | exp cs ps θ ts => exact bindSame (mcexp_eq env cs _ θ ts s) fun _ => rfl
  | swap a b => exact bindSame (swapQubitIds_eq env a b s) fun _ => rfl
  | allocate => rfl
  | release q => exact bindSame (release_eq env q s) fun _ => rfl
  | measure q => exact bindSame (measure_eq env q s) fun _ => rfl
  | jointMeasure qs => exact bindSame (jointMeasure_eq env qs s) fun _ => rfl
  | jointProb qs => exact bindSame (jointProbability_eq env qs s) fun _ => rfl
  | isZero q => exact bindSame (qubitIsZero_eq env q s) fun _ => rfl
  | collapse v q => exact bindSame (forceCollapse_eq env v q s) fun _ => rfl
  | getState => exact bindSame (getState_eq env s) fun _ => rfl
  | dump fmt => exact bindSame (dump_eq env fmt s) fun _ => rfl

theorem runCalls_rnd (cs : List Spec.Call) (s : GSim ℝ) :
    Rnd.runCalls A cs (toSim s) = (runCalls N (cs.map ofCall) s).map toRun := by
  induction cs generalizing s with
  | nil => rfl
  | cons c cs ih => exact bindSame (call_eq env c s) fun r => bindSame (ih r.2) fun _ => rfl

/-- With the arithmetic of the real numbers, the simulator here is that of `Model/Sim`. -/
theorem runCalls_real (cs : List Spec.Call) (rng : ℕ → ℝ) :
    Sim.runCalls env cs (Sim.new rng) = (runCalls N (cs.map ofCall) (new N rng)).map toRun := by
  rw [← runCalls_rnd, Rnd.runCalls_exact]
  rfl

end Gen
end Qir
