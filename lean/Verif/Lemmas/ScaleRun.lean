import Verif.Lemmas.McUnbiased

/-! # Helper lemmas: sweeps whose amplitudes are all multiplied by the same number -/

namespace QLPeps.ScaleRun

open QLPeps.Sweep QLPeps.Updaters QLPeps.McRun

section Hom

variable {S S' : Type*} (h : S → S')

/-- the contractor calls do the same on both sides -/
structure EnvHom (o : EnvOps S) (o' : EnvOps S') : Prop where
  generateBMPSApproach : ∀ p s, o'.generateBMPSApproach p (h s) = h (o.generateBMPSApproach p s)
  initBTen : ∀ p i s, o'.initBTen p i (h s) = h (o.initBTen p i s)
  growFullBTen : ∀ p i r s, o'.growFullBTen p i r (h s) = h (o.growFullBTen p i r s)
  shiftBTenWindow : ∀ p s, o'.shiftBTenWindow p (h s) = h (o.shiftBTenWindow p s)
  shiftBMPSWindow : ∀ p s, o'.shiftBMPSWindow p (h s) = h (o.shiftBMPSWindow p s)
  deleteInnerBMPS : ∀ p s, o'.deleteInnerBMPS p (h s) = h (o.deleteInnerBMPS p s)

variable {h} {o : EnvOps S} {o' : EnvOps S'} (ho : EnvHom h o o')

include ho in
theorem obcSweep_hom {upd : Site → Site → Orient → S → S × Bool} {upd' : Site → Site → Orient → S' → S' × Bool}
    (hu : ∀ a b d s, upd' a b d (h s) = (h (upd a b d s).1, (upd a b d s).2)) (rows cols : ℕ) (s : S) :
    obcSweep o' upd' rows cols (h s) = (h (obcSweep o upd rows cols s).1, (obcSweep o upd rows cols s).2) := by
  have hrow : ∀ row (x : S × ℕ), rowLoop o' upd' cols row (h x.1, x.2) =
      (h (rowLoop o upd cols row x).1, (rowLoop o upd cols row x).2) := by
    intro row x
    unfold rowLoop
    refine List.foldl_hom (fun x : S × ℕ => (h x.1, x.2)) fun x c => ?_
    simp only [hu]
    split_ifs <;> simp only [ho.shiftBTenWindow]
  have hcol : ∀ col (x : S × ℕ), colLoop o' upd' rows col (h x.1, x.2) =
      (h (colLoop o upd rows col x).1, (colLoop o upd rows col x).2) := by
    intro col x
    unfold colLoop
    refine List.foldl_hom (fun x : S × ℕ => (h x.1, x.2)) fun x c => ?_
    simp only [hu]
    split_ifs <;> simp only [ho.shiftBTenWindow]
  have hH : ∀ (x : S × ℕ), horizontalLoop o' upd' rows cols (h x.1, x.2) =
      (h (horizontalLoop o upd rows cols x).1, (horizontalLoop o upd rows cols x).2) := by
    intro x
    unfold horizontalLoop
    refine List.foldl_hom (fun x : S × ℕ => (h x.1, x.2)) fun x row => ?_
    simp only [ho.initBTen, ho.growFullBTen]
    have := hrow row (o.growFullBTen .right row 2 (o.initBTen .left row x.1), x.2)
    simp only at this
    rw [this]
    split_ifs <;> simp only [ho.shiftBMPSWindow]
  have hV : ∀ (x : S × ℕ), verticalLoop o' upd' rows cols (h x.1, x.2) =
      (h (verticalLoop o upd rows cols x).1, (verticalLoop o upd rows cols x).2) := by
    intro x
    unfold verticalLoop
    refine List.foldl_hom (fun x : S × ℕ => (h x.1, x.2)) fun x col => ?_
    simp only [ho.initBTen, ho.growFullBTen]
    have := hcol col (o.growFullBTen .down col 2 (o.initBTen .up col x.1), x.2)
    simp only at this
    rw [this]
    split_ifs <;> simp only [ho.shiftBMPSWindow]
  unfold obcSweep
  have e1 := hH (o.generateBMPSApproach .up s, 0)
  simp only at e1
  simp only [ho.generateBMPSApproach, e1, ho.deleteInnerBMPS]
  have e2 := hV (o.generateBMPSApproach .left (o.deleteInnerBMPS .right (o.deleteInnerBMPS .left
    (horizontalLoop o upd rows cols (o.generateBMPSApproach .up s, 0)).1)),
    (horizontalLoop o upd rows cols (o.generateBMPSApproach .up s, 0)).2)
  simp only at e2
  rw [e2, ho.deleteInnerBMPS]

include ho in
theorem obcSweep3_hom {ref : Site → Site → Site → Orient → S → S} {ref' : Site → Site → Site → Orient → S' → S'}
    (hr : ∀ a b e d s, ref' a b e d (h s) = h (ref a b e d s))
    {upd : Site → Site → Site → Orient → S → S × Bool} {upd' : Site → Site → Site → Orient → S' → S' × Bool}
    (hu : ∀ a b e d s, upd' a b e d (h s) = (h (upd a b e d s).1, (upd a b e d s).2)) (rows cols : ℕ) (s : S) :
    obcSweep3 o' ref' upd' rows cols (h s) =
      (h (obcSweep3 o ref upd rows cols s).1, (obcSweep3 o ref upd rows cols s).2) := by
  have hH : ∀ (x : S × ℕ), horizontalLoop3 o' ref' upd' rows cols (h x.1, x.2) =
      (h (horizontalLoop3 o ref upd rows cols x).1, (horizontalLoop3 o ref upd rows cols x).2) := by
    intro x
    unfold horizontalLoop3
    refine List.foldl_hom (fun x : S × ℕ => (h x.1, x.2)) fun x row => ?_
    simp only [ho.initBTen, ho.growFullBTen, hr]
    have := List.foldl_hom (fun x : S × ℕ => (h x.1, x.2)) (l := List.range (cols - 2))
      (init := (ref (row, 0) (row, 1) (row, 2) .horizontal
        (o.growFullBTen .right row 3 (o.initBTen .left row x.1)), x.2))
      (g₁ := fun sn col =>
        let r := upd (row, col) (row, col + 1) (row, col + 2) .horizontal sn.1
        let s := if col < cols - 3 then o.shiftBTenWindow .right r.1 else r.1
        (s, sn.2 + r.2.toNat))
      (g₂ := fun sn col =>
        let r := upd' (row, col) (row, col + 1) (row, col + 2) .horizontal sn.1
        let s := if col < cols - 3 then o'.shiftBTenWindow .right r.1 else r.1
        (s, sn.2 + r.2.toNat)) (fun x c => by
          simp only [hu]
          split_ifs <;> simp only [ho.shiftBTenWindow])
    simp only at this
    rw [this]
    split_ifs <;> simp only [ho.shiftBMPSWindow]
  have hV : ∀ (x : S × ℕ), verticalLoop3 o' ref' upd' rows cols (h x.1, x.2) =
      (h (verticalLoop3 o ref upd rows cols x).1, (verticalLoop3 o ref upd rows cols x).2) := by
    intro x
    unfold verticalLoop3
    refine List.foldl_hom (fun x : S × ℕ => (h x.1, x.2)) fun x col => ?_
    simp only [ho.initBTen, ho.growFullBTen, hr]
    have := List.foldl_hom (fun x : S × ℕ => (h x.1, x.2)) (l := List.range (rows - 2))
      (init := (ref (0, col) (1, col) (2, col) .vertical
        (o.growFullBTen .down col 3 (o.initBTen .up col x.1)), x.2))
      (g₁ := fun sn row =>
        let r := upd (row, col) (row + 1, col) (row + 2, col) .vertical sn.1
        let s := if row < rows - 3 then o.shiftBTenWindow .down r.1 else r.1
        (s, sn.2 + r.2.toNat))
      (g₂ := fun sn row =>
        let r := upd' (row, col) (row + 1, col) (row + 2, col) .vertical sn.1
        let s := if row < rows - 3 then o'.shiftBTenWindow .down r.1 else r.1
        (s, sn.2 + r.2.toNat)) (fun x c => by
          simp only [hu]
          split_ifs <;> simp only [ho.shiftBTenWindow])
    simp only at this
    rw [this]
    split_ifs <;> simp only [ho.shiftBMPSWindow]
  unfold obcSweep3
  have e1 := hH (o.generateBMPSApproach .up s, 0)
  simp only at e1
  simp only [ho.generateBMPSApproach, e1, ho.deleteInnerBMPS]
  have e2 := hV (o.generateBMPSApproach .left (o.deleteInnerBMPS .right (o.deleteInnerBMPS .left
    (horizontalLoop3 o ref upd rows cols (o.generateBMPSApproach .up s, 0)).1)),
    (horizontalLoop3 o ref upd rows cols (o.generateBMPSApproach .up s, 0)).2)
  simp only at e2
  rw [e2, ho.deleteInnerBMPS]

end Hom

section Amp

variable {A Γ : Type*} (φ : A → A) {C C' : Updaters.Contractor A Γ}

/-- the walker with another amplitude -/
def onAmp (w : Walker A Γ) : Walker A Γ := { w with amp := φ w.amp }

/-- the same caches, all traces mapped -/
structure SameUpTo (C C' : Updaters.Contractor A Γ) : Prop where
  nnTrace : ∀ e c a b d x y, C'.nnTrace e c a b d x y = φ (C.nnTrace e c a b d x y)
  tnnTrace : ∀ e c a b s d x y z, C'.tnnTrace e c a b s d x y z = φ (C.tnnTrace e c a b s d x y z)
  erase : C'.erase = C.erase
  generateBMPSApproach : C'.generateBMPSApproach = C.generateBMPSApproach
  initBTen : C'.initBTen = C.initBTen
  growFullBTen : C'.growFullBTen = C.growFullBTen
  shiftBTenWindow : C'.shiftBTenWindow = C.shiftBTenWindow
  shiftBMPSWindow : C'.shiftBMPSWindow = C.shiftBMPSWindow
  deleteInnerBMPS : C'.deleteInnerBMPS = C.deleteInnerBMPS

variable {φ} (hC : SameUpTo φ C C') {ab : A → ℝ} {κ : ℝ} (hκ : 0 < κ) (hab : ∀ a, ab (φ a) = κ * ab a)
  (ξ : ℕ → ℝ)

include hC in
theorem env_hom : EnvHom (Option.map (onAmp φ)) (envOpsOption C) (envOpsOption C') := by
  constructor <;> intros <;> rename_i s <;> cases s <;>
    simp [envOpsOption, envOps, onAmp, hC.generateBMPSApproach, hC.initBTen, hC.growFullBTen,
      hC.shiftBTenWindow, hC.shiftBMPSWindow, hC.deleteInnerBMPS]

include hC in
theorem updateLocal_hom (a : A) (l : List (Site × ℕ)) (w : Walker A Γ) :
    updateLocal C' (φ a) l (onAmp φ w) = onAmp φ (updateLocal C a l w) := by
  unfold updateLocal
  have := List.foldl_hom (onAmp φ) (l := l) (init := w)
    (g₁ := fun (w : Walker A Γ) p => updateSingleSite C p.1 p.2 w)
    (g₂ := fun (w : Walker A Γ) p => updateSingleSite C' p.1 p.2 w) (fun w p => by
      simp [updateSingleSite, onAmp, hC.erase])
  rw [this]
  rfl

include hκ in
theorem accept_scale (x y u : ℝ) : metropolisAccept (κ * x) (κ * y) u = metropolisAccept x y u := by
  unfold metropolisAccept
  simp only [mul_le_mul_iff_right₀ hκ, mul_div_mul_left _ _ hκ.ne']

include hκ in
theorem draws_scale (x y : ℝ) : metropolisDraws (κ * x) (κ * y) = metropolisDraws x y := by
  unfold metropolisDraws
  simp only [mul_le_mul_iff_right₀ hκ]

include hκ hab in
theorem weights_scale (l : List A) (r : ℝ) :
    normWeights ab (l.map φ) (κ * r) = normWeights ab l r := by
  unfold normWeights
  simp only [mul_eq_zero, hκ.ne', false_or, List.map_map]
  split_ifs
  · rfl
  · congr 2
    funext p
    simp only [Function.comp, hab, mul_div_mul_left _ _ hκ.ne']

include hC hκ hab in
theorem nnExchange_hom (a b : Site) (d : Orient) (w : Walker A Γ) :
    nnExchange C' ab ξ a b d (onAmp φ w) =
      (onAmp φ (nnExchange C ab ξ a b d w).1, (nnExchange C ab ξ a b d w).2) := by
  unfold nnExchange
  let e0 : ℕ → Walker A Γ := fun n => { w with draws := n }
  simp only [show (onAmp φ w).config = w.config from rfl, show (onAmp φ w).env = w.env from rfl,
    show (onAmp φ w).amp = φ w.amp from rfl, show (onAmp φ w).draws = w.draws from rfl,
    hC.nnTrace, hab, accept_scale hκ, draws_scale hκ]
  split_ifs
  · rfl
  · exact congrArg (·, true) (updateLocal_hom hC (C.nnTrace w.env w.config a b d (w.config b) (w.config a))
      [(a, w.config b), (b, w.config a)] (e0 (w.draws + metropolisDraws (ab (C.nnTrace w.env w.config a b d (w.config b) (w.config a))) (ab w.amp))))
  · rfl

include hC in
theorem tail_hom (sites : List Site) (cands : List (List ℕ)) (psis : List A) (ws : Option (List ℝ))
    (i : ℕ) (w : Walker A Γ) : suwaTodoTail C' ξ sites cands (psis.map φ) ws i (onAmp φ w) =
      (suwaTodoTail C ξ sites cands psis ws i w).map fun r => (onAmp φ r.1, r.2) := by
  unfold suwaTodoTail
  cases ws with
  | none => rfl
  | some ws =>
    simp only [show (onAmp φ w).draws = w.draws from rfl]
    cases SuwaTodo.suwaTodo ws i (ξ w.draws) with
    | none => rfl
    | some fin =>
      simp only [List.getElem?_map]
      split_ifs
      · rfl
      · rcases cands[fin]? with _ | vals <;> rcases psis[fin]? with _ | psi <;> try rfl
        exact congrArg (fun x => some (x, true)) (updateLocal_hom hC psi (sites.zip vals)
          { w with draws := w.draws + 1 })

include hC hκ hab in
theorem fullSpace_hom (dim : ℕ) (a b : Site) (d : Orient) (w : Walker A Γ) :
    fullSpace C' ab ξ dim a b d (onAmp φ w) =
      (fullSpace C ab ξ dim a b d w).map fun r => (onAmp φ r.1, r.2) := by
  unfold fullSpace
  simp only [show (onAmp φ w).config = w.config from rfl, show (onAmp φ w).env = w.env from rfl,
    show (onAmp φ w).amp = φ w.amp from rfl, hC.nnTrace, hab]
  split_ifs with h
  · have : ∀ k, (if k ≠ w.config a * dim + w.config b then φ (C.nnTrace w.env w.config a b d (k / dim) (k % dim))
        else φ w.amp) = φ (if k ≠ w.config a * dim + w.config b then
          C.nnTrace w.env w.config a b d (k / dim) (k % dim) else w.amp) := fun k => (apply_ite φ _ _ _).symm
    simp only [this]
    set f : ℕ → A := fun k => if k ≠ w.config a * dim + w.config b then
      C.nnTrace w.env w.config a b d (k / dim) (k % dim) else w.amp with hf
    have e : (List.range (dim * dim)).map (fun k => φ (f k)) = ((List.range (dim * dim)).map f).map φ := by
      rw [List.map_map]; rfl
    rw [e, weights_scale hκ hab]
    exact tail_hom hC ξ _ _ _ _ _ w
  · rfl

include hC hκ hab in
theorem tnn3_hom (a b s : Site) (d : Orient) (w : Walker A Γ) :
    tnn3Exchange C' ab ξ a b s d (onAmp φ w) =
      (tnn3Exchange C ab ξ a b s d w).map fun r => (onAmp φ r.1, r.2) := by
  unfold tnn3Exchange
  simp only [show (onAmp φ w).config = w.config from rfl, show (onAmp φ w).env = w.env from rfl,
    show (onAmp φ w).amp = φ w.amp from rfl, hC.tnnTrace]
  split_ifs with h
  · rfl
  · cases permutations3 (w.config a) (w.config b) (w.config s) with
    | none => rfl
    | some perms =>
      simp only [← apply_ite φ]
      set f : ℕ → List ℕ → A := fun i p => if i ≠ perms.findIdx (fun p => p == [w.config a, w.config b, w.config s]) then
          C.tnnTrace w.env w.config a b s d (p.getD 0 0) (p.getD 1 0) (p.getD 2 0) else w.amp with hf
      have e : perms.mapIdx (fun i p => φ (f i p)) = (perms.mapIdx f).map φ := by
        simp [List.ext_getElem?_iff, Function.comp_def]
      have e2 : ∀ (l : List A) (m : ℝ), (l.map φ).foldl (fun m p => max m (ab p)) (κ * m) =
          κ * l.foldl (fun m p => max m (ab p)) m := by
        intro l
        induction l with
        | nil => intro m; rfl
        | cons x l ih =>
          intro m
          rw [List.map_cons, List.foldl_cons, List.foldl_cons, ← ih, hab, mul_max_of_nonneg _ _ hκ.le]
      have e3 := e2 (perms.mapIdx f) 0
      rw [mul_zero] at e3
      rw [e, e3, weights_scale hκ hab]
      exact tail_hom hC ξ _ _ _ _ _ w

theorem lift_hom {W : Type*} {h : W → W} {f g : W → Option (W × Bool)}
    (e : ∀ w, g (h w) = (f w).map fun r => (h r.1, r.2)) (x : Option W) :
    liftUpd g (x.map h) = ((liftUpd f x).1.map h, (liftUpd f x).2) := by
  cases x with
  | none => rfl
  | some w =>
    simp only [Option.map_some, liftUpd, e]
    cases f w <;> rfl

include hC hκ hab in
theorem sweep_hom (u : Updater) (phys rows cols : ℕ) (x : Option (Walker A Γ)) :
    sweep C' u phys rows cols ab ξ (x.map (onAmp φ)) = (sweep C u phys rows cols ab ξ x).map (onAmp φ) := by
  cases u with
  | exchange =>
    exact congrArg Prod.fst (obcSweep_hom (env_hom hC) (fun a b d s => lift_hom (fun w => by
      rw [nnExchange_hom hC hκ hab]; rfl) s) rows cols x)
  | fullSpace =>
    exact congrArg Prod.fst (obcSweep_hom (env_hom hC) (fun a b d s =>
      lift_hom (fullSpace_hom hC hκ hab ξ phys a b d) s) rows cols x)
  | threeSite =>
    refine congrArg Prod.fst (obcSweep3_hom (env_hom hC) (fun a b e d s => ?_) (fun a b e d s =>
      lift_hom (tnn3_hom hC hκ hab ξ a b e d) s) rows cols x)
    cases s with
    | none => rfl
    | some w => simp [refresh3, onAmp, hC.tnnTrace]

include hC hκ hab in
theorem sweeps_hom (u : Updater) (phys rows cols n : ℕ) (x : Option (Walker A Γ)) :
    (sweep C' u phys rows cols ab ξ)^[n] (x.map (onAmp φ)) =
      ((sweep C u phys rows cols ab ξ)^[n] x).map (onAmp φ) := by
  induction n generalizing x with
  | zero => rfl
  | succ n ih => rw [Function.iterate_succ_apply, Function.iterate_succ_apply, sweep_hom hC hκ hab, ih]

end Amp

end QLPeps.ScaleRun
