import Verif.Lemmas.ContractorHistory

/-! # The counting contraction and the concrete updaters -/

namespace QLPeps.Contractor

open QLPeps.Sweep QLPeps.Updaters

/-! ## counting -/

section Count
variable {M : Type*} [CommMonoid M] (rows cols : ℕ) (t : Site → M)

/-- site of layer `m` of side `p` at position `j` along the layer -/
def layerSite (p : Pos) (m j : ℕ) : Site :=
  match p with
  | .up => (m, j)
  | .down => (rows - 1 - m, j)
  | .left => (j, m)
  | .right => (j, cols - 1 - m)

/-- position along the layer of the `i`-th stored tensor -/
def logical (p : Pos) (i : ℕ) : ℕ :=
  match p with
  | .up => cols - 1 - i
  | .right => rows - 1 - i
  | .down => i
  | .left => i

theorem layer_list (p : Pos) (m : ℕ) :
    layer rows cols t p m
      = (List.range (width rows cols p)).map fun j => t (layerSite rows cols p m j) := by
  cases p <;> rfl

theorem reverse_range_map {α : Type*} (n : ℕ) (f : ℕ → α) :
    ((List.range n).map f).reverse = (List.range n).map fun i => f (n - 1 - i) := by
  apply List.ext_getElem
  · simp
  · intro i h1 h2
    simp only [List.length_reverse, List.length_map, List.length_range] at h1
    simp [List.getElem_reverse]

theorem zipWith_range_map (n : ℕ) (f g : ℕ → M) :
    List.zipWith (· * ·) ((List.range n).map f) ((List.range n).map g)
      = (List.range n).map fun i => f i * g i := by
  rw [List.zipWith_map, List.zipWith_self]

theorem env_count (p : Pos) (k : ℕ) :
    env (countingOps M rows cols) rows cols t p k
      = (List.range (width rows cols p)).map fun i =>
          ∏ m ∈ Finset.range k, t (layerSite rows cols p m (logical rows cols p i)) := by
  induction k with
  | zero => simp [env, countingOps]
  | succ k ih =>
    rw [env_succ, ih, layer_list]
    simp only [Finset.prod_range_succ]
    cases p <;> simp only [countingOps, reverse_range_map, zipWith_range_map, logical, width]

theorem facing_count (p : Pos) (k j : ℕ) (hj : j < width rows cols p) :
    facing (countingOps M rows cols) rows cols p (env (countingOps M rows cols) rows cols t p k) j
      = ∏ m ∈ Finset.range k, t (layerSite rows cols p m j) := by
  rw [env_count]
  cases p <;> simp only [facing, countingOps, logical, width] at *
  · simp [List.getD, hj]
  · simp [List.getD, hj]
  · rw [List.getD_eq_getElem?_getD, List.getElem?_map, List.getElem?_range (by omega)]
    simp only [Option.map_some, Option.getD_some]
    rw [show rows - 1 - (rows - 1 - j) = j by omega]
  · rw [List.getD_eq_getElem?_getD, List.getElem?_map, List.getElem?_range (by omega)]
    simp only [Option.map_some, Option.getD_some]
    rw [show cols - 1 - (cols - 1 - j) = j by omega]

theorem prod_split (n r : ℕ) (hr : r < n) (f : ℕ → M) :
    (∏ i ∈ Finset.range r, f i) * f r * ∏ m ∈ Finset.range (n - 1 - r), f (n - 1 - m)
      = ∏ i ∈ Finset.range n, f i := by
  obtain ⟨m, rfl⟩ : ∃ m, n = r + 1 + m := ⟨n - (r + 1), by omega⟩
  rw [Finset.prod_range_add, Finset.prod_range_succ]
  congr 1
  rw [show r + 1 + m - 1 - r = m by omega, ← Finset.prod_range_reflect]
  refine Finset.prod_congr rfl fun x hx => ?_
  have := Finset.mem_range.1 hx
  congr 1; omega

/-- everything in the line crossing slice `s` at position `j` -/
def crossProd (p : Pos) (j : ℕ) : M :=
  match p with
  | .left => ∏ i ∈ Finset.range rows, t (i, j)
  | .right => ∏ i ∈ Finset.range rows, t (i, j)
  | .up => ∏ i ∈ Finset.range cols, t (j, i)
  | .down => ∏ i ∈ Finset.range cols, t (j, i)

theorem cross_count (p : Pos) (s j : ℕ) (hs : s < width rows cols p) (hj : j < span rows cols p) :
    facing (countingOps M rows cols) rows cols (pre p)
        (beyond (countingOps M rows cols) rows cols t (pre p) s) j
      * t (match p with
        | .left => (s, j)
        | .right => (s, j)
        | .up => (j, s)
        | .down => (j, s))
      * facing (countingOps M rows cols) rows cols (next p)
        (beyond (countingOps M rows cols) rows cols t (next p) s) j
      = crossProd rows cols t p j := by
  unfold beyond
  rw [facing_count _ _ _ _ _ _ (by rw [width_pre]; exact hj),
    facing_count _ _ _ _ _ _ (by rw [width_next]; exact hj)]
  cases p <;> simp only [pre, next, depth, layerSite, crossProd, width, span] at *
  · rw [← prod_split rows s hs fun i => t (i, j)]
  · rw [← prod_split cols s hs fun i => t (j, i)]
  · rw [← prod_split rows s hs fun i => t (i, j)]; ac_rfl
  · rw [← prod_split cols s hs fun i => t (j, i)]; ac_rfl

theorem benv_count (p : Pos) (s k : ℕ) (hs : s < width rows cols p) (hk : k ≤ span rows cols p) :
    benv (countingOps M rows cols) rows cols t p s k
      = ∏ i ∈ Finset.range k, crossProd rows cols t p (along rows cols p i) := by
  induction k with
  | zero => simp [benv, countingOps]
  | succ k ih =>
    rw [benv_succ, ih (by omega), Finset.prod_range_succ]
    have := cross_count rows cols t p s (along rows cols p k) hs
      (by cases p <;> simp only [along, span] at * <;> omega)
    rw [← this]
    cases p <;> simp only [countingOps, cell, along, e1, e2, mul_assoc]

theorem bond_count (p : Pos) (hp : p = .left ∨ p = .up) (s i : ℕ) (hs : s < width rows cols p)
    (hi : i + 1 < span rows cols p) :
    bondAmp (countingOps M rows cols) rows cols t (dirOf p) (cell rows cols p s i)
        (cell rows cols p s (i + 1))
      = ∏ r ∈ Finset.range rows, ∏ c ∈ Finset.range cols, t (r, c) := by
  have key : bondAmp (countingOps M rows cols) rows cols t (dirOf p) (cell rows cols p s i)
        (cell rows cols p s (i + 1))
      = ∏ j ∈ Finset.range (span rows cols p), crossProd rows cols t p j := by
    have hw : s < width rows cols (opposite p) := by revert hs; cases p <;> exact id
    have c1 := cross_count rows cols t p s i hs (by omega)
    have c2 := cross_count rows cols t p s (i + 1) hs hi
    have b1 := benv_count rows cols t p s i hs (by omega)
    have b2 := benv_count rows cols t (opposite p) s (span rows cols p - 1 - (i + 1)) hw
      (by rw [span_opposite]; omega)
    have ps := prod_split (span rows cols p) (i + 1) hi (crossProd rows cols t p)
    rw [Finset.prod_range_succ] at ps
    rw [← ps]
    rcases hp with rfl | rfl <;>
      simp only [pre, next, opposite, span, width, cell, dirOf, bondAmp, crossProd, along,
        layerSite] at *
    · rw [← c1, ← c2, ← b1, ← b2]
      simp only [countingOps]
      ac_rfl
    · rw [← c1, ← c2, ← b1, ← b2]
      simp only [countingOps]
      ac_rfl
  rw [key]
  rcases hp with rfl | rfl
  · simp only [crossProd, span]; rw [Finset.prod_comm]
  · simp only [crossProd, span]

end Count

/-! ## the updaters as decisions -/

section Updaters
variable {A Γ K : Type*}

/-- decision of `nnExchange` -/
def exchangeDec [LE K] [DecidableLE K] [LT K] [DecidableLT K] [Div K] [Mul K] (ab : A → K)
    (ξ : ℕ → K) : Decision A := fun _ _ _ x y amp n tr =>
  if x = y then some (n, none)
  else if metropolisAccept (ab (tr y x)) (ab amp) (ξ n) then
    some (n + metropolisDraws (ab (tr y x)) (ab amp), some (y, x, tr y x))
  else some (n + metropolisDraws (ab (tr y x)) (ab amp), none)

theorem nnExchange_moveBy [LE K] [DecidableLE K] [LT K] [DecidableLT K] [Div K] [Mul K]
    (ab : A → K) (ξ : ℕ → K) (C : Updaters.Contractor A Γ) (s1 s2 : Site) (d : Orient)
    (w : Walker A Γ) :
    moveBy (exchangeDec ab ξ) C s1 s2 d w = some (nnExchange C ab ξ s1 s2 d w) := by
  unfold moveBy exchangeDec nnExchange
  dsimp only
  by_cases h : w.config s1 = w.config s2
  · simp only [if_pos h]
  · simp only [if_neg h]
    split_ifs <;> rfl

/-- decision of the rejection-free updaters -/
def suwaTodoDec [Field K] [LinearOrder K] (ξ : ℕ → K) (cands : List (ℕ × ℕ)) (psis : List A)
    (weights : Option (List K)) (init n : ℕ) : Option (ℕ × Option (ℕ × ℕ × A)) :=
  match weights with
  | none => none
  | some ws => match SuwaTodo.suwaTodo ws init (ξ n) with
    | none => none
    | some fin =>
      if fin = init then some (n + 1, none)
      else match cands[fin]?, psis[fin]? with
        | some v, some psi => some (n + 1, some (v.1, v.2, psi))
        | _, _ => none

/-- decision of `fullSpace` -/
def fullSpaceDec [Field K] [LinearOrder K] (ab : A → K) (ξ : ℕ → K) (dim : ℕ) : Decision A :=
  fun _ _ _ x y amp n tr =>
    let init := x * dim + y
    if init < dim * dim then
      let psis := (List.range (dim * dim)).map (fun k =>
        if k ≠ init then tr (k / dim) (k % dim) else amp)
      suwaTodoDec ξ ((List.range (dim * dim)).map (fun k => (k / dim, k % dim))) psis
        (normWeights ab psis (ab amp)) init n
    else none

/-- decision of `hubbardU1U1` -/
def hubbardDec [Field K] [LinearOrder K] (ab : A → K) (ξ : ℕ → K) : Decision A :=
  fun _ _ _ x y amp n tr =>
    match hubbardSpinCounts x, hubbardSpinCounts y with
    | some (u1, d1), some (u2, d2) =>
      let valid := enumerateHubbard (u1 + u2) (d1 + d2)
      if valid.length ≤ 1 then some (n, none)
      else
        let idx := valid.findIdx (fun p => p.1 == x && p.2 == y)
        let init := if idx < valid.length then idx else 0
        let psis := valid.mapIdx (fun i p => if i ≠ init then tr p.1 p.2 else amp)
        suwaTodoDec ξ valid psis (normWeights ab psis (ab amp)) init n
    | _, _ => none

theorem suwaTodoTail_dec [Field K] [LinearOrder K] (C : Updaters.Contractor A Γ) (ξ : ℕ → K)
    (s1 s2 : Site) (cands : List (ℕ × ℕ)) (psis : List A) (weights : Option (List K)) (init : ℕ)
    (w : Walker A Γ) :
    suwaTodoTail C ξ [s1, s2] (cands.map fun p => [p.1, p.2]) psis weights init w
      = match suwaTodoDec ξ cands psis weights init w.draws with
        | none => none
        | some (n, none) => some ({ w with draws := n }, false)
        | some (n, some (a, b, ψ)) =>
          some (updateLocal C ψ [(s1, a), (s2, b)] { w with draws := n }, true) := by
  unfold suwaTodoTail suwaTodoDec
  cases weights with
  | none => rfl
  | some ws =>
    simp only
    cases SuwaTodo.suwaTodo ws init (ξ w.draws) with
    | none => rfl
    | some fin =>
      simp only [List.getElem?_map]
      by_cases hf : fin = init
      · simp only [if_pos hf]
      · simp only [if_neg hf]
        cases cands[fin]? with
        | none => rfl
        | some v => cases psis[fin]? <;> rfl

theorem fullSpace_moveBy [Field K] [LinearOrder K] (ab : A → K) (ξ : ℕ → K) (dim : ℕ)
    (C : Updaters.Contractor A Γ) (s1 s2 : Site) (d : Orient) (w : Walker A Γ) :
    moveBy (fullSpaceDec ab ξ dim) C s1 s2 d w = fullSpace C ab ξ dim s1 s2 d w := by
  unfold moveBy fullSpaceDec fullSpace
  dsimp only
  by_cases h : w.config s1 * dim + w.config s2 < dim * dim
  · simp only [if_pos h]
    rw [show (List.range (dim * dim)).map (fun k => [k / dim, k % dim])
      = ((List.range (dim * dim)).map (fun k => (k / dim, k % dim))).map fun p => [p.1, p.2] by
        rw [List.map_map]; rfl, suwaTodoTail_dec]
    rfl
  · simp only [if_neg h]

theorem hubbard_moveBy [Field K] [LinearOrder K] (ab : A → K) (ξ : ℕ → K)
    (C : Updaters.Contractor A Γ) (s1 s2 : Site) (d : Orient) (w : Walker A Γ) :
    moveBy (hubbardDec ab ξ) C s1 s2 d w = hubbardU1U1 C ab ξ s1 s2 d w := by
  unfold moveBy hubbardDec hubbardU1U1
  dsimp only
  cases hubbardSpinCounts (w.config s1) with
  | none => rfl
  | some u =>
    cases hubbardSpinCounts (w.config s2) with
    | none => rfl
    | some v =>
      dsimp only
      by_cases h : (enumerateHubbard (u.1 + v.1) (u.2 + v.2)).length ≤ 1
      · simp only [if_pos h]
      · simp only [if_neg h, suwaTodoTail_dec]
        rfl

end Updaters

end QLPeps.Contractor

namespace QLPeps.Contractor

open QLPeps.Sweep QLPeps.Updaters

variable {T E B C C2 A H : Type*}
variable (o : Ops T E B C C2 A H) (rows cols : ℕ)

/-! ## stack heights whatever the contents -/

theorem pushLayer_height (p : Pos) (mpo : List T) (c : Ctr B C C2) (h : c.bmps p ≠ []) :
    ∃ c', pushLayer o p mpo c = some c' ∧ (c'.bmps p).length = (c.bmps p).length + 1 ∧
      ∀ q, q ≠ p → c'.bmps q = c.bmps q := by
  unfold pushLayer
  rw [List.getLast?_eq_getLast_of_ne_nil h]
  refine ⟨_, rfl, by simp, fun q hq => by simp [Function.update_of_ne hq]⟩

theorem getSlice_of_lt (t : Site → T) (p : Pos) (i : ℕ) (h : i < span rows cols p) :
    ∃ mpo, getSlice rows cols t p i = some mpo := by
  cases p <;> exact ⟨_, if_pos h⟩

theorem growSlices_height (t : Site → T) (p : Pos) (l : List ℕ) : ∀ (c : Ctr B C C2),
    c.bmps p ≠ [] → (∀ i ∈ l, i < span rows cols p) →
    ∃ c', growSlices o rows cols t p l c = some c' ∧
      (c'.bmps p).length = (c.bmps p).length + l.length ∧
      ∀ q, q ≠ p → c'.bmps q = c.bmps q := by
  induction l with
  | nil => intro c _ _; exact ⟨c, rfl, rfl, fun _ _ => rfl⟩
  | cons a l ih =>
    intro c h hl
    obtain ⟨mpo, hm⟩ := getSlice_of_lt rows cols t p a (hl a (by simp))
    obtain ⟨c1, h1, h2, h3⟩ := pushLayer_height o p mpo c h
    obtain ⟨c', g1, g2, g3⟩ := ih c1 (by intro h0; rw [h0] at h2; simp at h2)
      fun i hi => hl i (List.mem_cons_of_mem _ hi)
    refine ⟨c', ?_, ?_, fun q hq => by rw [g3 q hq, h3 q hq]⟩
    · simp only [growSlices, List.foldlM_cons, hm, Option.bind_some, h1]
      exact g1
    · rw [g2, h2, List.length_cons]; omega

/-- sides the windows move along: grown fully at the start, then consumed -/
theorem generate_height (t : Site → T) (p : Pos) (hp : p = .up ∨ p = .left) (c : Ctr B C C2)
    (h1 : c.bmps p ≠ []) (h2 : c.bmps (opposite p) ≠ [])
    (h3 : (c.bmps (opposite p)).length ≤ span rows cols p) :
    ∃ c', generateApproach o rows cols t p c = some c' ∧ (c'.bmps p).length = 1 ∧
      (c'.bmps (opposite p)).length = span rows cols p := by
  have hlen := List.length_pos_iff.2 h2
  have hl1 := List.length_pos_iff.2 h1
  have hd : (deleteInner p c).bmps (opposite p) = c.bmps (opposite p) := by
    simp [deleteInner, Function.update_of_ne (opposite_ne p)]
  have hd' : ((deleteInner p c).bmps p).length = 1 := by
    simp [deleteInner]; omega
  have key := growSlices_height o rows cols t (opposite p)
    (downTo (span rows cols p - (c.bmps (opposite p)).length) 0) (deleteInner p c)
    (by rw [hd]; exact h2) (by
      intro i hi
      obtain ⟨j, hj, rfl⟩ := List.mem_map.1 hi
      rw [span_opposite]; omega)
  obtain ⟨c', g1, g2, g3⟩ := key
  refine ⟨c', ?_, ?_, ?_⟩
  · unfold generateApproach
    rcases hp with rfl | rfl <;> simp only [opposite, growFullBMPS, span] at * <;>
      rw [hd, sub?_of_le h3] <;> exact g1
  · rw [g3 p (opposite_ne p).symm, hd']
  · rw [g2, hd]; simp [downTo]; omega

theorem shift_height (t : Site → T) (p : Pos) (hp : p = .up ∨ p = .left) (c : Ctr B C C2) (n m : ℕ)
    (h1 : (c.bmps p).length = n) (hn : 1 ≤ n) (hn' : n ≤ span rows cols p)
    (h2 : (c.bmps (opposite p)).length = m) (hm : 1 ≤ m) :
    ∃ c', shiftBMPSWindow o rows cols t (opposite p) c = some c' ∧ (c'.bmps p).length = n + 1 ∧
      (c'.bmps (opposite p)).length = m - 1 := by
  unfold shiftBMPSWindow
  have he : ((c.bmps (opposite p)).isEmpty) = false := by
    cases hc : c.bmps (opposite p) with
    | nil => rw [hc] at h2; simp at h2; omega
    | cons => rfl
  rw [he, opposite_opposite]
  simp only [Bool.false_eq_true, if_false]
  set c0 : Ctr B C C2 :=
    { c with bmps := Function.update c.bmps (opposite p) (c.bmps (opposite p)).dropLast } with hc0
  have h0 : c0.bmps p = c.bmps p := by simp [hc0, Function.update_of_ne (opposite_ne p).symm]
  have h0' : (c0.bmps (opposite p)).length = m - 1 := by simp [hc0, h2]
  obtain ⟨mpo, hmpo⟩ := getSlice_of_lt rows cols t p (n - 1) (by omega)
  obtain ⟨c', g1, g2, g3⟩ := pushLayer_height o p mpo c0 (by
    rw [h0]; intro h; rw [h] at h1; simp at h1; omega)
  refine ⟨c', ?_, ?_, ?_⟩
  · unfold growBMPSStep
    rw [h0, h1]
    have : nextSlice rows cols p n = some (n - 1) := by
      rcases hp with rfl | rfl <;> simp only [nextSlice] <;> exact sub?_of_le hn
    rw [this]
    simp only [Option.bind_some, hmpo, g1]
  · rw [g2, h0, h1]
  · rw [g3 _ (opposite_ne p), h0']

/-! ## an out-of-range access is never recovered from -/

/-- the walker is gone or its caches are broken -/
def Broken (x : Option (Walker (Option A) (Option (Ctr B C C2)))) : Prop :=
  ∀ w, x = some w → w.env = none

variable (sitps : Site → ℕ → T)

omit o rows cols in
theorem Broken.onEnv {x : Option (Walker (Option A) (Option (Ctr B C C2)))} (h : Broken x)
    (f : Config → Option (Ctr B C C2) → Option (Ctr B C C2)) (hf : ∀ cfg, f cfg none = none) :
    Broken (x.map (onEnv f)) := by
  intro w hw
  cases x with
  | none => cases hw
  | some v =>
    cases hw
    show f v.config v.env = none
    rw [h v rfl, hf]

theorem Broken.upd {x : Option (Walker (Option A) (Option (Ctr B C C2)))} (h : Broken x)
    (dec : Decision (Option A)) (a b : Site) (d : Orient) :
    Broken (liftUpd (moveBy dec (bmpsContractor o rows cols sitps) a b d) x).1 := by
  intro w hw
  cases x with
  | none => cases hw
  | some v =>
    have hv := h v rfl
    simp only [liftUpd] at hw
    unfold moveBy at hw
    cases hd : dec a b d (v.config a) (v.config b) v.amp v.draws
      ((bmpsContractor o rows cols sitps).nnTrace v.env v.config a b d) with
    | none => rw [hd] at hw; cases hw
    | some r =>
      obtain ⟨n, r⟩ := r
      cases r with
      | none => rw [hd] at hw; cases hw; exact hv
      | some r =>
        obtain ⟨x1, x2, ψ⟩ := r
        rw [hd] at hw; cases hw
        show Option.map _ (Option.map _ v.env) = none
        rw [hv]; rfl

theorem Broken.line {sn : Option (Walker (Option A) (Option (Ctr B C C2))) × ℕ}
    (h : Broken sn.1) (dec : Decision (Option A)) (p : Pos) (s : ℕ) :
    Broken (lineLoop rows cols (opsB o rows cols sitps)
      (fun a b d => liftUpd (moveBy dec (bmpsContractor o rows cols sitps) a b d)) p s sn).1 := by
  unfold lineLoop
  refine List.foldlRecOn (motive := fun x : Option (Walker (Option A) (Option (Ctr B C C2))) × ℕ => Broken x.1) _ _ h fun x hx i _ => ?_
  dsimp only
  have h1 := Broken.upd o rows cols sitps hx dec (cell rows cols p s i) (cell rows cols p s (i + 1))
    (dirOf p)
  split_ifs
  · exact h1.onEnv (fun cfg e => (bmpsContractor o rows cols sitps).shiftBTenWindow cfg _ e)
      (fun _ => rfl)
  · exact h1

theorem Broken.phaseStep {sn : Option (Walker (Option A) (Option (Ctr B C C2))) × ℕ}
    (dec : Decision (Option A)) (p : Pos) (s : ℕ)
    (h : Broken ((opsB o rows cols sitps).growFullBTen (opposite p) s 2
      ((opsB o rows cols sitps).initBTen p s sn.1))) :
    let r := lineLoop rows cols (opsB o rows cols sitps)
      (fun a b d => liftUpd (moveBy dec (bmpsContractor o rows cols sitps) a b d)) p s
      ((opsB o rows cols sitps).growFullBTen (opposite p) s 2
        ((opsB o rows cols sitps).initBTen p s sn.1), sn.2)
    Broken (if s < width rows cols p - 1 then
      (opsB o rows cols sitps).shiftBMPSWindow (decSide p) r.1 else r.1) := by
  intro r
  have h1 : Broken r.1 := Broken.line o rows cols sitps (sn := (_, sn.2)) h dec p s
  split_ifs
  · exact h1.onEnv (fun cfg e => (bmpsContractor o rows cols sitps).shiftBMPSWindow cfg _ e)
      (fun _ => rfl)
  · exact h1

theorem Broken.phase {sn : Option (Walker (Option A) (Option (Ctr B C C2))) × ℕ}
    (h : Broken sn.1) (dec : Decision (Option A)) (p : Pos) :
    Broken (phaseLoop rows cols (opsB o rows cols sitps)
      (fun a b d => liftUpd (moveBy dec (bmpsContractor o rows cols sitps) a b d)) p sn).1 := by
  unfold phaseLoop
  refine List.foldlRecOn (motive := fun x : Option (Walker (Option A) (Option (Ctr B C C2))) × ℕ => Broken x.1) _ _ h fun x hx i _ => ?_
  refine Broken.phaseStep o rows cols sitps (sn := x) dec p i ?_
  exact (hx.onEnv (fun cfg e => (bmpsContractor o rows cols sitps).initBTen cfg _ _ e)
    (fun _ => rfl)).onEnv
    (fun cfg e => (bmpsContractor o rows cols sitps).growFullBTen cfg _ _ _ e) (fun _ => rfl)

theorem growFullBTen_short (t : Site → T) (p : Pos) (s n : ℕ) (ini : Bool) (c : Ctr B C C2)
    (h : span rows cols p < n) : growFullBTen o rows cols t p s n ini c = none := by
  unfold growFullBTen
  have : sub? (span rows cols p) n = none := by unfold sub?; rw [if_neg (by omega)]
  rw [this]
  cases (if ini = true then initBTen o rows cols p s c else some c) with
  | none => rfl
  | some c1 =>
    simp only [Option.bind_some, Option.bind_none]
    cases bmpsAt rows cols c1 (pre p) s with
    | none => rfl
    | some b => simp only [Option.bind_some]; cases bmpsAt rows cols c1 (next p) s <;> rfl

theorem Broken.short (x : Option (Walker (Option A) (Option (Ctr B C C2)))) (p : Pos) (s n : ℕ)
    (h : span rows cols p < n) : Broken ((opsB o rows cols sitps).growFullBTen p s n x) := by
  intro w hw
  cases x with
  | none => cases hw
  | some v =>
    cases hw
    show Option.bind v.env _ = none
    cases v.env with
    | none => rfl
    | some c => exact growFullBTen_short o rows cols _ _ _ _ _ _ h

/-- a phase along lines with a single site always leaves the range -/
theorem Broken.phase_short {sn : Option (Walker (Option A) (Option (Ctr B C C2))) × ℕ}
    (dec : Decision (Option A)) (p : Pos) (h1 : span rows cols p < 2)
    (h2 : 1 ≤ width rows cols p) :
    Broken (phaseLoop rows cols (opsB o rows cols sitps)
      (fun a b d => liftUpd (moveBy dec (bmpsContractor o rows cols sitps) a b d)) p sn).1 := by
  unfold phaseLoop
  obtain ⟨n, hn⟩ : ∃ n, width rows cols p = n + 1 := ⟨width rows cols p - 1, by omega⟩
  rw [hn, List.range_succ, List.foldl_append, ← hn]
  simp only [List.foldl_cons, List.foldl_nil]
  refine Broken.phaseStep o rows cols sitps dec p n ?_
  exact Broken.short o rows cols sitps _ _ n 2 (by rw [span_opposite]; exact h1)

theorem Broken.sweep (dec : Decision (Option A)) (h : rows = 1 ∧ 1 ≤ cols ∨ cols = 1 ∧ 1 ≤ rows)
    (x : Option (Walker (Option A) (Option (Ctr B C C2)))) :
    Broken (obcSweep (opsB o rows cols sitps)
      (fun a b d => liftUpd (moveBy dec (bmpsContractor o rows cols sitps) a b d))
      rows cols x).1 := by
  unfold obcSweep
  simp only [horizontalLoop_eq, verticalLoop_eq]
  refine Broken.onEnv ?_ (fun cfg e => (bmpsContractor o rows cols sitps).deleteInnerBMPS cfg _ e)
    (fun _ => rfl)
  rcases h with h | h
  · exact Broken.phase_short o rows cols sitps dec .up (by simp only [span]; omega)
      (by simp only [width]; omega)
  · refine Broken.phase o rows cols sitps ?_ dec .up
    refine Broken.onEnv (Broken.onEnv (Broken.onEnv ?_
      (fun cfg e => (bmpsContractor o rows cols sitps).deleteInnerBMPS cfg _ e) (fun _ => rfl))
      (fun cfg e => (bmpsContractor o rows cols sitps).deleteInnerBMPS cfg _ e) (fun _ => rfl))
      (fun cfg e => (bmpsContractor o rows cols sitps).generateBMPSApproach cfg _ e)
      (fun _ => rfl)
    exact Broken.phase_short o rows cols sitps dec .left (by simp only [span]; omega)
      (by simp only [width]; omega)

/-! ## initial amplitude -/

theorem init_good (t : Site → T) (c : Ctr B C C2) (hr : 1 ≤ rows) (hc : 1 ≤ cols) :
    Good o rows cols t (init o c) := by
  intro q
  exact ⟨1, by simp [init, stack, env], le_refl 1, by cases q <;> simpa [span]⟩

theorem evaluate_init (t : Site → T) (c : Ctr B C C2) (hr : 1 ≤ rows) (hc : 2 ≤ cols) :
    ∃ c', evaluateAmplitude o rows cols t (init o c)
        = some (bondAmp o rows cols t .horizontal (0, 0) (0, 1), c') ∧ Good o rows cols t c' := by
  have hi : ∀ q, (init o c).bmps q = stack o rows cols t q 1 := by
    intro q; simp [init, stack, env]
  have hgrow : growForRow o rows cols t 0 (init o c)
      = some (setB (init o c) .down (stack o rows cols t .down rows)) := by
    unfold growForRow
    rw [show ((init o c).bmps .down).length = 1 by rw [hi]; simp, sub?_of_le hr]
    simp only [Option.bind_some]
    have := grow_total o rows cols t .down (rows - 1) (init o c) 1 (hi _) (le_refl 1)
      (by simp only [span]; omega)
    rw [downTo_eq_down rows cols 1 0 (le_refl 1) hr, Nat.sub_zero, this]
    simp only [Option.bind_some]
    rw [show 1 + (rows - 1) = rows by omega, setB_ne _ _ _ _ (by decide),
      show ((init o c).bmps .up).length = 1 by rw [hi]; simp, sub?_of_le (le_refl 1)]
    rfl
  set c1 := setB (init o c) .down (stack o rows cols t .down rows) with hc1
  have g1 : Good o rows cols t c1 :=
    Good.setB o rows cols (init_good o rows cols t c hr (by omega)) .down rows hr (le_refl rows)
  have w1 : Window o rows cols t c1 .left 0 := by
    refine ⟨?_, ?_⟩
    · simp only [pre, depth]; rw [hc1, setB_ne _ _ _ _ (by decide), hi]
    · simp only [next, depth]; rw [hc1, setB_same]; congr 1; omega
  have hw0 : 0 < width rows cols .left := hr
  have hb1 := (w1.opposite o rows cols t).beside o rows cols t (show 0 < width rows cols _ from hw0)
  have h2 := growFullBTen_fresh o rows cols t c1 .right 0 2 hb1 hw0 (by omega) hc
  have h3 := initBTen_fresh o rows cols t
    (setT c1 .right (bstack o rows cols t .right 0 (span rows cols .right - 2 + 1))) .left 0
    (w1.beside o rows cols t hw0) (by simp only [span]; omega)
  set c3 := setT (setT c1 .right (bstack o rows cols t .right 0 (span rows cols .right - 2 + 1)))
    .left (bstack o rows cols t .left 0 1) with hc3
  have hl : Line o rows cols t .left 0 0 (span rows cols .right - 2 + 1) c3 :=
    ⟨g1, w1, by rw [hc3, setT_same], by
      rw [hc3, setT_ne _ _ _ _ (by decide)]; simp [opposite]⟩
  refine ⟨c3, ?_, g1⟩
  unfold evaluateAmplitude
  rw [hgrow]
  simp only [Option.bind_some]
  rw [h2]
  simp only [Option.bind_some]
  rw [h3]
  simp only [Option.bind_some]
  have key := nnTrace_fresh o rows cols t t .left (by simp) 0 0 _ c3 hw0
    (by simp only [span]; omega) (by simp only [span]; omega) hl (fun _ _ _ => rfl)
  simp only [cell, dirOf] at key
  unfold trace site?
  simp only
  rw [if_pos ⟨by omega, by omega⟩, if_pos ⟨by omega, by omega⟩]
  simp only [Option.bind_some]
  rw [key]
  rfl

end QLPeps.Contractor
