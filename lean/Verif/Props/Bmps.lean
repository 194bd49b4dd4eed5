import Verif.Lemmas.BmpsAmp
import Verif.Props.Contractor
import Verif.Props.Contractor3
import Verif.Props.Peps

/-!
# Property C99: without truncation the boundary-MPS contraction is exact
-/

namespace QLPeps.Bmps

open QLPeps.Contractor QLPeps.Sweep QLPeps.Updaters
open QLPeps.Peps (Tn Lib)
open QLPeps.Bmps.Spec
open QLPeps.Tps.Spec (Bond)

noncomputable section

variable {𝕜 : Type*} [RCLike 𝕜] {rows cols : ℕ} {lib : Lib 𝕜} {t : QLPeps.Site → Tn 𝕜}
  {dim : Bond .obc rows cols → ℕ}

/-- **C99.** With factorizations that truncate nothing, the trace at every nearest-neighbour bond of
an open lattice, evaluated from boundary MPS and boundary tensors computed from scratch, is the value
of the network. -/
theorem C99_bond_trace_exact (hl : Lossless lib) (hf : Fits t dim) (r c : ℕ) :
    (r < rows → c + 1 < cols →
      bondAmp (tensorOps lib rows cols) rows cols t .horizontal (r, c) (r, c + 1) = value dim t) ∧
    (r + 1 < rows → c < cols →
      bondAmp (tensorOps lib rows cols) rows cols t .vertical (r, c) (r + 1, c) = value dim t) :=
  ⟨fun h1 h2 => (bond_horizontal r c h2).trans (cut_left hl hf r _ h1 h2.le (by omega)),
   fun h1 h2 => (bond_vertical r c h1).trans (cut_up hl hf c _ h2 h1.le (by omega))⟩

/-- **C99.** The same for three consecutive sites. -/
theorem C99_triple_trace_exact (hl : Lossless lib) (hf : Fits t dim) (r c : ℕ) :
    (r < rows → c + 2 < cols →
      tripleAmp (tensorOps lib rows cols) rows cols t .horizontal (r, c) (r, c + 1) (r, c + 2)
        = value dim t) ∧
    (r + 2 < rows → c < cols →
      tripleAmp (tensorOps lib rows cols) rows cols t .vertical (r, c) (r + 1, c) (r + 2, c)
        = value dim t) :=
  ⟨fun h1 h2 => (triple_horizontal r c).trans (cut_left hl hf r _ h1 h2 (by omega)),
   fun h1 h2 => (triple_vertical r c).trans (cut_up hl hf c _ h2 h1 (by omega))⟩

/-- **C99.** The trace at one site, within its row or its column, is the value of the network. -/
theorem C99_one_site_trace_exact (hl : Lossless lib) (hf : Fits t dim) (r c : ℕ) (hr : r < rows)
    (hc : c < cols) :
    oneAmp (tensorOps lib rows cols) rows cols t (r, c) = value dim t ∧
    oneV (tensorOps lib rows cols) rows cols t (r, c) = value dim t :=
  ⟨(one_cut r c).trans (cut_left hl hf r _ hr hc (by omega)),
   (hole_col hl.shaped (net_of_fits hf) r c hr hc).2.2.trans (cut_up hl hf c _ hc hr (by omega))⟩

/-- **C99.** The hole at a site has the legs of the site tensor, and contracting it with *any*
tensor of that shape gives the value of the network with this tensor at the site: the hole is the
derivative of the amplitude with respect to the site tensor. -/
theorem C99_hole_exact (hl : Lossless lib) (hf : Fits t dim) (r c : ℕ) (hr : r < rows)
    (hc : c < cols) :
    let holeR := holeAt (tensorOps lib rows cols) rows cols t (r, c)
    let holeC := holeV (tensorOps lib rows cols) rows cols t (r, c)
    holeR.shape = (t (r, c)).shape ∧ holeC.shape = (t (r, c)).shape ∧
    ∀ x : Tn 𝕜, x.shape = (t (r, c)).shape →
      pair holeR x = value dim (Function.update t (r, c) x) ∧
      pair holeC x = value dim (Function.update t (r, c) x) := by
  intro holeR holeC
  refine ⟨(hole_row hl.shaped (net_of_fits hf) r c hr hc).1, (hole_col hl.shaped (net_of_fits hf) r c hr hc).1,
    fun x hx => ?_⟩
  have hf' := fits_update hf (r, c) x hx
  obtain ⟨e1, e2⟩ := hole_congr (tensorOps lib rows cols) (t := t) (t' := Function.update t (r, c) x)
    r c hr hc fun q hq => (Function.update_of_ne hq _ _).symm
  have h1 := (hole_row hl.shaped (net_of_fits hf') r c hr hc).2
  have h2 := (hole_col hl.shaped (net_of_fits hf') r c hr hc).2.1
  rw [Function.update_self, cut_left hl hf' r _ hr hc (by omega), ← e1] at h1
  rw [Function.update_self, cut_up hl hf' c _ hc hr (by omega), ← e2] at h2
  exact ⟨h1.symm, h2.symm⟩

/-- **C99.** `Init` followed by `EvaluateAmplitude` returns the value of the network, whatever was
cached before. -/
theorem C99_initial_amplitude_exact (hl : Lossless lib) (hf : Fits t dim) (hr : 1 ≤ rows)
    (hc : 2 ≤ cols) (c : Ctr (List (Tn 𝕜)) (Tn 𝕜) (Tn 𝕜)) :
    ∃ c', evaluateAmplitude (tensorOps lib rows cols) rows cols t
        (init (tensorOps lib rows cols) c) = some (value dim t, c') ∧
      Fresh (tensorOps lib rows cols) rows cols t c' := by
  obtain ⟨c', h1, h2⟩ := C09_initial_amplitude (tensorOps lib rows cols) rows cols hr hc t c
  rw [(C99_bond_trace_exact hl hf 0 0).1 (by omega) (by omega)] at h1
  exact ⟨c', h1, h2⟩

/-- **C99.** Any number of nearest-neighbour sweeps with the boundary-MPS contractor acts like
sweeps with a contractor that knows the wave function exactly: same configuration, amplitude,
random-number consumption and number of accepted moves. -/
theorem C99_sweeps_exact (hl : Lossless lib) (sitps : QLPeps.Site → ℕ → Tn 𝕜)
    (hf : ∀ cfg : Config, Fits (project sitps cfg) dim) (hr : 2 ≤ rows) (hc : 2 ≤ cols)
    (dec : Decision (Option 𝕜)) (n : ℕ) (config : Config) (amp : Option 𝕜) (draws : ℕ)
    (c : Ctr (List (Tn 𝕜)) (Tn 𝕜) (Tn 𝕜))
    (hfresh : Fresh (tensorOps lib rows cols) rows cols (project sitps config) c) :
    let C := bmpsContractor (tensorOps lib rows cols) rows cols sitps
    let D := exactContractor fun cfg => some (value dim (project sitps cfg))
    let cached := fun x => obcSweep (envOpsOption C)
      (fun a b d => liftUpd (moveBy dec C a b d)) rows cols x
    let ideal := fun x => obcSweep (envOpsOption D)
      (fun a b d => liftUpd (moveBy dec D a b d)) rows cols x
    let x := (fun x => (cached x).1)^[n] (some ⟨config, amp, some c, draws⟩)
    let y := (fun y => (ideal y).1)^[n] (some ⟨config, amp, (), draws⟩)
    (cached x).2 = (ideal y).2 ∧
    ((x = none ∧ y = none) ∨ ∃ w w', x = some w ∧ y = some w' ∧
      w.config = w'.config ∧ w.amp = w'.amp ∧ w.draws = w'.draws) := by
  intro C D cached ideal x y
  have key : (fun x => obcSweep (envOpsOption (scratchContractor (tensorOps lib rows cols) rows cols
      sitps)) (fun a b d => liftUpd (moveBy dec
        (scratchContractor (tensorOps lib rows cols) rows cols sitps) a b d)) rows cols x) = ideal := by
    refine obcSweep_congr (rows := rows) (cols := cols) _ _ _ (fun i j hi hj => ?_)
      (fun i j hi hj => ?_)
    · refine congrArg liftUpd (funext fun w => ?_)
      have : ∀ cfg, (scratchContractor (tensorOps lib rows cols) rows cols sitps).nnTrace () cfg
          (i, j) (i, j + 1) .horizontal = D.nnTrace () cfg (i, j) (i, j + 1) .horizontal := by
        intro cfg; funext a b
        exact congrArg some ((C99_bond_trace_exact hl (hf _) i j).1 hi hj)
      simp only [moveBy, this]
      rfl
    · refine congrArg liftUpd (funext fun w => ?_)
      have : ∀ cfg, (scratchContractor (tensorOps lib rows cols) rows cols sitps).nnTrace () cfg
          (i, j) (i + 1, j) .vertical = D.nnTrace () cfg (i, j) (i + 1, j) .vertical := by
        intro cfg; funext a b
        exact congrArg some ((C99_bond_trace_exact hl (hf _) i j).2 hi hj)
      simp only [moveBy, this]
      rfl
  have h := C09_sweeps_use_current_amplitudes (tensorOps lib rows cols) rows cols hr hc sitps dec n
    config amp draws c hfresh
  dsimp only at h
  have key' := fun x => congrFun key x
  simp only [key'] at h
  refine ⟨h.1, h.2.imp id ?_⟩
  rintro ⟨w, w', a1, a2, a3, a4, a5, -⟩
  exact ⟨w, w', a1, a2, a3, a4, a5⟩

/-- **C99.** The same for sweeps over triples of sites. -/
theorem C99_three_site_sweeps_exact (hl : Lossless lib) (sitps : QLPeps.Site → ℕ → Tn 𝕜)
    (hf : ∀ cfg : Config, Fits (project sitps cfg) dim) (hr : 3 ≤ rows) (hc : 3 ≤ cols)
    (dec : Decision3 (Option 𝕜)) (n : ℕ) (config : Config) (amp : Option 𝕜) (draws : ℕ)
    (c : Ctr (List (Tn 𝕜)) (Tn 𝕜) (Tn 𝕜))
    (hfresh : Fresh (tensorOps lib rows cols) rows cols (project sitps config) c) :
    let C := bmpsContractor (tensorOps lib rows cols) rows cols sitps
    let D := exactContractor fun cfg => some (value dim (project sitps cfg))
    let cached := fun x => obcSweep3 (envOpsOption C)
      (fun a b e d => Option.map (refresh3 C a b e d))
      (fun a b e d => liftUpd (moveBy3 dec C a b e d)) rows cols x
    let ideal := fun x => obcSweep3 (envOpsOption D)
      (fun a b e d => Option.map (refresh3 D a b e d))
      (fun a b e d => liftUpd (moveBy3 dec D a b e d)) rows cols x
    let x := (fun x => (cached x).1)^[n] (some ⟨config, amp, some c, draws⟩)
    let y := (fun y => (ideal y).1)^[n] (some ⟨config, amp, (), draws⟩)
    (cached x).2 = (ideal y).2 ∧
    ((x = none ∧ y = none) ∨ ∃ w w', x = some w ∧ y = some w' ∧
      w.config = w'.config ∧ w.amp = w'.amp ∧ w.draws = w'.draws) := by
  intro C D cached ideal x y
  have key : (fun x => obcSweep3 (envOpsOption (scratchContractor (tensorOps lib rows cols) rows cols
      sitps)) (fun a b e d => Option.map (refresh3
        (scratchContractor (tensorOps lib rows cols) rows cols sitps) a b e d))
      (fun a b e d => liftUpd (moveBy3 dec
        (scratchContractor (tensorOps lib rows cols) rows cols sitps) a b e d)) rows cols x)
      = ideal := by
    refine obcSweep3_congr (rows := rows) (cols := cols) _ _ _ _ _ hr hc (fun i j hi hj => ?_)
      (fun i j hi hj => ?_)
    · have : ∀ cfg, (scratchContractor (tensorOps lib rows cols) rows cols sitps).tnnTrace () cfg
          (i, j) (i, j + 1) (i, j + 2) .horizontal =
          D.tnnTrace () cfg (i, j) (i, j + 1) (i, j + 2) .horizontal := by
        intro cfg; funext a b e
        exact congrArg some ((C99_triple_trace_exact hl (hf _) i j).1 hi hj)
      refine ⟨congrArg liftUpd (funext fun w => ?_), congrArg Option.map (funext fun w => ?_)⟩
      · simp only [moveBy3, this]
        rfl
      · simp only [refresh3, this]
    · have : ∀ cfg, (scratchContractor (tensorOps lib rows cols) rows cols sitps).tnnTrace () cfg
          (i, j) (i + 1, j) (i + 2, j) .vertical =
          D.tnnTrace () cfg (i, j) (i + 1, j) (i + 2, j) .vertical := by
        intro cfg; funext a b e
        exact congrArg some ((C99_triple_trace_exact hl (hf _) i j).2 hi hj)
      refine ⟨congrArg liftUpd (funext fun w => ?_), congrArg Option.map (funext fun w => ?_)⟩
      · simp only [moveBy3, this]
        rfl
      · simp only [refresh3, this]
  have h := C76_three_site_sweeps_use_current_amplitudes (tensorOps lib rows cols) rows cols hr hc
    sitps dec n config amp draws c hfresh
  dsimp only at h
  have key' := fun x => congrFun key x
  simp only [key'] at h
  refine ⟨h.1, h.2.imp id ?_⟩
  rintro ⟨w, w', a1, a2, a3, a4, a5, -⟩
  exact ⟨w, w', a1, a2, a3, a4, a5⟩

/-! ## A case -/

/-- Factorizations without truncation exist. -/
theorem idLib_lossless : Lossless (QLPeps.Peps.idLib (𝕜 := 𝕜)) := ⟨QLPeps.Peps.idLib_exact, fun _ => rfl⟩

/-- bonds of dimension two inside the lattice -/
def twoDim : Bond .obc rows cols → ℕ
  | .inl b => if (b.2 : ℕ) = 0 ∨ (b.2 : ℕ) = cols then 1 else 2
  | .inr b => if (b.1 : ℕ) = 0 ∨ (b.1 : ℕ) = rows then 1 else 2

/-- tensors of these dimensions with given elements -/
def twoNet (rows cols : ℕ) (f : QLPeps.Site → List ℕ → 𝕜) (s : QLPeps.Site) : Tn 𝕜 :=
  ⟨[if s.2 = 0 then 1 else 2, if s.1 + 1 = rows then 1 else 2, if s.2 + 1 = cols then 1 else 2,
    if s.1 = 0 then 1 else 2], f s⟩

/-- Networks of this kind meet the hypothesis, on every lattice and with any elements. -/
theorem twoNet_fits (f : QLPeps.Site → List ℕ → 𝕜) :
    Fits (twoNet rows cols f) (twoDim : Bond .obc rows cols → ℕ) where
  shape s := by
    obtain ⟨⟨r, hr⟩, ⟨c, hc⟩⟩ := s
    rw [leg0, leg1, leg2, leg3]
    simp only [twoNet, twoDim]
    simp [hr.ne, hc.ne]
  external b hb := by
    obtain b | b := b
    · exact if_pos hb.2
    · exact if_pos hb.2

/-- a nontrivial case: a 2×2 lattice of tensors all of whose elements are `1`; every bond trace
counts the values of the four bonds -/
example : bondAmp (tensorOps (QLPeps.Peps.idLib (𝕜 := ℝ)) 2 2) 2 2 (twoNet 2 2 fun _ _ => 1)
      .vertical (0, 1) (1, 1) = 16 := by
  rw [(C99_bond_trace_exact idLib_lossless (twoNet_fits fun _ _ => 1) 0 1).2 (by omega) (by omega)]
  simp only [value, twoNet, Finset.prod_const_one, Finset.sum_const, Fintype.card_piFinset,
    Finset.card_range, nsmul_eq_mul, mul_one]
  norm_cast

/-- a nontrivial case: any elements on a 4×5 lattice; the hole at (1,2) contracted with any tensor
of the right shape -/
example (f : QLPeps.Site → List ℕ → ℂ) (x : Tn ℂ) (hx : x.shape = [2, 2, 2, 2]) :
    pair (holeAt (tensorOps QLPeps.Peps.idLib 4 5) 4 5 (twoNet 4 5 f) (1, 2)) x =
      value (rows := 4) (cols := 5) twoDim (Function.update (twoNet 4 5 f) (1, 2) x) :=
  ((C99_hole_exact idLib_lossless (twoNet_fits f) 1 2 (by omega) (by omega)).2.2 x
    (by rw [hx]; rfl)).1

/-- a nontrivial case: ten sweeps on a 3×3 lattice of any tensors, starting from `Init` -/
example (f : QLPeps.Site → ℕ → List ℕ → ℂ) (dec : Decision (Option ℂ)) (config : Config)
    (c : Ctr (List (Tn ℂ)) (Tn ℂ) (Tn ℂ)) :=
  C99_sweeps_exact (rows := 3) (cols := 3) idLib_lossless
    (fun s v => twoNet 3 3 (fun s => f s v) s)
    (fun cfg => (twoNet_fits (rows := 3) (cols := 3) fun s => f s (cfg s))) (by omega) (by omega) dec 10
    config (some 1) 0 (init (tensorOps QLPeps.Peps.idLib 3 3) c)
    (C09_init_fresh _ 3 3 (by omega) (by omega) _ c)

end

end QLPeps.Bmps
