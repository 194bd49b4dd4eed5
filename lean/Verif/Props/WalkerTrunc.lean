import Verif.Spec.WalkerTrunc
import Verif.Props.Contractor
import Verif.Props.BmpsRows
import Verif.Lemmas.BmpsAmp

/-!
# The stored amplitude under truncation

Property C155.
-/

namespace QLPeps.WalkerTrunc

open Spec QLPeps.Contractor QLPeps.Sweep QLPeps.Updaters

section general

variable {T E B C C2 A H : Type*}

/-! ## the updaters of the library -/

theorem suwaTodo_reports {K : Type*} [Field K] [LinearOrder K] {ξ : ℕ → K} {cands : List (ℕ × ℕ)} {psis : List A}
    {weights : Option (List K)} {init n m a b : ℕ} {ψ : A} {tr : ℕ → ℕ → A}
    (hp : ∀ k (v : ℕ × ℕ) psi, k ≠ init → cands[k]? = some v → psis[k]? = some psi → psi = tr v.1 v.2)
    (h : suwaTodoDec ξ cands psis weights init n = some (m, some (a, b, ψ))) : ψ = tr a b := by
  unfold suwaTodoDec at h
  cases weights with
  | none => cases h
  | some ws =>
    simp only at h
    cases hs : SuwaTodo.suwaTodo ws init (ξ n) with
    | none => rw [hs] at h; cases h
    | some fin =>
      rw [hs] at h
      simp only at h
      by_cases hf : fin = init
      · rw [if_pos hf] at h; cases h
      · rw [if_neg hf] at h
        cases h1 : cands[fin]? with
        | none => rw [h1] at h; cases h
        | some v =>
          cases h2 : psis[fin]? with
          | none => rw [h1, h2] at h; cases h
          | some psi =>
            rw [h1, h2] at h
            have h3 := hp fin v psi hf h1 h2
            simp only [Option.some.injEq, Prod.mk.injEq] at h
            obtain ⟨-, rfl, rfl, rfl⟩ := h
            exact h3

theorem exchange_reports {K : Type*} [Field K] [LinearOrder K] (ab : A → K) (ξ : ℕ → K) : Reports (exchangeDec ab ξ) := by
  intro s1 s2 d x y amp n tr m a b ψ h
  unfold exchangeDec at h
  split_ifs at h with h1 h2
  · cases h
  · simp only [Option.some.injEq, Prod.mk.injEq] at h
    obtain ⟨-, rfl, rfl, rfl⟩ := h
    rfl
  · cases h

theorem fullSpace_reports {K : Type*} [Field K] [LinearOrder K] (ab : A → K) (ξ : ℕ → K) (dim : ℕ) : Reports (fullSpaceDec ab ξ dim) := by
  intro s1 s2 d x y amp n tr m a b ψ h
  unfold fullSpaceDec at h
  dsimp only at h
  split_ifs at h with h1
  refine suwaTodo_reports (fun k v psi hk h2 h3 => ?_) h
  rw [List.getElem?_map] at h2 h3
  obtain ⟨j, hj, rfl⟩ := Option.map_eq_some_iff.1 h2
  rw [hj] at h3
  have : j = k := by
    obtain ⟨hk', e⟩ := List.getElem?_eq_some_iff.1 hj
    rw [List.getElem_range] at e
    exact e.symm
  subst this
  simp only [Option.map_some, Option.some.injEq, ne_eq, hk, not_false_iff, if_true] at h3
  exact h3.symm

theorem hubbard_reports {K : Type*} [Field K] [LinearOrder K] (ab : A → K) (ξ : ℕ → K) : Reports (hubbardDec ab ξ) := by
  intro s1 s2 d x y amp n tr m a b ψ h
  unfold hubbardDec at h
  split at h
  · dsimp only at h
    split_ifs at h with h1
    · cases h
    all_goals
      refine suwaTodo_reports (fun k v psi hk h2 h3 => ?_) h
      rw [List.getElem?_mapIdx, h2] at h3
      simp only [Option.map_some, Option.some.injEq, ne_eq, hk, not_false_iff, if_true] at h3
      exact h3.symm
  · cases h

/-! ## sweeps -/

open Classical in
/-- the update on bonds of the lattice only -/
noncomputable def guarded {S : Type*} (rows cols : ℕ) (upd : Site → Site → Orient → S → S × Bool) (a b : Site) (d : Orient) (s : S) : S × Bool :=
  if IsBond rows cols a b d then upd a b d s else (s, false)

theorem sweep_inv {S : Type*} (o : EnvOps S) (upd : Site → Site → Orient → S → S × Bool) (rows cols : ℕ) (I : S → Prop) (he : EnvPres o I)
    (hu : ∀ a b d s, IsBond rows cols a b d → I s → I (upd a b d s).1) (s : S) (hs : I s) : I (obcSweep o upd rows cols s).1 := by
  rw [QLPeps.Bmps.obcSweep_congr (rows := rows) (cols := cols) o upd (guarded rows cols upd)
    (fun r c hr hc => by funext s; rw [guarded, if_pos (.horizontal r c hr hc)])
    (fun r c hr hc => by funext s; rw [guarded, if_pos (.vertical r c hr hc)])]
  refine obcSweep_inv o _ rows cols I he (fun a b d s _ _ _ h => ?_) s hs
  rw [guarded]
  split_ifs with hb
  · exact hu a b d s hb h
  · exact h

/-- C155: For every contraction, with whatever truncation, and after any number of sweeps of an updater that takes the trace it
has accepted for its amplitude: the stored amplitude is the trace of the network of the stored configuration, computed from
scratch, at some bond of the lattice. -/
theorem stored_is_trace (o : Ops T E B C C2 A H) (rows cols : ℕ) (hr : 2 ≤ rows) (hc : 2 ≤ cols) (sitps : Site → ℕ → T)
    (dec : Decision (Option A)) (hd : Reports dec) (n : ℕ) (config : Config) (amp : Option A) (draws : ℕ) (c : Ctr B C C2)
    (hfresh : Fresh o rows cols (project sitps config) c) (hamp : IsTrace o rows cols sitps config amp)
    (w : Walker (Option A) (Option (Ctr B C C2)))
    (hw : (fun x => (obcSweep (envOpsOption (bmpsContractor o rows cols sitps))
      (fun a b d => liftUpd (moveBy dec (bmpsContractor o rows cols sitps) a b d)) rows cols x).1)^[n] (some ⟨config, amp, some c, draws⟩) = some w) :
    IsTrace o rows cols sitps w.config w.amp := by
  have key := (C09_sweeps_use_current_amplitudes o rows cols hr hc sitps dec n config amp draws c hfresh).2
  rw [hw] at key
  rcases key with ⟨h, -⟩ | ⟨w1, w', h1, h2, h3, h4, -⟩
  · cases h
  obtain rfl := Option.some.inj h1
  rw [h3, h4]
  let I : Option (Walker (Option A) Unit) → Prop := fun x => ∀ v, x = some v → IsTrace o rows cols sitps v.config v.amp
  have hI : ∀ y, I y → I (obcSweep (envOpsOption (scratchContractor o rows cols sitps))
      (fun a b d => liftUpd (moveBy dec (scratchContractor o rows cols sitps) a b d)) rows cols y).1 := by
    intro y hy
    refine sweep_inv _ _ rows cols I ?_ ?_ y hy
    · exact envPres_option' _ fun cfg a _ => IsTrace o rows cols sitps cfg a
    · intro a b d s hb hs v hv
      cases s with
      | none => cases hv
      | some x =>
        have hx := hs x rfl
        simp only [liftUpd, moveBy] at hv
        cases hdec : dec a b d (x.config a) (x.config b) x.amp x.draws ((scratchContractor o rows cols sitps).nnTrace x.env x.config a b d) with
        | none => rw [hdec] at hv; cases hv
        | some q =>
          obtain ⟨m, z⟩ := q
          rw [hdec] at hv
          cases z with
          | none =>
            obtain rfl := Option.some.inj hv
            exact hx
          | some z =>
            obtain ⟨e, f, ψ⟩ := z
            obtain rfl := Option.some.inj hv
            exact ⟨a, b, d, hb, hd _ _ _ _ _ _ _ _ _ _ _ _ hdec⟩
  have : I ((fun y => (obcSweep (envOpsOption (scratchContractor o rows cols sitps))
      (fun a b d => liftUpd (moveBy dec (scratchContractor o rows cols sitps) a b d)) rows cols y).1)^[n] (some ⟨config, amp, (), draws⟩)) := by
    clear h2 hw
    induction n with
    | zero => intro v hv; cases hv; exact hamp
    | succ n ih => rw [Function.iterate_succ_apply']; exact hI _ ih
  exact this w' h2

/-- The hypotheses on the start are met by `Init` followed by `EvaluateAmplitude`, which sets the amplitude of a walker. -/
theorem start_is_trace (o : Ops T E B C C2 A H) (rows cols : ℕ) (hr : 1 ≤ rows) (hc : 2 ≤ cols) (sitps : Site → ℕ → T) (config : Config)
    (c : Ctr B C C2) : ∃ ψ c', evaluateAmplitude o rows cols (project sitps config) (init o c) = some (ψ, c') ∧
      Fresh o rows cols (project sitps config) c' ∧ IsTrace o rows cols sitps config (some ψ) := by
  obtain ⟨c', h1, h2⟩ := C09_initial_amplitude o rows cols hr hc (project sitps config) c
  exact ⟨_, c', h1, h2, (0, 0), (0, 1), .horizontal, .horizontal 0 0 (by omega) (by omega), rfl⟩

end general

section tensors

open QLPeps.Bmps QLPeps.Bmps.Spec QLPeps.BmpsVar QLPeps.BmpsVar.Spec QLPeps.BmpsErr QLPeps.BmpsErr.Spec QLPeps.BmpsRows
open QLPeps.Peps (Tn Lib truncLib)
open QLPeps.Tps.Spec (Bond)

noncomputable section

variable {𝕜 : Type*} [RCLike 𝕜] {lib : Lib 𝕜}

/-- a trace is as far from the value of the network as the bounds of C146 for rows or for columns -/
theorem trace_error {rows cols : ℕ} {sitps : Site → ℕ → Tn 𝕜} {dim : Bond .obc rows cols → ℕ} (hl : Factorizations lib) {ε : ℝ} (hε : 0 ≤ ε)
    (hε1 : ε ≤ 1) (hd : Discards lib ε) {config : Config} (hf : Fits (project sitps config) dim) {τ σ : ℕ → ℝ} (hτ : ∀ r, 0 ≤ τ r)
    (hb : ∀ r < rows, RowBound cols (project sitps config) r (τ r)) (hσ : ∀ c, 0 ≤ σ c)
    (hb' : ∀ c < cols, ColBound rows (project sitps config) c (σ c)) {ψ : Option 𝕜}
    (h : IsTrace (tensorOps lib rows cols) rows cols sitps config ψ) :
    ∃ z, ψ = some z ∧ ‖value dim (project sitps config) - z‖ ≤
      max ((rows - 1 : ℕ) * Real.sqrt ((cols - 1 : ℕ) * ε) * ∏ r ∈ Finset.range rows, τ r)
        ((cols - 1 : ℕ) * Real.sqrt ((rows - 1 : ℕ) * ε) * ∏ c ∈ Finset.range cols, σ c) := by
  obtain ⟨a, b, d, hab, rfl⟩ := h
  refine ⟨_, rfl, ?_⟩
  cases hab with
  | horizontal r c hr hc => exact (row_error hl hε hε1 hd hf hτ hb r c hr hc).trans (le_max_left _ _)
  | vertical r c hr hc => exact (col_error hl hε hε1 hd hf hσ hb' r c hr hc).trans (le_max_right _ _)

/-- C155: After any number of sweeps, with every truncation discarding at most the part `ε` of the weight, the stored amplitude
differs from the value of the network of the stored configuration by at most the bound of C146 for that configuration: the
error does not accumulate over the history of the walker. -/
theorem stored_error {rows cols : ℕ} (hr : 2 ≤ rows) (hc : 2 ≤ cols) {sitps : Site → ℕ → Tn 𝕜} {dim : Bond .obc rows cols → ℕ}
    (hl : Factorizations lib) {ε : ℝ} (hε : 0 ≤ ε) (hε1 : ε ≤ 1) (hd : Discards lib ε)
    {dec : Decision (Option 𝕜)} (hdec : Reports dec) (n : ℕ) (config : Config) (draws : ℕ) (c₀ : Ctr _ _ _)
    {ψ : 𝕜} {c : Ctr _ _ _} (h0 : evaluateAmplitude (tensorOps lib rows cols) rows cols (project sitps config) (init (tensorOps lib rows cols) c₀) = some (ψ, c))
    {w : Walker (Option 𝕜) (Option (Ctr _ _ _))}
    (hw : (fun x => (obcSweep (envOpsOption (bmpsContractor (tensorOps lib rows cols) rows cols sitps))
      (fun a b d => liftUpd (moveBy dec (bmpsContractor (tensorOps lib rows cols) rows cols sitps) a b d)) rows cols x).1)^[n]
        (some ⟨config, some ψ, some c, draws⟩) = some w)
    (hf : Fits (project sitps w.config) dim) {τ σ : ℕ → ℝ} (hτ : ∀ r, 0 ≤ τ r)
    (hb : ∀ r < rows, RowBound cols (project sitps w.config) r (τ r)) (hσ : ∀ c, 0 ≤ σ c)
    (hb' : ∀ c < cols, ColBound rows (project sitps w.config) c (σ c)) :
    ∃ z, w.amp = some z ∧ ‖value dim (project sitps w.config) - z‖ ≤
      max ((rows - 1 : ℕ) * Real.sqrt ((cols - 1 : ℕ) * ε) * ∏ r ∈ Finset.range rows, τ r)
        ((cols - 1 : ℕ) * Real.sqrt ((rows - 1 : ℕ) * ε) * ∏ c ∈ Finset.range cols, σ c) := by
  obtain ⟨ψ', c', h1, h2, h3⟩ := start_is_trace (tensorOps lib rows cols) rows cols (by omega) hc sitps config c₀
  rw [h0] at h1
  obtain ⟨rfl, rfl⟩ := Prod.mk.inj (Option.some.inj h1)
  exact trace_error hl hε hε1 hd hf hτ hb hσ hb' (stored_is_trace _ rows cols hr hc sitps dec hdec n config _ draws c h2 h3 w hw)

/-- the Frobenius norm of a column bounds it -/
theorem colBound_frobenius (rows : ℕ) (t : Site → Tn 𝕜) (c : ℕ) : ∃ τ, 0 ≤ τ ∧ ColBound rows t c τ := by
  let col := (List.range rows).map fun r => t (r, c)
  let west := (List.range rows).map fun r => (t (r, c)).shape.getD 0 0
  let east := (List.range rows).map fun r => (t (r, c)).shape.getD 2 0
  refine ⟨Real.sqrt (∑ xs ∈ Box.box west, ∑ ys ∈ Box.box east, ‖rowAmp .left col xs ys 0‖ ^ 2), Real.sqrt_nonneg _, ?_⟩
  intro φ ψ
  change ‖Peps.sumCoors west fun xs => Peps.sumCoors east fun ys => φ xs * rowAmp .left col xs ys 0 * ψ ys‖ ^ 2 ≤ _ *
    (normSq west φ * normSq east ψ)
  rw [Real.sq_sqrt (Finset.sum_nonneg fun _ _ => Finset.sum_nonneg fun _ _ => sq_nonneg _)]
  simp only [normSq, QLPeps.BmpsVar.sumCoors_box]
  rw [← Finset.sum_product', ← Finset.sum_product', Finset.sum_mul_sum, ← Finset.sum_product']
  refine (pow_le_pow_left₀ (norm_nonneg _) (norm_sum_le _ _) 2).trans ?_
  simp only [← mul_pow]
  refine le_trans (le_of_eq ?_) (Finset.sum_mul_sq_le_sq_mul_sq _ _ _)
  congr 1
  refine Finset.sum_congr rfl fun x _ => ?_
  rw [norm_mul, norm_mul]
  ring

/-- a case: tensors that depend on the local states, and the exchange updater with any random numbers -/
example (f : ℕ → Site → List ℕ → ℂ) (ε : ℝ) (h0 : 0 ≤ ε) (h1 : ε ≤ 1) (ab : Option ℂ → ℝ) (ξ : ℕ → ℝ) (n : ℕ) (config : Config)
    (c₀ c : Ctr _ _ _) (ψ : ℂ) (he : evaluateAmplitude (tensorOps (QLPeps.BmpsVar.errLib ε) 4 5) 4 5
      (project (fun s k => twoNet 4 5 (f k) s) config) (init (tensorOps (QLPeps.BmpsVar.errLib ε) 4 5) c₀) = some (ψ, c))
    (w : Walker (Option ℂ) (Option (Ctr _ _ _)))
    (hw : (fun x => (obcSweep (envOpsOption (bmpsContractor (tensorOps (QLPeps.BmpsVar.errLib ε) 4 5) 4 5 fun s k => twoNet 4 5 (f k) s))
      (fun a b d => liftUpd (moveBy (exchangeDec ab ξ)
        (bmpsContractor (tensorOps (QLPeps.BmpsVar.errLib ε) 4 5) 4 5 fun s k => twoNet 4 5 (f k) s) a b d)) 4 5 x).1)^[n]
        (some ⟨config, some ψ, some c, 0⟩) = some w) :
    ∃ C D : ℝ, ∃ z, w.amp = some z ∧ ‖value (rows := 4) (cols := 5) twoDim (twoNet 4 5 fun s => f (w.config s) s) - z‖ ≤
      max (3 * Real.sqrt (4 * ε) * C) (4 * Real.sqrt (3 * ε) * D) := by
  choose τ hτ hb using rowBound_frobenius 5 (twoNet 4 5 fun s => f (w.config s) s)
  choose σ hσ hb' using colBound_frobenius 4 (twoNet 4 5 fun s => f (w.config s) s)
  refine ⟨∏ r ∈ Finset.range 4, τ r, ∏ c ∈ Finset.range 5, σ c, ?_⟩
  have := stored_error (rows := 4) (cols := 5) (by omega) (by omega) (QLPeps.BmpsVar.errLib_factorizations ε) h0 h1 (QLPeps.BmpsVar.errLib_discards h0)
    (exchange_reports ab ξ) n config 0 c₀ he hw (twoNet_fits (rows := 4) (cols := 5) fun s => f (w.config s) s) hτ (fun r _ => hb r) hσ (fun c _ => hb' c)
  rw [show project (fun s k => twoNet 4 5 (f k) s) w.config = twoNet 4 5 (fun s => f (w.config s) s) from rfl] at this
  simpa using this

/-! ## an amplitude of another row -/

/-- the network of C154 in every configuration -/
def pairsState (s : Site) (_ : ℕ) : Tn ℂ := twoNet 2 2 pairs s

theorem pairsState_net (config : Config) : project pairsState config = twoNet 2 2 (pairs (𝕜 := ℂ)) := rfl

def absAmp : Option ℂ → ℝ
  | none => 0
  | some z => ‖z‖

def stripes : Config := fun s => s.2

theorem small_sweep {S : Type*} (o : EnvOps S) (ho : ∀ s, (∀ p, o.generateBMPSApproach p s = s) ∧ (∀ p i, o.initBTen p i s = s) ∧
    (∀ p i r, o.growFullBTen p i r s = s) ∧ (∀ p, o.shiftBTenWindow p s = s) ∧ (∀ p, o.shiftBMPSWindow p s = s) ∧ ∀ p, o.deleteInnerBMPS p s = s)
    (upd : Site → Site → Orient → S → S × Bool) (s : S) : (obcSweep o upd 2 2 s).1 =
      (upd (0, 1) (1, 1) .vertical (upd (0, 0) (1, 0) .vertical (upd (1, 0) (1, 1) .horizontal (upd (0, 0) (0, 1) .horizontal s).1).1).1).1 := by
  have h1 := fun s => (ho s).1
  have h2 := fun s => (ho s).2.1
  have h3 := fun s => (ho s).2.2.1
  have h4 := fun s => (ho s).2.2.2.1
  have h5 := fun s => (ho s).2.2.2.2.1
  have h6 := fun s => (ho s).2.2.2.2.2
  simp [obcSweep, horizontalLoop, verticalLoop, Sweep.rowLoop, Sweep.colLoop, List.range_succ, h1, h2, h3, h4, h5, h6]

theorem one_sweep {lib : Lib ℂ} (hf : Factorizations lib) (hL : KeepsLargest lib 1) :
    ∃ w, (obcSweep (envOpsOption (scratchContractor (tensorOps lib 2 2) 2 2 pairsState))
      (fun a b d => liftUpd (moveBy (exchangeDec absAmp fun _ => 0) (scratchContractor (tensorOps lib 2 2) 2 2 pairsState) a b d)) 2 2
        (some ⟨stripes, some 3, (), 0⟩)).1 = some w ∧ w.amp = some 2 := by
  obtain ⟨h1, h2, -⟩ := rows_disagree hf hL
  rw [small_sweep _ (by intro s; cases s <;> exact ⟨fun _ => rfl, fun _ _ => rfl, fun _ _ _ => rfl, fun _ => rfl, fun _ => rfl, fun _ => rfl⟩)]
  have a1 : metropolisAccept (3 : ℝ) 3 0 = true := by norm_num [metropolisAccept]
  have a2 : metropolisAccept (2 : ℝ) 3 0 = true := by norm_num [metropolisAccept]
  have s1 : liftUpd (moveBy (exchangeDec absAmp fun _ => 0) (scratchContractor (tensorOps lib 2 2) 2 2 pairsState) (0, 0) (0, 1) .horizontal)
      (some ⟨stripes, some 3, (), 0⟩) = (some ⟨setSite (setSite stripes (0, 0) 1) (0, 1) 0, some 3, (), 0 + metropolisDraws (3 : ℝ) 3⟩, true) := by
    simp [liftUpd, moveBy, exchangeDec, scratchContractor, pairsState_net, h1, absAmp, stripes, a1, updateLocal, updateSingleSite]
  have s2 : ∀ n, liftUpd (moveBy (exchangeDec absAmp fun _ => 0) (scratchContractor (tensorOps lib 2 2) 2 2 pairsState) (1, 0) (1, 1) .horizontal)
      (some ⟨setSite (setSite stripes (0, 0) 1) (0, 1) 0, some 3, (), n⟩) =
        (some ⟨setSite (setSite (setSite (setSite stripes (0, 0) 1) (0, 1) 0) (1, 0) 1) (1, 1) 0, some 2, (), n + metropolisDraws (2 : ℝ) 3⟩, true) := by
    intro n
    simp [liftUpd, moveBy, exchangeDec, scratchContractor, pairsState_net, h2, absAmp, stripes, a2, updateLocal, updateSingleSite, setSite]
  rw [s1, s2]
  simp [liftUpd, moveBy, exchangeDec, setSite]

/-- C155: The stored amplitude is in general not the one that evaluating the stored configuration anew gives, also if the
truncation keeps the largest singular values and the walker starts from an evaluated amplitude. -/
theorem stored_is_evaluated_false : ¬∀ (lib : Lib ℂ) (D : ℕ), Factorizations lib → 0 < D → KeepsLargest lib D → ∀ (rows cols : ℕ) (_ : 2 ≤ rows)
    (_ : 2 ≤ cols) (sitps : Site → ℕ → Tn ℂ) (dim : Bond .obc rows cols → ℕ) (_ : ∀ config, Fits (project sitps config) dim)
    (ab : Option ℂ → ℝ) (ξ : ℕ → ℝ) (n : ℕ) (config : Config) (draws : ℕ) (c₀ c : Ctr _ _ _) (ψ : ℂ)
    (_ : evaluateAmplitude (tensorOps lib rows cols) rows cols (project sitps config) (init (tensorOps lib rows cols) c₀) = some (ψ, c))
    (w : Walker (Option ℂ) (Option (Ctr _ _ _)))
    (_ : (fun x => (obcSweep (envOpsOption (bmpsContractor (tensorOps lib rows cols) rows cols sitps))
      (fun a b d => liftUpd (moveBy (exchangeDec ab ξ) (bmpsContractor (tensorOps lib rows cols) rows cols sitps) a b d)) rows cols x).1)^[n]
        (some ⟨config, some ψ, some c, draws⟩) = some w) (c₁ c' : Ctr _ _ _) (ψ' : ℂ)
    (_ : evaluateAmplitude (tensorOps lib rows cols) rows cols (project sitps w.config) (init (tensorOps lib rows cols) c₁) = some (ψ', c')),
      w.amp = some ψ' := by
  intro h
  have hF := Peps.truncLib_factorizations (𝕜 := ℂ) 1
  have hL := Peps.truncLib_largest (𝕜 := ℂ) 1
  obtain ⟨r0, -, -⟩ := rows_disagree (𝕜 := ℂ) hF hL
  obtain ⟨v, hv, hva⟩ := one_sweep hF hL
  let c₀ : Ctr (List (Tn ℂ)) (Tn ℂ) (Tn ℂ) := ⟨fun _ => [], fun _ => [], fun _ => []⟩
  obtain ⟨c, h1, h2⟩ := C09_initial_amplitude (tensorOps (truncLib 1) 2 2) 2 2 (by omega) (by omega) (project pairsState stripes) c₀
  rw [pairsState_net, r0] at h1
  rcases (C09_sweeps_use_current_amplitudes (tensorOps (truncLib 1) 2 2) 2 2 (by omega) (by omega) pairsState (exchangeDec absAmp fun _ => 0) 1
    stripes (some 3) 0 c h2).2 with ⟨-, k⟩ | ⟨w, w', k1, k2, -, k4, -⟩
  · rw [Function.iterate_one, hv] at k; cases k
  · rw [Function.iterate_one, hv] at k2
    obtain rfl := Option.some.inj k2
    obtain ⟨c', e1, -⟩ := C09_initial_amplitude (tensorOps (truncLib 1) 2 2) 2 2 (by omega) (by omega) (project pairsState w.config) c₀
    rw [pairsState_net, r0] at e1
    have := h (truncLib 1) 1 hF (by omega) hL 2 2 (by omega) (by omega) pairsState twoDim (fun _ => twoNet_fits pairs) absAmp (fun _ => 0) 1 stripes 0
      c₀ c 3 h1 w k1 c₀ c' 3 e1
    rw [k4, hva] at this
    have := Option.some.inj this
    norm_num at this

end

end tensors

end QLPeps.WalkerTrunc
