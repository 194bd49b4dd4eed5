import Verif.Props.WalkerTrunc
import Verif.Props.Contractor3

/-!
# The stored amplitude after three-site sweeps under truncation

Property C156.
-/

namespace QLPeps.WalkerTrunc

open Spec QLPeps.Contractor QLPeps.Sweep QLPeps.Updaters
open QLPeps.Bmps QLPeps.Bmps.Spec QLPeps.BmpsVar QLPeps.BmpsVar.Spec QLPeps.BmpsErr QLPeps.BmpsErr.Spec
open QLPeps.Peps (Tn Lib truncLib)
open QLPeps.Tps.Spec (Bond)

/-- the library's three-site exchange updater -/
theorem tnn3_reports {A K : Type*} [Field K] [LinearOrder K] (ab : A → K) (ξ : ℕ → K) : Reports3 (tnn3Dec ab ξ) := by
  intro s1 s2 s3 d x y z amp n tr m a b e ψ h
  unfold tnn3Dec at h
  split_ifs at h with h0
  · cases h
  cases hp : permutations3 x y z with
  | none => rw [hp] at h; cases h
  | some perms =>
    rw [hp] at h
    dsimp only at h
    split at h
    · cases h
    · split at h
      · cases h
      · split_ifs at h with h1
        · cases h
        · split at h
          · rename_i v psi hv hpsi
            simp only [Option.some.injEq, Prod.mk.injEq] at h
            obtain ⟨-, rfl, rfl, rfl, rfl⟩ := h
            rw [List.getElem?_mapIdx, hv] at hpsi
            simp only [Option.map_some, Option.some.injEq, ne_eq, h1, not_false_iff, if_true] at hpsi
            exact hpsi.symm
          · cases h

/-- what the last column establishes and preserves holds after the sweep -/
theorem sweep3_last {S : Type*} (o : EnvOps S) (refresh : Site → Site → Site → Orient → S → S) (upd : Site → Site → Site → Orient → S → S × Bool)
    (rows cols : ℕ) (hc : 1 ≤ cols) (I : S → Prop) (he : EnvPres o I) (hr : ∀ s, I (refresh (0, cols - 1) (1, cols - 1) (2, cols - 1) .vertical s))
    (hu : ∀ r s, r + 2 < rows → I s → I (upd (r, cols - 1) (r + 1, cols - 1) (r + 2, cols - 1) .vertical s).1) (s : S) :
    I (obcSweep3 o refresh upd rows cols s).1 := by
  obtain ⟨m, rfl⟩ : ∃ m, cols = m + 1 := ⟨cols - 1, by omega⟩
  rw [Nat.add_sub_cancel] at hr hu
  simp only [obcSweep3, verticalLoop3, List.range_succ, List.foldl_append, List.foldl_cons, List.foldl_nil, Nat.add_sub_cancel, lt_irrefl, if_false]
  refine he.del _ _ ?_
  refine foldl_inv (fun x : S × ℕ => I x.1) _ _ ?_ _ (hr _)
  intro b hb row hrow
  rw [List.mem_range] at hrow
  have h1 := hu row b.1 (by omega) hb
  dsimp only
  split_ifs
  · exact he.shiftT _ _ h1
  · exact h1

section tensors

noncomputable section

variable {𝕜 : Type*} [RCLike 𝕜] {lib : Lib 𝕜}

/-- C156: After at least one three-site sweep, with any truncation and from any amplitude, the stored amplitude is the trace of the
network of the stored configuration in the last column: it depends on the stored configuration only, not on the history. -/
theorem stored_is_last_column {rows cols : ℕ} (hr : 3 ≤ rows) (hc : 3 ≤ cols) {sitps : Site → ℕ → Tn 𝕜} {dim : Bond .obc rows cols → ℕ}
    (hl : Factorizations lib) (hf : ∀ config, Fits (project sitps config) dim) {dec : Decision3 (Option 𝕜)} (hd : Reports3 dec) (n : ℕ) (config : Config)
    (amp : Option 𝕜) (draws : ℕ) (c : Ctr _ _ _) (hfresh : Fresh (tensorOps lib rows cols) rows cols (project sitps config) c)
    {w : Walker (Option 𝕜) (Option (Ctr _ _ _))}
    (hw : (fun x => (obcSweep3 (envOpsOption (bmpsContractor (tensorOps lib rows cols) rows cols sitps))
      (fun a b e d => Option.map (refresh3 (bmpsContractor (tensorOps lib rows cols) rows cols sitps) a b e d))
      (fun a b e d => liftUpd (moveBy3 dec (bmpsContractor (tensorOps lib rows cols) rows cols sitps) a b e d)) rows cols x).1)^[n + 1]
        (some ⟨config, amp, some c, draws⟩) = some w) (r : ℕ) (hrow : r + 1 < rows) :
    w.amp = some (bondAmp (tensorOps lib rows cols) rows cols (project sitps w.config) .vertical (r, cols - 1) (r + 1, cols - 1)) := by
  have key := (C76_three_site_sweeps_use_current_amplitudes (tensorOps lib rows cols) rows cols hr hc sitps dec (n + 1) config amp draws c hfresh).2
  rw [hw] at key
  rcases key with ⟨h, -⟩ | ⟨w1, w', h1, h2, h3, h4, -⟩
  · cases h
  obtain rfl := Option.some.inj h1
  rw [h3, h4]
  rw [Function.iterate_succ_apply'] at h2
  have hbond : ∀ cfg k k', k + 1 < rows → k' + 2 < rows →
      tripleAmp (tensorOps lib rows cols) rows cols (project sitps cfg) .vertical (k', cols - 1) (k' + 1, cols - 1) (k' + 2, cols - 1) =
        bondAmp (tensorOps lib rows cols) rows cols (project sitps cfg) .vertical (k, cols - 1) (k + 1, cols - 1) := by
    intro cfg k k' hk hk'
    obtain ⟨ψ, e1, e2, -⟩ := col_traces hl (hf cfg) (cols - 1) (by omega)
    rw [e1 k hk, e2 k' hk']
  let I : Option (Walker (Option 𝕜) Unit) → Prop := fun x => ∀ v, x = some v →
    v.amp = some (bondAmp (tensorOps lib rows cols) rows cols (project sitps v.config) .vertical (r, cols - 1) (r + 1, cols - 1))
  have hset : ∀ (cfg : Config) s, setSite cfg s (cfg s) = cfg := fun cfg s => by
    funext q
    simp only [setSite]
    split_ifs with h
    · rw [h]
    · rfl
  refine sweep3_last _ _ _ rows cols (by omega) I
    (envPres_option' _ fun cfg a _ => a = some (bondAmp (tensorOps lib rows cols) rows cols (project sitps cfg) .vertical (r, cols - 1) (r + 1, cols - 1)))
    ?_ ?_ _ w' h2
  · intro s v hv
    cases s with
    | none => cases hv
    | some x =>
      obtain rfl := Option.some.inj hv
      simp only [refresh3, scratchContractor, hset]
      exact congrArg some (hbond _ r 0 hrow (by omega))
  · intro k s hk hs v hv
    cases s with
    | none => cases hv
    | some x =>
      have hx := hs x rfl
      simp only [liftUpd, moveBy3] at hv
      cases hdec : dec (k, cols - 1) (k + 1, cols - 1) (k + 2, cols - 1) .vertical (x.config (k, cols - 1)) (x.config (k + 1, cols - 1))
          (x.config (k + 2, cols - 1)) x.amp x.draws ((scratchContractor (tensorOps lib rows cols) rows cols sitps).tnnTrace x.env x.config
            (k, cols - 1) (k + 1, cols - 1) (k + 2, cols - 1) .vertical) with
      | none => rw [hdec] at hv; cases hv
      | some q =>
        obtain ⟨m, z⟩ := q
        rw [hdec] at hv
        cases z with
        | none =>
          obtain rfl := Option.some.inj hv
          exact hx
        | some z =>
          obtain ⟨e, f, g, ψ⟩ := z
          obtain rfl := Option.some.inj hv
          have h5 := hd _ _ _ _ _ _ _ _ _ _ _ _ _ _ _ hdec
          refine Eq.trans h5 (congrArg some ?_)
          exact hbond _ r k hrow hk

/-- C156: Two walkers with the same configuration have the same amplitude, whatever they went through before. -/
theorem amplitude_of_configuration {rows cols : ℕ} (hr : 3 ≤ rows) (hc : 3 ≤ cols) {sitps : Site → ℕ → Tn 𝕜} {dim : Bond .obc rows cols → ℕ}
    (hl : Factorizations lib) (hf : ∀ config, Fits (project sitps config) dim) {dec dec' : Decision3 (Option 𝕜)} (hd : Reports3 dec) (hd' : Reports3 dec')
    (n n' : ℕ) (config config' : Config) (amp amp' : Option 𝕜) (draws draws' : ℕ) (c c' : Ctr _ _ _)
    (hfresh : Fresh (tensorOps lib rows cols) rows cols (project sitps config) c)
    (hfresh' : Fresh (tensorOps lib rows cols) rows cols (project sitps config') c')
    {w w' : Walker (Option 𝕜) (Option (Ctr _ _ _))}
    (hw : (fun x => (obcSweep3 (envOpsOption (bmpsContractor (tensorOps lib rows cols) rows cols sitps))
      (fun a b e d => Option.map (refresh3 (bmpsContractor (tensorOps lib rows cols) rows cols sitps) a b e d))
      (fun a b e d => liftUpd (moveBy3 dec (bmpsContractor (tensorOps lib rows cols) rows cols sitps) a b e d)) rows cols x).1)^[n + 1]
        (some ⟨config, amp, some c, draws⟩) = some w)
    (hw' : (fun x => (obcSweep3 (envOpsOption (bmpsContractor (tensorOps lib rows cols) rows cols sitps))
      (fun a b e d => Option.map (refresh3 (bmpsContractor (tensorOps lib rows cols) rows cols sitps) a b e d))
      (fun a b e d => liftUpd (moveBy3 dec' (bmpsContractor (tensorOps lib rows cols) rows cols sitps) a b e d)) rows cols x).1)^[n' + 1]
        (some ⟨config', amp', some c', draws'⟩) = some w')
    (h : w.config = w'.config) : w.amp = w'.amp := by
  rw [stored_is_last_column hr hc hl hf hd n config amp draws c hfresh hw 0 (by omega),
    stored_is_last_column hr hc hl hf hd' n' config' amp' draws' c' hfresh' hw' 0 (by omega), h]

/-- a case: any tensors that depend on the local states, truncation to one singular value, the library's updater -/
example (f : ℕ → Site → List ℕ → ℂ) (ab : Option ℂ → ℝ) (ξ : ℕ → ℝ) (n : ℕ) (config : Config) (amp : Option ℂ) (c₀ : Ctr _ _ _)
    (w : Walker (Option ℂ) (Option (Ctr _ _ _)))
    (hw : (fun x => (obcSweep3 (envOpsOption (bmpsContractor (tensorOps (truncLib 1) 4 5) 4 5 fun s k => twoNet 4 5 (f k) s))
      (fun a b e d => Option.map (refresh3 (bmpsContractor (tensorOps (truncLib 1) 4 5) 4 5 fun s k => twoNet 4 5 (f k) s) a b e d))
      (fun a b e d => liftUpd (moveBy3 (tnn3Dec ab ξ) (bmpsContractor (tensorOps (truncLib 1) 4 5) 4 5 fun s k => twoNet 4 5 (f k) s) a b e d)) 4 5 x).1)^[n + 1]
        (some ⟨config, amp, some (init (tensorOps (truncLib 1) 4 5) c₀), 0⟩) = some w) :
    w.amp = some (bondAmp (tensorOps (truncLib 1) 4 5) 4 5 (twoNet 4 5 fun s => f (w.config s) s) .vertical (2, 4) (3, 4)) :=
  stored_is_last_column (rows := 4) (cols := 5) (sitps := fun s k => twoNet 4 5 (f k) s) (dim := twoDim) (by omega) (by omega) (Peps.truncLib_factorizations 1)
    (fun config => twoNet_fits (rows := 4) (cols := 5) fun s => f (config s) s) (tnn3_reports ab ξ) n config amp 0 _
    (C09_init_fresh _ 4 5 (by omega) (by omega) _ c₀) hw 2 (by omega)

end

end tensors

end QLPeps.WalkerTrunc
