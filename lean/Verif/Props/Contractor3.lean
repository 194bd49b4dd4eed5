import Verif.Lemmas.ContractorSweep3
import Verif.Props.Updaters

/-!
# Three-site sweeps with the caching contractor

C76 of `properties.jsonl`; same conventions as `Verif/Props/Contractor`.
-/

namespace QLPeps.Contractor

open QLPeps.Sweep QLPeps.Updaters

variable {T E B C C2 A H : Type*}

/-- **C76.** `n` three-site sweeps (rows, then columns, with the amplitude refreshed at the start
of every line) with the caching contractor give, for every updater that decides by the local
states, the amplitude, the random stream and the replaced traces, exactly the same configuration,
amplitude, random-number consumption and number of accepted moves as with the contractor that
computes every amplitude from scratch. No access is out of range and the caches end fresh. -/
theorem C76_three_site_sweeps_use_current_amplitudes (o : Ops T E B C C2 A H) (rows cols : ℕ)
    (hr : 3 ≤ rows) (hc : 3 ≤ cols) (sitps : Site → ℕ → T) (dec : Decision3 (Option A)) (n : ℕ)
    (config : Config) (amp : Option A) (draws : ℕ) (c : Ctr B C C2)
    (hfresh : Fresh o rows cols (project sitps config) c) :
    let cached := fun x => obcSweep3 (envOpsOption (bmpsContractor o rows cols sitps))
      (fun a b e d => Option.map (refresh3 (bmpsContractor o rows cols sitps) a b e d))
      (fun a b e d => liftUpd (moveBy3 dec (bmpsContractor o rows cols sitps) a b e d)) rows cols x
    let scratch := fun x => obcSweep3 (envOpsOption (scratchContractor o rows cols sitps))
      (fun a b e d => Option.map (refresh3 (scratchContractor o rows cols sitps) a b e d))
      (fun a b e d => liftUpd (moveBy3 dec (scratchContractor o rows cols sitps) a b e d))
      rows cols x
    let x := (fun x => (cached x).1)^[n] (some ⟨config, amp, some c, draws⟩)
    let y := (fun y => (scratch y).1)^[n] (some ⟨config, amp, (), draws⟩)
    (cached x).2 = (scratch y).2 ∧
    ((x = none ∧ y = none) ∨ ∃ w w', x = some w ∧ y = some w' ∧
      w.config = w'.config ∧ w.amp = w'.amp ∧ w.draws = w'.draws ∧
      ∃ c', w.env = some c' ∧ Fresh o rows cols (project sitps w.config) c') := by
  intro cached scratch x y
  have key : Rel sitps (Good o rows cols) (x, 0) (y, 0) := by
    show Rel sitps (Good o rows cols) ((fun x => (cached x).1)^[n] _, 0)
      ((fun y => (scratch y).1)^[n] _, 0)
    clear x y
    induction n with
    | zero =>
      refine ⟨rfl, Or.inr ⟨_, _, rfl, rfl, rfl, rfl, rfl, c, rfl, ?_⟩⟩
      exact (good_iff_fresh o rows cols _ c).2 hfresh
    | succ n ih =>
      rw [Function.iterate_succ_apply', Function.iterate_succ_apply']
      exact ⟨rfl, (Rel.sweep3 o rows cols sitps dec hr hc ih).2⟩
  refine ⟨(Rel.sweep3 o rows cols sitps dec hr hc key).1, ?_⟩
  rcases key.2 with h | ⟨w, w', h1, h2, h3, h4, h5, c', h6, h7⟩
  · exact Or.inl h
  · exact Or.inr ⟨w, w', h1, h2, h3, h4, h5, c', h6, (good_iff_fresh o rows cols _ c').1 h7⟩

/-- The library's three-site exchange updater is an updater of this kind. -/
theorem C76_covers_the_updater {Γ K : Type*} [Field K] [LinearOrder K] (ab : A → K) (ξ : ℕ → K) :
    ∃ dec : Decision3 A, ∀ (C : Updaters.Contractor A Γ) s1 s2 s3 d w,
      moveBy3 dec C s1 s2 s3 d w = tnn3Exchange C ab ξ s1 s2 s3 d w :=
  ⟨tnn3Dec ab ξ, fun C s1 s2 s3 d w => tnn3_moveBy ab ξ C s1 s2 s3 d w fun x y z L h v hv =>
    ((permutations3_spec x y z L h).2 v |>.1 hv).length_eq⟩

/-- **C76, coverage.** The amplitude at every three-site window covers every site exactly once. -/
theorem C76_triple_amplitude_covers_every_site_once {M : Type*} [CommMonoid M] (rows cols : ℕ)
    (t : Site → M) (r c : ℕ) :
    (r < rows → c + 2 < cols →
      tripleAmp (countingOps M rows cols) rows cols t .horizontal (r, c) (r, c + 1) (r, c + 2)
        = ∏ i ∈ Finset.range rows, ∏ j ∈ Finset.range cols, t (i, j)) ∧
    (r + 2 < rows → c < cols →
      tripleAmp (countingOps M rows cols) rows cols t .vertical (r, c) (r + 1, c) (r + 2, c)
        = ∏ i ∈ Finset.range rows, ∏ j ∈ Finset.range cols, t (i, j)) :=
  ⟨fun h1 h2 => triple_count rows cols t .left (by simp) r c h1 h2,
   fun h1 h2 => triple_count rows cols t .up (by simp) c r h2 h1⟩

/-- **C76, limit.** With fewer than three rows or fewer than three columns every three-site sweep
makes an out-of-range access, whatever the updater does and whatever is cached. -/
theorem C76_short_lines_out_of_range (o : Ops T E B C C2 A H) (rows cols : ℕ) (hr : 1 ≤ rows)
    (hc : 1 ≤ cols) (h : rows < 3 ∨ cols < 3) (sitps : Site → ℕ → T)
    (dec : Decision3 (Option A)) (w w' : Walker (Option A) (Option (Ctr B C C2)))
    (hw : (obcSweep3 (envOpsOption (bmpsContractor o rows cols sitps))
      (fun a b e d => Option.map (refresh3 (bmpsContractor o rows cols sitps) a b e d))
      (fun a b e d => liftUpd (moveBy3 dec (bmpsContractor o rows cols sitps) a b e d))
      rows cols (some w)).1 = some w') : w'.env = none :=
  Broken.sweep3 o rows cols sitps dec hr hc h (some w) w' hw

/-- a nontrivial case: a 3×3 lattice of integers and an updater that always rotates the three
states; after one sweep the amplitude is the product over the final configuration -/
example :
    ((obcSweep3
      (envOpsOption (bmpsContractor (countingOps ℕ 3 3) 3 3 fun s v => s.1 + s.2 + v + 1))
      (fun a b e d => Option.map (refresh3
        (bmpsContractor (countingOps ℕ 3 3) 3 3 fun s v => s.1 + s.2 + v + 1) a b e d))
      (fun a b e d => liftUpd (moveBy3
        (fun _ _ _ _ x y z _ n tr => some (n + 1, some (y, z, x, tr y z x)))
        (bmpsContractor (countingOps ℕ 3 3) 3 3 fun s v => s.1 + s.2 + v + 1) a b e d)) 3 3
      (some ⟨fun s => s.1 * 3 + s.2, some 0, some (init (countingOps ℕ 3 3) empty), 0⟩)).1.map
        fun w => (w.amp == some ((List.range 3).map fun r => ((List.range 3).map fun c =>
          r + c + w.config (r, c) + 1).prod).prod, w.draws, (List.range 3).map fun r =>
          (List.range 3).map fun c => w.config (r, c)))
      = some (true, 6, [[4, 5, 3], [7, 8, 6], [1, 2, 0]]) := by
  decide +kernel

end QLPeps.Contractor
