import Verif.Lemmas.ContractorCount

/-!
# Boundary-MPS contractor: cached environments are those of the current configuration

C09, C10, C11 of `properties.jsonl`.

`o : Ops …` are the tensor contractions, completely arbitrary: in particular the absorption of a
row into a boundary MPS may truncate in any way. `env`, `benv`, `bondAmp` (`Verif/Spec/Contractor`)
are environments and amplitudes computed from scratch from the site tensors.
-/

namespace QLPeps.Contractor

open QLPeps.Sweep QLPeps.Updaters

variable {T E B C C2 A H : Type*}

/-! ## C09 -/

/-- **C09.** `n` nearest-neighbour sweeps with the caching contractor give, for every updater that
decides by the local states, the amplitude, the random stream and the replaced traces, exactly
the same configuration, amplitude, random-number consumption and (in the last sweep) number of
accepted moves as the sweeps with the contractor that computes every amplitude from scratch from
the current configuration. No access is out of range, and the caches are fresh again at the end. -/
theorem C09_sweeps_use_current_amplitudes (o : Ops T E B C C2 A H) (rows cols : ℕ)
    (hr : 2 ≤ rows) (hc : 2 ≤ cols) (sitps : Site → ℕ → T) (dec : Decision (Option A)) (n : ℕ)
    (config : Config) (amp : Option A) (draws : ℕ) (c : Ctr B C C2)
    (hfresh : Fresh o rows cols (project sitps config) c) :
    let cached := fun x => obcSweep (envOpsOption (bmpsContractor o rows cols sitps))
      (fun a b d => liftUpd (moveBy dec (bmpsContractor o rows cols sitps) a b d)) rows cols x
    let scratch := fun x => obcSweep (envOpsOption (scratchContractor o rows cols sitps))
      (fun a b d => liftUpd (moveBy dec (scratchContractor o rows cols sitps) a b d)) rows cols x
    let x := (fun x => (cached x).1)^[n] (some ⟨config, amp, some c, draws⟩)
    let y := (fun y => (scratch y).1)^[n] (some ⟨config, amp, (), draws⟩)
    (cached x).2 = (scratch y).2 ∧
    ((x = none ∧ y = none) ∨ ∃ w w', x = some w ∧ y = some w' ∧
      w.config = w'.config ∧ w.amp = w'.amp ∧ w.draws = w'.draws ∧
      ∃ c', w.env = some c' ∧ Fresh o rows cols (project sitps w.config) c') := by
  intro cached scratch x y
  have key : Rel sitps (Good o rows cols) (x, 0) (y, 0) := by
    show Rel sitps (Good o rows cols) ((fun x => (cached x).1)^[n] _, 0)
      ((fun y => (scratch y).1)^[n] _, 0)
    clear x y
    induction n with
    | zero =>
      refine ⟨rfl, Or.inr ⟨_, _, rfl, rfl, rfl, rfl, rfl, c, rfl, ?_⟩⟩
      exact (good_iff_fresh o rows cols _ c).2 hfresh
    | succ n ih =>
      rw [Function.iterate_succ_apply', Function.iterate_succ_apply']
      exact ⟨rfl, (Rel.sweep o rows cols sitps dec hr hc ih).2⟩
  refine ⟨(Rel.sweep o rows cols sitps dec hr hc key).1, ?_⟩
  rcases key.2 with h | ⟨w, w', h1, h2, h3, h4, h5, c', h6, h7⟩
  · exact Or.inl h
  · exact Or.inr ⟨w, w', h1, h2, h3, h4, h5, c', h6, (good_iff_fresh o rows cols _ c').1 h7⟩

/-- The hypothesis is met by every contractor right after `Init`. -/
theorem C09_init_fresh (o : Ops T E B C C2 A H) (rows cols : ℕ) (hr : 1 ≤ rows) (hc : 1 ≤ cols)
    (t : Site → T) (c : Ctr B C C2) : Fresh o rows cols t (init o c) :=
  (good_iff_fresh o rows cols t _).1 (init_good o rows cols t c hr hc)

/-- The three nearest-neighbour updaters of the library are updaters of this kind: the exchange
updater, the full-space updater and the Hubbard updater. -/
theorem C09_covers_the_updaters {Γ K : Type*} [Field K] [LinearOrder K] (ab : A → K) (ξ : ℕ → K) :
    (∃ dec : Decision A, ∀ (C : Updaters.Contractor A Γ) s1 s2 d w,
      moveBy dec C s1 s2 d w = some (nnExchange C ab ξ s1 s2 d w)) ∧
    (∀ dim, ∃ dec : Decision A, ∀ (C : Updaters.Contractor A Γ) s1 s2 d w,
      moveBy dec C s1 s2 d w = fullSpace C ab ξ dim s1 s2 d w) ∧
    (∃ dec : Decision A, ∀ (C : Updaters.Contractor A Γ) s1 s2 d w,
      moveBy dec C s1 s2 d w = hubbardU1U1 C ab ξ s1 s2 d w) :=
  ⟨⟨exchangeDec ab ξ, fun C s1 s2 d w => nnExchange_moveBy ab ξ C s1 s2 d w⟩,
   fun dim => ⟨fullSpaceDec ab ξ dim, fun C s1 s2 d w => fullSpace_moveBy ab ξ dim C s1 s2 d w⟩,
   ⟨hubbardDec ab ξ, fun C s1 s2 d w => hubbard_moveBy ab ξ C s1 s2 d w⟩⟩

/-- **C09, coverage.** Replace every tensor by an element of a commutative monoid and every
contraction by multiplication: the amplitude at every nearest-neighbour bond is the product of
all site tensors, each occurring exactly once. -/
theorem C09_bond_amplitude_covers_every_site_once {M : Type*} [CommMonoid M] (rows cols : ℕ)
    (t : Site → M) (r c : ℕ) :
    (r < rows → c + 1 < cols →
      bondAmp (countingOps M rows cols) rows cols t .horizontal (r, c) (r, c + 1)
        = ∏ i ∈ Finset.range rows, ∏ j ∈ Finset.range cols, t (i, j)) ∧
    (r + 1 < rows → c < cols →
      bondAmp (countingOps M rows cols) rows cols t .vertical (r, c) (r + 1, c)
        = ∏ i ∈ Finset.range rows, ∏ j ∈ Finset.range cols, t (i, j)) :=
  ⟨fun h1 h2 => bond_count rows cols t .left (by simp) r c h1 h2,
   fun h1 h2 => bond_count rows cols t .up (by simp) c r h2 h1⟩

/-- **C09, start.** `Init` followed by `EvaluateAmplitude` gives the amplitude from scratch at the
bond `(0,0)-(0,1)`, whatever was cached before, and leaves fresh caches. -/
theorem C09_initial_amplitude (o : Ops T E B C C2 A H) (rows cols : ℕ) (hr : 1 ≤ rows)
    (hc : 2 ≤ cols) (t : Site → T) (c : Ctr B C C2) :
    ∃ c', evaluateAmplitude o rows cols t (init o c)
        = some (bondAmp o rows cols t .horizontal (0, 0) (0, 1), c') ∧
      Fresh o rows cols t c' := by
  obtain ⟨c', h1, h2⟩ := evaluate_init o rows cols t c hr hc
  exact ⟨c', h1, (good_iff_fresh o rows cols t c').1 h2⟩

/-- **C09, limit.** On a lattice with a single row or a single column every nearest-neighbour
sweep makes an out-of-range access (`GrowFullBTen` with two remaining sites on a line of one),
whatever the updater does and whatever is cached. -/
theorem C09_single_line_out_of_range (o : Ops T E B C C2 A H) (rows cols : ℕ)
    (h : rows = 1 ∧ 1 ≤ cols ∨ cols = 1 ∧ 1 ≤ rows) (sitps : Site → ℕ → T)
    (dec : Decision (Option A)) (w w' : Walker (Option A) (Option (Ctr B C C2)))
    (hw : (obcSweep (envOpsOption (bmpsContractor o rows cols sitps))
      (fun a b d => liftUpd (moveBy dec (bmpsContractor o rows cols sitps) a b d))
      rows cols (some w)).1 = some w') : w'.env = none :=
  Broken.sweep o rows cols sitps dec h (some w) w' hw

/-- a nontrivial case: a 2×3 lattice of integers, all cached environments fresh, and an updater
that always exchanges; after one sweep the amplitude is still the product of all sites -/
example :
    ((obcSweep (envOpsOption (bmpsContractor (countingOps ℕ 2 3) 2 3 fun s v => s.1 + s.2 + v + 1))
      (fun a b d => liftUpd (moveBy (fun _ _ _ x y _ n tr => some (n + 1, some (y, x, tr y x)))
        (bmpsContractor (countingOps ℕ 2 3) 2 3 fun s v => s.1 + s.2 + v + 1) a b d)) 2 3
      (some ⟨fun s => s.1 * 3 + s.2, some 0, some (init (countingOps ℕ 2 3) empty), 0⟩)).1.map
        fun w => (w.amp, w.draws, [w.config (0, 0), w.config (0, 1), w.config (0, 2),
          w.config (1, 0), w.config (1, 1), w.config (1, 2)],
          (w.env.map fun c => (c.bmps .right).length)))
      = some (some (5 * 7 * 6 * 3 * 5 * 4), 7, [4, 5, 3, 1, 2, 0], some 1) := by
  decide +kernel

/-! ## C10 -/

/-- **C10.** After any history of cache operations and site changes (each followed by
`EraseEnvsAfterUpdate`) that makes no out-of-range access, every boundary MPS still cached in any
direction equals the one computed from scratch from the current tensors. The history may start
from a newly constructed contractor or from any state with that property. -/
theorem C10_cached_environments_are_current (o : Ops T E B C C2 A H) (rows cols : ℕ)
    (t t' : Site → T) (c c' : Ctr B C C2) (ops : List (CacheOp T))
    (hstart : Current o rows cols t c)
    (hrun : runOps o rows cols ops (t, c) = some (t', c')) :
    ∀ p k b, (c'.bmps p)[k]? = some b → b = env o rows cols t' p k :=
  current_run o rows cols ops (t, c) (t', c') hstart hrun

/-- a newly constructed contractor has nothing cached -/
theorem C10_start (o : Ops T E B C C2 A H) (rows cols : ℕ) (t : Site → T) :
    Current o rows cols t (empty : Ctr B C C2) := by
  intro p k b h; simp [empty] at h

/-- **C10, second half.** A site change keeps precisely the boundary MPS that do not contain the
site: entry `k` of side `p` is still there if and only if it was there and none of the `k` rows or
columns absorbed in it contains the site; and it is unchanged. -/
theorem C10_update_keeps_independent_environments (o : Ops T E B C C2 A H) (rows cols : ℕ)
    (t t' : Site → T) (c c' : Ctr B C C2) (s : Site) (x : T)
    (h : CacheOp.step o rows cols (t, c) (.update s x) = some (t', c')) (p : Pos) (k : ℕ) :
    (k < (c'.bmps p).length ↔
      k < (c.bmps p).length ∧ ∀ j < k, j < span rows cols p → ¬ inLayer rows cols p j s) ∧
    (k < (c'.bmps p).length → (c'.bmps p)[k]? = (c.bmps p)[k]?) := by
  simp only [CacheOp.step] at h
  split_ifs at h with hin
  cases h
  have hk := keep_eq rows cols p s hin.1 hin.2
  simp only [eraseEnvs, List.length_take]
  refine ⟨?_, fun hl => ?_⟩
  · rw [hk]
    constructor
    · intro h
      refine ⟨by omega, fun j hj hjs => ?_⟩
      cases p <;> simp only [siteDepth, inLayer, span] at * <;> omega
    · rintro ⟨h1, h2⟩
      refine lt_min ?_ h1
      by_contra hlt
      refine h2 (siteDepth rows cols p s) (by omega) ?_ ?_ <;>
        cases p <;> simp only [siteDepth, inLayer, span] at * <;> omega
  · rw [List.getElem?_take, if_pos (by omega)]

/-- a history on a 3×2 lattice that grows all four sides, changes two sites and goes on growing;
it succeeds with nonempty stacks -/
example :
    (runOps (countingOps ℕ 3 2) 3 2
      [.init, .growFull .down, .growFull .right, .generate .up, .update (1, 0) 7, .growFull .down,
        .shift .down, .initBTen .left 1, .growFullBTen .right 1 2 true, .update (1, 1) 5,
        .generate .left, .growStep .up]
      (fun s => s.1 + s.2 + 1, empty)).map
        (fun st => [(st.2.bmps .up).length, (st.2.bmps .down).length, (st.2.bmps .left).length,
          (st.2.bmps .right).length]) = some [3, 2, 1, 2] := by
  decide +kernel

/-! ## C11 -/

/-- **C11, heights.** From every state with nonempty UP and DOWN stacks (the DOWN stack not higher
than the lattice): `GenerateBMPSApproach(UP)` followed by `r` times `ShiftBMPSWindow(DOWN)` succeeds for
every `r < rows`; then the UP stack holds the boundary and the `r` rows above, the DOWN stack the
boundary and the `rows - 1 - r` rows below. At the last row the DOWN stack is only the boundary. -/
theorem C11_row_traversal_heights (o : Ops T E B C C2 A H) (rows cols : ℕ) (t : Site → T)
    (c : Ctr B C C2) (hu : c.bmps .up ≠ []) (hd : c.bmps .down ≠ [])
    (hd' : (c.bmps .down).length ≤ rows) (r : ℕ) (hr : r < rows) :
    ∃ c' : Ctr B C C2,
      ((generateApproach o rows cols t .up c).bind fun c =>
        (List.range r).foldlM (fun c _ => shiftBMPSWindow o rows cols t .down c) c) = some c' ∧
      (c'.bmps .up).length = r + 1 ∧ (c'.bmps .down).length = rows - r := by
  obtain ⟨c0, h0, h1, h2⟩ := generate_height o rows cols t .up (by simp) c hu hd hd'
  rw [h0]
  simp only [Option.bind_some]
  induction r with
  | zero => exact ⟨c0, rfl, h1, h2⟩
  | succ r ih =>
    obtain ⟨c1, g0, g1, g2⟩ := ih (by omega)
    obtain ⟨c2, f0, f1, f2⟩ := shift_height o rows cols t .up (by simp) c1 (r + 1) (rows - r) g1
      (by omega) (by simp only [span]; omega) g2 (by omega)
    refine ⟨c2, ?_, f1, by rw [show rows - (r + 1) = rows - r - 1 by omega]; exact f2⟩
    rw [List.range_succ, List.foldlM_append, g0]
    simp only [List.foldlM_cons, List.foldlM_nil]
    show (shiftBMPSWindow o rows cols t .down c1).bind some = some c2
    rw [show (Pos.down) = opposite .up from rfl, f0]
    rfl

/-- **C11, contents.** If in addition what was cached is current, then at row `r` the top of the
UP stack is made of exactly the rows above and the top of the DOWN stack of exactly the rows
below, computed from the current tensors; so are all entries below the tops. -/
theorem C11_row_traversal_contents (o : Ops T E B C C2 A H) (rows cols : ℕ) (t : Site → T)
    (c : Ctr B C C2) (hcur : Current o rows cols t c) (hu : c.bmps .up ≠ [])
    (hd : c.bmps .down ≠ []) (hd' : (c.bmps .down).length ≤ rows) (r : ℕ) (hr : r < rows) :
    ∃ c' : Ctr B C C2,
      ((generateApproach o rows cols t .up c).bind fun c =>
        (List.range r).foldlM (fun c _ => shiftBMPSWindow o rows cols t .down c) c) = some c' ∧
      c'.bmps .up = (List.range (r + 1)).map (env o rows cols t .up) ∧
      c'.bmps .down = (List.range (rows - r)).map (env o rows cols t .down) := by
  obtain ⟨c', h1, h3, h4⟩ := C11_row_traversal_heights o rows cols t c hu hd hd' r hr
  obtain ⟨c0, h0, -, -⟩ := generate_height o rows cols t .up (by simp) c hu hd hd'
  rw [h0] at h1 ⊢
  have hcur0 : Current o rows cols t c0 :=
    current_step o rows cols (t, c) (t, c0) (.generate .up) hcur (by simp [CacheOp.step, h0])
  have hcur' : Current o rows cols t c' := by
    have := current_run o rows cols (List.replicate r (.shift .down)) (t, c0) (t, c') hcur0
    apply this
    simp only [Option.bind_some] at h1
    have gen : ∀ (r : ℕ) (c0 c' : Ctr B C C2),
        (List.range r).foldlM (fun c _ => shiftBMPSWindow o rows cols t .down c) c0 = some c' →
        runOps o rows cols (List.replicate r (.shift .down)) (t, c0) = some (t, c') := by
      intro r
      induction r with
      | zero => intro c0 c' h; cases h; rfl
      | succ r ih =>
        intro c0 c' h
        rw [List.range_succ_eq_map, List.foldlM_cons] at h
        cases hs : shiftBMPSWindow o rows cols t .down c0 with
        | none => rw [hs] at h; cases h
        | some c1 =>
          rw [hs] at h
          simp only [List.replicate_succ, runOps, List.foldlM_cons, CacheOp.step, hs,
            Option.map_some]
          apply ih c1 c'
          rw [← h]
          simp only [List.foldlM_map]
          rfl
    exact gen r c0 c' h1
  refine ⟨c', h1, ?_, ?_⟩
  · rw [(current_iff o rows cols t c').1 hcur' .up, h3]; rfl
  · rw [(current_iff o rows cols t c').1 hcur' .down, h4]; rfl

/-- **C11, columns.** The same for columns with LEFT and RIGHT. -/
theorem C11_column_traversal_heights (o : Ops T E B C C2 A H) (rows cols : ℕ) (t : Site → T)
    (c : Ctr B C C2) (hu : c.bmps .left ≠ []) (hd : c.bmps .right ≠ [])
    (hd' : (c.bmps .right).length ≤ cols) (r : ℕ) (hr : r < cols) :
    ∃ c' : Ctr B C C2,
      ((generateApproach o rows cols t .left c).bind fun c =>
        (List.range r).foldlM (fun c _ => shiftBMPSWindow o rows cols t .right c) c) = some c' ∧
      (c'.bmps .left).length = r + 1 ∧ (c'.bmps .right).length = cols - r := by
  obtain ⟨c0, h0, h1, h2⟩ := generate_height o rows cols t .left (by simp) c hu hd hd'
  rw [h0]
  simp only [Option.bind_some]
  induction r with
  | zero => exact ⟨c0, rfl, h1, h2⟩
  | succ r ih =>
    obtain ⟨c1, g0, g1, g2⟩ := ih (by omega)
    obtain ⟨c2, f0, f1, f2⟩ := shift_height o rows cols t .left (by simp) c1 (r + 1) (cols - r) g1
      (by omega) (by simp only [span]; omega) g2 (by omega)
    refine ⟨c2, ?_, f1, by rw [show cols - (r + 1) = cols - r - 1 by omega]; exact f2⟩
    rw [List.range_succ, List.foldlM_append, g0]
    simp only [List.foldlM_cons, List.foldlM_nil]
    show (shiftBMPSWindow o rows cols t .right c1).bind some = some c2
    rw [show (Pos.right) = opposite .left from rfl, f0]
    rfl

/-- **C11, limit.** With a DOWN stack higher than the lattice the traversal is out of range. -/
theorem C11_overfull_stack_out_of_range (o : Ops T E B C C2 A H) (rows cols : ℕ) (t : Site → T)
    (c : Ctr B C C2) (h : rows < (c.bmps .down).length) :
    generateApproach o rows cols t .up c = none := by
  unfold generateApproach growFullBMPS
  have : (deleteInner Pos.up c).bmps .down = c.bmps .down := by
    simp [deleteInner]
  simp only [opposite, this, sub?]
  rw [if_neg (by omega)]; rfl

/-- a 4×3 lattice: after the whole traversal the heights are 4 and 1 -/
example :
    ((generateApproach (countingOps ℕ 4 3) 4 3 (fun s => s.1 + s.2 + 1) .up
      (init (countingOps ℕ 4 3) empty)).bind fun c =>
      (List.range 3).foldlM
        (fun c _ => shiftBMPSWindow (countingOps ℕ 4 3) 4 3 (fun s => s.1 + s.2 + 1) .down c) c).map
        (fun c => ((c.bmps .up).length, (c.bmps .down).length, (c.bmps .up).getLast?))
      = some (4, 1, some [3 * 4 * 5, 2 * 3 * 4, 1 * 2 * 3]) := by
  decide +kernel

end QLPeps.Contractor
