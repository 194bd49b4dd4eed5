import Verif.Lemmas.TraversalCount

/-!
# Traversals of all bonds by energy and measurement solvers

C77 of `properties.jsonl`, and the measurement of the triangular J1-J2 model (C53). Same
conventions as `Verif/Props/Contractor`: `Fresh` caches hold nothing out of date, the amplitudes
of `Verif/Spec/Contractor` and `Verif/Spec/Traversal` are computed from scratch, without caches.
-/

namespace QLPeps.Contractor

universe u

variable {T E B C C2 A H : Type u}

/-- **C77.** A traversal of all bonds (with or without holes, single sites, diagonals, links of
length √5 and row correlations), started from any caches that hold nothing out of date, either
reports a zero amplitude, exactly when the amplitude at the first bond of some row (if rows are
checked) or of some column is zero, or succeeds; then what the solver is shown is exactly the
list `allVisits`: every amplitude and every hole has the value computed from scratch for the
network with the tensors in question replaced, in the documented order, and the caches left
behind hold nothing out of date. No access is out of range. -/
theorem C77_traversal_sees_current_amplitudes (o : Ops5 T E B C C2 A H) (rows cols : ℕ)
    (t : Site → T) (isZero : A → Bool) (pl : Plan T) (hr : 2 ≤ rows) (hc : 2 ≤ cols)
    (h5 : pl.links5 = true → 3 ≤ rows) (c : Ctr B C C2) (hf : Fresh o.toOps rows cols t c) :
    let zeroRow := pl.rowPsi = true ∧ ∃ row < rows,
      isZero (bondAmp o.toOps rows cols t .horizontal (row, 0) (row, 1)) = true
    let zeroCol := ∃ col < cols,
      isZero (bondAmp o.toOps rows cols t .vertical (0, col) (1, col)) = true
    (zeroRow ∨ zeroCol → traverseAll o rows cols t isZero pl c = .error .zeroAmplitude) ∧
    (¬ zeroRow → ¬ zeroCol → ∃ c',
      traverseAll o rows cols t isZero pl c = .ok (allVisits o rows cols t pl, c') ∧
      Fresh o.toOps rows cols t c') := by
  intro zr zc
  obtain ⟨a1, a2⟩ := traverseHorizontal_fresh o rows cols t isZero pl (by omega) hc c
    ((good_iff_fresh _ _ _ _ _).2 hf)
  have nz : ¬ zr → ∀ row < rows, ¬ (pl.rowPsi = true ∧
      isZero (bondAmp o.toOps rows cols t .horizontal (row, 0) (row, 1)) = true) :=
    fun h row hrow hz => h ⟨hz.1, row, hrow, hz.2⟩
  unfold traverseAll
  by_cases hz : zr
  · refine ⟨fun _ => ?_, fun h => absurd hz h⟩
    obtain ⟨h1, row, h2, h3⟩ := hz
    rw [a1 ⟨row, h2, h1, h3⟩]; rfl
  · obtain ⟨c1, e1, g1⟩ := a2 (nz hz)
    obtain ⟨b1, b2⟩ := traverseVertical_fresh o rows cols t isZero pl hr h5 (by omega) c1 g1
    rw [e1]
    constructor
    · rintro (h | h)
      · exact absurd h hz
      · simp only [ok_bind]; rw [b1 h]; rfl
    · intro _ hzc
      obtain ⟨c2, e2, g2⟩ := b2 fun col hcol h => hzc ⟨col, hcol, h⟩
      refine ⟨c2, ?_, (good_iff_fresh _ _ _ _ _).1 g2⟩
      simp only [ok_bind]; rw [e2]; rfl

/-- **C77, once.** Every nearest-neighbour bond is shown exactly once, whatever the plan; with
holes, every site has exactly one hole; with diagonals, both diagonals of every plaquette are
shown exactly once; with links of length √5, every such link running from lower left to upper
right is shown exactly once. -/
theorem C77_every_bond_exactly_once (o : Ops5 T E B C C2 A H) (rows cols : ℕ)
    (t : Site → T) (pl : Plan T) :
    (let seen := (allVisits o rows cols t pl).filterMap Visit.bondOf
     seen.Nodup ∧ ∀ s1 s2, (s1, s2) ∈ seen ↔ inside rows cols s1 ∧ inside rows cols s2 ∧
        (s2 = (s1.1, s1.2 + 1) ∨ s2 = (s1.1 + 1, s1.2))) ∧
    (pl.holes = true → let seen := (allVisits o rows cols t pl).filterMap Visit.holeOf
     seen.Nodup ∧ ∀ s, s ∈ seen ↔ inside rows cols s) ∧
    (pl.links = true → let seen := (allVisits o rows cols t pl).filterMap Visit.linkOf
     seen.Nodup ∧ ∀ s1 s2, (s1, s2) ∈ seen ↔ inside rows cols s1 ∧ inside rows cols s2 ∧
        (s2 = (s1.1 + 1, s1.2 + 1) ∨ s1.1 = s2.1 + 1 ∧ s2.2 = s1.2 + 1)) ∧
    (pl.links = true ∧ pl.links5 = true →
     let seen := (allVisits o rows cols t pl).filterMap Visit.link5Of
     seen.Nodup ∧ ∀ s1 s2, (s1, s2) ∈ seen ↔ inside rows cols s1 ∧ inside rows cols s2 ∧
        (s1.1 = s2.1 + 1 ∧ s2.2 = s1.2 + 2 ∨ s1.1 = s2.1 + 2 ∧ s2.2 = s1.2 + 1)) :=
  ⟨bonds_once o rows cols t pl, holes_once o rows cols t pl, links_once o rows cols t pl,
   links5_once o rows cols t pl⟩

/-- **C77, coverage.** Every amplitude shown covers every site of the network exactly once, and a
hole covers every site but its own. -/
theorem C77_amplitudes_cover_every_site_once {M : Type u} [CommMonoid M] (rows cols : ℕ)
    (t : Site → M) (r c : ℕ) :
    let o := countingOps5 M rows cols
    let all := ∏ i ∈ Finset.range rows, ∏ j ∈ Finset.range cols, t (i, j)
    (r < rows → c + 1 < cols →
      bondAmp o.toOps rows cols t .horizontal (r, c) (r, c + 1) = all) ∧
    (r + 1 < rows → c < cols →
      bondAmp o.toOps rows cols t .vertical (r, c) (r + 1, c) = all) ∧
    (r < rows → c < cols → oneAmp o.toOps rows cols t (r, c) = all) ∧
    (r < rows → c < cols → holeAt o.toOps rows cols t (r, c) * t (r, c) = all) ∧
    (r + 1 < rows → c + 1 < cols → plaquetteAmp o.toOps rows cols t (r, c) = all) ∧
    (r + 1 < rows → c + 2 < cols → blockAmp o rows cols t .horizontal (r, c) = all) ∧
    (r + 2 < rows → c + 1 < cols → blockAmp o rows cols t .vertical (r, c) = all) :=
  ⟨fun h1 h2 => bond_count rows cols t .left (by simp) r c h1 h2,
   fun h1 h2 => bond_count rows cols t .up (by simp) c r h2 h1,
   one_count rows cols t r c,
   fun h1 h2 => (hole_count rows cols t r c).trans (one_count rows cols t r c h1 h2),
   plaquette_count rows cols t r c,
   fun h1 h2 => block_count rows cols t .horizontal r c ⟨h1, h2⟩,
   fun h1 h2 => block_count rows cols t .vertical r c ⟨h1, h2⟩⟩

/-- **C77, limit.** On a single row every traversal fails, whatever the network and the caches; on
a single column every traversal that checks the rows fails. -/
theorem C77_single_line_fails (o : Ops5 T E B C C2 A H) (rows cols : ℕ) (hr : 1 ≤ rows)
    (hc : 1 ≤ cols) (t : Site → T) (isZero : A → Bool) (pl : Plan T) (c : Ctr B C C2)
    (h : rows = 1 ∨ cols = 1 ∧ pl.rowPsi = true) :
    ∃ e, traverseAll o rows cols t isZero pl c = .error e := by
  rcases h with h | ⟨h, hp⟩
  · exact single_row_fails o rows cols t isZero pl (by omega) hc c
  · exact single_col_fails o rows cols t isZero pl hp hr (by omega) c

/-- **C53, at the contractor.** The row part of the measurement of the triangular J1-J2 model on
at least two rows and three columns always makes an out-of-range access, for every network and
from every state of the caches that holds nothing out of date. -/
theorem C53_triangle_j1j2_measurement_out_of_range (o : Ops5 T E B C C2 A H) (rows cols : ℕ)
    (hr : 2 ≤ rows) (hc : 3 ≤ cols) (t : Site → T) (flip : ℕ → T) (c : Ctr B C C2)
    (hf : Fresh o.toOps rows cols t c) :
    triMeasureHorizontal o rows cols t flip c = .error .outOfRange :=
  triMeasure_fails o rows cols t flip hr hc c ((good_iff_fresh _ _ _ _ _).2 hf)

/-- the freshly initialised contractor meets the hypothesis -/
example (t : Site → ℕ) : Fresh (countingOps5 ℕ 3 3).toOps 3 3 t
    (init (countingOps5 ℕ 3 3).toOps empty) :=
  (good_iff_fresh _ _ _ _ _).1 (init_good _ _ _ _ _ (by norm_num) (by norm_num))

/-- what a solver would compute from a visit, with every replaced tensor `1` -/
def exampleValue : Visit ℕ ℕ ℕ → ℕ
  | .psi _ _ a => a
  | .hole _ h => h
  | .site _ f => (f 1).getD 0
  | .bond _ _ _ f => (f 1 1).getD 0
  | .link _ _ _ f => (f 1 1).getD 0
  | .link5 _ _ _ f => (f 1 1).getD 0
  | .pair _ _ f => (f 1).getD 0

/-- a nontrivial case: a full traversal of a 3×3 lattice of integers -/
example :
    (match traverseAll (countingOps5 ℕ 3 3) 3 3 (fun s => s.1 * 3 + s.2 + 1) (· == 0)
        ⟨true, true, true, true, true, fun r => if r = 1 then some 7 else none⟩
        (init (countingOps5 ℕ 3 3).toOps empty) with
      | .ok (l, _) => some (l.length, (l.map exampleValue).take 9)
      | .error _ => none)
      = some (49, [362880, 362880, 362880, 181440, 181440, 181440, 60480, 120960, 120960]) := by
  decide +kernel

/-- a zero entry is reported -/
example :
    (match traverseAll (countingOps5 ℕ 3 3) 3 3 (fun s => s.1 * 3 + s.2) (· == 0)
        ⟨true, false, false, false, false, fun _ => none⟩
        (init (countingOps5 ℕ 3 3).toOps empty) with
      | .ok _ => none
      | .error e => some e) = some .zeroAmplitude := by
  decide +kernel

end QLPeps.Contractor
