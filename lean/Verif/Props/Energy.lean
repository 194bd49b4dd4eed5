import Verif.Lemmas.EnergyIsing
import Mathlib.Algebra.Star.Rat
import Mathlib.Tactic

/-!
# Properties of the local-energy solvers (C46, C47, C48, C49, C53)

`Energy.calEnergy`, `Energy.triEnergy`, `Energy.pbcEnergy`, `Energy.tfimOBC`, `Energy.tfimPBC`
model the local energies the optimizer uses; `Energy.traverseAll` is the log of the bonds measured
by `EvaluateObservables` and `Energy.measEnergy`, `Energy.triMeasEnergy` the energies it reports.
The Hamiltonians are in `Verif/Spec/Energy.lean`.
-/

namespace QLPeps

open Finset Spec Energy

variable {K : Type*}

/-! ## C46: open lattices, every bond once -/

section C46
variable [Field K] [DecidableEq K]

/-- The bond log of a traversal: every nearest-neighbour pair of the lattice is reported exactly
once, every diagonal pair exactly once if the model has next-nearest-neighbour terms and never
otherwise; nothing else is reported; each value is the model's bond energy for an amplitude of the
sample that is not zero. -/
theorem C46_each_bond_once (m : PairModel K) (C : Contr K) (cfg : Config) (rows cols : ℕ)
    (log : List (Bond × K)) (h : traverseAll m C cfg rows cols = .ok log) :
    (∀ a b, Adjacent rows cols a b → log.countP (fun p => Joins a b p.1) = 1) ∧
    (∀ a b, Diagonal rows cols a b →
      log.countP (fun p => Joins a b p.1) = if m.nnn then 1 else 0) ∧
    (∀ p ∈ log, Adjacent rows cols p.1.a p.1.b ∨ Diagonal rows cols p.1.a p.1.b) ∧
    (∀ p ∈ log, ∃ ψ, ψ ≠ 0 ∧ (ψ = C.trRow (min p.1.a.1 p.1.b.1) ∨ ψ = C.trCol p.1.a.2) ∧
      p.2 = m.bond cfg p.1 (1 / ψ) (C.ex p.1.a p.1.b)) := by
  have hlog := traverse_eq_ok h
  have nd := obcBonds_nodup rows cols m.nnn
  have hcount : ∀ a b, log.countP (fun p => Joins a b p.1) =
      (obcBonds rows cols m.nnn).countP (fun x => Joins a b x) := by
    intro a b
    rw [hlog, List.countP_map]
    rfl
  have huniq : ∀ a b, ∀ x ∈ obcBonds rows cols m.nnn, Joins a b x →
      ∀ y ∈ obcBonds rows cols m.nnn, Joins a b y → y = x := by
    rintro ⟨a1, a2⟩ ⟨b1, b2⟩ x hx jx y hy jy
    rw [mem_obcBonds] at hx hy
    unfold Joins at jx jy
    rcases hx with ⟨r, c, _, _, rfl⟩ | ⟨r, c, _, _, rfl⟩ | ⟨_, r, c, _, _, rfl | rfl⟩ <;>
    rcases hy with ⟨r', c', _, _, rfl⟩ | ⟨r', c', _, _, rfl⟩ | ⟨_, r', c', _, _, rfl | rfl⟩ <;>
    simp only [Prod.mk.injEq, Bond.mk.injEq] at jx jy ⊢ <;> simp <;> omega
  have hone : ∀ a b x, x ∈ obcBonds rows cols m.nnn → Joins a b x →
      (obcBonds rows cols m.nnn).countP (fun x => Joins a b x) = 1 := by
    intro a b x hx jx
    refine countP_eq_one nd hx (by simpa using jx) ?_
    intro y hy jy
    exact huniq a b x hx jx y hy (by simpa using jy)
  refine ⟨?_, ?_, ?_, ?_⟩
  · rintro ⟨a1, a2⟩ ⟨b1, b2⟩ ⟨⟨ha1, ha2⟩, ⟨hb1, hb2⟩, hab⟩
    rw [hcount]
    simp only at ha1 ha2 hb1 hb2 hab
    rcases hab with ⟨rfl, rfl | rfl⟩ | ⟨rfl, rfl | rfl⟩
    · exact hone _ _ ⟨(a1, b2), (a1, b2 + 1), .h⟩
        (mem_obcBonds.2 (Or.inl ⟨a1, b2, ha1, ha2, rfl⟩)) (Or.inr ⟨rfl, rfl⟩)
    · exact hone _ _ ⟨(a1, a2), (a1, a2 + 1), .h⟩
        (mem_obcBonds.2 (Or.inl ⟨a1, a2, ha1, hb2, rfl⟩)) (Or.inl ⟨rfl, rfl⟩)
    · exact hone _ _ ⟨(b1, a2), (b1 + 1, a2), .v⟩
        (mem_obcBonds.2 (Or.inr (Or.inl ⟨b1, a2, ha1, ha2, rfl⟩))) (Or.inr ⟨rfl, rfl⟩)
    · exact hone _ _ ⟨(a1, a2), (a1 + 1, a2), .v⟩
        (mem_obcBonds.2 (Or.inr (Or.inl ⟨a1, a2, hb1, ha2, rfl⟩))) (Or.inl ⟨rfl, rfl⟩)
  · rintro ⟨a1, a2⟩ ⟨b1, b2⟩ ⟨⟨ha1, ha2⟩, ⟨hb1, hb2⟩, hr, hc⟩
    rw [hcount]
    simp only at ha1 ha2 hb1 hb2 hr hc
    cases hn : m.nnn with
    | false =>
      rw [if_neg (by simp), List.countP_eq_zero]
      intro x hx jx
      rw [mem_obcBonds] at hx
      replace jx := of_decide_eq_true jx
      unfold Joins at jx
      rcases hx with ⟨r, c, _, _, rfl⟩ | ⟨r, c, _, _, rfl⟩ | ⟨h', _⟩
      · simp only [Prod.mk.injEq] at jx; omega
      · simp only [Prod.mk.injEq] at jx; omega
      · cases h'
    | true =>
      rw [if_pos rfl, ← hn]
      rcases hr with rfl | rfl <;> rcases hc with rfl | rfl
      · exact hone _ _ ⟨(b1, b2), (b1 + 1, b2 + 1), .dr⟩
          (mem_obcBonds.2 (Or.inr (Or.inr ⟨hn, b1, b2, ha1, ha2, Or.inl rfl⟩))) (Or.inr ⟨rfl, rfl⟩)
      · exact hone _ _ ⟨(b1 + 1, a2), (b1, a2 + 1), .ur⟩
          (mem_obcBonds.2 (Or.inr (Or.inr ⟨hn, b1, a2, ha1, hb2, Or.inr rfl⟩))) (Or.inl ⟨rfl, rfl⟩)
      · exact hone _ _ ⟨(a1 + 1, b2), (a1, b2 + 1), .ur⟩
          (mem_obcBonds.2 (Or.inr (Or.inr ⟨hn, a1, b2, hb1, ha2, Or.inr rfl⟩))) (Or.inr ⟨rfl, rfl⟩)
      · exact hone _ _ ⟨(a1, a2), (a1 + 1, a2 + 1), .dr⟩
          (mem_obcBonds.2 (Or.inr (Or.inr ⟨hn, a1, a2, hb1, hb2, Or.inl rfl⟩))) (Or.inl ⟨rfl, rfl⟩)
  · intro p hp
    rw [hlog, List.mem_map] at hp
    obtain ⟨b, hb, rfl⟩ := hp
    rw [mem_obcBonds] at hb
    unfold Adjacent Diagonal InLattice logged
    rcases hb with ⟨r, c, _, _, rfl⟩ | ⟨r, c, _, _, rfl⟩ | ⟨_, r, c, _, _, rfl | rfl⟩ <;>
      dsimp only <;> omega
  · intro p hp
    rw [hlog, List.mem_map] at hp
    obtain ⟨b, hb, rfl⟩ := hp
    have hz := traverse_nonzero h
    rw [mem_obcBonds] at hb
    rcases hb with ⟨r, c, hr, hc, rfl⟩ | ⟨r, c, hr, hc, rfl⟩ | ⟨_, r, c, hr, hc, rfl | rfl⟩
    · exact ⟨C.trRow r, hz.1 r (by omega), Or.inl (by simp [logged]), rfl⟩
    · exact ⟨C.trCol c, hz.2 c (by omega), Or.inr rfl, rfl⟩
    · exact ⟨C.trRow r, hz.1 r (by omega), Or.inl (by simp [logged]), rfl⟩
    · exact ⟨C.trRow r, hz.1 r (by omega), Or.inl (by simp [logged]), rfl⟩

/-- On lattices of at least two rows and two columns the traversal returns if no trace vanishes,
and the local energy is the sum of the logged bond energies and the onsite energy. -/
theorem C46_energy_is_sum (m : PairModel K) (C : Contr K) (cfg : Config) (rows cols : ℕ)
    (hr : 2 ≤ rows) (hc : 2 ≤ cols) (hR : ∀ r < rows, C.trRow r ≠ 0)
    (hC : ∀ c < cols, C.trCol c ≠ 0) :
    ∃ log, traverseAll m C cfg rows cols = .ok log ∧
      calEnergy m C cfg rows cols = .ok ((log.map Prod.snd).sum + m.onsite cfg) := by
  refine ⟨_, traverse_ok hr hc hR hC, ?_⟩
  rw [calEnergy_ok hr hc hR hC, List.map_map]
  rfl

/-- A sample with a vanishing trace is refused, never silently used. -/
theorem C46_zero_amplitude_refused (m : PairModel K) (C : Contr K) (cfg : Config) (rows cols : ℕ)
    (e : K) (h : calEnergy m C cfg rows cols = .ok e) :
    (∀ r < rows, C.trRow r ≠ 0) ∧ (∀ c < cols, C.trCol c ≠ 0) := by
  rw [calEnergy_eq_measEnergy] at h
  unfold measEnergy at h
  obtain ⟨log, hl, _⟩ := Out.bind_eq_ok h
  exact traverse_nonzero hl

/-- Disagreement: on a lattice with a single column, or a single row, the energy evaluation of an
otherwise fine sample runs into undefined behaviour instead of returning the energy of the chain. -/
theorem C46_chain_undefined (m : PairModel K) (C : Contr K) (cfg : Config) (rows cols : ℕ)
    (hr : 1 ≤ rows) (hc : 1 ≤ cols) (hR : ∀ r < rows, C.trRow r ≠ 0)
    (h1 : rows = 1 ∨ cols = 1) : calEnergy m C cfg rows cols = .ub := by
  rw [calEnergy_eq_measEnergy]
  unfold measEnergy traverseAll
  by_cases hcols : cols < 2
  · obtain ⟨n, rfl⟩ : ∃ n, rows = n + 1 := ⟨rows - 1, by omega⟩
    rw [List.range_succ_eq_map]
    simp only [Out.collect]
    unfold traverseRow
    rw [if_pos hcols]
    rfl
  · obtain rfl : rows = 1 := by omega
    rw [Out.collect_ok (f := fun r => (rowBonds 1 cols m.nnn r).map (logged m C cfg)) _
      (fun r h => traverseRow_ok (by omega) (hR r (List.mem_range.1 h)))]
    obtain ⟨n, rfl⟩ : ∃ n, cols = n + 1 := ⟨cols - 1, by omega⟩
    have hv : Out.collect (verticalCol m C cfg 1) (List.range (n + 1)) = .ub := by
      rw [List.range_succ_eq_map]
      simp only [Out.collect]
      unfold verticalCol
      rw [if_pos (by omega)]
      rfl
    rw [hv]
    rfl

end C46

/-- a sample with all amplitudes 1 -/
def onesContr : Contr ℚ := ⟨fun _ => 1, fun _ => 1, fun _ _ => 1, fun _ => 1⟩
/-- Néel configuration -/
def neel : Config := fun s => (s.1 + s.2) % 2

example : ∃ log, traverseAll (xxz true (1 : ℚ) 1 (1 / 2) (1 / 2) 0) onesContr neel 3 3 = .ok log ∧
    log.length = 20 ∧ calEnergy (xxz true (1 : ℚ) 1 (1 / 2) (1 / 2) 0) onesContr neel 3 3 = .ok 4 :=
  ⟨_, rfl, by decide +kernel, by decide +kernel⟩
example : Adjacent 3 3 (1, 1) (0, 1) ∧ Diagonal 3 3 (1, 1) (2, 0) := by
  unfold Adjacent Diagonal InLattice; omega
example : calEnergy (xxz false (1 : ℚ) 1 0 0 0) onesContr neel 1 4 = .ub ∧
    calEnergy (xxz false (1 : ℚ) 1 0 0 0) onesContr neel 4 1 = .ub :=
  ⟨by decide +kernel, by decide +kernel⟩

/-! ## C47: the torus -/

/-- On a torus with at least three rows and columns every nearest-neighbour pair is enumerated
exactly once, every diagonal pair exactly once (if enabled) and nothing else; the energy is the sum
over this enumeration and the pinning term. -/
theorem C47_torus_each_bond_once (rows cols : ℕ) (hr : 3 ≤ rows) (hc : 3 ≤ cols) (nnn : Bool) :
    (∀ a b, TorusAdjacent rows cols a b →
      (pbcBonds rows cols nnn).countP (fun x => Joins a b x) = 1) ∧
    (∀ a b, TorusDiagonal rows cols a b →
      (pbcBonds rows cols nnn).countP (fun x => Joins a b x) = if nnn then 1 else 0) ∧
    (∀ x ∈ pbcBonds rows cols nnn,
      TorusAdjacent rows cols x.a x.b ∨ TorusDiagonal rows cols x.a x.b) := by
  have nd := pbcBonds_nodup rows cols nnn
  have hone : ∀ a b x, x ∈ pbcBonds rows cols nnn → Joins a b x →
      (pbcBonds rows cols nnn).countP (fun x => Joins a b x) = 1 := by
    intro a b x hx jx
    refine countP_eq_one nd hx (by simpa using jx) ?_
    intro y hy jy
    exact pbc_unique hr hc hx hy (joins_same jx (of_decide_eq_true jy))
  refine ⟨?_, ?_, ?_⟩
  · rintro ⟨a1, a2⟩ ⟨b1, b2⟩ ⟨⟨ha1, ha2⟩, ⟨hb1, hb2⟩, hab⟩
    unfold CycAdj at hab
    simp only at ha1 ha2 hb1 hb2 hab
    rcases hab with ⟨rfl, h | h⟩ | ⟨rfl, h | h⟩
    · exact hone _ _ ⟨(a1, a2), pbcRight cols (a1, a2), .h⟩
        (mem_pbcBonds.2 ⟨mem_sites.2 ⟨ha1, ha2⟩, Or.inl rfl⟩)
        (Or.inl ⟨rfl, by simp [pbcRight, h]⟩)
    · exact hone _ _ ⟨(a1, b2), pbcRight cols (a1, b2), .h⟩
        (mem_pbcBonds.2 ⟨mem_sites.2 ⟨ha1, hb2⟩, Or.inl rfl⟩)
        (Or.inr ⟨rfl, by simp [pbcRight, h]⟩)
    · exact hone _ _ ⟨(a1, a2), pbcDown rows (a1, a2), .v⟩
        (mem_pbcBonds.2 ⟨mem_sites.2 ⟨ha1, ha2⟩, Or.inr (Or.inl rfl)⟩)
        (Or.inl ⟨rfl, by simp [pbcDown, h]⟩)
    · exact hone _ _ ⟨(b1, a2), pbcDown rows (b1, a2), .v⟩
        (mem_pbcBonds.2 ⟨mem_sites.2 ⟨hb1, ha2⟩, Or.inr (Or.inl rfl)⟩)
        (Or.inr ⟨rfl, by simp [pbcDown, h]⟩)
  · rintro ⟨a1, a2⟩ ⟨b1, b2⟩ ⟨⟨ha1, ha2⟩, ⟨hb1, hb2⟩, hr1, hc1⟩
    unfold CycAdj at hr1 hc1
    simp only at ha1 ha2 hb1 hb2 hr1 hc1
    cases nnn with
    | false =>
      rw [if_neg (by simp), List.countP_eq_zero]
      intro x hx jx
      replace jx := of_decide_eq_true jx
      rw [mem_pbcBonds] at hx
      obtain ⟨hs, h⟩ := hx
      rw [mem_sites] at hs
      obtain ⟨⟨x1, x2⟩, y, k⟩ := x
      simp only at hs
      have m1 := succ_mod_cases (n := rows) (x := x1) hs.1
      have m2 := succ_mod_cases (n := cols) (x := x2) hs.2
      have m3 := succ_mod_cases (n := rows) (x := a1) ha1
      have m4 := succ_mod_cases (n := cols) (x := a2) ha2
      have m5 := succ_mod_cases (n := rows) (x := b1) hb1
      have m6 := succ_mod_cases (n := cols) (x := b2) hb2
      unfold Joins at jx
      rcases h with h | h | ⟨h, _⟩
      · injection h with _ h _
        dsimp only at h
        subst h
        simp only [pbcRight, Prod.mk.injEq] at jx
        omega
      · injection h with _ h _
        dsimp only at h
        subst h
        simp only [pbcDown, Prod.mk.injEq] at jx
        omega
      · cases h
    | true =>
      rw [if_pos rfl]
      rcases hr1 with hr1 | hr1 <;> rcases hc1 with hc1 | hc1
      · exact hone _ _ ⟨(a1, a2), pbcDR rows cols (a1, a2), .dr⟩
          (mem_pbcBonds.2 ⟨mem_sites.2 ⟨ha1, ha2⟩, Or.inr (Or.inr ⟨rfl, Or.inl rfl⟩)⟩)
          (Or.inl ⟨rfl, by simp [pbcDR, hr1, hc1]⟩)
      · exact hone _ _ ⟨(a1, a2), pbcDL rows cols (a1, a2), .ur⟩
          (mem_pbcBonds.2 ⟨mem_sites.2 ⟨ha1, ha2⟩, Or.inr (Or.inr ⟨rfl, Or.inr rfl⟩)⟩)
          (Or.inl ⟨rfl, by simp [pbcDL, hr1, ← (pred_mod_iff ha2).2 ⟨hb2, hc1.symm⟩]⟩)
      · exact hone _ _ ⟨(b1, b2), pbcDL rows cols (b1, b2), .ur⟩
          (mem_pbcBonds.2 ⟨mem_sites.2 ⟨hb1, hb2⟩, Or.inr (Or.inr ⟨rfl, Or.inr rfl⟩)⟩)
          (Or.inr ⟨rfl, by simp [pbcDL, hr1, ← (pred_mod_iff hb2).2 ⟨ha2, hc1.symm⟩]⟩)
      · exact hone _ _ ⟨(b1, b2), pbcDR rows cols (b1, b2), .dr⟩
          (mem_pbcBonds.2 ⟨mem_sites.2 ⟨hb1, hb2⟩, Or.inr (Or.inr ⟨rfl, Or.inl rfl⟩)⟩)
          (Or.inr ⟨rfl, by simp [pbcDR, hr1, hc1]⟩)
  · intro x hx
    obtain ⟨hs, h⟩ := mem_pbcBonds.1 hx
    have hs' := mem_sites.1 hs
    have p1 : (x.a.1 + 1) % rows < rows := Nat.mod_lt _ (by omega)
    have p2 : (x.a.2 + 1) % cols < cols := Nat.mod_lt _ (by omega)
    have p3 : (x.a.2 + cols - 1) % cols < cols := Nat.mod_lt _ (by omega)
    have p4 := (pred_mod_iff (n := cols) (y := (x.a.2 + cols - 1) % cols) hs'.2).1 rfl
    rcases h with h | h | ⟨_, h | h⟩ <;> rw [h]
    · exact Or.inl ⟨hs', ⟨hs'.1, p2⟩, Or.inl ⟨rfl, Or.inl rfl⟩⟩
    · exact Or.inl ⟨hs', ⟨p1, hs'.2⟩, Or.inr ⟨rfl, Or.inl rfl⟩⟩
    · exact Or.inr ⟨hs', ⟨p1, p2⟩, Or.inl rfl, Or.inl rfl⟩
    · exact Or.inr ⟨hs', ⟨p1, p3⟩, Or.inl rfl, Or.inr p4.2.symm⟩

/-- the periodic energy is the sum over that enumeration plus the pinning term -/
theorem C47_torus_energy_is_sum [Field K] [StarRing K] [DecidableEq K] (jz jxy jz2 jxy2 pin : K)
    (C : Contr K) (cfg : Config) (rows cols : ℕ) :
    pbcEnergy jz jxy jz2 jxy2 pin C cfg rows cols =
      ((pbcBonds rows cols (jz2 ≠ 0 || jxy2 ≠ 0)).map
        (pbcBondValue jz jxy jz2 jxy2 C cfg (1 / C.trRow 0))).sum +
      -pin * spinZ (cfg (0, 0)) := torus_pinned jz jxy jz2 jxy2 pin C cfg

/-- Disagreement with "exactly once" for short sides: with two columns the two bonds of every
horizontal neighbour pair are both evaluated. -/
theorem C47_width_two_counted_twice (rows : ℕ) (nnn : Bool) (r : ℕ) (h : r < rows) :
    2 ≤ (pbcBonds rows 2 nnn).countP (fun x => Joins (r, 0) (r, 1) x) := by
  rw [List.countP_eq_length_filter]
  have hsub : [(⟨(r, 0), (r, 1), .h⟩ : Bond), ⟨(r, 1), (r, 0), .h⟩].Subperm
      ((pbcBonds rows 2 nnn).filter (fun x => Joins (r, 0) (r, 1) x)) := by
    refine List.Nodup.subperm (by simp) ?_
    intro x hx
    simp only [List.mem_cons, List.not_mem_nil, or_false] at hx
    rw [List.mem_filter]
    rcases hx with rfl | rfl
    · exact ⟨mem_pbcBonds.2 ⟨mem_sites.2 ⟨h, by simp⟩, Or.inl (by simp [pbcRight])⟩,
        by simp [Joins]⟩
    · exact ⟨mem_pbcBonds.2 ⟨mem_sites.2 ⟨h, by simp⟩, Or.inl (by simp [pbcRight])⟩,
        by simp [Joins]⟩
  simpa using hsub.length_le

example : TorusAdjacent 3 4 (0, 0) (0, 3) ∧ TorusDiagonal 3 4 (0, 0) (2, 3) := by
  unfold TorusAdjacent TorusDiagonal InLattice CycAdj; omega
example : (pbcBonds 3 4 true).length = 48 := by decide +kernel

/-! ## C48: the exchange models -/

section C48
variable [Field K] [StarRing K] [CharZero K] {rows cols : ℕ}

/-- Open XXZ solvers (`nnn = false`: nearest neighbours only; `nnn = true`: J1-J2).  For every wave
function (zeros allowed: samples of amplitude zero are never drawn) the local energy is returned on
every sample of nonzero amplitude and its `|ψ|²`-weighted sum is `⟨ψ|H|ψ⟩`. -/
theorem C48_xxz_estimator [DecidableEq K] (nnn : Bool) (jz jxy jz2 jxy2 pin : K)
    (hr : 2 ≤ rows) (hc : 2 ≤ cols) (ψ : Config → K) :
    ∃ E : SpinCfg rows cols → K,
      (∀ s, ψ (toConfig s) ≠ 0 →
        calEnergy (xxz nnn jz jxy jz2 jxy2 pin) (exact ψ (toConfig s)) (toConfig s) rows cols =
          .ok (E s)) ∧
      ∑ s, weight (fun s => ψ (toConfig s)) s * E s =
        braket (xxzH jz jxy (if nnn then jz2 else 0) (if nnn then jxy2 else 0) pin)
          (fun s : SpinCfg rows cols => ψ (toConfig s)) := by
  refine ⟨_, fun s hs => xxz_energy nnn jz jxy jz2 jxy2 pin ψ hr hc s hs, ?_⟩
  have h0 : (0, 0) ∈ sites rows cols := mem_sites.2 ⟨by omega, by omega⟩
  have b1 := coupling_estimator (rows := rows) (cols := cols) RightOf
    (by rintro ⟨a, b⟩ _ _ rfl; simp) jz jxy ψ
  have b2 := coupling_estimator (rows := rows) (cols := cols) Below
    (by rintro ⟨a, b⟩ _ _ rfl; simp) jz jxy ψ
  have b3 := coupling_estimator (rows := rows) (cols := cols) DownRight
    (by rintro ⟨a, b⟩ _ _ rfl; simp) (if nnn then jz2 else 0) (if nnn then jxy2 else 0) ψ
  have b4 := coupling_estimator (rows := rows) (cols := cols) UpRight
    (by rintro a b _ h rfl; exact absurd h.1 (by omega)) (if nnn then jz2 else 0)
    (if nnn then jxy2 else 0) ψ
  have b5 := pinning_estimator pin ψ h0
  have hsplit : braket (xxzH jz jxy (if nnn then jz2 else 0) (if nnn then jxy2 else 0) pin)
      (fun s : SpinCfg rows cols => ψ (toConfig s)) = _ + _ + _ + _ + _ :=
    (braket_add _ _ _).trans (congrArg (· + _) ((braket_add _ _ _).trans
      (congrArg (· + _) ((braket_add _ _ _).trans (congrArg (· + _) (braket_add _ _ _))))))
  rw [hsplit, ← b1, ← b2, ← b3, ← b4, ← b5, ← Finset.sum_add_distrib, ← Finset.sum_add_distrib,
    ← Finset.sum_add_distrib, ← Finset.sum_add_distrib]
  refine Finset.sum_congr rfl (fun s _ => ?_)
  rw [← mul_add, ← mul_add, ← mul_add, ← mul_add]
  congr 1
  have z : ∀ (R : Site → Site → Prop) [∀ a b, Decidable (R a b)],
      relE (rows := rows) (cols := cols) R (0 : K) 0 ψ s = 0 := by
    intro R _
    rw [relE_smul, zero_mul]
  cases nnn with
  | false =>
    have z1 := z DownRight
    have z2 := z UpRight
    unfold relE at z1 z2
    simp only [Bool.false_eq_true, if_false]
    rw [z1, z2]
    rfl
  | true => rfl

/-- The nearest-neighbour Heisenberg solver on the triangular lattice (square lattice with one
diagonal). -/
theorem C48_triangle_estimator [DecidableEq K] (hr : 2 ≤ rows) (hc : 2 ≤ cols) (ψ : Config → K) :
    ∃ E : SpinCfg rows cols → K,
      (∀ s, ψ (toConfig s) ≠ 0 →
        calEnergy (triangle : PairModel K) (exact ψ (toConfig s)) (toConfig s) rows cols =
          .ok (E s)) ∧
      ∑ s, weight (fun s => ψ (toConfig s)) s * E s =
        braket triangularH (fun s : SpinCfg rows cols => ψ (toConfig s)) := by
  refine ⟨_, fun s hs => triangle_energy ψ hr hc s hs, ?_⟩
  have b1 := coupling_estimator (rows := rows) (cols := cols) RightOf
    (by rintro ⟨a, b⟩ _ _ rfl; simp) 1 1 ψ
  have b2 := coupling_estimator (rows := rows) (cols := cols) Below
    (by rintro ⟨a, b⟩ _ _ rfl; simp) 1 1 ψ
  have b4 := coupling_estimator (rows := rows) (cols := cols) UpRight
    (by rintro a b _ h rfl; exact absurd h.1 (by omega)) 1 1 ψ
  have hsplit : braket triangularH (fun s : SpinCfg rows cols => ψ (toConfig s)) = _ + _ + _ :=
    (braket_add _ _ _).trans (congrArg (· + _) (braket_add _ _ _))
  rw [hsplit, ← b1, ← b2, ← b4, ← Finset.sum_add_distrib, ← Finset.sum_add_distrib]
  refine Finset.sum_congr rfl (fun s _ => ?_)
  rw [← mul_add, ← mul_add]
  rfl

/-- The J1-J2 Heisenberg solver on the triangular lattice, from three rows on. -/
theorem C48_triangle_j1j2_estimator (hr : 3 ≤ rows) (hc : 2 ≤ cols) (j2 : K) (ψ : Config → K) :
    ∃ E : SpinCfg rows cols → K,
      (∀ s, triEnergy j2 (exact ψ (toConfig s)) (toConfig s) rows cols = .ok (E s)) ∧
      ∑ s, weight (fun s => ψ (toConfig s)) s * E s =
        braket (triangularJ1J2H j2) (fun s : SpinCfg rows cols => ψ (toConfig s)) := by
  refine ⟨_, fun s => tri_energy j2 ψ hr hc s, ?_⟩
  have b1 := coupling_estimator (rows := rows) (cols := cols) RightOf
    (by rintro ⟨a, b⟩ _ _ rfl; simp) 1 1 ψ
  have b2 := coupling_estimator (rows := rows) (cols := cols) Below
    (by rintro ⟨a, b⟩ _ _ rfl; simp) 1 1 ψ
  have b3 := coupling_estimator (rows := rows) (cols := cols) UpRight
    (by rintro a b _ h rfl; exact absurd h.1 (by omega)) 1 1 ψ
  have b4 := coupling_estimator (rows := rows) (cols := cols) DownRight
    (by rintro ⟨a, b⟩ _ _ rfl; simp) j2 j2 ψ
  have b5 := coupling_estimator (rows := rows) (cols := cols) UpRight2
    (by rintro a b _ h rfl; exact absurd h.1 (by omega)) j2 j2 ψ
  have b6 := coupling_estimator (rows := rows) (cols := cols) Up2Right
    (by rintro a b _ h rfl; exact absurd h.1 (by omega)) j2 j2 ψ
  have hsplit : braket (triangularJ1J2H j2) (fun s : SpinCfg rows cols => ψ (toConfig s)) =
      (_ + _ + _) + (_ + _ + _) :=
    (braket_add triangularH _ _).trans (congrArg₂ (· + ·)
      ((braket_add _ _ _).trans (congrArg (· + _) (braket_add _ _ _)))
      ((braket_add _ _ _).trans (congrArg (· + _) (braket_add _ _ _))))
  rw [hsplit, ← b1, ← b2, ← b3, ← b4, ← b5, ← b6, ← Finset.sum_add_distrib,
    ← Finset.sum_add_distrib, ← Finset.sum_add_distrib, ← Finset.sum_add_distrib,
    ← Finset.sum_add_distrib]
  refine Finset.sum_congr rfl (fun s _ => ?_)
  rw [← mul_add, ← mul_add, ← mul_add, ← mul_add, ← mul_add]
  congr 1
  have e4 := relE_smul DownRight j2 ψ s
  have e5 := relE_smul UpRight2 j2 ψ s
  have e6 := relE_smul Up2Right j2 ψ s
  rw [mul_add, mul_add, ← e4, ← e5, ← e6]
  rfl

/-- Disagreement: with two rows the J1-J2 triangular energy runs into undefined behaviour. -/
theorem C48_triangle_j1j2_two_rows_undefined (j2 : K) (C : Contr K) (cfg : Config) (hc : 2 ≤ cols) :
    triEnergy j2 C cfg 2 cols = .ub := by
  have hrow : ∀ s, ∀ i ∈ List.range 2, ∃ s', triRow C cfg 2 cols s i = .ok s' :=
    fun s i _ => ⟨_, triRow_ok C cfg 2 cols hc s i⟩
  obtain ⟨a, ha⟩ := loop_total (List.range 2) hrow (0, 0)
  unfold triEnergy
  rw [ha]
  simp only [Out.bind]
  obtain ⟨n, rfl⟩ : ∃ n, cols = n + 1 := ⟨cols - 1, by omega⟩
  rw [List.range_succ_eq_map, loop_cons]
  unfold triCol
  rw [if_neg (by omega)]
  dsimp only
  rw [if_pos (by omega), if_pos (by omega)]
  rfl

/-- The periodic XXZ / J1-J2 solvers (the Heisenberg solver is `jz = jxy = 1`, `jz2 = jxy2 = 0`). -/
theorem C48_torus_estimator [DecidableEq K] (jz jxy jz2 jxy2 pin : K)
    (hr : 2 ≤ rows) (hc : 2 ≤ cols) (ψ : Config → K) :
    ∑ s : SpinCfg rows cols, weight (fun s => ψ (toConfig s)) s *
        pbcEnergy jz jxy jz2 jxy2 pin (exact ψ (toConfig s)) (toConfig s) rows cols =
      braket (torusXXZH jz jxy jz2 jxy2 pin)
        (fun s : SpinCfg rows cols => ψ (toConfig s)) := by
  have h0 : (0, 0) ∈ sites rows cols := mem_sites.2 ⟨by omega, by omega⟩
  have neq : ∀ {n x : ℕ}, 2 ≤ n → x < n → x ≠ (x + 1) % n := by
    intro n x hn hx
    have := succ_mod_cases hx
    omega
  have b1 := coupling_estimator (rows := rows) (cols := cols) (TorusRight rows cols)
    (by rintro ⟨a, b⟩ _ h rfl; exact fun h' => neq hc (mem_sites.1 h).2 (congrArg Prod.snd h'))
    jz jxy ψ
  have b2 := coupling_estimator (rows := rows) (cols := cols) (TorusBelow rows cols)
    (by rintro ⟨a, b⟩ _ h rfl; exact fun h' => neq hr (mem_sites.1 h).1 (congrArg Prod.fst h'))
    jz jxy ψ
  have b3 := coupling_estimator (rows := rows) (cols := cols) (TorusDownRight rows cols)
    (by rintro ⟨a, b⟩ _ h rfl; exact fun h' => neq hr (mem_sites.1 h).1 (congrArg Prod.fst h'))
    jz2 jxy2 ψ
  have b4 := coupling_estimator (rows := rows) (cols := cols) (TorusDownLeft rows cols)
    (by rintro a _ h h1 rfl; exact neq hr (mem_sites.1 h).1 h1.1)
    jz2 jxy2 ψ
  have b5 := pinning_estimator pin ψ h0
  have hsplit : braket (torusXXZH jz jxy jz2 jxy2 pin)
      (fun s : SpinCfg rows cols => ψ (toConfig s)) = _ + _ + _ + _ + _ :=
    (braket_add _ _ _).trans (congrArg (· + _) ((braket_add _ _ _).trans
      (congrArg (· + _) ((braket_add _ _ _).trans (congrArg (· + _) (braket_add _ _ _))))))
  rw [hsplit, ← b1, ← b2, ← b3, ← b4, ← b5, ← Finset.sum_add_distrib, ← Finset.sum_add_distrib,
    ← Finset.sum_add_distrib, ← Finset.sum_add_distrib]
  refine Finset.sum_congr rfl (fun s _ => ?_)
  rw [← mul_add, ← mul_add, ← mul_add, ← mul_add, torus_energy]
  rfl

end C48

/-- the hypotheses are met by a wave function with zeros, and the energy is not trivial: on the 2×2
lattice the state supported on the two Néel configurations -/
def neelPair : Config → ℚ := fun c =>
  if c (0, 0) = c (1, 1) ∧ c (0, 1) = c (1, 0) ∧ c (0, 0) ≠ c (0, 1) then (if c (0, 0) = 0 then 1
    else -2) else 0

example : calEnergy (xxz true (2 : ℚ) 3 5 7 11) (exact neelPair neel) neel 2 2 = .ok (6 : ℚ) := by
  decide +kernel

/-! ## C49: transverse-field Ising model -/

section C49
variable [Field K] [StarRing K] {rows cols : ℕ}

/-- Open lattice, at least two columns, any number of rows. -/
theorem C49_tfim_estimator (h : K) (hc : 2 ≤ cols) (ψ : Config → K) :
    ∃ E : SpinCfg rows cols → K,
      (∀ s, tfimOBC h (exact ψ (toConfig s)) (toConfig s) rows cols = .ok (E s)) ∧
      ∑ s, weight (fun s => ψ (toConfig s)) s * E s =
        braket (tfimH h) (fun s : SpinCfg rows cols => ψ (toConfig s)) := by
  refine ⟨_, fun s => tfim_energy h ψ hc s, ?_⟩
  have b1 := ising_estimator (rows := rows) (cols := cols) RightOf ψ
  have b2 := ising_estimator (rows := rows) (cols := cols) Below ψ
  have b3 := transverse_estimator (rows := rows) (cols := cols) h ψ
  have hsplit : braket (tfimH h) (fun s : SpinCfg rows cols => ψ (toConfig s)) = _ + _ + _ :=
    (braket_add _ _ _).trans (congrArg (· + _) (braket_add _ _ _))
  rw [hsplit, ← b1, ← b2, ← b3, ← Finset.sum_add_distrib, ← Finset.sum_add_distrib]
  refine Finset.sum_congr rfl (fun s _ => ?_)
  rw [← mul_add, ← mul_add]
  congr 1
  exact add_comm _ _

/-- Torus, every size. -/
theorem C49_torus_tfim_estimator (h : K) (ψ : Config → K) :
    ∑ s : SpinCfg rows cols, weight (fun s => ψ (toConfig s)) s *
        tfimPBC h (exact ψ (toConfig s)) (toConfig s) rows cols =
      braket (torusTfimH h) (fun s : SpinCfg rows cols => ψ (toConfig s)) := by
  have b1 := ising_estimator (rows := rows) (cols := cols) (TorusRight rows cols) ψ
  have b2 := ising_estimator (rows := rows) (cols := cols) (TorusBelow rows cols) ψ
  have b3 := transverse_estimator (rows := rows) (cols := cols) h ψ
  have hsplit : braket (torusTfimH h) (fun s : SpinCfg rows cols => ψ (toConfig s)) = _ + _ + _ :=
    (braket_add _ _ _).trans (congrArg (· + _) (braket_add _ _ _))
  rw [hsplit, ← b1, ← b2, ← b3, ← Finset.sum_add_distrib, ← Finset.sum_add_distrib]
  refine Finset.sum_congr rfl (fun s _ => ?_)
  rw [← mul_add, ← mul_add, tfim_torus_energy]
  rfl

end C49

example : tfimOBC (3 : ℚ) (exact (fun c => if c (0, 0) = 1 then 2 else 1) neel) neel 2 2 =
    .ok (-11 : ℚ) := by decide +kernel
example : tfimPBC (3 : ℚ) (exact (fun c => if c (0, 0) = 1 then 2 else 1) neel) neel 3 3 =
    (-24 : ℚ) := by decide +kernel

/-! ## C53: measured energy -/

section C53
variable [Field K] [DecidableEq K]

/-- For every model built on the square-lattice solvers, the energy reported by
`EvaluateObservables` is the local energy used by the optimizer, and the call fails exactly when
the energy evaluation fails, in the same way. -/
theorem C53_measured_energy_is_local_energy (m : PairModel K) (C : Contr K) (cfg : Config)
    (rows cols : ℕ) : measEnergy m C cfg rows cols = calEnergy m C cfg rows cols :=
  (calEnergy_eq_measEnergy m C cfg rows cols).symm

/-- The reported bond-energy matrices: the entry at the upper left corner of a bond is the energy
of that bond, and all entries together with the onsite energy add up to the reported energy. -/
theorem C53_bond_matrices (m : PairModel K) (C : Contr K) (cfg : Config) (rows cols : ℕ)
    (log : List (Bond × K)) (h : traverseAll m C cfg rows cols = .ok log) :
    (∀ p ∈ log, bondMatrix log p.1.kind (min p.1.a.1 p.1.b.1, min p.1.a.2 p.1.b.2) = p.2) ∧
    measEnergy m C cfg rows cols = .ok
      (∑ s ∈ sites rows cols, (bondMatrix log .h s + bondMatrix log .v s +
        bondMatrix log .dr s + bondMatrix log .ur s) + m.onsite cfg) := by
  have hlog := traverse_eq_ok h
  have hnd : (log.map (fun p => cell p.1)).Nodup := by rw [hlog]; exact cells_nodup m C cfg rows cols
  have hmem : ∀ p ∈ log, p.1 ∈ obcBonds rows cols m.nnn := by
    intro p hp
    rw [hlog, List.mem_map] at hp
    obtain ⟨b, hb, rfl⟩ := hp
    exact hb
  constructor
  · intro p hp
    exact bondMatrix_mem log hnd hp (cell_obc (hmem p hp))
  · unfold measEnergy
    rw [h]
    simp only [Out.bind]
    rw [foldl_add_snd, zero_add]
    congr 2
    have hsum := bondMatrix_sum log hnd
      (({Kind.h, Kind.v, Kind.dr, Kind.ur} : Finset Kind) ×ˢ sites rows cols) (by
        intro p hp
        have hb := hmem p hp
        rw [cell_obc hb, Finset.mem_product, mem_sites]
        rw [mem_obcBonds] at hb
        refine ⟨by cases p.1.kind <;> simp, ?_⟩
        rcases hb with ⟨r, c, _, _, hb⟩ | ⟨r, c, _, _, hb⟩ | ⟨_, r, c, _, _, hb | hb⟩ <;>
          rw [hb] <;> simp <;> omega)
    rw [← hsum, Finset.sum_product]
    simp only [Finset.sum_add_distrib]
    rw [Finset.sum_insert (by decide), Finset.sum_insert (by decide), Finset.sum_insert (by decide),
      Finset.sum_singleton]
    ring

/-- Disagreement: the measurement of the triangular J1-J2 solver returns on no lattice at all; it
either reads an environment that has been popped (`std::out_of_range`) or wraps around. -/
theorem C53_triangle_j1j2_never_measures [StarRing K] (j2 : K) (C : Contr K) (cfg : Config)
    (rows cols : ℕ) (hr : 1 ≤ rows) (hc : 1 ≤ cols) (e : K) :
    triMeasEnergy j2 C cfg rows cols ≠ .ok e := by
  rcases triMeas_fails j2 C cfg rows cols hr hc with h | h <;> rw [h] <;> intro h' <;> cases h'

end C53

example : measEnergy (xxz true (1 : ℚ) 1 (1 / 2) (1 / 2) 0) onesContr neel 3 3 = .ok 4 := by
  decide +kernel
example : triEnergy (1 / 2 : ℚ) onesContr neel 4 4 ≠ .outOfRange ∧
    triMeasEnergy (1 / 2 : ℚ) onesContr neel 4 4 = .outOfRange := by
  constructor <;> decide +kernel

end QLPeps
