import Verif.Lemmas.FermionEstimator
import Verif.Lemmas.EnergyMore

/-! # Helper lemmas: what the fermionic solver loops compute -/

namespace QLPeps.Fermion

open Finset Spec Fock
open Energy (Bond Kind allSites)

variable {K : Type*}

section loops
variable {ι α : Type*}

theorem collect_ok {step : ι → Except Err (List α)} {f : ι → List α} (L : List ι)
    (h : ∀ i ∈ L, step i = .ok (f i)) : collect step L = .ok (L.flatMap f) := by
  induction L with
  | nil => rfl
  | cons i L ih =>
    simp only [collect, h i (by simp), ih (fun j hj => h j (by simp [hj])), List.flatMap_cons]

theorem collect_all {step : ι → Except Err (List α)} {L : List ι} {out : List α}
    (h : collect step L = .ok out) : ∀ i ∈ L, ∃ l, step i = .ok l := by
  induction L generalizing out with
  | nil => intro i hi; cases hi
  | cons j L ih =>
    unfold collect at h
    cases hj : step j with
    | error e => rw [hj] at h; cases h
    | ok l =>
      rw [hj] at h
      cases hL : collect step L with
      | error e => rw [hL] at h; cases h
      | ok ls =>
        intro i hi
        rcases List.mem_cons.1 hi with rfl | hi
        · exact ⟨l, hj⟩
        · exact ih hL i hi

end loops

variable [Field K] [DecidableEq K]

/-- the value of a bond as the row loops see it -/
def rowVals (m : Model K) (C : Contr K) (cfg : Config) (v : Bond → K) (rows cols row : ℕ) : List K :=
  (List.range (cols - 1)).map (fun col => v ⟨(row, col), (row, col + 1), .h⟩) ++
    if m.nnn = true ∧ row < rows - 1 then
      (List.range (cols - 1)).map (fun col =>
        (plaquette m C cfg row col).1 + (plaquette m C cfg row col).2)
    else []

theorem energyRow_ok {m : Model K} {C : Contr K} {cfg : Config} {v : Bond → K} {rows cols row : ℕ}
    (hc : m.nnn = true → 2 ≤ cols)
    (hb : ∀ col < cols - 1, m.bond rows cols C cfg ⟨(row, col), (row, col + 1), .h⟩ =
      .ok (v ⟨(row, col), (row, col + 1), .h⟩)) :
    energyRow m C cfg rows cols row = .ok (rowVals m C cfg v rows cols row) := by
  unfold energyRow rowVals
  rw [collect_ok (f := fun col => if col < cols - 1 then [v ⟨(row, col), (row, col + 1), .h⟩] else [])]
  · rw [range_flatMap_lt]
    dsimp only
    by_cases h : m.nnn = true ∧ row < rows - 1
    · have := hc h.1
      rw [if_pos h, if_pos h, if_neg (by omega)]
    · rw [if_neg h, if_neg h, List.append_nil]
  · intro col _
    by_cases h : col < cols - 1
    · rw [if_pos h, if_pos h, hb col h]; rfl
    · rw [if_neg h, if_neg h]

theorem verticalCol_ok {m : Model K} {C : Contr K} {cfg : Config} {v : Bond → K} {rows cols col : ℕ}
    (hr : 2 ≤ rows) (h0 : C.trace ⟨(0, col), (1, col), .v⟩ ≠ 0)
    (hb : ∀ row < rows - 1, m.bond rows cols C cfg ⟨(row, col), (row + 1, col), .v⟩ =
      .ok (v ⟨(row, col), (row + 1, col), .v⟩)) :
    verticalCol m C cfg rows cols col = .ok ((colBonds rows col).map v) := by
  unfold verticalCol
  rw [if_neg (by omega), if_neg h0,
    collect_ok (f := fun row => [v ⟨(row, col), (row + 1, col), .v⟩])]
  · unfold colBonds
    rw [List.map_map]
    congr 1
    rw [← List.map_eq_flatMap]
    rfl
  · intro row hrow
    rw [hb row (List.mem_range.1 hrow)]; rfl

/-- the local energy is the sum over the bonds plus the on-site energy -/
theorem calEnergy_ok {m : Model K} {C : Contr K} {cfg : Config} {v : Bond → K} {rows cols : ℕ} {o : K}
    (hr : 2 ≤ rows) (hc : m.nnn = true → 2 ≤ cols)
    (h0 : ∀ col < cols, C.trace ⟨(0, col), (1, col), .v⟩ ≠ 0)
    (hb : ∀ b ∈ obcBonds rows cols false, m.bond rows cols C cfg b = .ok (v b))
    (hd : m.nnn = true → ∀ row col, row + 1 < rows → col + 1 < cols →
      (plaquette m C cfg row col).1 + (plaquette m C cfg row col).2 =
        v ⟨(row, col), (row + 1, col + 1), .dr⟩ + v ⟨(row + 1, col), (row, col + 1), .ur⟩)
    (ho : m.onsite rows cols cfg = .ok o) :
    calEnergy m C cfg rows cols = .ok (((obcBonds rows cols m.nnn).map v).sum + o) := by
  unfold calEnergy
  rw [collect_ok (f := rowVals m C cfg v rows cols) _ (fun row hrow => energyRow_ok hc (fun col hcol =>
      hb _ (mem_obcBonds.2 (Or.inl ⟨row, col, List.mem_range.1 hrow, by omega, rfl⟩)))),
    collect_ok (f := fun col => (colBonds rows col).map v) _ (fun col hcol => verticalCol_ok hr
      (h0 col (List.mem_range.1 hcol)) (fun row hrow =>
      hb _ (mem_obcBonds.2 (Or.inr (Or.inl ⟨row, col, by omega, List.mem_range.1 hcol, rfl⟩))))), ho]
  dsimp only
  congr 2
  unfold obcBonds
  rw [List.sum_append, List.map_append, List.sum_append, List.map_flatMap, List.map_flatMap]
  congr 1
  rw [sum_flatMap', sum_flatMap']
  congr 1
  refine List.map_congr_left fun row hrow => ?_
  unfold rowVals rowBonds
  rw [List.sum_append, List.map_append, List.sum_append, List.map_map]
  congr 1
  by_cases h : m.nnn = true ∧ row < rows - 1
  · rw [if_pos h, if_pos h, List.map_flatMap]
    simp only [List.map_cons, List.map_nil]
    rw [sum_flatMap_pair]
    congr 1
    refine List.map_congr_left fun col hcol => ?_
    have := List.mem_range.1 hcol
    exact hd h.1 row col (by omega) (by omega)
  · rw [if_neg h, if_neg h]; rfl

/-! ### Measurement -/

theorem sum_foldl (l : List K) (e : K) : l.foldl (fun e v => e + v) e = e + l.sum := by
  induction l generalizing e with
  | nil => simp
  | cons p l ih => simp [ih, add_assoc]

theorem collect_range_ext {α : Type*} {step step' : ℕ → Except Err (List α)} {n : ℕ}
    (h : ∀ i < n, step i = step' i) :
    collect step (List.range n) = collect step' (List.range n) := by
  have : ∀ L : List ℕ, (∀ i ∈ L, step i = step' i) → collect step L = collect step' L := by
    intro L hL
    induction L with
    | nil => rfl
    | cons i L ih =>
      simp only [collect, hL i (by simp), ih (fun j hj => hL j (by simp [hj]))]
  exact this _ (fun i hi => h i (List.mem_range.1 hi))

/-- the values of a row in the measurement and in the energy solver have the same sum -/
theorem measRow_energyRow {m : Model K} {C : Contr K} {cfg : Config} {rows cols row : ℕ} {l : List K}
    (h : measRow m C cfg rows cols row = .ok l) :
    ∃ l', energyRow m C cfg rows cols row = .ok l' ∧ l'.sum = l.sum := by
  unfold measRow at h
  by_cases hc : cols < 2
  · rw [if_pos hc] at h; cases h
  rw [if_neg hc] at h
  by_cases h0 : C.trace ⟨(row, 0), (row, 1), .h⟩ = 0
  · rw [if_pos h0] at h; cases h
  rw [if_neg h0] at h
  cases hnn : collect (fun col =>
        one (m.bond rows cols C cfg ⟨(row, col), (row, col + 1), .h⟩)) (List.range (cols - 1)) with
  | error e => rw [hnn] at h; cases h
  | ok nn =>
    rw [hnn] at h
    dsimp only at h
    have hall := collect_all hnn
    have hv : ∀ col, ∃ v, col < cols - 1 →
        m.bond rows cols C cfg ⟨(row, col), (row, col + 1), .h⟩ = .ok v := by
      intro col
      by_cases hcol : col < cols - 1
      · obtain ⟨l, hl⟩ := hall col (List.mem_range.2 hcol)
        cases hb : m.bond rows cols C cfg ⟨(row, col), (row, col + 1), .h⟩ with
        | error e => rw [hb] at hl; cases hl
        | ok v => exact ⟨v, fun _ => rfl⟩
      · exact ⟨0, fun h => absurd h hcol⟩
    choose v hv using hv
    have e1 := energyRow_ok (m := m) (C := C) (cfg := cfg) (rows := rows) (cols := cols) (row := row)
      (v := fun b => v b.a.2) (fun _ => by omega) (fun col hcol => hv col hcol)
    refine ⟨_, e1, ?_⟩
    have e2 : nn = (List.range (cols - 1)).map v := by
      rw [collect_ok (f := fun col => [v col])] at hnn
      · injection hnn with hnn
        rw [← hnn, ← List.map_eq_flatMap]
      · intro col hcol
        rw [hv col (List.mem_range.1 hcol)]; rfl
    unfold rowVals
    by_cases hn : m.nnn = true ∧ row < rows - 1
    · rw [if_pos hn] at h ⊢
      injection h with h
      rw [← h, e2, List.sum_append, List.sum_append, sum_flatMap_pair]
    · rw [if_neg hn] at h ⊢
      injection h with h
      rw [← h, e2, List.append_nil]

theorem collect_sum {step step' : ℕ → Except Err (List K)} {L : List ℕ} {out : List K}
    (hs : ∀ i l, step i = .ok l → ∃ l', step' i = .ok l' ∧ l'.sum = l.sum)
    (h : collect step L = .ok out) : ∃ out', collect step' L = .ok out' ∧ out'.sum = out.sum := by
  induction L generalizing out with
  | nil => exact ⟨[], rfl, by cases h; rfl⟩
  | cons j L ih =>
    unfold collect at h
    cases hj : step j with
    | error e => rw [hj] at h; cases h
    | ok l =>
      rw [hj] at h
      cases hL : collect step L with
      | error e => rw [hL] at h; cases h
      | ok ls =>
        rw [hL] at h
        injection h with h
        obtain ⟨l', h1, h2⟩ := hs j l hj
        obtain ⟨ls', h3, h4⟩ := ih hL
        refine ⟨l' ++ ls', ?_, by rw [← h, List.sum_append, List.sum_append, h2, h4]⟩
        unfold collect
        rw [h1, h3]

theorem measEnergy_calEnergy {m : Model K} {C : Contr K} {cfg : Config} {rows cols : ℕ} {e : K}
    (h : measEnergy m C cfg rows cols = .ok e) : calEnergy m C cfg rows cols = .ok e := by
  unfold measEnergy at h
  cases h1 : collect (measRow m C cfg rows cols) (List.range rows) with
  | error e => rw [h1] at h; cases h
  | ok hs =>
    rw [h1] at h
    cases h2 : collect (verticalCol m C cfg rows cols) (List.range cols) with
    | error e => rw [h2] at h; cases h
    | ok vs =>
      rw [h2] at h
      cases h3 : m.onsite rows cols cfg with
      | error e => rw [h3] at h; cases h
      | ok o =>
        rw [h3] at h
        injection h with h
        obtain ⟨hs', h4, h5⟩ := collect_sum (fun i l hl => measRow_energyRow hl) h1
        unfold calEnergy
        rw [h4, h2, h3]
        dsimp only
        rw [← h, sum_foldl, List.sum_append, List.sum_append, h5, zero_add]

end QLPeps.Fermion
