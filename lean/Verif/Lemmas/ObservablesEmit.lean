import Mathlib.Tactic
import Verif.Lemmas.Observables

/-! # What every solver emits, key by key -/

namespace QLPeps.Observables

open QLPeps.Statistics

variable {K : Type*}

theorem mem_putNonempty (m : ObsMap K) (k : String) (l : List K) (e : String × List K) :
    e ∈ putNonempty m k l ↔ (e ∈ m ∧ (e.1 ≠ k ∨ l = [])) ∨ (e = (k, l) ∧ l ≠ []) := by
  unfold putNonempty
  cases l with
  | nil => simp
  | cons a l => simp [mem_put]

theorem mem_erase {α : Type*} (m : List (String × α)) (k : String) (e : String × α) :
    e ∈ eraseKey m k ↔ e ∈ m ∧ e.1 ≠ k := by
  unfold eraseKey; simp

theorem matrix_ne_nil (r c : ℕ) (f : ℕ → ℕ → K) : matrix r c f ≠ [] ↔ 0 < r ∧ 0 < c := by
  rw [← List.length_pos_iff, matrix_length, CanonicallyOrderedAdd.mul_pos]


theorem matrix_eq_nil (r c : ℕ) (f : ℕ → ℕ → K) : matrix r c f = [] ↔ r = 0 ∨ c = 0 := by
  rw [← List.length_eq_zero_iff, matrix_length, Nat.mul_eq_zero]

theorem ite_matrix_ne_nil (p : Prop) [Decidable p] (r c : ℕ) (f : ℕ → ℕ → K) :
    (if p then matrix r c f else []) ≠ [] ↔ p ∧ 0 < r ∧ 0 < c := by
  by_cases h : p
  · rw [if_pos h, matrix_ne_nil]; simp [h]
  · rw [if_neg h]; simp [h]

/-- entries of the base solver; `H` are the entries the hook may add -/
theorem mem_evalBase (a b c d : Bool) (ly lx : ℕ) (hly : 0 < ly) (hlx : 0 < lx) (v : Vals K)
    (hook : ℕ → ObsMap K → ObsMap K)
    (H : String × List K → Prop) (hH : ∀ e, H e → e.1 = "SmSp_row" ∨ e.1 = "SpSm_row")
    (hh : ∀ o : ObsMap K, (∀ e ∈ o, e.1 = "spin_z" ∨ e.1 = "charge") → ∀ e,
      e ∈ (List.range ly).foldl (fun o row => hook row o) o ↔ e ∈ o ∨ H e) (e : String × List K) :
    e ∈ evalBase a b c d ly lx v hook ↔
      (a = true ∧ e = ("spin_z", matrix ly lx (fun y x => v.sz (v.cfg y x)))) ∨
      (b = true ∧ e = ("charge", matrix ly lx (fun y x => v.density (v.cfg y x)))) ∨ H e ∨
      e = ("energy", [v.energy]) ∨
      (1 < lx ∧ e = ("bond_energy_h", matrix ly (lx - 1) v.eh)) ∨
      (1 < ly ∧ e = ("bond_energy_v", matrix (ly - 1) lx v.ev)) ∨
      ((c = true ∧ 1 < lx ∧ 1 < ly) ∧ e = ("bond_energy_dr", matrix (ly - 1) (lx - 1) v.edr)) ∨
      ((c = true ∧ 1 < lx ∧ 1 < ly) ∧ e = ("bond_energy_ur", matrix (ly - 1) (lx - 1) v.eur)) ∨
      ((d = true ∧ 1 < lx) ∧ e = ("SC_bond_singlet_h", matrix ly (lx - 1) v.sch)) ∨
      ((d = true ∧ 1 < ly) ∧ e = ("SC_bond_singlet_v", matrix (ly - 1) lx v.scv)) := by
  have hput : ∀ (p : Prop) [Decidable p] (m : ObsMap K) (k : String) (r c : ℕ) (f : ℕ → ℕ → K)
      (_ : p → 0 < r ∧ 0 < c) (_ : ∀ e ∈ m, e.1 ≠ k) (e : String × List K),
      e ∈ putNonempty m k (if p then matrix r c f else []) ↔ e ∈ m ∨ (p ∧ e = (k, matrix r c f)) := by
    intro p _ m k r c f hp hk e
    rw [mem_putNonempty]
    by_cases h : p
    · rw [if_pos h]
      have := (matrix_ne_nil r c f).2 (hp h)
      constructor
      · rintro (⟨h1, _⟩ | ⟨h1, _⟩)
        · exact .inl h1
        · exact .inr ⟨h, h1⟩
      · rintro (h1 | ⟨_, h1⟩)
        · exact .inl ⟨h1, .inl (hk e h1)⟩
        · exact .inr ⟨h1, this⟩
    · rw [if_neg h]; simp [h]
  have hputk : ∀ (m : ObsMap K) (k : String) (l : List K) (_ : ∀ e ∈ m, e.1 ≠ k) (e : String × List K),
      e ∈ put m k l ↔ e ∈ m ∨ e = (k, l) := by
    intro m k l hk e
    rw [mem_put]
    constructor
    · rintro (⟨h1, _⟩ | h1)
      · exact .inl h1
      · exact .inr h1
    · rintro (h1 | h1)
      · exact .inl ⟨h1, hk e h1⟩
      · exact .inr h1
  set o0 : ObsMap K := if b = true then
      put (if a = true then put [] "spin_z" (matrix ly lx fun y x => v.sz (v.cfg y x)) else []) "charge"
        (matrix ly lx fun y x => v.density (v.cfg y x))
    else if a = true then put [] "spin_z" (matrix ly lx fun y x => v.sz (v.cfg y x)) else [] with ho0
  have m0 : ∀ e, e ∈ o0 ↔ (a = true ∧ e = ("spin_z", matrix ly lx (fun y x => v.sz (v.cfg y x)))) ∨
      (b = true ∧ e = ("charge", matrix ly lx (fun y x => v.density (v.cfg y x)))) := by
    intro e
    rw [ho0]
    cases a <;> cases b <;> simp [mem_put]
    constructor
    · rintro (⟨h, _⟩ | h)
      · exact .inl h
      · exact .inr h
    · rintro (h | h)
      · exact .inl ⟨h, by rw [h]; simp⟩
      · exact .inr h
  have m1 : ∀ e, e ∈ (List.range ly).foldl (fun o row => hook row o) o0 ↔ e ∈ o0 ∨ H e := by
    apply hh
    intro e he
    rcases (m0 e).1 he with ⟨_, rfl⟩ | ⟨_, rfl⟩ <;> simp
  set o1 := (List.range ly).foldl (fun o row => hook row o) o0 with ho1
  have k1 : ∀ e ∈ o1, e.1 = "spin_z" ∨ e.1 = "charge" ∨ e.1 = "SmSp_row" ∨ e.1 = "SpSm_row" := by
    intro e he
    rcases (m1 e).1 he with h | h
    · rcases (m0 e).1 h with ⟨_, rfl⟩ | ⟨_, rfl⟩ <;> simp
    · rcases hH e h with h | h <;> simp [h]
  have m2 := hputk o1 "energy" [v.energy] (by
    intro e he; rcases k1 e he with h | h | h | h <;> simp [h])
  have k2 : ∀ e ∈ put o1 "energy" [v.energy], e.1 = "energy" ∨ e.1 = "spin_z" ∨ e.1 = "charge" ∨
      e.1 = "SmSp_row" ∨ e.1 = "SpSm_row" := by
    intro e he
    rcases (m2 e).1 he with h | rfl
    · exact .inr (k1 e h)
    · simp
  have m3 := hput (lx > 1) (put o1 "energy" [v.energy]) "bond_energy_h" ly (lx - 1) v.eh (fun h => by omega) (by
    intro e he; rcases k2 e he with h | h | h | h | h <;> simp [h])
  set o3 := putNonempty (put o1 "energy" [v.energy]) "bond_energy_h" (if lx > 1 then matrix ly (lx - 1) v.eh else [])
  have k3 : ∀ e ∈ o3, e.1 = "bond_energy_h" ∨ e.1 = "energy" ∨ e.1 = "spin_z" ∨ e.1 = "charge" ∨
      e.1 = "SmSp_row" ∨ e.1 = "SpSm_row" := by
    intro e he
    rcases (m3 e).1 he with h | ⟨_, rfl⟩
    · exact .inr (k2 e h)
    · simp
  have m4 := hput (ly > 1) o3 "bond_energy_v" (ly - 1) lx v.ev (fun h => by omega) (by
    intro e he; rcases k3 e he with h | h | h | h | h | h <;> simp [h])
  set o4 := putNonempty o3 "bond_energy_v" (if ly > 1 then matrix (ly - 1) lx v.ev else [])
  have k4 : ∀ e ∈ o4, e.1 = "bond_energy_v" ∨ e.1 = "bond_energy_h" ∨ e.1 = "energy" ∨ e.1 = "spin_z" ∨
      e.1 = "charge" ∨ e.1 = "SmSp_row" ∨ e.1 = "SpSm_row" := by
    intro e he
    rcases (m4 e).1 he with h | ⟨_, rfl⟩
    · exact .inr (k3 e h)
    · simp
  have m5 := hput (c = true ∧ lx > 1 ∧ ly > 1) o4 "bond_energy_dr" (ly - 1) (lx - 1) v.edr (fun h => by omega) (by
    intro e he; rcases k4 e he with h | h | h | h | h | h | h <;> simp [h])
  set o5 := putNonempty o4 "bond_energy_dr"
    (if c = true ∧ lx > 1 ∧ ly > 1 then matrix (ly - 1) (lx - 1) v.edr else [])
  have k5 : ∀ e ∈ o5, e.1 = "bond_energy_dr" ∨ e.1 = "bond_energy_v" ∨ e.1 = "bond_energy_h" ∨ e.1 = "energy" ∨
      e.1 = "spin_z" ∨ e.1 = "charge" ∨ e.1 = "SmSp_row" ∨ e.1 = "SpSm_row" := by
    intro e he
    rcases (m5 e).1 he with h | ⟨_, rfl⟩
    · exact .inr (k4 e h)
    · simp
  have m6 := hput (c = true ∧ lx > 1 ∧ ly > 1) o5 "bond_energy_ur" (ly - 1) (lx - 1) v.eur (fun h => by omega) (by
    intro e he; rcases k5 e he with h | h | h | h | h | h | h | h <;> simp [h])
  set o6 := putNonempty o5 "bond_energy_ur"
    (if c = true ∧ lx > 1 ∧ ly > 1 then matrix (ly - 1) (lx - 1) v.eur else [])
  have m6' : ∀ e, e ∈ (if c = true then o6 else o4) ↔ e ∈ o4 ∨
      ((c = true ∧ 1 < lx ∧ 1 < ly) ∧ e = ("bond_energy_dr", matrix (ly - 1) (lx - 1) v.edr)) ∨
      ((c = true ∧ 1 < lx ∧ 1 < ly) ∧ e = ("bond_energy_ur", matrix (ly - 1) (lx - 1) v.eur)) := by
    intro e
    by_cases hc : c = true
    · rw [if_pos hc, m6, m5]; tauto
    · rw [if_neg hc]; tauto
  have k6 : ∀ e ∈ (if c = true then o6 else o4), e.1 ≠ "SC_bond_singlet_h" ∧ e.1 ≠ "SC_bond_singlet_v" := by
    intro e he
    rcases (m6' e).1 he with h | ⟨_, rfl⟩ | ⟨_, rfl⟩
    · rcases k4 e h with h | h | h | h | h | h | h <;> simp [h]
    · simp
    · simp
  set o7 := if c = true then o6 else o4
  have m8 := hput (d = true ∧ lx > 1) o7 "SC_bond_singlet_h" ly (lx - 1) v.sch (fun h => by omega)
    (fun e he => (k6 e he).1)
  set o8 := putNonempty o7 "SC_bond_singlet_h" (if d = true ∧ lx > 1 then matrix ly (lx - 1) v.sch else [])
  have m9 := hput (d = true ∧ ly > 1) o8 "SC_bond_singlet_v" (ly - 1) lx v.scv (fun h => by omega) (by
    intro e he
    rcases (m8 e).1 he with h | ⟨_, rfl⟩
    · exact (k6 e h).2
    · simp)
  have hfin : evalBase a b c d ly lx v hook = if d = true then
      putNonempty o8 "SC_bond_singlet_v" (if d = true ∧ ly > 1 then matrix (ly - 1) lx v.scv else []) else o7 := rfl
  rw [hfin]
  have m9' : e ∈ (if d = true then
      putNonempty o8 "SC_bond_singlet_v" (if d = true ∧ ly > 1 then matrix (ly - 1) lx v.scv else []) else o7) ↔
      e ∈ o7 ∨ ((d = true ∧ 1 < lx) ∧ e = ("SC_bond_singlet_h", matrix ly (lx - 1) v.sch)) ∨
      ((d = true ∧ 1 < ly) ∧ e = ("SC_bond_singlet_v", matrix (ly - 1) lx v.scv)) := by
    by_cases hd : d = true
    · rw [if_pos hd, m9, m8]; tauto
    · rw [if_neg hd]; tauto
  rw [m9', m6', m4, m3, m2, m1, m0]
  simp only [or_assoc, gt_iff_lt]


/-- the two vectors of the hook -/
def offVectors [Zero K] (ly lx : ℕ) (v : Vals K) : List K × List K :=
  let corr := (List.range (lx / 2)).map (fun i =>
      if v.cfg (ly / 2) (lx / 4 + (i + 1)) = v.cfg (ly / 2) (lx / 4) then 0 else v.off (i + 1))
  let zeros := List.replicate corr.length (0 : K)
  (if v.cfg (ly / 2) (lx / 4) = 0 then zeros else corr, if v.cfg (ly / 2) (lx / 4) = 0 then corr else zeros)

theorem offVectors_length [Zero K] (ly lx : ℕ) (v : Vals K) :
    (offVectors ly lx v).1.length = lx / 2 ∧ (offVectors ly lx v).2.length = lx / 2 := by
  unfold offVectors
  dsimp only
  constructor <;> split_ifs <;> simp

theorem hook_spec [Zero K] (ly lx : ℕ) (hly : 0 < ly) (hlx : 0 < lx) (v : Vals K) (o : ObsMap K)
    (ho : ∀ e ∈ o, e.1 = "spin_z" ∨ e.1 = "charge") (e : String × List K) :
    e ∈ (List.range ly).foldl (fun o row => offDiagHook ly lx v row o) o ↔ e ∈ o ∨
      (2 ≤ lx ∧ (e = ("SmSp_row", (offVectors ly lx v).1) ∨ e = ("SpSm_row", (offVectors ly lx v).2))) := by
  rw [fold_hook ly lx v hly]
  unfold offDiagHook
  rw [if_neg (by omega), if_neg (by simp)]
  dsimp only
  obtain ⟨l1, l2⟩ := offVectors_length ly lx v
  rw [show (if v.cfg (ly / 2) (lx / 4) = 0 then _ else _) = (offVectors ly lx v).1 from rfl,
    show (if v.cfg (ly / 2) (lx / 4) = 0 then _ else _) = (offVectors ly lx v).2 from rfl]
  rw [mem_putNonempty, mem_putNonempty]
  have ho' : e ∈ o → e.1 ≠ "SmSp_row" ∧ e.1 ≠ "SpSm_row" := by
    intro h
    rcases ho e h with h | h <;> simp [h]
  by_cases h2 : 2 ≤ lx
  · have n1 : (offVectors ly lx v).1 ≠ [] := by
      rw [← List.length_pos_iff, l1]; omega
    have n2 : (offVectors ly lx v).2 ≠ [] := by
      rw [← List.length_pos_iff, l2]; omega
    constructor
    · rintro (⟨⟨h, _⟩ | ⟨h, _⟩, _⟩ | ⟨h, _⟩)
      · exact .inl h
      · exact .inr ⟨h2, .inl h⟩
      · exact .inr ⟨h2, .inr h⟩
    · rintro (h | ⟨_, h | h⟩)
      · exact .inl ⟨.inl ⟨h, .inl (ho' h).1⟩, .inl (ho' h).2⟩
      · exact .inl ⟨.inr ⟨h, n1⟩, .inl (by rw [h]; simp)⟩
      · exact .inr ⟨h, n2⟩
  · have n1 : (offVectors ly lx v).1 = [] := by
      rw [← List.length_eq_zero_iff, l1]; omega
    have n2 : (offVectors ly lx v).2 = [] := by
      rw [← List.length_eq_zero_iff, l2]; omega
    constructor
    · rintro (⟨⟨h, _⟩ | ⟨h, h'⟩, _⟩ | ⟨h, h'⟩)
      · exact .inl h
      · exact absurd n1 h'
      · exact absurd n2 h'
    · rintro (h | ⟨h, _⟩)
      · exact .inl ⟨.inl ⟨h, .inr n1⟩, .inr n2⟩
      · exact absurd h h2

/-- Entries of the base solver; `off`: with the off-diagonal hook. -/
def BaseEntry [Field K] (a b c d off : Bool) (ly lx : ℕ) (v : Vals K) (e : String × List K) : Prop :=
  (a = true ∧ e = ("spin_z", matrix ly lx (fun y x => v.sz (v.cfg y x)))) ∨
  (b = true ∧ e = ("charge", matrix ly lx (fun y x => v.density (v.cfg y x)))) ∨
  ((off = true ∧ 2 ≤ lx) ∧ e = ("SmSp_row", (offVectors ly lx v).1)) ∨
  ((off = true ∧ 2 ≤ lx) ∧ e = ("SpSm_row", (offVectors ly lx v).2)) ∨
  e = ("energy", [v.energy]) ∨
  (1 < lx ∧ e = ("bond_energy_h", matrix ly (lx - 1) v.eh)) ∨
  (1 < ly ∧ e = ("bond_energy_v", matrix (ly - 1) lx v.ev)) ∨
  ((c = true ∧ 1 < lx ∧ 1 < ly) ∧ e = ("bond_energy_dr", matrix (ly - 1) (lx - 1) v.edr)) ∨
  ((c = true ∧ 1 < lx ∧ 1 < ly) ∧ e = ("bond_energy_ur", matrix (ly - 1) (lx - 1) v.eur)) ∨
  ((d = true ∧ 1 < lx) ∧ e = ("SC_bond_singlet_h", matrix ly (lx - 1) v.sch)) ∨
  ((d = true ∧ 1 < ly) ∧ e = ("SC_bond_singlet_v", matrix (ly - 1) lx v.scv))

/-- What a solver emits, key by key: every entry of the map. -/
def Emitted [Field K] (s : Solver) (ly lx h : ℕ) (v : Vals K) (e : String × List K) : Prop :=
  match s with
  | .xxz sf => (BaseEntry true false false false true ly lx v e ∨
      e = ("SzSz_all2all", szszAll (matrix ly lx (fun y x => spinHalf (v.cfg y x))))) ∨
      ((sf = true ∧ 2 ≤ ly) ∧ e = ("SpSm_cross", structureFactor ly lx h v))
  | .j1j2 => BaseEntry true false true false true ly lx v e
  | .triangle sf => (((BaseEntry true false true false true ly lx v e ∨
      ((sf = true ∧ 2 ≤ ly) ∧ e = ("SpSm_cross", structureFactor ly lx h v))) ∧ e.1 ≠ "bond_energy_dr") ∨
      (2 ≤ lx ∧ e = ("SzSz_row", szszRow ly lx v))) ∨
      e = ("SzSz_all2all", szszAll (matrix ly lx (fun y x => spinHalf (v.cfg y x))))
  | .spinless => BaseEntry false true true false false ly lx v e
  | .hubbard => BaseEntry true true false false false ly lx v e ∨
      e = ("double_occupancy", matrix ly lx (fun y x => v.doublon (v.cfg y x)))
  | .tJ nnn sc _ _ => BaseEntry true true nnn sc false ly lx v e
  | .heisenbergPBC => e = ("energy", [v.energy]) ∨
      e = ("spin_z", matrix ly lx (fun y x => (v.cfg y x : K) - 1 / 2)) ∨
      e = ("bond_energy_h", matrix ly lx v.eh) ∨ e = ("bond_energy_v", matrix ly lx v.ev)
  | .j1j2PBC nnn => e = ("energy", [v.energy]) ∨
      e = ("spin_z", matrix ly lx (fun y x => (v.cfg y x : K) - 1 / 2)) ∨
      e = ("bond_energy_h", matrix ly lx v.eh) ∨ e = ("bond_energy_v", matrix ly lx v.ev) ∨
      (nnn = true ∧ e = ("bond_energy_dr", matrix ly lx v.edr)) ∨
      (nnn = true ∧ e = ("bond_energy_ur", matrix ly lx v.eur))
  | .tfim => (e = ("energy", [v.energy]) ∨
      e = ("spin_z", matrix ly lx (fun y x => (v.cfg y x : K) - 1 / 2)) ∨ e = ("sigma_x", matrix ly lx v.sx)) ∨
      (2 ≤ lx ∧ e = ("SzSz_row", szszRow ly lx v))

theorem spinZ_eq [Field K] (ly lx : ℕ) (v : Vals K) :
    matrix ly lx (fun y x => spinHalf (K := K) (v.cfg y x)) = matrix ly lx (fun y x => (v.cfg y x : K) - 1 / 2) := rfl

theorem sf_ne_nil [Field K] (ly lx h : ℕ) (hlx : 0 < lx) (v : Vals K) :
    structureFactor ly lx h v ≠ [] ↔ 2 ≤ ly := by
  rw [← List.length_pos_iff, sf_length]
  constructor
  · intro hp
    by_contra hc
    have : ly = 0 ∨ ly = 1 := by omega
    rcases this with rfl | rfl <;> simp [sfLen] at hp
  · intro h2
    exact Nat.pos_of_ne_zero (sfLen_pos ly lx h2 hlx)

theorem szszRow_ne_nil [Field K] (ly lx : ℕ) (v : Vals K) : szszRow ly lx v ≠ [] ↔ 2 ≤ lx := by
  rw [← List.length_pos_iff]
  unfold szszRow
  simp

theorem mem_put_new (m : ObsMap K) (k : String) (l : List K) (hk : ∀ e ∈ m, e.1 ≠ k) (e : String × List K) :
    e ∈ put m k l ↔ e ∈ m ∨ e = (k, l) := by
  rw [mem_put]
  constructor
  · rintro (⟨h1, _⟩ | h1)
    · exact .inl h1
    · exact .inr h1
  · rintro (h1 | h1)
    · exact .inl ⟨h1, hk e h1⟩
    · exact .inr h1

theorem mem_putNonempty_new (m : ObsMap K) (k : String) (l : List K) (hk : ∀ e ∈ m, e.1 ≠ k) (e : String × List K) :
    e ∈ putNonempty m k l ↔ e ∈ m ∨ (l ≠ [] ∧ e = (k, l)) := by
  rw [mem_putNonempty]
  constructor
  · rintro (⟨h1, _⟩ | ⟨h1, h2⟩)
    · exact .inl h1
    · exact .inr ⟨h2, h1⟩
  · rintro (h1 | ⟨h1, h2⟩)
    · exact .inl ⟨h1, .inl (hk e h1)⟩
    · exact .inr ⟨h2, h1⟩

/-- the base solver with the off-diagonal hook -/
theorem mem_base_hook [Field K] (c : Bool) (ly lx : ℕ) (hly : 0 < ly) (hlx : 0 < lx) (v : Vals K) (e : String × List K) :
    e ∈ evalBase true false c false ly lx v (offDiagHook ly lx v) ↔ BaseEntry true false c false true ly lx v e := by
  rw [mem_evalBase true false c false ly lx hly hlx v (offDiagHook ly lx v)
    (fun e => 2 ≤ lx ∧ (e = ("SmSp_row", (offVectors ly lx v).1) ∨ e = ("SpSm_row", (offVectors ly lx v).2)))
    (by rintro e ⟨_, rfl | rfl⟩ <;> simp)
    (fun o ho e => hook_spec ly lx hly hlx v o ho e)]
  simp only [BaseEntry, true_and, Bool.false_eq_true, false_and, false_or, or_false, and_or_left, or_assoc]

/-- the base solver without hook -/
theorem mem_base_plain [Field K] (a b c d : Bool) (ly lx : ℕ) (hly : 0 < ly) (hlx : 0 < lx) (v : Vals K)
    (e : String × List K) :
    e ∈ evalBase a b c d ly lx v (fun _ o => o) ↔ BaseEntry a b c d false ly lx v e := by
  rw [mem_evalBase a b c d ly lx hly hlx v (fun _ o => o) (fun _ => False) (by simp)
    (fun o _ e => by rw [fold_id]; simp)]
  simp only [BaseEntry, false_or, Bool.false_eq_true, false_and]

theorem key_base (a b c d off : Bool) [Field K] (ly lx : ℕ) (v : Vals K) (e : String × List K)
    (he : BaseEntry a b c d off ly lx v e) :
    e.1 ∈ ["spin_z", "charge", "SmSp_row", "SpSm_row", "energy", "bond_energy_h", "bond_energy_v", "bond_energy_dr",
      "bond_energy_ur", "SC_bond_singlet_h", "SC_bond_singlet_v"] := by
  rcases he with ⟨_, rfl⟩ | ⟨_, rfl⟩ | ⟨_, rfl⟩ | ⟨_, rfl⟩ | rfl | ⟨_, rfl⟩ | ⟨_, rfl⟩ | ⟨_, rfl⟩ | ⟨_, rfl⟩ | ⟨_, rfl⟩ |
    ⟨_, rfl⟩ <;> simp

end QLPeps.Observables
