import Verif.Spec.Configuration
import Verif.Lemmas.NextPerm
import Mathlib.Data.List.FinRange
import Mathlib.Data.List.Infix
import Mathlib.Tactic

/-! # Lemmas about configurations -/

namespace QLPeps.Configuration

open QLPeps.Spec

/-- row-major list of the sites -/
def cellList (rows cols : ℕ) : List Site :=
  (List.range (rows * cols)).map (fun i => (i / cols, i % cols))

theorem cellList_eq_flatMap (rows cols : ℕ) :
    cellList rows cols = (List.range rows).flatMap (fun r => (List.range cols).map (fun k => (r, k))) := by
  induction rows with
  | zero => simp [cellList]
  | succ n ih =>
    rw [List.range_succ, List.flatMap_append, ← ih]
    simp only [cellList, Nat.succ_mul, List.range_add, List.map_append, List.map_map,
      List.flatMap_cons, List.flatMap_nil, List.append_nil]
    congr 1
    apply List.map_congr_left
    intro k hk
    have hk := List.mem_range.1 hk
    have hc : 0 < cols := by omega
    simp only [Function.comp]
    rw [Nat.mul_comm n cols, Nat.mul_add_div hc, Nat.mul_add_mod, Nat.mod_eq_of_lt hk,
      Nat.div_eq_of_lt hk, Nat.add_zero]

theorem forCells_eq {S : Type*} (rows cols : ℕ) (f : ℕ → ℕ → S → S) (s : S) :
    forCells rows cols f s = (cellList rows cols).foldl (fun s p => f p.1 p.2 s) s := by
  rw [cellList_eq_flatMap, List.foldl_flatMap]
  unfold forCells
  simp only [List.foldl_map]

theorem length_cellList (rows cols : ℕ) : (cellList rows cols).length = rows * cols := by
  simp [cellList]

theorem mem_cellList (rows cols : ℕ) (p : Site) :
    p ∈ cellList rows cols ↔ InLattice rows cols p := by
  rw [cellList_eq_flatMap]
  simp only [List.mem_flatMap, List.mem_range, List.mem_map, InLattice]
  constructor
  · rintro ⟨r, hr, k, hk, rfl⟩; exact ⟨hr, hk⟩
  · rintro ⟨h1, h2⟩; exact ⟨p.1, h1, p.2, h2, rfl⟩

theorem divmod_inj {cols i j : ℕ} (h : (i / cols, i % cols) = (j / cols, j % cols)) : i = j := by
  rw [Prod.mk.injEq] at h
  rw [← Nat.div_add_mod i cols, ← Nat.div_add_mod j cols, h.1, h.2]

theorem nodup_cellList (rows cols : ℕ) : (cellList rows cols).Nodup :=
  List.nodup_range.map fun _ _ h => divmod_inj h

theorem idx_lt {rows cols : ℕ} {p : Site} (h : InLattice rows cols p) :
    p.1 * cols + p.2 < rows * cols := by
  have h1 : (p.1 + 1) * cols ≤ rows * cols := Nat.mul_le_mul_right _ h.1
  have h2 := h.2
  rw [Nat.succ_mul] at h1
  omega

theorem idx_divmod {rows cols : ℕ} {p : Site} (h : InLattice rows cols p) :
    ((p.1 * cols + p.2) / cols, (p.1 * cols + p.2) % cols) = p := by
  have h2 := h.2
  have hc : 0 < cols := by omega
  rw [Nat.mul_comm, Nat.mul_add_div hc, Nat.mul_add_mod, Nat.mod_eq_of_lt h2,
      Nat.div_eq_of_lt h2, Nat.add_zero]

theorem divmod_in {rows cols i : ℕ} (h : i < rows * cols) :
    InLattice rows cols (i / cols, i % cols) := by
  have hc : 0 < cols := by
    rcases Nat.eq_zero_or_pos cols with h0 | h0
    · simp [h0] at h
    · exact h0
  exact ⟨Nat.div_lt_of_lt_mul (by rwa [Nat.mul_comm]), Nat.mod_lt _ hc⟩

theorem sites_eq (rows cols : ℕ) : sites rows cols = (cellList rows cols).toFinset := by
  ext p
  simp [sites, mem_cellList, InLattice]

theorem occ_eq (c : Conf) (s : ℕ) :
    occ c s = (cellList c.rows c.cols).countP (fun p => c.cell p = some s) := by
  unfold occ
  rw [sites_eq, List.countP_eq_length_filter,
    ← List.toFinset_card_of_nodup ((nodup_cellList _ _).filter _), List.toFinset_filter]
  congr 1
  ext p
  simp

/-- one write of the fold -/
def writeStep (f : Site → ℕ) (o : Option Conf) (p : Site) : Option Conf :=
  match o with
  | some c => write p (f p) c
  | none => none

/-- the object after writing `f q` at every `q ∈ l` -/
def setCells (c : Conf) (l : List Site) (f : Site → ℕ) : Conf :=
  { c with cell := fun q => if q ∈ l then some (f q) else c.cell q }

theorem setCells_nil (c : Conf) (f : Site → ℕ) : setCells c [] f = c := by
  simp [setCells]

theorem setCells_cons (c : Conf) (p : Site) (l : List Site) (f : Site → ℕ) :
    setCells c (p :: l) f = setCells (setCells c [p] f) l f := by
  unfold setCells
  congr 1
  funext q
  by_cases h1 : q ∈ l
  · simp [h1]
  · by_cases h2 : q = p <;> simp [h1, h2]

theorem write_eq (c : Conf) (p : Site) (f : Site → ℕ) (hp : InLattice c.rows c.cols p) :
    write p (f p) c = some (setCells c [p] f) := by
  have hp : p.1 < c.rows ∧ p.2 < c.cols := hp
  rw [write, if_pos hp, setCells]
  congr 2
  funext q
  by_cases h : q = p <;> simp [h]

theorem foldl_write (f : Site → ℕ) (l : List Site) (c : Conf)
    (hl : ∀ p ∈ l, InLattice c.rows c.cols p) :
    l.foldl (writeStep f) (some c) = some (setCells c l f) := by
  induction l generalizing c with
  | nil => simp [setCells_nil]
  | cons p l ih =>
    rw [List.foldl_cons, writeStep, write_eq c p f (hl p (by simp)),
      ih (setCells c [p] f) (fun q hq => hl q (by simp [hq])), ← setCells_cons]

/-! ## iteration -/

theorem iterFrom_eq (rows cols fuel i : ℕ) (hi : i ≤ rows * cols) (hr : 0 < rows) (hc : 0 < cols)
    (hf : rows * cols - i ≤ fuel) :
    iterFrom rows cols fuel (if i < rows * cols then (i / cols, i % cols) else (rows, cols))
      = some ((cellList rows cols).drop i) := by
  induction fuel generalizing i with
  | zero =>
    have : ¬ i < rows * cols := by omega
    rw [if_neg this, iterFrom, if_pos rfl, List.drop_eq_nil_of_le]
    rw [length_cellList]; omega
  | succ n ih =>
    by_cases h : i < rows * cols
    · rw [if_pos h]
      have hin := divmod_in h
      have hne : (i / cols, i % cols) ≠ (rows, cols) := by
        intro he
        rw [Prod.mk.injEq] at he
        have := hin.2
        simp only at this
        omega
      rw [iterFrom, if_neg hne]
      have hinc : incrementPosition rows cols (i / cols, i % cols)
          = if i + 1 < rows * cols then ((i + 1) / cols, (i + 1) % cols) else (rows, cols) := by
        have hdm := Nat.div_add_mod i cols
        have h1 : i / cols < rows := hin.1
        have h2 : i % cols < cols := hin.2
        generalize hq : i / cols = q at *
        generalize hm : i % cols = m at *
        unfold incrementPosition
        simp only
        by_cases hm1 : m < cols - 1
        · have hdv : (i + 1) / cols = q ∧ (i + 1) % cols = m + 1 := by
            rw [← hdm, Nat.add_assoc, Nat.mul_add_div hc, Nat.mul_add_mod,
              Nat.mod_eq_of_lt (by omega : m + 1 < cols), Nat.div_eq_of_lt (by omega : m + 1 < cols)]
            simp
          have hlt : i + 1 < rows * cols := by
            have : (q + 1) * cols ≤ rows * cols := Nat.mul_le_mul_right _ h1
            rw [Nat.succ_mul, Nat.mul_comm] at this
            omega
          rw [if_pos hm1, if_pos hlt, hdv.1, hdv.2]
        · have hi1 : i + 1 = cols * (q + 1) := by rw [Nat.mul_succ]; omega
          rw [if_neg hm1]
          by_cases hq1 : q < rows - 1
          · have hlt : i + 1 < rows * cols := by
              have : cols * (q + 1 + 1) ≤ cols * rows := Nat.mul_le_mul_left _ (by omega)
              rw [hi1, Nat.mul_comm rows]
              rw [Nat.mul_succ] at this
              omega
            rw [if_pos hq1, if_pos hlt, hi1, Nat.mul_div_cancel_left _ hc, Nat.mul_mod_right]
          · have hlt : ¬ i + 1 < rows * cols := by
              have : q + 1 = rows := by omega
              rw [hi1, this, Nat.mul_comm]; omega
            rw [if_neg hq1, if_neg hlt]
      rw [hinc, ih (i + 1) (by omega) (by omega)]
      have hlen : i < (cellList rows cols).length := by rw [length_cellList]; exact h
      rw [List.drop_eq_getElem_cons hlen]
      simp [cellList]
    · rw [if_neg h, iterFrom, if_pos rfl, List.drop_eq_nil_of_le]
      rw [length_cellList]; omega

theorem iterAll_eq (rows cols fuel : ℕ) (hr : 0 < rows) (hc : 0 < cols)
    (hf : rows * cols ≤ fuel) : iterAll rows cols fuel = some (cellList rows cols) := by
  have hpos : 0 < rows * cols := Nat.mul_pos hr hc
  have := iterFrom_eq rows cols fuel 0 (Nat.zero_le _) hr hc (by omega)
  rw [if_pos hpos, Nat.zero_div, Nat.zero_mod, List.drop_zero] at this
  exact this

theorem collect_foldr (c : Conf) (l : List Site) (h : ∀ p ∈ l, ∃ v, read p c = some v) :
    l.foldr (fun p o => match read p c, o with
      | some v, some l => some (v :: l)
      | _, _ => none) (some []) = some (l.map (fun p => (c.cell p).getD 0)) := by
  induction l with
  | nil => rfl
  | cons p l ih =>
    obtain ⟨v, hv⟩ := h p (by simp)
    rw [List.foldr_cons, ih (fun q hq => h q (by simp [hq])), hv]
    have : c.cell p = some v := by
      unfold read at hv; split_ifs at hv; exact hv
    simp [this]

theorem elems_eq (fuel : ℕ) (c : Conf) (hv : Valid c) (hr : 0 < c.rows) (hc : 0 < c.cols)
    (hf : c.rows * c.cols ≤ fuel) :
    elems fuel c = some ((cellList c.rows c.cols).map (fun p => (c.cell p).getD 0)) := by
  unfold elems
  rw [iterAll_eq _ _ _ hr hc hf]
  apply collect_foldr
  intro p hp
  have hp : p.1 < c.rows ∧ p.2 < c.cols := (mem_cellList _ _ p).1 hp
  obtain ⟨v, h⟩ := hv p hp
  exact ⟨v, by unfold read; rw [if_pos hp, h]⟩

theorem occ_eq_count (c : Conf) (hv : Valid c) (s : ℕ) :
    occ c s = ((cellList c.rows c.cols).map (fun p => (c.cell p).getD 0)).count s := by
  rw [occ_eq, List.count, List.countP_map]
  apply List.countP_congr
  intro p hp
  obtain ⟨v, h⟩ := hv p ((mem_cellList _ _ p).1 hp)
  simp [h]

/-! ## random fill -/

theorem foldl_wrap {α : Type*} (f : α → ℕ) (l : List α) (a : ℕ) (ha : a < 2 ^ 64) :
    l.foldl (fun s p => wrap64 (s + f p)) a = wrap64 (a + (l.map f).sum) := by
  induction l generalizing a with
  | nil => simpa [wrap64] using (Nat.mod_eq_of_lt ha).symm
  | cons p l ih =>
    have hlt : wrap64 (a + f p) < 2 ^ 64 := Nat.mod_lt _ (by norm_num)
    rw [List.foldl_cons, ih _ hlt]
    simp [wrap64, Nat.add_assoc]

theorem fillLoop_eq (occ : List (ℕ × ℕ)) (offset : ℕ) (l : List ℕ)
    (hlen : offset + (occ.map Prod.snd).sum ≤ l.length) (hl : l.length < 2 ^ 64) :
    fillLoop occ offset l = some (l.take offset
      ++ occ.flatMap (fun p => List.replicate p.2 p.1)
      ++ l.drop (offset + (occ.map Prod.snd).sum)) := by
  induction occ generalizing offset l with
  | nil => simp [fillLoop]
  | cons p occ ih =>
    obtain ⟨s, n⟩ := p
    simp only [List.map_cons, List.sum_cons] at hlen
    have hoff : offset + n ≤ l.length := by omega
    rw [fillLoop, fill, if_pos hoff]
    simp only
    have hw : wrap64 (offset + n) = offset + n := Nat.mod_eq_of_lt (by omega)
    have hlen1 : (l.take offset ++ List.replicate n s ++ l.drop (offset + n)).length = l.length := by
      simp; omega
    rw [hw, ih _ _ (by rw [hlen1]; omega) (by rw [hlen1]; exact hl)]
    congr 1
    have hA : (l.take offset ++ List.replicate n s).length = offset + n := by simp; omega
    rw [List.take_append_of_le_length (by omega), List.take_of_length_le (by omega),
      List.drop_append, List.drop_eq_nil_of_le (by omega)]
    simp only [List.flatMap_cons, List.map_cons, List.sum_cons, List.append_assoc, List.nil_append,
      List.drop_drop, hA]
    congr 4
    omega

theorem setFromList_eq (l : List ℕ) (c : Conf) (hl : c.rows * c.cols ≤ l.length) :
    setFromList l c = .ok (setCells c (cellList c.rows c.cols)
      (fun q => l.getD (q.1 * c.cols + q.2) 0)) := by
  unfold setFromList
  rw [forCells_eq]
  suffices ∀ (L : List Site) (c' : Conf) (_ : c'.rows = c.rows) (_ : c'.cols = c.cols)
      (_ : ∀ p ∈ L, InLattice c.rows c.cols p),
      L.foldl (fun o p => match o with
        | .ok c' => match l[p.1 * c.cols + p.2]? with
          | some v => match write (p.1, p.2) v c' with
            | some c'' => .ok c''
            | none => .ub
          | none => .throws
        | o => o) (.ok c') = Outcome.ok (setCells c' L (fun q => l.getD (q.1 * c.cols + q.2) 0)) from
    this _ c rfl rfl (fun p hp => (mem_cellList _ _ p).1 hp)
  intro L
  induction L with
  | nil => intro c' _ _ _; simp [setCells_nil]
  | cons p L ih =>
    intro c' h1 h2 hL
    have hp := hL p (by simp)
    have hlt := idx_lt hp
    rw [List.foldl_cons]
    have hget : l[p.1 * c.cols + p.2]? = some (l.getD (p.1 * c.cols + p.2) 0) := by
      have : p.1 * c.cols + p.2 < l.length := by omega
      simp [List.getElem?_eq_getElem this]
    have hw := write_eq c' p (fun q => l.getD (q.1 * c.cols + q.2) 0) (by rw [h1, h2]; exact hp)
    simp only [Prod.mk.eta, hget, hw]
    rw [ih (setCells c' [p] _) h1 h2 (fun q hq => hL q (by simp [hq])), ← setCells_cons]

theorem setFromList_occ (l : List ℕ) (c c' : Conf) (hl : l.length = c.rows * c.cols)
    (h : setFromList l c = .ok c') :
    c'.rows = c.rows ∧ c'.cols = c.cols ∧ Valid c' ∧ (Bounded c → Bounded c') ∧
      ∀ s, occ c' s = l.count s := by
  rw [setFromList_eq l c hl.ge, Outcome.ok.injEq] at h
  subst h
  unfold setCells
  refine ⟨rfl, rfl, ?_, ?_, ?_⟩
  · intro p hp
    exact ⟨_, by simp only; rw [if_pos ((mem_cellList _ _ p).2 hp)]⟩
  · intro hb p hp
    simp only
    rw [if_neg (fun hm => hp ((mem_cellList _ _ p).1 hm))]
    exact hb p hp
  · intro s
    rw [occ_eq]
    simp only
    have : l = (List.range (c.rows * c.cols)).map (fun i => l.getD i 0) := by
      apply List.ext_getElem
      · simp [hl]
      · intro i h1 h2
        simp [List.getElem?_eq_getElem h1]
    conv_rhs => rw [this]
    rw [cellList, List.count, List.countP_map, List.countP_map]
    apply List.countP_congr
    intro i hi
    have hi := List.mem_range.1 hi
    have hin := divmod_in hi
    have hm := (mem_cellList _ _ _).2 hin
    simp only [cellList] at hm
    simp only [Function.comp, hm, if_true, Option.some.injEq, decide_eq_true_eq, beq_iff_eq]
    rw [Nat.div_add_mod']

end QLPeps.Configuration
