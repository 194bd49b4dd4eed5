import Verif.Model.Jastrow
import Verif.Spec.Jastrow
import Verif.Lemmas.Configuration
import Mathlib.Algebra.BigOperators.Intervals
import Mathlib.Tactic

/-! # Lemmas about the Jastrow factor -/

namespace QLPeps.Jastrow

open QLPeps.Spec QLPeps.Updaters QLPeps.Configuration

theorem two_tri (i : ℕ) : 2 * (((i + 1) * (i + 2)) / 2) = (i + 1) * (i + 2) := by
  apply Nat.mul_div_cancel'
  exact (Nat.even_mul_succ_self (i + 1)).two_dvd

/-- twice the packed index, without division or subtraction -/
theorem two_packed (N i j : ℕ) (h1 : i < j) (h2 : j < N) :
    2 * packed N i j + (i + 1) * (i + 2) = 2 * (i * N + j) := by
  unfold packed
  have h := two_tri i
  have hle : ((i + 1) * (i + 2)) / 2 ≤ i * N + j := by
    have : (i + 1) * (i + 2) ≤ 2 * (i * N + j) := by nlinarith
    omega
  omega

theorem packed_lt (N i j : ℕ) (h1 : i < j) (h2 : j < N) : packed N i j < (N * (N - 1)) / 2 := by
  have h := two_packed N i j h1 h2
  obtain ⟨M, rfl⟩ : ∃ M, N = M + 1 := ⟨N - 1, by omega⟩
  have hN : 2 * (((M + 1) * M) / 2) = (M + 1) * M := by
    apply Nat.mul_div_cancel'
    rw [Nat.mul_comm]
    exact (Nat.even_mul_succ_self M).two_dvd
  rw [Nat.add_sub_cancel]
  suffices 2 * packed (M + 1) i j < (M + 1) * M by omega
  obtain ⟨d, hd⟩ : ∃ d, M = i + d + 1 := ⟨M - i - 1, by omega⟩
  subst hd
  nlinarith

theorem packed_lt_of_lt (N i j i' j' : ℕ) (h1 : i < j) (h2 : j < N) (h1' : i' < j') (h2' : j' < N)
    (h : i < i') : packed N i j < packed N i' j' := by
  have e := two_packed N i j h1 h2
  have e' := two_packed N i' j' h1' h2'
  obtain ⟨d, rfl⟩ : ∃ d, i' = i + 1 + d := ⟨i' - i - 1, by omega⟩
  obtain ⟨m, rfl⟩ : ∃ m, N = i + 1 + d + 2 + m := ⟨N - (i + 1 + d + 2), by omega⟩
  nlinarith

theorem packed_inj (N i j i' j' : ℕ) (h1 : i < j) (h2 : j < N) (h1' : i' < j') (h2' : j' < N)
    (h : packed N i j = packed N i' j') : i = i' ∧ j = j' := by
  have hi : i = i' := by
    rcases Nat.lt_trichotomy i i' with hlt | heq | hgt
    · have := packed_lt_of_lt N i j i' j' h1 h2 h1' h2' hlt; omega
    · exact heq
    · have := packed_lt_of_lt N i' j' i j h1' h2' h1 h2 hgt; omega
  subst hi
  have e := two_packed N i j h1 h2
  have e' := two_packed N i j' h1' h2'
  exact ⟨rfl, by omega⟩

/-- the index used for the unordered pair `{i, j}` -/
def pairIdx (N i j : ℕ) : ℕ := if i < j then packed N i j else packed N j i

theorem pairIdx_lt (N i j : ℕ) (hi : i < N) (hj : j < N) (hne : i ≠ j) :
    pairIdx N i j < (N * (N - 1)) / 2 := by
  unfold pairIdx
  split_ifs with h
  · exact packed_lt N i j h hj
  · exact packed_lt N j i (by omega) hi

theorem pairIdx_inj (N i j k l : ℕ) (hi : i < N) (hj : j < N) (hne : i ≠ j) (hk : k < N) (hl : l < N)
    (hne' : k ≠ l) (h : pairIdx N i j = pairIdx N k l) : (k = i ∧ l = j) ∨ (k = j ∧ l = i) := by
  unfold pairIdx at h
  split_ifs at h with h1 h2 h2
  · obtain ⟨a, b⟩ := packed_inj N i j k l h1 hj h2 hl h; omega
  · obtain ⟨a, b⟩ := packed_inj N i j l k h1 hj (by omega) hk h; omega
  · obtain ⟨a, b⟩ := packed_inj N j i k l (by omega) hi h2 hl h; omega
  · obtain ⟨a, b⟩ := packed_inj N j i l k (by omega) hi (by omega) hk h; omega

/-! ## the exponent under an exchange -/

/-- symmetric double-sum form of the field, over linear site numbers -/
theorem field_eq (Ly Lx : ℕ) (v : ℕ → ℕ → ℝ) (n : Site → ℕ) (s : Site) :
    field Ly Lx v n s = ∑ j ∈ (Finset.range (Ly * Lx)).erase (s.1 * Lx + s.2),
      v (s.1 * Lx + s.2) j * (n (siteOf Lx j) : ℝ) := by
  unfold field
  rw [forCells_eq, cellList, List.foldl_map]
  set a := s.1 * Lx + s.2 with ha
  have key : ∀ (m : ℕ) (x : ℝ), (List.range m).foldl (fun sum i =>
      if (i / Lx, i % Lx).1 * Lx + (i / Lx, i % Lx).2 = a then sum
      else sum + v a ((i / Lx, i % Lx).1 * Lx + (i / Lx, i % Lx).2)
        * (n ((i / Lx, i % Lx).1, (i / Lx, i % Lx).2) : ℝ)) x
      = x + ∑ j ∈ (Finset.range m).erase a, v a j * (n (siteOf Lx j) : ℝ) := by
    intro m x
    induction m with
    | zero => simp
    | succ m ih =>
      rw [List.range_succ, List.foldl_append, ih]
      simp only [List.foldl_cons, List.foldl_nil, Nat.div_add_mod', Finset.range_add_one]
      by_cases hm : m = a
      · rw [if_pos hm, hm, Finset.erase_insert (by simp), Finset.erase_eq_of_notMem (by simp)]
      · rw [if_neg hm, Finset.erase_insert_of_ne hm, Finset.sum_insert (by simp)]
        simp only [siteOf]
        ring
  rw [key]
  simp

/-- the double sum over ordered pairs is twice the sum over pairs -/
theorem full_sum (v : ℕ → ℕ → ℝ) (hsym : ∀ i j, v i j = v j i) (hd : ∀ i, v i i = 0)
    (m : ℕ → ℝ) (N : ℕ) :
    ∑ j ∈ Finset.range N, ∑ i ∈ Finset.range N, v i j * m i * m j
      = 2 * ∑ j ∈ Finset.range N, ∑ i ∈ Finset.range j, v i j * m i * m j := by
  induction N with
  | zero => simp
  | succ N ih =>
    rw [Finset.sum_range_succ, Finset.sum_range_succ (n := N)]
    simp only [Finset.sum_range_succ _ N, Finset.sum_add_distrib, ih, hd]
    have : ∑ x ∈ Finset.range N, v N x * m N * m x = ∑ x ∈ Finset.range N, v x N * m x * m N := by
      apply Finset.sum_congr rfl; intro x _; rw [hsym N x]; ring
    rw [this]; ring

/-- change of the pair sum when the occupation changes by `da` at `a` and `db` at `b` -/
theorem pair_sum_change (v : ℕ → ℕ → ℝ) (hsym : ∀ i j, v i j = v j i) (hd : ∀ i, v i i = 0)
    (m : ℕ → ℝ) (N a b : ℕ) (ha : a < N) (hb : b < N) (da db : ℝ) :
    let m' := fun i => m i + (if i = a then da else 0) + (if i = b then db else 0)
    (∑ j ∈ Finset.range N, ∑ i ∈ Finset.range j, v i j * m' i * m' j)
      - ∑ j ∈ Finset.range N, ∑ i ∈ Finset.range j, v i j * m i * m j
      = da * ∑ j ∈ Finset.range N, v a j * m j + db * ∑ j ∈ Finset.range N, v b j * m j
        + da * db * v a b := by
  intro m'
  have h1 := full_sum v hsym hd m' N
  have h2 := full_sum v hsym hd m N
  have ha' : a ∈ Finset.range N := Finset.mem_range.2 ha
  have hb' : b ∈ Finset.range N := Finset.mem_range.2 hb
  have inner : ∀ j, ∑ i ∈ Finset.range N, v i j * m' i * m' j
      = (∑ i ∈ Finset.range N, v i j * m i) * m' j + v a j * da * m' j + v b j * db * m' j := by
    intro j
    have : ∀ i, v i j * m' i * m' j = v i j * m i * m' j
        + (if i = a then v i j * da * m' j else 0) + (if i = b then v i j * db * m' j else 0) := by
      intro i; simp only [m']; split_ifs <;> ring
    simp only [this, Finset.sum_add_distrib, Finset.sum_ite_eq', ha', hb', if_true, Finset.sum_mul]
  have outer : ∀ g : ℕ → ℝ, ∑ j ∈ Finset.range N, g j * m' j
      = (∑ j ∈ Finset.range N, g j * m j) + g a * da + g b * db := by
    intro g
    have : ∀ i, g i * m' i = g i * m i
        + (if i = a then g i * da else 0) + (if i = b then g i * db else 0) := by
      intro i; simp only [m']; split_ifs <;> ring
    simp only [this, Finset.sum_add_distrib, Finset.sum_ite_eq', ha', hb', if_true]
  have e1 : ∑ j ∈ Finset.range N, ∑ i ∈ Finset.range N, v i j * m' i * m' j
      = ∑ j ∈ Finset.range N, ((∑ i ∈ Finset.range N, v i j * m i) + v a j * da + v b j * db) * m' j := by
    apply Finset.sum_congr rfl; intro j _; rw [inner]; ring
  rw [e1, outer] at h1
  have e2 : ∑ j ∈ Finset.range N, ((∑ i ∈ Finset.range N, v i j * m i) + v a j * da + v b j * db) * m j
      = (∑ j ∈ Finset.range N, ∑ i ∈ Finset.range N, v i j * m i * m j)
        + da * ∑ j ∈ Finset.range N, v a j * m j + db * ∑ j ∈ Finset.range N, v b j * m j := by
    simp only [add_mul, Finset.sum_add_distrib, Finset.sum_mul, Finset.mul_sum]
    congr 1
    · congr 1
      apply Finset.sum_congr rfl; intro j _; ring
    · apply Finset.sum_congr rfl; intro j _; ring
  rw [e2] at h1
  have fa : ∑ i ∈ Finset.range N, v i a * m i = ∑ j ∈ Finset.range N, v a j * m j := by
    apply Finset.sum_congr rfl; intro j _; rw [hsym]
  have fb : ∑ i ∈ Finset.range N, v i b * m i = ∑ j ∈ Finset.range N, v b j * m j := by
    apply Finset.sum_congr rfl; intro j _; rw [hsym]
  rw [fa, fb, hd, hd, hsym b a] at h1
  linarith

theorem siteOf_inj {Lx : ℕ} {i j : ℕ} (h : siteOf Lx i = siteOf Lx j) : i = j := by
  simp only [siteOf, Prod.mk.injEq] at h
  rw [← Nat.div_add_mod' i Lx, ← Nat.div_add_mod' j Lx, h.1, h.2]

theorem siteOf_lin {Ly Lx : ℕ} {s : Site} (hs : InLattice Ly Lx s) :
    siteOf Lx (s.1 * Lx + s.2) = s := by
  have h2 : s.2 < Lx := hs.2
  have hpos : 0 < Lx := by omega
  simp only [siteOf]
  ext
  · simp [Nat.add_comm (s.1 * Lx), Nat.add_mul_div_right _ _ hpos, Nat.div_eq_of_lt h2]
  · simp [Nat.add_comm (s.1 * Lx), Nat.add_mul_mod_self_right, Nat.mod_eq_of_lt h2]

theorem lin_lt {Ly Lx : ℕ} {s : Site} (hs : InLattice Ly Lx s) : s.1 * Lx + s.2 < Ly * Lx :=
  idx_lt hs

/-- the change of the exponent when one particle moves from `s2` to the empty site `s1` -/
theorem exponent_move (Ly Lx : ℕ) (v : ℕ → ℕ → ℝ) (hsym : ∀ i j, v i j = v j i)
    (hd : ∀ i, v i i = 0) (n : Site → ℕ) (s1 s2 : Site) (h1 : InLattice Ly Lx s1)
    (h2 : InLattice Ly Lx s2) (n1 : n s1 = 0) (n2 : n s2 = 1) :
    exponent Ly Lx v (setSite (setSite n s1 (n s2)) s2 (n s1)) - exponent Ly Lx v n
      = field Ly Lx v n s1 - field Ly Lx v n s2
        - v (s1.1 * Lx + s1.2) (s2.1 * Lx + s2.2) := by
  have hne : s1 ≠ s2 := by rintro rfl; omega
  set a := s1.1 * Lx + s1.2 with ha
  set b := s2.1 * Lx + s2.2 with hb
  have sa : siteOf Lx a = s1 := siteOf_lin h1
  have sb : siteOf Lx b = s2 := siteOf_lin h2
  have hab : a ≠ b := by intro h; apply hne; rw [← sa, ← sb, h]
  have la : a < Ly * Lx := lin_lt h1
  have lb : b < Ly * Lx := lin_lt h2
  have key := pair_sum_change v hsym hd (fun i => (n (siteOf Lx i) : ℝ)) (Ly * Lx) a b la lb 1 (-1)
  have hm : ∀ i, ((setSite (setSite n s1 (n s2)) s2 (n s1) (siteOf Lx i) : ℕ) : ℝ)
      = (n (siteOf Lx i) : ℝ) + (if i = a then 1 else 0) + (if i = b then -1 else 0) := by
    intro i
    by_cases hia : i = a
    · subst hia
      rw [if_neg hab, sa]; simp [setSite, hne, n1, n2]
    · by_cases hib : i = b
      · subst hib
        rw [sb]; simp [setSite, n1, n2, hia]
      · have x1 : siteOf Lx i ≠ s1 := fun h => hia (siteOf_inj (h.trans sa.symm))
        have x2 : siteOf Lx i ≠ s2 := fun h => hib (siteOf_inj (h.trans sb.symm))
        simp [setSite, x1, x2, hia, hib]
  have fe : ∀ s : Site, InLattice Ly Lx s → field Ly Lx v n s
      = ∑ j ∈ Finset.range (Ly * Lx), v (s.1 * Lx + s.2) j * (n (siteOf Lx j) : ℝ) := by
    intro s hs
    rw [field_eq, ← Finset.sum_erase_add _ _ (Finset.mem_range.2 (lin_lt hs)), hd]
    simp
  rw [fe s1 h1, fe s2 h2]
  simp only [exponent, hm]
  dsimp only at key
  rw [key]
  ring

end QLPeps.Jastrow
