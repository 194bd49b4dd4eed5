import Verif.Lemmas.Configuration
import Batteries.Data.Nat.Lemmas

/-! # Lemmas about the exhaustive generators -/

namespace QLPeps.Configuration

open QLPeps.Spec

theorem collect_map {α β : Type*} (l : List β) (f : β → Option α) (g : β → α)
    (h : ∀ b ∈ l, f b = some (g b)) : collect (l.map f) = some (l.map g) := by
  induction l with
  | nil => rfl
  | cons b l ih =>
    have := ih (fun a ha => h a (by simp [ha]))
    simp only [List.map_cons, h b (by simp), collect, this]

/-- the configuration with the row-major values `v` -/
def vecConf (v : List ℕ) (Lx Ly : ℕ) : Conf :=
  setCells (empty Ly Lx) (cellList Ly Lx) (fun q => v.getD (q.1 * Lx + q.2) 0)

theorem vec2Config_eq (v : List ℕ) (Lx Ly : ℕ) (hv : v.length = Ly * Lx) :
    vec2Config v Lx Ly = some (vecConf v Lx Ly) := by
  unfold vec2Config
  have h0 : ¬ (Lx = 0 ∧ v ≠ []) := by
    rintro ⟨rfl, h⟩
    rw [Nat.mul_zero] at hv
    exact h (List.eq_nil_of_length_eq_zero hv)
  rw [if_neg h0]
  have hz : v.zipIdx = (List.range (Ly * Lx)).map (fun i => (v.getD i 0, i)) := by
    apply List.ext_getElem
    · simp [hv]
    · intro i h1 h2
      have : i < v.length := by simpa using h1
      simp [List.getElem?_eq_getElem this]
  rw [hz, List.foldl_map]
  have := foldl_write (fun q => v.getD (q.1 * Lx + q.2) 0) (cellList Ly Lx) (empty Ly Lx)
    (fun p hp => (mem_cellList _ _ p).1 hp)
  rw [cellList, List.foldl_map] at this
  rw [vecConf, cellList, ← this]
  congr 1
  funext o i
  unfold writeStep
  simp only [Nat.div_add_mod']
  cases o <;> rfl

theorem vecConf_cell (v : List ℕ) (Lx Ly : ℕ) (p : Site) (hp : InLattice Ly Lx p) :
    (vecConf v Lx Ly).cell p = some (v.getD (p.1 * Lx + p.2) 0) := by
  simp only [vecConf, setCells]
  rw [if_pos ((mem_cellList _ _ p).2 hp)]

theorem vecConf_cell' (v : List ℕ) (Lx Ly i : ℕ) (hi : i < Ly * Lx) :
    (vecConf v Lx Ly).cell (i / Lx, i % Lx) = some (v.getD i 0) := by
  rw [vecConf_cell v Lx Ly _ (divmod_in hi), Nat.div_add_mod']

theorem vecConf_bounded (v : List ℕ) (Lx Ly : ℕ) : Bounded (vecConf v Lx Ly) := by
  intro p hp
  simp only [vecConf, setCells]
  have hp' : p ∉ cellList Ly Lx := fun h => hp ((mem_cellList _ _ p).1 h)
  rw [if_neg hp']
  rfl

theorem vecConf_valid (v : List ℕ) (Lx Ly : ℕ) : Valid (vecConf v Lx Ly) :=
  fun p hp => ⟨_, vecConf_cell v Lx Ly p hp⟩

theorem vecConf_inj (v w : List ℕ) (Lx Ly : ℕ) (hv : v.length = Ly * Lx) (hw : w.length = Ly * Lx)
    (h : vecConf v Lx Ly = vecConf w Lx Ly) : v = w := by
  apply List.ext_getElem (by omega)
  intro i h1 h2
  have e1 := vecConf_cell' v Lx Ly i (by omega)
  have e2 := vecConf_cell' w Lx Ly i (by omega)
  rw [h, e2] at e1
  simpa [List.getElem?_eq_getElem h1, List.getElem?_eq_getElem h2, eq_comm] using e1

theorem vecConf_occ (v : List ℕ) (Lx Ly : ℕ) (hv : v.length = Ly * Lx) (s : ℕ) :
    occ (vecConf v Lx Ly) s = v.count s := by
  have := setFromList_occ v (empty Ly Lx) (vecConf v Lx Ly) hv
    (setFromList_eq v (empty Ly Lx) (by rw [hv]; exact le_rfl))
  exact this.2.2.2.2 s

/-- the row-major values of a configuration -/
def rowMajor (c : Conf) : List ℕ :=
  (List.range (c.rows * c.cols)).map (fun i => (c.cell (i / c.cols, i % c.cols)).getD 0)

theorem vecConf_rowMajor (c : Conf) (hv : Valid c) (hb : Bounded c) :
    vecConf (rowMajor c) c.cols c.rows = c := by
  obtain ⟨rows, cols, cell⟩ := c
  have : ∀ p, (vecConf (rowMajor ⟨rows, cols, cell⟩) cols rows).cell p = cell p := by
    intro p
    by_cases hp : InLattice rows cols p
    · rw [vecConf_cell _ _ _ p hp]
      have hi := idx_lt hp
      obtain ⟨v, h⟩ := hv p hp
      have h : cell p = some v := h
      have hd := idx_divmod hp
      simp only [rowMajor, List.getD_eq_getElem?_getD, List.getElem?_map, List.getElem?_range hi,
        Option.map_some, Option.getD_some, hd, h]
    · rw [vecConf_bounded _ _ _ p hp]
      exact (hb p hp).symm
  calc vecConf (rowMajor ⟨rows, cols, cell⟩) cols rows
      = ⟨rows, cols, (vecConf (rowMajor ⟨rows, cols, cell⟩) cols rows).cell⟩ := rfl
    _ = ⟨rows, cols, cell⟩ := by rw [funext this]

theorem length_rowMajor (c : Conf) : (rowMajor c).length = c.rows * c.cols := by simp [rowMajor]

/-! ## base vector -/

theorem base_count (counts : List ℕ) (k s : ℕ) :
    ((counts.mapIdx (fun i n => List.replicate n (i + k))).flatten).count s
      = if s < k then 0 else counts.getD (s - k) 0 := by
  induction counts generalizing k with
  | nil => simp
  | cons n counts ih =>
    have hf : (fun i n => List.replicate n (i + 1 + k)) = (fun i n => List.replicate n (i + (k + 1))) := by
      funext i n; rw [show i + 1 + k = i + (k + 1) by omega]
    rw [List.mapIdx_cons, List.flatten_cons, List.count_append, hf, ih (k + 1), List.count_replicate]
    by_cases h1 : s < k
    · have : ¬ (k = s) := by omega
      simp [h1, this, show s < k + 1 by omega]
    · by_cases h2 : s = k
      · subst h2; simp
      · have h3 : ¬ (k = s) := by omega
        have h4 : ¬ s < k + 1 := by omega
        obtain ⟨d, hd⟩ : ∃ d, s - k = d + 1 := ⟨s - k - 1, by omega⟩
        have h5 : s - (k + 1) = d := by omega
        simp [h1, h3, h4, hd, h5]

theorem base_sorted (counts : List ℕ) (k : ℕ) :
    ((counts.mapIdx (fun i n => List.replicate n (i + k))).flatten).Pairwise (· ≤ ·) ∧
      ∀ x ∈ (counts.mapIdx (fun i n => List.replicate n (i + k))).flatten, k ≤ x := by
  induction counts generalizing k with
  | nil => simp
  | cons n counts ih =>
    have hf : (fun i n => List.replicate n (i + 1 + k)) = (fun i n => List.replicate n (i + (k + 1))) := by
      funext i n; rw [show i + 1 + k = i + (k + 1) by omega]
    rw [List.mapIdx_cons, List.flatten_cons, hf]
    obtain ⟨h1, h2⟩ := ih (k + 1)
    constructor
    · rw [List.pairwise_append]
      refine ⟨List.pairwise_replicate.2 (Or.inr le_rfl), h1, ?_⟩
      intro a ha b hb
      have := h2 b hb
      rw [List.mem_replicate] at ha
      omega
    · intro x hx
      rcases List.mem_append.1 hx with hx | hx
      · rw [List.mem_replicate] at hx; omega
      · have := h2 x hx; omega

theorem baseVector_count (counts : List ℕ) (s : ℕ) :
    (baseVector counts).count s = counts.getD s 0 := by
  have := base_count counts 0 s
  simpa [baseVector] using this

theorem baseVector_sorted (counts : List ℕ) : (baseVector counts).Pairwise (· ≤ ·) := by
  have := (base_sorted counts 0).1
  simpa [baseVector] using this

theorem length_baseVector (counts : List ℕ) : (baseVector counts).length = counts.sum := by
  unfold baseVector
  rw [List.length_flatten]
  congr 1
  apply List.ext_getElem
  · simp
  · intro i h1 h2; simp

/-! ## bits -/

theorem bit_eq (i b : ℕ) : (i >>> b) % 2 = (i.testBit b).toNat := by
  rw [Nat.toNat_testBit, Nat.shiftRight_eq_div_pow]

/-- bits of `i` -/
def bitList (N i : ℕ) : List ℕ := (List.range N).map (fun b => (i >>> b) % 2)

theorem bitList_inj (N i j : ℕ) (hi : i < 2 ^ N) (hj : j < 2 ^ N) (h : bitList N i = bitList N j) :
    i = j := by
  apply Nat.eq_of_testBit_eq
  intro b
  by_cases hb : b < N
  · have h1 : (bitList N i)[b]? = (bitList N j)[b]? := by rw [h]
    simp only [bitList, List.getElem?_map, List.getElem?_range hb, Option.map_some,
      Option.some.injEq, bit_eq] at h1
    revert h1
    cases i.testBit b <;> cases j.testBit b <;> simp
  · have h2 : 2 ^ N ≤ 2 ^ b := Nat.pow_le_pow_right (by norm_num) (by omega)
    rw [Nat.testBit_lt_two_pow (by omega), Nat.testBit_lt_two_pow (by omega)]

theorem bitList_surj (N : ℕ) (l : List ℕ) (hl : l.length = N) (hb : ∀ x ∈ l, x = 0 ∨ x = 1) :
    ∃ i < 2 ^ N, bitList N i = l := by
  refine ⟨Nat.ofBits (fun k : Fin N => l[k] == 1), Nat.ofBits_lt_two_pow _, ?_⟩
  apply List.ext_getElem
  · simp [bitList, hl]
  · intro b h1 h2
    have hbN : b < N := by omega
    simp only [bitList, List.getElem_map, List.getElem_range, bit_eq]
    rw [Nat.testBit_ofBits_lt _ b hbN]
    rcases hb l[b] (List.getElem_mem h2) with h | h <;> simp [h]

end QLPeps.Configuration
