import Verif.Lemmas.MinSRRun
import Mathlib.Analysis.Matrix.Spectrum

/-!
# MinSR on several processes

C130 and C131 of `properties.jsonl`.
-/

namespace QLPeps.MinSR

open QLPeps.SR (Eigen eigenSolve gram gradEstimate minsrDirection RingReachable RingDone ringMean entry)

variable {𝕜 : Type*} [RCLike 𝕜]

/-- the result of either path, from any eigendecomposition of the matrix -/
theorem returns_eq {real : Bool} (hreal : real = true → ∀ x : 𝕜, (starRingEnd 𝕜) x = x) {P B : ℕ} (hP : 0 < P)
    {g : Grid} (hb : 0 < g.nb) (hg : g.nprow * g.npcol = P)
    (hs : ∀ r < P, g.rows (P * B) r * g.cols (P * B) r ≤ 2 ^ 31) {rb : ℕ → ℕ → 𝕜}
    (hT : ∀ i j, i < P * B → j < P * B →
      (starRingEnd 𝕜) (matrix B (P * B) rb i j) = matrix B (P * B) rb j i)
    {rhs : ℕ → 𝕜} {rp ap : ℝ} {soft d : Bool} {y : Option (ℕ → 𝕜)}
    (h : Returns real P B g rb rhs rp ap soft d y) :
    ∃ u ev Z, y = some u ∧ Solved (P * B) (matrix B (P * B) rb) ev Z ∧ ∀ i : Fin (P * B), u i
      = eigenSolve (ι := Fin (P * B)) (κ := Fin (P * B)) (fun k i => Z i k)
          (fun k => pinv (P * B) ev rp ap soft k) (fun i => rhs i) i := by
  cases h with
  | replicated ev z h =>
    refine ⟨_, ev, _, rfl, h.congr fun i j hi hj => ?_, fun i => replicated_eq z _ rhs i⟩
    cases real with
    | true =>
      rw [if_pos rfl, lapack_real rb hi, ← hT i j hi hj, hreal rfl]
    | false =>
      rw [if_neg (by simp), lapack_complex rb hi hj]
  | distributed t z ev h1 h2 =>
    obtain ⟨u, e, hu⟩ := distributed_some (n := P * B) hb hP hg hs z (pinv (P * B) ev rp ap soft) rhs
    refine ⟨u, ev, _, e, h2.congr fun i j hi hj => ?_, fun i => ?_⟩
    · rw [h1 i j hi hj, source_entry rb hi hj]
    · rw [hu i i.2]
      unfold eigenSolve
      rw [sum_fin (P * B) (fun k => (g.desc (P * B)).entry (g.at z) i k * ((∑ j : Fin (P * B),
        (starRingEnd 𝕜) ((g.desc (P * B)).entry (g.at z) j k) * rhs j) * ((pinv (P * B) ev rp ap soft k : ℝ) : 𝕜)))]
      refine Finset.sum_congr rfl fun k _ => ?_
      rw [sum_fin (P * B) (fun j => (starRingEnd 𝕜) ((g.desc (P * B)).entry (g.at z) j k) * rhs j)]

/-- **C130.** The solution of the MinSR equations does not depend on the path (replicated or distributed), on
the number of processes the rows are spread over, on the process grid, on the block size, or on which
eigenvectors the library happens to return: two runs with the same Hermitian matrix, right-hand side and
tolerances return the same numbers, on all processes, and neither reads or writes out of range (the local
blocks having at most `2 ^ 31` elements). -/
theorem C130_same_solution {real : Bool} (hreal : real = true → ∀ x : 𝕜, (starRingEnd 𝕜) x = x)
    {P B P' B' : ℕ} (hP : 0 < P) (hP' : 0 < P') (hN : P * B = P' * B') {g g' : Grid}
    (hb : 0 < g.nb) (hg : g.nprow * g.npcol = P) (hb' : 0 < g'.nb) (hg' : g'.nprow * g'.npcol = P')
    (hs : ∀ r < P, g.rows (P * B) r * g.cols (P * B) r ≤ 2 ^ 31)
    (hs' : ∀ r < P', g'.rows (P' * B') r * g'.cols (P' * B') r ≤ 2 ^ 31) {rb rb' : ℕ → ℕ → 𝕜}
    (hT : ∀ i j, i < P * B → j < P * B →
      (starRingEnd 𝕜) (matrix B (P * B) rb i j) = matrix B (P * B) rb j i)
    (hsame : ∀ i j, i < P * B → j < P * B → matrix B (P * B) rb i j = matrix B' (P' * B') rb' i j)
    {rhs : ℕ → 𝕜} {rp ap : ℝ} {soft d d' : Bool} {y y' : Option (ℕ → 𝕜)}
    (h : Returns real P B g rb rhs rp ap soft d y) (h' : Returns real P' B' g' rb' rhs rp ap soft d' y') :
    ∃ u u', y = some u ∧ y' = some u' ∧ ∀ i < P * B, u i = u' i := by
  obtain ⟨u, ev, Z, e, hS, hu⟩ := returns_eq hreal hP hb hg hs hT h
  have hT' : ∀ i j, i < P' * B' → j < P' * B' →
      (starRingEnd 𝕜) (matrix B' (P' * B') rb' i j) = matrix B' (P' * B') rb' j i := by
    intro i j hi hj
    rw [← hN] at hi hj
    rw [← hsame i j hi hj, ← hsame j i hj hi, hT i j hi hj]
  obtain ⟨u', ev', Z', e', hS', hu'⟩ := returns_eq hreal hP' hb' hg' hs' hT' h'
  refine ⟨u, u', e, e', fun i hi => ?_⟩
  have hS2 : Solved (P * B) (matrix B' (P' * B') rb') ev Z := hS.congr hsame
  have hS3 : Solved (P * B) (matrix B' (P' * B') rb') ev' Z' := by
    have : P' * B' = P * B := hN.symm
    rw [this] at hS' ⊢
    exact hS'
  rw [hu ⟨i, hi⟩, solution_unique hS2 hS3 rp ap soft rhs]
  have h3 := hu' ⟨i, hN ▸ hi⟩
  rw [h3]
  clear hu hu' h3 hS hS' hS2 hS3
  generalize P' * B' = N' at *
  subst hN
  rfl

/-- **C130, its limit.** If the block of some process has more than `2 ^ 31` elements, the distributed path
computes an index that overflows an `int`. -/
theorem C130_overflow {P : ℕ} {g : Grid} {n r : ℕ} (hr : r < P) (h : 2 ^ 31 < g.rows n r * g.cols n r)
    (z : ℕ → ℕ → 𝕜) (lamPlus : ℕ → ℝ) (rhs : ℕ → 𝕜) : distributed P g n z lamPlus rhs = none := by
  unfold distributed
  rw [mapM_none P _ r hr (localTmp_none (fun hh => by unfold Small at hh; omega) (z r) rhs)]
  rfl

/-- **C130, dispatch.** Every mode returns the solution of `C130_same_solution`, but for the distributed mode
without ScaLAPACK, which throws. -/
theorem C130_dispatch (available : Bool) (m : Mode) (n : ℕ) :
    (useScalapack available m n = none ↔ m = .distributed ∧ available = false) ∧
    (useScalapack available m n = some true ↔ available = true ∧ (m = .distributed ∨ m = .auto ∧ 5000 < n)) := by
  cases available <;> cases m <;> simp [useScalapack]

/-! ## the hypotheses can be met -/

open Matrix in
/-- every Hermitian matrix has the decomposition the libraries promise -/
theorem exists_solved {n : ℕ} {A : ℕ → ℕ → 𝕜}
    (hA : ∀ i j, i < n → j < n → (starRingEnd 𝕜) (A i j) = A j i) : ∃ ev Z, Solved n A ev Z := by
  classical
  set M : Matrix (Fin n) (Fin n) 𝕜 := Matrix.of fun i j => A i j with hM
  have hH : M.IsHermitian := by
    ext i j
    simp only [hM, conjTranspose_apply, of_apply, RCLike.star_def]
    exact hA j i j.2 i.2
  set U : Matrix (Fin n) (Fin n) 𝕜 := (hH.eigenvectorUnitary : Matrix (Fin n) (Fin n) 𝕜) with hU
  have hV1 : U * Uᴴ = 1 := by
    have := Unitary.coe_mul_star_self hH.eigenvectorUnitary
    simpa [star_eq_conjTranspose] using this
  have hV2 : Uᴴ * U = 1 := by
    have := Unitary.coe_star_mul_self hH.eigenvectorUnitary
    simpa [star_eq_conjTranspose] using this
  have hdiag : Uᴴ * M * U = diagonal (RCLike.ofReal ∘ hH.eigenvalues) := by
    have := hH.conjStarAlgAut_star_eigenvectorUnitary
    rw [Unitary.conjStarAlgAut_star_apply] at this
    simpa [star_eq_conjTranspose] using this
  have hMU : M * U = U * diagonal (RCLike.ofReal ∘ hH.eigenvalues) := by
    rw [← hdiag, ← Matrix.mul_assoc, ← Matrix.mul_assoc, hV1, Matrix.one_mul]
  refine ⟨fun k => if h : k < n then hH.eigenvalues ⟨k, h⟩ else 0,
    fun i k => if h : i < n ∧ k < n then U ⟨i, h.1⟩ ⟨k, h.2⟩ else 0, ?_, ?_⟩
  · intro k l
    have := congrFun (congrFun hV2 k) l
    rw [Matrix.mul_apply, Matrix.one_apply] at this
    simpa [conjTranspose_apply] using this
  · intro k i
    have := congrFun (congrFun hMU i) k
    rw [Matrix.mul_apply, Matrix.mul_apply] at this
    simp only [hM, of_apply, diagonal_apply, Function.comp, mul_ite, mul_zero, Finset.sum_ite_eq', Finset.mem_univ,
      if_true] at this
    simp only [Fin.is_lt, and_self, dite_true, Fin.eta]
    rw [this, mul_comm]

/-- the buffers that hold a matrix in the target layout -/
def deal (g : Grid) (n : ℕ) (A : ℕ → ℕ → 𝕜) (rank l : ℕ) : 𝕜 :=
  A (toGlobal (l % g.lld n rank) g.nb (g.myrow rank) g.nprow) (toGlobal (l / g.lld n rank) g.nb (g.mycol rank) g.npcol)

theorem deal_entry {g : Grid} {n : ℕ} (hb : 0 < g.nb) (hr : 0 < g.nprow) (hc : 0 < g.npcol) (A : ℕ → ℕ → 𝕜)
    {i j : ℕ} (hi : i < n) : (g.desc n).entry (g.at (deal g n A)) i j = A i j := by
  unfold Desc.entry Grid.at deal Grid.desc
  simp only
  have h1 : g.myrow (i / g.nb % g.nprow * g.npcol + j / g.nb % g.npcol) = i / g.nb % g.nprow := by
    unfold Grid.myrow
    rw [Nat.mul_comm, Nat.mul_add_div hc, Nat.div_eq_of_lt (Nat.mod_lt _ hc), Nat.add_zero]
  have h2 : g.mycol (i / g.nb % g.nprow * g.npcol + j / g.nb % g.npcol) = j / g.nb % g.npcol := by
    unfold Grid.mycol
    rw [Nat.mul_comm, Nat.mul_add_mod, Nat.mod_mod]
  have h3 : cyclic g.nb g.nprow i < numroc n g.nb (i / g.nb % g.nprow) g.nprow :=
    (lt_numroc hb (Nat.mod_lt _ hr) _).2 (by rw [toGlobal_cyclic hb hr]; exact hi)
  have h4 : g.lld n (i / g.nb % g.nprow * g.npcol + j / g.nb % g.npcol)
      = max 1 (numroc n g.nb (i / g.nb % g.nprow) g.nprow) := by
    unfold Grid.lld Grid.rows; rw [h1]
  rw [h1, h2, h4]
  generalize hm : max 1 (numroc n g.nb (i / g.nb % g.nprow) g.nprow) = m
  have h5 : cyclic g.nb g.nprow i < m := by omega
  rw [Nat.mul_comm _ m, Nat.add_mul_mod_self_left, Nat.mod_eq_of_lt h5, Nat.add_mul_div_left _ _ (by omega),
    Nat.div_eq_of_lt h5, Nat.zero_add, toGlobal_cyclic hb hr, toGlobal_cyclic hb hc]

/-- **C130, for every input.** Both paths have a result for every Hermitian matrix. -/
theorem C130_returns {real : Bool} (hreal : real = true → ∀ x : 𝕜, (starRingEnd 𝕜) x = x) {P B : ℕ} (hP : 0 < P)
    {g : Grid} (hb : 0 < g.nb) (hg : g.nprow * g.npcol = P) {rb : ℕ → ℕ → 𝕜}
    (hT : ∀ i j, i < P * B → j < P * B →
      (starRingEnd 𝕜) (matrix B (P * B) rb i j) = matrix B (P * B) rb j i)
    (rhs : ℕ → 𝕜) (rp ap : ℝ) (soft d : Bool) : ∃ y, Returns real P B g rb rhs rp ap soft d y := by
  obtain ⟨ev, Z, hS⟩ := exists_solved hT
  have hr : 0 < g.nprow := Nat.pos_of_ne_zero fun h => by rw [h, Nat.zero_mul] at hg; omega
  have hc : 0 < g.npcol := Nat.pos_of_ne_zero fun h => by rw [h, Nat.mul_zero] at hg; omega
  cases d with
  | false =>
    refine ⟨_, .replicated ev (fun q => Z (q % (P * B)) (q / (P * B))) ?_⟩
    have hz : ∀ i k : Fin (P * B), lapack (P * B) (fun q => Z (q % (P * B)) (q / (P * B))) i k = Z i k := by
      intro i k
      have := i.2
      unfold lapack
      simp only
      rw [Nat.add_mul_mod_self_right, Nat.mod_eq_of_lt i.2, Nat.add_mul_div_right _ _ (by omega),
        Nat.div_eq_of_lt i.2, Nat.zero_add]
    have h2 : Solved (P * B) (lapack (P * B) (if real then inputReal B (P * B) rb else inputComplex B (P * B) rb))
        ev Z := by
      refine hS.congr fun i j hi hj => ?_
      cases real with
      | true => rw [if_pos rfl, lapack_real rb hi, ← hT i j hi hj, hreal rfl]
      | false => rw [if_neg (by simp), lapack_complex rb hi hj]
    unfold Solved at h2 ⊢
    simpa only [hz] using h2
  | true =>
    have h1 : ∀ i j, i < P * B → j < P * B →
        (g.desc (P * B)).entry (g.at (deal g (P * B) (matrix B (P * B) rb))) i j = matrix B (P * B) rb i j :=
      fun i j hi _ => deal_entry hb hr hc _ hi
    refine ⟨_, .distributed (deal g (P * B) (matrix B (P * B) rb)) (deal g (P * B) Z) ev ?_ ?_⟩
    · intro i j hi hj
      rw [h1 i j hi hj, source_entry rb hi hj]
    · have h2 := hS.congr (fun i j hi hj => (h1 i j hi hj).symm)
      unfold Solved at h2 ⊢
      have hz : ∀ i k : Fin (P * B), (g.desc (P * B)).entry (g.at (deal g (P * B) Z)) i k = Z i k :=
        fun i k => deal_entry hb hr hc _ i.2
      simpa only [hz] using h2

/-- ten samples on four processes arranged two by two -/
example : ∀ r < 4, (⟨2, 2, 3⟩ : Grid).rows (4 * 10) r * (⟨2, 2, 3⟩ : Grid).cols (4 * 10) r ≤ 2 ^ 31 := by decide

example : ((⟨2, 2, 3⟩ : Grid).rows 40 0, (⟨2, 2, 3⟩ : Grid).rows 40 3, toGlobal 4 3 1 2) = (21, 19, 10) := by decide

/-- a process alone overflows from 46341 samples on -/
example (z : ℕ → ℕ → ℝ) (lamPlus : ℕ → ℝ) (rhs : ℕ → ℝ) :
    distributed 1 ⟨1, 1, 64⟩ 46341 z lamPlus rhs = none :=
  C130_overflow (r := 0) (by decide) (by decide +kernel) z lamPlus rhs

/-- a complex Hermitian matrix that is not symmetric, one row per process, on a grid of two columns -/
example (rhs : ℕ → ℂ) (rp ap : ℝ) (soft d d' : Bool) :
    ∃ u u' y y', Returns (𝕜 := ℂ) false 2 1 ⟨1, 2, 1⟩
        (fun r q => if r = 0 then (if q = 0 then 1 else Complex.I) else (if q = 0 then -Complex.I else 2))
        rhs rp ap soft d y ∧
      Returns (𝕜 := ℂ) false 2 1 ⟨2, 1, 1⟩
        (fun r q => if r = 0 then (if q = 0 then 1 else Complex.I) else (if q = 0 then -Complex.I else 2))
        rhs rp ap soft d' y' ∧ y = some u ∧ y' = some u' ∧ ∀ i < 2, u i = u' i := by
  have hT : ∀ i j, i < 2 * 1 → j < 2 * 1 → (starRingEnd ℂ) (matrix 1 (2 * 1)
      (fun r q => if r = 0 then (if q = 0 then 1 else Complex.I) else (if q = 0 then -Complex.I else 2)) i j)
      = matrix 1 (2 * 1)
      (fun r q => if r = 0 then (if q = 0 then 1 else Complex.I) else (if q = 0 then -Complex.I else 2)) j i := by
    intro i j hi hj
    obtain rfl | rfl : i = 0 ∨ i = 1 := by omega
    all_goals obtain rfl | rfl : j = 0 ∨ j = 1 := by omega
    all_goals simp [matrix]
    exact Complex.conj_ofNat 2
  obtain ⟨y, hy⟩ := C130_returns (real := false) (by simp) (by decide : 0 < 2) (g := ⟨1, 2, 1⟩) (by decide)
    (by decide) hT rhs rp ap soft d
  obtain ⟨y', hy'⟩ := C130_returns (real := false) (by simp) (by decide : 0 < 2) (g := ⟨2, 1, 1⟩) (by decide)
    (by decide) hT rhs rp ap soft d'
  obtain ⟨u, u', e, e', h⟩ := C130_same_solution (real := false) (by simp) (by decide) (by decide) rfl (by decide)
    (by decide) (by decide) (by decide) (by decide) (by decide) hT (fun _ _ _ _ => rfl) hy hy'
  exact ⟨u, u', y, y', hy, hy', e, e', h⟩

/-! ## the direction -/

variable {V : Type*} [NormedAddCommGroup V] [InnerProductSpace 𝕜 V]

/-- the samples of all processes in one family -/
def family {X : Type*} (P B : ℕ) (o : ℕ → ℕ → X) : Fin (P * B) → X := fun q => o (q / B) (q % B)

theorem sum_family {M : Type*} [AddCommMonoid M] (P B : ℕ) (f : ℕ → ℕ → M) :
    ∑ q : Fin (P * B), f (q / B) (q % B) = ∑ r ∈ Finset.range P, ∑ i ∈ Finset.range B, f r i := by
  rw [Fin.sum_univ_eq_sum_range (fun q => f (q / B) (q % B)), sum_ranks]
  refine Finset.sum_congr rfl fun r _ => Finset.sum_congr rfl fun i hi => ?_
  have hi' := Finset.mem_range.1 hi
  rw [Nat.mul_comm r B, Nat.mul_add_div (by omega), Nat.div_eq_of_lt hi', Nat.add_zero, Nat.mul_add_mod,
    Nat.mod_eq_of_lt hi']

theorem foldl_sumV {M : Type*} [AddCommMonoid M] (n : ℕ) (f : ℕ → M) (a : M) :
    (List.range n).foldl (fun d i => d + f i) a = a + ∑ i ∈ Finset.range n, f i := by
  induction n with
  | zero => simp
  | succ n ih => rw [List.range_succ, List.foldl_append, ih, Finset.sum_range_succ, ← add_assoc]; rfl

theorem assemble_eq {P B : ℕ} (hP : 0 < P) (u : ℕ → 𝕜) (o : ℕ → ℕ → V) (m : V) :
    assemble P B u o m = SR.backSubst (family P B o) m fun q => u q := by
  unfold assemble SR.backSubst localSum localYSum
  have e1 : ∑ q : Fin (P * B), u q • family P B o q
      = ∑ r ∈ Finset.range P, ∑ i ∈ Finset.range B, u (r * B + i) • o r i := by
    rw [← sum_family P B (fun r i => u (r * B + i) • o r i)]
    refine Finset.sum_congr rfl fun q _ => ?_
    rw [Nat.div_add_mod' q.1 B]; rfl
  have e2 : ∑ q : Fin (P * B), u q = ∑ r ∈ Finset.range P, ∑ i ∈ Finset.range B, u (r * B + i) := by
    rw [← sum_family P B (fun r i => u (r * B + i))]
    refine Finset.sum_congr rfl fun q _ => ?_
    rw [Nat.div_add_mod' q.1 B]
  rw [e1, e2]
  simp only [foldl_sumV, zero_add]
  congr 1
  obtain ⟨Q, rfl⟩ : ∃ Q, P = Q + 1 := ⟨P - 1, by omega⟩
  rw [Finset.sum_range_succ', Nat.add_sub_cancel, add_comm]

theorem ring_matrix {P B : ℕ} (hP : 0 < P) (hB : 0 < B) (o : ℕ → ℕ → V) {ring : SR.Ring V 𝕜}
    (hreach : RingReachable (fun a b => inner 𝕜 a b) P B o ring) (hdone : RingDone P B ring) {i j : ℕ}
    (hi : i < P * B) (hj : j < P * B) :
    matrix B (P * B) (fun r q => entry P B ring r (q / (P * B)) (q % (P * B))) i j
      = inner 𝕜 (o (i / B) (i % B) - ringMean 𝕜 P B o) (o (j / B) (j % B) - ringMean 𝕜 P B o)
          / ((P * B : ℕ) : 𝕜) := by
  have hN : 0 < P * B := Nat.mul_pos hP hB
  unfold matrix
  simp only
  rw [Nat.mul_comm (i % B), Nat.mul_add_div hN, Nat.div_eq_of_lt hj, Nat.add_zero, Nat.mul_add_mod,
    Nat.mod_eq_of_lt hj]
  have hi1 : i / B < P := by rw [Nat.div_lt_iff_lt_mul hB]; exact hi
  have hj1 : j / B < P := by rw [Nat.div_lt_iff_lt_mul hB]; exact hj
  have := SR.C43_centred_gram hP hB hreach hdone (i / B) (i % B) (j / B) (j % B) hi1 (Nat.mod_lt _ hB) hj1
    (Nat.mod_lt _ hB)
  rw [Nat.mul_comm (j / B), Nat.div_add_mod] at this
  exact this

theorem ring_herm {P B : ℕ} (hP : 0 < P) (hB : 0 < B) (o : ℕ → ℕ → V) {ring : SR.Ring V 𝕜}
    (hreach : RingReachable (fun a b => inner 𝕜 a b) P B o ring) (hdone : RingDone P B ring) {i j : ℕ}
    (hi : i < P * B) (hj : j < P * B) : (starRingEnd 𝕜)
      (matrix B (P * B) (fun r q => entry P B ring r (q / (P * B)) (q % (P * B))) i j)
        = matrix B (P * B) (fun r q => entry P B ring r (q / (P * B)) (q % (P * B))) j i := by
  rw [ring_matrix hP hB o hreach hdone hi hj, ring_matrix hP hB o hreach hdone hj hi, map_div₀, inner_conj_symm]
  simp

/-- **C131.** From the samples on `P` processes to the direction on the master: whatever the schedule of the
ring exchange, the path of the eigensolver, the process grid and the eigenvectors the library returns, the
direction is the MinSR direction of all samples together; it never points against the estimated gradient, and
if the hard cutoff keeps all eigenvalues but zero it is the solution of least norm of the
stochastic-reconfiguration equation. -/
theorem C131_direction {real : Bool} (hreal : real = true → ∀ x : 𝕜, (starRingEnd 𝕜) x = x) {P B : ℕ}
    (hP : 0 < P) (hB : 0 < B) {g : Grid} (hb : 0 < g.nb) (hg : g.nprow * g.npcol = P)
    (hs : ∀ r < P, g.rows (P * B) r * g.cols (P * B) r ≤ 2 ^ 31) (o : ℕ → ℕ → V) (E : ℕ → ℕ → 𝕜)
    {ring : SR.Ring V 𝕜} (hreach : RingReachable (fun a b => inner 𝕜 a b) P B o ring) (hdone : RingDone P B ring)
    {rp ap : ℝ} {soft d : Bool} {y : Option (ℕ → 𝕜)}
    (h : Returns real P B g (fun r q => entry P B ring r (q / (P * B)) (q % (P * B)))
      (epsBar P B E ((∑ q, family P B E q) / ((P * B : ℕ) : 𝕜))) rp ap soft d y) :
    ∃ u, y = some u ∧
      (∀ lam z, Eigen (gram 𝕜 (family P B o)) lam z →
        assemble P B u o (ringMean 𝕜 P B o) = minsrDirection (family P B o) (family P B E) z
          (fun k => SR.filterEv soft (SR.cutoff (List.ofFn lam) rp ap) (lam k))) ∧
      0 ≤ RCLike.re (inner 𝕜 (gradEstimate (family P B E) (family P B o))
        (assemble P B u o (ringMean 𝕜 P B o))) ∧
      (soft = false → (∀ lam z, Eigen (gram 𝕜 (family P B o)) lam z →
          ∀ k, lam k ≠ 0 → SR.cutoff (List.ofFn lam) rp ap < |lam k|) →
        SR.cov 𝕜 (SR.samplesSet (family P B o)) (assemble P B u o (ringMean 𝕜 P B o))
            = gradEstimate (family P B E) (family P B o) ∧
        ∀ δ', SR.cov 𝕜 (SR.samplesSet (family P B o)) δ' = gradEstimate (family P B E) (family P B o) →
          ‖assemble P B u o (ringMean 𝕜 P B o)‖ ≤ ‖δ'‖) := by
  have hN : 0 < P * B := Nat.mul_pos hP hB
  haveI : Nonempty (Fin (P * B)) := ⟨⟨0, hN⟩⟩
  have hmean : SR.mean 𝕜 (SR.samplesSet (family P B o)) = ringMean 𝕜 P B o := by
    rw [SR.mean_family, Fintype.card_fin, ringMean]
    congr 1
    exact sum_family P B o
  have hmat := fun i j => ring_matrix (𝕜 := 𝕜) hP hB o hreach hdone (i := i) (j := j)
  have hT := fun i j => ring_herm (𝕜 := 𝕜) hP hB o hreach hdone (i := i) (j := j)
  obtain ⟨u, ev, Z, e, hS, hu⟩ := returns_eq hreal hP hb hg hs hT h
  have hgram : (fun i j : Fin (P * B) => matrix B (P * B)
      (fun r q => entry P B ring r (q / (P * B)) (q % (P * B))) i j) = gram 𝕜 (family P B o) := by
    funext i j
    rw [hmat i j i.2 j.2, gram, hmean, Fintype.card_fin]
    rfl
  have hE : Eigen (gram 𝕜 (family P B o)) (fun k => ev k) (fun k i => Z i k) := by
    unfold Solved at hS; rwa [hgram] at hS
  have hlist : (List.range (P * B)).map ev = List.ofFn fun k : Fin (P * B) => ev k := by
    apply List.ext_getElem <;> simp
  have heps : (fun i : Fin (P * B) => epsBar P B E ((∑ q, family P B E q) / ((P * B : ℕ) : 𝕜)) i)
      = SR.epsilonBar (family P B E) ((∑ j, family P B E j) / (Fintype.card (Fin (P * B)) : 𝕜)) := by
    funext i
    unfold epsBar SR.epsilonBar allgather family
    simp only [Fintype.card_fin]
    rw [Nat.mul_comm B P]
  have hdir : assemble P B u o (ringMean 𝕜 P B o) = minsrDirection (family P B o) (family P B E)
      (fun k i => Z i k) fun k => SR.filterEv soft (SR.cutoff (List.ofFn fun k : Fin (P * B) => ev k) rp ap) (ev k) := by
    rw [assemble_eq hP, minsrDirection, hmean]
    congr 1
    funext q
    rw [hu q, heps, ← hlist]
    simp only [pinv_eq _ _ _ _ (Fin.is_lt _)]
  refine ⟨u, e, fun lam z hE' => ?_, ?_, fun hsoft hcut => ?_⟩
  · rw [hdir]
    have hc : SR.cutoff (List.ofFn fun k : Fin (P * B) => ev k) rp ap = SR.cutoff (List.ofFn lam) rp ap := by
      refine cutoff_congr (fun e => ?_) rp ap
      simp only [List.mem_ofFn']
      constructor
      · rintro ⟨k, rfl⟩
        obtain ⟨l, hl⟩ := eigen_mem hE hE' k
        exact ⟨l, hl.symm⟩
      · rintro ⟨k, rfl⟩
        obtain ⟨l, hl⟩ := eigen_mem hE' hE k
        exact ⟨l, hl.symm⟩
    unfold minsrDirection
    rw [hc]
    congr 1
    exact eigenSolve_unique hE hE' (SR.filterEv soft (SR.cutoff (List.ofFn lam) rp ap)) _
  · rw [hdir]
    exact SR.C70_descent (family P B o) (family P B E) _ _ hE soft _
  · rw [hdir, hsoft]
    exact SR.C70_solves_sr (family P B o) (family P B E) _ _ hE _ (hcut _ _ hE)

/-- three processes with two samples each: the exchange completes and both paths return -/
example (d : Bool) (E : ℕ → ℕ → ℝ) : ∃ ring y,
    RingReachable (𝕜 := ℝ) (fun a b : ℝ => inner ℝ a b) 3 2 (fun r i => 2 * r + i) ring ∧ RingDone 3 2 ring ∧
    Returns (𝕜 := ℝ) true 3 2 ⟨3, 1, 64⟩ (fun r q => entry 3 2 ring r (q / (3 * 2)) (q % (3 * 2)))
      (epsBar 3 2 E ((∑ q, family 3 2 E q) / ((3 * 2 : ℕ) : ℝ))) (1 / 10) 0 false d y := by
  obtain ⟨ring, h1, h2⟩ := SR.C42_completes (𝕜 := ℝ) (V := ℝ) (B := 2) (by decide : 0 < 3)
    (fun a b => inner ℝ a b) (fun r i => 2 * r + i)
  obtain ⟨y, hy⟩ := C130_returns (𝕜 := ℝ) (real := true) (by simp) (by decide : 0 < 3) (g := ⟨3, 1, 64⟩) (by decide)
    (by decide) (fun i j => ring_herm (by decide) (by decide) _ h1 h2 (i := i) (j := j))
    (epsBar 3 2 E ((∑ q, family 3 2 E q) / ((3 * 2 : ℕ) : ℝ))) (1 / 10) 0 false d
  exact ⟨ring, y, h1, h2, hy⟩

end QLPeps.MinSR
