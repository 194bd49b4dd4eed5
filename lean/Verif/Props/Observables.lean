import Mathlib.Tactic
import Verif.Lemmas.ObservablesDump
import Verif.Spec.Observables

/-!
# Observable registry, dump, packed correlators, particle histogram (C54, C55, C74, C75)

`measured s ly lx h ranks` are the registries of all samples: `ranks` lists, for every MPI rank, the
samples it measured. All statements hold for every lattice size, every number of ranks and samples and
every iteration order of the hash map (`Perm`).
-/

namespace QLPeps.Observables

open QLPeps.Statistics

variable {𝕜 : Type*} [RCLike 𝕜]

/-- C54 (partial: the claim is false for the triangular solver with the structure factor enabled, see
`C54_triangle_structure_factor_throws`). For every other solver, lattice and set of samples: the
averaging never meets lists of different lengths, the dump never throws, every declared array that is
measured is written once: a two-dimensional one as a table of the declared shape whose entry `(y, x)` is
the average of the samples' value at `(y, x)`, a one-dimensional one as a column of the declared length
holding the averaged registry entry; the energy is the average of the sample energies. -/
theorem C54_dump_matches_declaration_partial (s : Solver) (hs : s.returns = true) (ht : s ≠ .triangle true)
    (ly lx h : ℕ) (hly : 0 < ly) (hlx : 0 < lx) (ranks : List (List (Vals 𝕜))) (hr : ranks ≠ [])
    (hne : ∀ r ∈ ranks, r ≠ []) :
    ∃ reg, registry (measured s ly lx h ranks) = some reg ∧ ∀ reg', reg'.Perm reg →
      ∃ files, dump (describe s ly lx) reg' = .ok files ∧ (files.map Prod.fst).Nodup ∧
        (∃ f, ("energy", f) ∈ files ∧ f = .column [doubleAverage ranks (fun v => v.energy)]) ∧
        ∀ m ∈ describe s ly lx, s.records m.key = true → 0 ∉ m.shape →
          (∀ r c, m.shape = [r, c] → ∃ f, (m.key, f) ∈ files ∧ f.IsTable r c ∧
            ∀ y x, y < r → x < c → f.entry y x = some (doubleAverage ranks (fun v => cell s m.key v y x))) ∧
          (∀ n, m.shape = [n] → ∃ vals, (m.key, vals) ∈ reg ∧ (m.key, File.column vals) ∈ files ∧ vals.length = n) := by
  obtain ⟨reg, e, nd, hk, hval⟩ := registry_emitted s hs ly lx h hly hlx ranks hr hne
  obtain ⟨v0⟩ : Nonempty (Vals 𝕜) := by
    obtain ⟨r, rest, rfl⟩ := List.exists_cons_of_ne_nil hr
    obtain ⟨v, _, rfl⟩ := List.exists_cons_of_ne_nil (hne r List.mem_cons_self)
    exact ⟨v⟩
  refine ⟨reg, e, fun reg' hp => ?_⟩
  have hE : ∀ e ∈ reg', ∃ f, dumpKey (describe s ly lx) e.1 e.2 = .ok f := by
    rintro ⟨k, l⟩ he
    obtain ⟨g, hg, hlen, _⟩ := hval k l (hp.mem_iff.1 he)
    obtain ⟨m, _, h1 | ⟨n, _, _, h1⟩ | ⟨r, c, _, _, h1⟩⟩ := dumpKey_ok s ly lx v0 k (g v0)
      (emitted_fits s ly lx h hly hlx v0 _ (hg v0) (.inl ht)) l (hlen v0)
    · exact ⟨_, h1.2⟩
    · exact ⟨_, h1⟩
    · exact ⟨_, h1⟩
  have : Nonempty (File 𝕜) := ⟨.column []⟩
  choose! F hF using hE
  refine ⟨reg'.map (fun e => (e.1, F e)), dump_forall _ _ F hF, ?_, ?_, ?_⟩
  · rw [List.map_map]
    exact ((hp.map Prod.fst).nodup_iff.2 nd : (reg'.map Prod.fst).Nodup)
  · have hin : ∀ v : Vals 𝕜, Emitted s ly lx h v ("energy", [v.energy]) := by
      intro v; cases s <;> simp [Emitted, BaseEntry]
    obtain ⟨⟨k, l⟩, hkl, hkk⟩ := List.mem_map.1 ((hk v0 "energy").2 ⟨_, hin v0⟩)
    dsimp only at hkk
    subst hkk
    have hl' := hp.mem_iff.2 hkl
    obtain ⟨g, hg, hlen, hav⟩ := hval _ _ hkl
    have hgv : ∀ v, g v = [v.energy] := fun v => emitted_unique s hs ly lx h hly hlx v _ _ _ (hg v) (hin v)
    have hlen1 : l.length = 1 := by rw [hlen v0, hgv]; rfl
    refine ⟨F ("energy", l), List.mem_map.2 ⟨_, hl', rfl⟩, ?_⟩
    have hshape : (describe s ly lx).find? (fun m => m.key = "energy") = some ⟨"energy", [], false⟩ := by
      cases s <;> simp [describe, descBase]
    have h1 := hF _ hl'
    unfold dumpKey at h1
    dsimp only at h1
    rw [hshape] at h1
    simp only [List.isEmpty_nil, if_true, Except.ok.injEq] at h1
    rw [← h1]
    obtain ⟨a, rfl⟩ := List.length_eq_one_iff.1 hlen1
    have := hav 0 (by simp)
    simp only [hgv, List.getD_cons_zero] at this
    rw [this]
  · intro m hm hrec h0
    have hne' : ∀ sh : List ℕ, sh ≠ [] → m.shape = sh → m.shape ≠ [] := fun sh h1 h2 => by rw [h2]; exact h1
    have key : m.shape ≠ [] → ∃ l, (m.key, l) ∈ reg ∧
        (describe s ly lx).find? (fun m' => m'.key = m.key) = some m := by
      intro hms
      obtain ⟨hfind, hem⟩ := declared_emitted (K := 𝕜) s ly lx h m hm hms h0 hrec
      obtain ⟨⟨k, l⟩, hkl, hkk⟩ := List.mem_map.1 ((hk v0 m.key).2 (hem v0))
      dsimp only at hkk
      subst hkk
      exact ⟨l, hkl, hfind⟩
    constructor
    · intro r c hsh
      obtain ⟨l, hkl, hfind⟩ := key (hne' _ (by simp) hsh)
      obtain ⟨g, hg, hlen, hav⟩ := hval _ _ hkl
      have hl' := hp.mem_iff.2 hkl
      have hcase : ∀ v, g v = matrix r c (cell s m.key v) ∧
          dumpKey (describe s ly lx) m.key l = .ok (tableOf r c l) := by
        intro v
        obtain ⟨m', hm', h1⟩ := dumpKey_ok s ly lx v m.key (g v)
          (emitted_fits s ly lx h hly hlx v _ (hg v) (.inl ht)) l (hlen v)
        rw [hfind] at hm'; cases hm'
        rcases h1 with h1 | ⟨n, h1, _⟩ | ⟨r', c', h1, h2, h3⟩
        · rw [hsh] at h1; simp at h1
        · rw [hsh] at h1; simp at h1
        · rw [hsh] at h1; simp at h1; obtain ⟨rfl, rfl⟩ := h1
          exact ⟨h2, h3⟩
      have hFe : F (m.key, l) = tableOf r c l := by
        have := hF _ hl'
        rw [(hcase v0).2] at this
        exact (Except.ok.inj this).symm
      refine ⟨F (m.key, l), List.mem_map.2 ⟨_, hl', rfl⟩, by rw [hFe]; exact table_isTable r c l, ?_⟩
      intro y x hy hx
      have hlt : y * c + x < l.length := by
        rw [hlen v0, (hcase v0).1, matrix_length]
        calc y * c + x < y * c + c := by omega
          _ = (y + 1) * c := by ring
          _ ≤ r * c := Nat.mul_le_mul_right c hy
      rw [hFe, table_entry r c l y x hy hx, hav _ hlt]
      congr 2
      funext v
      rw [(hcase v).1, matrix_get r c _ y x hy hx]
    · intro n hsh
      obtain ⟨l, hkl, hfind⟩ := key (hne' _ (by simp) hsh)
      obtain ⟨g, hg, hlen, hav⟩ := hval _ _ hkl
      have hl' := hp.mem_iff.2 hkl
      obtain ⟨m', hm', h1⟩ := dumpKey_ok s ly lx v0 m.key (g v0)
          (emitted_fits s ly lx h hly hlx v0 _ (hg v0) (.inl ht)) l (hlen v0)
      rw [hfind] at hm'; cases hm'
      rcases h1 with h1 | ⟨n', h1, h2, h3⟩ | ⟨r', c', h1, h2, h3⟩
      · rw [hsh] at h1; simp at h1
      · rw [hsh] at h1; simp at h1; subst h1
        refine ⟨l, hkl, ?_, by rw [hlen v0, h2]⟩
        have := hF _ hl'
        rw [h3] at this
        exact List.mem_map.2 ⟨_, hl', by rw [← Except.ok.inj this]⟩
      · rw [hsh] at h1; simp at h1

/-- The hypotheses of C54 hold: an XXZ run on a 3 × 4 lattice with two ranks. -/
example (v w : Vals ℝ) : (Solver.xxz true).returns = true ∧ Solver.xxz true ≠ .triangle true ∧
    (∀ r ∈ [[v, w], [w]], r ≠ []) ∧
    (⟨"bond_energy_h", [3, 3], false⟩ : Meta) ∈ describe (.xxz true) 3 4 := by
  refine ⟨rfl, by simp, by simp, by simp [describe, descBase]⟩

/-- C54 is false for the triangular Heisenberg solver with the structure factor enabled: it declares
`SpSm_cross` with a zero dimension, so the dump throws, on every lattice with at least two rows, for
every set of samples and every iteration order. -/
theorem C54_triangle_structure_factor_throws (ly lx h : ℕ) (hly : 2 ≤ ly) (hlx : 0 < lx)
    (ranks : List (List (Vals 𝕜))) (hr : ranks ≠ []) (hne : ∀ r ∈ ranks, r ≠ []) :
    ∃ reg, registry (measured (.triangle true) ly lx h ranks) = some reg ∧ ∀ reg', reg'.Perm reg →
      dump (describe (.triangle true) ly lx) reg' = .error .zeroDimension := by
  obtain ⟨reg, e, nd, hk, hval⟩ := registry_emitted (.triangle true) rfl ly lx h (by omega) hlx ranks hr hne
  obtain ⟨v0⟩ : Nonempty (Vals 𝕜) := by
    obtain ⟨r, rest, rfl⟩ := List.exists_cons_of_ne_nil hr
    obtain ⟨v, _, rfl⟩ := List.exists_cons_of_ne_nil (hne r List.mem_cons_self)
    exact ⟨v⟩
  refine ⟨reg, e, fun reg' hp => ?_⟩
  have hbad : ∀ l : List 𝕜, dumpKey (describe (.triangle true) ly lx) "SpSm_cross" l = .error .zeroDimension := by
    intro l
    unfold dumpKey
    simp [describe, descBase]
  obtain ⟨⟨k, l⟩, hkl, hkk⟩ := List.mem_map.1 ((hk v0 "SpSm_cross").2 ⟨_, .inl (.inl ⟨.inr ⟨⟨rfl, hly⟩, rfl⟩, by simp⟩)⟩)
  dsimp only at hkk
  subst hkk
  apply mapM_error _ _ _ _ (hp.mem_iff.2 hkl)
  · dsimp only
    rw [hbad]; rfl
  · rintro ⟨k, l⟩ hm
    by_cases hks : k = "SpSm_cross"
    · right
      dsimp only
      rw [hks, hbad]; rfl
    · left
      obtain ⟨g, hg, hlen, _⟩ := hval k l (hp.mem_iff.1 hm)
      obtain ⟨m, _, h1 | ⟨n, _, _, h1⟩ | ⟨r, c, _, _, h1⟩⟩ := dumpKey_ok _ ly lx v0 k (g v0)
        (emitted_fits _ ly lx h (by omega) hlx v0 _ (hg v0) (.inr hks)) l (hlen v0)
      · exact ⟨_, by dsimp only; rw [h1.2]; rfl⟩
      · exact ⟨_, by dsimp only; rw [h1]; rfl⟩
      · exact ⟨_, by dsimp only; rw [h1]; rfl⟩

/-- C55: the documented packing. The pairs `i ≤ j < n` are numbered `0, …, n(n+1)/2 - 1`, each number
belonging to exactly one pair. -/
theorem C55_packing_is_a_numbering (n k : ℕ) (hk : k < n * (n + 1) / 2) :
    ∃! p : ℕ × ℕ, p.1 ≤ p.2 ∧ p.2 < n ∧ packedIndex n p.1 p.2 = k := packed_exists_unique n k hk

/-- C55: every pair gets a number inside the list. -/
theorem C55_packing_in_range (n i j : ℕ) (hij : i ≤ j) (hj : j < n) : packedIndex n i j < n * (n + 1) / 2 :=
  packed_lt n i j hij hj

/-- C55: in the file written for the all-to-all correlator of the XXZ and triangular solvers, the value
at the documented index of the pair of sites `i ≤ j` (sites numbered row by row) is the average over
ranks and samples of `Sz(i) Sz(j)`. -/
theorem C55_all_to_all_correlator (s : Solver) (hs : (∃ b, s = .xxz b) ∨ s = .triangle false)
    (ly lx h : ℕ) (hly : 0 < ly) (hlx : 0 < lx) (ranks : List (List (Vals 𝕜))) (hr : ranks ≠ [])
    (hne : ∀ r ∈ ranks, r ≠ []) :
    ∃ reg, registry (measured s ly lx h ranks) = some reg ∧ ∀ reg', reg'.Perm reg →
      ∃ files vals, dump (describe s ly lx) reg' = .ok files ∧ ("SzSz_all2all", File.column vals) ∈ files ∧
        vals.length = (ly * lx) * (ly * lx + 1) / 2 ∧
        ∀ i j, i ≤ j → j < ly * lx → vals.getD (packedIndex (ly * lx) i j) 0 =
          doubleAverage ranks (fun v => ((v.cfg (i / lx) (i % lx) : 𝕜) - 1 / 2) *
            ((v.cfg (j / lx) (j % lx) : 𝕜) - 1 / 2)) := by
  have hret : s.returns = true := by rcases hs with ⟨b, rfl⟩ | rfl <;> rfl
  have ht : s ≠ .triangle true := by rcases hs with ⟨b, rfl⟩ | rfl <;> simp
  have hrec : s.records "SzSz_all2all" = true := by rcases hs with ⟨b, rfl⟩ | rfl <;> rfl
  have hm : (⟨"SzSz_all2all", [ly * lx * (ly * lx + 1) / 2], true⟩ : Meta) ∈ describe s ly lx := by
    rcases hs with ⟨b, rfl⟩ | rfl <;> simp [describe]
  have hem : ∀ v : Vals 𝕜, Emitted s ly lx h v
      ("SzSz_all2all", szszAll (matrix ly lx (fun y x => spinHalf (v.cfg y x)))) := by
    intro v
    rcases hs with ⟨b, rfl⟩ | rfl
    · exact .inl (.inr rfl)
    · exact .inr rfl
  obtain ⟨reg, e, hd⟩ := C54_dump_matches_declaration_partial s hret ht ly lx h hly hlx ranks hr hne
  obtain ⟨reg₂, e₂, _, _, hval⟩ := registry_emitted s hret ly lx h hly hlx ranks hr hne
  rw [e] at e₂; cases e₂
  refine ⟨reg, e, fun reg' hp => ?_⟩
  obtain ⟨files, hf, _, _, hall⟩ := hd reg' hp
  have htp := tri_pos ly lx hly hlx
  obtain ⟨vals, hv1, hv2, hv3⟩ := (hall _ hm hrec (by simp; omega)).2 _ rfl
  refine ⟨files, vals, hf, hv2, hv3, ?_⟩
  intro i j hij hj
  obtain ⟨g, hg, hlen, hav⟩ := hval _ _ hv1
  rw [hav _ (by rw [hv3]; exact packed_lt _ i j hij hj)]
  congr 1
  funext v
  rw [emitted_unique s hret ly lx h hly hlx v _ _ _ (hg v) (hem v)]
  have hN : (matrix ly lx (fun y x => spinHalf (K := 𝕜) (v.cfg y x))).length = ly * lx := matrix_length _ _ _
  have := szszAll_get (matrix ly lx (fun y x => spinHalf (K := 𝕜) (v.cfg y x))) i j hij (by omega)
  rw [hN] at this
  rw [this]
  have hget : ∀ n, n < ly * lx → (matrix ly lx (fun y x => spinHalf (K := 𝕜) (v.cfg y x))).getD n 0 =
      (v.cfg (n / lx) (n % lx) : 𝕜) - 1 / 2 := by
    intro n hn
    have h1 := matrix_get ly lx (fun y x => spinHalf (K := 𝕜) (v.cfg y x)) (n / lx) (n % lx)
      (Nat.div_lt_of_lt_mul (by rw [Nat.mul_comm]; exact hn)) (Nat.mod_lt _ hlx) 0
    rw [Nat.div_add_mod'] at h1
    rw [h1]; rfl
  rw [hget i (by omega), hget j hj]

/-- Four sites: the pair (1, 2) is stored at position 5. -/
example : packedIndex 4 1 2 = 5 ∧ packedIndex 4 3 3 = 9 ∧ 4 * (4 + 1) / 2 = 10 := by decide

/-- C74: with no selected reference bonds, the coordinate table of the pair correlation lists exactly the
pairs of a horizontal bond at `(y1, x1)` and one at `(y2, x2)` in a lower row, each once. -/
theorem C74_all_pairs_listed_once (ly lx : ℕ) :
    (scMapping ly lx []).Nodup ∧ ∀ t, t ∈ scMapping ly lx [] ↔
      ∃ y1 x1 y2 x2, t = [y1, x1, 0, y2, x2, 0] ∧ y1 < y2 ∧ y2 < ly ∧ x1 + 1 < lx ∧ x2 + 1 < lx :=
  ⟨scMapping_nodup_all ly lx, mem_scMapping_all ly lx⟩

/-- C74: with selected reference bonds, exactly the pairs whose upper bond is selected (selections outside
the lattice are ignored); each once if the selection has no repetition. -/
theorem C74_selected_pairs (ly lx : ℕ) (refs : List (ℕ × ℕ)) (hr : refs ≠ []) :
    (refs.Nodup → (scMapping ly lx refs).Nodup) ∧ ∀ t, t ∈ scMapping ly lx refs ↔
      ∃ y1 x1 y2 x2, t = [y1, x1, 0, y2, x2, 0] ∧ (y1, x1) ∈ refs ∧ y1 < y2 ∧ y2 < ly ∧ x1 + 1 < lx ∧ x2 + 1 < lx :=
  ⟨scMapping_nodup ly lx refs hr, mem_scMapping ly lx refs hr⟩

/-- C74: the table always has as many lines as the declared number of values. -/
theorem C74_length_is_declared (ly lx : ℕ) (refs : List (ℕ × ℕ)) :
    (scMapping ly lx refs).length = numSCPairs ly lx refs := scMapping_length ly lx refs

example : (scMapping 3 3 [(1, 0), (0, 1)]).length = 6 ∧ scMapping 2 2 [] = [[0, 0, 0, 1, 0, 0]] := by
  refine ⟨?_, by decide +kernel⟩
  rw [C74_length_is_declared]; decide +kernel

/-- C75: the particle histogram of one sample. Whenever the table of particle numbers covers every
state of the configuration, the sample is a list of declared length with a single one, at the total
particle number; otherwise an exception is thrown. -/
theorem C75_one_hot (perState config : List ℕ) :
    (perState ≠ [] ∧ (∀ s ∈ config, s < perState.length) →
      ∃ l : List 𝕜, oneHot perState config = some l ∧
        some l.length = binCount config.length perState ∧ particles perState config < l.length ∧
        ∀ k, k < l.length → l.getD k 0 = if k = particles perState config then 1 else 0) ∧
    (perState = [] ∨ (∃ s ∈ config, perState.length ≤ s) → oneHot (K := 𝕜) perState config = none) :=
  ⟨fun h => oneHot_some perState config h.1 h.2, oneHot_none perState config⟩

/-- C75: hence the averaged histogram is a probability distribution: bin `k` is the average over ranks of
the fraction of samples with `k` particles, and the bins add up to one. -/
theorem C75_histogram_is_a_distribution (perState : List ℕ) (sites : ℕ) (hp : perState ≠ [])
    (ranks : List (List (List ℕ))) (hr : ranks ≠ []) (hne : ∀ r ∈ ranks, r ≠ [])
    (hsz : ∀ r ∈ ranks, ∀ c ∈ r, c.length = sites) (hcov : ∀ r ∈ ranks, ∀ c ∈ r, ∀ s ∈ c, s < perState.length) :
    ∃ bins, binCount sites perState = some bins ∧
      ∃ l, gatherKey (ranks.map (fun r => r.map (fun c =>
          [("particle_number_distribution", (oneHot (K := 𝕜) perState c).getD [])]))) "particle_number_distribution"
          = some l ∧ l.length = bins ∧ l.sum = 1 ∧
        ∀ k, k < bins → l.getD k 0 = doubleAverage ranks (fun c => if particles perState c = k then 1 else 0) :=
  histogram_distribution perState sites hp ranks hr hne hsz hcov

/-- t-J states 0, 1, 2 with 1, 1, 0 particles on four sites. -/
example : particles [1, 1, 0] [0, 2, 1, 0] = 3 ∧ binCount 4 [1, 1, 0] = some 5 ∧
    (∀ s ∈ [0, 2, 1, 0], s < [1, 1, 0].length) := by decide

end QLPeps.Observables
