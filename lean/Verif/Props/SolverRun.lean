import Verif.Lemmas.SolverEnergy
import Verif.Props.Energy

/-!
# Property C103: without truncation the solvers return the local energy of the network
-/

namespace QLPeps.SolverRun

universe u

open QLPeps.Contractor QLPeps.Energy QLPeps.Bmps QLPeps.SolverRun.Spec
open QLPeps.Peps (Tn Lib dag)
open QLPeps.Bmps.Spec (Lossless Fits value pair ExactVisit)
open QLPeps.Tps.Spec (Bond)
open QLPeps.Spec (exact SpinCfg toConfig weight braket xxzH triangularH triangularJ1J2H tfimH)

noncomputable section

variable {𝕜 : Type u} [RCLike 𝕜] {rows cols : ℕ} {lib : Lib 𝕜} {dim : Bond .obc rows cols → ℕ}
  {sitps : Site → ℕ → Tn 𝕜} {d : ℕ}

/-- **C103.** Exchange models on an open lattice (XXZ, J1-J2, triangular Heisenberg, and any other
model of this kind): with factorizations that truncate nothing, and from any caches that are not out
of date, the solver reports a zero amplitude exactly if the amplitude of the sample is zero; otherwise
it returns the local energy for the wave function given by the full contraction, the amplitude of the
sample once for every row and every column, the holes of all sites if asked for, and caches that are
not out of date. -/
theorem C103_exchange_solver [DecidableEq 𝕜] (hl : Lossless lib) (hf : FitsAll dim sitps d)
    (hr : 2 ≤ rows) (hc : 2 ≤ cols) (m : PairModel 𝕜) (isZero : 𝕜 → Bool)
    (hz : ∀ a, isZero a = true ↔ a = 0) (calchols : Bool) (cfg : Config) (hcfg : ∀ s, cfg s < d)
    (c : Ctr (List (Tn 𝕜)) (Tn 𝕜) (Tn 𝕜))
    (hfresh : Fresh (tensorOps lib rows cols) rows cols (project sitps cfg) c) :
    let ψ := amplitude dim sitps
    let run := pairSolver lib rows cols sitps cfg isZero calchols m c
    (ψ cfg = 0 → run = .error .zeroAmplitude) ∧
    (ψ cfg ≠ 0 → ∃ r, run = .ok r ∧
      calEnergy m (exact ψ cfg) cfg rows cols = .ok r.energy ∧
      r.psi = List.replicate (rows + cols) (ψ cfg) ∧
      (calchols = true → GoodHoles dim d sitps cfg r.holes) ∧
      (calchols = false → r.holes = []) ∧
      Fresh (tensorOps lib rows cols) rows cols (project sitps cfg) r.caches) := by
  intro ψ run
  have hfit := hf cfg hcfg
  obtain ⟨a1, a2⟩ := run_all hl hfit isZero ⟨true, calchols, false, m.nnn, false, fun _ => none⟩ hr hc
    (by simp) c hfresh
  refine ⟨fun h0 => ?_, fun h0 => ?_⟩
  · simp only [run, pairSolver, a1 ((hz _).2 h0)]
    rfl
  · obtain ⟨c', e, g⟩ := a2 (by
      rw [Bool.eq_false_iff]; exact fun h => h0 ((hz _).1 h))
    have hex := all_exact hl hfit ⟨true, calchols, false, m.nnn, false, fun _ => none⟩ hr hc
    have hin := all_sitesIn (tensorOps5 lib rows cols) (project sitps cfg)
      ⟨true, calchols, false, m.nnn, false, fun _ => none⟩ (rows := rows) (cols := cols)
    have he := energy_of_exact (pairTerm sitps cfg m) (pairVal m (exact ψ cfg) cfg (1 / ψ cfg)) _ _ hex
      (by
        obtain ⟨a, vs, e⟩ := all_head (cols := cols) (tensorOps5 lib rows cols) (project sitps cfg)
          calchols false m.nnn false (by omega : 1 ≤ rows)
        exact ⟨_, _, a, vs, e⟩)
      (fun _ _ _ => rfl) (fun v hv => pairTerm_eq hf cfg hcfg m _ _ v (hex v hv) (hin v hv))
    rw [pair_sum] at he
    have hrun : run = _ := pairSolver_ok e he
    refine ⟨_, hrun, ?_, ?_, fun hh => ?_, fun hh => all_noHole _ _ _ hh, g⟩
    · dsimp only
      rw [calEnergy_ok hr hc (fun _ _ => h0) (fun _ _ => h0)]
      congr 3
      refine List.map_congr_left fun b _ => ?_
      obtain ⟨x, y, k⟩ := b
      cases k <;> rfl
    · dsimp only
      rw [psiList_eq _ (ψ cfg) fun d s a h => hex _ h, psiList_all]
    · obtain ⟨-, h2, -⟩ := C77_every_bond_exactly_once (tensorOps5 lib rows cols) rows cols
        (project sitps cfg) ⟨true, calchols, false, m.nnn, false, fun _ => none⟩
      exact goodHoles hf cfg hcfg _ _ hex hin (h2 hh).1 (h2 hh).2

/-- **C103.** The triangular J1-J2 solver, which does not check for zero, from three rows on. -/
theorem C103_triangle_j1j2_solver (hl : Lossless lib) (hf : FitsAll dim sitps d)
    (hr : 3 ≤ rows) (hc : 2 ≤ cols) (j2 : 𝕜) (calchols : Bool) (cfg : Config) (hcfg : ∀ s, cfg s < d)
    (c : Ctr (List (Tn 𝕜)) (Tn 𝕜) (Tn 𝕜))
    (hfresh : Fresh (tensorOps lib rows cols) rows cols (project sitps cfg) c) :
    let ψ := amplitude dim sitps
    ∃ r, triSolver lib rows cols sitps cfg calchols j2 c = .ok r ∧
      triEnergy j2 (exact ψ cfg) cfg rows cols = .ok r.energy ∧
      r.psi = List.replicate (rows + cols) (ψ cfg) ∧
      (calchols = true → GoodHoles dim d sitps cfg r.holes) ∧
      (calchols = false → r.holes = []) ∧
      Fresh (tensorOps lib rows cols) rows cols (project sitps cfg) r.caches := by
  intro ψ
  have hfit := hf cfg hcfg
  obtain ⟨c', e, g⟩ := (run_all hl hfit (fun _ => false) ⟨true, calchols, false, true, true, fun _ => none⟩
    (by omega) hc (fun _ => hr) c hfresh).2 rfl
  have hex := all_exact hl hfit ⟨true, calchols, false, true, true, fun _ => none⟩ (by omega) hc
  have hin := all_sitesIn (tensorOps5 lib rows cols) (project sitps cfg)
    ⟨true, calchols, false, true, true, fun _ => none⟩ (rows := rows) (cols := cols)
  have he := energy_of_exact (triTerm sitps cfg j2) (triVal j2 (exact ψ cfg) cfg (1 / ψ cfg)) _ _ hex
    (by
      obtain ⟨a, vs, e⟩ := all_head (cols := cols) (tensorOps5 lib rows cols) (project sitps cfg)
        calchols false true true (by omega : 1 ≤ rows)
      exact ⟨_, _, a, vs, e⟩)
    (fun _ _ _ => rfl) (fun v hv => triTerm_eq hf cfg hcfg j2 _ _ v (hex v hv) (hin v hv))
  rw [tri_sum] at he
  have hrun := triSolver_ok e he
  refine ⟨_, hrun, ?_, ?_, fun hh => ?_, fun hh => all_noHole _ _ _ hh, g⟩
  · exact triEnergy_ok j2 (exact ψ cfg) cfg rows cols hr hc (ψ cfg) (fun _ => rfl) (fun _ => rfl)
  · dsimp only
    rw [psiList_eq _ (ψ cfg) fun d s a h => hex _ h, psiList_all]
  · obtain ⟨-, h2, -⟩ := C77_every_bond_exactly_once (tensorOps5 lib rows cols) rows cols
      (project sitps cfg) ⟨true, calchols, false, true, true, fun _ => none⟩
    exact goodHoles hf cfg hcfg _ _ hex hin (h2 hh).1 (h2 hh).2

/-- **C103.** The transverse-field Ising solver, which does not check for zero and goes over the rows
only, so that one row is enough. -/
theorem C103_tfim_solver (hl : Lossless lib) (hf : FitsAll dim sitps d) (hd : 1 < d)
    (hr : 1 ≤ rows) (hc : 2 ≤ cols) (h : 𝕜) (calchols : Bool) (cfg : Config) (hcfg : ∀ s, cfg s < d)
    (c : Ctr (List (Tn 𝕜)) (Tn 𝕜) (Tn 𝕜))
    (hfresh : Fresh (tensorOps lib rows cols) rows cols (project sitps cfg) c) :
    let ψ := amplitude dim sitps
    ∃ r, tfimSolver lib rows cols sitps cfg calchols h c = .ok r ∧
      tfimOBC h (exact ψ cfg) cfg rows cols = .ok r.energy ∧
      r.psi = List.replicate rows (ψ cfg) ∧
      (calchols = true → GoodHoles dim d sitps cfg r.holes) ∧
      (calchols = false → r.holes = []) ∧
      Fresh (tensorOps lib rows cols) rows cols (project sitps cfg) r.caches := by
  intro ψ
  have hfit := hf cfg hcfg
  obtain ⟨c', e, g⟩ := (traverseHorizontal_fresh (tensorOps5 lib rows cols) rows cols
    (project sitps cfg) (fun _ => false)
    ⟨true, calchols, true, false, false, fun _ => none⟩ hr hc c
    ((good_iff_fresh _ _ _ _ _).2 hfresh)).2 (by simp)
  have hex := rows_exact hl hfit ⟨true, calchols, true, false, false, fun _ => none⟩ hc
  have hin : ∀ v ∈ (List.range rows).flatMap (rowVisits (tensorOps5 lib rows cols) rows cols
      (project sitps cfg) ⟨true, calchols, true, false, false, fun _ => none⟩), sitesIn rows cols v := by
    intro v hv
    simp only [List.mem_flatMap, List.mem_range] at hv
    obtain ⟨row, hrow, hv⟩ := hv
    exact row_sitesIn _ _ _ row hrow v hv
  have he := energy_of_exact (tfimTerm sitps cfg h) (tfimVal h (exact ψ cfg) (1 / ψ cfg)) _ _ hex
    (by
      obtain ⟨a, vs, e⟩ := rows_head (cols := cols) (tensorOps5 lib rows cols) (project sitps cfg)
        calchols true false false hr
      exact ⟨_, _, a, vs, e⟩)
    (fun _ _ _ => rfl) (fun v hv => tfimTerm_eq hf hd cfg hcfg h _ v (hex v hv) (hin v hv))
  rw [tfim_sum] at he
  have hrun := tfimSolver_ok e he
  refine ⟨_, hrun, ?_, ?_, fun hh => ?_, fun hh => rows_noHole _ _ _ hh, (good_iff_fresh _ _ _ _ _).1 g⟩
  · unfold tfimOBC
    rw [if_neg (by omega)]
    dsimp only
    rw [foldl_nested, zero_add]
    rfl
  · dsimp only
    rw [psiList_eq _ (ψ cfg) fun d s a h => hex _ h, psiList_flatMap _ _ (psiList_row _ _ _ _ _ _)]
  · obtain ⟨-, h2, -⟩ := C77_every_bond_exactly_once (tensorOps5 lib rows cols) rows cols
      (project sitps cfg) ⟨true, calchols, true, false, false, fun _ => none⟩
    rw [rows_holeOf] at h2
    exact goodHoles hf cfg hcfg _ _ hex hin (h2 hh).1 (h2 hh).2

/-! ## Variational energies -/

theorem toConfig_lt (s : SpinCfg rows cols) (p : Site) : toConfig s p < 2 := by
  unfold toConfig
  split
  · exact (s _).2
  · omega

/-- **C103.** The `|ψ|²`-weighted sum of the energies the XXZ solvers return is `⟨ψ|H|ψ⟩` for the
wave function `ψ` of the tensor product state. -/
theorem C103_xxz_energy (hl : Lossless lib) (hf : FitsAll dim sitps 2) (hr : 2 ≤ rows) (hc : 2 ≤ cols)
    (nnn : Bool) (jz jxy jz2 jxy2 pin : 𝕜) (isZero : 𝕜 → Bool) (hz : ∀ a, isZero a = true ↔ a = 0) :
    let ψ := fun s : SpinCfg rows cols => amplitude dim sitps (toConfig s)
    ∃ E : SpinCfg rows cols → 𝕜,
      Returns lib dim sitps (fun cfg calchols => pairSolver lib rows cols sitps cfg isZero calchols
        (xxz nnn jz jxy jz2 jxy2 pin)) E ∧
      ∑ s, weight ψ s * E s =
        braket (xxzH jz jxy (if nnn then jz2 else 0) (if nnn then jxy2 else 0) pin) ψ := by
  classical
  intro ψ
  obtain ⟨E, h1, h2⟩ := C48_xxz_estimator nnn jz jxy jz2 jxy2 pin hr hc (amplitude dim sitps)
  refine ⟨E, fun s calchols c hfr h0 => ?_, h2⟩
  obtain ⟨r, e, e', -⟩ := (C103_exchange_solver hl hf hr hc (xxz nnn jz jxy jz2 jxy2 pin) isZero hz
    calchols (toConfig s) (toConfig_lt s) c hfr).2 h0
  exact ⟨r, e, by have := (h1 s h0).symm.trans e'; injection this with this; exact this.symm⟩

/-- **C103.** The same for the Heisenberg model on the triangular lattice. -/
theorem C103_triangle_energy (hl : Lossless lib) (hf : FitsAll dim sitps 2) (hr : 2 ≤ rows)
    (hc : 2 ≤ cols) (isZero : 𝕜 → Bool) (hz : ∀ a, isZero a = true ↔ a = 0) :
    let ψ := fun s : SpinCfg rows cols => amplitude dim sitps (toConfig s)
    ∃ E : SpinCfg rows cols → 𝕜,
      Returns lib dim sitps
        (fun cfg calchols => pairSolver lib rows cols sitps cfg isZero calchols triangle) E ∧
      ∑ s, weight ψ s * E s = braket triangularH ψ := by
  classical
  intro ψ
  obtain ⟨E, h1, h2⟩ := C48_triangle_estimator hr hc (amplitude dim sitps)
  refine ⟨E, fun s calchols c hfr h0 => ?_, h2⟩
  obtain ⟨r, e, e', -⟩ := (C103_exchange_solver hl hf hr hc triangle isZero hz
    calchols (toConfig s) (toConfig_lt s) c hfr).2 h0
  exact ⟨r, e, by have := (h1 s h0).symm.trans e'; injection this with this; exact this.symm⟩

/-- **C103.** The same for the triangular J1-J2 model. -/
theorem C103_triangle_j1j2_energy (hl : Lossless lib) (hf : FitsAll dim sitps 2) (hr : 3 ≤ rows)
    (hc : 2 ≤ cols) (j2 : 𝕜) :
    let ψ := fun s : SpinCfg rows cols => amplitude dim sitps (toConfig s)
    ∃ E : SpinCfg rows cols → 𝕜,
      Returns lib dim sitps (fun cfg calchols => triSolver lib rows cols sitps cfg calchols j2) E ∧
      ∑ s, weight ψ s * E s = braket (triangularJ1J2H j2) ψ := by
  intro ψ
  obtain ⟨E, h1, h2⟩ := C48_triangle_j1j2_estimator hr hc j2 (amplitude dim sitps)
  refine ⟨E, fun s calchols c hfr h0 => ?_, h2⟩
  obtain ⟨r, e, e', -⟩ := C103_triangle_j1j2_solver hl hf hr hc j2 calchols (toConfig s)
    (toConfig_lt s) c hfr
  exact ⟨r, e, by have := (h1 s).symm.trans e'; injection this with this; exact this.symm⟩

/-- **C103.** The same for the transverse-field Ising model. -/
theorem C103_tfim_energy (hl : Lossless lib) (hf : FitsAll dim sitps 2) (hr : 1 ≤ rows)
    (hc : 2 ≤ cols) (h : 𝕜) :
    let ψ := fun s : SpinCfg rows cols => amplitude dim sitps (toConfig s)
    ∃ E : SpinCfg rows cols → 𝕜,
      Returns lib dim sitps (fun cfg calchols => tfimSolver lib rows cols sitps cfg calchols h) E ∧
      ∑ s, weight ψ s * E s = braket (tfimH h) ψ := by
  intro ψ
  obtain ⟨E, h1, h2⟩ := C49_tfim_estimator h hc (amplitude dim sitps)
  refine ⟨E, fun s calchols c hfr h0 => ?_, h2⟩
  obtain ⟨r, e, e', -⟩ := C103_tfim_solver hl hf (by omega) hr hc h calchols (toConfig s)
    (toConfig_lt s) c hfr
  exact ⟨r, e, by have := (h1 s).symm.trans e'; injection this with this; exact this.symm⟩

/-! ## A case -/

/-- a tensor product state with bonds of dimension two and any elements -/
def twoState (rows cols : ℕ) (f : Site → ℕ → List ℕ → 𝕜) (s : Site) (k : ℕ) : Tn 𝕜 :=
  twoNet rows cols (fun s => f s k) s

/-- such states meet the hypothesis -/
theorem twoState_fits (f : Site → ℕ → List ℕ → 𝕜) (d : ℕ) :
    FitsAll (rows := rows) (cols := cols) twoDim (twoState rows cols f) d := fun cfg _ => by
  have := twoNet_fits (rows := rows) (cols := cols) fun s => f s (cfg s)
  exact this

/-- all elements `1` -/
theorem ones_amplitude (cfg : Config) :
    amplitude (twoDim : Bond .obc 2 2 → ℕ) (twoState 2 2 fun _ _ _ => (1 : ℝ)) cfg = 16 := by
  have : project (twoState 2 2 fun _ _ _ => (1 : ℝ)) cfg = twoNet 2 2 fun _ _ => 1 := rfl
  rw [amplitude, this]
  simp only [value, twoNet, Finset.prod_const_one, Finset.sum_const, Fintype.card_piFinset,
    Finset.card_range, nsmul_eq_mul, mul_one]
  norm_cast

/-- a nontrivial case: the J1-J2 solver with holes on a 2×2 state of spins whose tensors have elements
`1` for either spin, with freshly initialised caches -/
example (c : Ctr (List (Tn ℝ)) (Tn ℝ) (Tn ℝ)) :=
  (C103_exchange_solver (d := 2) idLib_lossless (twoState_fits (fun _ _ _ => (1 : ℝ)) 2) le_rfl
    le_rfl (xxz true 1 1 (1 / 2) (1 / 2) 0) (fun a => decide (a = 0)) (by simp) true (fun _ => 1)
    (by simp) (init (tensorOps QLPeps.Peps.idLib 2 2) c)
    (C09_init_fresh _ 2 2 (by omega) (by omega) _ c)).2 (by rw [ones_amplitude]; norm_num)

/-- a nontrivial case: complex tensors on a 3×4 lattice, energy of the triangular J1-J2 model -/
example (f : Site → ℕ → List ℕ → ℂ) :=
  C103_triangle_j1j2_energy (rows := 3) (cols := 4) idLib_lossless (twoState_fits f 2) (by omega)
    (by omega) (1 / 3)

end

end QLPeps.SolverRun
