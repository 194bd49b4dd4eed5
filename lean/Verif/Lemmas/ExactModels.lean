import Verif.Lemmas.ExactRun

/-! # Helper lemmas: each model's Hamiltonian is Hermitian, and its solver solves it -/

namespace QLPeps.ExactRun

universe u

open QLPeps.Contractor QLPeps.Energy QLPeps.ExactRun.Spec
open QLPeps.SolverRun (pairSolver triSolver tfimSolver toConfig_lt)
open QLPeps.SolverRun.Spec (amplitude FitsAll)
open QLPeps.Peps (Tn Lib)
open QLPeps.Bmps (tensorOps)
open QLPeps.Bmps.Spec (Lossless)
open QLPeps.Tps.Spec (Bond)
open QLPeps.Spec

noncomputable section

variable {𝕜 : Type u} [RCLike 𝕜] {rows cols : ℕ} {lib : Lib 𝕜} {dim : Bond .obc rows cols → ℕ}
  {sitps : QLPeps.Site → ℕ → Tn 𝕜}

theorem right_ne (a b : QLPeps.Site) (_ : a ∈ sites rows cols) (h : RightOf a b) : a ≠ b := by
  obtain ⟨a, b⟩ := a; subst h; simp
theorem below_ne (a b : QLPeps.Site) (_ : a ∈ sites rows cols) (h : Below a b) : a ≠ b := by
  obtain ⟨a, b⟩ := a; subst h; simp
theorem downRight_ne (a b : QLPeps.Site) (_ : a ∈ sites rows cols) (h : DownRight a b) : a ≠ b := by
  obtain ⟨a, b⟩ := a; subst h; simp
theorem upRight_ne (a b : QLPeps.Site) (_ : a ∈ sites rows cols) (h : UpRight a b) : a ≠ b := by
  rintro rfl; exact absurd h.1 (by omega)
theorem upRight2_ne (a b : QLPeps.Site) (_ : a ∈ sites rows cols) (h : UpRight2 a b) : a ≠ b := by
  rintro rfl; exact absurd h.1 (by omega)
theorem up2Right_ne (a b : QLPeps.Site) (_ : a ∈ sites rows cols) (h : Up2Right a b) : a ≠ b := by
  rintro rfl; exact absurd h.1 (by omega)

theorem psi_eq {l : List 𝕜} {n : ℕ} {z : 𝕜} (h : l = List.replicate n z) (hn : 0 < n) :
    ∃ m, l = List.replicate (m + 1) z :=
  ⟨n - 1, by rw [h, Nat.sub_add_cancel hn]⟩

theorem herm_xxz (jz jxy jz2 jxy2 pin : 𝕜) (h1 : star jz = jz) (h2 : star jxy = jxy)
    (h3 : star jz2 = jz2) (h4 : star jxy2 = jxy2) (h5 : star pin = pin) :
    Herm (xxzH (rows := rows) (cols := cols) jz jxy jz2 jxy2 pin) :=
  ((((herm_coupling _ _ _ right_ne h1 h2).add (herm_coupling _ _ _ below_ne h1 h2)).add
    (herm_coupling _ _ _ downRight_ne h3 h4)).add (herm_coupling _ _ _ upRight_ne h3 h4)).add
    (herm_pinning _ h5)

theorem herm_triangle : Herm (triangularH (K := 𝕜) (rows := rows) (cols := cols)) :=
  ((herm_coupling _ _ _ right_ne (star_one _) (star_one _)).add
    (herm_coupling _ _ _ below_ne (star_one _) (star_one _))).add
    (herm_coupling _ _ _ upRight_ne (star_one _) (star_one _))

theorem herm_triangle_j1j2 (j2 : 𝕜) (hj : star j2 = j2) :
    Herm (triangularJ1J2H (rows := rows) (cols := cols) j2) :=
  herm_triangle.add (((herm_coupling _ _ _ downRight_ne hj hj).add
    (herm_coupling _ _ _ upRight2_ne hj hj)).add (herm_coupling _ _ _ up2Right_ne hj hj))

theorem herm_tfim (h : 𝕜) (hh : star h = h) : Herm (tfimH (rows := rows) (cols := cols) h) :=
  ((herm_ising _).add (herm_ising _)).add (herm_transverse _ hh)

theorem solves_xxz (hl : Lossless lib) (hf : FitsAll dim sitps 2) (hr : 2 ≤ rows) (hc : 2 ≤ cols)
    (nnn : Bool) (jz jxy jz2 jxy2 pin : 𝕜) (h1 : star jz = jz) (h2 : star jxy = jxy)
    (h3 : star jz2 = jz2) (h4 : star jxy2 = jxy2) (h5 : star pin = pin) (isZero : 𝕜 → Bool)
    (hz : ∀ a, isZero a = true ↔ a = 0) (s : SpinCfg rows cols)
    (h0 : amplitude dim sitps (toConfig s) ≠ 0) :
    Solves lib dim sitps
      (fun cfg => pairSolver lib rows cols sitps cfg isZero true (xxz nnn jz jxy jz2 jxy2 pin))
      (xxzH jz jxy (if nnn then jz2 else 0) (if nnn then jxy2 else 0) pin) s := by
  classical
  intro c hfr
  have h3' : star (if nnn then jz2 else 0) = if nnn then jz2 else 0 := by split_ifs <;> simp [h3]
  have h4' : star (if nnn then jxy2 else 0) = if nnn then jxy2 else 0 := by split_ifs <;> simp [h4]
  obtain ⟨r, e, e1, e4, e2, -, e5⟩ := (QLPeps.SolverRun.C103_exchange_solver hl hf hr hc
    (xxz nnn jz jxy jz2 jxy2 pin) isZero hz true (toConfig s) (toConfig_lt s) c hfr).2 h0
  refine ⟨r, e, ?_, e2 rfl, psi_eq e4 (by omega), e5⟩
  have e3 := (xxz_energy nnn jz jxy jz2 jxy2 pin (amplitude dim sitps) hr hc s h0).symm.trans e1
  injection e3 with e3
  rw [← e3]
  unfold xxzH
  have z : ∀ (R : QLPeps.Site → QLPeps.Site → Prop) [∀ a b, Decidable (R a b)],
      relE (rows := rows) (cols := cols) R (0 : 𝕜) 0 (amplitude dim sitps) s = 0 := by
    intro R _
    rw [relE_smul, zero_mul]
  have c3 : (if nnn then relE DownRight jz2 jxy2 (amplitude dim sitps) s else 0) =
      relE DownRight (if nnn then jz2 else 0) (if nnn then jxy2 else 0) (amplitude dim sitps) s := by
    cases nnn
    · simp [z]
    · rfl
  have c4 : (if nnn then relE UpRight jz2 jxy2 (amplitude dim sitps) s else 0) =
      relE UpRight (if nnn then jz2 else 0) (if nnn then jxy2 else 0) (amplitude dim sitps) s := by
    cases nnn
    · simp [z]
    · rfl
  rw [c3, c4]
  simp only [add_mul, star_add]
  rw [relE_mul _ _ _ s _ right_ne h1 h2 h0, relE_mul _ _ _ s _ below_ne h1 h2 h0,
    relE_mul _ _ _ s _ downRight_ne h3' h4' h0, relE_mul _ _ _ s _ upRight_ne h3' h4' h0,
    pinning_mul _ _ s h5 (mem_sites.2 ⟨by omega, by omega⟩)]

theorem solves_triangle (hl : Lossless lib) (hf : FitsAll dim sitps 2) (hr : 2 ≤ rows) (hc : 2 ≤ cols)
    (isZero : 𝕜 → Bool) (hz : ∀ a, isZero a = true ↔ a = 0) (s : SpinCfg rows cols)
    (h0 : amplitude dim sitps (toConfig s) ≠ 0) :
    Solves lib dim sitps
      (fun cfg => pairSolver lib rows cols sitps cfg isZero true triangle) triangularH s := by
  classical
  intro c hfr
  have o : star (1 : 𝕜) = 1 := star_one _
  obtain ⟨r, e, e1, e4, e2, -, e5⟩ := (QLPeps.SolverRun.C103_exchange_solver hl hf hr hc
    triangle isZero hz true (toConfig s) (toConfig_lt s) c hfr).2 h0
  refine ⟨r, e, ?_, e2 rfl, psi_eq e4 (by omega), e5⟩
  have e3 := (triangle_energy (amplitude dim sitps) hr hc s h0).symm.trans e1
  injection e3 with e3
  rw [← e3]
  unfold triangularH
  simp only [add_mul, star_add]
  rw [relE_mul _ _ _ s _ right_ne o o h0, relE_mul _ _ _ s _ below_ne o o h0,
    relE_mul _ _ _ s _ upRight_ne o o h0]

theorem solves_triangle_j1j2 (hl : Lossless lib) (hf : FitsAll dim sitps 2) (hr : 3 ≤ rows)
    (hc : 2 ≤ cols) (j2 : 𝕜) (hj : star j2 = j2) (s : SpinCfg rows cols)
    (h0 : amplitude dim sitps (toConfig s) ≠ 0) :
    Solves lib dim sitps
      (fun cfg => triSolver lib rows cols sitps cfg true j2) (triangularJ1J2H j2) s := by
  intro c hfr
  have o : star (1 : 𝕜) = 1 := star_one _
  obtain ⟨r, e, e1, e4, e2, -, e5⟩ := QLPeps.SolverRun.C103_triangle_j1j2_solver hl hf hr hc
    j2 true (toConfig s) (toConfig_lt s) c hfr
  refine ⟨r, e, ?_, e2 rfl, psi_eq e4 (by omega), e5⟩
  have e3 := (tri_energy j2 (amplitude dim sitps) hr hc s).symm.trans e1
  injection e3 with e3
  rw [← e3, mul_add, mul_add, ← relE_smul, ← relE_smul, ← relE_smul]
  unfold triangularJ1J2H triangularH
  simp only [add_mul, star_add]
  rw [relE_mul _ _ _ s _ right_ne o o h0, relE_mul _ _ _ s _ below_ne o o h0,
    relE_mul _ _ _ s _ upRight_ne o o h0, relE_mul _ _ _ s _ downRight_ne hj hj h0,
    relE_mul _ _ _ s _ upRight2_ne hj hj h0, relE_mul _ _ _ s _ up2Right_ne hj hj h0]

theorem solves_tfim (hl : Lossless lib) (hf : FitsAll dim sitps 2) (hr : 1 ≤ rows)
    (hc : 2 ≤ cols) (h : 𝕜) (hh : star h = h) (s : SpinCfg rows cols)
    (h0 : amplitude dim sitps (toConfig s) ≠ 0) :
    Solves lib dim sitps (fun cfg => tfimSolver lib rows cols sitps cfg true h) (tfimH h) s := by
  intro c hfr
  obtain ⟨r, e, e1, e4, e2, -, e5⟩ := QLPeps.SolverRun.C103_tfim_solver hl hf (by omega) hr hc
    h true (toConfig s) (toConfig_lt s) c hfr
  refine ⟨r, e, ?_, e2 rfl, psi_eq e4 (by omega), e5⟩
  have e3 := (tfim_energy h (amplitude dim sitps) hc s).symm.trans e1
  injection e3 with e3
  rw [← e3]
  unfold tfimH
  simp only [add_mul, star_add]
  rw [flip_mul _ _ s hh h0, relI_mul _ s, relI_mul _ s, add_comm]

end

end QLPeps.ExactRun
