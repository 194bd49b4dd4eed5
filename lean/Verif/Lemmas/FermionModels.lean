import Verif.Lemmas.FermionBond

/-! # Helper lemmas: the bond values of the three fermionic models -/

namespace QLPeps.Fermion

open Finset Spec Fock
open Energy (Bond Kind allSites)

variable {K : Type*} [Field K] [StarRing K] {rows cols : ℕ}

/-- table of a multiple of an operator -/
def scaleTab (c : K) (T : List (K × ℕ × ℕ)) : List (K × ℕ × ℕ) := T.map (fun p => (c * p.1, p.2))

omit [StarRing K] in
theorem comb_scale {M : Type*} [DecidableEq M] [Fintype M] (rk : M → ℕ)
    (occ : LSite rows cols → ℕ → List M) (a b : LSite rows cols) (l : List M) (c : K)
    (T : List (K × ℕ × ℕ)) : comb rk occ a b l (scaleTab c T) = c • comb rk occ a b l T := by
  unfold comb scaleTab
  rw [List.map_map, List.smul_sum, List.map_map]
  congr 1
  refine List.map_congr_left fun p _ => ?_
  simp only [Function.comp, smul_smul]

omit [StarRing K] in
theorem comb_append {M : Type*} [DecidableEq M] [Fintype M] (rk : M → ℕ)
    (occ : LSite rows cols → ℕ → List M) (a b : LSite rows cols) (l : List M)
    (T T' : List (K × ℕ × ℕ)) :
    comb rk occ a b l (T ++ T') = comb rk occ a b l T + comb rk occ a b l T' := by
  unfold comb
  rw [List.map_append, List.sum_append]

variable {a b : LSite rows cols} {k : Kind} {s : LSite rows cols → ℕ}
  {ord : Bond → List (LSite rows cols)}

section spinful
variable {rk : LSite rows cols × Spin → ℕ} {Ψ : Fock K (LSite rows cols × Spin)}

theorem bval_append {M : Type*} [DecidableEq M] [Fintype M] (rk : M → ℕ)
    (occ : LSite rows cols → ℕ → List M) (Ψ : Fock K M) (x : Bond) (T T' : List (K × ℕ × ℕ)) :
    bval rk occ Ψ ord s x (T ++ T') = bval rk occ Ψ ord s x T + bval rk occ Ψ ord s x T' := by
  unfold bval
  rw [List.map_append, List.sum_append]

theorem hubbard_bond_val (t : K) (h1 : s a < 4) (h2 : s b < 4) :
    hubbardBond t (exactF rk hubbardOcc Ψ ord s) (sampleConfig s) ⟨a, b, k⟩ =
      bval rk hubbardOcc Ψ ord s ⟨a, b, k⟩ (scaleTab (-t) (hubTab (s a) (s b))) := by
  unfold hubbardBond bval scaleTab
  dsimp only
  rw [sampleConfig_coe, sampleConfig_coe]
  generalize s a = c1 at *
  generalize s b = c2 at *
  interval_cases c1 <;> interval_cases c2 <;> simp [hubTab, ratio, exactF] <;> ring

variable [DecidableEq K]

/-- the value of a t-J bond -/
theorem tJ_bond_val (p : TJ K) (r2 : K) (h1 : s a < 3) (h2 : s b < 3)
    (h0 : amp rk tJOcc Ψ (ord ⟨a, b, k⟩) s ≠ 0) (hin : pinInside p.pin rows cols = true) :
    tJBond p r2 rows cols (exactF rk tJOcc Ψ ord s) (sampleConfig s) ⟨a, b, k⟩ =
      .ok (bval rk tJOcc Ψ ord s ⟨a, b, k⟩ (tJTab p.t p.J p.V (s a) (s b) ++
        match pinnedAt p.pin ⟨a, b, k⟩ with
        | none => []
        | some delta => pairTab r2 delta (s a) (s b))) := by
  have hput : put s ⟨a, b, k⟩ (s a) (s b) = s := put_self
  unfold tJBond
  dsimp only
  rw [sampleConfig_coe, sampleConfig_coe]
  have htr : (exactF rk tJOcc Ψ ord s).trace ⟨a, b, k⟩ = amp rk tJOcc Ψ (ord ⟨a, b, k⟩) s := rfl
  rw [if_neg (by rw [htr]; exact fun h => h0 h.2), if_neg (by rw [hin]; decide)]
  have hE : (if s a = s b then if s a = 2 then 0 else p.V
      else if s a = 2 ∨ s b = 2 then
        -p.t * ratio (exactF rk tJOcc Ψ ord s) ⟨a, b, k⟩
          ((exactF rk tJOcc Ψ ord s).trace ⟨a, b, k⟩) (s b) (s a)
      else (-(1 / 2) + ratio (exactF rk tJOcc Ψ ord s) ⟨a, b, k⟩
          ((exactF rk tJOcc Ψ ord s).trace ⟨a, b, k⟩) (s b) (s a) * (1 / 2)) * p.J + p.V) =
      bval rk tJOcc Ψ ord s ⟨a, b, k⟩ (tJTab p.t p.J p.V (s a) (s b)) := by
    unfold bval
    generalize hc1 : s a = c1 at *
    generalize hc2 : s b = c2 at *
    interval_cases c1 <;> interval_cases c2 <;>
      simp [tJTab, ratio, exactF, hput, div_self (star_ne_zero.2 h0)] <;> ring
  rw [hE, bval_append]
  cases hp : pinnedAt p.pin ⟨a, b, k⟩ with
  | none => simp [bval]
  | some delta =>
    dsimp only
    have hpair : ∃ d, singletPair r2 (exactF rk tJOcc Ψ ord s) (sampleConfig s) ⟨a, b, k⟩
        (if s a = s b then none else some ((exactF rk tJOcc Ψ ord s).trace ⟨a, b, k⟩)) = .ok d ∧
        delta * (d.1 + d.2) = bval rk tJOcc Ψ ord s ⟨a, b, k⟩ (pairTab r2 delta (s a) (s b)) := by
      unfold singletPair bval
      dsimp only
      rw [sampleConfig_coe, sampleConfig_coe]
      generalize hc1 : s a = c1 at *
      generalize hc2 : s b = c2 at *
      interval_cases c1 <;> interval_cases c2 <;>
        simp [pairTab, ratio, exactF, h0] <;> ring
    obtain ⟨d, hd, hv⟩ := hpair
    rw [hd]
    dsimp only
    rw [hv]

/-- the value of the two diagonals of a plaquette -/
theorem tJ_plaquette_val (p : TJ K) (r2 : K) (nnn : Bool) {s : LSite rows cols → ℕ} {r c : ℕ}
    (hs : ∀ x, s x < 3) (hr : r + 1 < rows) (hc : c + 1 < cols)
    (hsh : ord ⟨(r, c), (r + 1, c + 1), .dr⟩ = ord ⟨(r + 1, c), (r, c + 1), .ur⟩) :
    plaquette (tJ nnn p r2) (exactF rk tJOcc Ψ ord s) (sampleConfig s) r c =
      (bval rk tJOcc Ψ ord s ⟨(r, c), (r + 1, c + 1), .dr⟩
          (tJHopTab p.t2 (sampleConfig s (r, c)) (sampleConfig s (r + 1, c + 1))),
       bval rk tJOcc Ψ ord s ⟨(r + 1, c), (r, c + 1), .ur⟩
          (tJHopTab p.t2 (sampleConfig s (r + 1, c)) (sampleConfig s (r, c + 1)))) := by
  obtain ⟨a, ha⟩ : ∃ a : LSite rows cols, (a : Site) = (r, c) :=
    ⟨⟨(r, c), mem_sites.2 ⟨by omega, by omega⟩⟩, rfl⟩
  obtain ⟨b, hb⟩ : ∃ a : LSite rows cols, (a : Site) = (r + 1, c + 1) :=
    ⟨⟨(r + 1, c + 1), mem_sites.2 ⟨by omega, by omega⟩⟩, rfl⟩
  obtain ⟨a', ha'⟩ : ∃ a : LSite rows cols, (a : Site) = (r + 1, c) :=
    ⟨⟨(r + 1, c), mem_sites.2 ⟨by omega, by omega⟩⟩, rfl⟩
  obtain ⟨b', hb'⟩ : ∃ a : LSite rows cols, (a : Site) = (r, c + 1) :=
    ⟨⟨(r, c + 1), mem_sites.2 ⟨by omega, by omega⟩⟩, rfl⟩
  rw [← ha, ← hb, ← ha', ← hb'] at hsh ⊢
  have hp1 : put s ⟨a, b, .dr⟩ (s a) (s b) = s := put_self
  have hp2 : put s ⟨a', b', .ur⟩ (s a') (s b') = s := put_self
  unfold plaquette tJ
  rw [← ha, ← hb, ← ha', ← hb']
  dsimp only
  unfold tJDiag bval
  dsimp only
  rw [sampleConfig_coe, sampleConfig_coe, sampleConfig_coe, sampleConfig_coe]
  by_cases ht : p.t2 = 0
  · rw [if_pos ht, if_pos ht]
    unfold tJHopTab
    split_ifs <;> simp [ht]
  · rw [if_neg ht, if_neg ht]
    unfold tJHopTab
    by_cases c1 : s a = s b ∨ (s a ≠ 2 ∧ s b ≠ 2) <;>
      by_cases c2 : s a' = s b' ∨ (s a' ≠ 2 ∧ s b' ≠ 2) <;>
      simp only [c1, c2, if_true, if_false] <;>
      simp [ratio, exactF, hp1, hp2, hsh]

end spinful

section spinless
variable {rk : LSite rows cols → ℕ} {Ψ : Fock K (LSite rows cols)}

theorem spinless_bond_val (t V : K) (h1 : s a < 2) (h2 : s b < 2)
    (h0 : amp rk spinlessOcc Ψ (ord ⟨a, b, k⟩) s ≠ 0) :
    spinlessBond t V (exactF rk spinlessOcc Ψ ord s) (sampleConfig s) ⟨a, b, k⟩ =
      bval rk spinlessOcc Ψ ord s ⟨a, b, k⟩ (spinlessTab t V (s a) (s b)) := by
  have hput : put s ⟨a, b, k⟩ (s a) (s b) = s := put_self
  unfold spinlessBond bval
  dsimp only
  rw [sampleConfig_coe, sampleConfig_coe]
  generalize hc1 : s a = c1 at *
  generalize hc2 : s b = c2 at *
  interval_cases c1 <;> interval_cases c2 <;>
    simp [spinlessTab, spinlessDensity, ratio, exactF, hput, div_self (star_ne_zero.2 h0)]

theorem spinless_plaquette_val (t t2 V : K) {r c : ℕ}
    (hs : ∀ x, s x < 2) (hr : r + 1 < rows) (hc : c + 1 < cols)
    (hsh : ord ⟨(r, c), (r + 1, c + 1), .dr⟩ = ord ⟨(r + 1, c), (r, c + 1), .ur⟩) :
    plaquette (spinless t t2 V) (exactF rk spinlessOcc Ψ ord s) (sampleConfig s) r c =
      (bval rk spinlessOcc Ψ ord s ⟨(r, c), (r + 1, c + 1), .dr⟩
          (spinlessTab t2 0 (sampleConfig s (r, c)) (sampleConfig s (r + 1, c + 1))),
       bval rk spinlessOcc Ψ ord s ⟨(r + 1, c), (r, c + 1), .ur⟩
          (spinlessTab t2 0 (sampleConfig s (r + 1, c)) (sampleConfig s (r, c + 1)))) := by
  obtain ⟨a, ha⟩ : ∃ a : LSite rows cols, (a : Site) = (r, c) :=
    ⟨⟨(r, c), mem_sites.2 ⟨by omega, by omega⟩⟩, rfl⟩
  obtain ⟨b, hb⟩ : ∃ a : LSite rows cols, (a : Site) = (r + 1, c + 1) :=
    ⟨⟨(r + 1, c + 1), mem_sites.2 ⟨by omega, by omega⟩⟩, rfl⟩
  obtain ⟨a', ha'⟩ : ∃ a : LSite rows cols, (a : Site) = (r + 1, c) :=
    ⟨⟨(r + 1, c), mem_sites.2 ⟨by omega, by omega⟩⟩, rfl⟩
  obtain ⟨b', hb'⟩ : ∃ a : LSite rows cols, (a : Site) = (r, c + 1) :=
    ⟨⟨(r, c + 1), mem_sites.2 ⟨by omega, by omega⟩⟩, rfl⟩
  rw [← ha, ← hb, ← ha', ← hb'] at hsh ⊢
  have hp1 : put s ⟨a, b, .dr⟩ (s a) (s b) = s := put_self
  have hp2 : put s ⟨a', b', .ur⟩ (s a') (s b') = s := put_self
  unfold plaquette spinless
  rw [← ha, ← hb, ← ha', ← hb']
  dsimp only
  unfold spinlessDiag bval
  dsimp only
  rw [sampleConfig_coe, sampleConfig_coe, sampleConfig_coe, sampleConfig_coe]
  unfold spinlessTab
  by_cases c1 : s a = s b <;>
    by_cases c2 : s a' = s b' <;>
    simp only [c1, c2, if_true, if_false] <;>
    (try split_ifs) <;> simp [ratio, exactF, hp1, hp2, hsh, c1, c2]

end spinless

end QLPeps.Fermion
