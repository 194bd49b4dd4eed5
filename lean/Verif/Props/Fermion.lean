import Verif.Lemmas.FermionEnergy
import Mathlib.Algebra.Star.Rat

/-!
# Local energies of the fermionic models

C50 Hubbard, C51 t-J, C52 spinless fermions, and the fermionic part of C53.

The statements mention `Model.Fermion` (the code) and `Spec.Fermion` (second quantisation).  The
contractor is the exact one of the specification: for every bond it returns amplitudes of one state
`Ψ` of the Fock space on product states written in some order of the sites in which the sites of the
bond are adjacent (`PathOrder`); nothing else is assumed about the orders, which may differ from bond
to bond.
-/

namespace QLPeps.Fermion

open Finset Spec Fock
open Energy (Bond Kind allSites)

variable {K : Type*} [Field K] [StarRing K] {rows cols : ℕ}

/-! ### The specification of the operators -/

/-- The operators of the specification satisfy the canonical anticommutation relations, `c†` is the
adjoint of `c`, and `c` annihilates the vacuum: this determines them. -/
theorem C50_anticommutation {M : Type*} [DecidableEq M] [Fintype M] (rk : M → ℕ)
    (hrk : Function.Injective rk) (m m' : M) :
    an (K := K) rk m * cr rk m' + cr rk m' * an rk m = (if m = m' then 1 else 0) ∧
    cr (K := K) rk m * cr rk m' + cr rk m' * cr rk m = 0 ∧
    an (K := K) rk m * an rk m' + an rk m' * an rk m = 0 ∧
    (∀ f g : Fock K M, overlap f (cr rk m g) = overlap (an rk m f) g) ∧
    an rk m (vac : Fock K M) = 0 := by
  refine ⟨?_, ?_, ?_, ?_, an_vac m⟩
  · apply LinearMap.ext
    intro f
    simp only [LinearMap.add_apply, Module.End.mul_apply]
    by_cases h : m = m'
    · subst h; rw [an_cr_self, if_pos rfl]; simp
    · rw [an_cr_ne hrk h, if_neg h]; simp
  · apply LinearMap.ext
    intro f
    simp only [LinearMap.add_apply, Module.End.mul_apply]
    by_cases h : m = m'
    · subst h; rw [cr_self]; simp
    · rw [cr_cr hrk h]; simp
  · apply LinearMap.ext
    intro f
    simp only [LinearMap.add_apply, Module.End.mul_apply]
    by_cases h : m = m'
    · subst h; rw [an_self]; simp
    · rw [an_an hrk h]; simp
  · intro f g
    unfold overlap
    let e : (M → Bool) ≃ (M → Bool) :=
      ⟨fun n => Function.update n m (!n m), fun n => Function.update n m (!n m),
        fun n => by simp, fun n => by simp⟩
    rw [← e.sum_comp]
    refine Finset.sum_congr rfl fun n _ => ?_
    have hj : ∀ v, jw (K := K) rk m (Function.update n m v) = jw rk m n := by
      intro v
      unfold jw
      refine Finset.prod_congr rfl fun x _ => ?_
      by_cases hx : x = m
      · subst hx; simp
      · simp [hx]
    have hs : star (jw (K := K) rk m n) = jw rk m n := by
      unfold jw
      rw [star_prod]
      refine Finset.prod_congr rfl fun x _ => ?_
      split <;> simp
    cases hn : n m with
    | true => simp [e, cr, an, hn]
    | false =>
      have e2 : Function.update n m false = n := by rw [← hn]; exact Function.update_eq_self _ _
      simp [e, cr, an, hn, hj, hs, e2]
      ring

/-! ### C50 Hubbard -/

section hubbard

/-- C50: for every state `Ψ` of the Fock space, all couplings and every lattice with at least two
rows, the energies the solver returns for the samples average, with weight `|Ψ|²`, to the
expectation value of the Hubbard Hamiltonian. -/
theorem C50_hubbard_estimator [DecidableEq K] (t U mu : K) (hr : 2 ≤ rows)
    (rk : LSite rows cols × Spin → ℕ) (hrk : Function.Injective rk)
    (ord : Bond → List (LSite rows cols)) (hord : PathOrder rows cols false ord)
    (Ψ : Fock K (LSite rows cols × Spin)) :
    ∃ E : Cfg (LSite rows cols) 4 → K,
      (∀ S, Ψ (filled hubbardOcc (nat S)) ≠ 0 →
        calEnergy (hubbard t U mu) (exactF rk hubbardOcc Ψ ord (nat S)) (sampleConfig (nat S))
          rows cols = .ok (E S)) ∧
      ∑ S, fweight hubbardOcc Ψ S * E S = expval (hubbardH t U mu rk) Ψ := by
  refine ⟨_, fun S h0 => hub_energy t U mu hr hord S h0, ?_⟩
  unfold hubbardH
  rw [expval_add, ← hub_bonds t hrk hord, hub_onsite, ← Finset.sum_add_distrib]
  exact Finset.sum_congr rfl fun S _ => mul_add _ _ _

/-- number of up electrons of a local state -/
def upOf (c : ℕ) : ℕ := (hubbardOcc () c).count ((), .up)
/-- number of down electrons of a local state -/
def dnOf (c : ℕ) : ℕ := (hubbardOcc () c).count ((), .dn)

/-- C50: the bond energy only uses amplitudes of configurations with the same numbers of up and of
down electrons: changing the other amplitudes changes nothing. -/
theorem C50_conserves_spin_numbers (t : K) (C C' : Contr K) (cfg : Config) (b : Bond)
    (h1 : cfg b.a < 4) (h2 : cfg b.b < 4) (htr : C.trace b = C'.trace b)
    (hrep : ∀ x y, x < 4 → y < 4 → upOf x + upOf y = upOf (cfg b.a) + upOf (cfg b.b) →
      dnOf x + dnOf y = dnOf (cfg b.a) + dnOf (cfg b.b) → C.replace b x y = C'.replace b x y) :
    hubbardBond t C cfg b = hubbardBond t C' cfg b := by
  have r : ∀ x y, x < 4 → y < 4 → upOf x + upOf y = upOf (cfg b.a) + upOf (cfg b.b) →
      dnOf x + dnOf y = dnOf (cfg b.a) + dnOf (cfg b.b) →
      ratio C b (C.trace b) x y = ratio C' b (C'.trace b) x y := by
    intro x y hx hy hu hd
    unfold ratio
    rw [hrep x y hx hy hu hd, htr]
  unfold hubbardBond
  dsimp only
  generalize cfg b.a = c1 at *
  generalize cfg b.b = c2 at *
  have q30 := r 3 0 (by omega) (by omega)
  have q03 := r 0 3 (by omega) (by omega)
  have q12 := r 1 2 (by omega) (by omega)
  have q21 := r 2 1 (by omega) (by omega)
  have qs := r c2 c1 h2 h1 (by omega) (by omega)
  interval_cases c1 <;> interval_cases c2 <;>
    simp_all [upOf, dnOf, hubbardOcc]

/-- C50: the reported charge and spin of a site are the occupation numbers of its local state. -/
theorem C50_density_and_spin (c : ℕ) (h : c < 4) :
    hubbardDensity (K := K) c = (upOf c : K) + (dnOf c : K) ∧
    hubbardSpinZ (K := K) c = 1 / 2 * ((upOf c : K) - (dnOf c : K)) := by
  interval_cases c <;> simp [hubbardDensity, hubbardSpinZ, upOf, dnOf, hubbardOcc] <;> norm_num

/-- Disagreement: on a lattice with a single row no energy is returned; the evaluation runs into a
`size_t` wrap-around.  (A single column is fine, see `C50_hubbard_estimator`.) -/
theorem C50_single_row_undefined [DecidableEq K] (t U mu : K) (C : Contr K) (cfg : Config)
    (hc : 1 ≤ cols) : calEnergy (hubbard t U mu) C cfg 1 cols = .error .ub := by
  unfold calEnergy
  rw [collect_ok (f := rowVals (hubbard t U mu) C cfg (hubbardBond t C cfg) 1 cols) _
    (fun row _ => energyRow_ok (fun h => by cases h) (fun col _ => rfl))]
  dsimp only
  obtain ⟨n, rfl⟩ : ∃ n, cols = n + 1 := ⟨cols - 1, by omega⟩
  rw [List.range_succ_eq_map]
  have : verticalCol (hubbard t U mu) C cfg 1 (n + 1) 0 = .error .ub := by
    unfold verticalCol; rw [if_pos (by omega)]
  simp only [collect, this]

end hubbard

/-! ### C51 t-J -/

section tJ
variable [CharZero K] [DecidableEq K]

/-- C51: the t-J models without pinning field (`nnn = false`: nearest neighbours only).  `Ψ` is any
state without double occupancy. -/
theorem C51_tJ_estimator (nnn : Bool) (t t2 J V mu r2 : K) (hr : 2 ≤ rows)
    (hc : nnn = true → 2 ≤ cols) (rk : LSite rows cols × Spin → ℕ) (hrk : Function.Injective rk)
    (ord : Bond → List (LSite rows cols)) (hord : PathOrder rows cols nnn ord)
    (Ψ : Fock K (LSite rows cols × Spin)) (hΨ : NoDouble Ψ) :
    ∃ E : Cfg (LSite rows cols) 3 → K,
      (∀ S, Ψ (filled tJOcc (nat S)) ≠ 0 →
        calEnergy (tJ nnn ⟨t, t2, J, V, mu, none⟩ r2) (exactF rk tJOcc Ψ ord (nat S))
          (sampleConfig (nat S)) rows cols = .ok (E S)) ∧
      ∑ S, fweight tJOcc Ψ S * E S =
        expval (tJH t (if nnn then t2 else 0) J V mu rk) Ψ := by
  refine ⟨_, fun S h0 => tJ_energy nnn ⟨t, t2, J, V, mu, none⟩ r2 hr hc rfl hord S h0, ?_⟩
  have h1 := tJ_bonds (Ψ := Ψ) nnn ⟨t, t2, J, V, mu, none⟩ r2 hrk hord hΨ
  have h2 := tJ_onsite (rk := rk) (Ψ := Ψ) ⟨t, t2, J, V, mu, none⟩ hΨ
  have hz : ∀ k, (pinOp r2 rk none k : LSite rows cols → LSite rows cols → _) = fun _ _ => 0 :=
    fun k => rfl
  have hz' : ∀ (R : LSite rows cols → LSite rows cols → Prop) [∀ a b, Decidable (R a b)],
      bondSum R (fun _ _ => (0 : Module.End K (Fock K (LSite rows cols × Spin)))) = 0 := by
    intro R _; unfold bondSum; simp
  simp only [hz, hz', add_zero, expval_zero] at h1
  unfold tJH
  rw [sub_eq_add_neg, expval_add, expval_add, h2]
  simp only [mul_add, Finset.sum_add_distrib, h1]
  congr 2
  cases nnn with
  | true => simp
  | false =>
    have : (fun a b : LSite rows cols => (-(if false = true then t2 else 0)) •
        spinHop (K := K) rk a b) = fun _ _ => 0 := by funext a b; simp
    rw [this, hz', expval_zero, if_neg (by decide)]

/-- C51: with a pinning field `δ` set on two neighbouring sites of the lattice, in either order, the
Hamiltonian gets the term `δ (Δ†_{s₁s₂} + Δ_{s₁s₂})`. -/
theorem C51_tJ_pinned_estimator (nnn : Bool) (t t2 J V mu delta r2 : K) (hr : 2 ≤ rows)
    (hc : nnn = true → 2 ≤ cols) (rk : LSite rows cols × Spin → ℕ) (hrk : Function.Injective rk)
    (ord : Bond → List (LSite rows cols)) (hord : PathOrder rows cols nnn ord)
    (s1 s2 : LSite rows cols) (q : Pin K) (hq : setPin (s1 : Site) s2 delta = some q)
    (Ψ : Fock K (LSite rows cols × Spin)) (hΨ : NoDouble Ψ) :
    ∃ E : Cfg (LSite rows cols) 3 → K,
      (∀ S, Ψ (filled tJOcc (nat S)) ≠ 0 →
        calEnergy (tJ nnn ⟨t, t2, J, V, mu, some q⟩ r2) (exactF rk tJOcc Ψ ord (nat S))
          (sampleConfig (nat S)) rows cols = .ok (E S)) ∧
      ∑ S, fweight tJOcc Ψ S * E S =
        expval (tJH t (if nnn then t2 else 0) J V mu rk +
          delta • (pairDag r2 rk s1 s2 + pair r2 rk s1 s2)) Ψ := by
  have hin : pinInside (some q) rows cols = true := by
    have m1 := mem_sites.1 s1.2
    have m2 := mem_sites.1 s2.2
    obtain ⟨h1, _, _⟩ := setPin_some hq
    unfold pinInside
    rcases h1 with ⟨e1, e2⟩ | ⟨e1, e2⟩ <;> simp [e1, e2, m1, m2]
  refine ⟨_, fun S h0 => tJ_energy nnn ⟨t, t2, J, V, mu, some q⟩ r2 hr hc hin hord S h0, ?_⟩
  have h1 := tJ_bonds (Ψ := Ψ) nnn ⟨t, t2, J, V, mu, some q⟩ r2 hrk hord hΨ
  have h2 := tJ_onsite (rk := rk) (Ψ := Ψ) ⟨t, t2, J, V, mu, some q⟩ hΨ
  have hz' : ∀ (R : LSite rows cols → LSite rows cols → Prop) [∀ a b, Decidable (R a b)],
      bondSum R (fun _ _ => (0 : Module.End K (Fock K (LSite rows cols × Spin)))) = 0 := by
    intro R _; unfold bondSum; simp
  dsimp only at h1
  rw [sum_pinOp hrk r2 hq] at h1
  unfold tJH
  rw [expval_add, sub_eq_add_neg, expval_add, expval_add, h2]
  simp only [mul_add, Finset.sum_add_distrib, h1]
  have h3 : (if nnn = true then expval (bondSum NNN (fun a b => (-t2) • spinHop rk a b)) Ψ else 0) =
      expval (bondSum NNN (fun a b : LSite rows cols =>
        (-(if nnn = true then t2 else 0)) • spinHop rk a b)) Ψ := by
    cases nnn with
    | true => simp
    | false =>
      have : (fun a b : LSite rows cols => (-(if false = true then t2 else 0)) •
          spinHop (K := K) rk a b) = fun _ _ => 0 := by funext a b; simp
      rw [this, hz', expval_zero, if_neg (by decide)]
  rw [h3]
  ring

end tJ

/-- C51: a pinning field is accepted for nearest neighbours only, in either order. -/
theorem C51_pin_accepted_iff (s1 s2 : Site) (delta : K) :
    (setPin s1 s2 delta).isSome ↔
      RightOf s1 s2 ∨ RightOf s2 s1 ∨ Below s1 s2 ∨ Below s2 s1 := by
  rw [← not_iff_not, Bool.not_eq_true, Option.isSome_eq_false_iff, Option.isNone_iff_eq_none,
    setPin_none]

/-- C51: a pinned bond that is not in the lattice is reported, no energy is returned. -/
theorem C51_pin_outside_refused [DecidableEq K] (nnn : Bool) (p : TJ K) (r2 : K) (q : Pin K)
    (hp : p.pin = some q) (hout : q.a ∉ sites rows cols ∨ q.b ∉ sites rows cols)
    (C : Contr K) (cfg : Config) (e : K) : calEnergy (tJ nnn p r2) C cfg rows cols ≠ .ok e := by
  have hin : pinInside p.pin rows cols = false := by
    rw [hp]
    unfold pinInside
    simp only [mem_sites] at hout
    rcases hout with h | h
    · simp [h]
    · simp [h]
  unfold calEnergy
  have ho : (tJ nnn p r2).onsite rows cols cfg = .error .pinOutside := by
    change tJOnsite p rows cols cfg = _
    unfold tJOnsite
    rw [if_pos hin]
  intro h
  split at h
  · cases h
  · split at h
    · cases h
    · rw [ho] at h; cases h

/-! ### C52 spinless fermions -/

/-- C52: spinless fermions with nearest-neighbour and diagonal hopping. -/
theorem C52_spinless_estimator [DecidableEq K] (t t2 V : K) (hr : 2 ≤ rows) (hc : 2 ≤ cols)
    (rk : LSite rows cols → ℕ) (hrk : Function.Injective rk)
    (ord : Bond → List (LSite rows cols)) (hord : PathOrder rows cols true ord)
    (Ψ : Fock K (LSite rows cols)) :
    ∃ E : Cfg (LSite rows cols) 2 → K,
      (∀ S, Ψ (filled spinlessOcc (nat S)) ≠ 0 →
        calEnergy (spinless t t2 V) (exactF rk spinlessOcc Ψ ord (nat S)) (sampleConfig (nat S))
          rows cols = .ok (E S)) ∧
      ∑ S, fweight spinlessOcc Ψ S * E S = expval (spinlessH t t2 V rk) Ψ := by
  refine ⟨_, fun S h0 => sl_energy t t2 V hr hc hord S h0, ?_⟩
  unfold spinlessH
  rw [← sl_bonds t t2 V hrk hord]
  exact Finset.sum_congr rfl fun S _ => by rw [add_zero]

/-! ### C53 -/

omit [StarRing K] in
/-- C53 (fermions): whenever the measurement returns an energy, the energy solver returns the same
number. -/
theorem C53_fermion_measured_energy [DecidableEq K] (m : Model K) (C : Contr K) (cfg : Config)
    (rows cols : ℕ) (e : K) (h : measEnergy m C cfg rows cols = .ok e) :
    calEnergy m C cfg rows cols = .ok e := measEnergy_calEnergy h

/-! ### The hypotheses are met -/

/-- contraction orders as required exist on every lattice -/
theorem pathOrder_nonempty (rows cols : ℕ) (nnn : Bool) : ∃ ord, PathOrder rows cols nnn ord :=
  ⟨_, pathOrder_exists rows cols nnn⟩

/-- an order of the modes -/
theorem rank_exists (M : Type*) [Fintype M] : ∃ rk : M → ℕ, Function.Injective rk :=
  ⟨fun m => (Fintype.equivFin M m : ℕ), fun _ _ h =>
    (Fintype.equivFin M).injective (Fin.ext h)⟩

example : ∃ E : Cfg (LSite 3 2) 4 → ℚ, ∃ rk : LSite 3 2 × Spin → ℕ,
    ∑ S, fweight hubbardOcc (fun _ => (1 : ℚ)) S * E S =
      expval (hubbardH (1 : ℚ) 8 (1 / 2) rk) (fun _ => 1) := by
  obtain ⟨rk, hrk⟩ := rank_exists (LSite 3 2 × Spin)
  obtain ⟨ord, hord⟩ := pathOrder_nonempty 3 2 false
  obtain ⟨E, _, h⟩ := C50_hubbard_estimator (1 : ℚ) 8 (1 / 2) (by omega) rk hrk ord hord
    (fun _ => (1 : ℚ))
  exact ⟨E, rk, h⟩

/-- a state without double occupancy that has an amplitude on every allowed configuration -/
def allSingle : Fock ℚ (LSite rows cols × Spin) := fun n =>
  if ∀ a : LSite rows cols, ¬ (n (a, .up) = true ∧ n (a, .dn) = true) then 1 else 0

example : NoDouble (allSingle : Fock ℚ (LSite rows cols × Spin)) := by
  intro n hn a h
  apply hn
  unfold allSingle
  rw [if_neg (fun h' => h' a h)]

example (S : Cfg (LSite rows cols) 3) : (allSingle : Fock ℚ _) (filled tJOcc (nat S)) ≠ 0 := by
  unfold allSingle
  rw [if_pos]
  · exact one_ne_zero
  · intro a h
    have h1 := (filled_tJ (nat S) a).1.1 h.1
    have h2 := (filled_tJ (nat S) a).2.1 h.2
    omega

example : setPin (1, 2) (1, 1) (3 : ℚ) = some ⟨(1, 1), (1, 2), .h, 3⟩ := by decide +kernel
example : setPin (1, 2) (2, 1) (3 : ℚ) = none := by decide +kernel
example : ((3, 0) : Site) ∉ sites 3 2 := by simp [mem_sites]

/-- a sample of the Hubbard model: an up electron next to an empty site -/
example : hubbardBond (2 : ℚ) ⟨fun _ => 4, fun _ x y => if x = 3 ∧ y = 1 then 1 else 0⟩
    (fun p => if p = (0, 0) then 1 else 3) ⟨(0, 0), (0, 1), .h⟩ = -(1 / 2) := by decide +kernel

/-- the measured energy exists -/
example : measEnergy (hubbard (1 : ℚ) 8 0) ⟨fun _ => 1, fun _ _ _ => 1⟩
    (fun p => (p.1 + p.2) % 4) 2 2 = .ok 6 := by decide +kernel

end QLPeps.Fermion
