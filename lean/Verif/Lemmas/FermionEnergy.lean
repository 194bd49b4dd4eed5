import Verif.Lemmas.FermionOrder

/-! # Helper lemmas: local energies of the three fermionic models -/

namespace QLPeps.Fermion

open Finset Spec Fock
open Energy (Bond Kind allSites)

variable {K : Type*} [Field K] [StarRing K] {rows cols : ℕ} {ord : Bond → List (LSite rows cols)}

omit [StarRing K] in
theorem adm_true {M : Type*} [DecidableEq M] (n : M → Bool) (m : M) :
    (fun _ : M → Bool => True) n → (fun _ : M → Bool => True) (Function.update n m false) := id

/-- nearest-neighbour bonds and diagonals -/
def byKind {α : Type*} (k : Kind) (x y : α) : α :=
  match k with
  | .h | .v => x
  | _ => y

section hubbard
variable {rk : LSite rows cols × Spin → ℕ} {Ψ : Fock K (LSite rows cols × Spin)}

/-- the bond values of a Hubbard sample -/
def hubV (t : K) (rk : LSite rows cols × Spin → ℕ) (Ψ : Fock K (LSite rows cols × Spin))
    (ord : Bond → List (LSite rows cols)) (S : Cfg (LSite rows cols) 4) (b : Bond) : K :=
  bval rk hubbardOcc Ψ ord (nat S) b
    (scaleTab (-t) (hubTab (sampleConfig (nat S) b.a) (sampleConfig (nat S) b.b)))

theorem hub_energy [DecidableEq K] (t U mu : K) (hr : 2 ≤ rows) (hord : PathOrder rows cols false ord)
    (S : Cfg (LSite rows cols) 4) (h0 : Ψ (filled hubbardOcc (nat S)) ≠ 0) :
    calEnergy (hubbard t U mu) (exactF rk hubbardOcc Ψ ord (nat S)) (sampleConfig (nat S)) rows cols =
      .ok (((obcBonds rows cols false).map (hubV t rk Ψ ord S)).sum +
        hubbardOnsite U mu rows cols (sampleConfig (nat S))) := by
  refine calEnergy_ok (v := hubV t rk Ψ ord S) hr (fun h => by cases h) ?_ ?_
    (fun h => by cases h) rfl
  · intro col hcol
    exact amp_ne_zero (a := ⟨(0, col), mem_sites.2 ⟨by simp; omega, hcol⟩⟩)
      (b := ⟨(1, col), mem_sites.2 ⟨by simp; omega, hcol⟩⟩) good_hubbard
      (hord.nn _ _ .v (Or.inr ⟨rfl, rfl⟩)) h0
  · intro x hx
    obtain ⟨a, b, k, rfl, hk⟩ := obc_sites hx
    unfold hubV
    dsimp only
    rw [sampleConfig_coe, sampleConfig_coe, ← hubbard_bond_val t (S a).2 (S b).2]
    rfl

theorem hub_bonds (t : K) (hrk : Function.Injective rk) (hord : PathOrder rows cols false ord) :
    ∑ S, fweight hubbardOcc Ψ S * ((obcBonds rows cols false).map (hubV t rk Ψ ord S)).sum =
      expval (bondSum NN (fun a b => (-t) • spinHop rk a b)) Ψ := by
  rw [bonds_est (Ψ := Ψ) false (fun _ a b => (-t) • spinHop rk a b) (hubV t rk Ψ ord)]
  · rw [if_neg (by decide), add_zero, bondSum_NN, expval_add]
  · intro a b k hk
    have hab := ne_of_nn hk
    rw [bond_est (ord := ord) (k := k) (Adm := fun _ => True) (rk := rk) adm_true (fun _ _ => trivial)
      good_hubbard (fun n _ => supp_hubbard n) hab (hord.nn a b k hk)
      (O := (-t) • spinHop rk a b) ?_ (fun c1 c2 => scaleTab (-t) (hubTab c1 c2)) ?_]
    · refine Finset.sum_congr rfl fun S _ => ?_
      unfold hubV
      dsimp only
      rw [sampleConfig_coe, sampleConfig_coe]
    · intro m ha hb f
      rw [LinearMap.smul_apply, LinearMap.smul_apply, spinHop_comm hrk ha hb, map_smul]
    · intro c1 c2 h1 h2 l hl n _
      rw [LinearMap.smul_apply, hub_table hrk hab hl h1 h2, comb_scale]
  · intro h; cases h

theorem hub_onsite (U mu : K) :
    expval (∑ a : LSite rows cols, (U • (num rk (a, .up) * num rk (a, .dn)) - mu • density rk a)) Ψ =
      ∑ S : Cfg (LSite rows cols) 4, fweight hubbardOcc Ψ S *
        hubbardOnsite U mu rows cols (sampleConfig (nat S)) := by
  rw [diag_est good_hubbard (fun n _ => supp_hubbard n) _
    (fun n => ∑ a : LSite rows cols, (U * ((if n (a, .up) = true then 1 else 0) *
      (if n (a, .dn) = true then 1 else 0)) - mu * ((if n (a, .up) = true then 1 else 0) +
        (if n (a, .dn) = true then 1 else 0))))]
  · refine Finset.sum_congr rfl fun S _ => ?_
    congr 1
    unfold hubbardOnsite
    dsimp only
    rw [Nat.cast_add, Nat.cast_mul, countP_cast (K := K) (fun s => sampleConfig (nat S) s = 0),
      countP_cast (K := K) (fun s => sampleConfig (nat S) s = 1 ∨ sampleConfig (nat S) s = 2),
      sum_allSites, sum_allSites, mul_add, ← mul_assoc, Finset.mul_sum, Finset.mul_sum, Finset.mul_sum,
      Finset.sum_mul, ← Finset.sum_add_distrib, ← Finset.sum_add_distrib]
    refine Finset.sum_congr rfl fun a _ => ?_
    rw [sampleConfig_coe]
    obtain ⟨hu, hd⟩ := filled_hubbard (nat S) a
    have hlt : nat S a < 4 := (S a).2
    simp only [hu, hd]
    generalize nat S a = c at *
    interval_cases c <;> simp <;> ring
  · intro f n
    rw [LinearMap.sum_apply, Finset.sum_apply, Finset.sum_mul]
    refine Finset.sum_congr rfl fun a _ => ?_
    unfold density
    simp only [LinearMap.sub_apply, LinearMap.smul_apply, LinearMap.add_apply, Module.End.mul_apply,
      Pi.sub_apply, Pi.smul_apply, Pi.add_apply, num_apply, smul_eq_mul]
    ring

end hubbard

section tJ
variable [DecidableEq K] {rk : LSite rows cols × Spin → ℕ} {Ψ : Fock K (LSite rows cols × Spin)}

/-- the table of a t-J bond -/
def tJFull (p : TJ K) (r2 : K) (b : Bond) (c1 c2 : ℕ) : List (K × ℕ × ℕ) :=
  match b.kind with
  | .h | .v => tJTab p.t p.J p.V c1 c2 ++
      match pinnedAt p.pin b with
      | none => []
      | some delta => pairTab r2 delta c1 c2
  | _ => tJHopTab p.t2 c1 c2

/-- the bond values of a t-J sample -/
def tJV (p : TJ K) (r2 : K) (rk : LSite rows cols × Spin → ℕ) (Ψ : Fock K (LSite rows cols × Spin))
    (ord : Bond → List (LSite rows cols)) (S : Cfg (LSite rows cols) 3) (b : Bond) : K :=
  bval rk tJOcc Ψ ord (nat S) b
    (tJFull p r2 b (sampleConfig (nat S) b.a) (sampleConfig (nat S) b.b))

/-- the on-site energy -/
def tJO (p : TJ K) (S : Cfg (LSite rows cols) 3) : K :=
  -p.mu * ∑ a : LSite rows cols, if nat S a ≠ 2 then 1 else 0

theorem tJ_onsite_ok (p : TJ K) (hin : pinInside p.pin rows cols = true)
    (S : Cfg (LSite rows cols) 3) :
    tJOnsite p rows cols (sampleConfig (nat S)) = .ok (tJO p S) := by
  unfold tJOnsite tJO
  rw [if_neg (by rw [hin]; decide)]
  congr 1
  rw [countP_cast (K := K) (fun s => sampleConfig (nat S) s ≠ 2), sum_allSites]
  simp only [sampleConfig_coe]
  by_cases h : p.mu = 0
  · rw [if_neg (by simpa using h), h]; simp
  · rw [if_pos h, zero_add]

theorem tJ_energy (nnn : Bool) (p : TJ K) (r2 : K) (hr : 2 ≤ rows) (hc : nnn = true → 2 ≤ cols)
    (hin : pinInside p.pin rows cols = true) (hord : PathOrder rows cols nnn ord)
    (S : Cfg (LSite rows cols) 3) (h0 : Ψ (filled tJOcc (nat S)) ≠ 0) :
    calEnergy (tJ nnn p r2) (exactF rk tJOcc Ψ ord (nat S)) (sampleConfig (nat S)) rows cols =
      .ok (((obcBonds rows cols nnn).map (tJV p r2 rk Ψ ord S)).sum + tJO p S) := by
  refine calEnergy_ok (v := tJV p r2 rk Ψ ord S) hr hc ?_ ?_ ?_ (tJ_onsite_ok p hin S)
  · intro col hcol
    exact amp_ne_zero (a := ⟨(0, col), mem_sites.2 ⟨by simp; omega, hcol⟩⟩)
      (b := ⟨(1, col), mem_sites.2 ⟨by simp; omega, hcol⟩⟩) good_tJ
      (hord.nn _ _ .v (Or.inr ⟨rfl, rfl⟩)) h0
  · intro x hx
    obtain ⟨a, b, k, rfl, hk⟩ := obc_sites hx
    have e := tJ_bond_val (rk := rk) (Ψ := Ψ) (ord := ord) (k := k) p r2 (s := nat S) (S a).2 (S b).2
      (amp_ne_zero good_tJ (hord.nn a b k hk) h0) hin
    refine Eq.trans e ?_
    unfold tJV tJFull
    dsimp only
    rw [sampleConfig_coe, sampleConfig_coe]
    rcases hk with ⟨rfl, _⟩ | ⟨rfl, _⟩ <;> rfl
  · intro hn row col h1 h2
    rw [tJ_plaquette_val (s := nat S) p r2 nnn (fun x => (S x).2) h1 h2 (hord.shared hn row col)]
    rfl

theorem tJ_bonds [CharZero K] (nnn : Bool) (p : TJ K) (r2 : K) (hrk : Function.Injective rk)
    (hord : PathOrder rows cols nnn ord) (hΨ : NoDouble Ψ) :
    ∑ S, fweight tJOcc Ψ S * ((obcBonds rows cols nnn).map (tJV p r2 rk Ψ ord S)).sum =
      expval (bondSum NN (tJBondH p.t p.J p.V rk)) Ψ +
      expval (bondSum (fun a b : LSite rows cols => RightOf (a : Site) b) (pinOp r2 rk p.pin .h) +
        bondSum (fun a b : LSite rows cols => Below (a : Site) b) (pinOp r2 rk p.pin .v)) Ψ +
      if nnn = true then expval (bondSum NNN (fun a b => (-p.t2) • spinHop rk a b)) Ψ else 0 := by
  rw [bonds_est (Ψ := Ψ) nnn (fun k a b => byKind k (tJBondH p.t p.J p.V rk a b + pinOp r2 rk p.pin k a b)
      ((-p.t2) • spinHop rk a b)) (tJV p r2 rk Ψ ord)]
  · dsimp only [byKind]
    rw [bondSum_add, bondSum_add, expval_add, expval_add, bondSum_NN, expval_add, expval_add,
      bondSum_NNN, expval_add]
    ring
  · intro a b k hk
    have hab := ne_of_nn hk
    have hO : byKind k (tJBondH p.t p.J p.V rk a b + pinOp r2 rk p.pin k a b)
      ((-p.t2) • spinHop rk a b) =
      tJBondH p.t p.J p.V rk a b + pinOp r2 rk p.pin k a b := by
      rcases hk with ⟨rfl, _⟩ | ⟨rfl, _⟩ <;> rfl
    rw [hO, bond_est (ord := ord) (k := k) (Adm := Single) (rk := rk) (fun n m h => h.clear m)
      (fun n hn => hΨ n hn) good_tJ (fun n hn => supp_tJ (hΨ n hn)) hab (hord.nn a b k hk)
      (O := tJBondH p.t p.J p.V rk a b + pinOp r2 rk p.pin k a b) ?_
      (fun c1 c2 => tJTab p.t p.J p.V c1 c2 ++
        match pinnedAt p.pin ⟨a, b, k⟩ with
        | none => []
        | some delta => pairTab r2 delta c1 c2) ?_]
    · refine Finset.sum_congr rfl fun S _ => ?_
      unfold tJV tJFull
      dsimp only
      rw [sampleConfig_coe, sampleConfig_coe]
      rcases hk with ⟨rfl, _⟩ | ⟨rfl, _⟩ <;> rfl
    · intro m ha hb f
      unfold pinOp
      cases pinnedAt p.pin ⟨a, b, k⟩ with
      | none => simp only [add_zero]; exact tJBondH_comm hrk _ _ _ ha hb f
      | some delta =>
        dsimp only
        rw [LinearMap.add_apply, LinearMap.add_apply, tJBondH_comm hrk _ _ _ ha hb,
          pairs_comm hrk _ _ ha hb, map_add]
    · intro c1 c2 h1 h2 l hl n hn
      rw [LinearMap.add_apply, Pi.add_apply, tJ_table hrk hab hl _ _ _ h1 h2 hn, comb_append,
        Pi.add_apply]
      congr 1
      unfold pinOp
      cases pinnedAt p.pin ⟨a, b, k⟩ with
      | none => simp [comb]
      | some delta => exact pair_table hrk hab hl _ _ h1 h2 hn
  · intro hn a b k hk
    have hab := ne_of_diag hk
    have hO : byKind k (tJBondH p.t p.J p.V rk a b + pinOp r2 rk p.pin k a b)
      ((-p.t2) • spinHop rk a b) =
      (-p.t2) • spinHop rk a b := by
      rcases hk with ⟨rfl, _⟩ | ⟨rfl, _⟩ <;> rfl
    rw [hO, bond_est (ord := ord) (k := k) (Adm := Single) (rk := rk) (fun n m h => h.clear m)
      (fun n hn => hΨ n hn) good_tJ (fun n hn => supp_tJ (hΨ n hn)) hab (hord.diag hn a b k hk)
      (O := (-p.t2) • spinHop rk a b) ?_ (fun c1 c2 => tJHopTab p.t2 c1 c2) ?_]
    · refine Finset.sum_congr rfl fun S _ => ?_
      unfold tJV tJFull
      dsimp only
      rw [sampleConfig_coe, sampleConfig_coe]
      rcases hk with ⟨rfl, _⟩ | ⟨rfl, _⟩ <;> rfl
    · intro m ha hb f
      rw [LinearMap.smul_apply, LinearMap.smul_apply, spinHop_comm hrk ha hb, map_smul]
    · intro c1 c2 h1 h2 l hl n hn'
      exact tJ_hop_table hrk hab hl _ h1 h2 hn'

omit [DecidableEq K] in
theorem tJ_onsite (p : TJ K) (hΨ : NoDouble Ψ) :
    expval (-∑ a : LSite rows cols, p.mu • density rk a) Ψ =
      ∑ S : Cfg (LSite rows cols) 3, fweight tJOcc Ψ S * tJO p S := by
  rw [diag_est good_tJ (fun n hn => supp_tJ (hΨ n hn)) _
    (fun n => -∑ a : LSite rows cols, p.mu * ((if n (a, .up) = true then 1 else 0) +
        (if n (a, .dn) = true then 1 else 0)))]
  · refine Finset.sum_congr rfl fun S _ => ?_
    congr 1
    unfold tJO
    rw [Finset.mul_sum, ← Finset.sum_neg_distrib]
    refine Finset.sum_congr rfl fun a _ => ?_
    obtain ⟨hu, hd⟩ := filled_tJ (nat S) a
    have hlt : nat S a < 3 := (S a).2
    simp only [hu, hd]
    generalize nat S a = c at *
    interval_cases c <;> simp
  · intro f n
    rw [LinearMap.neg_apply, Pi.neg_apply, LinearMap.sum_apply, Finset.sum_apply, neg_mul,
      Finset.sum_mul]
    congr 1
    refine Finset.sum_congr rfl fun a _ => ?_
    unfold density
    simp only [LinearMap.smul_apply, LinearMap.add_apply, Pi.smul_apply, Pi.add_apply, num_apply,
      smul_eq_mul]
    ring

end tJ

section spinless
variable {rk : LSite rows cols → ℕ} {Ψ : Fock K (LSite rows cols)}

/-- the bond values of a spinless sample -/
def slV (t t2 V : K) (rk : LSite rows cols → ℕ) (Ψ : Fock K (LSite rows cols))
    (ord : Bond → List (LSite rows cols)) (S : Cfg (LSite rows cols) 2) (b : Bond) : K :=
  bval rk spinlessOcc Ψ ord (nat S) b
    (match b.kind with
      | .h | .v => spinlessTab t V (sampleConfig (nat S) b.a) (sampleConfig (nat S) b.b)
      | _ => spinlessTab t2 0 (sampleConfig (nat S) b.a) (sampleConfig (nat S) b.b))

theorem sl_energy [DecidableEq K] (t t2 V : K) (hr : 2 ≤ rows) (hc : 2 ≤ cols)
    (hord : PathOrder rows cols true ord)
    (S : Cfg (LSite rows cols) 2) (h0 : Ψ (filled spinlessOcc (nat S)) ≠ 0) :
    calEnergy (spinless t t2 V) (exactF rk spinlessOcc Ψ ord (nat S)) (sampleConfig (nat S)) rows cols =
      .ok (((obcBonds rows cols true).map (slV t t2 V rk Ψ ord S)).sum + 0) := by
  refine calEnergy_ok (v := slV t t2 V rk Ψ ord S) hr (fun _ => hc) ?_ ?_ ?_ rfl
  · intro col hcol
    exact amp_ne_zero (a := ⟨(0, col), mem_sites.2 ⟨by simp; omega, hcol⟩⟩)
      (b := ⟨(1, col), mem_sites.2 ⟨by simp; omega, hcol⟩⟩) good_spinless
      (hord.nn _ _ .v (Or.inr ⟨rfl, rfl⟩)) h0
  · intro x hx
    obtain ⟨a, b, k, rfl, hk⟩ := obc_sites hx
    have e := spinless_bond_val (rk := rk) (Ψ := Ψ) (ord := ord) (k := k) t V (s := nat S) (S a).2 (S b).2
      (amp_ne_zero good_spinless (hord.nn a b k hk) h0)
    refine Eq.trans (congrArg Except.ok e) ?_
    unfold slV
    dsimp only
    rw [sampleConfig_coe, sampleConfig_coe]
    rcases hk with ⟨rfl, _⟩ | ⟨rfl, _⟩ <;> rfl
  · intro _ row col h1 h2
    rw [spinless_plaquette_val (s := nat S) t t2 V (fun x => (S x).2) h1 h2 (hord.shared rfl row col)]
    rfl

theorem sl_bonds (t t2 V : K) (hrk : Function.Injective rk) (hord : PathOrder rows cols true ord) :
    ∑ S, fweight spinlessOcc Ψ S * ((obcBonds rows cols true).map (slV t t2 V rk Ψ ord S)).sum =
      expval (bondSum NN (spinlessBondH t V rk) + bondSum NNN (fun a b => (-t2) • hop rk a b)) Ψ := by
  have hz : (fun a b : LSite rows cols => (-t2) • hop (K := K) rk a b) = spinlessBondH t2 0 rk := by
    funext a b; unfold spinlessBondH; rw [zero_smul, add_zero]
  rw [hz, bonds_est (Ψ := Ψ) true (fun k a b => byKind k (spinlessBondH t V rk a b)
      (spinlessBondH t2 0 rk a b)) (slV t t2 V rk Ψ ord)]
  · dsimp only [byKind]
    rw [if_pos rfl, expval_add, bondSum_NN, expval_add, bondSum_NNN, expval_add]
  · intro a b k hk
    have hab := ne_of_nn hk
    have hO : byKind k (spinlessBondH t V rk a b) (spinlessBondH t2 0 rk a b) =
      spinlessBondH t V rk a b := by
      rcases hk with ⟨rfl, _⟩ | ⟨rfl, _⟩ <;> rfl
    rw [hO, bond_est (ord := ord) (k := k) (Adm := fun _ => True) (rk := rk) adm_true
      (fun _ _ => trivial) good_spinless (fun n _ => supp_spinless n) hab (hord.nn a b k hk)
      (O := spinlessBondH t V rk a b) ?_ (fun c1 c2 => spinlessTab t V c1 c2) ?_]
    · refine Finset.sum_congr rfl fun S _ => ?_
      unfold slV
      dsimp only
      rw [sampleConfig_coe, sampleConfig_coe]
      rcases hk with ⟨rfl, _⟩ | ⟨rfl, _⟩ <;> rfl
    · intro m ha hb f
      exact spinlessBondH_comm hrk t V ha hb f
    · intro c1 c2 h1 h2 l hl n _
      exact congrFun (spinless_table hrk hab hl t V h1 h2) n
  · intro _ a b k hk
    have hab := ne_of_diag hk
    have hO : byKind k (spinlessBondH t V rk a b) (spinlessBondH t2 0 rk a b) =
      spinlessBondH t2 0 rk a b := by
      rcases hk with ⟨rfl, _⟩ | ⟨rfl, _⟩ <;> rfl
    rw [hO, bond_est (ord := ord) (k := k) (Adm := fun _ => True) (rk := rk) adm_true
      (fun _ _ => trivial) good_spinless (fun n _ => supp_spinless n) hab (hord.diag rfl a b k hk)
      (O := spinlessBondH t2 0 rk a b) ?_ (fun c1 c2 => spinlessTab t2 0 c1 c2) ?_]
    · refine Finset.sum_congr rfl fun S _ => ?_
      unfold slV
      dsimp only
      rw [sampleConfig_coe, sampleConfig_coe]
      rcases hk with ⟨rfl, _⟩ | ⟨rfl, _⟩ <;> rfl
    · intro m ha hb f
      exact spinlessBondH_comm hrk t2 0 ha hb f
    · intro c1 c2 h1 h2 l hl n _
      exact congrFun (spinless_table hrk hab hl t2 0 h1 h2) n

end spinless

end QLPeps.Fermion
