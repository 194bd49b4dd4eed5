import Verif.Lemmas.Fock

/-! # Helper lemmas: two-site tables of the bond operators -/

namespace QLPeps.Fock

open Finset Spec

variable {K : Type*} [Field K] {ι : Type*} [DecidableEq ι] [Fintype ι]

/-- linear combination of product states on the two sites in front of `l` -/
def comb {M : Type*} [DecidableEq M] [Fintype M] (rk : M → ℕ) (occ : ι → ℕ → List M) (a b : ι)
    (l : List M) (T : List (K × ℕ × ℕ)) : Fock K M :=
  (T.map (fun p => p.1 • createAll rk (occ a p.2.1 ++ (occ b p.2.2 ++ l)))).sum

/-- the action of `Σ_σ (c†_{aσ} c_{bσ} + h.c.)` on two Hubbard sites -/
def hubTab (c1 c2 : ℕ) : List (K × ℕ × ℕ) :=
  if c1 = c2 then []
  else if (c1 = 3 ∧ (c2 = 1 ∨ c2 = 2)) ∨ (c2 = 3 ∧ (c1 = 1 ∨ c1 = 2)) then [(1, c2, c1)]
  else if (c1 = 0 ∧ (c2 = 1 ∨ c2 = 2)) ∨ (c2 = 0 ∧ (c1 = 1 ∨ c1 = 2)) then [(-1, c2, c1)]
  else if c1 = 1 ∧ c2 = 2 then [(1, 3, 0), (1, 0, 3)]
  else if c1 = 2 ∧ c2 = 1 then [(-1, 3, 0), (-1, 0, 3)]
  else [(1, 1, 2), (-1, 2, 1)]

/-- the action of the t-J bond operator on two t-J sites -/
def tJTab (t J V : K) (c1 c2 : ℕ) : List (K × ℕ × ℕ) :=
  if c1 = c2 then (if c1 = 2 then [] else [(V, c1, c2)])
  else if c1 = 2 ∨ c2 = 2 then [(-t, c2, c1)]
  else [(-(1 / 2) * J + V, c1, c2), (1 / 2 * J, c2, c1)]

/-- the action of the diagonal hopping on two t-J sites -/
def tJHopTab (t2 : K) (c1 c2 : ℕ) : List (K × ℕ × ℕ) :=
  if c1 = c2 ∨ (c1 ≠ 2 ∧ c2 ≠ 2) then [] else [(-t2, c2, c1)]

/-- the action of `δ (Δ† + Δ)` on two t-J sites -/
def pairTab (r2 delta : K) (c1 c2 : ℕ) : List (K × ℕ × ℕ) :=
  if c1 = 2 ∧ c2 = 2 then [(delta / r2, 0, 1), (-(delta / r2), 1, 0)]
  else if c1 = 0 ∧ c2 = 1 then [(delta / r2, 2, 2)]
  else if c1 = 1 ∧ c2 = 0 then [(-(delta / r2), 2, 2)]
  else []

/-- the action of `-t (c†c + h.c.) + V n n` on two spinless sites -/
def spinlessTab (t V : K) (c1 c2 : ℕ) : List (K × ℕ × ℕ) :=
  if c1 = c2 then (if c1 = 0 then [(V, c1, c2)] else []) else [(-t, c2, c1)]

section
variable {rk : ι × Spin → ℕ} (hrk : Function.Injective rk) {a b : ι} (hab : a ≠ b)
include hrk hab

omit [Fintype ι] in
theorem rules [Fintype ι] {l : List (ι × Spin)} (hl : ∀ m ∈ l, m.1 ≠ a ∧ m.1 ≠ b) :
    (∀ σ, an rk (a, σ) (createAll (K := K) rk l) = 0) ∧
    (∀ σ, an rk (b, σ) (createAll (K := K) rk l) = 0) ∧
    (∀ σ τ (f : Fock K (ι × Spin)),
      an rk (a, σ) (cr rk (b, τ) f) = -cr rk (b, τ) (an rk (a, σ) f)) ∧
    (∀ σ τ (f : Fock K (ι × Spin)),
      an rk (b, σ) (cr rk (a, τ) f) = -cr rk (a, τ) (an rk (b, σ) f)) ∧
    (∀ x (f : Fock K (ι × Spin)),
      an rk (x, Spin.up) (cr rk (x, Spin.dn) f) = -cr rk (x, Spin.dn) (an rk (x, Spin.up) f)) ∧
    (∀ x (f : Fock K (ι × Spin)),
      an rk (x, Spin.dn) (cr rk (x, Spin.up) f) = -cr rk (x, Spin.up) (an rk (x, Spin.dn) f)) ∧
    (∀ σ τ (f : Fock K (ι × Spin)),
      cr rk (b, σ) (cr rk (a, τ) f) = -cr rk (a, τ) (cr rk (b, σ) f)) ∧
    (∀ x (f : Fock K (ι × Spin)),
      cr rk (x, Spin.dn) (cr rk (x, Spin.up) f) = -cr rk (x, Spin.up) (cr rk (x, Spin.dn) f)) :=
  ⟨fun σ => an_createAll hrk (fun h => (hl _ h).1 rfl),
   fun σ => an_createAll hrk (fun h => (hl _ h).2 rfl),
   fun σ τ f => an_cr_ne hrk (by simp [hab]) f,
   fun σ τ f => an_cr_ne hrk (by simp [hab.symm]) f,
   fun x f => an_cr_ne hrk (by simp) f,
   fun x f => an_cr_ne hrk (by simp) f,
   fun σ τ f => cr_cr hrk (by simp [hab.symm]) f,
   fun x f => cr_cr hrk (by simp) f⟩

theorem hub_table {l : List (ι × Spin)} (hl : ∀ m ∈ l, m.1 ≠ a ∧ m.1 ≠ b) {c1 c2 : ℕ}
    (h1 : c1 < 4) (h2 : c2 < 4) :
    spinHop (K := K) rk a b (createAll rk (hubbardOcc a c1 ++ (hubbardOcc b c2 ++ l))) =
      comb rk hubbardOcc a b l (hubTab c1 c2) := by
  obtain ⟨ka, kb, n1, n2, n3, n4, n5, n6⟩ := rules (K := K) hrk hab hl
  unfold spinHop hop comb
  simp only [LinearMap.add_apply, Module.End.mul_apply]
  interval_cases c1 <;> interval_cases c2 <;>
    simp [hubTab, hubbardOcc, createAll_cons, an_cr_self, cr_self, n1, n2, n3, n4, n5, n6, ka, kb,
      add_comm]

/-- no site of `n` is doubly occupied -/
def Single (n : ι × Spin → Bool) : Prop := ∀ x, ¬ (n (x, .up) = true ∧ n (x, .dn) = true)

omit hrk hab [Fintype ι] in
theorem Single.clear {n : ι × Spin → Bool} (h : Single n) (m : ι × Spin) :
    Single (Function.update n m false) := by
  rintro x ⟨h1, h2⟩
  apply h x
  constructor
  · by_contra h3
    by_cases e : (x, Spin.up) = m
    · subst e; simp at h1
    · rw [Function.update_of_ne e] at h1; exact h3 h1
  · by_contra h3
    by_cases e : (x, Spin.dn) = m
    · subst e; simp at h2
    · rw [Function.update_of_ne e] at h2; exact h3 h2

omit hrk hab in
theorem double_zero {n : ι × Spin → Bool} (h : Single n) (x : ι) (f : Fock K (ι × Spin)) :
    cr rk (x, .up) (cr rk (x, .dn) f) n = 0 := by
  simp only [cr, LinearMap.coe_mk, AddHom.coe_mk]
  by_cases h1 : n (x, Spin.up) = true
  · have h2 : n (x, Spin.dn) ≠ true := fun h2 => h x ⟨h1, h2⟩
    simp [h1, h2]
  · simp [h1]

omit hrk hab in
theorem double_zero' {n : ι × Spin → Bool} (h : Single n) (m : ι × Spin) (x : ι)
    (f : Fock K (ι × Spin)) : cr rk m (cr rk (x, .up) (cr rk (x, .dn) f)) n = 0 := by
  conv_lhs => simp only [cr, LinearMap.coe_mk, AddHom.coe_mk]
  have h' := double_zero (K := K) (rk := rk) (h.clear m) x f
  simp only [cr, LinearMap.coe_mk, AddHom.coe_mk] at h'
  rw [h', mul_zero, ite_self]

theorem tJ_table [CharZero K] {l : List (ι × Spin)} (hl : ∀ m ∈ l, m.1 ≠ a ∧ m.1 ≠ b)
    (t J V : K) {c1 c2 : ℕ} (h1 : c1 < 3) (h2 : c2 < 3) {n : ι × Spin → Bool} (hn : Single n) :
    tJBondH t J V rk a b
        (createAll rk (tJOcc a c1 ++ (tJOcc b c2 ++ l))) n =
      comb rk tJOcc a b l (tJTab t J V c1 c2) n := by
  obtain ⟨ka, kb, n1, n2, n3, n4, n5, n6⟩ := rules (K := K) hrk hab hl
  have d1 := fun x (f : Fock K (ι × Spin)) => double_zero (K := K) (rk := rk) hn x f
  have d2 := fun m x (f : Fock K (ι × Spin)) => double_zero' (K := K) (rk := rk) hn m x f
  unfold tJBondH spinHop hop fSS fSz fSp fSm density num comb
  simp only [LinearMap.add_apply, LinearMap.sub_apply, LinearMap.smul_apply, Module.End.mul_apply]
  interval_cases c1 <;> interval_cases c2 <;>
    simp [tJTab, tJOcc, createAll_cons, an_cr_self, cr_self, n1, n2, n3, n4, n5, n6, ka, kb,
      d1, d2] <;> ring_nf <;> simp

theorem tJ_hop_table {l : List (ι × Spin)} (hl : ∀ m ∈ l, m.1 ≠ a ∧ m.1 ≠ b)
    (t2 : K) {c1 c2 : ℕ} (h1 : c1 < 3) (h2 : c2 < 3) {n : ι × Spin → Bool} (hn : Single n) :
    ((-t2) • spinHop (K := K) rk a b) (createAll rk (tJOcc a c1 ++ (tJOcc b c2 ++ l))) n =
      comb rk tJOcc a b l (tJHopTab t2 c1 c2) n := by
  obtain ⟨ka, kb, n1, n2, n3, n4, n5, n6⟩ := rules (K := K) hrk hab hl
  have d1 := fun x (f : Fock K (ι × Spin)) => double_zero (K := K) (rk := rk) hn x f
  have d2 := fun m x (f : Fock K (ι × Spin)) => double_zero' (K := K) (rk := rk) hn m x f
  unfold spinHop hop comb
  simp only [LinearMap.add_apply, LinearMap.smul_apply, Module.End.mul_apply]
  interval_cases c1 <;> interval_cases c2 <;>
    simp [tJHopTab, tJOcc, createAll_cons, an_cr_self, cr_self, n1, n2, n3, n4, n5, n6, ka, kb,
      d1, d2]

theorem pair_table {l : List (ι × Spin)} (hl : ∀ m ∈ l, m.1 ≠ a ∧ m.1 ≠ b)
    (r2 delta : K) {c1 c2 : ℕ} (h1 : c1 < 3) (h2 : c2 < 3) {n : ι × Spin → Bool} (hn : Single n) :
    (delta • (pairDag r2 rk a b + pair r2 rk a b))
        (createAll rk (tJOcc a c1 ++ (tJOcc b c2 ++ l))) n =
      comb rk tJOcc a b l (pairTab r2 delta c1 c2) n := by
  obtain ⟨ka, kb, n1, n2, n3, n4, n5, n6⟩ := rules (K := K) hrk hab hl
  have d1 := fun x (f : Fock K (ι × Spin)) => double_zero (K := K) (rk := rk) hn x f
  have d2 := fun m x (f : Fock K (ι × Spin)) => double_zero' (K := K) (rk := rk) hn m x f
  unfold pairDag pair comb
  simp only [LinearMap.add_apply, LinearMap.sub_apply, LinearMap.neg_apply, LinearMap.smul_apply,
    Module.End.mul_apply]
  interval_cases c1 <;> interval_cases c2 <;>
    simp [pairTab, tJOcc, createAll_cons, an_cr_self, cr_self, n1, n2, n3, n4, n5, n6, ka, kb,
      d1, d2] <;> ring

end

section
variable {rk : ι → ℕ} (hrk : Function.Injective rk) {a b : ι} (hab : a ≠ b)
include hrk hab

theorem spinless_table {l : List ι} (hl : ∀ m ∈ l, m ≠ a ∧ m ≠ b)
    (t V : K) {c1 c2 : ℕ} (h1 : c1 < 2) (h2 : c2 < 2) :
    spinlessBondH t V rk a b
        (createAll rk (spinlessOcc a c1 ++ (spinlessOcc b c2 ++ l))) =
      comb rk spinlessOcc a b l (spinlessTab t V c1 c2) := by
  have ka : an rk a (createAll (K := K) rk l) = 0 := an_createAll hrk (fun h => (hl _ h).1 rfl)
  have kb : an rk b (createAll (K := K) rk l) = 0 := an_createAll hrk (fun h => (hl _ h).2 rfl)
  have n1 := fun f : Fock K ι => an_cr_ne hrk hab f
  have n2 := fun f : Fock K ι => an_cr_ne hrk hab.symm f
  have n5 := fun f : Fock K ι => cr_cr hrk hab.symm f
  unfold spinlessBondH hop num comb
  simp only [LinearMap.add_apply, LinearMap.smul_apply, Module.End.mul_apply]
  interval_cases c1 <;> interval_cases c2 <;>
    simp [spinlessTab, spinlessOcc, createAll_cons, an_cr_self, cr_self, n1, n2, n5, ka, kb]

end

end QLPeps.Fock
