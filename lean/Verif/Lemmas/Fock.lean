import Verif.Spec.Fermion
import Mathlib.Tactic

/-! # Helper lemmas: canonical anticommutation relations and product states -/

namespace QLPeps.Fock

open Finset Spec

variable {K : Type*} [Field K] {M : Type*} [DecidableEq M] [Fintype M] {rk : M → ℕ}

theorem jw_sq (m : M) (n : M → Bool) : jw (K := K) rk m n * jw rk m n = 1 := by
  unfold jw
  rw [← Finset.prod_mul_distrib]
  refine Finset.prod_eq_one fun m' _ => ?_
  split_ifs <;> simp

theorem jw_cases (m : M) (n : M → Bool) : jw (K := K) rk m n = 1 ∨ jw (K := K) rk m n = -1 := by
  exact mul_self_eq_one_iff.1 (jw_sq m n)

theorem jw_self (m : M) (n : M → Bool) (v : Bool) :
    jw (K := K) rk m (Function.update n m v) = jw rk m n := by
  unfold jw
  refine Finset.prod_congr rfl fun m' _ => ?_
  by_cases h : m' = m
  · subst h; simp
  · simp [Function.update_of_ne h]

/-- filling an empty mode `m'` changes the sign of the modes behind it -/
theorem jw_fill {m m' : M} (n : M → Bool) (h0 : n m' = false) :
    jw (K := K) rk m (Function.update n m' true) =
      (if rk m' < rk m then -1 else 1) * jw rk m n := by
  unfold jw
  rw [← Finset.mul_prod_erase _ _ (Finset.mem_univ m'),
    ← Finset.mul_prod_erase univ (fun x => if rk x < rk m ∧ n x = true then (-1 : K) else 1)
      (Finset.mem_univ m')]
  have h1 : ∏ x ∈ univ.erase m', (if rk x < rk m ∧ Function.update n m' true x = true
      then (-1 : K) else 1) = ∏ x ∈ univ.erase m', (if rk x < rk m ∧ n x = true
      then (-1 : K) else 1) := by
    refine Finset.prod_congr rfl fun x hx => ?_
    rw [Function.update_of_ne (Finset.ne_of_mem_erase hx)]
  rw [h1]
  simp [h0]

theorem jw_clear {m m' : M} (n : M → Bool) (h0 : n m' = true) :
    jw (K := K) rk m (Function.update n m' false) =
      (if rk m' < rk m then -1 else 1) * jw rk m n := by
  have h := jw_fill (K := K) (rk := rk) (m := m) (m' := m') (Function.update n m' false) (by simp)
  rw [Function.update_idem, ← h0, Function.update_eq_self] at h
  rw [h, ← mul_assoc]
  split_ifs <;> simp

variable (hrk : Function.Injective rk)
include hrk

theorem sign_flip {m m' : M} (h : m ≠ m') :
    ((if rk m' < rk m then (-1 : K) else 1)) = -(if rk m < rk m' then (-1 : K) else 1) := by
  have := fun e => h (hrk e)
  rcases lt_trichotomy (rk m) (rk m') with h1 | h1 | h1
  · simp [h1, h1.le]
  · exact absurd h1 this
  · simp [h1, h1.le]

theorem an_cr_ne {m m' : M} (h : m ≠ m') (f : Fock K M) :
    an rk m (cr rk m' f) = -cr rk m' (an rk m f) := by
  funext n
  simp only [an, cr, LinearMap.coe_mk, AddHom.coe_mk, Pi.neg_apply,
    Function.update_of_ne h, Function.update_of_ne h.symm]
  by_cases h1 : n m = true <;> by_cases h2 : n m' = true <;> simp [h1, h2]
  rw [jw_fill n (by simpa using h1), jw_clear n h2, Function.update_comm h.symm,
    sign_flip hrk h]
  ring

omit hrk in
theorem an_cr_self (m : M) (f : Fock K M) : an rk m (cr rk m f) = f - cr rk m (an rk m f) := by
  funext n
  simp only [an, cr, LinearMap.coe_mk, AddHom.coe_mk, Pi.sub_apply, Function.update_self,
    Function.update_idem, jw_self]
  by_cases h1 : n m = true
  · simp [h1]
    rw [← mul_assoc, jw_sq, one_mul, ← h1, Function.update_eq_self, sub_self]
  · simp only [Bool.not_eq_true] at h1
    simp [h1]
    rw [← mul_assoc, jw_sq, one_mul, ← h1, Function.update_eq_self]

theorem cr_cr {m m' : M} (h : m ≠ m') (f : Fock K M) :
    cr rk m (cr rk m' f) = -cr rk m' (cr rk m f) := by
  funext n
  simp only [cr, LinearMap.coe_mk, AddHom.coe_mk, Pi.neg_apply,
    Function.update_of_ne h, Function.update_of_ne h.symm]
  by_cases h1 : n m = true <;> by_cases h2 : n m' = true <;> simp [h1, h2]
  rw [jw_clear n h1, jw_clear n h2, Function.update_comm h.symm, sign_flip hrk h]
  ring

omit hrk in
theorem cr_self (m : M) (f : Fock K M) : cr rk m (cr rk m f) = 0 := by
  funext n
  simp [cr]

theorem an_an {m m' : M} (h : m ≠ m') (f : Fock K M) :
    an rk m (an rk m' f) = -an rk m' (an rk m f) := by
  funext n
  simp only [an, LinearMap.coe_mk, AddHom.coe_mk, Pi.neg_apply,
    Function.update_of_ne h, Function.update_of_ne h.symm]
  by_cases h1 : n m = true <;> by_cases h2 : n m' = true <;> simp [h1, h2]
  rw [jw_fill n (by simpa using h1), jw_fill n (by simpa using h2), Function.update_comm h.symm,
    sign_flip hrk h]
  ring

omit hrk in
theorem an_self (m : M) (f : Fock K M) : an rk m (an rk m f) = 0 := by
  funext n
  simp [an]

omit hrk in
theorem an_vac (m : M) : an rk m (vac : Fock K M) = 0 := by
  funext n
  simp only [an, vac, LinearMap.coe_mk, AddHom.coe_mk, Pi.zero_apply]
  split_ifs with h1 h2
  · rfl
  · have := congrFun h2 m
    simp at this
  · simp

omit hrk in
theorem createAll_cons (m : M) (l : List M) :
    createAll (K := K) rk (m :: l) = cr rk m (createAll rk l) := rfl

theorem an_createAll {m : M} {l : List M} (h : m ∉ l) : an rk m (createAll (K := K) rk l) = 0 := by
  induction l with
  | nil => exact an_vac m
  | cons m' l ih =>
    rw [createAll_cons, an_cr_ne hrk (by rintro rfl; simp at h), ih (by simp_all), map_zero,
      neg_zero]

/-! ### Basis states -/

/-- the basis state with exactly the modes `n` occupied -/
def basis (n : M → Bool) : Fock K M := fun n' => if n' = n then 1 else 0

omit hrk in
theorem cr_basis (m : M) (n : M → Bool) (h : n m = false) :
    cr rk m (basis (K := K) n) =
      (jw (K := K) rk m n) • basis (Function.update n m true) := by
  funext n'
  simp only [cr, basis, LinearMap.coe_mk, AddHom.coe_mk, Pi.smul_apply, smul_eq_mul, mul_ite,
    mul_one, mul_zero]
  by_cases h1 : n' = Function.update n m true
  · subst h1
    simp only [Function.update_self, if_true, Function.update_idem, jw_self]
    rw [if_pos]
    rw [← h, Function.update_eq_self]
  · rw [if_neg h1]
    split_ifs with h2 h3
    · exfalso
      apply h1
      rw [← h3, Function.update_idem, ← h2, Function.update_eq_self]
    · rfl
    · rfl

omit hrk in
theorem createAll_basis {l : List M} (hl : l.Nodup) :
    ∃ ε : K, (ε = 1 ∨ ε = -1) ∧
      createAll (K := K) rk l = ε • basis (K := K) (fun m => decide (m ∈ l)) := by
  induction l with
  | nil =>
    refine ⟨1, Or.inl rfl, ?_⟩
    funext n
    simp [createAll, vac, basis]
  | cons m l ih =>
    obtain ⟨hm, hl⟩ := List.nodup_cons.1 hl
    obtain ⟨ε, hε, h⟩ := ih hl
    refine ⟨ε * jw rk m (fun m => decide (m ∈ l)), ?_, ?_⟩
    · rcases hε with rfl | rfl <;>
        rcases jw_cases (K := K) (rk := rk) m (fun m => decide (m ∈ l)) with h' | h' <;> simp [h']
    · rw [createAll_cons, h, map_smul, cr_basis _ _ (by simpa using hm), smul_smul]
      congr 2
      funext m'
      by_cases h' : m' = m
      · subst h'; simp
      · simp [Function.update_of_ne h', h']

omit hrk in
/-- an even operator passes the creation operators it commutes with -/
theorem even_pass {O : Module.End K (Fock K M)} {pre l : List M}
    (hO : ∀ m ∈ pre, ∀ f, O (cr rk m f) = cr rk m (O f)) :
    O (createAll rk (pre ++ l)) = pre.foldr (fun m f => cr rk m f) (O (createAll rk l)) := by
  induction pre with
  | nil => rfl
  | cons m pre ih =>
    rw [List.cons_append, createAll_cons, hO m (by simp), ih (fun m' h => hO m' (by simp [h]))]
    rfl

omit hrk in
/-- creation operators applied to a linear combination -/
theorem foldr_cr_sum {pre : List M} (T : List (K × List M)) :
    pre.foldr (fun m f => cr (K := K) rk m f) ((T.map (fun p => p.1 • createAll rk p.2)).sum) =
      (T.map (fun p => p.1 • createAll (K := K) rk (pre ++ p.2))).sum := by
  induction pre with
  | nil => rfl
  | cons m pre ih =>
    rw [List.foldr_cons, ih]
    rw [map_list_sum, List.map_map]
    congr 1
    refine List.map_congr_left fun p _ => ?_
    simp only [Function.comp, map_smul]
    rfl

end QLPeps.Fock
