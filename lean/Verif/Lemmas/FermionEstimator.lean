import Verif.Lemmas.FermionTables

/-! # Helper lemmas: local estimators of fermionic operators -/

namespace QLPeps.Fock

open Finset Spec

variable {K : Type*} [Field K] {ι : Type*} [DecidableEq ι] [Fintype ι]

/-! ### Even operators commute with the creation operators of other sites -/

section comm
variable {rk : ι × Spin → ℕ} (hrk : Function.Injective rk) {a b : ι}
include hrk

theorem rules' {m : ι × Spin} (ha : m.1 ≠ a) (hb : m.1 ≠ b) :
    (∀ σ (f : Fock K (ι × Spin)), an rk (a, σ) (cr rk m f) = -cr rk m (an rk (a, σ) f)) ∧
    (∀ σ (f : Fock K (ι × Spin)), an rk (b, σ) (cr rk m f) = -cr rk m (an rk (b, σ) f)) ∧
    (∀ σ (f : Fock K (ι × Spin)), cr rk (a, σ) (cr rk m f) = -cr rk m (cr rk (a, σ) f)) ∧
    (∀ σ (f : Fock K (ι × Spin)), cr rk (b, σ) (cr rk m f) = -cr rk m (cr rk (b, σ) f)) := by
  refine ⟨fun σ f => an_cr_ne hrk ?_ f, fun σ f => an_cr_ne hrk ?_ f,
    fun σ f => cr_cr hrk ?_ f, fun σ f => cr_cr hrk ?_ f⟩ <;> rintro rfl <;> simp_all

theorem spinHop_comm {m : ι × Spin} (ha : m.1 ≠ a) (hb : m.1 ≠ b) (f : Fock K (ι × Spin)) :
    spinHop rk a b (cr rk m f) = cr rk m (spinHop rk a b f) := by
  obtain ⟨r1, r2, r3, r4⟩ := rules' (K := K) hrk ha hb
  unfold spinHop hop
  simp only [LinearMap.add_apply, Module.End.mul_apply, r1, r2, r3, r4, map_neg, neg_neg, map_add]

theorem density_comm {m : ι × Spin} (ha : m.1 ≠ a) (f : Fock K (ι × Spin)) :
    density rk a (cr rk m f) = cr rk m (density rk a f) := by
  obtain ⟨r1, r2, r3, r4⟩ := rules' (K := K) hrk ha ha
  unfold density num
  simp only [LinearMap.add_apply, Module.End.mul_apply, r1, r3, map_neg, neg_neg, map_add]

theorem fSS_comm {m : ι × Spin} (ha : m.1 ≠ a) (hb : m.1 ≠ b) (f : Fock K (ι × Spin)) :
    fSS rk a b (cr rk m f) = cr rk m (fSS rk a b f) := by
  obtain ⟨r1, r2, r3, r4⟩ := rules' (K := K) hrk ha hb
  unfold fSS fSz fSp fSm num
  simp only [LinearMap.add_apply, LinearMap.sub_apply, LinearMap.smul_apply, Module.End.mul_apply,
    r1, r2, r3, r4, map_neg, neg_neg, map_add, map_sub, map_smul]

theorem tJBondH_comm (t J V : K) {m : ι × Spin} (ha : m.1 ≠ a) (hb : m.1 ≠ b)
    (f : Fock K (ι × Spin)) : tJBondH t J V rk a b (cr rk m f) = cr rk m (tJBondH t J V rk a b f) := by
  unfold tJBondH
  simp only [LinearMap.add_apply, LinearMap.sub_apply, LinearMap.smul_apply, Module.End.mul_apply,
    spinHop_comm hrk ha hb, fSS_comm hrk ha hb, density_comm hrk ha, density_comm hrk hb,
    map_add, map_sub, map_smul]

theorem pairs_comm (r2 delta : K) {m : ι × Spin} (ha : m.1 ≠ a) (hb : m.1 ≠ b)
    (f : Fock K (ι × Spin)) :
    (delta • (pairDag r2 rk a b + pair r2 rk a b)) (cr rk m f) =
      cr rk m ((delta • (pairDag r2 rk a b + pair r2 rk a b)) f) := by
  obtain ⟨r1, r2, r3, r4⟩ := rules' (K := K) hrk ha hb
  unfold pairDag pair
  simp only [LinearMap.add_apply, LinearMap.sub_apply, LinearMap.neg_apply, LinearMap.smul_apply,
    Module.End.mul_apply, r1, r2, r3, r4, map_neg, neg_neg, map_add, map_sub, map_smul]

end comm

theorem spinlessBondH_comm {rk : ι → ℕ} (hrk : Function.Injective rk) {a b : ι} (t V : K) {m : ι}
    (ha : m ≠ a) (hb : m ≠ b) (f : Fock K ι) :
    spinlessBondH t V rk a b (cr rk m f) = cr rk m (spinlessBondH t V rk a b f) := by
  have r1 := fun f : Fock K ι => an_cr_ne hrk ha.symm f
  have r2 := fun f : Fock K ι => an_cr_ne hrk hb.symm f
  have r3 := fun f : Fock K ι => cr_cr hrk ha.symm f
  have r4 := fun f : Fock K ι => cr_cr hrk hb.symm f
  unfold spinlessBondH hop num
  simp only [LinearMap.add_apply, LinearMap.smul_apply, Module.End.mul_apply,
    r1, r2, r3, r4, map_neg, neg_neg, map_add, map_smul]

/-! ### Action on a product state in a given order -/

section ket
variable {M : Type*} [DecidableEq M] [Fintype M] {rk : M → ℕ}

/-- `s` with the states `x`, `y` on the sites `a`, `b` -/
def put2 (s : ι → ℕ) (a b : ι) (x y : ℕ) : ι → ℕ :=
  fun p => if p = b then y else if p = a then x else s p

theorem foldr_congr {Adm : (M → Bool) → Prop} (hA : ∀ n m, Adm n → Adm (Function.update n m false))
    (pre : List M) {f g : Fock K M} (h : ∀ n, Adm n → f n = g n) :
    ∀ n, Adm n → pre.foldr (fun m f => cr rk m f) f n = pre.foldr (fun m f => cr rk m f) g n := by
  induction pre with
  | nil => exact h
  | cons m pre ih =>
    intro n hn
    simp only [List.foldr_cons, cr, LinearMap.coe_mk, AddHom.coe_mk]
    have := ih _ (hA n m hn)
    simp only [cr, LinearMap.coe_mk, AddHom.coe_mk] at this
    rw [this]

theorem bond_ket {Adm : (M → Bool) → Prop} (hA : ∀ n m, Adm n → Adm (Function.update n m false))
    {occ : ι → ℕ → List M} {st : M → ι} (hst : ∀ x c m, m ∈ occ x c → st m = x)
    {O : Module.End K (Fock K M)} {a b : ι} (hab : a ≠ b)
    (hcomm : ∀ m, st m ≠ a → st m ≠ b → ∀ f, O (cr rk m f) = cr rk m (O f))
    {L : List ι} (hnd : L.Nodup) (hinf : [a, b] <:+: L) (s : ι → ℕ) (T : List (K × ℕ × ℕ))
    (hT : ∀ l, (∀ m ∈ l, st m ≠ a ∧ st m ≠ b) → ∀ n, Adm n →
      O (createAll rk (occ a (s a) ++ (occ b (s b) ++ l))) n = comb rk occ a b l T n) :
    ∀ n, Adm n → O (ket rk occ L s) n =
      (T.map (fun p => p.1 • ket (K := K) rk occ L (put2 s a b p.2.1 p.2.2))).sum n := by
  obtain ⟨pre, post, rfl⟩ := hinf
  have hne : ∀ x ∈ pre, x ≠ a ∧ x ≠ b := by
    intro x hx
    rw [List.append_assoc, List.nodup_append'] at hnd
    have h := hnd.2.2 hx
    constructor <;> rintro rfl <;> simp at h
  have hne' : ∀ x ∈ post, x ≠ a ∧ x ≠ b := by
    intro x hx
    rw [List.nodup_append'] at hnd
    have h := hnd.2.2
    constructor <;> rintro rfl
    · exact h (by simp) hx
    · exact h (by simp) hx
  set l := post.flatMap (fun x => occ x (s x)) with hl
  set P := pre.flatMap (fun x => occ x (s x)) with hP
  have hmodes : ∀ m ∈ l, st m ≠ a ∧ st m ≠ b := by
    intro m hm
    obtain ⟨x, hx, hm⟩ := List.mem_flatMap.1 hm
    rw [hst _ _ _ hm]; exact hne' x hx
  have hmodes' : ∀ m ∈ P, st m ≠ a ∧ st m ≠ b := by
    intro m hm
    obtain ⟨x, hx, hm⟩ := List.mem_flatMap.1 hm
    rw [hst _ _ _ hm]; exact hne x hx
  have e1 : ket (K := K) rk occ (pre ++ [a, b] ++ post) s =
      createAll rk (P ++ (occ a (s a) ++ (occ b (s b) ++ l))) := by
    unfold ket
    simp [hP, hl, List.flatMap_append]
  have e2 : ∀ x y, ket (K := K) rk occ (pre ++ [a, b] ++ post) (put2 s a b x y) =
      createAll rk (P ++ (occ a x ++ (occ b y ++ l))) := by
    intro x y
    unfold ket
    have h1 : pre.flatMap (fun p => occ p (put2 s a b x y p)) = P := by
      rw [hP, List.flatMap_def, List.flatMap_def]
      congr 1
      refine List.map_congr_left fun p hp => ?_
      simp [put2, (hne p hp).1, (hne p hp).2]
    have h2 : post.flatMap (fun p => occ p (put2 s a b x y p)) = l := by
      rw [hl, List.flatMap_def, List.flatMap_def]
      congr 1
      refine List.map_congr_left fun p hp => ?_
      simp [put2, (hne' p hp).1, (hne' p hp).2]
    rw [List.flatMap_append, List.flatMap_append, h1, h2]
    simp [put2, hab]
  intro n hn
  rw [e1, even_pass (fun m hm f => hcomm m (hmodes' m hm).1 (hmodes' m hm).2 f),
    foldr_congr hA P (hT l hmodes) n hn]
  have e3 := foldr_cr_sum (K := K) (rk := rk) (pre := P)
    (T.map (fun p => (p.1, occ a p.2.1 ++ (occ b p.2.2 ++ l))))
  rw [List.map_map, List.map_map] at e3
  unfold comb
  have e4 : (T.map (fun p => p.1 • ket (K := K) rk occ (pre ++ [a, b] ++ post)
      (put2 s a b p.2.1 p.2.2))) =
      T.map (fun p => p.1 • createAll rk (P ++ (occ a p.2.1 ++ (occ b p.2.2 ++ l)))) :=
    List.map_congr_left fun p _ => by rw [e2]
  rw [e4]
  exact congrFun e3 n

/-! ### Estimators -/

variable [StarRing K]

theorem overlap_add (f g h : Fock K M) : overlap f (g + h) = overlap f g + overlap f h := by
  unfold overlap; rw [← Finset.sum_add_distrib]
  exact Finset.sum_congr rfl fun n _ => by simp [mul_add]

theorem overlap_smul (f g : Fock K M) (c : K) : overlap f (c • g) = c * overlap f g := by
  unfold overlap; rw [Finset.mul_sum]
  exact Finset.sum_congr rfl fun n _ => by simp [mul_left_comm]

theorem overlap_zero (f : Fock K M) : overlap f (0 : Fock K M) = 0 := by
  unfold overlap; simp

theorem overlap_sum {α : Type*} (f : Fock K M) (A : Finset α) (g : α → Fock K M) :
    overlap f (∑ i ∈ A, g i) = ∑ i ∈ A, overlap f (g i) := by
  classical
  induction A using Finset.induction_on with
  | empty => simp [overlap_zero]
  | insert i A hi ih => rw [Finset.sum_insert hi, Finset.sum_insert hi, overlap_add, ih]

theorem overlap_list_sum (f : Fock K M) (l : List (Fock K M)) :
    overlap f l.sum = (l.map (overlap f)).sum := by
  induction l with
  | nil => simp [overlap_zero]
  | cons g l ih => simp [overlap_add, ih]

theorem overlap_star (f g : Fock K M) : star (overlap f g) = overlap g f := by
  unfold overlap
  rw [star_sum]
  exact Finset.sum_congr rfl fun n _ => by rw [star_mul', star_star, mul_comm]

theorem overlap_congr {Ψ f g : Fock K M} {Adm : (M → Bool) → Prop} (hΨ : ∀ n, Ψ n ≠ 0 → Adm n)
    (h : ∀ n, Adm n → f n = g n) : overlap Ψ f = overlap Ψ g := by
  unfold overlap
  refine Finset.sum_congr rfl fun n _ => ?_
  by_cases h0 : Ψ n = 0
  · simp [h0]
  · rw [h n (hΨ n h0)]

/-- how the local states of the sites determine the occupied modes -/
structure GoodOcc (occ : ι → ℕ → List M) (st : M → ι) (d : ℕ) : Prop where
  nodup : ∀ x c, (occ x c).Nodup
  site : ∀ x c m, m ∈ occ x c → st m = x
  inj : ∀ x c c', c < d → c' < d → (∀ m, m ∈ occ x c ↔ m ∈ occ x c') → c = c'

omit [StarRing K] in
theorem ket_basis {occ : ι → ℕ → List M} {st : M → ι} {d : ℕ} (g : GoodOcc occ st d)
    {L : List ι} (hnd : L.Nodup) (hall : ∀ x, x ∈ L) (s : ι → ℕ) :
    ∃ ε : K, (ε = 1 ∨ ε = -1) ∧ ket rk occ L s = ε • basis (K := K) (filled occ s) := by
  have h : (L.flatMap (fun x => occ x (s x))).Nodup := by
    rw [List.nodup_flatMap]
    refine ⟨fun x _ => g.nodup x _, hnd.imp ?_⟩
    intro x y hxy m hm hm'
    exact hxy ((g.site _ _ _ hm).symm.trans (g.site _ _ _ hm'))
  obtain ⟨ε, hε, h'⟩ := createAll_basis (K := K) (rk := rk) h
  refine ⟨ε, hε, ?_⟩
  unfold ket
  rw [h']
  congr 2
  funext m
  unfold filled
  congr 1
  simp [hall]

theorem filled_inj {occ : ι → ℕ → List M} {st : M → ι} {d : ℕ} (g : GoodOcc occ st d) :
    Function.Injective (fun S : Cfg ι d => filled occ (nat S)) := by
  intro S S' h
  funext x
  apply Fin.ext
  refine g.inj x _ _ (S x).2 (S' x).2 fun m => ?_
  have hm := congrFun h m
  simp only [filled, decide_eq_decide] at hm
  constructor
  · intro h1
    obtain ⟨y, hy⟩ := hm.1 ⟨x, h1⟩
    have : y = x := (g.site _ _ _ hy).symm.trans (g.site _ _ _ h1)
    subst this; exact hy
  · intro h1
    obtain ⟨y, hy⟩ := hm.2 ⟨x, h1⟩
    have : y = x := (g.site _ _ _ hy).symm.trans (g.site _ _ _ h1)
    subst this; exact hy

theorem amp_eq {occ : ι → ℕ → List M} {st : M → ι} {d : ℕ} (g : GoodOcc occ st d)
    {L : List ι} (hnd : L.Nodup) (hall : ∀ x, x ∈ L) (s : ι → ℕ) (Ψ : Fock K M) :
    ∃ ε : K, (ε = 1 ∨ ε = -1) ∧ ket rk occ L s = ε • basis (K := K) (filled occ s) ∧
      amp rk occ Ψ L s = ε * Ψ (filled occ s) := by
  obtain ⟨ε, hε, h⟩ := ket_basis (K := K) (rk := rk) g hnd hall s
  refine ⟨ε, hε, h, ?_⟩
  unfold amp overlap
  rw [h, Finset.sum_eq_single (filled occ s)]
  · rcases hε with rfl | rfl <;> simp [basis]
  · intro n _ hn; simp [basis, hn]
  · simp

/-- the estimator of an operator from its action on the product states in one order -/
theorem op_estimator {Adm : (M → Bool) → Prop} {Ψ : Fock K M} (hΨ : ∀ n, Ψ n ≠ 0 → Adm n)
    {occ : ι → ℕ → List M} {st : M → ι} {d : ℕ} (g : GoodOcc occ st d)
    (hsupp : ∀ n, Ψ n ≠ 0 → ∃ S : Cfg ι d, filled occ (nat S) = n)
    {L : List ι} (hnd : L.Nodup) (hall : ∀ x, x ∈ L)
    (O : Module.End K (Fock K M)) (T : Cfg ι d → List (K × (ι → ℕ)))
    (hO : ∀ S n, Adm n → O (ket rk occ L (nat S)) n =
      ((T S).map (fun p => p.1 • ket (K := K) rk occ L p.2)).sum n) :
    expval O Ψ = ∑ S : Cfg ι d, star (Ψ (filled occ (nat S))) * Ψ (filled occ (nat S)) *
      ((T S).map (fun p => p.1 * star (amp rk occ Ψ L p.2 / amp rk occ Ψ L (nat S)))).sum := by
  have hdec : Ψ = ∑ S : Cfg ι d, Ψ (filled occ (nat S)) • basis (K := K) (filled occ (nat S)) := by
    funext n
    rw [Finset.sum_apply]
    by_cases h0 : Ψ n = 0
    · rw [h0]
      symm
      refine Finset.sum_eq_zero fun S _ => ?_
      by_cases e : n = filled occ (nat S)
      · rw [← e, h0]; simp
      · simp [basis, e]
    · obtain ⟨S, rfl⟩ := hsupp n h0
      rw [Finset.sum_eq_single S]
      · simp [basis]
      · intro S' _ hS
        have : filled occ (nat S) ≠ filled occ (nat S') := fun e => hS ((filled_inj g) e).symm
        simp [basis, this]
      · simp
  unfold expval
  conv_lhs => rw [hdec]; rw [← hdec]
  have hO' : overlap Ψ (O Ψ) = ∑ S : Cfg ι d, Ψ (filled occ (nat S)) *
      overlap Ψ (O (basis (K := K) (filled occ (nat S)))) := by
    conv_lhs => arg 2; rw [hdec]
    rw [map_sum, overlap_sum]
    exact Finset.sum_congr rfl fun S _ => by rw [map_smul, overlap_smul]
  rw [hO']
  refine Finset.sum_congr rfl fun S _ => ?_
  obtain ⟨ε, hε, hk, ha⟩ := amp_eq (K := K) (rk := rk) g hnd hall (nat S) Ψ
  have hεε : ε * ε = 1 := by rcases hε with rfl | rfl <;> simp
  have hb : basis (K := K) (filled occ (nat S)) = ε • ket rk occ L (nat S) := by
    rw [hk, smul_smul, hεε, one_smul]
  rw [hb, map_smul, overlap_smul, overlap_congr hΨ (hO S), overlap_list_sum, List.map_map]
  by_cases h0 : Ψ (filled occ (nat S)) = 0
  · simp [h0]
  have hs : star ε = ε := by rcases hε with rfl | rfl <;> simp
  have hε0 : ε ≠ 0 := by rcases hε with rfl | rfl <;> simp
  rw [ha, ← mul_assoc, ← List.sum_map_mul_left, ← List.sum_map_mul_left]
  congr 1
  refine List.map_congr_left fun p _ => ?_
  have h1 : overlap Ψ (ket rk occ L p.2) = star (amp rk occ Ψ L p.2) := (overlap_star _ _).symm
  have hst : star (Ψ (filled occ (nat S))) ≠ 0 := by simpa using h0
  simp only [Function.comp, overlap_smul, h1, star_div₀, star_mul', hs]
  field_simp
  have : ε ^ 2 = 1 := by rw [sq, hεε]
  rw [this]; ring

end ket

end QLPeps.Fock
