import Verif.Lemmas.FermionSolver

/-! # Helper lemmas: estimators of the fermionic Hamiltonians -/

namespace QLPeps.Fermion

open Finset Spec Fock
open Energy (Bond Kind allSites)

variable {K : Type*} [Field K] [StarRing K] {rows cols : ℕ}

section general
variable {M : Type*} [DecidableEq M] [Fintype M] {rk : M → ℕ}

/-- the value of a bond whose operator acts by the table `T` -/
def bval (rk : M → ℕ) (occ : LSite rows cols → ℕ → List M) (Ψ : Fock K M)
    (ord : Bond → List (LSite rows cols)) (s : LSite rows cols → ℕ) (b : Bond)
    (T : List (K × ℕ × ℕ)) : K :=
  (T.map (fun p => p.1 *
    star (amp rk occ Ψ (ord b) (put s b p.2.1 p.2.2) / amp rk occ Ψ (ord b) s))).sum

theorem put_eq (s : LSite rows cols → ℕ) (a b : LSite rows cols) (k : Kind) (x y : ℕ) :
    put s ⟨a, b, k⟩ x y = put2 s a b x y := by
  funext p
  simp only [put, put2, Subtype.ext_iff]

theorem put_self {s : LSite rows cols → ℕ} {a b : LSite rows cols} {k : Kind} :
    put s ⟨a, b, k⟩ (s a) (s b) = s := by
  rw [put_eq]
  funext p
  unfold put2
  by_cases h : p = b
  · simp [h]
  · by_cases h' : p = a
    · subst h'; simp [h]
    · simp [h, h']

theorem sampleConfig_coe (s : LSite rows cols → ℕ) (a : LSite rows cols) :
    sampleConfig s (a : Site) = s a := by
  simp [sampleConfig]

/-- a contraction order in which `a`, `b` are adjacent -/
def GoodOrd (L : List (LSite rows cols)) (a b : LSite rows cols) : Prop :=
  L.Nodup ∧ (∀ x, x ∈ L) ∧ [a, b] <:+: L

theorem bond_est {Adm : (M → Bool) → Prop} (hA : ∀ n m, Adm n → Adm (Function.update n m false))
    {Ψ : Fock K M} (hΨ : ∀ n, Ψ n ≠ 0 → Adm n)
    {occ : LSite rows cols → ℕ → List M} {st : M → LSite rows cols} {d : ℕ} (g : GoodOcc occ st d)
    (hsupp : ∀ n, Ψ n ≠ 0 → ∃ S : Cfg (LSite rows cols) d, filled occ (nat S) = n)
    {ord : Bond → List (LSite rows cols)} {a b : LSite rows cols} {k : Kind} (hab : a ≠ b)
    (hord : GoodOrd (ord ⟨a, b, k⟩) a b)
    {O : Module.End K (Fock K M)}
    (hcomm : ∀ m, st m ≠ a → st m ≠ b → ∀ f, O (cr rk m f) = cr rk m (O f))
    (T : ℕ → ℕ → List (K × ℕ × ℕ))
    (hT : ∀ c1 c2, c1 < d → c2 < d → ∀ l, (∀ m ∈ l, st m ≠ a ∧ st m ≠ b) → ∀ n, Adm n →
      O (createAll rk (occ a c1 ++ (occ b c2 ++ l))) n = comb rk occ a b l (T c1 c2) n) :
    expval O Ψ = ∑ S : Cfg (LSite rows cols) d, fweight occ Ψ S *
      bval rk occ Ψ ord (nat S) ⟨a, b, k⟩ (T (nat S a) (nat S b)) := by
  obtain ⟨hnd, hall, hinf⟩ := hord
  rw [op_estimator (rk := rk) hΨ g hsupp hnd hall O
    (fun S => (T (nat S a) (nat S b)).map (fun p => (p.1, put2 (nat S) a b p.2.1 p.2.2)))
    (fun S n hn => by
      rw [bond_ket hA g.site hab hcomm hnd hinf (nat S) (T (nat S a) (nat S b))
        (hT _ _ (S a).2 (S b).2) n hn, List.map_map]
      rfl)]
  refine Finset.sum_congr rfl fun S _ => ?_
  unfold fweight bval
  rw [List.map_map]
  congr 2
  refine List.map_congr_left fun p _ => ?_
  simp only [Function.comp, put_eq]

theorem expval_add (A B : Module.End K (Fock K M)) (Ψ : Fock K M) :
    expval (A + B) Ψ = expval A Ψ + expval B Ψ := by
  unfold expval; rw [LinearMap.add_apply, overlap_add]

theorem expval_zero (Ψ : Fock K M) : expval (0 : Module.End K (Fock K M)) Ψ = 0 := by
  unfold expval; rw [LinearMap.zero_apply, overlap_zero]

theorem expval_sum {α : Type*} (A : Finset α) (O : α → Module.End K (Fock K M)) (Ψ : Fock K M) :
    expval (∑ i ∈ A, O i) Ψ = ∑ i ∈ A, expval (O i) Ψ := by
  unfold expval; rw [LinearMap.sum_apply, overlap_sum]

theorem expval_bondSum (R : LSite rows cols → LSite rows cols → Prop) [∀ a b, Decidable (R a b)]
    (O : LSite rows cols → LSite rows cols → Module.End K (Fock K M)) (Ψ : Fock K M) :
    expval (bondSum R O) Ψ = ∑ a, ∑ b, if R a b then expval (O a b) Ψ else 0 := by
  unfold bondSum
  rw [expval_sum]
  refine Finset.sum_congr rfl fun a _ => ?_
  rw [expval_sum]
  refine Finset.sum_congr rfl fun b _ => ?_
  by_cases h : R a b
  · rw [if_pos h, if_pos h]
  · rw [if_neg h, if_neg h, expval_zero]

omit [StarRing K] in
theorem bondSum_NN (O : LSite rows cols → LSite rows cols → Module.End K (Fock K M)) :
    bondSum NN O = bondSum (fun a b : LSite rows cols => RightOf (a : Site) b) O + bondSum (fun a b : LSite rows cols => Below (a : Site) b) O := by
  unfold bondSum
  rw [← Finset.sum_add_distrib]
  refine Finset.sum_congr rfl fun a _ => ?_
  rw [← Finset.sum_add_distrib]
  refine Finset.sum_congr rfl fun b _ => ?_
  by_cases h : RightOf (a : Site) b
  · have h' : ¬ Below (a : Site) b := by
      unfold RightOf at h; unfold Below; rw [h]; simp
    rw [if_pos (show NN a b from Or.inl h), if_pos h, if_neg h', add_zero]
  · by_cases h' : Below (a : Site) b
    · rw [if_pos (show NN a b from Or.inr h'), if_neg h, if_pos h', zero_add]
    · rw [if_neg (show ¬ NN a b by rintro (h'' | h''); exacts [h h'', h' h'']), if_neg h, if_neg h', zero_add]

omit [StarRing K] in
theorem bondSum_NNN (O : LSite rows cols → LSite rows cols → Module.End K (Fock K M)) :
    bondSum NNN O = bondSum (fun a b : LSite rows cols => DownRight (a : Site) b) O + bondSum (fun a b : LSite rows cols => UpRight (a : Site) b) O := by
  unfold bondSum
  rw [← Finset.sum_add_distrib]
  refine Finset.sum_congr rfl fun a _ => ?_
  rw [← Finset.sum_add_distrib]
  refine Finset.sum_congr rfl fun b _ => ?_
  by_cases h : DownRight (a : Site) b
  · have h' : ¬ UpRight (a : Site) b := by
      unfold DownRight at h; unfold UpRight; rw [h]; simp; omega
    rw [if_pos (show NNN a b from Or.inl h), if_pos h, if_neg h', add_zero]
  · by_cases h' : UpRight (a : Site) b
    · rw [if_pos (show NNN a b from Or.inr h'), if_neg h, if_pos h', zero_add]
    · rw [if_neg (show ¬ NNN a b by rintro (h'' | h''); exacts [h h'', h' h'']), if_neg h, if_neg h', zero_add]

omit [StarRing K] in
theorem bondSum_add (R : LSite rows cols → LSite rows cols → Prop) [∀ a b, Decidable (R a b)]
    (O O' : LSite rows cols → LSite rows cols → Module.End K (Fock K M)) :
    bondSum R (fun a b => O a b + O' a b) = bondSum R O + bondSum R O' := by
  unfold bondSum
  rw [← Finset.sum_add_distrib]
  refine Finset.sum_congr rfl fun a _ => ?_
  rw [← Finset.sum_add_distrib]
  refine Finset.sum_congr rfl fun b _ => ?_
  by_cases h : R a b
  · rw [if_pos h, if_pos h, if_pos h]
  · rw [if_neg h, if_neg h, if_neg h, add_zero]

/-- sums over the bonds of the lattice -/
theorem sum_bonds {R : Type*} [AddCommMonoid R] (nnn : Bool) (f : Bond → R) :
    ((obcBonds rows cols nnn).map f).sum =
      (∑ a : LSite rows cols, ∑ b : LSite rows cols, if RightOf (a : Site) b then f ⟨a, b, .h⟩ else 0) +
      (∑ a : LSite rows cols, ∑ b : LSite rows cols, if Below (a : Site) b then f ⟨a, b, .v⟩ else 0) +
      if nnn = true then
        (∑ a : LSite rows cols, ∑ b : LSite rows cols,
          if DownRight (a : Site) b then f ⟨a, b, .dr⟩ else 0) +
        (∑ a : LSite rows cols, ∑ b : LSite rows cols,
          if UpRight (a : Site) b then f ⟨a, b, .ur⟩ else 0)
      else 0 := by
  have nd := obcBonds_nodup rows cols nnn
  rw [sum_by_kind,
    sum_pairs_eq RightOf (fun a b => f ⟨a, b, .h⟩) _ (pairsOf_nodup nd) (fun a b => mem_obc_h a b),
    sum_pairs_eq Below (fun a b => f ⟨a, b, .v⟩) _ (pairsOf_nodup nd) (fun a b => mem_obc_v a b)]
  cases nnn with
  | false =>
    rw [pairsOf_nnn_false (Or.inl rfl), pairsOf_nnn_false (Or.inr rfl)]
    simp
  | true =>
    rw [if_pos rfl,
      sum_pairs_eq DownRight (fun a b => f ⟨a, b, .dr⟩) _ (pairsOf_nodup nd)
        (fun a b => mem_obc_dr a b),
      sum_pairs_eq UpRight (fun a b => f ⟨a, b, .ur⟩) _ (pairsOf_nodup nd)
        (fun a b => mem_obc_ur a b), add_assoc]

/-- the estimator of a sum of bond operators -/
theorem bonds_est {d : ℕ} {w : Cfg (LSite rows cols) d → K} {Ψ : Fock K M} (nnn : Bool)
    (O : Kind → LSite rows cols → LSite rows cols → Module.End K (Fock K M))
    (v : Cfg (LSite rows cols) d → Bond → K)
    (hnn : ∀ a b : LSite rows cols, ∀ k, (k = .h ∧ RightOf a b) ∨ (k = .v ∧ Below a b) →
      expval (O k a b) Ψ = ∑ S, w S * v S ⟨a, b, k⟩)
    (hd : nnn = true → ∀ a b : LSite rows cols, ∀ k, (k = .dr ∧ DownRight a b) ∨
      (k = .ur ∧ UpRight a b) → expval (O k a b) Ψ = ∑ S, w S * v S ⟨a, b, k⟩) :
    ∑ S, w S * ((obcBonds rows cols nnn).map (v S)).sum =
      expval (bondSum (fun a b : LSite rows cols => RightOf (a : Site) b) (O .h)) Ψ +
      expval (bondSum (fun a b : LSite rows cols => Below (a : Site) b) (O .v)) Ψ +
      if nnn = true then expval (bondSum (fun a b : LSite rows cols => DownRight (a : Site) b) (O .dr)) Ψ +
        expval (bondSum (fun a b : LSite rows cols => UpRight (a : Site) b) (O .ur)) Ψ else 0 := by
  have e1 : ∑ S, w S * ((obcBonds rows cols nnn).map (v S)).sum =
      ((obcBonds rows cols nnn).map (fun b => ∑ S, w S * v S b)).sum := by
    induction obcBonds rows cols nnn with
    | nil => simp
    | cons b L ih =>
      simp only [List.map_cons, List.sum_cons, mul_add, Finset.sum_add_distrib, ih]
  rw [e1, sum_bonds, expval_bondSum, expval_bondSum, expval_bondSum, expval_bondSum]
  have hc : ∀ (R : Site → Site → Prop) [∀ a b, Decidable (R a b)] (k : Kind),
      (∀ a b : LSite rows cols, R a b → expval (O k a b) Ψ = ∑ S, w S * v S ⟨a, b, k⟩) →
      (∑ a : LSite rows cols, ∑ b : LSite rows cols,
        if R a b then ∑ S, w S * v S ⟨a, b, k⟩ else 0) =
      ∑ a : LSite rows cols, ∑ b : LSite rows cols, if R a b then expval (O k a b) Ψ else 0 := by
    intro R _ k h
    refine Finset.sum_congr rfl fun a _ => Finset.sum_congr rfl fun b _ => ?_
    by_cases hR : R a b
    · rw [if_pos hR, if_pos hR, h a b hR]
    · rw [if_neg hR, if_neg hR]
  rw [hc RightOf .h (fun a b h => hnn a b .h (Or.inl ⟨rfl, h⟩)),
    hc Below .v (fun a b h => hnn a b .v (Or.inr ⟨rfl, h⟩))]
  cases nnn with
  | false => rw [if_neg (by decide), if_neg (by decide)]
  | true =>
    rw [if_pos rfl, if_pos rfl, hc DownRight .dr (fun a b h => hd rfl a b .dr (Or.inl ⟨rfl, h⟩)),
      hc UpRight .ur (fun a b h => hd rfl a b .ur (Or.inr ⟨rfl, h⟩))]

/-- the estimator of a diagonal operator -/
theorem diag_est {Ψ : Fock K M} {occ : LSite rows cols → ℕ → List M} {st : M → LSite rows cols}
    {d : ℕ} (g : GoodOcc occ st d)
    (hsupp : ∀ n, Ψ n ≠ 0 → ∃ S : Cfg (LSite rows cols) d, filled occ (nat S) = n)
    (D : Module.End K (Fock K M)) (dv : (M → Bool) → K) (hD : ∀ f n, D f n = dv n * f n) :
    expval D Ψ = ∑ S : Cfg (LSite rows cols) d, fweight occ Ψ S * dv (filled occ (nat S)) := by
  classical
  unfold expval overlap fweight
  have e : ∑ S : Cfg (LSite rows cols) d, star (Ψ (filled occ (nat S))) * Ψ (filled occ (nat S)) *
      dv (filled occ (nat S)) = ∑ n ∈ Finset.univ.image (fun S : Cfg (LSite rows cols) d =>
        filled occ (nat S)), star (Ψ n) * Ψ n * dv n := by
    rw [Finset.sum_image (fun S _ S' _ h => filled_inj g h)]
  rw [e]
  symm
  rw [Finset.sum_subset (Finset.subset_univ _)]
  · exact Finset.sum_congr rfl fun n _ => by rw [hD]; ring
  · intro n _ hn
    have : Ψ n = 0 := by
      by_contra h
      obtain ⟨S, hS⟩ := hsupp n h
      exact hn (Finset.mem_image.2 ⟨S, Finset.mem_univ _, hS⟩)
    rw [this]; simp

omit [StarRing K] in
theorem num_apply (m : M) (f : Fock K M) (n : M → Bool) :
    num rk m f n = (if n m = true then 1 else 0) * f n := by
  unfold num
  simp only [Module.End.mul_apply, cr, an, LinearMap.coe_mk, AddHom.coe_mk]
  by_cases h : n m = true
  · have e : Function.update (Function.update n m false) m true = n := by
      funext x; by_cases hx : x = m
      · subst hx; simp [h]
      · simp [hx]
    have j : jw (K := K) rk m (Function.update n m false) = jw rk m n := by
      unfold jw
      refine Finset.prod_congr rfl fun x _ => ?_
      by_cases hx : x = m
      · subst hx; simp
      · simp [hx]
    have j2 : jw (K := K) rk m n * jw rk m n = 1 := by
      unfold jw
      rw [← Finset.prod_mul_distrib]
      refine Finset.prod_eq_one fun x _ => ?_
      split <;> simp
    rw [if_pos h, if_pos h]
    simp only [Function.update_self, Bool.false_eq_true, if_false, e, j]
    rw [← mul_assoc, j2]
  · rw [if_neg h, if_neg h, zero_mul]

theorem amp_ne_zero {occ : LSite rows cols → ℕ → List M} {st : M → LSite rows cols} {d : ℕ}
    (g : GoodOcc occ st d) {L : List (LSite rows cols)} {a b : LSite rows cols} (hL : GoodOrd L a b)
    {s : LSite rows cols → ℕ} {Ψ : Fock K M} (h : Ψ (filled occ s) ≠ 0) :
    amp rk occ Ψ L s ≠ 0 := by
  obtain ⟨ε, hε, _, h2⟩ := amp_eq (rk := rk) g hL.1 hL.2.1 s Ψ
  rw [h2]
  rcases hε with rfl | rfl <;> simpa using h

end general

/-! ### Occupations -/

omit [StarRing K] in
theorem countP_cast {α : Type*} (p : α → Prop) [DecidablePred p] (l : List α) :
    ((l.countP (fun s => p s) : ℕ) : K) = (l.map (fun s => if p s then (1 : K) else 0)).sum := by
  induction l with
  | nil => simp
  | cons x l ih =>
    rw [List.countP_cons, List.map_cons, List.sum_cons, Nat.cast_add, ih]
    by_cases h : p x
    · simp [h, add_comm]
    · simp [h]

theorem good_hubbard : GoodOcc (M := LSite rows cols × Spin) hubbardOcc Prod.fst 4 where
  nodup x c := by unfold hubbardOcc; split <;> simp
  site x c m h := by
    unfold hubbardOcc at h
    split at h <;> simp at h <;> aesop
  inj x c c' h h' hm := by
    have h1 := hm (x, .up); have h2 := hm (x, .dn)
    interval_cases c <;> interval_cases c' <;> simp [hubbardOcc] at h1 h2 ⊢

theorem good_tJ : GoodOcc (M := LSite rows cols × Spin) tJOcc Prod.fst 3 where
  nodup x c := by unfold tJOcc; split <;> simp
  site x c m h := by
    unfold tJOcc at h
    split at h <;> simp at h <;> aesop
  inj x c c' h h' hm := by
    have h1 := hm (x, .up); have h2 := hm (x, .dn)
    interval_cases c <;> interval_cases c' <;> simp [tJOcc] at h1 h2 ⊢

theorem good_spinless : GoodOcc (M := LSite rows cols) spinlessOcc id 2 where
  nodup x c := by unfold spinlessOcc; split <;> simp
  site x c m h := by
    unfold spinlessOcc at h
    split at h <;> simp at h <;> aesop
  inj x c c' h h' hm := by
    have h1 := hm x
    interval_cases c <;> interval_cases c' <;> simp [spinlessOcc] at h1 ⊢

theorem filled_hubbard (s : LSite rows cols → ℕ) (a : LSite rows cols) :
    (filled hubbardOcc s (a, .up) = true ↔ s a = 0 ∨ s a = 1) ∧
    (filled hubbardOcc s (a, .dn) = true ↔ s a = 0 ∨ s a = 2) := by
  have key : ∀ σ, filled hubbardOcc s (a, σ) = true ↔ (a, σ) ∈ hubbardOcc a (s a) := by
    intro σ
    unfold filled
    simp only [decide_eq_true_eq]
    constructor
    · rintro ⟨x, hx⟩
      have := good_hubbard.site _ _ _ hx
      simp only at this
      subst this; exact hx
    · exact fun h => ⟨a, h⟩
  rw [key, key]
  unfold hubbardOcc
  split <;> simp_all

theorem filled_tJ (s : LSite rows cols → ℕ) (a : LSite rows cols) :
    (filled tJOcc s (a, .up) = true ↔ s a = 0) ∧
    (filled tJOcc s (a, .dn) = true ↔ s a = 1) := by
  have key : ∀ σ, filled tJOcc s (a, σ) = true ↔ (a, σ) ∈ tJOcc a (s a) := by
    intro σ
    unfold filled
    simp only [decide_eq_true_eq]
    constructor
    · rintro ⟨x, hx⟩
      have := good_tJ.site _ _ _ hx
      simp only at this
      subst this; exact hx
    · exact fun h => ⟨a, h⟩
  rw [key, key]
  unfold tJOcc
  split <;> simp_all

theorem filled_spinless (s : LSite rows cols → ℕ) (a : LSite rows cols) :
    filled spinlessOcc s a = true ↔ s a = 0 := by
  have key : filled spinlessOcc s a = true ↔ a ∈ spinlessOcc a (s a) := by
    unfold filled
    simp only [decide_eq_true_eq]
    constructor
    · rintro ⟨x, hx⟩
      have := good_spinless.site _ _ _ hx
      simp only [id] at this
      subst this; exact hx
    · exact fun h => ⟨a, h⟩
  rw [key]
  unfold spinlessOcc
  split <;> simp_all

theorem supp_hubbard (n : LSite rows cols × Spin → Bool) :
    ∃ S : Cfg (LSite rows cols) 4, filled hubbardOcc (nat S) = n := by
  refine ⟨fun a => if n (a, .up) then (if n (a, .dn) then 0 else 1)
    else (if n (a, .dn) then 2 else 3), ?_⟩
  funext ⟨a, σ⟩
  rw [Bool.eq_iff_iff]
  cases σ
  · rw [(filled_hubbard _ a).1]
    unfold nat
    cases hu : n (a, .up) <;> cases hd : n (a, .dn) <;> simp [hu, hd]
  · rw [(filled_hubbard _ a).2]
    unfold nat
    cases hu : n (a, .up) <;> cases hd : n (a, .dn) <;> simp [hu, hd]

theorem supp_tJ {n : LSite rows cols × Spin → Bool} (h : Single n) :
    ∃ S : Cfg (LSite rows cols) 3, filled tJOcc (nat S) = n := by
  refine ⟨fun a => if n (a, .up) then 0 else (if n (a, .dn) then 1 else 2), ?_⟩
  funext ⟨a, σ⟩
  have ha := h a
  rw [Bool.eq_iff_iff]
  cases σ
  · rw [(filled_tJ _ a).1]
    unfold nat
    cases hu : n (a, .up) <;> cases hd : n (a, .dn) <;> simp_all
  · rw [(filled_tJ _ a).2]
    unfold nat
    cases hu : n (a, .up) <;> cases hd : n (a, .dn) <;> simp_all

theorem supp_spinless (n : LSite rows cols → Bool) :
    ∃ S : Cfg (LSite rows cols) 2, filled spinlessOcc (nat S) = n := by
  refine ⟨fun a => if n a then 0 else 1, ?_⟩
  funext a
  rw [Bool.eq_iff_iff, filled_spinless]
  unfold nat
  cases hn : n a <;> simp [hn]

end QLPeps.Fermion
