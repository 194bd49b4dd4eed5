import Verif.Spec.MinSRRun
import Verif.Props.SR
import Mathlib.Tactic.Ring
import Mathlib.Tactic.Linarith
import Mathlib.Algebra.BigOperators.Intervals

/-! Lemmas about the eigensolvers of MinSR. -/

namespace QLPeps.MinSR

open QLPeps.SR (Eigen eigenSolve)

variable {𝕜 : Type*} [RCLike 𝕜]

/-! ## loops -/

theorem fill_get (a b : ℕ) (f : ℕ → ℕ → ℕ) (v : ℕ → ℕ → 𝕜)
    (hf : ∀ i j i' j', i < a → j < b → i' < a → j' < b → f i j = f i' j' → i = i' ∧ j = j')
    (i j : ℕ) (hi : i < a) (hj : j < b) : fill a b f v (f i j) = v i j := by
  have inner : ∀ (i0 n : ℕ) (z : ℕ → 𝕜), i0 < a → n ≤ b →
      (∀ q, (∀ j < n, q ≠ f i0 j) → ((List.range n).foldl (fun z j => Function.update z (f i0 j) (v i0 j)) z) q = z q) ∧
      ∀ j < n, ((List.range n).foldl (fun z j => Function.update z (f i0 j) (v i0 j)) z) (f i0 j) = v i0 j := by
    intro i0 n z h0
    induction n with
    | zero => exact fun _ => ⟨fun _ _ => rfl, fun j h => absurd h (by omega)⟩
    | succ n ih =>
      intro hn
      obtain ⟨h1, h2⟩ := ih (by omega)
      simp only [List.range_succ, List.foldl_append, List.foldl_cons, List.foldl_nil]
      refine ⟨fun q hq => ?_, fun j hj => ?_⟩
      · rw [Function.update_of_ne (hq n (by omega)), h1 q fun j hj => hq j (by omega)]
      · by_cases e : j = n
        · subst e; rw [Function.update_self]
        · rw [Function.update_of_ne (fun h => e (hf _ _ _ _ h0 (by omega) h0 (by omega) h).2), h2 j (by omega)]
  have outer : ∀ n ≤ a, ∀ i < n, ∀ j < b, ((List.range n).foldl (fun z i =>
      (List.range b).foldl (fun z j => Function.update z (f i j) (v i j)) z) fun _ => (0 : 𝕜)) (f i j) = v i j := by
    intro n
    induction n with
    | zero => intro _ i h; omega
    | succ n ih =>
      intro hn i hi j hj
      simp only [List.range_succ, List.foldl_append, List.foldl_cons, List.foldl_nil]
      obtain ⟨h1, h2⟩ := inner n b ((List.range n).foldl (fun z i =>
        (List.range b).foldl (fun z j => Function.update z (f i j) (v i j)) z) fun _ => (0 : 𝕜)) (by omega) le_rfl
      by_cases e : i = n
      · subst e; exact h2 j hj
      · rw [h1 _ fun j' hj' h => e (hf _ _ _ _ (by omega) hj (by omega) hj' h).1]
        exact ih (by omega) i (by omega) j hj
  exact outer a le_rfl i hi j hj

theorem foldl_sum (n : ℕ) (f : ℕ → 𝕜) : (List.range n).foldl (fun d i => d + f i) 0 = ∑ i ∈ Finset.range n, f i := by
  induction n with
  | zero => rfl
  | succ n ih => rw [List.range_succ, List.foldl_append, ih, Finset.sum_range_succ]; rfl

/-! ## block-cyclic distribution -/

section cyclic
variable {n nb p P : ℕ}

theorem toGlobal_eq (l : ℕ) (hp : p < P) : toGlobal l nb p P = nb * (P * (l / nb) + p) + l % nb := by
  unfold toGlobal indxl2g
  rw [Nat.add_mod_left, Nat.mod_eq_of_lt hp]
  simp only [Nat.add_sub_cancel]
  ring

theorem lt_split (hb : 0 < nb) (a b n : ℕ) (hlt : b < nb) :
    nb * a + b < n ↔ a < n / nb ∨ a = n / nb ∧ b < n % nb := by
  have h1 := Nat.div_add_mod n nb
  have h2 := Nat.mod_lt n hb
  constructor
  · intro h
    rcases Nat.lt_trichotomy a (n / nb) with h3 | h3 | h3
    · exact Or.inl h3
    · refine Or.inr ⟨h3, ?_⟩
      rw [h3] at h
      omega
    · exfalso
      have : nb * (n / nb + 1) ≤ nb * a := Nat.mul_le_mul_left _ h3
      rw [Nat.mul_add] at this
      omega
  · rintro (h | ⟨h, h'⟩)
    · have : nb * (a + 1) ≤ nb * (n / nb) := Nat.mul_le_mul_left _ h
      rw [Nat.mul_add] at this
      omega
    · rw [h]; omega

theorem lt_numroc (hb : 0 < nb) (hp : p < P) (l : ℕ) : l < numroc n nb p P ↔ toGlobal l nb p P < n := by
  rw [toGlobal_eq l hp, lt_split hb _ _ _ (Nat.mod_lt _ hb)]
  have hP : 0 < P := by omega
  have e1 := lt_split hP (l / nb) p (n / nb) hp
  have e2 : P * (l / nb) + p = n / nb ↔ l / nb = n / nb / P ∧ p = n / nb % P := by
    constructor
    · intro h
      rw [← h]
      constructor
      · rw [Nat.mul_add_div hP, Nat.div_eq_of_lt hp, Nat.add_zero]
      · rw [Nat.mul_add_mod, Nat.mod_eq_of_lt hp]
    · rintro ⟨h1, h2⟩
      rw [h1, h2, Nat.div_add_mod]
  rw [e1, e2]
  unfold numroc
  simp only
  rw [Nat.add_mod_left, Nat.mod_eq_of_lt hp]
  have hl := Nat.div_add_mod l nb
  have hm := Nat.mod_lt l hb
  generalize hQ : n / nb / P = Q
  generalize he : n / nb % P = e
  have key : ∀ x ≤ nb, l < Q * nb + x ↔ l / nb < Q ∨ l / nb = Q ∧ l % nb < x := by
    intro x hx
    constructor
    · intro h
      rcases Nat.lt_trichotomy (l / nb) Q with h3 | h3 | h3
      · exact Or.inl h3
      · refine Or.inr ⟨h3, ?_⟩
        rw [h3, Nat.mul_comm] at hl
        omega
      · exfalso
        have : nb * (Q + 1) ≤ nb * (l / nb) := Nat.mul_le_mul_left _ h3
        rw [Nat.mul_add, Nat.mul_comm nb Q] at this
        omega
    · rintro (h | ⟨h, h'⟩)
      · have : nb * (l / nb + 1) ≤ nb * Q := Nat.mul_le_mul_left _ h
        rw [Nat.mul_add, Nat.mul_comm nb Q] at this
        omega
      · rw [h, Nat.mul_comm] at hl; omega
  have hr := Nat.mod_lt n hb
  split_ifs with h1 h2
  · rw [key nb le_rfl]
    constructor
    · rintro (h | ⟨h, -⟩)
      · exact Or.inl (Or.inl h)
      · exact Or.inl (Or.inr ⟨h, h1⟩)
    · rintro ((h | ⟨h, -⟩) | ⟨⟨h, -⟩, -⟩)
      · exact Or.inl h
      · exact Or.inr ⟨h, hm⟩
      · exact Or.inr ⟨h, hm⟩
  · rw [key _ hr.le]
    constructor
    · rintro (h | ⟨h, h'⟩)
      · exact Or.inl (Or.inl h)
      · exact Or.inr ⟨⟨h, h2⟩, h'⟩
    · rintro ((h | ⟨-, h⟩) | ⟨⟨h, -⟩, h'⟩)
      · exact Or.inl h
      · omega
      · exact Or.inr ⟨h, h'⟩
  · have := key 0 (by omega)
    rw [Nat.add_zero] at this
    rw [this]
    constructor
    · rintro (h | ⟨-, h'⟩)
      · exact Or.inl (Or.inl h)
      · omega
    · rintro ((h | ⟨-, h⟩) | ⟨⟨-, h⟩, -⟩)
      · exact Or.inl h
      · omega
      · omega

theorem owner_toGlobal (hb : 0 < nb) (hp : p < P) (l : ℕ) : toGlobal l nb p P / nb % P = p := by
  rw [toGlobal_eq l hp, Nat.mul_add_div hb, Nat.div_eq_of_lt (Nat.mod_lt _ hb), Nat.add_zero, Nat.mul_add_mod,
    Nat.mod_eq_of_lt hp]

theorem cyclic_toGlobal (hb : 0 < nb) (hp : p < P) (l : ℕ) : cyclic nb P (toGlobal l nb p P) = l := by
  unfold cyclic
  rw [← Nat.div_div_eq_div_mul, toGlobal_eq l hp, Nat.mul_add_div hb, Nat.div_eq_of_lt (Nat.mod_lt _ hb),
    Nat.add_zero, Nat.mul_add_div (by omega), Nat.div_eq_of_lt hp, Nat.add_zero, Nat.mul_add_mod, Nat.mod_mod]
  rw [Nat.mul_comm]; exact Nat.div_add_mod l nb

theorem toGlobal_cyclic (hb : 0 < nb) (hP : 0 < P) (i : ℕ) : toGlobal (cyclic nb P i) nb (i / nb % P) P = i := by
  have h1 : cyclic nb P i / nb = i / nb / P := by
    unfold cyclic
    rw [Nat.mul_comm, Nat.mul_add_div hb, Nat.div_eq_of_lt (Nat.mod_lt _ hb), Nat.add_zero, Nat.div_div_eq_div_mul]
  have h2 : cyclic nb P i % nb = i % nb := by
    unfold cyclic
    rw [Nat.mul_comm, Nat.mul_add_mod, Nat.mod_mod]
  rw [toGlobal_eq _ (Nat.mod_lt _ hP), h1, h2, Nat.div_add_mod, Nat.div_add_mod]

/-- every index belongs to exactly one process, at exactly one position -/
theorem sum_cyclic {M : Type*} [AddCommMonoid M] (hb : 0 < nb) (hP : 0 < P) (F : ℕ → M) :
    ∑ p ∈ Finset.range P, ∑ l ∈ Finset.range (numroc n nb p P), F (toGlobal l nb p P)
      = ∑ i ∈ Finset.range n, F i := by
  rw [Finset.sum_sigma']
  refine Finset.sum_bij' (fun x _ => toGlobal x.2 nb x.1 P) (fun i _ => ⟨i / nb % P, cyclic nb P i⟩) ?_ ?_ ?_ ?_ ?_
  · rintro ⟨p, l⟩ h
    simp only [Finset.mem_sigma, Finset.mem_range] at h ⊢
    exact (lt_numroc hb h.1 l).1 h.2
  · intro i h
    simp only [Finset.mem_sigma, Finset.mem_range] at h ⊢
    refine ⟨Nat.mod_lt _ hP, (lt_numroc hb (Nat.mod_lt _ hP) _).2 ?_⟩
    rw [toGlobal_cyclic hb hP]; exact h
  · rintro ⟨p, l⟩ h
    simp only [Finset.mem_sigma, Finset.mem_range] at h
    simp only [owner_toGlobal hb h.1, cyclic_toGlobal hb h.1]
  · intro i _
    exact toGlobal_cyclic hb hP i
  · intro _ _; rfl

end cyclic

/-! ## the distributed products -/

section
variable {g : Grid} {n : ℕ}

theorem fold_add (n R : ℕ) (idx : ℕ → ℕ) (val : ℕ → 𝕜) (step : (ℕ → 𝕜) → ℕ → Option (ℕ → 𝕜))
    (h : ∀ acc, ∀ l < R, step acc l = addAt n acc (idx l) (val l)) (hi : ∀ l < R, idx l < n) (acc : ℕ → 𝕜) :
    (List.range R).foldlM step acc
      = some fun k => acc k + ∑ l ∈ Finset.range R, if idx l = k then val l else 0 := by
  induction R with
  | zero => simp
  | succ R ih =>
    rw [List.range_succ, List.foldlM_append, ih (fun a l hl => h a l (by omega)) fun l hl => hi l (by omega)]
    show ((List.foldlM step _ [R]) : Option _) = _
    rw [List.foldlM_cons, h _ R (by omega), addAt, if_pos (hi R (by omega))]
    show some _ = _
    congr 1
    funext k
    rw [Finset.sum_range_succ]
    by_cases e : idx R = k
    · subst e; rw [Function.update_self, if_pos rfl, add_assoc]
    · rw [Function.update_of_ne (fun h => e h.symm), if_neg e, add_zero]

theorem fold_outer (R : ℕ) (val : ℕ → ℕ → 𝕜) (step : (ℕ → 𝕜) → ℕ → Option (ℕ → 𝕜))
    (h : ∀ acc, ∀ l < R, step acc l = some fun k => acc k + val l k) (acc : ℕ → 𝕜) :
    (List.range R).foldlM step acc = some fun k => acc k + ∑ l ∈ Finset.range R, val l k := by
  induction R with
  | zero => simp
  | succ R ih =>
    rw [List.range_succ, List.foldlM_append, ih (fun a l hl => h a l (by omega))]
    show ((List.foldlM step _ [R]) : Option _) = _
    rw [List.foldlM_cons, h _ R (by omega)]
    show some _ = _
    congr 1
    funext k
    rw [Finset.sum_range_succ, add_assoc]

/-- the buffers are not larger than an `int` can index -/
def Small (g : Grid) (n rank : ℕ) : Prop := g.rows n rank * g.cols n rank ≤ 2 ^ 31

theorem readZ_some {rank : ℕ} (h : Small g n rank) (z : ℕ → 𝕜) {li lj : ℕ} (hi : li < g.rows n rank)
    (hj : lj < g.cols n rank) : readZ g n rank z li lj = some (z (li + lj * g.lld n rank)) := by
  have e : g.lld n rank = g.rows n rank := by unfold Grid.lld; omega
  have hlt : li + lj * g.rows n rank < g.rows n rank * g.cols n rank := by
    calc li + lj * g.rows n rank < g.rows n rank + lj * g.rows n rank := by omega
      _ = g.rows n rank * (lj + 1) := by ring
      _ ≤ _ := Nat.mul_le_mul_left _ hj
  unfold readZ
  rw [e, if_pos (lt_of_lt_of_le hlt h), rd, if_pos hlt]

variable (hb : 0 < g.nb) {rank : ℕ} (hrow : g.myrow rank < g.nprow) (hcol : g.mycol rank < g.npcol)
include hb hrow hcol

theorem localTmp_some (h : Small g n rank) (z rhs : ℕ → 𝕜) :
    localTmp g n rank z rhs = some fun k => ∑ lj ∈ Finset.range (g.cols n rank),
      ∑ li ∈ Finset.range (g.rows n rank),
        if toGlobal lj g.nb (g.mycol rank) g.npcol = k then
          (starRingEnd 𝕜) (z (li + lj * g.lld n rank)) * rhs (toGlobal li g.nb (g.myrow rank) g.nprow) else 0 := by
  unfold localTmp
  rw [fold_outer (g.cols n rank) (fun lj k => ∑ li ∈ Finset.range (g.rows n rank),
        if toGlobal lj g.nb (g.mycol rank) g.npcol = k then
          (starRingEnd 𝕜) (z (li + lj * g.lld n rank)) * rhs (toGlobal li g.nb (g.myrow rank) g.nprow) else 0)]
  · simp
  · intro acc lj hj
    rw [fold_add n (g.rows n rank) (fun _ => toGlobal lj g.nb (g.mycol rank) g.npcol)
      (fun li => (starRingEnd 𝕜) (z (li + lj * g.lld n rank)) * rhs (toGlobal li g.nb (g.myrow rank) g.nprow))]
    · intro acc li hi
      rw [tmpStep, readZ_some h z hi hj, Option.bind_some, rd, if_pos ((lt_numroc hb hrow li).1 hi), Option.bind_some]
    · intro _ _
      exact (lt_numroc hb hcol lj).1 hj

theorem localY_some (h : Small g n rank) (z tmp : ℕ → 𝕜) :
    localY g n rank z tmp = some fun k => ∑ lj ∈ Finset.range (g.cols n rank),
      ∑ li ∈ Finset.range (g.rows n rank),
        if toGlobal li g.nb (g.myrow rank) g.nprow = k then
          z (li + lj * g.lld n rank) * tmp (toGlobal lj g.nb (g.mycol rank) g.npcol) else 0 := by
  unfold localY
  rw [fold_outer (g.cols n rank) (fun lj k => ∑ li ∈ Finset.range (g.rows n rank),
        if toGlobal li g.nb (g.myrow rank) g.nprow = k then
          z (li + lj * g.lld n rank) * tmp (toGlobal lj g.nb (g.mycol rank) g.npcol) else 0)]
  · simp
  · intro acc lj hj
    rw [rd, if_pos ((lt_numroc hb hcol lj).1 hj), Option.bind_some,
      fold_add n (g.rows n rank) (fun li => toGlobal li g.nb (g.myrow rank) g.nprow)
      (fun li => z (li + lj * g.lld n rank) * tmp (toGlobal lj g.nb (g.mycol rank) g.npcol))]
    · intro acc li hi
      rw [yStep, readZ_some h z hi hj, Option.bind_some]
    · intro li hi
      exact (lt_numroc hb hrow li).1 hi

omit hrow hcol in
/-- what a process reads is an entry of the distributed matrix -/
theorem read_entry (z : ℕ → ℕ → 𝕜) {p q li lj : ℕ} (hp : p < g.nprow) (hq : q < g.npcol) :
    z (p * g.npcol + q) (li + lj * g.lld n (p * g.npcol + q))
      = (g.desc n).entry (g.at z) (toGlobal li g.nb p g.nprow) (toGlobal lj g.nb q g.npcol) := by
  have h1 : g.myrow (p * g.npcol + q) = p := by
    unfold Grid.myrow
    rw [Nat.mul_comm, Nat.mul_add_div (by omega), Nat.div_eq_of_lt hq, Nat.add_zero]
  unfold Desc.entry Grid.at
  simp only [Grid.desc, owner_toGlobal hb hp, owner_toGlobal hb hq, cyclic_toGlobal hb hp, cyclic_toGlobal hb hq]
  rw [Grid.lld, Grid.rows, h1]

end

theorem mapM_range {α : Type*} (P : ℕ) (f : ℕ → Option α) (v : ℕ → α) (h : ∀ r < P, f r = some (v r)) :
    (List.range P).mapM f = some ((List.range P).map v) := by
  have : ∀ l : List ℕ, (∀ r ∈ l, f r = some (v r)) → l.mapM f = some (l.map v) := by
    intro l
    induction l with
    | nil => intro _; rfl
    | cons a l ih =>
      intro hl
      rw [List.mapM_cons, hl a (by simp), ih fun r hr => hl r (by simp [hr])]
      rfl
  exact this _ fun r hr => h r (List.mem_range.1 hr)

theorem mapM_none {α : Type*} (P : ℕ) (f : ℕ → Option α) (r : ℕ) (hr : r < P) (h : f r = none) :
    (List.range P).mapM f = none := by
  have : ∀ l : List ℕ, r ∈ l → l.mapM f = none := by
    intro l
    induction l with
    | nil => intro h; simp at h
    | cons a l ih =>
      intro hl
      rw [List.mapM_cons]
      rcases List.mem_cons.1 hl with rfl | hl
      · rw [h]; rfl
      · rw [ih hl]
        cases f a <;> rfl
  exact this _ (List.mem_range.2 hr)

theorem sum_ranks {M : Type*} [AddCommMonoid M] (nprow npcol : ℕ) (F : ℕ → M) :
    ∑ r ∈ Finset.range (nprow * npcol), F r
      = ∑ p ∈ Finset.range nprow, ∑ q ∈ Finset.range npcol, F (p * npcol + q) := by
  induction nprow with
  | zero => simp
  | succ m ih =>
    rw [Nat.succ_mul, Finset.sum_range_add, ih, Finset.sum_range_succ]

theorem allreduce_range (P : ℕ) (v : ℕ → ℕ → 𝕜) (k : ℕ) :
    allreduce ((List.range P).map v) k = ∑ r ∈ Finset.range P, v r k := by
  unfold allreduce
  rw [List.map_map]
  induction P with
  | zero => rfl
  | succ P ih => rw [List.range_succ, List.map_append, List.sum_append, ih, Finset.sum_range_succ]; simp

/-- all processes together -/
theorem sum_grid {g : Grid} {n : ℕ} (hb : 0 < g.nb) (hr : 0 < g.nprow) (hc : 0 < g.npcol) (z : ℕ → ℕ → 𝕜)
    (F : 𝕜 → ℕ → ℕ → 𝕜) :
    ∑ r ∈ Finset.range (g.nprow * g.npcol), ∑ lj ∈ Finset.range (g.cols n r), ∑ li ∈ Finset.range (g.rows n r),
        F (z r (li + lj * g.lld n r)) (toGlobal li g.nb (g.myrow r) g.nprow) (toGlobal lj g.nb (g.mycol r) g.npcol)
      = ∑ i ∈ Finset.range n, ∑ j ∈ Finset.range n, F ((g.desc n).entry (g.at z) i j) i j := by
  rw [sum_ranks]
  have h1 : ∀ p q, q < g.npcol → g.myrow (p * g.npcol + q) = p := fun p q hq => by
    unfold Grid.myrow
    rw [Nat.mul_comm, Nat.mul_add_div (by omega), Nat.div_eq_of_lt hq, Nat.add_zero]
  have h2 : ∀ p q, q < g.npcol → g.mycol (p * g.npcol + q) = q := fun p q hq => by
    unfold Grid.mycol
    rw [Nat.mul_comm, Nat.mul_add_mod, Nat.mod_eq_of_lt hq]
  have e1 : ∀ p ∈ Finset.range g.nprow, ∑ q ∈ Finset.range g.npcol,
      ∑ lj ∈ Finset.range (g.cols n (p * g.npcol + q)), ∑ li ∈ Finset.range (g.rows n (p * g.npcol + q)),
        F (z (p * g.npcol + q) (li + lj * g.lld n (p * g.npcol + q)))
          (toGlobal li g.nb (g.myrow (p * g.npcol + q)) g.nprow)
          (toGlobal lj g.nb (g.mycol (p * g.npcol + q)) g.npcol)
      = ∑ li ∈ Finset.range (numroc n g.nb p g.nprow), ∑ j ∈ Finset.range n,
          F ((g.desc n).entry (g.at z) (toGlobal li g.nb p g.nprow) j) (toGlobal li g.nb p g.nprow) j := by
    intro p hp
    rw [Finset.mem_range] at hp
    have e2 : ∀ q ∈ Finset.range g.npcol,
        ∑ lj ∈ Finset.range (g.cols n (p * g.npcol + q)), ∑ li ∈ Finset.range (g.rows n (p * g.npcol + q)),
        F (z (p * g.npcol + q) (li + lj * g.lld n (p * g.npcol + q)))
          (toGlobal li g.nb (g.myrow (p * g.npcol + q)) g.nprow)
          (toGlobal lj g.nb (g.mycol (p * g.npcol + q)) g.npcol)
        = ∑ lj ∈ Finset.range (numroc n g.nb q g.npcol), ∑ li ∈ Finset.range (numroc n g.nb p g.nprow),
          F ((g.desc n).entry (g.at z) (toGlobal li g.nb p g.nprow) (toGlobal lj g.nb q g.npcol))
            (toGlobal li g.nb p g.nprow) (toGlobal lj g.nb q g.npcol) := by
      intro q hq
      rw [Finset.mem_range] at hq
      simp only [Grid.rows, Grid.cols, read_entry (n := n) hb z hp hq, h1 p q hq, h2 p q hq]
    rw [Finset.sum_congr rfl e2]
    rw [sum_cyclic hb hc (fun j => ∑ li ∈ Finset.range (numroc n g.nb p g.nprow),
          F ((g.desc n).entry (g.at z) (toGlobal li g.nb p g.nprow) j) (toGlobal li g.nb p g.nprow) j)]
    rw [Finset.sum_comm]
  rw [Finset.sum_congr rfl e1]
  exact sum_cyclic hb hr (fun i => ∑ j ∈ Finset.range n, F ((g.desc n).entry (g.at z) i j) i j)

/-- the distributed path computes `Z diag(λ⁺) Z^† rhs` -/
theorem distributed_some {P : ℕ} {g : Grid} {n : ℕ} (hb : 0 < g.nb) (hP : 0 < P) (hg : g.nprow * g.npcol = P)
    (hs : ∀ r < P, Small g n r) (z : ℕ → ℕ → 𝕜) (lamPlus : ℕ → ℝ) (rhs : ℕ → 𝕜) :
    ∃ y, distributed P g n z lamPlus rhs = some y ∧ ∀ i < n, y i = ∑ k ∈ Finset.range n,
      (g.desc n).entry (g.at z) i k * ((∑ j ∈ Finset.range n,
        (starRingEnd 𝕜) ((g.desc n).entry (g.at z) j k) * rhs j) * (lamPlus k : 𝕜)) := by
  subst hg
  have hr : 0 < g.nprow := Nat.pos_of_mul_pos_right hP
  have hc : 0 < g.npcol := Nat.pos_of_mul_pos_left hP
  have hrow : ∀ r < g.nprow * g.npcol, g.myrow r < g.nprow := fun r h => by
    unfold Grid.myrow; rw [Nat.div_lt_iff_lt_mul hc]; exact h
  have hcol : ∀ r < g.nprow * g.npcol, g.mycol r < g.npcol := fun r _ => Nat.mod_lt _ hc
  have htmp : ∀ k < n, (∑ r ∈ Finset.range (g.nprow * g.npcol), ∑ lj ∈ Finset.range (g.cols n r),
      ∑ li ∈ Finset.range (g.rows n r), if toGlobal lj g.nb (g.mycol r) g.npcol = k then
        (starRingEnd 𝕜) (z r (li + lj * g.lld n r)) * rhs (toGlobal li g.nb (g.myrow r) g.nprow) else 0)
      = ∑ j ∈ Finset.range n, (starRingEnd 𝕜) ((g.desc n).entry (g.at z) j k) * rhs j := by
    intro k hk
    rw [sum_grid hb hr hc z (fun x i' j' => if j' = k then (starRingEnd 𝕜) x * rhs i' else 0)]
    refine Finset.sum_congr rfl fun j _ => ?_
    rw [Finset.sum_eq_single k (fun b _ hne => by simp [hne]) (fun h => absurd (Finset.mem_range.2 hk) h), if_pos rfl]
  unfold distributed
  rw [mapM_range _ _ _ fun r h => localTmp_some hb (hrow r h) (hcol r h) (hs r h) (z r) rhs, Option.bind_some,
    mapM_range _ _ _ fun r h => localY_some hb (hrow r h) (hcol r h) (hs r h) (z r) _]
  refine ⟨_, rfl, fun i hi => ?_⟩
  rw [allreduce_range]
  simp only [allreduce_range]
  have key := sum_grid (n := n) hb hr hc z (fun x i' j' => if i' = i then x * ((∑ r ∈ Finset.range (g.nprow * g.npcol),
    ∑ lj ∈ Finset.range (g.cols n r), ∑ li ∈ Finset.range (g.rows n r),
      if toGlobal lj g.nb (g.mycol r) g.npcol = j' then
        (starRingEnd 𝕜) (z r (li + lj * g.lld n r)) * rhs (toGlobal li g.nb (g.myrow r) g.nprow) else 0)
      * (lamPlus j' : 𝕜)) else 0)
  rw [key, Finset.sum_eq_single i (fun b _ hne => by simp [hne]) (fun h => absurd (Finset.mem_range.2 hi) h)]
  refine Finset.sum_congr rfl fun k hk => ?_
  rw [if_pos rfl, htmp k (Finset.mem_range.1 hk)]

/-- a process whose block has more elements than an `int` can index computes an index that overflows -/
theorem localTmp_none {g : Grid} {n rank : ℕ} (h : ¬ Small g n rank) (z rhs : ℕ → 𝕜) :
    localTmp g n rank z rhs = none := by
  unfold Small at h
  have hR : 0 < g.rows n rank := Nat.pos_of_ne_zero fun e => h (by rw [e]; simp)
  have hC : 0 < g.cols n rank := Nat.pos_of_ne_zero fun e => h (by rw [e]; simp)
  have e : g.lld n rank = g.rows n rank := by unfold Grid.lld; omega
  have key : ∀ acc : ℕ → 𝕜, (List.range (g.rows n rank)).foldlM (tmpStep g n rank z rhs (g.cols n rank - 1)) acc
      = none := by
    intro acc
    obtain ⟨R, hR'⟩ : ∃ R, g.rows n rank = R + 1 := ⟨g.rows n rank - 1, by omega⟩
    rw [hR', List.range_succ, List.foldlM_append]
    cases (List.range R).foldlM (tmpStep g n rank z rhs (g.cols n rank - 1)) acc with
    | none => rfl
    | some a =>
      show (List.foldlM _ a [R] : Option _) = none
      have : readZ g n rank z R (g.cols n rank - 1) = none := by
        unfold readZ
        rw [if_neg]
        rw [e, hR']
        rw [hR'] at h
        obtain ⟨c, hc⟩ : ∃ c, g.cols n rank = c + 1 := ⟨g.cols n rank - 1, by omega⟩
        rw [hc] at h ⊢
        rw [Nat.mul_add, Nat.mul_comm (R + 1) c] at h
        simp only [Nat.add_sub_cancel]
        omega
      rw [List.foldlM_cons, tmpStep, this]
      rfl
  unfold localTmp
  obtain ⟨c, hc⟩ : ∃ c, g.cols n rank = c + 1 := ⟨g.cols n rank - 1, by omega⟩
  rw [hc, List.range_succ, List.foldlM_append]
  rw [hc, Nat.add_sub_cancel] at key
  generalize (List.range c).foldlM (fun acc lj =>
    (List.range (g.rows n rank)).foldlM (tmpStep g n rank z rhs lj) acc) (fun _ => (0 : 𝕜)) = m
  cases m with
  | none => rfl
  | some a =>
    simp only [Option.bind_eq_bind, Option.bind_some, List.foldlM_cons, key]
    rfl

/-! ## the solution does not depend on the eigenbasis -/

section unique
variable {ι : Type*} [Fintype ι] [DecidableEq ι] {T : ι → ι → 𝕜}

theorem Eigen.herm {lam : ι → ℝ} {z : ι → ι → 𝕜} (h : Eigen T lam z) (i j : ι) :
    T i j = ∑ k, (lam k : 𝕜) * z k i * (starRingEnd 𝕜) (z k j) := by
  have e : T i j = ∑ l, T i l * (if l = j then 1 else 0) := by simp
  rw [e]
  simp only [← SR.eigen_complete h, Finset.mul_sum]
  rw [Finset.sum_comm]
  refine Finset.sum_congr rfl fun k _ => ?_
  rw [← h.eig k i, Finset.sum_mul]
  exact Finset.sum_congr rfl fun l _ => by ring

/-- overlaps of two eigenbases vanish between different eigenvalues -/
theorem overlap {lam lam' : ι → ℝ} {z z' : ι → ι → 𝕜} (h : Eigen T lam z) (h' : Eigen T lam' z') (k l : ι) :
    ((lam k : 𝕜) - (lam' l : 𝕜)) * ∑ i, (starRingEnd 𝕜) (z k i) * z' l i = 0 := by
  have hT : ∀ i j, (starRingEnd 𝕜) (T i j) = T j i := by
    intro i j
    rw [Eigen.herm h i j, Eigen.herm h j i, map_sum]
    refine Finset.sum_congr rfl fun k _ => ?_
    simp only [map_mul, RCLike.conj_ofReal, RingHomCompTriple.comp_apply, RingHom.id_apply]
    ring
  have e1 : (lam k : 𝕜) * ∑ i, (starRingEnd 𝕜) (z k i) * z' l i
      = ∑ i, (∑ j, T j i * (starRingEnd 𝕜) (z k j)) * z' l i := by
    rw [Finset.mul_sum]
    refine Finset.sum_congr rfl fun i _ => ?_
    have := congrArg (starRingEnd 𝕜) (h.eig k i)
    rw [map_sum, map_mul, RCLike.conj_ofReal] at this
    simp only [map_mul, hT] at this
    rw [this, mul_assoc]
  have e2 : (lam' l : 𝕜) * ∑ i, (starRingEnd 𝕜) (z k i) * z' l i
      = ∑ j, (∑ i, T j i * z' l i) * (starRingEnd 𝕜) (z k j) := by
    rw [Finset.mul_sum]
    refine Finset.sum_congr rfl fun j _ => ?_
    rw [h'.eig l j]; ring
  rw [sub_mul, e1, e2, sub_eq_zero]
  simp only [Finset.sum_mul]
  rw [Finset.sum_comm]
  exact Finset.sum_congr rfl fun i _ => Finset.sum_congr rfl fun j _ => by ring

/-- every eigenvalue of one decomposition occurs in the other -/
theorem eigen_mem {lam lam' : ι → ℝ} {z z' : ι → ι → 𝕜} (h : Eigen T lam z) (h' : Eigen T lam' z') (k : ι) :
    ∃ l, lam k = lam' l := by
  by_contra hne
  push Not at hne
  have h0 : ∀ l, ∑ i, (starRingEnd 𝕜) (z k i) * z' l i = 0 := fun l => by
    rcases mul_eq_zero.1 (overlap h h' k l) with e | e
    · exfalso
      rw [sub_eq_zero] at e
      exact hne l (RCLike.ofReal_injective e)
    · exact e
  have h1 := h.orth k k
  rw [if_pos rfl] at h1
  have : ∑ i, (starRingEnd 𝕜) (z k i) * z k i = 0 := by
    have e : ∀ i, z k i = ∑ l, SR.coef z' (z k) l * z' l i := fun i => SR.expand h' (z k) i
    have hc : ∀ l, SR.coef z' (z k) l = 0 := fun l => by
      have := congrArg (starRingEnd 𝕜) (h0 l)
      rw [map_sum, map_zero] at this
      rw [← this]
      unfold SR.coef
      refine Finset.sum_congr rfl fun i _ => ?_
      simp only [map_mul, RingHomCompTriple.comp_apply, RingHom.id_apply]
      ring
    refine Finset.sum_eq_zero fun i _ => ?_
    rw [show z k i = 0 by rw [e i]; simp [hc], mul_zero]
  rw [this] at h1
  exact zero_ne_one h1

/-- a function of a Hermitian matrix does not depend on the choice of its eigenbasis -/
theorem eigenSolve_unique {lam lam' : ι → ℝ} {z z' : ι → ι → 𝕜} (h : Eigen T lam z) (h' : Eigen T lam' z')
    (f : ℝ → ℝ) (rhs : ι → 𝕜) :
    eigenSolve z (fun k => f (lam k)) rhs = eigenSolve z' (fun k => f (lam' k)) rhs := by
  have ov : ∀ k l, (f (lam k) : 𝕜) * (∑ i, (starRingEnd 𝕜) (z k i) * z' l i)
      = (f (lam' l) : 𝕜) * ∑ i, (starRingEnd 𝕜) (z k i) * z' l i := fun k l => by
    rcases mul_eq_zero.1 (overlap h h' k l) with e | e
    · rw [sub_eq_zero] at e
      rw [RCLike.ofReal_injective e]
    · rw [e, mul_zero, mul_zero]
  -- expand the right-hand side in the second basis and the result in the first
  funext i
  unfold eigenSolve
  have e1 : ∀ k, ∑ j, (starRingEnd 𝕜) (z k j) * rhs j
      = ∑ l, (∑ j, (starRingEnd 𝕜) (z k j) * z' l j) * SR.coef z' rhs l := fun k => by
    simp only [Finset.sum_mul]
    rw [Finset.sum_comm]
    refine Finset.sum_congr rfl fun j _ => ?_
    conv_lhs => rw [SR.expand h' rhs j, Finset.mul_sum]
    exact Finset.sum_congr rfl fun l _ => by ring
  have e2 : ∀ l, z' l i = ∑ k, (∑ j, (starRingEnd 𝕜) (z k j) * z' l j) * z k i := fun l => SR.expand h (z' l) i
  calc ∑ k, z k i * ((∑ j, (starRingEnd 𝕜) (z k j) * rhs j) * (f (lam k) : 𝕜))
      = ∑ k, ∑ l, z k i * SR.coef z' rhs l * ((f (lam k) : 𝕜) * ∑ j, (starRingEnd 𝕜) (z k j) * z' l j) := by
        refine Finset.sum_congr rfl fun k _ => ?_
        rw [e1 k, Finset.sum_mul, Finset.mul_sum]
        exact Finset.sum_congr rfl fun l _ => by ring
    _ = ∑ l, ∑ k, z k i * SR.coef z' rhs l * ((f (lam' l) : 𝕜) * ∑ j, (starRingEnd 𝕜) (z k j) * z' l j) := by
        rw [Finset.sum_comm]
        exact Finset.sum_congr rfl fun l _ => Finset.sum_congr rfl fun k _ => by rw [ov k l]
    _ = ∑ l, z' l i * ((∑ j, (starRingEnd 𝕜) (z' l j) * rhs j) * (f (lam' l) : 𝕜)) := by
        refine Finset.sum_congr rfl fun l _ => ?_
        conv_rhs => rw [e2 l, Finset.sum_mul]
        refine Finset.sum_congr rfl fun k _ => ?_
        unfold SR.coef
        ring

end unique

/-! ## cutoff -/

theorem maxAbs (l : List ℝ) : ∀ m : ℝ, (∀ e ∈ l, |e| ≤ l.foldl (fun m e => max m |e|) m) ∧
    m ≤ l.foldl (fun m e => max m |e|) m ∧
    (l.foldl (fun m e => max m |e|) m = m ∨ ∃ e ∈ l, l.foldl (fun m e => max m |e|) m = |e|) := by
  induction l with
  | nil => intro m; exact ⟨by simp, le_rfl, Or.inl rfl⟩
  | cons a l ih =>
    intro m
    obtain ⟨h1, h2, h3⟩ := ih (max m |a|)
    simp only [List.foldl_cons]
    refine ⟨fun e he => ?_, (le_max_left _ _).trans h2, ?_⟩
    · rcases List.mem_cons.1 he with rfl | he
      · exact (le_max_right _ _).trans h2
      · exact h1 e he
    · rcases h3 with h3 | ⟨e, he, h3⟩
      · rcases max_choice m |a| with h | h
        · exact Or.inl (h3.trans h)
        · exact Or.inr ⟨a, by simp, h3.trans h⟩
      · exact Or.inr ⟨e, by simp [he], h3⟩

theorem cutoff_le {l l' : List ℝ} (h : ∀ e ∈ l, e ∈ l') :
    l.foldl (fun m e => max m |e|) 0 ≤ l'.foldl (fun m e => max m |e|) 0 := by
  obtain ⟨-, -, h3⟩ := maxAbs l 0
  obtain ⟨h1, h2, -⟩ := maxAbs l' 0
  rcases h3 with h3 | ⟨e, he, h3⟩
  · rw [h3]; exact h2
  · rw [h3]; exact h1 e (h e he)

theorem cutoff_congr {l l' : List ℝ} (h : ∀ e, e ∈ l ↔ e ∈ l') (r a : ℝ) : SR.cutoff l r a = SR.cutoff l' r a := by
  unfold SR.cutoff
  rw [le_antisymm (cutoff_le fun e => (h e).1) (cutoff_le fun e => (h e).2)]

theorem pinv_eq {n : ℕ} (ev : ℕ → ℝ) (r a : ℝ) (soft : Bool) {k : ℕ} (hk : k < n) :
    pinv n ev r a soft k = SR.filterEv soft (SR.cutoff ((List.range n).map ev) r a) (ev k) := by
  simp [pinv, SR.applyPinv, hk]

/-- the solution of the linear equations is determined by the matrix -/
theorem solution_unique {n : ℕ} {A : ℕ → ℕ → 𝕜} {ev ev' : ℕ → ℝ} {Z Z' : ℕ → ℕ → 𝕜} (h : Solved n A ev Z)
    (h' : Solved n A ev' Z') (r a : ℝ) (soft : Bool) (rhs : ℕ → 𝕜) :
    eigenSolve (ι := Fin n) (κ := Fin n) (fun k i => Z i k) (fun k => pinv n ev r a soft k) (fun i => rhs i)
      = eigenSolve (ι := Fin n) (κ := Fin n) (fun k i => Z' i k) (fun k => pinv n ev' r a soft k) (fun i => rhs i) := by
  have hc : SR.cutoff ((List.range n).map ev) r a = SR.cutoff ((List.range n).map ev') r a := by
    refine cutoff_congr (fun e => ?_) r a
    simp only [List.mem_map, List.mem_range]
    constructor
    · rintro ⟨k, hk, rfl⟩
      obtain ⟨l, hl⟩ := eigen_mem h h' ⟨k, hk⟩
      exact ⟨l, l.2, hl.symm⟩
    · rintro ⟨k, hk, rfl⟩
      obtain ⟨l, hl⟩ := eigen_mem h' h ⟨k, hk⟩
      exact ⟨l, l.2, hl.symm⟩
  have := eigenSolve_unique h h' (SR.filterEv soft (SR.cutoff ((List.range n).map ev) r a)) (fun i => rhs i)
  simp only [pinv_eq _ _ _ _ (Fin.is_lt _)]
  rw [this, hc]

/-! ## inputs -/

theorem sum_fin (n : ℕ) (f : ℕ → 𝕜) : ∑ i : Fin n, f i = ∑ i ∈ Finset.range n, f i := Fin.sum_univ_eq_sum_range f n

theorem colMajorBlock_get {B N : ℕ} (rb : ℕ → 𝕜) {i j : ℕ} (hi : i < B) (hj : j < N) :
    colMajorBlock B N rb (j * B + i) = rb (i * N + j) := by
  unfold colMajorBlock
  refine fill_get B N (fun i j => j * B + i) (fun i j => rb (i * N + j)) ?_ i j hi hj
  intro i j i' j' hi _ hi' _ h
  have hB : 0 < B := by omega
  have h1 := congrArg (· / B) h
  have h2 := congrArg (· % B) h
  simp only [Nat.mul_comm _ B, Nat.mul_add_div hB, Nat.mul_add_mod, Nat.div_eq_of_lt hi, Nat.div_eq_of_lt hi',
    Nat.mod_eq_of_lt hi, Nat.mod_eq_of_lt hi', Nat.add_zero] at h1 h2
  exact ⟨h2, h1⟩

theorem source_entry {P B : ℕ} (rb : ℕ → ℕ → 𝕜) {i j : ℕ} (hi : i < P * B) (hj : j < P * B) :
    (source P B (P * B)).entry (fun p _ => colMajorBlock B (P * B) (rb p)) i j = matrix B (P * B) rb i j := by
  have hB : 0 < B := Nat.pos_of_ne_zero fun e => by subst e; omega
  have h1 : i / B < P := by rw [Nat.div_lt_iff_lt_mul hB]; exact hi
  unfold Desc.entry source cyclic matrix
  simp only
  rw [Nat.mod_eq_of_lt h1, ← Nat.div_div_eq_div_mul, Nat.div_eq_of_lt h1, Nat.zero_mul, Nat.zero_add, Nat.mul_one,
    Nat.div_eq_of_lt hj, Nat.zero_mul, Nat.zero_add, Nat.mod_eq_of_lt hj, show max 1 B = B by omega, Nat.add_comm,
    colMajorBlock_get _ (Nat.mod_lt _ hB) hj]

theorem allgather_rows {P B : ℕ} (rb : ℕ → ℕ → 𝕜) {i j : ℕ} (hj : j < P * B) :
    allgather (B * (P * B)) rb (i * (P * B) + j) = matrix B (P * B) rb i j := by
  have hN : 0 < P * B := by omega
  have hB : 0 < B := Nat.pos_of_mul_pos_left hN
  unfold allgather matrix
  have e : i * (P * B) + j = B * (P * B) * (i / B) + (i % B * (P * B) + j) := by
    conv_lhs => rw [← Nat.div_add_mod i B]
    ring
  have hlt : i % B * (P * B) + j < B * (P * B) := by
    calc i % B * (P * B) + j < i % B * (P * B) + P * B := by omega
      _ = (i % B + 1) * (P * B) := by ring
      _ ≤ B * (P * B) := Nat.mul_le_mul_right _ (Nat.mod_lt _ hB)
  rw [e, Nat.mul_add_div (by positivity), Nat.div_eq_of_lt hlt, Nat.add_zero, Nat.mul_add_mod, Nat.mod_eq_of_lt hlt]

theorem lapack_real {P B : ℕ} (rb : ℕ → ℕ → 𝕜) {i j : ℕ} (hi : i < P * B) :
    lapack (P * B) (inputReal B (P * B) rb) i j = matrix B (P * B) rb j i := by
  unfold lapack inputReal
  rw [Nat.add_comm, allgather_rows rb hi]

theorem lapack_complex {P B : ℕ} (rb : ℕ → ℕ → 𝕜) {i j : ℕ} (hi : i < P * B) (hj : j < P * B) :
    lapack (P * B) (inputComplex B (P * B) rb) i j = matrix B (P * B) rb i j := by
  unfold lapack inputComplex
  rw [fill_get (P * B) (P * B) (fun i j => i + j * (P * B)) _ _ i j hi hj, allgather_rows rb hj]
  intro i j i' j' hi _ hi' _ h
  have hN : 0 < P * B := by omega
  have h1 := congrArg (· / (P * B)) h
  have h2 := congrArg (· % (P * B)) h
  simp only [Nat.mul_comm _ (P * B), Nat.add_comm _ (P * B * _), Nat.mul_add_div hN, Nat.mul_add_mod,
    Nat.div_eq_of_lt hi, Nat.div_eq_of_lt hi', Nat.mod_eq_of_lt hi, Nat.mod_eq_of_lt hi', Nat.add_zero] at h1 h2
  exact ⟨h2, h1⟩

theorem replicated_eq {n : ℕ} (z : ℕ → 𝕜) (lamPlus : ℕ → ℝ) (rhs : ℕ → 𝕜) (i : Fin n) :
    replicated n z lamPlus rhs i
      = eigenSolve (ι := Fin n) (κ := Fin n) (fun k i => lapack n z i k) (fun k => lamPlus k) (fun i => rhs i) i := by
  unfold replicated replicatedTmp eigenSolve
  rw [foldl_sum]
  simp only [foldl_sum]
  rw [sum_fin n (fun k => lapack n z i k * ((∑ j : Fin n, (starRingEnd 𝕜) (lapack n z j k) * rhs j) * (lamPlus k : 𝕜)))]
  refine Finset.sum_congr rfl fun k _ => ?_
  rw [sum_fin n (fun j => (starRingEnd 𝕜) (lapack n z j k) * rhs j)]
  rfl

theorem Solved.congr {n : ℕ} {A A' : ℕ → ℕ → 𝕜} (h : ∀ i j, i < n → j < n → A i j = A' i j) {ev : ℕ → ℝ}
    {Z : ℕ → ℕ → 𝕜} (hs : Solved n A ev Z) : Solved n A' ev Z := by
  have : (fun i j : Fin n => A i j) = fun i j : Fin n => A' i j := by
    funext i j; exact h i j i.2 j.2
  unfold Solved at *
  rwa [← this]

end QLPeps.MinSR
