import Verif.Spec.SimpleUpdate
import Mathlib.Tactic

/-! # Lemmas on the simple-update local Hamiltonians -/

namespace QLPeps.SimpleUpdate

open QLPeps.State (BC)
open Spec Finset

variable {𝕜 : Type*} [Field 𝕜]

/-! ## Lines of sites -/

theorem bondLimit_eq (bc : BC) (n : ℕ) : bondLimit bc n = bonds bc n := by
  cases bc <;> simp [bondLimit, bonds]

theorem mod_lam {bc : BC} {n i : ℕ} (h : i < bonds bc n) :
    (i + 1) % lamLen bc n = next bc n i := by
  cases bc
  · simp only [bonds, lamLen, next, if_true] at *
    exact Nat.mod_eq_of_lt (by omega)
  · simp only [bonds, lamLen, next, reduceCtorEq, if_false] at *
    split
    · next e => rw [e]; exact Nat.mod_self n
    · exact Nat.mod_eq_of_lt (by omega)

theorem mod_len {bc : BC} {n i : ℕ} (h : i < bonds bc n) :
    (i + 1) % n = next bc n i := by
  cases bc
  · simp only [bonds, next] at *
    exact Nat.mod_eq_of_lt (by omega)
  · simp only [bonds, next] at *
    split
    · next e => rw [e]; exact Nat.mod_self n
    · exact Nat.mod_eq_of_lt (by omega)

theorem mod_back {bc : BC} {n i : ℕ} (h : i < bonds bc n) :
    (next bc n i + lamLen bc n - 1) % lamLen bc n = i := by
  cases bc
  · simp only [bonds, lamLen, next, if_true] at *
    rw [show i + 1 + (n + 1) - 1 = i + (n + 1) by omega, Nat.add_mod_right]
    exact Nat.mod_eq_of_lt (by omega)
  · simp only [bonds, lamLen, next, reduceCtorEq, if_false] at *
    split
    · next e =>
      rw [show 0 + n - 1 = i by omega]; exact Nat.mod_eq_of_lt h
    · rw [show i + 1 + n - 1 = i + n by omega, Nat.add_mod_right]
      exact Nat.mod_eq_of_lt h

theorem next_lt {bc : BC} {n i : ℕ} (h : i < bonds bc n) : next bc n i < n := by
  cases bc
  · simp only [bonds, next] at *; omega
  · simp only [bonds, next] at *; split <;> omega

theorem lt_of_bonds {bc : BC} {n i : ℕ} (h : i < bonds bc n) : i < n := by
  cases bc <;> simp only [bonds] at h <;> omega

theorem next_ne {bc : BC} {n i : ℕ} (hn : 2 ≤ n) : next bc n i ≠ i := by
  cases bc
  · simp [next]
  · simp only [next]; split <;> omega

theorem sum_ends (bc : BC) {n : ℕ} (hn : 2 ≤ n) (g : ℕ → 𝕜) :
    ∑ i ∈ range (bonds bc n), (g i + g (next bc n i)) = ∑ i ∈ range n, (deg bc n i : 𝕜) * g i := by
  obtain ⟨k, rfl⟩ : ∃ k, n = k + 1 := ⟨n - 1, by omega⟩
  cases bc
  · simp only [bonds, next, deg, Nat.add_sub_cancel]
    rw [sum_add_distrib]
    have h1 : ∑ i ∈ range (k + 1), (if i + 1 < k + 1 then g i else 0) = ∑ i ∈ range k, g i := by
      rw [sum_range_succ]
      simp only [lt_irrefl, if_false, add_zero]
      refine sum_congr rfl fun i hi => if_pos ?_
      have := mem_range.1 hi; omega
    have h2 : ∑ i ∈ range (k + 1), (if 0 < i then g i else 0) = ∑ i ∈ range k, g (i + 1) := by
      rw [sum_range_succ']
      simp
    rw [← h1, ← h2, ← sum_add_distrib]
    refine sum_congr rfl fun i _ => ?_
    push_cast
    split_ifs <;> ring
  · simp only [bonds, next, deg]
    rw [sum_add_distrib]
    have h2 : ∑ i ∈ range (k + 1), g (if i + 1 = k + 1 then 0 else i + 1) =
        ∑ i ∈ range (k + 1), g i := by
      rw [sum_range_succ, sum_range_succ', if_pos rfl]
      congr 1
      refine sum_congr rfl fun i hi => ?_
      have := mem_range.1 hi
      rw [if_neg (by omega)]
    rw [h2, ← sum_add_distrib]
    refine sum_congr rfl fun i _ => ?_
    push_cast; ring

theorem deg_pos (bc : BC) {n i : ℕ} (hn : 2 ≤ n) (hi : i < n) : 0 < deg bc n i := by
  cases bc
  · simp only [deg]; split_ifs <;> omega
  · simp [deg]

theorem deg_obc {n i : ℕ} (hn : 2 ≤ n) (hi : i < n) :
    (i = 0 ∧ deg .obc n i = 1) ∨ (i + 1 = n ∧ 0 < i ∧ deg .obc n i = 1) ∨
      (0 < i ∧ i + 1 < n ∧ deg .obc n i = 2) := by
  simp only [deg]
  by_cases h0 : 0 < i <;> by_cases h1 : i + 1 < n
  · rw [if_pos h0, if_pos h1]; omega
  · rw [if_pos h0, if_neg h1]; omega
  · rw [if_neg h0, if_pos h1]; omega
  · omega

/-! ## Lists of sums -/

theorem sum_grid {β : Type*} [AddCommMonoid β] (n m : ℕ) (f : ℕ × ℕ → β) :
    (((List.range n).flatMap fun a => (List.range m).map fun b => (b, a)).map f).sum =
      ∑ b ∈ range m, ∑ a ∈ range n, f (b, a) := by
  have h : ∀ (l : List ℕ), ((l.flatMap fun a => (List.range m).map fun b => (b, a)).map f).sum =
      (l.map fun a => ∑ b ∈ range m, f (b, a)).sum := by
    intro l
    induction l with
    | nil => rfl
    | cons a l ih =>
      rw [List.flatMap_cons, List.map_append, List.sum_append, ih, List.map_cons, List.sum_cons,
        List.map_map]
      rfl
  rw [h, sum_comm]
  rfl

theorem mapM_map_sum {α β γ : Type*} [AddCommMonoid γ] (l : List α) (f : α → Option β)
    (g : α → β) (hf : ∀ a ∈ l, f a = some (g a)) (φ : β → γ) :
    ∃ r, l.mapM f = some r ∧ (r.map φ).sum = (l.map fun a => φ (g a)).sum := by
  induction l with
  | nil => exact ⟨[], rfl, rfl⟩
  | cons a l ih =>
    obtain ⟨r, hr, hs⟩ := ih fun b hb => hf b (List.mem_cons_of_mem _ hb)
    refine ⟨g a :: r, ?_, ?_⟩
    · rw [List.mapM_cons, hf a List.mem_cons_self, hr]; rfl
    · rw [List.map_cons, List.sum_cons, hs, List.map_cons, List.sum_cons]

theorem mapM_eq_map {α β : Type*} (l : List α) (f : α → Option β)
    (g : α → β) (hf : ∀ a ∈ l, f a = some (g a)) : l.mapM f = some (l.map g) := by
  induction l with
  | nil => rfl
  | cons a l ih =>
    rw [List.mapM_cons, hf a List.mem_cons_self, ih fun b hb => hf b (List.mem_cons_of_mem _ hb)]
    rfl

theorem mem_cells {n m : ℕ} {s : ℕ × ℕ} :
    s ∈ ((List.range n).flatMap fun a => (List.range m).map fun b => (b, a)) ↔
      s.1 < m ∧ s.2 < n := by
  obtain ⟨r, c⟩ := s
  simp only [List.mem_flatMap, List.mem_range, List.mem_map, Prod.mk.injEq]
  constructor
  · rintro ⟨a, ha, b, hb, rfl, rfl⟩; exact ⟨hb, ha⟩
  · rintro ⟨h1, h2⟩; exact ⟨c, h2, r, h1, rfl, rfl⟩

/-! ## Embedded operators -/

theorem on2_add (Λ : Finset Site) (s t : Site) (h h' : Op2 𝕜) (σ τ : Site → ℕ) :
    on2 Λ s t (fun a b c d => h a b c d + h' a b c d) σ τ = on2 Λ s t h σ τ + on2 Λ s t h' σ τ := by
  unfold on2; split_ifs <;> simp

theorem on2_left (Λ : Finset Site) {s t : Site} (hst : s ≠ t) (ht : t ∈ Λ) (w : 𝕜) (o : Op1 𝕜)
    (σ τ : Site → ℕ) :
    on2 Λ s t (fun a b c d => w * (o a b * ident c d)) σ τ = w * on1 Λ s o σ τ := by
  unfold on2 on1 ident
  by_cases h : ∀ u ∈ Λ, u ≠ s → σ u = τ u
  · rw [if_pos (fun u hu h1 _ => h u hu h1), if_pos h]
    dsimp only
    rw [if_pos (h t ht hst.symm)]; ring
  · rw [if_neg h]
    by_cases h2 : ∀ u ∈ Λ, u ≠ s → u ≠ t → σ u = τ u
    · rw [if_pos h2]
      dsimp only
      rw [if_neg]
      · ring
      · intro e
        refine h fun u hu hus => ?_
        by_cases hut : u = t
        · rw [hut]; exact e
        · exact h2 u hu hus hut
    · rw [if_neg h2]; ring

theorem on2_comm (Λ : Finset Site) (s t : Site) (h : Op2 𝕜) (σ τ : Site → ℕ) :
    on2 Λ t s h σ τ = on2 Λ s t (swapped h) σ τ := by
  unfold on2 swapped
  have : (∀ u ∈ Λ, u ≠ t → u ≠ s → σ u = τ u) ↔ (∀ u ∈ Λ, u ≠ s → u ≠ t → σ u = τ u) :=
    ⟨fun h u a b c => h u a c b, fun h u a b c => h u a c b⟩
  simp only [this]

theorem on2_right (Λ : Finset Site) {s t : Site} (hst : s ≠ t) (hs : s ∈ Λ) (w : 𝕜) (o : Op1 𝕜)
    (σ τ : Site → ℕ) :
    on2 Λ s t (fun a b c d => w * (ident a b * o c d)) σ τ = w * on1 Λ t o σ τ := by
  rw [on2_comm Λ t s, ← on2_left Λ hst.symm hs]
  congr 1
  funext a b c d
  simp only [swapped]; ring

theorem on2_bondHam (Λ : Finset Site) {s t : Site} (hst : s ≠ t) (hs : s ∈ Λ) (ht : t ∈ Λ)
    (base : Op2 𝕜) (w1 w2 : 𝕜) (o1 o2 : Op1 𝕜) (σ τ : Site → ℕ) :
    on2 Λ s t (bondHam base w1 o1 w2 o2) σ τ =
      on2 Λ s t base σ τ + w1 * on1 Λ s o1 σ τ + w2 * on1 Λ t o2 σ τ := by
  unfold bondHam
  rw [on2_add Λ s t (fun a b c d => base a b c d + w1 * (o1 a b * ident c d)),
    on2_add Λ s t base, on2_left Λ hst ht, on2_right Λ hst hs]

theorem on3_add (Λ : Finset Site) (s t u : Site) (h h' : Op3 𝕜) (σ τ : Site → ℕ) :
    on3 Λ s t u (fun a b c d e f => h a b c d e f + h' a b c d e f) σ τ =
      on3 Λ s t u h σ τ + on3 Λ s t u h' σ τ := by
  unfold on3; split_ifs <;> simp

/-- drop the third site -/
theorem on3_12 (Λ : Finset Site) {s t u : Site} (hsu : s ≠ u) (htu : t ≠ u) (hu : u ∈ Λ) (w : 𝕜)
    (h : Op2 𝕜) (σ τ : Site → ℕ) :
    on3 Λ s t u (fun a b c d e f => h a b c d * ident e f * w) σ τ = w * on2 Λ s t h σ τ := by
  unfold on3 on2 ident
  by_cases h1 : ∀ v ∈ Λ, v ≠ s → v ≠ t → σ v = τ v
  · rw [if_pos (fun v hv a b _ => h1 v hv a b), if_pos h1]
    dsimp only
    rw [if_pos (h1 u hu hsu.symm htu.symm)]; ring
  · rw [if_neg h1]
    by_cases h2 : ∀ v ∈ Λ, v ≠ s → v ≠ t → v ≠ u → σ v = τ v
    · rw [if_pos h2]
      dsimp only
      rw [if_neg]
      · ring
      · intro e
        refine h1 fun v hv a b => ?_
        by_cases hvu : v = u
        · rw [hvu]; exact e
        · exact h2 v hv a b hvu
    · rw [if_neg h2]; ring

theorem on3_perm132 (Λ : Finset Site) (s t u : Site) (h : Op3 𝕜) (σ τ : Site → ℕ) :
    on3 Λ s t u h σ τ = on3 Λ s u t (fun a b c d e f => h a b e f c d) σ τ := by
  unfold on3
  have : (∀ v ∈ Λ, v ≠ s → v ≠ t → v ≠ u → σ v = τ v) ↔
      (∀ v ∈ Λ, v ≠ s → v ≠ u → v ≠ t → σ v = τ v) :=
    ⟨fun h v a b c d => h v a b d c, fun h v a b c d => h v a b d c⟩
  simp only [this]

theorem on3_perm231 (Λ : Finset Site) (s t u : Site) (h : Op3 𝕜) (σ τ : Site → ℕ) :
    on3 Λ s t u h σ τ = on3 Λ t u s (fun a b c d e f => h e f a b c d) σ τ := by
  unfold on3
  have : (∀ v ∈ Λ, v ≠ s → v ≠ t → v ≠ u → σ v = τ v) ↔
      (∀ v ∈ Λ, v ≠ t → v ≠ u → v ≠ s → σ v = τ v) :=
    ⟨fun h v a b c d => h v a d b c, fun h v a b c d => h v a c d b⟩
  simp only [this]

/-- drop the second site -/
theorem on3_13 (Λ : Finset Site) {s t u : Site} (hst : s ≠ t) (hut : u ≠ t) (ht : t ∈ Λ) (w : 𝕜)
    (h : Op2 𝕜) (σ τ : Site → ℕ) :
    on3 Λ s t u (fun a b c d e f => h a b e f * ident c d * w) σ τ = w * on2 Λ s u h σ τ := by
  rw [on3_perm132]
  exact on3_12 Λ hst hut ht w h σ τ

/-- drop the first site -/
theorem on3_23 (Λ : Finset Site) {s t u : Site} (hts : t ≠ s) (hus : u ≠ s) (hs : s ∈ Λ) (w : 𝕜)
    (h : Op2 𝕜) (σ τ : Site → ℕ) :
    on3 Λ s t u (fun a b c d e f => ident a b * h c d e f * w) σ τ = w * on2 Λ t u h σ τ := by
  rw [on3_perm231, ← on3_12 Λ hts hus hs w h]
  congr 1
  funext a b c d e f
  ring

theorem on3_1 (Λ : Finset Site) {s t u : Site} (hst : s ≠ t) (hsu : s ≠ u) (htu : t ≠ u)
    (ht : t ∈ Λ) (hu : u ∈ Λ) (w : 𝕜) (o : Op1 𝕜) (σ τ : Site → ℕ) :
    on3 Λ s t u (fun a b c d e f => o a b * ident c d * ident e f * w) σ τ = w * on1 Λ s o σ τ := by
  rw [on3_12 Λ hsu htu hu w (fun a b c d => o a b * ident c d)]
  have := on2_left Λ hst ht 1 o σ τ
  simp only [one_mul] at this
  rw [this]

theorem on3_2 (Λ : Finset Site) {s t u : Site} (hst : s ≠ t) (hsu : s ≠ u) (htu : t ≠ u)
    (hs : s ∈ Λ) (hu : u ∈ Λ) (w : 𝕜) (o : Op1 𝕜) (σ τ : Site → ℕ) :
    on3 Λ s t u (fun a b c d e f => ident a b * o c d * ident e f * w) σ τ = w * on1 Λ t o σ τ := by
  rw [on3_12 Λ hsu htu hu w (fun a b c d => ident a b * o c d)]
  have := on2_right Λ hst hs 1 o σ τ
  simp only [one_mul] at this
  rw [this]

theorem on3_3 (Λ : Finset Site) {s t u : Site} (hst : s ≠ t) (hsu : s ≠ u) (htu : t ≠ u)
    (hs : s ∈ Λ) (ht : t ∈ Λ) (w : 𝕜) (o : Op1 𝕜) (σ τ : Site → ℕ) :
    on3 Λ s t u (fun a b c d e f => ident a b * ident c d * o e f * w) σ τ = w * on1 Λ u o σ τ := by
  rw [on3_perm132, ← on3_2 Λ hsu hst htu.symm hs ht w o]
  congr 1
  funext a b c d e f
  ring

/-! ## Nearest-neighbour executor -/

theorem coordH_eq {bc : BC} {ly lx r c : ℕ} (hy : 2 ≤ ly) (hx : 2 ≤ lx) (hr : r < ly)
    (hc : c < bonds bc lx) :
    coordH bc ly lx r c =
      (deg bc ly r + deg bc lx c, deg bc ly r + deg bc lx (next bc lx c)) := by
  cases bc
  · simp only [bonds] at hc
    have d1 := deg_obc (n := ly) (i := r) hy hr
    have d2 := deg_obc (n := lx) (i := c) hx (by omega)
    have d3 := deg_obc (n := lx) (i := (c + 1)) hx (by omega)
    simp only [coordH, next, reduceCtorEq, if_false, Prod.mk.injEq]
    constructor <;> (repeat' split) <;> omega
  · simp [coordH, deg]

theorem coordV_eq {bc : BC} {ly lx r c : ℕ} (hy : 2 ≤ ly) (hx : 2 ≤ lx) (hc : c < lx)
    (hr : r < bonds bc ly) :
    coordV bc ly lx r c =
      (deg bc ly r + deg bc lx c, deg bc ly (next bc ly r) + deg bc lx c) := by
  cases bc
  · simp only [bonds] at hr
    have d1 := deg_obc (n := lx) (i := c) hx hc
    have d2 := deg_obc (n := ly) (i := r) hy (by omega)
    have d3 := deg_obc (n := ly) (i := (r + 1)) hy (by omega)
    simp only [coordV, next, reduceCtorEq, if_false, Prod.mk.injEq]
    constructor <;> (repeat' split) <;> omega
  · simp [coordV, deg]

theorem mem_lattice {ly lx r c : ℕ} : (r, c) ∈ lattice ly lx ↔ r < ly ∧ c < lx := by
  simp [lattice]

theorem rightSite_eq {bc : BC} {lx r c : ℕ} (hc : c < bonds bc lx) :
    rightSite bc lx (r, c) = (r, next bc lx c) := by
  simp only [rightSite, mod_lam hc]

theorem lowerSite_eq {bc : BC} {ly r c : ℕ} (hr : r < bonds bc ly) :
    lowerSite bc ly (r, c) = (next bc ly r, c) := by
  simp only [lowerSite, mod_lam hr]
  cases bc <;> simp [next]

/-- distributing the on-site terms over the bonds by coordination number -/
theorem onsite_total [CharZero 𝕜] (bc : BC) {ly lx : ℕ} (hy : 2 ≤ ly) (hx : 2 ≤ lx)
    (f : ℕ → ℕ → 𝕜) :
    ∑ r ∈ range ly, ∑ c ∈ range (bonds bc lx),
        (1 / ((deg bc ly r + deg bc lx c : ℕ) : 𝕜) * f r c +
         1 / ((deg bc ly r + deg bc lx (next bc lx c) : ℕ) : 𝕜) * f r (next bc lx c)) +
      ∑ r ∈ range (bonds bc ly), ∑ c ∈ range lx,
        (1 / ((deg bc ly r + deg bc lx c : ℕ) : 𝕜) * f r c +
         1 / ((deg bc ly (next bc ly r) + deg bc lx c : ℕ) : 𝕜) * f (next bc ly r) c) =
    ∑ r ∈ range ly, ∑ c ∈ range lx, f r c := by
  have h1 : ∀ r, ∑ c ∈ range (bonds bc lx),
        (1 / ((deg bc ly r + deg bc lx c : ℕ) : 𝕜) * f r c +
         1 / ((deg bc ly r + deg bc lx (next bc lx c) : ℕ) : 𝕜) * f r (next bc lx c)) =
      ∑ c ∈ range lx, (deg bc lx c : 𝕜) * (1 / ((deg bc ly r + deg bc lx c : ℕ) : 𝕜) * f r c) :=
    fun r => sum_ends bc hx fun c => 1 / ((deg bc ly r + deg bc lx c : ℕ) : 𝕜) * f r c
  have h2 : ∀ c, ∑ r ∈ range (bonds bc ly),
        (1 / ((deg bc ly r + deg bc lx c : ℕ) : 𝕜) * f r c +
         1 / ((deg bc ly (next bc ly r) + deg bc lx c : ℕ) : 𝕜) * f (next bc ly r) c) =
      ∑ r ∈ range ly, (deg bc ly r : 𝕜) * (1 / ((deg bc ly r + deg bc lx c : ℕ) : 𝕜) * f r c) :=
    fun c => sum_ends bc hy fun r => 1 / ((deg bc ly r + deg bc lx c : ℕ) : 𝕜) * f r c
  simp only [h1]
  rw [sum_comm (s := range (bonds bc ly)) (t := range lx)]
  simp only [h2]
  rw [sum_comm (s := range lx) (t := range ly), ← sum_add_distrib]
  refine sum_congr rfl fun r hr => ?_
  rw [← sum_add_distrib]
  refine sum_congr rfl fun c hc => ?_
  have p1 := deg_pos bc hy (mem_range.1 hr)
  have hne : ((deg bc ly r + deg bc lx c : ℕ) : 𝕜) ≠ 0 := Nat.cast_ne_zero.2 (by omega)
  have : ((deg bc ly r + deg bc lx c : ℕ) : 𝕜) = (deg bc ly r : 𝕜) + (deg bc lx c : 𝕜) := by
    push_cast; ring
  field_simp
  rw [this]; ring

/-! ## Next-nearest-neighbour executor -/

theorem proj_ul {bc : BC} {ly lx r c : ℕ} (hr : r < bonds bc ly) (hc : c < bonds bc lx) :
    projSites bc ly lx (callSite bc lx r c .upperLeft) .upperLeft =
      ((r, next bc lx c), (r, c), (next bc ly r, c)) := by
  simp only [projSites, callSite, mod_lam hr, mod_lam hc]

theorem proj_ur {bc : BC} {ly lx r c : ℕ} (hr : r < bonds bc ly) (hc : c < bonds bc lx) :
    projSites bc ly lx (callSite bc lx r c .upperRight) .upperRight =
      ((r, c), (r, next bc lx c), (next bc ly r, next bc lx c)) := by
  simp only [projSites, callSite, mod_lam hr, mod_lam hc, mod_back hc]

theorem proj_lr {bc : BC} {ly lx r c : ℕ} (hr : r < bonds bc ly) (hc : c < bonds bc lx) :
    projSites bc ly lx (callSite bc lx r c .lowerRight) .lowerRight =
      ((r, next bc lx c), (next bc ly r, next bc lx c), (next bc ly r, c)) := by
  simp only [projSites, callSite, mod_lam hr, mod_lam hc, mod_back hc]

theorem proj_ll {bc : BC} {ly lx r c : ℕ} (hr : r < bonds bc ly) (hc : c < bonds bc lx) :
    projSites bc ly lx (callSite bc lx r c .lowerLeft) .lowerLeft =
      ((r, c), (next bc ly r, c), (next bc ly r, next bc lx c)) := by
  simp only [projSites, callSite, mod_lam hr, mod_lam hc]

theorem tri_ul {bc : BC} {ly lx r c : ℕ} (hr : r < bonds bc ly) (hc : c < bonds bc lx) :
    triSite bc ly lx (cornerB bc ly lx r c .upperLeft) .upperLeft =
      ((r, next bc lx c), (r, c), (next bc ly r, c)) := by
  simp only [triSite, cornerB, mod_lam hr, mod_lam hc]

theorem tri_ur {bc : BC} {ly lx r c : ℕ} (hr : r < bonds bc ly) (hc : c < bonds bc lx) :
    triSite bc ly lx (cornerB bc ly lx r c .upperRight) .upperRight =
      ((r, c), (r, next bc lx c), (next bc ly r, next bc lx c)) := by
  simp only [triSite, cornerB, mod_lam hr, mod_lam hc, mod_back hc]

theorem tri_lr {bc : BC} {ly lx r c : ℕ} (hr : r < bonds bc ly) (hc : c < bonds bc lx) :
    triSite bc ly lx (cornerB bc ly lx r c .lowerRight) .lowerRight =
      ((r, next bc lx c), (next bc ly r, next bc lx c), (next bc ly r, c)) := by
  simp only [triSite, cornerB, mod_lam hr, mod_lam hc, mod_back hc, mod_back hr]

/-- the third site is the upper right corner, not the lower right one the projection acts on -/
theorem tri_ll {bc : BC} {ly lx r c : ℕ} (hr : r < bonds bc ly) (hc : c < bonds bc lx) :
    triSite bc ly lx (cornerB bc ly lx r c .lowerLeft) .lowerLeft =
      ((r, c), (next bc ly r, c), (r, next bc lx c)) := by
  simp only [triSite, cornerB, mod_lam hr, mod_lam hc, mod_back hr]

theorem siteTri_eq {bc : BC} {ly lx r c : ℕ} (hy : 2 ≤ ly) (hx : 2 ≤ lx) (hr : r < ly)
    (hc : c < lx) : siteTri bc ly lx (r, c) = 3 * (deg bc ly r * deg bc lx c) := by
  cases bc
  · have d1 := deg_obc (n := ly) (i := r) hy hr
    have d2 := deg_obc (n := lx) (i := c) hx hc
    simp only [siteTri, reduceCtorEq, if_false]
    rcases d1 with ⟨h1, e1⟩ | ⟨h1, h1', e1⟩ | ⟨h1, h1', e1⟩ <;>
      rcases d2 with ⟨h2, e2⟩ | ⟨h2, h2', e2⟩ | ⟨h2, h2', e2⟩ <;> rw [e1, e2] <;>
      split_ifs <;> first | rfl | omega
  · simp [siteTri, deg]

theorem sum_corners (bc : BC) {ly lx : ℕ} (hy : 2 ≤ ly) (hx : 2 ≤ lx) (g : ℕ → ℕ → 𝕜) :
    ∑ r ∈ range (bonds bc ly), ∑ c ∈ range (bonds bc lx),
      ((g r c + g r (next bc lx c)) + (g (next bc ly r) c + g (next bc ly r) (next bc lx c))) =
    ∑ r ∈ range ly, ∑ c ∈ range lx, (deg bc ly r : 𝕜) * ((deg bc lx c : 𝕜) * g r c) := by
  have h : ∀ r, ∑ c ∈ range (bonds bc lx), (g r c + g r (next bc lx c)) =
      ∑ c ∈ range lx, (deg bc lx c : 𝕜) * g r c := fun r => sum_ends bc hx (g r)
  simp only [sum_add_distrib (f := fun c => g _ c + g _ (next bc lx c))]
  simp only [h]
  rw [sum_ends bc hy fun r => ∑ c ∈ range lx, (deg bc lx c : 𝕜) * g r c]
  simp only [mul_sum]

theorem site_total [CharZero 𝕜] (bc : BC) {ly lx : ℕ} (hy : 2 ≤ ly) (hx : 2 ≤ lx)
    (f : ℕ → ℕ → 𝕜) :
    ∑ r ∈ range (bonds bc ly), ∑ c ∈ range (bonds bc lx),
      ((1 / (siteTri bc ly lx (r, c) : 𝕜) * f r c +
        1 / (siteTri bc ly lx (r, next bc lx c) : 𝕜) * f r (next bc lx c)) +
       (1 / (siteTri bc ly lx (next bc ly r, c) : 𝕜) * f (next bc ly r) c +
        1 / (siteTri bc ly lx (next bc ly r, next bc lx c) : 𝕜) *
          f (next bc ly r) (next bc lx c))) * 3 =
    ∑ r ∈ range ly, ∑ c ∈ range lx, f r c := by
  simp only [← sum_mul]
  rw [sum_corners bc hy hx fun r c => 1 / (siteTri bc ly lx (r, c) : 𝕜) * f r c, sum_mul]
  refine sum_congr rfl fun r hr => ?_
  rw [sum_mul]
  refine sum_congr rfl fun c hc => ?_
  rw [siteTri_eq hy hx (mem_range.1 hr) (mem_range.1 hc)]
  have h1 : (deg bc ly r : 𝕜) ≠ 0 := Nat.cast_ne_zero.2 (deg_pos bc hy (mem_range.1 hr)).ne'
  have h2 : (deg bc lx c : 𝕜) ≠ 0 := Nat.cast_ne_zero.2 (deg_pos bc hx (mem_range.1 hc)).ne'
  push_cast
  field_simp

/-- a horizontal bond in row `r` lies in `deg r` plaquettes -/
theorem row_total [CharZero 𝕜] (bc : BC) {ly : ℕ} (hy : 2 ≤ ly) (n : ℕ) (f : ℕ → ℕ → 𝕜) :
    ∑ r ∈ range (bonds bc ly), ∑ c ∈ range n,
      (1 / ((2 * deg bc ly r : ℕ) : 𝕜) * f r c +
       1 / ((2 * deg bc ly (next bc ly r) : ℕ) : 𝕜) * f (next bc ly r) c) =
    ∑ r ∈ range ly, ∑ c ∈ range n, (1 / 2) * f r c := by
  rw [sum_comm (s := range (bonds bc ly)), sum_comm (s := range ly)]
  refine sum_congr rfl fun c _ => ?_
  rw [sum_ends bc hy fun r => 1 / ((2 * deg bc ly r : ℕ) : 𝕜) * f r c]
  refine sum_congr rfl fun r hr => ?_
  have h1 : (deg bc ly r : 𝕜) ≠ 0 := Nat.cast_ne_zero.2 (deg_pos bc hy (mem_range.1 hr)).ne'
  push_cast
  field_simp

theorem col_total [CharZero 𝕜] (bc : BC) {lx : ℕ} (hx : 2 ≤ lx) (n : ℕ) (f : ℕ → ℕ → 𝕜) :
    ∑ r ∈ range n, ∑ c ∈ range (bonds bc lx),
      (1 / ((2 * deg bc lx c : ℕ) : 𝕜) * f r c +
       1 / ((2 * deg bc lx (next bc lx c) : ℕ) : 𝕜) * f r (next bc lx c)) =
    ∑ r ∈ range n, ∑ c ∈ range lx, (1 / 2) * f r c := by
  refine sum_congr rfl fun r _ => ?_
  rw [sum_ends bc hx fun c => 1 / ((2 * deg bc lx c : ℕ) : 𝕜) * f r c]
  refine sum_congr rfl fun c hc => ?_
  have h1 : (deg bc lx c : 𝕜) ≠ 0 := Nat.cast_ne_zero.2 (deg_pos bc hx (mem_range.1 hc)).ne'
  push_cast
  field_simp

theorem bondTri_ul {bc : BC} {ly lx r c : ℕ} (hr : r < bonds bc ly) (hc : c < bonds bc lx) :
    bondTri bc ly lx (cornerB bc ly lx r c .upperLeft) .upperLeft =
      (2 * deg bc ly r, 2 * deg bc lx c) := by
  cases bc
  · simp only [bonds] at hr hc
    have d1 := deg_obc (n := ly) (i := r) (by omega) (by omega)
    have d2 := deg_obc (n := lx) (i := c) (by omega) (by omega)
    simp only [bondTri, cornerB, reduceCtorEq, if_false, Prod.mk.injEq]
    rcases d1 with ⟨h1, e1⟩ | ⟨h1, h1', e1⟩ | ⟨h1, h1', e1⟩ <;>
      rcases d2 with ⟨h2, e2⟩ | ⟨h2, h2', e2⟩ | ⟨h2, h2', e2⟩ <;> rw [e1, e2] <;>
      refine ⟨?_, ?_⟩ <;> first | exact if_pos (by omega) | exact if_neg (by omega)
  · simp [bondTri, deg]

theorem bondTri_ur {bc : BC} {ly lx r c : ℕ} (hr : r < bonds bc ly) (hc : c < bonds bc lx) :
    bondTri bc ly lx (cornerB bc ly lx r c .upperRight) .upperRight =
      (2 * deg bc ly r, 2 * deg bc lx (next bc lx c)) := by
  simp only [cornerB, mod_lam hc]
  cases bc
  · simp only [bonds] at hr hc
    have d1 := deg_obc (n := ly) (i := r) (by omega) (by omega)
    have d2 := deg_obc (n := lx) (i := (c + 1)) (by omega) (by omega)
    simp only [bondTri, next, reduceCtorEq, if_false, Prod.mk.injEq]
    rcases d1 with ⟨h1, e1⟩ | ⟨h1, h1', e1⟩ | ⟨h1, h1', e1⟩ <;>
      rcases d2 with ⟨h2, e2⟩ | ⟨h2, h2', e2⟩ | ⟨h2, h2', e2⟩ <;> rw [e1, e2] <;>
      refine ⟨?_, ?_⟩ <;> first | exact if_pos (by omega) | exact if_neg (by omega)
  · simp [bondTri, deg]

theorem bondTri_ll {bc : BC} {ly lx r c : ℕ} (hr : r < bonds bc ly) (hc : c < bonds bc lx) :
    bondTri bc ly lx (cornerB bc ly lx r c .lowerLeft) .lowerLeft =
      (2 * deg bc ly (next bc ly r), 2 * deg bc lx c) := by
  simp only [cornerB, mod_lam hr]
  cases bc
  · simp only [bonds] at hr hc
    have d1 := deg_obc (n := ly) (i := (r + 1)) (by omega) (by omega)
    have d2 := deg_obc (n := lx) (i := c) (by omega) (by omega)
    simp only [bondTri, next, reduceCtorEq, if_false, Prod.mk.injEq]
    rcases d1 with ⟨h1, e1⟩ | ⟨h1, h1', e1⟩ | ⟨h1, h1', e1⟩ <;>
      rcases d2 with ⟨h2, e2⟩ | ⟨h2, h2', e2⟩ | ⟨h2, h2', e2⟩ <;> rw [e1, e2] <;>
      refine ⟨?_, ?_⟩ <;> first | exact if_pos (by omega) | exact if_neg (by omega)
  · simp [bondTri, deg]

theorem bondTri_lr {bc : BC} {ly lx r c : ℕ} (hr : r < bonds bc ly) (hc : c < bonds bc lx) :
    bondTri bc ly lx (cornerB bc ly lx r c .lowerRight) .lowerRight =
      (2 * deg bc ly (next bc ly r), 2 * deg bc lx (next bc lx c)) := by
  simp only [cornerB, mod_lam hr, mod_lam hc]
  cases bc
  · simp only [bonds] at hr hc
    have d1 := deg_obc (n := ly) (i := (r + 1)) (by omega) (by omega)
    have d2 := deg_obc (n := lx) (i := (c + 1)) (by omega) (by omega)
    simp only [bondTri, next, reduceCtorEq, if_false, Prod.mk.injEq]
    rcases d1 with ⟨h1, e1⟩ | ⟨h1, h1', e1⟩ | ⟨h1, h1', e1⟩ <;>
      rcases d2 with ⟨h2, e2⟩ | ⟨h2, h2', e2⟩ | ⟨h2, h2', e2⟩ <;> rw [e1, e2] <;>
      refine ⟨?_, ?_⟩ <;> first | exact if_pos (by omega) | exact if_neg (by omega)
  · simp [bondTri, deg]

/-- the bond part of a triangle on the whole lattice, upper triangles -/
theorem on3_upper (Λ : Finset Site) {a b c : Site} (hab : a ≠ b) (hac : a ≠ c) (hbc : b ≠ c)
    (ha : a ∈ Λ) (hb : b ∈ Λ) (hc : c ∈ Λ) (nn nnn : Op2 𝕜) (k : ℕ × ℕ) (t : Tri)
    (ht : t = .upperLeft ∨ t = .upperRight) (σ τ : Site → ℕ) :
    on3 Λ a b c (triBonds nn nnn k t) σ τ =
      1 / 2 * on2 Λ a c nnn σ τ + 1 / (k.1 : 𝕜) * on2 Λ a b nn σ τ +
        1 / (k.2 : 𝕜) * on2 Λ b c nn σ τ := by
  have e : triBonds nn nnn k t = fun iA jA iB jB iC jC =>
      (nnn iA jA iC jC * ident iB jB * (1 / 2) + nn iA jA iB jB * ident iC jC * (1 / (k.1 : 𝕜))) +
        ident iA jA * nn iB jB iC jC * (1 / (k.2 : 𝕜)) := by
    rcases ht with rfl | rfl <;> rfl
  rw [e, on3_add Λ a b c (fun iA jA iB jB iC jC =>
      (nnn iA jA iC jC * ident iB jB * (1 / 2) + nn iA jA iB jB * ident iC jC * (1 / (k.1 : 𝕜)))),
    on3_add Λ a b c (fun iA jA iB jB iC jC => nnn iA jA iC jC * ident iB jB * (1 / 2)),
    on3_13 Λ hab hbc.symm hb, on3_12 Λ hac hbc hc, on3_23 Λ hab.symm hac.symm ha]

theorem on3_lower (Λ : Finset Site) {a b c : Site} (hab : a ≠ b) (hac : a ≠ c) (hbc : b ≠ c)
    (ha : a ∈ Λ) (hb : b ∈ Λ) (hc : c ∈ Λ) (nn nnn : Op2 𝕜) (k : ℕ × ℕ) (t : Tri)
    (ht : t = .lowerLeft ∨ t = .lowerRight) (σ τ : Site → ℕ) :
    on3 Λ a b c (triBonds nn nnn k t) σ τ =
      1 / 2 * on2 Λ a c nnn σ τ + 1 / (k.1 : 𝕜) * on2 Λ b c nn σ τ +
        1 / (k.2 : 𝕜) * on2 Λ a b nn σ τ := by
  have e : triBonds nn nnn k t = fun iA jA iB jB iC jC =>
      (nnn iA jA iC jC * ident iB jB * (1 / 2) + ident iA jA * nn iB jB iC jC * (1 / (k.1 : 𝕜))) +
        nn iA jA iB jB * ident iC jC * (1 / (k.2 : 𝕜)) := by
    rcases ht with rfl | rfl <;> rfl
  rw [e, on3_add Λ a b c (fun iA jA iB jB iC jC =>
      (nnn iA jA iC jC * ident iB jB * (1 / 2) + ident iA jA * nn iB jB iC jC * (1 / (k.1 : 𝕜)))),
    on3_add Λ a b c (fun iA jA iB jB iC jC => nnn iA jA iC jC * ident iB jB * (1 / 2)),
    on3_13 Λ hab hbc.symm hb, on3_12 Λ hac hbc hc, on3_23 Λ hab.symm hac.symm ha]

theorem on3_withSites (Λ : Finset Site) {a b c : Site} (hab : a ≠ b) (hac : a ≠ c) (hbc : b ≠ c)
    (ha : a ∈ Λ) (hb : b ∈ Λ) (hc : c ∈ Λ) (bonds : Op3 𝕜) (oA oB oC : Op1 𝕜) (wA wB wC : 𝕜)
    (σ τ : Site → ℕ) :
    on3 Λ a b c (fun iA jA iB jB iC jC =>
        bonds iA jA iB jB iC jC
        + oA iA jA * ident iB jB * ident iC jC * wA
        + ident iA jA * oB iB jB * ident iC jC * wB
        + ident iA jA * ident iB jB * oC iC jC * wC) σ τ =
      on3 Λ a b c bonds σ τ + wA * on1 Λ a oA σ τ + wB * on1 Λ b oB σ τ + wC * on1 Λ c oC σ τ := by
  rw [on3_add Λ a b c (fun iA jA iB jB iC jC =>
        bonds iA jA iB jB iC jC
        + oA iA jA * ident iB jB * ident iC jC * wA
        + ident iA jA * oB iB jB * ident iC jC * wB),
    on3_add Λ a b c (fun iA jA iB jB iC jC =>
        bonds iA jA iB jB iC jC
        + oA iA jA * ident iB jB * ident iC jC * wA),
    on3_add Λ a b c bonds,
    on3_1 Λ hab hac hbc hb hc, on3_2 Λ hab hac hbc ha hc, on3_3 Λ hab hac hbc ha hb]

end QLPeps.SimpleUpdate
