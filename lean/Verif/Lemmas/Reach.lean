import Verif.Spec.Reach
import Verif.Lemmas.ChainUpd
import Mathlib.GroupTheory.Perm.ClosureSwap
import Mathlib.GroupTheory.Perm.Sign

/-!
# Exchanges generate all permutations of the lattice
-/

open Equiv

namespace QLPeps.Reach

open Spec QLPeps.Updaters QLPeps.Chain.Spec QLPeps.Chain

/-- the sites of the lattice as a type -/
abbrev Pt (rows cols : ℕ) := {p : Site // p ∈ QLPeps.Spec.sites rows cols}

theorem mem_sites {rows cols : ℕ} {p : Site} :
    p ∈ QLPeps.Spec.sites rows cols ↔ QLPeps.Spec.InLattice rows cols p := by
  simp [QLPeps.Spec.sites, QLPeps.Spec.InLattice, Finset.mem_product]

/-- the exchanges of the bonds of the lattice -/
def bondSwaps (rows cols : ℕ) : Set (Perm (Pt rows cols)) :=
  {σ | ∃ x y : Pt rows cols, Neighbours rows cols x.1 y.1 ∧ σ = swap x y}

theorem swap_origin_mem (rows cols : ℕ) (o : Pt rows cols) (ho : o.1 = (0, 0)) :
    ∀ (k : ℕ) (x : Pt rows cols), x.1.1 + x.1.2 = k →
      swap o x ∈ Subgroup.closure (bondSwaps rows cols) := by
  intro k
  induction k with
  | zero =>
    intro x hx
    have : x = o := Subtype.ext (by rw [ho]; exact Prod.ext (by omega) (by omega))
    rw [this, swap_self]
    exact one_mem _
  | succ k ih =>
    rintro ⟨⟨r, c⟩, hx⟩ hk
    have hin := mem_sites.1 hx
    simp only [QLPeps.Spec.InLattice] at hin hk
    rcases Nat.eq_zero_or_pos c with hc | hc
    · have hy : ((r - 1, c) : Site) ∈ QLPeps.Spec.sites rows cols :=
        mem_sites.2 ⟨by simp only; omega, hin.2⟩
      refine SubmonoidClass.swap_mem_trans (b := ⟨(r - 1, c), hy⟩) _ (ih _ (by simp only; omega))
        (Subgroup.subset_closure ⟨⟨(r - 1, c), hy⟩, ⟨(r, c), hx⟩, ⟨mem_sites.1 hy, mem_sites.1 hx, Or.inr ⟨rfl, ?_⟩⟩, rfl⟩)
      simp only; omega
    · have hy : ((r, c - 1) : Site) ∈ QLPeps.Spec.sites rows cols :=
        mem_sites.2 ⟨hin.1, by simp only; omega⟩
      refine SubmonoidClass.swap_mem_trans (b := ⟨(r, c - 1), hy⟩) _ (ih _ (by simp only; omega))
        (Subgroup.subset_closure ⟨⟨(r, c - 1), hy⟩, ⟨(r, c), hx⟩, ⟨mem_sites.1 hy, mem_sites.1 hx, Or.inl ⟨rfl, ?_⟩⟩, rfl⟩)
      simp only; omega

theorem closure_bondSwaps (rows cols : ℕ) : Subgroup.closure (bondSwaps rows cols) = ⊤ := by
  rw [eq_top_iff, ← Equiv.Perm.closure_isSwap, Subgroup.closure_le]
  rintro _ ⟨x, y, -, rfl⟩
  have hin := mem_sites.1 x.2
  have ho : ((0, 0) : Site) ∈ QLPeps.Spec.sites rows cols := by
    refine mem_sites.2 ⟨?_, ?_⟩ <;> simp only [QLPeps.Spec.InLattice] at * <;> omega
  refine SubmonoidClass.swap_mem_trans (b := ⟨(0, 0), ho⟩) _ ?_ (swap_origin_mem rows cols _ rfl _ y rfl)
  rw [swap_comm]
  exact swap_origin_mem rows cols _ rfl _ x rfl

/-- a configuration with the sites permuted -/
def permute {rows cols : ℕ} (σ : Perm (Pt rows cols)) (c : Config) : Config :=
  fun p => c (Perm.ofSubtype σ p)

theorem permute_mul {rows cols : ℕ} (σ τ : Perm (Pt rows cols)) (c : Config) :
    permute (σ * τ) c = permute τ (permute σ c) := by
  funext p; simp [permute, map_mul]

theorem permute_one {rows cols : ℕ} (c : Config) : permute (1 : Perm (Pt rows cols)) c = c := by
  funext p; simp [permute]

theorem permute_swap {rows cols : ℕ} (x y : Pt rows cols) (c : Config) :
    permute (swap x y) c = fun p => c (swap x.1 y.1 p) := by
  funext p; rw [permute, Perm.ofSubtype_swap_eq]

theorem same_permute {rows cols : ℕ} (σ : Perm (Pt rows cols)) (c : Config) :
    SameComposition rows cols c (permute σ c) := by
  refine ⟨fun p hp => ?_, fun s => ?_⟩
  · rw [permute, Perm.ofSubtype_apply_of_not_mem]
    rwa [mem_sites]
  · have hmem : ∀ (τ : Perm (Pt rows cols)) p, Perm.ofSubtype τ p ∈ QLPeps.Spec.sites rows cols ↔
        p ∈ QLPeps.Spec.sites rows cols := fun τ p => Perm.ofSubtype_apply_mem_iff_mem τ p
    unfold QLPeps.Spec.occupancy
    refine (Finset.card_bij (fun p _ => Perm.ofSubtype σ p) ?_ ?_ ?_).symm
    · intro p hp
      rw [Finset.mem_filter] at hp ⊢
      exact ⟨(hmem σ p).2 hp.1, hp.2⟩
    · intro p _ q _ h
      exact (Perm.ofSubtype σ).injective h
    · intro q hq
      rw [Finset.mem_filter] at hq
      refine ⟨(Perm.ofSubtype σ)⁻¹ q, ?_, by simp⟩
      rw [Finset.mem_filter, permute]
      refine ⟨?_, by simpa using hq.2⟩
      rw [← hmem σ]
      simpa using hq.1

theorem SameComposition.trans {rows cols : ℕ} {c c' c'' : Config}
    (h : SameComposition rows cols c c') (h' : SameComposition rows cols c' c'') :
    SameComposition rows cols c c'' :=
  ⟨fun p hp => (h.1 p hp).trans (h'.1 p hp), fun s => (h.2 s).trans (h'.2 s)⟩

theorem exists_permute {rows cols : ℕ} {c c' : Config} (h : SameComposition rows cols c c') :
    ∃ σ : Perm (Pt rows cols), c' = permute σ c := by
  have hcard : ∀ (f : Config) s, Fintype.card {x : Pt rows cols // f x.1 = s} =
      QLPeps.Spec.occupancy rows cols f s := by
    intro f s
    rw [Fintype.card_subtype, QLPeps.Spec.occupancy]
    refine Finset.card_bij (fun x _ => x.1) ?_ ?_ ?_
    · intro x hx
      rw [Finset.mem_filter] at hx ⊢
      exact ⟨x.2, hx.2⟩
    · intro x _ y _ hxy
      exact Subtype.ext hxy
    · intro q hq
      rw [Finset.mem_filter] at hq
      exact ⟨⟨q, hq.1⟩, by simp [hq.2], rfl⟩
  have he : ∀ s, Nonempty ({x : Pt rows cols // c' x.1 = s} ≃ {x : Pt rows cols // c x.1 = s}) :=
    fun s => Fintype.card_eq.1 (by rw [hcard, hcard, h.2])
  let e : Perm (Pt rows cols) :=
    Equiv.ofFiberEquiv (f := fun x : Pt rows cols => c' x.1) (g := fun x : Pt rows cols => c x.1)
      fun s => (he s).some
  refine ⟨e, ?_⟩
  funext p
  by_cases hp : p ∈ QLPeps.Spec.sites rows cols
  · rw [permute, Perm.ofSubtype_apply_of_mem e hp]
    exact (Equiv.ofFiberEquiv_map (f := fun x : Pt rows cols => c' x.1)
      (g := fun x : Pt rows cols => c x.1) (fun s => (he s).some) ⟨p, hp⟩).symm
  · rw [permute, Perm.ofSubtype_apply_of_not_mem e hp]
    exact (h.1 p (fun h' => hp (mem_sites.2 h'))).symm

variable {A : Type*}

/-- every exchange has positive probability between configurations of nonzero amplitude -/
theorem moves_swap (ψ : Config → A) (ab : A → ℝ) (rows cols : ℕ) (a b : Site)
    (h : Neighbours rows cols a b) (c : Config) (h1 : 0 < ab (ψ c))
    (h2 : 0 < ab (ψ fun p => c (swap a b p))) :
    Moves ψ ab rows cols c fun p => c (swap a b p) := by
  by_cases hab : c a = c b
  · refine ⟨a, b, .horizontal, h, 1, one_pos, fun ξ draws _ => ?_⟩
    unfold nnExchange
    rw [if_pos hab]
    funext p
    by_cases h3 : p = a
    · subst h3; simp [hab]
    · by_cases h4 : p = b
      · subst h4; simp [hab]
      · rw [swap_apply_of_ne_of_ne h3 h4]
  · refine ⟨a, b, .horizontal, h, (ab (ψ fun p => c (swap a b p)) / ab (ψ c)) *
      (ab (ψ fun p => c (swap a b p)) / ab (ψ c)), by positivity, fun ξ draws hξ => ?_⟩
    have hs := setSite_swap c a b
    have hacc : metropolisAccept (ab (ψ (setSite (setSite c a (c b)) b (c a)))) (ab (ψ c)) (ξ draws) = true := by
      unfold metropolisAccept
      rw [hs]
      split_ifs
      · rfl
      · exact decide_eq_true hξ
    unfold nnExchange
    rw [if_neg hab]
    dsimp only [exactContractor]
    rw [hacc, if_pos rfl]
    dsimp only
    have := updateLocal_exact ψ (ψ (setSite (setSite c a (c b)) b (c a))) [(a, c b), (b, c a)]
      ⟨c, ψ c, (), draws + metropolisDraws (ab (ψ (setSite (setSite c a (c b)) b (c a)))) (ab (ψ c))⟩
    dsimp only [exactContractor] at this
    rw [this]
    exact hs

theorem reach_permute (ψ : Config → A) (ab : A → ℝ) (rows cols : ℕ) (c₀ : Config)
    (hψ : ∀ c, SameComposition rows cols c₀ c → 0 < ab (ψ c)) (σ : Perm (Pt rows cols)) :
    ∀ c, SameComposition rows cols c₀ c →
      Relation.ReflTransGen (Moves ψ ab rows cols) c (permute σ c) ∧
      Relation.ReflTransGen (Moves ψ ab rows cols) (permute σ c) c := by
  have hσ : σ ∈ Subgroup.closure (bondSwaps rows cols) := by rw [closure_bondSwaps]; trivial
  induction hσ using Subgroup.closure_induction with
  | mem τ hτ =>
    obtain ⟨x, y, hxy, rfl⟩ := hτ
    intro c hc
    have hp := hψ _ (SameComposition.trans hc (same_permute (swap x y) c))
    have h1 := hψ _ hc
    have hback : permute (swap x y) (permute (swap x y) c) = c := by
      rw [← permute_mul, swap_mul_self, permute_one]
    have m1 := moves_swap ψ ab rows cols x.1 y.1 hxy c h1 (by rw [← permute_swap]; exact hp)
    have m2 := moves_swap ψ ab rows cols x.1 y.1 hxy (permute (swap x y) c) hp
      (by rw [← permute_swap, hback]; exact h1)
    rw [← permute_swap] at m1 m2
    rw [hback] at m2
    exact ⟨.single m1, .single m2⟩
  | one =>
    intro c _
    rw [permute_one]
    exact ⟨.refl, .refl⟩
  | mul τ υ _ _ h1 h2 =>
    intro c hc
    rw [permute_mul]
    have a := h1 c hc
    have b := h2 _ (SameComposition.trans hc (same_permute τ c))
    exact ⟨a.1.trans b.1, b.2.trans a.2⟩
  | inv τ _ h =>
    intro c hc
    have a := h _ (SameComposition.trans hc (same_permute τ⁻¹ c))
    rw [← permute_mul, inv_mul_cancel, permute_one] at a
    exact ⟨a.2, a.1⟩

/-! ## Flat states -/

/-- an update that only permutes the sites -/
def Permutes (v : Upd Config) : Prop := ∃ π : Perm Site, ∀ c u, v.move c u = some fun p => c (π p)

theorem run_permutes (L : List (Upd Config)) (h : ∀ v ∈ L, Permutes v) :
    ∃ π : Perm Site, ∀ ξ c n, ∃ n', run L ξ c n = some (fun p => c (π p), n') := by
  induction L with
  | nil => exact ⟨1, fun ξ c n => ⟨n, rfl⟩⟩
  | cons v L ih =>
    obtain ⟨π, hπ⟩ := h v List.mem_cons_self
    obtain ⟨τ, hτ⟩ := ih fun w hw => h w (List.mem_cons_of_mem v hw)
    refine ⟨π * τ, fun ξ c n => ?_⟩
    obtain ⟨n', hn⟩ := hτ ξ (fun p => c (π p)) (n + v.draws c)
    refine ⟨n', ?_⟩
    simp only [run, hπ, Option.bind_some, hn]
    rfl

theorem flat_move (ψ : Config → A) (ab : A → ℝ) (hflat : ∀ c c', ab (ψ c) = ab (ψ c')) (a b : Site)
    (d : Orient) (c : Config) (u : ℝ) :
    (updOf ψ (exchangeStep ψ ab a b d) (exchangeK ψ ab a b)).move c u = some fun p => c (swap a b p) := by
  simp only [updOf, exchangeStep, Option.map_some, Option.some.injEq]
  unfold nnExchange
  by_cases hab : c a = c b
  · rw [if_pos hab]
    funext p
    by_cases h3 : p = a
    · subst h3; simp [hab]
    · by_cases h4 : p = b
      · subst h4; simp [hab]
      · rw [swap_apply_of_ne_of_ne h3 h4]
  · rw [if_neg hab]
    have hacc : ∀ x y, metropolisAccept (ab (ψ x)) (ab (ψ y)) u = true := by
      intro x y
      unfold metropolisAccept
      rw [if_pos (hflat y x).le]
    dsimp only [exactContractor]
    rw [hacc, if_pos rfl]
    have := updateLocal_exact ψ (ψ (setSite (setSite c a (c b)) b (c a))) [(a, c b), (b, c a)]
      ⟨c, ψ c, (), 0 + metropolisDraws (ab (ψ (setSite (setSite c a (c b)) b (c a)))) (ab (ψ c))⟩
    dsimp only [exactContractor] at this
    rw [this]
    exact setSite_swap c a b

theorem flat_permutes (ψ : Config → A) (ab : A → ℝ) (hflat : ∀ c c', ab (ψ c) = ab (ψ c')) (a b : Site)
    (d : Orient) : Permutes (updOf ψ (exchangeStep ψ ab a b d) (exchangeK ψ ab a b)) :=
  ⟨swap a b, fun c u => flat_move ψ ab hflat a b d c u⟩

theorem flat_draws (ψ : Config → A) (ab : A → ℝ) (hflat : ∀ c c', ab (ψ c) = ab (ψ c')) (a b : Site)
    (c : Config) : exchangeK ψ ab a b c = 0 := by
  unfold exchangeK metropolisDraws
  split_ifs with h1 h2
  · rfl
  · rfl
  · exact absurd (hflat _ _).le h2

end QLPeps.Reach
