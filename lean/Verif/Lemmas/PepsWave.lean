import Verif.Spec.Peps
import Mathlib.Tactic

/-!
# Splitting the sum over bonds

The amplitude of a PEPS as a sum over the bonds outside a cluster; local identities of the cluster
carry over to the wave function.
-/

namespace QLPeps.Peps

open QLPeps.State (BC)
open QLPeps.Tps.Spec (Bond Site leg external)
open QLPeps.Peps.Spec

theorem sum_split {ι M : Type*} [Fintype ι] [DecidableEq ι] [AddCommMonoid M] (t : ι → Finset ℕ)
    (b : ι) (F : (ι → ℕ) → M) :
    ∑ β ∈ Fintype.piFinset t, F β =
      ∑ γ ∈ Fintype.piFinset (Function.update t b {0}), ∑ l ∈ t b, F (Function.update γ b l) := by
  rw [← Finset.sum_product']
  refine Finset.sum_bij' (fun β _ => (Function.update β b 0, β b))
    (fun x _ => Function.update x.1 b x.2) ?_ ?_ ?_ ?_ ?_
  · intro β hβ
    rw [Fintype.mem_piFinset] at hβ
    rw [Finset.mem_product, Fintype.mem_piFinset]
    refine ⟨fun a => ?_, hβ b⟩
    by_cases h : a = b
    · subst h; simp
    · simp only [Function.update_of_ne h]
      exact hβ a
  · intro x hx
    rw [Finset.mem_product, Fintype.mem_piFinset] at hx
    rw [Fintype.mem_piFinset]
    intro a
    by_cases h : a = b
    · subst h; simpa using hx.2
    · have := hx.1 a
      rw [Function.update_of_ne h] at this
      rw [Function.update_of_ne h]
      exact this
  · intro β _
    simp
  · intro x hx
    rw [Finset.mem_product, Fintype.mem_piFinset] at hx
    have h0 := hx.1 b
    rw [Function.update_self, Finset.mem_singleton] at h0
    refine Prod.ext ?_ (by simp)
    simp only [Function.update_idem]
    rw [← h0, Function.update_eq_self]
  · intro β _
    simp

variable {𝕜 : Type*} [RCLike 𝕜] {bc : BC} {rows cols : ℕ}

/-- the factors outside the sites `S` and the bonds `I` -/
noncomputable def rest (S : Finset (Site rows cols)) (I : Finset (Bond bc rows cols)) (p : Peps 𝕜)
    (σ : Site rows cols → ℕ) (β : Bond bc rows cols → ℕ) : 𝕜 :=
  (∏ t ∈ Sᶜ, (p.gamma t.1 t.2).elem (coords β t (σ t))) * ∏ b ∈ Iᶜ, ((weight p b).val (β b) : 𝕜)

theorem term_split (S : Finset (Site rows cols)) (I : Finset (Bond bc rows cols)) (p : Peps 𝕜)
    (σ : Site rows cols → ℕ) (β : Bond bc rows cols → ℕ) :
    (∏ s : Site rows cols, (p.gamma s.1 s.2).elem (coords β s (σ s))) *
      ∏ b, ((weight p b).val (β b) : 𝕜) =
    rest S I p σ β * ((∏ t ∈ S, (p.gamma t.1 t.2).elem (coords β t (σ t))) *
      ∏ b ∈ I, ((weight p b).val (β b) : 𝕜)) := by
  rw [← Finset.prod_mul_prod_compl S, ← Finset.prod_mul_prod_compl I]
  unfold rest
  ring

theorem coords_update {β : Bond bc rows cols → ℕ} {b : Bond bc rows cols} {t : Site rows cols}
    (h : ∀ k, leg bc t k ≠ b) (l x : ℕ) : coords (Function.update β b l) t x = coords β t x := by
  simp only [coords, Function.update_of_ne (h _)]

theorem rest_update {S : Finset (Site rows cols)} {I : Finset (Bond bc rows cols)} (p : Peps 𝕜)
    (σ : Site rows cols → ℕ) (β : Bond bc rows cols → ℕ) {b : Bond bc rows cols} (hb : b ∈ I)
    (hleg : ∀ t k, leg bc t k = b → t ∈ S) (l : ℕ) :
    rest S I p σ (Function.update β b l) = rest S I p σ β := by
  unfold rest
  congr 1
  · refine Finset.prod_congr rfl fun t ht => ?_
    rw [coords_update fun k hk => (Finset.mem_compl.1 ht) (hleg t k hk)]
  · refine Finset.prod_congr rfl fun b' hb' => ?_
    rw [Function.update_of_ne]
    rintro rfl
    exact (Finset.mem_compl.1 hb') hb

theorem rest_conf {S : Finset (Site rows cols)} {I : Finset (Bond bc rows cols)} (p : Peps 𝕜)
    {σ τ : Site rows cols → ℕ} (β : Bond bc rows cols → ℕ) (h : ∀ t ∉ S, σ t = τ t) :
    rest S I p σ β = rest S I p τ β := by
  unfold rest
  congr 1
  exact Finset.prod_congr rfl fun t ht => by rw [h t (Finset.mem_compl.1 ht)]

theorem rest_peps {S : Finset (Site rows cols)} {I : Finset (Bond bc rows cols)} {p p' : Peps 𝕜}
    (σ : Site rows cols → ℕ) (β : Bond bc rows cols → ℕ)
    (h1 : ∀ t ∉ S, p'.gamma t.1 t.2 = p.gamma t.1 t.2)
    (h2 : ∀ b ∉ I, weight p' b = weight p b) : rest S I p' σ β = rest S I p σ β := by
  unfold rest
  congr 1
  · exact Finset.prod_congr rfl fun t ht => by rw [h1 t (Finset.mem_compl.1 ht)]
  · exact Finset.prod_congr rfl fun b hb => by rw [h2 b (Finset.mem_compl.1 hb)]

/-- the cluster of two sites and their bond, for fixed values of the other bonds -/
noncomputable def pair (p : Peps 𝕜) (D : ℕ) (s s' : Site rows cols) (b : Bond bc rows cols)
    (γ : Bond bc rows cols → ℕ) (x y : ℕ) : 𝕜 :=
  ∑ l ∈ Finset.range D, (p.gamma s.1 s.2).elem (coords (Function.update γ b l) s x) *
    ((weight p b).val l : 𝕜) * (p.gamma s'.1 s'.2).elem (coords (Function.update γ b l) s' y)

theorem amplitude_pair (p : Peps 𝕜) (dim : Bond bc rows cols → ℕ) {s s' : Site rows cols}
    (hne : s ≠ s') (b : Bond bc rows cols) (hleg : ∀ t k, leg bc t k = b → t = s ∨ t = s')
    (σ : Site rows cols → ℕ) :
    amplitude p dim σ =
      ∑ γ ∈ Fintype.piFinset (Function.update (fun b => Finset.range (dim b)) b {0}),
        rest {s, s'} {b} p σ γ * pair p (dim b) s s' b γ (σ s) (σ s') := by
  unfold amplitude
  rw [sum_split _ b]
  refine Finset.sum_congr rfl fun γ _ => ?_
  unfold pair
  rw [Finset.mul_sum]
  refine Finset.sum_congr rfl fun l _ => ?_
  rw [term_split {s, s'} {b}, rest_update p σ γ (Finset.mem_singleton_self b)
    (fun t k h => by simpa using hleg t k h), Finset.prod_pair hne, Finset.prod_singleton,
    Function.update_self]
  ring

/-- a local identity of a pair of sites carries over to the amplitudes -/
theorem lift2 {p p' : Peps 𝕜} {dim dim' : Bond bc rows cols → ℕ} {s s' : Site rows cols}
    (hne : s ≠ s') {b : Bond bc rows cols} (hleg : ∀ t k, leg bc t k = b → t = s ∨ t = s')
    (hg : ∀ t, t ≠ s → t ≠ s' → p'.gamma t.1 t.2 = p.gamma t.1 t.2)
    (hw : ∀ b', b' ≠ b → weight p' b' = weight p b') (hd : ∀ b', b' ≠ b → dim' b' = dim b')
    {A B : ℕ} {G : ℕ → ℕ → ℕ → ℕ → 𝕜} {c : 𝕜} {σ : Site rows cols → ℕ}
    (hlocal : ∀ γ, (∀ b', b' ≠ b → γ b' < dim b') →
      c * pair p' (dim' b) s s' b γ (σ s) (σ s') =
        ∑ i ∈ Finset.range A, ∑ j ∈ Finset.range B,
          G i j (σ s) (σ s') * pair p (dim b) s s' b γ i j) :
    c * amplitude p' dim' σ = ∑ i ∈ Finset.range A, ∑ j ∈ Finset.range B,
      G i j (σ s) (σ s') *
        amplitude p dim (Function.update (Function.update σ s i) s' j) := by
  rw [amplitude_pair p' dim' hne b hleg]
  have hset : (Function.update (fun b => Finset.range (dim' b)) b {0}) =
      Function.update (fun b => Finset.range (dim b)) b {0} := by
    funext b'
    by_cases h : b' = b
    · subst h; simp
    · simp only [Function.update_of_ne h, hd b' h]
  rw [hset]
  have h2 : ∀ i j, amplitude p dim (Function.update (Function.update σ s i) s' j) =
      ∑ γ ∈ Fintype.piFinset (Function.update (fun b => Finset.range (dim b)) b {0}),
        rest {s, s'} {b} p σ γ * pair p (dim b) s s' b γ i j := by
    intro i j
    rw [amplitude_pair p dim hne b hleg]
    refine Finset.sum_congr rfl fun γ _ => ?_
    rw [Function.update_self, Function.update_of_ne hne, Function.update_self]
    congr 1
    refine rest_conf p γ fun t ht => ?_
    simp only [Finset.mem_insert, Finset.mem_singleton, not_or] at ht
    rw [Function.update_of_ne ht.2, Function.update_of_ne ht.1]
  simp only [h2, Finset.mul_sum]
  rw [Finset.sum_congr rfl fun i _ => Finset.sum_comm, Finset.sum_comm]
  refine Finset.sum_congr rfl fun γ hγ => ?_
  rw [rest_peps σ γ (fun t ht => by
      simp only [Finset.mem_insert, Finset.mem_singleton, not_or] at ht
      exact hg t ht.1 ht.2) (fun b' hb' => hw b' (by simpa using hb')), mul_left_comm, hlocal γ ?_]
  · simp only [Finset.mul_sum]
    refine Finset.sum_congr rfl fun i _ => Finset.sum_congr rfl fun j _ => by ring
  · intro b' hb'
    have := (Fintype.mem_piFinset.1 hγ) b'
    rw [Function.update_of_ne hb'] at this
    exact Finset.mem_range.1 this

/-- the cluster of three sites and their two bonds, for fixed values of the other bonds -/
noncomputable def triple (p : Peps 𝕜) (D D' : ℕ) (s m s' : Site rows cols) (b b' : Bond bc rows cols)
    (γ : Bond bc rows cols → ℕ) (x y z : ℕ) : 𝕜 :=
  ∑ l ∈ Finset.range D, ∑ l' ∈ Finset.range D',
    (p.gamma s.1 s.2).elem (coords (Function.update (Function.update γ b l) b' l') s x) *
    ((weight p b).val l : 𝕜) *
    (p.gamma m.1 m.2).elem (coords (Function.update (Function.update γ b l) b' l') m y) *
    ((weight p b').val l' : 𝕜) *
    (p.gamma s'.1 s'.2).elem (coords (Function.update (Function.update γ b l) b' l') s' z)

theorem amplitude_triple (p : Peps 𝕜) (dim : Bond bc rows cols → ℕ) {s m s' : Site rows cols}
    (h1 : s ≠ m) (h2 : s ≠ s') (h3 : m ≠ s') {b b' : Bond bc rows cols} (hb : b ≠ b')
    (hleg : ∀ t k, leg bc t k = b → t = s ∨ t = m) (hleg' : ∀ t k, leg bc t k = b' → t = m ∨ t = s')
    (σ : Site rows cols → ℕ) :
    amplitude p dim σ =
      ∑ γ ∈ Fintype.piFinset (Function.update
          (Function.update (fun b => Finset.range (dim b)) b' {0}) b {0}),
        rest {s, m, s'} {b, b'} p σ γ *
          triple p (dim b) (dim b') s m s' b b' γ (σ s) (σ m) (σ s') := by
  unfold amplitude
  rw [sum_split _ b', sum_split _ b]
  refine Finset.sum_congr rfl fun γ _ => ?_
  unfold triple
  rw [Function.update_of_ne hb, Finset.mul_sum]
  refine Finset.sum_congr rfl fun l _ => ?_
  rw [Finset.mul_sum]
  refine Finset.sum_congr rfl fun l' _ => ?_
  rw [term_split {s, m, s'} {b, b'}, rest_update p σ _ (b := b') (by simp)
    (fun t k h => by rcases hleg' t k h with h | h <;> simp [h]),
    rest_update p σ _ (b := b) (by simp)
    (fun t k h => by rcases hleg t k h with h | h <;> simp [h]),
    Finset.prod_insert (by simp [h1, h2]), Finset.prod_pair h3, Finset.prod_pair hb,
    Function.update_self, Function.update_of_ne hb, Function.update_self]
  ring

/-- a local identity of three sites carries over to the amplitudes -/
theorem lift3 {p p' : Peps 𝕜} {dim dim' : Bond bc rows cols → ℕ} {s m s' : Site rows cols}
    (h1 : s ≠ m) (h2 : s ≠ s') (h3 : m ≠ s') {b b' : Bond bc rows cols} (hb : b ≠ b')
    (hleg : ∀ t k, leg bc t k = b → t = s ∨ t = m) (hleg' : ∀ t k, leg bc t k = b' → t = m ∨ t = s')
    (hg : ∀ t, t ≠ s → t ≠ m → t ≠ s' → p'.gamma t.1 t.2 = p.gamma t.1 t.2)
    (hw : ∀ x, x ≠ b → x ≠ b' → weight p' x = weight p x)
    (hd : ∀ x, x ≠ b → x ≠ b' → dim' x = dim x)
    {A B C : ℕ} {G : ℕ → ℕ → ℕ → ℕ → ℕ → ℕ → 𝕜} {c : 𝕜} {σ : Site rows cols → ℕ}
    (hlocal : ∀ γ, (∀ x, x ≠ b → x ≠ b' → γ x < dim x) →
      c * triple p' (dim' b) (dim' b') s m s' b b' γ (σ s) (σ m) (σ s') =
        ∑ i ∈ Finset.range A, ∑ j ∈ Finset.range B, ∑ k ∈ Finset.range C,
          G i j k (σ s) (σ m) (σ s') * triple p (dim b) (dim b') s m s' b b' γ i j k) :
    c * amplitude p' dim' σ =
      ∑ i ∈ Finset.range A, ∑ j ∈ Finset.range B, ∑ k ∈ Finset.range C,
        G i j k (σ s) (σ m) (σ s') * amplitude p dim
          (Function.update (Function.update (Function.update σ s i) m j) s' k) := by
  rw [amplitude_triple p' dim' h1 h2 h3 hb hleg hleg']
  have hset : (Function.update (Function.update (fun b => Finset.range (dim' b)) b' {0}) b {0}) =
      Function.update (Function.update (fun b => Finset.range (dim b)) b' {0}) b {0} := by
    funext x
    by_cases h : x = b
    · subst h; simp
    · by_cases h' : x = b'
      · subst h'; simp [Function.update_of_ne h]
      · simp only [Function.update_of_ne h, Function.update_of_ne h', hd x h h']
  rw [hset]
  have h2 : ∀ i j k, amplitude p dim
      (Function.update (Function.update (Function.update σ s i) m j) s' k) =
      ∑ γ ∈ Fintype.piFinset (Function.update
          (Function.update (fun b => Finset.range (dim b)) b' {0}) b {0}),
        rest {s, m, s'} {b, b'} p σ γ *
          triple p (dim b) (dim b') s m s' b b' γ i j k := by
    intro i j k
    rw [amplitude_triple p dim h1 h2 h3 hb hleg hleg']
    refine Finset.sum_congr rfl fun γ _ => ?_
    rw [Function.update_self, Function.update_of_ne h2, Function.update_of_ne h1,
      Function.update_self, Function.update_of_ne h3, Function.update_self]
    congr 1
    refine rest_conf p γ fun t ht => ?_
    simp only [Finset.mem_insert, Finset.mem_singleton, not_or] at ht
    rw [Function.update_of_ne ht.2.2, Function.update_of_ne ht.2.1, Function.update_of_ne ht.1]
  simp only [h2, Finset.mul_sum]
  rw [Finset.sum_congr rfl fun i _ => Finset.sum_congr rfl fun j _ => Finset.sum_comm,
    Finset.sum_congr rfl fun i _ => Finset.sum_comm, Finset.sum_comm]
  refine Finset.sum_congr rfl fun γ hγ => ?_
  rw [rest_peps σ γ (fun t ht => by
      simp only [Finset.mem_insert, Finset.mem_singleton, not_or] at ht
      exact hg t ht.1 ht.2.1 ht.2.2) (fun x hx => by
      simp only [Finset.mem_insert, Finset.mem_singleton, not_or] at hx
      exact hw x hx.1 hx.2), mul_left_comm, hlocal γ ?_]
  · simp only [Finset.mul_sum]
    refine Finset.sum_congr rfl fun i _ => Finset.sum_congr rfl fun j _ =>
      Finset.sum_congr rfl fun k _ => by ring
  · intro x hx hx'
    have := (Fintype.mem_piFinset.1 hγ) x
    rw [Function.update_of_ne hx, Function.update_of_ne hx'] at this
    exact Finset.mem_range.1 this

/-! ## Legs -/

theorem leg_inj0 {t s : Site rows cols} (h : leg bc t 0 = leg bc s 0) : t = s := by
  simp only [leg, Sum.inl.injEq, Prod.mk.injEq, Fin.mk.injEq] at h
  exact Prod.ext h.1 (Fin.ext h.2)

theorem leg_inj3 {t s : Site rows cols} (h : leg bc t 3 = leg bc s 3) : t = s := by
  simp only [leg, Sum.inr.injEq, Prod.mk.injEq, Fin.mk.injEq] at h
  exact Prod.ext (Fin.ext h.1) h.2

theorem mod_inj {n a b : ℕ} (ha : a < n) (hb : b < n)
    (h : (a + 1) % QLPeps.Tps.Spec.slots bc n = (b + 1) % QLPeps.Tps.Spec.slots bc n) : a = b := by
  unfold QLPeps.Tps.Spec.slots at h
  split at h
  · rw [Nat.mod_eq_of_lt (by omega), Nat.mod_eq_of_lt (by omega)] at h
    omega
  · rcases Nat.lt_or_ge (a + 1) n with h1 | h1 <;> rcases Nat.lt_or_ge (b + 1) n with h2 | h2
    · rw [Nat.mod_eq_of_lt h1, Nat.mod_eq_of_lt h2] at h; omega
    · have : b + 1 = n := by omega
      rw [this, Nat.mod_self, Nat.mod_eq_of_lt h1] at h; omega
    · have : a + 1 = n := by omega
      rw [this, Nat.mod_self, Nat.mod_eq_of_lt h2] at h; omega
    · omega

theorem leg_inj2 {t s : Site rows cols} (h : leg bc t 2 = leg bc s 2) : t = s := by
  simp only [leg, Sum.inl.injEq, Prod.mk.injEq, Fin.mk.injEq] at h
  exact Prod.ext h.1 (Fin.ext (mod_inj t.2.2 s.2.2 h.2))

theorem leg_inj1 {t s : Site rows cols} (h : leg bc t 1 = leg bc s 1) : t = s := by
  simp only [leg, Sum.inr.injEq, Prod.mk.injEq, Fin.mk.injEq] at h
  exact Prod.ext (Fin.ext (mod_inj t.1.2 s.1.2 h.1)) h.2

theorem leg_hv {t s : Site rows cols} {k k' : Fin 4} (hk : k = 0 ∨ k = 2) (hk' : k' = 1 ∨ k' = 3) :
    leg bc t k ≠ leg bc s k' := by
  rcases hk with rfl | rfl <;> rcases hk' with rfl | rfl <;> exact Sum.inl_ne_inr

/-- the two ends of a horizontal bond -/
theorem ends_h {s s' : Site rows cols} (hb : leg bc s 2 = leg bc s' 0) {t : Site rows cols}
    {k : Fin 4} (h : leg bc t k = leg bc s 2) : (t = s ∧ k = 2) ∨ (t = s' ∧ k = 0) := by
  match k with
  | 0 => exact Or.inr ⟨leg_inj0 (h.trans hb), rfl⟩
  | 1 => exact absurd h.symm (leg_hv (Or.inr rfl) (Or.inl rfl))
  | 2 => exact Or.inl ⟨leg_inj2 h, rfl⟩
  | 3 => exact absurd h.symm (leg_hv (Or.inr rfl) (Or.inr rfl))

/-- the two ends of a vertical bond -/
theorem ends_v {s s' : Site rows cols} (hb : leg bc s 1 = leg bc s' 3) {t : Site rows cols}
    {k : Fin 4} (h : leg bc t k = leg bc s 1) : (t = s ∧ k = 1) ∨ (t = s' ∧ k = 3) := by
  match k with
  | 0 => exact absurd h (leg_hv (Or.inl rfl) (Or.inl rfl))
  | 1 => exact Or.inl ⟨leg_inj1 h, rfl⟩
  | 2 => exact absurd h (leg_hv (Or.inr rfl) (Or.inl rfl))
  | 3 => exact Or.inr ⟨leg_inj3 (h.trans hb), rfl⟩

end QLPeps.Peps
