import Verif.Lemmas.PepsFet

/-!
# A square of a PEPS and its ring
-/

namespace QLPeps.Peps

open QLPeps.State (BC)
open QLPeps.Tps.Spec (Bond Site leg external slots)
open QLPeps.Peps.Spec

variable {𝕜 : Type*} [RCLike 𝕜] {bc : BC} {rows cols : ℕ}

/-- values of all bonds, with four of them replaced -/
def upd4 (γ : Bond bc rows cols → ℕ) (b : Fin 4 → Bond bc rows cols) (k0 k1 k2 k3 : ℕ) :
    Bond bc rows cols → ℕ :=
  Function.update (Function.update (Function.update (Function.update γ (b 0) k0) (b 1) k1) (b 2) k2)
    (b 3) k3

/-- the cluster of four sites and four bonds, for fixed values of the other bonds -/
noncomputable def square (p : Peps 𝕜) (D : Fin 4 → ℕ) (s : Fin 4 → Site rows cols)
    (b : Fin 4 → Bond bc rows cols) (γ : Bond bc rows cols → ℕ) (x : Fin 4 → ℕ) : 𝕜 :=
  ∑ k0 ∈ Finset.range (D 0), ∑ k1 ∈ Finset.range (D 1), ∑ k2 ∈ Finset.range (D 2),
    ∑ k3 ∈ Finset.range (D 3),
      (p.gamma (s 0).1 (s 0).2).elem (coords (upd4 γ b k0 k1 k2 k3) (s 0) (x 0)) *
        ((weight p (b 0)).val k0 : 𝕜) *
      ((p.gamma (s 1).1 (s 1).2).elem (coords (upd4 γ b k0 k1 k2 k3) (s 1) (x 1)) *
        ((weight p (b 1)).val k1 : 𝕜)) *
      ((p.gamma (s 2).1 (s 2).2).elem (coords (upd4 γ b k0 k1 k2 k3) (s 2) (x 2)) *
        ((weight p (b 2)).val k2 : 𝕜)) *
      ((p.gamma (s 3).1 (s 3).2).elem (coords (upd4 γ b k0 k1 k2 k3) (s 3) (x 3)) *
        ((weight p (b 3)).val k3 : 𝕜))

/-- the values of the outer bonds -/
def outer (dim : Bond bc rows cols → ℕ) (b : Fin 4 → Bond bc rows cols) :
    Finset (Bond bc rows cols → ℕ) :=
  Fintype.piFinset (Function.update (Function.update (Function.update (Function.update
    (fun b => Finset.range (dim b)) (b 3) {0}) (b 2) {0}) (b 1) {0}) (b 0) {0})

theorem amplitude_square (p : Peps 𝕜) (dim : Bond bc rows cols → ℕ) {s : Fin 4 → Site rows cols}
    (hs : Function.Injective s) {b : Fin 4 → Bond bc rows cols} (hb : Function.Injective b)
    (hleg : ∀ i t k, leg bc t k = b i → ∃ j, t = s j) (σ : Site rows cols → ℕ) :
    amplitude p dim σ = ∑ γ ∈ outer dim b,
      rest {s 0, s 1, s 2, s 3} {b 0, b 1, b 2, b 3} p σ γ *
        square p (fun i => dim (b i)) s b γ (fun i => σ (s i)) := by
  have ne : ∀ {i j : Fin 4}, i ≠ j → b i ≠ b j := fun h e => h (hb e)
  have nes : ∀ {i j : Fin 4}, i ≠ j → s i ≠ s j := fun h e => h (hs e)
  have n01 := ne (i := 0) (j := 1) (by decide)
  have n02 := ne (i := 0) (j := 2) (by decide)
  have n03 := ne (i := 0) (j := 3) (by decide)
  have n12 := ne (i := 1) (j := 2) (by decide)
  have n13 := ne (i := 1) (j := 3) (by decide)
  have n23 := ne (i := 2) (j := 3) (by decide)
  have mem : ∀ i t k, leg bc t k = b i → t ∈ ({s 0, s 1, s 2, s 3} : Finset _) := fun i t k h => by
    obtain ⟨j, rfl⟩ := hleg i t k h
    fin_cases j <;> simp
  unfold amplitude outer
  rw [sum_split _ (b 3), sum_split _ (b 2), sum_split _ (b 1), sum_split _ (b 0)]
  refine Finset.sum_congr rfl fun γ _ => ?_
  unfold square
  simp only [Function.update_of_ne n01, Function.update_of_ne n02, Function.update_of_ne n03,
    Function.update_of_ne n12, Function.update_of_ne n13, Function.update_of_ne n23, Finset.mul_sum]
  refine Finset.sum_congr rfl fun k0 _ => Finset.sum_congr rfl fun k1 _ =>
    Finset.sum_congr rfl fun k2 _ => Finset.sum_congr rfl fun k3 _ => ?_
  rw [term_split {s 0, s 1, s 2, s 3} {b 0, b 1, b 2, b 3}, rest_update p σ _ (b := b 3) (by simp) (mem 3),
    rest_update p σ _ (b := b 2) (by simp) (mem 2), rest_update p σ _ (b := b 1) (by simp) (mem 1),
    rest_update p σ _ (b := b 0) (by simp) (mem 0),
    Finset.prod_insert (by simp [nes]), Finset.prod_insert (by simp [nes]),
    Finset.prod_pair (nes (by decide)),
    Finset.prod_insert (by simp [ne]), Finset.prod_insert (by simp [ne]),
    Finset.prod_pair n23, Function.update_self, Function.update_of_ne n23, Function.update_self,
    Function.update_of_ne n13, Function.update_of_ne n12, Function.update_self,
    Function.update_of_ne n03, Function.update_of_ne n02, Function.update_of_ne n01,
    Function.update_self]
  simp only [upd4]
  ring

/-- a local identity of a square carries over to the amplitudes -/
theorem lift4 {p p' : Peps 𝕜} {dim dim' : Bond bc rows cols → ℕ} {s : Fin 4 → Site rows cols}
    (hs : Function.Injective s) {b : Fin 4 → Bond bc rows cols} (hb : Function.Injective b)
    (hleg : ∀ i t k, leg bc t k = b i → ∃ j, t = s j)
    (hg : ∀ t, (∀ i, t ≠ s i) → p'.gamma t.1 t.2 = p.gamma t.1 t.2)
    (hw : ∀ x, (∀ i, x ≠ b i) → weight p' x = weight p x)
    (hd : ∀ x, (∀ i, x ≠ b i) → dim' x = dim x)
    {A : Fin 4 → ℕ} {G : (Fin 4 → ℕ) → (Fin 4 → ℕ) → 𝕜} {c : 𝕜} {σ : Site rows cols → ℕ}
    (hlocal : ∀ γ, (∀ x, (∀ i, x ≠ b i) → γ x < dim x) →
      c * square p' (fun i => dim' (b i)) s b γ (fun i => σ (s i)) =
        ∑ i ∈ Finset.range (A 0), ∑ j ∈ Finset.range (A 1), ∑ k ∈ Finset.range (A 2),
          ∑ l ∈ Finset.range (A 3), G ![i, j, k, l] (fun n => σ (s n)) *
            square p (fun i => dim (b i)) s b γ ![i, j, k, l]) :
    c * amplitude p' dim' σ =
      ∑ i ∈ Finset.range (A 0), ∑ j ∈ Finset.range (A 1), ∑ k ∈ Finset.range (A 2),
        ∑ l ∈ Finset.range (A 3), G ![i, j, k, l] (fun n => σ (s n)) *
          amplitude p dim (put4 σ s ![i, j, k, l]) := by
  have nes : ∀ {i j : Fin 4}, i ≠ j → s i ≠ s j := fun h e => h (hs e)
  have ne : ∀ {i j : Fin 4}, i ≠ j → b i ≠ b j := fun h e => h (hb e)
  rw [amplitude_square p' dim' hs hb hleg]
  have hset : outer dim' b = outer dim b := by
    unfold outer
    congr 1
    funext x
    by_cases h0 : x = b 0
    · subst h0; simp
    by_cases h1 : x = b 1
    · subst h1; simp [Function.update_of_ne h0]
    by_cases h2 : x = b 2
    · subst h2; simp [Function.update_of_ne h0, Function.update_of_ne h1]
    by_cases h3 : x = b 3
    · subst h3; simp [Function.update_of_ne h0, Function.update_of_ne h1, Function.update_of_ne h2]
    · simp only [Function.update_of_ne h0, Function.update_of_ne h1, Function.update_of_ne h2,
        Function.update_of_ne h3]
      rw [hd x fun i => by fin_cases i <;> assumption]
  rw [hset]
  have h2 : ∀ i j k l, amplitude p dim (put4 σ s ![i, j, k, l]) = ∑ γ ∈ outer dim b,
      rest {s 0, s 1, s 2, s 3} {b 0, b 1, b 2, b 3} p σ γ *
        square p (fun i => dim (b i)) s b γ ![i, j, k, l] := by
    intro i j k l
    rw [amplitude_square p dim hs hb hleg]
    refine Finset.sum_congr rfl fun γ _ => ?_
    have hx : (fun n => put4 σ s ![i, j, k, l] (s n)) = ![i, j, k, l] := by
      funext n
      unfold put4
      fin_cases n
      · change Function.update (β := fun _ => ℕ) _ _ _ (s 0) = i
        rw [Function.update_of_ne (nes (by decide)), Function.update_of_ne (nes (by decide)),
          Function.update_of_ne (nes (by decide)), Function.update_self]
        rfl
      · change Function.update (β := fun _ => ℕ) _ _ _ (s 1) = j
        rw [Function.update_of_ne (nes (by decide)), Function.update_of_ne (nes (by decide)),
          Function.update_self]
        rfl
      · change Function.update (β := fun _ => ℕ) _ _ _ (s 2) = k
        rw [Function.update_of_ne (nes (by decide)), Function.update_self]
        rfl
      · change Function.update (β := fun _ => ℕ) _ _ _ (s 3) = l
        rw [Function.update_self]
        rfl
    rw [hx]
    congr 1
    refine rest_conf p γ fun t ht => ?_
    simp only [Finset.mem_insert, Finset.mem_singleton, not_or] at ht
    unfold put4
    rw [Function.update_of_ne ht.2.2.2, Function.update_of_ne ht.2.2.1, Function.update_of_ne ht.2.1,
      Function.update_of_ne ht.1]
  simp only [h2, Finset.mul_sum]
  rw [Finset.sum_congr rfl fun i _ => Finset.sum_congr rfl fun j _ => Finset.sum_congr rfl fun k _ =>
      Finset.sum_comm, Finset.sum_congr rfl fun i _ => Finset.sum_congr rfl fun j _ => Finset.sum_comm,
    Finset.sum_congr rfl fun i _ => Finset.sum_comm, Finset.sum_comm]
  refine Finset.sum_congr rfl fun γ hγ => ?_
  rw [rest_peps σ γ (fun t ht => by
      simp only [Finset.mem_insert, Finset.mem_singleton, not_or] at ht
      exact hg t fun i => by fin_cases i; exacts [ht.1, ht.2.1, ht.2.2.1, ht.2.2.2]) (fun x hx => by
      simp only [Finset.mem_insert, Finset.mem_singleton, not_or] at hx
      exact hw x fun i => by fin_cases i; exacts [hx.1, hx.2.1, hx.2.2.1, hx.2.2.2]),
    mul_left_comm, hlocal γ ?_]
  · simp only [Finset.mul_sum]
    refine Finset.sum_congr rfl fun i _ => Finset.sum_congr rfl fun j _ =>
      Finset.sum_congr rfl fun k _ => Finset.sum_congr rfl fun l _ => by ring
  · intro x hx
    have := (Fintype.mem_piFinset.1 hγ) x
    rw [Function.update_of_ne (hx 0), Function.update_of_ne (hx 1), Function.update_of_ne (hx 2),
      Function.update_of_ne (hx 3)] at this
    exact Finset.mem_range.1 this

/-! ## Positions -/

section
variable {s : Fin 4 → Site rows cols} (hq : Square bc s)
include hq

theorem Spec.Square.ne {i j : Fin 4} (h : i ≠ j) : s i ≠ s j := fun e => h (hq.distinct e)

theorem Spec.Square.bond_injective : Function.Injective (squareBond bc s) := by
  have h1 : leg bc (s 0) 2 ≠ leg bc (s 3) 2 := fun h => hq.ne (i := 0) (j := 3) (by decide) (leg_inj2 h)
  have h2 : leg bc (s 1) 1 ≠ leg bc (s 0) 1 := fun h => hq.ne (i := 1) (j := 0) (by decide) (leg_inj1 h)
  intro i j h
  have hv : ∀ {t u : Site rows cols}, leg bc t 2 ≠ leg bc u 1 := leg_hv (Or.inr rfl) (Or.inl rfl)
  fin_cases i <;> fin_cases j <;> first
    | rfl
    | exact absurd h h1
    | exact absurd h.symm h1
    | exact absurd h h2
    | exact absurd h.symm h2
    | exact absurd h hv
    | exact absurd h.symm hv

/-- the ends of the bonds of a square -/
theorem Spec.Square.ends {i : Fin 4} {t : Site rows cols} {k : Fin 4} (h : leg bc t k = squareBond bc s i) :
    (i = 0 ∧ ((t = s 0 ∧ k = 2) ∨ (t = s 1 ∧ k = 0))) ∨
    (i = 1 ∧ ((t = s 1 ∧ k = 1) ∨ (t = s 2 ∧ k = 3))) ∨
    (i = 2 ∧ ((t = s 3 ∧ k = 2) ∨ (t = s 2 ∧ k = 0))) ∨
    (i = 3 ∧ ((t = s 0 ∧ k = 1) ∨ (t = s 3 ∧ k = 3))) := by
  fin_cases i
  · exact Or.inl ⟨rfl, ends_h hq.top h⟩
  · exact Or.inr (Or.inl ⟨rfl, ends_v hq.right h⟩)
  · exact Or.inr (Or.inr (Or.inl ⟨rfl, ends_h hq.bottom h⟩))
  · exact Or.inr (Or.inr (Or.inr ⟨rfl, ends_v hq.left h⟩))

theorem Spec.Square.ends_site (i : Fin 4) (t : Site rows cols) (k : Fin 4)
    (h : leg bc t k = squareBond bc s i) : ∃ j, t = s j := by
  rcases hq.ends h with ⟨_, h | h⟩ | ⟨_, h | h⟩ | ⟨_, h | h⟩ | ⟨_, h | h⟩ <;> exact ⟨_, h.1⟩

end

theorem Spec.Square.outer_ne {s : Fin 4 → Site rows cols} (hq : Square bc s) (i j : Fin 4) :
    leg bc (s i) (outLeg i).1 ≠ squareBond bc s j ∧ leg bc (s i) (outLeg i).2 ≠ squareBond bc s j := by
  have key : ∀ k, (k = (outLeg i).1 ∨ k = (outLeg i).2) → leg bc (s i) k ≠ squareBond bc s j := by
    intro k hk h
    rcases hq.ends h with ⟨_, h | h⟩ | ⟨_, h | h⟩ | ⟨_, h | h⟩ | ⟨_, h | h⟩ <;>
      · have hi := hq.distinct h.1
        have h2 := h.2
        subst hi
        revert hk
        rw [h2]
        decide
  exact ⟨key _ (Or.inl rfl), key _ (Or.inr rfl)⟩

/-- values of the outer legs -/
def outVal (γ : Bond bc rows cols → ℕ) (s : Fin 4 → Site rows cols) (i : Fin 4) : ℕ × ℕ :=
  (γ (leg bc (s i) (outLeg i).1), γ (leg bc (s i) (outLeg i).2))

theorem upd4_out (γ : Bond bc rows cols → ℕ) {b : Fin 4 → Bond bc rows cols} {x : Bond bc rows cols}
    (h : ∀ j, x ≠ b j) (k0 k1 k2 k3 : ℕ) : upd4 γ b k0 k1 k2 k3 x = γ x := by
  unfold upd4
  rw [Function.update_of_ne (h 3), Function.update_of_ne (h 2), Function.update_of_ne (h 1),
    Function.update_of_ne (h 0)]

theorem upd4_in (γ : Bond bc rows cols → ℕ) {b : Fin 4 → Bond bc rows cols} (hb : Function.Injective b)
    (k0 k1 k2 k3 : ℕ) : upd4 γ b k0 k1 k2 k3 (b 0) = k0 ∧ upd4 γ b k0 k1 k2 k3 (b 1) = k1 ∧
      upd4 γ b k0 k1 k2 k3 (b 2) = k2 ∧ upd4 γ b k0 k1 k2 k3 (b 3) = k3 := by
  have ne : ∀ {i j : Fin 4}, i ≠ j → b i ≠ b j := fun h e => h (hb e)
  unfold upd4
  refine ⟨?_, ?_, ?_, ?_⟩
  · rw [Function.update_of_ne (ne (by decide)), Function.update_of_ne (ne (by decide)),
      Function.update_of_ne (ne (by decide)), Function.update_self]
  · rw [Function.update_of_ne (ne (by decide)), Function.update_of_ne (ne (by decide)),
      Function.update_self]
  · rw [Function.update_of_ne (ne (by decide)), Function.update_self]
  · rw [Function.update_self]

/-- the loop of a square -/
noncomputable def loopOf (bc : BC) (p : Peps 𝕜) (s : Fin 4 → Site rows cols) : Loop 𝕜 :=
  ⟨fun i => p.gamma (s i).1 (s i).2, fun i => weight p (squareBond bc s i)⟩

/-- the cluster of a square is its ring -/
theorem square_ring {p : Peps 𝕜} {s : Fin 4 → Site rows cols} (hq : Square bc s) {D : Fin 4 → ℕ}
    (hD : ∀ i, (weight p (squareBond bc s i)).dim = D i) (γ : Bond bc rows cols → ℕ)
    (x : Fin 4 → ℕ) :
    square p D s (squareBond bc s) γ x = ringAt (mps (loopOf bc p s)) x (outVal (bc := bc) γ s) := by
  unfold square ringAt ring4
  simp only [mps, loopOf, hD]
  refine Finset.sum_congr rfl fun k0 _ => Finset.sum_congr rfl fun k1 _ =>
    Finset.sum_congr rfl fun k2 _ => Finset.sum_congr rfl fun k3 _ => ?_
  obtain ⟨u0, u1, u2, u3⟩ := upd4_in γ hq.bond_injective k0 k1 k2 k3
  have o := fun i => upd4_out γ (fun j => (hq.outer_ne i j).1) k0 k1 k2 k3
  have o' := fun i => upd4_out γ (fun j => (hq.outer_ne i j).2) k0 k1 k2 k3
  have c0 : coords (upd4 γ (squareBond bc s) k0 k1 k2 k3) (s 0) (x 0) =
      [(outVal (bc := bc) γ s 0).1, k3, k0, (outVal (bc := bc) γ s 0).2, x 0] := by
    have h1 := o 0
    have h2 := o' 0
    change upd4 γ (squareBond bc s) k0 k1 k2 k3 (leg bc (s 0) 0) = _ at h1
    change upd4 γ (squareBond bc s) k0 k1 k2 k3 (leg bc (s 0) 3) = _ at h2
    change upd4 γ (squareBond bc s) k0 k1 k2 k3 (leg bc (s 0) 2) = _ at u0
    change upd4 γ (squareBond bc s) k0 k1 k2 k3 (leg bc (s 0) 1) = _ at u3
    simp only [coords, h1, h2, u0, u3]
    rfl
  have c1 : coords (upd4 γ (squareBond bc s) k0 k1 k2 k3) (s 1) (x 1) =
      [k0, k1, (outVal (bc := bc) γ s 1).1, (outVal (bc := bc) γ s 1).2, x 1] := by
    have h1 := o 1
    have h2 := o' 1
    change upd4 γ (squareBond bc s) k0 k1 k2 k3 (leg bc (s 1) 2) = _ at h1
    change upd4 γ (squareBond bc s) k0 k1 k2 k3 (leg bc (s 1) 3) = _ at h2
    change upd4 γ (squareBond bc s) k0 k1 k2 k3 (leg bc (s 0) 2) = _ at u0
    change upd4 γ (squareBond bc s) k0 k1 k2 k3 (leg bc (s 1) 1) = _ at u1
    rw [hq.top] at u0
    simp only [coords, h1, h2, u0, u1]
    rfl
  have c2 : coords (upd4 γ (squareBond bc s) k0 k1 k2 k3) (s 2) (x 2) =
      [k2, (outVal (bc := bc) γ s 2).1, (outVal (bc := bc) γ s 2).2, k1, x 2] := by
    have h1 := o 2
    have h2 := o' 2
    change upd4 γ (squareBond bc s) k0 k1 k2 k3 (leg bc (s 2) 1) = _ at h1
    change upd4 γ (squareBond bc s) k0 k1 k2 k3 (leg bc (s 2) 2) = _ at h2
    change upd4 γ (squareBond bc s) k0 k1 k2 k3 (leg bc (s 3) 2) = _ at u2
    change upd4 γ (squareBond bc s) k0 k1 k2 k3 (leg bc (s 1) 1) = _ at u1
    rw [hq.bottom] at u2
    rw [hq.right] at u1
    simp only [coords, h1, h2, u2, u1]
    rfl
  have c3 : coords (upd4 γ (squareBond bc s) k0 k1 k2 k3) (s 3) (x 3) =
      [(outVal (bc := bc) γ s 3).1, (outVal (bc := bc) γ s 3).2, k2, k3, x 3] := by
    have h1 := o 3
    have h2 := o' 3
    change upd4 γ (squareBond bc s) k0 k1 k2 k3 (leg bc (s 3) 0) = _ at h1
    change upd4 γ (squareBond bc s) k0 k1 k2 k3 (leg bc (s 3) 1) = _ at h2
    change upd4 γ (squareBond bc s) k0 k1 k2 k3 (leg bc (s 3) 2) = _ at u2
    change upd4 γ (squareBond bc s) k0 k1 k2 k3 (leg bc (s 0) 1) = _ at u3
    rw [hq.left] at u3
    simp only [coords, h1, h2, u2, u3]
    rfl
  rw [c0, c1, c2, c3]
  rfl

end QLPeps.Peps
