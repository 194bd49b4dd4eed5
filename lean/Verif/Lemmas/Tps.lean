import Verif.Spec.Tps
import Mathlib.Tactic

/-! # Lemmas on superpositions of tensor product states -/

namespace QLPeps.Tps

open Spec
open QLPeps.State (BC)

section Geometry

variable {bc : BC} {rows cols : ℕ}

/-- every bond is a leg of a site -/
theorem exists_leg (hr : 0 < rows) (hc : 0 < cols) (b : Bond bc rows cols) :
    ∃ (s : Site rows cols) (k : Fin 4), leg bc s k = b := by
  rcases b with ⟨r, c⟩ | ⟨r, c⟩
  · by_cases h : (c : ℕ) < cols
    · exact ⟨(r, ⟨c, h⟩), 0, rfl⟩
    · refine ⟨(r, ⟨cols - 1, by omega⟩), 2, ?_⟩
      simp only [leg]
      congr 2
      apply Fin.ext
      have h1 := c.2
      have h2 : slots bc cols ≤ cols + 1 := by unfold slots; split <;> omega
      have h3 : slots bc cols = cols + 1 := by omega
      simp only [h3]
      rw [show cols - 1 + 1 = (c : ℕ) by omega]
      exact Nat.mod_eq_of_lt (by omega)
  · by_cases h : (r : ℕ) < rows
    · exact ⟨(⟨r, h⟩, c), 3, rfl⟩
    · refine ⟨(⟨rows - 1, by omega⟩, c), 1, ?_⟩
      simp only [leg]
      congr 2
      apply Fin.ext
      have h1 := r.2
      have h2 : slots bc rows ≤ rows + 1 := by unfold slots; split <;> omega
      have h3 : slots bc rows = rows + 1 := by omega
      simp only [h3]
      rw [show rows - 1 + 1 = (r : ℕ) by omega]
      exact Nat.mod_eq_of_lt (by omega)

theorem mem_expandIndices (s : Site rows cols) (k : Fin 4) :
    k.castSucc ∈ expandIndices s.1 s.2 rows cols bc ↔ ¬ external bc (leg bc s k) := by
  obtain ⟨⟨r, hr⟩, ⟨c, hc⟩⟩ := s
  cases bc with
  | pbc =>
    have : ¬ external BC.pbc (leg BC.pbc ((⟨r, hr⟩, ⟨c, hc⟩) : Site rows cols) k) := by
      cases h : leg BC.pbc ((⟨r, hr⟩, ⟨c, hc⟩) : Site rows cols) k <;> simp [external]
    simp only [this, not_false_iff, iff_true, expandIndices, if_true]
    fin_cases k <;> simp
  | obc =>
    have e1 : (r + 1) % (rows + 1) = r + 1 := Nat.mod_eq_of_lt (by omega)
    have e2 : (c + 1) % (cols + 1) = c + 1 := Nat.mod_eq_of_lt (by omega)
    have hne : (BC.obc = BC.pbc) = False := by simp
    fin_cases k
    · simp only [expandIndices, external, leg, hne, if_false, true_and]
      have : ¬ c = cols := by omega
      simp only [this, or_false]
      split <;> split <;> split <;> split <;> simp <;> omega
    · simp only [expandIndices, external, leg, hne, if_false, true_and, slots, if_true, e1]
      split <;> split <;> split <;> split <;> simp <;> omega
    · simp only [expandIndices, external, leg, hne, if_false, true_and, slots, if_true, e2]
      split <;> split <;> split <;> split <;> simp <;> omega
    · simp only [expandIndices, external, leg, hne, if_false, true_and]
      have : ¬ r = rows := by omega
      simp only [this, or_false]
      split <;> split <;> split <;> split <;> simp <;> omega

theorem four_not_mem (row col rows cols : ℕ) (bc : BC) :
    (4 : Fin 5) ∉ expandIndices row col rows cols bc := by
  unfold expandIndices
  split
  · simp
  · split <;> split <;> split <;> split <;> simp

/-- a property that passes between neighbouring sites and holds somewhere at (0, 0) holds
everywhere -/
theorem spread (P : Site rows cols → Prop) (hr : 0 < rows) (hc : 0 < cols)
    (h0 : P (⟨0, hr⟩, ⟨0, hc⟩))
    (hE : ∀ (r : Fin rows) (c : ℕ) (h : c + 1 < cols), P (r, ⟨c, by omega⟩) → P (r, ⟨c + 1, h⟩))
    (hS : ∀ (r : ℕ) (h : r + 1 < rows) (c : Fin cols), P (⟨r, by omega⟩, c) → P (⟨r + 1, h⟩, c)) :
    ∀ s, P s := by
  have hcol : ∀ (r : ℕ) (h : r < rows), P (⟨r, h⟩, ⟨0, hc⟩) := by
    intro r
    induction r with
    | zero => intro _; exact h0
    | succ r ih => intro h; exact hS r h _ (ih (by omega))
  rintro ⟨r, ⟨c, h⟩⟩
  induction c with
  | zero => exact hcol r r.2
  | succ c ih => exact hE r c h (ih (by omega))

theorem east_west (r : Fin rows) (c : ℕ) (h : c + 1 < cols) :
    leg bc ((r, ⟨c, by omega⟩) : Site rows cols) 2 = leg bc ((r, ⟨c + 1, h⟩) : Site rows cols) 0 := by
  simp only [leg]
  congr 2
  apply Fin.ext
  exact Nat.mod_eq_of_lt (h.trans_le (le_slots bc cols))

theorem south_north (r : ℕ) (h : r + 1 < rows) (c : Fin cols) :
    leg bc ((⟨r, by omega⟩, c) : Site rows cols) 1 = leg bc ((⟨r + 1, h⟩, c) : Site rows cols) 3 := by
  simp only [leg]
  congr 2
  apply Fin.ext
  exact Nat.mod_eq_of_lt (h.trans_le (le_slots bc rows))

theorem west_internal (r : Fin rows) (c : ℕ) (h : c + 1 < cols) :
    ¬ external bc (leg bc ((r, ⟨c + 1, h⟩) : Site rows cols) 0) := by
  simp only [leg, external]
  rintro ⟨_, h' | h'⟩ <;> omega

theorem north_internal (r : ℕ) (h : r + 1 < rows) (c : Fin cols) :
    ¬ external bc (leg bc ((⟨r + 1, h⟩, c) : Site rows cols) 3) := by
  simp only [leg, external]
  rintro ⟨_, h' | h'⟩ <;> omega

/-- bonds of two exclusive kinds, each site seeing only one kind: all bonds are of one kind -/
theorem one_kind (hr : 0 < rows) (hc : 0 < cols) (A B : Bond bc rows cols → Prop)
    (hex : ∀ b, A b → B b → False)
    (h : ∀ s : Site rows cols, (∀ k, ¬ external bc (leg bc s k) → A (leg bc s k)) ∨
      (∀ k, ¬ external bc (leg bc s k) → B (leg bc s k))) :
    (∀ b, ¬ external bc b → A b) ∨ (∀ b, ¬ external bc b → B b) := by
  have key : ∀ (A B : Bond bc rows cols → Prop), (∀ b, A b → B b → False) →
      (∀ s : Site rows cols, (∀ k, ¬ external bc (leg bc s k) → A (leg bc s k)) ∨
        (∀ k, ¬ external bc (leg bc s k) → B (leg bc s k))) →
      (∀ k, ¬ external bc (leg bc ((⟨0, hr⟩, ⟨0, hc⟩) : Site rows cols) k) →
        A (leg bc ((⟨0, hr⟩, ⟨0, hc⟩) : Site rows cols) k)) →
      ∀ b, ¬ external bc b → A b := by
    intro A B hex h h0 b hb
    obtain ⟨s, k, rfl⟩ := exists_leg hr hc b
    refine spread (fun s => ∀ k, ¬ external bc (leg bc s k) → A (leg bc s k)) hr hc h0 ?_ ?_ s k hb
    · intro r c hlt hA
      rcases h (r, ⟨c + 1, hlt⟩) with h' | h'
      · exact h'
      · have e := east_west (bc := bc) r c hlt
        have hi := west_internal (bc := bc) r c hlt
        exact absurd (h' 0 hi) fun hB => hex _ (e ▸ hA 2 (e ▸ hi)) hB
    · intro r hlt c hA
      rcases h (⟨r + 1, hlt⟩, c) with h' | h'
      · exact h'
      · have e := south_north (bc := bc) r hlt c
        have hi := north_internal (bc := bc) r hlt c
        exact absurd (h' 3 hi) fun hB => hex _ (e ▸ hA 1 (e ▸ hi)) hB
  rcases h (⟨0, hr⟩, ⟨0, hc⟩) with h0 | h0
  · exact Or.inl (key A B hex h h0)
  · exact Or.inr (key B A (fun b h1 h2 => hex b h2 h1) (fun s => (h s).symm) h0)

end Geometry

section Sum

variable {𝕜 : Type*} [CommSemiring 𝕜] {bc : BC} {rows cols : ℕ}

theorem coords_castSucc (β : Bond bc rows cols → ℕ) (s : Site rows cols) (p : ℕ) (k : Fin 4) :
    coords β s p k.castSucc = β (leg bc s k) := by
  simp [coords]

theorem coords_last (β : Bond bc rows cols → ℕ) (s : Site rows cols) (p : ℕ) :
    coords β s p 4 = p := by
  exact Fin.snoc_last (α := fun _ => ℕ) _ _

theorem forall_idx (s : Site rows cols) (P : Fin 5 → Prop) :
    (∀ i ∈ expandIndices s.1 s.2 rows cols bc, P i) ↔
      ∀ k : Fin 4, ¬ external bc (leg bc s k) → P k.castSucc := by
  constructor
  · intro h k hk
    exact h _ ((mem_expandIndices s k).2 hk)
  · intro h i hi
    rcases Fin.eq_castSucc_or_eq_last i with ⟨k, rfl⟩ | rfl
    · exact h k ((mem_expandIndices s k).1 hi)
    · exact absurd hi (four_not_mem _ _ _ _ _)

open Classical in
/-- bond dimensions of the sum -/
noncomputable def sumDim (d1 d2 : Bond bc rows cols → ℕ) (b : Bond bc rows cols) : ℕ :=
  if external bc b then 1 else d1 b + d2 b

open Classical in
/-- second block of a bond -/
noncomputable def shift (d1 : Bond bc rows cols → ℕ) (β : Bond bc rows cols → ℕ) :
    Bond bc rows cols → ℕ := fun b => if external bc b then β b else β b + d1 b

theorem isEmpty_iff (s : Site rows cols) :
    (expandIndices s.1 s.2 rows cols bc).isEmpty = true ↔ bc = .obc ∧ rows = 1 ∧ cols = 1 := by
  obtain ⟨⟨r, hr⟩, ⟨c, hc⟩⟩ := s
  cases bc with
  | pbc => simp [expandIndices]
  | obc =>
    have hne : (BC.obc = BC.pbc) = False := by simp
    simp only [expandIndices, hne, if_false, true_and]
    split <;> split <;> split <;> split <;> simp <;> omega

theorem fits_sum {a b : ℕ → ℕ → Ten 𝕜} {d1 d2 : Bond bc rows cols → ℕ} (h1 : Fits a d1)
    (h2 : Fits b d2) :
    Fits (fun r c => sumSite rows cols bc r c (a r c) (b r c)) (sumDim d1 d2) := by
  refine ⟨fun s k => ?_, fun x hx => if_pos hx⟩
  have hm := mem_expandIndices (bc := bc) s k
  dsimp only
  unfold sumSite sumDim
  by_cases he : external bc (leg bc s k)
  · rw [if_pos he]
    split
    · exact (h1.1 s k).trans (h1.2 _ he)
    · simp only [expand]
      rw [if_neg (fun h => hm.1 h he)]
      exact (h1.1 s k).trans (h1.2 _ he)
  · rw [if_neg he]
    have hmem := hm.2 he
    rw [if_neg (by
      intro h
      rw [List.isEmpty_iff] at h
      rw [h] at hmem
      exact absurd hmem (List.not_mem_nil))]
    simp only [expand]
    rw [if_pos hmem, h1.1 s k, h2.1 s k]

theorem coords_shift {d1 : Bond bc rows cols → ℕ} {a : Ten 𝕜} (s : Site rows cols) (p : ℕ)
    (ha : ∀ k : Fin 4, a.shape k.castSucc = d1 (leg bc s k)) (β : Bond bc rows cols → ℕ) :
    (fun i => if i ∈ expandIndices s.1 s.2 rows cols bc then coords (shift d1 β) s p i - a.shape i
      else coords (shift d1 β) s p i) = coords β s p := by
  funext i
  rcases Fin.eq_castSucc_or_eq_last i with ⟨k, rfl⟩ | rfl
  · rw [coords_castSucc, coords_castSucc]
    by_cases he : external bc (leg bc s k)
    · rw [if_neg (fun h => (mem_expandIndices s k).1 h he), shift, if_pos he]
    · rw [if_pos ((mem_expandIndices s k).2 he), shift, if_neg he, ha, Nat.add_sub_cancel]
  · exact (if_neg (four_not_mem _ _ _ _ _)).trans
      ((coords_last _ s p).trans (coords_last _ s p).symm)

theorem amplitude_sum (hr : 0 < rows) (hc : 0 < cols) {a b : ℕ → ℕ → Ten 𝕜}
    {d1 d2 : Bond bc rows cols → ℕ} (h1 : Fits a d1) (h2 : Fits b d2) (σ : Site rows cols → ℕ) :
    amplitude (sumDim d1 d2) (fun r c => sumSite rows cols bc r c (a r c) (b r c)) σ =
      amplitude d1 a σ + amplitude d2 b σ := by
  classical
  by_cases hone : bc = .obc ∧ rows = 1 ∧ cols = 1
  · obtain ⟨rfl, rfl, rfl⟩ := hone
    have hext : ∀ x : Bond BC.obc 1 1, external BC.obc x := by
      rintro (⟨r, c⟩ | ⟨r, c⟩)
      · refine ⟨rfl, ?_⟩
        have := c.2
        simp only [slots, if_true] at this
        change (c : ℕ) = 0 ∨ (c : ℕ) = 1
        omega
      · refine ⟨rfl, ?_⟩
        have := r.2
        simp only [slots, if_true] at this
        change (r : ℕ) = 0 ∨ (r : ℕ) = 1
        omega
    have hd : ∀ d : Bond BC.obc 1 1 → ℕ, (∀ x, external BC.obc x → d x = 1) →
        (Fintype.piFinset fun x => Finset.range (d x)) = {fun _ => 0} := by
      intro d hd
      ext β
      simp only [Fintype.mem_piFinset, Finset.mem_range, Finset.mem_singleton]
      constructor
      · intro h
        funext x
        have := h x
        rw [hd x (hext x)] at this
        omega
      · rintro rfl x
        rw [hd x (hext x)]; omega
    unfold amplitude
    rw [hd _ h1.2, hd _ h2.2, hd _ (fits_sum h1 h2).2, Finset.sum_singleton, Finset.sum_singleton,
      Finset.sum_singleton]
    have hs : ∀ f : Site 1 1 → 𝕜, ∏ s, f s = f (0, 0) := fun f => by
      rw [Fintype.prod_prod_type]; simp
    rw [hs, hs, hs]
    have he := (isEmpty_iff (bc := BC.obc) ((0, 0) : Site 1 1)).2 ⟨rfl, rfl, rfl⟩
    unfold sumSite
    dsimp only at he ⊢
    rw [if_pos he]
    rfl
  · have hne : ∀ s : Site rows cols, ¬ (expandIndices s.1 s.2 rows cols bc).isEmpty = true :=
      fun s h => hone ((isEmpty_iff s).1 h)
    have hint : ∃ x : Bond bc rows cols, ¬ external bc x := by
      by_contra hcon
      push Not at hcon
      refine hne (⟨0, hr⟩, ⟨0, hc⟩) (List.isEmpty_iff.2 (List.eq_nil_iff_forall_not_mem.2 fun i hi => ?_))
      rcases Fin.eq_castSucc_or_eq_last i with ⟨k, rfl⟩ | rfl
      · exact (mem_expandIndices (bc := bc) (⟨0, hr⟩, ⟨0, hc⟩) k).1 hi (hcon _)
      · exact absurd hi (four_not_mem _ _ _ _ _)
    obtain ⟨x0, hx0⟩ := hint
    have helem : ∀ (s : Site rows cols) (β : Bond bc rows cols → ℕ),
        (sumSite rows cols bc s.1 s.2 (a s.1 s.2) (b s.1 s.2)).elem (coords β s (σ s)) =
        if ∀ k, ¬ external bc (leg bc s k) → β (leg bc s k) < d1 (leg bc s k) then
          (a s.1 s.2).elem (coords β s (σ s))
        else if ∀ k, ¬ external bc (leg bc s k) → d1 (leg bc s k) ≤ β (leg bc s k) then
          (b s.1 s.2).elem fun i => if i ∈ expandIndices s.1 s.2 rows cols bc then
            coords β s (σ s) i - (a s.1 s.2).shape i else coords β s (σ s) i
        else 0 := by
      intro s β
      unfold sumSite
      rw [if_neg (hne s)]
      simp only [expand]
      refine if_congr ?_ rfl (if_congr ?_ rfl rfl)
      · rw [forall_idx]
        simp only [coords_castSucc, h1.1]
      · rw [forall_idx]
        simp only [coords_castSucc, h1.1]
    let A : (Bond bc rows cols → ℕ) → Prop := fun β => ∀ x, ¬ external bc x → β x < d1 x
    let B : (Bond bc rows cols → ℕ) → Prop := fun β => ∀ x, ¬ external bc x → d1 x ≤ β x
    let f : (Bond bc rows cols → ℕ) → 𝕜 := fun β => ∏ s : Site rows cols,
      (sumSite rows cols bc s.1 s.2 (a s.1 s.2) (b s.1 s.2)).elem (coords β s (σ s))
    have hAB : ∀ β, A β → B β → False := fun β hA hB =>
      absurd (hA x0 hx0) (not_lt.2 (hB x0 hx0))
    have hpt : ∀ β, f β = (if A β then f β else 0) + (if B β then f β else 0) := by
      intro β
      by_cases hA : A β
      · rw [if_pos hA, if_neg (fun hB => hAB β hA hB), add_zero]
      · rw [if_neg hA, zero_add]
        by_cases hB : B β
        · rw [if_pos hB]
        · rw [if_neg hB]
          by_contra hfne
          have hs : ∀ s : Site rows cols,
              (∀ k, ¬ external bc (leg bc s k) → β (leg bc s k) < d1 (leg bc s k)) ∨
              (∀ k, ¬ external bc (leg bc s k) → d1 (leg bc s k) ≤ β (leg bc s k)) := by
            intro s
            by_contra hcon
            push Not at hcon
            apply hfne
            refine Finset.prod_eq_zero (Finset.mem_univ s) ?_
            rw [helem, if_neg (by push Not; exact hcon.1), if_neg (by push Not; exact hcon.2)]
          rcases one_kind hr hc (fun x => β x < d1 x) (fun x => d1 x ≤ β x)
            (fun x h h' => absurd h (not_lt.2 h')) hs with h | h
          · exact hA h
          · exact hB h
    have hsum : amplitude (sumDim d1 d2) (fun r c => sumSite rows cols bc r c (a r c) (b r c)) σ =
        ∑ β ∈ (Fintype.piFinset fun x => Finset.range (sumDim d1 d2 x)).filter A, f β +
        ∑ β ∈ (Fintype.piFinset fun x => Finset.range (sumDim d1 d2 x)).filter B, f β := by
      unfold amplitude
      rw [Finset.sum_filter, Finset.sum_filter, ← Finset.sum_add_distrib]
      exact Finset.sum_congr rfl fun β _ => hpt β
    rw [hsum]
    congr 1
    · unfold amplitude
      refine Finset.sum_congr ?_ fun β hβ => ?_
      · ext β
        simp only [Finset.mem_filter, Fintype.mem_piFinset, Finset.mem_range]
        constructor
        · rintro ⟨h, hA⟩ x
          by_cases hx : external bc x
          · have := h x
            rw [sumDim, if_pos hx] at this
            rw [h1.2 x hx]; exact this
          · exact hA x hx
        · intro h
          refine ⟨fun x => ?_, fun x _ => h x⟩
          by_cases hx : external bc x
          · rw [sumDim, if_pos hx, ← h1.2 x hx]; exact h x
          · rw [sumDim, if_neg hx]; have := h x; omega
      · refine Finset.prod_congr rfl fun s _ => ?_
        rw [helem]
        exact if_pos fun k _ => by
          have := Fintype.mem_piFinset.1 hβ (leg bc s k)
          exact Finset.mem_range.1 this
    · unfold amplitude
      symm
      refine Finset.sum_bij (fun β _ => shift d1 β) ?_ ?_ ?_ ?_
      · intro β hβ
        simp only [Fintype.mem_piFinset, Finset.mem_range] at hβ
        simp only [Finset.mem_filter, Fintype.mem_piFinset, Finset.mem_range]
        refine ⟨fun x => ?_, fun x hx => ?_⟩
        · by_cases hx : external bc x
          · rw [shift, sumDim, if_pos hx, if_pos hx, ← h2.2 x hx]; exact hβ x
          · rw [shift, sumDim, if_neg hx, if_neg hx]; have := hβ x; omega
        · rw [shift, if_neg hx]; omega
      · intro β hβ β' hβ' he
        funext x
        have := congrFun he x
        simp only [shift] at this
        by_cases hx : external bc x
        · rw [if_pos hx, if_pos hx] at this; exact this
        · rw [if_neg hx, if_neg hx] at this; omega
      · intro β hβ
        simp only [Finset.mem_filter, Fintype.mem_piFinset, Finset.mem_range] at hβ
        refine ⟨fun x => if external bc x then β x else β x - d1 x, ?_, ?_⟩
        · simp only [Fintype.mem_piFinset, Finset.mem_range]
          intro x
          have h3 := hβ.1 x
          by_cases hx : external bc x
          · rw [if_pos hx, h2.2 x hx]; rw [sumDim, if_pos hx] at h3; exact h3
          · rw [if_neg hx]
            rw [sumDim, if_neg hx] at h3
            have := hβ.2 x hx
            omega
        · funext x
          simp only [shift]
          by_cases hx : external bc x
          · rw [if_pos hx, if_pos hx]
          · rw [if_neg hx, if_neg hx]
            have := hβ.2 x hx
            omega
      · intro β hβ
        refine Finset.prod_congr rfl fun s _ => ?_
        rw [helem]
        by_cases hk : ∃ k, ¬ external bc (leg bc s k)
        · obtain ⟨k, hk⟩ := hk
          have e1 : ¬ ∀ k, ¬ external bc (leg bc s k) → shift d1 β (leg bc s k) < d1 (leg bc s k) := by
            intro h
            have := h k hk
            rw [shift, if_neg hk] at this
            omega
          have e2 : ∀ k, ¬ external bc (leg bc s k) → d1 (leg bc s k) ≤ shift d1 β (leg bc s k) := by
            intro k' hk'
            rw [shift, if_neg hk']
            omega
          rw [if_neg e1, if_pos e2, coords_shift s (σ s) (h1.1 s) β]
        · exfalso
          push Not at hk
          refine hne s (List.isEmpty_iff.2 (List.eq_nil_iff_forall_not_mem.2 fun i hi => ?_))
          rcases Fin.eq_castSucc_or_eq_last i with ⟨k, rfl⟩ | rfl
          · exact (mem_expandIndices (bc := bc) s k).1 hi (hk k)
          · exact absurd hi (four_not_mem _ _ _ _ _)

theorem fits_scale {a : ℕ → ℕ → Ten 𝕜} {d : Bond bc rows cols → ℕ} (h : Fits a d) (s : 𝕜) :
    Fits (fun r c => scaleTen (a r c) s) d := h

theorem amplitude_scale (d : Bond bc rows cols → ℕ) (a : ℕ → ℕ → Ten 𝕜) (s : 𝕜)
    (σ : Site rows cols → ℕ) :
    amplitude d (fun r c => scaleTen (a r c) s) σ = s ^ (rows * cols) * amplitude d a σ := by
  unfold amplitude
  rw [Finset.mul_sum]
  refine Finset.sum_congr rfl fun β _ => ?_
  simp only [scaleTen]
  rw [Finset.prod_mul_distrib, Finset.prod_const, mul_comm]
  congr 2
  simp

end Sum

/-! ## Scales -/

theorem scaleReal_pow (N : ℕ) (hN : 0 < N) (x : ℝ) :
    scaleReal N x ^ N = if N % 2 = 1 then x else |x| := by
  have hroot : (|x| ^ ((1 : ℝ) / N)) ^ N = |x| := by
    rw [one_div]
    exact Real.rpow_inv_natCast_pow (abs_nonneg x) hN.ne'
  unfold scaleReal
  by_cases hodd : N % 2 = 1
  · rw [if_pos hodd]
    by_cases hx : x < 0
    · rw [if_pos ⟨hx, hodd⟩, Odd.neg_pow (Nat.odd_iff.2 hodd), hroot, abs_of_neg hx, neg_neg]
    · rw [if_neg (fun h => hx h.1), hroot, abs_of_nonneg (not_lt.1 hx)]
  · rw [if_neg hodd, if_neg (fun h => hodd h.2), hroot]

theorem scaleComplex_pow (N : ℕ) (hN : 0 < N) (x : ℂ) : scaleComplex N x ^ N = (‖x‖ : ℂ) := by
  unfold scaleComplex
  rw [← Complex.ofReal_pow, one_div, Real.rpow_inv_natCast_pow (norm_nonneg x) hN.ne']

end QLPeps.Tps
