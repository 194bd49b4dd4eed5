import Verif.Model.NextPerm
import Mathlib.Data.List.Lex
import Mathlib.Data.List.Sort
import Mathlib.Data.List.Permutation
import Mathlib.Data.Finset.Card
import Mathlib.Tactic.Common

/-! # Lemmas about `nextPerm`: it is the lexicographic successor among rearrangements -/

namespace QLPeps.NextPerm

open List

theorem cons_le_iff (a b : ℕ) (l m : List ℕ) : a :: l ≤ b :: m ↔ a < b ∨ a = b ∧ l ≤ m := by
  rw [le_iff_lt_or_eq, List.cons_lt_cons_iff, le_iff_lt_or_eq, List.cons.injEq]
  tauto

theorem swapLastGreater_none (a : ℕ) (l : List ℕ) :
    swapLastGreater a l = none ↔ ∀ b ∈ l, b ≤ a := by
  induction l with
  | nil => simp [swapLastGreater]
  | cons b l ih =>
    rw [swapLastGreater]
    cases h : swapLastGreater a l with
    | some p =>
      simp only [reduceCtorEq, mem_cons, forall_eq_or_imp, false_iff, not_and]
      intro _ h2
      rw [ih.2 h2] at h; cases h
    | none =>
      have := ih.1 h
      by_cases hab : a < b
      · simp only [hab, if_true, reduceCtorEq, mem_cons, forall_eq_or_imp, false_iff, not_and]
        intro h; omega
      · simp only [hab, if_false, mem_cons, forall_eq_or_imp, true_iff]
        exact ⟨by omega, this⟩

/-- on a non-increasing list the swap takes out the least element larger than `a` and
leaves a non-increasing list -/
theorem swapLastGreater_some (a : ℕ) (l : List ℕ) (hl : l.Pairwise (· ≥ ·)) (c : ℕ) (l' : List ℕ)
    (h : swapLastGreater a l = some (c, l')) :
    (c :: l').Perm (a :: l) ∧ a < c ∧ (∀ b ∈ l, a < b → c ≤ b) ∧ l'.Pairwise (· ≥ ·) ∧
      (∀ x ∈ l', x ∈ l ∨ x = a) := by
  induction l generalizing c l' with
  | nil => simp [swapLastGreater] at h
  | cons b l ih =>
    rw [List.pairwise_cons] at hl
    rw [swapLastGreater] at h
    cases h1 : swapLastGreater a l with
    | some p =>
      obtain ⟨c1, l1⟩ := p
      rw [h1] at h
      simp only [Option.some.injEq, Prod.mk.injEq] at h
      obtain ⟨rfl, rfl⟩ := h
      obtain ⟨i1, i2, i3, i4, i5⟩ := ih hl.2 c1 l1 h1
      have hc1 : c1 ∈ l := by
        have : c1 ∈ a :: l := i1.subset (by simp)
        rcases List.mem_cons.1 this with h | h
        · omega
        · exact h
      refine ⟨?_, i2, ?_, ?_, ?_⟩
      · exact (List.Perm.swap _ _ _).trans ((i1.cons b).trans (List.Perm.swap _ _ _))
      · intro x hx hax
        rcases List.mem_cons.1 hx with rfl | hx
        · exact hl.1 c1 hc1
        · exact i3 x hx hax
      · rw [List.pairwise_cons]
        refine ⟨fun x hx => ?_, i4⟩
        rcases i5 x hx with h | rfl
        · exact hl.1 x h
        · have := hl.1 c1 hc1
          omega
      · intro x hx
        rcases List.mem_cons.1 hx with rfl | hx
        · simp
        · rcases i5 x hx with h | h
          · simp [h]
          · exact Or.inr h
    | none =>
      rw [h1] at h
      have hle := (swapLastGreater_none a l).1 h1
      by_cases hab : a < b
      · simp only [hab, if_true, Option.some.injEq, Prod.mk.injEq] at h
        obtain ⟨rfl, rfl⟩ := h
        refine ⟨List.Perm.swap _ _ _, hab, ?_, ?_, ?_⟩
        · intro x hx hax
          rcases List.mem_cons.1 hx with rfl | hx
          · exact le_rfl
          · have := hle x hx; omega
        · rw [List.pairwise_cons]; exact ⟨hle, hl.2⟩
        · intro x hx
          rcases List.mem_cons.1 hx with rfl | hx
          · exact Or.inr rfl
          · left; simp [hx]
      · simp [hab] at h

theorem nextPerm_none_sorted (l : List ℕ) (h : nextPerm l = none) : l.Pairwise (· ≥ ·) := by
  induction l with
  | nil => exact List.Pairwise.nil
  | cons a l ih =>
    rw [nextPerm] at h
    cases h1 : nextPerm l with
    | some l' => rw [h1] at h; cases h
    | none =>
      rw [h1] at h
      cases h2 : swapLastGreater a l with
      | some p => rw [h2] at h; cases h
      | none =>
        exact List.pairwise_cons.2 ⟨(swapLastGreater_none a l).1 h2, ih h1⟩

theorem sorted_max (l m : List ℕ) (hl : l.Pairwise (· ≥ ·)) (hm : m.Perm l) : m ≤ l := by
  induction l generalizing m with
  | nil => rw [hm.eq_nil]
  | cons a l ih =>
    cases m with
    | nil => simp at hm
    | cons b m =>
      rw [List.pairwise_cons] at hl
      rw [cons_le_iff]
      have hb : b ∈ a :: l := hm.subset (by simp)
      rcases List.mem_cons.1 hb with rfl | hb
      · exact Or.inr ⟨rfl, ih m hl.2 ((List.perm_cons _).1 hm)⟩
      · rcases lt_or_eq_of_le (hl.1 b hb) with h | rfl
        · exact Or.inl h
        · exact Or.inr ⟨rfl, ih m hl.2 ((List.perm_cons _).1 hm)⟩

theorem sorted_min (l m : List ℕ) (hl : l.Pairwise (· ≤ ·)) (hm : m.Perm l) : l ≤ m := by
  induction l generalizing m with
  | nil => rw [hm.eq_nil]
  | cons a l ih =>
    cases m with
    | nil => simp at hm
    | cons b m =>
      rw [List.pairwise_cons] at hl
      rw [cons_le_iff]
      have hb : b ∈ a :: l := hm.subset (by simp)
      rcases List.mem_cons.1 hb with rfl | hb
      · exact Or.inr ⟨rfl, ih m hl.2 ((List.perm_cons _).1 hm)⟩
      · rcases lt_or_eq_of_le (hl.1 b hb) with h | rfl
        · exact Or.inl h
        · exact Or.inr ⟨rfl, ih m hl.2 ((List.perm_cons _).1 hm)⟩

theorem nextPerm_none (l : List ℕ) (h : nextPerm l = none) (m : List ℕ) (hm : m.Perm l) :
    m ≤ l := sorted_max l m (nextPerm_none_sorted l h) hm

/-- `nextPerm` returns the lexicographic successor among the rearrangements -/
theorem nextPerm_some (l l' : List ℕ) (h : nextPerm l = some l') :
    l'.Perm l ∧ l < l' ∧ ∀ m, m.Perm l → l < m → l' ≤ m := by
  induction l generalizing l' with
  | nil => simp [nextPerm] at h
  | cons a l ih =>
    rw [nextPerm] at h
    cases h1 : nextPerm l with
    | some l1 =>
      rw [h1] at h
      simp only [Option.some.injEq] at h
      subst h
      obtain ⟨i1, i2, i3⟩ := ih l1 h1
      refine ⟨i1.cons a, List.cons_lt_cons_iff.2 (Or.inr ⟨rfl, i2⟩), ?_⟩
      intro m hm hlt
      cases m with
      | nil => simp at hm
      | cons b m =>
        rw [List.cons_lt_cons_iff] at hlt
        rw [cons_le_iff]
        rcases hlt with h | ⟨rfl, h⟩
        · exact Or.inl h
        · exact Or.inr ⟨rfl, i3 m ((List.perm_cons _).1 hm) h⟩
    | none =>
      rw [h1] at h
      have hs := nextPerm_none_sorted l h1
      cases h2 : swapLastGreater a l with
      | none => rw [h2] at h; cases h
      | some p =>
        obtain ⟨c, l1⟩ := p
        rw [h2] at h
        simp only [Option.some.injEq] at h
        subst h
        obtain ⟨i1, i2, i3, i4, i5⟩ := swapLastGreater_some a l hs c l1 h2
        have hperm : (c :: l1.reverse).Perm (a :: l) :=
          ((List.reverse_perm l1).cons c).trans i1
        refine ⟨hperm, List.cons_lt_cons_iff.2 (Or.inl i2), ?_⟩
        intro m hm hlt
        cases m with
        | nil => simp at hm
        | cons b m =>
          rw [List.cons_lt_cons_iff] at hlt
          rw [cons_le_iff]
          rcases hlt with h | ⟨rfl, h⟩
          · have hb : b ∈ l := by
              have : b ∈ a :: l := hm.subset (by simp)
              rcases List.mem_cons.1 this with h' | h'
              · omega
              · exact h'
            rcases lt_or_eq_of_le (i3 b hb h) with h' | rfl
            · exact Or.inl h'
            · refine Or.inr ⟨rfl, sorted_min _ _ ?_ ?_⟩
              · rw [List.pairwise_reverse]; exact i4
              · exact (List.perm_cons _).1 (hm.trans hperm.symm)
          · exact absurd h (not_lt.2 (nextPerm_none l h1 m ((List.perm_cons _).1 hm)))

/-- if the loop finishes it has listed, in strictly increasing order, exactly the
rearrangements that are not below the start -/
theorem permLoop_spec (n : ℕ) (v : List ℕ) (L : List (List ℕ)) (h : permLoop n v = some L) :
    L.Pairwise (· < ·) ∧ ∀ m, m ∈ L ↔ m.Perm v ∧ v ≤ m := by
  induction n generalizing v L with
  | zero => simp [permLoop] at h
  | succ n ih =>
    rw [permLoop] at h
    cases h1 : nextPerm v with
    | none =>
      rw [h1] at h
      simp only [Option.some.injEq] at h
      subst h
      refine ⟨by simp, fun m => ?_⟩
      rw [List.mem_singleton]
      constructor
      · rintro rfl; exact ⟨.refl _, le_rfl⟩
      · rintro ⟨a, b⟩; exact le_antisymm (nextPerm_none v h1 m a) b
    | some v' =>
      rw [h1] at h
      dsimp only at h
      cases h2 : permLoop n v' with
      | none => rw [h2] at h; cases h
      | some L' =>
        rw [h2] at h
        simp only [Option.map_some, Option.some.injEq] at h
        subst h
        obtain ⟨i1, i2⟩ := ih v' L' h2
        obtain ⟨j1, j2, j3⟩ := nextPerm_some v v' h1
        refine ⟨?_, fun m => ?_⟩
        · rw [List.pairwise_cons]
          exact ⟨fun m hm => lt_of_lt_of_le j2 ((i2 m).1 hm).2, i1⟩
        · rw [List.mem_cons, i2]
          constructor
          · rintro (rfl | ⟨a, b⟩)
            · exact ⟨.refl _, le_rfl⟩
            · exact ⟨a.trans j1, (lt_of_lt_of_le j2 b).le⟩
          · rintro ⟨a, b⟩
            rcases eq_or_lt_of_le b with rfl | b
            · exact Or.inl rfl
            · exact Or.inr ⟨a.trans j1.symm, j3 m a b⟩

/-- the loop finishes within `length !` iterations -/
theorem permLoop_terminates (n : ℕ) (v : List ℕ)
    (hn : ((v.permutations.toFinset).filter (fun m => v ≤ m)).card ≤ n) :
    ∃ L, permLoop n v = some L := by
  induction n generalizing v with
  | zero =>
    exfalso
    have : v ∈ (v.permutations.toFinset).filter (fun m => v ≤ m) := by simp
    have := Finset.card_pos.2 ⟨v, this⟩
    omega
  | succ n ih =>
    rw [permLoop]
    cases h1 : nextPerm v with
    | none => exact ⟨_, rfl⟩
    | some v' =>
      obtain ⟨j1, j2, j3⟩ := nextPerm_some v v' h1
      have hlt : ((v'.permutations.toFinset).filter (fun m => v' ≤ m)).card
          < ((v.permutations.toFinset).filter (fun m => v ≤ m)).card := by
        apply Finset.card_lt_card
        constructor
        · intro m hm
          simp only [Finset.mem_filter, List.mem_toFinset, List.mem_permutations] at hm ⊢
          exact ⟨hm.1.trans j1, (lt_of_lt_of_le j2 hm.2).le⟩
        · intro hsub
          have : v ∈ (v'.permutations.toFinset).filter (fun m => v' ≤ m) := hsub (by simp)
          simp only [Finset.mem_filter] at this
          exact absurd this.2 (not_le.2 j2)
      obtain ⟨L, hL⟩ := ih v' (by omega)
      exact ⟨v :: L, by simp [hL]⟩

theorem permLoop_factorial (v : List ℕ) : ∃ L, permLoop v.length.factorial v = some L := by
  apply permLoop_terminates
  calc _ ≤ v.permutations.toFinset.card := Finset.card_filter_le _ _
    _ ≤ v.permutations.length := List.toFinset_card_le _
    _ = _ := List.length_permutations v

/-- from a sorted start the loop lists every rearrangement exactly once -/
theorem permLoop_sorted (v : List ℕ) (hv : v.Pairwise (· ≤ ·)) :
    ∃ L, permLoop v.length.factorial v = some L ∧ L.Nodup ∧ ∀ m, m ∈ L ↔ m.Perm v := by
  obtain ⟨L, hL⟩ := permLoop_factorial v
  obtain ⟨h1, h2⟩ := permLoop_spec _ v L hL
  refine ⟨L, hL, h1.imp (fun h => ne_of_lt h), fun m => ?_⟩
  rw [h2]
  exact ⟨fun h => h.1, fun h => ⟨h, sorted_min v m hv h⟩⟩

end QLPeps.NextPerm
