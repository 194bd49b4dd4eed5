import Verif.Model.SplitIndex
import Verif.Spec.SplitIndex
import Mathlib.Algebra.BigOperators.Fin
import Mathlib.Algebra.Order.BigOperators.Group.Multiset
import Mathlib.Data.Finset.Lattice.Fold

/-! # Lemmas on bond dimensions -/

namespace QLPeps.SplitIndex

open QLPeps.Tps.Spec (Bond leg external slots)
open QLPeps.State (BC)
open QLPeps.SplitIndex.Spec

variable {bc : BC} {rows cols : ℕ}

/-! ## which legs are bonds between sites -/

theorem slots_obc (n : ℕ) : slots .obc n = n + 1 := rfl
theorem slots_pbc (n : ℕ) : slots .pbc n = n := rfl

theorem inner_leg1 (s : QLPeps.Tps.Spec.Site rows cols) :
    Between (leg bc s 1) ↔ ((s.1 : ℕ) < rows - 1 ∨ bc = .pbc) := by
  obtain ⟨⟨r, hr⟩, ⟨c, hc⟩⟩ := s
  cases bc
  · change ¬ (BC.obc = BC.obc ∧ ((r + 1) % (rows + 1) = 0 ∨ (r + 1) % (rows + 1) = rows)) ↔ _
    rw [Nat.mod_eq_of_lt (by omega)]
    simp
    omega
  · simp [Between, external, leg]

theorem inner_leg2 (s : QLPeps.Tps.Spec.Site rows cols) :
    Between (leg bc s 2) ↔ ((s.2 : ℕ) < cols - 1 ∨ bc = .pbc) := by
  obtain ⟨⟨r, hr⟩, ⟨c, hc⟩⟩ := s
  cases bc
  · change ¬ (BC.obc = BC.obc ∧ ((c + 1) % (cols + 1) = 0 ∨ (c + 1) % (cols + 1) = cols)) ↔ _
    rw [Nat.mod_eq_of_lt (by omega)]
    simp
    omega
  · simp [Between, external, leg]

theorem inner_leg3 (s : QLPeps.Tps.Spec.Site rows cols) :
    Between (leg bc s 3) ↔ ((s.1 : ℕ) ≠ 0 ∨ bc = .pbc) := by
  obtain ⟨⟨r, hr⟩, ⟨c, hc⟩⟩ := s
  cases bc
  · simp [Between, external, leg]
    omega
  · simp [Between, external, leg]

theorem inner_leg0 (s : QLPeps.Tps.Spec.Site rows cols) :
    Between (leg bc s 0) ↔ ((s.2 : ℕ) ≠ 0 ∨ bc = .pbc) := by
  obtain ⟨⟨r, hr⟩, ⟨c, hc⟩⟩ := s
  cases bc
  · simp [Between, external, leg]
    omega
  · simp [Between, external, leg]

/-- every bond that does not leave on the north (west) is the south (east) leg of a site -/
theorem exists_leg12 (b : Bond bc rows cols) (hb : Between b) :
    ∃ s : QLPeps.Tps.Spec.Site rows cols, b = leg bc s 1 ∨ b = leg bc s 2 := by
  obtain ⟨r, k⟩ | ⟨k, c⟩ := b
  · cases bc
    · obtain ⟨k, hk⟩ := k
      rw [slots_obc] at hk
      simp [Between, external] at hb
      refine ⟨(r, ⟨k - 1, by omega⟩), Or.inr ?_⟩
      refine congrArg Sum.inl (Prod.ext rfl (Fin.ext ?_))
      change k = (k - 1 + 1) % (cols + 1)
      rw [Nat.mod_eq_of_lt (by omega)]; omega
    · obtain ⟨k, hk⟩ := k
      rw [slots_pbc] at hk
      refine ⟨(r, ⟨(k + (cols - 1)) % cols, Nat.mod_lt _ (by omega)⟩), Or.inr ?_⟩
      refine congrArg Sum.inl (Prod.ext rfl (Fin.ext ?_))
      change k = ((k + (cols - 1)) % cols + 1) % cols
      rw [Nat.mod_add_mod, show k + (cols - 1) + 1 = k + cols by omega, Nat.add_mod_right,
        Nat.mod_eq_of_lt hk]
  · cases bc
    · obtain ⟨k, hk⟩ := k
      rw [slots_obc] at hk
      simp [Between, external] at hb
      refine ⟨(⟨k - 1, by omega⟩, c), Or.inl ?_⟩
      refine congrArg Sum.inr (Prod.ext (Fin.ext ?_) rfl)
      change k = (k - 1 + 1) % (rows + 1)
      rw [Nat.mod_eq_of_lt (by omega)]; omega
    · obtain ⟨k, hk⟩ := k
      rw [slots_pbc] at hk
      refine ⟨(⟨(k + (rows - 1)) % rows, Nat.mod_lt _ (by omega)⟩, c), Or.inl ?_⟩
      refine congrArg Sum.inr (Prod.ext (Fin.ext ?_) rfl)
      change k = ((k + (rows - 1)) % rows + 1) % rows
      rw [Nat.mod_add_mod, show k + (rows - 1) + 1 = k + rows by omega, Nat.add_mod_right,
        Nat.mod_eq_of_lt hk]

theorem exists_leg03 (b : Bond bc rows cols) (hb : Between b) :
    ∃ s : QLPeps.Tps.Spec.Site rows cols, b = leg bc s 0 ∨ b = leg bc s 3 := by
  obtain ⟨r, k⟩ | ⟨k, c⟩ := b
  · obtain ⟨k, hk⟩ := k
    have : k < cols := by
      cases bc
      · rw [slots_obc] at hk
        simp [Between, external] at hb
        omega
      · exact hk
    exact ⟨(r, ⟨k, this⟩), Or.inl rfl⟩
  · obtain ⟨k, hk⟩ := k
    have : k < rows := by
      cases bc
      · rw [slots_obc] at hk
        simp [Between, external] at hb
        omega
      · exact hk
    exact ⟨(⟨k, this⟩, c), Or.inr rfl⟩

/-! ## The list of inner bonds -/

theorem coe_flatMap (n : ℕ) (f : ℕ → List ℕ) :
    (((List.range n).flatMap f : List ℕ) : Multiset ℕ) = ∑ i : Fin n, (f i : Multiset ℕ) := by
  induction n with
  | zero => rfl
  | succ n ih =>
    rw [List.range_succ, List.flatMap_append, ← Multiset.coe_add, ih, Fin.sum_univ_castSucc]
    simp

open Classical in
/-- along a line: the bonds between sites are the far legs of the sites that have one -/
theorem line_sum (n : ℕ) (F : Fin (slots bc n) → Multiset ℕ) :
    (∑ k : Fin (slots bc n), if ¬ (bc = .obc ∧ ((k : ℕ) = 0 ∨ (k : ℕ) = n)) then F k else 0) =
    ∑ c : Fin n, if (c : ℕ) < n - 1 ∨ bc = .pbc then
      F ⟨((c : ℕ) + 1) % slots bc n,
        Nat.mod_lt _ (QLPeps.Tps.Spec.slots_pos bc n c.pos)⟩ else 0 := by
  cases bc
  · refine (Fin.sum_univ_succ (n := n) _).trans ?_
    rw [if_neg (by simp), zero_add]
    refine Finset.sum_congr rfl fun c _ => ?_
    have hc := c.2
    by_cases h : (c : ℕ) < n - 1
    · rw [if_pos (by simp; omega), if_pos (Or.inl h)]
      congr 1
      ext
      change (c : ℕ) + 1 = ((c : ℕ) + 1) % (n + 1)
      rw [Nat.mod_eq_of_lt (by omega)]
    · rw [if_neg (by simp; omega), if_neg (by simp; omega)]
  · simp only [reduceCtorEq, false_and, not_false_iff, if_true, or_true]
    obtain _ | m := n
    · rfl
    · refine (Equiv.sum_comp (Equiv.addRight (1 : Fin (m + 1))) F).symm.trans
        (Finset.sum_congr rfl fun c _ => congrArg F ?_)
      ext
      change ((c + 1 : Fin (m + 1)) : ℕ) = ((c : ℕ) + 1) % (m + 1)
      rw [Fin.val_add, Fin.val_one', Nat.add_mod_mod]

open Classical in
theorem map_filter_sum {α : Type*} [Fintype α] (P : α → Prop) (f : α → ℕ) :
    (Finset.univ.filter P).val.map f = ∑ a, if P a then ({f a} : Multiset ℕ) else 0 := by
  rw [← Finset.sum_filter]
  change _ = ((Finset.univ.filter P).val.map fun a => ({f a} : Multiset ℕ)).sum
  refine Eq.trans ?_ (congrArg Multiset.sum (Multiset.map_map (fun x => ({x} : Multiset ℕ)) f _))
  rw [Multiset.sum_map_singleton]

open Classical in
theorem innerBonds_multiset {sh : ℕ → ℕ → ℕ → ℕ} {dim : Bond bc rows cols → ℕ} (h : Legs sh dim) :
    (innerBonds rows cols bc sh : Multiset ℕ) = (Finset.univ.filter Between).val.map dim := by
  rw [map_filter_sum, Fintype.sum_sum_type, Fintype.sum_prod_type, Fintype.sum_prod_type, innerBonds,
    coe_flatMap]
  simp only [coe_flatMap, ← Multiset.coe_add, Finset.sum_add_distrib]
  rw [add_comm]
  congr 1
  · refine Finset.sum_congr rfl fun r _ => ?_
    refine Eq.trans ?_ ((line_sum cols fun k => {dim (.inl (r, k))}).symm.trans
      (Finset.sum_congr rfl fun k _ => if_congr Iff.rfl rfl rfl))
    refine Finset.sum_congr rfl fun c _ => ?_
    have := h.leg (r, c) 2
    split
    · rw [show sh r c 2 = dim (leg bc (r, c) 2) from this]; rfl
    · rfl
  · rw [Finset.sum_comm]
    refine Eq.trans ?_ Finset.sum_comm
    refine Finset.sum_congr rfl fun c _ => ?_
    refine Eq.trans ?_ ((line_sum rows fun k => {dim (.inr (k, c))}).symm.trans
      (Finset.sum_congr rfl fun k _ => if_congr Iff.rfl rfl rfl))
    refine Finset.sum_congr rfl fun r _ => ?_
    have := h.leg (r, c) 1
    split
    · rw [show sh r c 1 = dim (leg bc (r, c) 1) from this]; rfl
    · rfl

theorem mem_innerBonds {sh : ℕ → ℕ → ℕ → ℕ} {dim : Bond bc rows cols → ℕ} (h : Legs sh dim) (d : ℕ) :
    d ∈ innerBonds rows cols bc sh ↔ ∃ b, Between b ∧ dim b = d := by
  classical
  rw [← Multiset.mem_coe, innerBonds_multiset h]
  simp

/-! ## Extrema -/

theorem foldl_max_spec (l : List ℕ) (d : ℕ) :
    (l.foldl max d = d ∨ l.foldl max d ∈ l) ∧ d ≤ l.foldl max d ∧ ∀ x ∈ l, x ≤ l.foldl max d := by
  induction l generalizing d with
  | nil => simp
  | cons a l ih =>
    obtain ⟨h1, h2, h3⟩ := ih (max d a)
    refine ⟨?_, le_trans (le_max_left _ _) h2, fun x hx => ?_⟩
    · rw [List.foldl_cons]
      rcases h1 with h1 | h1
      · rw [h1]
        rcases le_total d a with h | h
        · rw [max_eq_right h]; exact Or.inr (by simp)
        · rw [max_eq_left h]; exact Or.inl rfl
      · exact Or.inr (List.mem_cons_of_mem _ h1)
    · rcases List.mem_cons.1 hx with rfl | hx
      · exact le_trans (le_max_right _ _) h2
      · exact h3 x hx

theorem foldl_min_spec (l : List ℕ) (d : ℕ) :
    (l.foldl min d = d ∨ l.foldl min d ∈ l) ∧ l.foldl min d ≤ d ∧ ∀ x ∈ l, l.foldl min d ≤ x := by
  induction l generalizing d with
  | nil => simp
  | cons a l ih =>
    obtain ⟨h1, h2, h3⟩ := ih (min d a)
    refine ⟨?_, le_trans h2 (min_le_left _ _), fun x hx => ?_⟩
    · rw [List.foldl_cons]
      rcases h1 with h1 | h1
      · rw [h1]
        rcases le_total d a with h | h
        · rw [min_eq_left h]; exact Or.inl rfl
        · rw [min_eq_right h]; exact Or.inr (by simp)
      · exact Or.inr (List.mem_cons_of_mem _ h1)
    · rcases List.mem_cons.1 hx with rfl | hx
      · exact le_trans h2 (min_le_right _ _)
      · exact h3 x hx

theorem foldl_pair (l : List ℕ) (p : ℕ × ℕ) :
    l.foldl (fun m x => (min m.1 x, max m.2 x)) p = (l.foldl min p.1, l.foldl max p.2) := by
  induction l generalizing p with
  | nil => rfl
  | cons a l ih => rw [List.foldl_cons, ih]; rfl

theorem maxBond_eq (sh : ℕ → ℕ → ℕ → ℕ) : maxBond rows cols sh =
    ((List.range rows).flatMap fun r => (List.range cols).flatMap fun c => [sh r c 0, sh r c 1]).foldl
      max 0 := by
  have row : ∀ r m n, (List.range n).foldl (fun m c => max (max m (sh r c 0)) (sh r c 1)) m =
      ((List.range n).flatMap fun c => [sh r c 0, sh r c 1]).foldl max m := by
    intro r m n
    induction n with
    | zero => rfl
    | succ n ih => rw [List.range_succ, List.foldl_append, List.flatMap_append, List.foldl_append, ih]; rfl
  unfold maxBond
  simp only [row]
  generalize 0 = m
  induction rows with
  | zero => rfl
  | succ n ih =>
    rw [List.range_succ, List.foldl_append, List.flatMap_append, List.foldl_append, ih]
    simp

end QLPeps.SplitIndex
