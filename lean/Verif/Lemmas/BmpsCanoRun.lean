import Verif.Lemmas.BmpsCano

/-! # Canonical forms of a boundary MPS: the loops -/

namespace QLPeps.BmpsCano

open QLPeps.Bmps QLPeps.Box QLPeps.BmpsCano.Spec
open QLPeps.Peps (Tn Lib contractN transpose norm2 sumCoors)

noncomputable section

variable {𝕜 : Type*} [RCLike 𝕜] {fac : Facs 𝕜} {ds : List ℕ}

theorem eqv_refl {o : Obj 𝕜} (hs : Shp o.tens 1 ds) (hc : o.cano.length = o.tens.length) : Eqv ds o o :=
  ⟨hs, rfl, hc, rfl, fun _ _ => rfl⟩

/-- leaving out the start of a range -/
theorem dropWhile_range' (p : ℕ → Bool) (n : ℕ) : ∀ a, ∃ s ≤ n, (List.range' a n).dropWhile p = List.range' (a + s) (n - s) ∧
    ∀ i < s, p (a + i) = true := by
  induction n with
  | zero => intro a; exact ⟨0, le_rfl, rfl, fun i h => by omega⟩
  | succ n ih =>
    intro a
    rw [List.range'_succ]
    by_cases hp : p a = true
    · obtain ⟨s, h1, h2, h3⟩ := ih (a + 1)
      refine ⟨s + 1, by omega, ?_, fun i hi => ?_⟩
      · rw [List.dropWhile_cons_of_pos hp, h2]
        congr 1 <;> omega
      · cases i with
        | zero => exact hp
        | succ i =>
          have := h3 i (by omega)
          rwa [show a + 1 + i = a + (i + 1) by omega] at this
    · refine ⟨0, by omega, ?_, fun i h => by omega⟩
      rw [List.dropWhile_cons_of_neg hp]
      simp [List.range'_succ]

/-- the tensors `s, …, s + k - 1` from the left -/
theorem leftLoop (hg : Good fac) (k : ℕ) : ∀ (s : ℕ) (o : Obj 𝕜), Shp o.tens 1 ds → o.cano.length = o.tens.length →
    s + k < o.tens.length → ∃ o', steps (leftTen fac) (List.range' s k) o = some o' ∧ Eqv ds o o' ∧
      (∀ j, j < s → o'.tens.getD j nil = o.tens.getD j nil ∧ o'.cano.getD j .none = o.cano.getD j .none) ∧
      (∀ j, s ≤ j → j < s + k → LeftIso (o'.tens.getD j nil) ∧ o'.cano.getD j .none = .left) ∧
      (∀ j, s + k < j → o'.tens.getD j nil = o.tens.getD j nil ∧ o'.cano.getD j .none = o.cano.getD j .none) ∧
      (o' = o ∧ k = 0 ∨ o'.cano.getD (s + k) .none = .none) := by
  induction k with
  | zero => exact fun s o hs hc _ => ⟨o, rfl, eqv_refl hs hc, fun _ _ => ⟨rfl, rfl⟩, fun j h1 h2 => by omega, fun _ _ => ⟨rfl, rfl⟩, .inl ⟨rfl, rfl⟩⟩
  | succ k ih =>
    intro s o hs hc hk
    obtain ⟨o1, a1, a2, a3⟩ := leftTen_spec hg hs hc (i := s) (by omega)
    obtain ⟨o2, b1, b2, b3, b4, b5, b6⟩ := ih (s + 1) o1 a2.shp (a2.clen.trans a2.len.symm) (by have := a2.len; omega)
    refine ⟨o2, by rw [List.range'_succ, steps, a1]; exact b1, a2.toEqv.trans b2, ?_, ?_, ?_, .inr ?_⟩
    · intro j hj
      obtain ⟨c1, c2⟩ := b3 j (by omega)
      rw [c1, c2, a2.tens j (by omega) (by omega), a2.marks, if_neg (by omega), if_neg (by omega)]
      exact ⟨rfl, rfl⟩
    · intro j h1 h2
      rcases Nat.eq_or_lt_of_le h1 with rfl | h1
      · obtain ⟨c1, c2⟩ := b3 s (by omega)
        rw [c1, c2, a2.marks, if_pos rfl]
        exact ⟨a3, rfl⟩
      · exact b4 j (by omega) (by omega)
    · intro j hj
      obtain ⟨c1, c2⟩ := b5 j (by omega)
      rw [c1, c2, a2.tens j (by omega) (by omega), a2.marks, if_neg (by omega), if_neg (by omega)]
      exact ⟨rfl, rfl⟩
    · rw [show s + (k + 1) = s + 1 + k by omega]
      rcases b6 with ⟨rfl, rfl⟩ | h
      · rw [a2.marks, if_neg (by omega), if_pos (by omega)]
      · exact h

/-- the tensors `s, s - 1, …, s - k + 1` from the right -/
theorem rightLoop (hg : Good fac) (k : ℕ) : ∀ (s : ℕ) (o : Obj 𝕜), Shp o.tens 1 ds → o.cano.length = o.tens.length →
    s < o.tens.length → k ≤ s → ∃ o', steps (rightTen fac) ((List.range' 0 k).map fun i => s - i) o = some o' ∧ Eqv ds o o' ∧
      (∀ j, s < j → o'.tens.getD j nil = o.tens.getD j nil ∧ o'.cano.getD j .none = o.cano.getD j .none) ∧
      (∀ j, s - k < j → j ≤ s → RightIso (o'.tens.getD j nil) ∧ o'.cano.getD j .none = .right) ∧
      (∀ j, j < s - k → o'.tens.getD j nil = o.tens.getD j nil ∧ o'.cano.getD j .none = o.cano.getD j .none) ∧
      (o' = o ∧ k = 0 ∨ o'.cano.getD (s - k) .none = .none) := by
  induction k with
  | zero => exact fun s o hs hc _ _ => ⟨o, rfl, eqv_refl hs hc, fun _ _ => ⟨rfl, rfl⟩, fun j h1 h2 => by omega, fun _ _ => ⟨rfl, rfl⟩, .inl ⟨rfl, rfl⟩⟩
  | succ k ih =>
    intro s o hs hc hk hks
    obtain ⟨s, rfl⟩ : ∃ i, s = i + 1 := ⟨s - 1, by omega⟩
    obtain ⟨o1, a1, a2, a3⟩ := rightTen_spec hg hs hc (i := s) hk
    obtain ⟨o2, b1, b2, b3, b4, b5, b6⟩ := ih s o1 a2.shp (a2.clen.trans a2.len.symm) (by have := a2.len; omega) (by omega)
    have hl : (List.range' 0 (k + 1)).map (fun i => s + 1 - i) = (s + 1) :: (List.range' 0 k).map fun i => s - i := by
      rw [List.range'_succ, List.map_cons, List.range'_eq_map_range, List.range'_eq_map_range, List.map_map, List.map_map]
      simp only [Nat.sub_zero, List.cons.injEq, true_and]
      exact List.map_congr_left fun i _ => by simp; omega
    refine ⟨o2, by rw [hl, steps, a1]; exact b1, a2.toEqv.trans b2, ?_, ?_, ?_, .inr ?_⟩
    · intro j hj
      obtain ⟨c1, c2⟩ := b3 j (by omega)
      rw [c1, c2, a2.tens j (by omega) (by omega), a2.marks, if_neg (by omega), if_neg (by omega)]
      exact ⟨rfl, rfl⟩
    · intro j h1 h2
      rcases Nat.eq_or_lt_of_le h2 with rfl | h2
      · obtain ⟨c1, c2⟩ := b3 (s + 1) (by omega)
        rw [c1, c2, a2.marks, if_neg (by omega), if_pos rfl]
        exact ⟨a3, rfl⟩
      · exact b4 j (by omega) (by omega)
    · intro j hj
      obtain ⟨c1, c2⟩ := b5 j (by omega)
      rw [c1, c2, a2.tens j (by omega) (by omega), a2.marks, if_neg (by omega), if_neg (by omega)]
      exact ⟨rfl, rfl⟩
    · rw [show s + 1 - (k + 1) = s - k by omega]
      rcases b6 with ⟨rfl, rfl⟩ | h
      · rw [a2.marks, if_pos (by omega)]
      · exact h

/-- the marks at the start and at the end can be trusted -/
structure Trusted (o : Obj 𝕜) : Prop where
  left : ∀ k < o.tens.length, (∀ i < k, o.cano.getD i .none = .left) → ∀ i < k, LeftIso (o.tens.getD i nil)
  right : ∀ k, 0 < k → (∀ i, k ≤ i → i < o.tens.length → o.cano.getD i .none = .right) →
    ∀ i, k ≤ i → i < o.tens.length → RightIso (o.tens.getD i nil)

theorem leftCano_spec (hg : Good fac) {o : Obj 𝕜} (hs : Shp o.tens 1 ds) (hc : o.cano.length = o.tens.length)
    {stop : ℕ} (hn : stop + 1 < o.tens.length) (ht : Trusted o) :
    ∃ o', leftCano fac stop o = some o' ∧ Eqv ds o o' ∧
      (∀ j ≤ stop, LeftIso (o'.tens.getD j nil) ∧ o'.cano.getD j .none = .left) ∧
      (∀ j, stop + 1 < j → o'.tens.getD j nil = o.tens.getD j nil ∧ o'.cano.getD j .none = o.cano.getD j .none) ∧
      (o' = o ∨ o'.cano.getD (stop + 1) .none = .none) := by
  obtain ⟨s, h1, h2, h3⟩ := dropWhile_range' (fun i => decide (o.cano.getD i .none = .left)) (stop + 1) 0
  rw [Nat.zero_add] at h2
  simp only [Nat.zero_add, decide_eq_true_eq] at h3
  obtain ⟨o', a1, a2, a3, a4, a5, a6⟩ := leftLoop hg (stop + 1 - s) s o hs hc (by omega)
  rw [show s + (stop + 1 - s) = stop + 1 by omega] at a4 a5 a6
  refine ⟨o', by rw [leftCano, List.range_eq_range', h2]; exact a1, a2, fun j hj => ?_, a5, a6.imp And.left id⟩
  by_cases hjs : j < s
  · rw [(a3 j hjs).1, (a3 j hjs).2]
    exact ⟨ht.left s (by omega) h3 j hjs, h3 j hjs⟩
  · exact a4 j (by omega) (by omega)

theorem rightCano_spec (hg : Good fac) {o : Obj 𝕜} (hs : Shp o.tens 1 ds) (hc : o.cano.length = o.tens.length)
    {stop : ℕ} (h0 : 0 < stop) (hn : stop < o.tens.length) (ht : ∀ k, stop ≤ k → (∀ i, k ≤ i → i < o.tens.length → o.cano.getD i .none = .right) →
    ∀ i, k ≤ i → i < o.tens.length → RightIso (o.tens.getD i nil)) :
    ∃ o', rightCano fac stop o = some o' ∧ Eqv ds o o' ∧
      (∀ j, stop ≤ j → j < o.tens.length → RightIso (o'.tens.getD j nil) ∧ o'.cano.getD j .none = .right) ∧
      (∀ j, j < stop - 1 → o'.tens.getD j nil = o.tens.getD j nil ∧ o'.cano.getD j .none = o.cano.getD j .none) ∧
      (o' = o ∨ o'.cano.getD (stop - 1) .none = .none) := by
  set n := o.tens.length with hnn
  obtain ⟨s, h1, h2, h3⟩ := dropWhile_range' ((fun i => decide (o.cano.getD i .none = .right)) ∘ fun k => n - 1 - k) (n - stop) 0
  rw [Nat.zero_add] at h2
  simp only [Nat.zero_add, decide_eq_true_eq, Function.comp_apply] at h3
  have hl : (List.range' s (n - stop - s)).map (fun k => n - 1 - k) = (List.range' 0 (n - stop - s)).map fun i => n - 1 - s - i := by
    rw [List.range'_eq_map_range, List.range'_eq_map_range, List.map_map, List.map_map]
    exact List.map_congr_left fun i _ => by simp; omega
  have hsn : s ≤ n - 1 := by omega
  obtain ⟨o', a1, a2, a3, a4, a5, a6⟩ := rightLoop hg (n - stop - s) (n - 1 - s) o hs hc (by omega) (by omega)
  rw [show n - 1 - s - (n - stop - s) = stop - 1 by omega] at a4 a5 a6
  refine ⟨o', ?_, a2, fun j hj hjn => ?_, a5, a6.imp And.left id⟩
  · rw [rightCano, if_pos hn, List.range_eq_range', ← hnn, List.dropWhile_map, h2, hl]
    exact a1
  · by_cases hjs : n - 1 - s < j
    · rw [(a3 j hjs).1, (a3 j hjs).2]
      have hm : ∀ i, n - s ≤ i → i < n → o.cano.getD i .none = .right := fun i h4 h5 => by
        have := h3 (n - 1 - i) (by omega)
        rwa [show n - 1 - (n - 1 - i) = i by omega] at this
      exact ⟨ht (n - s) (by omega) hm j (by omega) hjn, hm j (by omega) hjn⟩
    · exact a4 j (by omega) (by omega)

/-- what `Centralize` does to an object whose marks can be trusted -/
theorem centralize_run (hg : Good fac) {o : Obj 𝕜} (hs : Shp o.tens 1 ds) (hc : o.cano.length = o.tens.length)
    {c : ℕ} (hn : c < o.tens.length) (ht : Trusted o) :
    ∃ o', centralize fac c o = some o' ∧ Shp o'.tens 1 ds ∧ o'.tens.length = o.tens.length ∧ o'.cano.length = o.tens.length ∧
      o'.center = c ∧ (∀ xs ∈ box ds, mv o'.tens xs 0 = mv o.tens xs 0) ∧ Canonical c o'.tens ∧
      (∀ j, j < c → o'.cano.getD j .none = .left) ∧ (∀ j, c < j → j < o.tens.length → o'.cano.getD j .none = .right) ∧
      (o'.tens = o.tens ∧ o'.cano = o.cano ∨ o'.cano.getD c .none = .none) := by
  obtain ⟨o1, a1, a2, a3, a4, a5⟩ : ∃ o1, (if c ≠ 0 then leftCano fac (c - 1) o else some o) = some o1 ∧ Eqv ds o o1 ∧
      (∀ j < c, LeftIso (o1.tens.getD j nil) ∧ o1.cano.getD j .none = .left) ∧
      (∀ j, c < j → o1.tens.getD j nil = o.tens.getD j nil ∧ o1.cano.getD j .none = o.cano.getD j .none) ∧
      (o1 = o ∨ o1.cano.getD c .none = .none) := by
    by_cases h : c = 0
    · subst h
      exact ⟨o, rfl, eqv_refl hs hc, fun j h => by omega, fun _ _ => ⟨rfl, rfl⟩, .inl rfl⟩
    · obtain ⟨o1, b1, b2, b3, b4, b5⟩ := leftCano_spec hg hs hc (stop := c - 1) (by omega) ht
      rw [show c - 1 + 1 = c by omega] at b4 b5
      exact ⟨o1, by rw [if_pos h, b1], b2, fun j hj => b3 j (by omega), b4, b5⟩
  obtain ⟨o2, b1, b2, b3, b4, b5⟩ : ∃ o2, (if c ≠ o1.tens.length - 1 then rightCano fac (c + 1) o1 else some o1) = some o2 ∧ Eqv ds o1 o2 ∧
      (∀ j, c < j → j < o.tens.length → RightIso (o2.tens.getD j nil) ∧ o2.cano.getD j .none = .right) ∧
      (∀ j, j < c → o2.tens.getD j nil = o1.tens.getD j nil ∧ o2.cano.getD j .none = o1.cano.getD j .none) ∧
      (o2 = o1 ∨ o2.cano.getD c .none = .none) := by
    have hl := a2.len
    by_cases h : c = o1.tens.length - 1
    · exact ⟨o1, by rw [if_neg (by simpa using h)], eqv_refl a2.shp (a2.clen.trans hl.symm), fun j h1 h2 => by omega,
        fun _ _ => ⟨rfl, rfl⟩, .inl rfl⟩
    · obtain ⟨o2, b1, b2, b3, b4, b5⟩ := rightCano_spec hg a2.shp (a2.clen.trans hl.symm) (stop := c + 1) (by omega) (by omega)
        (fun k hk hm i h1 h2 => by
          rw [(a4 i (by omega)).1]
          refine ht.right k (by omega) (fun i h1 h2 => ?_) i h1 (by omega)
          rw [← (a4 i (by omega)).2]
          exact hm i h1 (by omega))
      exact ⟨o2, by rw [if_pos h, b1], b2, fun j h1 h2 => b3 j (by omega) (by omega), b4, b5⟩
  refine ⟨{ o2 with center := c }, by rw [centralize, a1, Option.bind_some, b1, Option.map_some], b2.shp, b2.len.trans a2.len,
    b2.clen.trans a2.len, rfl, fun xs hxs => (b2.val xs hxs).trans (a2.val xs hxs), ⟨fun j hj => ?_, fun j h1 h2 => ?_⟩,
    fun j hj => ?_, fun j h1 h2 => (b3 j h1 h2).2, ?_⟩
  · change LeftIso (o2.tens.getD j nil)
    rw [(b4 j hj).1]
    exact (a3 j hj).1
  · have h2 : j < o2.tens.length := h2
    rw [b2.len, a2.len] at h2
    exact (b3 j h1 h2).1
  · change o2.cano.getD j .none = .left
    rw [(b4 j hj).2]
    exact (a3 j hj).2
  · rcases b5 with rfl | h
    · rcases a5 with rfl | h
      · exact .inl ⟨rfl, rfl⟩
      · exact .inr h
    · exact .inr h

end

end QLPeps.BmpsCano
