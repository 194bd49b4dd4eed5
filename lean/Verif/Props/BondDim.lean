import Verif.Lemmas.BondDim
import Mathlib.Order.Bounds.Basic

/-!
# Property C101: what the bond-dimension queries report
-/

namespace QLPeps.SplitIndex

open QLPeps.Tps.Spec (Bond leg external slots)
open QLPeps.State (BC)
open QLPeps.SplitIndex.Spec

variable {bc : BC} {rows cols : ℕ} {sh : ℕ → ℕ → ℕ → ℕ} {dim : Bond bc rows cols → ℕ}

/-- **C101.** `GetMaxBondDimension` of a TPS or split-index TPS is the largest dimension of a bond. -/
theorem C101_max (h : Legs sh dim) (hr : 0 < rows) (hc : 0 < cols) :
    IsGreatest (Set.range dim) (maxBond rows cols sh) := by
  obtain ⟨h1, -, h3⟩ := foldl_max_spec ((List.range rows).flatMap fun r =>
    (List.range cols).flatMap fun c => [sh r c 0, sh r c 1]) 0
  rw [← maxBond_eq] at h1 h3
  have hm : ∀ x, (x ∈ (List.range rows).flatMap fun r => (List.range cols).flatMap fun c =>
      [sh r c 0, sh r c 1]) ↔ ∃ s : QLPeps.Tps.Spec.Site rows cols,
        x = dim (leg bc s 0) ∨ x = dim (leg bc s 1) := by
    intro x
    simp only [List.mem_flatMap, List.mem_range, List.mem_cons, List.not_mem_nil, or_false]
    constructor
    · rintro ⟨r, hr, c, hc, h'⟩
      exact ⟨(⟨r, hr⟩, ⟨c, hc⟩), by
        rw [← h.leg, ← h.leg]; exact h'⟩
    · rintro ⟨s, h'⟩
      refine ⟨s.1, s.1.2, s.2, s.2.2, ?_⟩
      rw [← h.leg, ← h.leg] at h'
      exact h'
  have hleg0 : dim (leg bc (⟨0, hr⟩, ⟨0, hc⟩) 0) ≤ maxBond rows cols sh :=
    h3 _ ((hm _).2 ⟨_, Or.inl rfl⟩)
  constructor
  · rcases h1 with h1 | h1
    · exact ⟨leg bc (⟨0, hr⟩, ⟨0, hc⟩) 0, le_antisymm hleg0 (by rw [h1]; exact Nat.zero_le _)⟩
    · obtain ⟨s, h' | h'⟩ := (hm _).1 h1
      · exact ⟨_, h'.symm⟩
      · exact ⟨_, h'.symm⟩
  · rintro _ ⟨b, rfl⟩
    by_cases hb : Between b
    · by_cases hh : ∃ s : QLPeps.Tps.Spec.Site rows cols, b = leg bc s 0 ∨ b = leg bc s 1
      · obtain ⟨s, rfl | rfl⟩ := hh
        · exact h3 _ ((hm _).2 ⟨s, Or.inl rfl⟩)
        · exact h3 _ ((hm _).2 ⟨s, Or.inr rfl⟩)
      · exfalso
        obtain ⟨s, h0 | h0⟩ := exists_leg03 b hb
        · exact hh ⟨s, Or.inl h0⟩
        · obtain ⟨s', h2 | h2⟩ := exists_leg12 b hb
          · exact hh ⟨s', Or.inr h2⟩
          · rw [h0] at h2
            exact absurd h2 (by simp [leg])
    · have he : external bc b := not_not.1 hb
      have : bc = .obc := by
        obtain b | b := b
        · exact he.1
        · exact he.1
      subst this
      rw [h.external b he]
      refine le_trans (le_of_eq ?_) hleg0
      exact (h.external (leg .obc (⟨0, hr⟩, ⟨0, hc⟩) 0) ⟨rfl, Or.inl rfl⟩).symm

theorem small_iff (hr : 0 < rows) (hc : 0 < cols) :
    rows * cols < rows + cols ↔ rows = 1 ∨ cols = 1 := by
  constructor
  · intro h
    by_contra hn
    push Not at hn
    have h1 : 2 ≤ rows := by omega
    have h2 : 2 ≤ cols := by omega
    nlinarith
  · rintro (rfl | rfl) <;> omega

open Classical in
/-- **C101.** With at least two rows and columns `GetAllInnerBondDimensions` lists the dimension of
every bond between two sites once. (Not on chains: `C101_inner_bonds_chain_throws`.) -/
theorem C101_inner_bonds_partial (h : Legs sh dim) (hr : 2 ≤ rows) (hc : 2 ≤ cols) :
    ∃ l, allInnerBonds rows cols bc sh = some l ∧
      (l : Multiset ℕ) = (Finset.univ.filter Between).val.map dim :=
  ⟨_, by
    rw [allInnerBonds, if_neg]
    rw [small_iff (by omega) (by omega)]; omega, innerBonds_multiset h⟩

/-- **C101, false for chains.** With a single row or column the size to reserve is negative: the
queries throw. -/
theorem C101_inner_bonds_chain_throws (hr : 0 < rows) (hc : 0 < cols) (h : rows = 1 ∨ cols = 1) :
    allInnerBonds rows cols bc sh = none ∧ minMaxBond rows cols bc sh = none := by
  have : allInnerBonds rows cols bc sh = none := if_pos ((small_iff hr hc).2 h)
  exact ⟨this, by rw [minMaxBond, this]⟩

/-- **C101.** With at least two rows and columns `GetMinMaxBondDimension` returns the smallest and the
largest dimension of the bonds between sites. -/
theorem C101_min_max_partial (h : Legs sh dim) (hr : 2 ≤ rows) (hc : 2 ≤ cols) :
    ∃ m M, minMaxBond rows cols bc sh = some (m, M) ∧
      IsLeast (dim '' {b | Between b}) m ∧ IsGreatest (dim '' {b | Between b}) M := by
  have hm := mem_innerBonds h
  have hs : allInnerBonds rows cols bc sh = some (innerBonds rows cols bc sh) := if_neg (by
    rw [small_iff (by omega) (by omega)]; omega)
  obtain ⟨d, ds, hd⟩ : ∃ d ds, innerBonds rows cols bc sh = d :: ds := by
    have := (hm _).2 ⟨leg bc (⟨0, by omega⟩, ⟨0, by omega⟩) 1,
      (inner_leg1 _).2 (Or.inl (by simp; omega)), rfl⟩
    match hl : innerBonds rows cols bc sh with
    | [] => rw [hl] at this; simp at this
    | d :: ds => exact ⟨d, ds, rfl⟩
  refine ⟨ds.foldl min d, ds.foldl max d, by rw [minMaxBond, hs, hd], ?_⟩
  obtain ⟨a1, a2, a3⟩ := foldl_min_spec ds d
  obtain ⟨b1, b2, b3⟩ := foldl_max_spec ds d
  have hset : ∀ x, x ∈ dim '' {b | Between b} ↔ x ∈ d :: ds := fun x => by
    rw [← hd, hm]; rfl
  refine ⟨⟨(hset _).2 ?_, fun x hx => ?_⟩, ⟨(hset _).2 ?_, fun x hx => ?_⟩⟩
  · rcases a1 with a1 | a1
    · rw [a1]; simp
    · exact List.mem_cons_of_mem _ a1
  · rcases List.mem_cons.1 ((hset x).1 hx) with rfl | hx
    · exact a2
    · exact a3 x hx
  · rcases b1 with b1 | b1
    · rw [b1]; simp
    · exact List.mem_cons_of_mem _ b1
  · rcases List.mem_cons.1 ((hset x).1 hx) with rfl | hx
    · exact b2
    · exact b3 x hx

/-- what the two uniformity queries test: the dimension of every bond between sites against that of
the south leg of site (0,0) -/
theorem even_iff (h : Legs sh dim) :
    isEven rows cols bc sh = true ↔ ∀ b, Between b → sh 0 0 1 = dim b := by
  simp only [isEven, List.all_eq_true, List.mem_range, Bool.and_eq_true, Bool.or_eq_true,
    Bool.not_eq_true', decide_eq_false_iff_not, beq_iff_eq]
  constructor
  · intro h' b hb
    obtain ⟨s, rfl | rfl⟩ := exists_leg12 b hb
    · rw [← h.leg]
      exact (h' s.1 s.1.2 s.2 s.2.2).1.resolve_left (not_not.2 ((inner_leg1 s).1 hb))
    · rw [← h.leg]
      exact (h' s.1 s.1.2 s.2 s.2.2).2.resolve_left (not_not.2 ((inner_leg2 s).1 hb))
  · intro h' r hr c hc
    have l1 := h.leg (⟨r, hr⟩, ⟨c, hc⟩) 1
    have l2 := h.leg (⟨r, hr⟩, ⟨c, hc⟩) 2
    refine ⟨or_iff_not_imp_left.2 fun hn => ?_, or_iff_not_imp_left.2 fun hn => ?_⟩
    · exact (h' _ ((inner_leg1 (⟨r, hr⟩, ⟨c, hc⟩)).2 (not_not.1 hn))).trans l1.symm
    · exact (h' _ ((inner_leg2 (⟨r, hr⟩, ⟨c, hc⟩)).2 (not_not.1 hn))).trans l2.symm

theorem uniform_iff (h : Legs sh dim) :
    isUniform rows cols bc sh = true ↔ ∀ b, Between b → sh 0 0 1 = dim b := by
  simp only [isUniform, List.all_eq_true, List.mem_range, Bool.and_eq_true, Bool.or_eq_true,
    Bool.not_eq_true', decide_eq_false_iff_not, beq_iff_eq]
  constructor
  · intro h' b hb
    obtain ⟨s, rfl | rfl⟩ := exists_leg03 b hb
    · rw [← h.leg]
      exact (h' s.1 s.1.2 s.2 s.2.2).2.resolve_left (not_not.2 ((inner_leg0 s).1 hb))
    · rw [← h.leg]
      exact (h' s.1 s.1.2 s.2 s.2.2).1.resolve_left (not_not.2 ((inner_leg3 s).1 hb))
  · intro h' r hr c hc
    have l1 := h.leg (⟨r, hr⟩, ⟨c, hc⟩) 3
    have l2 := h.leg (⟨r, hr⟩, ⟨c, hc⟩) 0
    refine ⟨or_iff_not_imp_left.2 fun hn => ?_, or_iff_not_imp_left.2 fun hn => ?_⟩
    · exact (h' _ ((inner_leg3 (⟨r, hr⟩, ⟨c, hc⟩)).2 (not_not.1 hn))).trans l1.symm
    · exact (h' _ ((inner_leg0 (⟨r, hr⟩, ⟨c, hc⟩)).2 (not_not.1 hn))).trans l2.symm

/-- **C101.** On a torus, and on an open lattice with at least two rows, `IsBondDimensionEven` of a
split-index TPS and `IsBondDimensionUniform` of a TPS hold exactly if all bonds between sites have the
same dimension. (On an open chain they do not: `C101_chain_reported_uneven`.) -/
theorem C101_uniform_partial (h : Legs sh dim) (hr : 0 < rows) (hc : 0 < cols)
    (h2 : bc = .pbc ∨ 2 ≤ rows) :
    (isEven rows cols bc sh = true ↔ Uniform dim) ∧
    (isUniform rows cols bc sh = true ↔ Uniform dim) := by
  have hb : Between (leg bc (⟨0, hr⟩, ⟨0, hc⟩) 1) := by
    rw [inner_leg1]
    rcases h2 with h2 | h2
    · exact Or.inr h2
    · exact Or.inl (by simp; omega)
  have hd : sh 0 0 1 = dim (leg bc (⟨0, hr⟩, ⟨0, hc⟩) 1) := h.leg (⟨0, hr⟩, ⟨0, hc⟩) 1
  have key : (∀ b, Between b → sh 0 0 1 = dim b) ↔ Uniform dim :=
    ⟨fun h' b b' hb hb' => (h' b hb).symm.trans (h' b' hb'), fun h' b hb' => hd.trans (h' _ _ hb hb')⟩
  exact ⟨(even_iff h).trans key, (uniform_iff h).trans key⟩

/-- **C101, false for chains.** On an open lattice with a single row both queries compare with the
outer leg: they hold only if all bonds have dimension one. -/
theorem C101_chain_reported_uneven {dim : Bond .obc 1 cols → ℕ} (h : Legs sh dim) (hc : 0 < cols) :
    (isEven 1 cols .obc sh = true ↔ ∀ b, Between b → dim b = 1) ∧
    (isUniform 1 cols .obc sh = true ↔ ∀ b, Between b → dim b = 1) := by
  have hd : sh 0 0 1 = 1 := by
    have := h.leg (0, ⟨0, hc⟩) 1
    refine this.trans (h.external _ (not_not.1 fun hb => ?_))
    have := (inner_leg1 ((0 : Fin 1), (⟨0, hc⟩ : Fin cols))).1 hb
    simp at this
  refine ⟨(even_iff h).trans ?_, (uniform_iff h).trans ?_⟩ <;> rw [hd] <;>
    exact forall_congr' fun b => imp_congr_right fun _ => eq_comm

/-! ## PEPS -/

variable {dv dh : ℕ → ℕ → ℕ}

theorem mem_lambdaDims (h : Weights dv dh dim) (d : ℕ) :
    d ∈ lambdaDims rows cols bc dv dh ↔ ∃ b, dim b = d := by
  simp only [lambdaDims, List.mem_append, List.mem_flatMap, List.mem_range, List.mem_map]
  have hs : ∀ n, (if bc = .obc then n + 1 else n) = slots bc n := fun n => rfl
  simp only [hs]
  constructor
  · rintro (⟨r, hr, c, hc, rfl⟩ | ⟨r, hr, c, hc, rfl⟩)
    · exact ⟨.inr (⟨r, hr⟩, ⟨c, hc⟩), (h.vertical (⟨r, hr⟩, ⟨c, hc⟩)).symm⟩
    · exact ⟨.inl (⟨r, hr⟩, ⟨c, hc⟩), (h.horizontal (⟨r, hr⟩, ⟨c, hc⟩)).symm⟩
  · rintro ⟨b | b, rfl⟩
    · exact Or.inr ⟨b.1, b.1.2, b.2, b.2.2, h.horizontal b⟩
    · exact Or.inl ⟨b.1, b.1.2, b.2, b.2.2, h.vertical b⟩

/-- **C101.** `GetMinMaxBondDim` and `GetMaxBondDim` of a PEPS: extrema over all weights, including
those on the edge of an open lattice, so that there the minimum is at most one. -/
theorem C101_peps_min_max (h : Weights dv dh dim) (hr : 0 < rows) (hc : 0 < cols) :
    IsLeast (Set.range dim) (pepsMinMax rows cols bc dv dh).1 ∧
    IsGreatest (Set.range dim) (pepsMinMax rows cols bc dv dh).2 ∧
    pepsMax rows cols bc dv dh = (pepsMinMax rows cols bc dv dh).2 ∧
    (bc = .obc → (pepsMinMax rows cols bc dv dh).1 ≤ 1) := by
  have hm := mem_lambdaDims h
  obtain ⟨d, ds, hl⟩ : ∃ d ds, lambdaDims rows cols bc dv dh = d :: ds := by
    have := (hm _).2 ⟨leg bc (⟨0, hr⟩, ⟨0, hc⟩) 0, rfl⟩
    match hl : lambdaDims rows cols bc dv dh with
    | [] => rw [hl] at this; simp at this
    | d :: ds => exact ⟨d, ds, rfl⟩
  have e : pepsMinMax rows cols bc dv dh = ((d :: ds).foldl min d, (d :: ds).foldl max 0) := by
    unfold pepsMinMax
    rw [hl]
    exact foldl_pair _ _
  obtain ⟨a1, a2, a3⟩ := foldl_min_spec (d :: ds) d
  obtain ⟨b1, b2, b3⟩ := foldl_max_spec (d :: ds) 0
  have hset : ∀ x, x ∈ Set.range dim ↔ x ∈ d :: ds := fun x => by rw [← hl, hm]; rfl
  have least : IsLeast (Set.range dim) ((d :: ds).foldl min d) :=
    ⟨(hset _).2 (by
      rcases a1 with a1 | a1
      · rw [a1]; simp
      · exact a1), fun x hx => a3 x ((hset x).1 hx)⟩
  refine ⟨by rw [e]; exact least, by
    rw [e]
    refine ⟨(hset _).2 ?_, fun x hx => b3 x ((hset x).1 hx)⟩
    rcases b1 with b1 | b1
    · have : d ≤ (d :: ds).foldl max 0 := b3 d (by simp)
      have h0 : d = 0 := by omega
      change (d :: ds).foldl max 0 ∈ _
      rw [b1, h0]; simp
    · exact b1, by rw [e, pepsMax, hl], fun hbc => ?_⟩
  subst hbc
  rw [e]
  refine le_trans (least.2 ⟨.inl (⟨0, hr⟩, ⟨0, Nat.succ_pos _⟩), rfl⟩) (le_of_eq ?_)
  exact h.external _ ⟨rfl, Or.inl rfl⟩

/-- **C101.** With at least two rows and columns `IsBondDimensionUniform` of a PEPS holds exactly if
all bonds between sites have the same dimension. (On chains it always holds:
`C101_peps_chain_always_uniform`.) -/
theorem C101_peps_uniform_partial (h : Weights dv dh dim) (hr : 2 ≤ rows) (hc : 2 ≤ cols) :
    pepsUniform rows cols bc dv dh = true ↔ Uniform dim := by
  unfold pepsUniform
  rw [if_neg (by omega)]
  cases bc
  · rw [if_pos rfl]
    simp only [Bool.and_eq_true, List.all_eq_true, List.mem_range, Bool.or_eq_true, decide_eq_true_eq,
      beq_iff_eq]
    have hd : dv 1 0 = dim (.inr (⟨1, by rw [slots_obc]; omega⟩, ⟨0, by omega⟩)) :=
      h.vertical (⟨1, by rw [slots_obc]; omega⟩, ⟨0, by omega⟩)
    constructor
    · rintro ⟨h1, h2⟩
      have key : ∀ b, Between b → dv 1 0 = dim b := by
        rintro (⟨r, k⟩ | ⟨k, c⟩) hb
        · have hk := k.2
          simp only [slots_obc] at hk
          simp [Between, external] at hb
          exact ((h2 r r.2 k (by omega)).resolve_left (by omega)).trans (h.horizontal (r, k))
        · have hk := k.2
          simp only [slots_obc] at hk
          simp [Between, external] at hb
          exact ((h1 k (by omega)).resolve_left (by omega) c c.2).trans (h.vertical (k, c))
      exact fun b b' hb hb' => (key b hb).symm.trans (key b' hb')
    · intro hu
      have hb1 : Between (.inr (⟨1, by rw [slots_obc]; omega⟩, ⟨0, by omega⟩) : Bond .obc rows cols) := by
        simp [Between, external]; omega
      refine ⟨fun r hr' => or_iff_not_imp_left.2 fun h0 c hc' => ?_,
        fun r hr' c hc' => or_iff_not_imp_left.2 fun h0 => ?_⟩
      · refine hd.trans ((hu _ _ hb1 ?_).trans
          (h.vertical (⟨r, by rw [slots_obc]; omega⟩, ⟨c, hc'⟩)).symm)
        simp [Between, external]; omega
      · refine hd.trans ((hu _ _ hb1 ?_).trans
          (h.horizontal (⟨r, hr'⟩, ⟨c, by rw [slots_obc]; omega⟩)).symm)
        simp [Between, external]; omega
  · rw [if_neg (by simp)]
    simp only [List.all_eq_true, beq_iff_eq]
    have hb : ∀ b : Bond .pbc rows cols, Between b := by rintro (b | b) <;> simp [Between, external]
    have hd : dv 1 0 = dim (.inr (⟨1, by rw [slots_pbc]; omega⟩, ⟨0, by omega⟩)) :=
      h.vertical (⟨1, by rw [slots_pbc]; omega⟩, ⟨0, by omega⟩)
    constructor
    · intro h' b b' _ _
      exact (h' _ ((mem_lambdaDims h _).2 ⟨b, rfl⟩)).symm.trans
        (h' _ ((mem_lambdaDims h _).2 ⟨b', rfl⟩))
    · intro hu d hd'
      obtain ⟨b, rfl⟩ := (mem_lambdaDims h d).1 hd'
      exact hd.trans (hu _ _ (hb _) (hb _))

/-- **C101, false for chains.** With a single row or column the answer is always yes. -/
theorem C101_peps_chain_always_uniform (h : rows ≤ 1 ∨ cols ≤ 1) :
    pepsUniform rows cols bc dv dh = true := by
  unfold pepsUniform; rw [if_pos h]

/-! ## Cases -/

/-- dimensions 2 on horizontal and 3 on vertical bonds of an open 2×3 lattice -/
example : Legs (bc := .obc) (rows := 2) (cols := 3)
    (fun r c k => match k with
      | 0 => if c = 0 then 1 else 2
      | 1 => if r = 1 then 1 else 3
      | 2 => if c = 2 then 1 else 2
      | _ => if r = 0 then 1 else 3)
    (fun b => match b with
      | .inl b => if (b.2 : ℕ) = 0 ∨ (b.2 : ℕ) = 3 then 1 else 2
      | .inr b => if (b.1 : ℕ) = 0 ∨ (b.1 : ℕ) = 2 then 1 else 3) where
  leg := by decide
  external := by
    rintro (b | b) hb
    · exact if_pos hb.2
    · exact if_pos hb.2

example : let sh : ℕ → ℕ → ℕ → ℕ := fun r c k => match k with
      | 0 => if c = 0 then 1 else 2
      | 1 => if r = 1 then 1 else 3
      | 2 => if c = 2 then 1 else 2
      | _ => if r = 0 then 1 else 3
    maxBond 2 3 sh = 3 ∧ minMaxBond 2 3 .obc sh = some (2, 3) ∧ isEven 2 3 .obc sh = false ∧
    allInnerBonds 2 3 .obc sh = some [3, 2, 3, 2, 3, 2, 2] := by decide

/-- a uniform open chain of four sites with bonds of dimension two is reported as uneven, and a PEPS
chain with bonds of dimensions 2, 3, 2 as uniform -/
example : isEven 1 4 .obc (fun _ c k => match k with
      | 0 => if c = 0 then 1 else 2
      | 2 => if c = 3 then 1 else 2
      | _ => 1) = false ∧
    pepsUniform 1 4 .obc (fun _ _ => 1) (fun _ c => if c = 2 then 3 else if c = 0 ∨ c = 4 then 1 else 2)
      = true := by decide

end QLPeps.SplitIndex
