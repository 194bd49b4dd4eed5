import Verif.Lemmas.TraversalRun

/-! # Coverage of the amplitudes of a traversal; list of what is seen -/

namespace QLPeps.Contractor

universe u

section Count
variable {M : Type u} [CommMonoid M] (rows cols : ℕ) (t : Site → M)

/-- site at position `j` (counted from the left or the top) of slice `s` -/
def siteOn (p : Pos) (s j : ℕ) : Site :=
  match p with
  | .left => (s, j)
  | .right => (s, j)
  | .up => (j, s)
  | .down => (j, s)

theorem cross_count2 (p : Pos) (s j : ℕ) (hs : s + 1 < width rows cols p)
    (hj : j < span rows cols p) :
    facing (countingOps M rows cols) rows cols (pre p)
        (beyond (countingOps M rows cols) rows cols t (pre p) (nearer (pre p) s)) j
      * t (siteOn p (nearer (pre p) s) j) * t (siteOn p (nearer (next p) s) j)
      * facing (countingOps M rows cols) rows cols (next p)
        (beyond (countingOps M rows cols) rows cols t (next p) (nearer (next p) s)) j
      = crossProd rows cols t p j := by
  unfold beyond
  rw [facing_count _ _ _ _ _ _ (by rw [width_pre]; exact hj),
    facing_count _ _ _ _ _ _ (by rw [width_next]; exact hj)]
  cases p <;>
    simp only [pre, next, nearer, siteOn, depth, layerSite, crossProd, width, span] at *
  · rw [← prod_split rows (s + 1) hs fun i => t (i, j), Finset.prod_range_succ]
  · rw [← prod_split cols (s + 1) hs fun i => t (j, i), Finset.prod_range_succ]
  · rw [← prod_split rows (s + 1) hs fun i => t (i, j), Finset.prod_range_succ]; ac_rfl
  · rw [← prod_split cols (s + 1) hs fun i => t (j, i), Finset.prod_range_succ]; ac_rfl

theorem benv2_count (p : Pos) (s k : ℕ) (hs : s + 1 < width rows cols p)
    (hk : k ≤ span rows cols p) :
    benv2 (countingOps M rows cols) rows cols t p s k
      = ∏ i ∈ Finset.range k, crossProd rows cols t p (along rows cols p i) := by
  induction k with
  | zero => simp [benv2, countingOps]
  | succ k ih =>
    rw [benv2_succ, ih (by omega), Finset.prod_range_succ]
    have := cross_count2 rows cols t p s (along rows cols p k) hs
      (by cases p <;> simp only [along, span] at * <;> omega)
    rw [← this]
    cases p <;> simp only [countingOps, cell, along, g1, g2, siteOn, mul_assoc]

theorem cross_prod (p : Pos) (hp : p = .left ∨ p = .up) :
    ∏ j ∈ Finset.range (span rows cols p), crossProd rows cols t p j
      = ∏ r ∈ Finset.range rows, ∏ c ∈ Finset.range cols, t (r, c) := by
  rcases hp with rfl | rfl
  · simp only [crossProd, span]; rw [Finset.prod_comm]
  · simp only [crossProd, span]

theorem one_count (r c : ℕ) (hr : r < rows) (hc : c < cols) :
    oneAmp (countingOps M rows cols) rows cols t (r, c)
      = ∏ r ∈ Finset.range rows, ∏ c ∈ Finset.range cols, t (r, c) := by
  rw [← cross_prod rows cols t .left (Or.inl rfl)]
  have c1 := cross_count rows cols t .left r c hr hc
  have b1 := benv_count rows cols t .left r c hr (by simp only [span]; omega)
  have b2 := benv_count rows cols t .right r (cols - 1 - c) hr (by simp only [span]; omega)
  have ps := prod_split cols c hc (crossProd rows cols t .left)
  simp only [pre, next, span, width, oneAmp, crossProd, along] at *
  rw [← ps, ← c1, ← b1, ← b2]
  simp only [countingOps]
  ac_rfl

theorem hole_count (r c : ℕ) :
    holeAt (countingOps M rows cols) rows cols t (r, c) * t (r, c)
      = oneAmp (countingOps M rows cols) rows cols t (r, c) := by
  simp only [holeAt, oneAmp, countingOps]
  ac_rfl

theorem plaquette_count (r c : ℕ) (hr : r + 1 < rows) (hc : c + 1 < cols) :
    plaquetteAmp (countingOps M rows cols) rows cols t (r, c)
      = ∏ r ∈ Finset.range rows, ∏ c ∈ Finset.range cols, t (r, c) := by
  rw [← cross_prod rows cols t .left (Or.inl rfl)]
  have c1 := cross_count2 rows cols t .left r c hr (by simp only [span]; omega)
  have c2 := cross_count2 rows cols t .left r (c + 1) hr (by simp only [span]; omega)
  have b1 := benv2_count rows cols t .left r c hr (by simp only [span]; omega)
  have b2 := benv2_count rows cols t .right r (cols - 1 - (c + 1)) hr (by simp only [span]; omega)
  have ps := prod_split cols (c + 1) hc (crossProd rows cols t .left)
  rw [Finset.prod_range_succ] at ps
  simp only [pre, next, nearer, siteOn, span, width, plaquetteAmp, crossProd, along] at *
  rw [← ps, ← c1, ← c2, ← b1, ← b2]
  simp only [countingOps]
  ac_rfl

theorem block_count (d : Orient) (r c : ℕ)
    (h : match d with
      | .horizontal => r + 1 < rows ∧ c + 2 < cols
      | .vertical => r + 2 < rows ∧ c + 1 < cols) :
    blockAmp (countingOps5 M rows cols) rows cols t d (r, c)
      = ∏ r ∈ Finset.range rows, ∏ c ∈ Finset.range cols, t (r, c) := by
  cases d with
  | horizontal =>
    obtain ⟨hr, hc⟩ := h
    rw [← cross_prod rows cols t .left (Or.inl rfl)]
    have c1 := cross_count2 rows cols t .left r c hr (by simp only [span]; omega)
    have c2 := cross_count2 rows cols t .left r (c + 1) hr (by simp only [span]; omega)
    have c3 := cross_count2 rows cols t .left r (c + 2) hr (by simp only [span]; omega)
    have b1 := benv2_count rows cols t .left r c hr (by simp only [span]; omega)
    have b2 := benv2_count rows cols t .right r (cols - 1 - (c + 2)) hr
      (by simp only [span]; omega)
    have ps := prod_split cols (c + 2) hc (crossProd rows cols t .left)
    rw [Finset.prod_range_succ, Finset.prod_range_succ] at ps
    simp only [pre, next, nearer, siteOn, span, width, blockAmp, column2, crossProd, along] at *
    rw [← ps, ← c1, ← c2, ← c3, ← b1, ← b2]
    simp only [countingOps, countingOps5]
    ac_rfl
  | vertical =>
    obtain ⟨hr, hc⟩ := h
    rw [← cross_prod rows cols t .up (Or.inr rfl)]
    have c1 := cross_count2 rows cols t .up c r hc (by simp only [span]; omega)
    have c2 := cross_count2 rows cols t .up c (r + 1) hc (by simp only [span]; omega)
    have c3 := cross_count2 rows cols t .up c (r + 2) hc (by simp only [span]; omega)
    have b1 := benv2_count rows cols t .up c r hc (by simp only [span]; omega)
    have b2 := benv2_count rows cols t .down c (rows - 1 - (r + 2)) hc
      (by simp only [span]; omega)
    have ps := prod_split rows (r + 2) hr (crossProd rows cols t .up)
    rw [Finset.prod_range_succ, Finset.prod_range_succ] at ps
    simp only [pre, next, nearer, siteOn, span, width, blockAmp, column2, crossProd, along] at *
    rw [← ps, ← c1, ← c2, ← c3, ← b1, ← b2]
    simp only [countingOps, countingOps5]
    ac_rfl

end Count

end QLPeps.Contractor

namespace QLPeps.Contractor

universe u

/-! ## every bond once -/

section Once
variable {T E B C C2 A H : Type u}
variable (o : Ops5 T E B C C2 A H) (rows cols : ℕ) (t : Site → T)

theorem filterMap_nil {α β : Type*} (f : α → Option β) (l : List α) (h : ∀ a ∈ l, f a = none) :
    l.filterMap f = [] := by
  induction l with
  | nil => rfl
  | cons a l ih =>
    rw [List.filterMap_cons_none (h a (by simp)), ih fun b hb => h b (by simp [hb])]

theorem filterMap_flatMap' {α β γ : Type*} (f : β → Option γ) (g : α → List β) (l : List α) :
    (l.flatMap g).filterMap f = l.flatMap fun a => (g a).filterMap f := by
  induction l with
  | nil => rfl
  | cons a l ih => simp [List.filterMap_append, ih]

theorem nodup_grid {β : Type*} (n : ℕ) (m : ℕ → ℕ) (f : ℕ → ℕ → List β)
    (h1 : ∀ i j, (f i j).Nodup)
    (h2 : ∀ i j i' j' b, b ∈ f i j → b ∈ f i' j' → i = i' ∧ j = j') :
    ((List.range n).flatMap fun i => (List.range (m i)).flatMap (f i)).Nodup := by
  rw [List.nodup_flatMap]
  refine ⟨fun i _ => ?_, ?_⟩
  · rw [List.nodup_flatMap]
    refine ⟨fun j _ => h1 i j, ?_⟩
    refine List.Pairwise.imp ?_ (List.nodup_range (n := m i))
    intro j j' hne
    rw [Function.onFun, List.disjoint_left]
    exact fun b hb hb' => hne (h2 i j i j' b hb hb').2
  · refine List.Pairwise.imp ?_ (List.nodup_range (n := n))
    intro i i' hne
    rw [Function.onFun, List.disjoint_left]
    intro b hb hb'
    obtain ⟨j, _, hj⟩ := List.mem_flatMap.1 hb
    obtain ⟨j', _, hj'⟩ := List.mem_flatMap.1 hb'
    exact hne (h2 i j i' j' b hj hj').1

theorem rowVisits_bonds (pl : Plan T) (row : ℕ) :
    (rowVisits o rows cols t pl row).filterMap Visit.bondOf
      = (List.range cols).flatMap fun col =>
        if col + 1 < cols then [((row, col), (row, col + 1))] else [] := by
  unfold rowVisits
  rw [List.filterMap_append, List.filterMap_append, List.filterMap_append, filterMap_flatMap']
  have e1 : ∀ a : A, (if pl.rowPsi = true then [Visit.psi (T := T) (H := H) .horizontal (row, 0) a]
      else []).filterMap Visit.bondOf = [] := by
    intro a; split <;> rfl
  have e3 : (if pl.links = true ∧ row + 1 < rows then (List.range (cols - 1)).flatMap fun col =>
      [seeLink o rows cols t .leftUpToRightDown (row, col) (row, col) (row + 1, col + 1),
       seeLink o rows cols t .leftDownToRightUp (row, col) (row + 1, col) (row, col + 1)] ++
      (if pl.links5 = true ∧ col + 2 < cols then
        [seeLink5 o rows cols t .horizontal (row, col) (row + 1, col) (row, col + 2)] else [])
      else []).filterMap Visit.bondOf = [] := by
    apply filterMap_nil
    intro a ha
    split at ha
    · obtain ⟨col, _, ha⟩ := List.mem_flatMap.1 ha
      split at ha <;> simp only [List.mem_append, List.mem_cons, List.not_mem_nil, or_false] at ha
      · rcases ha with (rfl | rfl) | rfl <;> rfl
      · rcases ha with rfl | rfl <;> rfl
    · simp at ha
  have e4 : (pairVisits o rows cols t row (pl.corr row)).filterMap Visit.bondOf = [] := by
    apply filterMap_nil
    intro a ha
    unfold pairVisits at ha
    split at ha
    · simp at ha
    · obtain ⟨i, _, rfl⟩ := List.mem_map.1 ha; rfl
  rw [e1, e3, e4]
  simp only [List.nil_append, List.append_nil]
  congr 1
  funext col
  split <;> split <;> split <;> rfl

theorem colVisits_bonds (pl : Plan T) (col : ℕ) :
    (colVisits o rows cols t pl col).filterMap Visit.bondOf
      = (List.range (rows - 1)).flatMap fun row => [((row, col), (row + 1, col))] := by
  unfold colVisits
  rw [List.filterMap_append, List.filterMap_append]
  have e3 : (if pl.links5 = true ∧ col + 1 < cols then (List.range (rows - 2)).map fun row =>
      seeLink5 o rows cols t .vertical (row, col) (row + 2, col) (row, col + 1)
     else []).filterMap Visit.bondOf = [] := by
    apply filterMap_nil
    intro a ha
    split at ha
    · obtain ⟨i, _, rfl⟩ := List.mem_map.1 ha; rfl
    · simp at ha
  rw [e3, List.append_nil, List.map_eq_flatMap, filterMap_flatMap']
  rfl

theorem bonds_once (pl : Plan T) :
    ((allVisits o rows cols t pl).filterMap Visit.bondOf).Nodup ∧
    ∀ s1 s2 : Site, (s1, s2) ∈ (allVisits o rows cols t pl).filterMap Visit.bondOf ↔
      inside rows cols s1 ∧ inside rows cols s2 ∧
        (s2 = (s1.1, s1.2 + 1) ∨ s2 = (s1.1 + 1, s1.2)) := by
  unfold allVisits
  rw [List.filterMap_append, filterMap_flatMap', filterMap_flatMap']
  simp only [rowVisits_bonds, colVisits_bonds]
  constructor
  · rw [List.nodup_append]
    refine ⟨nodup_grid rows (fun _ => cols) _ ?_ ?_, nodup_grid cols (fun _ => rows - 1) _ ?_ ?_, ?_⟩
    · intro i j; split <;> simp
    · intro i j i' j' b hb hb'
      split at hb <;> split at hb' <;> simp_all
    · intro i j; simp
    · intro i j i' j' b hb hb'
      simp_all
    · intro a ha b hb hab
      subst hab
      simp only [List.mem_flatMap, List.mem_range] at ha hb
      obtain ⟨r, -, c, -, ha⟩ := ha
      obtain ⟨c', -, r', -, hb⟩ := hb
      split at ha
      · simp only [List.mem_singleton] at ha hb
        rw [ha] at hb
        simp only [Prod.mk.injEq] at hb
        omega
      · simp at ha
  · rintro ⟨a, b⟩ ⟨c, d⟩
    simp only [List.mem_append, List.mem_flatMap, List.mem_range, inside, Prod.mk.injEq]
    constructor
    · rintro (⟨r, hr, j, hj, h⟩ | ⟨j, hj, r, hr, h⟩)
      · split at h
        · simp only [List.mem_singleton, Prod.mk.injEq] at h; omega
        · simp at h
      · simp only [List.mem_singleton, Prod.mk.injEq] at h; omega
    · rintro ⟨⟨h1, h2⟩, ⟨h3, h4⟩, h | h⟩
      · left
        refine ⟨a, h1, b, h2, ?_⟩
        rw [if_pos (by omega)]
        simp [h]
      · right
        refine ⟨b, h2, a, by omega, ?_⟩
        simp [h]

theorem rowVisits_links (pl : Plan T) (row : ℕ) :
    (rowVisits o rows cols t pl row).filterMap Visit.linkOf
      = if pl.links = true ∧ row + 1 < rows then (List.range (cols - 1)).flatMap fun col =>
        [((row, col), (row + 1, col + 1)), ((row + 1, col), (row, col + 1))] else [] := by
  unfold rowVisits
  rw [List.filterMap_append, List.filterMap_append, List.filterMap_append]
  have e1 : ∀ a : A, (if pl.rowPsi = true then [Visit.psi (T := T) (H := H) .horizontal (row, 0) a]
      else []).filterMap Visit.linkOf = [] := by
    intro a; split <;> rfl
  have e2 : ((List.range cols).flatMap fun col =>
    (if pl.holes = true then [Visit.hole (row, col) (holeAt o.toOps rows cols t (row, col))]
      else []) ++
    (if pl.sites = true then [seeSite o rows cols t (row, col)] else []) ++
    (if col + 1 < cols then [seeBond o rows cols t .horizontal (row, col) (row, col + 1)]
      else [])).filterMap Visit.linkOf = [] := by
    rw [filterMap_flatMap']
    apply List.flatMap_eq_nil_iff.2
    intro col _
    split <;> split <;> split <;> rfl
  have e4 : (pairVisits o rows cols t row (pl.corr row)).filterMap Visit.linkOf = [] := by
    apply filterMap_nil
    intro a ha
    unfold pairVisits at ha
    split at ha
    · simp at ha
    · obtain ⟨i, _, rfl⟩ := List.mem_map.1 ha; rfl
  rw [e1, e2, e4]
  simp only [List.nil_append, List.append_nil]
  split
  · rw [filterMap_flatMap']
    congr 1
    funext col
    split <;> rfl
  · rfl

theorem colVisits_links (pl : Plan T) (col : ℕ) :
    (colVisits o rows cols t pl col).filterMap Visit.linkOf = [] := by
  apply filterMap_nil
  intro a ha
  unfold colVisits at ha
  rw [List.mem_append, List.mem_append] at ha
  rcases ha with (ha | ha) | ha
  · rw [List.mem_singleton.1 ha]; rfl
  · obtain ⟨i, _, rfl⟩ := List.mem_map.1 ha; rfl
  · split at ha
    · obtain ⟨i, _, rfl⟩ := List.mem_map.1 ha; rfl
    · simp at ha

theorem links_once (pl : Plan T) (hl : pl.links = true) :
    ((allVisits o rows cols t pl).filterMap Visit.linkOf).Nodup ∧
    ∀ s1 s2 : Site, (s1, s2) ∈ (allVisits o rows cols t pl).filterMap Visit.linkOf ↔
      inside rows cols s1 ∧ inside rows cols s2 ∧
        (s2 = (s1.1 + 1, s1.2 + 1) ∨ s1.1 = s2.1 + 1 ∧ s2.2 = s1.2 + 1) := by
  unfold allVisits
  rw [List.filterMap_append, filterMap_flatMap', filterMap_flatMap']
  simp only [rowVisits_links, colVisits_links, hl, true_and]
  have e : ((List.range rows).flatMap fun row => if row + 1 < rows then
        (List.range (cols - 1)).flatMap fun col =>
        [((row, col), (row + 1, col + 1)), ((row + 1, col), (row, col + 1))] else [])
      = (List.range rows).flatMap fun row =>
        (List.range (if row + 1 < rows then cols - 1 else 0)).flatMap fun col =>
        [((row, col), (row + 1, col + 1)), ((row + 1, col), (row, col + 1))] := by
    congr 1; funext row; split <;> rfl
  rw [e, show ((List.range cols).flatMap fun _ => ([] : List (Site × Site))) = [] by simp,
    List.append_nil]
  constructor
  · refine nodup_grid rows _ _ ?_ ?_
    · intro i j; simp
    · intro i j i' j' b hb hb'
      simp only [List.mem_cons, List.not_mem_nil, or_false] at hb hb'
      rcases hb with rfl | rfl <;> rcases hb' with hb' | hb' <;>
        simp only [Prod.mk.injEq] at hb' <;> omega
  · rintro ⟨a, b⟩ ⟨c, d⟩
    simp only [List.mem_flatMap, List.mem_range, inside, Prod.mk.injEq]
    constructor
    · rintro ⟨r, hr, j, hj, h⟩
      split at hj
      · simp only [List.mem_cons, List.not_mem_nil, or_false, Prod.mk.injEq] at h; omega
      · omega
    · rintro ⟨⟨h1, h2⟩, ⟨h3, h4⟩, h | h⟩
      · refine ⟨a, h1, b, ?_, ?_⟩
        · rw [if_pos (by omega)]; omega
        · simp [h]
      · refine ⟨c, h3, b, ?_, ?_⟩
        · rw [if_pos (by omega)]; omega
        · simp [h]

theorem rowVisits_holes (pl : Plan T) (hh : pl.holes = true) (row : ℕ) :
    (rowVisits o rows cols t pl row).filterMap Visit.holeOf
      = (List.range cols).flatMap fun col => [(row, col)] := by
  unfold rowVisits
  rw [List.filterMap_append, List.filterMap_append, List.filterMap_append, filterMap_flatMap']
  have e1 : ∀ a : A, (if pl.rowPsi = true then [Visit.psi (T := T) (H := H) .horizontal (row, 0) a]
      else []).filterMap Visit.holeOf = [] := by
    intro a; split <;> rfl
  have e3 : (if pl.links = true ∧ row + 1 < rows then (List.range (cols - 1)).flatMap fun col =>
      [seeLink o rows cols t .leftUpToRightDown (row, col) (row, col) (row + 1, col + 1),
       seeLink o rows cols t .leftDownToRightUp (row, col) (row + 1, col) (row, col + 1)] ++
      (if pl.links5 = true ∧ col + 2 < cols then
        [seeLink5 o rows cols t .horizontal (row, col) (row + 1, col) (row, col + 2)] else [])
      else []).filterMap Visit.holeOf = [] := by
    apply filterMap_nil
    intro a ha
    split at ha
    · obtain ⟨col, _, ha⟩ := List.mem_flatMap.1 ha
      split at ha <;> simp only [List.mem_append, List.mem_cons, List.not_mem_nil, or_false] at ha
      · rcases ha with (rfl | rfl) | rfl <;> rfl
      · rcases ha with rfl | rfl <;> rfl
    · simp at ha
  have e4 : (pairVisits o rows cols t row (pl.corr row)).filterMap Visit.holeOf = [] := by
    apply filterMap_nil
    intro a ha
    unfold pairVisits at ha
    split at ha
    · simp at ha
    · obtain ⟨i, _, rfl⟩ := List.mem_map.1 ha; rfl
  rw [e1, e3, e4]
  simp only [List.nil_append, List.append_nil]
  congr 1
  funext col
  rw [if_pos hh]
  split <;> split <;> rfl

theorem colVisits_holes (pl : Plan T) (col : ℕ) :
    (colVisits o rows cols t pl col).filterMap Visit.holeOf = [] := by
  apply filterMap_nil
  intro a ha
  unfold colVisits at ha
  rw [List.mem_append, List.mem_append] at ha
  rcases ha with (ha | ha) | ha
  · rw [List.mem_singleton.1 ha]; rfl
  · obtain ⟨i, _, rfl⟩ := List.mem_map.1 ha; rfl
  · split at ha
    · obtain ⟨i, _, rfl⟩ := List.mem_map.1 ha; rfl
    · simp at ha

theorem holes_once (pl : Plan T) (hh : pl.holes = true) :
    ((allVisits o rows cols t pl).filterMap Visit.holeOf).Nodup ∧
    ∀ s : Site, s ∈ (allVisits o rows cols t pl).filterMap Visit.holeOf ↔ inside rows cols s := by
  unfold allVisits
  rw [List.filterMap_append, filterMap_flatMap', filterMap_flatMap']
  simp only [rowVisits_holes _ _ _ _ _ hh, colVisits_holes]
  rw [show ((List.range cols).flatMap fun _ => ([] : List Site)) = [] by simp, List.append_nil]
  constructor
  · refine nodup_grid rows (fun _ => cols) _ ?_ ?_
    · intro i j; simp
    · intro i j i' j' b hb hb'
      simp_all
  · rintro ⟨a, b⟩
    simp only [List.mem_flatMap, List.mem_range, inside, List.mem_singleton, Prod.mk.injEq]
    constructor
    · rintro ⟨r, hr, j, hj, h⟩; omega
    · rintro ⟨h1, h2⟩; exact ⟨a, h1, b, h2, rfl, rfl⟩

theorem rowVisits_links5 (pl : Plan T) (hl : pl.links = true ∧ pl.links5 = true) (row : ℕ) :
    (rowVisits o rows cols t pl row).filterMap Visit.link5Of
      = (List.range (if row + 1 < rows then cols - 2 else 0)).flatMap fun col =>
        [((row + 1, col), (row, col + 2))] := by
  unfold rowVisits
  rw [List.filterMap_append, List.filterMap_append, List.filterMap_append]
  have e1 : ∀ a : A, (if pl.rowPsi = true then [Visit.psi (T := T) (H := H) .horizontal (row, 0) a]
      else []).filterMap Visit.link5Of = [] := by
    intro a; split <;> rfl
  have e2 : ((List.range cols).flatMap fun col =>
    (if pl.holes = true then [Visit.hole (row, col) (holeAt o.toOps rows cols t (row, col))]
      else []) ++
    (if pl.sites = true then [seeSite o rows cols t (row, col)] else []) ++
    (if col + 1 < cols then [seeBond o rows cols t .horizontal (row, col) (row, col + 1)]
      else [])).filterMap Visit.link5Of = [] := by
    rw [filterMap_flatMap']
    apply List.flatMap_eq_nil_iff.2
    intro col _
    split <;> split <;> split <;> rfl
  have e4 : (pairVisits o rows cols t row (pl.corr row)).filterMap Visit.link5Of = [] := by
    apply filterMap_nil
    intro a ha
    unfold pairVisits at ha
    split at ha
    · simp at ha
    · obtain ⟨i, _, rfl⟩ := List.mem_map.1 ha; rfl
  rw [e1, e2, e4]
  simp only [List.nil_append, List.append_nil, hl.1, hl.2, true_and]
  split
  · rw [filterMap_flatMap']
    rcases Nat.lt_or_ge cols 2 with h | h
    · rw [show cols - 1 = 0 by omega, show cols - 2 = 0 by omega]; rfl
    · rw [show cols - 1 = cols - 2 + 1 by omega, List.range_succ, List.flatMap_append]
      have : (List.flatMap (fun col => List.filterMap Visit.link5Of
          ([seeLink o rows cols t .leftUpToRightDown (row, col) (row, col) (row + 1, col + 1),
            seeLink o rows cols t .leftDownToRightUp (row, col) (row + 1, col) (row, col + 1)] ++
          if col + 2 < cols then
            [seeLink5 o rows cols t .horizontal (row, col) (row + 1, col) (row, col + 2)]
          else [])) [cols - 2]) = [] := by
        simp only [List.flatMap_cons, List.flatMap_nil, List.append_nil]
        rw [if_neg (by omega)]; rfl
      rw [this, List.append_nil]
      refine List.flatMap_congr fun col hcol => ?_
      have := List.mem_range.1 hcol
      rw [if_pos (by omega)]; rfl
  · rfl

theorem colVisits_links5 (pl : Plan T) (hl : pl.links5 = true) (col : ℕ) :
    (colVisits o rows cols t pl col).filterMap Visit.link5Of
      = (List.range (if col + 1 < cols then rows - 2 else 0)).flatMap fun row =>
        [((row + 2, col), (row, col + 1))] := by
  unfold colVisits
  rw [List.filterMap_append, List.filterMap_append]
  have e2 : ((List.range (rows - 1)).map fun row =>
      seeBond o rows cols t .vertical (row, col) (row + 1, col)).filterMap Visit.link5Of = [] := by
    apply filterMap_nil
    intro a ha
    obtain ⟨i, _, rfl⟩ := List.mem_map.1 ha; rfl
  rw [e2, List.append_nil]
  simp only [hl, true_and]
  split
  · rw [List.map_eq_flatMap, filterMap_flatMap']; rfl
  · rfl

theorem links5_once (pl : Plan T) (hl : pl.links = true ∧ pl.links5 = true) :
    ((allVisits o rows cols t pl).filterMap Visit.link5Of).Nodup ∧
    ∀ s1 s2 : Site, (s1, s2) ∈ (allVisits o rows cols t pl).filterMap Visit.link5Of ↔
      inside rows cols s1 ∧ inside rows cols s2 ∧
        (s1.1 = s2.1 + 1 ∧ s2.2 = s1.2 + 2 ∨ s1.1 = s2.1 + 2 ∧ s2.2 = s1.2 + 1) := by
  unfold allVisits
  rw [List.filterMap_append, filterMap_flatMap', filterMap_flatMap']
  simp only [rowVisits_links5 _ _ _ _ _ hl, colVisits_links5 _ _ _ _ _ hl.2]
  constructor
  · rw [List.nodup_append]
    refine ⟨nodup_grid rows _ _ ?_ ?_, nodup_grid cols _ _ ?_ ?_, ?_⟩
    · intro i j; simp
    · intro i j i' j' b hb hb'
      simp_all
    · intro i j; simp
    · intro i j i' j' b hb hb'
      simp_all
    · intro a ha b hb hab
      subst hab
      simp only [List.mem_flatMap, List.mem_range] at ha hb
      obtain ⟨r, -, c, -, ha⟩ := ha
      obtain ⟨c', -, r', -, hb⟩ := hb
      simp only [List.mem_singleton] at ha hb
      rw [ha] at hb
      simp only [Prod.mk.injEq] at hb
      omega
  · rintro ⟨a, b⟩ ⟨c, d⟩
    simp only [List.mem_append, List.mem_flatMap, List.mem_range, inside, List.mem_singleton,
      Prod.mk.injEq]
    constructor
    · rintro (⟨r, hr, j, hj, h⟩ | ⟨j, hj, r, hr, h⟩)
      · split at hj <;> omega
      · split at hr <;> omega
    · rintro ⟨⟨h1, h2⟩, ⟨h3, h4⟩, h | h⟩
      · left
        exact ⟨c, h3, b, by rw [if_pos (by omega)]; omega, by omega⟩
      · right
        exact ⟨b, h2, c, by rw [if_pos (by omega)]; omega, by omega⟩

end Once

/-! ## where a traversal fails -/

section Fails
variable {T E B C C2 A H : Type u}
variable (o : Ops5 T E B C C2 A H) (rows cols : ℕ) (t : Site → T) (isZero : A → Bool)

theorem bind_error_of {α β : Type u} {x : Except Fail α} {f : α → Except Fail β}
    (h : ∀ a, x = .ok a → ∃ e, f a = .error e) : ∃ e, (x >>= f) = .error e := by
  cases x with
  | error e => exact ⟨e, rfl⟩
  | ok a => exact h a rfl

theorem access_none_bind {α β : Type u} {x : Option α} (hx : x = none) (f : α → Except Fail β) :
    (access x >>= f) = .error .outOfRange := by
  subst hx; rfl

theorem foldlM_first {α : Type u} (f : α → ℕ → Except Fail α) (n : ℕ) (hn : 1 ≤ n) (a : α)
    (h : ∃ e, f a 0 = .error e) : ∃ e, (List.range n).foldlM f a = .error e := by
  obtain ⟨m, rfl⟩ : ∃ m, n = m + 1 := ⟨n - 1, by omega⟩
  obtain ⟨e, he⟩ := h
  rw [List.range_succ_eq_map, List.foldlM_cons, he]
  exact ⟨e, rfl⟩

/-- a single row fails at the latest in the first column -/
theorem single_row_fails (pl : Plan T) (hr : rows ≤ 1) (hc : 1 ≤ cols) (c : Ctr B C C2) :
    ∃ e, traverseAll o rows cols t isZero pl c = .error e := by
  unfold traverseAll
  refine bind_error_of fun x _ => ?_
  have : ∃ e, traverseVertical o rows cols t isZero pl x.2 = .error e := by
    unfold traverseVertical
    refine bind_error_of fun c1 _ => foldlM_first _ _ hc _ ?_
    unfold colLoop
    refine bind_error_of fun y hy => ?_
    exfalso
    unfold traverseCol at hy
    cases h1 : initBTen o.toOps rows cols .up 0 c1 with
    | none => simp only [h1] at hy; cases hy
    | some c2 =>
      simp only [h1, access_some, ok_bind] at hy
      rw [access_none_bind (growFullBTen_short o.toOps rows cols t .down 0 2 true c2
        (by simp only [span]; omega))] at hy
      cases hy
  obtain ⟨e, he⟩ := this
  exact ⟨e, by rw [he]; rfl⟩

/-- a single column fails at the first amplitude of a row -/
theorem single_col_fails (pl : Plan T) (hp : pl.rowPsi = true) (hr : 1 ≤ rows) (hc : cols ≤ 1)
    (c : Ctr B C C2) : ∃ e, traverseAll o rows cols t isZero pl c = .error e := by
  unfold traverseAll
  refine bind_error_of fun x hx => ?_
  exfalso
  have : ∃ e, traverseHorizontal o rows cols t isZero pl c = .error e := by
    unfold traverseHorizontal
    refine bind_error_of fun c1 _ => foldlM_first _ _ hr _ ?_
    unfold rowLoop
    refine bind_error_of fun y hy => ?_
    exfalso
    revert hy
    have : ∃ e, traverseRow o rows cols t isZero pl 0 c1 = .error e := by
      unfold traverseRow
      refine bind_error_of fun c2 _ => bind_error_of fun c3 _ => bind_error_of fun p hp' => ?_
      exfalso
      unfold psiPart at hp'
      rw [if_pos hp] at hp'
      unfold startPsi at hp'
      have : trace o.toOps rows cols t c3 (0, 0) .horizontal = none := by
        unfold trace
        simp only
        have : site? rows cols t (0, 0 + 1) = none := if_neg (by simp only; omega)
        rw [this]
        cases site? rows cols t (0, 0) <;> rfl
      rw [access_none_bind this] at hp'
      cases hp'
    obtain ⟨e, he⟩ := this
    simp only [he]
    intro h; cases h
  obtain ⟨e, he⟩ := this
  rw [he] at hx
  cases hx

/-- after the bonds of a row only one boundary tensor is left on the right -/
theorem row_bonds_line (pl : Plan T) (hl : pl.links = false) (hk : ∀ r, pl.corr r = none)
    (row : ℕ) (hr : row < rows) (hc : 2 ≤ cols) (c : Ctr B C C2)
    (hg : Good o.toOps rows cols t c) (hw : Window o.toOps rows cols t c .left row) :
    ∃ l c', traverseRow o rows cols t (fun _ => false) pl row c = .ok (l, c') ∧
      Line o.toOps rows cols t .left row (cols - 1) 1 c' := by
  obtain ⟨c1, c2, h1, -, -, h2, hln⟩ := prepare_line o.toOps rows cols t .left row 1 hr (le_refl 1)
    (by simp only [span]; omega) c hg hw
  simp only [opposite, span] at h2 hln
  obtain ⟨-, p2⟩ := psiPart_fresh o rows cols t (fun _ => false) pl row _ hr hc c2 (by omega) hln
  unfold traverseRow
  simp only [h1, access_some, ok_bind, h2]
  rw [p2 (fun h => by cases h.2), ok_bind]
  generalize (if pl.rowPsi = true then _ else _ : List (Visit T A H)) = ps
  obtain ⟨c3, hf, hI⟩ := foldlM_visits' (rowStep o rows cols t pl row)
    (rowStepVisits o rows cols t pl row) (RowInv o rows cols t row) cols ps c2
    (by
      unfold RowInv
      rw [Nat.zero_min, Nat.sub_zero]
      have : cols - 1 + 1 = cols := by omega
      rw [this] at hln
      exact hln)
    (fun i hi l c h => rowStep_fresh o rows cols t pl row hr i hi l c h)
  unfold RowInv at hI
  rw [min_eq_right (by omega), show cols - (cols - 1) = 1 by omega] at hI
  refine ⟨ps ++ (List.range cols).flatMap (rowStepVisits o rows cols t pl row), c3, ?_, hI⟩
  rw [hf, ok_bind]
  unfold linkPart
  rw [if_neg (fun h => by rw [hl] at h; cases h.1), pure_ok, ok_bind]
  unfold corrPart
  rw [hk row]
  rfl

theorem triMeasure_fails (flip : ℕ → T) (hr : 2 ≤ rows) (hc : 3 ≤ cols) (c : Ctr B C C2)
    (hg : Good o.toOps rows cols t c) :
    triMeasureHorizontal o rows cols t flip c = .error .outOfRange := by
  obtain ⟨c1, e1, g1, w1⟩ := generate_window o.toOps rows cols t .left (Or.inl rfl) c hg
    (by simp only [width]; omega)
  simp only [decSide, opposite] at e1
  unfold triMeasureHorizontal
  rw [e1, access_some, ok_bind]
  obtain ⟨m, rfl⟩ : ∃ m, rows = m + 1 := ⟨rows - 1, by omega⟩
  rw [List.range_succ_eq_map, List.foldlM_cons]
  have : triRow o (m + 1) cols t flip ([], c1) 0 = .error .outOfRange := by
    unfold triRow
    obtain ⟨l, c2, e2, L2⟩ := row_bonds_line o (m + 1) cols t
      ⟨true, false, false, false, false, fun _ => none⟩ rfl (fun _ => rfl) 0 (by omega) (by omega)
      c1 g1 w1
    simp only [e2, ok_bind]
    unfold triCorrPart
    rw [if_neg (by omega), pure_ok, ok_bind, if_pos (by omega)]
    unfold triLinkPart
    obtain ⟨d1, d2, k1, k2, k3, k4, k5⟩ := prepare_line2 o (m + 1) cols t .left 0 2
      (by simp only [width]; omega) (by omega) (by simp only [span]; omega) c2 L2.2.1
    simp only [opposite] at k2
    simp only [k1, access_some, ok_bind, k2]
    have : startPsi o (m + 1) cols t (fun _ => false) (0, 0) .horizontal d2
        = .error .outOfRange := by
      unfold startPsi
      apply access_none_bind
      unfold trace
      simp only
      rw [show site? (m + 1) cols t (0, 0) = some (t (0, 0)) from if_pos ⟨by simp, by simp only; omega⟩,
        show site? (m + 1) cols t (0, 0 + 1) = some (t (0, 0 + 1)) from
          if_pos ⟨by simp, by simp only; omega⟩]
      simp only [Option.bind_some, nnTrace]
      have hb : btenAt (m + 1) cols d2 .right (0 + 1) = none := by
        unfold btenAt
        rw [stackIdx_depth (m + 1) cols .right (0 + 1) (by simp only [span]; omega)]
        simp only [Option.bind_some]
        rw [k4, show c2.bten .right = _ from L2.2.2.2]
        rw [List.getElem?_eq_none]
        rw [bstack_length]; simp only [depth]; omega
      rw [hb]
      simp only [Option.bind_none]
      have nb : ∀ {α β : Type u} (x : Option α), (x.bind fun _ => (none : Option β)) = none :=
        fun x => by cases x <;> rfl
      simp only [nb]
    rw [this]
    rfl
  rw [this]
  rfl

end Fails

end QLPeps.Contractor
