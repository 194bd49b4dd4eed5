import Verif.Model.Sweep
import Verif.Spec.Lattice
import Verif.Spec.SweepLog
import Mathlib.Algebra.BigOperators.Group.List.Basic
import Mathlib.Tactic.Ring

/-! # Lemmas about the sweep drivers: invariants and the list of attempted bonds -/

namespace QLPeps.Sweep

open QLPeps.Spec

variable {S : Type*}

theorem foldl_inv {α β : Type*} (I : β → Prop) (f : β → α → β) (l : List α)
    (h : ∀ b, I b → ∀ a ∈ l, I (f b a)) (b : β) (hb : I b) : I (l.foldl f b) := by
  induction l generalizing b with
  | nil => exact hb
  | cons a l ih =>
    exact ih (fun b hb a ha => h b hb a (List.mem_cons_of_mem _ ha)) _ (h b hb a (by simp))

/-- the contractor calls preserve `I` -/
structure EnvPres (o : EnvOps S) (I : S → Prop) : Prop where
  gen : ∀ p s, I s → I (o.generateBMPSApproach p s)
  init : ∀ p i s, I s → I (o.initBTen p i s)
  grow : ∀ p i r s, I s → I (o.growFullBTen p i r s)
  shiftT : ∀ p s, I s → I (o.shiftBTenWindow p s)
  shiftM : ∀ p s, I s → I (o.shiftBMPSWindow p s)
  del : ∀ p s, I s → I (o.deleteInnerBMPS p s)

/-- Invariant principle for the open-boundary nearest-neighbour sweep. -/
theorem obcSweep_inv (o : EnvOps S) (upd : Site → Site → Orient → S → S × Bool) (rows cols : ℕ)
    (I : S → Prop) (he : EnvPres o I)
    (hu : ∀ a b d s, InLattice rows cols a → InLattice rows cols b → a ≠ b →
      I s → I (upd a b d s).1)
    (s : S) (hs : I s) : I (obcSweep o upd rows cols s).1 := by
  have hrow : ∀ row, row < rows → ∀ sn : S × ℕ, I sn.1 → I (rowLoop o upd cols row sn).1 := by
    intro row hrow sn hsn
    refine foldl_inv (fun x : S × ℕ => I x.1) _ _ ?_ sn hsn
    intro b hb col hcol
    rw [List.mem_range] at hcol
    have h1 : I (upd (row, col) (row, col + 1) .horizontal b.1).1 :=
      hu _ _ _ _ ⟨hrow, by dsimp; omega⟩ ⟨hrow, by dsimp; omega⟩ (by simp) hb
    dsimp only
    split_ifs
    · exact he.shiftT _ _ h1
    · exact h1
  have hcol : ∀ col, col < cols → ∀ sn : S × ℕ, I sn.1 → I (colLoop o upd rows col sn).1 := by
    intro col hcol sn hsn
    refine foldl_inv (fun x : S × ℕ => I x.1) _ _ ?_ sn hsn
    intro b hb row hrow
    rw [List.mem_range] at hrow
    have h1 : I (upd (row, col) (row + 1, col) .vertical b.1).1 :=
      hu _ _ _ _ ⟨by dsimp; omega, hcol⟩ ⟨by dsimp; omega, hcol⟩ (by simp) hb
    dsimp only
    split_ifs
    · exact he.shiftT _ _ h1
    · exact h1
  have hH : ∀ sn : S × ℕ, I sn.1 → I (horizontalLoop o upd rows cols sn).1 := by
    intro sn hsn
    refine foldl_inv (fun x : S × ℕ => I x.1) _ _ ?_ sn hsn
    intro b hb row hr
    rw [List.mem_range] at hr
    have h1 := hrow row hr (o.growFullBTen .right row 2 (o.initBTen .left row b.1), b.2)
      (he.grow _ _ _ _ (he.init _ _ _ hb))
    dsimp only
    split_ifs
    · exact he.shiftM _ _ h1
    · exact h1
  have hV : ∀ sn : S × ℕ, I sn.1 → I (verticalLoop o upd rows cols sn).1 := by
    intro sn hsn
    refine foldl_inv (fun x : S × ℕ => I x.1) _ _ ?_ sn hsn
    intro b hb col hr
    rw [List.mem_range] at hr
    have h1 := hcol col hr (o.growFullBTen .down col 2 (o.initBTen .up col b.1), b.2)
      (he.grow _ _ _ _ (he.init _ _ _ hb))
    dsimp only
    split_ifs
    · exact he.shiftM _ _ h1
    · exact h1
  unfold obcSweep
  exact he.del _ _ (hV _ (he.gen _ _ (he.del _ _ (he.del _ _ (hH _ (he.gen _ _ hs))))))

/-- Invariant principle for the periodic sweep. -/
theorem pbcSweep_inv (upd : Site → Site → Orient → S → S × Bool) (rows cols : ℕ)
    (draw : ℕ → ℕ × ℕ × Orient) (hd : ∀ i, (draw i).1 < rows ∧ (draw i).2.1 < cols)
    (I : S → Prop)
    (hu : ∀ a b d s, InLattice rows cols a → InLattice rows cols b → I s → I (upd a b d s).1)
    (s : S) (hs : I s) : I (pbcSweep upd rows cols draw s).1 := by
  refine foldl_inv (fun x : S × ℕ => I x.1) _ _ ?_ (s, 0) hs
  intro b hb i _
  obtain ⟨h1, h2⟩ := hd i
  dsimp only
  apply hu _ _ _ _ ⟨h1, h2⟩ _ hb
  cases (draw i).2.2
  · exact ⟨h1, Nat.mod_lt _ (by omega)⟩
  · exact ⟨Nat.mod_lt _ (by omega), h2⟩

/-- Invariant principle for the three-site sweep. -/
theorem obcSweep3_inv (o : EnvOps S) (refresh : Site → Site → Site → Orient → S → S)
    (upd : Site → Site → Site → Orient → S → S × Bool) (rows cols : ℕ)
    (I : S → Prop) (he : EnvPres o I)
    (hr : ∀ a b c d s, I s → I (refresh a b c d s))
    (hu : ∀ a b c d s, InLattice rows cols a → InLattice rows cols b → InLattice rows cols c →
      a ≠ b → b ≠ c → a ≠ c → I s → I (upd a b c d s).1)
    (s : S) (hs : I s) : I (obcSweep3 o refresh upd rows cols s).1 := by
  have hH : ∀ sn : S × ℕ, I sn.1 → I (horizontalLoop3 o refresh upd rows cols sn).1 := by
    intro sn hsn
    refine foldl_inv (fun x : S × ℕ => I x.1) _ _ ?_ sn hsn
    intro b hb row hrow
    rw [List.mem_range] at hrow
    have h1 : I ((List.range (cols - 2)).foldl (fun sn col =>
      let r := upd (row, col) (row, col + 1) (row, col + 2) .horizontal sn.1
      let s := if col < cols - 3 then o.shiftBTenWindow .right r.1 else r.1
      (s, sn.2 + r.2.toNat)) (refresh (row, 0) (row, 1) (row, 2) .horizontal
        (o.growFullBTen .right row 3 (o.initBTen .left row b.1)), b.2)).1 := by
      refine foldl_inv (fun x : S × ℕ => I x.1) _ _ ?_ _
        (hr _ _ _ _ _ (he.grow _ _ _ _ (he.init _ _ _ hb)))
      intro b hb col hcol
      rw [List.mem_range] at hcol
      have h1 : I (upd (row, col) (row, col + 1) (row, col + 2) .horizontal b.1).1 :=
        hu _ _ _ _ _ ⟨hrow, by dsimp; omega⟩ ⟨hrow, by dsimp; omega⟩ ⟨hrow, by dsimp; omega⟩
          (by simp) (by simp) (by simp) hb
      dsimp only
      split_ifs
      · exact he.shiftT _ _ h1
      · exact h1
    dsimp only
    split_ifs
    · exact he.shiftM _ _ h1
    · exact h1
  have hV : ∀ sn : S × ℕ, I sn.1 → I (verticalLoop3 o refresh upd rows cols sn).1 := by
    intro sn hsn
    refine foldl_inv (fun x : S × ℕ => I x.1) _ _ ?_ sn hsn
    intro b hb col hcol
    rw [List.mem_range] at hcol
    have h1 : I ((List.range (rows - 2)).foldl (fun sn row =>
      let r := upd (row, col) (row + 1, col) (row + 2, col) .vertical sn.1
      let s := if row < rows - 3 then o.shiftBTenWindow .down r.1 else r.1
      (s, sn.2 + r.2.toNat)) (refresh (0, col) (1, col) (2, col) .vertical
        (o.growFullBTen .down col 3 (o.initBTen .up col b.1)), b.2)).1 := by
      refine foldl_inv (fun x : S × ℕ => I x.1) _ _ ?_ _
        (hr _ _ _ _ _ (he.grow _ _ _ _ (he.init _ _ _ hb)))
      intro b hb row hrow
      rw [List.mem_range] at hrow
      have h1 : I (upd (row, col) (row + 1, col) (row + 2, col) .vertical b.1).1 :=
        hu _ _ _ _ _ ⟨by dsimp; omega, hcol⟩ ⟨by dsimp; omega, hcol⟩ ⟨by dsimp; omega, hcol⟩
          (by simp) (by simp) (by simp) hb
      dsimp only
      split_ifs
      · exact he.shiftT _ _ h1
      · exact h1
    dsimp only
    split_ifs
    · exact he.shiftM _ _ h1
    · exact h1
  unfold obcSweep3
  exact he.del _ _ (hV _ (he.gen _ _ (he.del _ _ (he.del _ _ (hH _ (he.gen _ _ hs))))))

/-! ## Logging the attempted bonds -/

/-- bonds of one row / column in the order of the loops -/
def rowBonds (cols row : ℕ) : List (Site × Site) :=
  (List.range (cols - 1)).map fun col => ((row, col), (row, col + 1))
def colBonds (rows col : ℕ) : List (Site × Site) :=
  (List.range (rows - 1)).map fun row => ((row, col), (row + 1, col))
def obcBonds (rows cols : ℕ) : List (Site × Site) :=
  (List.range rows).flatMap (rowBonds cols) ++ (List.range cols).flatMap (colBonds rows)

/-- `x` extends `(s, n)` by a log listing the bonds `B` and counting the accepted ones -/
def Ext (x : (S × List ((Site × Site) × Bool)) × ℕ) (y : S × ℕ)
    (L : List ((Site × Site) × Bool)) (n : ℕ) (B : List (Site × Site)) : Prop :=
  ∃ M : List ((Site × Site) × Bool), x.1.1 = y.1 ∧ x.2 = y.2 ∧ x.1.2 = L ++ M ∧
    M.map Prod.fst = B ∧ y.2 = n + (M.filter Prod.snd).length

/-- generic logging lemma for a loop -/
theorem foldl_ext {α : Type*} (f : S × ℕ → α → S × ℕ)
    (g : (S × List ((Site × Site) × Bool)) × ℕ → α → (S × List ((Site × Site) × Bool)) × ℕ)
    (bonds : α → List (Site × Site)) (l : List α)
    (h : ∀ a ∈ l, ∀ s L n, Ext (g ((s, L), n) a) (f (s, n) a) L n (bonds a)) (s : S)
    (L : List ((Site × Site) × Bool)) (n : ℕ) :
    Ext (l.foldl g ((s, L), n)) (l.foldl f (s, n)) L n (l.flatMap bonds) := by
  induction l generalizing s L n with
  | nil => exact ⟨[], rfl, rfl, by simp, by simp, by simp⟩
  | cons a l ih =>
    obtain ⟨M, h1, h2, h3, h4, h5⟩ := h a (by simp) s L n
    rw [List.foldl_cons, List.foldl_cons]
    have e1 : g ((s, L), n) a = (((f (s, n) a).1, L ++ M), (f (s, n) a).2) := by
      ext1
      · ext1
        · exact h1
        · exact h3
      · exact h2
    obtain ⟨M', i1, i2, i3, i4, i5⟩ := ih (fun a ha => h a (List.mem_cons_of_mem _ ha))
      (f (s, n) a).1 (L ++ M) (f (s, n) a).2
    rw [e1]
    refine ⟨M ++ M', i1, i2, ?_, ?_, ?_⟩
    · rw [i3, List.append_assoc]
    · rw [List.map_append, h4, i4, List.flatMap_cons]
    · rw [i5, h5, List.filter_append, List.length_append]; ring

theorem rowLoop_ext (o : EnvOps S) (upd : Site → Site → Orient → S → S × Bool) (cols row : ℕ)
    (s : S) (L : List ((Site × Site) × Bool)) (n : ℕ) :
    Ext (rowLoop (logOps o) (logUpd upd) cols row ((s, L), n)) (rowLoop o upd cols row (s, n))
      L n (rowBonds cols row) := by
  unfold rowLoop rowBonds
  rw [show ∀ (f : ℕ → Site × Site) (l : List ℕ), l.map f = l.flatMap (fun a => [f a]) from
    fun f l => by induction l <;> simp_all]
  apply foldl_ext
  intro col _ s L n
  refine ⟨[(((row, col), (row, col + 1)), (upd (row, col) (row, col + 1) .horizontal s).2)],
    ?_, rfl, ?_, rfl, ?_⟩
  · dsimp [logUpd, logOps]; split_ifs <;> rfl
  · dsimp [logUpd, logOps]; split_ifs <;> rfl
  · cases h : (upd (row, col) (row, col + 1) .horizontal s).2 <;> simp [h]

theorem colLoop_ext (o : EnvOps S) (upd : Site → Site → Orient → S → S × Bool) (rows col : ℕ)
    (s : S) (L : List ((Site × Site) × Bool)) (n : ℕ) :
    Ext (colLoop (logOps o) (logUpd upd) rows col ((s, L), n)) (colLoop o upd rows col (s, n))
      L n (colBonds rows col) := by
  unfold colLoop colBonds
  rw [show ∀ (f : ℕ → Site × Site) (l : List ℕ), l.map f = l.flatMap (fun a => [f a]) from
    fun f l => by induction l <;> simp_all]
  apply foldl_ext
  intro row _ s L n
  refine ⟨[(((row, col), (row + 1, col)), (upd (row, col) (row + 1, col) .vertical s).2)],
    ?_, rfl, ?_, rfl, ?_⟩
  · dsimp [logUpd, logOps]; split_ifs <;> rfl
  · dsimp [logUpd, logOps]; split_ifs <;> rfl
  · cases h : (upd (row, col) (row + 1, col) .vertical s).2 <;> simp [h]

theorem obcSweep_ext (o : EnvOps S) (upd : Site → Site → Orient → S → S × Bool) (rows cols : ℕ)
    (s : S) (L : List ((Site × Site) × Bool)) :
    Ext (obcSweep (logOps o) (logUpd upd) rows cols (s, L)) (obcSweep o upd rows cols s)
      L 0 (obcBonds rows cols) := by
  have hH : ∀ s L n, Ext (horizontalLoop (logOps o) (logUpd upd) rows cols ((s, L), n))
      (horizontalLoop o upd rows cols (s, n)) L n ((List.range rows).flatMap (rowBonds cols)) := by
    intro s L n
    apply foldl_ext
    intro row _ s L n
    obtain ⟨M, h1, h2, h3, h4, h5⟩ := rowLoop_ext o upd cols row
      (o.growFullBTen .right row 2 (o.initBTen .left row s)) L n
    refine ⟨M, ?_, h2, ?_, h4, h5⟩
    · dsimp only
      split_ifs
      · exact congrArg _ h1
      · exact h1
    · dsimp only
      split_ifs <;> exact h3
  have hV : ∀ s L n, Ext (verticalLoop (logOps o) (logUpd upd) rows cols ((s, L), n))
      (verticalLoop o upd rows cols (s, n)) L n ((List.range cols).flatMap (colBonds rows)) := by
    intro s L n
    apply foldl_ext
    intro col _ s L n
    obtain ⟨M, h1, h2, h3, h4, h5⟩ := colLoop_ext o upd rows col
      (o.growFullBTen .down col 2 (o.initBTen .up col s)) L n
    refine ⟨M, ?_, h2, ?_, h4, h5⟩
    · dsimp only
      split_ifs
      · exact congrArg _ h1
      · exact h1
    · dsimp only
      split_ifs <;> exact h3
  obtain ⟨M, h1, h2, h3, h4, h5⟩ := hH (o.generateBMPSApproach .up s) L 0
  set H := horizontalLoop o upd rows cols (o.generateBMPSApproach .up s, 0) with hHdef
  have e1 : horizontalLoop (logOps o) (logUpd upd) rows cols
      (((o.generateBMPSApproach .up s), L), 0) = ((H.1, L ++ M), H.2) := by
    ext1
    · ext1
      · exact h1
      · exact h3
    · exact h2
  obtain ⟨M', i1, i2, i3, i4, i5⟩ := hV (o.generateBMPSApproach .left
    (o.deleteInnerBMPS .right (o.deleteInnerBMPS .left H.1))) (L ++ M) H.2
  have key : obcSweep (logOps o) (logUpd upd) rows cols (s, L) =
      ((logOps o).deleteInnerBMPS .up (verticalLoop (logOps o) (logUpd upd) rows cols
        ((o.generateBMPSApproach .left (o.deleteInnerBMPS .right (o.deleteInnerBMPS .left H.1)),
          L ++ M), H.2)).1,
        (verticalLoop (logOps o) (logUpd upd) rows cols
        ((o.generateBMPSApproach .left (o.deleteInnerBMPS .right (o.deleteInnerBMPS .left H.1)),
          L ++ M), H.2)).2) := by
    unfold obcSweep
    have : (logOps o).generateBMPSApproach .up (s, L) = (o.generateBMPSApproach .up s, L) := rfl
    rw [this]
    simp only [e1]
    rfl
  rw [key]
  refine ⟨M ++ M', ?_, i2, ?_, ?_, ?_⟩
  · exact congrArg _ i1
  · change (verticalLoop (logOps o) (logUpd upd) rows cols _).1.2 = _
    rw [i3, List.append_assoc]
  · rw [List.map_append, h4, i4]; rfl
  · change (verticalLoop o upd rows cols _).2 = _
    rw [i5, h5, List.filter_append, List.length_append]; ring

/-! ## The bond list -/

theorem mem_obcBonds (rows cols : ℕ) (a b : Site) :
    (a, b) ∈ obcBonds rows cols ↔ InLattice rows cols a ∧ InLattice rows cols b ∧
      ((a.1 = b.1 ∧ b.2 = a.2 + 1) ∨ (a.2 = b.2 ∧ b.1 = a.1 + 1)) := by
  obtain ⟨a1, a2⟩ := a
  obtain ⟨b1, b2⟩ := b
  simp only [obcBonds, rowBonds, colBonds, List.mem_append, List.mem_flatMap, List.mem_range,
    List.mem_map, Prod.mk.injEq, InLattice]
  constructor
  · rintro (⟨r, hr, c, hc, ⟨rfl, rfl⟩, rfl, rfl⟩ | ⟨c, hc, r, hr, ⟨rfl, rfl⟩, rfl, rfl⟩)
    · exact ⟨⟨hr, by omega⟩, ⟨hr, by omega⟩, Or.inl ⟨rfl, rfl⟩⟩
    · exact ⟨⟨by omega, hc⟩, ⟨by omega, hc⟩, Or.inr ⟨rfl, rfl⟩⟩
  · rintro ⟨⟨h1, h2⟩, ⟨h3, h4⟩, (⟨rfl, rfl⟩ | ⟨rfl, rfl⟩)⟩
    · exact Or.inl ⟨a1, h1, a2, by omega, ⟨rfl, rfl⟩, rfl, rfl⟩
    · exact Or.inr ⟨a2, h2, a1, by omega, ⟨rfl, rfl⟩, rfl, rfl⟩

theorem nodup_obcBonds (rows cols : ℕ) : (obcBonds rows cols).Nodup := by
  have hr : ∀ row, (rowBonds cols row).Nodup := fun row =>
    List.nodup_range.map (fun a b h => by simpa using h)
  have hc : ∀ col, (colBonds rows col).Nodup := fun col =>
    List.nodup_range.map (fun a b h => by simpa using h)
  unfold obcBonds
  rw [List.nodup_append]
  refine ⟨?_, ?_, ?_⟩
  · rw [List.nodup_flatMap]
    refine ⟨fun x _ => hr x, ?_⟩
    refine List.nodup_range.imp ?_
    intro x y hxy p hp hq
    simp only [rowBonds, List.mem_map] at hp hq
    obtain ⟨c, -, rfl⟩ := hp
    obtain ⟨c', -, h⟩ := hq
    simp only [Prod.mk.injEq] at h
    exact hxy h.1.1.symm
  · rw [List.nodup_flatMap]
    refine ⟨fun x _ => hc x, ?_⟩
    refine List.nodup_range.imp ?_
    intro x y hxy p hp hq
    simp only [colBonds, List.mem_map] at hp hq
    obtain ⟨c, -, rfl⟩ := hp
    obtain ⟨c', -, h⟩ := hq
    simp only [Prod.mk.injEq] at h
    exact hxy h.1.2.symm
  · rintro p hp q hq rfl
    simp only [rowBonds, colBonds, List.mem_flatMap, List.mem_map] at hp hq
    obtain ⟨_, -, c, -, rfl⟩ := hp
    obtain ⟨_, -, c', -, h⟩ := hq
    simp only [Prod.mk.injEq] at h
    omega

theorem length_obcBonds (rows cols : ℕ) : (obcBonds rows cols).length = obcBondNum rows cols := by
  simp [obcBonds, rowBonds, colBonds, obcBondNum, List.length_flatMap]
  ring

end QLPeps.Sweep
