import Verif.Lemmas.Energy

/-! # Helper lemmas: what the solver loops compute -/

namespace QLPeps

open Finset Spec Energy

variable {K : Type*}

section solver
variable [Field K] [DecidableEq K]

/-- the inverse amplitude used for a bond -/
def invOf (C : Contr K) (b : Bond) : K :=
  match b.kind with
  | .v => 1 / C.trCol b.a.2
  | .ur => 1 / C.trRow b.b.1
  | _ => 1 / C.trRow b.a.1

/-- bond with its value -/
def logged (m : PairModel K) (C : Contr K) (cfg : Config) (b : Bond) : Bond × K :=
  (b, m.at' C cfg (invOf C b) b)

theorem traverseRow_ok {m : PairModel K} {C : Contr K} {cfg : Config} {rows cols row : ℕ}
    (hc : 2 ≤ cols) (h : C.trRow row ≠ 0) :
    traverseRow m C cfg rows cols row =
      .ok ((rowBonds rows cols m.nnn row).map (logged m C cfg)) := by
  unfold traverseRow
  rw [if_neg (by omega), if_neg h]
  dsimp only
  unfold rowBonds
  by_cases hn : m.nnn = true ∧ row < rows - 1
  · rw [if_pos hn, if_pos hn, List.map_append, List.map_map, List.map_flatMap]
    rfl
  · rw [if_neg hn, if_neg hn, List.append_nil, List.map_map]
    rfl

theorem traverseRow_eq_ok {m : PairModel K} {C : Contr K} {cfg : Config} {rows cols row : ℕ}
    {l : List (Bond × K)} (h : traverseRow m C cfg rows cols row = .ok l) :
    2 ≤ cols ∧ C.trRow row ≠ 0 ∧ l = (rowBonds rows cols m.nnn row).map (logged m C cfg) := by
  by_cases hc : cols < 2
  · unfold traverseRow at h; rw [if_pos hc] at h; cases h
  by_cases h0 : C.trRow row = 0
  · unfold traverseRow at h; rw [if_neg hc, if_pos h0] at h; cases h
  rw [traverseRow_ok (by omega) h0] at h
  injection h with h
  exact ⟨by omega, h0, h.symm⟩

theorem verticalCol_ok {m : PairModel K} {C : Contr K} {cfg : Config} {rows col : ℕ}
    (hr : 2 ≤ rows) (h : C.trCol col ≠ 0) :
    verticalCol m C cfg rows col = .ok ((colBonds rows col).map (logged m C cfg)) := by
  unfold verticalCol
  rw [if_neg (by omega), if_neg h]
  dsimp only
  unfold colBonds
  rw [List.map_map]
  rfl

theorem verticalCol_eq_ok {m : PairModel K} {C : Contr K} {cfg : Config} {rows col : ℕ}
    {l : List (Bond × K)} (h : verticalCol m C cfg rows col = .ok l) :
    2 ≤ rows ∧ C.trCol col ≠ 0 ∧ l = (colBonds rows col).map (logged m C cfg) := by
  by_cases hr : rows < 2
  · unfold verticalCol at h; rw [if_pos hr] at h; cases h
  by_cases h0 : C.trCol col = 0
  · unfold verticalCol at h; rw [if_neg hr, if_pos h0] at h; cases h
  rw [verticalCol_ok (by omega) h0] at h
  injection h with h
  exact ⟨by omega, h0, h.symm⟩

theorem flatMap_map_comm {α β γ : Type*} (L : List α) (f : α → List β) (g : β → γ) :
    L.flatMap (fun a => (f a).map g) = (L.flatMap f).map g := by
  rw [List.map_flatMap]

theorem traverse_ok {m : PairModel K} {C : Contr K} {cfg : Config} {rows cols : ℕ}
    (hr : 2 ≤ rows) (hc : 2 ≤ cols) (hR : ∀ r < rows, C.trRow r ≠ 0)
    (hC : ∀ c < cols, C.trCol c ≠ 0) :
    traverseAll m C cfg rows cols = .ok ((obcBonds rows cols m.nnn).map (logged m C cfg)) := by
  unfold traverseAll
  rw [Out.collect_ok (f := fun r => (rowBonds rows cols m.nnn r).map (logged m C cfg)) _
      (fun r h => traverseRow_ok hc (hR r (List.mem_range.1 h))),
    Out.collect_ok (f := fun c => (colBonds rows c).map (logged m C cfg)) _
      (fun c h => verticalCol_ok hr (hC c (List.mem_range.1 h)))]
  simp only [Out.bind]
  rw [flatMap_map_comm, flatMap_map_comm, ← List.map_append]
  rfl

theorem traverse_eq_ok {m : PairModel K} {C : Contr K} {cfg : Config} {rows cols : ℕ}
    {log : List (Bond × K)} (h : traverseAll m C cfg rows cols = .ok log) :
    log = (obcBonds rows cols m.nnn).map (logged m C cfg) := by
  unfold traverseAll at h
  obtain ⟨hs, h1, h⟩ := Out.bind_eq_ok h
  obtain ⟨vs, h2, h⟩ := Out.bind_eq_ok h
  injection h with h
  have e1 := Out.collect_eq_ok (f := fun r => (rowBonds rows cols m.nnn r).map (logged m C cfg))
    (fun i _ l hl => (traverseRow_eq_ok hl).2.2) h1
  have e2 := Out.collect_eq_ok (f := fun c => (colBonds rows c).map (logged m C cfg))
    (fun i _ l hl => (verticalCol_eq_ok hl).2.2) h2
  rw [← h, e1, e2, flatMap_map_comm, flatMap_map_comm, ← List.map_append]
  rfl

theorem collect_all_ok {ι α : Type*} {step : ι → Out (List α)} {L : List ι} {out : List α}
    (h : Out.collect step L = .ok out) : ∀ i ∈ L, ∃ l, step i = .ok l := by
  induction L generalizing out with
  | nil => intro i hi; cases hi
  | cons j L ih =>
    simp only [Out.collect] at h
    obtain ⟨l, hl, h⟩ := Out.bind_eq_ok h
    obtain ⟨ls, hls, h⟩ := Out.bind_eq_ok h
    intro i hi
    rcases List.mem_cons.1 hi with rfl | hi
    · exact ⟨l, hl⟩
    · exact ih hls i hi

theorem traverse_nonzero {m : PairModel K} {C : Contr K} {cfg : Config} {rows cols : ℕ}
    {log : List (Bond × K)} (h : traverseAll m C cfg rows cols = .ok log) :
    (∀ r < rows, C.trRow r ≠ 0) ∧ (∀ c < cols, C.trCol c ≠ 0) := by
  unfold traverseAll at h
  obtain ⟨hs, h1, h⟩ := Out.bind_eq_ok h
  obtain ⟨vs, h2, h⟩ := Out.bind_eq_ok h
  constructor
  · intro r hr
    obtain ⟨l, hl⟩ := collect_all_ok h1 r (List.mem_range.2 hr)
    exact (traverseRow_eq_ok hl).2.1
  · intro c hc
    obtain ⟨l, hl⟩ := collect_all_ok h2 c (List.mem_range.2 hc)
    exact (verticalCol_eq_ok hl).2.1

theorem foldl_add_snd {α : Type*} (l : List (α × K)) (e : K) :
    l.foldl (fun e p => e + p.2) e = e + (l.map Prod.snd).sum := by
  induction l generalizing e with
  | nil => simp
  | cons p l ih => simp [ih, add_assoc]

theorem foldl_add_fun {α : Type*} (f : α → K) (l : List α) (e : K) :
    l.foldl (fun e p => e + f p) e = e + (l.map f).sum := by
  induction l generalizing e with
  | nil => simp
  | cons p l ih => simp [ih, add_assoc]

theorem flatMap_ite_all {α : Type*} (p : ℕ → Prop) [DecidablePred p] (f : ℕ → α) (L : List ℕ)
    (h : ∀ c ∈ L, p c) : L.flatMap (fun c => if p c then [f c] else []) = L.map f := by
  induction L with
  | nil => rfl
  | cons c L ih =>
    rw [List.flatMap_cons, List.map_cons, if_pos (h c (by simp)),
      ih (fun d hd => h d (by simp [hd]))]
    rfl

theorem range_flatMap_lt {α : Type*} (n : ℕ) (f : ℕ → α) :
    (List.range n).flatMap (fun c => if c < n - 1 then [f c] else []) =
      (List.range (n - 1)).map f := by
  cases n with
  | zero => rfl
  | succ n =>
    rw [List.range_succ, List.flatMap_append]
    simp only [Nat.add_sub_cancel, List.flatMap_cons, List.flatMap_nil, lt_irrefl, if_false,
      List.append_nil]
    exact flatMap_ite_all (fun c => c < n) f _ (fun c hc => List.mem_range.1 hc)

theorem sum_flatMap_pair {α : Type*} (f g : α → K) (L : List α) :
    (L.flatMap (fun a => [f a, g a])).sum = (L.map (fun a => f a + g a)).sum := by
  induction L with
  | nil => rfl
  | cons a L ih =>
    rw [List.flatMap_cons, List.sum_append, ih]
    simp

theorem row_agree (m : PairModel K) (C : Contr K) (cfg : Config) (rows cols row : ℕ) :
    (energyRow m C cfg rows cols row).map (fun l => (l.map id).sum) =
      (traverseRow m C cfg rows cols row).map (fun l => (l.map Prod.snd).sum) := by
  unfold energyRow traverseRow
  by_cases hc : cols < 2
  · rw [if_pos hc, if_pos hc]; rfl
  rw [if_neg hc, if_neg hc]
  by_cases h0 : C.trRow row = 0
  · rw [if_pos h0, if_pos h0]; rfl
  rw [if_neg h0, if_neg h0]
  dsimp only
  rw [range_flatMap_lt]
  by_cases hn : m.nnn = true ∧ row < rows - 1
  · rw [if_pos hn, if_pos hn]
    simp only [Out.map, Out.bind, List.map_id, List.map_append, List.map_map, List.sum_append,
      List.map_flatMap, List.map_cons, List.map_nil]
    rw [sum_flatMap_pair]
    rfl
  · rw [if_neg hn, if_neg hn]
    simp only [Out.map, Out.bind, List.map_id, List.map_map]
    rfl

theorem calEnergy_eq_measEnergy (m : PairModel K) (C : Contr K) (cfg : Config) (rows cols : ℕ) :
    calEnergy m C cfg rows cols = measEnergy m C cfg rows cols := by
  have h := Out.collect_map_sum (M := K) id Prod.snd (List.range rows)
    (fun i _ => row_agree m C cfg rows cols i)
  unfold calEnergy measEnergy traverseAll
  cases h1 : Out.collect (energyRow m C cfg rows cols) (List.range rows) <;>
  cases h2 : Out.collect (traverseRow m C cfg rows cols) (List.range rows) <;>
  rw [h1, h2] at h <;> simp [Out.map, Out.bind] at h ⊢
  cases h3 : Out.collect (verticalCol m C cfg rows) (List.range cols) <;> simp
  rw [← List.foldl_append, foldl_add_snd, List.map_append, List.sum_append, h]
  simp

/-- the energy once every trace is nonzero -/
theorem calEnergy_ok {m : PairModel K} {C : Contr K} {cfg : Config} {rows cols : ℕ}
    (hr : 2 ≤ rows) (hc : 2 ≤ cols) (hR : ∀ r < rows, C.trRow r ≠ 0)
    (hC : ∀ c < cols, C.trCol c ≠ 0) :
    calEnergy m C cfg rows cols =
      .ok (((obcBonds rows cols m.nnn).map
        (fun b => m.at' C cfg (invOf C b) b)).sum + m.onsite cfg) := by
  rw [calEnergy_eq_measEnergy]
  unfold measEnergy
  rw [traverse_ok hr hc hR hC]
  simp only [Out.bind]
  rw [foldl_add_snd, zero_add, List.map_map]
  rfl

end solver

/-! ### The bonds of one kind as pairs of sites -/

/-- the bonds of kind `k` as pairs -/
def pairsOf (k : Kind) (L : List Bond) : List (Site × Site) :=
  (L.filter (fun b => b.kind = k)).map (fun b => (b.a, b.b))

theorem pairsOf_nodup {k : Kind} {L : List Bond} (h : L.Nodup) : (pairsOf k L).Nodup := by
  unfold pairsOf
  refine List.Nodup.map_on ?_ (h.filter _)
  intro x hx y hy hxy
  simp only [List.mem_filter, decide_eq_true_eq] at hx hy
  cases x; cases y; simp_all

theorem mem_pairsOf {k : Kind} {L : List Bond} {a b : Site} :
    (a, b) ∈ pairsOf k L ↔ (⟨a, b, k⟩ : Bond) ∈ L := by
  unfold pairsOf
  simp only [List.mem_map, List.mem_filter, decide_eq_true_eq]
  constructor
  · rintro ⟨x, ⟨hx, hk⟩, h⟩
    cases x; simp_all
  · intro h; exact ⟨_, ⟨h, rfl⟩, rfl⟩

theorem sum_by_kind {M : Type*} [AddCommMonoid M] (f : Bond → M) (L : List Bond) :
    (L.map f).sum =
      ((pairsOf .h L).map (fun p => f ⟨p.1, p.2, .h⟩)).sum +
      ((pairsOf .v L).map (fun p => f ⟨p.1, p.2, .v⟩)).sum +
      ((pairsOf .dr L).map (fun p => f ⟨p.1, p.2, .dr⟩)).sum +
      ((pairsOf .ur L).map (fun p => f ⟨p.1, p.2, .ur⟩)).sum := by
  induction L with
  | nil => simp [pairsOf]
  | cons x L ih =>
    rw [List.map_cons, List.sum_cons, ih]
    obtain ⟨a, b, k⟩ := x
    cases k <;> simp [pairsOf] <;> abel

theorem mem_obc_h {rows cols : ℕ} {nnn : Bool} (a b : Site) :
    (a, b) ∈ pairsOf .h (obcBonds rows cols nnn) ↔
      a ∈ sites rows cols ∧ b ∈ sites rows cols ∧ RightOf a b := by
  rw [mem_pairsOf, mem_obcBonds, mem_sites, mem_sites]
  obtain ⟨a1, a2⟩ := a; obtain ⟨b1, b2⟩ := b
  simp only [Bond.mk.injEq, Prod.mk.injEq, RightOf]
  constructor
  · rintro (⟨r, c, h1, h2, ⟨rfl, rfl⟩, ⟨rfl, rfl⟩, _⟩ | ⟨r, c, _, _, _, _, h⟩ |
      ⟨_, r, c, _, _, h | h⟩)
    · refine ⟨⟨by omega, by omega⟩, ⟨by omega, by omega⟩, by omega, by omega⟩
    · cases h
    · exact absurd h.2.2 (by decide)
    · exact absurd h.2.2 (by decide)
  · rintro ⟨h1, h2, h3, h4⟩
    exact Or.inl ⟨a1, a2, h1.1, by omega, ⟨rfl, rfl⟩, ⟨h3, h4⟩, trivial⟩

theorem mem_obc_v {rows cols : ℕ} {nnn : Bool} (a b : Site) :
    (a, b) ∈ pairsOf .v (obcBonds rows cols nnn) ↔
      a ∈ sites rows cols ∧ b ∈ sites rows cols ∧ Below a b := by
  rw [mem_pairsOf, mem_obcBonds, mem_sites, mem_sites]
  obtain ⟨a1, a2⟩ := a; obtain ⟨b1, b2⟩ := b
  simp only [Bond.mk.injEq, Prod.mk.injEq, Below]
  constructor
  · rintro (⟨r, c, _, _, _, _, h⟩ | ⟨r, c, h1, h2, ⟨rfl, rfl⟩, ⟨rfl, rfl⟩, _⟩ |
      ⟨_, r, c, _, _, h | h⟩)
    · cases h
    · refine ⟨⟨by omega, by omega⟩, ⟨by omega, by omega⟩, by omega, by omega⟩
    · exact absurd h.2.2 (by decide)
    · exact absurd h.2.2 (by decide)
  · rintro ⟨h1, h2, h3, h4⟩
    exact Or.inr (Or.inl ⟨a1, a2, by omega, h1.2, ⟨rfl, rfl⟩, ⟨h3, h4⟩, trivial⟩)

theorem mem_obc_dr {rows cols : ℕ} (a b : Site) :
    (a, b) ∈ pairsOf .dr (obcBonds rows cols true) ↔
      a ∈ sites rows cols ∧ b ∈ sites rows cols ∧ DownRight a b := by
  rw [mem_pairsOf, mem_obcBonds, mem_sites, mem_sites]
  obtain ⟨a1, a2⟩ := a; obtain ⟨b1, b2⟩ := b
  simp only [Bond.mk.injEq, Prod.mk.injEq, DownRight]
  constructor
  · rintro (⟨r, c, _, _, _, _, h⟩ | ⟨r, c, _, _, _, _, h⟩ |
      ⟨_, r, c, h1, h2, ⟨⟨rfl, rfl⟩, ⟨rfl, rfl⟩, _⟩ | h⟩)
    · cases h
    · cases h
    · refine ⟨⟨by omega, by omega⟩, ⟨by omega, by omega⟩, by omega, by omega⟩
    · exact absurd h.2.2 (by decide)
  · rintro ⟨h1, h2, h3, h4⟩
    exact Or.inr (Or.inr ⟨trivial, a1, a2, by omega, by omega,
      Or.inl ⟨⟨rfl, rfl⟩, ⟨h3, h4⟩, trivial⟩⟩)

theorem mem_obc_ur {rows cols : ℕ} (a b : Site) :
    (a, b) ∈ pairsOf .ur (obcBonds rows cols true) ↔
      a ∈ sites rows cols ∧ b ∈ sites rows cols ∧ UpRight a b := by
  rw [mem_pairsOf, mem_obcBonds, mem_sites, mem_sites]
  obtain ⟨a1, a2⟩ := a; obtain ⟨b1, b2⟩ := b
  simp only [Bond.mk.injEq, Prod.mk.injEq, UpRight]
  constructor
  · rintro (⟨r, c, _, _, _, _, h⟩ | ⟨r, c, _, _, _, _, h⟩ |
      ⟨_, r, c, h1, h2, h | ⟨⟨rfl, rfl⟩, ⟨rfl, rfl⟩, _⟩⟩)
    · cases h
    · cases h
    · exact absurd h.2.2 (by decide)
    · refine ⟨⟨by omega, by omega⟩, ⟨by omega, by omega⟩, by omega, by omega⟩
  · rintro ⟨h1, h2, h3, h4⟩
    exact Or.inr (Or.inr ⟨trivial, b1, a2, by omega, by omega,
      Or.inr ⟨⟨h3, rfl⟩, ⟨rfl, h4⟩, trivial⟩⟩)

theorem pairsOf_nnn_false {rows cols : ℕ} {k : Kind} (hk : k = .dr ∨ k = .ur) :
    pairsOf k (obcBonds rows cols false) = [] := by
  rw [List.eq_nil_iff_forall_not_mem]
  rintro ⟨a, b⟩ h
  rw [mem_pairsOf, mem_obcBonds] at h
  rcases h with ⟨r, c, _, _, h⟩ | ⟨r, c, _, _, h⟩ | ⟨h, _⟩
  · rcases hk with rfl | rfl <;> cases h
  · rcases hk with rfl | rfl <;> cases h
  · cases h

end QLPeps
