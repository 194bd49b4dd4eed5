import Verif.Lemmas.EnergyMore

/-! # Helper lemmas: local energy of the Ising solvers, bond counts, failing measurements -/

namespace QLPeps

open Finset Spec Energy

variable {K : Type*}

theorem foldl_nested [AddCommMonoid K] (m n : ℕ) (f : ℕ → ℕ → K) (e : K) :
    (List.range m).foldl (fun e i => (List.range n).foldl (fun e j => e + f i j) e) e =
      e + sumTo m (fun i => sumTo n (fun j => f i j)) := by
  have h1 : ∀ (g : ℕ → K) n e, (List.range n).foldl (fun e j => e + g j) e = e + sumTo n g := by
    intro g n
    induction n with
    | zero => intro e; simp [sumTo_zero]
    | succ n ih => intro e; rw [List.range_succ, List.foldl_append, ih, sumTo_succ]; simp [add_assoc]
  simp only [h1]

section
variable [Field K] [StarRing K] {rows cols : ℕ}

/-- the Ising energy of the pairs in relation `R` -/
def relI (R : Site → Site → Prop) [∀ a b, Decidable (R a b)] (K : Type*) [Field K]
    (s : SpinCfg rows cols) : K :=
  ∑ a : ↥(sites rows cols), ∑ b : ↥(sites rows cols),
    if R a b then (if toConfig s a = toConfig s b then (-1 : K) else 1) else 0

theorem tfim_diag (s : SpinCfg rows cols) :
    (tfimDiagOBC (toConfig s) rows cols : K) = relI RightOf K s + relI Below K s := by
  have e1 : relI RightOf K s = _ := sum_rel RightOf
    (fun a b => if toConfig s a = toConfig s b then (-1 : K) else 1)
    rows (cols - 1) (fun r c => (r, c)) (fun r c => (r, c + 1)) (by simp) (by
      rintro ⟨a1, a2⟩ ⟨b1, b2⟩
      simp only [mem_sites, RightOf, Prod.mk.injEq]
      constructor
      · rintro ⟨h1, h2, h3, h4⟩; exact ⟨a1, a2, h1.1, by omega, ⟨rfl, rfl⟩, h3, h4⟩
      · rintro ⟨r, c, h1, h2, ⟨rfl, rfl⟩, rfl, rfl⟩; omega)
  have e2 : relI Below K s = _ := sum_rel Below
    (fun a b => if toConfig s a = toConfig s b then (-1 : K) else 1)
    cols (rows - 1) (fun c r => (r, c)) (fun c r => (r + 1, c)) (by simp +contextual) (by
      rintro ⟨a1, a2⟩ ⟨b1, b2⟩
      simp only [mem_sites, Below, Prod.mk.injEq]
      constructor
      · rintro ⟨h1, h2, h3, h4⟩; exact ⟨a2, a1, h1.2, by omega, ⟨rfl, rfl⟩, h3, h4⟩
      · rintro ⟨c, r, h1, h2, ⟨rfl, rfl⟩, rfl, rfl⟩; omega)
  rw [e1, e2]
  unfold tfimDiagOBC
  dsimp only
  rw [foldl_nested, foldl_nested, zero_add]
  rfl

theorem sum_sites_nested (f : Site → K) :
    ∑ a : ↥(sites rows cols), f a = sumTo rows (fun r => sumTo cols (fun c => f (r, c))) := by
  rw [← sum_allSites f]
  unfold allSites
  rw [List.map_flatMap, sum_flatMap']
  simp only [List.map_map]
  rfl

theorem tfim_energy (h : K) (ψ : Config → K) (hc : 2 ≤ cols) (s : SpinCfg rows cols) :
    tfimOBC h (exact ψ (toConfig s)) (toConfig s) rows cols =
      .ok ((∑ a : ↥(sites rows cols),
          tfimFlip h (1 / ψ (toConfig s)) ((exact ψ (toConfig s)).flip a)) +
        (relI RightOf K s + relI Below K s)) := by
  unfold tfimOBC
  rw [if_neg (by omega)]
  dsimp only
  rw [tfim_diag, foldl_nested, zero_add,
    sum_sites_nested (fun a => tfimFlip h (1 / ψ (toConfig s)) ((exact ψ (toConfig s)).flip a))]
  rfl

theorem tfim_torus_energy (h : K) (ψ : Config → K) (s : SpinCfg rows cols) :
    tfimPBC h (exact ψ (toConfig s)) (toConfig s) rows cols =
      (relI (TorusRight rows cols) K s + relI (TorusBelow rows cols) K s) +
        ∑ a : ↥(sites rows cols),
          tfimFlip h (1 / ψ (toConfig s)) ((exact ψ (toConfig s)).flip a) := by
  classical
  unfold tfimPBC
  dsimp only
  rw [foldl_add_fun, zero_add, sum_allSites (fun a => tfimFlip h _ ((exact ψ (toConfig s)).flip a))]
  congr 1
  simp only [add_assoc]
  rw [foldl_add_fun, zero_add, List.sum_map_add]
  have nd := allSites_nodup rows cols
  have e1 : relI (TorusRight rows cols) K s = _ := sum_pairs_eq (TorusRight rows cols)
    (fun a b => if toConfig s a = toConfig s b then (-1 : K) else 1)
    ((allSites rows cols).map (fun a => (a, pbcRight cols a)))
    (nd.map (fun a b hab => (Prod.mk.inj hab).1)) (by
      intro a b
      simp only [List.mem_map, mem_allSites, Prod.mk.injEq, TorusRight]
      constructor
      · rintro ⟨x, hx, rfl, rfl⟩
        refine ⟨hx, ?_, rfl⟩
        rw [mem_sites] at hx ⊢
        exact ⟨hx.1, Nat.mod_lt _ (by omega)⟩
      · rintro ⟨h1, _, rfl⟩; exact ⟨a, h1, rfl, rfl⟩)
  have e2 : relI (TorusBelow rows cols) K s = _ := sum_pairs_eq (TorusBelow rows cols)
    (fun a b => if toConfig s a = toConfig s b then (-1 : K) else 1)
    ((allSites rows cols).map (fun a => (a, pbcDown rows a)))
    (nd.map (fun a b hab => (Prod.mk.inj hab).1)) (by
      intro a b
      simp only [List.mem_map, mem_allSites, Prod.mk.injEq, TorusBelow]
      constructor
      · rintro ⟨x, hx, rfl, rfl⟩
        refine ⟨hx, ?_, rfl⟩
        rw [mem_sites] at hx ⊢
        exact ⟨Nat.mod_lt _ (by omega), hx.2⟩
      · rintro ⟨h1, _, rfl⟩; exact ⟨a, h1, rfl, rfl⟩)
  rw [e1, e2, List.map_map, List.map_map]
  rfl

end

/-! ### The triangular J1-J2 measurement -/

section triMeas
variable [Field K] [StarRing K]

theorem loop_cons {σ : Type*} (step : σ → ℕ → Out σ) (i : ℕ) (L : List ℕ) (s : σ) :
    loop step (i :: L) s = (step s i).bind (loop step L) := rfl

theorem loop_total {σ : Type*} {step : σ → ℕ → Out σ} (L : List ℕ)
    (h : ∀ s, ∀ i ∈ L, ∃ s', step s i = .ok s') (s : σ) : ∃ s', loop step L s = .ok s' := by
  induction L generalizing s with
  | nil => exact ⟨s, rfl⟩
  | cons i L ih =>
    obtain ⟨s', hs⟩ := h s i (by simp)
    obtain ⟨s'', hs'⟩ := ih (fun s j hj => h s j (by simp [hj])) s'
    exact ⟨s'', by rw [loop_cons, hs]; exact hs'⟩

/-- two columns: the rows other than the middle one go through -/
theorem triMeasRow_two (C : Contr K) (cfg : Config) (rows : ℕ) (acc : Acc K) (row : ℕ)
    (h : row ≠ rows / 2) : ∃ acc', triMeasRow C cfg rows 2 acc row = .ok acc' := by
  have hr : triMeasRight rows 2 row = .ok 1 := by
    unfold triMeasRight; rw [if_neg h]
  unfold triMeasRow
  rw [if_neg (by omega)]
  dsimp only
  rw [hr]
  simp only [Out.bind]
  by_cases hl : row + 1 < rows
  · rw [if_pos hl]
    unfold atSlice
    rw [if_pos (by omega)]
    simp only [show List.range (2 - 1) = [0] from rfl, loop]
    unfold triMeasJ1
    dsimp only
    rw [triPair_ok _ _ _ _ _ (by omega)]
    simp only [Out.bind]
    rw [if_neg (by omega)]
    dsimp only
    unfold triMeasJ2
    rw [triPair_ok _ _ _ _ _ (by omega)]
    exact ⟨_, rfl⟩
  · rw [if_neg hl]
    exact ⟨_, rfl⟩

theorem triMeas_fails (j2 : K) (C : Contr K) (cfg : Config) (rows cols : ℕ) (hr : 1 ≤ rows)
    (hc : 1 ≤ cols) :
    triMeasEnergy j2 C cfg rows cols = .ub ∨ triMeasEnergy j2 C cfg rows cols = .outOfRange := by
  unfold triMeasEnergy
  obtain ⟨n, rfl⟩ : ∃ n, rows = n + 1 := ⟨rows - 1, by omega⟩
  by_cases h1 : cols < 2
  · left
    rw [List.range_succ_eq_map, loop_cons]
    unfold triMeasRow
    rw [if_pos h1]
    rfl
  by_cases hn : n = 0
  · -- one row: the vertical sweep wraps around
    subst hn
    left
    have hrow : ∀ acc, triMeasRow C cfg (0 + 1) cols acc 0 = .ub ∨
        ∃ a, triMeasRow C cfg (0 + 1) cols acc 0 = .ok a := by
      intro acc
      unfold triMeasRow
      rw [if_neg h1]
      dsimp only
      have : triMeasRight (0 + 1) cols 0 = .ub ∨ ∃ r, triMeasRight (0 + 1) cols 0 = .ok r := by
        unfold triMeasRight
        dsimp only
        split_ifs
        · exact Or.inl rfl
        · exact Or.inl rfl
        · exact Or.inr ⟨_, rfl⟩
        · exact Or.inr ⟨_, rfl⟩
      rcases this with h | ⟨r, h⟩
      · left; rw [h]; rfl
      · right; rw [h]; simp only [Out.bind]; rw [if_neg (by omega)]; exact ⟨_, rfl⟩
    rw [show List.range (0 + 1) = [0] from rfl, loop_cons]
    rcases hrow (0, 0) with h | ⟨a, h⟩
    · rw [h]; rfl
    · rw [h]
      simp only [Out.bind, loop]
      obtain ⟨m, rfl⟩ : ∃ m, cols = m + 1 := ⟨cols - 1, by omega⟩
      rw [List.range_succ_eq_map, loop_cons]
      unfold triCol
      rw [if_pos (by omega)]
      rfl
  by_cases h3 : 3 ≤ cols
  · -- the second trace of row 0 reads a popped environment
    right
    rw [List.range_succ_eq_map, loop_cons]
    have hR : triMeasRight (n + 1) cols 0 = .ok 1 := by
      unfold triMeasRight
      rw [if_neg (by omega)]
      exact congrArg Out.ok (by omega)
    unfold triMeasRow
    rw [if_neg h1]
    dsimp only
    rw [hR]
    simp only [Out.bind]
    rw [if_pos (by omega)]
    unfold atSlice
    rw [if_neg (by omega)]
  · obtain rfl : cols = 2 := by omega
    by_cases hn1 : n = 1
    · -- two rows: the two-column environment wraps around
      subst hn1
      left
      rw [show List.range (1 + 1) = [0, 1] from rfl, loop_cons]
      obtain ⟨a, ha⟩ := triMeasRow_two C cfg (1 + 1) (0, 0) 0 (by omega)
      rw [ha]
      simp only [Out.bind, loop]
      have hR : triMeasRight (1 + 1) 2 1 = .ok 0 := by decide
      have hrow : ∃ b, triMeasRow C cfg (1 + 1) 2 a 1 = .ok b := by
        unfold triMeasRow
        rw [if_neg (by omega)]
        dsimp only
        rw [hR]
        simp only [Out.bind]
        rw [if_neg (by omega)]
        exact ⟨_, rfl⟩
      obtain ⟨b, hb⟩ := hrow
      rw [hb]
      simp only [show List.range 2 = [0, 1] from rfl, loop]
      unfold triCol
      rw [if_neg (by omega)]
      dsimp only
      rw [if_pos (by omega), if_pos (by omega)]
      rfl
    · -- the middle row pops the environment its second trace needs
      right
      have hsplit : List.range (n + 1) = List.range ((n + 1) / 2) ++
          (n + 1) / 2 :: (List.range (n + 1)).drop ((n + 1) / 2 + 1) := by
        have h := List.take_append_drop ((n + 1) / 2) (List.range (n + 1))
        rw [List.take_range, min_eq_left (by omega)] at h
        rw [List.drop_eq_getElem_cons (by simp; omega)] at h
        rw [List.getElem_range] at h
        exact h.symm
      rw [hsplit, loop_append]
      obtain ⟨a, ha⟩ := loop_total (step := triMeasRow C cfg (n + 1) 2) (List.range ((n + 1) / 2))
        (fun s i hi => triMeasRow_two C cfg (n + 1) s i (by rw [List.mem_range] at hi; omega))
        (0, 0)
      rw [ha]
      simp only [Out.bind, loop]
      have hR : triMeasRight (n + 1) 2 ((n + 1) / 2) = .ok 0 := by
        unfold triMeasRight
        rw [if_pos rfl]
        rfl
      unfold triMeasRow
      rw [if_neg (by omega)]
      dsimp only
      rw [hR]
      simp only [Out.bind]
      rw [if_pos (by omega)]
      rfl

end triMeas

/-! ### Bond matrices -/

section matrices
variable [Field K] [DecidableEq K]

omit [DecidableEq K] in
theorem bondMatrix_append (log : List (Bond × K)) (p : Bond × K) (k : Kind) (s : Site) :
    bondMatrix (log ++ [p]) k s = if cell p.1 = (k, s) then p.2 else bondMatrix log k s := by
  unfold bondMatrix
  rw [List.foldl_append]
  rfl

omit [DecidableEq K] in
theorem bondMatrix_none (log : List (Bond × K)) (k : Kind) (s : Site)
    (h : ∀ p ∈ log, cell p.1 ≠ (k, s)) : bondMatrix log k s = 0 := by
  induction log using List.reverseRecOn with
  | nil => rfl
  | append_singleton log p ih =>
    rw [bondMatrix_append, if_neg (h p (by simp)), ih (fun q hq => h q (by simp [hq]))]

omit [DecidableEq K] in
theorem bondMatrix_mem (log : List (Bond × K)) (hnd : (log.map (fun p => cell p.1)).Nodup)
    {p : Bond × K} (hp : p ∈ log) {k : Kind} {s : Site} (hc : cell p.1 = (k, s)) :
    bondMatrix log k s = p.2 := by
  induction log using List.reverseRecOn with
  | nil => cases hp
  | append_singleton log q ih =>
    rw [List.map_append, List.nodup_append'] at hnd
    rw [bondMatrix_append]
    rw [List.mem_append, List.mem_singleton] at hp
    rcases hp with hp | rfl
    · rw [if_neg, ih hnd.1 hp]
      intro hq
      exact hnd.2.2 (List.mem_map_of_mem hp) (by simp [hc, hq])
    · rw [if_pos hc]

omit [DecidableEq K] in
theorem bondMatrix_sum (log : List (Bond × K)) (hnd : (log.map (fun p => cell p.1)).Nodup)
    (S : Finset (Kind × Site)) (hS : ∀ p ∈ log, cell p.1 ∈ S) :
    ∑ c ∈ S, bondMatrix log c.1 c.2 = (log.map Prod.snd).sum := by
  induction log using List.reverseRecOn with
  | nil => simp [bondMatrix]
  | append_singleton log q ih =>
    have hq : cell q.1 ∈ S := hS q (by simp)
    rw [List.map_append, List.nodup_append'] at hnd
    have h0 : bondMatrix log (cell q.1).1 (cell q.1).2 = 0 :=
      bondMatrix_none _ _ _ (fun p hp h =>
        hnd.2.2 (List.mem_map_of_mem hp) (by simp [h]))
    have h1 := ih hnd.1 (fun p hp => hS p (by simp [hp]))
    rw [List.map_append, List.sum_append, ← h1, ← Finset.add_sum_erase S _ hq,
      ← Finset.add_sum_erase S _ hq, h0, zero_add, bondMatrix_append, if_pos rfl]
    rw [Finset.sum_congr rfl (g := fun c => bondMatrix log c.1 c.2)]
    · simp [add_comm]
    · intro c hc
      rw [bondMatrix_append, if_neg]
      intro h
      exact (Finset.mem_erase.1 hc).1 h.symm

/-- the cell of a bond: the upper left corner of the rectangle it spans -/
theorem cell_obc {rows cols : ℕ} {nnn : Bool} {b : Bond} (hb : b ∈ obcBonds rows cols nnn) :
    cell b = (b.kind, (min b.a.1 b.b.1, min b.a.2 b.b.2)) := by
  rw [mem_obcBonds] at hb
  rcases hb with ⟨r, c, _, _, rfl⟩ | ⟨r, c, _, _, rfl⟩ | ⟨_, r, c, _, _, rfl | rfl⟩ <;>
    simp [cell]

theorem cell_inj {rows cols : ℕ} {nnn : Bool} {b b' : Bond} (hb : b ∈ obcBonds rows cols nnn)
    (hb' : b' ∈ obcBonds rows cols nnn) (h : cell b = cell b') : b = b' := by
  rw [mem_obcBonds] at hb hb'
  rcases hb with ⟨r, c, _, _, rfl⟩ | ⟨r, c, _, _, rfl⟩ | ⟨_, r, c, _, _, rfl | rfl⟩ <;>
  rcases hb' with ⟨r', c', _, _, rfl⟩ | ⟨r', c', _, _, rfl⟩ | ⟨_, r', c', _, _, rfl | rfl⟩ <;>
    simp_all [cell]

theorem cells_nodup (m : PairModel K) (C : Contr K) (cfg : Config) (rows cols : ℕ) :
    (((obcBonds rows cols m.nnn).map (logged m C cfg)).map (fun p => cell p.1)).Nodup := by
  rw [List.map_map]
  refine List.Nodup.map_on ?_ (obcBonds_nodup rows cols m.nnn)
  intro x hx y hy h
  exact cell_inj hx hy h

end matrices

end QLPeps
