import Verif.Lemmas.FermionModels

/-! # Helper lemmas: contraction orders exist; the pinned bond -/

namespace QLPeps.Fermion

open Finset Spec Fock
open Energy (Bond Kind allSites)

variable {rows cols : ℕ}

/-- a lattice site, if it is one -/
def toL (p : Site) : Option (LSite rows cols) :=
  if h : p ∈ sites rows cols then some ⟨p, h⟩ else none

theorem toL_coe (a : LSite rows cols) : toL (a : Site) = some a := by simp [toL]

theorem toL_eq {p : Site} {a : LSite rows cols} : toL p = some a ↔ p = a := by
  unfold toL
  constructor
  · intro h
    split at h
    · injection h with h; rw [← h]
    · cases h
  · rintro rfl; simp

/-- the sites `front`, then all others -/
noncomputable def frontOrder (front : List Site) : List (LSite rows cols) :=
  front.filterMap toL ++ (Finset.univ : Finset (LSite rows cols)).toList.filter
    (fun x : LSite rows cols => (x : Site) ∉ front)

theorem frontOrder_nodup {front : List Site} (h : front.Nodup) :
    (frontOrder front : List (LSite rows cols)).Nodup := by
  unfold frontOrder
  rw [List.nodup_append']
  refine ⟨?_, (Finset.nodup_toList _).filter _, ?_⟩
  · refine List.Nodup.filterMap ?_ h
    intro p p' a h1 h2
    rw [Option.mem_def, toL_eq] at h1 h2
    rw [h1, h2]
  · intro a h1 h2
    rw [List.mem_filterMap] at h1
    obtain ⟨p, hp, h1⟩ := h1
    rw [toL_eq] at h1
    rw [List.mem_filter] at h2
    have := of_decide_eq_true h2.2
    exact this (h1 ▸ hp)

theorem mem_frontOrder (front : List Site) (x : LSite rows cols) : x ∈ frontOrder front := by
  unfold frontOrder
  rw [List.mem_append]
  by_cases h : (x : Site) ∈ front
  · exact Or.inl (List.mem_filterMap.2 ⟨x, h, toL_coe x⟩)
  · exact Or.inr (List.mem_filter.2 ⟨by simp, by simpa using h⟩)

theorem infix_frontOrder {front : List Site} {a b : LSite rows cols}
    (h : [(a : Site), (b : Site)] <:+: front) : [a, b] <:+: frontOrder front := by
  unfold frontOrder
  have h' := h.filterMap (toL (rows := rows) (cols := cols))
  have e : [(a : Site), (b : Site)].filterMap toL = [a, b] := by simp [toL_coe]
  rw [e] at h'
  exact h'.trans (List.prefix_append _ _).isInfix

/-- the sites that are contracted first: those of the bond, or of the plaquette -/
def frontOf (b : Bond) : List Site :=
  match b.kind with
  | .h | .v => [b.a, b.b]
  | _ =>
    let r := min b.a.1 b.b.1
    let c := b.a.2
    [(r, c), (r + 1, c + 1), (r + 1, c), (r, c + 1)]

/-- every lattice has contraction orders of the required form -/
theorem pathOrder_exists (rows cols : ℕ) (nnn : Bool) :
    PathOrder rows cols nnn (fun b => frontOrder (frontOf b)) where
  nn a b k h := by
    have hk : frontOf ⟨a, b, k⟩ = [(a : Site), (b : Site)] := by
      rcases h with ⟨rfl, _⟩ | ⟨rfl, _⟩ <;> rfl
    have hne : (a : Site) ≠ b := by
      rcases h with ⟨_, h⟩ | ⟨_, h⟩ <;> · intro e; rw [h] at e; have := congrArg Prod.fst e
                                          have := congrArg Prod.snd e; simp at *
    simp only [hk]
    refine ⟨frontOrder_nodup (by simpa using hne), mem_frontOrder _,
      infix_frontOrder (List.infix_refl _)⟩
  diag _ a b k h := by
    obtain ⟨⟨r, c⟩, ha⟩ := a
    obtain ⟨⟨r', c'⟩, hb⟩ := b
    rcases h with ⟨rfl, h⟩ | ⟨rfl, h⟩
    · simp only [DownRight, Prod.mk.injEq] at h
      obtain ⟨rfl, rfl⟩ := h
      refine ⟨frontOrder_nodup (by simp [frontOf]), mem_frontOrder _, infix_frontOrder ?_⟩
      simp only [frontOf]
      rw [Nat.min_eq_left (by omega)]
      exact ⟨[], [(r + 1, c), (r, c + 1)], rfl⟩
    · simp only [UpRight] at h
      obtain ⟨rfl, rfl⟩ := h
      refine ⟨frontOrder_nodup (by simp [frontOf]), mem_frontOrder _, infix_frontOrder ?_⟩
      simp only [frontOf]
      rw [Nat.min_eq_right (by omega)]
      exact ⟨[(r', c), (r' + 1, c + 1)], [], rfl⟩
  shared _ r c := by
    simp only [frontOf]
    rw [Nat.min_eq_left (by omega), Nat.min_eq_right (by omega)]

/-! ### Bonds of the lattice -/

theorem obc_sites {x : Bond} (h : x ∈ obcBonds rows cols false) :
    ∃ a b : LSite rows cols, ∃ k, x = ⟨a, b, k⟩ ∧
      ((k = .h ∧ RightOf (a : Site) b) ∨ (k = .v ∧ Below (a : Site) b)) := by
  rcases mem_obcBonds.1 h with ⟨r, c, h1, h2, rfl⟩ | ⟨r, c, h1, h2, rfl⟩ | ⟨h, _⟩
  · exact ⟨⟨(r, c), mem_sites.2 ⟨h1, by omega⟩⟩, ⟨(r, c + 1), mem_sites.2 ⟨h1, h2⟩⟩, .h, rfl,
      Or.inl ⟨rfl, rfl⟩⟩
  · exact ⟨⟨(r, c), mem_sites.2 ⟨by omega, h2⟩⟩, ⟨(r + 1, c), mem_sites.2 ⟨h1, h2⟩⟩, .v, rfl,
      Or.inr ⟨rfl, rfl⟩⟩
  · cases h

theorem ne_of_nn {a b : LSite rows cols} {k : Kind}
    (h : (k = .h ∧ RightOf (a : Site) b) ∨ (k = .v ∧ Below (a : Site) b)) : a ≠ b := by
  rintro rfl
  rcases h with ⟨_, h⟩ | ⟨_, h⟩
  · exact absurd (congrArg Prod.snd h) (by simp)
  · exact absurd (congrArg Prod.fst h) (by simp)

theorem ne_of_diag {a b : LSite rows cols} {k : Kind}
    (h : (k = .dr ∧ DownRight (a : Site) b) ∨ (k = .ur ∧ UpRight (a : Site) b)) : a ≠ b := by
  rintro rfl
  rcases h with ⟨_, h⟩ | ⟨_, h⟩
  · exact absurd (congrArg Prod.snd h) (by simp)
  · exact absurd h.2 (by simp)

/-! ### The pinned bond -/

section pin
variable {K : Type*}

/-- what the setter stores -/
theorem setPin_some {s1 s2 : Site} {delta : K} {q : Pin K} (h : setPin s1 s2 delta = some q) :
    ((q.a = s1 ∧ q.b = s2) ∨ (q.a = s2 ∧ q.b = s1)) ∧ q.delta = delta ∧
      ((q.kind = .h ∧ RightOf q.a q.b) ∨ (q.kind = .v ∧ Below q.a q.b)) := by
  obtain ⟨r, c⟩ := s1
  obtain ⟨r', c'⟩ := s2
  unfold setPin at h
  dsimp only at h
  split_ifs at h <;> injection h with h <;> subst h <;>
    simp only [RightOf, Below, Prod.mk.injEq] <;> refine ⟨by simp, by trivial, ?_⟩ <;>
    simp <;> omega

theorem setPin_none {s1 s2 : Site} {delta : K} :
    setPin s1 s2 delta = none ↔
      ¬ (RightOf s1 s2 ∨ RightOf s2 s1 ∨ Below s1 s2 ∨ Below s2 s1) := by
  obtain ⟨r, c⟩ := s1
  obtain ⟨r', c'⟩ := s2
  unfold setPin RightOf Below
  simp only [Prod.mk.injEq]
  split_ifs <;> simp <;> omega

variable [Field K] {rk : LSite rows cols × Spin → ℕ}

theorem pairDag_symm (hrk : Function.Injective rk) (r2 : K) {a b : LSite rows cols} (h : a ≠ b) :
    pairDag r2 rk a b = pairDag r2 rk b a := by
  unfold pairDag
  congr 1
  apply LinearMap.ext
  intro f
  simp only [LinearMap.sub_apply, Module.End.mul_apply]
  rw [cr_cr hrk (show ((a, Spin.up) : LSite rows cols × Spin) ≠ (b, Spin.dn) by simp),
    cr_cr hrk (show ((a, Spin.dn) : LSite rows cols × Spin) ≠ (b, Spin.up) by simp)]
  abel

theorem pair_symm (hrk : Function.Injective rk) (r2 : K) {a b : LSite rows cols} (h : a ≠ b) :
    pair r2 rk a b = pair r2 rk b a := by
  unfold pair
  congr 1
  apply LinearMap.ext
  intro f
  simp only [LinearMap.add_apply, LinearMap.neg_apply, Module.End.mul_apply]
  rw [an_an hrk (show ((a, Spin.up) : LSite rows cols × Spin) ≠ (b, Spin.dn) by simp),
    an_an hrk (show ((a, Spin.dn) : LSite rows cols × Spin) ≠ (b, Spin.up) by simp)]
  abel

/-- the operator of the pinned bond -/
def pinOp (r2 : K) (rk : LSite rows cols × Spin → ℕ) (pin : Option (Pin K)) (k : Kind)
    (a b : LSite rows cols) : Module.End K (Fock K (LSite rows cols × Spin)) :=
  match pinnedAt pin ⟨a, b, k⟩ with
  | none => 0
  | some delta => delta • (pairDag r2 rk a b + pair r2 rk a b)

theorem pinOp_none (r2 : K) (k : Kind) (a b : LSite rows cols) :
    pinOp r2 rk none k a b = 0 := rfl

theorem pinOp_some (r2 : K) (q : Pin K) (k : Kind) (a b : LSite rows cols) :
    pinOp r2 rk (some q) k a b = if q.kind = k ∧ q.a = a ∧ q.b = b then
      q.delta • (pairDag r2 rk a b + pair r2 rk a b) else 0 := by
  unfold pinOp pinnedAt
  dsimp only
  by_cases h : q.kind = k ∧ q.a = a ∧ q.b = b
  · rw [if_pos h, if_pos h]
  · rw [if_neg h, if_neg h]

theorem sum_pinOp (hrk : Function.Injective rk) (r2 : K) {q : Pin K} {s1 s2 : LSite rows cols}
    {delta : K} (h : setPin (s1 : Site) s2 delta = some q) :
    bondSum (fun a b : LSite rows cols => RightOf (a : Site) b) (pinOp r2 rk (some q) .h) +
      bondSum (fun a b : LSite rows cols => Below (a : Site) b) (pinOp r2 rk (some q) .v) =
      delta • (pairDag r2 rk s1 s2 + pair r2 rk s1 s2) := by
  obtain ⟨h1, h2, h3⟩ := setPin_some h
  -- the stored sites are lattice sites
  obtain ⟨a, b, ha, hb, hab⟩ : ∃ a b : LSite rows cols, q.a = a ∧ q.b = b ∧
      ((a = s1 ∧ b = s2) ∨ (a = s2 ∧ b = s1)) := by
    rcases h1 with ⟨e1, e2⟩ | ⟨e1, e2⟩
    · exact ⟨s1, s2, e1, e2, Or.inl ⟨rfl, rfl⟩⟩
    · exact ⟨s2, s1, e1, e2, Or.inr ⟨rfl, rfl⟩⟩
  rw [ha, hb] at h3
  have hne := ne_of_nn h3
  have hop : pairDag r2 rk s1 s2 + pair r2 rk s1 s2 = pairDag r2 rk a b + pair r2 rk a b := by
    rcases hab with ⟨rfl, rfl⟩ | ⟨rfl, rfl⟩
    · rfl
    · rw [pairDag_symm hrk r2 hne, pair_symm hrk r2 hne]
  rw [hop]
  have key : ∀ (R : Site → Site → Prop) [∀ a b, Decidable (R a b)] (k : Kind), R a b →
      bondSum (fun a b : LSite rows cols => R (a : Site) b) (pinOp r2 rk (some q) k) =
        if q.kind = k then delta • (pairDag r2 rk a b + pair r2 rk a b) else 0 := by
    intro R _ k hR
    unfold bondSum
    rw [Finset.sum_eq_single a, Finset.sum_eq_single b]
    · rw [if_pos hR, pinOp_some, ha, hb, h2]
      by_cases hk : q.kind = k
      · rw [if_pos ⟨hk, rfl, rfl⟩, if_pos hk]
      · rw [if_neg (fun h => hk h.1), if_neg hk]
    · intro b' _ hb'
      rw [pinOp_some, hb, if_neg (c := q.kind = k ∧ q.a = ↑a ∧ ↑b = (b' : Site))
        (fun h => hb' (Subtype.ext h.2.2).symm), ite_self]
    · simp
    · intro a' _ ha'
      refine Finset.sum_eq_zero fun b' _ => ?_
      rw [pinOp_some, ha, if_neg (c := q.kind = k ∧ ↑a = (a' : Site) ∧ q.b = ↑b')
        (fun h => ha' (Subtype.ext h.2.1).symm), ite_self]
    · simp
  have key0 : ∀ (R : Site → Site → Prop) [∀ a b, Decidable (R a b)] (k : Kind), q.kind ≠ k →
      bondSum (fun a b : LSite rows cols => R (a : Site) b) (pinOp r2 rk (some q) k) = 0 := by
    intro R _ k hk
    unfold bondSum
    refine Finset.sum_eq_zero fun a' _ => Finset.sum_eq_zero fun b' _ => ?_
    rw [pinOp_some, if_neg (c := q.kind = k ∧ q.a = ↑a' ∧ q.b = ↑b') (fun h => hk h.1), ite_self]
  rcases h3 with ⟨hk, hR⟩ | ⟨hk, hR⟩
  · rw [key RightOf .h hR, key0 Below .v (by rw [hk]; decide), if_pos hk, add_zero]
  · rw [key Below .v hR, key0 RightOf .h (by rw [hk]; decide), if_pos hk, zero_add]

end pin

end QLPeps.Fermion
