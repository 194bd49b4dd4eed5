import Verif.Lemmas.BmpsCanoHist

/-! # Canonical forms of a boundary MPS: invariants of histories -/

namespace QLPeps.BmpsCano

open QLPeps.Bmps QLPeps.Box QLPeps.BmpsCano.Spec
open QLPeps.BmpsVar (amp_eq isMps_iff sumCoors_box)
open QLPeps.Peps (Tn Lib contractN transpose norm2 sumCoors)
open QLPeps.BmpsVar.Spec (Factorizations Keeps amp normSq IsMps overlap)

noncomputable section

variable {𝕜 : Type*} [RCLike 𝕜] {fac : Facs 𝕜}

/-- a canonical form about some tensor, with its marks or with the marks of the other direction -/
def Held (o : Obj 𝕜) : Prop :=
  0 ≤ o.center ∧ o.center < o.tens.length ∧ ∃ c, c < o.tens.length ∧ Canonical c o.tens ∧ ∃ d,
    (d = c ∧ (∀ j < d, o.cano.getD j .none = .left) ∧ (∀ j, d < j → j < o.tens.length → o.cano.getD j .none = .right) ∨
      d = o.tens.length - 1 - c ∧ (∀ j < d, o.cano.getD j .none = .right) ∧
        (∀ j, d < j → j < o.tens.length → o.cano.getD j .none = .left)) ∧
    (o.cano.getD d .none = .left → c = o.tens.length - 1) ∧ (o.cano.getD d .none = .right → c = 0)

/-- no marks -/
def Unmarked (o : Obj 𝕜) : Prop := ∀ j, o.cano.getD j .none = .none

theorem unmarked_trusted {o : Obj 𝕜} (h : Unmarked o) : Trusted o := by
  refine ⟨fun k _ hm i hi => ?_, fun k _ hm i h1 h2 => ?_⟩
  · have := hm i hi; rw [h i] at this; cases this
  · have := hm i h1 h2; rw [h i] at this; cases this

theorem held_trusted {o : Obj 𝕜} (h : Held o) : Trusted o := by
  obtain ⟨-, -, c, hc, hcan, d, hd, hl, hr⟩ := h
  refine ⟨fun k hk hm i hi => ?_, fun k hk hm i h1 h2 => ?_⟩
  · apply hcan.1
    rcases hd with ⟨rfl, m1, m2⟩ | ⟨rfl, m1, m2⟩
    · by_contra hlt
      have := hl (hm d (by omega))
      omega
    · by_contra hlt
      have := hm 0 (by omega)
      by_cases h0 : 0 < o.tens.length - 1 - c
      · rw [m1 0 h0] at this; cases this
      · omega
  · refine hcan.2 i ?_ h2
    rcases hd with ⟨rfl, m1, m2⟩ | ⟨rfl, m1, m2⟩
    · by_contra hlt
      have := hr (hm d (by omega) (by omega))
      omega
    · by_contra hlt
      have := hm (o.tens.length - 1) (by omega) (by omega)
      by_cases h0 : o.tens.length - 1 - c < o.tens.length - 1
      · rw [m2 _ h0 (by omega)] at this; cases this
      · omega

theorem flip_left {m : Mark} : m.flip = .left ↔ m = .right := by cases m <;> simp [Mark.flip]
theorem flip_right {m : Mark} : m.flip = .right ↔ m = .left := by cases m <;> simp [Mark.flip]

theorem getD_flip (l : List Mark) (j : ℕ) : (l.map Mark.flip).getD j .none = (l.getD j .none).flip := by
  simp only [List.getD_eq_getElem?_getD, List.getElem?_map]
  cases l[j]? <;> rfl

theorem reverse_held {o : Obj 𝕜} (h : Held o) : Held (reverse o) := by
  obtain ⟨h1, h2, c, hc, hcan, d, hd, hl, hr⟩ := h
  have hne : o.center ≠ -1 := by omega
  have hlen : (reverse o).tens.length = o.tens.length := by simp [reverse]
  have hcen : (reverse o).center = o.tens.length - 1 - o.center := by simp [reverse, hne]
  have hm : ∀ j, (reverse o).cano.getD j .none = (o.cano.getD j .none).flip := fun j => by
    simp only [reverse, if_pos hne, getD_flip]
  refine ⟨by omega, by omega, o.tens.length - 1 - c, by omega, canonical_reverse hc hcan, d, ?_, ?_, ?_⟩
  · simp only [hm, hlen, flip_left, flip_right]
    rcases hd with ⟨rfl, m1, m2⟩ | ⟨rfl, m1, m2⟩
    · exact .inr ⟨by omega, m1, m2⟩
    · exact .inl ⟨rfl, m1, m2⟩
  · rw [hm, flip_left, hlen]
    intro h; have := hr h; omega
  · rw [hm, flip_right]
    intro h; have := hl h; omega

theorem reverse_unmarked {o : Obj 𝕜} (h : Unmarked o) : Unmarked (reverse o) := by
  intro j
  rw [reverse]
  dsimp only
  split_ifs
  · rw [getD_flip, h j]; rfl
  · exact h j

theorem centralize_held (hg : Good fac) {ds : List ℕ} {o : Obj 𝕜} (hs : Shp o.tens 1 ds) (hc : o.cano.length = o.tens.length)
    (ht : Held o ∨ Unmarked o) {c : ℕ} (hi : c < o.tens.length) :
    ∃ o', centralize fac c o = some o' ∧ Shp o'.tens 1 ds ∧ o'.tens.length = o.tens.length ∧ o'.cano.length = o.tens.length ∧
      (∀ xs ∈ box ds, mv o'.tens xs 0 = mv o.tens xs 0) ∧ Held o' := by
  obtain ⟨o', a1, a2, a3, a4, a5, a6, a7, a8, a9, a10⟩ := centralize_run hg hs hc hi (ht.elim held_trusted unmarked_trusted)
  refine ⟨o', a1, a2, a3, a4, a6, by omega, by omega, c, by omega, a7, c, .inl ⟨rfl, a8, fun j h1 h2 => a9 j h1 (by omega)⟩, ?_⟩
  rw [a3]
  rcases a10 with ⟨-, e⟩ | h
  · rw [e] at a8 a9 ⊢
    rcases ht with ⟨-, -, b, hb, -, d, hd, hl, hr⟩ | hu
    · have L : ∀ j, o.cano.getD j .none = .left → ¬ (c < j ∧ j < o.tens.length) := fun j h ⟨h1, h2⟩ => by
        rw [a9 j h1 h2] at h; cases h
      have R : ∀ j, o.cano.getD j .none = .right → ¬ j < c := fun j h h1 => by
        rw [a8 j h1] at h; cases h
      rcases hd with ⟨rfl, m1, m2⟩ | ⟨rfl, m1, m2⟩
      · refine ⟨fun h => ?_, fun h => ?_⟩
        · rcases lt_trichotomy c d with hcd | rfl | hcd
          · by_cases h1 : c + 1 = d
            · have := hr (h1 ▸ a9 (c + 1) (by omega) (by omega)); omega
            · exact absurd ⟨by omega, by omega⟩ (L (c + 1) (m1 _ (by omega)))
          · exact hl h
          · rw [m2 c hcd hi] at h; cases h
        · rcases lt_trichotomy c d with hcd | rfl | hcd
          · rw [m1 c hcd] at h; cases h
          · exact hr h
          · by_cases h1 : c = d + 1
            · have := hl (a8 d (by omega)); omega
            · exact absurd (by omega) (R (c - 1) (m2 _ (by omega) (by omega)))
      · have h1 : ¬ (0 < o.tens.length - 1 - b ∧ 0 < c) := fun ⟨h1, h2⟩ => R 0 (m1 0 h1) h2
        have h2 : ¬ (o.tens.length - 1 - b < o.tens.length - 1 ∧ c < o.tens.length - 1) := fun ⟨h1, h2⟩ =>
          L (o.tens.length - 1) (m2 _ h1 (by omega)) ⟨h2, by omega⟩
        refine ⟨fun h => ?_, fun h => ?_⟩
        · by_contra hlt
          have hc0 : 0 < o.tens.length - 1 - b := by omega
          rw [m1 c (by omega)] at h; cases h
        · by_contra hlt
          have hc0 : o.tens.length - 1 - b = 0 := by omega
          rw [m2 c (by omega) hi] at h; cases h
    · rw [hu c]; exact ⟨by simp, by simp⟩
  · rw [h]; exact ⟨by simp, by simp⟩

theorem entropy_held {o o' : Obj 𝕜} (hn : 0 < o.tens.length) (h3 : o'.tens.length = o.tens.length) (hcen : o'.center = o.tens.length - 1)
    (hc : Canonical 0 o'.tens)
    (hr : ∀ j, 0 < j → j < o.tens.length → o'.cano.getD j .none = .right) (h0 : o.tens.length = 1 ∨ o'.cano.getD 0 .none = .none) :
    Held o' := by
  refine ⟨by omega, by omega, 0, by omega, hc, 0, .inl ⟨rfl, fun j h => by omega, fun j h1 h2 => hr j h1 (by omega)⟩, fun h => ?_, fun _ => rfl⟩
  rcases h0 with h1 | h1
  · omega
  · rw [h1] at h; cases h

/-! ## fresh objects -/

theorem ones_rightIso : RightIso (⟨[1, 1, 1], fun _ => 1⟩ : Tn 𝕜) :=
  ⟨1, 1, 1, rfl, fun a ha a' ha' => by
    obtain rfl : a = 0 := by omega
    obtain rfl : a' = 0 := by omega
    simp⟩

theorem ones_canonical (n : ℕ) : Canonical 0 (List.replicate n (⟨[1, 1, 1], fun _ => 1⟩ : Tn 𝕜)) := by
  refine ⟨fun i h => by omega, fun i h1 h2 => ?_⟩
  rw [List.getD_eq_getElem _ _ h2, List.getElem_replicate]
  exact ones_rightIso

theorem replicate_getD (m : Mark) (n j : ℕ) : (List.replicate n m).getD j .none = if j < n then m else .none := by
  by_cases h : j < n
  · rw [List.getD_eq_getElem _ _ (by simpa using h), List.getElem_replicate, if_pos h]
  · rw [List.getD_eq_default _ _ (by simpa using h), if_neg h]

theorem fresh_cases {ds : List ℕ} {o : Obj 𝕜} (h : Fresh ds o) : Shp o.tens 1 ds ∧ o.cano.length = o.tens.length ∧
    (Unmarked o ∨ o.center = 0 ∧ Canonical 0 o.tens ∧ ∀ j, o.cano.getD j .none = if j < o.tens.length then .right else .none) := by
  obtain ⟨h1, h2⟩ := h
  refine ⟨(isMps_iff _ _ _).1 h1, ?_⟩
  rcases h2 with h | h | ⟨h, hc⟩
  · rw [h]
    refine ⟨by simp [product], .inr ⟨rfl, ?_, fun j => ?_⟩⟩
    · exact ones_canonical _
    · simp only [product, List.length_replicate, replicate_getD]
  · rw [h]
    refine ⟨by simp [unmarked], .inl fun j => ?_⟩
    simp only [unmarked, replicate_getD, ite_self]
  · rw [h]
    refine ⟨by simp [finalized], .inr ⟨rfl, hc, fun j => ?_⟩⟩
    rw [finalized, replicate_getD]

theorem fresh_truthful {ds : List ℕ} {o : Obj 𝕜} (h : Fresh ds o) : Truthful o := by
  rcases (fresh_cases h).2.2 with hu | ⟨-, hc, hm⟩
  · exact ⟨fun i _ h => absurd h (by rw [hu i]; simp), fun i _ _ h => absurd h (by rw [hu i]; simp)⟩
  · refine ⟨fun i h1 h => ?_, fun i h0 h1 _ => hc.2 i h0 h1⟩
    rw [hm, if_pos (by omega)] at h; cases h

theorem fresh_held {ds : List ℕ} {o : Obj 𝕜} (hn : 0 < o.tens.length) (h : Fresh ds o) : Held o ∨ Unmarked o := by
  rcases (fresh_cases h).2.2 with hu | ⟨hz, hc, hm⟩
  · exact .inr hu
  · refine .inl ⟨by omega, by omega, 0, hn, hc, 0, .inl ⟨rfl, fun j h => by omega, fun j _ h => by rw [hm, if_pos h]⟩,
      fun h => ?_, fun _ => rfl⟩
    rw [hm, if_pos hn] at h; cases h

/-! ## histories -/

/-- the state and the object agree, and the state does not vanish -/
structure Inv (P : Obj 𝕜 → Prop) (N : ℕ) (o : Obj 𝕜) (s : List ℕ × (List ℕ → 𝕜)) : Prop where
  shp : Shp o.tens 1 s.1
  val : ∀ xs ∈ box s.1, mv o.tens xs 0 = s.2 xs
  len : o.tens.length = N
  clen : o.cano.length = N
  pos : 0 < N
  ne : normSq s.1 s.2 ≠ 0
  inv : P o

theorem normSq_congr {ds : List ℕ} {φ ψ : List ℕ → 𝕜} (h : ∀ xs ∈ box ds, φ xs = ψ xs) : normSq ds φ = normSq ds ψ := by
  rw [normSq, normSq, sumCoors_box, sumCoors_box]
  exact Finset.sum_congr rfl fun xs hxs => by rw [h xs hxs]

theorem unit_congr {ds : List ℕ} {φ ψ : List ℕ → 𝕜} (h : ∀ xs ∈ box ds, φ xs = ψ xs) : ∀ xs ∈ box ds, unit ds φ xs = unit ds ψ xs :=
  fun xs hxs => by rw [unit, unit, normSq_congr h, h xs hxs]

theorem normSq_nonneg (ds : List ℕ) (φ : List ℕ → 𝕜) : 0 ≤ normSq ds φ := by
  rw [normSq, sumCoors_box]; exact Finset.sum_nonneg fun _ _ => by positivity

theorem normSq_unit {ds : List ℕ} {φ : List ℕ → 𝕜} (h : normSq ds φ ≠ 0) : normSq ds (unit ds φ) = 1 := by
  have : normSq ds (unit ds φ) = normSq ds φ / normSq ds φ := by
    rw [normSq, sumCoors_box]
    simp only [unit, norm_div, div_pow]
    rw [← Finset.sum_div, RCLike.norm_ofReal, sq_abs, Real.sq_sqrt (normSq_nonneg ds φ)]
    congr 1
    rw [normSq, sumCoors_box]
  rw [this, div_self h]

theorem normSq_reverse {ds : List ℕ} {φ : List ℕ → 𝕜} : normSq ds.reverse (fun xs => φ xs.reverse) = normSq ds φ := by
  rw [normSq, normSq, sumCoors_box, sumCoors_box]
  refine Finset.sum_bij' (fun xs _ => xs.reverse) (fun xs _ => xs.reverse) (fun xs h => box_reverse h)
    (fun xs h => box_reverse (by rwa [List.reverse_reverse])) ?_ ?_ ?_ <;> simp

theorem Inv.trans {P : Obj 𝕜 → Prop} {N : ℕ} {o o' : Obj 𝕜} {s : List ℕ × (List ℕ → 𝕜)} (h : Inv P N o s)
    (hs : Shp o'.tens 1 s.1) (hl : o'.tens.length = o.tens.length) (hc : o'.cano.length = o.tens.length)
    (hv : ∀ xs ∈ box s.1, mv o'.tens xs 0 = mv o.tens xs 0) (hp : P o') : Inv P N o' s :=
  ⟨hs, fun xs hxs => (hv xs hxs).trans (h.val xs hxs), hl.trans h.len, hc.trans h.len, h.pos, h.ne, hp⟩

theorem inv_entropy (hg : Good fac) {P : Obj 𝕜 → Prop} {N : ℕ} {o : Obj 𝕜} {s : List ℕ × (List ℕ → 𝕜)} (h : Inv P N o s) (n : ℕ)
    (ht : Trusted o) (hP : ∀ o' : Obj 𝕜, o'.tens.length = o.tens.length → o'.center = o.tens.length - 1 → Canonical 0 o'.tens →
      (∀ j, 0 < j → j < o.tens.length → o'.cano.getD j .none = .right) → (o.tens.length = 1 ∨ o'.cano.getD 0 .none = .none) → P o') :
    ∃ o', call fac (.entropy n) o = some o' ∧ Inv P N o' (meaning (.entropy n) s) := by
  have hamp : ∀ xs ∈ box s.1, amp o.tens xs 0 = s.2 xs := fun xs hxs => by rw [amp_eq, h.val xs hxs]
  obtain ⟨o', r, a1, a2, a3, a4, a5, a6, a7, a8, a9, -⟩ := entropy_run hg n h.shp (h.clen.trans h.len.symm) (by rw [h.len]; exact h.pos) ht
    (by rw [normSq_congr hamp]; exact h.ne)
  refine ⟨o', by rw [call, a1]; rfl, a2, fun xs hxs => (a6 xs hxs).trans (unit_congr hamp xs hxs), a3.trans h.len, a4.trans h.len, h.pos, ?_,
    hP o' a3 a5 a7 a9 a8⟩
  simp only [meaning, normSq_unit h.ne]
  exact one_ne_zero

theorem inv_truthful (hg : Good fac) {N : ℕ} {o : Obj 𝕜} {s : List ℕ × (List ℕ → 𝕜)} (h : Inv Truthful N o s) {q : Call}
    (hr : InRange N q) (h1 : q ≠ .reverse) (h2 : ∀ te dmin dmax i, q ≠ .truncate te dmin dmax i) :
    ∃ o', call fac q o = some o' ∧ Inv Truthful N o' (meaning q s) := by
  have hc := h.clen.trans h.len.symm
  cases q with
  | centralize c =>
    obtain ⟨o', a1, a2, a3, a4, a5, a6⟩ := centralize_truthful hg h.shp hc h.inv (by rw [h.len]; exact hr)
    exact ⟨o', a1, h.trans a2 a3 a4 a5 a6⟩
  | left c =>
    obtain ⟨o', a1, a2, a6⟩ := leftCano_truthful hg h.shp hc h.inv (by rw [h.len]; exact hr)
    exact ⟨o', a1, h.trans a2.shp a2.len a2.clen a2.val a6⟩
  | right c =>
    obtain ⟨o', a1, a2, a6⟩ := rightCano_truthful hg h.shp hc h.inv hr.1 (by rw [h.len]; exact hr.2)
    exact ⟨o', a1, h.trans a2.shp a2.len a2.clen a2.val a6⟩
  | leftTen c =>
    obtain ⟨o', a1, a2, a6⟩ := leftTen_truthful hg h.shp hc h.inv (by rw [h.len]; exact hr)
    exact ⟨o', a1, h.trans a2.shp a2.len a2.clen a2.val a6⟩
  | rightTen c =>
    obtain ⟨o', a1, a2, a6⟩ := rightTen_truthful hg h.shp hc h.inv hr.1 (by rw [h.len]; exact hr.2)
    exact ⟨o', a1, h.trans a2.shp a2.len a2.clen a2.val a6⟩
  | entropy n => exact inv_entropy hg h n h.inv.trusted fun o' b1 _ b3 b4 b5 => entropy_truthful b1 b3 b4 b5
  | reverse => exact absurd rfl h1
  | truncate te dmin dmax i => exact absurd rfl (h2 te dmin dmax i)

theorem inv_held (hg : Good fac) {N : ℕ} {o : Obj 𝕜} {s : List ℕ × (List ℕ → 𝕜)} (h : Inv (fun o => Held o ∨ Unmarked o) N o s) {q : Call}
    (hr : InRange N q) (hq : (∃ c, q = .centralize c) ∨ (∃ n, q = .entropy n) ∨ q = .reverse) :
    ∃ o', call fac q o = some o' ∧ Inv (fun o => Held o ∨ Unmarked o) N o' (meaning q s) := by
  have hc := h.clen.trans h.len.symm
  rcases hq with ⟨c, rfl⟩ | ⟨n, rfl⟩ | rfl
  · obtain ⟨o', a1, a2, a3, a4, a5, a6⟩ := centralize_held hg h.shp hc h.inv (c := c) (by rw [h.len]; exact hr)
    exact ⟨o', a1, h.trans a2 a3 a4 a5 (.inl a6)⟩
  · exact inv_entropy hg h n (h.inv.elim held_trusted unmarked_trusted) fun o' b1 b2 b3 b4 b5 =>
      .inl (entropy_held (by rw [h.len]; exact h.pos) b1 b2 b3 b4 b5)
  · refine ⟨_, rfl, (pshp_shp _ _ _).1 (pshp_reverse _ _ _ _ ((pshp_shp _ _ _).2 h.shp)), fun xs hxs => ?_, ?_, ?_, h.pos, ?_, ?_⟩
    · rw [reverse]
      dsimp only
      rw [mv_reverse h.shp hxs]
      exact h.val _ (box_reverse hxs)
    · simp [reverse, h.len]
    · simp only [reverse]; split_ifs <;> simp [h.clen]
    · simp only [meaning, normSq_reverse]; exact h.ne
    · exact h.inv.imp reverse_held reverse_unmarked

theorem inv_calls {P : Obj 𝕜 → Prop} {N : ℕ} {Q : Call → Prop}
    (hstep : ∀ o s q, Inv P N o s → Q q → ∃ o', call fac q o = some o' ∧ Inv P N o' (meaning q s)) (hs : List Call) :
    ∀ o s, Inv P N o s → (∀ q ∈ hs, Q q) → ∃ o', calls fac hs o = some o' ∧ Inv P N o' (hs.foldl (fun s q => meaning q s) s) := by
  induction hs with
  | nil => exact fun o s h _ => ⟨o, rfl, h⟩
  | cons q hs ih =>
    intro o s h hq
    obtain ⟨o1, a1, a2⟩ := hstep o s q h (hq q (by simp))
    obtain ⟨o2, b1, b2⟩ := ih o1 _ a2 fun q' hq' => hq q' (by simp [hq'])
    exact ⟨o2, by rw [calls, a1]; exact b1, b2⟩

end

end QLPeps.BmpsCano
