import Verif.Lemmas.PepsLoopRun

/-!
# The loop projection on a PEPS
-/

namespace QLPeps.Peps

open QLPeps.State (BC)
open QLPeps.Tps.Spec (Bond Site leg external slots)
open QLPeps.Peps.Spec

variable {𝕜 : Type*} [RCLike 𝕜] {bc : BC} {rows cols : ℕ}

section
variable {p : Peps 𝕜} {s : Fin 4 → Site rows cols} (hq : Square bc s)
include hq

theorem slot_mod {n a b : ℕ} (ha : a < n) (hb : b < n) (h : (a + 1) % slots bc n = b) :
    (a + 1) % n = b := by
  unfold slots at h
  split at h
  · rw [Nat.mod_eq_of_lt (by omega)] at h
    rw [h, Nat.mod_eq_of_lt hb]
  · exact h

/-- positions of the corners -/
theorem Spec.Square.pos : (s 1).1.1 = (s 0).1.1 ∧ ((s 0).2.1 + 1) % cols = (s 1).2.1 ∧
    (s 2).2.1 = (s 1).2.1 ∧ ((s 0).1.1 + 1) % rows = (s 3).1.1 ∧ (s 2).1.1 = (s 3).1.1 ∧
    (s 3).2.1 = (s 0).2.1 := by
  have h1 := hq.top
  have h2 := hq.right
  have h3 := hq.bottom
  have h4 := hq.left
  simp only [leg, Sum.inl.injEq, Sum.inr.injEq, Prod.mk.injEq, Fin.mk.injEq] at h1 h2 h3 h4
  refine ⟨by rw [h1.1], slot_mod hq (s 0).2.2 (s 1).2.2 h1.2, by rw [h2.2],
    slot_mod hq (s 0).1.2 (s 3).1.2 h4.1, by rw [h3.1], by rw [h4.2]⟩

variable (hr : p.rows = rows) (hc : p.cols = cols) (hbc : p.bc = bc)
include hr hc

theorem loopGammas_eq : loopGammas p (s 0).1 (s 0).2 = fun i => p.gamma (s i).1 (s i).2 := by
  obtain ⟨h1, h2, h3, h4, h5, h6⟩ := hq.pos
  funext i
  subst hr hc
  fin_cases i
  · rfl
  · change p.gamma _ _ = p.gamma (s 1).1 (s 1).2
    rw [h2, h1]
  · change p.gamma _ _ = p.gamma (s 2).1 (s 2).2
    rw [h2, h4, h3, h5]
  · change p.gamma _ _ = p.gamma (s 3).1 (s 3).2
    rw [h4, h6]

theorem loopLambdas_eq :
    loopLambdas p (s 0).1 (s 0).2 = fun i => weight p (squareBond bc s i) := by
  obtain ⟨h1, h2, h3, h4, h5, h6⟩ := hq.pos
  funext i
  subst hr hc
  fin_cases i
  · change p.lamH _ _ = weight p (leg bc (s 0) 2)
    rw [hq.top, h2, ← h1]
    rfl
  · change p.lamV _ _ = weight p (leg bc (s 1) 1)
    rw [hq.right, h2, h4, ← h3, ← h5]
    rfl
  · change p.lamH _ _ = weight p (leg bc (s 3) 2)
    rw [hq.bottom, h2, h4, ← h3, ← h5]
    rfl
  · change p.lamV _ _ = weight p (leg bc (s 0) 1)
    rw [hq.left, h4, ← h6]
    rfl

include hbc in
theorem loopEnvL_eq :
    loopEnvL p (s 0).1 (s 0).2 = fun i => weight p (leg bc (s i) (outLeg i).1) := by
  obtain ⟨h1, h2, h3, h4, h5, h6⟩ := hq.pos
  funext i
  subst hr hc
  fin_cases i
  · rfl
  · change p.east _ _ = weight p (leg bc (s 1) 2)
    rw [← east_eq rfl hbc, h2, ← h1]
  · change p.south _ _ = weight p (leg bc (s 2) 1)
    rw [← south_eq rfl hbc, h2, h4, ← h3, ← h5]
  · change p.west _ _ = weight p (leg bc (s 3) 0)
    rw [h4, ← h6]
    rfl

include hbc in
theorem loopEnvR_eq :
    loopEnvR p (s 0).1 (s 0).2 = fun i => weight p (leg bc (s i) (outLeg i).2) := by
  obtain ⟨h1, h2, h3, h4, h5, h6⟩ := hq.pos
  funext i
  subst hr hc
  fin_cases i
  · rfl
  · change p.north _ _ = weight p (leg bc (s 1) 3)
    rw [h2, ← h1]
    rfl
  · change p.east _ _ = weight p (leg bc (s 2) 2)
    rw [← east_eq rfl hbc, h2, h4, ← h3, ← h5]
  · change p.south _ _ = weight p (leg bc (s 3) 1)
    rw [← south_eq rfl hbc, h4, ← h6]

theorem putLoop_eq (l : Loop 𝕜) : putLoop p (s 0).1 (s 0).2 l =
    ((((((((p.setGamma (s 0).1 (s 0).2 (l.g 0)).setGamma (s 1).1 (s 1).2 (l.g 1)).setGamma
      (s 2).1 (s 2).2 (l.g 2)).setGamma (s 3).1 (s 3).2 (l.g 3)).setH (s 1).1 (s 1).2 (l.lam 0)).setV
      (s 2).1 (s 2).2 (l.lam 1)).setH (s 2).1 (s 2).2 (l.lam 2)).setV (s 3).1 (s 3).2 (l.lam 3)) := by
  obtain ⟨h1, h2, h3, h4, h5, h6⟩ := hq.pos
  subst hr hc
  simp only [putLoop]
  rw [h2, h4, h1, h3, h5, h6]

theorem putLoop_gamma (l : Loop 𝕜) :
    (∀ i, (putLoop p (s 0).1 (s 0).2 l).gamma (s i).1 (s i).2 = l.g i) ∧
    ∀ t : Site rows cols, (∀ i, t ≠ s i) →
      (putLoop p (s 0).1 (s 0).2 l).gamma t.1 t.2 = p.gamma t.1 t.2 := by
  rw [putLoop_eq hq hr hc]
  have key : ∀ t : Site rows cols,
      (((((((((p.setGamma (s 0).1 (s 0).2 (l.g 0)).setGamma (s 1).1 (s 1).2 (l.g 1)).setGamma
      (s 2).1 (s 2).2 (l.g 2)).setGamma (s 3).1 (s 3).2 (l.g 3)).setH (s 1).1 (s 1).2 (l.lam 0)).setV
      (s 2).1 (s 2).2 (l.lam 1)).setH (s 2).1 (s 2).2 (l.lam 2)).setV (s 3).1 (s 3).2
      (l.lam 3))).gamma t.1 t.2 = if t = s 3 then l.g 3 else if t = s 2 then l.g 2 else
        if t = s 1 then l.g 1 else if t = s 0 then l.g 0 else p.gamma t.1 t.2 := by
    intro t
    change (Peps.setGamma _ _ _ _).gamma t.1 t.2 = _
    rw [gamma_setGamma, gamma_setGamma, gamma_setGamma, gamma_setGamma]
  refine ⟨fun i => ?_, fun t ht => ?_⟩
  · rw [key]
    have ne : ∀ {i j : Fin 4}, i ≠ j → s i ≠ s j := fun h => hq.ne h
    fin_cases i
    · exact (if_neg (ne (i := 0) (j := 3) (by decide))).trans
        ((if_neg (ne (i := 0) (j := 2) (by decide))).trans
        ((if_neg (ne (i := 0) (j := 1) (by decide))).trans (if_pos rfl)))
    · exact (if_neg (ne (i := 1) (j := 3) (by decide))).trans
        ((if_neg (ne (i := 1) (j := 2) (by decide))).trans (if_pos rfl))
    · exact (if_neg (ne (i := 2) (j := 3) (by decide))).trans (if_pos rfl)
    · exact if_pos rfl
  · rw [key, if_neg (ht 3), if_neg (ht 2), if_neg (ht 1), if_neg (ht 0)]

theorem putLoop_weight (l : Loop 𝕜) :
    (∀ i, weight (putLoop p (s 0).1 (s 0).2 l) (squareBond bc s i) = l.lam i) ∧
    ∀ b : Bond bc rows cols, (∀ i, b ≠ squareBond bc s i) →
      weight (putLoop p (s 0).1 (s 0).2 l) b = weight p b := by
  rw [putLoop_eq hq hr hc]
  have key : ∀ b : Bond bc rows cols,
      weight (((((((((p.setGamma (s 0).1 (s 0).2 (l.g 0)).setGamma (s 1).1 (s 1).2 (l.g 1)).setGamma
      (s 2).1 (s 2).2 (l.g 2)).setGamma (s 3).1 (s 3).2 (l.g 3)).setH (s 1).1 (s 1).2 (l.lam 0)).setV
      (s 2).1 (s 2).2 (l.lam 1)).setH (s 2).1 (s 2).2 (l.lam 2)).setV (s 3).1 (s 3).2
      (l.lam 3))) b = if b = squareBond bc s 3 then l.lam 3 else if b = squareBond bc s 2 then l.lam 2
        else if b = squareBond bc s 1 then l.lam 1 else if b = squareBond bc s 0 then l.lam 0
        else weight p b := by
    intro b
    rw [weight_setV, weight_setH, weight_setV, weight_setH, weight_setGamma, weight_setGamma,
      weight_setGamma, weight_setGamma, ← hq.left, ← hq.bottom, ← hq.right, ← hq.top]
    rfl
  have hb := hq.bond_injective
  have ne : ∀ {i j : Fin 4}, i ≠ j → squareBond bc s i ≠ squareBond bc s j := fun h e => h (hb e)
  refine ⟨fun i => ?_, fun t ht => ?_⟩
  · rw [key]
    fin_cases i
    · exact (if_neg (ne (i := 0) (j := 3) (by decide))).trans
        ((if_neg (ne (i := 0) (j := 2) (by decide))).trans
        ((if_neg (ne (i := 0) (j := 1) (by decide))).trans (if_pos rfl)))
    · exact (if_neg (ne (i := 1) (j := 3) (by decide))).trans
        ((if_neg (ne (i := 1) (j := 2) (by decide))).trans (if_pos rfl))
    · exact (if_neg (ne (i := 2) (j := 3) (by decide))).trans (if_pos rfl)
    · exact if_pos rfl
  · rw [key, if_neg (ht 3), if_neg (ht 2), if_neg (ht 1), if_neg (ht 0)]

end

theorem putLoop_size (p : Peps 𝕜) (row col : ℕ) (l : Loop 𝕜) : (putLoop p row col l).rows = p.rows ∧
    (putLoop p row col l).cols = p.cols ∧ (putLoop p row col l).bc = p.bc := by
  have h1 : ∀ (q : Peps 𝕜) r c d, (q.setH r c d).rows = q.rows ∧ (q.setH r c d).cols = q.cols ∧
      (q.setH r c d).bc = q.bc := fun _ _ _ _ => ⟨rfl, rfl, rfl⟩
  have h2 : ∀ (q : Peps 𝕜) r c d, (q.setV r c d).rows = q.rows ∧ (q.setV r c d).cols = q.cols ∧
      (q.setV r c d).bc = q.bc := fun _ _ _ _ => ⟨rfl, rfl, rfl⟩
  have h3 : ∀ (q : Peps 𝕜) r c d, (q.setGamma r c d).rows = q.rows ∧
      (q.setGamma r c d).cols = q.cols ∧ (q.setGamma r c d).bc = q.bc := fun _ _ _ _ => ⟨rfl, rfl, rfl⟩
  simp only [putLoop, h1, h2, h3, and_self]

/-- dimensions of the outer legs -/
def outDim (dim : Bond bc rows cols → ℕ) (s : Fin 4 → Site rows cols) (i : Fin 4) : ℕ × ℕ :=
  (dim (leg bc (s i) (outLeg i).1), dim (leg bc (s i) (outLeg i).2))

/-- the weights around the square, one factor for each corner -/
noncomputable def envW (bc : BC) (p : Peps 𝕜) (s : Fin 4 → Site rows cols) (e : Fin 4 → ℕ × ℕ)
    (i : Fin 4) : 𝕜 :=
  ((weight p (leg bc (s i) (outLeg i).1)).val (e i).1 : 𝕜) *
    ((weight p (leg bc (s i) (outLeg i).2)).val (e i).2 : 𝕜)

section
variable {p : Peps 𝕜} {phys : Site rows cols → ℕ} {dim : Bond bc rows cols → ℕ} (hf : Fits p phys dim)
  {s : Fin 4 → Site rows cols} (hq : Square bc s)
include hf hq

theorem Spec.Square.shapes :
    (p.gamma (s 0).1 (s 0).2).shape = [(outDim dim s 0).1, dim (squareBond bc s 3),
      dim (squareBond bc s 0), (outDim dim s 0).2, phys (s 0)] ∧
    (p.gamma (s 1).1 (s 1).2).shape = [dim (squareBond bc s 0), dim (squareBond bc s 1),
      (outDim dim s 1).1, (outDim dim s 1).2, phys (s 1)] ∧
    (p.gamma (s 2).1 (s 2).2).shape = [dim (squareBond bc s 2), (outDim dim s 2).1,
      (outDim dim s 2).2, dim (squareBond bc s 1), phys (s 2)] ∧
    (p.gamma (s 3).1 (s 3).2).shape = [(outDim dim s 3).1, (outDim dim s 3).2,
      dim (squareBond bc s 2), dim (squareBond bc s 3), phys (s 3)] := by
  refine ⟨hf.shape (s 0), ?_, ?_, ?_⟩
  · rw [hf.shape (s 1), ← hq.top]
    rfl
  · rw [hf.shape (s 2), ← hq.bottom, ← hq.right]
    rfl
  · rw [hf.shape (s 3), ← hq.left]
    rfl

/-- the loop with the weights around it -/
theorem dressed_eq {l : Loop 𝕜} {D d : Fin 4 → ℕ} (hl : LoopFits (mps l) D d (outDim dim s)) :
    LoopFits (dressed p (s 0).1 (s 0).2 l) D d (outDim dim s) ∧
    ∀ x e, LoopIn d (outDim dim s) x e → ringAt (dressed p (s 0).1 (s 0).2 l) x e =
      ringAt (mps l) x e *
        (envW bc p s e 0 * envW bc p s e 1 * envW bc p s e 2 * envW bc p s e 3) := by
  have h := fun i => eat2_eq (hl.shape i) (weight p (leg bc (s i) (outLeg i).1))
    (weight p (leg bc (s i) (outLeg i).2)) (hf.weight _) (hf.weight _)
  have hd : dressed p (s 0).1 (s 0).2 l = ⟨fun i => eat2 (toMps i (l.g i))
      (weight p (leg bc (s i) (outLeg i).1)) (weight p (leg bc (s i) (outLeg i).2)), l.lam⟩ := by
    unfold dressed
    rw [loopEnvL_eq hq hf.rows_eq hf.cols_eq hf.bc_eq, loopEnvR_eq hq hf.rows_eq hf.cols_eq hf.bc_eq]
  rw [hd]
  refine ⟨⟨fun i => (h i).1, hl.dim⟩, fun x e hx => ringAt_scale (fun _ => rfl) fun i a _ b _ => ?_⟩
  have := (h i).2 a (x i) (e i).1 (e i).2 b (hx i).2.1 (hx i).2.2
  refine (congrArg (· * _) this).trans ?_
  simp only [envW, mps]
  ring

/-- the end of the projection -/
theorem finish_eq {para : LoopPara} (htol : 0 ≤ para.envInvTol)
    (hab : ∀ i, Above para.envInvTol (weight p (leg bc (s i) (outLeg i).1)) ∧
      Above para.envInvTol (weight p (leg bc (s i) (outLeg i).2)))
    {p1 : Peps 𝕜} (hr : p1.rows = rows) (hc : p1.cols = cols) (hbc : p1.bc = bc)
    (hg : ∀ t : Site rows cols, (∀ i, t ≠ s i) → p1.gamma t.1 t.2 = p.gamma t.1 t.2)
    (hw : ∀ b : Bond bc rows cols, (∀ i, b ≠ squareBond bc s i) → weight p1 b = weight p b)
    {l : Loop 𝕜} {D : Fin 4 → ℕ} (hl : LoopFits l D (fun i => phys (s i)) (outDim dim s)) :
    ∃ dim' : Bond bc rows cols → ℕ, Fits (finish para p p1 (s 0).1 (s 0).2 l).1 phys dim' ∧
      (∀ b, (∀ i, b ≠ squareBond bc s i) → dim' b = dim b) ∧
      (∀ t : Site rows cols, (∀ i, t ≠ s i) →
        (finish para p p1 (s 0).1 (s 0).2 l).1.gamma t.1 t.2 = p.gamma t.1 t.2) ∧
      (∀ b, (∀ i, b ≠ squareBond bc s i) →
        weight (finish para p p1 (s 0).1 (s 0).2 l).1 b = weight p b) ∧
      ∀ x e, LoopIn (fun i => phys (s i)) (outDim dim s) x e →
        ((finish para p p1 (s 0).1 (s 0).2 l).2 : 𝕜) *
          ringAt (mps (loopOf bc (finish para p p1 (s 0).1 (s 0).2 l).1 s)) x e *
          (envW bc p s e 0 * envW bc p s e 1 * envW bc p s e 2 * envW bc p s e 3) =
        ringAt l x e := by
  have hsp := fun i => eat2_eq (hl.shape i)
    (diagInv para.envInvTol (weight p (leg bc (s i) (outLeg i).1)))
    (diagInv para.envInvTol (weight p (leg bc (s i) (outLeg i).2))) (hf.weight _) (hf.weight _)
  simp only [finish, split2_eq, loopEnvL_eq hq hf.rows_eq hf.cols_eq hf.bc_eq,
    loopEnvR_eq hq hf.rows_eq hf.cols_eq hf.bc_eq]
  generalize hT : (fun i => eat2 (l.g i)
    (diagInv para.envInvTol (weight p (leg bc (s i) (outLeg i).1)))
    (diagInv para.envInvTol (weight p (leg bc (s i) (outLeg i).2)))) = T
  have hTi : ∀ i, eat2 (l.g i)
    (diagInv para.envInvTol (weight p (leg bc (s i) (outLeg i).1)))
    (diagInv para.envInvTol (weight p (leg bc (s i) (outLeg i).2))) = T i := fun i => congrFun hT i
  simp only [hTi] at hsp ⊢
  generalize hL : (⟨fun i => normalized (fromMps i (T i)), fun i => diagNormalized (l.lam i)⟩ :
    Loop 𝕜) = L
  have hLg : ∀ i, L.g i = normalized (fromMps i (T i)) := fun i => by rw [← hL]
  have hLl : ∀ i, L.lam i = diagNormalized (l.lam i) := fun i => by rw [← hL]
  obtain ⟨g1, g2⟩ := putLoop_gamma hq hr hc L
  obtain ⟨w1, w2⟩ := putLoop_weight hq hr hc L
  obtain ⟨z1, z2, z3⟩ := putLoop_size p1 (s 0).1 (s 0).2 L
  generalize putLoop p1 (s 0).1 (s 0).2 L = q at g1 g2 w1 w2 z1 z2 z3
  have hwo : ∀ b : Bond bc rows cols, (∀ i, b ≠ squareBond bc s i) → weight q b = weight p b :=
    fun b hb => (w2 b hb).trans (hw b hb)
  have hgo : ∀ t : Site rows cols, (∀ i, t ≠ s i) → q.gamma t.1 t.2 = p.gamma t.1 t.2 :=
    fun t ht => (g2 t ht).trans (hg t ht)
  have hdo : ∀ b : Bond bc rows cols, (∀ i, b ≠ squareBond bc s i) → (weight q b).dim = dim b :=
    fun b hb => by rw [hwo b hb, hf.weight]
  have hdi : ∀ i, (weight q (squareBond bc s i)).dim = D i := fun i => by
    rw [w1 i, hLl]
    exact hl.dim i
  have ho1 : ∀ i, (weight q (leg bc (s i) (outLeg i).1)).dim = (outDim dim s i).1 := fun i =>
    hdo _ fun j => (hq.outer_ne i j).1
  have ho2 : ∀ i, (weight q (leg bc (s i) (outLeg i).2)).dim = (outDim dim s i).2 := fun i =>
    hdo _ fun j => (hq.outer_ne i j).2
  refine ⟨fun b => (weight q b).dim, ⟨z1.trans hr, z2.trans hc, z3.trans hbc, fun t => ?_,
    fun _ => rfl, fun b hb => ?_⟩, hdo, hgo, hwo, fun x e hx => ?_⟩
  · by_cases ht : ∀ i, t ≠ s i
    · rw [hgo t ht, hf.shape t]
      have hne : ∀ k, (weight q (leg bc t k)).dim = dim (leg bc t k) := fun k => hdo _ fun i h => by
        obtain ⟨j, hj⟩ := hq.ends_site i t k h
        exact ht j hj
      simp only [hne]
    · push Not at ht
      obtain ⟨i, rfl⟩ := ht
      rw [g1 i, hLg i]
      change (fromMps i (T i)).shape = _
      have hs := (hsp i).1
      fin_cases i
      · have e1 := ho1 0
        have e2 := ho2 0
        have e3 := hdi 3
        have e4 := hdi 0
        change (weight q (leg bc (s 0) 0)).dim = _ at e1
        change (weight q (leg bc (s 0) 3)).dim = _ at e2
        change (weight q (leg bc (s 0) 1)).dim = _ at e3
        change (weight q (leg bc (s 0) 2)).dim = _ at e4
        change (fromMps 0 (T 0)).shape = _
        change (T 0).shape = _ at hs
        simp only [fromMps, transpose, hs]
        change _ = [(weight q (leg bc (s 0) 0)).dim, (weight q (leg bc (s 0) 1)).dim,
          (weight q (leg bc (s 0) 2)).dim, (weight q (leg bc (s 0) 3)).dim, phys (s 0)]
        rw [e1, e2, e3, e4]
        rfl
      · have e1 := ho1 1
        have e2 := ho2 1
        have e3 := hdi 0
        have e4 := hdi 1
        change (weight q (leg bc (s 1) 2)).dim = _ at e1
        change (weight q (leg bc (s 1) 3)).dim = _ at e2
        change (weight q (leg bc (s 0) 2)).dim = _ at e3
        change (weight q (leg bc (s 1) 1)).dim = _ at e4
        rw [hq.top] at e3
        change (fromMps 1 (T 1)).shape = _
        change (T 1).shape = _ at hs
        simp only [fromMps, transpose, hs]
        change _ = [(weight q (leg bc (s 1) 0)).dim, (weight q (leg bc (s 1) 1)).dim,
          (weight q (leg bc (s 1) 2)).dim, (weight q (leg bc (s 1) 3)).dim, phys (s 1)]
        rw [e1, e2, e3, e4]
        rfl
      · have e1 := ho1 2
        have e2 := ho2 2
        have e3 := hdi 1
        have e4 := hdi 2
        change (weight q (leg bc (s 2) 1)).dim = _ at e1
        change (weight q (leg bc (s 2) 2)).dim = _ at e2
        change (weight q (leg bc (s 1) 1)).dim = _ at e3
        change (weight q (leg bc (s 3) 2)).dim = _ at e4
        rw [hq.right] at e3
        rw [hq.bottom] at e4
        change (fromMps 2 (T 2)).shape = _
        change (T 2).shape = _ at hs
        simp only [fromMps, transpose, hs]
        change _ = [(weight q (leg bc (s 2) 0)).dim, (weight q (leg bc (s 2) 1)).dim,
          (weight q (leg bc (s 2) 2)).dim, (weight q (leg bc (s 2) 3)).dim, phys (s 2)]
        rw [e1, e2, e3, e4]
        rfl
      · have e1 := ho1 3
        have e2 := ho2 3
        have e3 := hdi 2
        have e4 := hdi 3
        change (weight q (leg bc (s 3) 0)).dim = _ at e1
        change (weight q (leg bc (s 3) 1)).dim = _ at e2
        change (weight q (leg bc (s 3) 2)).dim = _ at e3
        change (weight q (leg bc (s 0) 1)).dim = _ at e4
        rw [hq.left] at e4
        change (fromMps 3 (T 3)).shape = _
        change (T 3).shape = _ at hs
        simp only [fromMps, transpose, hs]
        change _ = [(weight q (leg bc (s 3) 0)).dim, (weight q (leg bc (s 3) 1)).dim,
          (weight q (leg bc (s 3) 2)).dim, (weight q (leg bc (s 3) 3)).dim, phys (s 3)]
        rw [e1, e2, e3, e4]
        rfl
  · have hne : ∀ i, b ≠ squareBond bc s i := by
      rintro i rfl
      fin_cases i
      · exact not_external_h hq.top hb
      · exact not_external_v hq.right hb
      · exact not_external_h hq.bottom hb
      · exact not_external_v hq.left hb
    change (weight q b).dim = 1
    rw [hdo b hne]
    exact hf.external b hb
  · have hsc := ringAt_scale (l := mps (loopOf bc q s)) (l' := l) (x := x) (e := e)
      (c := fun i => (norm2 (fromMps i (T i)) : 𝕜) * (diagNorm (l.lam i) : 𝕜) * envW bc p s e i)
      (fun i => by
        change _ = (weight q (squareBond bc s i)).dim
        rw [hdi, hl.dim]) (fun i a ha b hb => by
        change a < (weight q (squareBond bc s (i + 3))).dim at ha
        change b < (weight q (squareBond bc s i)).dim at hb
        rw [hdi] at ha hb
        change _ = (toMps i (q.gamma (s i).1 (s i).2)).elem _ * ((weight q (squareBond bc s i)).val b : 𝕜)
          * _
        rw [g1 i, w1 i, hLg, hLl]
        have n1 := norm2_toMps_mul i (hsp i).1 ha (hx i).1 (hx i).2.1 (hx i).2.2 hb
        have n2 := diagNorm_mul (l.lam i) (i := b) (by rw [hl.dim]; exact hb)
        have n3 := (hsp i).2 a (x i) (e i).1 (e i).2 b (hx i).2.1 (hx i).2.2
        have v1 := diagInv_mul (𝕜 := 𝕜) (hab i).1 htol (i := (e i).1) (by rw [hf.weight]; exact (hx i).2.1)
        have v2 := diagInv_mul (𝕜 := 𝕜) (hab i).2 htol (i := (e i).2) (by rw [hf.weight]; exact (hx i).2.2)
        have v12 := congrArg₂ (· * ·) v1 v2
        simp only [mul_one] at v12
        have n2' : (diagNorm (l.lam i) : 𝕜) * ((diagNormalized (l.lam i)).val b : 𝕜) =
            ((l.lam i).val b : 𝕜) := by rw [← n2]; push_cast; rfl
        rw [← n2']
        rw [n3] at n1
        simp only [envW]
        linear_combination (-((diagNorm (l.lam i) : 𝕜) * ((diagNormalized (l.lam i)).val b : 𝕜)) *
          ((weight p (leg bc (s i) (outLeg i).1)).val (e i).1 : 𝕜) *
          ((weight p (leg bc (s i) (outLeg i).2)).val (e i).2 : 𝕜)) * n1 -
          ((diagNorm (l.lam i) : 𝕜) * ((diagNormalized (l.lam i)).val b : 𝕜)) *
          (l.g i).elem [a, x i, (e i).1, (e i).2, b] *
          v12)
    rw [hsc]
    push_cast
    ring

end

end QLPeps.Peps
