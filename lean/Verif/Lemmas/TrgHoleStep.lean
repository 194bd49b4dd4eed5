import Verif.Lemmas.TrgHoleElem
import Verif.Lemmas.TrgHolePlaq
import Verif.Lemmas.TrgHoleScale
import Verif.Lemmas.TrgValue

/-!
# Every contribution to a hole pairs to the value of the network
-/

namespace QLPeps.Trg

open QLPeps.Peps (Tn Diag Lib Svd contractN transpose dag diagInv)
open QLPeps.Peps.Spec (Exact SvdNonNeg)
open Spec

noncomputable section

variable {𝕜 : Type} [RCLike 𝕜]

/-- the roots of the kept singular values of a node are zero or can be inverted -/
def NodeOk (lib : Lib 𝕜) (e τ : ℝ) (type1 : Bool) (t : Tn 𝕜) : Prop :=
  ∀ m < (factors lib type1 t).s.dim, (factors lib type1 t).s.val m = 0 ∨
    max (e * maxAbs (rootDiag (factors lib type1 t).s)) τ < Real.sqrt ((factors lib type1 t).s.val m)

theorem NodeOk.inv {lib : Lib 𝕜} {e τ : ℝ} {type1 : Bool} {t : Tn 𝕜} (h : NodeOk lib e τ type1 t) :
    InvOk (factors lib type1 t).s (isoPieces lib e τ type1 t).inv := by
  refine ⟨rfl, fun m hm => ?_⟩
  change (if _ < |Real.sqrt ((factors lib type1 t).s.val m)| then 1 / Real.sqrt ((factors lib type1 t).s.val m) else 0) *
    (factors lib type1 t).s.val m = _
  rcases h m hm with h | h
  · rw [h, mul_zero, Real.sqrt_zero]
  · rw [abs_of_nonneg (Real.sqrt_nonneg _), if_pos h, one_div, inv_mul_eq_div, Real.div_sqrt]

theorem sv_rel {lib : Lib 𝕜} (hv : SingularVectors lib) {t : Tn 𝕜} {l d r u : ℕ} (ht : t.shape = [l, d, r, u])
    (type1 : Bool) :
    if type1 then Rel l d r u t (factors lib type1 t) else Rel l u d r (oriented false t) (factors lib type1 t) := by
  cases type1
  · exact ⟨hv.left _ _ _ _ _ (oriented0 ht).1, hv.right _ _ _ _ _ (oriented0 ht).1⟩
  · exact ⟨hv.left _ _ _ _ _ ht, hv.right _ _ _ _ _ ht⟩

theorem pull_ok {lib : Lib 𝕜} (he : Exact lib) (hv : SingularVectors lib) {e τ : ℝ} {t : Tn 𝕜} {l d r u : ℕ}
    (ht : t.shape = [l, d, r, u]) {type1 : Bool} (hr : NodeOk lib e τ type1 t) (isP : Bool) {h : Tn 𝕜} {A B C : ℕ}
    (hp : (if isP then (splitPieces lib type1 t).1 else (splitPieces lib type1 t).2).shape = [A, B, C])
    (hh : h.shape = [A, B, C]) {Z : 𝕜}
    (hZ : P3 A B C h (if isP then (splitPieces lib type1 t).1 else (splitPieces lib type1 t).2) = Z) :
    (pull type1 (isoPieces lib e τ type1 t) isP h).shape = t.shape ∧
      pair (pull type1 (isoPieces lib e τ type1 t) isP h) t = Z := by
  obtain ⟨a, b⟩ := pull_pair he ht type1 isP (sv_rel hv ht type1) (iso := isoPieces lib e τ type1 t) rfl rfl hr.inv hp hh
  exact ⟨a.trans ht.symm, by rw [pair_eq _ ht, b, hZ]⟩

/-- the piece of child number `k` that goes into `w` -/
def pieceOf (lib : Lib 𝕜) (cols s : ℕ) (fine coarse : Scale (Tn 𝕜) (Tn 𝕜) (Iso 𝕜)) (t : ℕ → Tn 𝕜) (w k : ℕ) : Tn 𝕜 :=
  let f := (coarse.c2f w).getD k 0
  if roleP s k then (splitPieces lib (ty cols s fine coarse f) (t f)).1
  else (splitPieces lib (ty cols s fine coarse f) (t f)).2

/-- the hole of a piece has its shape, and pairs with it to what the hole of the parent pairs to -/
structure PieceOk (lib : Lib 𝕜) (e τ : ℝ) (cols s : ℕ) (fine coarse : Scale (Tn 𝕜) (Tn 𝕜) (Iso 𝕜)) (t : ℕ → Tn 𝕜)
    (h : Tn 𝕜) (w k : ℕ) : Prop where
  four : ∃ l d r u, (t ((coarse.c2f w).getD k 0)).shape = [l, d, r, u]
  three : ∃ A B C, (pieceOf lib cols s fine coarse t w k).shape = [A, B, C] ∧
    (piecesOf lib cols s fine coarse t h w k).shape = [A, B, C] ∧
    P3 A B C (piecesOf lib cols s fine coarse t h w k) (pieceOf lib cols s fine coarse t w k) =
      pair h (up (tensorOps lib e τ) cols s fine coarse t w)

theorem PieceOk.contrib {lib : Lib 𝕜} (he : Exact lib) (hv : SingularVectors lib) {e τ : ℝ} {cols s : ℕ}
    {fine coarse : Scale (Tn 𝕜) (Tn 𝕜) (Iso 𝕜)} {t : ℕ → Tn 𝕜} {h : Tn 𝕜} {w k : ℕ}
    (hp : PieceOk lib e τ cols s fine coarse t h w k)
    (hr : NodeOk lib e τ (ty cols s fine coarse ((coarse.c2f w).getD k 0)) (t ((coarse.c2f w).getD k 0))) :
    (contrib lib e τ cols s fine coarse t h w k).shape = (t ((coarse.c2f w).getD k 0)).shape ∧
      pair (contrib lib e τ cols s fine coarse t h w k) (t ((coarse.c2f w).getD k 0)) =
        pair h (up (tensorOps lib e τ) cols s fine coarse t w) := by
  obtain ⟨l, d, r, u, ht⟩ := hp.four
  obtain ⟨A, B, C, h1, h2, h3⟩ := hp.three
  exact pull_ok he hv ht hr (roleP s k) h1 h2 h3

section
variable {lib : Lib 𝕜} (he : Exact lib) {e τ : ℝ} {m cols s : ℕ}
  {fine coarse : Scale (Tn 𝕜) (Tn 𝕜) (Iso 𝕜)} (hl : Link cols s fine coarse) {t holes : ℕ → Tn 𝕜}
  (hh : ∀ w < coarse.size, (holes w).shape = (up (tensorOps lib e τ) cols s fine coarse t w).shape)
include he hl hh

theorem plaq_pieces (hs : s % 2 = 0) (hc : s = 0 → cols = 2 * m)
    (h2 : coarse.size = 2 * m * (2 * m) / 2)
    (h4 : coarse.c2f = c2fOf (plaquettes (2 * m))) {dim : TB (2 * m) → ℕ} (hf : TFits (2 * m) t dim) :
    ∀ w < coarse.size, ∀ k < 4, PieceOk lib e τ cols s fine coarse t (holes w) w k := by
  intro w' hw' k hk
  obtain ⟨w, rfl⟩ : ∃ w : Fin (2 * m) × Fin m, w' = w.1 * m + w.2 := by
    obtain ⟨a, b, ha, hb, hab⟩ := enc_exists (m := 2 * m) (n := m) (f := w') (by
      rw [h2, show 2 * m * (2 * m) = 2 * (2 * m * m) by ring, Nat.mul_div_cancel_left _ (by omega)] at hw'
      exact hw')
    exact ⟨(⟨a, ha⟩, ⟨b, hb⟩), hab⟩
  have hup : up (tensorOps lib e τ) cols s fine coarse t (w.1 * m + w.2) = plaqT lib m t w := by
    unfold up
    rw [if_pos hs, plaq_kids h4]
    simp only [List.getD_cons_zero, List.getD_cons_succ, ty_plaq hs hc hl h2 h4, ty_TL, ty_TR, ty_BL, ty_BR]
    unfold plaqT tensorOps
    dsimp only
  have hsh := hh _ hw'
  have hpair : pair (holes (w.1 * m + w.2)) (up (tensorOps lib e τ) cols s fine coarse t ((w.1 * m + w.2))) = pair (holes (w.1 * m + w.2)) (up (tensorOps lib e τ) cols s fine coarse t ((w.1 * m + w.2))) := rfl
  conv at hpair => lhs; rw [hup]
  rw [hup] at hsh
  have hS := (plaq_shapes he hf w).1
  rw [pair_eq _ hS] at hpair
  rw [hS] at hsh
  have s0 := (split0 he (hf (cTL w))).2
  have s1 := (split1 he (hf (cTR w))).1
  have s2 := (split1 he (hf (cBL w))).2
  have s3 := (split0 he (hf (cBR w))).1
  unfold plaqDim at hsh hpair
  rw [ty_TL, ty_TR, ty_BL, ty_BR] at hsh hpair
  unfold plaqT at hpair
  have hps : ∀ h, piecesOf lib cols s fine coarse t h (w.1 * m + w.2) = plaqBack h (splitPieces lib false (t (nid (cTL w)))).2 (splitPieces lib true (t (nid (cTR w)))).2
      (splitPieces lib true (t (nid (cBL w)))).1 (splitPieces lib false (t (nid (cBR w)))).1 := fun h => by
    unfold piecesOf
    rw [if_pos hs, plaq_kids h4]
    simp only [List.getD_cons_zero, List.getD_cons_succ, ty_plaq hs hc hl h2 h4, ty_TL, ty_TR, ty_BL, ty_BR]
  obtain rfl | rfl | rfl | rfl : k = 0 ∨ k = 1 ∨ k = 2 ∨ k = 3 := by omega
  · have := plaqBack_0 hsh s2 s3 s1 s0
    refine ⟨by rw [plaq_kids h4]; exact ⟨_, _, _, _, hf (cTL w)⟩, ?_⟩
    have hpc : pieceOf lib cols s fine coarse t (w.1 * m + w.2) 0 = (splitPieces lib false (t (nid (cTL w)))).2 := by
      unfold pieceOf roleP
      rw [if_pos hs, plaq_kids h4]
      simp only [List.getD_cons_zero, List.getD_cons_succ, ty_plaq hs hc hl h2 h4, ty_TL]
      rfl
    rw [hpc, hps]
    exact ⟨_, _, _, s0, this.1, this.2.trans hpair⟩
  · have := plaqBack_1 hsh s2 s3 s1 s0
    refine ⟨by rw [plaq_kids h4]; exact ⟨_, _, _, _, hf (cTR w)⟩, ?_⟩
    have hpc : pieceOf lib cols s fine coarse t (w.1 * m + w.2) 1 = (splitPieces lib true (t (nid (cTR w)))).2 := by
      unfold pieceOf roleP
      rw [if_pos hs, plaq_kids h4]
      simp only [List.getD_cons_zero, List.getD_cons_succ, ty_plaq hs hc hl h2 h4, ty_TR]
      rfl
    rw [hpc, hps]
    exact ⟨_, _, _, s1, this.1, this.2.trans hpair⟩
  · have := plaqBack_2 hsh s2 s3 s1 s0
    refine ⟨by rw [plaq_kids h4]; exact ⟨_, _, _, _, hf (cBL w)⟩, ?_⟩
    have hpc : pieceOf lib cols s fine coarse t (w.1 * m + w.2) 2 = (splitPieces lib true (t (nid (cBL w)))).1 := by
      unfold pieceOf roleP
      rw [if_pos hs, plaq_kids h4]
      simp only [List.getD_cons_zero, List.getD_cons_succ, ty_plaq hs hc hl h2 h4, ty_BL]
      rfl
    rw [hpc, hps]
    exact ⟨_, _, _, s2, this.1, this.2.trans hpair⟩
  · have := plaqBack_3 hsh s2 s3 s1 s0
    refine ⟨by rw [plaq_kids h4]; exact ⟨_, _, _, _, hf (cBR w)⟩, ?_⟩
    have hpc : pieceOf lib cols s fine coarse t (w.1 * m + w.2) 3 = (splitPieces lib false (t (nid (cBR w)))).1 := by
      unfold pieceOf roleP
      rw [if_pos hs, plaq_kids h4]
      simp only [List.getD_cons_zero, List.getD_cons_succ, ty_plaq hs hc hl h2 h4, ty_BR]
      rfl
    rw [hpc, hps]
    exact ⟨_, _, _, s3, this.1, this.2.trans hpair⟩

theorem diam_pieces (hs : s % 2 = 1)
    (h2 : coarse.size = m * m)
    (h4 : coarse.c2f = c2fOf (diamonds (2 * m))) {dim : Fin (2 * m) × Fin (2 * m) → ℕ} (hf : RFits m t dim) :
    ∀ w < coarse.size, ∀ k < 4, PieceOk lib e τ cols s fine coarse t (holes w) w k := by
  intro w' hw' k hk
  obtain ⟨x, rfl⟩ : ∃ x : Fin m × Fin m, w' = x.1 * m + x.2 := by
    obtain ⟨a, b, ha, hb, hab⟩ := enc_exists (m := m) (n := m) (f := w') (by rw [h2] at hw'; exact hw')
    exact ⟨(⟨a, ha⟩, ⟨b, hb⟩), hab⟩
  have hs' : ¬ s % 2 = 0 := by omega
  have hup : up (tensorOps lib e τ) cols s fine coarse t (x.1 * m + x.2) = diamT lib m t x := by
    unfold up
    rw [if_neg hs', diam_kids h4]
    simp only [List.getD_cons_zero, List.getD_cons_succ, ty_diam hs hl h2 h4, ty_N, ty_E, ty_S, ty_W]
    unfold diamT tensorOps
    dsimp only
  have hsh := hh _ hw'
  have hpair : pair (holes (x.1 * m + x.2)) (up (tensorOps lib e τ) cols s fine coarse t ((x.1 * m + x.2))) = pair (holes (x.1 * m + x.2)) (up (tensorOps lib e τ) cols s fine coarse t ((x.1 * m + x.2))) := rfl
  conv at hpair => lhs; rw [hup]
  rw [hup] at hsh
  have hS := (diam_shapes he hf x).1
  rw [pair_eq _ hS] at hpair
  rw [hS] at hsh
  have s0 := (split1 he (hf (dN x))).2
  have s1 := (split0 he (hf (dE x))).1
  have s2 := (split1 he (hf (dS x))).1
  have s3 := (split0 he (hf (dW x))).2
  rw [corner1, corner2] at s0
  rw [corner3] at s1
  rw [corner4] at s3
  unfold diamDim at hsh hpair
  rw [ty_N, ty_E, ty_S, ty_W] at hsh hpair
  unfold diamT at hpair
  have hps : ∀ h, piecesOf lib cols s fine coarse t h (x.1 * m + x.2) = diamBack h (splitPieces lib true (t (rid (dN x)))).1 (splitPieces lib false (t (rid (dE x)))).1
      (splitPieces lib true (t (rid (dS x)))).2 (splitPieces lib false (t (rid (dW x)))).2 := fun h => by
    unfold piecesOf
    rw [if_neg hs', diam_kids h4]
    simp only [List.getD_cons_zero, List.getD_cons_succ, ty_diam hs hl h2 h4, ty_N, ty_E, ty_S, ty_W]
  obtain rfl | rfl | rfl | rfl : k = 0 ∨ k = 1 ∨ k = 2 ∨ k = 3 := by omega
  · have := diamBack_0 hsh s2 s3 s0 s1
    refine ⟨by rw [diam_kids h4]; exact ⟨_, _, _, _, hf (dN x)⟩, ?_⟩
    have hpc : pieceOf lib cols s fine coarse t (x.1 * m + x.2) 0 = (splitPieces lib true (t (rid (dN x)))).1 := by
      unfold pieceOf roleP
      rw [if_neg hs', diam_kids h4]
      simp only [List.getD_cons_zero, List.getD_cons_succ, ty_diam hs hl h2 h4, ty_N]
      rfl
    rw [hpc, hps]
    exact ⟨_, _, _, s0, this.1, this.2.trans hpair⟩
  · have := diamBack_1 hsh s2 s3 s0 s1
    refine ⟨by rw [diam_kids h4]; exact ⟨_, _, _, _, hf (dE x)⟩, ?_⟩
    have hpc : pieceOf lib cols s fine coarse t (x.1 * m + x.2) 1 = (splitPieces lib false (t (rid (dE x)))).1 := by
      unfold pieceOf roleP
      rw [if_neg hs', diam_kids h4]
      simp only [List.getD_cons_zero, List.getD_cons_succ, ty_diam hs hl h2 h4, ty_E]
      rfl
    rw [hpc, hps]
    exact ⟨_, _, _, s1, this.1, this.2.trans hpair⟩
  · have := diamBack_2 hsh s2 s3 s0 s1
    refine ⟨by rw [diam_kids h4]; exact ⟨_, _, _, _, hf (dS x)⟩, ?_⟩
    have hpc : pieceOf lib cols s fine coarse t (x.1 * m + x.2) 2 = (splitPieces lib true (t (rid (dS x)))).2 := by
      unfold pieceOf roleP
      rw [if_neg hs', diam_kids h4]
      simp only [List.getD_cons_zero, List.getD_cons_succ, ty_diam hs hl h2 h4, ty_S]
      rfl
    rw [hpc, hps]
    exact ⟨_, _, _, s2, this.1, this.2.trans hpair⟩
  · have := diamBack_3 hsh s2 s3 s0 s1
    refine ⟨by rw [diam_kids h4]; exact ⟨_, _, _, _, hf (dW x)⟩, ?_⟩
    have hpc : pieceOf lib cols s fine coarse t (x.1 * m + x.2) 3 = (splitPieces lib false (t (rid (dW x)))).2 := by
      unfold pieceOf roleP
      rw [if_neg hs', diam_kids h4]
      simp only [List.getD_cons_zero, List.getD_cons_succ, ty_diam hs hl h2 h4, ty_W]
      rfl
    rw [hpc, hps]
    exact ⟨_, _, _, s3, this.1, this.2.trans hpair⟩

end

end

end QLPeps.Trg
