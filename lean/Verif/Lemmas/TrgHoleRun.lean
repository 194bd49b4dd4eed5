import Verif.Lemmas.TrgHoleOrth

/-!
# The holes of the first scale
-/

namespace QLPeps.Trg

open QLPeps.Peps (Tn Diag Lib Svd contractN transpose dag diagInv)
open QLPeps.Peps.Spec (Exact SvdNonNeg)
open Spec

noncomputable section

variable {𝕜 : Type} [RCLike 𝕜]

theorem plaq_fits {lib : Lib 𝕜} (he : Exact lib) (e τ : ℝ) {m cols s : ℕ} (hs : s % 2 = 0)
    (hc : s = 0 → cols = 2 * m) {fine coarse : Scale (Tn 𝕜) (Tn 𝕜) (Iso 𝕜)} (hl : Link cols s fine coarse)
    (h2 : coarse.size = 2 * m * (2 * m) / 2)
    (h4 : coarse.c2f = c2fOf (plaquettes (2 * m))) {t : ℕ → Tn 𝕜} {dim : TB (2 * m) → ℕ} (hf : TFits (2 * m) t dim) :
    RFits m (up (tensorOps lib e τ) cols s fine coarse t) (plaqDim lib t) := by
  intro w
  have : up (tensorOps lib e τ) cols s fine coarse t (w.1 * m + w.2) = plaqT lib m t w := by
    unfold up
    rw [if_pos hs, plaq_kids h4]
    simp only [List.getD_cons_zero, List.getD_cons_succ, ty_plaq hs hc hl h2 h4, ty_TL, ty_TR, ty_BL, ty_BR]
    unfold plaqT tensorOps
    dsimp only
  rw [this]
  exact (plaq_shapes he hf w).1

theorem diam_fits {lib : Lib 𝕜} (he : Exact lib) (e τ : ℝ) {m cols s : ℕ} (hs : s % 2 = 1)
    {fine coarse : Scale (Tn 𝕜) (Tn 𝕜) (Iso 𝕜)} (hl : Link cols s fine coarse) (h2 : coarse.size = m * m)
    (h4 : coarse.c2f = c2fOf (diamonds (2 * m))) {t : ℕ → Tn 𝕜} {dim : Fin (2 * m) × Fin (2 * m) → ℕ}
    (hf : RFits m t dim) :
    TFits m (up (tensorOps lib e τ) cols s fine coarse t) (fun b => diamDim lib t (bondNode b)) := by
  intro x
  have : up (tensorOps lib e τ) cols s fine coarse t (x.1 * m + x.2) = diamT lib m t x := by
    unfold up
    rw [if_neg (by omega), diam_kids h4]
    simp only [List.getD_cons_zero, List.getD_cons_succ, ty_diam hs hl h2 h4, ty_N, ty_E, ty_S, ty_W]
    unfold diamT tensorOps
    dsimp only
  simp only [this, (diam_shapes he hf x).1, bondNode_W, bondNode_S, bondNode_E, bondNode_N]

/-- every node split can be pulled back -/
def NR (lib : Lib 𝕜) (e τ : ℝ) (cols : ℕ) : ℕ → Scale (Tn 𝕜) (Tn 𝕜) (Iso 𝕜) → List (Scale (Tn 𝕜) (Tn 𝕜) (Iso 𝕜)) →
    (ℕ → Tn 𝕜) → Prop
  | s, fine, coarse :: rest, t => (∀ i < fine.size, NodeOk lib e τ (ty cols s fine coarse i) (t i)) ∧
      NR lib e τ cols (s + 1) coarse rest (up (tensorOps lib e τ) cols s fine coarse t)
  | _, _, [], _ => True

theorem Full.nr {lib : Lib 𝕜} {e τ : ℝ} {cols s : ℕ} {f : Scale (Tn 𝕜) (Tn 𝕜) (Iso 𝕜)}
    {r : List (Scale (Tn 𝕜) (Tn 𝕜) (Iso 𝕜))} {t : ℕ → Tn 𝕜} (hF : Full (tensorOps lib e τ) cols s f r t)
    (h0 : ∀ sc ∈ f :: r, ∀ i t d, sc.tens i = some t → sc.split i = some d → NodeOk lib e τ d.type1 t) :
    NR lib e τ cols s f r t := by
  induction r generalizing s f t with
  | nil => trivial
  | cons g r ih =>
    obtain ⟨h1, h2, h3⟩ := hF
    exact ⟨fun i hi => h0 f (by simp) i _ _ (h1 i hi) (h2 i hi), ih h3 fun sc hsc => h0 sc (by simp [hsc])⟩

theorem holes2_congr {t t' : ℕ → Tn 𝕜} (h : ∀ i < 4, t i = t' i) : holes2 t = holes2 t' := by
  funext k
  unfold holes2
  rw [h 0 (by omega), h 1 (by omega), h 2 (by omega), h 3 (by omega)]

theorem relId_lt (i a b : ℕ) : relId i a b < 9 := by
  unfold relId
  have := Nat.mod_lt (i / 3 + a) (show 0 < 3 by omega)
  have := Nat.mod_lt (i % 3 + b) (show 0 < 3 by omega)
  omega

theorem holes3_congr {t t' : ℕ → Tn 𝕜} (h : ∀ i < 9, t i = t' i) : holes3 t = holes3 t' := by
  funext k
  unfold holes3
  simp only [h _ (relId_lt _ _ _)]

/-- a tensor of zeros of the shape of `t` -/
def zeroLike (t : Tn 𝕜) : Tn 𝕜 := ⟨t.shape, fun _ => 0⟩

theorem pair_zeroLike (h t : Tn 𝕜) : pair h (zeroLike t) = 0 := by
  unfold pair zeroLike
  simp

/-- `x` is orthogonal to the tensor at `v`, from both sides of the splitting of `v` -/
def Blind {n : ℕ} (t : ℕ → Tn 𝕜) (dim : TB n → ℕ) (v : Fin n × Fin n) (x : Tn 𝕜) : Prop :=
  x.shape = (t (nid v)).shape ∧
    if nodeTy v then Orth (dim (lW v)) (dim (lS v)) (dim (lE v)) (dim (lN v)) (t (nid v)) x
    else Orth (dim (lW v)) (dim (lN v)) (dim (lS v)) (dim (lE v)) (oriented false (t (nid v))) (oriented false x)

section
variable {lib : Lib 𝕜} (he : Exact lib) {e τ : ℝ} {cols s : ℕ} {fine coarse : Scale (Tn 𝕜) (Tn 𝕜) (Iso 𝕜)}
  (hl : Link cols s fine coarse) {t holes : ℕ → Tn 𝕜}
  (hs : ∀ i < fine.size, fine.split i = some (mk (tensorOps lib e τ) true (ty cols s fine coarse i) (t i)))
  (hp : ∀ w < coarse.size, ∀ k < 4, PieceOk lib e τ cols s fine coarse t (holes w) w k)
include he hl hs hp

/-- one scale: shapes, and pairings if all pairings of the coarse scale agree -/
theorem back_step : ∃ H, backScale fine coarse s holes = .ok H ∧
    (∀ i < fine.size, (H i).shape = (t i).shape) ∧
    (SingularVectors lib → (∀ i < fine.size, NodeOk lib e τ (ty cols s fine coarse i) (t i)) → ∀ Z : 𝕜,
      (∀ w < coarse.size, pair (holes w) (up (tensorOps lib e τ) cols s fine coarse t w) = Z) →
      ∀ i < fine.size, pair (H i) (t i) = Z) ∧
    (∀ i < fine.size, ∀ x : Tn 𝕜, x.shape = (t i).shape → (∀ w < coarse.size, ∀ k < 4, (coarse.c2f w).getD k 0 = i →
      pair (contrib lib e τ cols s fine coarse t (holes w) w k) x = 0) → pair (H i) x = 0) := by
  have hsh : ∀ w < coarse.size, ∀ k < 4, (contrib lib e τ cols s fine coarse t (holes w) w k).shape =
      (t ((coarse.c2f w).getD k 0)).shape := fun w hw k hk => by
    obtain ⟨l, d, r, u, ht⟩ := (hp w hw k hk).four
    obtain ⟨A, B, C, h1, h2, -⟩ := (hp w hw k hk).three
    exact (pull_zero he e τ ht _ (roleP s k) h1 h2).1
  obtain ⟨H, eH, pH⟩ := backScale_ok hl hs (holes := holes) (x := fun i => zeroLike (t i)) (Z := 0)
    (fun w hw k hk => ⟨hsh w hw k hk, pair_zeroLike _ _⟩)
  refine ⟨H, eH, fun i hi => (pH i hi).1, ?_, ?_⟩
  · intro hv hr Z hZ i hi
    obtain ⟨H', eH', pH'⟩ := backScale_ok hl hs (holes := holes) (x := t) (Z := Z) (fun w hw k hk => by
      have := (hp w hw k hk).contrib he hv (hr _ (hl.child_lt hw hk))
      exact ⟨this.1, this.2.trans (hZ w hw)⟩)
    rw [eH, Except.ok.injEq] at eH'
    subst eH'
    exact (pH' i hi).2
  · intro i hi x hx h0
    obtain ⟨H', eH', pH'⟩ := backScale_ok hl hs (holes := holes)
      (x := Function.update (fun i => zeroLike (t i)) i x) (Z := 0) (fun w hw k hk => by
        by_cases h : (coarse.c2f w).getD k 0 = i
        · rw [hsh w hw k hk, h, Function.update_self]
          exact ⟨hx.symm, h0 w hw k hk h⟩
        · rw [Function.update_of_ne h]
          exact ⟨hsh w hw k hk, pair_zeroLike _ _⟩)
    rw [eH, Except.ok.injEq] at eH'
    subst eH'
    have := (pH' i hi).2
    rwa [Function.update_self] at this

end

/-- **Holes from the scale `idx` on.** -/
theorem holes_ok {lib : Lib 𝕜} (he : Exact lib) (e τ : ℝ) {n : ℕ} (hS : Supported n)
    (hn : n ≠ 1) (cols : ℕ) {idx : ℕ} (hi : idx % 2 = 0) (hc : idx = 0 → cols = n) (c2f : ℕ → List ℕ)
    {f0 f : Scale (Tn 𝕜) (Tn 𝕜) (Iso 𝕜)} {r0 r : List (Scale (Tn 𝕜) (Tn 𝕜) (Iso 𝕜))}
    (ht : topo n idx (n * n) c2f = .ok (f0 :: r0)) (hs : SameTopo f0 f) (hs' : List.Forall₂ SameTopo r0 r)
    {t : ℕ → Tn 𝕜} {dim : TB n → ℕ} (hf : TFits n t dim) (hF : Full (tensorOps lib e τ) cols idx f r t) :
    ∃ H, holesFrom idx f r = .ok H ∧ (∀ i < n * n, (H i).shape = (t i).shape) ∧
      (SingularVectors lib → NR lib e τ cols idx f r t → ∀ i < n * n,
        pair (H i) (t i) = topAmp (tensorOps lib e τ) cols idx f r t) ∧
      (SingularVectors lib → 3 < n → ∀ (v : Fin n × Fin n) (x : Tn 𝕜), Blind t dim v x → pair (H (nid v)) x = 0) := by
  induction n using Nat.strong_induction_on generalizing idx c2f f0 r0 f r t with
  | _ n ih =>
    rcases Supported.cases hS with rfl | rfl | rfl | ⟨m, h2, rfl, hm⟩
    · exact absurd rfl hn
    · rw [topo_small (by omega), Except.ok.injEq, List.cons.injEq] at ht
      obtain ⟨rfl, rfl⟩ := ht
      cases hs'
      have hsz : f.size = 4 := hs.size.symm
      have hT : ∀ i < 4, f.tens i = some (t i) := fun i hi => hF i (hsz ▸ hi)
      have key : ∀ i < 2 * 2, (holes2 t i).shape = (t i).shape ∧
          pair (holes2 t i) (t i) = topAmp (tensorOps lib e τ) cols idx f [] t := fun i hi => by
        obtain ⟨a, b, ha, hb, rfl⟩ := enc_exists hi
        have := last2 hf (⟨a, ha⟩, ⟨b, hb⟩) (X := t (a * 2 + b)) rfl
        unfold nid at this
        rw [Function.update_eq_self, ← final2_value hf] at this
        rw [topAmp, if_neg (by omega), if_pos hsz]
        exact this
      refine ⟨holes2 t, ?_, fun i hi => (key i hi).1, fun _ _ i hi => (key i hi).2, fun _ h => by omega⟩
      unfold holesFrom topHoles
      rw [if_neg (by omega), if_pos hsz, if_pos (by
        rw [List.all_eq_true]
        intro i hi
        rw [hT i (List.mem_range.1 hi)]; rfl)]
      congr 1
      exact holes2_congr fun i hi => by rw [hT i hi]; rfl
    · rw [topo_small (by omega), Except.ok.injEq, List.cons.injEq] at ht
      obtain ⟨rfl, rfl⟩ := ht
      cases hs'
      have hsz : f.size = 9 := hs.size.symm
      have hT : ∀ i < 9, f.tens i = some (t i) := fun i hi => hF i (hsz ▸ hi)
      have key : ∀ i < 3 * 3, (holes3 t i).shape = (t i).shape ∧
          pair (holes3 t i) (t i) = topAmp (tensorOps lib e τ) cols idx f [] t := fun i hi => by
        obtain ⟨a, b, ha, hb, rfl⟩ := enc_exists hi
        have := last3 hf (⟨a, ha⟩, ⟨b, hb⟩) (X := t (a * 3 + b)) rfl
        unfold nid at this
        rw [Function.update_eq_self, ← final3_value hf] at this
        rw [topAmp, if_neg (by omega), if_neg (by omega), fin3_eq]
        exact this
      refine ⟨holes3 t, ?_, fun i hi => (key i hi).1, fun _ _ i hi => (key i hi).2, fun _ h => by omega⟩
      unfold holesFrom topHoles
      rw [if_pos hsz, if_pos (by
        rw [List.all_eq_true]
        intro i hi
        rw [hT i (List.mem_range.1 hi)]; rfl)]
      congr 1
      exact holes3_congr fun i hi => by rw [hT i hi]; rfl
    · obtain ⟨f', r', e', hsz', hcf, hl⟩ := topo_ok (T := Tn 𝕜) (P := Tn 𝕜) (I := Iso 𝕜) hm cols (idx := idx + 2)
        (by omega) (by omega) (c2fOf (diamonds (2 * m)))
      rw [topo_step h2 hi _ _ e', Except.ok.injEq, List.cons.injEq] at ht
      obtain ⟨hf1, rfl⟩ := ht
      generalize hg0 : (⟨2 * m * (2 * m) / 2, fun _ => none, f2cOf (diamonds (2 * m)), c2fOf (plaquettes (2 * m)),
          fun _ => none⟩ : Scale (Tn 𝕜) (Tn 𝕜) (Iso 𝕜)) = g0 at hs'
      cases hs' with
      | @cons _ g _ l hg hs' =>
        cases hs' with
        | @cons _ f2 _ r2 hf2 hs' =>
          have g1 : g.size = 2 * m * (2 * m) / 2 := by rw [← hg.size, ← hg0]
          have g3 : g.f2c = f2cOf (diamonds (2 * m)) := by rw [← hg.f2c, ← hg0]
          have g4 : g.c2f = c2fOf (plaquettes (2 * m)) := by rw [← hg.c2f, ← hg0]
          have f1 : f.size = 2 * m * (2 * m) := by rw [← hs.size, ← hf1]
          have f3 : f.f2c = f2cOf (plaquettes (2 * m)) := by rw [← hs.f2c, ← hf1]
          have k1 : f2.size = m * m := by rw [← hf2.size]; exact hsz'
          have k4 : f2.c2f = c2fOf (diamonds (2 * m)) := by rw [← hf2.c2f]; exact hcf
          obtain ⟨a1, a2, b1, b2, hF'⟩ := hF
          have lp := link_plaq h2 hi hc f1 g1 f3 g4
          have ld := link_diam (cols := cols) (s := idx + 1) h2 (by omega) g1 k1 g3 k4
          have p1 := plaq_fits he e τ hi hc lp g1 g4 hf
          have q1 := diam_fits he e τ (by omega) ld k1 k4 p1
          obtain ⟨H2, eH2, sH2, pH2, -⟩ := ih m (by omega) hm (by omega) (by omega) (by omega) _ e' hf2 hs' q1 hF'
          rw [← k1] at sH2 pH2
          obtain ⟨H1, eH1, sH1, pH1, -⟩ := back_step he ld b2 (diam_pieces he ld sH2 (by omega) k1 k4 p1)
          have pp := plaq_pieces he lp sH1 hi hc g1 g4 hf
          obtain ⟨H0, eH0, sH0, pH0, zH0⟩ := back_step he lp a2 pp
          refine ⟨H0, ?_, f1 ▸ sH0, ?_, ?_⟩
          · rw [holesFrom, holesFrom, eH2]
            dsimp only
            rw [eH1]
            exact eH0
          · intro hv hN
            obtain ⟨n1, n2, hR'⟩ := hN
            rw [← f1]
            exact pH0 hv n1 _ (pH1 hv n2 _ (pH2 hv hR'))
          · intro hv _ v x hx
            refine zH0 (nid v) (f1 ▸ enc_lt v.1.2 v.2.2) x hx.1 fun w hw k hk hwk => ?_
            obtain ⟨A, B, C, c1, c2, -⟩ := (pp w hw k hk).three
            have ht4 := hf v
            unfold contrib
            unfold pieceOf at c1
            dsimp only at c1 ⊢
            have hx' := hx.2
            rw [← ty_plaq hi hc lp g1 g4] at hx'
            rw [hwk] at c1 ⊢
            exact (pull_zero he e τ ht4 (ty cols idx f g (nid v)) (roleP idx k) c1 c2).2 hv x hx.1 hx'

theorem after_ok {T P I A : Type} (o : Ops T P I A) (cs : List (Call T)) {g : Trg T P I} {tn : Net T} (hn : OkNet tn)
    (hg : Holds o g tn) (hc : ∀ c ∈ cs, c.InRange tn.rows tn.cols) :
    ∃ g' tn', after o g tn cs = .ok (g', tn') ∧ OkNet tn' ∧ Holds o g' tn' ∧ tn'.cols = tn.cols := by
  induction cs generalizing g tn with
  | nil => exact ⟨g, tn, rfl, hn, hg, rfl⟩
  | cons c cs ih =>
    have hc' := hc c (by simp)
    have hcs : ∀ d ∈ cs, d.InRange tn.rows tn.cols := fun d hd => hc d (by simp [hd])
    rcases c with ⟨reps, acc⟩ | reps | _
    · have hr : ∀ x ∈ reps, x.1.1 < tn.cols ∧ x.1.2 < tn.cols := fun x hx => by
        have := hc' x hx; rw [hn.square] at this; exact this
      obtain ⟨t, e, ha, g', e', hg'⟩ := Holds.beginTrial o hn hg reps hr
      unfold after
      rw [e]
      dsimp only
      cases acc
      · rw [if_neg (by simp)]
        exact ih hn hg hcs
      · rw [if_pos rfl, e']
        dsimp only
        have := ih (hn.sets reps) hg' (by rw [(sets_cols tn reps).1, (sets_cols tn reps).2.1]; exact hcs)
        rw [(sets_cols tn reps).1] at this
        exact this
    · have hr : ∀ x ∈ reps, x.1.1 < tn.cols ∧ x.1.2 < tn.cols := fun x hx => by
        have := hc' x hx; rw [hn.square] at this; exact this
      unfold after
      rw [Holds.evaluate o hn hg reps hr]
      exact ih hn hg hcs
    · unfold after
      rw [Holds.trace o hn hg]
      exact ih hn hg hcs

end

end QLPeps.Trg
