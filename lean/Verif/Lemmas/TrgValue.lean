import Verif.Lemmas.TrgFinal
import Verif.Lemmas.TrgRun
import Verif.Spec.TrgTensor

/-!
# Without truncation the TRG contraction gives the value of the network
-/

namespace QLPeps.Trg

open QLPeps.Peps (Tn Diag Lib)
open QLPeps.Peps.Spec (Exact SvdNonNeg)
open Spec

noncomputable section

variable {𝕜 : Type} [RCLike 𝕜]

section
variable {T P I A : Type}

theorem childType_even {m cols s : ℕ} (hs : s % 2 = 0) (hc : s = 0 → cols = 2 * m) (v : Fin (2 * m) × Fin (2 * m))
    {k : ℕ} (hk : nodeTy v = !(k == 0 || k == 3)) : childType1 cols s (nid v) k = nodeTy v := by
  unfold childType1
  by_cases h : s = 0
  · rw [if_pos h, hc h]
    unfold nid nodeTy
    rw [enc_div v.2.2, enc_mod v.2.2]
  · rw [if_neg h, if_pos hs, hk]

theorem plaq_kids {m : ℕ} {coarse : Scale T P I} (h4 : coarse.c2f = c2fOf (plaquettes (2 * m)))
    (w : Fin (2 * m) × Fin m) :
    coarse.c2f (w.1 * m + w.2) = [nid (cTL w), nid (cTR w), nid (cBL w), nid (cBR w)] := by
  have h1 := w.1.2
  have h2 := w.2.2
  have := plaq_c2f (m := m) (r := w.1) (c := 2 * w.2 + w.1 % 2) h1 (by omega) (by omega)
  rw [show (2 * (w.2 : ℕ) + w.1 % 2) / 2 = w.2 by omega] at this
  rw [h4, this]
  rfl

theorem ty_plaq {m cols s : ℕ} (hs : s % 2 = 0) (hc : s = 0 → cols = 2 * m) {fine coarse : Scale T P I}
    (hl : Link cols s fine coarse) (h2 : coarse.size = 2 * m * (2 * m) / 2)
    (h4 : coarse.c2f = c2fOf (plaquettes (2 * m))) (v : Fin (2 * m) × Fin (2 * m)) :
    ty cols s fine coarse (nid v) = nodeTy v := by
  obtain ⟨⟨w, i⟩, rfl⟩ := pq_bij.2 v
  have hw : (w.1 * m + w.2 : ℕ) < coarse.size := by
    rw [h2, show 2 * m * (2 * m) = 2 * (2 * m * m) by ring, Nat.mul_div_cancel_left _ (by omega)]
    exact enc_lt w.1.2 w.2.2
  fin_cases i
  · have := hl.childType hw (k := 1) (by omega)
    rw [plaq_kids h4] at this
    refine (this.symm.trans (childType_even hs hc (cTR w) ?_))
    rw [ty_TR]; rfl
  · have := hl.childType hw (k := 0) (by omega)
    rw [plaq_kids h4] at this
    refine (this.symm.trans (childType_even hs hc (cTL w) ?_))
    rw [ty_TL]; rfl

theorem diam_kids {m : ℕ} {coarse : Scale T P I} (h4 : coarse.c2f = c2fOf (diamonds (2 * m)))
    (x : Fin m × Fin m) :
    coarse.c2f (x.1 * m + x.2) = [rid (dN x), rid (dE x), rid (dS x), rid (dW x)] := by
  have h1 := x.1.2
  have h2 := x.2.2
  rw [h4, diam_c2f h1 h2]
  unfold diamKids rid dN dE dS dW
  dsimp only
  rw [show 2 * m / 2 = m by omega, pred_mod (by omega), pred_mod (by omega), succ_mod (by omega), succ_mod (by omega),
    nx_val, if_neg (by omega : ¬ 2 * (x.1 : ℕ) + 1 = 2 * m), if_neg (by omega : ¬ 2 * (x.2 : ℕ) + 1 = 0)]
  congr 1
  · congr 1
    · congr 1
      split_ifs <;> omega
    · omega
  congr 1
  · congr 1
    split_ifs <;> omega
  congr 1
  · congr 1
    omega
  congr 1
  · congr 1
    omega

theorem ty_diam {m cols s : ℕ} (hs : s % 2 = 1) {fine coarse : Scale T P I}
    (hl : Link cols s fine coarse) (h2 : coarse.size = m * m)
    (h4 : coarse.c2f = c2fOf (diamonds (2 * m))) (w : Fin (2 * m) × Fin m) :
    ty cols s fine coarse (rid w) = rotTy w := by
  obtain ⟨⟨x, i⟩, rfl⟩ := dq_bij.2 w
  have hw : (x.1 * m + x.2 : ℕ) < coarse.size := by
    rw [h2]
    exact enc_lt x.1.2 x.2.2
  have hs0 : s ≠ 0 := by omega
  fin_cases i
  · have := hl.childType hw (k := 2) (by omega)
    rw [diam_kids h4] at this
    refine (this.symm.trans ?_)
    unfold childType1
    rw [if_neg hs0, if_neg (by omega)]
    simp [rotTy, dq, dS]
  · have := hl.childType hw (k := 3) (by omega)
    rw [diam_kids h4] at this
    refine (this.symm.trans ?_)
    unfold childType1
    rw [if_neg hs0, if_neg (by omega)]
    simp [rotTy, dq, dW]

end

/-- no split of the tensors `t` of the first scale, or of what they give, truncates -/
def NT (lib : Lib 𝕜) (e τ : ℝ) (cols : ℕ) : ℕ → Scale (Tn 𝕜) (Tn 𝕜) (Iso 𝕜) → List (Scale (Tn 𝕜) (Tn 𝕜) (Iso 𝕜)) →
    (ℕ → Tn 𝕜) → Prop
  | s, fine, coarse :: rest, t => (∀ i < fine.size, (factors lib (ty cols s fine coarse i) (t i)).err = 0) ∧
      NT lib e τ cols (s + 1) coarse rest (up (tensorOps lib e τ) cols s fine coarse t)
  | _, _, [], _ => True

theorem fin3_eq (lib : Lib 𝕜) (e τ : ℝ) : (tensorOps lib e τ).fin3 = final3 := by
  unfold tensorOps; rfl

theorem plaq_up {lib : Lib 𝕜} (he : Exact lib) (hn : SvdNonNeg lib) (e τ : ℝ) {m cols s : ℕ} (hs : s % 2 = 0)
    (hc : s = 0 → cols = 2 * m) {fine coarse : Scale (Tn 𝕜) (Tn 𝕜) (Iso 𝕜)} (hl : Link cols s fine coarse)
    (h1 : fine.size = 2 * m * (2 * m)) (h2 : coarse.size = 2 * m * (2 * m) / 2)
    (h4 : coarse.c2f = c2fOf (plaquettes (2 * m))) {t : ℕ → Tn 𝕜} {dim : TB (2 * m) → ℕ} (hf : TFits (2 * m) t dim)
    (h0 : ∀ i < fine.size, (factors lib (ty cols s fine coarse i) (t i)).err = 0) :
    RFits m (up (tensorOps lib e τ) cols s fine coarse t) (plaqDim lib t) ∧
      tvalue (2 * m) dim t = rvalue m (plaqDim lib t) (up (tensorOps lib e τ) cols s fine coarse t) := by
  refine plaq_step he hn hf (fun v => ?_) (fun w => ?_)
  · have := h0 (nid v) (h1 ▸ enc_lt v.1.2 v.2.2)
    rwa [ty_plaq hs hc hl h2 h4] at this
  · unfold up
    rw [if_pos hs, plaq_kids h4]
    simp only [List.getD_cons_zero, List.getD_cons_succ, ty_plaq hs hc hl h2 h4, ty_TL, ty_TR, ty_BL, ty_BR]
    unfold plaqT tensorOps
    dsimp only

theorem diam_up {lib : Lib 𝕜} (he : Exact lib) (hn : SvdNonNeg lib) (e τ : ℝ) {m cols s : ℕ} (hs : s % 2 = 1)
    {fine coarse : Scale (Tn 𝕜) (Tn 𝕜) (Iso 𝕜)} (hl : Link cols s fine coarse)
    (h1 : fine.size = 2 * m * (2 * m) / 2) (h2 : coarse.size = m * m)
    (h4 : coarse.c2f = c2fOf (diamonds (2 * m))) {t : ℕ → Tn 𝕜} {dim : Fin (2 * m) × Fin (2 * m) → ℕ}
    (hf : RFits m t dim)
    (h0 : ∀ i < fine.size, (factors lib (ty cols s fine coarse i) (t i)).err = 0) :
    TFits m (up (tensorOps lib e τ) cols s fine coarse t) (fun b => diamDim lib t (bondNode b)) ∧
      rvalue m dim t = tvalue m (fun b => diamDim lib t (bondNode b)) (up (tensorOps lib e τ) cols s fine coarse t) := by
  refine diam_step he hn hf (fun w => ?_) (fun x => ?_)
  · have := h0 (rid w) (by
      rw [h1, show 2 * m * (2 * m) = 2 * (2 * m * m) by ring, Nat.mul_div_cancel_left _ (by omega)]
      exact enc_lt w.1.2 w.2.2)
    rwa [ty_diam hs hl h2 h4] at this
  · unfold up
    rw [if_neg (by omega), diam_kids h4]
    simp only [List.getD_cons_zero, List.getD_cons_succ, ty_diam hs hl h2 h4, ty_N, ty_E, ty_S, ty_W]
    unfold diamT tensorOps
    dsimp only

theorem topAmp_value {lib : Lib 𝕜} (he : Exact lib) (hn : SvdNonNeg lib) (e τ : ℝ) {n : ℕ} (hS : Supported n) (cols : ℕ)
    {idx : ℕ} (hi : idx % 2 = 0) (hc : idx = 0 → cols = n) (c2f : ℕ → List ℕ)
    {f : Scale (Tn 𝕜) (Tn 𝕜) (Iso 𝕜)} {r : List (Scale (Tn 𝕜) (Tn 𝕜) (Iso 𝕜))} (ht : topo n idx (n * n) c2f = .ok (f :: r))
    {t : ℕ → Tn 𝕜} {dim : TB n → ℕ} (hf : TFits n t dim) (h0 : NT lib e τ cols idx f r t) :
    topAmp (tensorOps lib e τ) cols idx f r t = tvalue n dim t := by
  induction n using Nat.strong_induction_on generalizing idx c2f f r t with
  | _ n ih =>
    rcases Supported.cases hS with rfl | rfl | rfl | ⟨m, h2, rfl, hm⟩
    · rw [topo_small (by omega), Except.ok.injEq, List.cons.injEq] at ht
      obtain ⟨rfl, rfl⟩ := ht
      rw [topAmp, if_pos rfl, show (tensorOps lib e τ).fin1 = final1 from rfl]
      exact final1_value hf
    · rw [topo_small (by omega), Except.ok.injEq, List.cons.injEq] at ht
      obtain ⟨rfl, rfl⟩ := ht
      rw [topAmp, if_neg (show ¬ 2 * 2 = 1 by omega), if_pos (show 2 * 2 = 4 from rfl),
        show (tensorOps lib e τ).fin2 = final2 from rfl]
      exact final2_value hf
    · rw [topo_small (by omega), Except.ok.injEq, List.cons.injEq] at ht
      obtain ⟨rfl, rfl⟩ := ht
      rw [topAmp, if_neg (show ¬ 3 * 3 = 1 by omega), if_neg (show ¬ 3 * 3 = 4 by omega), fin3_eq]
      exact final3_value hf
    · obtain ⟨f', r', e', hs', hcf, hl⟩ := topo_ok (T := Tn 𝕜) (P := Tn 𝕜) (I := Iso 𝕜) hm cols (idx := idx + 2)
        (by omega) (by omega) (c2fOf (diamonds (2 * m)))
      rw [topo_step h2 hi _ _ e', Except.ok.injEq, List.cons.injEq] at ht
      obtain ⟨hf1, rfl⟩ := ht
      generalize hg : (⟨2 * m * (2 * m) / 2, fun _ => none, f2cOf (diamonds (2 * m)), c2fOf (plaquettes (2 * m)),
          fun _ => none⟩ : Scale (Tn 𝕜) (Tn 𝕜) (Iso 𝕜)) = g at h0 ⊢
      obtain ⟨ha, hb, hb'⟩ := h0
      have g1 : g.size = 2 * m * (2 * m) / 2 := by rw [← hg]
      have g3 : g.f2c = f2cOf (diamonds (2 * m)) := by rw [← hg]
      have g4 : g.c2f = c2fOf (plaquettes (2 * m)) := by rw [← hg]
      have f1 : f.size = 2 * m * (2 * m) := by rw [← hf1]
      have f3 : f.f2c = f2cOf (plaquettes (2 * m)) := by rw [← hf1]
      obtain ⟨p1, p2⟩ := plaq_up he hn e τ hi hc (link_plaq h2 hi hc f1 g1 f3 g4) f1 g1 g4 hf ha
      obtain ⟨q1, q2⟩ := diam_up he hn e τ (by omega) (link_diam h2 (by omega) g1 hs' g3 hcf) g1 hs' hcf p1 hb
      rw [p2, q2]
      exact ih m (by omega) hm (by omega) (by omega) _ e' q1 hb'

theorem SameTopo.nt {lib : Lib 𝕜} {e τ : ℝ} {cols s : ℕ} {a a' : Scale (Tn 𝕜) (Tn 𝕜) (Iso 𝕜)}
    {l l' : List (Scale (Tn 𝕜) (Tn 𝕜) (Iso 𝕜))} (h : SameTopo a a') (h' : List.Forall₂ SameTopo l l') (t : ℕ → Tn 𝕜)
    (hN : NT lib e τ cols s a' l' t) : NT lib e τ cols s a l t := by
  induction h' generalizing s a a' t with
  | nil => trivial
  | cons hb _ ih =>
    obtain ⟨h1, h2⟩ := hN
    rw [← h.up hb] at h2
    rw [← h.ty hb, ← h.size] at h1
    exact ⟨h1, ih hb _ h2⟩

theorem Full.nt {lib : Lib 𝕜} {e τ : ℝ} {cols s : ℕ} {f : Scale (Tn 𝕜) (Tn 𝕜) (Iso 𝕜)}
    {r : List (Scale (Tn 𝕜) (Tn 𝕜) (Iso 𝕜))} {t : ℕ → Tn 𝕜} (hF : Full (tensorOps lib e τ) cols s f r t)
    (h0 : ∀ sc ∈ f :: r, ∀ i t d, sc.tens i = some t → sc.split i = some d → (factors lib d.type1 t).err = 0) :
    NT lib e τ cols s f r t := by
  induction r generalizing s f t with
  | nil => trivial
  | cons g r ih =>
    obtain ⟨h1, h2, h3⟩ := hF
    exact ⟨fun i hi => h0 f (by simp) i _ _ (h1 i hi) (h2 i hi), ih h3 fun sc hsc => h0 sc (by simp [hsc])⟩

theorem Holds.value {lib : Lib 𝕜} (he : Exact lib) (hn : SvdNonNeg lib) {e τ : ℝ} {g : Trg (Tn 𝕜) (Tn 𝕜) (Iso 𝕜)}
    {tn : Net (Tn 𝕜)} (hT : OkNet tn) (hg : Holds (tensorOps lib e τ) g tn) (h0 : Untruncated lib g)
    {dim : QLPeps.Tps.Spec.Bond .pbc tn.cols tn.cols → ℕ} (hf : Spec.Fits tn.cols tn.ten dim) :
    ampOf (tensorOps lib e τ) tn = Spec.value tn.cols dim tn.ten := by
  obtain ⟨f0, r0, f, r, e0, h1, h2, h3, h4⟩ := hg.scales
  have hN := h1.nt h2 (tensOf tn) (Full.nt h4 (by unfold Untruncated at h0; rw [h3] at h0; exact h0))
  have hten : ∀ v : Fin tn.cols × Fin tn.cols, tensOf tn (v.1 * tn.cols + v.2) = tn.ten v.1 v.2 := fun v => by
    unfold tensOf
    rw [enc_div v.2.2, enc_mod v.2.2]
  have hf' : TFits tn.cols (tensOf tn) dim := fun v => by
    rw [hten]
    exact hf v
  have := topAmp_value he hn e τ hT.size tn.cols (idx := 0) rfl (fun _ => rfl) _ e0 hf' hN
  unfold ampOf
  rw [e0]
  dsimp only
  rw [this]
  unfold tvalue Spec.value
  refine Finset.sum_congr rfl fun β _ => Finset.prod_congr rfl fun v _ => ?_
  rw [hten]
  rfl

end

end QLPeps.Trg
