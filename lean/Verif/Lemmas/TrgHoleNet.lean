import Verif.Lemmas.TrgHoleRun

/-!
# `PunchAllHoles` of a contractor that holds the caches of a network
-/

namespace QLPeps.Trg

open QLPeps.Peps (Tn Diag Lib)
open QLPeps.Peps.Spec (Exact)
open QLPeps.Tps.Spec (Bond)
open Spec

noncomputable section

variable {𝕜 : Type} [RCLike 𝕜]

theorem tensOf_nid (tn : Net (Tn 𝕜)) (v : Fin tn.cols × Fin tn.cols) : tensOf tn (nid v) = tn.ten v.1 v.2 := by
  unfold tensOf nid
  rw [enc_div v.2.2, enc_mod v.2.2]

theorem fits_tens {tn : Net (Tn 𝕜)} {dim : Bond .pbc tn.cols tn.cols → ℕ} (hf : Spec.Fits tn.cols tn.ten dim) :
    TFits tn.cols (tensOf tn) dim := fun v => by
  have := hf v
  rw [← tensOf_nid tn v] at this
  exact this

theorem tvalue_eq {n : ℕ} (t : ℕ → Tn 𝕜) (ten : ℕ → ℕ → Tn 𝕜) (dim : Bond .pbc n n → ℕ)
    (h : ∀ v : Fin n × Fin n, t (nid v) = ten v.1 v.2) : tvalue n dim t = Spec.value n dim ten := by
  unfold tvalue Spec.value
  refine Finset.sum_congr rfl fun β _ => Finset.prod_congr rfl fun v _ => ?_
  rw [← h v]
  rfl

theorem nid_inj {n : ℕ} {u v : Fin n × Fin n} (h : nid u = nid v) : u = v := by
  unfold nid at h
  obtain ⟨h1, h2⟩ := (enc_inj u.2.2 v.2.2).1 h
  exact Prod.ext (Fin.ext h1) (Fin.ext h2)

theorem tvalue_update {tn : Net (Tn 𝕜)} (dim : Bond .pbc tn.cols tn.cols → ℕ) (v : Fin tn.cols × Fin tn.cols) (x : Tn 𝕜) :
    tvalue tn.cols dim (Function.update (tensOf tn) (nid v) x) = Spec.value tn.cols dim (Net.set tn v.1 v.2 x).ten := by
  refine tvalue_eq _ _ _ fun u => ?_
  unfold Net.set
  dsimp only
  by_cases h : u = v
  · subst h
    rw [Function.update_self, if_pos ⟨rfl, rfl⟩]
  · rw [Function.update_of_ne fun h' => h (nid_inj h'), tensOf_nid, if_neg]
    rintro ⟨h1, h2⟩
    exact h (Prod.ext (Fin.ext h1) (Fin.ext h2))

theorem holds_holes {lib : Lib 𝕜} (he : Exact lib) {e τ : ℝ} {g : Trg (Tn 𝕜) (Tn 𝕜) (Iso 𝕜)} {tn : Net (Tn 𝕜)}
    (hT : OkNet tn) (hg : Holds (tensorOps lib e τ) g tn) (h1 : tn.cols ≠ 1)
    {dim : Bond .pbc tn.cols tn.cols → ℕ} (hf : Spec.Fits tn.cols tn.ten dim) :
    ∃ H, punchAllHoles g tn = .ok H ∧
      (∀ v : Fin tn.cols × Fin tn.cols, (H v.1 v.2).shape = (tn.ten v.1 v.2).shape) ∧
      (SingularVectors lib → Resolved lib e τ g → ∀ v : Fin tn.cols × Fin tn.cols,
        pair (H v.1 v.2) (tn.ten v.1 v.2) = ampOf (tensorOps lib e τ) tn) ∧
      (tn.cols ≤ 3 → ∀ (v : Fin tn.cols × Fin tn.cols) (x : Tn 𝕜), x.shape = (tn.ten v.1 v.2).shape →
        pair (H v.1 v.2) x = Spec.value tn.cols dim (Net.set tn v.1 v.2 x).ten) ∧
      (SingularVectors lib → 3 < tn.cols → ∀ (v : Fin tn.cols × Fin tn.cols) (x : Tn 𝕜),
        Blind (tensOf tn) dim v x → pair (H v.1 v.2) x = 0) := by
  obtain ⟨f0, r0, f, r, e0, s1, s2, s3, s4⟩ := hg.scales
  have hfT := fits_tens hf
  obtain ⟨H, eH, sH, pH, zH⟩ := holes_ok he e τ hT.size h1 tn.cols (idx := 0) rfl (fun _ => rfl) _ e0 s1 s2 hfT s4
  have hamp : ampOf (tensorOps lib e τ) tn = topAmp (tensorOps lib e τ) tn.cols 0 f r (tensOf tn) := by
    unfold ampOf
    rw [e0]
    dsimp only
    rw [s1.topAmp s2]
  have hrows := hT.square
  have hS := hT.size
  rcases Supported.cases hS with hc | hc | hc | ⟨m, hm2, hc, -⟩
  · exact absurd hc h1
  · have e2 : punchAllHoles g tn = .ok fun r c => holes2 (fun i => tn.ten (i / 2) (i % 2)) (r * g.cols + c) := by
      unfold punchAllHoles
      rw [if_neg (by rw [hg.periodic]; simp), if_neg (by rw [hT.periodic]; simp),
        if_pos ⟨by rw [hg.rows, hrows, hc], by rw [hg.cols, hc]⟩]
    have key : ∀ (v : Fin tn.cols × Fin tn.cols) (x : Tn 𝕜), x.shape = (tn.ten v.1 v.2).shape →
        (holes2 (fun i => tn.ten (i / 2) (i % 2)) (v.1 * g.cols + v.2)).shape = (tn.ten v.1 v.2).shape ∧
        pair (holes2 (fun i => tn.ten (i / 2) (i % 2)) (v.1 * g.cols + v.2)) x =
          Spec.value tn.cols dim (Net.set tn v.1 v.2 x).ten := by
      intro v x hx
      have e3 : (fun i => tn.ten (i / 2) (i % 2)) = tensOf tn := by
        funext i; unfold tensOf; rw [hc]
      rw [e3, ← tvalue_update, ← tensOf_nid, hg.cols]
      rw [← tensOf_nid] at hx
      change (holes2 (tensOf tn) (nid v)).shape = _ ∧ pair (holes2 (tensOf tn) (nid v)) x = _
      generalize tensOf tn = t at *
      generalize tn.cols = n at *
      subst hc
      exact last2 hfT v hx
    refine ⟨_, e2, fun v => (key v _ rfl).1, fun _ _ v => ?_, fun _ v x hx => (key v x hx).2, fun _ h => by omega⟩
    rw [(key v _ rfl).2, ← tvalue_update, ← tensOf_nid, Function.update_eq_self, hamp]
    clear key e2 pH zH
    have hz : r0 = [] ∧ f0.size = 4 := by
      rw [topo_small (by omega), Except.ok.injEq, List.cons.injEq] at e0
      obtain ⟨rfl, rfl⟩ := e0
      exact ⟨rfl, by dsimp only; rw [hc]⟩
    obtain ⟨rfl, hz⟩ := hz
    cases s2
    rw [topAmp, if_neg (by rw [← s1.size, hz]; omega), if_pos (by rw [← s1.size, hz])]
    change _ = final2 _ _ _ _
    clear hamp s4
    generalize tensOf tn = t at *
    generalize tn.cols = n at *
    subst hc
    exact (final2_value hfT).symm
  · have e2 : punchAllHoles g tn = .ok fun r c => holes3 (fun i => tn.ten (i / 3) (i % 3)) (r * g.cols + c) := by
      unfold punchAllHoles
      rw [if_neg (by rw [hg.periodic]; simp), if_neg (by rw [hT.periodic]; simp),
        if_neg (by rw [hg.cols, hc]; omega), if_pos ⟨by rw [hg.rows, hrows, hc], by rw [hg.cols, hc]⟩]
    have key : ∀ (v : Fin tn.cols × Fin tn.cols) (x : Tn 𝕜), x.shape = (tn.ten v.1 v.2).shape →
        (holes3 (fun i => tn.ten (i / 3) (i % 3)) (v.1 * g.cols + v.2)).shape = (tn.ten v.1 v.2).shape ∧
        pair (holes3 (fun i => tn.ten (i / 3) (i % 3)) (v.1 * g.cols + v.2)) x =
          Spec.value tn.cols dim (Net.set tn v.1 v.2 x).ten := by
      intro v x hx
      have e3 : (fun i => tn.ten (i / 3) (i % 3)) = tensOf tn := by
        funext i; unfold tensOf; rw [hc]
      rw [e3, ← tvalue_update, ← tensOf_nid, hg.cols]
      rw [← tensOf_nid] at hx
      change (holes3 (tensOf tn) (nid v)).shape = _ ∧ pair (holes3 (tensOf tn) (nid v)) x = _
      generalize tensOf tn = t at *
      generalize tn.cols = n at *
      subst hc
      exact last3 hfT v hx
    refine ⟨_, e2, fun v => (key v _ rfl).1, fun _ _ v => ?_, fun _ v x hx => (key v x hx).2, fun _ h => by omega⟩
    rw [(key v _ rfl).2, ← tvalue_update, ← tensOf_nid, Function.update_eq_self, hamp]
    clear key e2 pH zH
    have hz : r0 = [] ∧ f0.size = 9 := by
      rw [topo_small (by omega), Except.ok.injEq, List.cons.injEq] at e0
      obtain ⟨rfl, rfl⟩ := e0
      exact ⟨rfl, by dsimp only; rw [hc]⟩
    obtain ⟨rfl, hz⟩ := hz
    cases s2
    rw [topAmp, if_neg (by rw [← s1.size, hz]; omega), if_neg (by rw [← s1.size, hz]; omega), fin3_eq]
    clear hamp s4
    generalize tensOf tn = t at *
    generalize tn.cols = n at *
    subst hc
    exact (final3_value hfT).symm
  · have e2 : punchAllHoles g tn = .ok fun r c => H (r * g.cols + c) := by
      unfold punchAllHoles
      rw [if_neg (by rw [hg.periodic]; simp), if_neg (by rw [hT.periodic]; simp),
        if_neg (by rw [hg.cols]; omega), if_neg (by rw [hg.cols]; omega), if_neg (by rw [hg.ready]; simp),
        if_pos ⟨by rw [hg.rows, hg.cols, hrows], by rw [hg.rows, hrows]; exact (supported_iff _).1 hS⟩, s3]
      dsimp only
      rw [eH]
    refine ⟨_, e2, ?_, ?_, fun h => by omega, ?_⟩
    · intro v
      rw [hg.cols, ← tensOf_nid]
      exact sH (nid v) (enc_lt v.1.2 v.2.2)
    · intro hv hR v
      rw [hg.cols, ← tensOf_nid, hamp]
      refine pH hv (Full.nr s4 ?_) (nid v) (enc_lt v.1.2 v.2.2)
      unfold Resolved at hR
      rw [s3] at hR
      exact hR
    · intro hv h3 v x hx
      rw [hg.cols]
      exact zH hv h3 v x hx

/-! ### Networks of rank one -/

theorem nx_bij {n : ℕ} : Function.Bijective (fun v : Fin n × Fin n => (v.1, nx v.2)) := by
  refine Finite.injective_iff_bijective.1 ?_
  rintro ⟨a, b⟩ ⟨a', b'⟩ h
  dsimp only at h
  rw [Prod.mk.injEq, Fin.ext_iff (a := nx _), nx_val, nx_val] at h
  have := b.2
  have := b'.2
  obtain ⟨rfl, h⟩ := h
  refine Prod.ext rfl (Fin.ext ?_)
  dsimp only
  split_ifs at h <;> omega

/-- the value of a network of rank one is the product over the bonds -/
theorem rank_one_value {n : ℕ} {t : ℕ → Tn 𝕜} {f g : Fin n × Fin n → ℕ → 𝕜} {dim : TB n → ℕ}
    (hd : ∀ v, dim (.inl v) = 2 ∧ dim (.inr v) = 1)
    (ht : ∀ v a b c d, (t (nid v)).elem [a, b, c, d] = f v a * g v c)
    (h1 : ∀ v : Fin n × Fin n, g v 0 * f (v.1, nx v.2) 0 + g v 1 * f (v.1, nx v.2) 1 = 1) : tvalue n dim t = 1 := by
  let E := Equiv.ofBijective _ (nx_bij (n := n))
  have hE : ∀ v, E v = (v.1, nx v.2) := fun _ => rfl
  let F : TB n → ℕ → 𝕜 := fun b k => match b with
    | .inl w => g (E.symm w) k * f w k
    | .inr _ => 1
  have : ∀ β : TB n → ℕ, ∏ v : Fin n × Fin n, (t (v.1 * n + v.2)).elem [β (lW v), β (lS v), β (lE v), β (lN v)] =
      ∏ b, F b (β b) := by
    intro β
    rw [Fintype.prod_sum_type]
    simp only [F, Finset.prod_const_one, mul_one, Finset.prod_mul_distrib]
    rw [← E.prod_comp (fun w => g (E.symm w) (β (.inl w)))]
    simp only [Equiv.symm_apply_apply]
    rw [← Finset.prod_mul_distrib]
    refine Finset.prod_congr rfl fun v _ => ?_
    have := ht v (β (lW v)) (β (lS v)) (β (lE v)) (β (lN v))
    unfold nid at this
    rw [this, mul_comm]
    rfl
  unfold tvalue
  simp only [this]
  rw [← Finset.prod_univ_sum]
  refine Finset.prod_eq_one fun b _ => ?_
  rcases b with w | w
  · rw [(hd w).1, Finset.sum_range_succ, Finset.sum_range_one]
    obtain ⟨v, rfl⟩ := E.surjective w
    simp only [F, Equiv.symm_apply_apply]
    exact h1 v
  · rw [(hd w).2, Finset.sum_range_one]

end

end QLPeps.Trg
