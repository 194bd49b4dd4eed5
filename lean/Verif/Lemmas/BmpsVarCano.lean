import Verif.Lemmas.BmpsVarBest
import Verif.Spec.BmpsCano

/-! # The results of the variational compressions are in canonical form -/

namespace QLPeps.BmpsVar

open QLPeps.Contractor QLPeps.Sweep QLPeps.Bmps QLPeps.Box
open QLPeps.Peps (Tn Lib rot contract contractN transpose dag sumCoors)
open QLPeps.BmpsVar.Spec (Factorizations Keeps inOrder)
open QLPeps.BmpsCano.Spec (RightIso Canonical)

noncomputable section

variable {𝕜 : Type*} [RCLike 𝕜] {p : Pos} {mps mpo : List (Tn 𝕜)} {ds fs : List ℕ} {n : ℕ} {md wd xd : ℕ → ℕ} {ex : Prop}

theorem RStack.all {P : ℕ → Tn 𝕜 → Prop} {j : ℕ} : ∀ {rs : List (Tn 𝕜)}, j ≤ n → RStack n P j rs → ∀ k, n - j ≤ k → k ≤ n → ∃ r, P k r := by
  induction j with
  | zero =>
    rintro rs _ ⟨r, rfl, h⟩ k h1 h2
    obtain rfl : k = n := by omega
    exact ⟨r, h⟩
  | succ j ih =>
    rintro rs hj ⟨r, rs', rfl, h, h'⟩ k h1 h2
    by_cases hk : k = n - (j + 1)
    · exact ⟨r, hk ▸ h⟩
    · exact ih (by omega) h' k (by omega) h2

/-- the tensors of a chain whose ends are all orthonormal -/
theorem iso_of_tails {as : List (Tn 𝕜)} {a : Tn 𝕜} {C C' f : ℕ} {gs : List ℕ} (ha : a.shape = [C, f, C'])
    (h1 : ∀ c < C, ∀ c' < C, ∑ ys ∈ box (f :: gs), mv (a :: as) ys c * (starRingEnd 𝕜) (mv (a :: as) ys c') = if c = c' then 1 else 0)
    (h2 : ∀ c < C', ∀ c' < C', ∑ ys ∈ box gs, mv as ys c * (starRingEnd 𝕜) (mv as ys c') = if c = c' then 1 else 0) :
    RightIso (dag a) := by
  refine ⟨C, f, C', ha, fun c hc c' hc' => ?_⟩
  have := h1 c' hc' c hc
  rw [sum_box_cons] at this
  simp only [eq_comm (a := c') (b := c)] at this
  rw [← this]
  refine Finset.sum_congr rfl fun x _ => ?_
  simp only [mv, ha, List.getD_cons_succ, List.getD_cons_zero, dag, map_sum, map_mul, Finset.sum_mul_sum, RCLike.conj_conj]
  rw [Finset.sum_comm]
  refine Finset.sum_congr rfl fun b hb => ?_
  rw [Finset.sum_comm]
  calc _ = ∑ b' ∈ Finset.range C', a.elem [c', x, b] * (starRingEnd 𝕜) (a.elem [c, x, b']) * ∑ ys ∈ box gs, mv as ys b * (starRingEnd 𝕜) (mv as ys b') := by
        rw [Finset.sum_eq_single b]
        · rw [h2 b (Finset.mem_range.1 hb) b (Finset.mem_range.1 hb), if_pos rfl]; ring
        · intro b' hb' hne
          rw [h2 b (Finset.mem_range.1 hb) b' (Finset.mem_range.1 hb'), if_neg (Ne.symm hne), mul_zero]
        · intro h; exact absurd hb h
    _ = _ := by
        refine Finset.sum_congr rfl fun b' _ => ?_
        rw [Finset.mul_sum]
        exact Finset.sum_congr rfl fun ys _ => by ring

theorem inv_canonical (h : Chain p mps mpo fs n md wd xd) (hn : 1 ≤ n) {st : State 𝕜}
    (hst : Inv p mps mpo fs n md wd ex 0 (n - 1) st) (a : Tn 𝕜) : Canonical 0 (finalize (st.res.set 0 a)) := by
  obtain ⟨hlen, -, hr⟩ := hst
  refine ⟨fun i hi => by omega, fun i h1 h2 => ?_⟩
  have hi : i < n := by simpa [finalize, hlen] using h2
  obtain ⟨r, C, k1, -⟩ := hr.all (by omega) i (by omega) (by omega)
  obtain ⟨r', C', l1, -⟩ := hr.all (by omega) (i + 1) (by omega) (by omega)
  have hd : st.res.drop i = st.res.getD i nil :: st.res.drop (i + 1) := by
    rw [List.getD_eq_getElem _ _ (by omega), ← List.drop_eq_getElem_cons]
  have hf : fs.drop i = fs.getD i 0 :: fs.drop (i + 1) := by
    rw [List.getD_eq_getElem _ _ (by have := h.lenf; omega), ← List.drop_eq_getElem_cons]
  have hg : (finalize (st.res.set 0 a)).getD i nil = dag (st.res.getD i nil) := by
    rw [finalize, List.getD_eq_getElem _ _ (by simp; omega), List.getElem_map, List.getElem_set_ne (by omega), List.getD_eq_getElem _ _ (by omega)]
  rw [hg]
  have c1 := k1.chain
  have i1 := k1.iso
  rw [hd, hf] at c1 i1
  obtain ⟨f, b, gs, e1, e2, e3⟩ := c1
  obtain ⟨rfl, rfl⟩ := List.cons.inj e1
  have c2 := l1.chain
  have i2 := l1.iso
  have hb : b = C' := by
    cases hx : st.res.drop (i + 1) with
    | nil =>
      rw [hx] at e3 c2
      exact e3.1.trans c2.1.symm
    | cons t ts =>
      rw [hx] at e3 c2
      obtain ⟨_, _, _, _, u1, _⟩ := e3
      obtain ⟨_, _, _, _, u2, _⟩ := c2
      simpa using congrArg (List.getD · 0 0) (u1.symm.trans u2)
  subst hb
  exact iso_of_tails e2 i1 i2

theorem variational2_canonical {lib : Libs 𝕜} (hf : ∀ te dmin dmax, Factorizations (lib te dmin dmax)) (te : ℝ) (dmin dmax : ℕ)
    (tol : ℝ) (maxIter : ℕ) (h1 : Shp mps 1 ds) (h2 : RShp p mpo 1 ds fs) (hn : 2 ≤ mps.length) :
    ∃ res, variational2 lib te dmin dmax tol maxIter p mps mpo = some res ∧ Canonical 0 res := by
  obtain ⟨md, wd, hc⟩ := chain_of h1 h2
  obtain ⟨g1, g2, g3⟩ := initGuess_spec hf te dmin dmax h1 h2 (by rintro rfl; simp at hn)
  obtain ⟨s0, a1, a2⟩ := start_inv (ex := False) hc hn g1 g2 fun hex => hex.elim
  obtain ⟨s1, b1, b2⟩ := iterate2_inv hc hn (hf te dmin dmax) (fun hex => hex.elim) tol maxIter none s0 a2
  obtain ⟨s2, tmp3, c1, -, c3⟩ := final2_inv hc hn (hf te dmin dmax) (fun hex => hex.elim) b2
  have := inv_canonical hc (by omega) c3 (s2.res.getD 0 nil)
  refine ⟨finalize s2.res, ?_, ?_⟩
  · rw [variational2, a1]
    simp only [Option.bind_eq_bind, Option.bind_some, b1, c1]
    rfl
  · have hl : 0 < s2.res.length := by have := c3.len; dsimp only at this; omega
    dsimp only at this
    rwa [List.getD_eq_getElem _ _ hl, List.set_getElem_self] at this

theorem variational1_canonical {lib : Libs 𝕜} (hf : ∀ te dmin dmax, Factorizations (lib te dmin dmax)) (te : ℝ) (dmin dmax : ℕ)
    (tol : ℝ) (maxIter : ℕ) (h1 : Shp mps 1 ds) (h2 : RShp p mpo 1 ds fs) (hn : 2 ≤ mps.length) :
    ∃ res, variational1 lib te dmin dmax tol maxIter p mps mpo = some res ∧ Canonical 0 res := by
  obtain ⟨md, wd, hc⟩ := chain_of h1 h2
  obtain ⟨g1, g2, g3⟩ := initGuess_spec hf 0 dmax dmax h1 h2 (by rintro rfl; simp at hn)
  obtain ⟨s0, a1, a2⟩ := start_inv (ex := False) hc hn g1 g2 fun hex => hex.elim
  obtain ⟨s1, b1, b2⟩ := sweep2_inv hc hn (hf te dmax dmax) (fun hex => hex.elim) a2
  obtain ⟨s2, tmp3, c1, _, c3⟩ := final2_inv hc hn (hf te dmin dmax) (fun hex => hex.elim) b2
  obtain ⟨s3, d1, d2⟩ := iterate1_inv hc (by omega) (hf te dmin dmax) tol maxIter none _ c3
  obtain ⟨s4, e1, -⟩ := final1_inv hc (by omega) d2
  refine ⟨finalize s4.res, ?_, ?_⟩
  · rw [variational1, a1]
    simp only [Option.bind_eq_bind, Option.bind_some, b1, c1, d1, e1]
    rfl
  · rw [final1] at e1
    split at e1
    · obtain rfl := Option.some.inj e1
      exact inv_canonical hc (by omega) d2 _
    · cases e1

end

end QLPeps.BmpsVar
