import Verif.Lemmas.BmpsVarMono
import Verif.Lemmas.BmpsSvdErr

/-! # When the iterations of the variational compressions end -/

namespace QLPeps.BmpsVar

open QLPeps.Contractor QLPeps.Sweep QLPeps.Bmps QLPeps.Box
open QLPeps.Peps (Tn Lib rot contract contractN transpose dag sumCoors norm2)
open QLPeps.BmpsVar.Spec (Factorizations Keeps amp normSq product)

noncomputable section

variable {𝕜 : Type*} [RCLike 𝕜]

section

variable {p : Pos} {mps mpo : List (Tn 𝕜)} {fs : List ℕ} {n : ℕ} {md wd xd : ℕ → ℕ}

/-- the norm of the factor `R` of a step is that of the tensor -/
theorem oneLeft_rNorm {ex : Prop} (h : Chain p mps mpo fs n md wd xd) {lib : Lib 𝕜} (hf : Factorizations lib)
    {i j : ℕ} (hn : n = (i + 1) + j + 1) {st st' : State 𝕜} (hst : Inv p mps mpo fs n md wd ex (i + 1) j st)
    (hs : oneLeft lib p mps mpo (i + 1) st = some st') : st'.rNorm ^ 2 = energy p mps mpo (i + 1) st ∧ 0 ≤ st'.rNorm := by
  have hi : i + 1 < n := by omega
  obtain ⟨hlen, hl, hr⟩ := hst
  obtain ⟨l, ls, e1, C, hl, _⟩ := hl.cons
  obtain ⟨r, rs, e2, h2⟩ := hr.cons
  rw [show n - j = i + 1 + 1 by omega] at h2
  obtain ⟨C', hr, _⟩ := h2
  rw [oneLeft, e1, e2] at hs
  obtain rfl := (Option.some.inj hs).symm
  refine ⟨?_, Real.sqrt_nonneg _⟩
  rw [energy_eq h hi e1 e2 hl hr]
  have m := one_left_elem h hi hl hr
  dsimp only at m ⊢
  obtain ⟨m1, m2⟩ := m
  obtain ⟨k, s1, s2, _, s3, s4⟩ := qr3 hf m1
  generalize hq : (lib.qr (oneSiteLeft (rightHalf p (mps.getD (i + 1) nil) (mpo.getD (i + 1) nil) r) l) 2) = qr at *
  rw [norm2, Real.sq_sqrt (by rw [sumCoors_box]; exact Finset.sum_nonneg fun _ _ => sq_nonneg _), sumCoors_box, s2, siteNorm,
    sum_box_cons, Finset.sum_congr rfl fun x _ => sum_box_cons _ _ _, Finset.sum_comm]
  refine Finset.sum_congr rfl fun c hc => ?_
  have := iso_norm2 s1 ⟨_, _, _, s1, s3⟩ (fun m => qr.2.elem [m, c])
  simp only [sum_box_nil]
  rw [← this]
  refine Finset.sum_congr rfl fun c' hc' => Finset.sum_congr rfl fun x hx => ?_
  rw [s4 c' (Finset.mem_range.1 hc') x (Finset.mem_range.1 hx) c (Finset.mem_range.1 hc),
    m2 c (Finset.mem_range.1 hc) x c' (Finset.mem_range.1 hc'), RCLike.norm_conj]
  rfl

/-- the norm that is compared lies between those before and after the iteration -/
theorem sweep1_rNorm {ex : Prop} (h : Chain p mps mpo fs n md wd xd) (hn : 2 ≤ n) {lib : Lib 𝕜} (hf : Factorizations lib)
    {st : State 𝕜} (hst : Inv p mps mpo fs n md wd ex 0 (n - 1) st) :
    ∃ st', sweep1 lib p mps mpo st = some st' ∧ Inv p mps mpo fs n md wd ex 0 (n - 1) st' ∧
      energy p mps mpo 0 st ≤ st'.rNorm ^ 2 ∧ st'.rNorm ^ 2 ≤ energy p mps mpo 0 st' ∧ 0 ≤ st'.rNorm := by
  let I : ℕ → ℕ → State 𝕜 → Prop := fun i j s => Inv p mps mpo fs n md wd ex i j s ∧ energy p mps mpo 0 st ≤ energy p mps mpo i s
  obtain ⟨s1, h1, h2⟩ := upTo_inv I (f := oneRight lib p mps mpo) (T := n - 1)
    (fun i j st hT hi => by
      obtain ⟨s, a, b⟩ := oneRight_inv h hf (by omega) hi.1
      exact ⟨s, a, b, hi.2.trans (oneRight_energy h hf (by omega) hi.1 b a)⟩) (n - 1) le_rfl st ⟨hst, le_rfl⟩
  let J : ℕ → ℕ → State 𝕜 → Prop := fun i j s => Inv p mps mpo fs n md wd ex i j s ∧
    energy p mps mpo 0 st ≤ energy p mps mpo i s ∧
    (i < n - 1 → energy p mps mpo 0 st ≤ s.rNorm ^ 2 ∧ s.rNorm ^ 2 ≤ energy p mps mpo i s ∧ 0 ≤ s.rNorm)
  obtain ⟨s2, h3, h4, _, h5⟩ := downFrom_inv J (f := oneLeft lib p mps mpo) (T := n - 1)
    (fun i j st hT hi => by
      obtain ⟨s, a, b⟩ := oneLeft_inv h hf (by omega) hi.1
      have e := oneLeft_energy h hf (by omega) hi.1 b a
      obtain ⟨r1, r2⟩ := oneLeft_rNorm h hf (by omega) hi.1 a
      exact ⟨s, a, b, hi.2.1.trans e, fun _ => ⟨by rw [r1]; exact hi.2.1, by rw [r1]; exact e, r2⟩⟩) (n - 1) _ (by omega) s1
    ⟨h2.1, h2.2, fun h => absurd h (by omega)⟩
  exact ⟨s2, by rw [sweep1, h.len, h1]; exact h3, h4, h5 (by omega)⟩

/-- the singular values at the end of an iteration are those of the factorization which gave the third tensor -/
theorem sweep2_last {ex : Prop} (h : Chain p mps mpo fs n md wd xd) (hn : 3 ≤ n) {lib : Lib 𝕜} (hf : Factorizations lib)
    (hk : ex → (∀ f ∈ fs, 0 < f) ∧ ∀ t : Tn 𝕜, (t.shape.take 2).prod ≤ fs.prod → Keeps lib t 2)
    {st : State 𝕜} (hst : Inv p mps mpo fs n md wd ex 0 (n - 2) st) :
    ∃ st', sweep2 lib p mps mpo st = some st' ∧ Inv p mps mpo fs n md wd ex 0 (n - 2) st' ∧
      ∃ t, st'.s = (lib.svd t 2).s ∧ st'.res.getD 2 nil = transpose [0, 2, 1] (lib.svd t 2).vt := by
  obtain ⟨s1, h1, h2⟩ := upTo_inv (Inv p mps mpo fs n md wd ex) (f := pushLeft lib p mps mpo) (T := n - 2)
    (fun i j st hT hi => pushLeft_inv h hf hk (by omega) hi) (n - 2) le_rfl st hst
  let J : ℕ → ℕ → State 𝕜 → Prop := fun i j s => Inv p mps mpo fs n md wd ex i j s ∧
    (i < n - 2 → ∃ t, s.s = (lib.svd t 2).s ∧ s.res.getD (i + 2) nil = transpose [0, 2, 1] (lib.svd t 2).vt)
  obtain ⟨s2, h3, h4, h5⟩ := downFrom_inv J (f := pushRight lib p mps mpo) (T := n - 2)
    (fun i j st hT hi => by
      obtain ⟨s, a, b⟩ := pushRight_inv h hf hk (by omega) hi.1
      refine ⟨s, a, b, fun _ => ?_⟩
      have hlen := hi.1.len
      rw [pushRight] at a
      split at a
      · obtain rfl := (Option.some.inj a).symm
        refine ⟨_, rfl, ?_⟩
        rw [List.getD_eq_getElem _ _ (by simp; omega)]
        simp
      · exact absurd a (by simp)) (n - 2) _ (by omega) s1 ⟨h2, fun h => absurd h (by omega)⟩
  exact ⟨s2, by rw [sweep2, h.len, h1]; exact h3, h4, h5 (by omega)⟩

end

/-! ## the loops -/

section loops

variable {lib : Lib 𝕜} {p : Pos} {mps mpo : List (Tn 𝕜)} {s : ℕ → State 𝕜}

/-- a sequence of states from a step which keeps an invariant -/
theorem states {P : State 𝕜 → Prop} {Q : State 𝕜 → State 𝕜 → Prop} {f : State 𝕜 → Option (State 𝕜)}
    (h : ∀ st, P st → ∃ st', f st = some st' ∧ P st' ∧ Q st st') {st : State 𝕜} (h0 : P st) :
    ∃ s : ℕ → State 𝕜, s 0 = st ∧ ∀ k, f (s k) = some (s (k + 1)) ∧ P (s k) ∧ Q (s k) (s (k + 1)) := by
  choose g g1 g2 g3 using h
  let u : ℕ → {st // P st} := fun k => Nat.rec ⟨st, h0⟩ (fun _ x => ⟨g x.1 x.2, g2 x.1 x.2⟩) k
  exact ⟨fun k => (u k).1, rfl, fun k => ⟨g1 _ (u k).2, (u k).2, g3 _ (u k).2⟩⟩

/-- what the comparison after iteration `k + 1` refers to -/
def prev {β : Type*} (r : ℕ → β) : ℕ → Option β
  | 0 => none
  | k + 1 => some (r (k + 1))

theorem iterate1_seq (hs : ∀ k, sweep1 lib p mps mpo (s k) = some (s (k + 1))) (tol : ℝ) (max : ℕ) : ∀ k,
    ∃ m ≤ max, iterate1 lib p mps mpo tol max (prev (fun k => (s k).rNorm) k) (s k) = some (s (k + m)) ∧
      (∀ j, 1 ≤ j → j < m → converged1 tol (prev (fun k => (s k).rNorm) (k + j - 1)) (s (k + j)).rNorm = false) ∧
      (m < max → 1 ≤ m ∧ converged1 tol (prev (fun k => (s k).rNorm) (k + m - 1)) (s (k + m)).rNorm = true) := by
  induction max with
  | zero => intro k; exact ⟨0, le_rfl, rfl, fun _ _ h => absurd h (by omega), fun h => absurd h (by omega)⟩
  | succ max ih =>
    intro k
    rw [iterate1, hs k, Option.bind_some]
    by_cases hc : converged1 tol (prev (fun k => (s k).rNorm) k) (s (k + 1)).rNorm = true
    · rw [if_pos hc]
      exact ⟨1, by omega, rfl, fun _ _ _ => by omega, fun _ => ⟨le_rfl, hc⟩⟩
    · rw [if_neg hc]
      obtain ⟨m, h1, h2, h3, h4⟩ := ih (k + 1)
      refine ⟨m + 1, by omega, ?_, ?_, ?_⟩
      · rw [show k + (m + 1) = k + 1 + m by omega]; exact h2
      · intro j hj hjm
        rcases Nat.eq_or_lt_of_le hj with rfl | hj
        · simpa using hc
        · have := h3 (j - 1) (by omega) (by omega)
          rwa [show k + 1 + (j - 1) - 1 = k + j - 1 by omega, show k + 1 + (j - 1) = k + j by omega] at this
      · intro hm
        obtain ⟨g1, g2⟩ := h4 (by omega)
        refine ⟨by omega, ?_⟩
        rwa [show k + 1 + m - 1 = k + (m + 1) - 1 by omega, show k + 1 + m = k + (m + 1) by omega] at g2

theorem iterate2_seq (hs : ∀ k, sweep2 lib p mps mpo (s k) = some (s (k + 1))) (tol : ℝ) (max : ℕ) : ∀ k,
    ∃ m ≤ max, iterate2 lib p mps mpo tol max (prev (fun k => (s k).s) k) (s k) = some (s (k + m)) ∧
      (∀ j, 1 ≤ j → j < m → converged2 tol (prev (fun k => (s k).s) (k + j - 1)) (s (k + j)).s = false) ∧
      (m < max → 1 ≤ m ∧ converged2 tol (prev (fun k => (s k).s) (k + m - 1)) (s (k + m)).s = true) := by
  induction max with
  | zero => intro k; exact ⟨0, le_rfl, rfl, fun _ _ h => absurd h (by omega), fun h => absurd h (by omega)⟩
  | succ max ih =>
    intro k
    rw [iterate2, hs k, Option.bind_some]
    by_cases hc : converged2 tol (prev (fun k => (s k).s) k) (s (k + 1)).s = true
    · rw [if_pos hc]
      exact ⟨1, by omega, rfl, fun _ _ _ => by omega, fun _ => ⟨le_rfl, hc⟩⟩
    · rw [if_neg hc]
      obtain ⟨m, h1, h2, h3, h4⟩ := ih (k + 1)
      refine ⟨m + 1, by omega, ?_, ?_, ?_⟩
      · rw [show k + (m + 1) = k + 1 + m by omega]; exact h2
      · intro j hj hjm
        rcases Nat.eq_or_lt_of_le hj with rfl | hj
        · simpa using hc
        · have := h3 (j - 1) (by omega) (by omega)
          rwa [show k + 1 + (j - 1) - 1 = k + j - 1 by omega, show k + 1 + (j - 1) = k + j by omega] at this
      · intro hm
        obtain ⟨g1, g2⟩ := h4 (by omega)
        refine ⟨by omega, ?_⟩
        rwa [show k + 1 + m - 1 = k + (m + 1) - 1 by omega, show k + 1 + m = k + (m + 1) by omega] at g2

end loops

/-! ## the whole compression -/

/-- the results of the one-site scheme after each number of iterations -/
theorem variational1_seq {p : Pos} {mps mpo : List (Tn 𝕜)} {ds fs : List ℕ} {lib : Libs 𝕜}
    (hf : ∀ te dmin dmax, Factorizations (lib te dmin dmax)) (te : ℝ) (dmin dmax : ℕ)
    (h1 : Shp mps 1 ds) (h2 : RShp p mpo 1 ds fs) (hn : 2 ≤ mps.length) (hne : fs ≠ []) :
    ∃ (res : ℕ → List (Tn 𝕜)) (r : ℕ → ℝ), (∀ k, 0 ≤ r (k + 1)) ∧
      (∀ k, normSq fs (fun ys => amp (res k) ys 0) ≤ r (k + 1) ^ 2 ∧
        r (k + 1) ^ 2 ≤ normSq fs (fun ys => amp (res (k + 1)) ys 0)) ∧
      ∀ tol max, ∃ m ≤ max, variational1 lib te dmin dmax tol max p mps mpo = some (res m) ∧
        (∀ j, 1 ≤ j → j < m → converged1 tol (prev r (j - 1)) (r j) = false) ∧
        (m < max → 1 ≤ m ∧ converged1 tol (prev r (m - 1)) (r m) = true) := by
  obtain ⟨md, wd, hc⟩ := chain_of h1 h2
  obtain ⟨g1, g2, g3⟩ := initGuess_spec hf 0 dmax dmax h1 h2 (by rintro rfl; simp at hn)
  obtain ⟨s0, a1, a2⟩ := start_inv (ex := False) hc hn g1 g2 False.elim
  obtain ⟨s1, b1, b2⟩ := sweep2_inv hc hn (hf te dmax dmax) False.elim a2
  obtain ⟨s2, tmp3, c1, _, c3⟩ := final2_inv hc hn (hf te dmin dmax) False.elim b2
  obtain ⟨s, hs0, hs⟩ := states (f := sweep1 (lib te dmin dmax) p mps mpo) (fun st hst => sweep1_rNorm hc hn (hf te dmin dmax) hst) c3
  have hfin : ∀ k, ∃ st', final1 p mps mpo (s k) = some st' ∧ Best p mps mpo fs md wd False st'.res ∧
      normSq fs (fun ys => amp (finalize st'.res) ys 0) = energy p mps mpo 0 (s k) := by
    intro k
    obtain ⟨s4, e1, e2⟩ := final1_inv hc (by omega) (hs k).2.1
    obtain ⟨f, rest, B, u1, u2, _, _, _, u3, _⟩ := best_spec h1 h2 hne e2
    refine ⟨s4, e1, e2, ?_⟩
    rw [u1, u3, final1_norm hc (by omega) (hs k).2.1 e1 u1 u2]
  choose t ht1 _ ht3 using hfin
  refine ⟨fun k => finalize (t k).res, fun k => (s k).rNorm, fun k => (hs k).2.2.2.2, fun k => ?_, fun tol max => ?_⟩
  · rw [ht3, ht3]
    exact ⟨(hs k).2.2.1, (hs k).2.2.2.1⟩
  · obtain ⟨m, m1, m2, m3, m4⟩ := iterate1_seq (fun k => (hs k).1) tol max 0
    refine ⟨m, m1, ?_, by simpa using m3, by simpa using m4⟩
    rw [hs0] at m2
    rw [variational1, a1]
    simp only [prev, Nat.zero_add] at m2
    simp only [Option.bind_eq_bind, Option.bind_some, b1, c1, m2, ht1]
    rfl

/-- the results of the two-site scheme after each number of iterations -/
theorem variational2_seq {p : Pos} {mps mpo : List (Tn 𝕜)} {ds fs : List ℕ} {lib : Libs 𝕜}
    (hf : ∀ te dmin dmax, Factorizations (lib te dmin dmax)) (te : ℝ) (dmin dmax : ℕ)
    (h1 : Shp mps 1 ds) (h2 : RShp p mpo 1 ds fs) (hn : 3 ≤ mps.length) :
    ∃ (res : ℕ → List (Tn 𝕜)) (r : ℕ → Peps.Diag),
      (∀ k, ∃ t, r (k + 1) = ((lib te dmin dmax).svd t 2).s ∧
        (res (k + 1)).getD 2 nil = dag (transpose [0, 2, 1] ((lib te dmin dmax).svd t 2).vt)) ∧
      ∀ tol max, ∃ m ≤ max, variational2 lib te dmin dmax tol max p mps mpo = some (res m) ∧
        (∀ j, 1 ≤ j → j < m → converged2 tol (prev r (j - 1)) (r j) = false) ∧
        (m < max → 1 ≤ m ∧ converged2 tol (prev r (m - 1)) (r m) = true) := by
  obtain ⟨md, wd, hc⟩ := chain_of h1 h2
  obtain ⟨g1, g2, g3⟩ := initGuess_spec hf te dmin dmax h1 h2 (by rintro rfl; simp at hn)
  obtain ⟨s0, a1, a2⟩ := start_inv (ex := False) hc (by omega) g1 g2 False.elim
  obtain ⟨s, hs0, hs⟩ := states (f := sweep2 (lib te dmin dmax) p mps mpo) (fun st hst =>
    sweep2_last hc hn (hf te dmin dmax) False.elim hst) a2
  have hfin : ∀ k, ∃ st' tmp, final2 (lib te dmin dmax) p mps mpo (s k) = some (st', tmp) ∧
      (finalize st'.res).getD 2 nil = dag ((s k).res.getD 2 nil) := by
    intro k
    obtain ⟨s4, tmp, e1, _⟩ := final2_inv hc (by omega) (hf te dmin dmax) False.elim (hs k).2.1
    refine ⟨s4, tmp, e1, ?_⟩
    have hlen := (hs k).2.1.len
    rw [final2] at e1
    split at e1
    · obtain ⟨rfl, _⟩ := Prod.mk.inj (Option.some.inj e1)
      have h2 : 2 < (s k).res.length := by omega
      simp [finalize, List.getD_eq_getElem?_getD, List.getElem?_set, h2]
    · exact absurd e1 (by simp)
  choose t tmp ht1 ht2 using hfin
  refine ⟨fun k => finalize (t k).res, fun k => (s k).s, fun k => ?_, fun tol max => ?_⟩
  · obtain ⟨t, u1, u2⟩ := (hs k).2.2
    exact ⟨t, u1, by rw [ht2, u2]⟩
  obtain ⟨m, m1, m2, m3, m4⟩ := iterate2_seq (fun k => (hs k).1) tol max 0
  refine ⟨m, m1, ?_, by simpa using m3, by simpa using m4⟩
  rw [hs0] at m2
  rw [variational2, a1]
  simp only [prev, Nat.zero_add] at m2
  simp only [Option.bind_eq_bind, Option.bind_some, m2, ht1]
  rfl

end

end QLPeps.BmpsVar
