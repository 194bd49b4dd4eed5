import Verif.Lemmas.PepsLoopPut
import Verif.Lemmas.PepsLoopNorm

/-!
# `LocalSquareLoopProject` as a whole
-/

namespace QLPeps.Peps

open QLPeps.State (BC)
open QLPeps.Tps.Spec (Bond Site leg)
open QLPeps.Peps.Spec

variable {𝕜 : Type*} [RCLike 𝕜] {bc : BC} {rows cols : ℕ}

/-- what the patching does to the loop of the square -/
theorem patch_loop {lib : LoopLib 𝕜} (hlib : LoopExact lib) {p : Peps 𝕜} {phys : Site rows cols → ℕ}
    {dim : Bond bc rows cols → ℕ} (hf : Fits p phys dim) {s : Fin 4 → Site rows cols}
    (hq : Square bc s) {gate : Fin 4 → Tn 𝕜} {w : Fin 4 → ℕ}
    (hgate : ∀ i, (gate i).shape = [w (i + 3), phys (s i), phys (s i), w i]) :
    LoopFits (mps (loopOf bc p s)) (fun i => dim (squareBond bc s i)) (fun i => phys (s i))
      (outDim dim s) ∧
    (∃ D', LoopFits (mps (patch lib gate (loopOf bc p s))) D' (fun i => phys (s i)) (outDim dim s)) ∧
    ∀ x e, LoopIn (fun i => phys (s i)) (outDim dim s) x e →
      ringAt (mps (patch lib gate (loopOf bc p s))) x e =
        ∑ t0 ∈ Finset.range (phys (s 0)), ∑ t1 ∈ Finset.range (phys (s 1)),
          ∑ t2 ∈ Finset.range (phys (s 2)), ∑ t3 ∈ Finset.range (phys (s 3)),
          ringAt (mps (loopOf bc p s)) ![t0, t1, t2, t3] e *
            loopGate gate w ![t0, t1, t2, t3] x := by
  obtain ⟨g0, g1, g2, g3⟩ := Square.shapes hf hq
  have hd : ∀ i, ((loopOf bc p s).lam i).dim = dim (squareBond bc s i) := fun i => hf.weight _
  refine ⟨⟨?_, hd⟩, ?_⟩
  · intro i
    fin_cases i
    · simp [mps, toMps, loopOf, transpose, g0]
    · simp [mps, toMps, loopOf, transpose, g1]
    · simp [mps, toMps, loopOf, transpose, g2]
    · simp [mps, toMps, loopOf, transpose, g3]
  · exact patch_ring hlib (l := loopOf bc p s) (D := fun i => dim (squareBond bc s i))
      (d := fun i => phys (s i)) (E := outDim dim s) hd g0 g1 g2 g3 hgate

/-- the projection in terms of the corners of the square -/
theorem loopProject_unfold (lib : LoopLib 𝕜) (para : LoopPara) {p : Peps 𝕜} (gate : Fin 4 → Tn 𝕜)
    {s : Fin 4 → Site rows cols} (hq : Square bc s) (hr : p.rows = rows) (hc : p.cols = cols) :
    loopProject lib para p gate (s 0).1 (s 0).2 =
      if p.bc = .obc ∧ (p.rows ≤ (s 0).1 + 1 ∨ p.cols ≤ (s 0).2 + 1) then none
      else
        (fourRounds (gaugeRound lib para)
          ⟨dressed p (s 0).1 (s 0).2 (patch lib gate (loopOf bc p s)),
            upsilons (dressed p (s 0).1 (s 0).2 (patch lib gate (loopOf bc p s))), [], []⟩).bind fun st =>
        (fourRounds (fetRound lib para) st).map fun st =>
          ⟨(finish para p (putLoop p (s 0).1 (s 0).2 (patch lib gate (loopOf bc p s))) (s 0).1 (s 0).2
              st.loop).1,
            (finish para p (putLoop p (s 0).1 (s 0).2 (patch lib gate (loopOf bc p s))) (s 0).1 (s 0).2
              st.loop).2,
            RCLike.re (loopOverlap (dressed p (s 0).1 (s 0).2 (patch lib gate (loopOf bc p s)))
                (dressed p (s 0).1 (s 0).2 (loopOf bc p s)) /
              loopTrace (upsilons (dressed p (s 0).1 (s 0).2 (loopOf bc p s)) 0)
                ((dressed p (s 0).1 (s 0).2 (loopOf bc p s)).lam 3)), st.spectra, st.errs,
            (List.finRange 4).flatMap fun i => [loopEnvL p (s 0).1 (s 0).2 i,
              loopEnvR p (s 0).1 (s 0).2 i]⟩ := by
  have ho : (⟨loopGammas p (s 0).1 (s 0).2, loopLambdas p (s 0).1 (s 0).2⟩ : Loop 𝕜) =
      loopOf bc p s := by rw [loopGammas_eq hq hr hc, loopLambdas_eq hq hr hc]; rfl
  obtain ⟨z1, z2, z3⟩ := putLoop_size p (s 0).1 (s 0).2 (patch lib gate (loopOf bc p s))
  have hn : (⟨loopGammas (putLoop p (s 0).1 (s 0).2 (patch lib gate (loopOf bc p s))) (s 0).1 (s 0).2,
      loopLambdas (putLoop p (s 0).1 (s 0).2 (patch lib gate (loopOf bc p s))) (s 0).1 (s 0).2⟩ :
      Loop 𝕜) = patch lib gate (loopOf bc p s) := by
    rw [loopGammas_eq hq (z1.trans hr) (z2.trans hc), loopLambdas_eq hq (z1.trans hr) (z2.trans hc)]
    have hg : (fun i => (putLoop p (s 0).1 (s 0).2 (patch lib gate (loopOf bc p s))).gamma
        (s i).1 (s i).2) = (patch lib gate (loopOf bc p s)).g :=
      funext (putLoop_gamma hq hr hc _).1
    have hw : (fun i => weight (putLoop p (s 0).1 (s 0).2 (patch lib gate (loopOf bc p s)))
        (squareBond bc s i)) = (patch lib gate (loopOf bc p s)).lam :=
      funext (putLoop_weight hq hr hc _).1
    rw [hg, hw]
  unfold loopProject
  dsimp only
  rw [ho, hn]

/-- the parts of a successful projection -/
theorem loopProject_some {lib : LoopLib 𝕜} {para : LoopPara} {p : Peps 𝕜} {gate : Fin 4 → Tn 𝕜}
    {s : Fin 4 → Site rows cols} (hq : Square bc s) (hr : p.rows = rows) (hc : p.cols = cols)
    (hbc : p.bc = bc) {res : LoopRes 𝕜}
    (hres : loopProject lib para p gate (s 0).1 (s 0).2 = some res) :
    ∃ p1 orig new st st', p1 = putLoop p (s 0).1 (s 0).2 (patch lib gate (loopOf bc p s)) ∧
      orig = dressed p (s 0).1 (s 0).2 (loopOf bc p s) ∧
      new = dressed p (s 0).1 (s 0).2 (patch lib gate (loopOf bc p s)) ∧
      fourRounds (gaugeRound lib para) ⟨new, upsilons new, [], []⟩ = some st ∧
      fourRounds (fetRound lib para) st = some st' ∧
      res.peps = (finish para p p1 (s 0).1 (s 0).2 st'.loop).1 ∧
      res.norm = (finish para p p1 (s 0).1 (s 0).2 st'.loop).2 ∧
      res.ratio = RCLike.re (loopOverlap new orig / loopTrace (upsilons orig 0) (orig.lam 3)) ∧
      res.spectra = st'.spectra ∧ res.errs = st'.errs ∧
      ∀ i, weight p (leg bc (s i) (outLeg i).1) ∈ res.env ∧
        weight p (leg bc (s i) (outLeg i).2) ∈ res.env := by
  rw [loopProject_unfold lib para gate hq hr hc] at hres
  split at hres
  · simp at hres
  obtain ⟨st, h1, h2⟩ := Option.bind_eq_some_iff.1 hres
  obtain ⟨st', h3, h4⟩ := Option.map_eq_some_iff.1 h2
  refine ⟨_, _, _, st, st', rfl, rfl, rfl, h1, h3, ?_, ?_, ?_, ?_, ?_, ?_⟩
  · rw [← h4]
  · rw [← h4]
  · rw [← h4]
  · rw [← h4]
  · rw [← h4]
  · intro i
    rw [← h4]
    simp only [List.mem_flatMap, List.mem_finRange, true_and]
    exact ⟨⟨i, by rw [loopEnvL_eq hq hr hc hbc]; simp⟩, ⟨i, by rw [loopEnvR_eq hq hr hc hbc]; simp⟩⟩

theorem finish_nonneg (para : LoopPara) (p0 p : Peps 𝕜) (row col : ℕ) (l : Loop 𝕜) :
    0 ≤ (finish para p0 p row col l).2 := by
  have h1 : ∀ d, 0 ≤ diagNorm d := fun d => Real.sqrt_nonneg _
  have h2 : ∀ t : Tn 𝕜, 0 ≤ norm2 t := fun t => Real.sqrt_nonneg _
  simp only [finish, one_mul]
  exact mul_nonneg (mul_nonneg (mul_nonneg (mul_nonneg (mul_nonneg (mul_nonneg (mul_nonneg
    (h1 _) (h1 _)) (h1 _)) (h1 _)) (h2 _)) (h2 _)) (h2 _)) (h2 _)

theorem loopProject_nonneg {lib : LoopLib 𝕜} {para : LoopPara} {p : Peps 𝕜} {gate : Fin 4 → Tn 𝕜}
    {s : Fin 4 → Site rows cols} (hq : Square bc s) (hr : p.rows = rows) (hc : p.cols = cols)
    (hbc : p.bc = bc) {res : LoopRes 𝕜}
    (hres : loopProject lib para p gate (s 0).1 (s 0).2 = some res) : 0 ≤ res.norm := by
  obtain ⟨_, _, _, _, _, -, -, -, -, -, -, e, -⟩ := loopProject_some hq hr hc hbc hres
  rw [e]
  exact finish_nonneg ..

theorem fetRounds_spectra {lib : LoopLib 𝕜} {para : LoopPara} {st st' : LoopSt 𝕜}
    (hr : fourRounds (fetRound lib para) st = some st') : st'.spectra = st.spectra := by
  simp only [fourRounds, Option.bind_eq_some_iff] at hr
  obtain ⟨s1, r1, s2, r2, s3, r3, r4⟩ := hr
  have one : ∀ {s s' : LoopSt 𝕜} {i : Fin 4}, fetRound lib para s i = some s' →
      s'.spectra = s.spectra := by
    intro s s' i h
    simp only [fetRound, Option.map_eq_some_iff] at h
    obtain ⟨r, _, rfl⟩ := h
    rfl
  rw [one r4, one r3, one r2, one r1]

/-- a projection without loss, on the ring of the square -/
theorem loopProject_eq {lib : LoopLib 𝕜} (hlib : LoopExact lib) {para : LoopPara}
    (htol : 0 ≤ para.invTol) (hetol : 0 ≤ para.envInvTol) {p : Peps 𝕜} {phys : Site rows cols → ℕ}
    {dim : Bond bc rows cols → ℕ} (hf : Fits p phys dim) {s : Fin 4 → Site rows cols}
    (hq : Square bc s) {gate : Fin 4 → Tn 𝕜} {w : Fin 4 → ℕ}
    (hgate : ∀ i, (gate i).shape = [w (i + 3), phys (s i), phys (s i), w i]) {res : LoopRes 𝕜}
    (hres : loopProject lib para p gate (s 0).1 (s 0).2 = some res)
    (hsp : ∀ x ∈ res.spectra, Above para.invTol x) (herr : ∀ x ∈ res.errs, x = 0)
    (henv : ∀ x ∈ res.env, Above para.envInvTol x) :
    ∃ dim' : Bond bc rows cols → ℕ, Fits res.peps phys dim' ∧
      (∀ b, (∀ i, b ≠ squareBond bc s i) → dim' b = dim b) ∧
      (∀ t : Site rows cols, (∀ i, t ≠ s i) → res.peps.gamma t.1 t.2 = p.gamma t.1 t.2) ∧
      (∀ b, (∀ i, b ≠ squareBond bc s i) → weight res.peps b = weight p b) ∧
      ∀ x e, LoopIn (fun i => phys (s i)) (outDim dim s) x e →
        (res.norm : 𝕜) * ringAt (mps (loopOf bc res.peps s)) x e =
        ∑ t0 ∈ Finset.range (phys (s 0)), ∑ t1 ∈ Finset.range (phys (s 1)),
          ∑ t2 ∈ Finset.range (phys (s 2)), ∑ t3 ∈ Finset.range (phys (s 3)),
          loopGate gate w ![t0, t1, t2, t3] x * ringAt (mps (loopOf bc p s)) ![t0, t1, t2, t3] e := by
  obtain ⟨p1, orig, new, st, st', hp1, -, hnew, hg, hfe, e1, e2, -, e3, e4, e5⟩ :=
    loopProject_some hq hf.rows_eq hf.cols_eq hf.bc_eq hres
  obtain ⟨-, ⟨D', hfit⟩, hring⟩ := patch_loop hlib hf hq hgate
  obtain ⟨dfit, dring⟩ := dressed_eq hf hq hfit
  rw [← hnew] at dfit dring
  rw [e3] at hsp
  rw [e4] at herr
  have hab := fun i => And.intro (henv _ (e5 i).1) (henv _ (e5 i).2)
  have st0 : StFits (⟨new, upsilons new, [], []⟩ : LoopSt 𝕜) D' (fun i => phys (s i))
      (outDim dim s) := ⟨dfit, upsilons_shape dfit⟩
  rw [fetRounds_spectra hfe] at hsp
  obtain ⟨⟨D2, f2⟩, r2, -⟩ := gaugeRounds_eq hlib htol st0 hg hsp
  obtain ⟨⟨D3, f3⟩, r3, -⟩ := fetRounds_eq hlib f2 hfe herr
  obtain ⟨z1, z2, z3⟩ := putLoop_size p (s 0).1 (s 0).2 (patch lib gate (loopOf bc p s))
  rw [← hp1] at z1 z2 z3
  have hg1 := (putLoop_gamma hq hf.rows_eq hf.cols_eq (patch lib gate (loopOf bc p s))).2
  have hw1 := (putLoop_weight hq hf.rows_eq hf.cols_eq (patch lib gate (loopOf bc p s))).2
  rw [← hp1] at hg1 hw1
  obtain ⟨dim', q1, q2, q3, q4, q5⟩ := finish_eq hf hq hetol hab (z1.trans hf.rows_eq)
    (z2.trans hf.cols_eq) (z3.trans hf.bc_eq) hg1 hw1 f3
  subst hp1 hnew
  rw [← e1] at q1 q3 q4 q5
  rw [← e2] at q5
  refine ⟨dim', q1, q2, q3, q4, fun x e hx => ?_⟩
  have hne : ∀ i, envW bc p s e i ≠ 0 := fun i => by
    have h1 : (weight p (leg bc (s i) (outLeg i).1)).val (e i).1 ≠ 0 := abs_pos.1
      (hetol.trans_lt ((hab i).1 _ (by rw [hf.weight]; exact (hx i).2.1)))
    have h2 : (weight p (leg bc (s i) (outLeg i).2)).val (e i).2 ≠ 0 := abs_pos.1
      (hetol.trans_lt ((hab i).2 _ (by rw [hf.weight]; exact (hx i).2.2)))
    exact mul_ne_zero (by exact_mod_cast h1) (by exact_mod_cast h2)
  refine mul_right_cancel₀ (mul_ne_zero (mul_ne_zero (mul_ne_zero (hne 0) (hne 1)) (hne 2)) (hne 3)) ?_
  have hcomm : ringAt (mps (patch lib gate (loopOf bc p s))) x e = _ := (hring x e hx).trans
    (Finset.sum_congr rfl fun _ _ => Finset.sum_congr rfl fun _ _ => Finset.sum_congr rfl fun _ _ =>
      Finset.sum_congr rfl fun _ _ => mul_comm _ _)
  rw [← hcomm, ← dring x e hx]
  exact (q5 x e hx).trans ((r3 x e).trans (r2 x e))

/-- a projection without loss, on the wave function -/
theorem loopProject_wave {lib : LoopLib 𝕜} (hlib : LoopExact lib) {para : LoopPara}
    (htol : 0 ≤ para.invTol) (hetol : 0 ≤ para.envInvTol) {p : Peps 𝕜} {phys : Site rows cols → ℕ}
    {dim : Bond bc rows cols → ℕ} (hf : Fits p phys dim) {s : Fin 4 → Site rows cols}
    (hq : Square bc s) {gate : Fin 4 → Tn 𝕜} {w : Fin 4 → ℕ}
    (hgate : ∀ i, (gate i).shape = [w (i + 3), phys (s i), phys (s i), w i]) {res : LoopRes 𝕜}
    (hres : loopProject lib para p gate (s 0).1 (s 0).2 = some res)
    (hsp : ∀ x ∈ res.spectra, Above para.invTol x) (herr : ∀ x ∈ res.errs, x = 0)
    (henv : ∀ x ∈ res.env, Above para.envInvTol x) :
    ∃ dim' : Bond bc rows cols → ℕ, Fits res.peps phys dim' ∧
      (∀ t : Site rows cols, (∀ i, t ≠ s i) → res.peps.gamma t.1 t.2 = p.gamma t.1 t.2) ∧
      (∀ b, (∀ i, b ≠ squareBond bc s i) → weight res.peps b = weight p b) ∧
      ∀ σ, (∀ t, σ t < phys t) →
        (res.norm : 𝕜) * amplitude res.peps dim' σ = applyLoop phys gate w s (amplitude p dim) σ := by
  obtain ⟨dim', q1, q2, q3, q4, q5⟩ := loopProject_eq hlib htol hetol hf hq hgate hres hsp herr henv
  refine ⟨dim', q1, q3, q4, fun σ hσ => ?_⟩
  refine lift4 (A := fun i => phys (s i)) (G := loopGate gate w) hq.distinct hq.bond_injective ?_ q3 q4 q2
    fun γ hγ => ?_
  · intro i t k h
    exact hq.ends_site i t k h
  · have hin : LoopIn (fun i => phys (s i)) (outDim dim s) (fun i => σ (s i))
        (outVal (bc := bc) γ s) := fun i => ⟨hσ _, hγ _ fun j => (hq.outer_ne i j).1,
          hγ _ fun j => (hq.outer_ne i j).2⟩
    rw [square_ring hq fun i => q1.weight _, q5 _ _ hin]
    refine Finset.sum_congr rfl fun _ _ => Finset.sum_congr rfl fun _ _ =>
      Finset.sum_congr rfl fun _ _ => Finset.sum_congr rfl fun _ _ => ?_
    rw [square_ring hq fun i => hf.weight _]

end QLPeps.Peps
