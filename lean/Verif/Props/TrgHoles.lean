import Verif.Lemmas.TrgHoleNet
import Verif.Lemmas.TrueSvd
import Verif.Props.TrgTensor

/-!
# Properties C111 and C112: the holes of the TRG contractor
-/

namespace QLPeps.Trg

open QLPeps.Peps (Tn Lib svdLib)
open QLPeps.Peps.Spec (Exact SvdNonNeg)
open QLPeps.Tps.Spec (Bond)
open Spec

noncomputable section

variable {𝕜 : Type} [RCLike 𝕜]

/-- **C111.** After `Init`, `Trace` and any trials, evaluations and further calls of `Trace`, `PunchAllHoles` succeeds on
every network of more than one site. Every hole has the shape of the tensor it stands for, and contracted with that
tensor it gives the amplitude `Trace` returns, however much the splittings discarded, provided that the roots of the
singular values kept are above the cutoff of their inversion. -/
theorem C111_holes {lib : Lib 𝕜} (he : Exact lib) (hv : SingularVectors lib) (relEps tiny : ℝ)
    (g : Trg (Tn 𝕜) (Tn 𝕜) (Iso 𝕜)) (hp : g.hasParams = true) (tn : Net (Tn 𝕜)) (hper : tn.periodic = true)
    (hsq : tn.rows = tn.cols) (hsup : Supported tn.cols) (hone : tn.cols ≠ 1) (cs : List (Call (Tn 𝕜)))
    (hc : ∀ c ∈ cs, c.InRange tn.rows tn.cols) :
    ∃ g' a g'' tn'', trace (tensorOps lib relEps tiny) (init g tn).1 tn = .ok (g', a) ∧
      after (tensorOps lib relEps tiny) g' tn cs = .ok (g'', tn'') ∧
      ∀ dim : Bond .pbc tn''.cols tn''.cols → ℕ, Fits tn''.cols tn''.ten dim →
        ∃ H b, punchAllHoles g'' tn'' = .ok H ∧ trace (tensorOps lib relEps tiny) g'' tn'' = .ok (g'', b) ∧
          ∀ r < tn.cols, ∀ c < tn.cols, (H r c).shape = (tn''.ten r c).shape ∧
            (Resolved lib relEps tiny g'' → pair (H r c) (tn''.ten r c) = b) := by
  have hn : OkNet tn := ⟨hper, hsq, hsup⟩
  obtain ⟨g', e, hg'⟩ := trace_ok (tensorOps lib relEps tiny) hn g hp
  obtain ⟨g'', tn'', e2, hn2, hg2, hcols⟩ := after_ok _ cs hn hg' hc
  refine ⟨g', _, g'', tn'', e, e2, fun dim hf => ?_⟩
  obtain ⟨H, h1, h2, h3, -⟩ := holds_holes he hn2 hg2 (by rw [hcols]; exact hone) hf
  refine ⟨H, _, h1, Holds.trace _ hn2 hg2, fun r hr c hc' => ?_⟩
  rw [← hcols] at hr hc'
  exact ⟨h2 (⟨r, hr⟩, ⟨c, hc'⟩), fun hR => h3 hv hR (⟨r, hr⟩, ⟨c, hc'⟩)⟩

/-- **C111** (limits). On a network of one site `PunchAllHoles` throws, although `Trace` does not. -/
theorem C111_single {lib : Lib 𝕜} (relEps tiny : ℝ) (g : Trg (Tn 𝕜) (Tn 𝕜) (Iso 𝕜)) (hp : g.hasParams = true)
    (tn : Net (Tn 𝕜)) (hper : tn.periodic = true) (hr : tn.rows = 1) (hc : tn.cols = 1) :
    ∃ g' a, trace (tensorOps lib relEps tiny) (init g tn).1 tn = .ok (g', a) ∧ punchAllHoles g' tn = .error .logic := by
  have hn : OkNet tn := ⟨hper, by rw [hr, hc], by rw [hc]; exact ⟨0, Or.inl rfl⟩⟩
  obtain ⟨g', e, hg'⟩ := trace_ok (tensorOps lib relEps tiny) hn g hp
  refine ⟨g', _, e, ?_⟩
  obtain ⟨f0, r0, f, r, e0, s1, s2, s3, s4⟩ := hg'.scales
  have hz : r0 = [] ∧ f0.size = 1 := by
    rw [topo_small (by omega), Except.ok.injEq, List.cons.injEq] at e0
    obtain ⟨rfl, rfl⟩ := e0
    exact ⟨rfl, by dsimp only; rw [hc]⟩
  obtain ⟨rfl, hz⟩ := hz
  cases s2
  unfold punchAllHoles
  rw [if_neg (by rw [hg'.periodic]; simp), if_neg (by rw [hper]; simp), if_neg (by rw [hg'.cols]; omega),
    if_neg (by rw [hg'.cols]; omega), if_neg (by rw [hg'.ready]; simp),
    if_pos ⟨by rw [hg'.rows, hg'.cols, hr, hc], by rw [hg'.rows, hr]; decide⟩, s3]
  dsimp only
  have : f.size = 1 := by rw [← s1.size, hz]
  simp [holesFrom, topHoles, this]

/-- the hypotheses are met, and the conclusion holds, with the singular value decomposition on a `6 × 6` network (two
coarse-graining steps, then the holes of the `3 × 3` network pulled back twice), after a committed and a dropped trial -/
example : ∃ g' a g'' tn'' H b,
    trace (tensorOps svdLib 0 0) (init (blank 0 0) net6).1 net6 = .ok (g', a) ∧
    after (tensorOps svdLib 0 0) g' net6
      [.trial [((0, 0), net6.ten 3 4)] true, .trial [((5, 0), net6.ten 1 1)] false] = .ok (g'', tn'') ∧
    punchAllHoles g'' tn'' = .ok H ∧ trace (tensorOps svdLib 0 0) g'' tn'' = .ok (g'', b) ∧
    ∀ r < 6, ∀ c < 6, pair (H r c) (tn''.ten r c) = b := by
  have hR : ∀ g : Trg (Tn ℝ) (Tn ℝ) (Iso ℝ), Resolved svdLib 0 0 g := fun g sc _ i t d _ _ m hm => by
    refine Or.inr ?_
    rw [zero_mul, max_self]
    exact Real.sqrt_pos.2 (QLPeps.Peps.svdLib_pos _ _ m hm)
  obtain ⟨g', a, g'', tn'', h1, h2, h3⟩ := C111_holes QLPeps.Peps.svdLib_exact QLPeps.Peps.svdLib_vectors 0 0 (blank 0 0) rfl
    net6 rfl rfl ⟨1, Or.inr rfl⟩ (by decide)
    [.trial [((0, 0), net6.ten 3 4)] true, .trial [((5, 0), net6.ten 1 1)] false] (by
      intro c hc
      simp only [List.mem_cons, List.not_mem_nil, or_false] at hc
      rcases hc with rfl | rfl
      · intro x hx
        simp only [List.mem_cons, List.not_mem_nil, or_false] at hx
        subst hx; decide
      · intro x hx
        simp only [List.mem_cons, List.not_mem_nil, or_false] at hx
        subst hx; decide)
  have htn : tn'' = Net.set net6 0 0 (net6.ten 3 4) := by
    unfold after at h2
    split at h2
    · exact absurd h2 (by simp)
    · rw [if_pos rfl] at h2
      split at h2
      · exact absurd h2 (by simp)
      · unfold after at h2
        split at h2
        · exact absurd h2 (by simp)
        · rw [if_neg (by simp), after, Except.ok.injEq, Prod.mk.injEq] at h2
          exact h2.2.symm
  obtain ⟨H, b, h4, h5, h6⟩ := h3 (fun _ => 2) (by
    rw [htn]
    intro s
    unfold Net.set
    dsimp only
    split <;> rfl)
  exact ⟨g', a, g'', tn'', H, b, h1, h2, h4, h5, fun r hr c hc => (h6 r hr c hc).2 (hR g'')⟩

/-- **C112** (partial). On networks of side 2 and 3 the holes are the environments of the tensors: contracted with any
tensor of the right shape, the hole gives the value of the network with the tensor replaced by that one. Nothing is
assumed of the library's factorizations beyond their shapes, and nothing of the cutoff. The full claim asks for this
at every size without truncation; it is false beyond side 3, see `C112_large_fails`. -/
theorem C112_small_partial {lib : Lib 𝕜} (he : Exact lib) (relEps tiny : ℝ)
    (g : Trg (Tn 𝕜) (Tn 𝕜) (Iso 𝕜)) (hp : g.hasParams = true) (tn : Net (Tn 𝕜)) (hper : tn.periodic = true)
    (hsq : tn.rows = tn.cols) (hside : tn.cols = 2 ∨ tn.cols = 3) (cs : List (Call (Tn 𝕜)))
    (hc : ∀ c ∈ cs, c.InRange tn.rows tn.cols) :
    ∃ g' a g'' tn'', trace (tensorOps lib relEps tiny) (init g tn).1 tn = .ok (g', a) ∧
      after (tensorOps lib relEps tiny) g' tn cs = .ok (g'', tn'') ∧
      ∀ dim : Bond .pbc tn''.cols tn''.cols → ℕ, Fits tn''.cols tn''.ten dim →
        ∃ H, punchAllHoles g'' tn'' = .ok H ∧
          ∀ r < tn.cols, ∀ c < tn.cols, ∀ x : Tn 𝕜, x.shape = (tn''.ten r c).shape →
            pair (H r c) x = value tn''.cols dim (Net.set tn'' r c x).ten := by
  have hn : OkNet tn := ⟨hper, hsq, by rcases hside with h | h <;> rw [h]
                                       exacts [⟨1, Or.inl rfl⟩, ⟨0, Or.inr rfl⟩]⟩
  obtain ⟨g', e, hg'⟩ := trace_ok (tensorOps lib relEps tiny) hn g hp
  obtain ⟨g'', tn'', e2, hn2, hg2, hcols⟩ := after_ok _ cs hn hg' hc
  refine ⟨g', _, g'', tn'', e, e2, fun dim hf => ?_⟩
  obtain ⟨H, h1, -, -, h3, -⟩ := holds_holes he hn2 hg2 (by omega) hf
  refine ⟨H, h1, fun r hr c hc' => ?_⟩
  rw [← hcols] at hr hc'
  exact h3 (by omega) (⟨r, hr⟩, ⟨c, hc'⟩)

/-- the network of the counterexample: every tensor is `(1, 0)` on the left leg times `(1, 1)` on the right leg -/
def rankOne (𝕜 : Type) [RCLike 𝕜] (n : ℕ) : Net (Tn 𝕜) :=
  ⟨n, n, true, fun _ _ => ⟨[2, 1, 2, 1], fun x => if x.getD 0 0 = 0 then 1 else 0⟩⟩

/-- a tensor orthogonal to it on both legs: `(0, 1)` times `(1, -1)` -/
def probe (𝕜 : Type) [RCLike 𝕜] : Tn 𝕜 :=
  ⟨[2, 1, 2, 1], fun x => if x.getD 0 0 = 0 then 0 else if x.getD 2 0 = 0 then 1 else -1⟩

/-- the dimensions of its bonds -/
def rankOneDim (n : ℕ) : Bond .pbc n n → ℕ
  | .inl _ => 2
  | .inr _ => 1

theorem probe_blind {n : ℕ} (v : Fin n × Fin n) : Blind (tensOf (rankOne 𝕜 n)) (rankOneDim n) v (probe 𝕜) := by
  refine ⟨rfl, ?_⟩
  split
  · constructor
    · intro z hz w hw z' hz' w' hw'
      change ∑ i ∈ Finset.range 2, ∑ j ∈ Finset.range 1, _ = _
      simp [Finset.sum_range_succ, tensOf, rankOne, probe]
    · intro z hz w hw z' hz' w' hw'
      change ∑ i ∈ Finset.range 2, ∑ j ∈ Finset.range 1, _ = _
      simp only [Finset.sum_range_succ, Finset.sum_range_zero, tensOf, rankOne, probe]
      by_cases h : z = 0 <;> by_cases h' : z' = 0 <;> simp [h, h']
  · constructor
    · intro z hz w hw z' hz' w' hw'
      change ∑ i ∈ Finset.range 2, ∑ j ∈ Finset.range 1, _ = _
      simp [Finset.sum_range_succ, tensOf, rankOne, probe, oriented, QLPeps.Peps.transpose]
    · intro z hz w hw z' hz' w' hw'
      change ∑ i ∈ Finset.range 1, ∑ j ∈ Finset.range 2, _ = _
      simp only [Finset.sum_range_succ, Finset.sum_range_zero, tensOf, rankOne, probe, oriented, QLPeps.Peps.transpose]
      by_cases h : z = 0 <;> by_cases h' : z' = 0 <;> simp [h, h']

/-- **C112** (refuted part). On every supported network of side greater than 3 the holes are not the environments. For
every library that returns singular vectors, at every cutoff, there is a network and a tensor `x` such that the hole
of the first site gives zero for `x`, although the value of the network with that tensor replaced by `x` is one: the
derivative of the amplitude in the direction of `x` is lost. Truncation plays no part. -/
theorem C112_large_fails {lib : Lib 𝕜} (he : Exact lib) (hv : SingularVectors lib) (relEps tiny : ℝ) (n : ℕ)
    (hsup : Supported n) (h3 : 3 < n) :
    ∃ (tn : Net (Tn 𝕜)) (dim : Bond .pbc n n → ℕ) (x : Tn 𝕜), tn.periodic = true ∧ tn.rows = n ∧ tn.cols = n ∧
      Fits n tn.ten dim ∧ x.shape = (tn.ten 0 0).shape ∧ value n dim tn.ten = 1 ∧
      value n dim (Net.set tn 0 0 x).ten = 1 ∧
      ∃ g' a H, trace (tensorOps lib relEps tiny) (init (blank n n) tn).1 tn = .ok (g', a) ∧
        punchAllHoles g' tn = .ok H ∧ pair (H 0 0) x = 0 := by
  have hn : OkNet (rankOne 𝕜 n) := ⟨rfl, rfl, hsup⟩
  have hF : Fits n (rankOne 𝕜 n).ten (rankOneDim n) := fun s => rfl
  obtain ⟨g', e, hg'⟩ := trace_ok (tensorOps lib relEps tiny) hn (blank n n) rfl
  obtain ⟨H, h1, -, -, -, h4⟩ := holds_holes he hn hg' (by change n ≠ 1; omega) hF
  let o : Fin n × Fin n := (⟨0, by omega⟩, ⟨0, by omega⟩)
  have key : ∀ f g : Fin n × Fin n → ℕ → 𝕜, ∀ ten : ℕ → ℕ → Tn 𝕜,
      (∀ (v : Fin n × Fin n) a b c d, (ten v.1 v.2).elem [a, b, c, d] = f v a * g v c) →
      (∀ v : Fin n × Fin n, g v 0 * f (v.1, nx v.2) 0 + g v 1 * f (v.1, nx v.2) 1 = 1) →
      value n (rankOneDim n) ten = 1 := by
    intro f g ten ht h1
    have hten : ∀ v : Fin n × Fin n, ten (nid v / n) (nid v % n) = ten v.1 v.2 := fun v => by
      unfold nid
      rw [enc_div v.2.2, enc_mod v.2.2]
    rw [← tvalue_eq (fun i => ten (i / n) (i % n)) ten (rankOneDim n) hten]
    refine rank_one_value (f := f) (g := g) (fun v => ⟨rfl, rfl⟩) (fun v a b c d => ?_) h1
    rw [hten]
    exact ht v a b c d
  refine ⟨rankOne 𝕜 n, rankOneDim n, probe 𝕜, rfl, rfl, rfl, hF, rfl, ?_, ?_, g', _, H, e, h1, h4 hv h3 o _ (probe_blind o)⟩
  · refine key (fun _ k => if k = 0 then 1 else 0) (fun _ _ => 1) _ (fun v a b c d => ?_) (fun v => by simp)
    simp [rankOne]
  · refine key (fun v k => if v = o then (if k = 0 then 0 else 1) else (if k = 0 then 1 else 0))
      (fun v k => if v = o then (if k = 0 then 1 else -1) else 1) _ (fun v a b c d => ?_) (fun v => ?_)
    · have hvo : ((v.1 : ℕ) = 0 ∧ (v.2 : ℕ) = 0) ↔ v = o := by
        rw [Prod.ext_iff, Fin.ext_iff, Fin.ext_iff]
      unfold Net.set
      dsimp only
      by_cases h : v = o
      · rw [if_pos (hvo.2 h), if_pos h, if_pos h]
        by_cases ha : a = 0 <;> by_cases hc : c = 0 <;> simp [probe, ha, hc]
      · rw [if_neg (fun h' => h (hvo.1 h')), if_neg h, if_neg h]
        simp [rankOne]
    · by_cases h : v = o
      · have : (v.1, nx v.2) ≠ o := by
          rw [h]
          intro h'
          have := congrArg (fun p => (p.2 : ℕ)) h'
          dsimp only [o] at this
          rw [nx_val] at this
          split at this <;> rename_i h0 <;> simp at h0 this
          omega
        simp [h] at this ⊢
        simp [this]
      · by_cases h' : (v.1, nx v.2) = o
        · simp [h, h']
        · simp [h, h']

/-- the hypotheses of the refutation are met by the singular value decomposition, which never discards anything, at
side 4 -/
example : ∃ (tn : Net (Tn ℝ)) (dim : Bond .pbc 4 4 → ℕ) (x : Tn ℝ), value 4 dim (Net.set tn 0 0 x).ten = 1 ∧
    ∃ g' a H, trace (tensorOps svdLib 0 0) (init (blank 4 4) tn).1 tn = .ok (g', a) ∧ Untruncated svdLib g' ∧
      punchAllHoles g' tn = .ok H ∧ pair (H 0 0) x = 0 := by
  obtain ⟨tn, dim, x, -, -, -, -, -, -, h, g', a, H, h1, h2, h3⟩ := C112_large_fails QLPeps.Peps.svdLib_exact
    (QLPeps.Peps.svdLib_vectors (𝕜 := ℝ)) 0 0 4 ⟨2, Or.inl rfl⟩ (by decide)
  exact ⟨tn, dim, x, h, g', a, H, h1, fun _ _ _ _ _ _ _ => QLPeps.Peps.svdLib_err _ _, h2, h3⟩

/-- the hypotheses of the partial result are met at side 3 -/
example : ∃ g' a H, trace (tensorOps (svdLib (𝕜 := ℝ)) 0 0)
      (init (blank 0 0) ⟨3, 3, true, fun r c => net6.ten r c⟩).1 ⟨3, 3, true, fun r c => net6.ten r c⟩ = .ok (g', a) ∧
    punchAllHoles g' ⟨3, 3, true, fun r c => net6.ten r c⟩ = .ok H ∧
    pair (H 1 2) (net6.ten 5 5) =
      value 3 (fun _ => 2) (Net.set ⟨3, 3, true, fun r c => net6.ten r c⟩ 1 2 (net6.ten 5 5)).ten := by
  obtain ⟨g', a, g'', tn'', h1, h2, h3⟩ := C112_small_partial (QLPeps.Peps.svdLib_exact (𝕜 := ℝ)) 0 0 (blank 0 0) rfl
    ⟨3, 3, true, fun r c => net6.ten r c⟩ rfl rfl (Or.inr rfl) [] (by simp)
  rw [after, Except.ok.injEq, Prod.mk.injEq] at h2
  obtain ⟨rfl, rfl⟩ := h2
  obtain ⟨H, h4, h5⟩ := h3 (fun _ => 2) (fun _ => rfl)
  exact ⟨g', a, H, h1, h4, h5 1 (by decide) 2 (by decide) _ rfl⟩

end

end QLPeps.Trg
