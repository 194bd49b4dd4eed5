import Verif.Lemmas.PepsLoopProject

/-!
# The ratio of norms that the loop projection reports
-/

namespace QLPeps.Peps

open QLPeps.State (BC)
open QLPeps.Tps.Spec (Bond Site leg)
open QLPeps.Peps.Spec

/-- sum over the functions on four points -/
theorem sum_pi4 {α M : Type*} [DecidableEq α] [AddCommMonoid M] (A : Fin 4 → Finset α)
    (F : (Fin 4 → α) → M) : ∑ x ∈ Fintype.piFinset A, F x =
      ∑ a ∈ A 0, ∑ b ∈ A 1, ∑ c ∈ A 2, ∑ d ∈ A 3, F ![a, b, c, d] := by
  simp only [← Finset.sum_product']
  refine Finset.sum_nbij' (fun x => (x 0, x 1, x 2, x 3))
    (fun t => ![t.1, t.2.1, t.2.2.1, t.2.2.2]) ?_ ?_ ?_ ?_ ?_
  · intro x hx
    simp only [Fintype.mem_piFinset] at hx
    simp [hx]
  · rintro ⟨a, b, c, d⟩ h
    simp only [Finset.mem_product] at h
    simp only [Fintype.mem_piFinset]
    intro i
    fin_cases i
    · exact h.1
    · exact h.2.1
    · exact h.2.2.1
    · exact h.2.2.2
  · intro x _
    funext i
    fin_cases i <;> rfl
  · rintro ⟨a, b, c, d⟩ _
    rfl
  · intro x _
    congr 1
    funext i
    fin_cases i <;> rfl

/-- sum over physical states and outer legs, corner by corner -/
theorem sum_corners {M : Type*} [AddCommMonoid M] (d : Fin 4 → ℕ) (E : Fin 4 → ℕ × ℕ)
    (F : (Fin 4 → ℕ) → (Fin 4 → ℕ × ℕ) → M) :
    ∑ t0 ∈ legs d E 0, ∑ t1 ∈ legs d E 1, ∑ t2 ∈ legs d E 2, ∑ t3 ∈ legs d E 3,
      F ![t0.1, t1.1, t2.1, t3.1] ![t0.2, t1.2, t2.2, t3.2] =
    ∑ x ∈ Fintype.piFinset fun i => Finset.range (d i),
      ∑ e ∈ Fintype.piFinset fun i => Finset.range (E i).1 ×ˢ Finset.range (E i).2, F x e := by
  refine (sum_pi4 (legs d E) fun t => F ![(t 0).1, (t 1).1, (t 2).1, (t 3).1]
    ![(t 0).2, (t 1).2, (t 2).2, (t 3).2]).symm.trans ?_
  rw [← Finset.sum_product']
  have hv : ∀ {β : Type} (f : Fin 4 → β), ![f 0, f 1, f 2, f 3] = f := fun f => by
    funext i
    fin_cases i <;> rfl
  refine Finset.sum_nbij' (fun t => (fun i => (t i).1, fun i => (t i).2))
    (fun q i => (q.1 i, q.2 i)) ?_ ?_ ?_ ?_ ?_
  · intro t ht
    simp only [Fintype.mem_piFinset, legs, Finset.mem_product] at ht ⊢
    exact ⟨fun i => (ht i).1, fun i => (ht i).2⟩
  · intro q hq
    simp only [Fintype.mem_piFinset, legs, Finset.mem_product] at hq ⊢
    exact fun i => ⟨hq.1 i, hq.2 i⟩
  · intro t _
    rfl
  · intro q _
    rfl
  · intro t _
    rw [hv fun i => (t i).1, hv fun i => (t i).2]

variable {𝕜 : Type*} [RCLike 𝕜] {bc : BC} {rows cols : ℕ}

theorem mps_elem (l : Loop 𝕜) (i : Fin 4) (a b x : ℕ) (e : ℕ × ℕ) :
    ((mps l).g i).elem [a, x, e.1, e.2, b] = (l.g i).elem (cornerCoords i a b x e) := by
  fin_cases i <;> rfl

theorem cluster_ring (p : Peps 𝕜) (s : Fin 4 → Site rows cols) (x : Fin 4 → ℕ) (e : Fin 4 → ℕ × ℕ) :
    cluster bc p s x e = ringAt (mps (loopOf bc p s)) x e *
      (envW bc p s e 0 * envW bc p s e 1 * envW bc p s e 2 * envW bc p s e 3) := by
  unfold cluster
  rw [Fin.prod_univ_four]
  refine congrArg (· * _) ?_
  unfold ringAt ring4
  refine Finset.sum_congr rfl fun k0 _ => Finset.sum_congr rfl fun k1 _ =>
    Finset.sum_congr rfl fun k2 _ => Finset.sum_congr rfl fun k3 _ => ?_
  rw [Fin.prod_univ_four]
  simp only [mps_elem]
  rfl

variable {p : Peps 𝕜} {phys : Site rows cols → ℕ} {dim : Bond bc rows cols → ℕ} (hf : Fits p phys dim)
  {s : Fin 4 → Site rows cols}

theorem envs_eq (hf : Fits p phys dim) : envs bc p s = Fintype.piFinset fun i =>
    Finset.range (outDim dim s i).1 ×ˢ Finset.range (outDim dim s i).2 := by
  simp only [envs, outDim, hf.weight]

theorem loopIn_mem (hf : Fits p phys dim) {x : Fin 4 → ℕ} {e : Fin 4 → ℕ × ℕ}
    (hx : x ∈ states phys s) (he : e ∈ envs bc p s) :
    LoopIn (fun i => phys (s i)) (outDim dim s) x e := by
  rw [envs_eq hf] at he
  simp only [states, Fintype.mem_piFinset, Finset.mem_product, Finset.mem_range] at hx he
  exact fun i => ⟨hx i, he i⟩

/-- the ratio is the mean of the gate on the square with its weights -/
theorem ratio_eq {lib : LoopLib 𝕜} (hlib : LoopExact lib) {para : LoopPara}
    (hf : Fits p phys dim) (hq : Square bc s) {gate : Fin 4 → Tn 𝕜} {w : Fin 4 → ℕ}
    (hgate : ∀ i, (gate i).shape = [w (i + 3), phys (s i), phys (s i), w i]) {res : LoopRes 𝕜}
    (hres : loopProject lib para p gate (s 0).1 (s 0).2 = some res) :
    res.ratio = RCLike.re (clusterMean bc p phys s (loopGate gate w) / (clusterNorm bc p phys s : 𝕜)) := by
  obtain ⟨p1, orig, new, st, st', -, horig, hnew, -, -, -, -, e1, -⟩ :=
    loopProject_some hq hf.rows_eq hf.cols_eq hf.bc_eq hres
  obtain ⟨ofit, ⟨D', hfit⟩, hring⟩ := patch_loop hlib hf hq hgate
  obtain ⟨dfit, dring⟩ := dressed_eq hf hq hfit
  obtain ⟨dfo, dro⟩ := dressed_eq hf hq ofit
  rw [← hnew] at dfit dring
  rw [← horig] at dfo dro
  have ho : ∀ x ∈ states phys s, ∀ e ∈ envs bc p s, ringAt orig x e = cluster bc p s x e := by
    intro x hx e he
    rw [dro x e (loopIn_mem hf hx he), cluster_ring]
  have hn : ∀ x ∈ states phys s, ∀ e ∈ envs bc p s, ringAt new x e =
      ∑ y ∈ states phys s, loopGate gate w y x * cluster bc p s y e := by
    intro x hx e he
    rw [dring x e (loopIn_mem hf hx he), hring x e (loopIn_mem hf hx he), states, sum_pi4]
    simp only [Finset.sum_mul]
    refine Finset.sum_congr rfl fun _ _ => Finset.sum_congr rfl fun _ _ =>
      Finset.sum_congr rfl fun _ _ => Finset.sum_congr rfl fun _ _ => ?_
    rw [cluster_ring]
    ring
  have h1 : loopTrace (upsilons orig 0) (orig.lam 3) = (clusterNorm bc p phys s : 𝕜) := by
    rw [loopTrace_eq dfo]
    unfold ringT
    rw [sum_corners _ _ fun x e => ringAt orig x e * (starRingEnd 𝕜) (ringAt orig x e), ← envs_eq hf]
    unfold clusterNorm
    push_cast
    refine Finset.sum_congr rfl fun x hx => Finset.sum_congr rfl fun e he => ?_
    rw [ho x hx e he, RCLike.mul_conj]
  have h2 : loopOverlap new orig = clusterMean bc p phys s (loopGate gate w) := by
    rw [loopOverlap_eq dfit dfo]
    unfold ringT
    rw [sum_corners _ _ fun x e => ringAt new x e * (starRingEnd 𝕜) (ringAt orig x e), ← envs_eq hf]
    unfold clusterMean
    refine Finset.sum_congr rfl fun x hx => Finset.sum_congr rfl fun e he => ?_
    rw [ho x hx e he, hn x hx e he, mul_comm]
  rw [e1, h1, h2]

theorem clusterNorm_nonneg : 0 ≤ clusterNorm bc p phys s :=
  Finset.sum_nonneg fun _ _ => Finset.sum_nonneg fun _ _ => sq_nonneg _

/-- the mean of an operator with bounds -/
theorem clusterMean_between {A : (Fin 4 → ℕ) → (Fin 4 → ℕ) → 𝕜} {lo hi : ℝ}
    (hb : Between4 phys s A lo hi) : ∃ q : ℝ, clusterMean bc p phys s A = (q : 𝕜) ∧
      lo * clusterNorm bc p phys s ≤ q ∧ q ≤ hi * clusterNorm bc p phys s := by
  choose q h1 h2 h3 using fun e => hb fun x => cluster bc p s x e
  refine ⟨∑ e ∈ envs bc p s, q e, ?_, ?_, ?_⟩
  · unfold clusterMean
    rw [Finset.sum_comm]
    push_cast
    exact Finset.sum_congr rfl fun e _ => h1 e
  · unfold clusterNorm
    rw [Finset.sum_comm, Finset.mul_sum]
    exact Finset.sum_le_sum fun e _ => h2 e
  · unfold clusterNorm
    rw [Finset.sum_comm, Finset.mul_sum]
    exact Finset.sum_le_sum fun e _ => h3 e

/-- the mean of `1 - τ A` -/
theorem clusterMean_first {A G : (Fin 4 → ℕ) → (Fin 4 → ℕ) → 𝕜} {tau : ℝ}
    (hg : ∀ x ∈ states phys s, ∀ y ∈ states phys s,
      G x y = (if x = y then 1 else 0) - (tau : 𝕜) * A x y) :
    clusterMean bc p phys s G = (clusterNorm bc p phys s : 𝕜) - tau * clusterMean bc p phys s A := by
  unfold clusterMean clusterNorm
  push_cast
  rw [Finset.mul_sum, ← Finset.sum_sub_distrib]
  refine Finset.sum_congr rfl fun x hx => ?_
  rw [Finset.mul_sum, ← Finset.sum_sub_distrib]
  refine Finset.sum_congr rfl fun e _ => ?_
  have : ∑ y ∈ states phys s, G y x * cluster bc p s y e = cluster bc p s x e -
      tau * ∑ y ∈ states phys s, A y x * cluster bc p s y e := by
    rw [Finset.mul_sum]
    have hx' : cluster bc p s x e =
        ∑ y ∈ states phys s, (if y = x then 1 else 0) * cluster bc p s y e := by
      simp [hx]
    conv_rhs => rw [hx', ← Finset.sum_sub_distrib]
    refine Finset.sum_congr rfl fun y hy => ?_
    rw [hg y hy x hx]
    ring
  rw [this, ← RCLike.conj_mul]
  ring

end QLPeps.Peps
