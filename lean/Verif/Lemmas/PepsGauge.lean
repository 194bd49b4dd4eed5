import Verif.Lemmas.PepsLoopRound

/-!
# Gauge fixing keeps the product around the loop
-/

namespace QLPeps.Peps

open QLPeps.Peps.Spec

variable {𝕜 : Type*} [RCLike 𝕜]

/-- `MatSVD` in both directions -/
theorem matSvd_eq {svd : Tn 𝕜 → ℕ → Svd 𝕜} (dirIn : Tn 𝕜 → Bool) {C : ℝ → Prop}
    (hsh : ∀ t n, (svd t n).u.shape = t.shape.take n ++ [(svd t n).s.dim] ∧
      (svd t n).vt.shape = (svd t n).s.dim :: t.shape.drop n)
    (hex : ∀ t n, C (svd t n).err → ∀ x y, Valid (t.shape.take n) x → Valid (t.shape.drop n) y →
      ∑ m ∈ Finset.range (svd t n).s.dim, (svd t n).u.elem (x ++ [m]) *
        ((svd t n).s.val m : 𝕜) * (svd t n).vt.elem (m :: y) = t.elem (x ++ y))
    {t : Tn 𝕜} {a b : ℕ} (ht : t.shape = [a, b]) :
    (matSvd svd dirIn t).u.shape = [a, (matSvd svd dirIn t).s.dim] ∧
    (matSvd svd dirIn t).vt.shape = [(matSvd svd dirIn t).s.dim, b] ∧
    (C (matSvd svd dirIn t).err → ∀ i < a, ∀ j < b,
      ∑ m ∈ Finset.range (matSvd svd dirIn t).s.dim, (matSvd svd dirIn t).u.elem [i, m] *
        ((matSvd svd dirIn t).s.val m : 𝕜) * (matSvd svd dirIn t).vt.elem [m, j] =
          t.elem [i, j]) := by
  unfold matSvd
  split
  · have h1 := hsh t 1
    have h2 := hex t 1
    rw [ht] at h1 h2
    exact ⟨h1.1, h1.2, fun hC i hi j hj => h2 hC [i] [j] (valid1 hi) (valid1 hj)⟩
  · have hs : (transpose [1, 0] t).shape = [b, a] := by simp only [transpose, ht]; rfl
    have h1 := hsh (transpose [1, 0] t) 1
    have h2 := hex (transpose [1, 0] t) 1
    rw [hs] at h1 h2
    generalize svd (transpose [1, 0] t) 1 = f at *
    obtain ⟨h1, h1'⟩ := h1
    refine ⟨by simp only [transpose, h1']; rfl, by simp only [transpose, h1]; rfl,
      fun hC i hi j hj => ?_⟩
    have := h2 hC [j] [i] (valid1 hj) (valid1 hi)
    refine Eq.trans (Finset.sum_congr rfl fun m _ => ?_) this
    change f.vt.elem [m, i] * _ * f.u.elem [j, m] = f.u.elem [j, m] * _ * f.vt.elem [m, i]
    ring

theorem gauge_core {n M : ℕ} {fu fv U V : ℕ → ℕ → 𝕜} {s σ dl dr il ir : ℕ → 𝕜}
    (h : ∀ a < n, ∀ c < n, ∑ m ∈ Finset.range M, fu a m * s m * fv m c =
      (∑ b ∈ Finset.range n, dl a * U b a * σ b * V b c) * dr c)
    (hl : ∀ a < n, il a * dl a = 1) (hr : ∀ a < n, ir a * dr a = 1)
    (hU : ∀ i < n, ∀ j < n, ∑ a ∈ Finset.range n, (starRingEnd 𝕜) (U i a) * U j a =
      if i = j then 1 else 0)
    (hV : ∀ i < n, ∀ j < n, ∑ a ∈ Finset.range n, (starRingEnd 𝕜) (V i a) * V j a =
      if i = j then 1 else 0) {i j : ℕ} (hi : i < n) (hj : j < n) :
    ∑ m ∈ Finset.range M, (∑ a ∈ Finset.range n, (starRingEnd 𝕜) (U i a) * il a * fu a m) * s m *
      (∑ c ∈ Finset.range n, fv m c * ir c * (starRingEnd 𝕜) (V j c)) = if i = j then σ i else 0 := by
  have e1 : ∑ m ∈ Finset.range M, (∑ a ∈ Finset.range n, (starRingEnd 𝕜) (U i a) * il a * fu a m) *
      s m * (∑ c ∈ Finset.range n, fv m c * ir c * (starRingEnd 𝕜) (V j c)) =
      ∑ a ∈ Finset.range n, ∑ c ∈ Finset.range n, (starRingEnd 𝕜) (U i a) * il a * (ir c *
        (starRingEnd 𝕜) (V j c)) * ∑ m ∈ Finset.range M, fu a m * s m * fv m c := by
    conv_rhs =>
      simp only [Finset.mul_sum]
      rw [Finset.sum_congr rfl fun a _ => Finset.sum_comm, Finset.sum_comm]
    refine Finset.sum_congr rfl fun m _ => ?_
    rw [Finset.sum_mul, Finset.sum_mul]
    refine Finset.sum_congr rfl fun a _ => ?_
    rw [Finset.mul_sum]
    exact Finset.sum_congr rfl fun c _ => by ring
  have e2 : ∀ a ∈ Finset.range n, ∀ c ∈ Finset.range n, (starRingEnd 𝕜) (U i a) * il a * (ir c *
        (starRingEnd 𝕜) (V j c)) * ∑ m ∈ Finset.range M, fu a m * s m * fv m c =
      ∑ b ∈ Finset.range n, σ b * ((starRingEnd 𝕜) (U i a) * U b a) *
        ((starRingEnd 𝕜) (V j c) * V b c) := fun a ha c hc => by
    rw [h a (Finset.mem_range.1 ha) c (Finset.mem_range.1 hc), Finset.sum_mul, Finset.mul_sum]
    refine Finset.sum_congr rfl fun b _ => ?_
    calc _ = (il a * dl a) * (ir c * dr c) * (σ b * ((starRingEnd 𝕜) (U i a) * U b a) *
        ((starRingEnd 𝕜) (V j c) * V b c)) := by ring
      _ = _ := by rw [hl a (Finset.mem_range.1 ha), hr c (Finset.mem_range.1 hc)]; ring
  rw [e1, Finset.sum_congr rfl fun a ha => Finset.sum_congr rfl fun c hc => e2 a ha c hc,
    Finset.sum_congr rfl fun a _ => Finset.sum_comm, Finset.sum_comm]
  have e3 : ∀ b ∈ Finset.range n, ∑ a ∈ Finset.range n, ∑ c ∈ Finset.range n,
      σ b * ((starRingEnd 𝕜) (U i a) * U b a) * ((starRingEnd 𝕜) (V j c) * V b c) =
      if i = b then (if j = b then σ b else 0) else 0 := fun b hb => by
    have hb := Finset.mem_range.1 hb
    have : ∀ a ∈ Finset.range n, ∑ c ∈ Finset.range n, σ b * ((starRingEnd 𝕜) (U i a) * U b a) *
        ((starRingEnd 𝕜) (V j c) * V b c) = σ b * (if j = b then 1 else 0) *
          ((starRingEnd 𝕜) (U i a) * U b a) := fun a _ => by
      rw [← Finset.mul_sum, hV j hj b hb]
      ring
    rw [Finset.sum_congr rfl this, ← Finset.mul_sum, hU i hi b hb]
    split <;> split <;> simp
  rw [Finset.sum_congr rfl e3, Finset.sum_ite_eq, if_pos (Finset.mem_range.2 hi)]
  simp only [eq_comm]

theorem fixSign_dim (d : Diag) : (fixSign d).dim = d.dim := by
  unfold fixSign
  split <;> rfl

/-- a matrix multiplied by a diagonal matrix from the right -/
theorem nd {t : Tn 𝕜} {a b : ℕ} (ht : t.shape = [a, b]) (d : Diag) :
    (contractN t [1] d.ten [0]).shape = [a, d.dim] ∧ ∀ i j, j < b →
      (contractN t [1] d.ten [0]).elem [i, j] = t.elem [i, j] * (d.val j : 𝕜) := by
  obtain ⟨sh, t⟩ := t
  obtain rfl : sh = _ := ht
  refine ⟨rfl, fun i j hj => ?_⟩
  change ∑ m ∈ Finset.range b, t [i, m] * (if m = j then (d.val m : 𝕜) else 0) = _
  rw [Finset.sum_eq_single j (fun m _ h => by rw [if_neg h, mul_zero])
    (fun h => absurd (Finset.mem_range.2 hj) h), if_pos rfl]

/-- product of two matrices -/
theorem nm {t u : Tn 𝕜} {a b c : ℕ} (ht : t.shape = [a, b]) (hu : u.shape = [b, c]) :
    (contractN t [1] u [0]).shape = [a, c] ∧ ∀ i j, (contractN t [1] u [0]).elem [i, j] =
      ∑ m ∈ Finset.range b, t.elem [i, m] * u.elem [m, j] := by
  obtain ⟨sh, t⟩ := t
  obtain rfl : sh = _ := ht
  obtain ⟨sh, u⟩ := u
  obtain rfl : sh = _ := hu
  exact ⟨rfl, fun _ _ => rfl⟩

/-- product of a matrix and a transposed matrix -/
theorem nmT {t u : Tn 𝕜} {a b c : ℕ} (ht : t.shape = [a, b]) (hu : u.shape = [c, b]) :
    (contractN t [1] u [1]).shape = [a, c] ∧ ∀ i j, (contractN t [1] u [1]).elem [i, j] =
      ∑ m ∈ Finset.range b, t.elem [i, m] * u.elem [j, m] := by
  obtain ⟨sh, t⟩ := t
  obtain rfl : sh = _ := ht
  obtain ⟨sh, u⟩ := u
  obtain rfl : sh = _ := hu
  exact ⟨rfl, fun _ _ => rfl⟩

/-- the transfer tensor seen by a bond after its gauge is fixed -/
theorem ups_shape {ups X Y : Tn 𝕜} {n m : ℕ} (hX : X.shape = [n, m]) (hY : Y.shape = [m, n])
    (hu : ups.shape = [n, n, n, n]) :
    (transpose [0, 1, 3, 2] (contractN (contractN Y [] (dag Y) []) [1, 3]
      (symmetrize (contract (contractN ups [3] (dag X) [0]) 2 X 0) [3, 2, 1, 0]) [1, 2])).shape =
      [m, m, m, m] := by
  obtain ⟨sh, u⟩ := ups
  obtain rfl : sh = _ := hu
  obtain ⟨sh, X⟩ := X
  obtain rfl : sh = _ := hX
  obtain ⟨sh, Y⟩ := Y
  obtain rfl : sh = _ := hY
  rfl

/-- what fixing the gauge of one bond does -/
theorem gaugeFix_eq {lib : LoopLib 𝕜} (hlib : LoopExact lib) {para : LoopPara} (htol : 0 ≤ para.invTol)
    {ups : Tn 𝕜} {sigma : Diag} {head tail : Tn 𝕜} {r : Gauge 𝕜}
    (hr : gaugeFix lib para ups sigma head tail = some r)
    (hsp : ∀ d ∈ r.spectra, Above para.invTol d) :
    (∃ X Y, Splits X Y r.sigma sigma ∧ r.head = contractN Y [1] head [0] ∧
      r.tail = contractN tail [4] X [0]) ∧
    (ups.shape = [sigma.dim, sigma.dim, sigma.dim, sigma.dim] →
      r.ups.shape = [r.sigma.dim, r.sigma.dim, r.sigma.dim, r.sigma.dim]) := by
  simp only [gaugeFix, Option.bind_eq_some_iff] at hr
  obtain ⟨lv, hlv, rv, hrv, hr⟩ := hr
  have el1 := hlib.evd_shape lv _ (hlib.left _ _ _ hlv)
  have el2 := hlib.evd lv _ (hlib.left _ _ _ hlv)
  have er1 := hlib.evd_shape rv _ (hlib.right _ _ _ hrv)
  have er2 := hlib.evd rv _ (hlib.right _ _ _ hrv)
  generalize lib.evd lv = el at *
  generalize lib.evd rv = er at *
  have dl1 : (quasiSqrt (diagNormalized (fixSign el.2))).dim = sigma.dim :=
    (fixSign_dim _).trans el1.2
  have dr1 : (quasiSqrt (diagNormalized (fixSign er.2))).dim = sigma.dim :=
    (fixSign_dim _).trans er1.2
  generalize quasiSqrt (diagNormalized (fixSign el.2)) = dl at *
  generalize quasiSqrt (diagNormalized (fixSign er.2)) = dr at *
  have t0 : (contract dl.ten 0 el.1 1).shape = [sigma.dim, sigma.dim] ∧ ∀ a b, a < sigma.dim →
      (contract dl.ten 0 el.1 1).elem [a, b] = (dl.val a : 𝕜) * el.1.elem [b, a] := by
    obtain ⟨⟨sh, U⟩, dd⟩ := el
    obtain rfl : sh = _ := el1.1
    obtain ⟨n, dv⟩ := dl
    obtain rfl : n = _ := dl1
    refine ⟨rfl, fun a b ha => ?_⟩
    change ∑ k ∈ Finset.range sigma.dim, (if k = a then (dv k : 𝕜) else 0) * U [b, k] = _
    rw [Finset.sum_eq_single a (fun m _ h => by rw [if_neg h, zero_mul])
      (fun h => absurd (Finset.mem_range.2 ha) h), if_pos rfl]
  obtain ⟨t1s, t1e⟩ := nd t0.1 sigma
  obtain ⟨t2s, t2e⟩ := nm t1s er1.1
  obtain ⟨t3s, t3e⟩ := nd t2s dr
  rw [dr1] at t3s
  have hf := matSvd_eq (svd := lib.svd) lib.dirIn (C := fun _ => True) hlib.svd_shape
    (fun t n _ => hlib.svd t n) t3s
  generalize hfd : matSvd lib.svd lib.dirIn (contractN (contractN (contractN
    (contract dl.ten 0 el.1 1) [1] sigma.ten [0]) [1] er.1 [0]) [1] dr.ten [0]) = f at *
  obtain ⟨fu, fv, fe⟩ := hf
  have fe := fe trivial
  have x0 : (contract (dag el.1) 1 (diagInv para.invTol dl).ten 1).shape = [sigma.dim, sigma.dim] ∧
      ∀ i a, a < sigma.dim → (contract (dag el.1) 1 (diagInv para.invTol dl).ten 1).elem [i, a] =
        (starRingEnd 𝕜) (el.1.elem [i, a]) * ((diagInv para.invTol dl).val a : 𝕜) := by
    have hd : (diagInv para.invTol dl).dim = sigma.dim := dl1
    generalize diagInv para.invTol dl = dv at hd
    obtain ⟨⟨sh, U⟩, dd⟩ := el
    obtain rfl : sh = _ := el1.1
    obtain ⟨n, dv⟩ := dv
    obtain rfl : n = _ := hd
    refine ⟨rfl, fun i a ha => ?_⟩
    change ∑ k ∈ Finset.range sigma.dim, (starRingEnd 𝕜) (U [i, k]) *
      (if a = k then (dv a : 𝕜) else 0) = _
    rw [Finset.sum_eq_single a (fun m _ h => by rw [if_neg h.symm, mul_zero])
      (fun h => absurd (Finset.mem_range.2 ha) h), if_pos rfl]
  obtain ⟨xs, xe⟩ := nm x0.1 fu
  obtain ⟨y0s, y0e⟩ := nd fv (diagInv para.invTol dr)
  have hdr : (diagInv para.invTol dr).dim = sigma.dim := dr1
  rw [hdr] at y0s
  obtain ⟨ys, ye⟩ := nmT y0s (u := dag er.1) er1.1
  generalize hX : contractN (contract (dag el.1) 1 (diagInv para.invTol dl).ten 1) [1] f.u [0] = X at *
  generalize hY : contractN (contractN f.vt [1] (diagInv para.invTol dr).ten [0]) [1] (dag er.1) [1] = Y
    at *
  have main : Above para.invTol dl → Above para.invTol dr → Splits X Y f.s sigma := by
    intro hal har
    refine ⟨xs, ys, fun i hi j hj => ?_⟩
    have hl : ∀ a < sigma.dim, ((diagInv para.invTol dl).val a : 𝕜) * (dl.val a : 𝕜) = 1 :=
      fun a ha => diagInv_mul hal htol (dl1 ▸ ha)
    have hr : ∀ a < sigma.dim, ((diagInv para.invTol dr).val a : 𝕜) * (dr.val a : 𝕜) = 1 :=
      fun a ha => diagInv_mul har htol (dr1 ▸ ha)
    have key := gauge_core (n := sigma.dim) (M := f.s.dim) (fu := fun a m => f.u.elem [a, m])
      (fv := fun m c => f.vt.elem [m, c]) (U := fun a b => el.1.elem [a, b])
      (V := fun a b => er.1.elem [a, b]) (s := fun m => (f.s.val m : 𝕜))
      (σ := fun m => (sigma.val m : 𝕜)) (dl := fun a => (dl.val a : 𝕜))
      (dr := fun a => (dr.val a : 𝕜)) (fun a ha c hc => by
        rw [fe a ha c hc, t3e _ _ hc, t2e]
        refine congrArg (· * _) (Finset.sum_congr rfl fun b hb => ?_)
        rw [t1e _ _ (Finset.mem_range.1 hb), t0.2 _ _ ha]) hl hr el2 er2 hi hj
    refine Eq.trans (Finset.sum_congr rfl fun m _ => ?_) key
    rw [xe, ye]
    refine congrArg₂ (· * ·) (congrArg (· * _) (Finset.sum_congr rfl fun a ha => ?_))
      (Finset.sum_congr rfl fun c hc => ?_)
    · rw [x0.2 _ _ (Finset.mem_range.1 ha)]
    · rw [y0e _ _ (Finset.mem_range.1 hc)]
      rfl
  have hu := ups_shape (ups := ups) xs ys
  split at hr
  · split at hr
    · split at hr
      · obtain rfl := Option.some.inj hr
        exact ⟨⟨X, Y, main (hsp _ (by simp)) (hsp _ (by simp)), rfl, rfl⟩, hu⟩
      · exact absurd hr (by simp)
    · obtain rfl := Option.some.inj hr
      exact ⟨⟨X, Y, main (hsp _ (by simp)) (hsp _ (by simp)), rfl, rfl⟩, hu⟩
  · exact absurd hr (by simp)

end QLPeps.Peps
