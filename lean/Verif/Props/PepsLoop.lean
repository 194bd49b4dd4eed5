import Verif.Lemmas.PepsLoopDemo

/-!
# C132: loop projections that truncate nothing apply their gates; C133: the energy of a loop projection;
C134: sweeps of the loop update
-/

namespace QLPeps.Peps

open QLPeps.State (BC)
open QLPeps.Tps.Spec (Bond Site leg)
open QLPeps.Peps.Spec

variable {𝕜 : Type*} [RCLike 𝕜] {bc : BC} {rows cols : ℕ}

/-- **C132.** A loop projection that truncates nothing applies its gate: the norm it returns times the
new wave function is the gate applied to the old wave function, for every gate, square, lattice and
boundary condition, whatever dominant eigenvectors and solutions of the linear systems the iterative
solvers return. Tensors and weights away from the square are not changed. -/
theorem C132_loop_projection_applies_gate {lib : LoopLib 𝕜} (hlib : LoopExact lib) {para : LoopPara}
    (htol : 0 ≤ para.invTol) (hetol : 0 ≤ para.envInvTol) {p : Peps 𝕜} {phys : Site rows cols → ℕ}
    {ψ : (Site rows cols → ℕ) → 𝕜} (hψ : IsWave bc p phys ψ) {s : Fin 4 → Site rows cols}
    (hq : Square bc s) {gate : Fin 4 → Tn 𝕜} {w : Fin 4 → ℕ}
    (hgate : ∀ i, (gate i).shape = [w (i + 3), phys (s i), phys (s i), w i]) {res : LoopRes 𝕜}
    (hres : loopProject lib para p gate (s 0).1 (s 0).2 = some res)
    (hsp : ∀ x ∈ res.spectra, Above para.invTol x) (herr : ∀ x ∈ res.errs, x = 0)
    (henv : ∀ x ∈ res.env, Above para.envInvTol x) :
    (∃ φ, IsWave bc res.peps phys φ ∧ ∀ σ, (∀ t, σ t < phys t) →
      (res.norm : 𝕜) * φ σ = applyLoop phys gate w s ψ σ) ∧
    (∀ t : Site rows cols, (∀ i, t ≠ s i) → res.peps.gamma t.1 t.2 = p.gamma t.1 t.2) ∧
    ∀ b : Bond bc rows cols, (∀ i, b ≠ squareBond bc s i) → weight res.peps b = weight p b :=
  loopProject_isWave hlib htol hetol hψ hq hgate hres hsp herr henv

/-- **C133.** The second number a loop projection returns is the mean value of its gate in the square
with the weights around it, also when it truncates. -/
theorem C133_ratio_is_mean_of_gate {lib : LoopLib 𝕜} (hlib : LoopExact lib) {para : LoopPara}
    {p : Peps 𝕜} {phys : Site rows cols → ℕ} {ψ : (Site rows cols → ℕ) → 𝕜} (hψ : IsWave bc p phys ψ)
    {s : Fin 4 → Site rows cols} (hq : Square bc s) {gate : Fin 4 → Tn 𝕜} {w : Fin 4 → ℕ}
    (hgate : ∀ i, (gate i).shape = [w (i + 3), phys (s i), phys (s i), w i]) {res : LoopRes 𝕜}
    (hres : loopProject lib para p gate (s 0).1 (s 0).2 = some res) :
    res.ratio = RCLike.re (clusterMean bc p phys s (loopGate gate w) / (clusterNorm bc p phys s : 𝕜)) := by
  obtain ⟨dim, hf, -⟩ := hψ
  exact ratio_eq hlib hf hq hgate hres

/-- **C133.** Hence the energy of a projection with a first-order gate `1 - τ H` is within the spectrum
of `H`. -/
theorem C133_energy_of_first_order_gate {lib : LoopLib 𝕜} (hlib : LoopExact lib) {para : LoopPara}
    {p : Peps 𝕜} {phys : Site rows cols → ℕ} {ψ : (Site rows cols → ℕ) → 𝕜} (hψ : IsWave bc p phys ψ)
    {s : Fin 4 → Site rows cols} (hq : Square bc s) {gate : Fin 4 → Tn 𝕜} {w : Fin 4 → ℕ}
    (hgate : ∀ i, (gate i).shape = [w (i + 3), phys (s i), phys (s i), w i])
    {H : (Fin 4 → ℕ) → (Fin 4 → ℕ) → 𝕜} {tau lo hi : ℝ} (htau : tau ≠ 0)
    (hH : ∀ x ∈ states phys s, ∀ y ∈ states phys s,
      loopGate gate w x y = (if x = y then 1 else 0) - (tau : 𝕜) * H x y)
    (hb : Between4 phys s H lo hi) (hn : clusterNorm bc p phys s ≠ 0) {res : LoopRes 𝕜}
    (hres : loopProject lib para p gate (s 0).1 (s 0).2 = some res) :
    lo ≤ localEnergy .firstOrder tau res.ratio ∧ localEnergy .firstOrder tau res.ratio ≤ hi := by
  have hr := C133_ratio_is_mean_of_gate hlib hψ hq hgate hres
  obtain ⟨q, h1, h2, h3⟩ := clusterMean_between (bc := bc) (p := p) hb
  have hpos : 0 < clusterNorm bc p phys s := lt_of_le_of_ne clusterNorm_nonneg (Ne.symm hn)
  rw [clusterMean_first hH, h1] at hr
  have he : localEnergy .firstOrder tau res.ratio = q / clusterNorm bc p phys s := by
    have : (((clusterNorm bc p phys s : ℝ) : 𝕜) - (tau : 𝕜) * (q : 𝕜)) /
        ((clusterNorm bc p phys s : ℝ) : 𝕜) =
        (((clusterNorm bc p phys s - tau * q) / clusterNorm bc p phys s : ℝ) : 𝕜) := by push_cast; rfl
    rw [this, RCLike.ofReal_re] at hr
    rw [localEnergy, hr]
    field_simp
    ring
  rw [he, le_div_iff₀ hpos, div_le_iff₀ hpos]
  exact ⟨h2, h3⟩

/-- **C133.** And the energy of a projection with an exponential gate is within the bounds of the
exponent. -/
theorem C133_energy_of_exponential_gate {lib : LoopLib 𝕜} (hlib : LoopExact lib) {para : LoopPara}
    {p : Peps 𝕜} {phys : Site rows cols → ℕ} {ψ : (Site rows cols → ℕ) → 𝕜} (hψ : IsWave bc p phys ψ)
    {s : Fin 4 → Site rows cols} (hq : Square bc s) {gate : Fin 4 → Tn 𝕜} {w : Fin 4 → ℕ}
    (hgate : ∀ i, (gate i).shape = [w (i + 3), phys (s i), phys (s i), w i])
    {tau lo hi : ℝ} (htau : 0 < tau)
    (hb : Between4 phys s (loopGate gate w) (Real.exp (-tau * hi)) (Real.exp (-tau * lo)))
    (hn : clusterNorm bc p phys s ≠ 0) {res : LoopRes 𝕜}
    (hres : loopProject lib para p gate (s 0).1 (s 0).2 = some res) :
    0 < res.ratio ∧
    lo ≤ localEnergy .exponential tau res.ratio ∧ localEnergy .exponential tau res.ratio ≤ hi := by
  have hr := C133_ratio_is_mean_of_gate hlib hψ hq hgate hres
  obtain ⟨q, h1, h2, h3⟩ := clusterMean_between (bc := bc) (p := p) hb
  have hpos : 0 < clusterNorm bc p phys s := lt_of_le_of_ne clusterNorm_nonneg (Ne.symm hn)
  have he : res.ratio = q / clusterNorm bc p phys s := by
    rw [hr, h1, ← RCLike.ofReal_div, RCLike.ofReal_re]
  have g2 : Real.exp (-tau * hi) ≤ res.ratio := by rw [he, le_div_iff₀ hpos]; exact h2
  have g3 : res.ratio ≤ Real.exp (-tau * lo) := by rw [he, div_le_iff₀ hpos]; exact h3
  have gp : 0 < res.ratio := (Real.exp_pos _).trans_le g2
  have l2 := (Real.le_log_iff_exp_le gp).2 g2
  have l3 := (Real.log_le_iff_le_exp gp).2 g3
  refine ⟨gp, ?_⟩
  rw [localEnergy, le_div_iff₀ htau, div_le_iff₀ htau]
  constructor <;> linarith

/-- **C134.** There is an order of the plaquettes, each exactly once, such that every sweep of the loop
update consists of the projections on the plaquettes in this order, `e0` is the sum of their energies and
the other estimate the logarithm of the product of the norms. If the sweep truncates nothing, it applies
the gates of all plaquettes: the product of the norms times the final wave function is the gates applied
to the initial one. -/
theorem C134_sweep_applies_all_gates (bc : BC) (rows cols : ℕ)
    (hsz : bc = .pbc → rows % 2 = 0 ∧ cols % 2 = 0) :
    ∃ order : List (Site rows cols), order.Nodup ∧ (∀ r, r ∈ order ↔ IsPlaquette bc r) ∧
      ∀ {lib : LoopLib 𝕜}, LoopExact lib → ∀ {para : LoopPara}, 0 ≤ para.invTol → 0 ≤ para.envInvTol →
      ∀ (ty : LoopGateType) (tau : ℝ) {gates : ℕ → ℕ → Fin 4 → Tn 𝕜} {w : Site rows cols → Fin 4 → ℕ}
        {p : Peps 𝕜} {phys : Site rows cols → ℕ} {ψ : (Site rows cols → ℕ) → 𝕜}, IsWave bc p phys ψ →
      (∀ r : Site rows cols, IsPlaquette bc r → ∀ i, (gates r.1 r.2 i).shape =
        [w r (i + 3), phys (plaquette r i), phys (plaquette r i), w r i]) →
      ∀ {s : LoopSweep 𝕜} {en : ℝ}, loopSweep lib para ty tau gates p = some (s, en) →
      (∃ results, Projections lib para (fun r => gates r.1 r.2) p order results ∧
        s.peps = (results.map LoopRes.peps).getLastD p ∧ s.norm = (results.map LoopRes.norm).prod ∧
        s.e0 = (results.map fun x => localEnergy ty tau x.ratio).sum ∧
        0 < s.norm ∧ en = -Real.log s.norm / tau) ∧
      ((∀ x ∈ s.spectra, Above para.invTol x) → (∀ x ∈ s.errs, x = 0) →
      (∀ x ∈ s.env, Above para.envInvTol x) →
      ∃ φ, IsWave bc s.peps phys φ ∧ ∀ σ, (∀ t, σ t < phys t) →
        (s.norm : 𝕜) * φ σ = applyLoops phys (fun r => gates r.1 r.2) w ψ order σ) := by
  obtain ⟨hnd, hmem⟩ := SimpleUpdate.C87_every_plaquette_once bc rows cols
  have hb : ∀ p ∈ (SimpleUpdate.loopPasses bc rows cols).flatten, p.1 < rows ∧ p.2 < cols := by
    intro p hp
    have := (hmem p).1 hp
    cases bc <;> simp [SimpleUpdate.Spec.bonds] at this <;> omega
  obtain ⟨order, ho⟩ := exists_sites _ hb
  have hiff : ∀ r, r ∈ order ↔ IsPlaquette bc r := by
    intro r
    have hinj : Function.Injective fun r : Site rows cols => ((r.1 : ℕ), (r.2 : ℕ)) := by
      intro a b h
      simp only [Prod.mk.injEq] at h
      exact Prod.ext (Fin.ext h.1) (Fin.ext h.2)
    rw [← List.mem_map_of_injective hinj, ho, hmem]
    obtain ⟨⟨y, hy⟩, ⟨x, hx⟩⟩ := r
    unfold IsPlaquette
    cases bc <;> simp [SimpleUpdate.Spec.bonds] <;> omega
  refine ⟨order, ?_, hiff, ?_⟩
  · rw [← ho] at hnd
    exact hnd.of_map
  · intro lib hlib para htol hetol ty tau gates w p phys ψ hψ hgate s en hs
    obtain ⟨hr, hc, hbc⟩ : p.rows = rows ∧ p.cols = cols ∧ p.bc = bc := by
      obtain ⟨_, hf, _⟩ := hψ
      exact ⟨hf.rows_eq, hf.cols_eq, hf.bc_eq⟩
    unfold loopSweep at hs
    rw [hr, hc, hbc, ← ho] at hs
    obtain ⟨s', h1, h2⟩ := Option.bind_eq_some_iff.1 hs
    split at h2
    · simp at h2
    · rename_i hpos
      obtain ⟨rfl, rfl⟩ := Prod.mk.inj (Option.some.inj h2)
      constructor
      · obtain ⟨results, e1, e2, e3, e4⟩ := loopVisits_results order h1
        exact ⟨results, e1, e2, by rw [e3, one_mul], by rw [e4, zero_add], not_le.1 hpos, rfl⟩
      · intro hsp herr henv
        obtain ⟨c, e1, φ, hφ, e2⟩ := loopVisits_eq hlib htol hetol hsz hgate order
          (fun r hr => (hiff r).1 hr) (s := ⟨p, 0, 1, [], [], []⟩) hψ h1 hsp herr henv
        rw [one_mul] at e1
        rw [e1]
        exact ⟨φ, hφ, e2⟩

/-! ## The hypotheses are met -/

/-- a site of the 2 x 2 lattice -/
def corner00 : Site 2 2 := (0, 0)

theorem corner00_square : Square .obc (plaquette corner00) :=
  plaquette_square (fun _ => by decide) (by simp)

theorem plus_cluster (x : Fin 4 → ℕ) (e : Fin 4 → ℕ × ℕ) :
    cluster .obc plus (plaquette corner00) x e = 1 := by
  have hw : ∀ (b : Bond .obc 2 2) i, (weight plus b).val i = 1 := fun b i => by cases b <;> rfl
  have hd : ∀ b : Bond .obc 2 2, (weight plus b).dim = 1 := fun b => by cases b <;> rfl
  have hg : ∀ r c x, (plus.gamma r c).elem x = 1 := fun _ _ _ => rfl
  simp [cluster, hw, hd, hg]

/-- a projection of the four sites of the 2 x 2 lattice that succeeds -/
theorem plus_loop {gate : Fin 4 → Tn ℝ} {w : Fin 4 → ℕ}
    (hgate : ∀ i, (gate i).shape = [w (i + 3), 2, 2, w i])
    (hne : ∑ y ∈ states (fun _ => 2) (plaquette corner00), loopGate gate w y (fun _ => 0) ≠ 0) :
    ∃ (para : LoopPara) (res : LoopRes ℝ), para.invTol = 0 ∧ para.envInvTol = 0 ∧
      loopProject loopLib para plus gate (plaquette corner00 0).1 (plaquette corner00 0).2 = some res ∧
      (∀ x ∈ res.spectra, Above 0 x) ∧ (∀ x ∈ res.errs, x = 0) ∧ ∀ x ∈ res.env, Above 0 x := by
  obtain ⟨dim, hf, -⟩ := plus_wave
  obtain ⟨T, hT⟩ := loopProject_demo hf corner00_square (gate := gate) (w := w)
    (fun i => by rw [hgate i]) (fun _ => by decide) (x := fun _ => 0) (e := fun _ => (0, 0))
    (by simp [states]) (by
      have hd : ∀ b : Bond .obc 2 2, (weight plus b).dim = 1 := fun b => by cases b <;> rfl
      simp [envs, hd]) (by simpa only [plus_cluster, mul_one] using hne)
  obtain ⟨res, h1, h2, h3, h4⟩ := hT ⟨0, 0, T, T, 3, 1⟩ rfl le_rfl le_rfl
  refine ⟨_, res, rfl, rfl, h1, h2, h3, fun x hx i _ => ?_⟩
  obtain ⟨j, h | h⟩ := h4 x hx
  · have : x.val i = 1 := by rw [h]; fin_cases j <;> rfl
    rw [this]; norm_num
  · have : x.val i = 1 := by rw [h]; fin_cases j <;> rfl
    rw [this]; norm_num

theorem gateB_pos (x y : Fin 4 → ℕ) : 0 < loopGate (fun _ => gateB) (fun _ => 2) x y := by
  have hb : ∀ l, 0 < gateB.elem l := fun l => by simp only [gateB]; positivity
  unfold loopGate
  refine Finset.sum_pos (fun _ _ => Finset.sum_pos (fun _ _ => Finset.sum_pos (fun _ _ =>
    Finset.sum_pos (fun _ _ => ?_) ⟨0, by simp⟩) ⟨0, by simp⟩) ⟨0, by simp⟩) ⟨0, by simp⟩
  have := hb
  exact mul_pos (mul_pos (mul_pos (hb _) (hb _)) (hb _)) (hb _)

/-- C132: a gate that depends on all its legs; the norm is not zero -/
theorem plus_gateB : ∃ (para : LoopPara) (res : LoopRes ℝ), para.invTol = 0 ∧ para.envInvTol = 0 ∧
    loopProject loopLib para plus (fun _ => gateB) 0 0 = some res ∧
    (∀ x ∈ res.spectra, Above 0 x) ∧ (∀ x ∈ res.errs, x = 0) ∧ (∀ x ∈ res.env, Above 0 x) ∧
    0 < res.norm := by
  obtain ⟨para, res, p1, p2, h1, h2, h3, h4⟩ := plus_loop (gate := fun _ => gateB) (w := fun _ => 2)
    (fun _ => rfl) (Finset.sum_pos (fun y _ => gateB_pos y _) ⟨fun _ => 0, by simp [states]⟩).ne'
  refine ⟨para, res, p1, p2, h1, h2, h3, h4, ?_⟩
  have hnn : 0 ≤ res.norm := by
    obtain ⟨dim, hf, -⟩ := plus_wave
    exact loopProject_nonneg corner00_square hf.rows_eq hf.cols_eq hf.bc_eq h1
  obtain ⟨⟨φ, -, h⟩, -⟩ := C132_loop_projection_applies_gate loopLib_exact p1.ge p2.ge plus_wave
    corner00_square (w := fun _ => 2) (fun _ => rfl) h1 (by rwa [p1]) h3 (by rwa [p2])
  refine lt_of_le_of_ne hnn fun h0 => ?_
  have := h (fun _ => 0) fun _ => by norm_num
  rw [← h0] at this
  simp only [RCLike.ofReal_zero, zero_mul] at this
  refine absurd this.symm (ne_of_gt ?_)
  unfold applyLoop
  exact Finset.sum_pos (fun _ _ => Finset.sum_pos (fun _ _ => Finset.sum_pos (fun _ _ =>
    Finset.sum_pos (fun _ _ => by rw [mul_one]; exact gateB_pos _ _) ⟨0, by simp⟩) ⟨0, by simp⟩)
    ⟨0, by simp⟩) ⟨0, by simp⟩

/-- C134 on the 2 x 2 lattice, which has one plaquette -/
example : ∃ (para : LoopPara) (s : LoopSweep ℝ) (en : ℝ), para.invTol = 0 ∧ para.envInvTol = 0 ∧
    loopSweep loopLib para .firstOrder 1 (fun _ _ _ => gateB) plus = some (s, en) ∧
    (∀ x ∈ s.spectra, Above para.invTol x) ∧ (∀ x ∈ s.errs, x = 0) ∧
    ∀ x ∈ s.env, Above para.envInvTol x := by
  obtain ⟨para, res, p1, p2, h1, h2, h3, h4, hn⟩ := plus_gateB
  have hl : (SimpleUpdate.loopPasses plus.bc plus.rows plus.cols).flatten = [(0, 0)] := by decide
  refine ⟨para, ⟨res.peps, 0 + localEnergy .firstOrder 1 res.ratio, 1 * res.norm, [] ++ res.spectra,
    [] ++ res.errs, [] ++ res.env⟩, -Real.log (1 * res.norm) / 1, p1, p2, ?_, by simpa [p1] using h2,
    by simpa using h3, by simpa [p2] using h4⟩
  unfold loopSweep
  rw [hl]
  simp only [loopVisits, loopVisit, h1, Option.map_some, Option.bind_some]
  rw [if_neg (by simpa using hn)]

/-- the exponential of a one-site energy `1 + n` at the first corner -/
noncomputable def gateD (i : Fin 4) : Tn ℝ := ⟨[2, 2, 2, 2], fun x =>
  if x.getD 0 0 = 0 ∧ x.getD 3 0 = 0 ∧ x.getD 1 0 = x.getD 2 0 then (if i = 0 then Real.exp (-(1 + (x.getD 1 0 : ℝ))) else 1) else 0⟩

theorem gateD_eq (x y : Fin 4 → ℕ) : loopGate gateD (fun _ => 2) x y =
    if x = y then Real.exp (-(1 + (x 0 : ℝ))) else 0 := by
  have hxy : x = y ↔ x 0 = y 0 ∧ x 1 = y 1 ∧ x 2 = y 2 ∧ x 3 = y 3 := by
    constructor
    · rintro rfl; simp
    · rintro ⟨h0, h1, h2, h3⟩
      funext i
      fin_cases i <;> assumption
  simp only [loopGate, gateD, Finset.sum_range_succ, Finset.sum_range_zero, List.getD_cons_zero,
    List.getD_cons_succ, hxy]
  by_cases h0 : x 0 = y 0 <;> by_cases h1 : x 1 = y 1 <;> by_cases h2 : x 2 = y 2 <;>
    by_cases h3 : x 3 = y 3 <;> simp [h0, h1, h2, h3]

theorem gateD_mean (f : ℕ → ℝ) (v : (Fin 4 → ℕ) → ℝ) (S : Finset (Fin 4 → ℕ)) :
    ∑ x ∈ S, (starRingEnd ℝ) (v x) * ∑ y ∈ S, (if y = x then f (y 0) else 0) * v y =
      ∑ x ∈ S, f (x 0) * ‖v x‖ ^ 2 := by
  refine Finset.sum_congr rfl fun x hx => ?_
  rw [Finset.sum_eq_single x]
  · simp
    ring
  · intro y _ h
    rw [if_neg h, zero_mul]
  · exact fun h => absurd hx h

theorem between_diag {f : ℕ → ℝ} {lo hi : ℝ} (h0 : lo ≤ f 0 ∧ f 0 ≤ hi) (h1 : lo ≤ f 1 ∧ f 1 ≤ hi) :
    Between4 (𝕜 := ℝ) (fun _ => 2) (plaquette corner00) (fun x y => if x = y then f (x 0) else 0)
      lo hi := by
  intro v
  generalize hS : states (fun _ => 2) (plaquette corner00) = S
  have hf : ∀ x ∈ S, lo ≤ f (x 0) ∧ f (x 0) ≤ hi := by
    intro x hx
    rw [← hS] at hx
    simp only [states, Fintype.mem_piFinset, Finset.mem_range] at hx
    have := hx 0
    interval_cases hx0 : x 0
    · exact h0
    · exact h1
  refine ⟨_, gateD_mean f v _, ?_, ?_⟩
  · rw [Finset.mul_sum]
    exact Finset.sum_le_sum fun x hx => mul_le_mul_of_nonneg_right (hf x hx).1 (sq_nonneg _)
  · rw [Finset.mul_sum]
    exact Finset.sum_le_sum fun x hx => mul_le_mul_of_nonneg_right (hf x hx).2 (sq_nonneg _)

/-- C133: both types of gates with this one; the bounds are not trivial -/
example : ∃ (para : LoopPara) (res : LoopRes ℝ),
    loopProject loopLib para plus gateD (plaquette corner00 0).1 (plaquette corner00 0).2 = some res ∧
    (1 ≤ localEnergy .exponential 1 res.ratio ∧ localEnergy .exponential 1 res.ratio ≤ 2) ∧
    1 - Real.exp (-1) ≤ localEnergy .firstOrder 1 res.ratio ∧
    localEnergy .firstOrder 1 res.ratio ≤ 1 - Real.exp (-2) := by
  obtain ⟨para, res, p1, p2, h1, h2, h3, h4⟩ := plus_loop (gate := gateD) (w := fun _ => 2)
    (fun _ => rfl) (by
      simp only [gateD_eq]
      rw [Finset.sum_eq_single fun _ => 0]
      · simp
      · intro y _ h
        rw [if_neg h]
      · simp [states])
  have hn : clusterNorm .obc plus (fun _ => 2) (plaquette corner00) ≠ 0 := by
    have hd : ∀ b : Bond .obc 2 2, (weight plus b).dim = 1 := fun b => by cases b <;> rfl
    simp only [clusterNorm, plus_cluster]
    simp [states, envs, hd]
  have e1 : Real.exp (-2) ≤ Real.exp (-1) := Real.exp_le_exp.2 (by norm_num)
  refine ⟨para, res, h1, ?_, ?_⟩
  · refine (C133_energy_of_exponential_gate loopLib_exact plus_wave corner00_square (w := fun _ => 2)
      (fun _ => rfl) one_pos ?_ hn h1).2
    have := between_diag (f := fun n => Real.exp (-(1 + (n : ℝ)))) (lo := Real.exp (-1 * 2))
      (hi := Real.exp (-1 * 1)) (by norm_num [e1]) (by norm_num [e1])
    intro v
    have hv := this v
    simpa only [gateD_eq] using hv
  · refine C133_energy_of_first_order_gate loopLib_exact plus_wave corner00_square (w := fun _ => 2)
      (fun _ => rfl) one_ne_zero (H := fun x y => if x = y then 1 - Real.exp (-(1 + (x 0 : ℝ))) else 0)
      (fun x _ y _ => ?_) (between_diag (f := fun n => 1 - Real.exp (-(1 + (n : ℝ))))
        (by norm_num; linarith) (by norm_num; linarith)) hn h1
    rw [gateD_eq]
    split <;> simp

end QLPeps.Peps
