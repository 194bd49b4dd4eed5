import Verif.Lemmas.SimpleUpdate

/-!
# C84–C86, C87: what one simple-update or loop-update sweep acts with

`on1`, `on2`, `on3` (Spec) embed a local operator in the whole lattice. The theorems add up the
embedded Hamiltonians whose exponentials a sweep applies and compare the sum with the Hamiltonian.
-/

namespace QLPeps.SimpleUpdate

open QLPeps.State (BC)
open Spec Finset

variable {𝕜 : Type*} [Field 𝕜]

/-! ## C84: nearest-neighbour executor -/

/-- the two-site term the user supplied for the horizontal bond starting at (r, c) -/
def NN.givenH (m : NN 𝕜) (r c : ℕ) : Op2 𝕜 := if m.nonUniform then m.horIn r c else m.uniform

/-- the two-site term the user supplied for the vertical bond starting at (r, c) -/
def NN.givenV (m : NN 𝕜) (r c : ℕ) : Op2 𝕜 := if m.nonUniform then m.verIn r c else m.uniform

theorem hamH_some {m : NN 𝕜} {o : ℕ → ℕ → Op1 𝕜} (hy : 2 ≤ m.ly) (hx : 2 ≤ m.lx)
    (ho : ∀ r < m.ly, ∀ c < m.lx, m.onsite r c = some (o r c)) {r c : ℕ} (hr : r < m.ly)
    (hc : c < bonds m.bc m.lx) :
    m.hamH r c = some (bondHam (m.givenH r c)
      (1 / ((deg m.bc m.ly r + deg m.bc m.lx c : ℕ) : 𝕜)) (o r c)
      (1 / ((deg m.bc m.ly r + deg m.bc m.lx (next m.bc m.lx c) : ℕ) : 𝕜))
      (o r (next m.bc m.lx c))) := by
  simp only [NN.hamH, ho 0 (by omega) 0 (by omega), Option.isNone_some, Bool.false_eq_true,
    if_false, mod_len hc, ho r hr c (lt_of_bonds hc), ho r hr _ (next_lt hc),
    coordH_eq hy hx hr hc, NN.givenH]

theorem hamV_some {m : NN 𝕜} {o : ℕ → ℕ → Op1 𝕜} (hy : 2 ≤ m.ly) (hx : 2 ≤ m.lx)
    (ho : ∀ r < m.ly, ∀ c < m.lx, m.onsite r c = some (o r c)) {r c : ℕ} (hc : c < m.lx)
    (hr : r < bonds m.bc m.ly) :
    m.hamV r c = some (bondHam (m.givenV r c)
      (1 / ((deg m.bc m.ly r + deg m.bc m.lx c : ℕ) : 𝕜)) (o r c)
      (1 / ((deg m.bc m.ly (next m.bc m.ly r) + deg m.bc m.lx c : ℕ) : 𝕜))
      (o (next m.bc m.ly r) c)) := by
  simp only [NN.hamV, ho 0 (by omega) 0 (by omega), Option.isNone_some, Bool.false_eq_true,
    if_false, mod_len hr, ho r (lt_of_bonds hr) c hc, ho _ (next_lt hr) c hc,
    coordV_eq hy hx hc hr, NN.givenV]

/-- the sweep from known entries of the two tables -/
theorem nn_sweep_eq {m : NN 𝕜} (fH fV : ℕ → ℕ → Op2 𝕜)
    (hH : ∀ r < m.ly, ∀ c < bonds m.bc m.lx, m.hamH r c = some (fH r c))
    (hV : ∀ r < bonds m.bc m.ly, ∀ c < m.lx, m.hamV r c = some (fV r c)) :
    m.sweep = some (
      (((List.range m.lx).flatMap fun col => (List.range (bonds m.bc m.ly)).map fun row =>
        (row, col)).map fun s => (s, lowerSite m.bc m.ly s, fV s.1 s.2)) ++
      (((List.range (bonds m.bc m.lx)).flatMap fun col => (List.range m.ly).map fun row =>
        (row, col)).map fun s => (s, rightSite m.bc m.lx s, fH s.1 s.2))) := by
  unfold NN.sweep
  simp only [bondLimit_eq]
  rw [mapM_eq_map _ _ (fun s => (s, lowerSite m.bc m.ly s, fV s.1 s.2)),
    mapM_eq_map _ _ (fun s => (s, rightSite m.bc m.lx s, fH s.1 s.2))]
  · rfl
  · intro s hs
    rw [mem_cells] at hs
    rw [hH _ hs.1 _ hs.2]; rfl
  · intro s hs
    rw [mem_cells] at hs
    rw [hV _ hs.1 _ hs.2]; rfl

/-- sum of the embedded terms of a sweep -/
theorem nn_sweep_sum {m : NN 𝕜} (fH fV : ℕ → ℕ → Op2 𝕜) (σ τ : Site → ℕ) :
    ((((((List.range m.lx).flatMap fun col => (List.range (bonds m.bc m.ly)).map fun row =>
        (row, col)).map fun s => (s, lowerSite m.bc m.ly s, fV s.1 s.2)) ++
      (((List.range (bonds m.bc m.lx)).flatMap fun col => (List.range m.ly).map fun row =>
        (row, col)).map fun s => (s, rightSite m.bc m.lx s, fH s.1 s.2)))).map
        fun a : Site × Site × Op2 𝕜 => on2 (lattice m.ly m.lx) a.1 a.2.1 a.2.2 σ τ).sum =
      vertical m.bc m.ly m.lx fV σ τ + horizontal m.bc m.ly m.lx fH σ τ := by
  rw [List.map_append, List.sum_append, List.map_map, List.map_map, sum_grid, sum_grid]
  congr 1
  · refine sum_congr rfl fun r hr => sum_congr rfl fun c hc => ?_
    simp only [Function.comp_apply, lowerSite_eq (mem_range.1 hr)]
  · refine sum_congr rfl fun r hr => sum_congr rfl fun c hc => ?_
    simp only [Function.comp_apply, rightSite_eq (mem_range.1 hc)]

/-- **C84.** With on-site terms on every site of an open or periodic lattice of at least 2 × 2
sites, the local Hamiltonians whose exponentials one sweep applies add up to the whole Hamiltonian:
every horizontal and vertical two-site term once and every on-site term once. -/
theorem C84_sweep_adds_up [CharZero 𝕜] (m : NN 𝕜) (o : ℕ → ℕ → Op1 𝕜) (hy : 2 ≤ m.ly)
    (hx : 2 ≤ m.lx) (ho : ∀ r < m.ly, ∀ c < m.lx, m.onsite r c = some (o r c)) :
    ∃ sw, m.sweep = some sw ∧ ∀ σ τ,
      (sw.map fun a => on2 (lattice m.ly m.lx) a.1 a.2.1 a.2.2 σ τ).sum =
        vertical m.bc m.ly m.lx m.givenV σ τ + horizontal m.bc m.ly m.lx m.givenH σ τ +
          onSite m.ly m.lx o σ τ := by
  refine ⟨_, nn_sweep_eq _ _ (fun r hr c hc => hamH_some hy hx ho hr hc)
    (fun r hr c hc => hamV_some hy hx ho hc hr), fun σ τ => ?_⟩
  refine (nn_sweep_sum (m := m) (fun r c => bondHam (m.givenH r c)
      (1 / ((deg m.bc m.ly r + deg m.bc m.lx c : ℕ) : 𝕜)) (o r c)
      (1 / ((deg m.bc m.ly r + deg m.bc m.lx (next m.bc m.lx c) : ℕ) : 𝕜))
      (o r (next m.bc m.lx c))) (fun r c => bondHam (m.givenV r c)
      (1 / ((deg m.bc m.ly r + deg m.bc m.lx c : ℕ) : 𝕜)) (o r c)
      (1 / ((deg m.bc m.ly (next m.bc m.ly r) + deg m.bc m.lx c : ℕ) : 𝕜))
      (o (next m.bc m.ly r) c)) σ τ).trans ?_
  have hh : horizontal m.bc m.ly m.lx (fun r c => bondHam (m.givenH r c)
      (1 / ((deg m.bc m.ly r + deg m.bc m.lx c : ℕ) : 𝕜)) (o r c)
      (1 / ((deg m.bc m.ly r + deg m.bc m.lx (next m.bc m.lx c) : ℕ) : 𝕜))
      (o r (next m.bc m.lx c))) σ τ = horizontal m.bc m.ly m.lx m.givenH σ τ +
        ∑ r ∈ range m.ly, ∑ c ∈ range (bonds m.bc m.lx),
          (1 / ((deg m.bc m.ly r + deg m.bc m.lx c : ℕ) : 𝕜) *
              on1 (lattice m.ly m.lx) (r, c) (o r c) σ τ +
           1 / ((deg m.bc m.ly r + deg m.bc m.lx (next m.bc m.lx c) : ℕ) : 𝕜) *
              on1 (lattice m.ly m.lx) (r, next m.bc m.lx c) (o r (next m.bc m.lx c)) σ τ) := by
    unfold horizontal
    rw [← sum_add_distrib]
    refine sum_congr rfl fun r hr => ?_
    rw [← sum_add_distrib]
    refine sum_congr rfl fun c hc => ?_
    have hr' := mem_range.1 hr
    have hc' := mem_range.1 hc
    rw [on2_bondHam _ (fun e => next_ne hx (Prod.mk.inj e).2.symm)
      (mem_lattice.2 ⟨hr', lt_of_bonds hc'⟩) (mem_lattice.2 ⟨hr', next_lt hc'⟩), add_assoc]
  have hv : vertical m.bc m.ly m.lx (fun r c => bondHam (m.givenV r c)
      (1 / ((deg m.bc m.ly r + deg m.bc m.lx c : ℕ) : 𝕜)) (o r c)
      (1 / ((deg m.bc m.ly (next m.bc m.ly r) + deg m.bc m.lx c : ℕ) : 𝕜))
      (o (next m.bc m.ly r) c)) σ τ = vertical m.bc m.ly m.lx m.givenV σ τ +
        ∑ r ∈ range (bonds m.bc m.ly), ∑ c ∈ range m.lx,
          (1 / ((deg m.bc m.ly r + deg m.bc m.lx c : ℕ) : 𝕜) *
              on1 (lattice m.ly m.lx) (r, c) (o r c) σ τ +
           1 / ((deg m.bc m.ly (next m.bc m.ly r) + deg m.bc m.lx c : ℕ) : 𝕜) *
              on1 (lattice m.ly m.lx) (next m.bc m.ly r, c) (o (next m.bc m.ly r) c) σ τ) := by
    unfold vertical
    rw [← sum_add_distrib]
    refine sum_congr rfl fun r hr => ?_
    rw [← sum_add_distrib]
    refine sum_congr rfl fun c hc => ?_
    have hr' := mem_range.1 hr
    have hc' := mem_range.1 hc
    rw [on2_bondHam _ (fun e => next_ne hy (Prod.mk.inj e).1.symm)
      (mem_lattice.2 ⟨lt_of_bonds hr', hc'⟩) (mem_lattice.2 ⟨next_lt hr', hc'⟩), add_assoc]
  have ht := onsite_total (𝕜 := 𝕜) m.bc hy hx
    (fun r c => on1 (lattice m.ly m.lx) (r, c) (o r c) σ τ)
  rw [hh, hv, onSite, ← ht]
  ring

/-- **C84.** When the on-site term of site (0, 0) is absent, the sweep is that of the two-site
terms alone, for every lattice — whatever on-site terms the other sites were given. -/
theorem C84_sweep_without_onsite (m : NN 𝕜) (h0 : m.onsite 0 0 = none) :
    ∃ sw, m.sweep = some sw ∧ ∀ σ τ,
      (sw.map fun a => on2 (lattice m.ly m.lx) a.1 a.2.1 a.2.2 σ τ).sum =
        vertical m.bc m.ly m.lx m.givenV σ τ + horizontal m.bc m.ly m.lx m.givenH σ τ :=
  ⟨_, nn_sweep_eq m.givenH m.givenV
    (fun r _ c _ => by simp only [NN.hamH, h0, Option.isNone_none, if_true, NN.givenH])
    (fun r _ c _ => by simp only [NN.hamV, h0, Option.isNone_none, if_true, NN.givenV]),
    fun σ τ => nn_sweep_sum _ _ σ τ⟩

theorem nodup_cells (n m : ℕ) :
    ((List.range n).flatMap fun a => (List.range m).map fun b => (b, a)).Nodup := by
  rw [List.nodup_flatMap]
  refine ⟨fun a _ => List.Nodup.map (fun x y h => (Prod.mk.inj h).1) List.nodup_range, ?_⟩
  refine List.Pairwise.imp (R := fun a b => a ≠ b) ?_ List.nodup_range
  intro a b hab
  simp only [Function.onFun, List.disjoint_left, List.mem_map, List.mem_range]
  rintro x ⟨y, _, rfl⟩ ⟨z, _, h⟩
  exact hab (Prod.mk.inj h).2.symm

/-- **C84.** A sweep visits every bond exactly once and nothing else: the list of its pairs of
sites has no repetition and its members are the pairs (site, neighbour to the right) and (site,
neighbour below) of the lattice. -/
theorem C84_each_bond_once (m : NN 𝕜) (hy : 2 ≤ m.ly) (hx : 2 ≤ m.lx) {sw}
    (h : m.sweep = some sw) :
    (sw.map fun a => (a.1, a.2.1)).Nodup ∧
    ∀ p, p ∈ sw.map (fun a => (a.1, a.2.1)) ↔
      (∃ r < m.ly, ∃ c < bonds m.bc m.lx, p = ((r, c), (r, next m.bc m.lx c))) ∨
      (∃ r < bonds m.bc m.ly, ∃ c < m.lx, p = ((r, c), (next m.bc m.ly r, c))) := by
  have key : sw.map (fun a => (a.1, a.2.1)) =
      (((List.range m.lx).flatMap fun col => (List.range (bonds m.bc m.ly)).map fun row =>
        (row, col)).map fun s => (s, lowerSite m.bc m.ly s)) ++
      (((List.range (bonds m.bc m.lx)).flatMap fun col => (List.range m.ly).map fun row =>
        (row, col)).map fun s => (s, rightSite m.bc m.lx s)) := by
    have aux : ∀ (l : List Site) (f : Site → Option (Op2 𝕜)) (g : Site → Site) r,
        (l.mapM fun s => (f s).map fun h => (s, g s, h)) = some r →
        r.map (fun a => (a.1, a.2.1)) = l.map fun s => (s, g s) := by
      intro l f g
      induction l with
      | nil =>
        intro r hr
        simp only [List.mapM_nil] at hr
        cases hr; rfl
      | cons a l ih =>
        intro r hr
        rw [List.mapM_cons] at hr
        rcases hf : f a with _ | x
        · rw [hf] at hr; cases hr
        · rw [hf] at hr
          rcases hl : (l.mapM fun s => (f s).map fun h => (s, g s, h)) with _ | y
          · rw [hl] at hr; cases hr
          · rw [hl] at hr
            have : r = (a, g a, x) :: y := by cases hr; rfl
            rw [this, List.map_cons, List.map_cons, ih y hl]
    unfold NN.sweep at h
    simp only [bondLimit_eq] at h
    rcases hv : (((List.range m.lx).flatMap fun col => (List.range (bonds m.bc m.ly)).map fun row =>
      (row, col)).mapM fun s => (m.hamV s.1 s.2).map fun h => (s, lowerSite m.bc m.ly s, h))
      with _ | v
    · rw [hv] at h; cases h
    · rcases hh : (((List.range (bonds m.bc m.lx)).flatMap fun col => (List.range m.ly).map
        fun row => (row, col)).mapM fun s => (m.hamH s.1 s.2).map fun h =>
          (s, rightSite m.bc m.lx s, h)) with _ | w
      · rw [hv, hh] at h; cases h
      · rw [hv, hh] at h
        have : sw = v ++ w := by cases h; rfl
        rw [this, List.map_append,
          aux _ (fun s => m.hamV s.1 s.2) _ _ hv, aux _ (fun s => m.hamH s.1 s.2) _ _ hh]
  rw [key]
  constructor
  · rw [List.nodup_append]
    refine ⟨List.Nodup.map (fun a b e => (Prod.mk.inj e).1) (nodup_cells _ _),
      List.Nodup.map (fun a b e => (Prod.mk.inj e).1) (nodup_cells _ _), ?_⟩
    intro p hp q hq e
    rw [List.mem_map] at hp hq
    obtain ⟨⟨r, c⟩, h1, rfl⟩ := hp
    obtain ⟨⟨r', c'⟩, h2, rfl⟩ := hq
    rw [mem_cells] at h1 h2
    rw [lowerSite_eq h1.1, rightSite_eq h2.2] at e
    simp only [Prod.mk.injEq] at e
    exact next_ne hx (e.1.2.symm.trans e.2.2).symm
  · intro p
    rw [List.mem_append, List.mem_map, List.mem_map, or_comm]
    refine or_congr ?_ ?_
    · constructor
      · rintro ⟨⟨r, c⟩, h1, rfl⟩
        rw [mem_cells] at h1
        exact ⟨r, h1.1, c, h1.2, by rw [rightSite_eq h1.2]⟩
      · rintro ⟨r, hr, c, hc, rfl⟩
        exact ⟨(r, c), mem_cells.2 ⟨hr, hc⟩, by rw [rightSite_eq hc]⟩
    · constructor
      · rintro ⟨⟨r, c⟩, h1, rfl⟩
        rw [mem_cells] at h1
        exact ⟨r, h1.1, c, h1.2, by rw [lowerSite_eq h1.1]⟩
      · rintro ⟨r, hr, c, hc, rfl⟩
        exact ⟨(r, c), mem_cells.2 ⟨hr, hc⟩, by rw [lowerSite_eq hr]⟩

/-- **C84, disagreement.** On an open chain (one row) the on-site terms are underweighted: a site
with `d` bonds gets `d / (d + 1)` of its term — 2/3 inside, 1/2 at the ends. -/
theorem C84_chain_underweighted [CharZero 𝕜] (m : NN 𝕜) (o : ℕ → Op1 𝕜) (hbc : m.bc = .obc)
    (hy : m.ly = 1) (hx : 2 ≤ m.lx) (ho : ∀ c < m.lx, m.onsite 0 c = some (o c)) :
    ∃ sw, m.sweep = some sw ∧ ∀ σ τ,
      (sw.map fun a => on2 (lattice 1 m.lx) a.1 a.2.1 a.2.2 σ τ).sum =
        horizontal .obc 1 m.lx m.givenH σ τ +
          ∑ c ∈ range m.lx, (if c = 0 ∨ c + 1 = m.lx then (1 / 2 : 𝕜) else 2 / 3) *
            on1 (lattice 1 m.lx) (0, c) (o c) σ τ := by
  have hk : ∀ c < m.lx - 1, coordH .obc 1 m.lx 0 c =
      (deg .obc m.lx c + 1, deg .obc m.lx (c + 1) + 1) := by
    intro c hc
    have d1 := deg_obc (n := m.lx) (i := c) hx (by omega)
    have d2 := deg_obc (n := m.lx) (i := c + 1) hx (by omega)
    simp only [coordH, reduceCtorEq, if_false, true_or, if_true, Prod.mk.injEq]
    constructor <;> split_ifs <;> omega
  have hH : ∀ r < m.ly, ∀ c < bonds m.bc m.lx, m.hamH r c = some (bondHam (m.givenH r c)
      (1 / ((deg .obc m.lx c + 1 : ℕ) : 𝕜)) (o c)
      (1 / ((deg .obc m.lx (c + 1) + 1 : ℕ) : 𝕜)) (o (c + 1))) := by
    intro r hr c hc
    obtain rfl : r = 0 := by omega
    have hm := mod_len hc
    rw [hbc] at hc hm
    simp only [bonds, next] at hc hm
    simp only [NN.hamH, ho 0 (by omega), Option.isNone_some, Bool.false_eq_true, if_false, hm,
      ho c (by omega), ho (c + 1) (by omega), hbc, hy, hk c hc, NN.givenH]
  refine ⟨_, nn_sweep_eq _ (fun _ _ => fun _ _ _ _ => 0) hH ?_, fun σ τ => ?_⟩
  · intro r hr
    rw [hbc, hy] at hr
    simp [bonds] at hr
  · have hs := nn_sweep_sum (m := m) (fun r c => bondHam (m.givenH r c)
      (1 / ((deg .obc m.lx c + 1 : ℕ) : 𝕜)) (o c)
      (1 / ((deg .obc m.lx (c + 1) + 1 : ℕ) : 𝕜)) (o (c + 1))) (fun _ _ => fun _ _ _ _ => 0) σ τ
    rw [hy] at hs
    rw [hy]
    rw [hs, hbc]
    simp only [vertical, horizontal, bonds, next, sum_range_one, Nat.sub_self, sum_range_zero,
      zero_add]
    have h1 : ∀ c ∈ range (m.lx - 1), on2 (lattice 1 m.lx) (0, c) (0, c + 1)
        (bondHam (m.givenH 0 c) (1 / ((deg .obc m.lx c + 1 : ℕ) : 𝕜)) (o c)
          (1 / ((deg .obc m.lx (c + 1) + 1 : ℕ) : 𝕜)) (o (c + 1))) σ τ =
        on2 (lattice 1 m.lx) (0, c) (0, c + 1) (m.givenH 0 c) σ τ +
          (1 / ((deg .obc m.lx c + 1 : ℕ) : 𝕜) * on1 (lattice 1 m.lx) (0, c) (o c) σ τ +
          1 / ((deg .obc m.lx (c + 1) + 1 : ℕ) : 𝕜) *
            on1 (lattice 1 m.lx) (0, c + 1) (o (c + 1)) σ τ) := by
      intro c hc
      have := mem_range.1 hc
      rw [on2_bondHam _ (by simp) (mem_lattice.2 ⟨by omega, by omega⟩)
        (mem_lattice.2 ⟨by omega, by omega⟩), add_assoc]
    rw [sum_congr rfl h1, sum_add_distrib]
    congr 1
    have he := sum_ends (𝕜 := 𝕜) .obc hx fun c =>
      1 / ((deg .obc m.lx c + 1 : ℕ) : 𝕜) * on1 (lattice 1 m.lx) (0, c) (o c) σ τ
    simp only [bonds, next] at he
    rw [he]
    refine sum_congr rfl fun c hc => ?_
    have hc := mem_range.1 hc
    rcases deg_obc hx hc with ⟨h, e⟩ | ⟨h, h', e⟩ | ⟨h, h', e⟩
    · rw [e, if_pos (Or.inl h)]; push_cast; ring
    · rw [e, if_pos (Or.inr h)]; push_cast; ring
    · rw [e, if_neg (by omega)]; push_cast; ring

/-- non-vacuity: a 2 × 3 open lattice with on-site terms -/
example : ∃ (m : NN ℚ) (o : ℕ → ℕ → Op1 ℚ), 2 ≤ m.ly ∧ 2 ≤ m.lx ∧
    ∀ r < m.ly, ∀ c < m.lx, m.onsite r c = some (o r c) :=
  ⟨⟨.obc, 2, 3, false, fun _ _ _ _ => 1, fun _ _ _ _ _ _ => 0, fun _ _ _ _ _ _ => 0,
    fun _ _ => some fun i j => if i = j then 1 else 0⟩, fun _ _ i j => if i = j then 1 else 0,
    by simp, by simp, fun _ _ _ _ => rfl⟩

/-! ## C85: next-nearest-neighbour executor -/

/-- the symmetric part of a two-site operator -/
def symmetrised (h : Op2 𝕜) : Op2 𝕜 := fun a b c d => 1 / 2 * (h a b c d + h c d a b)

theorem on2_symm (Λ : Finset Site) (s t : Site) (h : Op2 𝕜) (σ τ : Site → ℕ) :
    on2 Λ s t (symmetrised h) σ τ = 1 / 2 * (on2 Λ s t h σ τ + on2 Λ t s h σ τ) := by
  rw [on2_comm Λ s t h]
  unfold on2 symmetrised swapped
  split_ifs <;> ring

/-- the embedded sum of one loop over plaquettes -/
theorem part_eq {m : NNN 𝕜} (t : Tri) (f : ℕ → ℕ → Op3 𝕜)
    (hf : ∀ r < bonds m.bc m.ly, ∀ c < bonds m.bc m.lx,
      m.triHam (cornerB m.bc m.ly m.lx r c t) t = some (f r c)) :
    ∃ p, m.part t = some p ∧ ∀ σ τ,
      (p.map fun a => on3 (lattice m.ly m.lx) a.1.1 a.1.2.1 a.1.2.2 a.2 σ τ).sum =
        ∑ r ∈ range (bonds m.bc m.ly), ∑ c ∈ range (bonds m.bc m.lx),
          on3 (lattice m.ly m.lx)
            (projSites m.bc m.ly m.lx (callSite m.bc m.lx r c t) t).1
            (projSites m.bc m.ly m.lx (callSite m.bc m.lx r c t) t).2.1
            (projSites m.bc m.ly m.lx (callSite m.bc m.lx r c t) t).2.2 (f r c) σ τ := by
  unfold NNN.part
  simp only [bondLimit_eq]
  refine ⟨_, mapM_eq_map _ _ (fun s : ℕ × ℕ =>
    (projSites m.bc m.ly m.lx (callSite m.bc m.lx s.1 s.2 t) t, f s.1 s.2)) ?_, ?_⟩
  · intro s hs
    rw [mem_cells] at hs
    rw [hf _ hs.1 _ hs.2]; rfl
  · intro σ τ
    rw [List.map_map, sum_grid]
    rfl

/-- sum of the four parts -/
theorem nnn_sweep_eq {m : NNN 𝕜} {a b c d}
    (ha : m.part .upperRight = some a) (hb : m.part .lowerRight = some b)
    (hc : m.part .lowerLeft = some c) (hd : m.part .upperLeft = some d) :
    m.sweep = some (a ++ b ++ c ++ d) := by
  unfold NNN.sweep
  rw [ha, hb, hc, hd]; rfl

/-- the two-site terms of the four triangles of a plaquette, over all plaquettes -/
theorem bonds_total [CharZero 𝕜] (bc : BC) {ly lx : ℕ} (hy : 2 ≤ ly) (hx : 2 ≤ lx)
    (H V : ℕ → ℕ → 𝕜) (H' : ℕ → ℕ → 𝕜) (D : ℕ → ℕ → 𝕜) (D' : ℕ → ℕ → 𝕜) :
    ∑ r ∈ range (bonds bc ly), ∑ c ∈ range (bonds bc lx),
      ((1 / 2 * D r c + 1 / ((2 * deg bc ly r : ℕ) : 𝕜) * H r c +
          1 / ((2 * deg bc lx (next bc lx c) : ℕ) : 𝕜) * V r (next bc lx c)) +
       (1 / 2 * D' r c + 1 / ((2 * deg bc ly (next bc ly r) : ℕ) : 𝕜) * H' (next bc ly r) c +
          1 / ((2 * deg bc lx (next bc lx c) : ℕ) : 𝕜) * V r (next bc lx c)) +
       (1 / 2 * D r c + 1 / ((2 * deg bc ly (next bc ly r) : ℕ) : 𝕜) * H (next bc ly r) c +
          1 / ((2 * deg bc lx c : ℕ) : 𝕜) * V r c) +
       (1 / 2 * D' r c + 1 / ((2 * deg bc ly r : ℕ) : 𝕜) * H' r c +
          1 / ((2 * deg bc lx c : ℕ) : 𝕜) * V r c)) =
    ∑ r ∈ range ly, ∑ c ∈ range (bonds bc lx), 1 / 2 * (H r c + H' r c) +
      ∑ r ∈ range (bonds bc ly), ∑ c ∈ range lx, V r c +
      ∑ r ∈ range (bonds bc ly), ∑ c ∈ range (bonds bc lx), (D r c + D' r c) := by
  have h1 := row_total (𝕜 := 𝕜) bc hy (bonds bc lx) H
  have h2 := row_total (𝕜 := 𝕜) bc hy (bonds bc lx) H'
  have h3 := col_total (𝕜 := 𝕜) bc hx (bonds bc ly) V
  have e3 : ∑ r ∈ range (bonds bc ly), ∑ c ∈ range lx, V r c =
      2 * ∑ r ∈ range (bonds bc ly), ∑ c ∈ range lx, 1 / 2 * V r c := by
    simp only [← mul_sum]; ring
  have e12 : ∑ r ∈ range ly, ∑ c ∈ range (bonds bc lx), 1 / 2 * (H r c + H' r c) =
      ∑ r ∈ range ly, ∑ c ∈ range (bonds bc lx), 1 / 2 * H r c +
      ∑ r ∈ range ly, ∑ c ∈ range (bonds bc lx), 1 / 2 * H' r c := by
    simp only [mul_add, sum_add_distrib]
  rw [e12, e3, ← h1, ← h2, ← h3, mul_sum, ← sum_add_distrib, ← sum_add_distrib,
    ← sum_add_distrib]
  refine sum_congr rfl fun r _ => ?_
  rw [mul_sum, ← sum_add_distrib, ← sum_add_distrib, ← sum_add_distrib]
  refine sum_congr rfl fun c _ => ?_
  ring

section Plaquette

variable {bc : BC} {ly lx r c : ℕ}

theorem plaq_mem (hr : r < bonds bc ly) (hc : c < bonds bc lx) :
    (r, c) ∈ lattice ly lx ∧ (r, next bc lx c) ∈ lattice ly lx ∧
      (next bc ly r, c) ∈ lattice ly lx ∧ (next bc ly r, next bc lx c) ∈ lattice ly lx :=
  ⟨mem_lattice.2 ⟨lt_of_bonds hr, lt_of_bonds hc⟩, mem_lattice.2 ⟨lt_of_bonds hr, next_lt hc⟩,
    mem_lattice.2 ⟨next_lt hr, lt_of_bonds hc⟩, mem_lattice.2 ⟨next_lt hr, next_lt hc⟩⟩

theorem ne_row (hy : 2 ≤ ly) {c c' : ℕ} : (r, c) ≠ (next bc ly r, c') :=
  fun e => next_ne hy (Prod.mk.inj e).1.symm

theorem ne_col (hx : 2 ≤ lx) {r r' : ℕ} : (r, c) ≠ (r', next bc lx c) :=
  fun e => next_ne hx (Prod.mk.inj e).2.symm

variable (nn nnn : Op2 𝕜) (σ τ : Site → ℕ)

theorem bonds_ur (hy : 2 ≤ ly) (hx : 2 ≤ lx) (hr : r < bonds bc ly) (hc : c < bonds bc lx) :
    on3 (lattice ly lx) (r, c) (r, next bc lx c) (next bc ly r, next bc lx c)
      (triBonds nn nnn (bondTri bc ly lx (cornerB bc ly lx r c .upperRight) .upperRight)
        .upperRight) σ τ =
      1 / 2 * on2 (lattice ly lx) (r, c) (next bc ly r, next bc lx c) nnn σ τ +
      1 / ((2 * deg bc ly r : ℕ) : 𝕜) *
        on2 (lattice ly lx) (r, c) (r, next bc lx c) nn σ τ +
      1 / ((2 * deg bc lx (next bc lx c) : ℕ) : 𝕜) *
        on2 (lattice ly lx) (r, next bc lx c) (next bc ly r, next bc lx c) nn σ τ := by
  obtain ⟨m1, m2, m3, m4⟩ := plaq_mem hr hc
  rw [on3_upper _ (ne_col hx) (ne_row hy) (ne_row hy) m1 m2 m4 _ _ _ _ (Or.inr rfl),
    bondTri_ur hr hc]

theorem bonds_ul (hy : 2 ≤ ly) (hx : 2 ≤ lx) (hr : r < bonds bc ly) (hc : c < bonds bc lx) :
    on3 (lattice ly lx) (r, next bc lx c) (r, c) (next bc ly r, c)
      (triBonds nn nnn (bondTri bc ly lx (cornerB bc ly lx r c .upperLeft) .upperLeft)
        .upperLeft) σ τ =
      1 / 2 * on2 (lattice ly lx) (r, next bc lx c) (next bc ly r, c) nnn σ τ +
      1 / ((2 * deg bc ly r : ℕ) : 𝕜) *
        on2 (lattice ly lx) (r, next bc lx c) (r, c) nn σ τ +
      1 / ((2 * deg bc lx c : ℕ) : 𝕜) *
        on2 (lattice ly lx) (r, c) (next bc ly r, c) nn σ τ := by
  obtain ⟨m1, m2, m3, m4⟩ := plaq_mem hr hc
  rw [on3_upper _ (ne_col hx).symm (ne_row hy) (ne_row hy) m2 m1 m3 _ _ _ _ (Or.inl rfl),
    bondTri_ul hr hc]

theorem bonds_lr (hy : 2 ≤ ly) (hx : 2 ≤ lx) (hr : r < bonds bc ly) (hc : c < bonds bc lx) :
    on3 (lattice ly lx) (r, next bc lx c) (next bc ly r, next bc lx c) (next bc ly r, c)
      (triBonds nn nnn (bondTri bc ly lx (cornerB bc ly lx r c .lowerRight) .lowerRight)
        .lowerRight) σ τ =
      1 / 2 * on2 (lattice ly lx) (r, next bc lx c) (next bc ly r, c) nnn σ τ +
      1 / ((2 * deg bc ly (next bc ly r) : ℕ) : 𝕜) *
        on2 (lattice ly lx) (next bc ly r, next bc lx c) (next bc ly r, c) nn σ τ +
      1 / ((2 * deg bc lx (next bc lx c) : ℕ) : 𝕜) *
        on2 (lattice ly lx) (r, next bc lx c) (next bc ly r, next bc lx c) nn σ τ := by
  obtain ⟨m1, m2, m3, m4⟩ := plaq_mem hr hc
  rw [on3_lower _ (ne_row hy) (ne_row hy) (ne_col hx).symm m2 m4 m3 _ _ _ _ (Or.inr rfl),
    bondTri_lr hr hc]

theorem bonds_ll (hy : 2 ≤ ly) (hx : 2 ≤ lx) (hr : r < bonds bc ly) (hc : c < bonds bc lx) :
    on3 (lattice ly lx) (r, c) (next bc ly r, c) (next bc ly r, next bc lx c)
      (triBonds nn nnn (bondTri bc ly lx (cornerB bc ly lx r c .lowerLeft) .lowerLeft)
        .lowerLeft) σ τ =
      1 / 2 * on2 (lattice ly lx) (r, c) (next bc ly r, next bc lx c) nnn σ τ +
      1 / ((2 * deg bc ly (next bc ly r) : ℕ) : 𝕜) *
        on2 (lattice ly lx) (next bc ly r, c) (next bc ly r, next bc lx c) nn σ τ +
      1 / ((2 * deg bc lx c : ℕ) : 𝕜) *
        on2 (lattice ly lx) (r, c) (next bc ly r, c) nn σ τ := by
  obtain ⟨m1, m2, m3, m4⟩ := plaq_mem hr hc
  rw [on3_lower _ (ne_row hy) (ne_row hy) (ne_col hx) m1 m3 m4 _ _ _ _ (Or.inl rfl),
    bondTri_ll hr hc]

end Plaquette

/-- the two-site part of the Hamiltonian the sweep realises: horizontal terms enter symmetrised -/
theorem bonds_sum [CharZero 𝕜] {bc : BC} {ly lx : ℕ} (hy : 2 ≤ ly) (hx : 2 ≤ lx)
    (nn nnn : Op2 𝕜) (σ τ : Site → ℕ) :
    ∑ r ∈ range (bonds bc ly), ∑ c ∈ range (bonds bc lx),
      (on3 (lattice ly lx) (r, c) (r, next bc lx c) (next bc ly r, next bc lx c)
        (triBonds nn nnn (bondTri bc ly lx (cornerB bc ly lx r c .upperRight) .upperRight)
          .upperRight) σ τ +
       on3 (lattice ly lx) (r, next bc lx c) (next bc ly r, next bc lx c) (next bc ly r, c)
        (triBonds nn nnn (bondTri bc ly lx (cornerB bc ly lx r c .lowerRight) .lowerRight)
          .lowerRight) σ τ +
       on3 (lattice ly lx) (r, c) (next bc ly r, c) (next bc ly r, next bc lx c)
        (triBonds nn nnn (bondTri bc ly lx (cornerB bc ly lx r c .lowerLeft) .lowerLeft)
          .lowerLeft) σ τ +
       on3 (lattice ly lx) (r, next bc lx c) (r, c) (next bc ly r, c)
        (triBonds nn nnn (bondTri bc ly lx (cornerB bc ly lx r c .upperLeft) .upperLeft)
          .upperLeft) σ τ) =
    horizontal bc ly lx (fun _ _ => symmetrised nn) σ τ + vertical bc ly lx (fun _ _ => nn) σ τ +
      diagonals bc ly lx nnn σ τ := by
  have h := bonds_total (𝕜 := 𝕜) bc hy hx
    (fun r c => on2 (lattice ly lx) (r, c) (r, next bc lx c) nn σ τ)
    (fun r c => on2 (lattice ly lx) (r, c) (next bc ly r, c) nn σ τ)
    (fun r c => on2 (lattice ly lx) (r, next bc lx c) (r, c) nn σ τ)
    (fun r c => on2 (lattice ly lx) (r, c) (next bc ly r, next bc lx c) nnn σ τ)
    (fun r c => on2 (lattice ly lx) (r, next bc lx c) (next bc ly r, c) nnn σ τ)
  simp only [horizontal, vertical, diagonals, on2_symm]
  rw [← h]
  refine sum_congr rfl fun r hr => sum_congr rfl fun c hc => ?_
  have hr' := mem_range.1 hr
  have hc' := mem_range.1 hc
  rw [bonds_ur nn nnn σ τ hy hx hr' hc', bonds_lr nn nnn σ τ hy hx hr' hc',
    bonds_ll nn nnn σ τ hy hx hr' hc', bonds_ul nn nnn σ τ hy hx hr' hc']

/-- **C85.** Without on-site terms the triangle Hamiltonians of one sweep add up to: both
diagonals of every plaquette once, every vertical bond once, every horizontal bond once with the
symmetric part of the two-site term. -/
theorem C85_sweep_without_onsite [CharZero 𝕜] (m : NNN 𝕜) (hy : 2 ≤ m.ly) (hx : 2 ≤ m.lx)
    (h0 : m.onsite 0 0 = none) :
    ∃ sw, m.sweep = some sw ∧ ∀ σ τ,
      (sw.map fun a => on3 (lattice m.ly m.lx) a.1.1 a.1.2.1 a.1.2.2 a.2 σ τ).sum =
        horizontal m.bc m.ly m.lx (fun _ _ => symmetrised m.nn) σ τ +
          vertical m.bc m.ly m.lx (fun _ _ => m.nn) σ τ + diagonals m.bc m.ly m.lx m.nnn σ τ := by
  have hf : ∀ t, ∀ r < bonds m.bc m.ly, ∀ c < bonds m.bc m.lx,
      m.triHam (cornerB m.bc m.ly m.lx r c t) t = some (triBonds m.nn m.nnn
        (bondTri m.bc m.ly m.lx (cornerB m.bc m.ly m.lx r c t) t) t) := by
    intro t r _ c _
    simp only [NNN.triHam, h0, Option.isNone_none, if_true]
  obtain ⟨a, ha, sa⟩ := part_eq .upperRight _ (hf .upperRight)
  obtain ⟨b, hb, sb⟩ := part_eq .lowerRight _ (hf .lowerRight)
  obtain ⟨c, hc, sc⟩ := part_eq .lowerLeft _ (hf .lowerLeft)
  obtain ⟨d, hd, sd⟩ := part_eq .upperLeft _ (hf .upperLeft)
  refine ⟨_, nnn_sweep_eq ha hb hc hd, fun σ τ => ?_⟩
  rw [List.map_append, List.map_append, List.map_append, List.sum_append, List.sum_append,
    List.sum_append, sa, sb, sc, sd, ← bonds_sum hy hx, ← sum_add_distrib, ← sum_add_distrib,
    ← sum_add_distrib]
  refine sum_congr rfl fun r hr => ?_
  rw [← sum_add_distrib, ← sum_add_distrib, ← sum_add_distrib]
  refine sum_congr rfl fun c hc => ?_
  have hr' := mem_range.1 hr
  have hc' := mem_range.1 hc
  rw [proj_ur hr' hc', proj_lr hr' hc', proj_ll hr' hc', proj_ul hr' hc']

/-- **C85, corollary.** Without on-site terms and with a two-site term symmetric under exchange of
its sites, the sweep realises exactly the nearest- plus next-nearest-neighbour Hamiltonian. -/
theorem C85_sweep_adds_up_partial [CharZero 𝕜] (m : NNN 𝕜) (hy : 2 ≤ m.ly) (hx : 2 ≤ m.lx)
    (h0 : m.onsite 0 0 = none) (hs : ∀ a b c d, m.nn a b c d = m.nn c d a b) :
    ∃ sw, m.sweep = some sw ∧ ∀ σ τ,
      (sw.map fun a => on3 (lattice m.ly m.lx) a.1.1 a.1.2.1 a.1.2.2 a.2 σ τ).sum =
        horizontal m.bc m.ly m.lx (fun _ _ => m.nn) σ τ +
          vertical m.bc m.ly m.lx (fun _ _ => m.nn) σ τ + diagonals m.bc m.ly m.lx m.nnn σ τ := by
  have : symmetrised m.nn = m.nn := by
    funext a b c d
    rw [symmetrised, ← hs a b c d]
    ring
  simpa only [this] using C85_sweep_without_onsite m hy hx h0

/-- **C85, general form.** With on-site terms everywhere: besides the above, every on-site term
appears once, up to an error: in the lower-left triangle of every plaquette the on-site term (and
its weight) of the upper right corner is applied to the lower right corner, in place of that
corner's own term. -/
theorem C85_sweep_with_onsite [CharZero 𝕜] (m : NNN 𝕜) (o : ℕ → ℕ → Op1 𝕜) (hy : 2 ≤ m.ly)
    (hx : 2 ≤ m.lx) (ho : ∀ r < m.ly, ∀ c < m.lx, m.onsite r c = some (o r c)) :
    ∃ sw, m.sweep = some sw ∧ ∀ σ τ,
      (sw.map fun a => on3 (lattice m.ly m.lx) a.1.1 a.1.2.1 a.1.2.2 a.2 σ τ).sum =
        horizontal m.bc m.ly m.lx (fun _ _ => symmetrised m.nn) σ τ +
          vertical m.bc m.ly m.lx (fun _ _ => m.nn) σ τ + diagonals m.bc m.ly m.lx m.nnn σ τ +
          onSite m.ly m.lx o σ τ +
        ∑ r ∈ range (bonds m.bc m.ly), ∑ c ∈ range (bonds m.bc m.lx),
          (1 / ((3 * plaquettesAt m.bc m.ly m.lx r (next m.bc m.lx c) : ℕ) : 𝕜) *
              on1 (lattice m.ly m.lx) (next m.bc m.ly r, next m.bc m.lx c)
                (o r (next m.bc m.lx c)) σ τ -
           1 / ((3 * plaquettesAt m.bc m.ly m.lx (next m.bc m.ly r) (next m.bc m.lx c) : ℕ) : 𝕜) *
              on1 (lattice m.ly m.lx) (next m.bc m.ly r, next m.bc m.lx c)
                (o (next m.bc m.ly r) (next m.bc m.lx c)) σ τ) := by
  have hf : ∀ t, ∀ r c, ∀ s : Site × Site × Site,
      triSite m.bc m.ly m.lx (cornerB m.bc m.ly m.lx r c t) t = s →
      s.1 ∈ lattice m.ly m.lx → s.2.1 ∈ lattice m.ly m.lx → s.2.2 ∈ lattice m.ly m.lx →
      m.triHam (cornerB m.bc m.ly m.lx r c t) t = some fun iA jA iB jB iC jC =>
        triBonds m.nn m.nnn (bondTri m.bc m.ly m.lx (cornerB m.bc m.ly m.lx r c t) t) t
          iA jA iB jB iC jC
        + o s.1.1 s.1.2 iA jA * ident iB jB * ident iC jC *
            (1 / (siteTri m.bc m.ly m.lx s.1 : 𝕜))
        + ident iA jA * o s.2.1.1 s.2.1.2 iB jB * ident iC jC *
            (1 / (siteTri m.bc m.ly m.lx s.2.1 : 𝕜))
        + ident iA jA * ident iB jB * o s.2.2.1 s.2.2.2 iC jC *
            (1 / (siteTri m.bc m.ly m.lx s.2.2 : 𝕜)) := by
    intro t r c s hs h1 h2 h3
    have q1 := mem_lattice.1 h1
    have q2 := mem_lattice.1 h2
    have q3 := mem_lattice.1 h3
    simp only [NNN.triHam, ho 0 (by omega) 0 (by omega), Option.isNone_some, Bool.false_eq_true,
      if_false, hs, ho _ q1.1 _ q1.2, ho _ q2.1 _ q2.2, ho _ q3.1 _ q3.2]
  obtain ⟨a, ha, sa⟩ := part_eq .upperRight _ fun r hr c hc =>
    hf .upperRight r c _ (tri_ur hr hc) (plaq_mem hr hc).1 (plaq_mem hr hc).2.1
      (plaq_mem hr hc).2.2.2
  obtain ⟨b, hb, sb⟩ := part_eq .lowerRight _ fun r hr c hc =>
    hf .lowerRight r c _ (tri_lr hr hc) (plaq_mem hr hc).2.1 (plaq_mem hr hc).2.2.2
      (plaq_mem hr hc).2.2.1
  obtain ⟨c, hc, sc⟩ := part_eq .lowerLeft _ fun r hr c hc =>
    hf .lowerLeft r c _ (tri_ll hr hc) (plaq_mem hr hc).1 (plaq_mem hr hc).2.2.1
      (plaq_mem hr hc).2.1
  obtain ⟨d, hd, sd⟩ := part_eq .upperLeft _ fun r hr c hc =>
    hf .upperLeft r c _ (tri_ul hr hc) (plaq_mem hr hc).2.1 (plaq_mem hr hc).1
      (plaq_mem hr hc).2.2.1
  refine ⟨_, nnn_sweep_eq ha hb hc hd, fun σ τ => ?_⟩
  have hsite := site_total (𝕜 := 𝕜) m.bc hy hx
    (fun r c => on1 (lattice m.ly m.lx) (r, c) (o r c) σ τ)
  rw [List.map_append, List.map_append, List.map_append, List.sum_append, List.sum_append,
    List.sum_append, sa, sb, sc, sd, ← bonds_sum hy hx, onSite, ← hsite, ← sum_add_distrib,
    ← sum_add_distrib, ← sum_add_distrib, ← sum_add_distrib, ← sum_add_distrib]
  refine sum_congr rfl fun r hr => ?_
  rw [← sum_add_distrib, ← sum_add_distrib, ← sum_add_distrib, ← sum_add_distrib,
    ← sum_add_distrib]
  refine sum_congr rfl fun c hc => ?_
  have hr' := mem_range.1 hr
  have hc' := mem_range.1 hc
  obtain ⟨m1, m2, m3, m4⟩ := plaq_mem hr' hc'
  rw [proj_ur hr' hc', proj_lr hr' hc', proj_ll hr' hc', proj_ul hr' hc',
    on3_withSites _ (ne_col hx) (ne_row hy) (ne_row hy) m1 m2 m4,
    on3_withSites _ (ne_row hy) (ne_row hy) (ne_col hx).symm m2 m4 m3,
    on3_withSites _ (ne_row hy) (ne_row hy) (ne_col hx) m1 m3 m4,
    on3_withSites _ (ne_col hx).symm (ne_row hy) (ne_row hy) m2 m1 m3]
  simp only [plaquettesAt, ← siteTri_eq hy hx (lt_of_bonds hr') (next_lt hc'),
    ← siteTri_eq hy hx (next_lt hr') (next_lt hc')]
  ring

/-- **C85, corollary.** On a torus with the same on-site term on every site the error vanishes. -/
theorem C85_torus_uniform_onsite [CharZero 𝕜] (m : NNN 𝕜) (o : Op1 𝕜) (hbc : m.bc = .pbc)
    (hy : 2 ≤ m.ly) (hx : 2 ≤ m.lx) (ho : ∀ r < m.ly, ∀ c < m.lx, m.onsite r c = some o)
    (hs : ∀ a b c d, m.nn a b c d = m.nn c d a b) :
    ∃ sw, m.sweep = some sw ∧ ∀ σ τ,
      (sw.map fun a => on3 (lattice m.ly m.lx) a.1.1 a.1.2.1 a.1.2.2 a.2 σ τ).sum =
        horizontal m.bc m.ly m.lx (fun _ _ => m.nn) σ τ +
          vertical m.bc m.ly m.lx (fun _ _ => m.nn) σ τ + diagonals m.bc m.ly m.lx m.nnn σ τ +
          onSite m.ly m.lx (fun _ _ => o) σ τ := by
  obtain ⟨sw, h, hsum⟩ := C85_sweep_with_onsite m (fun _ _ => o) hy hx ho
  refine ⟨sw, h, fun σ τ => ?_⟩
  have : symmetrised m.nn = m.nn := by
    funext a b c d
    rw [symmetrised, ← hs a b c d]
    ring
  rw [hsum, this, add_eq_left]
  refine sum_eq_zero fun r _ => sum_eq_zero fun c _ => ?_
  simp only [plaquettesAt, deg, hbc, sub_self]

/-- **C85, disagreement.** On every open lattice with at least three rows and two columns a uniform
on-site term is not realised: there is an on-site term and a configuration at which the sum of the
sweep's Hamiltonians exceeds the Hamiltonian's diagonal entry by 1/6 (the right-edge site of the
second row is weighted 7/6). -/
theorem C85_open_onsite_misweighted [CharZero 𝕜] (ly lx : ℕ) (hy : 3 ≤ ly) (hx : 2 ≤ lx)
    (nn nnn : Op2 𝕜) (hs : ∀ a b c d, nn a b c d = nn c d a b) :
    ∃ (o : Op1 𝕜) (sw : List ((Site × Site × Site) × Op3 𝕜)) (σ : Site → ℕ),
      (NNN.mk .obc ly lx nn nnn fun _ _ => some o).sweep = some sw ∧
      (sw.map fun a => on3 (lattice ly lx) a.1.1 a.1.2.1 a.1.2.2 a.2 σ σ).sum =
        horizontal .obc ly lx (fun _ _ => nn) σ σ + vertical .obc ly lx (fun _ _ => nn) σ σ +
          diagonals .obc ly lx nnn σ σ + onSite ly lx (fun _ _ => o) σ σ + 1 / 6 := by
  let o : Op1 𝕜 := fun i j => if i = 1 ∧ j = 1 then 1 else 0
  let σ : Site → ℕ := fun s => if s = (1, lx - 1) then 1 else 0
  obtain ⟨sw, h, hsum⟩ := C85_sweep_with_onsite (NNN.mk .obc ly lx nn nnn fun _ _ => some o)
    (fun _ _ => o) (by simpa using (by omega : 2 ≤ ly)) (by simpa using hx) fun _ _ _ _ => rfl
  have : symmetrised nn = nn := by
    funext a b c d
    rw [symmetrised, ← hs a b c d]
    ring
  refine ⟨o, sw, σ, h, ?_⟩
  have hσ : ∀ s, on1 (lattice ly lx) s o σ σ = if s = (1, lx - 1) then 1 else 0 := by
    intro s
    unfold on1
    rw [if_pos fun _ _ _ => rfl]
    by_cases e : s = (1, lx - 1)
    · simp [o, σ, e]
    · simp [o, σ, e]
  have e := hsum σ σ
  dsimp only at e
  rw [this] at e
  rw [e]
  congr 1
  simp only [bonds, next, hσ, Prod.mk.injEq, plaquettesAt]
  rw [sum_eq_single 0, sum_eq_single (lx - 2)]
  · have d0 := deg_obc (n := ly) (i := 0) (by omega) (by omega)
    have d1 := deg_obc (n := ly) (i := 1) (by omega) (by omega)
    have d2 := deg_obc (n := lx) (i := lx - 2 + 1) hx (by omega)
    have e0 : deg .obc ly 0 = 1 := by omega
    have e1 : deg .obc ly (0 + 1) = 2 := by rw [zero_add]; omega
    have e2 : deg .obc lx (lx - 2 + 1) = 1 := by omega
    rw [e0, e1, e2, if_pos ⟨rfl, by omega⟩]
    norm_num
  · intro c _ hc
    rw [if_neg (by omega)]; ring
  · intro hn
    exact absurd (mem_range.2 (by omega)) hn
  · intro r _ hr
    refine sum_eq_zero fun c _ => ?_
    rw [if_neg (by omega)]; ring
  · intro hn
    exact absurd (mem_range.2 (by omega)) hn

/-- non-vacuity of the hypotheses on the two-site term: a symmetric one and a lattice -/
example : ∃ m : NNN ℚ, 2 ≤ m.ly ∧ 2 ≤ m.lx ∧ m.onsite 0 0 = none ∧
    (∀ a b c d, m.nn a b c d = m.nn c d a b) ∧ m.nn 1 1 0 0 ≠ 0 :=
  ⟨⟨.obc, 3, 3, fun a b c d => (if a = b then 1 else 0) * (if c = d then 1 else 0),
    fun _ _ _ _ => 2, fun _ _ => none⟩, by simp, by simp, rfl, fun a b c d => mul_comm _ _,
    by simp⟩

/-! ## C86: triangular-lattice executor -/

theorem sum_list_range {β : Type*} [AddCommMonoid β] (n : ℕ) (f : ℕ → β) :
    ((List.range n).map f).sum = ∑ i ∈ range n, f i := rfl

theorem sum_flatMap_range {α β : Type*} [AddCommMonoid β] (n : ℕ) (g : ℕ → List α) (f : α → β) :
    (((List.range n).flatMap g).map f).sum = ∑ i ∈ range n, ((g i).map f).sum := by
  rw [← sum_list_range]
  generalize List.range n = l
  induction l with
  | nil => rfl
  | cons a l ih => rw [List.flatMap_cons, List.map_append, List.sum_append, ih]; rfl

/-- **C86.** Each of the two half sweeps acts on every bond of the open triangular lattice exactly
once and on nothing else, whatever the boundary condition of the PEPS. -/
theorem C86_half_sweeps_cover (bc : BC) (ly lx : ℕ) (hy : 1 ≤ ly) (hx : 1 ≤ lx) :
    ((triHalfA bc ly lx).map actBonds).sum = triangularBonds ly lx ∧
    ((triHalfB bc ly lx).map actBonds).sum = triangularBonds ly lx := by
  obtain ⟨y, rfl⟩ : ∃ y, ly = y + 1 := ⟨ly - 1, by omega⟩
  obtain ⟨x, rfl⟩ : ∃ x, lx = x + 1 := ⟨lx - 1, by omega⟩
  have hb : ∀ {n i : ℕ}, i < n → i < bonds bc (n + 1) := by
    intro n i h; cases bc <;> simp only [bonds] <;> omega
  have hn : ∀ {n i : ℕ}, i < n → next bc (n + 1) i = i + 1 := by
    intro n i h
    cases bc
    · rfl
    · simp only [next]; rw [if_neg (by omega)]
  have hv : ∀ {i c}, i < y → lowerSite bc (y + 1) (i, c) = (i + 1, c) := by
    intro i c h; rw [lowerSite_eq (hb h), hn h]
  have hh : ∀ {r i}, i < x → rightSite bc (x + 1) (r, i) = (r, i + 1) := by
    intro r i h; rw [rightSite_eq (hb h), hn h]
  have hlr : ∀ {r c}, r < y → c < x → projSites bc (y + 1) (x + 1) (r, c + 1) .lowerRight =
      ((r, c + 1), (r + 1, c + 1), (r + 1, c)) := by
    intro r c h1 h2
    have := proj_lr (bc := bc) (hb h1) (hb h2)
    simp only [callSite, mod_lam (hb h2), hn h2, hn h1] at this
    exact this
  have hul : ∀ {r c}, r < y → c < x → projSites bc (y + 1) (x + 1) (r, c) .upperLeft =
      ((r, c + 1), (r, c), (r + 1, c)) := by
    intro r c h1 h2
    have := proj_ul (bc := bc) (hb h1) (hb h2)
    simp only [callSite, hn h2, hn h1] at this
    exact this
  constructor
  · simp only [triHalfA, triangularBonds, Nat.add_sub_cancel]
    rw [List.map_append, List.sum_append, List.map_map, sum_list_range, sum_flatMap_range]
    have e1 : ∑ i ∈ range y, (actBonds ∘ fun row => TriAct.nn (row, 0)
        (lowerSite bc (y + 1) (row, 0))) i = ∑ r ∈ range y, {s((r, 0), (r + 1, 0))} := by
      refine sum_congr rfl fun r hr => ?_
      simp only [Function.comp_apply, actBonds, hv (mem_range.1 hr)]
    have e2 : ∑ i ∈ range x, (List.map actBonds (TriAct.nn (0, i) (rightSite bc (x + 1) (0, i)) ::
        List.map (fun row => TriAct.tri (projSites bc (y + 1) (x + 1) (row, i + 1) .lowerRight).1
          (projSites bc (y + 1) (x + 1) (row, i + 1) .lowerRight).2.1
          (projSites bc (y + 1) (x + 1) (row, i + 1) .lowerRight).2.2) (List.range y))).sum =
        ∑ c ∈ range x, ({s((0, c), (0, c + 1))} + ∑ r ∈ range y,
          (({s((r, c + 1), (r + 1, c + 1))} : Multiset (Sym2 Site)) +
            {s((r + 1, c), (r + 1, c + 1))} + {s((r, c + 1), (r + 1, c))})) := by
      refine sum_congr rfl fun c hc => ?_
      rw [List.map_cons, List.sum_cons, List.map_map, sum_list_range]
      congr 1
      · simp only [actBonds, hh (mem_range.1 hc)]
      · refine sum_congr rfl fun r hr => ?_
        simp only [Function.comp_apply, hlr (mem_range.1 hr) (mem_range.1 hc), actBonds]
        rw [Sym2.eq_swap (a := (r + 1, c + 1)) (b := (r + 1, c))]
    rw [e1, e2]
    simp only [sum_add_distrib]
    rw [sum_range_succ (n := y), sum_comm (s := range x) (t := range y),
      sum_comm (s := range x) (t := range y), sum_comm (s := range x) (t := range y)]
    rw [← sum_range_succ (fun r => ∑ c ∈ range x, ({s((r, c), (r, c + 1))} :
      Multiset (Sym2 Site))), sum_range_succ' (n := y)]
    simp only [sum_range_succ' (n := x) (f := fun c => ({s((_, c), (_ + 1, c))} :
      Multiset (Sym2 Site))), sum_add_distrib]
    abel
  · simp only [triHalfB, triangularBonds, Nat.add_sub_cancel]
    rw [List.map_append, List.sum_append, sum_flatMap_range, List.map_map, sum_list_range]
    have e1 : ∑ i ∈ range y, (actBonds ∘ fun row => TriAct.nn (row, x)
        (lowerSite bc (y + 1) (row, x))) i = ∑ r ∈ range y, {s((r, x), (r + 1, x))} := by
      refine sum_congr rfl fun r hr => ?_
      simp only [Function.comp_apply, actBonds, hv (mem_range.1 hr)]
    have e2 : ∑ i ∈ range x, (List.map actBonds (List.map (fun row => TriAct.tri
          (projSites bc (y + 1) (x + 1) (row, i) .upperLeft).1
          (projSites bc (y + 1) (x + 1) (row, i) .upperLeft).2.1
          (projSites bc (y + 1) (x + 1) (row, i) .upperLeft).2.2) (List.range y) ++
          [TriAct.nn (y, i) (rightSite bc (x + 1) (y, i))])).sum =
        ∑ c ∈ range x, (∑ r ∈ range y,
          (({s((r, c), (r, c + 1))} : Multiset (Sym2 Site)) +
            {s((r, c), (r + 1, c))} + {s((r, c + 1), (r + 1, c))}) +
          {s((y, c), (y, c + 1))}) := by
      refine sum_congr rfl fun c hc => ?_
      rw [List.map_append, List.sum_append, List.map_map, sum_list_range]
      congr 1
      · refine sum_congr rfl fun r hr => ?_
        simp only [Function.comp_apply, hul (mem_range.1 hr) (mem_range.1 hc), actBonds]
        rw [Sym2.eq_swap (a := (r, c + 1)) (b := (r, c))]
      · simp only [List.map_cons, List.map_nil, List.sum_cons, List.sum_nil, add_zero, actBonds,
          hh (mem_range.1 hc)]
    rw [e1, e2]
    simp only [sum_add_distrib]
    rw [sum_comm (s := range x) (t := range y), sum_comm (s := range x) (t := range y),
      sum_comm (s := range x) (t := range y), sum_range_succ (n := y)]
    simp only [sum_range_succ (n := x) (f := fun c => ({s((_, c), (_ + 1, c))} :
      Multiset (Sym2 Site))), sum_add_distrib]
    abel

/-- **C86, disagreement.** On a periodic PEPS the bonds that close the torus are never updated: no
projection of either half sweep joins the last column to the first, nor the last row to the first
(three or more columns, rows). -/
theorem C86_wrap_bonds_never_updated (ly lx : ℕ) (hy : 1 ≤ ly) (hx : 1 ≤ lx) :
    (3 ≤ lx → ∀ r, s((r, lx - 1), (r, 0)) ∉
      ((triHalfA .pbc ly lx ++ triHalfB .pbc ly lx).map actBonds).sum) ∧
    (3 ≤ ly → ∀ c, s((ly - 1, c), (0, c)) ∉
      ((triHalfA .pbc ly lx ++ triHalfB .pbc ly lx).map actBonds).sum) := by
  have h := C86_half_sweeps_cover .pbc ly lx hy hx
  rw [List.map_append, List.sum_append, h.1, h.2]
  constructor
  · intro h3 r
    simp only [triangularBonds, Multiset.mem_add, Multiset.mem_sum, Multiset.mem_singleton,
      Sym2.eq_iff, Prod.mk.injEq, mem_range, not_or, not_exists, not_and]
    refine ⟨⟨⟨?_, ?_⟩, ?_⟩, ⟨?_, ?_⟩, ?_⟩ <;>
      (intro a ha b hb; constructor <;> omega)
  · intro h3 c
    simp only [triangularBonds, Multiset.mem_add, Multiset.mem_sum, Multiset.mem_singleton,
      Sym2.eq_iff, Prod.mk.injEq, mem_range, not_or, not_exists, not_and]
    refine ⟨⟨⟨?_, ?_⟩, ?_⟩, ⟨?_, ?_⟩, ?_⟩ <;>
      (intro a ha b hb; constructor <;> omega)

/-! ## C87: loop update -/

/-- one of the four passes -/
theorem mem_pass {n m sr sc r c : ℕ} :
    (r, c) ∈ (((List.range m).filter fun c => sc ≤ c ∧ (c - sc) % 2 = 0).flatMap fun col =>
        ((List.range n).filter fun r => sr ≤ r ∧ (r - sr) % 2 = 0).map fun row => (row, col)) ↔
      (r < n ∧ sr ≤ r ∧ (r - sr) % 2 = 0) ∧ c < m ∧ sc ≤ c ∧ (c - sc) % 2 = 0 := by
  simp only [List.mem_flatMap, List.mem_filter, List.mem_range, List.mem_map, Prod.mk.injEq,
    decide_eq_true_eq]
  constructor
  · rintro ⟨a, ha, b, hb, rfl, rfl⟩; exact ⟨hb, ha⟩
  · rintro ⟨h1, h2⟩; exact ⟨c, h2, r, h1, rfl, rfl⟩

/-- **C87.** One loop-update sweep projects every plaquette exactly once. -/
theorem C87_every_plaquette_once (bc : BC) (ly lx : ℕ) :
    (loopPasses bc ly lx).flatten.Nodup ∧
    ∀ p : Site, p ∈ (loopPasses bc ly lx).flatten ↔ p.1 < bonds bc ly ∧ p.2 < bonds bc lx := by
  have hmem : ∀ p : Site, p ∈ (loopPasses bc ly lx).flatten ↔
      p.1 < bonds bc ly ∧ p.2 < bonds bc lx := by
    rintro ⟨r, c⟩
    simp only [loopPasses, bondLimit_eq, List.flatMap_cons, List.flatMap_nil, List.map_cons,
      List.map_nil, List.append_nil, List.cons_append, List.nil_append, List.flatten_cons,
      List.flatten_nil, List.mem_append, mem_pass]
    omega
  refine ⟨?_, hmem⟩
  have hp : ∀ sr sc : ℕ,
      (((List.range (bonds bc lx)).filter fun c => sc ≤ c ∧ (c - sc) % 2 = 0).flatMap fun col =>
        ((List.range (bonds bc ly)).filter fun r => sr ≤ r ∧ (r - sr) % 2 = 0).map
          fun row => (row, col)).Nodup := by
    intro sr sc
    rw [List.nodup_flatMap]
    refine ⟨fun a _ => List.Nodup.map (fun x y h => (Prod.mk.inj h).1)
      (List.nodup_range.filter _), ?_⟩
    refine List.Pairwise.imp (R := fun a b => a ≠ b) ?_ (List.nodup_range.filter _)
    intro a b hab
    simp only [Function.onFun, List.disjoint_left, List.mem_map, List.mem_filter]
    rintro x ⟨y, _, rfl⟩ ⟨z, _, h⟩
    exact hab (Prod.mk.inj h).2.symm
  simp only [loopPasses, bondLimit_eq, List.flatMap_cons, List.flatMap_nil, List.map_cons,
    List.map_nil, List.append_nil, List.cons_append, List.nil_append, List.flatten_cons,
    List.flatten_nil]
  rw [List.nodup_append, List.nodup_append, List.nodup_append]
  refine ⟨hp 0 0, ⟨hp 1 0, ⟨hp 0 1, hp 1 1, ?_⟩, ?_⟩, ?_⟩
  all_goals
    rintro ⟨r, c⟩ h1 ⟨r', c'⟩ h2 e
    simp only [List.mem_append, mem_pass, Prod.mk.injEq] at h1 h2 e
    omega

theorem disjoint_lines {bc : BC} {n a b : ℕ} (hn : bc = .pbc → n % 2 = 0) (hab : a ≠ b)
    (hp : a % 2 = b % 2) (ha : a < bonds bc n) (hb : b < bonds bc n) :
    a ≠ next bc n b ∧ next bc n a ≠ b ∧ next bc n a ≠ next bc n b := by
  cases bc
  · simp only [next]; omega
  · have := hn rfl
    simp only [next, bonds] at *
    split_ifs <;> omega

/-- **C87.** Whenever the constructor accepts the lattice and the gates, no two plaquettes of the
same pass share a site — so the projections of one pass commute with each other. -/
theorem C87_pass_is_disjoint (bc : BC) (ly lx gr gc : ℕ) (h : loopAccepts bc ly lx gr gc = true)
    (l : List Site) (hl : l ∈ loopPasses bc ly lx) (p q : Site) (hp : p ∈ l) (hq : q ∈ l)
    (hpq : p ≠ q) : Disjoint (corners bc ly lx p) (corners bc ly lx q) := by
  obtain ⟨r, c⟩ := p
  obtain ⟨r', c'⟩ := q
  have hev : bc = .pbc → lx % 2 = 0 ∧ ly % 2 = 0 := by
    intro e
    simp only [loopAccepts, e, Bool.and_eq_true, Bool.not_eq_true', decide_eq_false_iff_not] at h
    by_contra hc
    exact h.1 ⟨trivial, by omega⟩
  have key : ∃ sr sc : ℕ, l = (((List.range (bonds bc lx)).filter fun c =>
      sc ≤ c ∧ (c - sc) % 2 = 0).flatMap fun col =>
        ((List.range (bonds bc ly)).filter fun r => sr ≤ r ∧ (r - sr) % 2 = 0).map
          fun row => (row, col)) := by
    simp only [loopPasses, bondLimit_eq, List.flatMap_cons, List.flatMap_nil, List.map_cons,
      List.map_nil, List.append_nil, List.cons_append, List.nil_append, List.mem_cons,
      List.not_mem_nil, or_false] at hl
    rcases hl with rfl | rfl | rfl | rfl
    · exact ⟨0, 0, rfl⟩
    · exact ⟨1, 0, rfl⟩
    · exact ⟨0, 1, rfl⟩
    · exact ⟨1, 1, rfl⟩
  obtain ⟨sr, sc, rfl⟩ := key
  rw [mem_pass] at hp hq
  have hne : r ≠ r' ∨ c ≠ c' := by
    by_contra hc
    push Not at hc
    exact hpq (by rw [hc.1, hc.2])
  rw [Finset.disjoint_left]
  rintro ⟨x, y⟩ h1 h2
  simp only [corners, mem_insert, mem_singleton, Prod.mk.injEq] at h1 h2
  rcases hne with hr | hc
  · have := disjoint_lines (bc := bc) (n := ly) (fun e => (hev e).2) hr (by omega) hp.1.1 hq.1.1
    omega
  · have := disjoint_lines (bc := bc) (n := lx) (fun e => (hev e).1) hc (by omega) hp.2.1 hq.2.1
    omega

/-- non-vacuity: a torus the constructor accepts, and two plaquettes of its first pass -/
example : loopAccepts .pbc 4 4 4 4 = true ∧
    ∃ l ∈ loopPasses .pbc 4 4, ((0, 0) : Site) ∈ l ∧ ((2, 2) : Site) ∈ l := by
  refine ⟨by decide, _, List.mem_cons_self, ?_, ?_⟩ <;> decide

/-- why the constructor rejects odd tori: on a 3 × 3 torus two plaquettes of one pass share sites -/
example : ∃ l ∈ loopPasses .pbc 3 3, ((0, 0) : Site) ∈ l ∧ ((2, 2) : Site) ∈ l ∧
    ¬ Disjoint (corners .pbc 3 3 (0, 0)) (corners .pbc 3 3 (2, 2)) := by
  refine ⟨_, List.mem_cons_self, ?_, ?_, ?_⟩ <;> decide

end QLPeps.SimpleUpdate
