import Verif.Lemmas.PepsEnergy

/-!
# C91, C92: projections that truncate nothing apply their gates exactly; C93: local energies
-/

namespace QLPeps.Peps

open QLPeps.State (BC)
open QLPeps.Tps.Spec (Bond Site leg external slots)
open QLPeps.Peps.Spec

variable {𝕜 : Type*} [RCLike 𝕜] {bc : BC} {rows cols : ℕ}

theorem apply_congr {phys : Site rows cols → ℕ} (st : Step 𝕜 rows cols)
    {ψ φ : (Site rows cols → ℕ) → 𝕜} (h : ∀ σ, (∀ t, σ t < phys t) → ψ σ = φ σ)
    {σ : Site rows cols → ℕ} (hσ : ∀ t, σ t < phys t) : st.apply phys ψ σ = st.apply phys φ σ := by
  have hu : ∀ {τ : Site rows cols → ℕ} {t i}, (∀ t, τ t < phys t) → i < phys t →
      ∀ t', Function.update τ t i t' < phys t' := by
    intro τ t i hτ hi t'
    by_cases ht : t' = t
    · subst ht; rwa [Function.update_self]
    · rw [Function.update_of_ne ht]; exact hτ t'
  cases st with
  | bond o s s' gate =>
    simp only [Step.apply, apply2]
    refine Finset.sum_congr rfl fun i hi => Finset.sum_congr rfl fun j hj => ?_
    rw [h _ (hu (hu hσ (Finset.mem_range.1 hi)) (Finset.mem_range.1 hj))]
  | triangle k s m s' gate =>
    simp only [Step.apply, apply3]
    refine Finset.sum_congr rfl fun i hi => Finset.sum_congr rfl fun j hj =>
      Finset.sum_congr rfl fun n hn => ?_
    rw [h _ (hu (hu (hu hσ (Finset.mem_range.1 hi)) (Finset.mem_range.1 hj)) (Finset.mem_range.1 hn))]

/-- **C91.** A projection that truncates nothing applies its gate: the norm it returns times the new
wave function is the gate applied to the old wave function, for every gate, lattice, boundary
condition, position and bond dimension. In particular the norm vanishes only if the gate annihilates
the state. -/
theorem C91_projection_applies_gate {lib : Lib 𝕜} (hlib : Exact lib) {tol : ℝ} (htol : 0 ≤ tol)
    {p : Peps 𝕜} {phys : Site rows cols → ℕ} {ψ : (Site rows cols → ℕ) → 𝕜}
    (hψ : IsWave bc p phys ψ) (st : Step 𝕜 rows cols) (hst : st.WellPlaced bc phys)
    (hab : st.Clear bc tol p) (ham : Option (Tn 𝕜)) (herr : (st.run lib tol p ham).err = 0)
    (hab' : st.Clear bc tol (st.run lib tol p ham).peps) :
    ∃ φ, IsWave bc (st.run lib tol p ham).peps phys φ ∧
      ∀ σ, (∀ t, σ t < phys t) →
        ((st.run lib tol p ham).norm : 𝕜) * φ σ = st.apply phys ψ σ := by
  obtain ⟨dim, hf, hψ⟩ := hψ
  have hcl : ∀ s ∈ st.sites, ∀ k, ∀ k', k' ≠ k → Above tol (weight p (leg bc s k')) :=
    fun s hs _ k' _ => hab s hs k'
  have wrap : ∀ dim' : Bond bc rows cols → ℕ, Fits (st.run lib tol p ham).peps phys dim' →
      (∀ σ, (∀ t, σ t < phys t) → ((st.run lib tol p ham).norm : 𝕜) *
        amplitude (st.run lib tol p ham).peps dim' σ = st.apply phys (amplitude p dim) σ) →
      ∃ φ, IsWave bc (st.run lib tol p ham).peps phys φ ∧
        ∀ σ, (∀ t, σ t < phys t) →
          ((st.run lib tol p ham).norm : 𝕜) * φ σ = st.apply phys ψ σ := fun dim' h1 h2 =>
    ⟨_, ⟨dim', h1, fun _ _ => rfl⟩, fun σ hσ => (h2 σ hσ).trans (apply_congr st
      (fun τ hτ => (hψ τ hτ).symm) hσ)⟩
  cases st with
  | bond o s s' gate =>
    have c1 := hab s (by simp [Step.sites])
    have c2 := hab s' (by simp [Step.sites])
    cases o with
    | horizontal =>
      obtain ⟨h1, h2, h3⟩ := hst
      obtain ⟨g1, g2⟩ := nn_horizontal hlib htol hf h1 h2 h3 (fun k _ => c1 k) (fun k _ => c2 k) ham herr
      exact wrap _ g1 g2
    | vertical =>
      obtain ⟨h1, h2, h3⟩ := hst
      obtain ⟨g1, g2⟩ := nn_vertical hlib htol hf h1 h2 h3 (fun k _ => c1 k) (fun k _ => c2 k) ham herr
      exact wrap _ g1 g2
  | triangle k s m s' gate =>
    obtain ⟨h1, h2, h3, h4⟩ := hst
    have c1 := hab s (by simp [Step.sites])
    have cm := hab m (by simp [Step.sites])
    have c2 := hab s' (by simp [Step.sites])
    have cm' := hab' m (by simp [Step.sites])
    cases k with
    | upperRight =>
      obtain ⟨D, D', -, g1, g2⟩ := upperRight_exact hlib htol hf h1 h2 h4.1 h4.2 h3 (fun k _ => c1 k)
        (fun k _ => c2 k) (fun k _ _ => cm k) ham herr (cm' 0)
      exact wrap _ g1 g2
    | upperLeft =>
      obtain ⟨D, D', -, g1, g2⟩ := upperLeft_exact hlib htol hf h1 h2 h4.1 h4.2 h3 (fun k _ => c1 k)
        (fun k _ => c2 k) (fun k _ _ => cm k) ham herr (cm' 1)
      exact wrap _ g1 g2
    | lowerRight =>
      obtain ⟨D, D', -, g1, g2⟩ := lowerRight_exact hlib htol hf h1 h2 h4.1 h4.2 h3 (fun k _ => c1 k)
        (fun k _ => c2 k) (fun k _ _ => cm k) ham herr (cm' 3)
      exact wrap _ g1 g2
    | lowerLeft =>
      obtain ⟨D, D', -, g1, g2⟩ := lowerLeft_exact hlib htol hf h1 h2 h4.1 h4.2 h3 (fun k _ => c1 k)
        (fun k _ => c2 k) (fun k _ _ => cm k) ham herr (cm' 2)
      exact wrap _ g1 g2

theorem apply_scale {phys : Site rows cols → ℕ} (st : Step 𝕜 rows cols) (c : 𝕜)
    (ψ : (Site rows cols → ℕ) → 𝕜) (σ : Site rows cols → ℕ) :
    st.apply phys (fun τ => c * ψ τ) σ = c * st.apply phys ψ σ := by
  cases st <;> simp only [Step.apply, apply2, apply3, Finset.mul_sum] <;>
    · repeat' refine Finset.sum_congr rfl fun _ _ => ?_
      ring

theorem applyAll_scale {phys : Site rows cols → ℕ} (l : List (Step 𝕜 rows cols)) (c : 𝕜)
    (ψ : (Site rows cols → ℕ) → 𝕜) (σ : Site rows cols → ℕ) :
    applyAll phys (fun τ => c * ψ τ) l σ = c * applyAll phys ψ l σ := by
  induction l generalizing ψ with
  | nil => rfl
  | cons st l ih =>
    simp only [applyAll]
    rw [show st.apply phys (fun τ => c * ψ τ) = fun τ => c * st.apply phys ψ τ from
      funext fun τ => apply_scale st c ψ τ, ih]

theorem applyAll_congr {phys : Site rows cols → ℕ} (l : List (Step 𝕜 rows cols))
    {ψ φ : (Site rows cols → ℕ) → 𝕜} (h : ∀ σ, (∀ t, σ t < phys t) → ψ σ = φ σ)
    {σ : Site rows cols → ℕ} (hσ : ∀ t, σ t < phys t) :
    applyAll phys ψ l σ = applyAll phys φ l σ := by
  induction l generalizing ψ φ with
  | nil => exact h σ hσ
  | cons st l ih => exact ih fun τ hτ => apply_congr st h hτ

/-- **C92.** Any sequence of projections that truncate nothing applies the gates in order; the product
of the returned norms is the factor between the wave functions. -/
theorem C92_history_of_projections {lib : Lib 𝕜} (hlib : Exact lib) {tol : ℝ} (htol : 0 ≤ tol)
    {phys : Site rows cols → ℕ} (ham : Option (Tn 𝕜)) (steps : List (Step 𝕜 rows cols))
    (hst : ∀ st ∈ steps, st.WellPlaced bc phys) (p : Peps 𝕜) (ψ : (Site rows cols → ℕ) → 𝕜)
    (hψ : IsWave bc p phys ψ) (hl : Lossless bc lib tol ham p steps) :
    ∃ φ, IsWave bc (runAll lib tol ham p steps).1 phys φ ∧
      ∀ σ, (∀ t, σ t < phys t) →
        ((runAll lib tol ham p steps).2 : 𝕜) * φ σ = applyAll phys ψ steps σ := by
  induction steps generalizing p ψ with
  | nil => exact ⟨ψ, hψ, fun σ _ => by simp [runAll, applyAll]⟩
  | cons st rest ih =>
    obtain ⟨h1, h2, h3, h4⟩ := hl
    obtain ⟨φ, hφ, e⟩ := C91_projection_applies_gate hlib htol hψ st (hst st (by simp)) h1 ham h2 h3
    obtain ⟨χ, hχ, e'⟩ := ih (fun s hs => hst s (by simp [hs])) _ φ hφ h4
    refine ⟨χ, hχ, fun σ hσ => ?_⟩
    simp only [runAll, applyAll]
    push_cast
    rw [mul_assoc, e' σ hσ, ← applyAll_scale]
    exact applyAll_congr rest e hσ

/-- **C93.** The local energy a projection returns is an expectation value of the Hamiltonian term it was
given: it is real if those are, and it lies between their bounds, whatever is truncated afterwards. -/
theorem C93_energy_within_spectrum {lib : Lib 𝕜} (hlib : Exact lib) (tol : ℝ)
    {p : Peps 𝕜} {phys : Site rows cols → ℕ} {ψ : (Site rows cols → ℕ) → 𝕜}
    (hψ : IsWave bc p phys ψ) (st : Step 𝕜 rows cols) (hst : st.WellPlaced bc phys) {ham : Tn 𝕜}
    {lo hi : ℝ} (hb : st.Between phys ham lo hi) (hn : (st.run lib tol p (some ham)).norm ≠ 0) :
    ∃ e : ℝ, (st.run lib tol p (some ham)).energy = some (e : 𝕜) ∧ lo ≤ e ∧ e ≤ hi := by
  obtain ⟨dim, hf, -⟩ := hψ
  match st, hst, hb, hn with
  | .bond .horizontal s s' gate, ⟨h1, h2, h3⟩, hb, hn =>
    exact nn_horizontal_energy hlib tol hf h1 h2 h3 hb.1 hb.2 hn
  | .bond .vertical s s' gate, ⟨h1, h2, h3⟩, hb, hn =>
    exact nn_vertical_energy hlib tol hf h1 h2 h3 hb.1 hb.2 hn
  | .triangle .upperRight s m s' gate, ⟨h1, h2, h3, h4⟩, hb, hn =>
    exact upperRight_energy hlib tol hf h1 h2 h4.1 h4.2 h3 hb.1 hb.2 hn
  | .triangle .upperLeft s m s' gate, ⟨h1, h2, h3, h4⟩, hb, hn =>
    exact upperLeft_energy hlib tol hf h1 h2 h4.1 h4.2 h3 hb.1 hb.2 hn
  | .triangle .lowerRight s m s' gate, ⟨h1, h2, h3, h4⟩, hb, hn =>
    exact lowerRight_energy hlib tol hf h1 h2 h4.1 h4.2 h3 hb.1 hb.2 hn
  | .triangle .lowerLeft s m s' gate, ⟨h1, h2, h3, h4⟩, hb, hn =>
    exact lowerLeft_energy hlib tol hf h1 h2 h4.1 h4.2 h3 hb.1 hb.2 hn

/-- without a Hamiltonian no energy is returned -/
theorem C93_no_hamiltonian_no_energy (lib : Lib 𝕜) (tol : ℝ) (p : Peps 𝕜) (st : Step 𝕜 rows cols) :
    (st.run lib tol p none).energy = none := by
  match st with
  | .bond .horizontal _ _ _ => rfl
  | .bond .vertical _ _ _ => rfl
  | .triangle .upperRight _ _ _ _ => rfl
  | .triangle .upperLeft _ _ _ _ => rfl
  | .triangle .lowerRight _ _ _ _ => rfl
  | .triangle .lowerLeft _ _ _ _ => rfl

/-! ## The hypotheses can be met -/

/-- all coordinates of a shape -/
def allCoords : List ℕ → List (List ℕ)
  | [] => [[]]
  | d :: ds => (List.range d).flatMap fun k => (allCoords ds).map (k :: ·)

theorem mem_allCoords {sh x : List ℕ} : x ∈ allCoords sh ↔ Valid sh x := by
  induction sh generalizing x with
  | nil => simp [allCoords, Valid]
  | cons d ds ih =>
    simp only [allCoords, List.mem_flatMap, List.mem_range, List.mem_map, ih, Valid,
      List.forall₂_cons_right_iff]
    constructor
    · rintro ⟨k, hk, y, hy, rfl⟩
      exact ⟨k, y, hk, hy, rfl⟩
    · rintro ⟨k, y, hk, hy, rfl⟩
      exact ⟨k, hk, y, hy, rfl⟩

theorem nodup_allCoords (sh : List ℕ) : (allCoords sh).Nodup := by
  induction sh with
  | nil => simp [allCoords]
  | cons d ds ih =>
    rw [allCoords, List.nodup_flatMap]
    refine ⟨fun k _ => ih.map (List.cons_injective), ?_⟩
    refine List.nodup_range.imp fun {a b} hab => ?_
    intro x hx hx'
    simp only [List.mem_map] at hx hx'
    obtain ⟨y, -, rfl⟩ := hx
    obtain ⟨z, -, h⟩ := hx'
    exact hab (List.cons.inj h).1.symm

/-- factorization with the identity -/
noncomputable def idFactor (t : Tn 𝕜) (n : ℕ) : Tn 𝕜 × Tn 𝕜 :=
  let L := allCoords (t.shape.take n)
  (⟨t.shape.take n ++ [L.length], fun x => if L[x.getLastD 0]? = some x.dropLast then 1 else 0⟩,
    ⟨L.length :: t.shape.drop n, fun y => t.elem (L.getD (y.headD 0) [] ++ y.tail)⟩)

theorem idFactor_spec (t : Tn 𝕜) (n : ℕ) {x y : List ℕ} (hx : Valid (t.shape.take n) x) :
    ∑ m ∈ Finset.range (allCoords (t.shape.take n)).length,
      (idFactor t n).1.elem (x ++ [m]) * (idFactor t n).2.elem (m :: y) = t.elem (x ++ y) := by
  have hmem := mem_allCoords.2 hx
  rw [Finset.sum_eq_single ((allCoords (t.shape.take n)).idxOf x)]
  · simp [idFactor, List.getElem?_idxOf hmem, List.idxOf_lt_length_iff.2 hmem]
  · intro m hm hne
    have hm := Finset.mem_range.1 hm
    simp only [idFactor, List.getLastD_concat, List.dropLast_concat]
    rw [if_neg, zero_mul]
    rw [List.getElem?_eq_getElem hm]
    intro h
    apply hne
    rw [← Option.some.inj h, (nodup_allCoords _).idxOf_getElem]
  · intro h
    exact absurd (Finset.mem_range.2 (List.idxOf_lt_length_iff.2 hmem)) h

/-- a library that factorizes exactly: identity times the tensor -/
noncomputable def idLib : Lib 𝕜 where
  qr := idFactor
  svd t n := ⟨(idFactor t n).1, ⟨(allCoords (t.shape.take n)).length, fun _ => 1⟩, (idFactor t n).2, 0,
    (allCoords (t.shape.take n)).length⟩

theorem idLib_exact : Exact (idLib : Lib 𝕜) where
  qr t n := ⟨(allCoords (t.shape.take n)).length, rfl, rfl, fun _ _ hx _ => idFactor_spec t n hx⟩
  svd_shape _ _ := ⟨rfl, rfl⟩
  svd_dim _ _ := rfl
  svd_err _ _ := le_rfl
  svd t n _ x y hx _ := by
    simpa [idLib] using idFactor_spec t n hx

/-- all weights of all bonds are one -/
def Unit (p : Peps 𝕜) : Prop := (∀ r c i, (p.lamH r c).val i = 1) ∧ ∀ r c i, (p.lamV r c).val i = 1

theorem unit_setGamma {p : Peps 𝕜} (h : Unit p) (r c : ℕ) (t : Tn 𝕜) : Unit (p.setGamma r c t) := h

theorem unit_setH {p : Peps 𝕜} (h : Unit p) (r c : ℕ) {d : Diag} (hd : ∀ i, d.val i = 1) :
    Unit (p.setH r c d) := ⟨fun r' c' i => by
  simp only [Peps.setH]; split
  · exact hd i
  · exact h.1 r' c' i, h.2⟩

theorem unit_setV {p : Peps 𝕜} (h : Unit p) (r c : ℕ) {d : Diag} (hd : ∀ i, d.val i = 1) :
    Unit (p.setV r c d) := ⟨h.1, fun r' c' i => by
  simp only [Peps.setV]; split
  · exact hd i
  · exact h.2 r' c' i⟩

theorem unit_run {p : Peps 𝕜} (h : Unit p) (tol : ℝ) (ham : Option (Tn 𝕜)) (st : Step 𝕜 rows cols) :
    Unit (st.run idLib tol p ham).peps := by
  match st with
  | .bond .horizontal s s' gate =>
    exact unit_setGamma (unit_setGamma (unit_setH h _ _ fun _ => rfl) _ _ _) _ _ _
  | .bond .vertical s s' gate =>
    exact unit_setGamma (unit_setGamma (unit_setV h _ _ fun _ => rfl) _ _ _) _ _ _
  | .triangle .upperRight s m s' gate =>
    exact unit_setGamma (unit_setGamma (unit_setV (unit_setGamma (unit_setH h _ _ fun _ => rfl) _ _ _)
      _ _ fun _ => rfl) _ _ _) _ _ _
  | .triangle .upperLeft s m s' gate =>
    exact unit_setGamma (unit_setGamma (unit_setH (unit_setGamma (unit_setV h _ _ fun _ => rfl) _ _ _)
      _ _ fun _ => rfl) _ _ _) _ _ _
  | .triangle .lowerRight s m s' gate =>
    exact unit_setGamma (unit_setGamma (unit_setH (unit_setGamma (unit_setV h _ _ fun _ => rfl) _ _ _)
      _ _ fun _ => rfl) _ _ _) _ _ _
  | .triangle .lowerLeft s m s' gate =>
    exact unit_setGamma (unit_setGamma (unit_setV (unit_setGamma (unit_setH h _ _ fun _ => rfl) _ _ _)
      _ _ fun _ => rfl) _ _ _) _ _ _

theorem err_run (p : Peps 𝕜) (tol : ℝ) (ham : Option (Tn 𝕜)) (st : Step 𝕜 rows cols) :
    (st.run idLib tol p ham).err = 0 := by
  match st with
  | .bond .horizontal _ _ _ => rfl
  | .bond .vertical _ _ _ => rfl
  | .triangle .upperRight _ _ _ _ => exact max_self (0 : ℝ)
  | .triangle .upperLeft _ _ _ _ => exact max_self (0 : ℝ)
  | .triangle .lowerRight _ _ _ _ => exact max_self (0 : ℝ)
  | .triangle .lowerLeft _ _ _ _ => exact max_self (0 : ℝ)

theorem unit_clear {p : Peps 𝕜} (h : Unit p) {tol : ℝ} (htol : tol < 1) (st : Step 𝕜 rows cols) :
    st.Clear bc tol p := by
  intro s _ k i _
  have : (weight p (leg bc s k)).val i = 1 := by
    cases leg bc s k with
    | inl b => exact h.1 _ _ _
    | inr b => exact h.2 _ _ _
  rw [this, abs_one]
  exact htol

/-- every list of projections is lossless with this library, starting from unit weights -/
theorem unit_lossless {p : Peps 𝕜} (h : Unit p) {tol : ℝ} (htol : tol < 1) (ham : Option (Tn 𝕜))
    (l : List (Step 𝕜 rows cols)) : Lossless bc idLib tol ham p l := by
  induction l generalizing p with
  | nil => trivial
  | cons st l ih =>
    exact ⟨unit_clear h htol st, err_run p tol ham st, unit_clear (unit_run h tol ham st) htol st,
      ih (unit_run h tol ham st)⟩

/-- a product state on a 2 × 2 lattice -/
def plus : Peps ℝ := ⟨2, 2, .obc, fun _ _ => ⟨[1, 1, 1, 1, 2], fun _ => 1⟩, fun _ _ => ⟨1, fun _ => 1⟩,
  fun _ _ => ⟨1, fun _ => 1⟩⟩

theorem plus_wave : IsWave (rows := 2) (cols := 2) .obc plus (fun _ => 2) fun _ => 1 := by
  refine ⟨fun _ => 1, ⟨rfl, rfl, rfl, fun _ => rfl, fun b => ?_, fun _ _ => rfl⟩, fun σ _ => ?_⟩
  · cases b <;> rfl
  · have hw : ∀ (b : Bond .obc 2 2) i, (weight plus b).val i = 1 := fun b i => by cases b <;> rfl
    have hg : ∀ r c x, (plus.gamma r c).elem x = 1 := fun _ _ _ => rfl
    simp [amplitude, hw, hg, Finset.range_one, Fintype.piFinset_singleton]

/-- two gates that depend on all their legs -/
def gateB : Tn ℝ := ⟨[2, 2, 2, 2], fun x => 1 + x.getD 0 0 + 2 * x.getD 1 0 + 4 * x.getD 2 0 + 8 * x.getD 3 0⟩
def gateT : Tn ℝ := ⟨[2, 2, 2, 2, 2, 2], fun x => 1 + x.getD 0 0 + 2 * x.getD 1 0 + 4 * x.getD 4 0⟩

/-- C91 and C92 on a bond followed by a triangle: the hypotheses hold, and the norm is not zero -/
example : ∃ φ, IsWave (rows := 2) (cols := 2) .obc (runAll idLib (1 / 2) none plus
      [Step.bond .horizontal ((0, 0) : Site 2 2) (0, 1) gateB,
        .triangle .upperRight (0, 0) (0, 1) (1, 1) gateT]).1 (fun _ => 2) φ ∧
    (runAll idLib (1 / 2) none plus
      [Step.bond .horizontal ((0, 0) : Site 2 2) (0, 1) gateB,
        .triangle .upperRight (0, 0) (0, 1) (1, 1) gateT]).2 ≠ 0 := by
  obtain ⟨φ, h1, h2⟩ := C92_history_of_projections (bc := .obc) (tol := (1 / 2 : ℝ)) idLib_exact
    (by norm_num) (phys := fun _ => 2) none
    [Step.bond .horizontal ((0, 0) : Site 2 2) (0, 1) gateB,
      .triangle .upperRight (0, 0) (0, 1) (1, 1) gateT]
    (by
      intro st hst
      simp only [List.mem_cons, List.not_mem_nil, or_false] at hst
      rcases hst with rfl | rfl
      · exact ⟨by decide, rfl, rfl⟩
      · exact ⟨by decide, by decide, rfl, rfl, rfl⟩)
    plus _ plus_wave (unit_lossless ⟨fun _ _ _ => rfl, fun _ _ _ => rfl⟩ (by norm_num) none _)
  refine ⟨φ, h1, fun h => ?_⟩
  have := h2 (fun _ => 0) (fun _ => by norm_num)
  simp only [h] at this
  simp [applyAll, Step.apply, apply2, apply3, gateB, gateT, Finset.sum_range_succ] at this
  norm_num at this

/-- the number operator of the first site, legs in, out, in, out -/
def hamN : Tn ℝ := ⟨[2, 2, 2, 2], fun x =>
  if x.getD 0 0 = x.getD 1 0 ∧ x.getD 2 0 = x.getD 3 0 then x.getD 0 0 else 0⟩

theorem hamN_between : Between2 hamN 2 2 0 1 := by
  intro v
  refine ⟨‖v 1 0‖ ^ 2 + ‖v 1 1‖ ^ 2, ?_, ?_, ?_⟩
  · simp [quad2, hamN, Finset.sum_range_succ]
    ring
  · rw [zero_mul]; positivity
  · simp only [Finset.sum_range_succ, Finset.sum_range_zero, zero_add, one_mul]
    have := sq_nonneg ‖v 0 0‖
    have := sq_nonneg ‖v 0 1‖
    linarith

/-- C93 with that operator: the energy is between 0 and 1 -/
example : ∃ e : ℝ, ((Step.bond .horizontal ((0, 0) : Site 2 2) (0, 1) gateB).run idLib (1 / 2) plus
    (some hamN)).energy = some e ∧ 0 ≤ e ∧ e ≤ 1 := by
  have hst : (Step.bond .horizontal ((0, 0) : Site 2 2) (0, 1) gateB).WellPlaced .obc
    fun _ => 2 := ⟨by decide, rfl, rfl⟩
  have hu : Unit plus := ⟨fun _ _ _ => rfl, fun _ _ _ => rfl⟩
  refine C93_energy_within_spectrum (bc := .obc) idLib_exact _ plus_wave _ hst ⟨rfl, hamN_between⟩
    fun h => ?_
  obtain ⟨φ, -, h2⟩ := C91_projection_applies_gate (bc := .obc) (tol := (1 / 2 : ℝ)) idLib_exact
    (by norm_num) plus_wave _ hst (unit_clear hu (by norm_num) _) (some hamN)
    (err_run plus _ _ _) (unit_clear (unit_run hu _ _ _) (by norm_num) _)
  have := h2 (fun _ => 0) (fun _ => by norm_num)
  rw [h] at this
  simp [Step.apply, apply2, gateB, Finset.sum_range_succ] at this
  norm_num at this

end QLPeps.Peps
