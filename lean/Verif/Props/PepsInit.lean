import Verif.Lemmas.PepsInit
import Verif.Props.PepsTps

/-!
# C95: initialising a PEPS gives the product state, with conserved charges
-/

namespace QLPeps.Peps

open QLPeps.State (BC)
open QLPeps.Tps.Spec (Bond Site leg external slots)
open QLPeps.Peps.Spec

/-- charge that does not leave a site tensor again when its physical state is `a`: incoming west and
north, outgoing south and east (`Div` up to sign) -/
def Spec.excess {Q 𝕜 : Type*} [AddCommGroup Q] (t : QTn Q 𝕜) (a : ℕ) : Q :=
  t.west + t.north - t.south - t.east + t.phys.flux a

/-- the charge of the configuration -/
def Spec.total {Q 𝕜 : Type*} [AddCommGroup Q] (p : QPeps Q 𝕜) (act : ℕ → ℕ → ℕ) : Q :=
  ∑ s : Site p.rows p.cols, (p.gamma s.1 s.2).phys.flux (act s.1 s.2)

section
variable {Q 𝕜 : Type*} [AddCommGroup Q] [RCLike 𝕜]

theorem initial_gamma (act : ℕ → ℕ → ℕ) (p : QPeps Q 𝕜) {r c : ℕ} (hr : r < p.rows)
    (hc : c < p.cols) : ∃ w s e n : Q, (initial act p).gamma r c =
      oneTn w s e n 1 1 1 (p.gamma r c).phys (act r c) := by
  obtain ⟨-, -, -, h1, h2, -⟩ := initial_eq act p (by omega)
  by_cases h : r = p.rows - 1
  · subst h
    exact ⟨_, _, _, _, h2 c hc⟩
  · exact ⟨_, _, _, _, h1 r (by omega) c hc⟩

theorem initial_weight (act : ℕ → ℕ → ℕ) (p : QPeps Q 𝕜) (hr : 0 < p.rows)
    (b : Bond p.bc p.rows p.cols) : weight (initial act p).peps b = ⟨1, fun _ => 1⟩ := by
  obtain ⟨-, -, -, -, -, h1, h2, h3, h4⟩ := initial_eq act p hr
  rcases b with ⟨r, i⟩ | ⟨i, c⟩
  · have hi : (i : ℕ) < p.cols ∨ p.bc = .obc ∧ (i : ℕ) = p.cols := by
      have := i.2
      by_cases hb : p.bc = .obc
      · have e : slots p.bc p.cols = p.cols + 1 := by simp [slots, hb]
        by_cases h : (i : ℕ) = p.cols
        · exact .inr ⟨hb, h⟩
        · exact .inl (by omega)
      · have e : slots p.bc p.cols = p.cols := by simp [slots, hb]
        exact .inl (by omega)
    simp only [weight, QPeps.peps]
    by_cases h : (r : ℕ) = p.rows - 1
    · rw [h, h4 i hi]
      rfl
    · rw [h3 r (by omega) i hi]
      rfl
  · simp only [weight, QPeps.peps]
    by_cases h : (i : ℕ) < p.rows
    · rw [h1 i h c c.2]
      rfl
    · have := i.2
      by_cases hb : p.bc = .obc
      · have e : slots p.bc p.rows = p.rows + 1 := by simp [slots, hb]
        rw [show (i : ℕ) = p.rows by omega, h2 hb c c.2]
        rfl
      · have e : slots p.bc p.rows = p.rows := by simp [slots, hb]
        omega

/-- the physical dimensions of a PEPS -/
def Spec.physDim (p : QPeps Q 𝕜) (s : Site p.rows p.cols) : ℕ := (p.gamma s.1 s.2).phys.dim

open Classical in
/-- **C95.** After `Initial(activates)` the wave function is the basis state `activates`, whatever the
PEPS held before: amplitude one for that configuration and zero for every other; all bond dimensions
and all weights are one. -/
theorem C95_initial_is_product_state (act : ℕ → ℕ → ℕ) (p : QPeps Q 𝕜) (hr : 0 < p.rows) :
    IsWave p.bc (initial act p).peps (physDim p)
      (fun σ => if ∀ s, σ s = act s.1 s.2 then 1 else 0) ∧
    ∀ b : Bond p.bc p.rows p.cols, weight (initial act p).peps b = ⟨1, fun _ => 1⟩ := by
  obtain ⟨e1, e2, e3, -⟩ := initial_eq act p hr
  have hw := initial_weight act p hr
  refine ⟨⟨fun _ => 1, ⟨e1, e2, e3, fun s => ?_, fun b => by rw [hw b], fun _ _ => rfl⟩, fun σ _ => ?_⟩,
    hw⟩
  · obtain ⟨w, a, e, n, h⟩ := initial_gamma act p s.1.2 s.2.2
    simp only [QPeps.peps, h, oneTn]
    rfl
  · unfold amplitude
    simp only [Finset.range_one, Fintype.piFinset_singleton, Finset.sum_singleton, hw,
      RCLike.ofReal_one, Finset.prod_const_one, mul_one]
    have h1 : ∀ s : Site p.rows p.cols, ((initial act p).peps.gamma s.1 s.2).elem
        (coords (bc := p.bc) (fun _ => 0) s (σ s)) = if σ s = act s.1 s.2 then (1 : 𝕜) else 0 := by
      intro s
      obtain ⟨w, a, e, n, h⟩ := initial_gamma act p s.1.2 s.2.2
      simp only [QPeps.peps, h, oneTn, coords]
      simp
    simp only [h1]
    by_cases h : ∀ s, σ s = act s.1 s.2
    · rw [if_pos h, Finset.prod_congr rfl fun s _ => if_pos (h s), Finset.prod_const_one]
    · rw [if_neg h]
      push Not at h
      obtain ⟨s, h⟩ := h
      rw [Finset.prod_eq_zero (Finset.mem_univ s) (if_neg h)]

/-- the indices of neighbouring tensors and of the weight between them carry the same charge -/
theorem C95_charges_match (act : ℕ → ℕ → ℕ) (p : QPeps Q 𝕜) {r c : ℕ} (hr : r < p.rows)
    (hc : c < p.cols) :
    ((initial act p).gamma r c).west = ((initial act p).lamH r c).qn ∧
    ((initial act p).gamma r c).north = ((initial act p).lamV r c).qn ∧
    ((initial act p).gamma r c).east = ((initial act p).east r c).qn ∧
    ((initial act p).gamma r c).south = ((initial act p).south r c).qn := by
  obtain ⟨e1, e2, e3, h1, h2, h3, h4, h5, h6⟩ := initial_eq act p (by omega)
  have hmod : ¬ c = p.cols - 1 → (c + 1) % p.cols = c + 1 := fun h => Nat.mod_eq_of_lt (by omega)
  have hmod' : c = p.cols - 1 → (c + 1) % p.cols = 0 := fun h => by
    rw [show c + 1 = p.cols by omega, Nat.mod_self]
  have rmod : ¬ r = p.rows - 1 → (r + 1) % p.rows = r + 1 := fun h => Nat.mod_eq_of_lt (by omega)
  have rmod' : r = p.rows - 1 → (r + 1) % p.rows = 0 := fun h => by
    rw [show r + 1 = p.rows by omega, Nat.mod_self]
  have hb : p.bc = .obc ∨ p.bc = .pbc := by cases p.bc <;> simp
  unfold QPeps.east QPeps.south
  rw [e1, e2, e3]
  by_cases h : r = p.rows - 1
  · have hs : (if p.bc = .obc then (initial act p).lamV (r + 1) c else
        (initial act p).lamV ((r + 1) % p.rows) c) = oneDiag 0 := by
      split
      · next hb => rw [show r + 1 = p.rows by omega, h4 hb c hc]
      · rw [rmod' h, h3 0 (by omega) c hc]
        simp [colFlux]
    have he : (if p.bc = .obc then (initial act p).lamH r (c + 1) else
        (initial act p).lamH r ((c + 1) % p.cols)) =
        oneDiag (if p.bc = .pbc ∧ c = p.cols - 1 then 0 else rowFlux act p (c + 1)) := by
      rcases hb with hb | hb
      · rw [if_pos hb, h, h6 _ (by by_cases h' : c = p.cols - 1; exact .inr ⟨hb, by omega⟩; left; omega),
          if_neg (by simp [hb])]
      · rw [if_neg (by simp [hb]), h]
        by_cases h' : c = p.cols - 1
        · rw [hmod' h', h6 0 (.inl (by omega)), if_pos ⟨hb, h'⟩]
          simp [rowFlux]
        · rw [hmod h', h6 _ (.inl (by omega)), if_neg (by simp [h'])]
    rw [hs, he, h3 r hr c hc]
    subst h
    rw [h2 c hc, h6 c (.inl hc)]
    exact ⟨rfl, rfl, rfl, rfl⟩
  · have hr' : r < p.rows - 1 := by omega
    rw [h1 r hr' c hc, h5 r hr' c (.inl hc), h3 r hr c hc, rmod h, h3 (r + 1) (by omega) c hc]
    have he : (if p.bc = .obc then (initial act p).lamH r (c + 1) else
        (initial act p).lamH r ((c + 1) % p.cols)) = oneDiag 0 := by
      rcases hb with hb | hb
      · rw [if_pos hb, h5 r hr' _ (by by_cases h' : c = p.cols - 1; exact .inr ⟨hb, by omega⟩; left; omega)]
      · rw [if_neg (by simp [hb]), h5 r hr' _ (.inl (Nat.mod_lt _ (by omega)))]
    rw [he]
    refine ⟨rfl, rfl, rfl, ?_⟩
    split <;> rfl

theorem total_eq (act : ℕ → ℕ → ℕ) (p : QPeps Q 𝕜) : total p act = rowFlux act p p.cols := by
  unfold total rowFlux colFlux
  rw [Fintype.sum_prod_type_right, Finset.sum_range]
  refine Finset.sum_congr rfl fun c _ => ?_
  rw [Finset.sum_range]

/-- every site tensor conserves charge, except the last one of a torus, which holds the charge of the
whole configuration -/
theorem C95_charge_conserved (act : ℕ → ℕ → ℕ) (p : QPeps Q 𝕜) {r c : ℕ} (hr : r < p.rows)
    (hc : c < p.cols) : excess ((initial act p).gamma r c) (act r c) =
      if p.bc = .pbc ∧ r = p.rows - 1 ∧ c = p.cols - 1 then total p act else 0 := by
  obtain ⟨e1, e2, e3, h1, h2, -⟩ := initial_eq act p (by omega)
  by_cases h : r = p.rows - 1
  · subst h
    rw [h2 c hc]
    have hs : rowFlux act p c + colFlux act p (p.rows - 1) c +
        (p.gamma (p.rows - 1) c).phys.flux (act (p.rows - 1) c) = rowFlux act p (c + 1) := by
      obtain ⟨m, hm⟩ : ∃ m, p.rows = m + 1 := ⟨p.rows - 1, by omega⟩
      simp only [rowFlux, Finset.sum_range_succ, hm, Nat.add_sub_cancel]
      simp only [colFlux, Finset.sum_range_succ]
      abel
    simp only [excess, lastT, oneTn, true_and]
    by_cases h' : p.bc = .pbc ∧ c = p.cols - 1
    · rw [if_pos h', if_pos h', total_eq, ← show c + 1 = p.cols by omega, ← hs]
      abel
    · rw [if_neg h', if_neg h', ← hs]
      abel
  · rw [h1 r (by omega) c hc, if_neg (by tauto)]
    simp only [excess, rowT, oneTn, colFlux, Finset.sum_range_succ]
    abel

/-- on an open lattice the charge of the configuration leaves through the last east index; all other
indices outside the lattice have charge zero -/
theorem C95_outer_charges (act : ℕ → ℕ → ℕ) (p : QPeps Q 𝕜) (hr : 0 < p.rows) (hb : p.bc = .obc) :
    ((initial act p).lamH (p.rows - 1) p.cols).qn = total p act ∧
    (∀ r < p.rows - 1, ((initial act p).lamH r p.cols).qn = 0) ∧
    (0 < p.cols → ∀ r < p.rows, ((initial act p).lamH r 0).qn = 0) ∧
    ∀ c < p.cols, ((initial act p).lamV 0 c).qn = 0 ∧ ((initial act p).lamV p.rows c).qn = 0 := by
  obtain ⟨e1, e2, e3, h1, h2, h3, h4, h5, h6⟩ := initial_eq act p hr
  refine ⟨?_, fun r h => ?_, fun h0 r h => ?_, fun c hc => ⟨?_, ?_⟩⟩
  · rw [h6 _ (.inr ⟨hb, rfl⟩), total_eq]
    rfl
  · rw [h5 r h _ (.inr ⟨hb, rfl⟩)]
    rfl
  · by_cases h' : r = p.rows - 1
    · rw [h', h6 0 (.inl h0)]
      simp [rowFlux, oneDiag]
    · rw [h5 r (by omega) 0 (.inl h0)]
      rfl
  · rw [h3 0 hr c hc]
    simp [colFlux, oneDiag]
  · rw [h4 hb c hc]
    rfl

end

/-! ## A case -/

/-- two by two sites with charges 0 and 1 in every site, all in state 1 -/
def freshPeps (bc : BC) : QPeps ℤ ℝ := ⟨2, 2, bc,
  fun _ _ => ⟨0, 0, 0, 0, ⟨2, true, fun a => a⟩, ⟨[1, 1, 1, 1, 2], fun _ => 0⟩⟩,
  fun _ _ => oneDiag 0, fun _ _ => oneDiag 0⟩

/-- the documented "all external indices have quantum number zero" fails: the last one carries −4 -/
example : ((initial (fun _ _ => 1) (freshPeps .obc)).lamH 1 2).qn = -4 := by
  have h := (C95_outer_charges (fun _ _ => 1) (freshPeps .obc) (by decide) rfl).1
  refine h.trans ?_
  rw [total_eq]
  simp [rowFlux, colFlux, freshPeps, Phys.flux, Finset.sum_range_succ]

example : excess ((initial (fun _ _ => 1) (freshPeps .pbc)).gamma 1 1) 1 = -4 := by
  have h := C95_charge_conserved (fun _ _ => 1) (freshPeps .pbc) (r := 1) (c := 1) (by decide)
    (by decide)
  rw [h, if_pos ⟨rfl, rfl, rfl⟩, total_eq]
  simp [rowFlux, colFlux, freshPeps, Phys.flux, Finset.sum_range_succ]

end QLPeps.Peps
