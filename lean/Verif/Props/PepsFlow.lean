import Verif.Props.PepsInit

/-!
# C96: from a product state through projections to a tensor product state
-/

namespace QLPeps.Peps

open QLPeps.State (BC)
open QLPeps.Tps.Spec (Bond Site leg external slots)
open QLPeps.Peps.Spec

variable {𝕜 : Type*} [RCLike 𝕜] {bc : BC} {rows cols : ℕ}

/-- what `ToTPS` needs of the weights: none is negative, those outside the lattice are one -/
def Spec.Convertible (bc : BC) (rows cols : ℕ) (p : Peps 𝕜) : Prop :=
  ∀ b : Bond bc rows cols, (∀ i < (weight p b).dim, 0 ≤ (weight p b).val i) ∧
    (external bc b → (weight p b).val 0 = 1)

theorem internal_h {s s' : Site rows cols} (hb : leg bc s 2 = leg bc s' 0) :
    ¬ external bc (leg bc s' 0) := by
  simp only [leg, Sum.inl.injEq, Prod.mk.injEq, Fin.mk.injEq] at hb
  rintro ⟨h, h'⟩
  subst h
  have h2 := hb.2
  have h3 := s.2.2
  have h4 := s'.2.2
  rw [show slots .obc cols = cols + 1 from rfl, Nat.mod_eq_of_lt (by omega)] at h2
  simp only at h'
  omega

theorem internal_v {s s' : Site rows cols} (hb : leg bc s 1 = leg bc s' 3) :
    ¬ external bc (leg bc s' 3) := by
  simp only [leg, Sum.inr.injEq, Prod.mk.injEq, Fin.mk.injEq] at hb
  rintro ⟨h, h'⟩
  subst h
  have h2 := hb.1
  have h3 := s.1.2
  have h4 := s'.1.2
  rw [show slots .obc rows = rows + 1 from rfl, Nat.mod_eq_of_lt (by omega)] at h2
  simp only at h'
  omega

theorem conv_setGamma {p : Peps 𝕜} (h : Convertible bc rows cols p) (r c : ℕ) (t : Tn 𝕜) :
    Convertible bc rows cols (p.setGamma r c t) := by
  intro b
  have : weight (p.setGamma r c t) b = weight p b := by cases b <;> rfl
  rw [this]
  exact h b

theorem conv_setH {p : Peps 𝕜} (h : Convertible bc rows cols p) {s s' : Site rows cols}
    (hb : leg bc s 2 = leg bc s' 0) {r c : ℕ} (hr : r = s'.1) (hc : c = s'.2) {d : Diag}
    (hd : ∀ i < d.dim, 0 ≤ d.val i) : Convertible bc rows cols (p.setH r c d) := by
  subst hr hc
  intro b
  rw [weight_setH]
  split
  · next e => exact ⟨hd, fun he => absurd (e ▸ he) (internal_h hb)⟩
  · exact h b

theorem conv_setV {p : Peps 𝕜} (h : Convertible bc rows cols p) {s s' : Site rows cols}
    (hb : leg bc s 1 = leg bc s' 3) {r c : ℕ} (hr : r = s'.1) (hc : c = s'.2) {d : Diag}
    (hd : ∀ i < d.dim, 0 ≤ d.val i) : Convertible bc rows cols (p.setV r c d) := by
  subst hr hc
  intro b
  rw [weight_setV]
  split
  · next e => exact ⟨hd, fun he => absurd (e ▸ he) (internal_v hb)⟩
  · exact h b

/-- the PEPS has this size and boundary condition -/
structure Spec.OnLattice (bc : BC) (rows cols : ℕ) (p : Peps 𝕜) : Prop where
  rows_eq : p.rows = rows
  cols_eq : p.cols = cols
  bc_eq : p.bc = bc

/-- **C96** (step). A projection keeps the PEPS convertible, even if it truncates. -/
theorem C96_projection_keeps_convertible {lib : Lib 𝕜} (hlib : SvdNonNeg lib) (tol : ℝ)
    {p : Peps 𝕜} (hf : OnLattice bc rows cols p) {phys : Site rows cols → ℕ}
    (st : Step 𝕜 rows cols) (hst : st.WellPlaced bc phys) (ham : Option (Tn 𝕜))
    (h : Convertible bc rows cols p) :
    OnLattice bc rows cols (st.run lib tol p ham).peps ∧
      Convertible bc rows cols (st.run lib tol p ham).peps := by
  match st, hst with
  | .bond .horizontal s s' gate, ⟨_, hb, _⟩ =>
    obtain ⟨e1, e2⟩ := next_h hf.cols_eq hf.bc_eq hb
    refine ⟨⟨hf.1, hf.2, hf.3⟩, ?_⟩
    exact conv_setGamma (conv_setGamma (conv_setH h hb e1 e2 (hlib _ _)) _ _ _) _ _ _
  | .bond .vertical s s' gate, ⟨_, hb, _⟩ =>
    obtain ⟨e1, -, e2⟩ := next_v hf.rows_eq hf.bc_eq hb
    refine ⟨⟨hf.1, hf.2, hf.3⟩, ?_⟩
    exact conv_setGamma (conv_setGamma (conv_setV h hb e2 e1 (hlib _ _)) _ _ _) _ _ _
  | .triangle .upperRight s m s' gate, ⟨_, _, _, hb1, hb2⟩ =>
    obtain ⟨e1, e2, -⟩ := next_v hf.rows_eq hf.bc_eq hb2
    refine ⟨⟨hf.1, hf.2, hf.3⟩, ?_⟩
    exact conv_setGamma (conv_setGamma (conv_setV (conv_setGamma (conv_setH h hb1 rfl rfl (hlib _ _))
      _ _ _) hb2 e2 e1 (hlib _ _)) _ _ _) _ _ _
  | .triangle .upperLeft s m s' gate, ⟨_, _, _, hb1, hb2⟩ =>
    obtain ⟨e1, e2, -⟩ := next_v hf.rows_eq hf.bc_eq hb2
    obtain ⟨e3, e4⟩ := next_h hf.cols_eq hf.bc_eq hb1
    refine ⟨⟨hf.1, hf.2, hf.3⟩, ?_⟩
    exact conv_setGamma (conv_setGamma (conv_setH (conv_setGamma (conv_setV h hb2 e2 e1 (hlib _ _))
      _ _ _) hb1 e3 e4 (hlib _ _)) _ _ _) _ _ _
  | .triangle .lowerRight s m s' gate, ⟨_, _, _, hb1, hb2⟩ =>
    obtain ⟨e1, e2, -⟩ := next_v hf.rows_eq hf.bc_eq hb1
    refine ⟨⟨hf.1, hf.2, hf.3⟩, ?_⟩
    exact conv_setGamma (conv_setGamma (conv_setH (conv_setGamma (conv_setV h hb1 e2 e1 (hlib _ _))
      _ _ _) hb2 e2 e1 (hlib _ _)) _ _ _) _ _ _
  | .triangle .lowerLeft s m s' gate, ⟨_, _, _, hb1, hb2⟩ =>
    obtain ⟨e1, e2, -⟩ := next_v hf.rows_eq hf.bc_eq hb1
    obtain ⟨e3, e4⟩ := next_h hf.cols_eq hf.bc_eq hb2
    refine ⟨⟨hf.1, hf.2, hf.3⟩, ?_⟩
    exact conv_setGamma (conv_setGamma (conv_setV (conv_setGamma (conv_setH h hb2
      (e2.trans e3) (e1 ▸ e4) (hlib _ _)) _ _ _) hb1 e2 e1 (hlib _ _)) _ _ _) _ _ _

/-- every list of projections keeps the PEPS convertible -/
theorem history_convertible {lib : Lib 𝕜} (hlib : SvdNonNeg lib) (tol : ℝ)
    (ham : Option (Tn 𝕜)) {phys : Site rows cols → ℕ} (steps : List (Step 𝕜 rows cols))
    (hst : ∀ st ∈ steps, st.WellPlaced bc phys) {p : Peps 𝕜} (hf : OnLattice bc rows cols p)
    (h : Convertible bc rows cols p) :
    OnLattice bc rows cols (runAll lib tol ham p steps).1 ∧
      Convertible bc rows cols (runAll lib tol ham p steps).1 := by
  induction steps generalizing p with
  | nil => exact ⟨hf, h⟩
  | cons st rest ih =>
    obtain ⟨h1, h2⟩ := C96_projection_keeps_convertible hlib tol hf st (hst st (by simp)) ham h
    exact ih (fun s hs => hst s (by simp [hs])) h1 h2

theorem initial_convertible {Q : Type*} [AddCommGroup Q] (act : ℕ → ℕ → ℕ) (p : QPeps Q 𝕜)
    (hr : 0 < p.rows) : OnLattice p.bc p.rows p.cols (initial act p).peps ∧
      Convertible p.bc p.rows p.cols (initial act p).peps := by
  obtain ⟨e1, e2, e3, -⟩ := initial_eq act p hr
  refine ⟨⟨e1, e2, e3⟩, fun b => ?_⟩
  rw [initial_weight act p hr b]
  exact ⟨fun _ _ => zero_le_one, fun _ => rfl⟩

/-- **C96.** A PEPS initialised as a product state and changed by any projections, with any truncation,
can be converted to a tensor product state: the conversion never exits. -/
theorem C96_conversion_never_exits {Q : Type*} [AddCommGroup Q] {lib : Lib 𝕜}
    (hlib : SvdNonNeg lib) (tol : ℝ) (ham : Option (Tn 𝕜)) (act : ℕ → ℕ → ℕ) (p : QPeps Q 𝕜)
    (hr : 0 < p.rows) (steps : List (Step 𝕜 p.rows p.cols))
    (hst : ∀ st ∈ steps, st.WellPlaced p.bc (physDim p)) :
    (toTps (runAll lib tol ham (initial act p).peps steps).1).isSome := by
  obtain ⟨h1, h2⟩ := initial_convertible act p hr
  obtain ⟨h3, h4⟩ := history_convertible hlib tol ham steps hst h1 h2
  generalize (runAll lib tol ham (initial act p).peps steps).1 = q at *
  obtain ⟨e1, e2, e3⟩ := h3
  rw [toTps, if_pos]
  · rfl
  intro r hr c hc
  rw [Option.isSome_iff_ne_none, ne_eq, toTpsSite_none, not_not]
  let s : Site p.rows p.cols := (⟨r, e1 ▸ hr⟩, ⟨c, e2 ▸ hc⟩)
  have w : p.bc = p.bc := rfl
  refine ⟨(h4 (leg p.bc s 0)).1, ?_, (h4 (leg p.bc s 3)).1, ?_⟩
  · have := east_eq (bc := p.bc) (p := q) (s := s) e2 e3
    rw [show q.east r c = weight q (leg p.bc s 2) from this]
    exact (h4 _).1
  · have := south_eq (bc := p.bc) (p := q) (s := s) e1 e3
    rw [show q.south r c = weight q (leg p.bc s 1) from this]
    exact (h4 _).1

open Classical in
/-- **C96.** If nothing is truncated, the tensor product state is, up to the product of the reported
norms, the product of the gates applied to the initial basis state. -/
theorem C96_workflow {Q : Type*} [AddCommGroup Q] {lib : Lib 𝕜} (hlib : Exact lib)
    (hsvd : SvdNonNeg lib) {tol : ℝ} (htol : 0 ≤ tol) (ham : Option (Tn 𝕜)) (act : ℕ → ℕ → ℕ)
    (p : QPeps Q 𝕜) (hr : 0 < p.rows) (hc : 0 < p.cols) (steps : List (Step 𝕜 p.rows p.cols))
    (hst : ∀ st ∈ steps, st.WellPlaced p.bc (physDim p))
    (hl : Lossless p.bc lib tol ham (initial act p).peps steps) :
    ∃ ten, toTps (runAll lib tol ham (initial act p).peps steps).1 =
        some ⟨p.rows, p.cols, p.bc, ten⟩ ∧
      ∃ φ, Tps.Spec.IsWave ⟨p.rows, p.cols, p.bc, ten⟩ φ ∧
        ∀ σ, (∀ s, σ s < physDim p s) →
          ((runAll lib tol ham (initial act p).peps steps).2 : 𝕜) * φ σ =
            applyAll (physDim p) (fun τ => if ∀ s, τ s = act s.1 s.2 then 1 else 0) steps σ := by
  obtain ⟨h1, h2⟩ := initial_convertible act p hr
  obtain ⟨-, h4⟩ := history_convertible hsvd tol ham steps hst h1 h2
  obtain ⟨φ, h5, h6⟩ := C92_history_of_projections hlib htol ham steps hst _ _
    (C95_initial_is_product_state act p hr).1 hl
  obtain ⟨ten, e, φ', h7, h8⟩ := C94_same_wave_function h5 hr hc (fun b => (h4 b).1)
    fun b => (h4 b).2
  exact ⟨ten, e, φ', h7, fun σ hσ => by rw [h8 σ hσ]; exact h6 σ hσ⟩

/-! ## The hypotheses can be met -/

theorem idLib_nonneg : SvdNonNeg (idLib : Lib 𝕜) := fun _ _ _ _ => zero_le_one

theorem forN_ind {S : Type*} {P : S → Prop} {f : ℕ → S → S} (hf : ∀ n s, P s → P (f n s)) (n : ℕ)
    {s : S} (hs : P s) : P (forN n f s) := by
  induction n with
  | zero => exact hs
  | succ n ih => exact hf n _ ih

/-- all weights are one, also outside the lattice -/
def UnitQ {Q : Type*} (p : QPeps Q 𝕜) : Prop :=
  (∀ r c i, (p.lamH r c).d.val i = 1) ∧ ∀ r c i, (p.lamV r c).d.val i = 1

theorem unitQ_initial {Q : Type*} [AddCommGroup Q] (act : ℕ → ℕ → ℕ) (p : QPeps Q 𝕜) (h : UnitQ p) :
    UnitQ (initial act p) := by
  have hH : ∀ (p : QPeps Q 𝕜) r c q, UnitQ p → UnitQ (p.setH r c (oneDiag q)) := by
    intro p r c q h
    refine ⟨fun r' c' i => ?_, h.2⟩
    simp only [QPeps.setH]
    split
    · rfl
    · exact h.1 _ _ _
  have hV : ∀ (p : QPeps Q 𝕜) r c q, UnitQ p → UnitQ (p.setV r c (oneDiag q)) := by
    intro p r c q h
    refine ⟨h.1, fun r' c' i => ?_⟩
    simp only [QPeps.setV]
    split
    · rfl
    · exact h.2 _ _ _
  have hs : ∀ row n (p : QPeps Q 𝕜), UnitQ p → UnitQ (initSite act row n p) := fun _ _ p h => h
  have hl : ∀ n (p : QPeps Q 𝕜), UnitQ p → UnitQ (initLast act n p) := by
    intro n p h
    unfold initLast
    dsimp only
    repeat' split
    all_goals first | exact hH _ _ _ _ h | exact h
  have ha : ∀ row (p : QPeps Q 𝕜), UnitQ p → UnitQ (initAbove row p) := fun row p h =>
    forN_ind (fun n s h => hV _ _ _ _ h) _ h
  have hfr : ∀ p : QPeps Q 𝕜, UnitQ p → UnitQ (initFrame p) := by
    intro p h
    unfold initFrame
    dsimp only
    refine forN_ind (fun n s h => forN_ind (fun _ _ h => hH _ _ _ _ h) _ h) _ ?_
    have h1 := forN_ind (P := UnitQ) (f := fun c p => p.setV 0 c (oneDiag (0 : Q)))
      (fun n (s : QPeps Q 𝕜) h => hV _ _ _ _ h) p.cols h
    generalize forN p.cols (fun c p => p.setV 0 c (oneDiag (0 : Q))) p = p1 at *
    have h2 : UnitQ (if p1.bc = .obc then
        forN p1.cols (fun c p => p.setV p.rows c (oneDiag 0)) p1 else p1) := by
      split
      · exact forN_ind (fun n s h => hV _ _ _ _ h) _ h1
      · exact h1
    generalize (if p1.bc = .obc then
        forN p1.cols (fun c p => p.setV p.rows c (oneDiag 0)) p1 else p1) = p2 at *
    have h3 := forN_ind (P := UnitQ) (f := fun r p => p.setH r 0 (oneDiag (0 : Q)))
      (fun n (s : QPeps Q 𝕜) h => hH _ _ _ _ h) p2.rows h2
    generalize forN p2.rows (fun r p => p.setH r 0 (oneDiag (0 : Q))) p2 = p3 at *
    split
    · exact forN_ind (fun n s h => hH _ _ _ _ h) _ h3
    · exact h3
  unfold initial
  dsimp only
  refine forN_ind hl _ ?_
  have h1 := forN_ind (hs 0) (initFrame p).cols (hfr p h)
  generalize forN (initFrame p).cols (initSite act 0) (initFrame p) = p1 at *
  have h2 : UnitQ (forN (p1.rows - 2) (fun k p => forN (initAbove (k + 1) p).cols (initSite act (k + 1))
      (initAbove (k + 1) p)) p1) :=
    forN_ind (fun n s h => forN_ind (hs _) _ (ha _ _ h)) _ h1
  generalize (forN (p1.rows - 2) (fun k p => forN (initAbove (k + 1) p).cols (initSite act (k + 1))
      (initAbove (k + 1) p)) p1) = p2 at *
  split
  · exact ha _ _ h2
  · exact h2

/-- a bond and a triangle -/
def flowSteps : List (Step ℝ 2 2) :=
  [.bond .horizontal (0, 0) (0, 1) gateB, .triangle .upperLeft (0, 1) (0, 0) (1, 0) gateT]

/-- C96 on a fresh PEPS: the hypotheses hold, and the state is not zero -/
example : ∃ ten, toTps (runAll idLib (1 / 2) none (initial (fun _ _ => 0) (freshPeps .obc)).peps
      flowSteps).1 = some ⟨2, 2, .obc, ten⟩ ∧
      ∃ φ : (Site 2 2 → ℕ) → ℝ, Tps.Spec.IsWave ⟨2, 2, .obc, ten⟩ φ ∧ ∃ σ, φ σ ≠ 0 := by
  have hu : Unit (initial (fun _ _ => 0) (freshPeps .obc)).peps :=
    unitQ_initial _ _ ⟨fun _ _ _ => rfl, fun _ _ _ => rfl⟩
  have hst : ∀ st ∈ flowSteps, st.WellPlaced .obc fun _ => 2 := by
    intro st hst
    rcases List.mem_cons.1 hst with rfl | hst
    · exact ⟨by decide, rfl, rfl⟩
    · rcases List.mem_cons.1 hst with rfl | hst
      · exact ⟨by decide, by decide, rfl, rfl, rfl⟩
      · exact absurd hst List.not_mem_nil
  obtain ⟨ten, e, φ, h1, h2⟩ := C96_workflow (Q := ℤ) (𝕜 := ℝ) idLib_exact idLib_nonneg
    (tol := 1 / 2) (by norm_num) none (fun _ _ => 0) (freshPeps .obc) (by decide) (by decide)
    flowSteps hst
    (unit_lossless hu (by norm_num) none _)
  refine ⟨ten, e, φ, h1, fun _ => 0, fun h => ?_⟩
  have h3 : (_ : ℝ) * φ (fun _ => 0) = applyAll (rows := 2) (cols := 2) (fun _ => 2)
    (fun τ : Site 2 2 → ℕ => if ∀ s, τ s = 0 then 1 else 0) flowSteps (fun _ => 0) :=
    (h2 (fun _ => (0 : ℕ)) (fun _ => by norm_num [physDim, freshPeps])).trans (by congr!)
  rw [show φ (fun _ => 0) = 0 from h, mul_zero] at h3
  simp [flowSteps, applyAll, Step.apply, apply2, apply3, gateB, gateT, Finset.sum_range_succ,
    Prod.forall, Fin.forall_fin_two, Function.update] at h3
  norm_num at h3

end QLPeps.Peps
