import Verif.Lemmas.Chain
import Verif.Props.Stationary

/-!
# Sweeps with exact amplitudes as chains of updates
-/

open MeasureTheory ProbabilityTheory Set

namespace QLPeps.Chain

open Spec QLPeps.Updaters QLPeps.Sweep QLPeps.SuwaTodo

/-! ## Measurability of the rejection-free choice -/

theorem measurable_wrapOnce (S : ℝ) : Measurable (wrapOnce S) :=
  Measurable.ite measurableSet_Ici (measurable_id.sub_const S) measurable_id

theorem measurable_upperBound (s : List ℝ) : Measurable (upperBound s) := by
  induction s with
  | nil => exact measurable_const
  | cons a s ih =>
    have : upperBound (a :: s) = fun x => if x < a then 0 else upperBound s x + 1 := by
      funext x
      simp only [upperBound, List.findIdx_cons]
      by_cases h : x < a <;> simp [h]
    rw [this]
    exact Measurable.ite measurableSet_Iio measurable_const (ih.add_const 1)

theorem measurable_ringStep (w : List ℝ) (w0 wi : ℝ) (i : ℕ) :
    Measurable (ringStep w w0 wi i) := by
  unfold ringStep
  exact (measurable_upperBound _).comp ((measurable_wrapOnce _).comp
    ((measurable_id.mul_const wi).const_add _))

theorem suwaTodo_cases (w : List ℝ) (i : ℕ) :
    (∀ u, suwaTodo w i u = none) ∨ ∃ g : ℝ → ℕ, Measurable g ∧ ∀ u, suwaTodo w i u = some (g u) := by
  unfold suwaTodo
  by_cases h : i < w.length
  · simp only [if_pos h]
    split
    · right
      refine ⟨_, ?_, fun u => rfl⟩
      split_ifs
      · exact (measurable_of_countable (relabel (maxWeightId w))).comp (measurable_ringStep _ _ _ _)
      · exact measurable_ringStep _ _ _ _
    · exact Or.inl fun _ => rfl
  · left; intro u; rw [if_neg h]

theorem measurableSet_suwaTodo (w : List ℝ) (i : ℕ) (P : Option ℕ → Prop) :
    MeasurableSet {u : ℝ | u ∈ Ico (0 : ℝ) 1 ∧ P (suwaTodo w i u)} := by
  refine measurableSet_Ico.inter ?_
  rcases suwaTodo_cases w i with h | ⟨g, hg, h⟩
  · simp only [h]
    exact MeasurableSet.const (P none)
  · simp only [h]
    exact hg (MeasurableSet.of_discrete (s := {n : ℕ | P (some n)}))

/-! ## Updates with exact amplitudes -/

variable {A : Type*}

/-- a walker with the amplitude of its configuration -/
def emb (ψ : Config → A) (p : Config × ℕ) : Walker A Unit := ⟨p.1, ψ p.1, (), p.2⟩

/-- a local update as a move between configurations -/
def updOf (ψ : Config → A) (step : (ℕ → ℝ) → Walker A Unit → Option (Walker A Unit × Bool))
    (k : Config → ℕ) : Upd Config where
  move c u := (step (fun _ => u) ⟨c, ψ c, (), 0⟩).map fun r => r.1.config
  draws := k

/-- the update takes `k c` numbers from the stream, looks only at the first, and keeps the
amplitude exact -/
def Reads (ψ : Config → A) (step : (ℕ → ℝ) → Walker A Unit → Option (Walker A Unit × Bool))
    (k : Config → ℕ) : Prop :=
  ∀ ξ c n, (step ξ ⟨c, ψ c, (), n⟩).map Prod.fst =
    (step (fun _ => ξ n) ⟨c, ψ c, (), 0⟩).map fun r => ⟨r.1.config, ψ r.1.config, (), n + k c⟩

theorem Reads.liftUpd {ψ : Config → A}
    {step : (ℕ → ℝ) → Walker A Unit → Option (Walker A Unit × Bool)} {k : Config → ℕ}
    (h : Reads ψ step k) (ξ : ℕ → ℝ) (o : Option (Config × ℕ)) :
    (liftUpd (step ξ) (o.map (emb ψ))).1 =
      (o.bind fun p => run [updOf ψ step k] ξ p.1 p.2).map (emb ψ) := by
  cases o with
  | none => rfl
  | some p =>
    have e := h ξ p.1 p.2
    have e1 : (Updaters.liftUpd (step ξ) (some (emb ψ p))).1 =
        (step ξ ⟨p.1, ψ p.1, (), p.2⟩).map Prod.fst := by
      simp only [Updaters.liftUpd, emb]
      cases step ξ ⟨p.1, ψ p.1, (), p.2⟩ <;> rfl
    simp only [Option.map_some, Option.bind_some, run, updOf]
    rw [e1, e]
    cases step (fun _ => ξ p.2) ⟨p.1, ψ p.1, (), 0⟩ <;> rfl

/-- a piece of a sweep that performs updates out of `V` -/
def Runs (V : Set (Upd Config)) (ψ : Config → A)
    (F : (ℕ → ℝ) → Option (Walker A Unit) × ℕ → Option (Walker A Unit) × ℕ) : Prop :=
  ∃ L : List (Upd Config), (∀ v ∈ L, v ∈ V) ∧ ∀ ξ m (o : Option (Config × ℕ)),
    (F ξ (o.map (emb ψ), m)).1 = (o.bind fun p => run L ξ p.1 p.2).map (emb ψ)

theorem Runs.id (V : Set (Upd Config)) (ψ : Config → A) : Runs V ψ fun _ s => s :=
  ⟨[], by simp, fun ξ m o => by cases o <;> rfl⟩

theorem Runs.comp {V : Set (Upd Config)} {ψ : Config → A}
    {F G : (ℕ → ℝ) → Option (Walker A Unit) × ℕ → Option (Walker A Unit) × ℕ}
    (hF : Runs V ψ F) (hG : Runs V ψ G) : Runs V ψ fun ξ s => G ξ (F ξ s) := by
  obtain ⟨L, h1, h2⟩ := hF
  obtain ⟨M, h3, h4⟩ := hG
  refine ⟨L ++ M, fun v hv => (List.mem_append.1 hv).elim (h1 v) (h3 v), fun ξ m o => ?_⟩
  have e : F ξ (o.map (emb ψ), m) =
      ((o.bind fun p => run L ξ p.1 p.2).map (emb ψ), (F ξ (o.map (emb ψ), m)).2) := by
    rw [← h2 ξ m o]
  dsimp only
  rw [e, h4]
  cases o with
  | none => rfl
  | some p => simp only [Option.bind_some, run_append]

theorem Runs.foldl {ι : Type*} {V : Set (Upd Config)} {ψ : Config → A}
    (F : ι → (ℕ → ℝ) → Option (Walker A Unit) × ℕ → Option (Walker A Unit) × ℕ) (l : List ι)
    (h : ∀ i ∈ l, Runs V ψ (F i)) : Runs V ψ fun ξ s => l.foldl (fun s i => F i ξ s) s := by
  induction l with
  | nil => exact Runs.id V ψ
  | cons i l ih => exact (h i (by simp)).comp (ih fun j hj => h j (by simp [hj]))

theorem Runs.iterate {V : Set (Upd Config)} {ψ : Config → A}
    {T : (ℕ → ℝ) → Option (Walker A Unit) → Option (Walker A Unit)}
    (h : Runs V ψ fun ξ s => (T ξ s.1, s.2)) (n : ℕ) :
    Runs V ψ fun ξ s => ((T ξ)^[n] s.1, s.2) := by
  induction n with
  | zero => exact Runs.id V ψ
  | succ n ih =>
    have := ih.comp h
    simp only [Function.iterate_succ', Function.comp]
    exact this

theorem Runs.foldl' {ι : Type*} {V : Set (Upd Config)} {ψ : Config → A}
    (T : ι → (ℕ → ℝ) → Option (Walker A Unit) → Option (Walker A Unit)) (l : List ι)
    (h : ∀ i ∈ l, Runs V ψ fun ξ s => (T i ξ s.1, s.2)) :
    Runs V ψ fun ξ s => (l.foldl (fun x i => T i ξ x) s.1, s.2) := by
  induction l with
  | nil => exact Runs.id V ψ
  | cons i l ih =>
    exact Runs.comp (h i (by simp)) (ih fun j hj => h j (by simp [hj]))

theorem Runs.upd {V : Set (Upd Config)} {ψ : Config → A}
    {step : (ℕ → ℝ) → Walker A Unit → Option (Walker A Unit × Bool)} {k : Config → ℕ}
    (h : Reads ψ step k) (hV : updOf ψ step k ∈ V) (f : (ℕ → ℝ) → Option (Walker A Unit) × ℕ → ℕ) :
    Runs V ψ fun ξ s => ((Updaters.liftUpd (step ξ) s.1).1, f ξ s) :=
  ⟨[updOf ψ step k], by simpa using hV, fun ξ _ o => h.liftUpd ξ o⟩

section ops
variable (ψ : Config → A)

theorem ops_gen (p : Pos) : (envOpsOption (exactContractor ψ)).generateBMPSApproach p = fun s => s := by
  funext o; cases o <;> rfl
theorem ops_init (p : Pos) (i : ℕ) : (envOpsOption (exactContractor ψ)).initBTen p i = fun s => s := by
  funext o; cases o <;> rfl
theorem ops_grow (p : Pos) (i r : ℕ) :
    (envOpsOption (exactContractor ψ)).growFullBTen p i r = fun s => s := by
  funext o; cases o <;> rfl
theorem ops_shift (p : Pos) : (envOpsOption (exactContractor ψ)).shiftBTenWindow p = fun s => s := by
  funext o; cases o <;> rfl
theorem ops_bmps (p : Pos) : (envOpsOption (exactContractor ψ)).shiftBMPSWindow p = fun s => s := by
  funext o; cases o <;> rfl
theorem ops_delete (p : Pos) : (envOpsOption (exactContractor ψ)).deleteInnerBMPS p = fun s => s := by
  funext o; cases o <;> rfl

end ops

theorem Runs.sweep {V : Set (Upd Config)} {ψ : Config → A} (rows cols : ℕ)
    (step : Site → Site → Orient → (ℕ → ℝ) → Walker A Unit → Option (Walker A Unit × Bool))
    (k : Site → Site → Orient → Config → ℕ)
    (hk : ∀ a b d, Reads ψ (step a b d) (k a b d))
    (hV : ∀ a b d, (a, b) ∈ obcBonds rows cols → updOf ψ (step a b d) (k a b d) ∈ V) :
    Runs V ψ fun ξ s => ((obcSweep (envOpsOption (exactContractor ψ))
      (fun a b d => Updaters.liftUpd (step a b d ξ)) rows cols s.1).1, s.2) := by
  have hh : Runs V ψ fun ξ s => horizontalLoop (envOpsOption (exactContractor ψ))
      (fun a b d => Updaters.liftUpd (step a b d ξ)) rows cols s := by
    unfold horizontalLoop
    refine Runs.foldl (fun row ξ s => _) _ fun row hrow => ?_
    simp only [ops_init, ops_grow, ops_bmps, ite_self]
    unfold rowLoop
    refine Runs.foldl (fun col ξ s => _) _ fun col hcol => ?_
    simp only [ops_shift, ite_self]
    refine Runs.upd (hk _ _ _) (hV _ _ _ ?_) _
    rw [List.mem_range] at hrow hcol
    rw [mem_obcBonds]
    exact ⟨⟨hrow, by dsimp only; omega⟩, ⟨hrow, by dsimp only; omega⟩, Or.inl ⟨rfl, rfl⟩⟩
  have hv : Runs V ψ fun ξ s => verticalLoop (envOpsOption (exactContractor ψ))
      (fun a b d => Updaters.liftUpd (step a b d ξ)) rows cols s := by
    unfold verticalLoop
    refine Runs.foldl (fun col ξ s => _) _ fun col hcol => ?_
    simp only [ops_init, ops_grow, ops_bmps, ite_self]
    unfold colLoop
    refine Runs.foldl (fun row ξ s => _) _ fun row hrow => ?_
    simp only [ops_shift, ite_self]
    refine Runs.upd (hk _ _ _) (hV _ _ _ ?_) _
    rw [List.mem_range] at hrow hcol
    rw [mem_obcBonds]
    exact ⟨⟨by dsimp only; omega, hcol⟩, ⟨by dsimp only; omega, hcol⟩, Or.inr ⟨rfl, rfl⟩⟩
  obtain ⟨L, h1, h2⟩ := hh.comp hv
  refine ⟨L, h1, fun ξ m o => ?_⟩
  rw [← h2 ξ 0 o]
  simp only [obcSweep, ops_gen, ops_delete]

/-- a step that changes nothing on walkers with exact amplitude -/
theorem Runs.still {V : Set (Upd Config)} {ψ : Config → A}
    (F : (ℕ → ℝ) → Option (Walker A Unit) × ℕ → Option (Walker A Unit) × ℕ)
    (h : ∀ ξ m (o : Option (Config × ℕ)), (F ξ (o.map (emb ψ), m)).1 = o.map (emb ψ)) : Runs V ψ F :=
  ⟨[], by simp, fun ξ m o => by rw [h]; cases o <;> rfl⟩

theorem Runs.sweep3 {V : Set (Upd Config)} {ψ : Config → A} (rows cols : ℕ)
    (step : Site → Site → Site → Orient → (ℕ → ℝ) → Walker A Unit → Option (Walker A Unit × Bool))
    (k : Site → Site → Site → Orient → Config → ℕ)
    (hk : ∀ a b e d, Reads ψ (step a b e d) (k a b e d))
    (hV : ∀ a b e d, (a, b) ∈ obcBonds rows cols → (b, e) ∈ obcBonds rows cols →
      (a.1 = e.1 ∨ a.2 = e.2) → updOf ψ (step a b e d) (k a b e d) ∈ V) :
    Runs V ψ fun ξ s => ((obcSweep3 (envOpsOption (exactContractor ψ))
      (fun a b e d => Option.map (refresh3 (exactContractor ψ) a b e d))
      (fun a b e d => Updaters.liftUpd (step a b e d ξ)) rows cols s.1).1, s.2) := by
  have hself : ∀ (c : Config) (a b e : Site), a ≠ b → b ≠ e → a ≠ e →
      setSite (setSite (setSite c a (c a)) b (c b)) e (c e) = c := by
    intro c a b e _ _ _
    funext p
    simp only [setSite]
    split_ifs with h1 h2 h3 <;> simp_all
  have hrefresh : ∀ (a b e : Site) (d : Orient), a ≠ b → b ≠ e → a ≠ e →
      Runs V ψ fun _ s => (Option.map (refresh3 (exactContractor ψ) a b e d) s.1, s.2) := by
    intro a b e d h1 h2 h3
    refine Runs.still _ fun ξ m o => ?_
    cases o with
    | none => rfl
    | some p =>
      simp only [Option.map_some, refresh3, emb, exactContractor, hself p.1 a b e h1 h2 h3]
  have hh : Runs V ψ fun ξ s => horizontalLoop3 (envOpsOption (exactContractor ψ))
      (fun a b e d => Option.map (refresh3 (exactContractor ψ) a b e d))
      (fun a b e d => Updaters.liftUpd (step a b e d ξ)) rows cols s := by
    unfold horizontalLoop3
    refine Runs.foldl (fun row ξ s => _) _ fun row hrow => ?_
    simp only [ops_init, ops_grow, ops_bmps, ite_self]
    refine Runs.comp (hrefresh (row, 0) (row, 1) (row, 2) .horizontal (by simp) (by simp) (by simp))
      (Runs.foldl (fun col ξ s => _) _ fun col hcol => ?_)
    simp only [ops_shift, ite_self]
    rw [List.mem_range] at hrow hcol
    refine Runs.upd (hk (row, col) (row, col + 1) (row, col + 2) .horizontal)
      (hV (row, col) (row, col + 1) (row, col + 2) .horizontal ?_ ?_ (Or.inl rfl)) _ <;>
    · rw [mem_obcBonds]
      exact ⟨⟨hrow, by dsimp only; omega⟩, ⟨hrow, by dsimp only; omega⟩, Or.inl ⟨rfl, rfl⟩⟩
  have hv : Runs V ψ fun ξ s => verticalLoop3 (envOpsOption (exactContractor ψ))
      (fun a b e d => Option.map (refresh3 (exactContractor ψ) a b e d))
      (fun a b e d => Updaters.liftUpd (step a b e d ξ)) rows cols s := by
    unfold verticalLoop3
    refine Runs.foldl (fun col ξ s => _) _ fun col hcol => ?_
    simp only [ops_init, ops_grow, ops_bmps, ite_self]
    refine Runs.comp (hrefresh (0, col) (1, col) (2, col) .vertical (by simp) (by simp) (by simp))
      (Runs.foldl (fun row ξ s => _) _ fun row hrow => ?_)
    simp only [ops_shift, ite_self]
    rw [List.mem_range] at hrow hcol
    refine Runs.upd (hk (row, col) (row + 1, col) (row + 2, col) .vertical)
      (hV (row, col) (row + 1, col) (row + 2, col) .vertical ?_ ?_ (Or.inr rfl)) _ <;>
    · rw [mem_obcBonds]
      exact ⟨⟨by dsimp only; omega, hcol⟩, ⟨by dsimp only; omega, hcol⟩, Or.inr ⟨rfl, rfl⟩⟩
  obtain ⟨L, h1, h2⟩ := hh.comp hv
  refine ⟨L, h1, fun ξ m o => ?_⟩
  rw [← h2 ξ 0 o]
  simp only [obcSweep3, ops_gen, ops_delete]

/-- the second site of the bond `draw` of the periodic updater -/
def pbcOther (rows cols : ℕ) (b : ℕ × ℕ × Orient) : Site :=
  match b.2.2 with
  | .horizontal => (b.1, (b.2.1 + 1) % cols)
  | .vertical => ((b.1 + 1) % rows, b.2.1)

theorem Runs.pbcSweep {V : Set (Upd Config)} {ψ : Config → A} (rows cols : ℕ)
    (draw : ℕ → ℕ × ℕ × Orient)
    (step : Site → Site → Orient → (ℕ → ℝ) → Walker A Unit → Option (Walker A Unit × Bool))
    (k : Site → Site → Orient → Config → ℕ)
    (hk : ∀ a b d, Reads ψ (step a b d) (k a b d))
    (hV : ∀ i, updOf ψ (step ((draw i).1, (draw i).2.1) (pbcOther rows cols (draw i)) (draw i).2.2)
      (k ((draw i).1, (draw i).2.1) (pbcOther rows cols (draw i)) (draw i).2.2) ∈ V) :
    Runs V ψ fun ξ s => ((Sweep.pbcSweep
      (fun a b d => Updaters.liftUpd (step a b d ξ)) rows cols draw s.1).1, s.2) := by
  have h : Runs V ψ fun ξ s => (List.range (rows * cols * 2)).foldl (fun sn i =>
      ((Updaters.liftUpd (step ((draw i).1, (draw i).2.1) (pbcOther rows cols (draw i)) (draw i).2.2 ξ)
        sn.1).1, sn.2 + (Updaters.liftUpd (step ((draw i).1, (draw i).2.1)
          (pbcOther rows cols (draw i)) (draw i).2.2 ξ) sn.1).2.toNat)) s :=
    Runs.foldl (fun i ξ s => _) _ fun i _ => Runs.upd (hk _ _ _) (hV i) _
  obtain ⟨L, h1, h2⟩ := h
  refine ⟨L, h1, fun ξ m o => ?_⟩
  rw [← h2 ξ 0 o]
  rfl

/-- a run of updates out of `V` samples what every update of `V` leaves invariant -/
theorem Runs.samples {S : Type*} [MeasurableSpace S] {μ : Measure S} [IsProbabilityMeasure μ]
    {U : ℕ → S → ℝ} (hU : IidUniform μ U) {V : Set (Upd Config)} {ψ : Config → A}
    {T : (ℕ → ℝ) → Option (Walker A Unit) → Option (Walker A Unit)}
    (h : Runs V ψ fun ξ s => (T ξ s.1, s.2)) (Ω : Finset Config) (wt : Config → ℝ)
    (hwt : ∀ c, 0 ≤ wt c) (hgood : ∀ v ∈ V, v.Good Ω)
    (hstat : ∀ v ∈ V, ∀ c' ∈ Ω, ∑ c ∈ Ω, wt c * v.prob c c' = wt c') (n : ℕ) :
    Samples μ U Ω wt fun ξ c => T ξ (some ⟨c, ψ c, (), n⟩) := by
  classical
  obtain ⟨L, h1, h2⟩ := h
  have key : ∀ c c' ω, EndsIn (T (fun i => U i ω) (some ⟨c, ψ c, (), n⟩)) c' ↔
      (run L (fun i => U i ω) c n).map Prod.fst = some c' := by
    intro c c' ω
    have e := h2 (fun i => U i ω) 0 (some (c, n))
    dsimp only [Option.map_some, Option.bind_some] at e
    have e' : T (fun i => U i ω) (some ⟨c, ψ c, (), n⟩) =
        (run L (fun i => U i ω) c n).map (emb ψ) := e
    rw [EndsIn, e']
    cases run L (fun i => U i ω) c n with
    | none => simp
    | some p => simp [emb]
  have g1 := fun v hv => hgood v (h1 v hv)
  have g2 := fun v hv => hstat v (h1 v hv)
  refine ⟨fun c hc c' => ?_, fun c' hc' => ?_, fun c hc hpos => ?_⟩
  · have e : {ω | EndsIn (T (fun i => U i ω) (some ⟨c, ψ c, (), n⟩)) c'} = event L U c c' n := by
      ext ω
      exact key c c' ω
    rw [e]
    exact tail_le_all n _ (event_tail hU Ω L g1 c c' hc n)
  · rw [← Chain.stationary hU Ω wt L g1 g2 n c' hc']
    refine Finset.sum_congr rfl fun c _ => ?_
    congr 4
    ext ω
    exact key c c' ω
  · rw [← reach hU Ω wt hwt L g1 g2 n c hc hpos]
    congr 1
    ext ω
    simp only [mem_ofPred_eq, mem_iUnion, Finset.mem_filter, exists_prop, event]
    exact exists_congr fun x => by rw [key, and_assoc]

end QLPeps.Chain
