import Verif.Lemmas.SolverRun
import Verif.Props.BmpsTraversal

/-! # The energies the solvers return on the boundary-MPS contractor -/

namespace QLPeps.SolverRun

universe u

open QLPeps.Contractor QLPeps.Energy QLPeps.Bmps QLPeps.SolverRun.Spec
open QLPeps.Peps (Tn Lib dag)
open QLPeps.Bmps.Spec (Lossless Fits value pair ExactVisit)
open QLPeps.Tps.Spec (Bond)

noncomputable section

variable {𝕜 : Type u} [RCLike 𝕜] {rows cols : ℕ} {lib : Lib 𝕜} {dim : Bond .obc rows cols → ℕ}
  {sitps : Site → ℕ → Tn 𝕜} {d : ℕ}

theorem run_all {t : Site → Tn 𝕜} (hl : Lossless lib) (hf : Fits t dim) (isZero : 𝕜 → Bool)
    (pl : Plan (Tn 𝕜)) (hr : 2 ≤ rows) (hc : 2 ≤ cols) (h5 : pl.links5 = true → 3 ≤ rows)
    (c : Ctr (List (Tn 𝕜)) (Tn 𝕜) (Tn 𝕜)) (hfresh : Fresh (tensorOps lib rows cols) rows cols t c) :
    (isZero (value dim t) = true →
      Contractor.traverseAll (tensorOps5 lib rows cols) rows cols t isZero pl c = .error .zeroAmplitude) ∧
    (isZero (value dim t) = false → ∃ c',
      Contractor.traverseAll (tensorOps5 lib rows cols) rows cols t isZero pl c =
        .ok (allVisits (tensorOps5 lib rows cols) rows cols t pl, c') ∧
      Fresh (tensorOps lib rows cols) rows cols t c') := by
  obtain ⟨a1, a2⟩ := C77_traversal_sees_current_amplitudes (tensorOps5 lib rows cols) rows cols t isZero
    pl hr hc h5 c hfresh
  have hcol : bondAmp (tensorOps5 lib rows cols).toOps rows cols t .vertical (0, 0) (1, 0) =
      value dim t := (C99_bond_trace_exact hl hf 0 0).2 (by omega) (by omega)
  refine ⟨fun hz => a1 (Or.inr ⟨0, by omega, by rw [hcol]; exact hz⟩), fun hz => ?_⟩
  obtain ⟨c', e, g⟩ := a2
    (by
      rintro ⟨-, row, hrow, h⟩
      rw [ops5_toOps, (C99_bond_trace_exact hl hf row 0).1 hrow (by omega), hz] at h
      exact absurd h (by simp))
    (by
      rintro ⟨col, hcol, h⟩
      rw [ops5_toOps, (C99_bond_trace_exact hl hf 0 col).2 (by omega) hcol, hz] at h
      exact absurd h (by simp))
  exact ⟨c', e, g⟩

theorem all_exact {t : Site → Tn 𝕜} (hl : Lossless lib) (hf : Fits t dim)
    (pl : Plan (Tn 𝕜)) (hr : 2 ≤ rows) (hc : 2 ≤ cols) (v : V 𝕜)
    (hv : v ∈ allVisits (tensorOps5 lib rows cols) rows cols t pl) : ExactVisit dim t pl.corr v := by
  simp only [allVisits, List.mem_append, List.mem_flatMap, List.mem_range] at hv
  rcases hv with ⟨row, hrow, hv⟩ | ⟨col, hcol, hv⟩
  · exact rowVisits_exact hl hf pl hc row hrow v hv
  · exact colVisits_exact hl hf pl hr col hcol v hv

theorem rows_exact {t : Site → Tn 𝕜} (hl : Lossless lib) (hf : Fits t dim)
    (pl : Plan (Tn 𝕜)) (hc : 2 ≤ cols) (v : V 𝕜)
    (hv : v ∈ (List.range rows).flatMap (rowVisits (tensorOps5 lib rows cols) rows cols t pl)) :
    ExactVisit dim t pl.corr v := by
  simp only [List.mem_flatMap, List.mem_range] at hv
  obtain ⟨row, hrow, hv⟩ := hv
  exact rowVisits_exact hl hf pl hc row hrow v hv

theorem rows_head (o : Ops5 (Tn 𝕜) (Tn 𝕜) (List (Tn 𝕜)) (Tn 𝕜) (Tn 𝕜) 𝕜 (Tn 𝕜)) (t : Site → Tn 𝕜)
    (hole sites links links5 : Bool) (hr : 1 ≤ rows) :
    ∃ a vs, (List.range rows).flatMap (rowVisits o rows cols t
      ⟨true, hole, sites, links, links5, fun _ => none⟩) = Visit.psi .horizontal (0, 0) a :: vs := by
  obtain ⟨n, rfl⟩ : ∃ n, rows = n + 1 := ⟨rows - 1, by omega⟩
  rw [List.range_succ_eq_map, List.flatMap_cons]
  exact ⟨_, _, rfl⟩

theorem all_head (o : Ops5 (Tn 𝕜) (Tn 𝕜) (List (Tn 𝕜)) (Tn 𝕜) (Tn 𝕜) 𝕜 (Tn 𝕜)) (t : Site → Tn 𝕜)
    (hole sites links links5 : Bool) (hr : 1 ≤ rows) :
    ∃ a vs, allVisits o rows cols t
      ⟨true, hole, sites, links, links5, fun _ => none⟩ = Visit.psi .horizontal (0, 0) a :: vs := by
  obtain ⟨a, vs, e⟩ := rows_head o t hole sites links links5 hr (cols := cols)
  rw [allVisits, e]
  exact ⟨a, _, rfl⟩

/-- the energy of a list of exact visits that starts with an amplitude -/
theorem energy_of_exact (term : V 𝕜 → 𝕜 → Option 𝕜) (g : V 𝕜 → 𝕜) {t : Site → Tn 𝕜}
    (x1 : ℕ → Option (Tn 𝕜)) (vs : List (V 𝕜)) (hvs : ∀ v ∈ vs, ExactVisit dim t x1 v)
    (hhead : ∃ d s a ws, vs = Visit.psi d s a :: ws) (hg0 : ∀ d s a, g (.psi d s a) = 0)
    (hg : ∀ v ∈ vs, term v (1 / value dim t) = some (g v)) :
    energyOf term vs = some ((vs.map g).sum) := by
  obtain ⟨d, s, a, ws, rfl⟩ := hhead
  exact energyOf_eq term g (value dim t) d s a ws (fun d s a h => hvs _ h) hg0
    fun v hv _ => hg v (List.mem_cons_of_mem _ hv)

/-- the contribution of a visit for an exchange model -/
def pairVal (m : PairModel 𝕜) (C : Contr 𝕜) (cfg : Config) (inv : 𝕜) : V 𝕜 → 𝕜
  | .bond d s1 s2 _ => m.at' C cfg inv ⟨s1, s2, orientKind d⟩
  | .link d s1 s2 _ => m.at' C cfg inv ⟨s1, s2, diagKind d⟩
  | _ => 0

theorem pairTerm_eq (hf : FitsAll dim sitps d) (cfg : Config) (hcfg : ∀ s, cfg s < d)
    (m : PairModel 𝕜) (inv : 𝕜) (x1 : ℕ → Option (Tn 𝕜)) (v : V 𝕜)
    (hv : ExactVisit dim (project sitps cfg) x1 v) (hin : sitesIn rows cols v) :
    pairTerm sitps cfg m v inv =
      some (pairVal m (QLPeps.Spec.exact (amplitude dim sitps) cfg) cfg inv v) := by
  cases v with
  | bond dd s1 s2 q =>
    rw [pairTerm, exchanged_eq hf cfg hcfg s1 s2 hin.1 hin.2 q hv]; rfl
  | link dd s1 s2 q =>
    rw [pairTerm, exchanged_eq hf cfg hcfg s1 s2 hin.1 hin.2 q hv]; rfl
  | _ => rfl

theorem sumTo_ite (n : ℕ) (p : Prop) [Decidable p] (f : ℕ → 𝕜) :
    (sumTo n fun i => if p then f i else 0) = if p then sumTo n f else 0 := by
  split
  · rfl
  · exact sumTo_zero_fun n

theorem map_sum (n : ℕ) {α : Type*} (f : ℕ → α) (g : α → 𝕜) :
    (((List.range n).map f).map g).sum = sumTo n fun i => g (f i) := by
  rw [List.map_map]; rfl

/-- the sum over the visits is the sum over the bonds -/
theorem pair_sum (m : PairModel 𝕜) (C : Contr 𝕜) (cfg : Config) (inv : 𝕜) (t : Site → Tn 𝕜)
    (hole : Bool) :
    ((allVisits (tensorOps5 lib rows cols) rows cols t
      ⟨true, hole, false, m.nnn, false, fun _ => none⟩).map (pairVal m C cfg inv)).sum =
    ((obcBonds rows cols m.nnn).map (m.at' C cfg inv)).sum := by
  rw [all_sum, obcBonds, List.map_append, List.sum_append, sum_flatMap, sum_flatMap]
  congr 1
  · refine sumTo_congr fun row hrow => ?_
    rw [row_sum _ _ _ (fun _ _ _ => rfl), rowBonds, List.map_append, List.sum_append, map_sum,
      sumTo_congr (g := fun _ => (0 : 𝕜)) fun col _ => by simp [pairVal], sumTo_zero_fun, zero_add]
    congr 1
    by_cases h : m.nnn = true ∧ row + 1 < rows
    · have h' : m.nnn = true ∧ row < rows - 1 := ⟨h.1, by omega⟩
      rw [if_pos h, if_neg (by simp), add_zero, if_pos h', sum_flatMap]
      refine sumTo_congr fun col _ => ?_
      simp only [List.map_cons, List.map_nil, List.sum_cons, List.sum_nil, add_zero]
      rfl
    · rw [if_neg h, if_neg (by rintro ⟨h1, h2⟩; exact h ⟨h1, by omega⟩)]; rfl
  · refine sumTo_congr fun col hcol => ?_
    rw [col_sum _ _ _ (fun _ _ _ => rfl), colBonds, map_sum, if_neg (by simp), add_zero]
    rfl

/-- the contribution of a visit for the Ising model -/
def tfimVal (h : 𝕜) (C : Contr 𝕜) (inv : 𝕜) : V 𝕜 → 𝕜
  | .site s _ => tfimFlip h inv (C.flip s)
  | _ => 0

/-- the contribution of a visit for the triangular model -/
def triVal (j2 : 𝕜) (C : Contr 𝕜) (cfg : Config) (inv : 𝕜) : V 𝕜 → 𝕜
  | .bond _ s1 s2 _ => xxzValue 1 1 cfg s1 s2 inv (C.ex s1 s2)
  | .link .leftDownToRightUp s1 s2 _ => xxzValue 1 1 cfg s1 s2 inv (C.ex s1 s2)
  | .link .leftUpToRightDown s1 s2 _ => j2 * xxzValue 1 1 cfg s1 s2 inv (C.ex s1 s2)
  | .link5 _ s1 s2 _ => j2 * xxzValue 1 1 cfg s1 s2 inv (C.ex s1 s2)
  | _ => 0

theorem tfimTerm_eq (hf : FitsAll dim sitps d) (hd : 1 < d) (cfg : Config) (hcfg : ∀ s, cfg s < d)
    (h inv : 𝕜) (v : V 𝕜)
    (hv : ExactVisit dim (project sitps cfg) (fun _ => none) v) (hin : sitesIn rows cols v) :
    tfimTerm sitps cfg h v inv =
      some (tfimVal h (QLPeps.Spec.exact (amplitude dim sitps) cfg) inv v) := by
  cases v with
  | site s q => rw [tfimTerm, flipped_eq hf cfg hcfg s hin hd q hv]; rfl
  | _ => rfl

theorem triTerm_eq (hf : FitsAll dim sitps d) (cfg : Config) (hcfg : ∀ s, cfg s < d)
    (j2 inv : 𝕜) (x1 : ℕ → Option (Tn 𝕜)) (v : V 𝕜)
    (hv : ExactVisit dim (project sitps cfg) x1 v) (hin : sitesIn rows cols v) :
    triTerm sitps cfg j2 v inv =
      some (triVal j2 (QLPeps.Spec.exact (amplitude dim sitps) cfg) cfg inv v) := by
  cases v with
  | bond dd s1 s2 q =>
    rw [triTerm, exchanged_eq hf cfg hcfg s1 s2 hin.1 hin.2 q hv]; rfl
  | link dd s1 s2 q =>
    cases dd <;> rw [triTerm, exchanged_eq hf cfg hcfg s1 s2 hin.1 hin.2 q hv] <;> rfl
  | link5 dd s1 s2 q =>
    rw [triTerm, exchanged_eq hf cfg hcfg s1 s2 hin.1 hin.2 q hv]; rfl
  | _ => rfl

theorem tfim_sum (h : 𝕜) (C : Contr 𝕜) (inv : 𝕜) (t : Site → Tn 𝕜) (hole : Bool) :
    (((List.range rows).flatMap (rowVisits (tensorOps5 lib rows cols) rows cols t
      ⟨true, hole, true, false, false, fun _ => none⟩)).map (tfimVal h C inv)).sum =
    sumTo rows fun r => sumTo cols fun c => tfimFlip h inv (C.flip (r, c)) := by
  rw [sum_flatMap]
  refine sumTo_congr fun row hrow => ?_
  rw [row_sum _ _ _ (fun _ _ _ => rfl), if_neg (by simp), add_zero,
    sumTo_congr (n := cols - 1) (f := fun col => tfimVal h C inv (seeBond (tensorOps5 lib rows cols)
      rows cols t .horizontal (row, col) (row, col + 1))) (g := fun _ => (0 : 𝕜)) fun col _ => rfl,
    sumTo_zero_fun, add_zero]
  refine sumTo_congr fun col _ => ?_
  simp [tfimVal, seeSite]

theorem sumTo_mul (n : ℕ) (a : 𝕜) (f : ℕ → 𝕜) : (sumTo n fun i => a * f i) = a * sumTo n f := by
  induction n with
  | zero => simp [sumTo]
  | succ n ih => rw [sumTo_succ, sumTo_succ, ih, mul_add]

theorem tri_sum (j2 : 𝕜) (C : Contr 𝕜) (cfg : Config) (inv : 𝕜) (t : Site → Tn 𝕜) (hole : Bool) :
    let W := fun a b => xxzValue 1 1 cfg a b inv (C.ex a b)
    ((allVisits (tensorOps5 lib rows cols) rows cols t
      ⟨true, hole, false, true, true, fun _ => none⟩).map (triVal j2 C cfg inv)).sum =
      sumTo rows (fun r => sumTo (cols - 1) (fun c => W (r, c) (r, c + 1))) +
        sumTo cols (fun c => sumTo (rows - 1) (fun r => W (r, c) (r + 1, c))) +
        sumTo (rows - 1) (fun r => sumTo (cols - 1) (fun c => W (r + 1, c) (r, c + 1))) +
        j2 * (sumTo (rows - 1) (fun r => sumTo (cols - 1) (fun c => W (r, c) (r + 1, c + 1))) +
          sumTo (rows - 1) (fun r => sumTo (cols - 2) (fun c => W (r + 1, c) (r, c + 2))) +
          sumTo (cols - 1) (fun c => sumTo (rows - 2) (fun r => W (r + 2, c) (r, c + 1)))) := by
  intro W
  have h1 : (sumTo rows fun row => ((rowVisits (tensorOps5 lib rows cols) rows cols t
      ⟨true, hole, false, true, true, fun _ => none⟩ row).map (triVal j2 C cfg inv)).sum) =
      sumTo rows (fun r => sumTo (cols - 1) (fun c => W (r, c) (r, c + 1))) +
      sumTo (rows - 1) fun r => (sumTo (cols - 1) fun c => j2 * W (r, c) (r + 1, c + 1) +
        W (r + 1, c) (r, c + 1)) + sumTo (cols - 2) fun c => j2 * W (r + 1, c) (r, c + 2) := by
    rw [← sumTo_if rows, ← sumTo_add]
    refine sumTo_congr fun row _ => ?_
    rw [row_sum _ _ _ (fun _ _ _ => rfl),
      sumTo_congr (n := cols) (g := fun _ => (0 : 𝕜)) fun col _ => by simp [triVal], sumTo_zero_fun,
      zero_add]
    congr 1
    simp only [true_and, if_true]
    rfl
  have h2 : (sumTo cols fun col => ((colVisits (tensorOps5 lib rows cols) rows cols t
      ⟨true, hole, false, true, true, fun _ => none⟩ col).map (triVal j2 C cfg inv)).sum) =
      sumTo cols (fun c => sumTo (rows - 1) (fun r => W (r, c) (r + 1, c))) +
      sumTo (cols - 1) fun c => sumTo (rows - 2) fun r => j2 * W (r + 2, c) (r, c + 1) := by
    rw [← sumTo_if cols, ← sumTo_add]
    refine sumTo_congr fun col _ => ?_
    rw [col_sum _ _ _ (fun _ _ _ => rfl)]
    congr 1
    simp only [true_and]
    rfl
  rw [all_sum, h1, h2]
  simp only [sumTo_add, sumTo_mul]
  ring

theorem pairSolver_ok {cfg : Config} {isZero : 𝕜 → Bool} {hole : Bool} {m : PairModel 𝕜}
    {c c' : Ctr (List (Tn 𝕜)) (Tn 𝕜) (Tn 𝕜)} {vs : List (V 𝕜)} {e : 𝕜}
    (h : Contractor.traverseAll (tensorOps5 lib rows cols) rows cols (project sitps cfg) isZero
      ⟨true, hole, false, m.nnn, false, fun _ => none⟩ c = .ok (vs, c'))
    (he : energyOf (pairTerm sitps cfg m) vs = some e) :
    pairSolver lib rows cols sitps cfg isZero hole m c =
      .ok ⟨e + m.onsite cfg, holeList vs, psiList vs, c'⟩ := by
  simp only [pairSolver, h, bind, Except.bind, he, access, pure, Except.pure]

theorem triSolver_ok {cfg : Config} {hole : Bool} {j2 : 𝕜}
    {c c' : Ctr (List (Tn 𝕜)) (Tn 𝕜) (Tn 𝕜)} {vs : List (V 𝕜)} {e : 𝕜}
    (h : Contractor.traverseAll (tensorOps5 lib rows cols) rows cols (project sitps cfg)
      (fun _ => false) ⟨true, hole, false, true, true, fun _ => none⟩ c = .ok (vs, c'))
    (he : energyOf (triTerm sitps cfg j2) vs = some e) :
    triSolver lib rows cols sitps cfg hole j2 c = .ok ⟨e, holeList vs, psiList vs, c'⟩ := by
  simp only [triSolver, h, bind, Except.bind, he, access, pure, Except.pure]

theorem tfimSolver_ok {cfg : Config} {hole : Bool} {g : 𝕜}
    {c c' : Ctr (List (Tn 𝕜)) (Tn 𝕜) (Tn 𝕜)} {vs : List (V 𝕜)} {e : 𝕜}
    (h : traverseHorizontal (tensorOps5 lib rows cols) rows cols (project sitps cfg)
      (fun _ => false) ⟨true, hole, true, false, false, fun _ => none⟩ c = .ok (vs, c'))
    (he : energyOf (tfimTerm sitps cfg g) vs = some e) :
    tfimSolver lib rows cols sitps cfg hole g c =
      .ok ⟨e + tfimDiagOBC cfg rows cols, holeList vs, psiList vs, c'⟩ := by
  simp only [tfimSolver, h, bind, Except.bind, he, access, pure, Except.pure]

end

end QLPeps.SolverRun
