import Verif.Model.SolverRun
import Verif.Spec.SolverRun
import Verif.Lemmas.BmpsVisits
import Verif.Lemmas.EnergyIsing
import Verif.Lemmas.EnergyMore
import Verif.Props.Traversal

/-! # Energy solvers on the boundary-MPS contractor -/

namespace QLPeps.SolverRun

universe u

open QLPeps.Contractor QLPeps.Energy QLPeps.Bmps QLPeps.SolverRun.Spec
open QLPeps.Peps (Tn Lib dag)
open QLPeps.Bmps.Spec (Lossless Fits value pair ExactVisit)
open QLPeps.Tps.Spec (Bond)

noncomputable section

variable {𝕜 : Type u} [RCLike 𝕜]

/-! ## sums over visits -/

abbrev V (𝕜 : Type u) := Visit (Tn 𝕜) 𝕜 (Tn 𝕜)

theorem fold_eq (term : V 𝕜 → 𝕜 → Option 𝕜) (g : V 𝕜 → 𝕜) (ψ : 𝕜) (vs : List (V 𝕜))
    (hpsi : ∀ d s a, Visit.psi d s a ∈ vs → a = ψ) (hg0 : ∀ d s a, g (.psi d s a) = 0)
    (hg : ∀ v ∈ vs, (∀ d s a, v ≠ .psi d s a) → term v (1 / ψ) = some (g v)) (e : 𝕜) :
    vs.foldlM (step term) (1 / ψ, e) = some (1 / ψ, e + (vs.map g).sum) := by
  induction vs generalizing e with
  | nil => simp
  | cons v vs ih =>
    have ih' := fun e => ih (fun d s a h => hpsi d s a (List.mem_cons_of_mem _ h))
      (fun v h => hg v (List.mem_cons_of_mem _ h)) e
    rw [List.foldlM_cons, List.map_cons, List.sum_cons]
    cases v with
    | psi d s a =>
      obtain rfl := hpsi d s a List.mem_cons_self
      simp only [step, hg0, zero_add]
      exact ih' e
    | hole s h =>
      simp only [step, hg _ List.mem_cons_self (by simp), Option.map_some]
      rw [← add_assoc]; exact ih' _
    | site s q =>
      simp only [step, hg _ List.mem_cons_self (by simp), Option.map_some]
      rw [← add_assoc]; exact ih' _
    | bond d s1 s2 q =>
      simp only [step, hg _ List.mem_cons_self (by simp), Option.map_some]
      rw [← add_assoc]; exact ih' _
    | link d s1 s2 q =>
      simp only [step, hg _ List.mem_cons_self (by simp), Option.map_some]
      rw [← add_assoc]; exact ih' _
    | link5 d s1 s2 q =>
      simp only [step, hg _ List.mem_cons_self (by simp), Option.map_some]
      rw [← add_assoc]; exact ih' _
    | pair s1 s2 q =>
      simp only [step, hg _ List.mem_cons_self (by simp), Option.map_some]
      rw [← add_assoc]; exact ih' _

theorem energyOf_eq (term : V 𝕜 → 𝕜 → Option 𝕜) (g : V 𝕜 → 𝕜) (ψ : 𝕜) (d : Orient) (s : Site)
    (a : 𝕜) (vs : List (V 𝕜))
    (hpsi : ∀ d' s' a', Visit.psi d' s' a' ∈ Visit.psi d s a :: vs → a' = ψ)
    (hg0 : ∀ d s a, g (.psi d s a) = 0)
    (hg : ∀ v ∈ vs, (∀ d s a, v ≠ .psi d s a) → term v (1 / ψ) = some (g v)) :
    energyOf term (.psi d s a :: vs) = some (((Visit.psi d s a :: vs).map g).sum) := by
  obtain rfl := hpsi d s a List.mem_cons_self
  rw [energyOf, List.foldlM_cons, List.map_cons, List.sum_cons, hg0]
  have := fold_eq term g a vs (fun d s a h => hpsi d s a (List.mem_cons_of_mem _ h)) hg0 hg 0
  simp only [step]
  rw [show (some (1 / a, (0 : 𝕜)) >>= fun s' => List.foldlM (step term) s' vs) =
    List.foldlM (step term) (1 / a, 0) vs from rfl, this]
  rfl

theorem sum_flatMap {α : Type*} (n : ℕ) (f : ℕ → List α) (g : α → 𝕜) :
    (((List.range n).flatMap f).map g).sum = sumTo n fun i => ((f i).map g).sum := by
  induction n with
  | zero => rfl
  | succ n ih => simp [List.range_succ, sumTo_succ, ih]

theorem sumTo_zero_fun (n : ℕ) : (sumTo n fun _ => (0 : 𝕜)) = 0 := by
  induction n with
  | zero => rfl
  | succ n ih => rw [sumTo_succ, ih, add_zero]

theorem sumTo_if (n : ℕ) (f : ℕ → 𝕜) :
    (sumTo n fun i => if i + 1 < n then f i else 0) = sumTo (n - 1) f := by
  cases n with
  | zero => rfl
  | succ n =>
    rw [sumTo_succ, if_neg (by omega), add_zero, Nat.add_sub_cancel]
    exact sumTo_congr fun i hi => if_pos (by omega)

theorem sumTo_if2 (n : ℕ) (f : ℕ → 𝕜) :
    (sumTo (n - 1) fun i => if i + 2 < n then f i else 0) = sumTo (n - 2) f := by
  obtain _ | _ | n := n
  · rfl
  · rfl
  · rw [show n + 1 + 1 - 1 = n + 1 by omega, sumTo_succ, if_neg (by omega), add_zero,
      show n + 1 + 1 - 2 = n by omega]
    exact sumTo_congr fun i hi => if_pos (by omega)


variable {rows cols : ℕ} {lib : Lib 𝕜}

/-- sum over everything seen in a row -/
theorem row_sum (o : Ops5 (Tn 𝕜) (Tn 𝕜) (List (Tn 𝕜)) (Tn 𝕜) (Tn 𝕜) 𝕜 (Tn 𝕜)) (t : Site → Tn 𝕜)
    (g : V 𝕜 → 𝕜) (hg0 : ∀ d s a, g (.psi d s a) = 0) (hole sites links links5 : Bool) (row : ℕ) :
    ((rowVisits o rows cols t ⟨true, hole, sites, links, links5, fun _ => none⟩ row).map g).sum =
      sumTo cols (fun col => (if hole = true then g (.hole (row, col) (holeAt o.toOps rows cols t (row, col)))
          else 0) + (if sites = true then g (seeSite o rows cols t (row, col)) else 0)) +
        sumTo (cols - 1) (fun col => g (seeBond o rows cols t .horizontal (row, col) (row, col + 1))) +
        if links = true ∧ row + 1 < rows then
          sumTo (cols - 1) (fun col =>
            g (seeLink o rows cols t .leftUpToRightDown (row, col) (row, col) (row + 1, col + 1)) +
            g (seeLink o rows cols t .leftDownToRightUp (row, col) (row + 1, col) (row, col + 1))) +
          if links5 = true then sumTo (cols - 2) (fun col =>
            g (seeLink5 o rows cols t .horizontal (row, col) (row + 1, col) (row, col + 2))) else 0
        else 0 := by
  rw [rowVisits, pairVisits, List.append_nil, List.map_append, List.map_append, List.sum_append,
    List.sum_append, if_pos rfl, List.map_singleton, List.sum_singleton, hg0, zero_add, sum_flatMap]
  congr 1
  · rw [← sumTo_if, ← sumTo_add]
    refine sumTo_congr fun col _ => ?_
    dsimp only
    rw [List.map_append, List.map_append, List.sum_append, List.sum_append]
    congr 1
    · congr 1 <;> split <;> simp
    · split <;> simp
  · dsimp only
    split
    · rw [sum_flatMap]
      have : (if links5 = true then sumTo (cols - 2) (fun col =>
            g (seeLink5 o rows cols t .horizontal (row, col) (row + 1, col) (row, col + 2))) else 0) =
          sumTo (cols - 1) fun col => if links5 = true ∧ col + 2 < cols then
            g (seeLink5 o rows cols t .horizontal (row, col) (row + 1, col) (row, col + 2)) else 0 := by
        rw [← sumTo_if2]
        split
        · rename_i h; exact sumTo_congr fun col _ => by simp only [h, true_and]
        · rename_i h; rw [sumTo_congr (g := fun _ => 0) fun col _ => if_neg (fun h' => h h'.1), sumTo_zero_fun]
      rw [this, ← sumTo_add]
      refine sumTo_congr fun col _ => ?_
      rw [List.map_append, List.sum_append]
      congr 1
      · simp
      · split <;> simp
    · rfl

/-- sum over everything seen in a column -/
theorem col_sum (o : Ops5 (Tn 𝕜) (Tn 𝕜) (List (Tn 𝕜)) (Tn 𝕜) (Tn 𝕜) 𝕜 (Tn 𝕜)) (t : Site → Tn 𝕜)
    (g : V 𝕜 → 𝕜) (hg0 : ∀ d s a, g (.psi d s a) = 0) (pl : Plan (Tn 𝕜)) (col : ℕ) :
    ((colVisits o rows cols t pl col).map g).sum =
      sumTo (rows - 1) (fun row => g (seeBond o rows cols t .vertical (row, col) (row + 1, col))) +
        if pl.links5 = true ∧ col + 1 < cols then
          sumTo (rows - 2) (fun row =>
            g (seeLink5 o rows cols t .vertical (row, col) (row + 2, col) (row, col + 1)))
        else 0 := by
  rw [colVisits, List.map_append, List.map_append, List.sum_append,
    List.sum_append, List.map_singleton, List.sum_singleton, hg0, zero_add]
  congr 1
  · rw [List.map_map]; rfl
  · split
    · rw [List.map_map]; rfl
    · rfl

theorem all_sum (o : Ops5 (Tn 𝕜) (Tn 𝕜) (List (Tn 𝕜)) (Tn 𝕜) (Tn 𝕜) 𝕜 (Tn 𝕜)) (t : Site → Tn 𝕜)
    (g : V 𝕜 → 𝕜) (pl : Plan (Tn 𝕜)) :
    ((allVisits o rows cols t pl).map g).sum =
      sumTo rows (fun row => ((rowVisits o rows cols t pl row).map g).sum) +
        sumTo cols (fun col => ((colVisits o rows cols t pl col).map g).sum) := by
  rw [allVisits, List.map_append, List.sum_append, sum_flatMap, sum_flatMap]

theorem psiList_append (a b : List (V 𝕜)) : psiList (a ++ b) = psiList a ++ psiList b :=
  List.filterMap_append

theorem psiList_eq (vs : List (V 𝕜)) (ψ : 𝕜) (h : ∀ d s a, Visit.psi d s a ∈ vs → a = ψ) :
    psiList vs = List.replicate (psiList vs).length ψ := by
  refine List.eq_replicate_of_mem fun a ha => ?_
  simp only [psiList, List.mem_filterMap] at ha
  obtain ⟨v, hv, e⟩ := ha
  cases v <;> simp at e
  exact e ▸ h _ _ _ hv

/-! ## replaced tensors and changed configurations -/

theorem project_update (sitps : Site → ℕ → Tn 𝕜) (cfg : Config) (s : Site) (k : ℕ) :
    Function.update (project sitps cfg) s (sitps s k) = project sitps (Function.update cfg s k) := by
  funext x
  by_cases h : x = s
  · subst h; simp [project]
  · simp [project, Function.update_of_ne h]

variable {dim : Bond .obc rows cols → ℕ} {sitps : Site → ℕ → Tn 𝕜} {d : ℕ}

theorem shape_eq (hf : FitsAll dim sitps d) (cfg : Config) (hcfg : ∀ s, cfg s < d) (s : Site)
    (hs : inside rows cols s) (k : ℕ) (hk : k < d) :
    (sitps s k).shape = (project sitps cfg s).shape := by
  have h1 := hf cfg hcfg
  have h2 := hf (Function.update cfg s k) (by
    intro x
    by_cases hx : x = s
    · subst hx; simpa using hk
    · simpa [Function.update_of_ne hx] using hcfg x)
  have e : project sitps (Function.update cfg s k) s = sitps s k := by simp [project]
  have := (h2.shape (⟨s.1, hs.1⟩, ⟨s.2, hs.2⟩)).trans (h1.shape (⟨s.1, hs.1⟩, ⟨s.2, hs.2⟩)).symm
  rwa [show (((⟨s.1, hs.1⟩ : Fin rows), (⟨s.2, hs.2⟩ : Fin cols)).1.1, s.2) = s from rfl, e] at this


/-- the sites of a visit are on the lattice -/
def sitesIn (rows cols : ℕ) : V 𝕜 → Prop
  | .psi .. => True
  | .hole s _ => inside rows cols s
  | .site s _ => inside rows cols s
  | .bond _ s1 s2 _ => inside rows cols s1 ∧ inside rows cols s2
  | .link _ s1 s2 _ => inside rows cols s1 ∧ inside rows cols s2
  | .link5 _ s1 s2 _ => inside rows cols s1 ∧ inside rows cols s2
  | .pair .. => True

theorem row_sitesIn (o : Ops5 (Tn 𝕜) (Tn 𝕜) (List (Tn 𝕜)) (Tn 𝕜) (Tn 𝕜) 𝕜 (Tn 𝕜)) (t : Site → Tn 𝕜)
    (pl : Plan (Tn 𝕜)) (row : ℕ) (hrow : row < rows) (v : V 𝕜)
    (hv : v ∈ rowVisits o rows cols t pl row) : sitesIn rows cols v := by
  simp only [rowVisits, List.mem_append, List.mem_flatMap, List.mem_range] at hv
  rcases hv with ((hv | ⟨col, hcol, hv⟩) | hv) | hv
  · split at hv
    · obtain rfl := List.mem_singleton.1 hv; trivial
    · simp at hv
  · rcases hv with (hv | hv) | hv
    · split at hv
      · obtain rfl := List.mem_singleton.1 hv; exact ⟨hrow, hcol⟩
      · simp at hv
    · split at hv
      · obtain rfl := List.mem_singleton.1 hv; exact ⟨hrow, hcol⟩
      · simp at hv
    · split at hv
      · obtain rfl := List.mem_singleton.1 hv; exact ⟨⟨hrow, hcol⟩, hrow, by assumption⟩
      · simp at hv
  · split at hv
    · rename_i hl
      simp only [List.mem_flatMap, List.mem_range, List.mem_append] at hv
      obtain ⟨col, hcol, hv | hv⟩ := hv
      · simp only [List.mem_cons, List.not_mem_nil, or_false] at hv
        rcases hv with rfl | rfl
        · refine ⟨⟨?_, ?_⟩, ?_, ?_⟩ <;> dsimp only <;> omega
        · refine ⟨⟨?_, ?_⟩, ?_, ?_⟩ <;> dsimp only <;> omega
      · split at hv
        · obtain rfl := List.mem_singleton.1 hv
          refine ⟨⟨?_, ?_⟩, ?_, ?_⟩ <;> dsimp only <;> omega
        · simp at hv
    · simp at hv
  · cases h : pl.corr row with
    | none => rw [h] at hv; simp [pairVisits] at hv
    | some x =>
      rw [h] at hv
      simp only [pairVisits, List.mem_map] at hv
      obtain ⟨i, -, rfl⟩ := hv
      trivial

theorem col_sitesIn (o : Ops5 (Tn 𝕜) (Tn 𝕜) (List (Tn 𝕜)) (Tn 𝕜) (Tn 𝕜) 𝕜 (Tn 𝕜)) (t : Site → Tn 𝕜)
    (pl : Plan (Tn 𝕜)) (col : ℕ) (hcol : col < cols) (v : V 𝕜)
    (hv : v ∈ colVisits o rows cols t pl col) : sitesIn rows cols v := by
  simp only [colVisits, List.mem_append, List.mem_map, List.mem_range] at hv
  rcases hv with (hv | ⟨row, hrow, rfl⟩) | hv
  · obtain rfl := List.mem_singleton.1 hv; trivial
  · refine ⟨⟨?_, ?_⟩, ?_, ?_⟩ <;> dsimp only <;> omega
  · split at hv
    · simp only [List.mem_map, List.mem_range] at hv
      obtain ⟨row, hrow, rfl⟩ := hv
      refine ⟨⟨?_, ?_⟩, ?_, ?_⟩ <;> dsimp only <;> omega
    · simp at hv

theorem all_sitesIn (o : Ops5 (Tn 𝕜) (Tn 𝕜) (List (Tn 𝕜)) (Tn 𝕜) (Tn 𝕜) 𝕜 (Tn 𝕜)) (t : Site → Tn 𝕜)
    (pl : Plan (Tn 𝕜)) (v : V 𝕜) (hv : v ∈ allVisits o rows cols t pl) : sitesIn rows cols v := by
  simp only [allVisits, List.mem_append, List.mem_flatMap, List.mem_range] at hv
  rcases hv with ⟨row, hrow, hv⟩ | ⟨col, hcol, hv⟩
  · exact row_sitesIn o t pl row hrow v hv
  · exact col_sitesIn o t pl col hcol v hv

/-- the exchanged trace is the amplitude of the exchanged configuration -/
theorem exchanged_eq (hf : FitsAll dim sitps d) (cfg : Config) (hcfg : ∀ s, cfg s < d) (s1 s2 : Site)
    (h1 : inside rows cols s1) (h2 : inside rows cols s2) (q : Tn 𝕜 → Tn 𝕜 → Option 𝕜)
    (hq : ExactVisit.Replaced dim (project sitps cfg) s1 s2 q) :
    exchanged sitps cfg q s1 s2 =
      some ((QLPeps.Spec.exact (amplitude dim sitps) cfg).ex s1 s2) := by
  rw [exchanged, hq _ _ (shape_eq hf cfg hcfg s1 h1 _ (hcfg _)) (shape_eq hf cfg hcfg s2 h2 _ (hcfg _)),
    project_update, project_update]
  rfl

/-- the flipped trace is the amplitude of the flipped configuration -/
theorem flipped_eq (hf : FitsAll dim sitps d) (cfg : Config) (hcfg : ∀ s, cfg s < d) (s : Site)
    (hs : inside rows cols s) (hd : 1 < d) (q : Tn 𝕜 → Option 𝕜)
    (hq : ExactVisit dim (project sitps cfg) (fun _ => none) (.site s q)) :
    q (sitps s (1 - cfg s)) = some ((QLPeps.Spec.exact (amplitude dim sitps) cfg).flip s) := by
  rw [hq _ (shape_eq hf cfg hcfg s hs _ (by omega)), project_update]
  rfl

/-! ## holes and amplitudes -/

theorem holeList_fst (vs : List (V 𝕜)) : (holeList vs).map Prod.fst = vs.filterMap Visit.holeOf := by
  rw [holeList, List.map_filterMap]
  refine congrArg (fun f => List.filterMap f vs) (funext fun v => ?_)
  cases v <;> rfl

theorem mem_holeList (vs : List (V 𝕜)) (p : Site × Tn 𝕜) (hp : p ∈ holeList vs) :
    ∃ h, Visit.hole p.1 h ∈ vs ∧ p.2 = dag h := by
  simp only [holeList, List.mem_filterMap] at hp
  obtain ⟨v, hv, e⟩ := hp
  cases v <;> simp at e
  subst e
  exact ⟨_, hv, rfl⟩

theorem goodHoles (hf : FitsAll dim sitps d) (cfg : Config) (hcfg : ∀ s, cfg s < d) (vs : List (V 𝕜))
    (x1 : ℕ → Option (Tn 𝕜)) (hv : ∀ v ∈ vs, ExactVisit dim (project sitps cfg) x1 v)
    (hin : ∀ v ∈ vs, sitesIn rows cols v)
    (hn : (vs.filterMap Visit.holeOf).Nodup)
    (hm : ∀ s, s ∈ vs.filterMap Visit.holeOf ↔ inside rows cols s) :
    GoodHoles dim d sitps cfg (holeList vs) := by
  refine ⟨by rw [holeList_fst]; exact hn, by rw [holeList_fst]; exact hm, fun p hp => ?_⟩
  obtain ⟨h, hh, e⟩ := mem_holeList vs p hp
  obtain ⟨e1, e2⟩ := hv _ hh
  have hs : inside rows cols p.1 := hin _ hh
  refine ⟨by rw [e]; exact e1, fun x hx => ?_, fun k hk => ?_⟩
  · rw [e] at hx ⊢
    have hx' : x.shape = h.shape := hx
    rw [← e2 x (hx'.trans e1)]
    simp only [dag, RCLike.conj_conj]
  rw [e]
  have e3 := e2 _ (shape_eq hf cfg hcfg p.1 hs k hk)
  rw [project_update] at e3
  rw [amplitude, ← e3]
  simp only [dag, RCLike.conj_conj]

theorem holeList_nil (vs : List (V 𝕜)) (h : vs.filterMap Visit.holeOf = []) : holeList vs = [] := by
  rw [← holeList_fst] at h
  exact List.map_eq_nil_iff.1 h

theorem psiList_nil (vs : List (V 𝕜)) (h : ∀ v ∈ vs, psiList [v] = []) : psiList vs = [] := by
  induction vs with
  | nil => rfl
  | cons v vs ih =>
    rw [show v :: vs = [v] ++ vs from rfl, psiList_append, h v List.mem_cons_self,
      ih fun w hw => h w (List.mem_cons_of_mem _ hw)]
    rfl

theorem psiList_row (o : Ops5 (Tn 𝕜) (Tn 𝕜) (List (Tn 𝕜)) (Tn 𝕜) (Tn 𝕜) 𝕜 (Tn 𝕜)) (t : Site → Tn 𝕜)
    (hole sites links links5 : Bool) (row : ℕ) :
    (psiList (rowVisits o rows cols t ⟨true, hole, sites, links, links5, fun _ => none⟩ row)).length
      = 1 := by
  have h1 : psiList ((List.range cols).flatMap fun col =>
    (if hole = true then [Visit.hole (row, col) (holeAt o.toOps rows cols t (row, col))] else []) ++
    (if sites = true then [seeSite o rows cols t (row, col)] else []) ++
    (if col + 1 < cols then [seeBond o rows cols t .horizontal (row, col) (row, col + 1)]
      else [])) = ([] : List 𝕜) := by
    refine psiList_nil _ fun v hv => ?_
    simp only [List.mem_flatMap, List.mem_append] at hv
    obtain ⟨col, -, (hv | hv) | hv⟩ := hv <;> split at hv <;>
      first | (obtain rfl := List.mem_singleton.1 hv; rfl) | simp at hv
  have h2 : psiList (if links = true ∧ row + 1 < rows then (List.range (cols - 1)).flatMap fun col =>
    [seeLink o rows cols t .leftUpToRightDown (row, col) (row, col) (row + 1, col + 1),
     seeLink o rows cols t .leftDownToRightUp (row, col) (row + 1, col) (row, col + 1)] ++
    (if links5 = true ∧ col + 2 < cols then
      [seeLink5 o rows cols t .horizontal (row, col) (row + 1, col) (row, col + 2)] else [])
   else []) = ([] : List 𝕜) := by
    refine psiList_nil _ fun v hv => ?_
    split at hv
    · simp only [List.mem_flatMap, List.mem_append, List.mem_cons, List.not_mem_nil, or_false] at hv
      obtain ⟨col, -, (rfl | rfl) | hv⟩ := hv
      · rfl
      · rfl
      · split at hv <;> first | (obtain rfl := List.mem_singleton.1 hv; rfl) | simp at hv
    · simp at hv
  rw [rowVisits]
  dsimp only
  rw [psiList_append, psiList_append, psiList_append, h1, h2]
  rfl

theorem psiList_col (o : Ops5 (Tn 𝕜) (Tn 𝕜) (List (Tn 𝕜)) (Tn 𝕜) (Tn 𝕜) 𝕜 (Tn 𝕜)) (t : Site → Tn 𝕜)
    (pl : Plan (Tn 𝕜)) (col : ℕ) :
    (psiList (colVisits o rows cols t pl col)).length = 1 := by
  rw [colVisits, psiList_append, psiList_append]
  have h1 : psiList ((List.range (rows - 1)).map fun row =>
    seeBond o rows cols t .vertical (row, col) (row + 1, col)) = ([] : List 𝕜) := by
    refine psiList_nil _ fun v hv => ?_
    simp only [List.mem_map] at hv
    obtain ⟨r, -, rfl⟩ := hv
    rfl
  have h2 : psiList (if pl.links5 = true ∧ col + 1 < cols then (List.range (rows - 2)).map fun row =>
    seeLink5 o rows cols t .vertical (row, col) (row + 2, col) (row, col + 1)
   else []) = ([] : List 𝕜) := by
    refine psiList_nil _ fun v hv => ?_
    split at hv
    · simp only [List.mem_map] at hv
      obtain ⟨r, -, rfl⟩ := hv
      rfl
    · simp at hv
  rw [h1, h2]
  rfl

theorem psiList_flatMap (n : ℕ) (f : ℕ → List (V 𝕜)) (h : ∀ i, (psiList (f i)).length = 1) :
    (psiList ((List.range n).flatMap f)).length = n := by
  induction n with
  | zero => rfl
  | succ n ih => rw [List.range_succ, List.flatMap_append, psiList_append, List.length_append, ih]; simp [h]

theorem psiList_all (o : Ops5 (Tn 𝕜) (Tn 𝕜) (List (Tn 𝕜)) (Tn 𝕜) (Tn 𝕜) 𝕜 (Tn 𝕜)) (t : Site → Tn 𝕜)
    (hole sites links links5 : Bool) :
    (psiList (allVisits o rows cols t ⟨true, hole, sites, links, links5, fun _ => none⟩)).length =
      rows + cols := by
  rw [allVisits, psiList_append, List.length_append, psiList_flatMap _ _ (psiList_row o t _ _ _ _),
    psiList_flatMap _ _ (psiList_col o t _)]

theorem row_noHole (o : Ops5 (Tn 𝕜) (Tn 𝕜) (List (Tn 𝕜)) (Tn 𝕜) (Tn 𝕜) 𝕜 (Tn 𝕜)) (t : Site → Tn 𝕜)
    (pl : Plan (Tn 𝕜)) (hpl : pl.holes = false) (row : ℕ) (v : V 𝕜)
    (hv : v ∈ rowVisits o rows cols t pl row) : v.holeOf = none := by
  simp only [rowVisits, hpl, List.mem_append, List.mem_flatMap, List.mem_range] at hv
  rcases hv with ((hv | ⟨col, hcol, hv⟩) | hv) | hv
  · split at hv
    · obtain rfl := List.mem_singleton.1 hv; rfl
    · simp at hv
  · rcases hv with (hv | hv) | hv
    · simp at hv
    · split at hv
      · obtain rfl := List.mem_singleton.1 hv; rfl
      · simp at hv
    · split at hv
      · obtain rfl := List.mem_singleton.1 hv; rfl
      · simp at hv
  · split at hv
    · simp only [List.mem_flatMap, List.mem_append] at hv
      obtain ⟨col, -, hv | hv⟩ := hv
      · simp only [List.mem_cons, List.not_mem_nil, or_false] at hv
        rcases hv with rfl | rfl <;> rfl
      · split at hv
        · obtain rfl := List.mem_singleton.1 hv; rfl
        · simp at hv
    · simp at hv
  · cases h : pl.corr row with
    | none => rw [h] at hv; simp [pairVisits] at hv
    | some x =>
      rw [h] at hv
      simp only [pairVisits, List.mem_map] at hv
      obtain ⟨i, -, rfl⟩ := hv
      rfl

theorem col_noHole (o : Ops5 (Tn 𝕜) (Tn 𝕜) (List (Tn 𝕜)) (Tn 𝕜) (Tn 𝕜) 𝕜 (Tn 𝕜)) (t : Site → Tn 𝕜)
    (pl : Plan (Tn 𝕜)) (col : ℕ) (v : V 𝕜) (hv : v ∈ colVisits o rows cols t pl col) :
    v.holeOf = none := by
  simp only [colVisits, List.mem_append, List.mem_map, List.mem_range] at hv
  rcases hv with (hv | ⟨row, hrow, rfl⟩) | hv
  · obtain rfl := List.mem_singleton.1 hv; rfl
  · rfl
  · split at hv
    · simp only [List.mem_map] at hv
      obtain ⟨row, -, rfl⟩ := hv
      rfl
    · simp at hv

theorem rows_noHole (o : Ops5 (Tn 𝕜) (Tn 𝕜) (List (Tn 𝕜)) (Tn 𝕜) (Tn 𝕜) 𝕜 (Tn 𝕜)) (t : Site → Tn 𝕜)
    (pl : Plan (Tn 𝕜)) (hpl : pl.holes = false) :
    holeList ((List.range rows).flatMap (rowVisits o rows cols t pl)) = [] := by
  refine holeList_nil _ (List.filterMap_eq_nil_iff.2 fun v hv => ?_)
  simp only [List.mem_flatMap, List.mem_range] at hv
  obtain ⟨row, hrow, hv⟩ := hv
  exact row_noHole o t pl hpl row v hv

theorem all_noHole (o : Ops5 (Tn 𝕜) (Tn 𝕜) (List (Tn 𝕜)) (Tn 𝕜) (Tn 𝕜) 𝕜 (Tn 𝕜)) (t : Site → Tn 𝕜)
    (pl : Plan (Tn 𝕜)) (hpl : pl.holes = false) : holeList (allVisits o rows cols t pl) = [] := by
  refine holeList_nil _ (List.filterMap_eq_nil_iff.2 fun v hv => ?_)
  simp only [allVisits, List.mem_append, List.mem_flatMap, List.mem_range] at hv
  rcases hv with ⟨row, hrow, hv⟩ | ⟨col, hcol, hv⟩
  · exact row_noHole o t pl hpl row v hv
  · exact col_noHole o t pl col v hv

/-- the holes of the rows are those of the whole traversal -/
theorem rows_holeOf (o : Ops5 (Tn 𝕜) (Tn 𝕜) (List (Tn 𝕜)) (Tn 𝕜) (Tn 𝕜) 𝕜 (Tn 𝕜)) (t : Site → Tn 𝕜)
    (pl : Plan (Tn 𝕜)) :
    (allVisits o rows cols t pl).filterMap Visit.holeOf =
      ((List.range rows).flatMap (rowVisits o rows cols t pl)).filterMap Visit.holeOf := by
  rw [allVisits, List.filterMap_append]
  refine (congrArg _ (List.filterMap_eq_nil_iff.2 fun v hv => ?_)).trans (List.append_nil _)
  simp only [List.mem_flatMap, List.mem_range] at hv
  obtain ⟨col, hcol, hv⟩ := hv
  exact col_noHole o t pl col v hv

end

end QLPeps.SolverRun
