import Verif.Model.Updaters
import Verif.Lemmas.Sweep
import Verif.Lemmas.NextPerm
import Verif.Lemmas.SuwaTodo
import Verif.Props.SuwaTodo
import Mathlib.Algebra.BigOperators.Group.Finset.Basic

/-! # Lemmas about the local updates -/

namespace QLPeps.Updaters

open QLPeps.Sweep QLPeps.Spec

variable {A Γ K : Type*}

theorem updateLocal_config (C : Contractor A Γ) (psi : A) (l : List (Site × ℕ)) (w : Walker A Γ) :
    (updateLocal C psi l w).config = l.foldl (fun c p => setSite c p.1 p.2) w.config ∧
    (updateLocal C psi l w).amp = psi ∧ (updateLocal C psi l w).draws = w.draws := by
  have : ∀ w : Walker A Γ, (l.foldl (fun w p => updateSingleSite C p.1 p.2 w) w).config
      = l.foldl (fun c p => setSite c p.1 p.2) w.config ∧
      (l.foldl (fun w p => updateSingleSite C p.1 p.2 w) w).draws = w.draws := by
    induction l with
    | nil => intro w; exact ⟨rfl, rfl⟩
    | cons p l ih =>
      intro w
      rw [List.foldl_cons, List.foldl_cons]
      exact ih (updateSingleSite C p.1 p.2 w)
  exact ⟨(this w).1, rfl, (this w).2⟩

theorem sum_sites_eq (rows cols : ℕ) (f : ℕ → ℕ) (l : List Site) (hl : l.Nodup)
    (hin : ∀ p ∈ l, InLattice rows cols p) (c c' : Config) (hoff : ∀ p, p ∉ l → c' p = c p)
    (hsum : (l.map (fun p => f (c' p))).sum = (l.map (fun p => f (c p))).sum) :
    ∑ p ∈ sites rows cols, f (c' p) = ∑ p ∈ sites rows cols, f (c p) := by
  have hsub : l.toFinset ⊆ sites rows cols := by
    intro p hp
    have := hin p (List.mem_toFinset.1 hp)
    simp only [sites, Finset.mem_product, Finset.mem_range]
    exact this
  rw [← Finset.sum_sdiff hsub, ← Finset.sum_sdiff hsub (f := fun p => f (c p)),
    List.sum_toFinset _ hl, List.sum_toFinset _ hl, hsum]
  congr 1
  refine Finset.sum_congr rfl fun p hp => ?_
  rw [hoff p]
  intro h
  exact (Finset.mem_sdiff.1 hp).2 (List.mem_toFinset.2 h)

theorem occupancy_eq_sum (rows cols : ℕ) (c : Config) (s : ℕ) :
    occupancy rows cols c s = ∑ p ∈ sites rows cols, (if c p = s then 1 else 0) := by
  rw [occupancy, Finset.card_filter]

theorem sum_ite_count (l : List Site) (c : Config) (s : ℕ) :
    (l.map (fun p => if c p = s then 1 else 0)).sum = (l.map c).count s := by
  induction l with
  | nil => rfl
  | cons a l ih =>
    rw [List.map_cons, List.sum_cons, ih, List.map_cons, List.count_cons]
    by_cases h : c a = s <;> simp [h, add_comm]

/-- occupancies only depend on the multiset of local states on the changed sites -/
theorem occupancy_perm (rows cols : ℕ) (l : List Site) (hl : l.Nodup)
    (hin : ∀ p ∈ l, InLattice rows cols p) (c c' : Config) (hoff : ∀ p, p ∉ l → c' p = c p)
    (hp : (l.map c').Perm (l.map c)) (s : ℕ) :
    occupancy rows cols c' s = occupancy rows cols c s := by
  rw [occupancy_eq_sum, occupancy_eq_sum]
  refine sum_sites_eq rows cols (fun x => if x = s then 1 else 0) l hl hin c c' hoff ?_
  rw [sum_ite_count, sum_ite_count, hp.count_eq]

/-- writing values to distinct sites -/
theorem foldl_setSite (l : List Site) (vals : List ℕ) (hl : l.Nodup) (hlen : vals.length = l.length)
    (c : Config) :
    l.map ((l.zip vals).foldl (fun c p => setSite c p.1 p.2) c) = vals ∧
    ∀ p, p ∉ l → (l.zip vals).foldl (fun c p => setSite c p.1 p.2) c p = c p := by
  induction l generalizing vals c with
  | nil =>
    cases vals with
    | nil => simp
    | cons => simp at hlen
  | cons a l ih =>
    cases vals with
    | nil => simp at hlen
    | cons v vals =>
      rw [List.nodup_cons] at hl
      simp only [List.length_cons, add_left_inj] at hlen
      obtain ⟨i1, i2⟩ := ih vals hl.2 hlen (setSite c a v)
      rw [List.zip_cons_cons, List.foldl_cons, List.map_cons]
      refine ⟨?_, ?_⟩
      · rw [i1, i2 a hl.1]; simp [setSite]
      · intro p hp
        simp only [List.mem_cons, not_or] at hp
        rw [i2 p hp.2]; simp [setSite, hp.1]

/-- swapping two distinct sites -/
theorem setSite_swap (c : Config) (a b : Site) :
    setSite (setSite c a (c b)) b (c a) = fun p => c (Equiv.swap a b p) := by
  funext p
  by_cases h1 : p = b
  · subst h1; simp [setSite]
  · by_cases h2 : p = a
    · subst h2; simp [setSite, h1]
    · rw [Equiv.swap_apply_of_ne_of_ne h2 h1]; simp [setSite, h1, h2]

theorem occupancy_swap (rows cols : ℕ) (c : Config) (a b : Site) (ha : InLattice rows cols a)
    (hb : InLattice rows cols b) (s : ℕ) :
    occupancy rows cols (setSite (setSite c a (c b)) b (c a)) s = occupancy rows cols c s := by
  by_cases hab : a = b
  · subst hab
    congr 1
    funext p
    by_cases h : p = a <;> simp [setSite, h]
  · apply occupancy_perm rows cols [a, b] (by simp [hab])
    · intro p hp
      simp only [List.mem_cons, List.not_mem_nil, or_false] at hp
      rcases hp with rfl | rfl <;> assumption
    · intro p hp
      simp only [List.mem_cons, List.not_mem_nil, or_false, not_or] at hp
      simp [setSite, hp.1, hp.2]
    · simp only [List.map_cons, List.map_nil, setSite, if_true, hab, if_false]
      exact List.Perm.swap _ _ _

section Metropolis
variable [LE K] [DecidableLE K] [LT K] [DecidableLT K] [Div K] [Mul K]

theorem nnExchange_config (C : Contractor A Γ) (ab : A → K) (ξ : ℕ → K) (s1 s2 : Site) (d : Orient)
    (w : Walker A Γ) :
    ((nnExchange C ab ξ s1 s2 d w).1.config = w.config ∧
      (nnExchange C ab ξ s1 s2 d w).1.amp = w.amp ∧ (nnExchange C ab ξ s1 s2 d w).2 = false) ∨
    ((nnExchange C ab ξ s1 s2 d w).1.config
        = setSite (setSite w.config s1 (w.config s2)) s2 (w.config s1) ∧
      (nnExchange C ab ξ s1 s2 d w).1.amp
        = C.nnTrace w.env w.config s1 s2 d (w.config s2) (w.config s1) ∧
      (nnExchange C ab ξ s1 s2 d w).2 = true ∧ w.config s1 ≠ w.config s2) := by
  unfold nnExchange
  split_ifs with h
  · exact Or.inl ⟨rfl, rfl, rfl⟩
  · dsimp only
    split_ifs with h2
    · right
      refine ⟨?_, ?_, rfl, h⟩
      · exact (updateLocal_config C _ [(s1, w.config s2), (s2, w.config s1)] _).1
      · exact (updateLocal_config C _ [(s1, w.config s2), (s2, w.config s1)] _).2.1
    · exact Or.inl ⟨rfl, rfl, rfl⟩

theorem nnExchangePBC_eq (C : Contractor A Γ) (ab : A → K) (ξ : ℕ → K) (s1 s2 : Site) (d : Orient)
    (w : Walker A Γ) : nnExchangePBC C ab ξ s1 s2 d w = nnExchange C ab ξ s1 s2 d w := rfl

end Metropolis

theorem envPres_config (C : Contractor A Γ) (I : Config → A → ℕ → Prop) :
    EnvPres (envOps C) (fun w => I w.config w.amp w.draws) where
  gen _ _ h := h
  init _ _ _ h := h
  grow _ _ _ _ h := h
  shiftT _ _ h := h
  shiftM _ _ h := h
  del _ _ h := h

theorem envPres_option (C : Contractor A Γ) (I : Config → A → ℕ → Prop) :
    EnvPres (envOpsOption C) (fun o => ∃ w, o = some w ∧ I w.config w.amp w.draws) where
  gen _ _ h := by obtain ⟨w, rfl, h⟩ := h; exact ⟨_, rfl, h⟩
  init _ _ _ h := by obtain ⟨w, rfl, h⟩ := h; exact ⟨_, rfl, h⟩
  grow _ _ _ _ h := by obtain ⟨w, rfl, h⟩ := h; exact ⟨_, rfl, h⟩
  shiftT _ _ h := by obtain ⟨w, rfl, h⟩ := h; exact ⟨_, rfl, h⟩
  shiftM _ _ h := by obtain ⟨w, rfl, h⟩ := h; exact ⟨_, rfl, h⟩
  del _ _ h := by obtain ⟨w, rfl, h⟩ := h; exact ⟨_, rfl, h⟩

theorem envPres_option' (C : Contractor A Γ) (I : Config → A → ℕ → Prop) :
    EnvPres (envOpsOption C) (fun o => ∀ w, o = some w → I w.config w.amp w.draws) where
  gen _ o h := by
    intro w hw
    cases o with
    | none => cases hw
    | some v => cases hw; exact h v rfl
  init _ _ o h := by
    intro w hw
    cases o with
    | none => cases hw
    | some v => cases hw; exact h v rfl
  grow _ _ _ o h := by
    intro w hw
    cases o with
    | none => cases hw
    | some v => cases hw; exact h v rfl
  shiftT _ o h := by
    intro w hw
    cases o with
    | none => cases hw
    | some v => cases hw; exact h v rfl
  shiftM _ o h := by
    intro w hw
    cases o with
    | none => cases hw
    | some v => cases hw; exact h v rfl
  del _ o h := by
    intro w hw
    cases o with
    | none => cases hw
    | some v => cases hw; exact h v rfl

section SuwaTodo
variable [Field K] [LinearOrder K]

/-- what the common tail can do -/
theorem suwaTodoTail_some (C : Contractor A Γ) (ξ : ℕ → K) (sites : List Site)
    (cands : List (List ℕ)) (psis : List A) (weights : Option (List K)) (init : ℕ)
    (w : Walker A Γ) (r : Walker A Γ × Bool)
    (h : suwaTodoTail C ξ sites cands psis weights init w = some r) :
    ∃ ws fin, weights = some ws ∧ SuwaTodo.suwaTodo ws init (ξ w.draws) = some fin ∧
      r.1.draws = w.draws + 1 ∧
      ((fin = init ∧ r.2 = false ∧ r.1.config = w.config ∧ r.1.amp = w.amp) ∨
       (fin ≠ init ∧ r.2 = true ∧ ∃ vals psi, cands[fin]? = some vals ∧ psis[fin]? = some psi ∧
         r.1.config = (sites.zip vals).foldl (fun c p => setSite c p.1 p.2) w.config ∧
         r.1.amp = psi)) := by
  unfold suwaTodoTail at h
  cases weights with
  | none => cases h
  | some ws =>
    dsimp only at h
    cases h1 : SuwaTodo.suwaTodo ws init (ξ w.draws) with
    | none => rw [h1] at h; cases h
    | some fin =>
      rw [h1] at h
      dsimp only at h
      refine ⟨ws, fin, rfl, h1, ?_⟩
      split_ifs at h with h2
      · cases h
        exact ⟨rfl, Or.inl ⟨h2, rfl, rfl, rfl⟩⟩
      · split at h
        · rename_i vals psi hv hp
          cases h
          obtain ⟨a1, a2, a3⟩ := updateLocal_config C psi (sites.zip vals)
            { w with draws := w.draws + 1 }
          exact ⟨a3, Or.inr ⟨h2, rfl, vals, psi, hv, hp, a1, a2⟩⟩
        · cases h

/-- in exact arithmetic the tail is defined whenever the current weight is positive -/
theorem suwaTodoTail_defined [IsStrictOrderedRing K] (C : Contractor A Γ) (ab : A → K) (ξ : ℕ → K)
    (hξ : ∀ n, 0 ≤ ξ n ∧ ξ n < 1) (sites : List Site)
    (cands : List (List ℕ)) (psis : List A) (ref : K) (hlen : cands.length = psis.length)
    (init : ℕ) (hinit : init < psis.length) (href : ref ≠ 0) (hpos : ab psis[init] ≠ 0)
    (w : Walker A Γ) :
    ∃ r, suwaTodoTail C ξ sites cands psis (normWeights ab psis ref) init w = some r ∧
      ((r.1.config = w.config ∧ r.1.amp = w.amp) ∨ ab r.1.amp ≠ 0) := by
  set ws := psis.map (fun p => (ab p / ref) * (ab p / ref)) with hws
  have hnw : normWeights ab psis ref = some ws := by simp [normWeights, href, hws]
  have hwl : ws.length = psis.length := by simp [hws]
  have hget : ∀ k (hk : k < psis.length), ws[k]'(by omega) = (ab psis[k] / ref) * (ab psis[k] / ref) :=
    fun k hk => by simp [hws]
  have hne : ab psis[init] / ref ≠ 0 := div_ne_zero hpos href
  obtain ⟨fin, hfin, hst, hfpos⟩ := SuwaTodo.C02_in_range_positive ws
    (fun a ha => by
      simp only [hws, List.mem_map] at ha
      obtain ⟨p, -, rfl⟩ := ha
      exact mul_self_nonneg _) init (by omega)
    (by rw [hget init hinit]; exact mul_self_pos.2 hne) (ξ w.draws) (hξ _).1 (hξ _).2
  have hfin' : fin < psis.length := by omega
  have hdef : ∃ r, suwaTodoTail C ξ sites cands psis (some ws) init w = some r := by
    unfold suwaTodoTail
    simp only [hst]
    split_ifs
    · exact ⟨_, rfl⟩
    · rw [List.getElem?_eq_getElem (by omega : fin < cands.length),
        List.getElem?_eq_getElem hfin']
      exact ⟨_, rfl⟩
  obtain ⟨r, hr⟩ := hdef
  refine ⟨r, by rw [hnw, hr], ?_⟩
  obtain ⟨ws', fin', h1, h2, -, h4⟩ := suwaTodoTail_some C ξ sites cands psis _ init w r hr
  cases h1
  rw [hst] at h2
  cases h2
  rcases h4 with ⟨-, -, h5, h6⟩ | ⟨-, -, vals, psi, -, h6, -, h8⟩
  · exact Or.inl ⟨h5, h6⟩
  · right
    rw [List.getElem?_eq_getElem hfin'] at h6
    cases h6
    rw [h8]
    intro h0
    rw [hget fin hfin', h0] at hfpos
    simp at hfpos

end SuwaTodo

end QLPeps.Updaters
