import Verif.Lemmas.Updaters
import Verif.Spec.Updaters
import Mathlib.Tactic.IntervalCases

/-!
# Properties C04 - C08 and C62: the Monte-Carlo updates
-/

open MeasureTheory Set

namespace QLPeps.Updaters

open QLPeps.Sweep QLPeps.Spec

variable {A Γ K : Type*}

/-- a contractor without caches that is exact for a given wave function (used in examples) -/
def exactContractor {A : Type*} (ψ : Config → A) : Contractor A Unit where
  nnTrace _ c s1 s2 _ a b := ψ (setSite (setSite c s1 a) s2 b)
  tnnTrace _ c s1 s2 s3 _ a b e := ψ (setSite (setSite (setSite c s1 a) s2 b) s3 e)
  erase _ _ e := e
  generateBMPSApproach _ _ e := e
  initBTen _ _ _ e := e
  growFullBTen _ _ _ _ e := e
  shiftBTenWindow _ _ e := e
  shiftBMPSWindow _ _ e := e
  deleteInnerBMPS _ _ e := e

theorem exactContractor_exact {A : Type*} (ψ : Config → A) : Exact (exactContractor ψ) ψ :=
  ⟨fun _ _ _ _ _ _ _ => rfl, fun _ _ _ _ _ _ _ _ _ => rfl⟩

/-! ## C04 -/

theorem accept_measure (a b : ℝ) (ha : 0 ≤ a) (hb : 0 ≤ b) :
    (volume {u : ℝ | u ∈ Ico (0 : ℝ) 1 ∧ metropolisAccept b a u = true}).toReal
      = if a ≤ b then 1 else (b / a) * (b / a) := by
  unfold metropolisAccept
  split_ifs with h
  · have : {u : ℝ | u ∈ Ico (0 : ℝ) 1 ∧ true = true} = Ico 0 1 := by ext u; simp
    rw [this]; simp
  · have ha' : 0 < a := by push Not at h; exact lt_of_le_of_lt hb h
    have h1 : b / a < 1 := by rw [div_lt_one ha']; push Not at h; exact h
    have h0 : 0 ≤ b / a := div_nonneg hb ha
    have hset : {u : ℝ | u ∈ Ico (0 : ℝ) 1 ∧ decide (u < b / a * (b / a)) = true}
        = Ico 0 (b / a * (b / a)) := by
      ext u
      simp only [mem_ofPred_eq, mem_Ico, decide_eq_true_eq]
      constructor
      · rintro ⟨⟨h2, -⟩, h3⟩; exact ⟨h2, h3⟩
      · rintro ⟨h2, h3⟩; exact ⟨⟨h2, by nlinarith⟩, h3⟩
    simp only [hset, Real.volume_Ico, sub_zero]
    exact ENNReal.toReal_ofReal (mul_nonneg h0 h0)

/-- the swap of two sites is an involution -/
theorem swap_swap (c : Config) (s1 s2 : Site) :
    let c' := setSite (setSite c s1 (c s2)) s2 (c s1)
    setSite (setSite c' s1 (c' s2)) s2 (c' s1) = c := by
  intro c'
  have h : c' = fun p => c (Equiv.swap s1 s2 p) := setSite_swap c s1 s2
  rw [setSite_swap]
  funext p
  rw [h]
  simp

theorem exchangeProb_swap {Γ : Type*} (C : Contractor ℂ Γ) (ψ : Config → ℂ) (hC : Exact C ψ)
    (env : Γ) (s1 s2 : Site) (d : Orient) (c : Config) (hne : c s1 ≠ c s2) :
    exchangeProb C ψ env s1 s2 d c (setSite (setSite c s1 (c s2)) s2 (c s1)) =
      if ‖ψ c‖ ≤ ‖ψ (setSite (setSite c s1 (c s2)) s2 (c s1))‖ then 1 else
        (‖ψ (setSite (setSite c s1 (c s2)) s2 (c s1))‖ / ‖ψ c‖) *
        (‖ψ (setSite (setSite c s1 (c s2)) s2 (c s1))‖ / ‖ψ c‖) := by
  set c' := setSite (setSite c s1 (c s2)) s2 (c s1) with hc'
  rw [← accept_measure _ _ (norm_nonneg _) (norm_nonneg _), exchangeProb]
  congr 2
  ext u
  simp only [mem_ofPred_eq]
  refine and_congr_right fun _ => ?_
  have hcc' : c ≠ c' := by
    intro h
    apply hne
    have : c s2 = c' s2 := congrFun h s2
    rw [this, hc']; simp [setSite]
  unfold nnExchange
  simp only [hne, if_false, hC.nn, ← hc']
  constructor
  · intro h
    by_contra hacc
    simp only [hacc] at h
    exact hcc' h
  · intro hacc
    simp only [hacc, if_true]
    exact (updateLocal_config C _ [(s1, c s2), (s2, c s1)] _).1

/-- **C04** (detailed balance). For an exact contractor the exchange update satisfies
`|ψ(c)|² P(c → c') = |ψ(c')|² P(c' → c)` for every pair of configurations. -/
theorem C04_detailed_balance {Γ : Type*} (C : Contractor ℂ Γ) (ψ : Config → ℂ) (hC : Exact C ψ)
    (env : Γ) (s1 s2 : Site) (d : Orient) (c c' : Config) :
    ‖ψ c‖ ^ 2 * exchangeProb C ψ env s1 s2 d c c'
      = ‖ψ c'‖ ^ 2 * exchangeProb C ψ env s1 s2 d c' c := by
  by_cases hcc : c = c'
  · subst hcc; rfl
  have zero : ∀ c c' : Config, c ≠ c' → c' ≠ setSite (setSite c s1 (c s2)) s2 (c s1) →
      exchangeProb C ψ env s1 s2 d c c' = 0 := by
    intro c c' h1 h2
    have : {u : ℝ | u ∈ Ico (0 : ℝ) 1 ∧ (nnExchange C (fun z : ℂ => ‖z‖) (fun _ => u) s1 s2 d
        ⟨c, ψ c, env, 0⟩).1.config = c'} = ∅ := by
      ext u
      simp only [mem_ofPred_eq, mem_empty_iff_false, iff_false, not_and]
      intro _ h
      rcases nnExchange_config C (fun z : ℂ => ‖z‖) (fun _ => u) s1 s2 d ⟨c, ψ c, env, 0⟩ with
        ⟨h3, -, -⟩ | ⟨h3, -, -, -⟩
      · exact h1 (h3.symm.trans h)
      · exact h2 (h.symm.trans h3)
    rw [exchangeProb, this]; simp
  by_cases hsw : c' = setSite (setSite c s1 (c s2)) s2 (c s1)
  · have hne : c s1 ≠ c s2 := by
      intro h
      apply hcc
      rw [hsw, h]
      funext p
      by_cases h1 : p = s2
      · simp [setSite, h1]
      · by_cases h2 : p = s1 <;> simp [setSite, h1, h2, h]
    have hback : c = setSite (setSite c' s1 (c' s2)) s2 (c' s1) := by
      rw [hsw]; exact (swap_swap c s1 s2).symm
    have hs : s1 ≠ s2 := fun h => hne (by rw [h])
    have hne' : c' s1 ≠ c' s2 := by
      rw [hsw]; simp only [setSite, if_true, hs, if_false]; exact hne.symm
    have e1 := exchangeProb_swap C ψ hC env s1 s2 d c hne
    have e2 := exchangeProb_swap C ψ hC env s1 s2 d c' hne'
    rw [← hsw] at e1
    rw [← hback] at e2
    rw [e1, e2]
    rcases lt_trichotomy ‖ψ c‖ ‖ψ c'‖ with h | h | h
    · have hp : ‖ψ c'‖ ≠ 0 := (lt_of_le_of_lt (norm_nonneg _) h).ne'
      simp only [h.le, if_true, not_le.2 h, if_false]
      field_simp
    · simp [h]
    · have hp : ‖ψ c‖ ≠ 0 := (lt_of_le_of_lt (norm_nonneg _) h).ne'
      simp only [h.le, if_true, not_le.2 h, if_false]
      field_simp
  · have hsw' : c ≠ setSite (setSite c' s1 (c' s2)) s2 (c' s1) := by
      intro h
      apply hsw
      have := swap_swap c' s1 s2
      simp only [← h] at this
      exact this.symm
    rw [zero c c' hcc hsw, zero c' c (Ne.symm hcc) hsw']
    simp

/-- **C04** (acceptance probability): a proposed exchange of different local states is
accepted with probability `min 1 |ψ'/ψ|²`. -/
theorem C04_acceptance {Γ : Type*} (C : Contractor ℂ Γ) (ψ : Config → ℂ) (hC : Exact C ψ)
    (env : Γ) (s1 s2 : Site) (d : Orient) (c : Config) (hne : c s1 ≠ c s2) (h0 : ψ c ≠ 0) :
    exchangeProb C ψ env s1 s2 d c (fun p => c (Equiv.swap s1 s2 p)) =
      min 1 (‖ψ (fun p => c (Equiv.swap s1 s2 p)) / ψ c‖ ^ 2) := by
  rw [← setSite_swap, exchangeProb_swap C ψ hC env s1 s2 d c hne]
  set c' := setSite (setSite c s1 (c s2)) s2 (c s1)
  have hp : 0 < ‖ψ c‖ := norm_pos_iff.2 h0
  rw [norm_div, sq]
  split_ifs with h
  · rw [min_eq_left]
    have : 1 ≤ ‖ψ c'‖ / ‖ψ c‖ := by rwa [one_le_div hp]
    nlinarith
  · rw [min_eq_right]
    have : ‖ψ c'‖ / ‖ψ c‖ ≤ 1 := by rw [div_le_one hp]; exact (not_le.1 h).le
    have h2 : 0 ≤ ‖ψ c'‖ / ‖ψ c‖ := div_nonneg (norm_nonneg _) (norm_nonneg _)
    nlinarith

/-- **C04**: equal local states are never counted as an accepted exchange and nothing changes. -/
theorem C04_equal_states_rejected [LE K] [DecidableLE K] [LT K] [DecidableLT K] [Div K] [Mul K]
    (C : Contractor A Γ) (ab : A → K) (ξ : ℕ → K) (s1 s2 : Site) (d : Orient) (w : Walker A Γ)
    (h : w.config s1 = w.config s2) : nnExchange C ab ξ s1 s2 d w = (w, false) := by
  simp [nnExchange, h]

/-- hypotheses of C04 are met by a nontrivial wave function -/
example : Exact (exactContractor (fun c => (c (0, 0) + 2 * c (0, 1) + 1 : ℂ)))
    (fun c => (c (0, 0) + 2 * c (0, 1) + 1 : ℂ)) := exactContractor_exact _

/-! ## C05 -/

section C05
variable [LE K] [DecidableLE K] [LT K] [DecidableLT K] [Div K] [Mul K]

/-- **C05** (open boundary exchange sweep): for every contractor behaviour, amplitude type,
comparison semantics and random stream the number of sites in each local state is conserved. -/
theorem C05_obc_exchange_conserves (C : Contractor A Γ) (ab : A → K) (ξ : ℕ → K) (rows cols : ℕ)
    (w : Walker A Γ) (s : ℕ) :
    occupancy rows cols
      (obcSweep (envOps C) (nnExchange C ab ξ) rows cols w).1.config s
      = occupancy rows cols w.config s := by
  refine obcSweep_inv (envOps C) (nnExchange C ab ξ) rows cols
    (fun x => occupancy rows cols x.config s = occupancy rows cols w.config s)
    (envPres_config C (fun c _ _ => occupancy rows cols c s = occupancy rows cols w.config s))
    ?_ w rfl
  intro a b d x ha hb _ hx
  rcases nnExchange_config C ab ξ a b d x with ⟨h, -, -⟩ | ⟨h, -, -, -⟩
  · rw [h]; exact hx
  · rw [h, occupancy_swap rows cols x.config a b ha hb]; exact hx

/-- **C05** (periodic exchange sweep). -/
theorem C05_pbc_exchange_conserves (C : Contractor A Γ) (ab : A → K) (ξ : ℕ → K) (rows cols : ℕ)
    (draw : ℕ → ℕ × ℕ × Orient) (hd : ∀ i, (draw i).1 < rows ∧ (draw i).2.1 < cols)
    (w : Walker A Γ) (s : ℕ) :
    occupancy rows cols (pbcSweep (nnExchangePBC C ab ξ) rows cols draw w).1.config s
      = occupancy rows cols w.config s := by
  refine pbcSweep_inv (nnExchangePBC C ab ξ) rows cols draw hd
    (fun x => occupancy rows cols x.config s = occupancy rows cols w.config s) ?_ w rfl
  intro a b d x ha hb hx
  rw [nnExchangePBC_eq]
  rcases nnExchange_config C ab ξ a b d x with ⟨h, -, -⟩ | ⟨h, -, -, -⟩
  · rw [h]; exact hx
  · rw [h, occupancy_swap rows cols x.config a b ha hb]; exact hx

/-- a 2x2 sweep that really moves something: checkerboard with an amplitude that grows under
the first swap -/
example : (obcSweep (envOps (exactContractor (fun c : Config => (1 + c (0, 1) : ℚ))))
    (nnExchange (exactContractor (fun c : Config => (1 + c (0, 1) : ℚ))) (fun x => |x|)
      (fun _ => 1/2)) 2 2 ⟨fun p => if p = (0, 0) then 1 else 0, 1, (), 0⟩).2 ≠ 0 := by
  decide +kernel

end C05

theorem permutations3_spec (x y z : ℕ) (L : List (List ℕ)) (h : permutations3 x y z = some L) :
    L.Nodup ∧ ∀ m, m ∈ L ↔ m.Perm [x, y, z] := by
  have hs : ([x, y, z].insertionSort (· ≤ ·)).Pairwise (· ≤ ·) :=
    List.pairwise_insertionSort (· ≤ ·) [x, y, z]
  obtain ⟨h1, h2⟩ := NextPerm.permLoop_spec 6 _ L h
  refine ⟨h1.imp (fun h => ne_of_lt h), fun m => ?_⟩
  have hp : ([x, y, z].insertionSort (· ≤ ·)).Perm [x, y, z] :=
    List.perm_insertionSort _ _
  rw [h2]
  exact ⟨fun h => h.1.trans hp, fun h => ⟨h.trans hp.symm,
    NextPerm.sorted_min _ _ hs (h.trans hp.symm)⟩⟩

theorem permutations3_defined (x y z : ℕ) : ∃ L, permutations3 x y z = some L := by
  have := NextPerm.permLoop_factorial ([x, y, z].insertionSort (· ≤ ·))
  rwa [List.length_insertionSort, show [x, y, z].length.factorial = 6 from rfl] at this

section C05three
variable [Field K] [LinearOrder K]

theorem tnn3_config (C : Contractor A Γ) (ab : A → K) (ξ : ℕ → K) (s1 s2 s3 : Site) (d : Orient)
    (w : Walker A Γ) (r : Walker A Γ × Bool) (h : tnn3Exchange C ab ξ s1 s2 s3 d w = some r) :
    r.1.config = w.config ∨ ∃ vals, vals.Perm [w.config s1, w.config s2, w.config s3] ∧
      r.1.config = ([s1, s2, s3].zip vals).foldl (fun c p => setSite c p.1 p.2) w.config := by
  unfold tnn3Exchange at h
  dsimp only at h
  split_ifs at h with h1
  · cases h; exact Or.inl rfl
  · split at h
    · cases h
    · rename_i perms hperms
      obtain ⟨-, hmem⟩ := permutations3_spec _ _ _ _ hperms
      obtain ⟨ws, fin, -, -, -, h2⟩ := suwaTodoTail_some _ _ _ _ _ _ _ _ _ h
      rcases h2 with ⟨-, -, h3, -⟩ | ⟨-, -, vals, psi, h3, -, h4, -⟩
      · exact Or.inl h3
      · exact Or.inr ⟨vals, (hmem vals).1 (List.mem_of_getElem? h3), h4⟩

/-- **C05** (three-site exchange sweep): if the sweep runs without undefined behaviour, the
number of sites in each local state is conserved. -/
theorem C05_three_site_exchange_conserves (C : Contractor A Γ) (ab : A → K) (ξ : ℕ → K)
    (rows cols : ℕ) (w w' : Walker A Γ)
    (h : (obcSweep3 (envOpsOption C) (fun a b c d => Option.map (refresh3 C a b c d))
      (fun a b c d => liftUpd (tnn3Exchange C ab ξ a b c d)) rows cols (some w)).1 = some w')
    (s : ℕ) : occupancy rows cols w'.config s = occupancy rows cols w.config s := by
  refine obcSweep3_inv (envOpsOption C) _ (fun a b c d => liftUpd (tnn3Exchange C ab ξ a b c d))
    rows cols (fun o => ∀ x, o = some x → occupancy rows cols x.config s
      = occupancy rows cols w.config s)
    (envPres_option' C (fun c _ _ => occupancy rows cols c s = occupancy rows cols w.config s))
    ?_ ?_ (some w) (by rintro x ⟨⟩; rfl) w' h
  · intro a b c d o ho x hx
    cases o with
    | none => cases hx
    | some v => cases hx; exact ho v rfl
  · intro a b c d o ha hb hc hab hbc hac ho x hx
    cases o with
    | none => cases hx
    | some v =>
      rw [← ho v rfl]
      dsimp only [liftUpd] at hx
      cases hr : tnn3Exchange C ab ξ a b c d v with
      | none => rw [hr] at hx; cases hx
      | some r =>
        rw [hr] at hx
        cases hx
        rcases tnn3_config C ab ξ a b c d v r hr with h1 | ⟨vals, h1, h2⟩
        · rw [h1]
        · have hnd : [a, b, c].Nodup := by simp [hab, hbc, hac]
          obtain ⟨f1, f2⟩ := foldl_setSite [a, b, c] vals hnd (by simpa using h1.length_eq)
            v.config
          rw [h2]
          apply occupancy_perm rows cols [a, b, c] hnd
          · intro p hp
            simp only [List.mem_cons, List.not_mem_nil, or_false] at hp
            rcases hp with rfl | rfl | rfl <;> assumption
          · exact f2
          · rw [f1]; exact h1

/-- a three-site update that moves: the sweep is defined and changes the configuration -/
example : ((obcSweep3 (envOpsOption (exactContractor (fun c : Config => (1 + c (0, 1) : ℚ))))
    (fun a b c d => Option.map
      (refresh3 (exactContractor (fun c : Config => (1 + c (0, 1) : ℚ))) a b c d))
    (fun a b c d => liftUpd (tnn3Exchange (exactContractor (fun c : Config => (1 + c (0, 1) : ℚ)))
      (fun x => |x|) (fun _ => 1/2) a b c d)) 1 3
      (some ⟨fun p => if p = (0, 0) then 1 else 0, 1, (), 0⟩)).1.map
        (fun w => (w.config (0, 0), w.config (0, 1), w.config (0, 2)))) = some (0, 1, 0) := by
  decide +kernel

end C05three

/-! ## C08 -/

/-- **C08**. In the open-boundary sweep each pair of adjacent sites is attempted exactly once
and no other pair is attempted; the number of attempts is `rows*(cols-1)+cols*(rows-1)`, the
denominator used for the rate, and the reported number of accepted updates is the number of
attempts that were accepted (so the rate lies in `[0,1]`). Instrumenting the sweep with the log
does not change its behaviour. -/
theorem C08_obc_sweep_bonds {S : Type*} (o : EnvOps S) (upd : Site → Site → Orient → S → S × Bool)
    (rows cols : ℕ) (s : S) :
    ∃ log : List ((Site × Site) × Bool),
      obcSweep (logOps o) (logUpd upd) rows cols (s, []) =
        (((obcSweep o upd rows cols s).1, log), (obcSweep o upd rows cols s).2) ∧
      (∀ a b, (log.map Prod.fst).count (a, b) + (log.map Prod.fst).count (b, a)
        = if Adjacent rows cols a b then 1 else 0) ∧
      log.length = rows * (cols - 1) + cols * (rows - 1) ∧
      obcBondNum rows cols = rows * (cols - 1) + cols * (rows - 1) ∧
      (obcSweep o upd rows cols s).2 = (log.filter Prod.snd).length ∧
      (obcSweep o upd rows cols s).2 ≤ obcBondNum rows cols := by
  obtain ⟨M, h1, h2, h3, h4, h5⟩ := obcSweep_ext o upd rows cols s []
  have hlen : M.length = obcBondNum rows cols := by
    rw [← length_obcBonds, ← h4, List.length_map]
  have hnum : obcBondNum rows cols = rows * (cols - 1) + cols * (rows - 1) := by
    unfold obcBondNum; ring
  refine ⟨M, ?_, ?_, by rw [hlen, hnum], hnum, by omega, ?_⟩
  · ext1
    · ext1
      · exact h1
      · exact h3
    · exact h2
  · intro a b
    rw [h4]
    have hnd := nodup_obcBonds rows cols
    have hab := mem_obcBonds rows cols a b
    have hba := mem_obcBonds rows cols b a
    by_cases m1 : (a, b) ∈ obcBonds rows cols
    · have h := hab.1 m1
      have m2 : (b, a) ∉ obcBonds rows cols := by
        intro m2
        have h' := hba.1 m2
        omega
      rw [List.count_eq_one_of_mem hnd m1, List.count_eq_zero_of_not_mem m2, if_pos]
      refine ⟨h.1, h.2.1, ?_⟩
      omega
    · by_cases m2 : (b, a) ∈ obcBonds rows cols
      · have h := hba.1 m2
        rw [List.count_eq_one_of_mem hnd m2, List.count_eq_zero_of_not_mem m1, if_pos]
        refine ⟨h.2.1, h.1, ?_⟩
        omega
      · rw [List.count_eq_zero_of_not_mem m1, List.count_eq_zero_of_not_mem m2, if_neg]
        rintro ⟨i1, i2, i3⟩
        have n1 : ¬ _ := fun h => m1 (hab.2 h)
        have n2 : ¬ _ := fun h => m2 (hba.2 h)
        have e1 : ¬ ((a.1 = b.1 ∧ b.2 = a.2 + 1) ∨ (a.2 = b.2 ∧ b.1 = a.1 + 1)) :=
          fun h => n1 ⟨i1, i2, h⟩
        have e2 : ¬ ((b.1 = a.1 ∧ a.2 = b.2 + 1) ∨ (b.2 = a.2 ∧ a.1 = b.1 + 1)) :=
          fun h => n2 ⟨i2, i1, h⟩
        omega
  · have := List.length_filter_le Prod.snd M
    omega

/-- adjacency on a 2x3 lattice is nontrivial -/
example : Adjacent 2 3 (0, 1) (1, 1) ∧ ¬ Adjacent 2 3 (0, 0) (1, 1) ∧ ¬ Adjacent 2 3 (0, 2) (0, 3) := by
  decide

/-! ## C06 -/

/-- **C06** (candidate set): the enumeration lists, without repetition, exactly the pairs of
Hubbard states with the requested numbers of up and down electrons. -/
theorem C06_candidates_complete (nUp nDn : ℕ) :
    (enumerateHubbard nUp nDn).Nodup ∧
    ∀ p : ℕ × ℕ, p ∈ enumerateHubbard nUp nDn ↔ p.1 < 4 ∧ p.2 < 4 ∧
      upElectrons p.1 + upElectrons p.2 = nUp ∧ downElectrons p.1 + downElectrons p.2 = nDn := by
  have hc : ∀ c, c < 4 → hubbardSpinCounts c = some (upElectrons c, downElectrons c) := by
    intro c hc; interval_cases c <;> rfl
  have heq : enumerateHubbard nUp nDn = (List.range 4).flatMap fun c1 =>
      ((List.range 4).filter fun c2 => upElectrons c1 + upElectrons c2 = nUp ∧
        downElectrons c1 + downElectrons c2 = nDn).map fun c2 => (c1, c2) := by
    unfold enumerateHubbard
    apply List.flatMap_congr
    intro c1 h1
    rw [List.mem_range] at h1
    rw [← List.filterMap_eq_map, List.filterMap_filter]
    apply List.filterMap_congr
    intro c2 h2
    rw [List.mem_range] at h2
    rw [hc c1 h1, hc c2 h2]
    simp
  rw [heq]
  constructor
  · rw [List.nodup_flatMap]
    refine ⟨fun c1 _ => (List.nodup_range.filter _).map (fun a b h => by simpa using h), ?_⟩
    refine List.nodup_range.imp ?_
    intro x y hxy p hp hq
    simp only [List.mem_map] at hp hq
    obtain ⟨c, -, rfl⟩ := hp
    obtain ⟨c', -, h⟩ := hq
    simp only [Prod.mk.injEq] at h
    exact hxy h.1.symm
  · rintro ⟨p1, p2⟩
    simp only [List.mem_flatMap, List.mem_range, List.mem_map, List.mem_filter, Prod.mk.injEq,
      decide_eq_true_eq]
    constructor
    · rintro ⟨c1, h1, c2, ⟨h2, h3, h4⟩, rfl, rfl⟩; exact ⟨h1, h2, h3, h4⟩
    · rintro ⟨h1, h2, h3, h4⟩; exact ⟨p1, h1, p2, ⟨h2, h3, h4⟩, rfl, rfl⟩

section C06
variable [Field K] [LinearOrder K] [IsStrictOrderedRing K]

/-- one Hubbard update is defined, keeps the amplitude nonzero and replaces the pair by one with
the same electron numbers -/
theorem hubbard_step (C : Contractor A Γ) (ab : A → K) (ξ : ℕ → K) (hξ : ∀ n, 0 ≤ ξ n ∧ ξ n < 1)
    (s1 s2 : Site) (d : Orient) (w : Walker A Γ)
    (h1 : w.config s1 < 4) (h2 : w.config s2 < 4) (ha : ab w.amp ≠ 0) :
    ∃ r, hubbardU1U1 C ab ξ s1 s2 d w = some r ∧ ab r.1.amp ≠ 0 ∧
      (r.1.config = w.config ∨ ∃ v1 v2, v1 < 4 ∧ v2 < 4 ∧
        upElectrons v1 + upElectrons v2
          = upElectrons (w.config s1) + upElectrons (w.config s2) ∧
        downElectrons v1 + downElectrons v2
          = downElectrons (w.config s1) + downElectrons (w.config s2) ∧
        r.1.config = setSite (setSite w.config s1 v1) s2 v2) := by
  have hc : ∀ c, c < 4 → hubbardSpinCounts c = some (upElectrons c, downElectrons c) := by
    intro c hc; interval_cases c <;> rfl
  unfold hubbardU1U1
  rw [hc _ h1, hc _ h2]
  dsimp only
  set valid := enumerateHubbard (upElectrons (w.config s1) + upElectrons (w.config s2))
    (downElectrons (w.config s1) + downElectrons (w.config s2)) with hvalid
  have hmem := (C06_candidates_complete (upElectrons (w.config s1) + upElectrons (w.config s2))
    (downElectrons (w.config s1) + downElectrons (w.config s2))).2
  rw [← hvalid] at hmem
  by_cases hlen : valid.length ≤ 1
  · rw [if_pos hlen]; exact ⟨_, rfl, ha, Or.inl rfl⟩
  · rw [if_neg hlen]
    have hcur : (w.config s1, w.config s2) ∈ valid := (hmem _).2 ⟨h1, h2, rfl, rfl⟩
    set idx := valid.findIdx (fun p => p.1 == w.config s1 && p.2 == w.config s2) with hidx
    have hidxlt : idx < valid.length := by
      rw [hidx, List.findIdx_lt_length]
      exact ⟨_, hcur, by simp⟩
    simp only [hidxlt, if_true]
    set psis := valid.mapIdx (fun i p =>
      if i ≠ idx then C.nnTrace w.env w.config s1 s2 d p.1 p.2 else w.amp) with hpsis
    have hpl : psis.length = valid.length := by simp [hpsis]
    have hpi : psis[idx]'(by omega) = w.amp := by simp [hpsis]
    obtain ⟨r, hr, hr2⟩ := suwaTodoTail_defined C ab ξ hξ [s1, s2]
      (valid.map (fun p => [p.1, p.2])) psis (ab w.amp) (by simp [hpl]) idx (by omega) ha
      (by rw [hpi]; exact ha) w
    refine ⟨r, hr, ?_, ?_⟩
    · rcases hr2 with ⟨-, h⟩ | h
      · rw [h]; exact ha
      · exact h
    · obtain ⟨ws, fin, -, -, -, h3⟩ := suwaTodoTail_some _ _ _ _ _ _ _ _ _ hr
      rcases h3 with ⟨-, -, h4, -⟩ | ⟨-, -, vals, psi, h4, -, h5, -⟩
      · exact Or.inl h4
      · right
        rw [List.getElem?_map] at h4
        cases hv : valid[fin]? with
        | none => rw [hv] at h4; cases h4
        | some p =>
          rw [hv] at h4
          cases h4
          obtain ⟨m1, m2, m3, m4⟩ := (hmem p).1 (List.mem_of_getElem? hv)
          exact ⟨p.1, p.2, m1, m2, m3, m4, h5⟩

/-- **C06** (conservation). Whatever the contractor returns, a Hubbard U(1)xU(1) sweep started
from valid site states and a nonzero amplitude runs without undefined behaviour, keeps all site
states valid, and conserves the total number of up and of down electrons. -/
theorem C06_hubbard_sweep_conserves (C : Contractor A Γ) (ab : A → K) (ξ : ℕ → K)
    (hξ : ∀ n, 0 ≤ ξ n ∧ ξ n < 1) (rows cols : ℕ) (w : Walker A Γ)
    (hv : ∀ p, InLattice rows cols p → w.config p < 4) (ha : ab w.amp ≠ 0) :
    ∃ w', (obcSweep (envOpsOption C) (fun a b d => liftUpd (hubbardU1U1 C ab ξ a b d)) rows cols
        (some w)).1 = some w' ∧
      (∀ p, InLattice rows cols p → w'.config p < 4) ∧
      ∑ p ∈ sites rows cols, upElectrons (w'.config p)
        = ∑ p ∈ sites rows cols, upElectrons (w.config p) ∧
      ∑ p ∈ sites rows cols, downElectrons (w'.config p)
        = ∑ p ∈ sites rows cols, downElectrons (w.config p) := by
  have key := obcSweep_inv (envOpsOption C) (fun a b d => liftUpd (hubbardU1U1 C ab ξ a b d))
    rows cols (fun o => ∃ x, o = some x ∧ ((∀ p, InLattice rows cols p → x.config p < 4) ∧
      ∑ p ∈ sites rows cols, upElectrons (x.config p)
        = ∑ p ∈ sites rows cols, upElectrons (w.config p) ∧
      ∑ p ∈ sites rows cols, downElectrons (x.config p)
        = ∑ p ∈ sites rows cols, downElectrons (w.config p) ∧ ab x.amp ≠ 0))
    (envPres_option C (fun c am _ => (∀ p, InLattice rows cols p → c p < 4) ∧
      ∑ p ∈ sites rows cols, upElectrons (c p)
        = ∑ p ∈ sites rows cols, upElectrons (w.config p) ∧
      ∑ p ∈ sites rows cols, downElectrons (c p)
        = ∑ p ∈ sites rows cols, downElectrons (w.config p) ∧ ab am ≠ 0))
    ?_ (some w) ⟨w, rfl, hv, rfl, rfl, ha⟩
  · obtain ⟨w', h1, h2, h3, h4, -⟩ := key
    exact ⟨w', h1, h2, h3, h4⟩
  · rintro a b d o hina hinb hab ⟨x, rfl, hx1, hx2, hx3, hx4⟩
    obtain ⟨r, hr, hr1, hr2⟩ := hubbard_step C ab ξ hξ a b d x (hx1 a hina) (hx1 b hinb) hx4
    refine ⟨r.1, by simp [liftUpd, hr], ?_⟩
    rcases hr2 with h | ⟨v1, v2, g1, g2, g3, g4, g5⟩
    · rw [h]; exact ⟨hx1, hx2, hx3, hr1⟩
    · have hnd : [a, b].Nodup := by simp [hab]
      obtain ⟨f1, f2⟩ := foldl_setSite [a, b] [v1, v2] hnd rfl x.config
      change List.map (setSite (setSite x.config a v1) b v2) [a, b] = _ at f1
      change ∀ p, p ∉ [a, b] → setSite (setSite x.config a v1) b v2 p = _ at f2
      rw [← g5] at f1 f2
      simp only [List.map_cons, List.map_nil, List.cons.injEq, and_true] at f1
      have hin : ∀ p ∈ [a, b], InLattice rows cols p := by
        intro p hp
        simp only [List.mem_cons, List.not_mem_nil, or_false] at hp
        rcases hp with rfl | rfl <;> assumption
      refine ⟨?_, ?_, ?_, hr1⟩
      · intro p hp
        by_cases h1 : p = a
        · rw [h1, f1.1]; exact g1
        · by_cases h2 : p = b
          · rw [h2, f1.2]; exact g2
          · rw [f2 p (by simp [h1, h2])]; exact hx1 p hp
      · rw [← hx2]
        exact sum_sites_eq rows cols upElectrons [a, b] hnd hin _ _ f2
          (by simp [f1.1, f1.2, g3])
      · rw [← hx3]
        exact sum_sites_eq rows cols downElectrons [a, b] hnd hin _ _ f2
          (by simp [f1.1, f1.2, g4])

/-- a Hubbard sweep that splits a doublon: (doublon, empty) becomes (up, down) -/
example : ((obcSweep (envOpsOption (exactContractor (fun c : Config => (1 + c (0, 0) : ℚ))))
    (fun a b d => liftUpd (hubbardU1U1 (exactContractor (fun c : Config => (1 + c (0, 0) : ℚ)))
      (fun x => |x|) (fun _ => 1/2) a b d)) 1 2
      (some ⟨fun p => if p = (0, 0) then 0 else 3, 1, (), 0⟩)).1.map
        (fun w => (w.config (0, 0), w.config (0, 1)))) = some (3, 0) := by
  decide +kernel

/-! ## C07 -/

/-- **C07** (encoding). Pairs of local states below `dim` and indices below `dim * dim`
correspond one to one. -/
theorem C07_encode_decode (dim : ℕ) :
    (∀ c1 c2, c1 < dim → c2 < dim → c1 * dim + c2 < dim * dim ∧
      (c1 * dim + c2) / dim = c1 ∧ (c1 * dim + c2) % dim = c2) ∧
    (∀ k, k < dim * dim → k / dim < dim ∧ k % dim < dim ∧ (k / dim) * dim + k % dim = k) := by
  constructor
  · intro c1 c2 h1 h2
    refine ⟨?_, ?_, ?_⟩
    · nlinarith
    · rw [Nat.add_comm, Nat.add_mul_div_right _ _ (by omega), Nat.div_eq_of_lt h2, Nat.zero_add]
    · rw [Nat.add_comm, Nat.add_mul_mod_self_right, Nat.mod_eq_of_lt h2]
  · intro k hk
    have hd : 0 < dim := by
      rcases Nat.eq_zero_or_pos dim with rfl | h
      · simp at hk
      · exact h
    exact ⟨Nat.div_lt_of_lt_mul hk, Nat.mod_lt _ hd, Nat.div_add_mod' k dim⟩

/-- **C07** (sweep). Whatever the contractor returns, a full-space sweep started with local
states below `dim` and a nonzero amplitude is free of undefined behaviour and ends with all local
states below `dim`. -/
theorem C07_full_space_sweep_in_range (C : Contractor A Γ) (ab : A → K) (ξ : ℕ → K)
    (hξ : ∀ n, 0 ≤ ξ n ∧ ξ n < 1) (dim rows cols : ℕ) (w : Walker A Γ)
    (hv : ∀ p, InLattice rows cols p → w.config p < dim) (ha : ab w.amp ≠ 0) :
    ∃ w', (obcSweep (envOpsOption C) (fun a b d => liftUpd (fullSpace C ab ξ dim a b d)) rows cols
        (some w)).1 = some w' ∧ ∀ p, InLattice rows cols p → w'.config p < dim := by
  have key := obcSweep_inv (envOpsOption C) (fun a b d => liftUpd (fullSpace C ab ξ dim a b d))
    rows cols (fun o => ∃ x, o = some x ∧ ((∀ p, InLattice rows cols p → x.config p < dim) ∧
      ab x.amp ≠ 0))
    (envPres_option C (fun c am _ => (∀ p, InLattice rows cols p → c p < dim) ∧ ab am ≠ 0))
    ?_ (some w) ⟨w, rfl, hv, ha⟩
  · obtain ⟨w', h1, h2, -⟩ := key; exact ⟨w', h1, h2⟩
  · rintro a b d o hina hinb hab ⟨x, rfl, hx1, hx2⟩
    obtain ⟨e1, -, -⟩ := (C07_encode_decode dim).1 _ _ (hx1 a hina) (hx1 b hinb)
    set init := x.config a * dim + x.config b with hinit
    set psis := (List.range (dim * dim)).map (fun k =>
      if k ≠ init then C.nnTrace x.env x.config a b d (k / dim) (k % dim) else x.amp) with hpsis
    have hpi : psis[init]'(by simp [hpsis, e1]) = x.amp := by simp [hpsis]
    obtain ⟨r, hr, hr2⟩ := suwaTodoTail_defined C ab ξ hξ [a, b]
      ((List.range (dim * dim)).map (fun k => [k / dim, k % dim])) psis (ab x.amp)
      (by simp [hpsis]) init (by simp [hpsis, e1]) hx2 (by rw [hpi]; exact hx2) x
    have hfs : fullSpace C ab ξ dim a b d x = some r := by
      unfold fullSpace
      simp only [← hinit, e1, if_true]
      exact hr
    refine ⟨r.1, by simp [liftUpd, hfs], ?_, ?_⟩
    · obtain ⟨ws, fin, -, -, -, h3⟩ := suwaTodoTail_some _ _ _ _ _ _ _ _ _ hr
      rcases h3 with ⟨-, -, h4, -⟩ | ⟨-, -, vals, psi, h4, -, h5, -⟩
      · rw [h4]; exact hx1
      · rw [List.getElem?_map] at h4
        cases hk : (List.range (dim * dim))[fin]? with
        | none => rw [hk] at h4; cases h4
        | some k =>
          rw [hk] at h4
          cases h4
          have hkd : k < dim * dim := List.mem_range.1 (List.mem_of_getElem? hk)
          obtain ⟨k1, k2, -⟩ := (C07_encode_decode dim).2 k hkd
          intro p hp
          rw [h5]
          change setSite (setSite x.config a (k / dim)) b (k % dim) p < dim
          unfold setSite
          split_ifs
          · exact k2
          · exact k1
          · exact hx1 p hp
    · rcases hr2 with ⟨-, h⟩ | h
      · rw [h]; exact hx2
      · exact h

/-- concrete full-space update with physical dimension 3 -/
example : (fullSpace (exactContractor (fun c : Config => (1 + c (0, 0) + c (0, 1) : ℚ)))
    (fun x => |x|) (fun _ => 1/2) 3 (0, 0) (0, 1) .horizontal
    ⟨fun _ => 2, 5, (), 0⟩).map (fun r => (r.1.config (0, 0), r.1.config (0, 1))) = some (0, 2) := by
  decide +kernel

end C06

/-! ## C62 -/

/-- **C62** (exchange sweeps): with exact replacement traces the stored amplitude is always the
amplitude of the stored configuration. -/
theorem C62_amplitude_consistent_exchange [LE K] [DecidableLE K] [LT K] [DecidableLT K] [Div K]
    [Mul K] (C : Contractor A Γ) (ψ : Config → A) (hC : Exact C ψ) (ab : A → K) (ξ : ℕ → K)
    (rows cols : ℕ) (w : Walker A Γ) (h : w.amp = ψ w.config) :
    (obcSweep (envOps C) (nnExchange C ab ξ) rows cols w).1.amp
      = ψ (obcSweep (envOps C) (nnExchange C ab ξ) rows cols w).1.config := by
  refine obcSweep_inv (envOps C) (nnExchange C ab ξ) rows cols (fun x => x.amp = ψ x.config)
    (envPres_config C (fun c a _ => a = ψ c)) ?_ w h
  intro a b d x _ _ _ hx
  rcases nnExchange_config C ab ξ a b d x with ⟨h1, h2, -⟩ | ⟨h1, h2, -, -⟩
  · rw [h1, h2]; exact hx
  · rw [h1, h2, hC.nn]

section
variable [Field K] [LinearOrder K]

theorem suwaTodoTail_consistent (C : Contractor A Γ) (ψ : Config → A) (ξ : ℕ → K)
    (sites : List Site) (cands : List (List ℕ)) (psis : List A) (weights : Option (List K))
    (init : ℕ) (w : Walker A Γ) (hw : w.amp = ψ w.config) (r : Walker A Γ × Bool)
    (hp : ∀ k vals psi, k ≠ init → cands[k]? = some vals → psis[k]? = some psi →
      psi = ψ ((sites.zip vals).foldl (fun c p => setSite c p.1 p.2) w.config))
    (h : suwaTodoTail C ξ sites cands psis weights init w = some r) :
    r.1.amp = ψ r.1.config := by
  obtain ⟨ws, fin, -, -, -, h3⟩ := suwaTodoTail_some _ _ _ _ _ _ _ _ _ h
  rcases h3 with ⟨-, -, h4, h5⟩ | ⟨hfin, -, vals, psi, h4, h6, h5, h7⟩
  · rw [h4, h5]; exact hw
  · rw [h7, h5]; exact hp fin vals psi hfin h4 h6

/-- **C62** (full-space, Hubbard and three-site updates). -/
theorem C62_amplitude_consistent_suwa_todo (C : Contractor A Γ) (ψ : Config → A) (hC : Exact C ψ)
    (ab : A → K) (ξ : ℕ → K) (w : Walker A Γ) (hw : w.amp = ψ w.config) (r : Walker A Γ × Bool)
    (s1 s2 s3 : Site) (d : Orient) (dim : ℕ)
    (h : fullSpace C ab ξ dim s1 s2 d w = some r ∨ hubbardU1U1 C ab ξ s1 s2 d w = some r ∨
      tnn3Exchange C ab ξ s1 s2 s3 d w = some r) : r.1.amp = ψ r.1.config := by
  rcases h with h | h | h
  · unfold fullSpace at h
    dsimp only at h
    split_ifs at h with h1
    refine suwaTodoTail_consistent C ψ ξ _ _ _ _ _ w hw r ?_ h
    intro k vals psi hk h2 h3
    rw [List.getElem?_map] at h2 h3
    by_cases hlt : k < dim * dim
    · rw [List.getElem?_range hlt] at h2 h3
      simp only [Option.map_some, Option.some.injEq, ne_eq, hk, not_false_iff, if_true] at h2 h3
      rw [← h3, hC.nn, ← h2]
      rfl
    · rw [List.getElem?_eq_none (by simpa using hlt)] at h2
      cases h2
  · unfold hubbardU1U1 at h
    split at h
    · dsimp only at h
      split_ifs at h with h1
      · cases h; exact hw
      all_goals
        refine suwaTodoTail_consistent C ψ ξ _ _ _ _ _ w hw r ?_ h
        intro k vals psi hk h2 h3
        rw [List.getElem?_map] at h2
        rw [List.getElem?_mapIdx] at h3
        obtain ⟨p, hp, rfl⟩ := Option.map_eq_some_iff.1 h2
        rw [hp] at h3
        simp only [Option.map_some, Option.some.injEq, ne_eq, hk, not_false_iff, if_true] at h3
        rw [← h3, hC.nn]
        rfl
    · cases h
  · unfold tnn3Exchange at h
    dsimp only at h
    split_ifs at h with h1
    · cases h; exact hw
    · split at h
      · cases h
      · rename_i perms hperms
        obtain ⟨-, hmem⟩ := permutations3_spec _ _ _ _ hperms
        refine suwaTodoTail_consistent C ψ ξ _ _ _ _ _ w hw r ?_ h
        intro k vals psi hk h2 h3
        have hperm := (hmem vals).1 (List.mem_of_getElem? h2)
        have hlen := hperm.length_eq
        match vals, hlen with
        | [x, y, z], _ =>
          rw [List.getElem?_mapIdx, h2] at h3
          simp only [Option.map_some, Option.some.injEq, ne_eq, hk, not_false_iff, if_true] at h3
          rw [← h3, hC.tnn]
          rfl

/-- C62's hypotheses are met -/
example : (5 : ℚ) = (fun c : Config => (1 + c (0, 0) + c (0, 1) : ℚ)) (fun _ => 2) ∧
    (fullSpace (exactContractor (fun c : Config => (1 + c (0, 0) + c (0, 1) : ℚ)))
      (fun x => |x|) (fun _ => 1/2) 3 (0, 0) (0, 1) .horizontal
      ⟨fun _ => 2, 5, (), 0⟩).map (fun r => (r.1.amp, r.2)) = some (3, true) := by
  decide +kernel

end

end QLPeps.Updaters
