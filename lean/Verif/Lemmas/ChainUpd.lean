import Verif.Lemmas.ChainSweep

/-!
# The four local updates as steps of a chain
-/

open MeasureTheory ProbabilityTheory Set

namespace QLPeps.Chain

open Spec QLPeps.Updaters QLPeps.Sweep QLPeps.SuwaTodo

variable {A : Type*}

/-- amplitudes replaced by their absolute values, as complex numbers -/
noncomputable def absC (ab : A → ℝ) (z : A) : ℂ := (ab z : ℂ)

theorem norm_absC {ab : A → ℝ} (h : ∀ z, 0 ≤ ab z) (z : A) : ‖absC ab z‖ = ab z := by
  simp [absC, abs_of_nonneg (h z)]

theorem updateLocal_exact {B : Type*} (ψ : Config → B) (p : B) (l : List (Site × ℕ))
    (w : Walker B Unit) :
    updateLocal (exactContractor ψ) p l w =
      ⟨l.foldl (fun c q => setSite c q.1 q.2) w.config, p, (), w.draws⟩ := by
  obtain ⟨h1, h2, h3⟩ := updateLocal_config (exactContractor ψ) p l w
  cases h : updateLocal (exactContractor ψ) p l w
  rw [h] at h1 h2 h3
  simp_all

/-! ## Exchange -/

/-- numbers drawn by an exchange update -/
noncomputable def exchangeK (ψ : Config → A) (ab : A → ℝ) (s1 s2 : Site) (c : Config) : ℕ :=
  if c s1 = c s2 then 0
  else metropolisDraws (ab (ψ (setSite (setSite c s1 (c s2)) s2 (c s1)))) (ab (ψ c))

/-- the exchange update as a partial update -/
noncomputable def exchangeStep (ψ : Config → A) (ab : A → ℝ) (s1 s2 : Site) (d : Orient)
    (ξ : ℕ → ℝ) (w : Walker A Unit) : Option (Walker A Unit × Bool) :=
  some (nnExchange (exactContractor ψ) ab ξ s1 s2 d w)

theorem exchange_reads (ψ : Config → A) (ab : A → ℝ) (s1 s2 : Site) (d : Orient) :
    Reads ψ (exchangeStep ψ ab s1 s2 d) (exchangeK ψ ab s1 s2) := by
  intro ξ c n
  simp only [exchangeStep, Option.map_some, Option.some.injEq]
  unfold nnExchange exchangeK
  by_cases h : c s1 = c s2
  · simp only [h, if_true, add_zero]
  · simp only [h, if_false]
    split_ifs <;> simp only [updateLocal_exact] <;> rfl

theorem exchange_config (ψ : Config → A) (ab : A → ℝ) (s1 s2 : Site) (d : Orient) (c : Config)
    (u : ℝ) : (nnExchange (exactContractor ψ) ab (fun _ => u) s1 s2 d ⟨c, ψ c, (), 0⟩).1.config =
      if c s1 = c s2 then c else
        if metropolisAccept (ab (ψ (setSite (setSite c s1 (c s2)) s2 (c s1)))) (ab (ψ c)) u = true then
          setSite (setSite c s1 (c s2)) s2 (c s1) else c := by
  unfold nnExchange
  by_cases h : c s1 = c s2
  · simp only [h, if_true]
  · simp only [h, if_false]
    by_cases h2 : metropolisAccept (ab (ψ (setSite (setSite c s1 (c s2)) s2 (c s1)))) (ab (ψ c)) u = true
    · rw [if_pos h2, if_pos (by exact h2), updateLocal_exact]; rfl
    · rw [if_neg h2, if_neg (by exact h2)]

theorem exchange_good (ψ : Config → A) (ab : A → ℝ) (s1 s2 : Site) (d : Orient) (Ω : Finset Config)
    (hΩ : ∀ c ∈ Ω, (fun p => c (Equiv.swap s1 s2 p)) ∈ Ω) :
    (updOf ψ (exchangeStep ψ ab s1 s2 d) (exchangeK ψ ab s1 s2)).Good Ω where
  closed c hc u _ c' h := by
    simp only [updOf, exchangeStep, Option.map_some, Option.some.injEq] at h
    rcases nnExchange_config (exactContractor ψ) ab (fun _ => u) s1 s2 d ⟨c, ψ c, (), 0⟩ with
      ⟨h3, -, -⟩ | ⟨h3, -, -, -⟩
    · rw [← h, h3]; exact hc
    · rw [← h, h3, setSite_swap]; exact hΩ c hc
  const c _ h u _ := by
    simp only [updOf, exchangeK] at h
    simp only [updOf, exchangeStep, Option.map_some, Option.some.injEq, exchange_config]
    by_cases h1 : c s1 = c s2
    · simp only [h1, if_true]
    · rw [if_neg h1] at h
      unfold metropolisDraws at h
      split_ifs at h with h2
      have : ∀ u, metropolisAccept (ab (ψ (setSite (setSite c s1 (c s2)) s2 (c s1)))) (ab (ψ c)) u
          = true := fun u => by unfold metropolisAccept; rw [if_pos h2]
      simp only [this]
  meas c _ c' := by
    simp only [updOf, exchangeStep, Option.map_some, Option.some.injEq, exchange_config]
    refine measurableSet_Ico.inter ?_
    have key : ∀ (b1 b2 : Config) (B A : ℝ), MeasurableSet {u : ℝ |
        (if metropolisAccept B A u = true then b1 else b2) = c'} := by
      intro b1 b2 B A
      have hm : MeasurableSet {u : ℝ | metropolisAccept B A u = true} := by
        unfold metropolisAccept
        split_ifs
        · simp
        · simp only [decide_eq_true_eq]; exact measurableSet_Iio
      have : {u : ℝ | (if metropolisAccept B A u = true then b1 else b2) = c'} =
          ({u | metropolisAccept B A u = true} ∩ {_u | b1 = c'}) ∪
          ({u | metropolisAccept B A u = true}ᶜ ∩ {_u | b2 = c'}) := by
        ext u
        by_cases h : metropolisAccept B A u = true <;> simp [h]
      rw [this]
      exact (hm.inter (MeasurableSet.const _)).union (hm.compl.inter (MeasurableSet.const _))
    by_cases h1 : c s1 = c s2
    · simp only [h1, if_true]
      exact MeasurableSet.const _
    · simp only [h1, if_false]
      exact key _ _ _ _

theorem exchange_stationary (ψ : Config → A) (ab : A → ℝ) (hab : ∀ z, 0 ≤ ab z) (s1 s2 : Site)
    (d : Orient) (Ω : Finset Config) (hΩ : ∀ c ∈ Ω, (fun p => c (Equiv.swap s1 s2 p)) ∈ Ω)
    (c' : Config) (hc' : c' ∈ Ω) :
    ∑ c ∈ Ω, ab (ψ c) ^ 2 *
      (updOf ψ (exchangeStep ψ ab s1 s2 d) (exchangeK ψ ab s1 s2)).prob c c' = ab (ψ c') ^ 2 := by
  have h := C63_exchange_stationary (exactContractor fun c => absC ab (ψ c)) (fun c => absC ab (ψ c))
    (exactContractor_exact _) () s1 s2 d Ω hΩ c' hc'
  simp only [norm_absC hab] at h
  rw [← h]
  refine Finset.sum_congr rfl fun c _ => ?_
  congr 1
  unfold Upd.prob exchangeProb
  congr 2
  ext u
  simp only [updOf, exchangeStep, Option.map_some, Option.some.injEq, mem_ofPred_eq]
  refine and_congr_right fun _ => ?_
  rw [exchange_config, exchange_config (fun c => absC ab (ψ c))]
  simp only [norm_absC hab]

/-! ## Rejection-free updates -/

theorem tail_shift (ψ : Config → A) (ξ : ℕ → ℝ) (sites : List Site) (cands : List (List ℕ))
    (psis : List A) (ws : Option (List ℝ)) (init : ℕ) (c : Config) (a : A) (n : ℕ) :
    suwaTodoTail (exactContractor ψ) ξ sites cands psis ws init ⟨c, a, (), n⟩ =
      (suwaTodoTail (exactContractor ψ) (fun _ => ξ n) sites cands psis ws init ⟨c, a, (), 0⟩).map
        fun r => (⟨r.1.config, r.1.amp, (), n + 1⟩, r.2) := by
  unfold suwaTodoTail
  cases ws with
  | none => rfl
  | some ws =>
    dsimp only
    cases suwaTodo ws init (ξ n) with
    | none => rfl
    | some fin =>
      dsimp only
      by_cases h : fin = init
      · simp only [if_pos h]; rfl
      · simp only [if_neg h]
        cases cands[fin]? with
        | none => rfl
        | some v =>
          cases psis[fin]? with
          | none => rfl
          | some p => simp only [updateLocal_exact]; rfl

/-- where the common tail leads -/
def tailCfg (sites : List Site) (cands : List (List ℕ)) (len : ℕ) (init : ℕ) (c : Config) :
    Option ℕ → Option Config
  | none => none
  | some fin =>
    if fin = init then some c
    else if fin < len then (cands[fin]?).map fun v =>
      (sites.zip v).foldl (fun c p => setSite c p.1 p.2) c
    else none

theorem tail_config (ψ : Config → A) (u : ℝ) (sites : List Site) (cands : List (List ℕ))
    (psis : List A) (ws : Option (List ℝ)) (init : ℕ) (c : Config) (a : A) (n : ℕ) :
    (suwaTodoTail (exactContractor ψ) (fun _ => u) sites cands psis ws init ⟨c, a, (), n⟩).map
      (fun r => r.1.config) =
    ws.bind fun ws => tailCfg sites cands psis.length init c (suwaTodo ws init u) := by
  unfold suwaTodoTail tailCfg
  cases ws with
  | none => rfl
  | some ws =>
    simp only [Option.bind_some]
    cases suwaTodo ws init u with
    | none => rfl
    | some fin =>
      dsimp only
      by_cases h : fin = init
      · simp only [if_pos h]; rfl
      · simp only [if_neg h]
        by_cases h2 : fin < psis.length
        · rw [if_pos h2, List.getElem?_eq_getElem h2]
          cases cands[fin]? with
          | none => rfl
          | some v => simp only [updateLocal_exact, Option.map_some]
        · rw [if_neg h2, List.getElem?_eq_none (l := psis) (by omega)]
          cases cands[fin]? <;> rfl

/-- an update that either does nothing, or is undefined, or ends in the common tail -/
def IsTail (ψ : Config → A) (step : (ℕ → ℝ) → Walker A Unit → Option (Walker A Unit × Bool))
    (k : Config → ℕ) : Prop :=
  ∀ c, (k c = 0 ∧ ∀ ξ n, step ξ ⟨c, ψ c, (), n⟩ = some (⟨c, ψ c, (), n⟩, false)) ∨
    (∀ ξ n, step ξ ⟨c, ψ c, (), n⟩ = none) ∨
    (k c = 1 ∧ ∃ sites cands psis ws init, ∀ ξ n, step ξ ⟨c, ψ c, (), n⟩ =
      suwaTodoTail (exactContractor ψ) ξ sites cands psis ws init ⟨c, ψ c, (), n⟩)

theorem IsTail.reads {ψ : Config → A}
    {step : (ℕ → ℝ) → Walker A Unit → Option (Walker A Unit × Bool)} {k : Config → ℕ}
    (h : IsTail ψ step k)
    (hcons : ∀ ξ c n r, step ξ ⟨c, ψ c, (), n⟩ = some r → r.1.amp = ψ r.1.config) :
    Reads ψ step k := by
  intro ξ c n
  rcases h c with ⟨h1, h2⟩ | h2 | ⟨h1, sites, cands, psis, ws, init, h2⟩
  · rw [h2, h2, h1]; rfl
  · rw [h2, h2]; rfl
  · have hc := hcons (fun _ => ξ n) c 0
    rw [h2] at hc
    rw [h2, h2, tail_shift, h1]
    cases hr : suwaTodoTail (exactContractor ψ) (fun _ => ξ n) sites cands psis ws init
        ⟨c, ψ c, (), 0⟩ with
    | none => rfl
    | some r =>
      simp only [Option.map_some, Option.some.injEq]
      rw [hc r hr]

theorem IsTail.good {ψ : Config → A}
    {step : (ℕ → ℝ) → Walker A Unit → Option (Walker A Unit × Bool)} {k : Config → ℕ}
    (h : IsTail ψ step k) (Ω : Finset Config)
    (hclosed : ∀ ξ, ∀ c ∈ Ω, ∀ r, step ξ ⟨c, ψ c, (), 0⟩ = some r → r.1.config ∈ Ω) :
    (updOf ψ step k).Good Ω where
  closed c hc u _ c' h' := by
    obtain ⟨r, hr, rfl⟩ := Option.map_eq_some_iff.1 h'
    exact hclosed _ c hc r hr
  const c _ h0 u _ := by
    simp only [updOf] at h0 ⊢
    rcases h c with ⟨h1, h2⟩ | h2 | ⟨h1, -⟩
    · rw [h2, h2]
    · rw [h2, h2]
    · omega
  meas c _ c' := by
    simp only [updOf]
    rcases h c with ⟨h1, h2⟩ | h2 | ⟨h1, sites, cands, psis, ws, init, h2⟩
    · simp only [h2]; exact measurableSet_Ico.inter (MeasurableSet.const _)
    · simp only [h2]; exact measurableSet_Ico.inter (MeasurableSet.const _)
    · simp only [h2, tail_config]
      cases ws with
      | none => simp
      | some ws =>
        simp only [Option.bind_some]
        exact measurableSet_suwaTodo ws init
          (fun o => tailCfg sites cands psis.length init c o = some c')

theorem normWeights_absC {ab : A → ℝ} (hab : ∀ z, 0 ≤ ab z) (psis : List A) (ref : ℝ) :
    normWeights (fun z : ℂ => ‖z‖) (psis.map (absC ab)) ref = normWeights ab psis ref := by
  unfold normWeights
  simp only [List.map_map, Function.comp_def, norm_absC hab]

/-! ### Full space -/

theorem fullSpace_isTail (ψ : Config → A) (ab : A → ℝ) (dim : ℕ) (s1 s2 : Site) (d : Orient) :
    IsTail ψ (fun ξ => fullSpace (exactContractor ψ) ab ξ dim s1 s2 d) fun _ => 1 := by
  intro c
  by_cases h : c s1 * dim + c s2 < dim * dim
  · unfold fullSpace
    simp only [h, if_true]
    exact Or.inr (Or.inr ⟨trivial, _, _, _, _, _, fun ξ n => rfl⟩)
  · refine Or.inr (Or.inl fun ξ n => ?_)
    unfold fullSpace
    simp only [h, if_false]

theorem fullSpace_reads (ψ : Config → A) (ab : A → ℝ) (dim : ℕ) (s1 s2 : Site) (d : Orient) :
    Reads ψ (fun ξ => fullSpace (exactContractor ψ) ab ξ dim s1 s2 d) fun _ => 1 :=
  (fullSpace_isTail ψ ab dim s1 s2 d).reads fun ξ c n r hr =>
    C62_amplitude_consistent_suwa_todo (exactContractor ψ) ψ (exactContractor_exact ψ) ab ξ
      ⟨c, ψ c, (), n⟩ rfl r s1 s2 s1 d dim (Or.inl hr)

theorem fullSpace_good (ψ : Config → A) (ab : A → ℝ) (dim : ℕ) (s1 s2 : Site) (d : Orient)
    (Ω : Finset Config)
    (hΩ : ∀ c ∈ Ω, ∀ a b, a < dim → b < dim → setSite (setSite c s1 a) s2 b ∈ Ω) :
    (updOf ψ (fun ξ => fullSpace (exactContractor ψ) ab ξ dim s1 s2 d) fun _ => 1).Good Ω := by
  refine (fullSpace_isTail ψ ab dim s1 s2 d).good Ω fun ξ c hc r hr => ?_
  unfold fullSpace at hr
  dsimp only at hr
  split_ifs at hr
  obtain ⟨ws, fin, -, -, -, h3⟩ := suwaTodoTail_some _ _ _ _ _ _ _ _ _ hr
  rcases h3 with ⟨-, -, h4, -⟩ | ⟨-, -, vals, psi, h4, -, h5, -⟩
  · rw [h4]; exact hc
  · rw [List.getElem?_map] at h4
    obtain ⟨k, hk, rfl⟩ := Option.map_eq_some_iff.1 h4
    have hkd : k < dim * dim := List.mem_range.1 (List.mem_of_getElem? hk)
    obtain ⟨k1, k2, -⟩ := (C07_encode_decode dim).2 k hkd
    rw [h5]
    exact hΩ c hc _ _ k1 k2

theorem fullSpace_stationary (ψ : Config → A) (ab : A → ℝ) (hab : ∀ z, 0 ≤ ab z) (dim : ℕ)
    (s1 s2 : Site) (hs : s1 ≠ s2) (d : Orient) (Ω : Finset Config)
    (hdim : ∀ c ∈ Ω, c s1 < dim ∧ c s2 < dim)
    (hΩ : ∀ c ∈ Ω, ∀ a b, a < dim → b < dim → setSite (setSite c s1 a) s2 b ∈ Ω)
    (c' : Config) (hc' : c' ∈ Ω) :
    ∑ c ∈ Ω, ab (ψ c) ^ 2 *
      (updOf ψ (fun ξ => fullSpace (exactContractor ψ) ab ξ dim s1 s2 d) fun _ => 1).prob c c'
      = ab (ψ c') ^ 2 := by
  have h := C63_full_space_stationary (exactContractor fun c => absC ab (ψ c))
    (fun c => absC ab (ψ c)) (exactContractor_exact _) () s1 s2 hs d dim Ω hdim hΩ c' hc'
  simp only [norm_absC hab] at h
  rw [← h]
  refine Finset.sum_congr rfl fun c _ => ?_
  congr 1
  unfold Upd.prob stepProb
  congr 2
  ext u
  simp only [updOf, mem_ofPred_eq]
  refine and_congr_right fun _ => ?_
  unfold fullSpace
  dsimp only
  split_ifs with h1
  · rw [tail_config, tail_config (fun c => absC ab (ψ c))]
    rw [show (List.range (dim * dim)).map (fun k => if k ≠ c s1 * dim + c s2 then
        (exactContractor fun c => absC ab (ψ c)).nnTrace () c s1 s2 d (k / dim) (k % dim)
        else absC ab (ψ c)) = ((List.range (dim * dim)).map (fun k => if k ≠ c s1 * dim + c s2 then
        (exactContractor ψ).nnTrace () c s1 s2 d (k / dim) (k % dim) else ψ c)).map (absC ab) by
      rw [List.map_map]
      refine List.map_congr_left fun k _ => ?_
      simp only [Function.comp]
      split_ifs <;> rfl]
    rw [norm_absC hab, normWeights_absC hab]
    simp only [List.length_map]
  · rfl

/-! ### Hubbard -/

/-- numbers drawn by the Hubbard update -/
def hubbardK (s1 s2 : Site) (c : Config) : ℕ :=
  match hubbardSpinCounts (c s1), hubbardSpinCounts (c s2) with
  | some (u1, d1), some (u2, d2) => if (enumerateHubbard (u1 + u2) (d1 + d2)).length ≤ 1 then 0 else 1
  | _, _ => 0

theorem hubbard_isTail (ψ : Config → A) (ab : A → ℝ) (s1 s2 : Site) (d : Orient) :
    IsTail ψ (fun ξ => hubbardU1U1 (exactContractor ψ) ab ξ s1 s2 d) (hubbardK s1 s2) := by
  intro c
  unfold hubbardK hubbardU1U1
  dsimp only
  cases hubbardSpinCounts (c s1) with
  | none => exact Or.inr (Or.inl fun _ _ => rfl)
  | some p =>
    cases hubbardSpinCounts (c s2) with
    | none => exact Or.inr (Or.inl fun _ _ => rfl)
    | some q =>
      dsimp only
      generalize enumerateHubbard (p.1 + q.1) (p.2 + q.2) = valid
      by_cases h : valid.length ≤ 1
      · simp only [if_pos h]
        exact Or.inl ⟨trivial, fun _ _ => trivial⟩
      · simp only [if_neg h]
        let idx := valid.findIdx (fun p => p.1 == c s1 && p.2 == c s2)
        let ini := if idx < valid.length then idx else 0
        let psis := valid.mapIdx (fun i p =>
          if i ≠ ini then (exactContractor ψ).nnTrace () c s1 s2 d p.1 p.2 else ψ c)
        exact Or.inr (Or.inr ⟨trivial, [s1, s2], valid.map (fun p => [p.1, p.2]), psis,
          normWeights ab psis (ab (ψ c)), ini, fun ξ n => rfl⟩)

theorem hubbard_reads (ψ : Config → A) (ab : A → ℝ) (s1 s2 : Site) (d : Orient) :
    Reads ψ (fun ξ => hubbardU1U1 (exactContractor ψ) ab ξ s1 s2 d) (hubbardK s1 s2) :=
  (hubbard_isTail ψ ab s1 s2 d).reads fun ξ c n r hr =>
    C62_amplitude_consistent_suwa_todo (exactContractor ψ) ψ (exactContractor_exact ψ) ab ξ
      ⟨c, ψ c, (), n⟩ rfl r s1 s2 s1 d 0 (Or.inr (Or.inl hr))

theorem hubbard_good (ψ : Config → A) (ab : A → ℝ) (s1 s2 : Site) (d : Orient)
    (Ω : Finset Config) (hdim : ∀ c ∈ Ω, c s1 < 4 ∧ c s2 < 4)
    (hΩ : ∀ c ∈ Ω, ∀ a b, a < 4 → b < 4 →
      upElectrons a + upElectrons b = upElectrons (c s1) + upElectrons (c s2) →
      downElectrons a + downElectrons b = downElectrons (c s1) + downElectrons (c s2) →
      setSite (setSite c s1 a) s2 b ∈ Ω) :
    (updOf ψ (fun ξ => hubbardU1U1 (exactContractor ψ) ab ξ s1 s2 d) (hubbardK s1 s2)).Good Ω := by
  refine (hubbard_isTail ψ ab s1 s2 d).good Ω fun ξ c hc r hr => ?_
  unfold hubbardU1U1 at hr
  dsimp only at hr
  rw [hubbardCounts (hdim c hc).1, hubbardCounts (hdim c hc).2] at hr
  dsimp only at hr
  by_cases hlen : (enumerateHubbard (upElectrons (c s1) + upElectrons (c s2))
      (downElectrons (c s1) + downElectrons (c s2))).length ≤ 1
  · rw [if_pos hlen] at hr
    cases hr
    exact hc
  · rw [if_neg hlen] at hr
    obtain ⟨ws, fin, -, -, -, h3⟩ := suwaTodoTail_some _ _ _ _ _ _ _ _ _ hr
    rcases h3 with ⟨-, -, h4, -⟩ | ⟨-, -, vals, psi, h4, -, h5, -⟩
    · rw [h4]; exact hc
    · rw [List.getElem?_map] at h4
      obtain ⟨p, hp, rfl⟩ := Option.map_eq_some_iff.1 h4
      obtain ⟨k1, k2, k3, k4⟩ := ((C06_candidates_complete _ _).2 p).1 (List.mem_of_getElem? hp)
      rw [h5]
      exact hΩ c hc _ _ k1 k2 k3 k4

theorem hubbard_stationary (ψ : Config → A) (ab : A → ℝ) (hab : ∀ z, 0 ≤ ab z)
    (s1 s2 : Site) (hs : s1 ≠ s2) (d : Orient) (Ω : Finset Config)
    (hdim : ∀ c ∈ Ω, c s1 < 4 ∧ c s2 < 4)
    (hΩ : ∀ c ∈ Ω, ∀ a b, a < 4 → b < 4 →
      upElectrons a + upElectrons b = upElectrons (c s1) + upElectrons (c s2) →
      downElectrons a + downElectrons b = downElectrons (c s1) + downElectrons (c s2) →
      setSite (setSite c s1 a) s2 b ∈ Ω)
    (c' : Config) (hc' : c' ∈ Ω) :
    ∑ c ∈ Ω, ab (ψ c) ^ 2 *
      (updOf ψ (fun ξ => hubbardU1U1 (exactContractor ψ) ab ξ s1 s2 d) (hubbardK s1 s2)).prob c c'
      = ab (ψ c') ^ 2 := by
  have h := C63_hubbard_stationary (exactContractor fun c => absC ab (ψ c))
    (fun c => absC ab (ψ c)) (exactContractor_exact _) () s1 s2 hs d Ω hdim hΩ c' hc'
  simp only [norm_absC hab] at h
  rw [← h]
  refine Finset.sum_congr rfl fun c hc => ?_
  congr 1
  unfold Upd.prob stepProb
  congr 2
  ext u
  simp only [updOf, mem_ofPred_eq]
  refine and_congr_right fun _ => ?_
  unfold hubbardU1U1
  dsimp only
  rw [hubbardCounts (hdim c hc).1, hubbardCounts (hdim c hc).2]
  dsimp only
  generalize enumerateHubbard (upElectrons (c s1) + upElectrons (c s2))
      (downElectrons (c s1) + downElectrons (c s2)) = valid
  by_cases hlen : valid.length ≤ 1
  · simp only [if_pos hlen]; rfl
  · rw [if_neg hlen, if_neg hlen, tail_config, tail_config (fun c => absC ab (ψ c))]
    generalize (if valid.findIdx (fun p => p.1 == c s1 && p.2 == c s2) < valid.length then
      valid.findIdx (fun p => p.1 == c s1 && p.2 == c s2) else 0) = ini
    rw [show valid.mapIdx (fun i p => if i ≠ ini then
        (exactContractor fun c => absC ab (ψ c)).nnTrace () c s1 s2 d p.1 p.2
        else absC ab (ψ c)) = (valid.mapIdx (fun i p => if i ≠ ini then
        (exactContractor ψ).nnTrace () c s1 s2 d p.1 p.2 else ψ c)).map (absC ab) by
      apply List.ext_getElem
      · simp
      · intro i h1 h2
        simp only [List.getElem_mapIdx, List.getElem_map]
        split_ifs <;> rfl]
    rw [norm_absC hab, normWeights_absC hab]
    simp only [List.length_map]

/-! ### Three sites -/

/-- numbers drawn by the three-site update -/
def tnn3K (s1 s2 s3 : Site) (c : Config) : ℕ := if c s1 = c s2 ∧ c s2 = c s3 then 0 else 1

theorem tnn3_isTail (ψ : Config → A) (ab : A → ℝ) (s1 s2 s3 : Site) (d : Orient) :
    IsTail ψ (fun ξ => tnn3Exchange (exactContractor ψ) ab ξ s1 s2 s3 d) (tnn3K s1 s2 s3) := by
  intro c
  unfold tnn3K tnn3Exchange
  dsimp only
  by_cases h : c s1 = c s2 ∧ c s2 = c s3
  · simp only [if_pos h]
    exact Or.inl ⟨trivial, fun _ _ => trivial⟩
  · simp only [if_neg h]
    cases permutations3 (c s1) (c s2) (c s3) with
    | none => exact Or.inr (Or.inl fun _ _ => rfl)
    | some perms =>
      let ini := perms.findIdx (fun p => p == [c s1, c s2, c s3])
      let psis := perms.mapIdx (fun i p =>
        if i ≠ ini then (exactContractor ψ).tnnTrace () c s1 s2 s3 d (p.getD 0 0) (p.getD 1 0)
          (p.getD 2 0) else ψ c)
      exact Or.inr (Or.inr ⟨trivial, [s1, s2, s3], perms, psis,
        normWeights ab psis (psis.foldl (fun m p => max m (ab p)) 0), ini, fun ξ n => rfl⟩)

theorem tnn3_reads (ψ : Config → A) (ab : A → ℝ) (s1 s2 s3 : Site) (d : Orient) :
    Reads ψ (fun ξ => tnn3Exchange (exactContractor ψ) ab ξ s1 s2 s3 d) (tnn3K s1 s2 s3) :=
  (tnn3_isTail ψ ab s1 s2 s3 d).reads fun ξ c n r hr =>
    C62_amplitude_consistent_suwa_todo (exactContractor ψ) ψ (exactContractor_exact ψ) ab ξ
      ⟨c, ψ c, (), n⟩ rfl r s1 s2 s3 d 0 (Or.inr (Or.inr hr))

theorem tnn3_good (ψ : Config → A) (ab : A → ℝ) (s1 s2 s3 : Site) (d : Orient) (Ω : Finset Config)
    (hΩ : ∀ c ∈ Ω, ∀ x y z, [x, y, z].Perm [c s1, c s2, c s3] →
      setSite (setSite (setSite c s1 x) s2 y) s3 z ∈ Ω) :
    (updOf ψ (fun ξ => tnn3Exchange (exactContractor ψ) ab ξ s1 s2 s3 d) (tnn3K s1 s2 s3)).Good Ω := by
  refine (tnn3_isTail ψ ab s1 s2 s3 d).good Ω fun ξ c hc r hr => ?_
  rcases tnn3_config _ _ _ _ _ _ _ _ _ hr with h | ⟨vals, hp, h⟩
  · rw [h]; exact hc
  · have hlen := hp.length_eq
    match vals, hlen with
    | [x, y, z], _ => rw [h]; exact hΩ c hc x y z hp

theorem foldl_max_absC {ab : A → ℝ} (hab : ∀ z, 0 ≤ ab z) (psis : List A) (m : ℝ) :
    (psis.map (absC ab)).foldl (fun m p => max m ‖p‖) m = psis.foldl (fun m p => max m (ab p)) m := by
  rw [List.foldl_map]
  simp only [norm_absC hab]

theorem tnn3_stationary (ψ : Config → A) (ab : A → ℝ) (hab : ∀ z, 0 ≤ ab z)
    (s1 s2 s3 : Site) (h12 : s1 ≠ s2) (h23 : s2 ≠ s3) (h13 : s1 ≠ s3) (d : Orient)
    (Ω : Finset Config)
    (hΩ : ∀ c ∈ Ω, ∀ x y z, [x, y, z].Perm [c s1, c s2, c s3] →
      setSite (setSite (setSite c s1 x) s2 y) s3 z ∈ Ω)
    (c' : Config) (hc' : c' ∈ Ω) :
    ∑ c ∈ Ω, ab (ψ c) ^ 2 *
      (updOf ψ (fun ξ => tnn3Exchange (exactContractor ψ) ab ξ s1 s2 s3 d) (tnn3K s1 s2 s3)).prob c c'
      = ab (ψ c') ^ 2 := by
  have h := C63_three_site_stationary (exactContractor fun c => absC ab (ψ c))
    (fun c => absC ab (ψ c)) (exactContractor_exact _) () s1 s2 s3 h12 h23 h13 d Ω hΩ c' hc'
  simp only [norm_absC hab] at h
  rw [← h]
  refine Finset.sum_congr rfl fun c hc => ?_
  congr 1
  unfold Upd.prob stepProb
  congr 2
  ext u
  simp only [updOf, mem_ofPred_eq]
  refine and_congr_right fun _ => ?_
  unfold tnn3Exchange
  dsimp only
  by_cases heq : c s1 = c s2 ∧ c s2 = c s3
  · simp only [if_pos heq]; rfl
  · simp only [if_neg heq]
    cases permutations3 (c s1) (c s2) (c s3) with
    | none => rfl
    | some perms =>
      dsimp only
      rw [tail_config, tail_config (fun c => absC ab (ψ c))]
      generalize perms.findIdx (fun p => p == [c s1, c s2, c s3]) = ini
      rw [show perms.mapIdx (fun i p => if i ≠ ini then
          (exactContractor fun c => absC ab (ψ c)).tnnTrace () c s1 s2 s3 d (p.getD 0 0) (p.getD 1 0)
            (p.getD 2 0)
          else absC ab (ψ c)) = (perms.mapIdx (fun i p => if i ≠ ini then
          (exactContractor ψ).tnnTrace () c s1 s2 s3 d (p.getD 0 0) (p.getD 1 0) (p.getD 2 0)
          else ψ c)).map (absC ab) by
        apply List.ext_getElem
        · simp
        · intro i h1 h2
          simp only [List.getElem_mapIdx, List.getElem_map]
          split_ifs <;> rfl]
      rw [foldl_max_absC hab, normWeights_absC hab, List.length_map]

end QLPeps.Chain
