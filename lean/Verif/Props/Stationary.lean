import Verif.Lemmas.Stationary
import Verif.Props.Updaters

/-!
# Property C63: every Monte-Carlo update leaves `|ψ|²` invariant
-/

open MeasureTheory Set

namespace QLPeps.Updaters

open QLPeps.Sweep QLPeps.Spec QLPeps.SuwaTodo

variable {Γ : Type*}

theorem reject_measure (a b : ℝ) (ha : 0 ≤ a) (hb : 0 ≤ b) :
    (volume {u : ℝ | u ∈ Ico (0 : ℝ) 1 ∧ metropolisAccept b a u = false}).toReal
      = 1 - if a ≤ b then 1 else (b / a) * (b / a) := by
  unfold metropolisAccept
  split_ifs with h
  · simp
  · have ha' : 0 < a := by push Not at h; exact lt_of_le_of_lt hb h
    have h1 : b / a < 1 := by rw [div_lt_one ha']; push Not at h; exact h
    have h0 : 0 ≤ b / a := div_nonneg hb ha
    have hset : {u : ℝ | u ∈ Ico (0 : ℝ) 1 ∧ decide (u < b / a * (b / a)) = false}
        = Ico (b / a * (b / a)) 1 := by
      ext u
      simp only [mem_ofPred_eq, mem_Ico, decide_eq_false_iff_not, not_lt]
      constructor
      · rintro ⟨⟨-, h2⟩, h3⟩; exact ⟨h3, h2⟩
      · rintro ⟨h2, h3⟩; exact ⟨⟨(mul_nonneg h0 h0).trans h2, h3⟩, h2⟩
    simp only [hset, Real.volume_Ico]
    exact ENNReal.toReal_ofReal (by nlinarith)

theorem exchangeProb_self (C : Contractor ℂ Γ) (ψ : Config → ℂ) (hC : Exact C ψ)
    (env : Γ) (s1 s2 : Site) (d : Orient) (c : Config) (hne : c s1 ≠ c s2) :
    exchangeProb C ψ env s1 s2 d c c = 1 - exchangeProb C ψ env s1 s2 d c
      (setSite (setSite c s1 (c s2)) s2 (c s1)) := by
  rw [exchangeProb_swap C ψ hC env s1 s2 d c hne]
  set c' := setSite (setSite c s1 (c s2)) s2 (c s1) with hc'
  rw [← reject_measure _ _ (norm_nonneg _) (norm_nonneg _), exchangeProb]
  congr 2
  ext u
  simp only [mem_ofPred_eq]
  refine and_congr_right fun _ => ?_
  have hcc' : c' ≠ c := by
    intro h
    apply hne
    have : c s2 = c' s2 := (congrFun h s2).symm
    rw [this, hc']; simp [setSite]
  unfold nnExchange
  simp only [hne, if_false, hC.nn, ← hc']
  constructor
  · intro h
    by_contra hacc
    rw [Bool.not_eq_false] at hacc
    simp only [hacc, if_true] at h
    rw [(updateLocal_config C _ [(s1, c s2), (s2, c s1)] _).1] at h
    exact hcc' h
  · intro hacc
    simp [hacc]

/-- **C63** (exchange). On every finite set of configurations closed under swapping the two
sites, one exchange update leaves the weights `|ψ|²` invariant. -/
theorem C63_exchange_stationary (C : Contractor ℂ Γ) (ψ : Config → ℂ) (hC : Exact C ψ)
    (env : Γ) (s1 s2 : Site) (d : Orient) (Ω : Finset Config)
    (hΩ : ∀ c ∈ Ω, (fun p => c (Equiv.swap s1 s2 p)) ∈ Ω) (c' : Config) (hc' : c' ∈ Ω) :
    ∑ c ∈ Ω, ‖ψ c‖ ^ 2 * exchangeProb C ψ env s1 s2 d c c' = ‖ψ c'‖ ^ 2 := by
  classical
  have h1 : ∑ c ∈ Ω, ‖ψ c‖ ^ 2 * exchangeProb C ψ env s1 s2 d c c'
      = ‖ψ c'‖ ^ 2 * ∑ c ∈ Ω, exchangeProb C ψ env s1 s2 d c' c := by
    rw [Finset.mul_sum]
    exact Finset.sum_congr rfl fun c _ => C04_detailed_balance C ψ hC env s1 s2 d c c'
  rw [h1]
  suffices h : ∑ c ∈ Ω, exchangeProb C ψ env s1 s2 d c' c = 1 by rw [h, mul_one]
  have zero : ∀ c : Config, c ≠ c' → c ≠ setSite (setSite c' s1 (c' s2)) s2 (c' s1) →
      exchangeProb C ψ env s1 s2 d c' c = 0 := by
    intro c h1 h2
    have : {u : ℝ | u ∈ Ico (0 : ℝ) 1 ∧ (nnExchange C (fun z : ℂ => ‖z‖) (fun _ => u) s1 s2 d
        ⟨c', ψ c', env, 0⟩).1.config = c} = ∅ := by
      ext u
      simp only [mem_ofPred_eq, mem_empty_iff_false, iff_false, not_and]
      intro _ h
      rcases nnExchange_config C (fun z : ℂ => ‖z‖) (fun _ => u) s1 s2 d ⟨c', ψ c', env, 0⟩ with
        ⟨h3, -, -⟩ | ⟨h3, -, -, -⟩
      · exact h1 (h.symm.trans h3)
      · exact h2 (h.symm.trans h3)
    rw [exchangeProb, this]; simp
  by_cases hne : c' s1 = c' s2
  · have hsw : setSite (setSite c' s1 (c' s2)) s2 (c' s1) = c' := by
      funext p
      by_cases h1 : p = s2
      · simp [setSite, h1, hne]
      · by_cases h2 : p = s1 <;> simp [setSite, h1, h2, hne]
    rw [Finset.sum_eq_single c']
    · have : {u : ℝ | u ∈ Ico (0 : ℝ) 1 ∧ (nnExchange C (fun z : ℂ => ‖z‖) (fun _ => u) s1 s2 d
          ⟨c', ψ c', env, 0⟩).1.config = c'} = Ico 0 1 := by
        ext u
        simp [nnExchange, hne]
      rw [exchangeProb, this]; simp
    · intro c _ h; exact zero c h (by rw [hsw]; exact h)
    · intro h; exact absurd hc' h
  · set sw := setSite (setSite c' s1 (c' s2)) s2 (c' s1) with hsw
    have hswΩ : sw ∈ Ω := by rw [hsw, setSite_swap]; exact hΩ c' hc'
    have hcc : c' ≠ sw := by
      intro h
      apply hne
      have : c' s2 = sw s2 := congrFun h s2
      rw [this, hsw]; simp [setSite]
    rw [← Finset.sum_subset (s₁ := {c', sw})]
    · rw [Finset.sum_pair hcc, exchangeProb_self C ψ hC env s1 s2 d c' hne, ← hsw]; ring
    · intro c hc
      simp only [Finset.mem_insert, Finset.mem_singleton] at hc
      rcases hc with rfl | rfl <;> assumption
    · intro c _ hc
      simp only [Finset.mem_insert, Finset.mem_singleton, not_or] at hc
      exact zero c hc.1 hc.2

theorem stationary_of_gen (step : (ℕ → ℝ) → Walker ℂ Γ → Option (Walker ℂ Γ × Bool))
    (ψ : Config → ℂ) (env : Γ) (l : List Site) (hl : l.Nodup) (Ω : Finset Config)
    (cands : Config → List (List ℕ)) (ref : Config → ℝ)
    (H1 : ∀ c ∈ Ω, l.map c ∈ cands c)
    (H2 : ∀ c ∈ Ω, ∀ v ∈ cands c, setSites c l v ∈ Ω ∧ cands (setSites c l v) = cands c)
    (H3 : ∀ c ∈ Ω, (cands c).Nodup ∧ ∀ v ∈ cands c, v.length = l.length)
    (href : ∀ c ∈ Ω, ψ c ≠ 0 → ref c ≠ 0)
    (hstep : ∀ c ∈ Ω, ψ c ≠ 0 → ∀ u, 0 ≤ u → u < 1 →
      (step (fun _ => u) ⟨c, ψ c, env, 0⟩).map (fun r => r.1.config)
        = genCfg ψ l (cands c) (ref c) c u)
    (c' : Config) (hc' : c' ∈ Ω) :
    ∑ c ∈ Ω, ‖ψ c‖ ^ 2 * stepProb step ψ env c c' = ‖ψ c'‖ ^ 2 := by
  rw [← gen_stationary ψ l hl Ω cands ref H1 H2 H3 href c' hc']
  refine Finset.sum_congr rfl fun c hc => ?_
  by_cases h0 : ψ c = 0
  · simp [h0]
  · rw [stepProb]
    congr 4
    ext u
    refine and_congr_right fun hu => ?_
    rw [hstep c hc h0 u hu.1 hu.2]

/-- **C63** (full-space update). -/
theorem C63_full_space_stationary (C : Contractor ℂ Γ) (ψ : Config → ℂ) (hC : Exact C ψ)
    (env : Γ) (s1 s2 : Site) (hs : s1 ≠ s2) (d : Orient) (dim : ℕ) (Ω : Finset Config)
    (hdim : ∀ c ∈ Ω, c s1 < dim ∧ c s2 < dim)
    (hΩ : ∀ c ∈ Ω, ∀ a b, a < dim → b < dim → setSite (setSite c s1 a) s2 b ∈ Ω)
    (c' : Config) (hc' : c' ∈ Ω) :
    ∑ c ∈ Ω, ‖ψ c‖ ^ 2 * stepProb (fun ξ => fullSpace C (fun z : ℂ => ‖z‖) ξ dim s1 s2 d) ψ env c c'
      = ‖ψ c'‖ ^ 2 := by
  set cl : List (List ℕ) := (List.range (dim * dim)).map (fun k => [k / dim, k % dim]) with hcl
  have hmem : ∀ v, v ∈ cl ↔ ∃ a b, a < dim ∧ b < dim ∧ v = [a, b] := by
    intro v
    simp only [hcl, List.mem_map, List.mem_range]
    constructor
    · rintro ⟨k, hk, rfl⟩
      obtain ⟨h1, h2, -⟩ := (C07_encode_decode dim).2 k hk
      exact ⟨_, _, h1, h2, rfl⟩
    · rintro ⟨a, b, ha, hb, rfl⟩
      obtain ⟨h1, h2, h3⟩ := (C07_encode_decode dim).1 a b ha hb
      exact ⟨_, h1, by rw [h2, h3]⟩
  have hnd : cl.Nodup := by
    refine List.Nodup.map_on ?_ List.nodup_range
    intro x hx y hy h
    simp only [List.cons.injEq, and_true] at h
    have h1 := ((C07_encode_decode dim).2 x (List.mem_range.1 hx)).2.2
    have h2 := ((C07_encode_decode dim).2 y (List.mem_range.1 hy)).2.2
    rw [← h1, ← h2, h.1, h.2]
  have hl : [s1, s2].Nodup := by simp [hs]
  refine stationary_of_gen _ ψ env [s1, s2] hl Ω (fun _ => cl) (fun c => ‖ψ c‖) ?_ ?_ ?_ ?_ ?_ c' hc'
  · intro c hc
    exact (hmem _).2 ⟨_, _, (hdim c hc).1, (hdim c hc).2, rfl⟩
  · intro c hc v hv
    obtain ⟨a, b, ha, hb, rfl⟩ := (hmem v).1 hv
    exact ⟨hΩ c hc a b ha hb, rfl⟩
  · intro c hc
    refine ⟨hnd, fun v hv => ?_⟩
    obtain ⟨a, b, -, -, rfl⟩ := (hmem v).1 hv
    rfl
  · intro c _ h; exact norm_ne_zero_iff.2 h
  · intro c hc h0 u _ _
    obtain ⟨e1, e2, e3⟩ := (C07_encode_decode dim).1 _ _ (hdim c hc).1 (hdim c hc).2
    have hidx : cl.idxOf ([s1, s2].map c) = c s1 * dim + c s2 := by
      have hlen : c s1 * dim + c s2 < cl.length := by simp [hcl, e1]
      have hg : cl[c s1 * dim + c s2] = [c s1, c s2] := by simp [hcl, e2, e3]
      have := List.Nodup.idxOf_getElem hnd _ hlen
      rw [hg] at this
      exact this
    rw [← suwaTodoTail_genCfg C ψ [s1, s2] hl cl _ ‖ψ c‖ (norm_ne_zero_iff.2 h0) c
      ((hmem _).2 ⟨_, _, (hdim c hc).1, (hdim c hc).2, rfl⟩) u env rfl, hidx]
    unfold fullSpace
    simp only [e1, if_true]
    have hpsis : (List.range (dim * dim)).map (fun k =>
        if k ≠ c s1 * dim + c s2 then C.nnTrace env c s1 s2 d (k / dim) (k % dim) else ψ c)
        = cl.map (fun v => ψ (setSites c [s1, s2] v)) := by
      rw [hcl, List.map_map]
      apply List.map_congr_left
      intro k hk
      simp only [Function.comp]
      split_ifs with hk'
      · rw [hC.nn]; rfl
      · rw [not_not] at hk'
        rw [hk', e2, e3]
        congr 1
        exact (setSites_self c [s1, s2] hl).symm
    rw [hpsis]

/-- the set of candidates of the Hubbard update -/
theorem hubbardCounts {c : ℕ} (hc : c < 4) :
    hubbardSpinCounts c = some (upElectrons c, downElectrons c) := by
  interval_cases c <;> rfl

/-- a single candidate of positive weight is kept -/
theorem genCfg_single (ψ : Config → ℂ) (l : List Site) (hl : l.Nodup) (cands : List (List ℕ))
    (ref : ℝ) (href : ref ≠ 0) (c : Config) (hψ : ψ c ≠ 0) (hmem : l.map c ∈ cands)
    (hlen : cands.length ≤ 1) (u : ℝ) (hu : 0 ≤ u) (hu1 : u < 1) :
    genCfg ψ l cands ref c u = some c := by
  have hone : cands = [l.map c] := by
    match cands, hlen, hmem with
    | [a], _, h => simp at h; rw [h]
  subst hone
  unfold genCfg
  have hpos : 0 < ‖ψ c‖ / ref * (‖ψ c‖ / ref) :=
    mul_self_pos.2 (div_ne_zero (norm_ne_zero_iff.2 hψ) href)
  obtain ⟨j, hj, hst, -⟩ := C02_in_range_positive [‖ψ c‖ / ref * (‖ψ c‖ / ref)]
    (by simp; exact hpos.le) 0 (by simp) (by simpa using hpos) u hu hu1
  have hj0 : j = 0 := by simpa using hj
  subst hj0
  simp only [List.map_cons, List.map_nil, setSites_self c l hl]
  rw [List.idxOf_cons_self, hst]
  simp [setSites_self c l hl]

/-- **C63** (Hubbard U(1)xU(1) update). -/
theorem C63_hubbard_stationary (C : Contractor ℂ Γ) (ψ : Config → ℂ) (hC : Exact C ψ)
    (env : Γ) (s1 s2 : Site) (hs : s1 ≠ s2) (d : Orient) (Ω : Finset Config)
    (hdim : ∀ c ∈ Ω, c s1 < 4 ∧ c s2 < 4)
    (hΩ : ∀ c ∈ Ω, ∀ a b, a < 4 → b < 4 →
      upElectrons a + upElectrons b = upElectrons (c s1) + upElectrons (c s2) →
      downElectrons a + downElectrons b = downElectrons (c s1) + downElectrons (c s2) →
      setSite (setSite c s1 a) s2 b ∈ Ω)
    (c' : Config) (hc' : c' ∈ Ω) :
    ∑ c ∈ Ω, ‖ψ c‖ ^ 2 * stepProb (fun ξ => hubbardU1U1 C (fun z : ℂ => ‖z‖) ξ s1 s2 d) ψ env c c'
      = ‖ψ c'‖ ^ 2 := by
  let valid : Config → List (ℕ × ℕ) := fun c =>
    enumerateHubbard (upElectrons (c s1) + upElectrons (c s2))
      (downElectrons (c s1) + downElectrons (c s2))
  let cl : Config → List (List ℕ) := fun c => (valid c).map (fun p => [p.1, p.2])
  have hvm : ∀ c p, p ∈ valid c ↔ p.1 < 4 ∧ p.2 < 4 ∧
      upElectrons p.1 + upElectrons p.2 = upElectrons (c s1) + upElectrons (c s2) ∧
      downElectrons p.1 + downElectrons p.2 = downElectrons (c s1) + downElectrons (c s2) :=
    fun c p => (C06_candidates_complete _ _).2 p
  have hinj : Function.Injective (fun p : ℕ × ℕ => [p.1, p.2]) := by
    rintro ⟨a, b⟩ ⟨a', b'⟩ h
    simpa using h
  have hnd : ∀ c, (cl c).Nodup := fun c => (C06_candidates_complete _ _).1.map hinj
  have hl : [s1, s2].Nodup := by simp [hs]
  have hcur : ∀ c ∈ Ω, (c s1, c s2) ∈ valid c := fun c hc =>
    (hvm c _).2 ⟨(hdim c hc).1, (hdim c hc).2, rfl, rfl⟩
  have hcurl : ∀ c ∈ Ω, [s1, s2].map c ∈ cl c := fun c hc =>
    List.mem_map.2 ⟨(c s1, c s2), hcur c hc, rfl⟩
  refine stationary_of_gen _ ψ env [s1, s2] hl Ω cl (fun c => ‖ψ c‖) hcurl ?_ ?_ ?_ ?_ c' hc'
  · intro c hc v hv
    obtain ⟨p, hp, rfl⟩ := List.mem_map.1 hv
    obtain ⟨h1, h2, h3, h4⟩ := (hvm c p).1 hp
    refine ⟨hΩ c hc p.1 p.2 h1 h2 h3 h4, ?_⟩
    have hm := map_setSites c [s1, s2] hl [p.1, p.2] rfl
    simp only [List.map_cons, List.map_nil, List.cons.injEq, and_true] at hm
    simp only [cl, valid, hm.1, hm.2, h3, h4]
  · intro c hc
    refine ⟨hnd c, fun v hv => ?_⟩
    obtain ⟨p, -, rfl⟩ := List.mem_map.1 hv
    rfl
  · intro c _ h; exact norm_ne_zero_iff.2 h
  · intro c hc h0 u hu hu1
    unfold hubbardU1U1
    dsimp only
    rw [hubbardCounts (hdim c hc).1, hubbardCounts (hdim c hc).2]
    dsimp only
    change Option.map _ (if (valid c).length ≤ 1 then _ else _) = _
    by_cases hlen : (valid c).length ≤ 1
    · rw [if_pos hlen, genCfg_single ψ [s1, s2] hl (cl c) _ (norm_ne_zero_iff.2 h0) c h0
        (hcurl c hc) (by simpa [cl] using hlen) u hu hu1]
      rfl
    · rw [if_neg hlen]
      set idx := (valid c).findIdx (fun p => p.1 == c s1 && p.2 == c s2) with hidxdef
      have hidx : (cl c).idxOf ([s1, s2].map c) = idx := by
        rw [hidxdef, List.idxOf, List.findIdx_map]
        congr 1
        funext p
        simp [Function.comp]
      have hidxlt : idx < (valid c).length := by
        have := List.idxOf_lt_length_of_mem (hcurl c hc)
        rw [hidx] at this
        simpa [cl] using this
      rw [if_pos hidxlt]
      have hpsis : (valid c).mapIdx (fun i p =>
          if i ≠ idx then C.nnTrace env c s1 s2 d p.1 p.2 else ψ c)
          = (cl c).map (fun v => ψ (setSites c [s1, s2] v)) := by
        apply List.ext_getElem
        · simp [cl]
        · intro i h1 h2
          simp only [cl, List.getElem_mapIdx, List.getElem_map]
          split_ifs with hi
          · rw [hC.nn]; rfl
          · rw [not_not] at hi
            subst hi
            have hlt' : (cl c).idxOf ([s1, s2].map c) < (cl c).length :=
              List.idxOf_lt_length_of_mem (hcurl c hc)
            have hg : (cl c)[(cl c).idxOf ([s1, s2].map c)] = [s1, s2].map c :=
              List.getElem_idxOf hlt'
            simp only [hidx] at hg
            have hg2 : [((valid c)[idx]).1, ((valid c)[idx]).2] = [s1, s2].map c := by
              rw [← hg]; simp [cl]
            rw [hg2, setSites_self c [s1, s2] hl]
      rw [← suwaTodoTail_genCfg C ψ [s1, s2] hl (cl c) _ ‖ψ c‖ (norm_ne_zero_iff.2 h0) c
        (hcurl c hc) u env rfl, hidx, ← hpsis]

theorem foldl_max_ge (ab : ℂ → ℝ) (l : List ℂ) (m : ℝ) :
    m ≤ l.foldl (fun m p => max m (ab p)) m ∧
      ∀ p ∈ l, ab p ≤ l.foldl (fun m p => max m (ab p)) m := by
  induction l generalizing m with
  | nil => simp
  | cons a l ih =>
    obtain ⟨h1, h2⟩ := ih (max m (ab a))
    refine ⟨(le_max_left _ _).trans h1, ?_⟩
    intro p hp
    rcases List.mem_cons.1 hp with rfl | hp
    · exact (le_max_right _ _).trans h1
    · exact h2 p hp

/-- **C63** (three-site exchange update). -/
theorem C63_three_site_stationary (C : Contractor ℂ Γ) (ψ : Config → ℂ) (hC : Exact C ψ)
    (env : Γ) (s1 s2 s3 : Site) (h12 : s1 ≠ s2) (h23 : s2 ≠ s3) (h13 : s1 ≠ s3) (d : Orient)
    (Ω : Finset Config)
    (hΩ : ∀ c ∈ Ω, ∀ x y z, [x, y, z].Perm [c s1, c s2, c s3] →
      setSite (setSite (setSite c s1 x) s2 y) s3 z ∈ Ω)
    (c' : Config) (hc' : c' ∈ Ω) :
    ∑ c ∈ Ω, ‖ψ c‖ ^ 2 *
        stepProb (fun ξ => tnn3Exchange C (fun z : ℂ => ‖z‖) ξ s1 s2 s3 d) ψ env c c'
      = ‖ψ c'‖ ^ 2 := by
  let cl : Config → List (List ℕ) := fun c => (permutations3 (c s1) (c s2) (c s3)).getD []
  have hp3 : ∀ c, permutations3 (c s1) (c s2) (c s3) = some (cl c) := by
    intro c
    obtain ⟨L, hL⟩ := permutations3_defined (c s1) (c s2) (c s3)
    simp [cl, hL]
  have hspec : ∀ c, (cl c).Nodup ∧ ∀ m, m ∈ cl c ↔ m.Perm [c s1, c s2, c s3] :=
    fun c => permutations3_spec _ _ _ _ (hp3 c)
  have hl : [s1, s2, s3].Nodup := by simp [h12, h23, h13]
  have hcur : ∀ c, [s1, s2, s3].map c ∈ cl c := fun c => ((hspec c).2 _).2 (.refl _)
  let ref : Config → ℝ := fun c =>
    ((cl c).map (fun v => ψ (setSites c [s1, s2, s3] v))).foldl (fun m p => max m ‖p‖) 0
  have href : ∀ c ∈ Ω, ψ c ≠ 0 → ref c ≠ 0 := by
    intro c _ h
    have h1 := (foldl_max_ge (fun z : ℂ => ‖z‖)
      ((cl c).map (fun v => ψ (setSites c [s1, s2, s3] v))) 0).2 (ψ c)
      (List.mem_map.2 ⟨_, hcur c, by rw [setSites_self c _ hl]⟩)
    have h2 : 0 < ‖ψ c‖ := norm_pos_iff.2 h
    exact (lt_of_lt_of_le h2 h1).ne'
  refine stationary_of_gen _ ψ env [s1, s2, s3] hl Ω cl ref (fun c _ => hcur c) ?_ ?_ href ?_ c' hc'
  · intro c hc v hv
    have hperm := ((hspec c).2 v).1 hv
    have hlen := hperm.length_eq
    match v, hlen with
    | [x, y, z], _ =>
      refine ⟨hΩ c hc x y z hperm, ?_⟩
      have hm := map_setSites c [s1, s2, s3] hl [x, y, z] rfl
      simp only [List.map_cons, List.map_nil, List.cons.injEq, and_true] at hm
      have hs : [x, y, z].insertionSort (· ≤ ·) = [c s1, c s2, c s3].insertionSort (· ≤ ·) :=
        List.Perm.eq_of_pairwise (le := (· ≤ ·)) (fun a b _ _ h1 h2 => Nat.le_antisymm h1 h2)
          (List.pairwise_insertionSort _ _) (List.pairwise_insertionSort _ _)
          ((List.perm_insertionSort _ _).trans (hperm.trans (List.perm_insertionSort _ _).symm))
      simp only [cl, hm.1, hm.2.1, hm.2.2, permutations3, hs]
  · intro c _
    exact ⟨(hspec c).1, fun v hv => (((hspec c).2 v).1 hv).length_eq⟩
  · intro c hc h0 u hu hu1
    unfold tnn3Exchange
    dsimp only
    by_cases heq : c s1 = c s2 ∧ c s2 = c s3
    · rw [if_pos heq]
      have hlen : (cl c).length ≤ 1 := by
        have hall : ∀ v ∈ cl c, v = [c s1, c s2, c s3] := by
          intro v hv
          have hperm := ((hspec c).2 v).1 hv
          have : [c s1, c s2, c s3] = List.replicate 3 (c s1) := by
            rw [← heq.2, ← heq.1]; rfl
          rw [this] at hperm ⊢
          exact List.perm_replicate.1 hperm
        have hnd := (hspec c).1
        generalize cl c = L at hall hnd
        match L with
        | [] => simp
        | [a] => simp
        | a :: b :: L =>
          have h1 := hall a (by simp)
          have h2 := hall b (by simp)
          simp [h1, h2] at hnd
      rw [genCfg_single ψ [s1, s2, s3] hl (cl c) _ (href c hc h0) c h0
        (hcur c) hlen u hu hu1]
      rfl
    · rw [if_neg heq, hp3 c]
      dsimp only
      have hidx : (cl c).findIdx (fun p => p == [c s1, c s2, c s3])
          = (cl c).idxOf ([s1, s2, s3].map c) := rfl
      set idx := (cl c).idxOf ([s1, s2, s3].map c) with hidxdef
      have hidxlt : idx < (cl c).length := List.idxOf_lt_length_of_mem (hcur c)
      rw [hidx]
      have hpsis : (cl c).mapIdx (fun i p =>
          if i ≠ idx then C.tnnTrace env c s1 s2 s3 d (p.getD 0 0) (p.getD 1 0) (p.getD 2 0)
          else ψ c) = (cl c).map (fun v => ψ (setSites c [s1, s2, s3] v)) := by
        apply List.ext_getElem
        · simp
        · intro i h1 h2
          simp only [List.getElem_mapIdx, List.getElem_map]
          have hi : i < (cl c).length := by simpa using h2
          split_ifs with hne
          · have hperm := ((hspec c).2 _).1 (List.getElem_mem hi)
            have hlen := hperm.length_eq
            generalize (cl c)[i] = v at hlen
            match v, hlen with
            | [x, y, z], _ => rw [hC.tnn]; rfl
          · rw [not_not] at hne
            subst hne
            have hg : (cl c)[idx] = [s1, s2, s3].map c := List.getElem_idxOf hidxlt
            rw [hg, setSites_self c _ hl]
      rw [← suwaTodoTail_genCfg C ψ [s1, s2, s3] hl (cl c) _ (ref c) (href c hc h0) c
        (hcur c) u env rfl, hpsis]

/-- **C63** (sequences of updates). If each of a list of update steps leaves `|ψ|²` invariant on
`Ω`, so does performing them one after the other with independent random numbers. -/
theorem C63_sweep_stationary (ψ : Config → ℂ) (Ω : Finset Config)
    (Ps : List (Config → Config → ℝ))
    (h : ∀ P ∈ Ps, ∀ c' ∈ Ω, ∑ c ∈ Ω, ‖ψ c‖ ^ 2 * P c c' = ‖ψ c'‖ ^ 2)
    (c' : Config) (hc' : c' ∈ Ω) :
    (Ps.foldl (pushStep Ω) (fun c => ‖ψ c‖ ^ 2)) c' = ‖ψ c'‖ ^ 2 := by
  suffices ∀ (μ : Config → ℝ), (∀ c ∈ Ω, μ c = ‖ψ c‖ ^ 2) →
      ∀ c ∈ Ω, (Ps.foldl (pushStep Ω) μ) c = ‖ψ c‖ ^ 2 from this _ (fun _ _ => rfl) c' hc'
  induction Ps with
  | nil => intro μ hμ; exact hμ
  | cons P Ps ih =>
    intro μ hμ
    apply ih (fun P hP => h P (List.mem_cons_of_mem _ hP))
    intro c hc
    rw [← h P (by simp) c hc]
    exact Finset.sum_congr rfl fun x hx => by rw [hμ x hx]

/-- Non-vacuity: the two antiparallel configurations of a bond form a closed set, and the
amplitudes `3` and `1` give a non-uniform invariant weight. -/
example : ∃ (C : Contractor ℂ Unit) (ψ : Config → ℂ) (Ω : Finset Config) (c₁ c₂ : Config),
    Exact C ψ ∧ c₁ ∈ Ω ∧ c₂ ∈ Ω ∧ ‖ψ c₁‖ ≠ ‖ψ c₂‖ ∧
    (∀ c ∈ Ω, (fun p => c (Equiv.swap (0, 0) (0, 1) p)) ∈ Ω) := by
  classical
  let c₁ : Config := fun p => if p = (0, 0) then 1 else 0
  let c₂ : Config := fun p => if p = (0, 1) then 1 else 0
  let ψ : Config → ℂ := fun c => if c (0, 0) = 1 then 3 else 1
  refine ⟨exactContractor ψ, ψ, {c₁, c₂}, c₁, c₂, exactContractor_exact ψ, by simp, by simp,
    by simp [ψ, c₁, c₂], ?_⟩
  have e1 : (fun p => c₁ (Equiv.swap (0, 0) (0, 1) p)) = c₂ := by
    funext p
    by_cases h1 : p = (0, 0)
    · subst h1; simp [c₁, c₂]
    · by_cases h2 : p = (0, 1)
      · subst h2; simp [c₁, c₂]
      · rw [Equiv.swap_apply_of_ne_of_ne h1 h2]; simp [c₁, c₂, h1, h2]
  have e2 : (fun p => c₂ (Equiv.swap (0, 0) (0, 1) p)) = c₁ := by
    funext p
    by_cases h1 : p = (0, 0)
    · subst h1; simp [c₁, c₂]
    · by_cases h2 : p = (0, 1)
      · subst h2; simp [c₁, c₂]
      · rw [Equiv.swap_apply_of_ne_of_ne h1 h2]; simp [c₁, c₂, h1, h2]
  intro c hc
  simp only [Finset.mem_insert, Finset.mem_singleton] at hc ⊢
  rcases hc with rfl | rfl
  · exact Or.inr e1
  · exact Or.inl e2

end QLPeps.Updaters
