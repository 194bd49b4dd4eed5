import Verif.Lemmas.Updaters
import Verif.Spec.Updaters

/-! # Stationarity of candidate-list updates based on Suwa-Todo -/

open MeasureTheory Set

namespace QLPeps.Updaters

open QLPeps.Sweep QLPeps.Spec QLPeps.SuwaTodo

/-- overwrite the given sites -/
def setSites (c : Config) (l : List Site) (vals : List ℕ) : Config :=
  (l.zip vals).foldl (fun c p => setSite c p.1 p.2) c

/-- configuration-level behaviour of a candidate-list update -/
noncomputable def genCfg (ψ : Config → ℂ) (l : List Site) (cands : List (List ℕ)) (ref : ℝ)
    (c : Config) (u : ℝ) : Option Config :=
  (suwaTodo (cands.map (fun v => (‖ψ (setSites c l v)‖ / ref) * (‖ψ (setSites c l v)‖ / ref)))
    (cands.idxOf (l.map c)) u).bind (fun j => (cands[j]?).map (setSites c l))

theorem setSites_self (c : Config) (l : List Site) (hl : l.Nodup) : setSites c l (l.map c) = c := by
  obtain ⟨h1, h2⟩ := foldl_setSite l (l.map c) hl (by simp) c
  funext p
  by_cases hp : p ∈ l
  · have := List.map_inj_left.1 h1 p hp
    exact this
  · exact h2 p hp

theorem setSites_setSites (c : Config) (l : List Site) (hl : l.Nodup) (v v' : List ℕ)
    (hv : v.length = l.length) (hv' : v'.length = l.length) :
    setSites (setSites c l v) l v' = setSites c l v' := by
  obtain ⟨h1, h2⟩ := foldl_setSite l v' hl hv' (setSites c l v)
  obtain ⟨h3, h4⟩ := foldl_setSite l v' hl hv' c
  obtain ⟨h5, h6⟩ := foldl_setSite l v hl hv c
  funext p
  by_cases hp : p ∈ l
  · exact List.map_inj_left.1 (h1.trans h3.symm) p hp
  · exact ((h2 p hp).trans (h6 p hp)).trans (h4 p hp).symm

theorem map_setSites (c : Config) (l : List Site) (hl : l.Nodup) (v : List ℕ)
    (hv : v.length = l.length) : l.map (setSites c l v) = v := (foldl_setSite l v hl hv c).1

/-- a candidate-list update leaves `|ψ|²` invariant -/
theorem gen_stationary (ψ : Config → ℂ) (l : List Site) (hl : l.Nodup) (Ω : Finset Config)
    (cands : Config → List (List ℕ)) (ref : Config → ℝ)
    (H1 : ∀ c ∈ Ω, l.map c ∈ cands c)
    (H2 : ∀ c ∈ Ω, ∀ v ∈ cands c, setSites c l v ∈ Ω ∧ cands (setSites c l v) = cands c)
    (H3 : ∀ c ∈ Ω, (cands c).Nodup ∧ ∀ v ∈ cands c, v.length = l.length)
    (href : ∀ c ∈ Ω, ψ c ≠ 0 → ref c ≠ 0) (c' : Config) (hc' : c' ∈ Ω) :
    ∑ c ∈ Ω, ‖ψ c‖ ^ 2 * (volume {u : ℝ | u ∈ Ico (0 : ℝ) 1 ∧
      genCfg ψ l (cands c) (ref c) c u = some c'}).toReal = ‖ψ c'‖ ^ 2 := by
  classical
  set L := cands c' with hL
  obtain ⟨hnd, hlen⟩ := H3 c' hc'
  rw [← hL] at hnd hlen
  let x : Fin L.length → Config := fun k => setSites c' l L[k]
  have hxΩ : ∀ k, x k ∈ Ω := fun k => (H2 c' hc' _ (List.getElem_mem _)).1
  have hxL : ∀ k, cands (x k) = L := fun k => (H2 c' hc' _ (List.getElem_mem _)).2
  have hxmap : ∀ k, l.map (x k) = L[k] := fun k =>
    map_setSites c' l hl _ (hlen _ (List.getElem_mem _))
  have hxinj : Function.Injective x := by
    intro a b h
    have : L[a] = L[b] := by rw [← hxmap a, ← hxmap b, h]
    exact Fin.ext ((List.Nodup.getElem_inj_iff hnd).1 this)
  -- the index of `c'`
  have hmem := H1 c' hc'
  rw [← hL] at hmem
  have hj : L.idxOf (l.map c') < L.length := List.idxOf_lt_length_of_mem hmem
  set j : Fin L.length := ⟨L.idxOf (l.map c'), hj⟩ with hjdef
  have hxj : x j = c' := by
    have : L[j] = l.map c' := List.getElem_idxOf hj
    change setSites c' l L[j] = c'
    rw [this]; exact setSites_self c' l hl
  -- the step out of `x k`
  let w : List ℝ := L.map (fun v => ‖ψ (setSites c' l v)‖ * ‖ψ (setSites c' l v)‖)
  have hwl : w.length = L.length := by simp [w]
  have hstep : ∀ k : Fin L.length, ψ (x k) ≠ 0 → ∀ u,
      genCfg ψ l (cands (x k)) (ref (x k)) (x k) u = some c' ↔ suwaTodo w k u = some (j : ℕ) := by
    intro k hk u
    have hr := href (x k) (hxΩ k) hk
    rw [hxL k]
    have hset : ∀ v ∈ L, setSites (x k) l v = setSites c' l v := fun v hv =>
      setSites_setSites c' l hl _ _ (hlen _ (List.getElem_mem _)) (hlen v hv)
    have hidx : L.idxOf (l.map (x k)) = k := by
      rw [hxmap k]; exact List.Nodup.idxOf_getElem hnd k k.2
    have hws : L.map (fun v => (‖ψ (setSites (x k) l v)‖ / ref (x k)) *
        (‖ψ (setSites (x k) l v)‖ / ref (x k))) = w.map (fun y => (1 / (ref (x k) ^ 2)) * y) := by
      simp only [w, List.map_map]
      apply List.map_congr_left
      intro v hv
      rw [hset v hv, Function.comp]
      field_simp
    unfold genCfg
    rw [hidx, hws, C03_scale_invariant _ (by positivity)]
    cases hs : suwaTodo w k u with
    | none => simp
    | some i =>
      simp only [Option.bind_some, Option.some.injEq]
      constructor
      · intro h
        obtain ⟨v, hv, h2⟩ := Option.map_eq_some_iff.1 h
        have hvL := List.mem_of_getElem? hv
        have hvc : l.map c' = v := by
          rw [← h2, hset v hvL]; exact map_setSites c' l hl v (hlen v hvL)
        have hilt : i < L.length := by
          rw [← not_le]; intro hle
          rw [List.getElem?_eq_none hle] at hv; cases hv
        rw [List.getElem?_eq_getElem hilt] at hv
        have hv' := Option.some.inj hv
        have : i = L.idxOf L[i] := (List.Nodup.idxOf_getElem hnd i hilt).symm
        rw [this, hv', ← hvc]
      · intro h
        rw [h, List.getElem?_eq_getElem hj, Option.map_some]
        congr 1
        rw [hset _ (List.getElem_mem _)]
        exact hxj
  -- configurations outside the class do not reach `c'`
  have hzero : ∀ c ∈ Ω, c ∉ Finset.univ.image x → ∀ u, genCfg ψ l (cands c) (ref c) c u ≠ some c' := by
    intro c hc hnot u h
    unfold genCfg at h
    obtain ⟨i, -, h2⟩ := Option.bind_eq_some_iff.1 h
    obtain ⟨v, hv, h3⟩ := Option.map_eq_some_iff.1 h2
    have hvc := List.mem_of_getElem? hv
    have hcL : L = cands c := by rw [hL, ← h3]; exact (H2 c hc v hvc).2
    have hcm : l.map c ∈ L := by rw [hcL]; exact H1 c hc
    apply hnot
    rw [Finset.mem_image]
    refine ⟨⟨L.idxOf (l.map c), List.idxOf_lt_length_of_mem hcm⟩, Finset.mem_univ _, ?_⟩
    change setSites c' l (L[L.idxOf (l.map c)]'_) = c
    rw [List.getElem_idxOf, ← h3, setSites_setSites c l hl _ _ ((H3 c hc).2 v hvc) (by simp),
      setSites_self c l hl]
  have hsub : Finset.univ.image x ⊆ Ω := by
    intro c hc
    obtain ⟨k, -, rfl⟩ := Finset.mem_image.1 hc
    exact hxΩ k
  rw [← Finset.sum_subset hsub]
  · rw [Finset.sum_image (fun a _ b _ h => hxinj h)]
    have hterm : ∀ k : Fin L.length, ‖ψ (x k)‖ ^ 2 * (volume {u : ℝ | u ∈ Ico (0 : ℝ) 1 ∧
        genCfg ψ l (cands (x k)) (ref (x k)) (x k) u = some c'}).toReal
        = ‖ψ (x k)‖ ^ 2 * transProb w k j := by
      intro k
      by_cases hk : ψ (x k) = 0
      · simp [hk]
      · rw [transProb]
        congr 4
        ext u
        exact and_congr_right fun _ => hstep k hk u
    rw [Finset.sum_congr rfl (fun k _ => hterm k)]
    have hwval : ∀ k : Fin L.length, w[(k : ℕ)]'(by rw [hwl]; exact k.2) = ‖ψ (x k)‖ ^ 2 := by
      intro k; simp [w, x, sq]
    by_cases hS : 0 < w.sum
    · have hw0 : ∀ a ∈ w, 0 ≤ a := by
        intro a ha
        obtain ⟨v, -, rfl⟩ := List.mem_map.1 ha
        positivity
      have := C01_global_balance w hw0 hS ⟨j, by rw [hwl]; exact j.2⟩
      rw [← hxj, ← hwval j]
      have e := this
      simp only [Fin.getElem_fin] at e
      rw [← e]
      refine (Equiv.sum_comp (finCongr hwl.symm) _).symm.trans ?_ |>.symm
      refine Finset.sum_congr rfl fun k _ => ?_
      rw [← hwval k]
      rfl
    · have hw0 : ∀ a ∈ w, a = 0 := by
        have hnn : ∀ a ∈ w, 0 ≤ a := by
          intro a ha
          obtain ⟨v, -, rfl⟩ := List.mem_map.1 ha
          positivity
        intro a ha
        have := List.single_le_sum hnn a ha
        have := hnn a ha
        linarith
      have hz : ∀ k : Fin L.length, ‖ψ (x k)‖ ^ 2 = 0 := fun k => by
        rw [← hwval k]; exact hw0 _ (List.getElem_mem _)
      rw [← hxj, hz j]
      exact Finset.sum_eq_zero fun k _ => by rw [hz k, zero_mul]
  · intro c hc hnot
    have : {u : ℝ | u ∈ Ico (0 : ℝ) 1 ∧ genCfg ψ l (cands c) (ref c) c u = some c'} = ∅ := by
      ext u
      simp only [mem_ofPred_eq, mem_empty_iff_false, iff_false, not_and]
      exact fun _ => hzero c hc hnot u
    rw [this]; simp

/-- the common tail at configuration level -/
theorem suwaTodoTail_genCfg {Γ : Type*} (C : Contractor ℂ Γ) (ψ : Config → ℂ) (l : List Site)
    (hl : l.Nodup) (cands : List (List ℕ)) (psis : List ℂ) (ref : ℝ) (href : ref ≠ 0)
    (c : Config) (hmem : l.map c ∈ cands) (u : ℝ) (env : Γ)
    (hpsis : psis = cands.map (fun v => ψ (setSites c l v))) :
    (suwaTodoTail C (fun _ => u) l cands psis (normWeights (fun z : ℂ => ‖z‖) psis ref)
      (cands.idxOf (l.map c)) ⟨c, ψ c, env, 0⟩).map (fun r => r.1.config)
      = genCfg ψ l cands ref c u := by
  unfold suwaTodoTail normWeights genCfg
  rw [if_neg href, hpsis, List.map_map]
  dsimp only [Function.comp_def]
  cases hs : suwaTodo (cands.map (fun v => (‖ψ (setSites c l v)‖ / ref) *
      (‖ψ (setSites c l v)‖ / ref))) (cands.idxOf (l.map c)) u with
  | none => rfl
  | some fin =>
    simp only [Option.bind_some]
    split_ifs with h
    · rw [h, List.getElem?_eq_getElem (List.idxOf_lt_length_of_mem hmem), List.getElem_idxOf]
      simp [setSites_self c l hl]
    · rw [List.getElem?_map]
      cases cands[fin]? with
      | none => rfl
      | some v =>
        simp only [Option.map_some, Option.some.injEq]
        exact (updateLocal_config C _ (l.zip v) _).1

end QLPeps.Updaters
