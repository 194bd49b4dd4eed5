import Verif.Lemmas.PepsLoopRatio
import Verif.Props.SimpleUpdate

/-!
# Sweeps of loop projections
-/

namespace QLPeps.Peps

open QLPeps.State (BC)
open QLPeps.Tps.Spec (Bond Site leg slots)
open QLPeps.Peps.Spec

variable {𝕜 : Type*} [RCLike 𝕜] {bc : BC} {rows cols : ℕ}

/-- a plaquette is a square -/
theorem plaquette_square {r : Site rows cols} (hr : IsPlaquette bc r)
    (hsz : bc = .pbc → rows % 2 = 0 ∧ cols % 2 = 0) : Square bc (plaquette r) := by
  obtain ⟨⟨y, hy⟩, ⟨x, hx⟩⟩ := r
  have hsz2 : 2 ≤ rows ∧ 2 ≤ cols := by
    cases bc with
    | obc => have := hr rfl; simp only at this; omega
    | pbc => have := hsz rfl; omega
  have hc : (x + 1) % slots bc cols = (x + 1) % cols := by
    cases bc with
    | obc =>
      have := (hr rfl).2
      simp only at this
      rw [Nat.mod_eq_of_lt this, Nat.mod_eq_of_lt (by simp [slots]; omega)]
    | pbc => rfl
  have hw : (y + 1) % slots bc rows = (y + 1) % rows := by
    cases bc with
    | obc =>
      have := (hr rfl).1
      simp only at this
      rw [Nat.mod_eq_of_lt this, Nat.mod_eq_of_lt (by simp [slots]; omega)]
    | pbc => rfl
  have nx : (x + 1) % cols ≠ x := by
    intro h
    rcases Nat.lt_or_ge (x + 1) cols with h' | h'
    · rw [Nat.mod_eq_of_lt h'] at h; omega
    · have : x + 1 = cols := by omega
      rw [this, Nat.mod_self] at h; omega
  have ny : (y + 1) % rows ≠ y := by
    intro h
    rcases Nat.lt_or_ge (y + 1) rows with h' | h'
    · rw [Nat.mod_eq_of_lt h'] at h; omega
    · have : y + 1 = rows := by omega
      rw [this, Nat.mod_self] at h; omega
  refine ⟨?_, ?_, ?_, ?_, ?_⟩
  · simp [plaquette, leg, hc]
  · simp [plaquette, leg, hw]
  · simp [plaquette, leg, hc]
  · simp [plaquette, leg, hw]
  · intro i j h
    have h1 := congrArg (fun s : Site rows cols => (s.1 : ℕ)) h
    have h2 := congrArg (fun s : Site rows cols => (s.2 : ℕ)) h
    fin_cases i <;> fin_cases j <;> simp [plaquette] at h1 h2 ⊢ <;> omega

theorem exists_sites (l : List (ℕ × ℕ)) (h : ∀ p ∈ l, p.1 < rows ∧ p.2 < cols) :
    ∃ o : List (Site rows cols), o.map (fun r => ((r.1 : ℕ), (r.2 : ℕ))) = l := by
  induction l with
  | nil => exact ⟨[], rfl⟩
  | cons p l ih =>
    obtain ⟨o, ho⟩ := ih fun q hq => h q (List.mem_cons_of_mem _ hq)
    have hp := h p (by simp)
    exact ⟨(⟨p.1, hp.1⟩, ⟨p.2, hp.2⟩) :: o, by simp [ho]⟩

theorem applyLoop_congr {phys : Site rows cols → ℕ} {gate : Fin 4 → Tn 𝕜} {w : Fin 4 → ℕ}
    {s : Fin 4 → Site rows cols} {ψ φ : (Site rows cols → ℕ) → 𝕜} {c : 𝕜}
    (h : ∀ σ, (∀ t, σ t < phys t) → c * φ σ = ψ σ) {σ : Site rows cols → ℕ} (hσ : ∀ t, σ t < phys t) :
    c * applyLoop phys gate w s φ σ = applyLoop phys gate w s ψ σ := by
  unfold applyLoop
  simp only [Finset.mul_sum]
  refine Finset.sum_congr rfl fun i hi => Finset.sum_congr rfl fun j hj =>
    Finset.sum_congr rfl fun k hk => Finset.sum_congr rfl fun l hl => ?_
  rw [← h]
  · ring
  · intro t
    simp only [put4, Function.update_apply]
    simp only [Finset.mem_range] at hi hj hk hl
    split_ifs with h3 h2 h1 h0
    · subst h3; exact hl
    · subst h2; exact hk
    · subst h1; exact hj
    · subst h0; exact hi
    · exact hσ t

theorem applyLoops_congr {phys : Site rows cols → ℕ} {gates : Site rows cols → Fin 4 → Tn 𝕜}
    {w : Site rows cols → Fin 4 → ℕ} (l : List (Site rows cols)) {c : 𝕜} :
    ∀ {ψ φ : (Site rows cols → ℕ) → 𝕜}, (∀ σ, (∀ t, σ t < phys t) → c * φ σ = ψ σ) →
    ∀ σ, (∀ t, σ t < phys t) → c * applyLoops phys gates w φ l σ = applyLoops phys gates w ψ l σ := by
  induction l with
  | nil => intro ψ φ h σ hσ; exact h σ hσ
  | cons r l ih =>
    intro ψ φ h σ hσ
    exact ih (fun τ hτ => applyLoop_congr h hτ) σ hσ

theorem loopVisits_mono {lib : LoopLib 𝕜} {para : LoopPara} {ty : LoopGateType} {tau : ℝ}
    {gates : ℕ → ℕ → Fin 4 → Tn 𝕜} (l : List (ℕ × ℕ)) : ∀ {s s' : LoopSweep 𝕜},
    loopVisits lib para ty tau gates s l = some s' →
    (∀ x ∈ s.spectra, x ∈ s'.spectra) ∧ (∀ x ∈ s.errs, x ∈ s'.errs) ∧ ∀ x ∈ s.env, x ∈ s'.env := by
  induction l with
  | nil =>
    intro s s' h
    obtain rfl : s = s' := by simpa [loopVisits] using h
    exact ⟨fun _ h => h, fun _ h => h, fun _ h => h⟩
  | cons p l ih =>
    intro s s' h
    simp only [loopVisits, Option.bind_eq_some_iff] at h
    obtain ⟨s1, h1, h2⟩ := h
    simp only [loopVisit, Option.map_eq_some_iff] at h1
    obtain ⟨res, -, rfl⟩ := h1
    obtain ⟨m1, m2, m3⟩ := ih h2
    exact ⟨fun x hx => m1 x (List.mem_append_left _ hx), fun x hx => m2 x (List.mem_append_left _ hx),
      fun x hx => m3 x (List.mem_append_left _ hx)⟩

theorem loopProject_isWave {lib : LoopLib 𝕜} (hlib : LoopExact lib) {para : LoopPara}
    (htol : 0 ≤ para.invTol) (hetol : 0 ≤ para.envInvTol) {p : Peps 𝕜} {phys : Site rows cols → ℕ}
    {ψ : (Site rows cols → ℕ) → 𝕜} (hψ : IsWave bc p phys ψ) {s : Fin 4 → Site rows cols}
    (hq : Square bc s) {gate : Fin 4 → Tn 𝕜} {w : Fin 4 → ℕ}
    (hgate : ∀ i, (gate i).shape = [w (i + 3), phys (s i), phys (s i), w i]) {res : LoopRes 𝕜}
    (hres : loopProject lib para p gate (s 0).1 (s 0).2 = some res)
    (hsp : ∀ x ∈ res.spectra, Above para.invTol x) (herr : ∀ x ∈ res.errs, x = 0)
    (henv : ∀ x ∈ res.env, Above para.envInvTol x) :
    (∃ φ, IsWave bc res.peps phys φ ∧ ∀ σ, (∀ t, σ t < phys t) →
      (res.norm : 𝕜) * φ σ = applyLoop phys gate w s ψ σ) ∧
    (∀ t : Site rows cols, (∀ i, t ≠ s i) → res.peps.gamma t.1 t.2 = p.gamma t.1 t.2) ∧
    ∀ b : Bond bc rows cols, (∀ i, b ≠ squareBond bc s i) → weight res.peps b = weight p b := by
  obtain ⟨dim, hf, hψ⟩ := hψ
  obtain ⟨dim', g1, g2, g3, g4⟩ := loopProject_wave hlib htol hetol hf hq hgate hres hsp herr henv
  refine ⟨⟨_, ⟨dim', g1, fun _ _ => rfl⟩, fun σ hσ => ?_⟩, g2, g3⟩
  rw [g4 σ hσ]
  have := applyLoop_congr (phys := phys) (gate := gate) (w := w) (s := s)
    (φ := amplitude p dim) (ψ := ψ)
    (c := (1 : 𝕜)) (fun σ hσ => by rw [one_mul]; exact (hψ σ hσ).symm) hσ
  rwa [one_mul] at this

/-- the projections of a list of plaquettes -/
theorem loopVisits_eq {lib : LoopLib 𝕜} (hlib : LoopExact lib) {para : LoopPara}
    (htol : 0 ≤ para.invTol) (hetol : 0 ≤ para.envInvTol) {ty : LoopGateType} {tau : ℝ}
    {phys : Site rows cols → ℕ} {gates : ℕ → ℕ → Fin 4 → Tn 𝕜} {w : Site rows cols → Fin 4 → ℕ}
    (hsz : bc = .pbc → rows % 2 = 0 ∧ cols % 2 = 0)
    (hgate : ∀ r : Site rows cols, IsPlaquette bc r → ∀ i, (gates r.1 r.2 i).shape =
      [w r (i + 3), phys (plaquette r i), phys (plaquette r i), w r i])
    (order : List (Site rows cols)) (ho : ∀ r ∈ order, IsPlaquette bc r) :
    ∀ {s s' : LoopSweep 𝕜} {ψ : (Site rows cols → ℕ) → 𝕜}, IsWave bc s.peps phys ψ →
    loopVisits lib para ty tau gates s (order.map fun r => ((r.1 : ℕ), (r.2 : ℕ))) = some s' →
    (∀ x ∈ s'.spectra, Above para.invTol x) → (∀ x ∈ s'.errs, x = 0) →
    (∀ x ∈ s'.env, Above para.envInvTol x) →
    ∃ c : ℝ, s'.norm = s.norm * c ∧ ∃ φ, IsWave bc s'.peps phys φ ∧
      ∀ σ, (∀ t, σ t < phys t) →
        (c : 𝕜) * φ σ = applyLoops phys (fun r => gates r.1 r.2) w ψ order σ := by
  induction order with
  | nil =>
    intro s s' ψ hψ h _ _ _
    obtain rfl : s = s' := by simpa [loopVisits] using h
    exact ⟨1, by simp, ψ, hψ, fun σ _ => by simp [applyLoops]⟩
  | cons r order ih =>
    intro s s' ψ hψ h hsp herr henv
    simp only [List.map_cons, loopVisits, Option.bind_eq_some_iff] at h
    obtain ⟨s1, h1, h2⟩ := h
    simp only [loopVisit, Option.map_eq_some_iff] at h1
    obtain ⟨res, h1, rfl⟩ := h1
    obtain ⟨m1, m2, m3⟩ := loopVisits_mono _ h2
    have h1' : loopProject lib para s.peps (gates r.1 r.2) (plaquette r 0).1 (plaquette r 0).2 =
        some res := by rw [show plaquette r 0 = r from rfl]; exact h1
    obtain ⟨⟨φ, hφ, e3⟩, -, -⟩ := loopProject_isWave hlib htol hetol hψ
      (plaquette_square (ho r (by simp)) hsz) (hgate r (ho r (by simp))) h1'
      (fun x hx => hsp x (m1 x (List.mem_append_right _ hx)))
      (fun x hx => herr x (m2 x (List.mem_append_right _ hx)))
      (fun x hx => henv x (m3 x (List.mem_append_right _ hx)))
    obtain ⟨c, e1, χ, hχ, e2⟩ := ih (fun q hq => ho q (List.mem_cons_of_mem _ hq)) hφ h2 hsp herr henv
    refine ⟨res.norm * c, by rw [e1]; exact mul_assoc _ _ _, χ, hχ, fun σ hσ => ?_⟩
    have e4 := applyLoops_congr (gates := fun r => gates r.1 r.2) (w := w) order e3 σ hσ
    rw [← e2 σ hσ] at e4
    rw [applyLoops, ← e4]
    push_cast
    ring

/-- what a sweep adds up -/
theorem loopVisits_results {lib : LoopLib 𝕜} {para : LoopPara} {ty : LoopGateType} {tau : ℝ}
    {gates : ℕ → ℕ → Fin 4 → Tn 𝕜} : ∀ (l : List (Site rows cols)) {s s' : LoopSweep 𝕜},
    loopVisits lib para ty tau gates s (l.map fun r => ((r.1 : ℕ), (r.2 : ℕ))) = some s' →
    ∃ results, Projections lib para (fun r => gates r.1 r.2) s.peps l results ∧
      s'.peps = (results.map LoopRes.peps).getLastD s.peps ∧
      s'.norm = s.norm * (results.map LoopRes.norm).prod ∧
      s'.e0 = s.e0 + (results.map fun x => localEnergy ty tau x.ratio).sum
  | [], s, s', h => by
    obtain rfl := Option.some.inj h
    exact ⟨[], rfl, rfl, by simp, by simp⟩
  | r :: l, s, s', h => by
    obtain ⟨s1, h1, h2⟩ := Option.bind_eq_some_iff.1 h
    obtain ⟨res, h3, rfl⟩ := Option.map_eq_some_iff.1 h1
    obtain ⟨rest, e1, e2, e3, e4⟩ := loopVisits_results l h2
    refine ⟨res :: rest, ⟨res, rest, rfl, h3, e1⟩, ?_, ?_, ?_⟩
    · rw [e2]
      cases rest with
      | nil => rfl
      | cons a b => simp only [List.map_cons]; rfl
    · rw [e3, List.map_cons, List.prod_cons, mul_assoc]
    · rw [e4, List.map_cons, List.sum_cons, add_assoc]

end QLPeps.Peps
