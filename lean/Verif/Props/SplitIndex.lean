import Verif.Lemmas.SplitIndex
import Verif.Props.Bmps

/-!
# Property C100: splitting and grouping the physical index
-/

namespace QLPeps.SplitIndex

open QLPeps.Contractor QLPeps.Sweep QLPeps.Updaters
open QLPeps.Peps (Tn Lib)
open QLPeps.Tps.Spec (Bond leg coords amplitude)

noncomputable section

variable {𝕜 : Type*} [RCLike 𝕜] {rows cols : ℕ}

/-- **C100.** `FromTPS` gives one component per physical state; its elements are those of the site
tensor with that state. -/
theorem C100_components (t : QLPeps.Site → Tn 𝕜) (q : QLPeps.Site) {w s e n d : ℕ}
    (h : (t q).shape = [w, s, e, n, d]) :
    (fromTPS t q).length = d ∧ ∀ v < d, (component (fromTPS t) q v).shape = [w, s, e, n] ∧
      ∀ a b c m, (component (fromTPS t) q v).elem [a, b, c, m] = (t q).elem [a, b, c, m, v] := by
  refine ⟨splitSite_length h, fun v hv => ?_⟩
  have : component (fromTPS t) q v = QLPeps.Peps.contractN (t q) [4] (unitVec d v) [0] := by
    rw [component, fromTPS, List.getD_eq_getElem?_getD, splitSite_get h v hv]
    rfl
  rw [this]
  exact split_eq h v hv

/-- **C100.** Grouping the components of a split TPS gives back its tensors. -/
theorem C100_group_after_split (t : QLPeps.Site → Tn 𝕜) (q : QLPeps.Site) {w s e n d : ℕ}
    (h : (t q).shape = [w, s, e, n, d]) (hd : 0 < d) :
    ∃ g, groupIndices d (fromTPS t) q = some g ∧ g.shape = (t q).shape ∧
      ∀ a b c m, ∀ v < d, g.elem [a, b, c, m, v] = (t q).elem [a, b, c, m, v] := by
  obtain ⟨h1, h2⟩ := C100_components t q h
  obtain ⟨g, g1, g2, g3⟩ := groupSite_eq (w := w) (s := s) (e := e) (n := n) d (fromTPS t q)
    (by rw [← List.length_pos_iff, h1]; exact hd)
    (by
      intro a ha
      obtain ⟨v, hv, rfl⟩ := List.getElem_of_mem ha
      have := (h2 v (by omega)).1
      rwa [component, List.getD_eq_getElem _ _ hv] at this) h1.le
  refine ⟨g, g1, g2.trans h.symm, fun a b c m v hv => ?_⟩
  rw [g3, List.getElem?_eq_getElem (by omega)]
  have := (h2 v hv).2 a b c m
  rw [component, List.getD_eq_getElem _ _ (by omega)] at this
  simpa using this

/-- **C100.** Splitting the grouped tensor gives back the components, followed by zero components if
the physical index has more states than there are components. -/
theorem C100_split_after_group (comps : QLPeps.Site → List (Tn 𝕜)) (q : QLPeps.Site) {w s e n d : ℕ}
    (h0 : comps q ≠ []) (hs : ∀ a ∈ comps q, a.shape = [w, s, e, n]) (hd : (comps q).length ≤ d) :
    ∃ g, groupIndices d comps q = some g ∧ (fromTPS (fun _ => g) q).length = d ∧
      (∀ v < (comps q).length, (component (fromTPS fun _ => g) q v).shape = (component comps q v).shape ∧
        ∀ a b c m, (component (fromTPS fun _ => g) q v).elem [a, b, c, m] =
          (component comps q v).elem [a, b, c, m]) ∧
      ∀ v, (comps q).length ≤ v → v < d →
        ∀ a b c m, (component (fromTPS fun _ => g) q v).elem [a, b, c, m] = 0 := by
  obtain ⟨g, g1, g2, g3⟩ := groupSite_eq d (comps q) h0 hs hd
  obtain ⟨h1, h2⟩ := C100_components (fun _ => g) q g2
  refine ⟨g, g1, h1, fun v hv => ?_, fun v hv hv' a b c m => ?_⟩
  · have hc : component comps q v = (comps q)[v] := List.getD_eq_getElem _ _ hv
    refine ⟨?_, fun a b c m => ?_⟩
    · rw [(h2 v (by omega)).1, hc, hs _ (List.getElem_mem hv)]
    · rw [(h2 v (by omega)).2, g3, hc, List.getElem?_eq_getElem hv]
      rfl
  · rw [(h2 v hv').2, g3, List.getElem?_eq_none hv]
    rfl

/-- **C100.** More components than physical states, or none, cannot be grouped. -/
theorem C100_group_fails (comps : QLPeps.Site → List (Tn 𝕜)) (q : QLPeps.Site) (d : ℕ)
    (h : comps q = [] ∨ d < (comps q).length) : groupIndices d comps q = none := by
  unfold groupIndices
  match hc : comps q with
  | [] => rfl
  | a :: as =>
    rw [hc] at h
    rw [groupSite, if_pos (by simpa using h)]

/-- **C100.** The network of a configuration, projected from the split TPS, fits together, and its
value is the amplitude of the configuration in the TPS. -/
theorem C100_projected_value (ten : ℕ → ℕ → QLPeps.Tps.Ten 𝕜) (dim : Bond .obc rows cols → ℕ)
    (hf : QLPeps.Tps.Spec.Fits ten dim) (cfg : Config)
    (hc : ∀ s : QLPeps.Tps.Spec.Site rows cols, cfg (s.1, s.2) < (ten s.1 s.2).shape 4) :
    let net := project (component (fromTPS fun s => toTn (ten s.1 s.2))) cfg
    QLPeps.Bmps.Spec.Fits net dim ∧
    QLPeps.Bmps.Spec.value dim net = amplitude dim ten fun s => cfg (s.1, s.2) := by
  intro net
  have key : ∀ s : QLPeps.Tps.Spec.Site rows cols, (net (s.1, s.2)).shape = [dim (leg .obc s 0), dim (leg .obc s 1),
      dim (leg .obc s 2), dim (leg .obc s 3)] ∧
      ∀ a b c m, (net (s.1, s.2)).elem [a, b, c, m] =
        (toTn (ten s.1 s.2)).elem [a, b, c, m, cfg (s.1, s.2)] := by
    intro s
    have := (C100_components (fun s : QLPeps.Site => toTn (ten s.1 s.2)) (s.1, s.2) rfl).2
      (cfg (s.1, s.2)) (hc s)
    refine ⟨this.1.trans ?_, this.2⟩
    rw [← hf.1 s 0, ← hf.1 s 1, ← hf.1 s 2, ← hf.1 s 3]
    rfl
  refine ⟨⟨fun s => (key s).1, hf.2⟩, ?_⟩
  unfold QLPeps.Bmps.Spec.value amplitude
  refine Finset.sum_congr rfl fun β _ => Finset.prod_congr rfl fun s _ => ?_
  rw [(key s).2]
  refine congrArg (ten s.1 s.2).elem (funext fun i => ?_)
  fin_cases i <;> rfl

/-- **C100.** The whole way from a TPS to a number: split, project a configuration, initialise a
contractor (whatever it cached before) and evaluate: without truncation the result is the amplitude
of the configuration. -/
theorem C100_amplitude_from_tps {lib : Lib 𝕜} (hl : QLPeps.Bmps.Spec.Lossless lib)
    (ten : ℕ → ℕ → QLPeps.Tps.Ten 𝕜) (dim : Bond .obc rows cols → ℕ)
    (hf : QLPeps.Tps.Spec.Fits ten dim) (hr : 1 ≤ rows) (hcols : 2 ≤ cols) (cfg : Config)
    (hc : ∀ s : QLPeps.Tps.Spec.Site rows cols, cfg (s.1, s.2) < (ten s.1 s.2).shape 4)
    (c : Ctr (List (Tn 𝕜)) (Tn 𝕜) (Tn 𝕜)) :
    let o := QLPeps.Bmps.tensorOps lib rows cols
    let net := project (component (fromTPS fun s => toTn (ten s.1 s.2))) cfg
    ∃ c', evaluateAmplitude o rows cols net (init o c) =
      some (amplitude dim ten fun s => cfg (s.1, s.2), c') ∧ Fresh o rows cols net c' := by
  intro o net
  obtain ⟨h1, h2⟩ := C100_projected_value ten dim hf cfg hc
  rw [← h2]
  exact QLPeps.Bmps.C99_initial_amplitude_exact hl h1 hr hcols c

/-- a nontrivial case: tensors with two physical states and bonds of dimension two on a 3×4 lattice,
with any elements -/
example (f : ℕ → ℕ → (Fin 5 → ℕ) → ℂ) (cfg : Config) (h : ∀ s, cfg s < 2)
    (c : Ctr (List (Tn ℂ)) (Tn ℂ) (Tn ℂ)) :=
  C100_amplitude_from_tps (rows := 3) (cols := 4) QLPeps.Bmps.idLib_lossless
    (fun r k => ⟨![if k = 0 then 1 else 2, if r + 1 = 3 then 1 else 2, if k + 1 = 4 then 1 else 2,
      if r = 0 then 1 else 2, 2], f r k⟩) QLPeps.Bmps.twoDim
    ⟨fun s k => by
      have := (QLPeps.Bmps.twoNet_fits (𝕜 := ℂ) (rows := 3) (cols := 4) fun _ _ => 0).shape s
      simp only [QLPeps.Bmps.twoNet, List.cons.injEq, and_true] at this
      obtain ⟨h0, h1, h2, h3⟩ := this
      fin_cases k
      · exact h0
      · exact h1
      · exact h2
      · exact h3,
     (QLPeps.Bmps.twoNet_fits (𝕜 := ℂ) (rows := 3) (cols := 4) fun _ _ => 0).external⟩
    (by omega) (by omega) cfg (fun s => h _) c

/-- a nontrivial case of the round trip: three states, any elements -/
example (f : List ℕ → ℝ) : ∃ g, groupIndices 3 (fromTPS fun _ => ⟨[2, 1, 4, 2, 3], f⟩) (5, 7) = some g ∧
    g.shape = [2, 1, 4, 2, 3] ∧ g.elem [1, 0, 3, 1, 2] = f [1, 0, 3, 1, 2] := by
  obtain ⟨g, h1, h2, h3⟩ := C100_group_after_split (fun _ => (⟨[2, 1, 4, 2, 3], f⟩ : Tn ℝ)) (5, 7) rfl
    (by omega)
  exact ⟨g, h1, h2, h3 1 0 3 1 2 (by omega)⟩

end

end QLPeps.SplitIndex
