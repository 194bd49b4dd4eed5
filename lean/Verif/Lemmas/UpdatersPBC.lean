import Verif.Model.UpdatersPBC
import Verif.Lemmas.ChainUpd

/-!
# The periodic full-space update is the full-space update of the bond
-/

namespace QLPeps.Updaters

theorem range_flatMap_range {α : Type*} (f : ℕ → ℕ → α) (m d : ℕ) :
    ((List.range m).flatMap fun i => (List.range d).map (f i)) =
      (List.range (m * d)).map fun k => f (k / d) (k % d) := by
  induction m with
  | zero => simp
  | succ m ih =>
    rw [List.range_succ, List.flatMap_append, ih, Nat.succ_mul, List.range_add, List.map_append]
    congr 1
    simp only [List.flatMap_cons, List.flatMap_nil, List.append_nil, List.map_map]
    refine List.map_congr_left fun k hk => ?_
    have hk := List.mem_range.1 hk
    have hd : 0 < d := by omega
    simp only [Function.comp]
    rw [Nat.mul_comm m d, Nat.mul_add_div hd, Nat.div_eq_of_lt hk, Nat.mul_add_mod,
      Nat.mod_eq_of_lt hk, Nat.add_zero]

variable {A K Γ : Type*} [Field K] [LinearOrder K]

theorem fullSpacePBC_eq (C : Contractor A Γ) (ab : A → K) (ξ : ℕ → K) (dim : ℕ) (s1 s2 : Site)
    (d : Orient) (w : Walker A Γ) :
    fullSpacePBC C ab ξ dim s1 s2 d w = fullSpace C ab ξ dim s1 s2 d w := by
  unfold fullSpacePBC fullSpace
  dsimp only
  split_ifs with h
  swap
  · rfl
  have ht : fullSpaceTrials C dim s1 s2 d w = (List.range (dim * dim)).map fun k =>
      if k = w.config s1 * dim + w.config s2 then (w.amp, none)
      else (C.nnTrace w.env w.config s1 s2 d (k / dim) (k % dim),
        some ⟨C.nnTrace w.env w.config s1 s2 d (k / dim) (k % dim), [(s1, k / dim), (s2, k % dim)]⟩) := by
    unfold fullSpaceTrials
    rw [range_flatMap_range (fun c1 c2 => if c1 * dim + c2 = w.config s1 * dim + w.config s2 then
      (w.amp, none) else
      let t := beginTrial C s1 s2 d c1 c2 w
      (t.amp, some t))]
    refine List.map_congr_left fun k _ => ?_
    rw [Nat.div_add_mod' k dim]
    rfl
  have hp : (fullSpaceTrials C dim s1 s2 d w).map Prod.fst = (List.range (dim * dim)).map (fun k =>
      if k ≠ w.config s1 * dim + w.config s2 then
        C.nnTrace w.env w.config s1 s2 d (k / dim) (k % dim) else w.amp) := by
    rw [ht, List.map_map]
    refine List.map_congr_left fun k _ => ?_
    by_cases hk : k = w.config s1 * dim + w.config s2 <;> simp [hk]
  rw [hp]
  unfold suwaTodoTail
  rcases normWeights ab ((List.range (dim * dim)).map (fun k =>
      if k ≠ w.config s1 * dim + w.config s2 then
        C.nnTrace w.env w.config s1 s2 d (k / dim) (k % dim) else w.amp)) (ab w.amp) with _ | ws
  · rfl
  dsimp only
  rcases SuwaTodo.suwaTodo ws (w.config s1 * dim + w.config s2) (ξ w.draws) with _ | fin
  · rfl
  dsimp only
  split_ifs with hfin
  · rfl
  rw [ht]
  simp only [List.getElem?_map]
  rcases hr : (List.range (dim * dim))[fin]? with _ | k
  · rfl
  · have : k = fin := by
      obtain ⟨h1, h2⟩ := List.getElem?_eq_some_iff.1 hr
      rw [List.getElem_range] at h2; exact h2.symm
    subst this
    simp [hfin, acceptTrial]

end QLPeps.Updaters
