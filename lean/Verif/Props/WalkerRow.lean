import Verif.Lemmas.WalkerRow
import Verif.Props.Bmps
import Verif.Props.Walker

/-!
# Property C143: `ContractRow` of a walker

The contractor `c` caches the boundary MPS of the network `t` (`Fresh`); without truncation (`Lossless`) the overlap of a row with the
boundary MPS of a walker and of the contractor is the value of the network (`Spec/Bmps`) in which that row was exchanged.
-/

namespace QLPeps.Walker

open QLPeps.Contractor
open QLPeps.Tps.Spec (Bond)
open QLPeps.Peps (Tn Lib)

noncomputable section

variable {𝕜 : Type*} [RCLike 𝕜] {rows cols : ℕ} {C : Type*}

/-- **C143.** A walker that was taken from the upper stack and evolved to row `r` contracts any row of tensors with the lower boundary
MPS: the result is the value of the network in which row `r` is exchanged for these tensors. -/
theorem C143_row_value {lib : Lib 𝕜} (hl : QLPeps.Bmps.Spec.Lossless lib) (t : Site → Tn 𝕜) (row : ℕ → Tn 𝕜)
    (dim : Bond .obc rows cols → ℕ) (c : Ctr (List (Tn 𝕜)) (Tn 𝕜) (Tn 𝕜))
    (hf : Fresh (QLPeps.Bmps.tensorOps lib rows cols) rows cols t c) (k : ℕ) (w0 w1 : Wk (List (Tn 𝕜)) (Tn 𝕜))
    (h0 : getWalker .up c = some w0)
    (h1 : times k (evolveStep (QLPeps.Bmps.tensorOps lib rows cols) rows cols t) w0 = some w1)
    (r : ℕ) (hr : r + 1 = w1.stackSize) (hrows : r < rows) (hcols : 0 < cols)
    (opp : List (Tn 𝕜)) (hopp : (c.bmps .down)[rows - 1 - r]? = some opp)
    (hfit : QLPeps.Bmps.Spec.Fits (fun s => if s.1 = r then row s.2 else t s) dim) :
    contractRow ((List.range cols).map row) .down opp w1 =
      some (QLPeps.Bmps.Spec.value dim fun s => if s.1 = r then row s.2 else t s) := by
  obtain ⟨w0', w1', e0, e1, -, hb, hp, -, -⟩ := C129_walker_steps _ rows cols t c hf .up k (by simp)
  rw [h0] at e0; cases e0
  rw [h1] at e1; cases e1
  obtain rfl : opp = env (QLPeps.Bmps.tensorOps lib rows cols) rows cols t .down (rows - 1 - r) := (hf .down).2.2 _ _ hopp
  rw [← hr, Nat.add_sub_cancel] at hb
  have hn := QLPeps.Bmps.net_of_fits hfit
  have key := contractRow_eq hl.shaped hn r hrows hcols w1 hp (hb.trans (env_congr' _ _ _ _ _ _ _ fun j hj => by
    simp only [layer]
    refine List.map_congr_left fun i _ => ?_
    rw [if_neg (by change ¬ (_ = _); omega)]))
  simp only [if_true] at key
  rw [← env_congr' _ _ _ t _ _ _ fun j hj => by
    simp only [layer]
    refine List.map_congr_left fun i _ => ?_
    rw [if_neg (by change ¬ (_ = _); omega)]] at key
  refine Eq.trans key ?_
  rw [← QLPeps.Bmps.cut_left hl hfit r 0 hrows (by omega) hcols, cut_zero hl.shaped hn r hrows hcols]

/-- **C143.** The row of the network itself: the amplitude of the network. -/
theorem C143_row_amplitude {lib : Lib 𝕜} (hl : QLPeps.Bmps.Spec.Lossless lib) (t : Site → Tn 𝕜)
    (dim : Bond .obc rows cols → ℕ) (hfit : QLPeps.Bmps.Spec.Fits t dim) (c : Ctr (List (Tn 𝕜)) (Tn 𝕜) (Tn 𝕜))
    (hf : Fresh (QLPeps.Bmps.tensorOps lib rows cols) rows cols t c) (k : ℕ) (w0 w1 : Wk (List (Tn 𝕜)) (Tn 𝕜))
    (h0 : getWalker .up c = some w0)
    (h1 : times k (evolveStep (QLPeps.Bmps.tensorOps lib rows cols) rows cols t) w0 = some w1)
    (r : ℕ) (hr : r + 1 = w1.stackSize) (hcols : 0 < cols) (mpo : List (Tn 𝕜)) (hmpo : getRow rows cols t r = some mpo)
    (opp : List (Tn 𝕜)) (hopp : (c.bmps .down)[rows - 1 - r]? = some opp) :
    contractRow mpo .down opp w1 = some (QLPeps.Bmps.Spec.value dim t) := by
  have hrr : r < rows := by
    unfold getRow at hmpo; split_ifs at hmpo with h; exact h
  obtain rfl : mpo = (List.range cols).map fun c => t (r, c) := by
    unfold getRow at hmpo; rw [if_pos hrr] at hmpo; exact (Option.some.inj hmpo).symm
  have e : (fun s : Site => if s.1 = r then t (r, s.2) else t s) = t := by
    funext s
    split
    · next h => rw [← h]
    · rfl
  have := C143_row_value hl t (fun c => t (r, c)) dim c hf k w0 w1 h0 h1 r hr hrr hcols opp hopp (e.symm ▸ hfit)
  simp only [e] at this
  exact this

/-- **C143.** Boundary MPS and rows of different lengths, empty ones, and any other pair of directions than up and down are rejected. -/
theorem C143_row_rejected (mpo : List (Tn 𝕜)) (dir : Pos) (opp : List (Tn 𝕜)) (w : Wk (List (Tn 𝕜)) C)
    (h : w.bmps = [] ∨ mpo.length ≠ w.bmps.length ∨ opp.length ≠ w.bmps.length ∨ w.pos ≠ .up ∨ dir ≠ .down) :
    contractRow mpo dir opp w = none := by
  unfold contractRow
  by_cases h1 : w.bmps.length = 0 ∨ mpo.length ≠ w.bmps.length ∨ opp.length ≠ w.bmps.length
  · exact if_pos h1
  · rw [not_or, not_or, List.length_eq_zero_iff] at h1
    simp only
    rw [if_neg (by rw [not_or, not_or, List.length_eq_zero_iff]; exact h1), if_pos (by tauto)]

/-- a nontrivial case: any tensors with bonds of dimension two on a 3×4 lattice, `Init`, the lower boundary MPS grown to the top, a
walker in the second row -/
example (f : Site → List ℕ → ℂ) (c : Ctr (List (Tn ℂ)) (Tn ℂ) (Tn ℂ)) (g : ℕ → List ℕ → ℂ) :
    ∃ c' w0 w1 opp, growFullBMPS (QLPeps.Bmps.tensorOps QLPeps.Peps.idLib 3 4) 3 4 (QLPeps.Bmps.twoNet 3 4 f) .down
        (init (QLPeps.Bmps.tensorOps QLPeps.Peps.idLib 3 4) c) = some c' ∧
      getWalker .up c' = some w0 ∧
      evolveStep (QLPeps.Bmps.tensorOps QLPeps.Peps.idLib 3 4) 3 4 (QLPeps.Bmps.twoNet 3 4 f) w0 = some w1 ∧
      (c'.bmps .down)[1]? = some opp ∧
      contractRow ((List.range 4).map fun k => QLPeps.Bmps.twoNet 3 4 (fun s => g s.2) (1, k)) .down opp w1 =
        some (QLPeps.Bmps.Spec.value (rows := 3) (cols := 4) QLPeps.Bmps.twoDim
          (QLPeps.Bmps.twoNet 3 4 fun s => if s.1 = 1 then g s.2 else f s)) := by
  set o := QLPeps.Bmps.tensorOps (𝕜 := ℂ) QLPeps.Peps.idLib 3 4
  set t := QLPeps.Bmps.twoNet 3 4 f
  have hgrow := growFull_fresh o 3 4 t .down (init o c) 1 (by simp [init, stack, env]) le_rfl (by simp [span])
  have hfr : Fresh o 3 4 t (setB (init o c) .down (stack o 3 4 t .down (span 3 4 .down))) := by
    intro p
    by_cases hp : p = .down
    · subst hp
      rw [setB_same]
      refine ⟨by simp [stack, span], by simp [stack], fun k b h => ?_⟩
      simp only [stack, List.getElem?_map, Option.map_eq_some_iff] at h
      obtain ⟨j, hj, rfl⟩ := h
      rw [List.getElem?_range (by by_contra hh; rw [List.getElem?_eq_none (by simpa using hh)] at hj; cases hj)] at hj
      rw [Option.some.inj hj]
    · have : (setB (init o c) .down (stack o 3 4 t .down (span 3 4 .down))).bmps p = [env o 3 4 t p 0] := by
        simp [setB, Function.update_of_ne hp, init, env]
      rw [this]
      refine ⟨le_rfl, by cases p <;> simp [span], fun k b h => ?_⟩
      rcases k with _ | k
      · exact (Option.some.inj h).symm
      · simp at h
  obtain ⟨w0, w1, e0, e1, hs, -⟩ := C129_walker_steps o 3 4 t _ hfr .up 1 (by simp)
  have e : (fun s : Site => if s.1 = 1 then QLPeps.Bmps.twoNet 3 4 (fun s => g s.2) (1, s.2) else t s) =
      QLPeps.Bmps.twoNet 3 4 fun s => if s.1 = 1 then g s.2 else f s := by
    funext s
    obtain ⟨a, b⟩ := s
    by_cases h : a = 1
    · subst h; rfl
    · simp only [h, if_false, t, QLPeps.Bmps.twoNet]
  refine ⟨_, w0, w1, env o 3 4 t .down 1, hgrow, e0, ?_, ?_, ?_⟩
  · simpa [times, List.range_succ] using e1
  · rw [setB_same]; rfl
  · rw [← e]
    refine C143_row_value QLPeps.Bmps.idLib_lossless t _ _ _ hfr 1 w0 w1 e0 e1 1 ?_ (by omega) (by omega) _ ?_ (e.symm ▸ QLPeps.Bmps.twoNet_fits _)
    · rw [hs]; rfl
    · rw [setB_same]; rfl

end

end QLPeps.Walker
