import Verif.Lemmas.TrgValue
import Verif.Props.Trg
import Verif.Props.Peps

/-!
# Property C110: TRG contraction without truncation is exact
-/

namespace QLPeps.Trg

open QLPeps.Peps (Tn Lib)
open QLPeps.Peps.Spec (Exact SvdNonNeg)
open QLPeps.Tps.Spec (Bond)
open Spec

noncomputable section

variable {𝕜 : Type} [RCLike 𝕜]

/-- **C110.** For every periodic square network of a supported size whose tensors fit together, `Init` and `Trace`
succeed, and if none of the splittings now in the caches discarded anything, the amplitude returned is the value of
the network: the sum over all bonds of the product of the tensor elements. -/
theorem C110_exact {lib : Lib 𝕜} (he : Exact lib) (hs : SvdNonNeg lib) (relEps tiny : ℝ)
    (g : Trg (Tn 𝕜) (Tn 𝕜) (Iso 𝕜)) (hp : g.hasParams = true) (tn : Net (Tn 𝕜)) (hper : tn.periodic = true)
    (hsq : tn.rows = tn.cols) (hsup : Supported tn.cols) {dim : Bond .pbc tn.cols tn.cols → ℕ}
    (hf : Fits tn.cols tn.ten dim) :
    ∃ g' a, trace (tensorOps lib relEps tiny) (init g tn).1 tn = .ok (g', a) ∧
      (Untruncated lib g' → a = value tn.cols dim tn.ten) := by
  have hn : OkNet tn := ⟨hper, hsq, hsup⟩
  obtain ⟨g', e, hg'⟩ := trace_ok (tensorOps lib relEps tiny) hn g hp
  exact ⟨g', _, e, fun h0 => hg'.value he hs hn h0 hf⟩

/-- **C110.** The same for the amplitudes of trials and evaluations, after any history: the amplitude is the value of
the network asked for, if a contraction of that network from scratch discards nothing. -/
theorem C110_history {lib : Lib 𝕜} (he : Exact lib) (hs : SvdNonNeg lib) (relEps tiny : ℝ)
    (g : Trg (Tn 𝕜) (Tn 𝕜) (Iso 𝕜)) (hp : g.hasParams = true) (tn : Net (Tn 𝕜)) (hper : tn.periodic = true)
    (hsq : tn.rows = tn.cols) (hsup : Supported tn.cols) (cs : List (Call (Tn 𝕜)))
    (hc : ∀ c ∈ cs, c.InRange tn.rows tn.cols) :
    ∃ g' a as, trace (tensorOps lib relEps tiny) (init g tn).1 tn = .ok (g', a) ∧
      run (tensorOps lib relEps tiny) g' tn cs = .ok as ∧
      List.Forall₂ (fun tn' b => ∀ dim : Bond .pbc tn'.cols tn'.cols → ℕ, Fits tn'.cols tn'.ten dim →
        ∀ g'' b', trace (tensorOps lib relEps tiny) (init (blank tn'.rows tn'.cols) tn').1 tn' = .ok (g'', b') →
        Untruncated lib g'' → b = value tn'.cols dim tn'.ten) (asked tn cs) as := by
  obtain ⟨-, g', a, as, h1, -, h3, h4⟩ := C109_history (tensorOps lib relEps tiny) g hp tn hper hsq hsup cs hc
  refine ⟨g', a, as, h1, h3, ?_⟩
  rw [List.forall₂_iff_get]
  have hlen : (asked tn cs).length = as.length := by simpa using congrArg List.length h4
  refine ⟨hlen, fun k hk hk' dim hf g'' b' hb h0 => ?_⟩
  have hfr : fresh (tensorOps lib relEps tiny) ((asked tn cs).get ⟨k, hk⟩) = .ok (as.get ⟨k, hk'⟩) := by
    have := congrArg (·[k]?) h4
    simpa [hk, hk'] using this
  generalize (asked tn cs).get ⟨k, hk⟩ = tn' at *
  generalize as.get ⟨k, hk'⟩ = b at *
  unfold fresh at hfr
  rcases hi : init (blank tn'.rows tn'.cols : Trg (Tn 𝕜) (Tn 𝕜) (Iso 𝕜)) tn' with ⟨g1, x⟩
  rw [hi] at hfr hb
  rcases x with x | x
  · simp at hfr
  · have hok := (C108_init (blank tn'.rows tn'.cols : Trg (Tn 𝕜) (Tn 𝕜) (Iso 𝕜)) tn').1.1 (by rw [hi])
    dsimp only at hfr hb
    rw [hb] at hfr
    rw [Except.ok.injEq] at hfr
    obtain ⟨g2, b2, e2, hv⟩ := C110_exact he hs relEps tiny (blank tn'.rows tn'.cols) rfl tn' hok.1 hok.2.1 hok.2.2 hf
    rw [hi] at e2
    dsimp only at e2
    rw [hb, Except.ok.injEq, Prod.mk.injEq] at e2
    obtain ⟨rfl, rfl⟩ := e2
    rw [← hfr]
    exact hv h0

/-- a network of side 6 with bonds of dimension two -/
def net6 : Net (Tn ℝ) :=
  ⟨6, 6, true, fun r c => ⟨[2, 2, 2, 2], fun x => (x.getD 0 0 : ℝ) + r * x.getD 1 0 - c * x.getD 2 0 + 2 * x.getD 3 0⟩⟩

theorem idLib_nonneg : SvdNonNeg (QLPeps.Peps.idLib : Lib 𝕜) := fun _ _ _ _ => zero_le_one

/-- the hypotheses are met, and the conclusion holds, with exact factorizations on a `6 × 6` network (two
coarse-graining steps, then the final `3 × 3` contraction) -/
example : ∃ g' a, trace (tensorOps QLPeps.Peps.idLib 0 0) (init (blank 0 0) net6).1 net6 = .ok (g', a) ∧
    a = value 6 (fun _ => 2) net6.ten := by
  obtain ⟨g', a, h, hv⟩ := C110_exact QLPeps.Peps.idLib_exact idLib_nonneg 0 0 (blank 0 0) rfl net6 rfl rfl
    ⟨1, Or.inr rfl⟩ (dim := fun _ => 2) (fun _ => rfl)
  exact ⟨g', a, h, hv fun _ _ _ _ _ _ _ => rfl⟩

end

end QLPeps.Trg
