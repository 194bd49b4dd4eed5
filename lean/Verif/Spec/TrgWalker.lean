import Verif.Model.TrgWalker

/-!
# Specification: the components a periodic simulation goes through
-/

namespace QLPeps.TrgWalker.Spec

open QLPeps.Trg QLPeps.Peps

noncomputable section

variable {𝕜 : Type} [RCLike 𝕜] [DecidableEq 𝕜]

/-- `w` has come out of the constructor and any number of updates at sites of the lattice, with any random numbers, and
evaluations of the energy. -/
inductive Reached (o : Ops (Tn 𝕜) (Tn 𝕜) (Iso 𝕜) 𝕜) (n : ℕ) (sitps : Site → ℕ → Tn 𝕜) (ab : 𝕜 → ℝ) :
    Comp (Tn 𝕜) (Tn 𝕜) (Iso 𝕜) 𝕜 → Prop
  | create {c : Config} {d : ℕ} {w} (h : create o n n sitps c d = .ok w) : Reached o n sitps ab w
  | exchange {w} {ξ : ℕ → ℝ} {s1 s2 : Site} {w' b} (hw : Reached o n sitps ab w) (h1 : s1.1 < n ∧ s1.2 < n)
      (h2 : s2.1 < n ∧ s2.2 < n) (h : exchange o sitps ab ξ s1 s2 w = .ok (w', b)) : Reached o n sitps ab w'
  | space {w} {ξ : ℕ → ℝ} {dim : ℕ} {s1 s2 : Site} {w' b} (hw : Reached o n sitps ab w) (h1 : s1.1 < n ∧ s1.2 < n)
      (h2 : s2.1 < n ∧ s2.2 < n) (h : space o sitps ab ξ dim s1 s2 w = .ok (w', b)) : Reached o n sitps ab w'
  | energy {w} {jz jxy jz2 jxy2 pin : 𝕜} {holes : Bool} {r} (hw : Reached o n sitps ab w)
      (h : xxz o jz jxy jz2 jxy2 pin holes sitps w = .ok r) : Reached o n sitps ab r.comp
  | ising {w} {f : 𝕜} {holes : Bool} {r} (hw : Reached o n sitps ab w)
      (h : tfim o f holes sitps w = .ok r) : Reached o n sitps ab r.comp

end

end QLPeps.TrgWalker.Spec
