import Verif.Model.Measurer

/-!
# Specification of a measurement run

What the samples of a process are, independently of the other processes, of signals and of MPI.
-/

namespace QLPeps.Measurer

open QLPeps.Observables

variable {Ω 𝕜 : Type*} {n : ℕ}

/-- the engine of a process after `k` samples -/
def engAfter (E : Env Ω 𝕜) (w : Ω) : ℕ → Ω
  | 0 => w
  | k + 1 => (E.observe (E.sweep (engAfter E w k)).1).1

/-- what the solver returns for sample `k` -/
def sampleAt (E : Env Ω 𝕜) (w : Ω) (k : ℕ) : ObsMap 𝕜 × Option (Psi.Summary 𝕜) :=
  (E.observe (E.sweep (engAfter E w k)).1).2

/-- the acceptance rates of sweep `k` -/
def ratesAt (E : Env Ω 𝕜) (w : Ω) (k : ℕ) : List ℝ := (E.sweep (engAfter E w k)).2

/-- all processes insert the same keys -/
structure SameKeys (E : Env Ω 𝕜) (r0 : Fin (n + 1) → Rank Ω 𝕜) : Prop where
  observe : ∀ x y : Ω, (E.observe x).2.1.map Prod.fst = (E.observe y).2.1.map Prod.fst
  before : ∀ i, (r0 i).samples.map (fun o => o.map Prod.fst)
    = (r0 0).samples.map (fun o => o.map Prod.fst)

/-- all samples have the same keys in the same order, with the same numbers of values: `sk` -/
structure SameShape (E : Env Ω 𝕜) (r0 : Fin (n + 1) → Rank Ω 𝕜) (before : ℕ) (sk : List (String × ℕ)) :
    Prop where
  nodup : (sk.map Prod.fst).Nodup
  observe : ∀ x : Ω, (E.observe x).2.1.map (fun e => (e.1, e.2.length)) = sk
  shape : ∀ i, ∀ o ∈ (r0 i).samples, o.map (fun e => (e.1, e.2.length)) = sk
  number : ∀ i, (r0 i).samples.length = before

/-- paths of a given length -/
inductive Path {α : Type*} (R : α → α → Prop) : ℕ → α → α → Prop
  | nil (a) : Path R 0 a a
  | snoc {k a b c} : Path R k a b → R b c → Path R (k + 1) a c


/-- value `j` of the observable `k` in one sample -/
def value [Zero 𝕜] (k : String) (j : ℕ) (o : ObsMap 𝕜) : 𝕜 := ((o.lookup k).getD []).getD j 0

/-- a row of psi.csv that is to be reported -/
def inconsistent (E : Env Ω 𝕜) (s : Psi.Summary 𝕜) : Prop := E.warnThreshold < s.relErr

/-- whether a process reports at all -/
def reports (E : Env Ω 𝕜) (i : Fin (n + 1)) : Prop :=
  E.warnEnabled = true ∧ (E.warnMasterOnly = false ∨ i = 0)

end QLPeps.Measurer
