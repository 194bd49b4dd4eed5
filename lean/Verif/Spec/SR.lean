import Verif.Model.SR

/-! Specification vocabulary for stochastic reconfiguration. -/

namespace QLPeps.SR

variable {𝕜 : Type*} [RCLike 𝕜] {V : Type*} [NormedAddCommGroup V] [InnerProductSpace 𝕜 V]

/-- Sample mean. -/
noncomputable def mean (𝕜 : Type*) [RCLike 𝕜] {V : Type*} [NormedAddCommGroup V] [InnerProductSpace 𝕜 V]
    (s : Multiset V) : V := ((s.card : 𝕜)⁻¹) • s.sum

/-- Covariance of the samples applied to `v`: the average of `⟨o - mean, v⟩ (o - mean)`. -/
noncomputable def cov (𝕜 : Type*) [RCLike 𝕜] {V : Type*} [NormedAddCommGroup V] [InnerProductSpace 𝕜 V]
    (s : Multiset V) (v : V) : V :=
  ((s.card : 𝕜)⁻¹) • (s.map fun o => inner 𝕜 (o - mean 𝕜 s) v • (o - mean 𝕜 s)).sum

/-- All samples of all processes. -/
def all {P : ℕ} (samples : Fin P → List V) : Multiset V := ∑ r, (samples r : Multiset V)

/-- `w` is the matrix-vector product of the distributed S matrix: the sum over all processes of what each
computes, process 0 being the one that holds the mean of all samples. -/
def Applied {P : ℕ} (samples : Fin P → List V) (shift : 𝕜) (v w : V) : Prop :=
  ∃ res : Fin P → V,
    (∀ r, applyLocal (samples r) (if r.val = 0 then some (mean 𝕜 (all samples)) else none)
      (meanDot (mean 𝕜 (all samples)) v) P shift v = some (res r)) ∧ w = ∑ r, res r

/-- Process `r` holds the samples `o r 0, …, o r (B-1)`. -/
def samplesOf (o : ℕ → ℕ → V) (B r : ℕ) : List V := (List.range B).map (o r)

/-- States of the ring exchange reachable under any MPI implementation. -/
def RingReachable (ip : V → V → 𝕜) (P B : ℕ) (o : ℕ → ℕ → V) (g : Ring V 𝕜) : Prop :=
  Relation.ReflTransGen (Step ip P B (samplesOf o B)) (Ring.init ip B (samplesOf o B)) g

/-- Every process has finished its rounds. -/
def RingDone (P B : ℕ) (g : Ring V 𝕜) : Prop := ∀ r < P, nextOp P B r (g.rank r) = .done

/-- Mean of all samples of all processes. -/
noncomputable def ringMean (𝕜 : Type*) [RCLike 𝕜] {V : Type*} [NormedAddCommGroup V] [InnerProductSpace 𝕜 V]
    (P B : ℕ) (o : ℕ → ℕ → V) : V :=
  (((P * B : ℕ) : 𝕜)⁻¹) • ∑ r ∈ Finset.range P, ∑ i ∈ Finset.range B, o r i

section family
variable {ι : Type*} [Fintype ι]

/-- The samples of a family as a multiset. -/
def samplesSet (O : ι → V) : Multiset V := (Finset.univ : Finset ι).val.map O

/-- The centred Gram matrix. -/
noncomputable def gram (𝕜 : Type*) [RCLike 𝕜] {V : Type*} [NormedAddCommGroup V] [InnerProductSpace 𝕜 V]
    (O : ι → V) (i j : ι) : 𝕜 :=
  inner 𝕜 (O i - mean 𝕜 (samplesSet O)) (O j - mean 𝕜 (samplesSet O)) / (Fintype.card ι : 𝕜)

/-- The energy gradient estimated from samples: the average of `conj(E_i - mean E) O_i`. -/
noncomputable def gradEstimate (E : ι → 𝕜) (O : ι → V) : V :=
  ((Fintype.card ι : 𝕜)⁻¹) • ∑ i, (starRingEnd 𝕜) (E i - (∑ j, E j) / (Fintype.card ι : 𝕜)) • O i

/-- What LAPACK is trusted to return: an orthonormal basis of eigenvectors of `T`. -/
structure Eigen [DecidableEq ι] (T : ι → ι → 𝕜) (lam : ι → ℝ) (z : ι → ι → 𝕜) : Prop where
  orth : ∀ k l, ∑ i, (starRingEnd 𝕜) (z k i) * z l i = if k = l then 1 else 0
  eig : ∀ k i, ∑ j, T i j * z k j = (lam k : 𝕜) * z k i

/-- The MinSR direction computed from the eigendecomposition `lam, z`
(`CalculateMinSRDirection_`, optimizer_impl.h:1127-1207, with the mean energy and mean tensor). -/
noncomputable def minsrDirection (O : ι → V) (E : ι → 𝕜) (z : ι → ι → 𝕜) (lamPlus : ι → ℝ) : V :=
  backSubst O (mean 𝕜 (samplesSet O))
    (eigenSolve z lamPlus (epsilonBar E ((∑ j, E j) / (Fintype.card ι : 𝕜))))

end family
end QLPeps.SR
