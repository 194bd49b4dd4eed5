import Verif.Model.CG

/-! Specification vocabulary for the conjugate-gradient theorems. -/

namespace QLPeps.CG

variable {V K R : Type*} {n : ℕ}

/-- The points the serial loop moved through after the initial guess, up to but not including the point of
the iteration that returned. -/
def visited (o : Ops V K R) (A : V → V) (pr : Params R) (tol : R) (b : V) : ℕ → ℕ → St V R → List V
  | 0, _, _ => []
  | n + 1, k, s =>
    match iter o A pr tol b k s with
    | .inl _ => []
    | .inr s' => s'.x :: visited o A pr tol b n (k + 1) s'

/-- All points whose residual the serial solver evaluated before the returning iteration. -/
def iterates (o : Ops V K R) (A : V → V) (b x0 : V) (pr : Params R) : List V :=
  x0 :: visited o A pr (tolSq o pr b) b pr.maxIter 0 (initSt x0 (o.sub b (A x0)) (o.normSq (o.sub b (A x0))))

/-- Executions of exactly `m` steps of the distributed system, under any MPI implementation. -/
inductive Path (o : Ops V K R) (A0 : V → V) (A : Fin n → V → V) (a : Sys n V R) : ℕ → Sys n V R → Prop
  | nil : Path o A0 A a 0 a
  | snoc {m b c} (h : Path o A0 A a m b) (hs : Step o A0 A b c) : Path o A0 A a (m + 1) c

/-- The solver has returned on every process, nothing is in flight, and every slave performed as many
products as the master. -/
def Finished (a : Sys n V R) : Prop :=
  (∃ res, a.m = .run (.ret res)) ∧
  ∀ i, (a.s i).pc = .done ∧ (a.s i).queue = [] ∧ (a.s i).mail = [] ∧ (a.s i).products = a.products

end QLPeps.CG
