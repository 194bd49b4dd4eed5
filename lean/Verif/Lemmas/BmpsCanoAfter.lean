import Verif.Lemmas.BmpsCanoCalls

/-! # Canonical forms of a boundary MPS: after a history of calls -/

namespace QLPeps.BmpsCano

open QLPeps.Contractor QLPeps.Bmps QLPeps.Box QLPeps.BmpsCano.Spec
open QLPeps.BmpsVar (amp_eq isMps_iff sumCoors_box)
open QLPeps.Peps (Tn Lib contractN transpose norm2 sumCoors)
open QLPeps.BmpsVar.Spec (Factorizations Keeps amp normSq IsMps IsMpo inOrder overlap)


noncomputable section

variable {𝕜 : Type*} [RCLike 𝕜] {fac : Facs 𝕜} {ds : List ℕ}

theorem history (hg : Good fac) {o : Obj 𝕜} (hf : Fresh ds o) (hN : 0 < o.tens.length) (hne : normSq ds (fun xs => amp o.tens xs 0) ≠ 0)
    {hs : List Call} (hin : ∀ q ∈ hs, InRange o.tens.length q) (hp : Plain hs ∨ Whole hs) :
    ∃ o', calls fac hs o = some o' ∧ Inv Trusted o.tens.length o' (after hs ds o) := by
  obtain ⟨f1, f2, -⟩ := fresh_cases hf
  have hv : ∀ xs ∈ box ds, mv o.tens xs 0 = amp o.tens xs 0 := fun xs _ => (amp_eq _ _ _).symm
  rcases hp with hp | hp
  · obtain ⟨o', a1, a2⟩ := inv_calls (fac := fac) (P := Truthful) (N := o.tens.length)
      (Q := fun q => InRange o.tens.length q ∧ q ≠ .reverse ∧ ∀ te dmin dmax i, q ≠ .truncate te dmin dmax i)
      (fun o s q h hq => inv_truthful hg h hq.1 hq.2.1 hq.2.2) hs o (ds, fun xs => amp o.tens xs 0)
      ⟨f1, hv, rfl, f2, hN, hne, fresh_truthful hf⟩ fun q hq => ⟨hin q hq, hp q hq⟩
    exact ⟨o', a1, a2.shp, a2.val, a2.len, a2.clen, a2.pos, a2.ne, a2.inv.trusted⟩
  · obtain ⟨o', a1, a2⟩ := inv_calls (fac := fac) (P := fun o => Held o ∨ Unmarked o) (N := o.tens.length)
      (Q := fun q => InRange o.tens.length q ∧ ((∃ c, q = .centralize c) ∨ (∃ n, q = .entropy n) ∨ q = .reverse))
      (fun o s q h hq => inv_held hg h hq.1 hq.2) hs o (ds, fun xs => amp o.tens xs 0)
      ⟨f1, hv, rfl, f2, hN, hne, fresh_held hN hf⟩ fun q hq => ⟨hin q hq, hp q hq⟩
    exact ⟨o', a1, a2.shp, a2.val, a2.len, a2.clen, a2.pos, a2.ne, a2.inv.elim held_trusted unmarked_trusted⟩

theorem represents {P : Obj 𝕜 → Prop} {N : ℕ} {o : Obj 𝕜} {s : List ℕ × (List ℕ → 𝕜)} (h : Inv P N o s) : Represents o s :=
  ⟨(isMps_iff _ _ _).2 h.shp, fun xs hx => by rw [amp_eq]; exact h.val xs (mem_box.2 hx)⟩

theorem sum_box_append (as : List ℕ) : ∀ (bs : List ℕ) (f : List ℕ → ℝ), ∑ z ∈ box (as ++ bs), f z = ∑ x ∈ box as, ∑ y ∈ box bs, f (x ++ y) := by
  induction as with
  | nil => intro bs f; simp [sum_box_nil]
  | cons a as ih => intro bs f; simp [sum_box_cons, ih]

theorem trace_reduced (i : ℕ) (φ : List ℕ → 𝕜) :
    Spec.trace (ds.take i) (power (ds.take i) (reduced (ds.drop i) φ) 1) = ((normSq ds φ : ℝ) : 𝕜) := by
  have : normSq ds φ = ∑ x ∈ box (ds.take i), ∑ y ∈ box (ds.drop i), ‖φ (x ++ y)‖ ^ 2 := by
    rw [← sum_box_append _ _ (fun z => ‖φ z‖ ^ 2), List.take_append_drop, normSq, sumCoors_box]
  rw [this, Spec.trace, sumCoors_box]
  push_cast
  refine Finset.sum_congr rfl fun x hx => ?_
  rw [power, sumCoors_box]
  simp only [power, ite_mul, one_mul, zero_mul, Finset.sum_ite_eq, hx, if_true, reduced]
  rw [sumCoors_box]
  exact Finset.sum_congr rfl fun y _ => by rw [RCLike.mul_conj]

end

end QLPeps.BmpsCano
