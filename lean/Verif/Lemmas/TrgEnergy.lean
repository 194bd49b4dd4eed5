import Verif.Lemmas.TrgWalker
import Verif.Lemmas.EnergyMore

/-!
# The periodic solvers on the TRG contractor
-/

namespace QLPeps.Trg

open QLPeps.Peps (Tn Diag Lib contractN)
open QLPeps.Peps.Spec (Exact)
open QLPeps.Tps.Spec (Bond)
open Spec

noncomputable section

variable {𝕜 : Type} [RCLike 𝕜]

/-- sides 2 and 3 are contracted exactly -/
theorem small_amp {lib : Lib 𝕜} {e τ : ℝ} {g : Trg (Tn 𝕜) (Tn 𝕜) (Iso 𝕜)} {tn : Net (Tn 𝕜)}
    (hg : Holds (tensorOps lib e τ) g tn) (hside : tn.cols = 2 ∨ tn.cols = 3)
    {dim : Bond .pbc tn.cols tn.cols → ℕ} (hf : Spec.Fits tn.cols tn.ten dim) :
    ampOf (tensorOps lib e τ) tn = Spec.value tn.cols dim tn.ten := by
  obtain ⟨f0, r0, f, r, e0, s1, s2, s3, s4⟩ := hg.scales
  have hfT := fits_tens hf
  have hamp : ampOf (tensorOps lib e τ) tn = topAmp (tensorOps lib e τ) tn.cols 0 f r (tensOf tn) := by
    unfold ampOf
    rw [e0]
    dsimp only
    rw [s1.topAmp s2]
  rw [hamp, ← tvalue_eq (tensOf tn) tn.ten dim (tensOf_nid tn)]
  have hz : r0 = [] ∧ f0.size = tn.cols * tn.cols := by
    rw [topo_small (by omega), Except.ok.injEq, List.cons.injEq] at e0
    obtain ⟨rfl, rfl⟩ := e0
    exact ⟨rfl, rfl⟩
  obtain ⟨rfl, hz⟩ := hz
  cases s2
  rcases hside with hc | hc
  · rw [hc] at hz
    rw [topAmp, if_neg (by rw [← s1.size, hz]; omega), if_pos (by rw [← s1.size, hz])]
    change final2 _ _ _ _ = _
    clear hamp s4
    generalize tensOf tn = t at *
    generalize tn.cols = n at *
    subst hc
    exact final2_value hfT
  · rw [hc] at hz
    rw [topAmp, if_neg (by rw [← s1.size, hz]; omega), if_neg (by rw [← s1.size, hz]; omega), fin3_eq]
    clear hamp s4
    generalize tensOf tn = t at *
    generalize tn.cols = n at *
    subst hc
    exact final3_value hfT

theorem contract_all {h x : Tn 𝕜} {a b c d : ℕ} (hh : h.shape = [a, b, c, d]) (hx : x.shape = [a, b, c, d]) :
    (contractN h [0, 1, 2, 3] x [0, 1, 2, 3]).elem [] = pair h x := by
  obtain ⟨hs, he⟩ := h
  obtain ⟨xs, xe⟩ := x
  obtain rfl : hs = _ := hh
  obtain rfl : xs = _ := hx
  rfl

end

end QLPeps.Trg

namespace QLPeps.TrgWalker

open QLPeps.Trg QLPeps.Trg.Spec QLPeps.Updaters QLPeps.Sweep
open QLPeps.Peps (Tn Lib)
open QLPeps.Energy

noncomputable section

variable {𝕜 : Type} [RCLike 𝕜] {n : ℕ} (hn : Supported n) (sitps : Site → ℕ → Tn 𝕜)

theorem setSite_update (c : Config) (s : Site) (v : ℕ) : setSite c s v = Function.update c s v := by
  funext t
  unfold setSite
  by_cases h : t = s
  · subst h; simp
  · rw [if_neg h, Function.update_of_ne h]

theorem foldlM_ok {α β : Type} (f : α → β → Except Fail α) (g : α → β → α) (l : List β)
    (h : ∀ b ∈ l, ∀ a, f a b = .ok (g a b)) (a : α) : l.foldlM f a = .ok (l.foldl g a) := by
  induction l generalizing a with
  | nil => rfl
  | cons b l ih =>
    rw [List.foldlM_cons, h b (by simp), List.foldl_cons]
    exact ih (fun b hb => h b (by simp [hb])) _

section
variable {P I : Type} (o : Ops (Tn 𝕜) P I 𝕜)
include hn

theorem coupling_ok {w : Comp (Tn 𝕜) P I 𝕜} (hg : Good o n sitps w) (inv jz jxy : 𝕜) {a b : Site} (ha : a.1 < n ∧ a.2 < n)
    (hb : b.1 < n ∧ b.2 < n) :
    coupling o sitps w.env.1 w.config inv jz jxy a b =
      .ok (pbcValue jz jxy w.config a b inv ((QLPeps.Spec.exact (psi o n sitps) w.config).ex a b)) := by
  unfold coupling
  by_cases h : w.config a ≠ w.config b
  · rw [if_pos h]
    have hh := hg.holds
    rw [hg.tn] at hh
    rw [Holds.evaluate o (okNet sitps hn w.config) hh [(a, sitps a (w.config b)), (b, sitps b (w.config a))] (by
      intro y hy
      simp only [List.mem_cons, List.not_mem_nil, or_false] at hy
      rcases hy with rfl | rfl
      · exact ha
      · exact hb), sets_two, setSite_update, setSite_update]
    rfl
  · rw [if_neg h]
    unfold pbcValue
    rw [if_neg h, if_neg h]

theorem bonds_ok [DecidableEq 𝕜] {w : Comp (Tn 𝕜) P I 𝕜} (hg : Good o n sitps w) (inv jz jxy jz2 jxy2 : 𝕜) (nnn : Bool) :
    (pbcBonds n n nnn).foldlM (addBond o sitps w.env.1 w.config inv jz jxy jz2 jxy2) 0 =
      .ok ((pbcBonds n n nnn).foldl (fun e b =>
        e + pbcBondValue jz jxy jz2 jxy2 (QLPeps.Spec.exact (psi o n sitps) w.config) w.config inv b) 0) := by
  refine foldlM_ok _ _ _ (fun b hb e => ?_) 0
  have hb' := mem_pbcBonds.1 hb
  have ha : b.a.1 < n ∧ b.a.2 < n := mem_sites.1 hb'.1
  have hB : b.b.1 < n ∧ b.b.2 < n := by
    have h0 : 0 < n := by omega
    rcases hb'.2 with h | h | ⟨-, h | h⟩ <;> rw [h]
    · exact ⟨ha.1, Nat.mod_lt _ h0⟩
    · exact ⟨Nat.mod_lt _ h0, ha.2⟩
    · exact ⟨Nat.mod_lt _ h0, Nat.mod_lt _ h0⟩
    · exact ⟨Nat.mod_lt _ h0, Nat.mod_lt _ h0⟩
  unfold addBond pbcBondValue
  rw [coupling_ok hn sitps o hg _ _ _ ha hB, coupling_ok hn sitps o hg _ _ _ ha hB]
  cases b.kind <;> rfl

end

section
variable (o : Ops (Tn 𝕜) (Tn 𝕜) (Iso 𝕜) 𝕜) {w : Comp (Tn 𝕜) (Tn 𝕜) (Iso 𝕜) 𝕜} (hg : Good o n sitps w)
include hn hg

theorem solver_trace : trace o (setParams w.env.1) w.env.2 = .ok (w.env.1, psi o n sitps w.config) := by
  rw [setParams_eq hg.holds.params, hg.tn]
  have hh := hg.holds
  rw [hg.tn] at hh
  exact Holds.trace o (okNet sitps hn w.config) hh

theorem xxz_comp [DecidableEq 𝕜] {jz jxy jz2 jxy2 pin : 𝕜} {holes : Bool} {r : Solved (Tn 𝕜) (Tn 𝕜) (Iso 𝕜) 𝕜}
    (h : xxz o jz jxy jz2 jxy2 pin holes sitps w = .ok r) : r.comp = w := by
  unfold xxz at h
  dsimp only at h
  rw [solver_trace hn sitps o hg, if_neg (by rw [hg.tn]; simp [projected])] at h
  dsimp only at h
  generalize (if holes then (daggedHoles w.env.1 w.env.2).map some else .ok none) = y at h
  cases y with
  | error e => exact absurd h (by simp)
  | ok y =>
    dsimp only at h
    split at h
    · exact absurd h (by simp)
    · rw [Except.ok.injEq] at h
      rw [← h]

theorem tfim_comp {f : 𝕜} {holes : Bool} {r : Solved (Tn 𝕜) (Tn 𝕜) (Iso 𝕜) 𝕜}
    (h : tfim o f holes sitps w = .ok r) : r.comp = w := by
  unfold tfim at h
  dsimp only at h
  rw [solver_trace hn sitps o hg, if_neg (by rw [hg.tn]; simp [projected])] at h
  dsimp only at h
  split at h
  · exact absurd h (by simp)
  · split at h
    · exact absurd h (by simp)
    · rw [Except.ok.injEq] at h
      rw [← h]

theorem xxz_ok [DecidableEq 𝕜] (jz jxy jz2 jxy2 pin : 𝕜) :
    xxz o jz jxy jz2 jxy2 pin false sitps w =
      .ok ⟨pbcEnergy jz jxy jz2 jxy2 pin (QLPeps.Spec.exact (psi o n sitps) w.config) w.config n n,
        [psi o n sitps w.config], none, w⟩ := by
  unfold xxz
  dsimp only
  rw [solver_trace hn sitps o hg, if_neg (by rw [hg.tn]; simp [projected])]
  dsimp only
  rw [if_neg (by simp)]
  dsimp only
  rw [show w.env.2.rows = n by rw [hg.tn]; rfl, show w.env.2.cols = n by rw [hg.tn]; rfl,
    bonds_ok hn sitps o hg]
  rfl

theorem xxz_holes [DecidableEq 𝕜] (jz jxy jz2 jxy2 pin : 𝕜) {H : ℕ → ℕ → Tn 𝕜}
    (hH : punchAllHoles w.env.1 w.env.2 = .ok H) :
    xxz o jz jxy jz2 jxy2 pin true sitps w =
      .ok ⟨pbcEnergy jz jxy jz2 jxy2 pin (QLPeps.Spec.exact (psi o n sitps) w.config) w.config n n,
        [psi o n sitps w.config], some fun r c => QLPeps.Peps.dag (H r c), w⟩ := by
  unfold xxz
  dsimp only
  rw [solver_trace hn sitps o hg, if_neg (by rw [hg.tn]; simp [projected])]
  dsimp only
  rw [if_pos rfl]
  unfold daggedHoles
  rw [hH]
  dsimp only [Except.map]
  rw [show w.env.2.rows = n by rw [hg.tn]; rfl, show w.env.2.cols = n by rw [hg.tn]; rfl,
    bonds_ok hn sitps o hg]
  rfl

/-- the energy of the Ising solver, for whatever the holes give -/
theorem tfim_ok (h : 𝕜) (holes : Bool) {H : ℕ → ℕ → Tn 𝕜} (hH : punchAllHoles w.env.1 w.env.2 = .ok H)
    (h2 : ∀ s : Site, s.1 < n ∧ s.2 < n → w.config s ≤ 1) (x : Site → 𝕜)
    (hx : ∀ s : Site, s.1 < n ∧ s.2 < n →
      (QLPeps.Peps.contractN (H s.1 s.2) [0, 1, 2, 3] (sitps s (1 - w.config s)) [0, 1, 2, 3]).elem [] = x s) :
    ∃ r, tfim o h holes sitps w = .ok r ∧ r.psi = [psi o n sitps w.config] ∧ r.comp = w ∧
      r.holes = (if holes then some fun r c => QLPeps.Peps.dag (H r c) else none) ∧
      r.energy = isingDiag w.config n n +
        (allSites n n).foldl (fun e s => e + tfimFlip h (1 / psi o n sitps w.config) (x s)) 0 := by
  have hf := foldlM_ok (addField sitps H w.config h (1 / psi o n sitps w.config))
    (fun e s => e + tfimFlip h (1 / psi o n sitps w.config) (x s)) (allSites n n) (fun s hs e => by
      have hs' : s.1 < n ∧ s.2 < n := mem_sites.1 (mem_allSites.1 hs)
      unfold addField
      rw [if_neg (by have := h2 s hs'; omega)]
      dsimp only
      rw [hx s hs']) 0
  refine ⟨⟨isingDiag w.config n n +
        (allSites n n).foldl (fun e s => e + tfimFlip h (1 / psi o n sitps w.config) (x s)) 0, [psi o n sitps w.config],
      (if holes then some fun r c => QLPeps.Peps.dag (H r c) else none), w⟩, ?_, rfl, rfl, rfl, rfl⟩
  unfold tfim
  dsimp only
  rw [solver_trace hn sitps o hg, if_neg (by rw [hg.tn]; simp [projected])]
  dsimp only
  rw [hH]
  dsimp only
  rw [show w.env.2.rows = n by rw [hg.tn]; rfl, show w.env.2.cols = n by rw [hg.tn]; rfl, hf]

end

theorem set_projected (c : Config) (s : Site) (k : ℕ) :
    Net.set (projected n n sitps c) s.1 s.2 (sitps s k) = projected n n sitps (Function.update c s k) := by
  unfold Net.set projected
  dsimp only
  congr 1
  funext r' c'
  by_cases h : (r', c') = s
  · subst h; simp
  · rw [if_neg fun h' => h (Prod.ext h'.1 h'.2), Function.update_of_ne h]

end

end QLPeps.TrgWalker
