import Verif.Spec.ExactRun
import Verif.Lemmas.EvaluatorDeriv
import Verif.Props.SolverRun

/-! # Helper lemmas: exact summation on the boundary-MPS contractor -/

namespace QLPeps.Evaluator

open Finset

variable {ι X : Type*} {𝕜 : Type*} [RCLike 𝕜] [DecidableEq ι]

theorem exactSum_deriv (eval : ℕ → Sample ι X 𝕜) (n size : ℕ) (hs : 0 < size) (H : ℕ → ℕ → 𝕜)
    (hH : ∀ i j, star (H i j) = H j i) (ψ0 : ℕ → 𝕜) (ha : ∀ i < n, (eval i).amplitude = ψ0 i)
    (hW : totalWeight ψ0 n ≠ 0)
    (hloc : ∀ i < n, (eval i).eloc * star (ψ0 i) = star (∑ j ∈ range n, H i j * ψ0 j)) :
    ∃ g, exactSum eval n size = some (energyOf H n ψ0, g) ∧
      ∀ (ψ : ℝ → ℕ → 𝕜) (ψ' : ℕ → 𝕜) (ℓ : Tps ι X 𝕜 →ₗ[𝕜] 𝕜), ψ 0 = ψ0 →
        (∀ i, HasDerivAt (fun t => ψ t i) (ψ' i) 0) →
        (∀ i < n, star (ψ' i) * ψ0 i = ℓ (increment (eval i))) →
        HasDerivAt (fun t => energyOf H n (ψ t)) ((2 * RCLike.re (ℓ g) : ℝ) : 𝕜) 0 := by
  have hWe : (∑ i ∈ range n, ‖(eval i).amplitude‖ ^ 2) = totalWeight ψ0 n :=
    sum_congr rfl fun i hi => by rw [ha i (mem_range.1 hi)]
  have hE : (∑ i ∈ range n, (eval i).eloc * ((‖(eval i).amplitude‖ ^ 2 : ℝ) : 𝕜))
              / ((∑ i ∈ range n, ‖(eval i).amplitude‖ ^ 2 : ℝ) : 𝕜) = energyOf H n ψ0 := by
    rw [hWe]
    unfold energyOf
    congr 1
    rw [sum_comm]
    refine sum_congr rfl fun i hi => ?_
    rw [ha i (mem_range.1 hi), normSq_eq, ← mul_assoc, hloc i (mem_range.1 hi), star_sum, sum_mul]
    refine sum_congr rfl fun j _ => ?_
    rw [star_mul', hH]; ring
  have hsum := exactSum_eq eval n size hs
  rw [hE, hWe] at hsum
  refine ⟨_, hsum, fun ψ ψ' ℓ h0 hψ hℓ => ?_⟩
  subst h0
  refine (energy_deriv H n hH ψ ψ' hψ hW).congr_deriv ?_
  congr 3
  set W : 𝕜 := ((totalWeight (ψ 0) n : ℝ) : 𝕜)
  set E : 𝕜 := energyOf H n (ψ 0)
  have hg : (fun r b x => ((∑ i ∈ range n, star (eval i).eloc * increment (eval i) r b x)
            - star E * ∑ i ∈ range n, increment (eval i) r b x)
            * ((1 / totalWeight (ψ 0) n : ℝ) : 𝕜)) =
      (1 / W) • ((∑ i ∈ range n, star (eval i).eloc • increment (eval i))
        - star E • ∑ i ∈ range n, increment (eval i)) := by
    funext r b x
    simp only [Pi.smul_apply, Pi.sub_apply, Finset.sum_apply, smul_eq_mul, W]
    rw [RCLike.ofReal_div, RCLike.ofReal_one, mul_comm]
  rw [hg, map_smul, map_sub, map_sum, map_smul, map_sum]
  simp only [map_smul, smul_eq_mul]
  rw [one_div, inv_mul_eq_div, mul_sum, ← sum_sub_distrib]
  congr 1
  refine sum_congr rfl fun i hi => ?_
  have hi' := mem_range.1 hi
  have hh : (∑ j ∈ range n, H i j * ψ 0 j) = star (eval i).eloc * ψ 0 i := by
    have := congrArg star (hloc i hi')
    rw [star_star, star_mul', star_star] at this
    exact this.symm
  rw [hh, ← hℓ i hi']
  ring

end QLPeps.Evaluator

namespace QLPeps.ExactRun

universe u

open Finset
open QLPeps.Contractor QLPeps.ExactRun.Spec
open QLPeps.SolverRun.Spec (amplitude FitsAll GoodHoles)
open QLPeps.SolverRun (toConfig_lt)
open QLPeps.Evaluator (Sample Tps exactSum increment)
open QLPeps.Peps (Tn Lib)
open QLPeps.Bmps (tensorOps)
open QLPeps.Bmps.Spec (Lossless Fits value pair)
open QLPeps.Tps.Spec (Bond leg)
open QLPeps.Spec (SpinCfg toConfig)

noncomputable section

variable {𝕜 : Type u} [RCLike 𝕜] {rows cols : ℕ} {dim : Bond .obc rows cols → ℕ}

theorem value_deriv (dim : Bond .obc rows cols → ℕ) (θ v : QLPeps.Site → Tn 𝕜) :
    HasDerivAt (fun t : ℝ => value dim fun s =>
        (⟨(θ s).shape, fun x => (θ s).elem x + (t : 𝕜) * (v s).elem x⟩ : Tn 𝕜))
      (∑ s : QLPeps.Tps.Spec.Site rows cols,
        value dim (Function.update θ (s.1, s.2) (v (s.1, s.2)))) 0 := by
  have h1 : ∀ a b : 𝕜, HasDerivAt (fun t : ℝ => a + (t : 𝕜) * b) b 0 := by
    intro a b
    have h0 : HasDerivAt (fun t : ℝ => (t : 𝕜)) 1 0 := by
      have := (RCLike.ofRealCLM (K := 𝕜)).hasDerivAt (x := (0 : ℝ))
      simpa using this
    simpa using (h0.mul_const b).const_add a
  have h2 : HasDerivAt (fun t : ℝ => value dim fun s =>
        (⟨(θ s).shape, fun x => (θ s).elem x + (t : 𝕜) * (v s).elem x⟩ : Tn 𝕜))
      (∑ β ∈ Fintype.piFinset fun b => Finset.range (dim b),
        ∑ s : QLPeps.Tps.Spec.Site rows cols,
          (∏ j ∈ univ.erase s, (θ (j.1, j.2)).elem
            [β (leg .obc j 0), β (leg .obc j 1), β (leg .obc j 2), β (leg .obc j 3)]) *
          (v (s.1, s.2)).elem
            [β (leg .obc s 0), β (leg .obc s 1), β (leg .obc s 2), β (leg .obc s 3)]) 0 := by
    unfold value
    apply HasDerivAt.fun_sum; intro β _
    have := HasDerivAt.fun_finset_prod (u := (univ : Finset (QLPeps.Tps.Spec.Site rows cols)))
      (f := fun s (t : ℝ) => (θ (s.1, s.2)).elem
          [β (leg .obc s 0), β (leg .obc s 1), β (leg .obc s 2), β (leg .obc s 3)] + (t : 𝕜) *
        (v (s.1, s.2)).elem
          [β (leg .obc s 0), β (leg .obc s 1), β (leg .obc s 2), β (leg .obc s 3)])
      (x := 0) (fun s _ => h1 _ _)
    simpa using this
  refine h2.congr_deriv ?_
  rw [sum_comm]
  refine sum_congr rfl fun s _ => ?_
  unfold value
  refine sum_congr rfl fun β _ => ?_
  rw [← Finset.prod_erase_mul univ _ (mem_univ s), Function.update_self]
  congr 1
  refine prod_congr rfl fun j hj => ?_
  rw [Function.update_of_ne]
  intro h
  refine (mem_erase.1 hj).1 ?_
  rw [Prod.mk.injEq] at h
  exact Prod.ext (Fin.ext h.1) (Fin.ext h.2)

theorem amplitude_deriv (dim : Bond .obc rows cols → ℕ) (θ v : QLPeps.Site → ℕ → Tn 𝕜) (cfg : Config) :
    HasDerivAt (fun t : ℝ => amplitude dim (along θ v t) cfg)
      (∑ s : QLPeps.Tps.Spec.Site rows cols,
        value dim (Function.update (project θ cfg) (s.1, s.2) (v (s.1, s.2) (cfg (s.1, s.2))))) 0 :=
  value_deriv dim (project θ cfg) (project v cfg)

/-- `overlap` as a linear map -/
def overlapL (rows cols d : ℕ) (v : QLPeps.Site → ℕ → Tn 𝕜) :
    Tps QLPeps.Site (List ℕ) 𝕜 →ₗ[𝕜] 𝕜 where
  toFun := overlap rows cols d v
  map_add' g h := by
    simp only [overlap, Pi.add_apply, mul_add, sum_add_distrib]
  map_smul' c g := by
    simp only [overlap, Pi.smul_apply, smul_eq_mul, mul_left_comm _ c, mul_sum, RingHom.id_apply]

theorem holesDag_foldl (hs : List (QLPeps.Site × Tn 𝕜)) (f : QLPeps.Site → List ℕ → 𝕜)
    (s : QLPeps.Site) (h : s ∉ hs.map Prod.fst) :
    hs.foldl (fun f p => Function.update f p.1 p.2.elem) f s = f s := by
  induction hs generalizing f with
  | nil => rfl
  | cons q hs ih =>
    simp only [List.map_cons, List.mem_cons, not_or] at h
    rw [List.foldl_cons, ih _ h.2, Function.update_of_ne h.1]

theorem holesDag_mem (hs : List (QLPeps.Site × Tn 𝕜)) (hn : (hs.map Prod.fst).Nodup)
    (p : QLPeps.Site × Tn 𝕜) (hp : p ∈ hs) : holesDag hs p.1 = p.2.elem := by
  unfold holesDag
  generalize (fun (_ : QLPeps.Site) (_ : List ℕ) => (0 : 𝕜)) = f
  induction hs generalizing f with
  | nil => simp at hp
  | cons q hs ih =>
    rw [List.map_cons, List.nodup_cons] at hn
    rw [List.foldl_cons]
    rcases List.mem_cons.1 hp with rfl | hp
    · rw [holesDag_foldl _ _ _ hn.1, Function.update_self]
    · exact ih hn.2 hp _

theorem overlap_increment (v : QLPeps.Site → ℕ → Tn 𝕜) (sitps : QLPeps.Site → ℕ → Tn 𝕜) (d : ℕ)
    (cfg : Config) (hcfg : ∀ s, cfg s < d) (hv : ∀ s, ∀ k < d, (v s k).shape = (sitps s k).shape)
    (hs : List (QLPeps.Site × Tn 𝕜)) (hg : GoodHoles dim d sitps cfg hs) (a e : 𝕜) :
    overlap rows cols d v (increment ⟨cfg, a, e, holesDag hs⟩) =
      star (∑ s : QLPeps.Tps.Spec.Site rows cols,
        value dim (Function.update (project sitps cfg) (s.1, s.2) (v (s.1, s.2) (cfg (s.1, s.2))))) * a := by
  obtain ⟨hn, hm, hp⟩ := hg
  unfold overlap
  rw [star_sum, sum_mul]
  refine sum_congr rfl fun s _ => ?_
  obtain ⟨p, hpm, hps⟩ := List.mem_map.1 ((hm (s.1, s.2)).2 ⟨s.1.2, s.2.2⟩)
  obtain ⟨h1, h2, -⟩ := hp p hpm
  have hd := holesDag_mem hs hn p hpm
  rw [hps] at h1 h2 hd
  rw [sum_eq_single_of_mem (cfg (s.1, s.2)) (mem_range.2 (hcfg _))]
  · have hsh : (v (s.1, s.2) (cfg (s.1, s.2))).shape = p.2.shape := (hv _ _ (hcfg _)).trans h1.symm
    rw [← h2 _ hsh]
    unfold pair
    simp only [hsh, star_sum, sum_mul]
    refine sum_congr rfl fun i _ => sum_congr rfl fun j _ => sum_congr rfl fun k _ =>
      sum_congr rfl fun m _ => ?_
    simp only [increment, if_true, hd]
    rw [star_mul', RCLike.star_def, RCLike.conj_conj]
    ring
  · intro b _ hb
    simp [increment, hb]

/-! ## Hamiltonians as Hermitian matrices -/

section herm
variable {S : Type} [Fintype S] [DecidableEq S]

/-- a Hermitian matrix -/
def Herm (H : (S → 𝕜) → S → 𝕜) : Prop :=
  ∃ M : S → S → 𝕜, (∀ f s, H f s = ∑ s', M s s' * f s') ∧ ∀ s s', star (M s s') = M s' s

theorem Herm.add {H G : (S → 𝕜) → S → 𝕜} (h : Herm H) (g : Herm G) :
    Herm fun f s => H f s + G f s := by
  obtain ⟨M, a, b⟩ := h
  obtain ⟨N, a', b'⟩ := g
  refine ⟨fun s s' => M s s' + N s s', fun f s => ?_, fun s s' => by rw [star_add, b, b']⟩
  dsimp only
  rw [a, a', ← sum_add_distrib]
  exact sum_congr rfl fun _ _ => (add_mul _ _ _).symm

theorem Herm.zero : Herm fun (_ : S → 𝕜) (_ : S) => (0 : 𝕜) :=
  ⟨fun _ _ => 0, by simp, by simp⟩

theorem Herm.sum {ι : Type*} (I : Finset ι) (H : ι → (S → 𝕜) → S → 𝕜) (h : ∀ i ∈ I, Herm (H i)) :
    Herm fun f s => ∑ i ∈ I, H i f s := by
  classical
  induction I using Finset.induction_on with
  | empty => simpa using Herm.zero
  | insert i I hi ih =>
    simp only [sum_insert hi]
    exact (h i (mem_insert_self _ _)).add (ih fun j hj => h j (mem_insert_of_mem hj))

theorem Herm.ite (p : Prop) [Decidable p] (H : (S → 𝕜) → S → 𝕜) (h : p → Herm H) :
    Herm fun f s => if p then H f s else 0 := by
  by_cases hp : p
  · simpa [hp] using h hp
  · simpa [hp] using Herm.zero

theorem Herm.diag (w : S → 𝕜) (hw : ∀ s, star (w s) = w s) : Herm fun (f : S → 𝕜) s => w s * f s := by
  refine ⟨fun s s' => if s' = s then w s else 0, fun f s => by simp, fun s s' => ?_⟩
  by_cases h : s' = s
  · subst h; simp [hw]
  · simp [h, Ne.symm h]

/-- moves along an involution -/
theorem Herm.move (w : S → 𝕜) (u : S → S) (hu : ∀ s, u (u s) = s) (hw : ∀ s, star (w s) = w (u s)) :
    Herm fun (f : S → 𝕜) s => w s * f (u s) := by
  refine ⟨fun s s' => if s' = u s then w s else 0, fun f s => by simp, fun s s' => ?_⟩
  by_cases h : s' = u s
  · subst h; simp [hw, hu]
  · have : s ≠ u s' := fun e => h (by rw [e, hu])
    simp [h, this]

end herm

section spin
open QLPeps.Spec QLPeps.Energy

variable (j jz jxy : 𝕜)

theorem real_ofNat (x : ℝ) : star ((x : ℝ) : 𝕜) = x := by rw [RCLike.star_def, RCLike.conj_ofReal]

theorem star_half : star (1 / 2 : 𝕜) = 1 / 2 := by simp
theorem star_quarter : star (1 / 4 : 𝕜) = 1 / 4 := by simp

theorem herm_exchange {ι : Type} [Fintype ι] [DecidableEq ι] (hz : star jz = jz) (hxy : star jxy = jxy)
    {a b : ι} (hab : a ≠ b) : Herm (exchange jz jxy a b) := by
  have e : exchange jz jxy a b = fun f s =>
      (if s a = s b then 1 / 4 * jz else -(1 / 4) * jz) * f s +
      (if s a = s b then 0 else 1 / 2 * jxy) * f (swapS a b s) := by
    funext f s
    rw [exchange_apply jz jxy hab]
    split_ifs <;> ring
  rw [e]
  refine Herm.add (Herm.diag _ fun s => ?_) (Herm.move _ _ (fun s => swapS_invol s) fun s => ?_)
  · split_ifs <;> simp [hz]
  · have h1 : (swapS a b s) a = s b := by simp [swapS, Function.update_of_ne hab]
    have h2 : (swapS a b s) b = s a := by simp [swapS]
    rw [h1, h2]
    by_cases h : s a = s b
    · simp [h]
    · rw [if_neg h, if_neg (Ne.symm h)]; simp [hxy]

theorem herm_coupling (R : QLPeps.Site → QLPeps.Site → Prop) [∀ a b, Decidable (R a b)]
    (hR : ∀ a b, a ∈ sites rows cols → R a b → a ≠ b) (hz : star jz = jz) (hxy : star jxy = jxy) :
    Herm (coupling (rows := rows) (cols := cols) R jz jxy) := by
  unfold coupling
  refine Herm.sum _ _ fun a _ => Herm.sum _ _ fun b _ => Herm.ite _ _ fun h => ?_
  exact herm_exchange jz jxy hz hxy fun hab => hR a b a.2 h (congrArg Subtype.val hab)

theorem herm_pinning (hj : star j = j) : Herm (pinning (rows := rows) (cols := cols) j) := by
  unfold pinning
  refine Herm.sum _ _ fun a _ => Herm.ite _ _ fun h => ?_
  have e : (fun (f : SpinCfg rows cols → 𝕜) s => -j * Sz a f s) =
      fun f s => (-j * if s a = 1 then 1 / 2 else -(1 / 2)) * f s := by
    funext f s; unfold Sz; ring
  rw [e]
  refine Herm.diag _ fun s => ?_
  split_ifs <;> simp [hj]

theorem herm_ising (R : QLPeps.Site → QLPeps.Site → Prop) [∀ a b, Decidable (R a b)] :
    Herm (ising (K := 𝕜) (rows := rows) (cols := cols) R) := by
  unfold ising
  refine Herm.sum _ _ fun a _ => Herm.sum _ _ fun b _ => Herm.ite _ _ fun h => ?_
  have e : (fun (f : SpinCfg rows cols → 𝕜) s => -sigmaZ a (sigmaZ b f) s) =
      fun f s => (-((if s a = 1 then 1 else -1) * if s b = 1 then 1 else -1)) * f s := by
    funext f s; unfold sigmaZ; ring
  rw [e]
  refine Herm.diag _ fun s => ?_
  split_ifs <;> simp

theorem herm_transverse (hj : star j = j) : Herm (transverse (rows := rows) (cols := cols) j) := by
  unfold transverse
  refine Herm.sum _ _ fun a _ => ?_
  refine Herm.move (fun _ => -j) (fun s => Function.update s a (1 - s a)) (fun s => ?_) fun s => by
    simp [hj]
  funext x
  by_cases h : x = a
  · subst h; simp
  · simp [Function.update_of_ne h]

/-! ## Local energies -/

variable (ψ : Config → 𝕜) (s : SpinCfg rows cols)

theorem exactValue_mul (hz : star jz = jz) (hxy : star jxy = jxy) (h0 : ψ (toConfig s) ≠ 0)
    {a b : ↥(sites rows cols)} (hab : a ≠ b) :
    exactValue jz jxy ψ s a b * star (ψ (toConfig s)) =
      star (exchange jz jxy a b (fun s => ψ (toConfig s)) s) := by
  have hne : star (ψ (toConfig s)) ≠ 0 := star_ne_zero.2 h0
  rw [exchange_apply jz jxy hab]
  unfold exactValue xxzValue exact
  simp only [toConfig_eq_iff, toConfig_swap]
  by_cases h : s a = s b
  · simp only [h, if_true, star_mul', hz, star_quarter]
  · simp only [h, if_false]
    rw [star_mul', one_div (ψ (toConfig s)), star_inv₀]
    simp only [star_add, star_mul', star_neg, hz, hxy, star_quarter, star_half]
    field_simp

theorem relE_mul (R : QLPeps.Site → QLPeps.Site → Prop) [∀ a b, Decidable (R a b)]
    (hR : ∀ a b, a ∈ sites rows cols → R a b → a ≠ b) (hz : star jz = jz) (hxy : star jxy = jxy)
    (h0 : ψ (toConfig s) ≠ 0) :
    relE R jz jxy ψ s * star (ψ (toConfig s)) =
      star (coupling R jz jxy (fun s => ψ (toConfig s)) s) := by
  unfold relE coupling
  rw [star_sum, sum_mul]
  refine sum_congr rfl fun a _ => ?_
  rw [star_sum, sum_mul]
  refine sum_congr rfl fun b _ => ?_
  by_cases h : R a b
  · simp only [h, if_true]
    exact exactValue_mul jz jxy ψ s hz hxy h0 fun hab => hR a b a.2 h (congrArg Subtype.val hab)
  · simp [h]

theorem pinning_mul (hj : star j = j) (h0 : (0, 0) ∈ sites rows cols) :
    -j * spinZ (toConfig s (0, 0)) * star (ψ (toConfig s)) =
      star (pinning j (fun s => ψ (toConfig s)) s) := by
  unfold pinning
  rw [Finset.sum_eq_single (⟨(0, 0), h0⟩ : ↥(sites rows cols))]
  · have fin2 : ∀ x : Fin 2, x = 0 ∨ x = 1 := by decide
    have hz : toConfig s (0, 0) = (s ⟨(0, 0), h0⟩ : ℕ) := toConfig_mem s ⟨(0, 0), h0⟩
    simp only [if_true, Sz, hz, spinZ]
    rcases fin2 (s ⟨(0, 0), h0⟩) with hs | hs <;> rw [hs] <;> simp [hj] <;> ring
  · intro b _ hb
    rw [if_neg]
    intro hb'
    exact hb (Subtype.ext hb')
  · intro h; exact absurd (Finset.mem_univ _) h

theorem relI_mul (R : QLPeps.Site → QLPeps.Site → Prop) [∀ a b, Decidable (R a b)] :
    relI R 𝕜 s * star (ψ (toConfig s)) = star (ising R (fun s => ψ (toConfig s)) s) := by
  have fin2 : ∀ x : Fin 2, x = 0 ∨ x = 1 := by decide
  unfold relI ising
  rw [star_sum, sum_mul]
  refine sum_congr rfl fun a _ => ?_
  rw [star_sum, sum_mul]
  refine sum_congr rfl fun b _ => ?_
  by_cases h : R a b
  · simp only [h, if_true, toConfig_eq_iff, sigmaZ]
    rcases fin2 (s a) with ha | ha <;> rcases fin2 (s b) with hb | hb <;> rw [ha, hb] <;> simp
  · simp [h]

theorem flip_mul (hj : star j = j) (h0 : ψ (toConfig s) ≠ 0) :
    (∑ a : ↥(sites rows cols), tfimFlip j (1 / ψ (toConfig s)) ((exact ψ (toConfig s)).flip a)) *
      star (ψ (toConfig s)) = star (transverse j (fun s => ψ (toConfig s)) s) := by
  have hne : star (ψ (toConfig s)) ≠ 0 := star_ne_zero.2 h0
  unfold transverse
  rw [star_sum, sum_mul]
  refine sum_congr rfl fun a _ => ?_
  have e : Function.update (toConfig s) (a : QLPeps.Site) (1 - toConfig s a) =
      toConfig (Function.update s a (1 - s a)) := by
    rw [toConfig_update, toConfig_mem]
    have fin2 : ∀ x : Fin 2, x = 0 ∨ x = 1 := by decide
    congr 1
    rcases fin2 (s a) with ha | ha <;> rw [ha] <;> rfl
  simp only [tfimFlip, exact, sigmaX, e]
  simp only [star_mul', star_neg, hj, one_div, star_inv₀]
  field_simp

end spin

/-! ## The run -/

theorem sum_range_getD {α M : Type*} [AddCommMonoid M] (L : List α) (z : α) (f : α → M) :
    ∑ j ∈ range L.length, f (L.getD j z) = (L.map f).sum := by
  induction L with
  | nil => simp
  | cons a L ih =>
    rw [List.length_cons, sum_range_succ', List.map_cons, List.sum_cons, ← ih, add_comm]
    simp

theorem mapM_ok {α γ ε : Type} {β : Type u} (L : List γ) (h : γ → α) (f : α → Except ε β)
    (g : γ → β) (hf : ∀ a ∈ L, f (h a) = .ok (g a)) : (L.map h).mapM f = .ok (L.map g) := by
  induction L with
  | nil => rfl
  | cons a L ih =>
    rw [List.map_cons, List.mapM_cons, hf a List.mem_cons_self,
      ih fun b hb => hf b (List.mem_cons_of_mem _ hb)]
    rfl

theorem sample_ok {lib : Lib 𝕜} {sitps : QLPeps.Site → ℕ → Tn 𝕜} {solver : Solver 𝕜} {cfg : Config}
    {a : 𝕜} {c : Ctr (List (Tn 𝕜)) (Tn 𝕜) (Tn 𝕜)} {r : QLPeps.SolverRun.Result 𝕜}
    (h1 : evaluateAmplitude (tensorOps lib rows cols) rows cols (project sitps cfg)
      (init (tensorOps lib rows cols) empty) = some (a, c)) (h2 : solver cfg c = .ok r) :
    sample lib rows cols sitps solver cfg = .ok ⟨cfg, a, r.energy, holesDag r.holes⟩ := by
  unfold sample
  rw [h1]
  change (solver cfg c >>= fun r => _) = _
  rw [h2]
  rfl

theorem energy_eq (H : (SpinCfg rows cols → 𝕜) → SpinCfg rows cols → 𝕜) (L : List (SpinCfg rows cols))
    (hL : L.Nodup) (M : SpinCfg rows cols → SpinCfg rows cols → 𝕜)
    (hM : ∀ f s, H f s = ∑ s', M s s' * f s') (hcl : Closed H L) (ψ : SpinCfg rows cols → 𝕜) :
    (∀ s ∈ L, ∑ j ∈ range L.length, M s (L.getD j 0) * ψ (L.getD j 0) = H ψ s) ∧
    QLPeps.Evaluator.energyOf (fun i j => M (L.getD i 0) (L.getD j 0)) L.length
      (fun i => ψ (L.getD i 0)) = energy H L ψ := by
  classical
  have key : ∀ s ∈ L, ∑ j ∈ range L.length, M s (L.getD j 0) * ψ (L.getD j 0) = H ψ s := by
    intro s hs
    rw [sum_range_getD L 0 fun s' => M s s' * ψ s', ← List.sum_toFinset _ hL]
    have h := hcl (fun s' => if s' ∈ L then 0 else ψ s') (fun s' hs' => if_pos hs') s hs
    rw [hM] at h ⊢
    rw [← sub_zero (∑ s', M s s' * ψ s'), ← h, ← sum_sub_distrib]
    rw [← sum_subset (subset_univ L.toFinset)]
    · refine sum_congr rfl fun s' hs' => ?_
      rw [if_pos (List.mem_toFinset.1 hs')]; ring
    · intro s' _ hs'
      rw [if_neg fun h => hs' (List.mem_toFinset.2 h)]; ring
  refine ⟨key, ?_⟩
  unfold QLPeps.Evaluator.energyOf QLPeps.Evaluator.totalWeight energy
  congr 1
  · rw [← sum_range_getD L 0 fun s => star (ψ s) * H ψ s]
    refine sum_congr rfl fun i hi => ?_
    have hi' := mem_range.1 hi
    rw [← key (L.getD i 0) (by rw [List.getD_eq_getElem _ _ hi']; exact List.getElem_mem hi'), mul_sum]
    exact sum_congr rfl fun j _ => mul_assoc _ _ _
  · rw [RCLike.ofReal_sum, ← sum_range_getD L 0 fun s => star (ψ s) * ψ s]
    exact sum_congr rfl fun i _ => QLPeps.Evaluator.normSq_eq _

/-- what a solver has to return on one sample -/
def Solves (lib : Lib 𝕜) (dim : Bond .obc rows cols → ℕ) (sitps : QLPeps.Site → ℕ → Tn 𝕜)
    (solver : Solver 𝕜) (H : (SpinCfg rows cols → 𝕜) → SpinCfg rows cols → 𝕜)
    (s : SpinCfg rows cols) : Prop :=
  ∀ c, Fresh (tensorOps lib rows cols) rows cols (project sitps (toConfig s)) c →
    ∃ r, solver (toConfig s) c = .ok r ∧
      r.energy * star (amplitude dim sitps (toConfig s)) =
        star (H (fun s => amplitude dim sitps (toConfig s)) s) ∧
      GoodHoles dim 2 sitps (toConfig s) r.holes ∧
      (∃ m, r.psi = List.replicate (m + 1) (amplitude dim sitps (toConfig s))) ∧
      Fresh (tensorOps lib rows cols) rows cols (project sitps (toConfig s)) r.caches

theorem exactRun_ok {lib : Lib 𝕜} {sitps : QLPeps.Site → ℕ → Tn 𝕜} (hl : Lossless lib)
    (hf : FitsAll dim sitps 2) (hr : 1 ≤ rows) (hc : 2 ≤ cols)
    (H : (SpinCfg rows cols → 𝕜) → SpinCfg rows cols → 𝕜) (hH : Herm H)
    (L : List (SpinCfg rows cols)) (hL : L.Nodup) (hne : L ≠ []) (hcl : Closed H L)
    (h0 : ∀ s ∈ L, amplitude dim sitps (toConfig s) ≠ 0) (solver : Solver 𝕜)
    (hsol : ∀ s ∈ L, Solves lib dim sitps solver H s) (size : ℕ) (hs : 0 < size) :
    ∃ g, exactRun lib rows cols sitps solver (L.map toConfig) size =
        .ok (some (energy H L fun s => amplitude dim sitps (toConfig s), g)) ∧
      ∀ v : QLPeps.Site → ℕ → Tn 𝕜, (∀ s, ∀ k < 2, (v s k).shape = (sitps s k).shape) →
        HasDerivAt (fun t => energy H L fun s => amplitude dim (along sitps v t) (toConfig s))
          ((2 * RCLike.re (overlap rows cols 2 v g) : ℝ) : 𝕜) 0 := by
  obtain ⟨M, hM, hherm⟩ := hH
  set ψ : SpinCfg rows cols → 𝕜 := fun s => amplitude dim sitps (toConfig s) with hψ
  have hx : ∀ s : SpinCfg rows cols, ∃ x : Sample QLPeps.Site (List ℕ) 𝕜, s ∈ L →
      sample lib rows cols sitps solver (toConfig s) = .ok x ∧ x.amplitude = ψ s ∧
      x.eloc * star (ψ s) = star (H ψ s) ∧
      ∀ v : QLPeps.Site → ℕ → Tn 𝕜, (∀ s, ∀ k < 2, (v s k).shape = (sitps s k).shape) →
        star (∑ p : QLPeps.Tps.Spec.Site rows cols, value dim (Function.update
          (project sitps (toConfig s)) (p.1, p.2) (v (p.1, p.2) (toConfig s (p.1, p.2))))) * ψ s =
        overlapL rows cols 2 v (increment x) := by
    intro s
    by_cases hs : s ∈ L
    · obtain ⟨c', e1, e2⟩ := QLPeps.Bmps.C99_initial_amplitude_exact hl (hf _ (toConfig_lt s)) hr hc empty
      obtain ⟨r, e3, e4, e5, -, -⟩ := hsol s hs c' e2
      refine ⟨_, fun _ => ⟨sample_ok e1 e3, rfl, e4, fun v hv => ?_⟩⟩
      exact (overlap_increment v sitps 2 (toConfig s) (toConfig_lt s) hv r.holes e5 _ _).symm
    · exact ⟨⟨fun _ => 0, 0, 0, fun _ _ => 0⟩, fun h => absurd h hs⟩
  choose x hx using hx
  have hget : ∀ i < L.length, L.getD i 0 ∈ L := fun i hi => by
    rw [List.getD_eq_getElem _ _ hi]; exact List.getElem_mem hi
  have hev : ∀ i < L.length, (L.map x).getD i ⟨fun _ => 0, 0, 0, fun _ _ => 0⟩ = x (L.getD i 0) := by
    intro i hi
    rw [List.getD_eq_getElem _ _ (by simpa using hi), List.getD_eq_getElem _ _ hi, List.getElem_map]
  have hmap := mapM_ok L toConfig (sample lib rows cols sitps solver) x fun s hs => (hx s hs).1
  obtain ⟨hk, hen⟩ := energy_eq H L hL M hM hcl ψ
  have hW : QLPeps.Evaluator.totalWeight (fun i => ψ (L.getD i 0)) L.length ≠ 0 := by
    unfold QLPeps.Evaluator.totalWeight
    refine (sum_pos (fun i hi => ?_) ⟨0, mem_range.2 (List.length_pos_iff.2 hne)⟩).ne'
    have := norm_pos_iff.2 (h0 _ (hget i (mem_range.1 hi)))
    exact pow_pos this 2
  obtain ⟨g, e1, e2⟩ := QLPeps.Evaluator.exactSum_deriv
    (fun i => (L.map x).getD i ⟨fun _ => 0, 0, 0, fun _ _ => 0⟩) L.length size hs
    (fun i j => M (L.getD i 0) (L.getD j 0)) (fun i j => hherm _ _) (fun i => ψ (L.getD i 0))
    (fun i hi => by rw [hev i hi]; exact (hx _ (hget i hi)).2.1) hW
    (fun i hi => by
      rw [hev i hi, (hx _ (hget i hi)).2.2.1, hk _ (hget i hi)])
  refine ⟨g, ?_, fun v hv => ?_⟩
  · unfold exactRun
    rw [hmap]
    change Except.ok (exactSum _ (L.map toConfig).length size) = _
    rw [List.length_map, e1, hen]
  · have h := e2 (fun t i => amplitude dim (along sitps v t) (toConfig (L.getD i 0))) _
      (overlapL rows cols 2 v) (by
        funext i
        change value dim _ = value dim _
        congr 1
        funext s
        simp [project, Spec.along])
      (fun i => amplitude_deriv dim sitps v (toConfig (L.getD i 0)))
      (fun i hi => by
        rw [hev i hi]
        exact (hx _ (hget i hi)).2.2.2 v hv)
    refine h.congr_of_eventuallyEq (Filter.Eventually.of_forall fun t => ?_)
    exact ((energy_eq H L hL M hM hcl fun s => amplitude dim (along sitps v t) (toConfig s)).2).symm

theorem exactRun_size {lib : Lib 𝕜} {sitps : QLPeps.Site → ℕ → Tn 𝕜} {solver : Solver 𝕜}
    {cfgs : List Config} (size size' : ℕ) (hs : 0 < size) (hs' : 0 < size') :
    exactRun lib rows cols sitps solver cfgs size = exactRun lib rows cols sitps solver cfgs size' := by
  unfold exactRun
  congr 1
  funext ss
  rw [QLPeps.Evaluator.exactSum_eq _ _ size hs, QLPeps.Evaluator.exactSum_eq _ _ size' hs']

end

end QLPeps.ExactRun
