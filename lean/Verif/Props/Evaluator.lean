import Mathlib.Tactic
import Verif.Lemmas.EvaluatorMC
import Verif.Lemmas.EvaluatorMeasure

/-! # Theorems about the evaluators (C56, C59, C72, C73) -/

namespace QLPeps.Evaluator

open Finset QLPeps.Statistics

variable {ι X : Type*} {𝕜 : Type*} [RCLike 𝕜] [DecidableEq ι]

/-- **C56.** Whatever the number of processes, the index lists of all processes taken together are a
rearrangement of all configurations: every configuration is evaluated by exactly one process, once. -/
theorem C56_stripes (n size : ℕ) (hs : 0 < size) :
    ((List.range size).flatMap (strided n size)).Perm (List.range n) ∧
    ∀ i, i < n → ∃! r, r < size ∧ i ∈ strided n size r := by
  refine ⟨strided_perm n size hs, fun i hi => ⟨i % size, ⟨Nat.mod_lt _ hs, ?_⟩, ?_⟩⟩
  · exact (mem_strided n size hs _ _).2 ⟨hi, i / size, by rw [Nat.mul_comm]; exact (Nat.mod_add_div i size).symm⟩
  · rintro r ⟨hr, hm⟩
    obtain ⟨_, k, rfl⟩ := (mem_strided n size hs _ _).1 hm
    rw [Nat.add_mul_mod_self_right, Nat.mod_eq_of_lt hr]

example : strided 7 3 1 = [1, 4] := by simp [strided]
example : strided 2 5 3 = [] := by simp [strided]

/-- **C56.** For every number of processes the exact-summation evaluator terminates without deadlock;
its energy is the `|Ψ|²`-average of the local energies and its gradient is the `|Ψ|²`-covariance of
the conjugated local energy with `O*`. The number of processes does not occur on the right. -/
theorem C56_energy_and_gradient (eval : ℕ → Sample ι X 𝕜) (n size : ℕ) (hs : 0 < size) :
    let ψ := fun i => (eval i).amplitude
    let E := fun i => (eval i).eloc
    exactSum eval n size = some (bornMean ψ n E, fun r b x =>
      bornMean ψ n (fun i => star (E i) * logDeriv (eval i) r b x)
        - star (bornMean ψ n E) * bornMean ψ n (fun i => logDeriv (eval i) r b x)) := by
  intro ψ E
  rw [exactSum_eq eval n size hs]
  have e1 : (∑ i ∈ range n, (eval i).eloc * ((‖(eval i).amplitude‖ ^ 2 : ℝ) : 𝕜))
              / ((∑ i ∈ range n, ‖(eval i).amplitude‖ ^ 2 : ℝ) : 𝕜) = bornMean ψ n E := by
    unfold bornMean totalWeight
    congr 1
    exact sum_congr rfl fun i _ => mul_comm _ _
  congr 1
  rw [e1]
  refine Prod.ext rfl ?_
  funext r b x
  simp only [increment_eq]
  unfold bornMean
  rw [show ∑ i ∈ range n, ‖(eval i).amplitude‖ ^ 2 = totalWeight ψ n from rfl]
  rw [RCLike.ofReal_div, RCLike.ofReal_one, mul_one_div, sub_div, mul_div_assoc]
  congr 2
  exact sum_congr rfl fun i _ => by ring

/-- **C56.** Two runs with different numbers of processes return the same energy and gradient; in
particular every run agrees with the single-process one. -/
theorem C56_process_count_irrelevant (eval : ℕ → Sample ι X 𝕜) (n size size' : ℕ) (hs : 0 < size)
    (hs' : 0 < size') : exactSum eval n size = exactSum eval n size' ∧
      ∃ result, exactSum eval n size = some result := by
  rw [C56_energy_and_gradient eval n size hs, C56_energy_and_gradient eval n size' hs']
  exact ⟨rfl, _, rfl⟩

/-- Two configurations of one site with a two-component tensor, amplitudes 1 and 2, energies 1 and 3. -/
noncomputable def exampleEval (i : ℕ) : Sample Unit Unit ℝ :=
  ⟨fun _ => i, (i : ℝ) + 1, 2 * (i : ℝ) + 1, fun _ _ => 1⟩

example : ∃ g : Tps Unit Unit ℝ, exactSum exampleEval 2 3 = some (13 / 5, g) ∧ g () 0 () = -8 / 25 := by
  have h := C56_energy_and_gradient exampleEval 2 3 (by norm_num)
  dsimp only at h
  refine ⟨_, h.trans (congrArg some (Prod.ext ?_ rfl)), ?_⟩
  · simp [bornMean, totalWeight, exampleEval, Finset.sum_range_succ]
    norm_num
  · simp [bornMean, totalWeight, exampleEval, logDeriv, Finset.sum_range_succ]
    norm_num

section gradient

variable [Fintype ι] [Fintype X] [DecidableEq X] {B : Type*} [Fintype B]

/-- **C72.** The gradient returned by the exact-summation evaluator is the derivative of the energy.
Take an exactly contracted tensor-network state with tensors `θ`, listed configurations `confs` of
nonzero amplitude, a Hermitian matrix `H` between them, and a solver that returns the exact local
energy. Then the energy returned is the expectation
value, and moving the tensors in any direction `v` changes the expectation value at the rate
`2 Re ⟨v, gradient⟩`, for every number of processes. -/
theorem C72_gradient_is_derivative (leg : ι → B → X) (θ v : Tps ι X 𝕜) (confs : ℕ → ι → ℕ) (n d : ℕ)
    (hd : ∀ i r, confs i r < d) (hn : 0 < n) (H : ℕ → ℕ → 𝕜) (hH : ∀ i j, star (H i j) = H j i)
    (hne : ∀ i, i < n → amp leg θ (confs i) ≠ 0) (size : ℕ) (hs : 0 < size) :
    let ψ : Tps ι X 𝕜 → ℕ → 𝕜 := fun θ i => amp leg θ (confs i)
    let eval : ℕ → Sample ι X 𝕜 := fun i =>
      ⟨confs i, ψ θ i, localEnergy H n (ψ θ) i, hole leg θ (confs i)⟩
    ∃ g, exactSum eval n size = some (energyOf H n (ψ θ), g) ∧
      HasDerivAt (fun t : ℝ => energyOf H n (ψ (fun r b x => θ r b x + (t : 𝕜) * v r b x)))
        ((2 * RCLike.re (∑ r, ∑ b ∈ range d, ∑ x, star (v r b x) * g r b x) : ℝ) : 𝕜) 0 := by
  intro ψ eval
  have hloc : ∀ j, j < n → localEnergy H n (ψ θ) j * star (ψ θ j)
      = ∑ i ∈ range n, star (ψ θ i) * H i j := by
    intro j hj
    unfold localEnergy
    rw [sum_mul]
    apply sum_congr rfl; intro i _
    have : star (ψ θ j) ≠ 0 := star_ne_zero.2 (hne j hj)
    rw [star_div₀]; field_simp
  have hE : bornMean (ψ θ) n (fun i => localEnergy H n (ψ θ) i) = energyOf H n (ψ θ) := by
    unfold bornMean energyOf
    congr 1
    rw [sum_comm]
    apply sum_congr rfl; intro j hj
    rw [normSq_eq, mul_comm (star (ψ θ j)) , mul_assoc, mul_comm (star (ψ θ j)), hloc j (mem_range.1 hj), mul_sum]
    apply sum_congr rfl; intro i _; ring
  have hW : totalWeight (ψ θ) n ≠ 0 := by
    unfold totalWeight
    refine (sum_pos (fun i hi => ?_) ⟨0, mem_range.2 hn⟩).ne'
    have := norm_pos_iff.2 (hne i (mem_range.1 hi))
    positivity
  have hpre := exactSum_eq eval n size hs
  have hpost := C56_energy_and_gradient eval n size hs
  dsimp only at hpost
  rw [show (fun i => (eval i).amplitude) = ψ θ from rfl,
    show (fun i => (eval i).eloc) = fun i => localEnergy H n (ψ θ) i from rfl, hE] at hpost
  have hfst : (∑ i ∈ range n, (eval i).eloc * ((‖(eval i).amplitude‖ ^ 2 : ℝ) : 𝕜))
              / ((∑ i ∈ range n, ‖(eval i).amplitude‖ ^ 2 : ℝ) : 𝕜) = energyOf H n (ψ θ) := by
    have := hpre.symm.trans hpost
    exact congrArg Prod.fst (Option.some.inj this)
  rw [hfst] at hpre
  refine ⟨_, hpre, ?_⟩
  have hder := energy_deriv H n hH (fun t i => ψ (fun r b x => θ r b x + (t : 𝕜) * v r b x) i)
    (fun i => ∑ r, ∑ x, v r (confs i r) x * star (hole leg θ (confs i) r x))
    (fun i => amp_deriv leg θ v (confs i))
    (by simpa [ψ] using hW)
  have h0 : (fun r b x => θ r b x + ((0 : ℝ) : 𝕜) * v r b x) = θ := by
    funext r b x; simp
  refine hder.congr_deriv ?_
  congr 2
  simp only [h0]
  congr 1
  rw [show ∑ i ∈ range n, ‖(eval i).amplitude‖ ^ 2 = totalWeight (ψ θ) n from rfl]
  have key : ∀ i, star (∑ r, ∑ x, v r (confs i r) x * star (hole leg θ (confs i) r x)) * ψ θ i
      = ∑ r, ∑ b ∈ range d, ∑ x, star (v r b x) * increment (eval i) r b x := by
    intro i
    rw [star_sum, sum_mul]
    apply sum_congr rfl; intro r _
    rw [sum_comm, star_sum, sum_mul]
    apply sum_congr rfl; intro x _
    rw [sum_eq_single (confs i r)]
    · simp only [increment, eval, if_true]
      rw [star_mul', star_star]; ring
    · intro b _ hb
      simp [increment, eval, hb]
    · intro hb; exact absurd (mem_range.2 (hd i r)) hb
  have key2 : ∀ i, i < n → star (∑ r, ∑ x, v r (confs i r) x * star (hole leg θ (confs i) r x)) *
      (∑ j ∈ range n, H i j * ψ θ j)
      = star (eval i).eloc * ∑ r, ∑ b ∈ range d, ∑ x, star (v r b x) * increment (eval i) r b x := by
    intro i hi
    rw [← key i]
    have hh : (∑ j ∈ range n, H i j * ψ θ j) = star (eval i).eloc * ψ θ i := by
      have := congrArg star (hloc i hi)
      rw [star_mul', star_star, star_sum] at this
      rw [show (eval i).eloc = localEnergy H n (ψ θ) i from rfl, this]
      apply sum_congr rfl; intro j _
      rw [star_mul', star_star, hH]; ring
    rw [hh]; ring
  rw [RCLike.ofReal_div, RCLike.ofReal_one]
  rw [sum_congr rfl (fun i hi => by
    rw [mul_sub, key2 i (mem_range.1 hi), mul_left_comm, key i])]
  rw [div_eq_mul_one_div]
  simp only [sum_mul, mul_sum, ← sum_sub_distrib, mul_sub, sub_mul]
  rw [sum_comm]
  apply sum_congr rfl; intro r _
  rw [sum_comm]
  apply sum_congr rfl; intro b _
  rw [sum_comm]
  apply sum_congr rfl; intro x _
  apply sum_congr rfl; intro i _
  ring

/-- Two sites, bond dimension one, the two configurations `01` and `10` coupled by `H`: the hypotheses
hold for the state whose tensors are all ones, and for any direction. -/
example (v : Tps (Fin 2) Unit ℂ) := C72_gradient_is_derivative (𝕜 := ℂ) (ι := Fin 2) (X := Unit) (B := Unit)
  (fun _ _ => ()) (fun _ _ _ => 1) v (fun i r => if i = r.val then 1 else 0) 2 2
  (by intro i r; split_ifs <;> norm_num) (by norm_num)
  (fun i j => if i = j then 0 else 1) (by intro i j; by_cases h : i = j <;> simp [h, eq_comm])
  (by intro i _; simp [amp]) 3 (by norm_num)

end gradient

/-! ## Monte-Carlo evaluator -/

/-- **C59 (partial).** If the number of samples per process is a multiple of the bin size (the integer
square root), the Monte-Carlo gradient is the sample covariance, over all samples of all processes, of
the conjugated local energy with `O*`. What is missing: for other sample counts the claim is false, see
`C59_not_covariance`. -/
theorem C59_covariance_partial (n : ℕ) (hn : 0 < n) (hd : Nat.sqrt n ∣ n)
    (ranks : List (List (Sample ι X 𝕜))) (hr : ranks ≠ []) (h : ∀ l ∈ ranks, l.length = n)
    (r : ι) (b : ℕ) (x : X) :
    mcGradient n ranks r b x
      = sampleMean ranks.flatten (fun s => star s.eloc * logDeriv s r b x)
        - star (sampleMean ranks.flatten (·.eloc)) * sampleMean ranks.flatten (fun s => logDeriv s r b x) := by
  rw [mcGradient_eq n ranks h, mcEnergy_take n hn ranks hr h, Nat.mod_eq_zero_of_dvd hd, Nat.sub_zero]
  congr 4
  rw [← List.flatMap_id]
  apply List.flatMap_congr
  intro l hl
  rw [List.take_of_length_le (by rw [h l hl])]; rfl

/-- **C59.** For every sample count: the gradient is the mean of `E* O*` minus the conjugated mean of
the energies that fell into complete bins times the mean of `O*`. -/
theorem C59_general (n : ℕ) (hn : 0 < n) (ranks : List (List (Sample ι X 𝕜))) (hr : ranks ≠ [])
    (h : ∀ l ∈ ranks, l.length = n) (r : ι) (b : ℕ) (x : X) :
    mcGradient n ranks r b x
      = sampleMean ranks.flatten (fun s => star s.eloc * logDeriv s r b x)
        - star (sampleMean (ranks.flatMap (fun l => l.take (n - n % Nat.sqrt n))) (·.eloc))
          * sampleMean ranks.flatten (fun s => logDeriv s r b x) := by
  rw [mcGradient_eq n ranks h, mcEnergy_take n hn ranks hr h]

/-- The same sample with the energy shifted by a constant. -/
def Sample.shift (c : 𝕜) (s : Sample ι X 𝕜) : Sample ι X 𝕜 := { s with eloc := s.eloc + c }

/-- **C59.** For every sample count, adding a constant to the Hamiltonian shifts the reported energy by
that constant and does not change the gradient. -/
theorem C59_shift_invariant (n : ℕ) (hn : 0 < n) (ranks : List (List (Sample ι X 𝕜))) (hr : ranks ≠ [])
    (h : ∀ l ∈ ranks, l.length = n) (c : 𝕜) (r : ι) (b : ℕ) (x : X) :
    mcEnergy (ranks.map (fun l => l.map (·.shift c))) = mcEnergy ranks + c ∧
    mcGradient n (ranks.map (fun l => l.map (·.shift c))) r b x = mcGradient n ranks r b x := by
  have hr' : ranks.map (fun l => l.map (·.shift c)) ≠ [] := by simpa using hr
  have h' : ∀ l ∈ ranks.map (fun l => l.map (Sample.shift c)), l.length = n := by
    intro l hl
    obtain ⟨l', hl', rfl⟩ := List.mem_map.1 hl
    rw [List.length_map, h l' hl']
  have mean_shift : ∀ l : List (Sample ι X 𝕜), l ≠ [] →
      sampleMean (l.map (Sample.shift c)) (·.eloc) = sampleMean l (·.eloc) + c := by
    intro l hl
    have hlen : (l.length : 𝕜) ≠ 0 := by
      exact_mod_cast (List.length_pos_iff.2 hl).ne'
    unfold sampleMean
    rw [List.length_map, List.map_map]
    have : (List.map ((fun s : Sample ι X 𝕜 => s.eloc) ∘ Sample.shift c) l).sum
        = (List.map (·.eloc) l).sum + l.length * c := by
      clear hl hlen
      induction l with
      | nil => simp
      | cons a l ih =>
        rw [List.map_cons, List.sum_cons, ih, List.map_cons, List.sum_cons, List.length_cons]
        simp only [Function.comp, Sample.shift]
        push_cast; ring
    rw [this, add_div, mul_div_cancel_left₀ _ hlen]
  have hE : mcEnergy (ranks.map (fun l => l.map (·.shift c))) = mcEnergy ranks + c := by
    rw [mcEnergy_take n hn _ hr' h', mcEnergy_take n hn _ hr h]
    rw [show ((ranks.map (fun l => l.map (Sample.shift c))).flatMap (fun l => l.take (n - n % Nat.sqrt n)))
      = (ranks.flatMap (fun l => l.take (n - n % Nat.sqrt n))).map (Sample.shift c) from by
        rw [List.flatMap_map, List.map_flatMap]; simp [List.map_take]]
    apply mean_shift
    obtain ⟨a, l, rfl⟩ := List.exists_cons_of_ne_nil hr
    have hal : a.length = n := h a List.mem_cons_self
    have hmod : n % Nat.sqrt n < n := by
      have h1 : n % Nat.sqrt n < Nat.sqrt n := Nat.mod_lt _ (Nat.sqrt_pos.2 hn)
      have h2 := Nat.sqrt_le_self n
      omega
    intro h0
    have h1 := congrArg List.length h0
    rw [List.flatMap_cons, List.length_append, List.length_take, hal] at h1
    simp only [List.length_nil] at h1
    omega
  refine ⟨hE, ?_⟩
  rw [mcGradient_eq n _ h', mcGradient_eq n _ h, hE, ← List.map_flatten]
  have hld : ∀ s : Sample ι X 𝕜, logDeriv (s.shift c) r b x = logDeriv s r b x := fun s => rfl
  have e1 : sampleMean (ranks.flatten.map (Sample.shift c)) (fun s => star s.eloc * logDeriv s r b x)
      = sampleMean ranks.flatten (fun s => star s.eloc * logDeriv s r b x)
        + star c * sampleMean ranks.flatten (fun s => logDeriv s r b x) := by
    unfold sampleMean
    rw [List.length_map, List.map_map, mul_div_assoc', ← add_div]
    congr 1
    induction ranks.flatten with
    | nil => simp
    | cons a l ih =>
      simp only [List.map_cons, List.sum_cons, ih]
      simp only [Function.comp, hld, Sample.shift, star_add]
      ring_nf
      rw [show logDeriv { config := a.config, amplitude := a.amplitude, eloc := a.eloc + c, holes := a.holes } r b x
        = logDeriv a r b x from rfl]
      ring
  have e2 : sampleMean (ranks.flatten.map (Sample.shift c)) (fun s => logDeriv s r b x)
      = sampleMean ranks.flatten (fun s => logDeriv s r b x) := by
    unfold sampleMean
    rw [List.length_map, List.map_map]; rfl
  rw [e1, e2, star_add]
  ring

/-- A sample of a one-parameter state whose logarithmic derivative is the same in every configuration. -/
noncomputable def constSample (e : ℝ) : Sample Unit Unit ℝ := ⟨fun _ => 0, 1, e, fun _ _ => 1⟩

/-- **C59.** The full claim fails: with five samples on one process (bin size two, the fifth sample
enters no bin) a parameter whose `O*` is the same in every sample, e.g. the norm of the state, gets a
nonzero gradient although every covariance with a constant is zero. -/
theorem C59_not_covariance : ∃ ranks : List (List (Sample Unit Unit ℝ)),
    (∀ l ∈ ranks, l.length = 5) ∧ (∀ s ∈ ranks.flatten, logDeriv s () 0 () = 1) ∧
    mcGradient 5 ranks () 0 () = 1 / 5 ∧
    sampleMean ranks.flatten (fun s => star s.eloc * logDeriv s () 0 ())
        - star (sampleMean ranks.flatten (·.eloc)) * sampleMean ranks.flatten (fun s => logDeriv s () 0 ()) = 0 := by
  refine ⟨[[constSample 0, constSample 0, constSample 0, constSample 0, constSample 1]], ?_, ?_, ?_, ?_⟩
  · simp
  · simp [constSample, logDeriv]
  · rw [C59_general 5 (by norm_num) _ (by simp) (by simp)]
    have : Nat.sqrt 5 = 2 := by norm_num
    rw [this]
    simp [sampleMean, constSample, logDeriv]
  · simp [sampleMean, constSample, logDeriv]
    norm_num

/-- Four samples per process on two processes meet the hypotheses of the partial theorem. -/
example : mcGradient 4 [[constSample 0, constSample 1, constSample 2, constSample 3],
    [constSample 4, constSample 5, constSample 6, constSample 8]] () 0 () = 0 := by
  rw [C59_covariance_partial 4 (by norm_num) (by norm_num) _ (by simp) (by simp)]
  simp [sampleMean, constSample, logDeriv]
  norm_num

/-! ## Exact-summation measurement -/

section measure

variable {Key : Type*} [DecidableEq Key]

/-- **C73.** If every configuration yields the same observables with the same numbers of values, the
exact-summation measurement returns, for every number of processes (also more processes than
configurations), exactly those observables, each value being its `|Ψ|²`-average; and it refuses when
the total weight is not positive. -/
theorem C73_exact_measurement (eval : ℕ → 𝕜 × Obs Key 𝕜) (keys : Key → Prop) (len : Key → ℕ) (n size : ℕ)
    (hn : 0 < n) (hs : 0 < size) (hd : ∀ i, i < n → Declares keys len (eval i).2) :
    let ψ := fun i => (eval i).1
    (0 < totalWeight ψ n → ∃ t, exactMeasure eval n size = .ok t ∧ (∀ k, ¬ keys k → t k = none) ∧
      ∀ k, keys k → ∃ l, t k = some l ∧ l.length = len k ∧
        ∀ j, j < len k → l.getD j 0 = bornMean ψ n (fun i => valueAt (eval i).2 k j)) ∧
    (¬ 0 < totalWeight ψ n → exactMeasure eval n size = .nonPositiveWeight) := by
  intro ψ
  choose tb h1 h2 h3 h4 using fun rank => measureRank_spec eval keys len n size rank hs hd
  have hall : allTables ((List.range size).map (measureRank eval n size)) = some ((List.range size).map tb) :=
    allTables_eq _ _ _ (fun a _ => by rw [h1 a])
  have hhead : (List.range size).map tb = tb 0 :: (List.range' 1 (size - 1)).map tb := by
    rw [range_head size hs, List.map_cons]
  have hw : ((List.range size).map (measureRank eval n size)).foldl (fun s st => s + st.1) 0
      = totalWeight ψ n := by
    rw [foldl_add, zero_add, List.map_map]
    unfold totalWeight
    rw [← sum_strided n size hs]
    congr 1; apply List.map_congr_left; intro k _
    simp only [Function.comp]; rw [h1 k]
  have hr0 : strided n size 0 ≠ [] := by
    rw [strided, dif_pos ⟨hn, hs⟩]; simp
  -- the reduced value of every key
  have hred : ∀ k, keys k → ∃ l0, tb 0 k = some l0 ∧ ∃ l,
      (if size > 1 then reduceSum l0.length ((tb 0 :: (List.range' 1 (size - 1)).map tb).map
        (fun t => localBuf t l0.length k)) else some l0) = some l ∧
      IsVec l (len k) (fun j => ∑ i ∈ range n, ((‖ψ i‖ ^ 2 : ℝ) : 𝕜) * valueAt (eval i).2 k j) := by
    intro k hk
    rcases h4 0 k hk with ⟨l0, e0, hv0⟩ | ⟨e0, _⟩
    · refine ⟨l0, e0, ?_⟩
      by_cases hsz : size > 1
      · rw [if_pos hsz, ← hhead, hv0.1, List.map_map]
        obtain ⟨l, e, hv⟩ := reduceSum_vec (len k) (List.range size) (fun a => localBuf (tb a) (len k) k) _
          (fun a _ => localBuf_vec (tb a) (len k) k _ (h4 a k hk))
        refine ⟨l, e, hv.1, fun j hj => ?_⟩
        rw [hv.2 j hj]
        exact sum_strided n size hs (fun i => ((‖ψ i‖ ^ 2 : ℝ) : 𝕜) * valueAt (eval i).2 k j)
      · rw [if_neg hsz]
        refine ⟨l0, rfl, hv0.1, fun j hj => ?_⟩
        have h11 : size = 1 := by omega
        rw [hv0.2 j hj]
        dsimp only
        have := sum_strided n size hs (fun i => ((‖ψ i‖ ^ 2 : ℝ) : 𝕜) * valueAt (eval i).2 k j)
        rw [← this, h11]
        simp [ψ]
    · exact absurd e0 (h3 0 hr0 k hk)
  have hred' : ∀ k, keys k → ∃ l,
      reducedKey size (tb 0) (tb 0 :: (List.range' 1 (size - 1)).map tb) k = some (some l) ∧
      IsVec l (len k) (fun j => ∑ i ∈ range n, ((‖ψ i‖ ^ 2 : ℝ) : 𝕜) * valueAt (eval i).2 k j) := by
    intro k hk
    obtain ⟨l0, e0, l, e, hv⟩ := hred k hk
    refine ⟨l, ?_, hv⟩
    unfold reducedKey
    rw [e0]
    dsimp only
    rw [e]; rfl
  have hredn : ∀ k, ¬ keys k →
      reducedKey size (tb 0) (tb 0 :: (List.range' 1 (size - 1)).map tb) k = some none := by
    intro k hk
    unfold reducedKey
    rw [h2 0 k hk]
  have hno : ¬ ∃ k, reducedKey size (tb 0) (tb 0 :: (List.range' 1 (size - 1)).map tb) k = none := by
    rintro ⟨k, hk⟩
    by_cases hkk : keys k
    · obtain ⟨l, e, _⟩ := hred' k hkk
      rw [e] at hk; simp at hk
    · rw [hredn k hkk] at hk; simp at hk
  have hunf : exactMeasure eval n size =
      if ¬ (0 < totalWeight ψ n) then .nonPositiveWeight
      else .ok (fun k =>
        ((reducedKey size (tb 0) (tb 0 :: (List.range' 1 (size - 1)).map tb) k).getD none).map
          (fun l => l.map (fun v => v / ((totalWeight ψ n : ℝ) : 𝕜)))) := by
    unfold exactMeasure
    rw [if_neg (by omega)]
    dsimp only
    rw [hall, hhead]
    dsimp only
    rw [hw, if_neg hno]
  constructor
  · intro hpos
    rw [if_neg (not_not.2 hpos)] at hunf
    refine ⟨_, hunf, ?_, ?_⟩
    · intro k hk
      rw [hredn k hk]; rfl
    · intro k hk
      obtain ⟨l, e, hv⟩ := hred' k hk
      refine ⟨l.map (fun v => v / ((totalWeight ψ n : ℝ) : 𝕜)), ?_, by simp [hv.1], ?_⟩
      · rw [e]; rfl
      · intro j hj
        have := hv.2 j hj
        have hlt : j < l.length := by rw [hv.1]; exact hj
        unfold bornMean
        dsimp only at this ⊢
        rw [← this]
        simp [List.getD_eq_getElem?_getD, hlt]
  · intro hpos
    rw [if_pos hpos] at hunf
    exact hunf

/-- An empty list of configurations is refused. -/
theorem C73_empty_refused (eval : ℕ → 𝕜 × Obs Key 𝕜) (size : ℕ) :
    exactMeasure eval 0 size = .emptyConfigs := by
  unfold exactMeasure; rw [if_pos rfl]

/-- The hypotheses of `C73_exact_measurement` are met by an energy and a two-site magnetisation. -/
example : ∀ i, i < 2 → Declares (fun k => k = "energy" ∨ k = "spin_z") (fun k => if k = "energy" then 1 else 2)
    ((fun i : ℕ => ((i : ℝ) + 1, [("energy", [(i : ℝ)]), ("spin_z", [1, -1])])) i).2 := by
  intro i _
  refine ⟨by simp, fun k => by simp, ?_⟩
  simp

end measure

end QLPeps.Evaluator
