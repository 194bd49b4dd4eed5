import Verif.Lemmas.PepsSquare

/-!
# The rounds over the four bonds, and the weights around the square
-/

namespace QLPeps.Peps

open QLPeps.Peps.Spec

variable {𝕜 : Type*} [RCLike 𝕜]

/-! ## Transfer tensors -/

theorem transferOf_eq {g : Tn 𝕜} {a x y z b : ℕ} (hg : g.shape = [a, x, y, z, b]) :
    (transferOf g).shape = [a, a, b, b] ∧ ∀ i i' j j', (transferOf g).elem [i, i', j, j'] =
      ∑ m ∈ Finset.range x, ∑ n ∈ Finset.range y, ∑ k ∈ Finset.range z,
        g.elem [i, m, n, k, j] * (starRingEnd 𝕜) (g.elem [i', m, n, k, j']) := by
  obtain ⟨sh, g⟩ := g
  obtain rfl : sh = _ := hg
  exact ⟨rfl, fun _ _ _ _ => rfl⟩

theorem two_diag {t : Tn 𝕜} {a a' b b' : ℕ} (ht : t.shape = [a, a', b, b']) (d : Diag) :
    (contractN (contractN t [2] d.ten [0]) [2] (dag d.ten) [0]).shape = [a, a', d.dim, d.dim] ∧
    ∀ i i' j j', j < b → j' < b' →
      (contractN (contractN t [2] d.ten [0]) [2] (dag d.ten) [0]).elem [i, i', j, j'] =
        t.elem [i, i', j, j'] * (d.val j : 𝕜) * (d.val j' : 𝕜) := by
  obtain ⟨sh, t⟩ := t
  obtain rfl : sh = _ := ht
  refine ⟨rfl, fun i i' j j' hj hj' => ?_⟩
  change ∑ m ∈ Finset.range b', (∑ k ∈ Finset.range b, t [i, i', k, m] *
    (if k = j then (d.val k : 𝕜) else 0)) * (starRingEnd 𝕜) (if m = j' then (d.val m : 𝕜) else 0) = _
  rw [Finset.sum_eq_single j' (fun m _ h => by rw [if_neg h, map_zero, mul_zero])
    (fun h => absurd (Finset.mem_range.2 hj') h), if_pos rfl, RCLike.conj_ofReal,
    Finset.sum_eq_single j (fun m _ h => by rw [if_neg h, mul_zero])
    (fun h => absurd (Finset.mem_range.2 hj) h), if_pos rfl]

theorem pair_mul {t u : Tn 𝕜} {a a' b b' c c' e e' : ℕ} (ht : t.shape = [a, a', b, b'])
    (hu : u.shape = [e, e', c, c']) : (contractN t [2, 3] u [0, 1]).shape = [a, a', c, c'] ∧
    ∀ i i' j j', (contractN t [2, 3] u [0, 1]).elem [i, i', j, j'] =
      ∑ m ∈ Finset.range b, ∑ n ∈ Finset.range b', t.elem [i, i', m, n] * u.elem [m, n, j, j'] := by
  obtain ⟨sh, t⟩ := t
  obtain rfl : sh = _ := ht
  obtain ⟨sh, u⟩ := u
  obtain rfl : sh = _ := hu
  exact ⟨rfl, fun _ _ _ _ => rfl⟩

theorem upsilonStep_shape {l : Loop 𝕜} {D d : Fin 4 → ℕ} {E : Fin 4 → ℕ × ℕ} (hf : LoopFits l D d E)
    (i j : Fin 4) {t : Tn 𝕜} {a b : ℕ} (ht : t.shape = [a, a, b, b]) :
    (upsilonStep l i t j).shape = [a, a, D (i + j), D (i + j)] := by
  obtain ⟨t1, _⟩ := two_diag ht (l.lam (i + j - 1))
  obtain ⟨t2, _⟩ := transferOf_eq (hf.shape (i + j))
  exact (pair_mul t1 t2).1

theorem upsilons_shape {l : Loop 𝕜} {D d : Fin 4 → ℕ} {E : Fin 4 → ℕ × ℕ} (hf : LoopFits l D d E)
    (i : Fin 4) : (upsilons l i).shape = [D (i + 3), D (i + 3), D (i + 3), D (i + 3)] :=
  upsilonStep_shape hf i 3 (upsilonStep_shape hf i 2 (upsilonStep_shape hf i 1
    (transferOf_eq (hf.shape i)).1))

/-! ## Rounds -/

/-- the shapes of a state of the rounds -/
structure StFits (st : LoopSt 𝕜) (D d : Fin 4 → ℕ) (E : Fin 4 → ℕ × ℕ) : Prop where
  loop : LoopFits st.loop D d E
  ups : ∀ i, (st.ups i).shape = [D (i + 3), D (i + 3), D (i + 3), D (i + 3)]

theorem gaugeRound_eq {lib : LoopLib 𝕜} (hlib : LoopExact lib) {para : LoopPara}
    (htol : 0 ≤ para.invTol) {st st' : LoopSt 𝕜} {D d : Fin 4 → ℕ} {E : Fin 4 → ℕ × ℕ}
    (hf : StFits st D d E) {i : Fin 4} (hr : gaugeRound lib para st i = some st')
    (hsp : ∀ x ∈ st'.spectra, Above para.invTol x) :
    (∃ D', StFits st' D' d E) ∧ (∀ x e, ringAt st'.loop x e = ringAt st.loop x e) ∧
      (∀ x ∈ st.spectra, x ∈ st'.spectra) ∧ st'.errs = st.errs := by
  simp only [gaugeRound, Option.map_eq_some_iff] at hr
  obtain ⟨r, hr, rfl⟩ := hr
  obtain ⟨⟨X, Y, hs, hh, ht⟩, hu⟩ := gaugeFix_eq hlib htol hr
    fun x hx => hsp x (List.mem_append_right _ hx)
  obtain ⟨h1, h2⟩ := through_ring hf.loop i hs
  have hl : (⟨Function.update (Function.update st.loop.g (i + 3) r.tail) i r.head,
      Function.update st.loop.lam (i + 3) r.sigma⟩ : Loop 𝕜) = through st.loop i X Y r.sigma := by
    rw [hh, ht]
    rfl
  refine ⟨⟨Function.update D (i + 3) r.sigma.dim, ⟨by simpa only [hl] using h1, fun j => ?_⟩⟩,
    fun x e => by simpa only [hl] using h2 x e, fun x hx => List.mem_append_left _ hx, rfl⟩
  by_cases hj : j = i
  · subst hj
    simp only [Function.update_self]
    refine hu ?_
    rw [hf.loop.dim]
    exact hf.ups j
  · have : j + 3 ≠ i + 3 := fun h => hj (add_right_cancel h)
    simp only [Function.update_of_ne hj, Function.update_of_ne this]
    exact hf.ups j

theorem fetRound_eq {lib : LoopLib 𝕜} (hlib : LoopExact lib) {para : LoopPara}
    {st st' : LoopSt 𝕜} {D d : Fin 4 → ℕ} {E : Fin 4 → ℕ × ℕ} (hf : LoopFits st.loop D d E)
    {i : Fin 4} (hu : (st.ups i).shape = [D (i + 3), D (i + 3), D (i + 3), D (i + 3)])
    (hr : fetRound lib para st i = some st') (he : ∀ x ∈ st'.errs, x = 0) :
    (∃ n, LoopFits st'.loop (Function.update D (i + 3) n) d E) ∧
      (∀ x e, ringAt st'.loop x e = ringAt st.loop x e) ∧
      (∀ x ∈ st.errs, x ∈ st'.errs) ∧ st'.spectra = st.spectra ∧ st'.ups = st.ups := by
  simp only [fetRound, Option.map_eq_some_iff] at hr
  obtain ⟨r, hr, rfl⟩ := hr
  have hs := fet_eq hlib (by rw [hf.dim]; exact hu) hr fun x hx => he x (List.mem_append_right _ hx)
  obtain ⟨h1, h2⟩ := through_ring hf i hs
  exact ⟨⟨_, h1⟩, h2, fun x hx => List.mem_append_left _ hx, rfl, rfl⟩

/-- the four rounds of the gauge fixing -/
theorem gaugeRounds_eq {lib : LoopLib 𝕜} (hlib : LoopExact lib) {para : LoopPara}
    (htol : 0 ≤ para.invTol) {st st' : LoopSt 𝕜} {D d : Fin 4 → ℕ} {E : Fin 4 → ℕ × ℕ}
    (hf : StFits st D d E) (hr : fourRounds (gaugeRound lib para) st = some st')
    (hsp : ∀ x ∈ st'.spectra, Above para.invTol x) :
    (∃ D', StFits st' D' d E) ∧ (∀ x e, ringAt st'.loop x e = ringAt st.loop x e) ∧
      st'.errs = st.errs := by
  simp only [fourRounds, Option.bind_eq_some_iff] at hr
  obtain ⟨s1, r1, s2, r2, s3, r3, r4⟩ := hr
  have mono : ∀ {s s' : LoopSt 𝕜} {i : Fin 4}, gaugeRound lib para s i = some s' →
      ∀ x ∈ s.spectra, x ∈ s'.spectra := by
    intro s s' i h
    simp only [gaugeRound, Option.map_eq_some_iff] at h
    obtain ⟨r, _, rfl⟩ := h
    exact fun x hx => List.mem_append_left _ hx
  have h3 := fun x hx => hsp x (mono r4 x hx)
  have h2 := fun x hx => h3 x (mono r3 x hx)
  have h1 := fun x hx => h2 x (mono r2 x hx)
  obtain ⟨⟨D1, f1⟩, e1, -, g1⟩ := gaugeRound_eq hlib htol hf r1 h1
  obtain ⟨⟨D2, f2⟩, e2, -, g2⟩ := gaugeRound_eq hlib htol f1 r2 h2
  obtain ⟨⟨D3, f3⟩, e3, -, g3⟩ := gaugeRound_eq hlib htol f2 r3 h3
  obtain ⟨f4, e4, -, g4⟩ := gaugeRound_eq hlib htol f3 r4 hsp
  exact ⟨f4, fun x e => by rw [e4, e3, e2, e1], by rw [g4, g3, g2, g1]⟩

/-- the four rounds of the full environment truncation -/
theorem fetRounds_eq {lib : LoopLib 𝕜} (hlib : LoopExact lib) {para : LoopPara}
    {st st' : LoopSt 𝕜} {D d : Fin 4 → ℕ} {E : Fin 4 → ℕ × ℕ}
    (hf : StFits st D d E) (hr : fourRounds (fetRound lib para) st = some st')
    (he : ∀ x ∈ st'.errs, x = 0) :
    (∃ D', LoopFits st'.loop D' d E) ∧ (∀ x e, ringAt st'.loop x e = ringAt st.loop x e) ∧
      st'.spectra = st.spectra := by
  simp only [fourRounds, Option.bind_eq_some_iff] at hr
  obtain ⟨s1, r1, s2, r2, s3, r3, r4⟩ := hr
  have mono : ∀ {s s' : LoopSt 𝕜} {i : Fin 4}, fetRound lib para s i = some s' →
      ∀ x ∈ s.errs, x ∈ s'.errs := by
    intro s s' i h
    simp only [fetRound, Option.map_eq_some_iff] at h
    obtain ⟨r, _, rfl⟩ := h
    exact fun x hx => List.mem_append_left _ hx
  have h3 := fun x hx => he x (mono r4 x hx)
  have h2 := fun x hx => h3 x (mono r3 x hx)
  have h1 := fun x hx => h2 x (mono r2 x hx)
  have hu := hf.ups
  obtain ⟨⟨n1, f1⟩, e1, -, g1, u1⟩ := fetRound_eq hlib hf.loop (hu 0) r1 h1
  obtain ⟨⟨n2, f2⟩, e2, -, g2, u2⟩ := fetRound_eq hlib f1 (by rw [u1]; exact hu 1) r2 h2
  obtain ⟨⟨n3, f3⟩, e3, -, g3, u3⟩ := fetRound_eq hlib f2 (by rw [u2, u1]; exact hu 2) r3 h3
  obtain ⟨⟨n4, f4⟩, e4, -, g4, -⟩ := fetRound_eq hlib f3 (by rw [u3, u2, u1]; exact hu 3) r4 he
  exact ⟨⟨_, f4⟩, fun x e => by rw [e4, e3, e2, e1], by rw [g4, g3, g2, g1]⟩

/-! ## Weights around the square -/

theorem eat_one {g : Tn 𝕜} {a x y z b : ℕ} (hg : g.shape = [a, x, y, z, b]) (l : Diag) :
    (contractN g [2] l.ten [1]).shape = [a, x, z, b, l.dim] ∧ ∀ i m k n j, j < y →
      (contractN g [2] l.ten [1]).elem [i, m, k, n, j] = g.elem [i, m, j, k, n] * (l.val j : 𝕜) := by
  obtain ⟨sh, g⟩ := g
  obtain rfl : sh = _ := hg
  refine ⟨rfl, fun i m k n j hj => ?_⟩
  change ∑ p ∈ Finset.range y, g [i, m, p, k, n] * (if j = p then (l.val j : 𝕜) else 0) = _
  rw [Finset.sum_eq_single j (fun m _ h => by rw [if_neg h.symm, mul_zero])
    (fun h => absurd (Finset.mem_range.2 hj) h), if_pos rfl]

theorem eat_turn {t : Tn 𝕜} {a x y z b : ℕ} (ht : t.shape = [a, x, b, y, z]) :
    (transpose [0, 1, 3, 4, 2] t).shape = [a, x, y, z, b] ∧ ∀ i m j k n,
      (transpose [0, 1, 3, 4, 2] t).elem [i, m, j, k, n] = t.elem [i, m, n, j, k] := by
  obtain ⟨sh, t⟩ := t
  obtain rfl : sh = _ := ht
  exact ⟨rfl, fun _ _ _ _ _ => rfl⟩

theorem eat2_eq {g : Tn 𝕜} {a x y z b : ℕ} (hg : g.shape = [a, x, y, z, b]) (l r : Diag)
    (hl : l.dim = y) (hr : r.dim = z) :
    (eat2 g l r).shape = [a, x, y, z, b] ∧ ∀ i m j k n, j < y → k < z →
      (eat2 g l r).elem [i, m, j, k, n] =
        g.elem [i, m, j, k, n] * ((l.val j : 𝕜) * (r.val k : 𝕜)) := by
  obtain ⟨s1, e1⟩ := eat_one hg l
  obtain ⟨s2, e2⟩ := eat_one s1 r
  obtain ⟨s3, e3⟩ := eat_turn s2
  rw [hl, hr] at s3
  refine ⟨s3, fun i m j k n hj hk => ?_⟩
  rw [eat2, e3, e2 _ _ _ _ _ hk, e1 _ _ _ _ _ hj, mul_assoc]

theorem split2_eq (tol : ℝ) (g : Tn 𝕜) (l r : Diag) :
    split2 tol g l r = eat2 g (diagInv tol l) (diagInv tol r) := rfl

/-- four tensors multiplied by functions of their outer legs -/
theorem ringAt_scale {l l' : Loop 𝕜} {x : Fin 4 → ℕ} {e : Fin 4 → ℕ × ℕ} {c : Fin 4 → 𝕜}
    (hd : ∀ i, (l'.lam i).dim = (l.lam i).dim)
    (h : ∀ i, ∀ a < (l.lam (i + 3)).dim, ∀ b < (l.lam i).dim,
      (l'.g i).elem [a, x i, (e i).1, (e i).2, b] * ((l'.lam i).val b : 𝕜) =
        (l.g i).elem [a, x i, (e i).1, (e i).2, b] * ((l.lam i).val b : 𝕜) * c i) :
    ringAt l' x e = ringAt l x e * (c 0 * c 1 * c 2 * c 3) := by
  unfold ringAt ring4
  simp only [hd, Finset.sum_mul]
  refine Finset.sum_congr rfl fun k0 h0 => Finset.sum_congr rfl fun k1 h1 =>
    Finset.sum_congr rfl fun k2 h2 => Finset.sum_congr rfl fun k3 h3 => ?_
  have m0 := Finset.mem_range.1 h0
  have m1 := Finset.mem_range.1 h1
  have m2 := Finset.mem_range.1 h2
  have m3 := Finset.mem_range.1 h3
  have a0 := h 0 k3 m3 k0 m0
  have a1 := h 1 k0 m0 k1 m1
  have a2 := h 2 k1 m1 k2 m2
  have a3 := h 3 k2 m2 k3 m3
  rw [a0, a1, a2, a3]
  ring

theorem diagNorm_mul (d : Diag) {i : ℕ} (hi : i < d.dim) :
    diagNorm d * (diagNormalized d).val i = d.val i := by
  simp only [diagNormalized]
  by_cases h : diagNorm d = 0
  · have h0 : d.val i ^ 2 ≤ 0 := by
      have := Finset.single_le_sum (f := fun i => d.val i ^ 2) (fun i _ => sq_nonneg _)
        (Finset.mem_range.2 hi)
      rw [diagNorm, Real.sqrt_eq_zero (Finset.sum_nonneg fun i _ => sq_nonneg _)] at h
      rwa [h] at this
    rw [h, zero_mul, pow_eq_zero_iff two_ne_zero |>.1 (le_antisymm h0 (sq_nonneg _))]
  · rw [mul_div_cancel₀ _ h]

theorem fromMps_to (i : Fin 4) {t : Tn 𝕜} {a x y z b : ℕ} (ht : t.shape = [a, x, y, z, b]) :
    (toMps i (fromMps i t)).shape = [a, x, y, z, b] ∧
    ∀ k m n q j, (toMps i (fromMps i t)).elem [k, m, n, q, j] = t.elem [k, m, n, q, j] := by
  obtain ⟨sh, t⟩ := t
  obtain rfl : sh = _ := ht
  fin_cases i <;> exact ⟨rfl, fun _ _ _ _ _ => rfl⟩

theorem norm2_toMps_mul (i : Fin 4) {t : Tn 𝕜} {a x y z b : ℕ} (ht : t.shape = [a, x, y, z, b])
    {k m n q j : ℕ} (hk : k < a) (hm : m < x) (hn : n < y) (hq : q < z) (hj : j < b) :
    (norm2 (fromMps i t) : 𝕜) * (toMps i (normalized (fromMps i t))).elem [k, m, n, q, j] =
      t.elem [k, m, n, q, j] := by
  obtain ⟨sh, t⟩ := t
  obtain rfl : sh = _ := ht
  fin_cases i
  · exact norm2_mul (fromMps 0 (⟨[a, x, y, z, b], t⟩ : Tn 𝕜)) (x := [n, k, j, q, m])
      (valid5 hn hk hj hq hm)
  · exact norm2_mul (fromMps 1 (⟨[a, x, y, z, b], t⟩ : Tn 𝕜)) (x := [k, j, n, q, m])
      (valid5 hk hj hn hq hm)
  · exact norm2_mul (fromMps 2 (⟨[a, x, y, z, b], t⟩ : Tn 𝕜)) (x := [j, n, q, k, m])
      (valid5 hj hn hq hk hm)
  · exact norm2_mul (fromMps 3 (⟨[a, x, y, z, b], t⟩ : Tn 𝕜)) (x := [n, q, k, j, m])
      (valid5 hn hq hk hj hm)

end QLPeps.Peps
