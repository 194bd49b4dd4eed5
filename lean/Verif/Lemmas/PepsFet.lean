import Verif.Lemmas.PepsGauge

/-!
# Full environment truncation without truncation keeps the weights
-/

namespace QLPeps.Peps

open QLPeps.Peps.Spec

variable {𝕜 : Type*} [RCLike 𝕜]

theorem valid2_inv {a b : ℕ} {y : List ℕ} (h : Valid [a, b] y) :
    ∃ i j, i < a ∧ j < b ∧ y = [i, j] := by
  unfold Valid at h
  obtain ⟨i, z, hi, hz, rfl⟩ := List.forall₂_cons_right_iff.1 h
  obtain ⟨j, w, hj, hw, rfl⟩ := List.forall₂_cons_right_iff.1 hz
  cases hw
  exact ⟨i, j, hi, hj, rfl⟩

theorem fet_core_r {n M : ℕ} {v u S : ℕ → ℕ → 𝕜} {s k : ℕ → 𝕜} {Y : ℕ → ℕ → ℕ → 𝕜}
    (h : ∀ c < n, ∀ a < n, ∑ m ∈ Finset.range M, v c m * s m * u m a = S c a) :
    ∑ m ∈ Finset.range M, ∑ c ∈ Finset.range n, v c m * s m *
      ∑ b ∈ Finset.range n, (∑ a ∈ Finset.range n, u m a * Y a b c) * k b =
    ∑ b ∈ Finset.range n, k b * ∑ a ∈ Finset.range n, ∑ c ∈ Finset.range n, Y a b c * S c a := by
  have e : ∀ b ∈ Finset.range n, k b * ∑ a ∈ Finset.range n, ∑ c ∈ Finset.range n, Y a b c * S c a =
      ∑ m ∈ Finset.range M, ∑ c ∈ Finset.range n, ∑ a ∈ Finset.range n,
        v c m * s m * (u m a * Y a b c * k b) := fun b _ => by
    rw [Finset.sum_comm, Finset.mul_sum, Finset.sum_comm]
    refine Finset.sum_congr rfl fun c hc => ?_
    rw [Finset.mul_sum, Finset.sum_comm]
    refine Finset.sum_congr rfl fun a ha => ?_
    rw [← h c (Finset.mem_range.1 hc) a (Finset.mem_range.1 ha), Finset.mul_sum, Finset.mul_sum]
    exact Finset.sum_congr rfl fun m _ => by ring
  conv_rhs => rw [Finset.sum_congr rfl e, Finset.sum_comm]
  refine Finset.sum_congr rfl fun m _ => ?_
  rw [Finset.sum_comm]
  refine Finset.sum_congr rfl fun c _ => ?_
  rw [Finset.mul_sum]
  refine Finset.sum_congr rfl fun b _ => ?_
  rw [Finset.sum_mul, Finset.mul_sum]

theorem fet_core_l {n M : ℕ} {v u S : ℕ → ℕ → 𝕜} {s k : ℕ → 𝕜} {Y : ℕ → ℕ → ℕ → 𝕜}
    (h : ∀ c < n, ∀ a < n, ∑ m ∈ Finset.range M, v c m * s m * u m a = S c a) :
    ∑ a ∈ Finset.range n, ∑ m ∈ Finset.range M, s m * u m a *
      ∑ d ∈ Finset.range n, (∑ c ∈ Finset.range n, Y a c d * v c m) * k d =
    ∑ d ∈ Finset.range n, (∑ a ∈ Finset.range n, ∑ c ∈ Finset.range n, Y a c d * S c a) * k d := by
  have e : ∀ d ∈ Finset.range n, (∑ a ∈ Finset.range n, ∑ c ∈ Finset.range n, Y a c d * S c a) * k d =
      ∑ a ∈ Finset.range n, ∑ m ∈ Finset.range M, ∑ c ∈ Finset.range n,
        s m * u m a * (Y a c d * v c m * k d) := fun d _ => by
    rw [Finset.sum_mul]
    refine Finset.sum_congr rfl fun a ha => ?_
    rw [Finset.sum_mul, Finset.sum_comm]
    refine Finset.sum_congr rfl fun c hc => ?_
    rw [← h c (Finset.mem_range.1 hc) a (Finset.mem_range.1 ha), Finset.mul_sum, Finset.sum_mul]
    exact Finset.sum_congr rfl fun m _ => by ring
  conv_rhs => rw [Finset.sum_congr rfl e, Finset.sum_comm]
  refine Finset.sum_congr rfl fun a _ => ?_
  rw [Finset.sum_comm]
  refine Finset.sum_congr rfl fun m _ => ?_
  rw [Finset.mul_sum]
  refine Finset.sum_congr rfl fun d _ => ?_
  rw [Finset.sum_mul, Finset.mul_sum]

/-- the truncating factorization, when nothing is cut -/
theorem fetSvd_eq {lib : LoopLib 𝕜} (hlib : LoopExact lib) {old : Diag} {t : Tn 𝕜}
    (ht : t.shape = [old.dim, old.dim])
    (he : ∀ a < old.dim, ∀ b < old.dim, t.elem [a, b] = if a = b then (old.val a : 𝕜) else 0)
    (errs : List ℝ) : (∃ x, (fetSvd lib t errs).errs = errs ++ [x]) ∧
      ((∀ e ∈ (fetSvd lib t errs).errs, e = 0) →
      Splits (fetSvd lib t errs).vdag (fetSvd lib t errs).u (fetSvd lib t errs).sigma old) := by
  obtain ⟨h1, h2, h3⟩ := matSvd_eq (svd := lib.svdT) lib.dirIn (C := fun e => e = 0) hlib.svdT_shape
    hlib.svdT ht
  refine ⟨⟨_, rfl⟩, fun hz => ⟨h1, h2, fun a ha b hb => ?_⟩⟩
  rw [← he a ha b hb]
  exact h3 (hz _ (by simp [fetSvd])) a ha b hb

/-- the right-hand side common to both halves -/
theorem su_eq {ups : Tn 𝕜} {old : Diag} (hu : ups.shape = [old.dim, old.dim, old.dim, old.dim]) :
    (contractN ups [0, 2] old.ten [1, 0]).shape = [old.dim, old.dim] ∧
    ∀ b d, (contractN ups [0, 2] old.ten [1, 0]).elem [b, d] =
      ∑ a ∈ Finset.range old.dim, ∑ c ∈ Finset.range old.dim,
        ups.elem [a, b, c, d] * (if c = a then (old.val c : 𝕜) else 0) := by
  obtain ⟨sh, Y⟩ := ups
  obtain rfl : sh = _ := hu
  obtain ⟨n, dv⟩ := old
  exact ⟨rfl, fun _ _ => rfl⟩

theorem fetRight_eq {lib : LoopLib 𝕜} (hlib : LoopExact lib) {ups : Tn 𝕜} {old : Diag}
    (hu : ups.shape = [old.dim, old.dim, old.dim, old.dim]) {s s1 : Fet 𝕜}
    (hs : Splits s.vdag s.u s.sigma old)
    (hr : fetRight lib ups (contractN ups [0, 2] old.ten [1, 0]) s = some s1) :
    (∃ x, s1.errs = s.errs ++ [x]) ∧
      ((∀ e ∈ s1.errs, e = 0) → Splits s1.vdag s1.u s1.sigma old) := by
  obtain ⟨sus, sue⟩ := su_eq hu
  generalize contractN ups [0, 2] old.ten [1, 0] = su at *
  simp only [fetRight, Option.map_eq_some_iff] at hr
  obtain ⟨x, hx, rfl⟩ := hr
  obtain ⟨v, sg, u, errs⟩ := s
  obtain ⟨n, o⟩ := old
  obtain ⟨hl, hri, heq⟩ := hs
  dsimp only at *
  have pe : (contractN (dag u) [1] su [0]).shape = [sg.dim, n] ∧ ∀ m d,
      (contractN (dag u) [1] su [0]).elem [m, d] =
        ∑ b ∈ Finset.range n, (starRingEnd 𝕜) (u.elem [m, b]) * su.elem [b, d] :=
    nm (t := dag u) hri sus
  obtain ⟨r1, r2⟩ := nd hl sg
  have re : (transpose [1, 0] (contractN v [1] sg.ten [0])).shape = [sg.dim, n] ∧ ∀ m c, m < sg.dim →
      (transpose [1, 0] (contractN v [1] sg.ten [0])).elem [m, c] =
        v.elem [c, m] * (sg.val m : 𝕜) := by
    refine ⟨by simp only [transpose, r1]; rfl, fun m c hm => ?_⟩
    rw [← r2 c m hm]
    rfl
  have be : (transpose [0, 1, 3, 2] (contractN (contractN u [1] ups [0]) [1] (dag u) [1])).shape =
      [sg.dim, n, sg.dim, n] ∧ ∀ m c m' d,
      (transpose [0, 1, 3, 2] (contractN (contractN u [1] ups [0]) [1] (dag u) [1])).elem
        [m, c, m', d] = ∑ b ∈ Finset.range n, (∑ a ∈ Finset.range n, u.elem [m, a] *
          ups.elem [a, b, c, d]) * (starRingEnd 𝕜) (u.elem [m', b]) := by
    obtain ⟨sh, u⟩ := u
    obtain rfl : sh = _ := hri
    obtain ⟨sh, Y⟩ := ups
    obtain rfl : sh = _ := hu
    exact ⟨rfl, fun _ _ _ _ => rfl⟩
  generalize contractN (dag u) [1] su [0] = p at *
  generalize transpose [1, 0] (contractN v [1] sg.ten [0]) = r0 at *
  generalize transpose [0, 1, 3, 2] (contractN (contractN u [1] ups [0]) [1] (dag u) [1]) = B at *
  have me : (btenMul B r0).shape = [sg.dim, n] ∧ ∀ m' d, (btenMul B r0).elem [m', d] =
      ∑ m ∈ Finset.range sg.dim, ∑ c ∈ Finset.range n, r0.elem [m, c] * B.elem [m, c, m', d] := by
    obtain ⟨sh, B⟩ := B
    obtain rfl : sh = _ := be.1
    obtain ⟨sh, r0⟩ := r0
    obtain rfl : sh = _ := re.1
    exact ⟨rfl, fun _ _ => rfl⟩
  obtain ⟨x1, x2⟩ := hlib.cg _ _ _ _ hx
  have x2 := x2 (by rw [me.1, pe.1]) (fun y hy => by
    rw [pe.1] at hy
    obtain ⟨m', d, hm', hd, rfl⟩ := valid2_inv hy
    rw [me.2, pe.2]
    simp only [sue]
    refine Eq.trans ?_ (fet_core_r (k := fun b => (starRingEnd 𝕜) (u.elem [m', b]))
      (Y := fun a b c => ups.elem [a, b, c, d]) (S := fun c a => if c = a then (o c : 𝕜) else 0)
      (v := fun c m => v.elem [c, m]) (u := fun m a => u.elem [m, a])
      (s := fun m => (sg.val m : 𝕜)) heq)
    refine Finset.sum_congr rfl fun m hm => Finset.sum_congr rfl fun c _ => ?_
    rw [re.2 _ _ (Finset.mem_range.1 hm), be.2])
  rw [re.1] at x1 x2
  have te : (contractN x [0] u [0]).shape = [n, n] ∧ ∀ c a, (contractN x [0] u [0]).elem [c, a] =
      ∑ m ∈ Finset.range sg.dim, x.elem [m, c] * u.elem [m, a] := by
    obtain ⟨sh, u⟩ := u
    obtain rfl : sh = _ := hri
    obtain ⟨sh, x⟩ := x
    obtain rfl : sh = _ := x1
    exact ⟨rfl, fun _ _ => rfl⟩
  refine fetSvd_eq hlib (old := ⟨n, o⟩) te.1 (fun a ha b hb => ?_) errs
  rw [te.2, ← heq a ha b hb]
  refine Finset.sum_congr rfl fun m hm => ?_
  rw [x2 _ (valid2 (Finset.mem_range.1 hm) ha), re.2 _ _ (Finset.mem_range.1 hm)]

theorem fetLeft_eq {lib : LoopLib 𝕜} (hlib : LoopExact lib) {ups : Tn 𝕜} {old : Diag}
    (hu : ups.shape = [old.dim, old.dim, old.dim, old.dim]) {s s1 : Fet 𝕜}
    (hs : Splits s.vdag s.u s.sigma old)
    (hr : fetLeft lib ups (contractN ups [0, 2] old.ten [1, 0]) s = some s1) :
    (∃ x, s1.errs = s.errs ++ [x]) ∧
      ((∀ e ∈ s1.errs, e = 0) → Splits s1.vdag s1.u s1.sigma old) := by
  obtain ⟨sus, sue⟩ := su_eq hu
  generalize contractN ups [0, 2] old.ten [1, 0] = su at *
  simp only [fetLeft, Option.map_eq_some_iff] at hr
  obtain ⟨x, hx, rfl⟩ := hr
  obtain ⟨v, sg, u, errs⟩ := s
  obtain ⟨n, o⟩ := old
  obtain ⟨hl, hri, heq⟩ := hs
  dsimp only at *
  have pe : (contractN su [1] (dag v) [0]).shape = [n, sg.dim] ∧ ∀ b m,
      (contractN su [1] (dag v) [0]).elem [b, m] =
        ∑ d ∈ Finset.range n, su.elem [b, d] * (starRingEnd 𝕜) (v.elem [d, m]) :=
    nm (u := dag v) sus hl
  have re : (transpose [1, 0] (contractN sg.ten [1] u [0])).shape = [n, sg.dim] ∧ ∀ a m, m < sg.dim →
      (transpose [1, 0] (contractN sg.ten [1] u [0])).elem [a, m] =
        (sg.val m : 𝕜) * u.elem [m, a] := by
    obtain ⟨sh, u⟩ := u
    obtain rfl : sh = _ := hri
    obtain ⟨M, sv⟩ := sg
    refine ⟨rfl, fun a m hm => ?_⟩
    change ∑ k ∈ Finset.range M, (if m = k then (sv m : 𝕜) else 0) * u [k, a] = _
    rw [Finset.sum_eq_single m (fun k _ h => by rw [if_neg h.symm, zero_mul])
      (fun h => absurd (Finset.mem_range.2 hm) h), if_pos rfl]
  have be : (transpose [0, 2, 1, 3] (contractN (contractN ups [2] v [0]) [2] (dag v) [0])).shape =
      [n, sg.dim, n, sg.dim] ∧ ∀ a m b m',
      (transpose [0, 2, 1, 3] (contractN (contractN ups [2] v [0]) [2] (dag v) [0])).elem
        [a, m, b, m'] = ∑ d ∈ Finset.range n, (∑ c ∈ Finset.range n, ups.elem [a, b, c, d] *
          v.elem [c, m]) * (starRingEnd 𝕜) (v.elem [d, m']) := by
    obtain ⟨sh, v⟩ := v
    obtain rfl : sh = _ := hl
    obtain ⟨sh, Y⟩ := ups
    obtain rfl : sh = _ := hu
    exact ⟨rfl, fun _ _ _ _ => rfl⟩
  generalize contractN su [1] (dag v) [0] = p at *
  generalize transpose [1, 0] (contractN sg.ten [1] u [0]) = r0 at *
  generalize transpose [0, 2, 1, 3] (contractN (contractN ups [2] v [0]) [2] (dag v) [0]) = B at *
  have me : (btenMul B r0).shape = [n, sg.dim] ∧ ∀ b m', (btenMul B r0).elem [b, m'] =
      ∑ a ∈ Finset.range n, ∑ m ∈ Finset.range sg.dim, r0.elem [a, m] * B.elem [a, m, b, m'] := by
    obtain ⟨sh, B⟩ := B
    obtain rfl : sh = _ := be.1
    obtain ⟨sh, r0⟩ := r0
    obtain rfl : sh = _ := re.1
    exact ⟨rfl, fun _ _ => rfl⟩
  obtain ⟨x1, x2⟩ := hlib.cg _ _ _ _ hx
  have x2 := x2 (by rw [me.1, pe.1]) (fun y hy => by
    rw [pe.1] at hy
    obtain ⟨b, m', hb, hm', rfl⟩ := valid2_inv hy
    rw [me.2, pe.2]
    simp only [sue]
    refine Eq.trans ?_ (fet_core_l (k := fun d => (starRingEnd 𝕜) (v.elem [d, m']))
      (Y := fun a c d => ups.elem [a, b, c, d]) (S := fun c a => if c = a then (o c : 𝕜) else 0)
      (v := fun c m => v.elem [c, m]) (u := fun m a => u.elem [m, a])
      (s := fun m => (sg.val m : 𝕜)) heq)
    refine Finset.sum_congr rfl fun a _ => Finset.sum_congr rfl fun m hm => ?_
    rw [re.2 _ _ (Finset.mem_range.1 hm), be.2])
  rw [re.1] at x1 x2
  have te := nmT hl x1
  refine fetSvd_eq hlib (old := ⟨n, o⟩) te.1 (fun a ha b hb => ?_) errs
  rw [te.2, ← heq a ha b hb]
  refine Finset.sum_congr rfl fun m hm => ?_
  rw [x2 _ (valid2 hb (Finset.mem_range.1 hm)), re.2 _ _ (Finset.mem_range.1 hm), mul_assoc]

theorem fetLoop_eq {lib : LoopLib 𝕜} (hlib : LoopExact lib) {tol : ℝ} {ups : Tn 𝕜} {old : Diag}
    (hu : ups.shape = [old.dim, old.dim, old.dim, old.dim]) (n : ℕ) {last : Diag} {s r : Fet 𝕜}
    (hs : (∀ e ∈ s.errs, e = 0) → Splits s.vdag s.u s.sigma old)
    (hr : fetLoop lib tol ups (contractN ups [0, 2] old.ten [1, 0]) n last s = some r)
    (he : ∀ e ∈ r.errs, e = 0) :
    (∀ e ∈ s.errs, e = 0) ∧ Splits r.vdag r.u r.sigma old := by
  suffices h : (∃ x, r.errs = s.errs ++ x) ∧ Splits r.vdag r.u r.sigma old by
    obtain ⟨⟨x, hx⟩, h⟩ := h
    exact ⟨fun e h' => he e (by rw [hx]; exact List.mem_append_left _ h'), h⟩
  have grow : ∀ (n : ℕ) (last : Diag) (s r : Fet 𝕜),
      fetLoop lib tol ups (contractN ups [0, 2] old.ten [1, 0]) n last s = some r →
      ∃ x, r.errs = s.errs ++ x := by
    intro n
    induction n with
    | zero =>
      intro last s r h
      obtain rfl := Option.some.inj h
      exact ⟨[], by simp⟩
    | succ n ih =>
      intro last s r h
      simp only [fetLoop, Option.bind_eq_some_iff] at h
      obtain ⟨s1, h1, s2, h2, h3⟩ := h
      have g1 : ∃ x, s1.errs = s.errs ++ x := by
        simp only [fetRight, Option.map_eq_some_iff] at h1
        obtain ⟨x, _, rfl⟩ := h1
        exact ⟨_, rfl⟩
      have g2 : ∃ x, s2.errs = s1.errs ++ x := by
        simp only [fetLeft, Option.map_eq_some_iff] at h2
        obtain ⟨x, _, rfl⟩ := h2
        exact ⟨_, rfl⟩
      have g3 : ∃ x, r.errs = s2.errs ++ x := by
        split at h3
        · obtain rfl := Option.some.inj h3
          exact ⟨[], by simp⟩
        · exact ih _ _ _ h3
      obtain ⟨x1, g1⟩ := g1
      obtain ⟨x2, g2⟩ := g2
      obtain ⟨x3, g3⟩ := g3
      exact ⟨x1 ++ x2 ++ x3, by rw [g3, g2, g1]; simp⟩
  have zero_of : ∀ {a b : List ℝ}, (∃ x, b = a ++ x) → (∀ e ∈ b, e = 0) → ∀ e ∈ a, e = 0 := by
    rintro a b ⟨x, rfl⟩ h e he
    exact h e (List.mem_append_left _ he)
  refine ⟨grow _ _ _ _ hr, ?_⟩
  induction n generalizing last s with
  | zero =>
    obtain rfl := Option.some.inj hr
    exact hs he
  | succ n ih =>
    have g := hr
    simp only [fetLoop, Option.bind_eq_some_iff] at hr
    obtain ⟨s1, h1, s2, h2, h3⟩ := hr
    have e2 : ∀ e ∈ s2.errs, e = 0 := by
      refine zero_of ?_ he
      split at h3
      · obtain rfl := Option.some.inj h3
        exact ⟨[], by simp⟩
      · exact grow _ _ _ _ h3
    have hs0 := hs (zero_of (grow _ _ _ _ g) he)
    obtain ⟨⟨x1, g1⟩, k1⟩ := fetRight_eq hlib hu hs0 h1
    have e1 : ∀ e ∈ s1.errs, e = 0 := by
      refine zero_of ?_ e2
      simp only [fetLeft, Option.map_eq_some_iff] at h2
      obtain ⟨x, _, rfl⟩ := h2
      exact ⟨_, rfl⟩
    obtain ⟨_, k2⟩ := fetLeft_eq hlib hu (k1 e1) h2
    split at h3
    · obtain rfl := Option.some.inj h3
      exact k2 e2
    · exact ih (fun _ => k2 e2) h3

/-- a truncation that cuts nothing keeps the weights -/
theorem fet_eq {lib : LoopLib 𝕜} (hlib : LoopExact lib) {para : LoopPara} {ups : Tn 𝕜} {old : Diag}
    (hu : ups.shape = [old.dim, old.dim, old.dim, old.dim]) {r : Fet 𝕜}
    (hr : fet lib para ups old = some r) (he : ∀ e ∈ r.errs, e = 0) :
    Splits r.vdag r.u r.sigma old :=
  (fetLoop_eq hlib hu _ (fun h => (fetSvd_eq hlib rfl (fun a ha b hb => rfl) []).2 h) hr he).2

end QLPeps.Peps
