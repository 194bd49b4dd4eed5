import Verif.Spec.State

/-! # Lemmas on the state model -/

namespace QLPeps.State

open Finset

variable {Ten : Type*}

theorem Uniform.phys {d : ℕ} {a : Sitps Ten} (h : Uniform d a) : a.phys = d := h.2.2 0 h.1 0 h.2.1

theorem Uniform.has {d : ℕ} {a b : Sitps Ten} (h : Uniform d a) (hb : Uniform d b)
    (hr : b.rows = a.rows) (hc : b.cols = a.cols) : b.Has a.rows a.cols a.phys := by
  refine ⟨hb.1, hb.2.1, hr.ge, hc.ge, fun r h1 c h2 => ?_⟩
  rw [h.phys, hb.2.2 r (by omega) c (by omega)]

theorem Uniform.has_self {d : ℕ} {a : Sitps Ten} (h : Uniform d a) :
    a.Has a.rows a.cols a.phys := h.has h rfl rfl

theorem comp_mapRange (d : ℕ) (f : ℕ → Option Ten) (i : ℕ) (hi : i < d) :
    ((List.range d).map f).getD i none = f i := by
  rw [List.getD_eq_getElem?_getD, List.getElem?_map, List.getElem?_range hi]; rfl

theorem binary_uniform (f : Option Ten → Option Ten → Option Ten) {d : ℕ} {a b : Sitps Ten}
    (ha : Uniform d a) (hb : Uniform d b) (hr : b.rows = a.rows) (hc : b.cols = a.cols) :
    ∃ s, binary f a b = some s ∧ s.rows = a.rows ∧ s.cols = a.cols ∧ s.bc = .obc ∧ Uniform d s ∧
      ∀ r c i, i < d → s.comp r c i = f (a.comp r c i) (b.comp r c i) := by
  refine ⟨_, if_pos ⟨ha.has_self, ha.has hb hr hc⟩, rfl, rfl, rfl, ⟨ha.1, ha.2.1, ?_⟩, ?_⟩
  · intro r _ c _; simp [ha.phys]
  · intro r c i hi
    simp only [Sitps.comp, ha.phys]
    exact comp_mapRange d (fun i => f ((a.comps r c).getD i none) ((b.comps r c).getD i none)) i hi

theorem unary_uniform (f : Ten → Ten) {d : ℕ} {a : Sitps Ten} (ha : Uniform d a) :
    ∃ s, unary f a = some s ∧ s.rows = a.rows ∧ s.cols = a.cols ∧ s.bc = .obc ∧ Uniform d s ∧
      ∀ r c i, i < d → s.comp r c i = (a.comp r c i).map f := by
  refine ⟨_, if_pos ha.has_self, rfl, rfl, rfl, ⟨ha.1, ha.2.1, ?_⟩, ?_⟩
  · intro r _ c _; simp [ha.phys]
  · intro r c i hi
    simp only [Sitps.comp, ha.phys]
    exact comp_mapRange d (fun i => ((a.comps r c).getD i none).map f) i hi

theorem getD_mapIdx (l : List (Option Ten)) (f : ℕ → Option Ten → Option Ten) (i : ℕ)
    (hi : i < l.length) : (l.mapIdx f).getD i none = f i (l.getD i none) := by
  rw [List.getD_eq_getElem?_getD, List.getD_eq_getElem?_getD, List.getElem?_mapIdx,
    List.getElem?_eq_getElem hi]
  rfl

theorem inPlace_uniform (f : Ten → Ten) {d : ℕ} {a : Sitps Ten} (ha : Uniform d a) :
    ∃ s, inPlace f a = some s ∧ s.rows = a.rows ∧ s.cols = a.cols ∧ s.bc = a.bc ∧ Uniform d s ∧
      ∀ r < a.rows, ∀ c < a.cols, ∀ i < d, s.comp r c i = (a.comp r c i).map f := by
  refine ⟨_, if_pos ha.has_self, rfl, rfl, rfl, ⟨ha.1, ha.2.1, ?_⟩, ?_⟩
  · intro r hr c hc; simp only [List.length_mapIdx]; exact ha.2.2 r hr c hc
  · intro r hr c hc i hi
    simp only [Sitps.comp]
    rw [getD_mapIdx _ _ _ (by rw [ha.2.2 r hr c hc]; exact hi), ha.phys, if_pos hi]

section
variable {𝕜 : Type*} [RCLike 𝕜] [NormedAddCommGroup Ten] [InnerProductSpace 𝕜 Ten]

theorem addAssign_uniform {d : ℕ} {a b : Sitps Ten}
    (ha : Uniform d a) (hb : Uniform d b) (hr : b.rows = a.rows) (hc : b.cols = a.cols) :
    ∃ s, addAssign a b = some s ∧ s.rows = a.rows ∧ s.cols = a.cols ∧ s.bc = a.bc ∧ Uniform d s ∧
      ∀ r < a.rows, ∀ c < a.cols, ∀ i < d,
        s.comp r c i = addAssignComp (a.comp r c i) (b.comp r c i) := by
  refine ⟨_, if_pos ⟨ha.has_self, ha.has hb hr hc⟩, rfl, rfl, rfl, ⟨ha.1, ha.2.1, ?_⟩, ?_⟩
  · intro r hr c hc; simp only [List.length_mapIdx]; exact ha.2.2 r hr c hc
  · intro r hr c hc i hi
    simp only [Sitps.comp]
    rw [getD_mapIdx _ _ _ (by rw [ha.2.2 r hr c hc]; exact hi), ha.phys, if_pos hi]

theorem addComp_value (x y : Option Ten) : (addComp x y).getD 0 = x.getD 0 + y.getD 0 := by
  cases x <;> cases y <;> simp [addComp]

theorem addAssignComp_eq (x y : Option Ten) : addAssignComp x y = addComp x y := by
  cases x <;> cases y <;> rfl

theorem map_value (f : Ten → Ten) (h0 : f 0 = 0) (x : Option Ten) :
    (x.map f).getD 0 = f (x.getD 0) := by
  cases x <;> simp [h0]

theorem innerComp_value (x y : Option Ten) :
    innerComp (𝕜 := 𝕜) x y = inner 𝕜 (x.getD 0) (y.getD 0) := by
  cases x <;> cases y <;> simp [innerComp]

theorem normSqComp_value (x : Option Ten) : normSqComp x = ‖x.getD 0‖ ^ 2 := by
  cases x <;> simp [normSqComp]

theorem foldl_sum {M : Type*} [AddCommMonoid M] (n : ℕ) (f : ℕ → M) (s : M) :
    (List.range n).foldl (fun s i => s + f i) s = s + ∑ i ∈ range n, f i := by
  induction n generalizing s with
  | zero => simp
  | succ n ih => rw [List.range_succ, List.foldl_append, ih, sum_range_succ]; simp [add_assoc]

theorem triple_foldl {M : Type*} [AddCommMonoid M] (l m n : ℕ) (f : ℕ → ℕ → ℕ → M) :
    (List.range l).foldl (fun s r => (List.range m).foldl (fun s c =>
      (List.range n).foldl (fun s i => s + f r c i) s) s) 0
      = ∑ r ∈ range l, ∑ c ∈ range m, ∑ i ∈ range n, f r c i := by
  simp only [foldl_sum, zero_add]

/-! ## rescaling a site -/

theorem scaleSite_comp (k : 𝕜) (site : ℕ × ℕ) (a : Sitps Ten) (r c i : ℕ) :
    (scaleSite k site a).comp r c i
      = if (r, c) = site then (a.comp r c i).map (fun x => k • x) else a.comp r c i := by
  simp only [Sitps.comp, scaleSite]
  split
  · rw [List.getD_eq_getElem?_getD, List.getD_eq_getElem?_getD, List.getElem?_map]
    cases (a.comps r c)[i]? <;> rfl
  · rfl

theorem scaleSite_vec (k : 𝕜) (site : ℕ × ℕ) (a : Sitps Ten) (r c i : ℕ) :
    (scaleSite k site a).vec r c i
      = if (r, c) = site then k • a.vec r c i else a.vec r c i := by
  simp only [Sitps.vec, scaleSite_comp]
  split
  · exact map_value _ (smul_zero k) _
  · rfl

theorem scaleSite_amp (Ψ : (ℕ × ℕ → Ten) → 𝕜) {rows cols : ℕ} (hΨ : Homogeneous rows cols Ψ)
    (k : 𝕜) (r c : ℕ) (hr : r < rows) (hc : c < cols) (a : Sitps Ten) (S : ℕ × ℕ → ℕ) :
    ampOf Ψ (scaleSite k (r, c) a) S = k * ampOf Ψ a S := by
  rw [ampOf, ampOf, ← hΨ.2 _ r c hr hc k]
  congr 1
  funext s
  rw [scaleSite_vec]
  by_cases h : s = (r, c)
  · subst h; simp
  · rw [if_neg (by simpa [Prod.ext_iff] using h), Function.update_of_ne h]

theorem scaleSite_uniform (k : 𝕜) (site : ℕ × ℕ) {d : ℕ} {a : Sitps Ten} (h : Uniform d a) :
    Uniform d (scaleSite k site a) := by
  refine ⟨h.1, h.2.1, fun r hr c hc => ?_⟩
  have := h.2.2 r hr c hc
  simp only [scaleSite]
  split
  · rw [List.length_map]; exact this
  · exact this

theorem foldl_normSq (l : List (Option Ten)) :
    l.foldl (fun s x => s + normSqComp x) (0 : ℝ)
      = ∑ i ∈ range l.length, ‖(l.getD i none).getD 0‖ ^ 2 := by
  have : ∀ (l : List (Option Ten)) (s : ℝ), l.foldl (fun s x => s + normSqComp x) s
      = s + ∑ i ∈ range l.length, ‖(l.getD i none).getD 0‖ ^ 2 := by
    intro l
    induction l with
    | nil => intro s; simp
    | cons x l ih =>
      intro s
      rw [List.foldl_cons, ih, List.length_cons, sum_range_succ', normSqComp_value]
      simp only [List.getD_cons_succ, List.getD_cons_zero]
      ring
  rw [this, zero_add]

theorem normalizeSite_spec {d : ℕ} {a : Sitps Ten} (h : Uniform d a) (r c : ℕ) (hr : r < a.rows)
    (hc : c < a.cols) :
    (normalizeSite (𝕜 := 𝕜) (r, c) a).2 = Real.sqrt (siteNormSq a r c d) ∧
    (normalizeSite (𝕜 := 𝕜) (r, c) a).1
      = scaleSite ((1 / Real.sqrt (siteNormSq a r c d) : ℝ) : 𝕜) (r, c) a := by
  have : (a.comps r c).foldl (fun s x => s + normSqComp x) (0 : ℝ) = siteNormSq a r c d := by
    rw [foldl_normSq, h.2.2 r hr c hc]; rfl
  simp only [normalizeSite, this, and_self]

theorem siteNormSq_nonneg (a : Sitps Ten) (r c d : ℕ) : 0 ≤ siteNormSq a r c d :=
  sum_nonneg fun _ _ => by positivity

theorem siteNormSq_scale (k : ℝ) (a : Sitps Ten) (r c d : ℕ) :
    siteNormSq (scaleSite ((k : ℝ) : 𝕜) (r, c) a) r c d = k ^ 2 * siteNormSq a r c d := by
  unfold siteNormSq
  rw [mul_sum]
  refine sum_congr rfl fun i _ => ?_
  rw [scaleSite_vec, if_pos rfl, norm_smul, RCLike.norm_ofReal, mul_pow, sq_abs]

theorem siteNormSq_scale_other (k : 𝕜) (a : Sitps Ten) (site : ℕ × ℕ) (r c d : ℕ)
    (h : (r, c) ≠ site) : siteNormSq (scaleSite k site a) r c d = siteNormSq a r c d := by
  unfold siteNormSq
  exact sum_congr rfl fun i _ => by rw [scaleSite_vec, if_neg h]

/-- largest modulus over the components of a site -/
theorem foldl_max_ge (maxAbs : Ten → ℝ) (l : List (Option Ten)) (m : ℝ) :
    m ≤ l.foldl (fun s x => match x with
      | none => s
      | some x => max s (maxAbs x)) m ∧
    (∀ x, some x ∈ l → maxAbs x ≤ l.foldl (fun s x => match x with
      | none => s
      | some x => max s (maxAbs x)) m) ∧
    (l.foldl (fun s x => match x with
      | none => s
      | some x => max s (maxAbs x)) m = m ∨ ∃ x, some x ∈ l ∧
        maxAbs x = l.foldl (fun s x => match x with
      | none => s
      | some x => max s (maxAbs x)) m) := by
  induction l generalizing m with
  | nil => exact ⟨le_refl _, by simp, Or.inl rfl⟩
  | cons y l ih =>
    rw [List.foldl_cons]
    cases y with
    | none =>
      obtain ⟨h1, h2, h3⟩ := ih m
      refine ⟨h1, fun x hx => h2 x (by simpa using hx), ?_⟩
      rcases h3 with h | ⟨x, hx, h⟩
      · exact Or.inl h
      · exact Or.inr ⟨x, by simp [hx], h⟩
    | some y =>
      obtain ⟨h1, h2, h3⟩ := ih (max m (maxAbs y))
      dsimp only at h1 h2 h3 ⊢
      refine ⟨le_trans (le_max_left _ _) h1, fun x hx => ?_, ?_⟩
      · rcases List.mem_cons.1 hx with e | hx
        · rw [Option.some.inj e]; exact le_trans (le_max_right _ _) h1
        · exact h2 x hx
      · rcases h3 with h | ⟨x, hx, h⟩
        · rw [h]
          rcases max_choice m (maxAbs y) with e | e
          · exact Or.inl e
          · exact Or.inr ⟨y, by simp, e.symm⟩
        · exact Or.inr ⟨x, by simp [hx], h⟩

/-! ## rescaling every site -/

/-- one step of the loops over all sites: rescale the site by a number depending only on its own
tensors -/
def rescale (κ : List (Option Ten) → 𝕜) (φ : List (Option Ten) → ℝ)
    (s : Sitps Ten × List ℝ) (p : ℕ × ℕ) : Sitps Ten × List ℝ :=
  (scaleSite (κ (s.1.comps p.1 p.2)) p s.1, s.2 ++ [φ (s.1.comps p.1 p.2)])

theorem nested_foldl {σ : Type*} (R C : ℕ) (f : σ → ℕ × ℕ → σ) (s : σ) :
    (List.range R).foldl (fun s r => (List.range C).foldl (fun s c => f s (r, c)) s) s
      = ((List.range R).flatMap fun r => (List.range C).map fun c => (r, c)).foldl f s := by
  rw [List.foldl_flatMap]
  congr 1
  funext s r
  rw [List.foldl_map]

theorem grid_nodup (R C : ℕ) :
    ((List.range R).flatMap fun r => (List.range C).map fun c => (r, c)).Nodup := by
  rw [List.nodup_flatMap]
  refine ⟨fun r _ => List.nodup_range.map (by intro a b h; simpa using h), ?_⟩
  refine List.nodup_range.imp_of_mem (fun {r r'} _ _ h => ?_)
  simp only [Function.onFun, List.disjoint_left, List.mem_map]
  rintro p ⟨c, _, rfl⟩ ⟨c', _, e⟩
  exact h (by simpa using (Prod.ext_iff.1 e).1.symm)

theorem mem_grid (R C r c : ℕ) :
    (r, c) ∈ (List.range R).flatMap (fun r => (List.range C).map fun c => (r, c))
      ↔ r < R ∧ c < C := by
  simp [List.mem_flatMap]

theorem rescale_fold (κ : List (Option Ten) → 𝕜) (φ : List (Option Ten) → ℝ) (L : List (ℕ × ℕ)) :
    ∀ (a : Sitps Ten) (acc : List ℝ), L.Nodup →
      (L.foldl (rescale κ φ) (a, acc)).1.rows = a.rows ∧
      (L.foldl (rescale κ φ) (a, acc)).1.cols = a.cols ∧
      (L.foldl (rescale κ φ) (a, acc)).1.bc = a.bc ∧
      (∀ d, Uniform d a → Uniform d (L.foldl (rescale κ φ) (a, acc)).1) ∧
      (∀ r c, (r, c) ∉ L → (L.foldl (rescale κ φ) (a, acc)).1.comps r c = a.comps r c) ∧
      (∀ r c, (r, c) ∈ L → (L.foldl (rescale κ φ) (a, acc)).1.comps r c
        = (scaleSite (κ (a.comps r c)) (r, c) a).comps r c) ∧
      (L.foldl (rescale κ φ) (a, acc)).2 = acc ++ L.map (fun p => φ (a.comps p.1 p.2)) ∧
      ∀ (rows cols : ℕ) (Ψ : (ℕ × ℕ → Ten) → 𝕜), Homogeneous rows cols Ψ →
        (∀ p ∈ L, p.1 < rows ∧ p.2 < cols ∧
          ((φ (a.comps p.1 p.2) : ℝ) : 𝕜) * κ (a.comps p.1 p.2) = 1) →
        ∀ S, (((L.map fun p => φ (a.comps p.1 p.2)).prod : ℝ) : 𝕜)
          * ampOf Ψ (L.foldl (rescale κ φ) (a, acc)).1 S = ampOf Ψ a S := by
  induction L with
  | nil => intro a acc _; simp
  | cons p L ih =>
    intro a acc hnd
    obtain ⟨hp, hnd⟩ := List.nodup_cons.1 hnd
    obtain ⟨h1, h2, h3, h4, h5, h6, h7, h8⟩ :=
      ih (scaleSite (κ (a.comps p.1 p.2)) p a) (acc ++ [φ (a.comps p.1 p.2)]) hnd
    have step : (p :: L).foldl (rescale κ φ) (a, acc)
        = L.foldl (rescale κ φ)
          (scaleSite (κ (a.comps p.1 p.2)) p a, acc ++ [φ (a.comps p.1 p.2)]) := rfl
    have keep : ∀ r c, (r, c) ≠ p →
        (scaleSite (κ (a.comps p.1 p.2)) p a).comps r c = a.comps r c := by
      intro r c h; simp only [scaleSite, if_neg h]
    have mapEq : L.map (fun q => φ ((scaleSite (κ (a.comps p.1 p.2)) p a).comps q.1 q.2))
        = L.map fun q => φ (a.comps q.1 q.2) := by
      refine List.map_congr_left fun q hq => ?_
      rw [keep q.1 q.2 (by intro h; apply hp; rw [← h]; exact hq)]
    rw [step]
    refine ⟨h1, h2, h3, fun d hd => h4 d (scaleSite_uniform _ _ hd), ?_, ?_, ?_, ?_⟩
    · intro r c h
      rw [h5 r c (fun hm => h (List.mem_cons_of_mem _ hm)),
        keep r c (fun e => h (e ▸ List.mem_cons_self))]
    · intro r c h
      rcases List.mem_cons.1 h with e | h
      · subst e; rw [h5 r c hp]
      · have hne : (r, c) ≠ p := fun e => hp (e ▸ h)
        rw [h6 r c h, keep r c hne]
        simp only [scaleSite, if_neg hne]
    · rw [h7, mapEq]; simp
    · intro rows cols Ψ hΨ hL S
      have hp' := hL p List.mem_cons_self
      have := h8 rows cols Ψ hΨ (by
        intro q hq
        rw [keep q.1 q.2 (by intro h; apply hp; rw [← h]; exact hq)]
        exact hL q (List.mem_cons_of_mem _ hq)) S
      rw [mapEq] at this
      rw [List.map_cons, List.prod_cons, RCLike.ofReal_mul, mul_assoc, this,
        show p = (p.1, p.2) from rfl, scaleSite_amp Ψ hΨ _ _ _ hp'.1 hp'.2.1, ← mul_assoc,
        hp'.2.2, one_mul]

/-- norm of the tensors of one site, as the code computes it -/
noncomputable def normOf (l : List (Option Ten)) : ℝ :=
  Real.sqrt (l.foldl (fun s x => s + normSqComp x) 0)

theorem normOf_eq {d : ℕ} {a : Sitps Ten} (h : Uniform d a) (r c : ℕ) (hr : r < a.rows)
    (hc : c < a.cols) : normOf (a.comps r c) = Real.sqrt (siteNormSq a r c d) := by
  rw [normOf, foldl_normSq, h.2.2 r hr c hc]; rfl

theorem normalizeAll_eq (a : Sitps Ten) :
    normalizeAll (𝕜 := 𝕜) a
      = ((List.range a.rows).flatMap fun r => (List.range a.cols).map fun c => (r, c)).foldl
        (rescale (fun l => ((1 / normOf l : ℝ) : 𝕜)) normOf) (a, []) := by
  rw [← nested_foldl]; rfl

/-- largest modulus of the tensors of one site, as the code computes it -/
noncomputable def maxOf (maxAbs : Ten → ℝ) (l : List (Option Ten)) : ℝ :=
  l.foldl (fun s x => match x with
    | none => s
    | some x => max s (maxAbs x)) 0

theorem scaleMaxAbsSite_eq (maxAbs : Ten → ℝ) (aim : ℝ) (p : ℕ × ℕ) (a : Sitps Ten) :
    scaleMaxAbsSite (𝕜 := 𝕜) maxAbs aim p a
      = (scaleSite ((aim / maxOf maxAbs (a.comps p.1 p.2) : ℝ) : 𝕜) p a,
        1 / (aim / maxOf maxAbs (a.comps p.1 p.2))) := rfl

theorem scaleMaxAbsAll_eq (maxAbs : Ten → ℝ) (aim : ℝ) (a : Sitps Ten) :
    scaleMaxAbsAll (𝕜 := 𝕜) maxAbs aim a
      = ((List.range a.rows).flatMap fun r => (List.range a.cols).map fun c => (r, c)).foldl
        (rescale (fun l => ((aim / maxOf maxAbs l : ℝ) : 𝕜)) fun l => 1 / (aim / maxOf maxAbs l))
        (a, []) := by
  rw [← nested_foldl]; rfl

theorem maxOf_spec (maxAbs : Ten → ℝ) (l : List (Option Ten)) (h : maxOf maxAbs l ≠ 0) :
    0 < maxOf maxAbs l ∧ (∀ x, some x ∈ l → maxAbs x ≤ maxOf maxAbs l) ∧
      ∃ x, some x ∈ l ∧ maxAbs x = maxOf maxAbs l := by
  obtain ⟨h1, h2, h3⟩ := foldl_max_ge maxAbs l 0
  refine ⟨lt_of_le_of_ne h1 (Ne.symm h), h2, ?_⟩
  rcases h3 with e | e
  · exact absurd e h
  · exact e

/-- some tensor of the site has a nonzero entry -/
theorem maxOf_ne (maxAbs : Ten → ℝ) (l : List (Option Ten)) {x : Ten} (hx : some x ∈ l)
    (h : 0 < maxAbs x) : maxOf maxAbs l ≠ 0 :=
  ne_of_gt (lt_of_lt_of_le h ((foldl_max_ge maxAbs l 0).2.1 x hx))

/-! ## the same number on every site -/

theorem homogeneous_list (Ψ : (ℕ × ℕ → Ten) → 𝕜) {rows cols : ℕ} (hΨ : Homogeneous rows cols Ψ)
    (k : 𝕜) (L : List (ℕ × ℕ)) :
    ∀ t, L.Nodup → (∀ p ∈ L, p.1 < rows ∧ p.2 < cols) →
      Ψ (fun p => if p ∈ L then k • t p else t p) = k ^ L.length * Ψ t := by
  induction L with
  | nil => intro t _ _; simp
  | cons p L ih =>
    intro t hnd hL
    obtain ⟨hp, hnd⟩ := List.nodup_cons.1 hnd
    have hb := hL p List.mem_cons_self
    have := ih (Function.update t (p.1, p.2) (k • t (p.1, p.2))) hnd
      (fun q hq => hL q (List.mem_cons_of_mem _ hq))
    rw [hΨ.2 t p.1 p.2 hb.1 hb.2 k] at this
    rw [List.length_cons, pow_succ, mul_assoc, ← this]
    congr 1
    funext q
    by_cases hq : q = p
    · subst hq; simp [hp]
    · simp [hq, List.mem_cons]

theorem homogeneous_all (Ψ : (ℕ × ℕ → Ten) → 𝕜) {rows cols : ℕ} (hΨ : Homogeneous rows cols Ψ)
    (k : 𝕜) (t t' : ℕ × ℕ → Ten) (h : ∀ r < rows, ∀ c < cols, t' (r, c) = k • t (r, c)) :
    Ψ t' = k ^ (rows * cols) * Ψ t := by
  have key := homogeneous_list Ψ hΨ k
    ((List.range rows).flatMap fun r => (List.range cols).map fun c => (r, c)) t
    (grid_nodup _ _) (fun p hp => (mem_grid rows cols p.1 p.2).1 hp)
  rw [show ((List.range rows).flatMap fun r => (List.range cols).map fun c => (r, c)).length
      = rows * cols by simp] at key
  rw [← key]
  refine hΨ.1 _ _ fun r hr c hc => ?_
  rw [if_pos ((mem_grid rows cols r c).2 ⟨hr, hc⟩)]
  exact h r hr c hc

theorem foldl_best (L : List 𝕜) : ∀ b : 𝕜,
    ‖b‖ ≤ ‖L.foldl (fun best a => if ‖best‖ < ‖a‖ then a else best) b‖ ∧
    (∀ a ∈ L, ‖a‖ ≤ ‖L.foldl (fun best a => if ‖best‖ < ‖a‖ then a else best) b‖) ∧
    (L.foldl (fun best a => if ‖best‖ < ‖a‖ then a else best) b = b ∨
      L.foldl (fun best a => if ‖best‖ < ‖a‖ then a else best) b ∈ L) := by
  induction L with
  | nil => intro b; simp
  | cons x L ih =>
    intro b
    rw [List.foldl_cons]
    by_cases h : ‖b‖ < ‖x‖
    · rw [if_pos h]
      obtain ⟨h1, h2, h3⟩ := ih x
      refine ⟨h.le.trans h1, fun a ha => ?_, Or.inr ?_⟩
      · rcases List.mem_cons.1 ha with rfl | ha
        · exact h1
        · exact h2 a ha
      · rcases h3 with e | e
        · rw [e]; exact List.mem_cons_self
        · exact List.mem_cons_of_mem _ e
    · rw [if_neg h]
      obtain ⟨h1, h2, h3⟩ := ih b
      refine ⟨h1, fun a ha => ?_, ?_⟩
      · rcases List.mem_cons.1 ha with rfl | ha
        · exact (not_lt.1 h).trans h1
        · exact h2 a ha
      · rcases h3 with e | e
        · exact Or.inl e
        · exact Or.inr (List.mem_cons_of_mem _ e)

theorem order1Factor_spec (sites : ℕ) (hs : 0 < sites) (amps : List 𝕜) {a0 : 𝕜} (h0 : a0 ∈ amps)
    (hne : a0 ≠ 0) :
    ∃ m ∈ amps, 0 < ‖m‖ ∧ (∀ a ∈ amps, ‖a‖ ≤ ‖m‖) ∧
      0 < order1Factor sites amps ∧ order1Factor sites amps ^ sites = 1 / ‖m‖ := by
  obtain ⟨h1, h2, h3⟩ := foldl_best amps (amps.headD 0)
  have hm : amps.foldl (fun best a => if ‖best‖ < ‖a‖ then a else best) (amps.headD 0) ∈ amps := by
    rcases h3 with e | e
    · rw [e]
      cases amps with
      | nil => simp at h0
      | cons x l => simp
    · exact e
  have hpos := lt_of_lt_of_le (norm_pos_iff.2 hne) (h2 a0 h0)
  refine ⟨_, hm, hpos, h2, Real.rpow_pos_of_pos (by positivity) _, ?_⟩
  have hs' : (sites : ℝ) ≠ 0 := by exact_mod_cast hs.ne'
  simp only [order1Factor]
  rw [← Real.rpow_natCast, ← Real.rpow_mul (by positivity), one_div_mul_cancel hs', Real.rpow_one]

end

/-! ## start-up -/

section Engine
variable {Conf A : Type*}

theorem flags_sum (l : List Bool) :
    (l.map fun b => if b then 1 else 0).sum = l.countP id := by
  induction l with
  | nil => rfl
  | cons b l ih => cases b <;> simp [ih]; omega

theorem flags_all (l : List Bool) :
    (l.map fun b => if b then 1 else 0).sum = l.length ↔ ∀ b ∈ l, b = true := by
  rw [flags_sum, List.countP_eq_length]
  simp

/-- a rank after trying its own initial configuration -/
def tried (construct : Conf → Option A) (r : Rank Conf A) : Rank Conf A :=
  { (tryConstruct construct r.config r).1 with
    initValid := (tryConstruct construct r.config r).2 }

theorem tried_config (construct : Conf → Option A) (r : Rank Conf A) :
    (tried construct r).config = r.config ∧ (tried construct r).warmUp = r.warmUp := by
  unfold tried tryConstruct
  cases construct r.config <;> simp

theorem tried_valid (construct : Conf → Option A) (legal : A → Bool) (r : Rank Conf A) :
    ((tried construct r).initValid && legal (tried construct r).amp) = true ↔
      ∃ a, construct r.config = some a ∧ legal a = true ∧ (tried construct r).amp = a := by
  unfold tried tryConstruct
  cases h : construct r.config <;> simp

/-- what the rescue makes of a rank, given the source rank -/
def rescued (legal : A → Bool) (src r : Rank Conf A) : Rank Conf A :=
  if r.initValid && legal r.amp then r else ⟨src.config, src.amp, true, false⟩

theorem ensure_eq (construct : Conf → Option A) (legal : A → Bool) (enabled : Bool)
    (T : List (Rank Conf A))
    (hT : ∀ r ∈ T, (r.initValid && legal r.amp) = true → construct r.config = some r.amp) :
    ((∀ r ∈ T, (r.initValid && legal r.amp) = true) →
      ensureValidity construct legal enabled T = .ok T) ∧
    (¬ (∀ r ∈ T, (r.initValid && legal r.amp) = true) →
      (enabled = false → ensureValidity construct legal enabled T = .abort) ∧
      (enabled = true →
        ((∀ r ∈ T, (r.initValid && legal r.amp) = false) →
          ensureValidity construct legal enabled T = .abort) ∧
        ∀ src, T[(T.map fun r => r.initValid && legal r.amp).findIdx id]? = some src →
          ensureValidity construct legal enabled T = .ok (T.map (rescued legal src)))) := by
  have hall : (((T.map fun r => r.initValid && legal r.amp).map
      fun b => if b then 1 else 0).sum = T.length) ↔
      ∀ r ∈ T, (r.initValid && legal r.amp) = true := by
    have := flags_all (T.map fun r => r.initValid && legal r.amp)
    rw [List.length_map] at this
    rw [this]
    simp
  refine ⟨fun h => ?_, fun h => ⟨fun he => ?_, fun he => ⟨fun hn => ?_, fun src hs => ?_⟩⟩⟩
  · unfold ensureValidity
    exact if_pos (hall.2 h)
  · unfold ensureValidity
    dsimp only
    rw [if_neg (mt hall.1 h), he]; rfl
  · unfold ensureValidity
    dsimp only
    rw [if_neg (mt hall.1 h), he]
    have : (T.map fun r => r.initValid && legal r.amp).findIdx id = T.length := by
      rw [List.findIdx_eq_length_of_false]
      · simp
      · intro b hb
        obtain ⟨r, hr, rfl⟩ := List.mem_map.1 hb
        exact hn r hr
    rw [this, List.getElem?_eq_none (le_refl _)]; rfl
  · have hv : (src.initValid && legal src.amp) = true := by
      have hlt : (T.map fun r => r.initValid && legal r.amp).findIdx id < T.length := by
        by_contra hge
        rw [List.getElem?_eq_none (not_lt.1 hge)] at hs
        simp at hs
      have h1 := List.findIdx_getElem (xs := T.map fun r => r.initValid && legal r.amp) (p := id)
        (w := by rw [List.length_map]; exact hlt)
      rw [List.getElem_map] at h1
      rw [List.getElem?_eq_getElem hlt, Option.some.injEq] at hs
      rw [hs] at h1
      exact h1
    have hc := hT src (List.mem_of_getElem? hs) hv
    have hdone : (T.map fun r =>
        if r.initValid && legal r.amp then (r, true)
        else ({ (tryConstruct construct src.config r).1 with initValid := true, warmUp := false },
          (tryConstruct construct src.config r).2))
        = T.map fun r => (rescued legal src r, true) := by
      refine List.map_congr_left fun r _ => ?_
      unfold rescued tryConstruct
      rw [hc]
      split <;> rfl
    unfold ensureValidity
    dsimp only
    rw [if_neg (mt hall.1 h), he, hs]
    dsimp only
    rw [hdone]
    simp [List.map_map, Function.comp_def]

end Engine

end QLPeps.State
