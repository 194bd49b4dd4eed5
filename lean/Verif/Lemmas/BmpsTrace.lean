import Verif.Lemmas.BmpsNet

/-! # Boundary tensors and traces of a network -/

namespace QLPeps.Bmps

open QLPeps.Contractor QLPeps.Sweep QLPeps.Box
open QLPeps.Peps (Tn Lib rot contract contractN transpose)
open QLPeps.Peps.Spec (Exact Valid)
open QLPeps.Bmps.Spec (Lossless)

noncomputable section

variable {𝕜 : Type*} [RCLike 𝕜]

/-! ## moving a site from one boundary tensor to the other -/

theorem dot_grow {c e1 s e2 d : Tn 𝕜} {a' X a w b Y b' w' : ℕ} (p : Pos)
    (h1 : e1.shape = [a', X, a]) (hc : c.shape = [a, w, b]) (hs : FShape p s X w Y w')
    (h2 : e2.shape = [b, Y, b']) (hd : d.shape = [b', w', a']) :
    dot (growBTen p c e1 s e2) d = dot c (growBTen (opposite p) d e2 s e1) := by
  obtain ⟨g1, g2⟩ := growBTen_eq p h1 hc hs h2
  obtain ⟨g3, g4⟩ := growBTen_eq (opposite p) h2 hd (FShape_opposite.2 hs) h1
  rw [dot, dot, dot3 g1 hd, dot3 hc g3]
  simp only [g2, g4, Finset.sum_mul, Finset.mul_sum]
  calc ∑ i ∈ Finset.range a', ∑ j ∈ Finset.range w', ∑ k ∈ Finset.range b', ∑ z ∈ Finset.range b,
        ∑ y ∈ Finset.range Y, ∑ x ∈ Finset.range X, ∑ v ∈ Finset.range w, ∑ q ∈ Finset.range a,
          e1.elem [i, x, q] * c.elem [q, v, z] * fe p s x v y j * e2.elem [z, y, k] * d.elem [k, j, i]
      = ∑ x ∈ ((((((Finset.range a' ×ˢ Finset.range w') ×ˢ Finset.range b') ×ˢ Finset.range b) ×ˢ
          Finset.range Y) ×ˢ Finset.range X) ×ˢ Finset.range w) ×ˢ Finset.range a,
          e1.elem [x.1.1.1.1.1.1.1, x.1.1.2, x.2] * c.elem [x.2, x.1.2, x.1.1.1.1.2] *
          fe p s x.1.1.2 x.1.2 x.1.1.1.2 x.1.1.1.1.1.1.2 * e2.elem [x.1.1.1.1.2, x.1.1.1.2, x.1.1.1.1.1.2] *
          d.elem [x.1.1.1.1.1.2, x.1.1.1.1.1.1.2, x.1.1.1.1.1.1.1] := by
        simp only [Finset.sum_product]
    _ = ∑ x ∈ ((((((Finset.range a ×ˢ Finset.range w) ×ˢ Finset.range b) ×ˢ Finset.range a') ×ˢ
          Finset.range X) ×ˢ Finset.range Y) ×ˢ Finset.range w') ×ˢ Finset.range b',
          c.elem [x.1.1.1.1.1.1.1, x.1.1.1.1.1.1.2, x.1.1.1.1.1.2] * (e2.elem [x.1.1.1.1.1.2, x.1.1.2, x.2] *
          d.elem [x.2, x.1.2, x.1.1.1.1.2] *
          fe (opposite p) s x.1.1.2 x.1.2 x.1.1.1.2 x.1.1.1.1.1.1.2 *
          e1.elem [x.1.1.1.1.2, x.1.1.1.2, x.1.1.1.1.1.1.1]) := by
        refine Finset.sum_nbij'
          (fun x => (((((((x.2, x.1.2), x.1.1.1.1.2), x.1.1.1.1.1.1.1), x.1.1.2), x.1.1.1.2),
            x.1.1.1.1.1.1.2), x.1.1.1.1.1.2))
          (fun x => (((((((x.1.1.1.1.2, x.1.2), x.2), x.1.1.1.1.1.2), x.1.1.2), x.1.1.1.2),
            x.1.1.1.1.1.1.2), x.1.1.1.1.1.1.1)) ?_ ?_ ?_ ?_ ?_
        · intro x hx
          simp only [Finset.mem_product] at hx ⊢
          tauto
        · intro x hx
          simp only [Finset.mem_product] at hx ⊢
          tauto
        · intro x _; rfl
        · intro x _; rfl
        · intro x _
          dsimp only
          rw [fe_opposite]
          ring
    _ = _ := by
        simp only [Finset.sum_product]

/-! ## the value of a boundary tensor -/

/-- a chain read backwards -/
def ShpR : List (Tn 𝕜) → ℕ → List ℕ → Prop
  | [], a, ds => a = 1 ∧ ds = []
  | e :: es, a, ds => ∃ d b ds', ds = d :: ds' ∧ e.shape = [b, d, a] ∧ ShpR es b ds'

theorem shpR_aux (es : List (Tn 𝕜)) : ∀ (acc : List (Tn 𝕜)) (A : ℕ) (ds fs : List ℕ), Shp es A ds →
    ShpR acc A fs → ShpR (es.reverse ++ acc) 1 (ds.reverse ++ fs) := by
  induction es with
  | nil =>
    rintro acc A ds fs ⟨rfl, rfl⟩ h
    simpa using h
  | cons e es ih =>
    rintro acc A ds fs ⟨d, b, ds', rfl, h1, h2⟩ h
    simp only [List.reverse_cons, List.append_assoc, List.cons_append, List.nil_append]
    exact ih (e :: acc) b ds' (d :: fs) h2 ⟨d, A, fs, rfl, h1, h⟩

theorem Shp.reverse {es : List (Tn 𝕜)} {ds : List ℕ} (h : Shp es 1 ds) :
    ShpR es.reverse 1 ds.reverse := by
  simpa using shpR_aux es [] 1 ds [] h ⟨rfl, rfl⟩

/-- the boundary tensor of side `opposite p` for the columns in the lists (boundary MPS of side
`next p`, sites, boundary MPS of side `pre p`), first column last -/
def bfold (p : Pos) : List (Tn 𝕜) → List (Tn 𝕜) → List (Tn 𝕜) → Tn 𝕜
  | e2 :: es2, t :: ts, e1 :: es1 => growBTen (opposite p) (bfold p es2 ts es1) e2 t e1
  | _, _, _ => corner [1, 1, 1]

theorem bfold_spec (p : Pos) (ts : List (Tn 𝕜)) : ∀ (es2 es1 : List (Tn 𝕜)) (B W A : ℕ)
    (ds fs : List ℕ), Shp es2 B ds → RShp (next p) ts W ds fs → ShpR es1 A fs →
    (bfold p es2 ts es1).shape = [B, W, A] ∧
    ∀ b < B, ∀ w < W, ∀ a < A, (bfold p es2 ts es1).elem [b, w, a] =
      ∑ ys ∈ box ds, ∑ xs ∈ box fs, mv es2 ys b * rv (next p) ts ys xs w * mvr es1 xs a := by
  induction ts with
  | nil =>
    rintro es2 es1 B W A ds fs h2 ⟨rfl, rfl, rfl⟩ h1
    cases es2 with
    | cons _ _ => obtain ⟨_, _, _, h, _⟩ := h2; exact absurd h (by simp)
    | nil =>
    cases es1 with
    | cons _ _ => obtain ⟨_, _, _, h, _⟩ := h1; exact absurd h (by simp)
    | nil =>
    obtain ⟨rfl, _⟩ := h2
    obtain ⟨rfl, _⟩ := h1
    refine ⟨rfl, ?_⟩
    intro b hb w hw a ha
    obtain rfl : b = 0 := by omega
    obtain rfl : w = 0 := by omega
    obtain rfl : a = 0 := by omega
    rw [sum_box_nil, sum_box_nil]
    simp [mv, rv, mvr, bfold, corner]
  | cons t ts ih =>
    rintro es2 es1 B W A ds fs h2 ⟨Y, W', X, ds', fs', rfl, rfl, ht, hts⟩ h1
    cases es2 with
    | nil => obtain ⟨_, h⟩ := h2; exact absurd h (by simp)
    | cons e2 es2 =>
    cases es1 with
    | nil => obtain ⟨_, h⟩ := h1; exact absurd h (by simp)
    | cons e1 es1 =>
    obtain ⟨Y', B', ds'', h, he2, hes2⟩ := h2
    obtain ⟨rfl, rfl⟩ : Y' = Y ∧ ds'' = ds' := by simpa using h.symm
    obtain ⟨X', A', fs'', h, he1, hes1⟩ := h1
    obtain ⟨rfl, rfl⟩ : X' = X ∧ fs'' = fs' := by simpa using h.symm
    obtain ⟨i1, i2⟩ := ih es2 es1 B' W' A' ds'' fs'' hes2 hts hes1
    have ht' : FShape (opposite p) t Y' W' X' W := FShape_opposite.2 (FShape_next.1 ht)
    obtain ⟨g1, g2⟩ := growBTen_eq (opposite p) he2 i1 ht' he1
    refine ⟨g1, ?_⟩
    intro b hb w hw a ha
    rw [bfold, g2]
    calc ∑ z ∈ Finset.range A', ∑ x ∈ Finset.range X', (∑ y ∈ Finset.range Y', ∑ v ∈ Finset.range W',
          (∑ q ∈ Finset.range B', e2.elem [b, y, q] * (bfold p es2 ts es1).elem [q, v, z]) *
            fe (opposite p) t y v x w) * e1.elem [z, x, a]
        = ∑ z ∈ Finset.range A', ∑ x ∈ Finset.range X', (∑ y ∈ Finset.range Y', ∑ v ∈ Finset.range W',
          (∑ q ∈ Finset.range B', e2.elem [b, y, q] * (∑ ys ∈ box ds'', ∑ xs ∈ box fs'',
            mv es2 ys q * rv (next p) ts ys xs v * mvr es1 xs z)) *
            fe (next p) t w y v x) * e1.elem [z, x, a] := by
          refine Finset.sum_congr rfl fun z hz => Finset.sum_congr rfl fun x _ => ?_
          congr 1
          refine Finset.sum_congr rfl fun y _ => Finset.sum_congr rfl fun v hv => ?_
          rw [fe_opposite, fe_next]
          congr 1
          refine Finset.sum_congr rfl fun q hq => ?_
          rw [i2 q (Finset.mem_range.1 hq) v (Finset.mem_range.1 hv) z (Finset.mem_range.1 hz)]
      _ = ∑ x ∈ (((((Finset.range A' ×ˢ Finset.range X') ×ˢ Finset.range Y') ×ˢ Finset.range W') ×ˢ
            Finset.range B') ×ˢ box ds'') ×ˢ box fs'',
            (e2.elem [b, x.1.1.1.1.2, x.1.1.2] * (mv es2 x.1.2 x.1.1.2 *
              rv (next p) ts x.1.2 x.2 x.1.1.1.2 * mvr es1 x.2 x.1.1.1.1.1.1)) *
              fe (next p) t w x.1.1.1.1.2 x.1.1.1.2 x.1.1.1.1.1.2 *
              e1.elem [x.1.1.1.1.1.1, x.1.1.1.1.1.2, a] := by
          simp only [Finset.sum_product, Finset.sum_mul, Finset.mul_sum]
      _ = ∑ x ∈ (((((Finset.range Y' ×ˢ box ds'') ×ˢ Finset.range X') ×ˢ box fs'') ×ˢ
            Finset.range A') ×ˢ Finset.range W') ×ˢ Finset.range B',
            (e2.elem [b, x.1.1.1.1.1.1, x.2] * mv es2 x.1.1.1.1.1.2 x.2) *
            (fe (next p) t w x.1.1.1.1.1.1 x.1.2 x.1.1.1.1.2 *
              rv (next p) ts x.1.1.1.1.1.2 x.1.1.1.2 x.1.2) *
            (e1.elem [x.1.1.2, x.1.1.1.1.2, a] * mvr es1 x.1.1.1.2 x.1.1.2) := by
          refine Finset.sum_nbij'
            (fun x => ((((((x.1.1.1.1.2, x.1.2), x.1.1.1.1.1.2), x.2), x.1.1.1.1.1.1), x.1.1.1.2),
              x.1.1.2))
            (fun x => ((((((x.1.1.2, x.1.1.1.1.2), x.1.1.1.1.1.1), x.1.2), x.2), x.1.1.1.1.1.2),
              x.1.1.1.2)) ?_ ?_ ?_ ?_ ?_
          · intro x hx
            simp only [Finset.mem_product] at hx ⊢
            tauto
          · intro x hx
            simp only [Finset.mem_product] at hx ⊢
            tauto
          · intro x _; rfl
          · intro x _; rfl
          · intro x _
            dsimp only
            ring
      _ = _ := by
          simp only [sum_box_cons, Finset.sum_product]
          refine Finset.sum_congr rfl fun y _ => Finset.sum_congr rfl fun ys _ =>
            Finset.sum_congr rfl fun x _ => Finset.sum_congr rfl fun xs _ => ?_
          rw [mv, rv, mvr, he2, he1, ht.nextDim]
          simp only [← Finset.sum_mul, ← Finset.mul_sum, List.getD_cons_succ, List.getD_cons_zero]

/-! ## the boundary tensors of a network -/

section net

variable {rows cols : ℕ} {t : Site → Tn 𝕜} {dh dv : ℕ → ℕ → ℕ} {lib : Lib 𝕜}

theorem pre_eq (p : Pos) : pre p = opposite (next p) := by cases p <;> rfl
theorem pre_opposite (p : Pos) : pre (opposite p) = next p := by cases p <;> rfl
theorem next_opposite (p : Pos) : next (opposite p) = pre p := by cases p <;> rfl

theorem depth_pre (p : Pos) (s : ℕ) (hs : s < width rows cols p) :
    depth rows cols (pre p) s = span rows cols (next p) - 1 - depth rows cols (next p) s := by
  cases p <;> simp only [depth, pre, next, span, width] at * <;> omega

theorem depth_next_lt (p : Pos) (s : ℕ) (hs : s < width rows cols p) :
    depth rows cols (next p) s < span rows cols (next p) := by
  cases p <;> simp only [depth, next, span, width] at * <;> omega

theorem cell_fsite (p : Pos) (s i : ℕ) (hs : s < width rows cols p) :
    cell rows cols p s i = fsite rows cols (next p) (depth rows cols (next p) s) i := by
  cases p <;> simp only [cell, fsite, depth, next, width] at * <;> ext <;> simp only <;> omega

theorem e2_get (p : Pos) (s i : ℕ) (hi : i < span rows cols p) :
    e2 (tensorOps lib rows cols) rows cols t p s i =
      (env (tensorOps lib rows cols) rows cols t (next p) (depth rows cols (next p) s)).getD i nil := by
  cases p <;> simp only [e2, facing, beyond, along, next, span] at * <;>
    first
      | rfl
      | (change List.getD _ _ _ = _; congr 1; omega)

theorem e1_get (p : Pos) (s i : ℕ) (hi : i < span rows cols p) :
    e1 (tensorOps lib rows cols) rows cols t p s i =
      (env (tensorOps lib rows cols) rows cols t (pre p) (depth rows cols (pre p) s)).getD
        (span rows cols p - 1 - i) nil := by
  cases p <;> simp only [e1, facing, beyond, along, pre, span] at * <;> rfl

/-- the bond before the `i`-th tensor -/
def bond (es : List (Tn 𝕜)) (i : ℕ) : ℕ := if i < es.length then (es.getD i nil).shape.getD 0 0 else 1

theorem Shp.get {es : List (Tn 𝕜)} : ∀ {A : ℕ} {ds : List ℕ}, Shp es A ds →
    bond es 0 = A ∧ ∀ i < es.length,
      (es.getD i nil).shape = [bond es i, ds.getD i 0, bond es (i + 1)] := by
  induction es with
  | nil => rintro A ds ⟨rfl, rfl⟩; exact ⟨rfl, fun i hi => absurd hi (by simp)⟩
  | cons e es ih =>
    rintro A ds ⟨d, b, ds', rfl, h1, h2⟩
    obtain ⟨i1, i2⟩ := ih h2
    have hs : ∀ i, bond (e :: es) (i + 1) = bond es i := by
      intro i; simp [bond]
    have h0 : bond (e :: es) 0 = A := by simp [bond, h1]
    refine ⟨h0, fun i hi => ?_⟩
    cases i with
    | zero => rw [h0, hs, i1]; simpa using h1
    | succ i =>
      rw [hs, hs]
      simpa using i2 i (by simpa using hi)

theorem bond_length (es : List (Tn 𝕜)) : bond es es.length = 1 := by simp [bond]

/-- the boundary MPS of side `q` next to slice `s` -/
abbrev Env (lib : Lib 𝕜) (rows cols : ℕ) (t : Site → Tn 𝕜) (q : Pos) (s : ℕ) : List (Tn 𝕜) :=
  env (tensorOps lib rows cols) rows cols t q (depth rows cols q s)

theorem Env_shp (hl : Shaped lib) (hn : Net rows cols t dh dv) (p : Pos) (s : ℕ)
    (hs : s < width rows cols p) (hp : 0 < span rows cols p) :
    Shp (Env lib rows cols t (next p) s) 1 (fvl rows cols dh dv (next p) (depth rows cols (next p) s)) ∧
    Shp (Env lib rows cols t (pre p) s) 1
      (fvl rows cols dh dv (next p) (depth rows cols (next p) s + 1)).reverse := by
  have hd := depth_next_lt p s hs
  constructor
  · exact env_spec hl hn _ (by rwa [width_next]) _ hd.le
  · have := env_spec hl hn (pre p) (by rwa [width_pre]) (depth rows cols (pre p) s)
      (by rw [depth_pre p s hs, span_pre, span_next] at *; omega)
    rw [depth_pre p s hs] at this
    rw [Env, depth_pre p s hs]
    rw [show span rows cols (next p) - 1 - depth rows cols (next p) s =
      span rows cols (next p) - (depth rows cols (next p) s + 1) by omega] at this ⊢
    rw [pre_eq] at this ⊢
    rwa [fvl_opposite _ _ hd] at this

theorem fvl_length (q : Pos) (k : ℕ) : (fvl rows cols dh dv q k).length = width rows cols q := by
  simp [fvl]

theorem fvl_get (q : Pos) (k i : ℕ) (hi : i < width rows cols q) :
    (fvl rows cols dh dv q k).getD i 0 = fv rows cols dh dv q k i := by
  simp [fvl, List.getD, hi]

theorem Env_shape (hl : Shaped lib) (hn : Net rows cols t dh dv) (p : Pos) (s i : ℕ)
    (hs : s < width rows cols p) (hi : i < span rows cols p) :
    (e2 (tensorOps lib rows cols) rows cols t p s i).shape =
      [bond (Env lib rows cols t (next p) s) i,
        fv rows cols dh dv (next p) (depth rows cols (next p) s) i,
        bond (Env lib rows cols t (next p) s) (i + 1)] ∧
    (e1 (tensorOps lib rows cols) rows cols t p s i).shape =
      [bond (Env lib rows cols t (pre p) s) (span rows cols p - (i + 1)),
        fv rows cols dh dv (next p) (depth rows cols (next p) s + 1) i,
        bond (Env lib rows cols t (pre p) s) (span rows cols p - i)] := by
  obtain ⟨h2, h1⟩ := Env_shp hl hn p s hs (by omega)
  have l2 := h2.length
  have l1 := h1.length
  rw [fvl_length, width_next] at l2
  rw [List.length_reverse, fvl_length, width_next] at l1
  constructor
  · rw [e2_get p s i hi, h2.get.2 i (by omega), fvl_get _ _ _ (by rwa [width_next])]
  · rw [e1_get p s i hi, h1.get.2 (span rows cols p - 1 - i) (by omega)]
    rw [show span rows cols p - 1 - i + 1 = span rows cols p - i by omega,
      show span rows cols p - 1 - i = span rows cols p - (i + 1) by omega]
    congr 2
    rw [List.getD_eq_getElem?_getD, List.getElem?_reverse (by rw [fvl_length, width_next]; omega),
      ← List.getD_eq_getElem?_getD, fvl_length, width_next, fvl_get _ _ _ (by rw [width_next]; omega)]
    congr 1
    omega

theorem cell_shape (hn : Net rows cols t dh dv) (p : Pos) (s i : ℕ)
    (hs : s < width rows cols p) (hi : i < span rows cols p) :
    FShape p (t (cell rows cols p s i))
      (fv rows cols dh dv (next p) (depth rows cols (next p) s + 1) i)
      (fh rows cols dh dv (next p) (depth rows cols (next p) s) i)
      (fv rows cols dh dv (next p) (depth rows cols (next p) s) i)
      (fh rows cols dh dv (next p) (depth rows cols (next p) s) (i + 1)) := by
  rw [cell_fsite p s i hs]
  exact FShape_next.1 (fsite_shape hn (next p) _ i (depth_next_lt p s hs) (by rwa [width_next]))

theorem benv_shape (hl : Shaped lib) (hn : Net rows cols t dh dv) (p : Pos) (s : ℕ)
    (hs : s < width rows cols p) (hp : 0 < span rows cols p) (k : ℕ) (hk : k ≤ span rows cols p) :
    (benv (tensorOps lib rows cols) rows cols t p s k).shape =
      [bond (Env lib rows cols t (pre p) s) (span rows cols p - k),
        fh rows cols dh dv (next p) (depth rows cols (next p) s) k,
        bond (Env lib rows cols t (next p) s) k] := by
  induction k with
  | zero =>
    rw [benv_zero]
    obtain ⟨h2, h1⟩ := Env_shape hl hn p s 0 hs hp
    change [List.getD _ _ _, 1, List.getD _ _ _] = _
    rw [h1, h2]
    have h0 : fh rows cols dh dv (next p) (depth rows cols (next p) s) 0 = 1 := by
      have hd := depth_next_lt p s hs
      cases p <;> simp only [fh, next, depth, span, width] at *
      · exact hn.west _ (by omega)
      · exact hn.south _ (by omega)
      · exact hn.east _ (by omega)
      · exact hn.north _ (by omega)
    rw [h0]
    rfl
  | succ k ih =>
    obtain ⟨h2, h1⟩ := Env_shape hl hn p s k hs (by omega)
    rw [benv_succ]
    exact (growBTen_eq p h1 (ih (by omega)) (cell_shape hn p s k hs (by omega)) h2).1

theorem fh_opposite (p : Pos) (s k : ℕ) (hs : s < width rows cols p) (hk : k ≤ span rows cols p) :
    fh rows cols dh dv (pre p) (depth rows cols (pre p) s) (span rows cols p - k) =
      fh rows cols dh dv (next p) (depth rows cols (next p) s) k := by
  cases p <;> simp only [fh, depth, pre, next, span, width] at * <;> congr 1 <;> omega

theorem benv_opposite_shape (hl : Shaped lib) (hn : Net rows cols t dh dv) (p : Pos) (s : ℕ)
    (hs : s < width rows cols p) (hp : 0 < span rows cols p) (k : ℕ) (hk : k ≤ span rows cols p) :
    (benv (tensorOps lib rows cols) rows cols t (opposite p) s (span rows cols p - k)).shape =
      [bond (Env lib rows cols t (next p) s) k,
        fh rows cols dh dv (next p) (depth rows cols (next p) s) k,
        bond (Env lib rows cols t (pre p) s) (span rows cols p - k)] := by
  have := benv_shape hl hn (opposite p) s (by rwa [width_opposite]) (by rwa [span_opposite])
    (span rows cols p - k) (by rw [span_opposite]; omega)
  rw [this, pre_opposite, next_opposite, span_opposite, fh_opposite p s k hs hk]
  congr 2
  omega

theorem e1_opposite (p : Pos) (s k : ℕ) (hk : k < span rows cols p) :
    e1 (tensorOps lib rows cols) rows cols t (opposite p) s (span rows cols p - 1 - k) =
      e2 (tensorOps lib rows cols) rows cols t p s k := by
  rw [e1_get _ _ _ (by rw [span_opposite]; omega), e2_get _ _ _ hk, pre_opposite, span_opposite]
  congr 1
  omega

theorem e2_opposite (p : Pos) (s k : ℕ) (hk : k < span rows cols p) :
    e2 (tensorOps lib rows cols) rows cols t (opposite p) s (span rows cols p - 1 - k) =
      e1 (tensorOps lib rows cols) rows cols t p s k := by
  rw [e2_get _ _ _ (by rw [span_opposite]; omega), e1_get _ _ _ hk, next_opposite]

theorem benv_opposite_succ (p : Pos) (s k : ℕ) (hk : k < span rows cols p) :
    benv (tensorOps lib rows cols) rows cols t (opposite p) s (span rows cols p - k) =
      growBTen (opposite p)
        (benv (tensorOps lib rows cols) rows cols t (opposite p) s (span rows cols p - (k + 1)))
        (e2 (tensorOps lib rows cols) rows cols t p s k) (t (cell rows cols p s k))
        (e1 (tensorOps lib rows cols) rows cols t p s k) := by
  rw [show span rows cols p - k = span rows cols p - 1 - k + 1 by omega, benv_succ, e1_opposite p s k hk,
    e2_opposite p s k hk, show span rows cols p - 1 - k = span rows cols p - (k + 1) by omega]
  have : cell rows cols (opposite p) s (span rows cols p - (k + 1)) = cell rows cols p s k := by
    cases p <;> simp only [cell, opposite, span] at * <;> ext <;> simp only <;> omega
  rw [this]
  rfl

/-- the two boundary tensors of a slice, contracted with each other -/
def cut (lib : Lib 𝕜) (rows cols : ℕ) (t : Site → Tn 𝕜) (p : Pos) (s k : ℕ) : 𝕜 :=
  dot (benv (tensorOps lib rows cols) rows cols t p s k)
    (benv (tensorOps lib rows cols) rows cols t (opposite p) s (span rows cols p - k))

theorem cut_succ (hl : Shaped lib) (hn : Net rows cols t dh dv) (p : Pos) (s : ℕ)
    (hs : s < width rows cols p) (k : ℕ) (hk : k < span rows cols p) :
    cut lib rows cols t p s (k + 1) = cut lib rows cols t p s k := by
  obtain ⟨h2, h1⟩ := Env_shape hl hn p s k hs hk
  rw [cut, cut, benv_opposite_succ p s k hk, benv_succ]
  exact dot_grow p h1 (benv_shape hl hn p s hs (by omega) k hk.le) (cell_shape hn p s k hs hk) h2
    (benv_opposite_shape hl hn p s hs (by omega) (k + 1) hk)

theorem cut_eq_zero (hl : Shaped lib) (hn : Net rows cols t dh dv) (p : Pos) (s : ℕ)
    (hs : s < width rows cols p) (k : ℕ) (hk : k ≤ span rows cols p) :
    cut lib rows cols t p s k = cut lib rows cols t p s 0 := by
  induction k with
  | zero => rfl
  | succ k ih => rw [cut_succ hl hn p s hs k hk, ih (by omega)]

theorem drop_cons {α : Type*} (l : List α) (i : ℕ) (d : α) (h : i < l.length) :
    l.drop i = l.getD i d :: l.drop (i + 1) := by
  rw [List.drop_eq_getElem_cons h, List.getD_eq_getElem _ _ h]

theorem benv_bfold (hl : Shaped lib) (hn : Net rows cols t dh dv) (p : Pos) (s : ℕ)
    (hs : s < width rows cols p) (hp : 0 < span rows cols p) (m k : ℕ) (hk : k + m = span rows cols p) :
    benv (tensorOps lib rows cols) rows cols t (opposite p) s (span rows cols p - k) =
      bfold p ((Env lib rows cols t (next p) s).drop k)
        ((frow rows cols t (next p) (depth rows cols (next p) s)).drop k)
        ((Env lib rows cols t (pre p) s).reverse.drop k) := by
  obtain ⟨h2, h1⟩ := Env_shp hl hn p s hs hp
  have l2 := h2.length
  have l1 := h1.length
  rw [fvl_length, width_next] at l2
  rw [List.length_reverse, fvl_length, width_next] at l1
  have l3 : (frow rows cols t (next p) (depth rows cols (next p) s)).length = span rows cols p := by
    simp [frow, width_next]
  induction m generalizing k with
  | zero =>
    obtain rfl : k = span rows cols p := by omega
    rw [Nat.sub_self, List.drop_of_length_le (by omega), List.drop_of_length_le (by omega), bfold,
      benv_zero]
    · obtain ⟨g2, g1⟩ := Env_shape hl hn (opposite p) s 0 (by rwa [width_opposite])
        (by rwa [span_opposite])
      change corner [List.getD _ _ _, 1, List.getD _ _ _] = _
      rw [g2, g1, pre_opposite, next_opposite, span_opposite]
      have b1 : bond (Env lib rows cols t (next p) s) (span rows cols p - 0) = 1 := by
        rw [Nat.sub_zero, ← l2]; exact bond_length _
      have b2 := h1.get.1
      rw [b1, b2]
      rfl
    · intros; simp_all
  | succ m ih =>
    rw [benv_opposite_succ p s k (by omega), ih (k + 1) (by omega),
      drop_cons (Env lib rows cols t (next p) s) k nil (by omega),
      drop_cons (frow rows cols t (next p) (depth rows cols (next p) s)) k nil (by omega),
      drop_cons (Env lib rows cols t (pre p) s).reverse k nil (by simp; omega), bfold]
    rw [e2_get p s k (by omega), e1_get p s k (by omega), cell_fsite p s k hs]
    congr 1
    · simp [frow, List.getD, width_next, show k < span rows cols p by omega]
    · rw [List.getD_eq_getElem?_getD, List.getD_eq_getElem?_getD, List.getElem?_reverse (by omega)]
      congr 2
      omega

/-- the contraction of a whole slice -/
theorem cut_zero (hl : Shaped lib) (hn : Net rows cols t dh dv) (p : Pos) (s : ℕ)
    (hs : s < width rows cols p) (hp : 0 < span rows cols p) :
    cut lib rows cols t p s 0 =
      through lib rows cols t dh dv (next p) (depth rows cols (next p) s) := by
  obtain ⟨h2, h1⟩ := Env_shp hl hn p s hs hp
  have hd := depth_next_lt p s hs
  have h3 := frow_rshp hn (next p) (depth rows cols (next p) s) hd
  have h4 := h1.reverse
  rw [List.reverse_reverse] at h4
  have l1 := h1.length
  rw [List.length_reverse] at l1
  obtain ⟨f1, f2⟩ := bfold_spec p _ _ _ 1 1 1 _ _ h2 h3 h4
  have hb := benv_bfold hl hn p s hs hp (span rows cols p) 0 (by omega)
  simp only [List.drop_zero] at hb
  have hc : benv (tensorOps lib rows cols) rows cols t p s 0 = corner [1, 1, 1] := by
    obtain ⟨g2, g1⟩ := Env_shape hl hn p s 0 hs hp
    rw [benv_zero]
    change corner [List.getD _ _ _, 1, List.getD _ _ _] = _
    rw [g2, g1]
    have b2 := h2.get.1
    have b1 : bond (Env lib rows cols t (pre p) s) (span rows cols p - 0) = 1 := by
      rw [Nat.sub_zero, ← width_next, ← fvl_length (dh := dh) (dv := dv) (next p)
        (depth rows cols (next p) s + 1), ← l1]
      exact bond_length _
    rw [b1, b2]
    rfl
  rw [cut, hb, hc, dot, dot3 (c := corner [1, 1, 1]) rfl f1]
  simp only [Finset.range_one, Finset.sum_singleton]
  rw [f2 0 (by omega) 0 (by omega) 0 (by omega), through]
  have : (corner (𝕜 := 𝕜) [1, 1, 1]).elem [0, 0, 0] = 1 := by simp [corner]
  rw [this, one_mul]
  refine Finset.sum_congr rfl fun xs _ => Finset.sum_congr rfl fun ys hys => ?_
  congr 1
  have := mvr_reverse (xs := ys.reverse) h1 (by rw [List.length_reverse, length_of_mem hys, l1])
  rw [List.reverse_reverse] at this
  rw [this, Env, depth_pre p s hs, pre_eq]

/-- Wherever a slice is cut, the contraction is that of the whole network. -/
theorem cut_eq (hl : Lossless lib) (hn : Net rows cols t dh dv) (p : Pos) (s : ℕ)
    (hs : s < width rows cols p) (k : ℕ) (hk : k ≤ span rows cols p) (hp : 0 < span rows cols p) :
    cut lib rows cols t p s k = meet lib rows cols t dh dv (next p) (span rows cols (next p)) := by
  have hd := depth_next_lt p s hs
  rw [cut_eq_zero hl.shaped hn p s hs k hk, cut_zero hl.shaped hn p s hs hp,
    through_eq hl hn _ (by rwa [width_next]) _ hd, meet_eq hl hn _ (by rwa [width_next]) _ hd.le]

end net

end

end QLPeps.Bmps
