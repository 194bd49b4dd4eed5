import Verif.Lemmas.BmpsTrace

/-! # The boundary MPS of a whole network and the value of the network -/

namespace QLPeps.Bmps

open QLPeps.Contractor QLPeps.Sweep QLPeps.Box
open QLPeps.Peps (Tn Lib)
open QLPeps.Bmps.Spec (Lossless)
open QLPeps.Tps.Spec (Bond leg external)

noncomputable section

variable {𝕜 : Type*} [RCLike 𝕜]

theorem rv_rvec (q : Pos) (n : ℕ) : ∀ (f : ℕ → Tn 𝕜) (h x y : ℕ → ℕ) (a : ℕ),
    (∀ i < n, nextDim q (f i) = h (i + 1)) →
    rv q ((List.range n).map f) ((List.range n).map x) ((List.range n).map y) a =
      rvec n (fun i => Finset.range (h i)) (fun i a b => fe q (f i) a (x i) b (y i)) a := by
  induction n with
  | zero => intros; rfl
  | succ n ih =>
    intro f h x y a hd
    rw [List.range_succ_eq_map]
    simp only [List.map_cons, List.map_map, rv, rvec]
    rw [hd 0 (by omega)]
    refine Finset.sum_congr rfl fun b _ => ?_
    congr 1
    exact ih (f ∘ Nat.succ) (fun i => h (i + 1)) (x ∘ Nat.succ) (y ∘ Nat.succ) b
      (fun i hi => hd (i + 1) (by omega))

theorem ofFn_range {n : ℕ} (x : Fin n → ℕ) :
    List.ofFn x = (List.range n).map fun i => if h : i < n then x ⟨i, h⟩ else 0 := by
  apply List.ext_getElem
  · simp
  · intro i h1 h2
    simp at h1
    simp [h1]

theorem rv_paths (q : Pos) (n : ℕ) (f : ℕ → Tn 𝕜) (h : ℕ → ℕ) (x y : Fin n → ℕ) (h0 : h 0 = 1)
    (hd : ∀ i < n, nextDim q (f i) = h (i + 1)) :
    rv q ((List.range n).map f) (List.ofFn x) (List.ofFn y) 0 =
      ∑ v ∈ Fintype.piFinset fun i : Fin (n + 1) => Finset.range (h i),
        ∏ i : Fin n, fe q (f i) (v i.castSucc) (x i) (v i.succ) (y i) := by
  rw [ofFn_range, ofFn_range, rv_rvec q n f h _ _ 0 hd]
  have := sum_rvec n (fun i => Finset.range (h i)) (fun i a b => fe q (f i) a
    (if h : i < n then x ⟨i, h⟩ else 0) b (if h : i < n then y ⟨i, h⟩ else 0)) (fun _ => (1 : 𝕜))
  simp only [h0, Finset.range_one, Finset.sum_singleton, one_mul] at this
  rw [this]
  simp

/-- sum over all bonds of a grid of `S` layers of `W` sites -/
def gridSum (S W : ℕ) (h v : ℕ → ℕ → ℕ) (F : ℕ → ℕ → ℕ → ℕ → ℕ → ℕ → 𝕜) : 𝕜 :=
  ∑ V ∈ Fintype.piFinset fun k : Fin (S + 1) => Fintype.piFinset fun i : Fin W => Finset.range (v k i),
    ∑ H ∈ Fintype.piFinset fun k : Fin S => Fintype.piFinset fun i : Fin (W + 1) =>
      Finset.range (h k i),
      ∏ k : Fin S, ∏ i : Fin W,
        F k i (H k i.castSucc) (V k.castSucc i) (H k i.succ) (V k.succ i)

theorem sum_pi_box {n W : ℕ} {M : Type*} [AddCommMonoid M] (d : Fin n → Fin W → ℕ)
    (G : (Fin n → List ℕ) → M) :
    ∑ v ∈ Fintype.piFinset fun k => box (List.ofFn (d k)), G v =
      ∑ V ∈ Fintype.piFinset fun k => Fintype.piFinset fun i => Finset.range (d k i),
        G fun k => List.ofFn (V k) := by
  refine (Finset.sum_nbij (fun (V : Fin n → Fin W → ℕ) k => List.ofFn (V k)) ?_ ?_ ?_ ?_).symm
  · intro V hV
    rw [Fintype.mem_piFinset] at hV ⊢
    intro k
    rw [mem_box, List.forall₂_iff_get]
    refine ⟨by simp, fun i h1 h2 => ?_⟩
    have := Fintype.mem_piFinset.1 (hV k) ⟨i, by simpa using h1⟩
    simpa using this
  · intro a _ b _ hab
    funext k
    exact List.ofFn_injective (congrFun hab k)
  · intro v hv
    have hv' : v ∈ Fintype.piFinset fun k => box (List.ofFn (d k)) := hv
    rw [Fintype.mem_piFinset] at hv'
    have hl : ∀ k, (v k).length = W := fun k => by
      have := length_of_mem (hv' k); simpa using this
    refine ⟨fun k i => (v k).get (i.cast (hl k).symm), ?_, ?_⟩
    · rw [Finset.mem_coe, Fintype.mem_piFinset]
      intro k
      rw [Fintype.mem_piFinset]
      intro i
      have := List.forall₂_iff_get.1 (mem_box.1 (hv' k))
      have := this.2 i (by rw [hl]; exact i.2) (by simp)
      simpa using this
    · funext k
      apply List.ext_getElem
      · simp [hl]
      · intro i h1 h2; simp
  · intros; rfl

variable {rows cols : ℕ} {t : Site → Tn 𝕜} {dh dv : ℕ → ℕ → ℕ} {lib : Lib 𝕜}

theorem meet_grid (hl : Lossless lib) (hn : Net rows cols t dh dv) (q : Pos)
    (hw : 0 < width rows cols q) :
    meet lib rows cols t dh dv q (span rows cols q) =
      gridSum (span rows cols q) (width rows cols q) (fh rows cols dh dv q) (fv rows cols dh dv q)
        (fun k i => fe q (t (fsite rows cols q k i))) := by
  rw [meet_top hl hn q hw, gridSum]
  have hv : ∀ k, fvl rows cols dh dv q k =
      List.ofFn fun i : Fin (width rows cols q) => fv rows cols dh dv q k i := by
    intro k
    rw [ofFn_range, fvl]
    refine List.map_congr_left fun i hi => ?_
    rw [dif_pos (List.mem_range.1 hi)]
  simp only [hv]
  rw [sum_pi_box]
  refine Finset.sum_congr rfl fun V _ => ?_
  refine Eq.trans ?_ (Finset.prod_univ_sum
    (fun k : Fin (span rows cols q) => Fintype.piFinset fun i : Fin (width rows cols q + 1) =>
      Finset.range (fh rows cols dh dv q k i))
    (fun k (v : Fin (width rows cols q + 1) → ℕ) => ∏ i : Fin (width rows cols q),
      fe q (t (fsite rows cols q k i)) (v i.castSucc) (V k.castSucc i) (v i.succ) (V k.succ i)))
  refine Finset.prod_congr rfl fun k _ => ?_
  refine rv_paths q _ _ _ _ _ ?_ ?_
  · have hk := k.2
    generalize (k : ℕ) = k' at hk ⊢
    cases q <;> simp only [fh, span] at *
    · exact hn.north _ hk
    · exact hn.west _ (by omega)
    · exact hn.south _ (by omega)
    · exact hn.east _ (by omega)
  · intro i hi
    exact (fsite_shape hn q k i k.2 hi).nextDim

/-! ## bonds -/

/-- dimensions of the horizontal and of the vertical bonds -/
def dhOf (dim : Bond .obc rows cols → ℕ) (r c : ℕ) : ℕ :=
  if h : r < rows ∧ c < cols + 1 then dim (.inl (⟨r, h.1⟩, ⟨c, h.2⟩)) else 1

def dvOf (dim : Bond .obc rows cols → ℕ) (r c : ℕ) : ℕ :=
  if h : r < rows + 1 ∧ c < cols then dim (.inr (⟨r, h.1⟩, ⟨c, h.2⟩)) else 1

theorem leg0 (s : QLPeps.Tps.Spec.Site rows cols) :
    leg .obc s 0 = .inl (s.1, (s.2.castSucc : Fin (cols + 1))) := rfl
theorem leg3 (s : QLPeps.Tps.Spec.Site rows cols) :
    leg .obc s 3 = .inr ((s.1.castSucc : Fin (rows + 1)), s.2) := rfl
theorem leg1 (s : QLPeps.Tps.Spec.Site rows cols) :
    leg .obc s 1 = .inr ((s.1.succ : Fin (rows + 1)), s.2) := by
  have : ((s.1 : ℕ) + 1) % (rows + 1) = s.1 + 1 := Nat.mod_eq_of_lt (by have := s.1.2; omega)
  refine congrArg Sum.inr (Prod.ext (Fin.ext this) rfl)
theorem leg2 (s : QLPeps.Tps.Spec.Site rows cols) :
    leg .obc s 2 = .inl (s.1, (s.2.succ : Fin (cols + 1))) := by
  have : ((s.2 : ℕ) + 1) % (cols + 1) = s.2 + 1 := Nat.mod_eq_of_lt (by have := s.2.2; omega)
  refine congrArg Sum.inl (Prod.ext rfl (Fin.ext this))

theorem net_of_fits {dim : Bond .obc rows cols → ℕ} (hf : Spec.Fits t dim) :
    Net rows cols t (dhOf dim) (dvOf dim) where
  shape r hr c hc := by
    have := hf.shape (⟨r, hr⟩, ⟨c, hc⟩)
    rw [leg0, leg1, leg2, leg3] at this
    rw [this]
    simp only [dhOf, dvOf]
    rw [dif_pos ⟨hr, by omega⟩, dif_pos ⟨by omega, hc⟩, dif_pos ⟨hr, by omega⟩, dif_pos ⟨by omega, hc⟩]
    rfl
  west r hr := by
    rw [dhOf, dif_pos ⟨hr, by omega⟩]
    exact hf.external _ ⟨rfl, .inl rfl⟩
  east r hr := by
    rw [dhOf, dif_pos ⟨hr, by omega⟩]
    exact hf.external _ ⟨rfl, .inr rfl⟩
  north c hc := by
    rw [dvOf, dif_pos ⟨by omega, hc⟩]
    exact hf.external _ ⟨rfl, .inl rfl⟩
  south c hc := by
    rw [dvOf, dif_pos ⟨by omega, hc⟩]
    exact hf.external _ ⟨rfl, .inr rfl⟩

theorem grid_left (dim : Bond .obc rows cols → ℕ) :
    gridSum cols rows (fh rows cols (dhOf dim) (dvOf dim) .left)
      (fv rows cols (dhOf dim) (dvOf dim) .left)
      (fun k i => fe .left (t (fsite rows cols .left k i))) = Spec.value dim t := by
  rw [gridSum, Spec.value, ← Finset.sum_product']
  refine Finset.sum_nbij'
    (fun x : (Fin (cols + 1) → Fin rows → ℕ) × (Fin cols → Fin (rows + 1) → ℕ) =>
      (Sum.elim (fun b => x.1 b.2 b.1) (fun b => x.2 b.2 b.1) : Bond .obc rows cols → ℕ))
    (fun β => (fun k i => β (.inl (i, k)), fun k i => β (.inr (i, k)))) ?_ ?_ ?_ ?_ ?_
  · rintro ⟨V, H⟩ hx
    simp only [Finset.mem_product, Fintype.mem_piFinset, Finset.mem_range] at hx
    rw [Fintype.mem_piFinset]
    rintro (⟨r, c⟩ | ⟨r, c⟩)
    · have := hx.1 c r
      rw [fv, dhOf, dif_pos ⟨r.2, c.2⟩] at this
      exact Finset.mem_range.2 this
    · have := hx.2 c r
      rw [fh, dvOf, dif_pos ⟨r.2, c.2⟩] at this
      exact Finset.mem_range.2 this
  · intro β hβ
    rw [Fintype.mem_piFinset] at hβ
    simp only [Finset.mem_product, Fintype.mem_piFinset, Finset.mem_range]
    constructor
    · intro c r
      rw [fv, dhOf, dif_pos ⟨r.2, c.2⟩]
      exact Finset.mem_range.1 (hβ (.inl (r, c)))
    · intro c r
      rw [fh, dvOf, dif_pos ⟨r.2, c.2⟩]
      exact Finset.mem_range.1 (hβ (.inr (r, c)))
  · intro x _; rfl
  · intro β _
    funext b
    rcases b with b | b <;> rfl
  · rintro ⟨V, H⟩ _
    rw [Fintype.prod_prod_type, Finset.prod_comm]
    refine Finset.prod_congr rfl fun r _ => Finset.prod_congr rfl fun c _ => ?_
    rw [leg0, leg1, leg2, leg3]
    rfl

theorem grid_down (dim : Bond .obc rows cols → ℕ) :
    gridSum rows cols (fh rows cols (dhOf dim) (dvOf dim) .down)
      (fv rows cols (dhOf dim) (dvOf dim) .down)
      (fun k i => fe .down (t (fsite rows cols .down k i))) = Spec.value dim t := by
  rw [gridSum, Spec.value, ← Finset.sum_product']
  refine Finset.sum_nbij'
    (fun x : (Fin (rows + 1) → Fin cols → ℕ) × (Fin rows → Fin (cols + 1) → ℕ) =>
      (Sum.elim (fun b => x.2 b.1.rev b.2) (fun b => x.1 (Fin.rev (n := rows + 1) b.1) b.2) :
        Bond .obc rows cols → ℕ))
    (fun β => (fun k i => β (.inr (Fin.rev (n := rows + 1) k, i)), fun k i => β (.inl (k.rev, i))))
    ?_ ?_ ?_ ?_ ?_
  · rintro ⟨V, H⟩ hx
    simp only [Finset.mem_product, Fintype.mem_piFinset, Finset.mem_range] at hx
    rw [Fintype.mem_piFinset]
    rintro (⟨r, c⟩ | ⟨r, c⟩)
    · have := hx.2 r.rev c
      have h2 : rows - 1 - (r.rev : ℕ) = r := by rw [Fin.val_rev]; have := r.2; omega
      rw [fh, h2, dhOf, dif_pos ⟨r.2, c.2⟩] at this
      exact Finset.mem_range.2 this
    · have := hx.1 (Fin.rev (n := rows + 1) r) c
      have h2 : rows - (Fin.rev (n := rows + 1) r : ℕ) = r := by
        have h3 := Fin.val_rev (n := rows + 1) r
        have : (r : ℕ) < rows + 1 := r.2
        omega
      rw [fv, h2, dvOf, dif_pos ⟨r.2, c.2⟩] at this
      exact Finset.mem_range.2 this
  · intro β hβ
    rw [Fintype.mem_piFinset] at hβ
    simp only [Finset.mem_product, Fintype.mem_piFinset, Finset.mem_range]
    constructor
    · intro r c
      have h2 : rows - (r : ℕ) = (Fin.rev (n := rows + 1) r : ℕ) := by
        rw [Fin.val_rev]; omega
      rw [fv, h2, dvOf, dif_pos ⟨(Fin.rev (n := rows + 1) r).2, c.2⟩]
      exact Finset.mem_range.1 (hβ (.inr (Fin.rev (n := rows + 1) r, c)))
    · intro r c
      have h2 : rows - 1 - (r : ℕ) = (r.rev : ℕ) := by rw [Fin.val_rev]; omega
      rw [fh, h2, dhOf, dif_pos ⟨r.rev.2, c.2⟩]
      exact Finset.mem_range.1 (hβ (.inl (r.rev, c)))
  · rintro ⟨V, H⟩ _
    simp only [Sum.elim_inr, Sum.elim_inl, Fin.rev_rev]
  · intro β _
    funext b
    rcases b with ⟨r, c⟩ | ⟨r, c⟩
    · simp
    · exact congrArg (fun x => β (.inr (x, c))) (Fin.rev_rev (n := rows + 1) r)
  · rintro ⟨V, H⟩ _
    rw [Fintype.prod_prod_type, ← Equiv.prod_comp Fin.revPerm]
    refine Finset.prod_congr rfl fun r _ => Finset.prod_congr rfl fun c _ => ?_
    rw [leg0, leg1, leg2, leg3]
    have h1 : fsite rows cols .down (r.rev : ℕ) c = ((r : ℕ), (c : ℕ)) := by
      change (rows - 1 - (r.rev : ℕ), (c : ℕ)) = _
      rw [Fin.val_rev]
      ext <;> simp only <;> omega
    simp only [Sum.elim_inr, Sum.elim_inl, Fin.revPerm_apply]
    rw [h1]
    have h3 : Fin.rev (n := rows + 1) r.succ = r.rev.castSucc := Fin.rev_succ r
    have h4 : Fin.rev (n := rows + 1) r.castSucc = r.rev.succ := Fin.rev_castSucc r
    rw [h3, h4]
    rfl

/-- Wherever a row is cut, the contraction is the value of the network. -/
theorem cut_left {dim : Bond .obc rows cols → ℕ} (hl : Lossless lib) (hf : Spec.Fits t dim) (s k : ℕ)
    (hs : s < rows) (hk : k ≤ cols) (hc : 0 < cols) :
    cut lib rows cols t .left s k = Spec.value dim t := by
  have hn := net_of_fits hf
  rw [cut_eq hl hn .left s hs k hk hc]
  exact (meet_grid hl hn .down hc).trans (grid_down dim)

/-- The same for a column. -/
theorem cut_up {dim : Bond .obc rows cols → ℕ} (hl : Lossless lib) (hf : Spec.Fits t dim) (s k : ℕ)
    (hs : s < cols) (hk : k ≤ rows) (hc : 0 < rows) :
    cut lib rows cols t .up s k = Spec.value dim t := by
  have hn := net_of_fits hf
  rw [cut_eq hl hn .up s hs k hk hc]
  exact (meet_grid hl hn .left hc).trans (grid_left dim)

end

end QLPeps.Bmps
