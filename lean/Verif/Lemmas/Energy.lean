import Verif.Spec.Energy
import Mathlib.Algebra.BigOperators.Ring.Finset
import Mathlib.Algebra.BigOperators.Group.Finset.Sigma
import Mathlib.Tactic

/-! # Helper lemmas for the local-energy solvers -/

namespace QLPeps

open Finset Spec Energy

variable {K : Type*}

/-! ### Outcomes -/

namespace Energy.Out

theorem collect_ok {ι α : Type*} {step : ι → Out (List α)} {f : ι → List α} (L : List ι)
    (h : ∀ i ∈ L, step i = .ok (f i)) : collect step L = .ok (L.flatMap f) := by
  induction L with
  | nil => rfl
  | cons i is ih =>
    simp only [collect]
    rw [h i (by simp), ih (fun j hj => h j (by simp [hj]))]
    simp [bind]

theorem collect_map_sum {ι α β M : Type*} [AddCommMonoid M] {f : ι → Out (List α)}
    {g : ι → Out (List β)} (u : α → M) (v : β → M) (L : List ι)
    (h : ∀ i ∈ L, (f i).map (fun l => (l.map u).sum) = (g i).map (fun l => (l.map v).sum)) :
    (collect f L).map (fun l => (l.map u).sum) = (collect g L).map (fun l => (l.map v).sum) := by
  induction L with
  | nil => rfl
  | cons i is ih =>
    have h0 := h i (by simp)
    have h1 := ih (fun j hj => h j (by simp [hj]))
    simp only [collect]
    cases hf : f i <;> cases hg : g i <;> rw [hf, hg] at h0 <;> simp [map, bind] at h0 ⊢
    cases hF : collect f is <;> cases hG : collect g is <;> rw [hF, hG] at h1 <;>
      simp [map, bind] at h1 ⊢
    rw [h0, h1]

theorem bind_map {α β γ : Type*} (x : Out α) (f : α → β) (g : β → Out γ) :
    (x.map f).bind g = x.bind (fun a => g (f a)) := by cases x <;> rfl

theorem map_bind {α β γ : Type*} (x : Out α) (f : α → Out β) (g : β → γ) :
    (x.bind f).map g = x.bind (fun a => (f a).map g) := by cases x <;> rfl

theorem bind_eq_ok {α β : Type*} {x : Out α} {f : α → Out β} {b : β}
    (h : x.bind f = .ok b) : ∃ a, x = .ok a ∧ f a = .ok b := by
  cases x <;> simp [bind] at h ⊢; exact h

theorem collect_eq_ok {ι α : Type*} {step : ι → Out (List α)} {f : ι → List α} {L : List ι}
    {out : List α} (hf : ∀ i ∈ L, ∀ l, step i = .ok l → l = f i)
    (h : collect step L = .ok out) : out = L.flatMap f := by
  induction L generalizing out with
  | nil => simp only [collect] at h; injection h with h; simp [← h]
  | cons i is ih =>
    simp only [collect] at h
    obtain ⟨l, hl, h⟩ := bind_eq_ok h
    obtain ⟨ls, hls, h⟩ := bind_eq_ok h
    injection h with h
    rw [← h, hf i (by simp) l hl, ih (fun j hj => hf j (by simp [hj])) hls]
    simp

end Energy.Out

/-! ### The bonds of the open lattice -/

/-- the bonds reported for one row -/
def rowBonds (rows cols : ℕ) (nnn : Bool) (row : ℕ) : List Bond :=
  (List.range (cols - 1)).map (fun col => ⟨(row, col), (row, col + 1), .h⟩) ++
  if nnn = true ∧ row < rows - 1 then
    (List.range (cols - 1)).flatMap (fun col =>
      [⟨(row, col), (row + 1, col + 1), .dr⟩, ⟨(row + 1, col), (row, col + 1), .ur⟩])
  else []

/-- the bonds reported for one column -/
def colBonds (rows : ℕ) (col : ℕ) : List Bond :=
  (List.range (rows - 1)).map (fun row => ⟨(row, col), (row + 1, col), .v⟩)

/-- all bonds reported on an open lattice -/
def obcBonds (rows cols : ℕ) (nnn : Bool) : List Bond :=
  (List.range rows).flatMap (rowBonds rows cols nnn) ++
    (List.range cols).flatMap (colBonds rows)

theorem mem_rowBonds {rows cols row : ℕ} {nnn : Bool} {x : Bond} :
    x ∈ rowBonds rows cols nnn row ↔
      (∃ c, c + 1 < cols ∧ x = ⟨(row, c), (row, c + 1), .h⟩) ∨
      (nnn = true ∧ row + 1 < rows ∧ ∃ c, c + 1 < cols ∧
        (x = ⟨(row, c), (row + 1, c + 1), .dr⟩ ∨ x = ⟨(row + 1, c), (row, c + 1), .ur⟩)) := by
  unfold rowBonds
  rw [List.mem_append]
  constructor
  · rintro (h | h)
    · simp only [List.mem_map, List.mem_range] at h
      obtain ⟨c, hc, rfl⟩ := h
      exact Or.inl ⟨c, by omega, rfl⟩
    · split_ifs at h with hn
      · simp only [List.mem_flatMap, List.mem_range, List.mem_cons, List.not_mem_nil,
          or_false] at h
        obtain ⟨c, hc, h⟩ := h
        exact Or.inr ⟨hn.1, by omega, c, by omega, h⟩
      · simp at h
  · rintro (⟨c, hc, rfl⟩ | ⟨hn, hr, c, hc, h⟩)
    · exact Or.inl (List.mem_map.2 ⟨c, List.mem_range.2 (by omega), rfl⟩)
    · right
      rw [if_pos ⟨hn, by omega⟩]
      simp only [List.mem_flatMap, List.mem_range, List.mem_cons, List.not_mem_nil, or_false]
      exact ⟨c, by omega, h⟩

theorem mem_colBonds {rows col : ℕ} {x : Bond} :
    x ∈ colBonds rows col ↔ ∃ r, r + 1 < rows ∧ x = ⟨(r, col), (r + 1, col), .v⟩ := by
  unfold colBonds
  simp only [List.mem_map, List.mem_range]
  constructor
  · rintro ⟨r, hr, rfl⟩; exact ⟨r, by omega, rfl⟩
  · rintro ⟨r, hr, rfl⟩; exact ⟨r, by omega, rfl⟩

theorem mem_obcBonds {rows cols : ℕ} {nnn : Bool} {x : Bond} :
    x ∈ obcBonds rows cols nnn ↔
      (∃ r c, r < rows ∧ c + 1 < cols ∧ x = ⟨(r, c), (r, c + 1), .h⟩) ∨
      (∃ r c, r + 1 < rows ∧ c < cols ∧ x = ⟨(r, c), (r + 1, c), .v⟩) ∨
      (nnn = true ∧ ∃ r c, r + 1 < rows ∧ c + 1 < cols ∧
        (x = ⟨(r, c), (r + 1, c + 1), .dr⟩ ∨ x = ⟨(r + 1, c), (r, c + 1), .ur⟩)) := by
  unfold obcBonds
  simp only [List.mem_append, List.mem_flatMap, List.mem_range, mem_rowBonds, mem_colBonds]
  constructor
  · rintro (⟨r, hr, ⟨c, hc, h⟩ | ⟨hn, hr', c, hc, h⟩⟩ | ⟨c, hc, r, hr, h⟩)
    · exact Or.inl ⟨r, c, hr, hc, h⟩
    · exact Or.inr (Or.inr ⟨hn, r, c, hr', hc, h⟩)
    · exact Or.inr (Or.inl ⟨r, c, hr, hc, h⟩)
  · rintro (⟨r, c, hr, hc, h⟩ | ⟨r, c, hr, hc, h⟩ | ⟨hn, r, c, hr, hc, h⟩)
    · exact Or.inl ⟨r, hr, Or.inl ⟨c, hc, h⟩⟩
    · exact Or.inr ⟨c, hc, r, hr, h⟩
    · exact Or.inl ⟨r, by omega, Or.inr ⟨hn, hr, c, hc, h⟩⟩

theorem rowBonds_nodup (rows cols : ℕ) (nnn : Bool) (row : ℕ) :
    (rowBonds rows cols nnn row).Nodup := by
  unfold rowBonds
  refine List.nodup_append'.2 ⟨?_, ?_, ?_⟩
  · refine (List.nodup_range).map ?_
    intro a b h
    simpa using h
  · split_ifs
    · rw [List.nodup_flatMap]
      refine ⟨fun c _ => by simp, ?_⟩
      refine List.Pairwise.imp_of_mem ?_ List.nodup_range
      intro a b _ _ hab
      simp [Function.onFun, hab]
      intro h; exact hab h.symm
    · exact List.nodup_nil
  · intro x h1 h2
    simp only [List.mem_map, List.mem_range] at h1
    obtain ⟨c, _, rfl⟩ := h1
    split_ifs at h2
    · simp at h2
    · simp at h2

theorem obcBonds_nodup (rows cols : ℕ) (nnn : Bool) : (obcBonds rows cols nnn).Nodup := by
  unfold obcBonds
  refine List.nodup_append'.2 ⟨?_, ?_, ?_⟩
  · rw [List.nodup_flatMap]
    refine ⟨fun r _ => rowBonds_nodup _ _ _ _, ?_⟩
    refine List.Pairwise.imp_of_mem ?_ List.nodup_range
    intro a b _ _ hab x h1 h2
    rw [mem_rowBonds] at h1 h2
    rcases h1 with ⟨c, _, rfl⟩ | ⟨_, _, c, _, rfl | rfl⟩ <;>
    rcases h2 with ⟨c', _, h⟩ | ⟨_, _, c', _, h | h⟩ <;> simp at h <;> omega
  · rw [List.nodup_flatMap]
    refine ⟨fun r _ => ?_, ?_⟩
    · unfold colBonds
      refine (List.nodup_range).map ?_
      intro a b h
      simpa using h
    · refine List.Pairwise.imp_of_mem ?_ List.nodup_range
      intro a b _ _ hab x h1 h2
      rw [mem_colBonds] at h1 h2
      obtain ⟨r, _, rfl⟩ := h1
      obtain ⟨r', _, h⟩ := h2
      simp at h; omega
  · intro x h1 h2
    simp only [List.mem_flatMap, List.mem_range, mem_rowBonds, mem_colBonds] at h1 h2
    obtain ⟨c, _, r, _, rfl⟩ := h2
    obtain ⟨r', _, ⟨c', _, h⟩ | ⟨_, _, c', _, h | h⟩⟩ := h1 <;> simp at h

theorem countP_eq_one {α : Type*} {L : List α} (hL : L.Nodup) {p : α → Bool} {x : α}
    (hx : x ∈ L) (hp : p x = true) (hu : ∀ y ∈ L, p y = true → y = x) : L.countP p = 1 := by
  induction L with
  | nil => simp at hx
  | cons z zs ih =>
    rw [List.countP_cons]
    rw [List.nodup_cons] at hL
    by_cases hz : z = x
    · subst hz
      have : zs.countP p = 0 := by
        rw [List.countP_eq_zero]
        intro y hy hpy
        exact hL.1 (hu y (by simp [hy]) hpy ▸ hy)
      rw [this, if_pos hp]
    · have hxz : x ∈ zs := by simpa [Ne.symm hz] using hx
      have : p z ≠ true := fun h => hz (hu z (by simp) h)
      rw [ih hL.2 hxz (fun y hy => hu y (by simp [hy])), if_neg this]

/-! ### Sums over bonds and sums over pairs of sites -/

theorem mem_sites {rows cols : ℕ} {a : Site} : a ∈ sites rows cols ↔ a.1 < rows ∧ a.2 < cols := by
  simp [sites]

/-- a sum over ordered pairs of lattice sites in relation `R` is a sum over any duplicate-free
list of these pairs -/
theorem sum_pairs_eq {M : Type*} [AddCommMonoid M] {rows cols : ℕ} (R : Site → Site → Prop)
    [∀ a b, Decidable (R a b)] (g : Site → Site → M) (L : List (Site × Site)) (hL : L.Nodup)
    (hmem : ∀ a b, (a, b) ∈ L ↔ a ∈ sites rows cols ∧ b ∈ sites rows cols ∧ R a b) :
    (∑ a : ↥(sites rows cols), ∑ b : ↥(sites rows cols), if R a b then g a b else 0) =
      (L.map (fun p => g p.1 p.2)).sum := by
  rw [← List.sum_toFinset _ hL]
  rw [Finset.sum_coe_sort (sites rows cols)
    (fun a => ∑ b : ↥(sites rows cols), if R a b then g a b else 0)]
  have : ∀ a ∈ sites rows cols, (∑ b : ↥(sites rows cols), if R a b then g a b else 0) =
      ∑ b ∈ sites rows cols, if R a b then g a b else 0 := fun a _ =>
    Finset.sum_coe_sort (sites rows cols) (fun b => if R a b then g a b else 0)
  rw [Finset.sum_congr rfl this, ← Finset.sum_product', ← Finset.sum_filter]
  refine Finset.sum_congr ?_ (fun _ _ => rfl)
  ext ⟨a, b⟩
  simp only [Finset.mem_filter, Finset.mem_product, List.mem_toFinset, hmem]
  tauto

/-! ### The exchange term -/

section exch
variable [Field K] [StarRing K] {rows cols : ℕ}

/-- exchange of the states of two sites -/
def swapS {ι : Type*} [DecidableEq ι] (a b : ι) (s : ι → Fin 2) : ι → Fin 2 :=
  Function.update (Function.update s a (s b)) b (s a)

theorem swapS_invol {ι : Type*} [DecidableEq ι] {a b : ι} (s : ι → Fin 2) :
    swapS a b (swapS a b s) = s := by
  funext x
  unfold swapS
  by_cases hb : x = b
  · subst hb
    by_cases ha : x = a
    · subst ha; simp
    · simp [Function.update, Ne.symm ha]
  · by_cases ha : x = a
    · subst ha; simp [Function.update, hb]
    · simp [Function.update, ha, hb]

theorem exchange_apply [CharZero K] {ι : Type*} [DecidableEq ι] (jz jxy : K) {a b : ι}
    (hab : a ≠ b) (f : (ι → Fin 2) → K) (s : ι → Fin 2) :
    exchange jz jxy a b f s =
      if s a = s b then 1 / 4 * jz * f s
      else -(1 / 4) * jz * f s + 1 / 2 * jxy * f (swapS a b s) := by
  have fin2 : ∀ x : Fin 2, x = 0 ∨ x = 1 := by decide
  have hba : b ≠ a := hab.symm
  unfold exchange Sz Sp Sm swapS
  rcases fin2 (s a) with ha | ha <;> rcases fin2 (s b) with hb | hb <;>
    simp [ha, hb, Function.update, hab, hba]
  · ring
  · ring
  · ring
  · ring

theorem toConfig_mem (s : SpinCfg rows cols) (a : ↥(sites rows cols)) :
    toConfig s a = (s a : ℕ) := by
  simp [toConfig]

theorem toConfig_eq_iff (s : SpinCfg rows cols) (a b : ↥(sites rows cols)) :
    toConfig s a = toConfig s b ↔ s a = s b := by
  rw [toConfig_mem, toConfig_mem, Fin.val_inj]

theorem toConfig_update (s : SpinCfg rows cols) (a : ↥(sites rows cols)) (v : Fin 2) :
    toConfig (Function.update s a v) = Function.update (toConfig s) (a : Site) (v : ℕ) := by
  funext p
  by_cases hp : p = a
  · subst hp; simp [toConfig]
  · by_cases hm : p ∈ sites rows cols
    · have : (⟨p, hm⟩ : ↥(sites rows cols)) ≠ a := fun h => hp (by rw [← h])
      simp [toConfig, hm, Function.update_of_ne hp, Function.update_of_ne this]
    · simp [toConfig, hm, Function.update_of_ne hp]

theorem toConfig_swap (s : SpinCfg rows cols) (a b : ↥(sites rows cols)) :
    Function.update (Function.update (toConfig s) (a : Site) (toConfig s b)) (b : Site)
      (toConfig s a) = toConfig (swapS a b s) := by
  unfold swapS
  rw [toConfig_update, toConfig_update, toConfig_mem, toConfig_mem]

/-- the value of a bond for an exact contractor -/
def exactValue (jz jxy : K) (ψ : Config → K) (s : SpinCfg rows cols) (a b : Site) : K :=
  xxzValue jz jxy (toConfig s) a b (1 / ψ (toConfig s)) ((exact ψ (toConfig s)).ex a b)

theorem exchange_estimator [CharZero K] (jz jxy : K) (ψ : Config → K)
    {a b : ↥(sites rows cols)} (hab : a ≠ b) :
    ∑ s : SpinCfg rows cols, weight (fun s => ψ (toConfig s)) s * exactValue jz jxy ψ s a b =
      braket (fun f s => exchange jz jxy a b f s) (fun s : SpinCfg rows cols => ψ (toConfig s)) := by
  set φ : SpinCfg rows cols → K := fun s => ψ (toConfig s) with hφ
  have hval : ∀ s : SpinCfg rows cols, weight φ s * exactValue jz jxy ψ s a b =
      (if s a = s b then 1 / 4 * jz * (star (φ s) * φ s)
        else -(1 / 4) * jz * (star (φ s) * φ s)) +
      (if s a = s b then 0 else 1 / 2 * jxy * (star (φ (swapS a b s)) * φ s)) := by
    intro s
    by_cases hz : φ s = 0
    · simp [weight, hz]
    have hne : star (φ s) ≠ 0 := by rw [Ne, star_eq_zero]; exact hz
    unfold weight exactValue xxzValue exact
    simp only [toConfig_eq_iff, toConfig_swap]
    by_cases h : s a = s b
    · simp only [h, if_true]; ring
    · simp only [h, if_false]
      change star (φ s) * φ s * (-(1 / 4) * jz +
        star (φ (swapS a b s) * (1 / φ s)) * (1 / 2) * jxy) = _
      rw [star_mul', one_div (φ s), star_inv₀]
      field_simp
  have hop : ∀ s : SpinCfg rows cols, star (φ s) * exchange jz jxy a b φ s =
      (if s a = s b then 1 / 4 * jz * (star (φ s) * φ s)
        else -(1 / 4) * jz * (star (φ s) * φ s)) +
      (if s a = s b then 0 else 1 / 2 * jxy * (star (φ s) * φ (swapS a b s))) := by
    intro s
    rw [exchange_apply jz jxy hab]
    by_cases h : s a = s b
    · simp only [h, if_true]; ring
    · simp only [h, if_false]; ring
  unfold braket
  rw [Finset.sum_congr rfl (fun s _ => hval s), Finset.sum_congr rfl (fun s _ => hop s),
    Finset.sum_add_distrib, Finset.sum_add_distrib]
  congr 1
  refine Finset.sum_bij' (fun s _ => swapS a b s) (fun s _ => swapS a b s)
    (fun _ _ => Finset.mem_univ _) (fun _ _ => Finset.mem_univ _)
    (fun s _ => swapS_invol s) (fun s _ => swapS_invol s) ?_
  intro s _
  have h1 : (swapS a b s) a = s b := by simp [swapS, Function.update_of_ne hab]
  have h2 : (swapS a b s) b = s a := by simp [swapS]
  rw [h1, h2, swapS_invol]
  by_cases h : s a = s b
  · simp [h]
  · rw [if_neg h, if_neg (fun h' => h h'.symm)]

theorem coupling_estimator [CharZero K] (R : Site → Site → Prop) [∀ a b, Decidable (R a b)]
    (hR : ∀ a b, a ∈ sites rows cols → R a b → a ≠ b) (jz jxy : K) (ψ : Config → K) :
    ∑ s : SpinCfg rows cols, weight (fun s => ψ (toConfig s)) s *
        (∑ a : ↥(sites rows cols), ∑ b : ↥(sites rows cols),
          if R a b then exactValue jz jxy ψ s a b else 0) =
      braket (coupling R jz jxy) (fun s : SpinCfg rows cols => ψ (toConfig s)) := by
  unfold braket coupling
  simp only [Finset.mul_sum]
  rw [Finset.sum_comm]
  conv_rhs => rw [Finset.sum_comm]
  refine Finset.sum_congr rfl (fun a _ => ?_)
  rw [Finset.sum_comm]
  conv_rhs => rw [Finset.sum_comm]
  refine Finset.sum_congr rfl (fun b _ => ?_)
  by_cases h : R a b
  · simp only [h, if_true]
    exact exchange_estimator jz jxy ψ (fun hab => hR a b a.2 h (congrArg Subtype.val hab))
  · simp [h]

/-- `S^z` at the corner, for an exact contractor -/
theorem pinning_estimator [CharZero K] (h : K) (ψ : Config → K) (h0 : (0, 0) ∈ sites rows cols) :
    ∑ s : SpinCfg rows cols, weight (fun s => ψ (toConfig s)) s *
        (-h * spinZ (toConfig s (0, 0))) =
      braket (pinning h) (fun s : SpinCfg rows cols => ψ (toConfig s)) := by
  unfold braket pinning weight
  refine Finset.sum_congr rfl (fun s _ => ?_)
  rw [Finset.sum_eq_single (⟨(0, 0), h0⟩ : ↥(sites rows cols))]
  · have fin2 : ∀ x : Fin 2, x = 0 ∨ x = 1 := by decide
    have hz : toConfig s (0, 0) = (s ⟨(0, 0), h0⟩ : ℕ) := toConfig_mem s ⟨(0, 0), h0⟩
    simp only [if_true, Sz, hz, spinZ]
    rcases fin2 (s ⟨(0, 0), h0⟩) with hs | hs <;> rw [hs] <;> simp <;> ring
  · intro b _ hb
    rw [if_neg]
    intro hb'
    exact hb (Subtype.ext hb')
  · intro h; exact absurd (Finset.mem_univ _) h

end exch

end QLPeps
