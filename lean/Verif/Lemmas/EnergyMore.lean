import Verif.Lemmas.EnergySolver

/-! # Helper lemmas: periodic lattices, Ising model, triangular lattice -/

namespace QLPeps

open Finset Spec Energy

variable {K : Type*}

/-! ### Sites -/

theorem mem_allSites {rows cols : ℕ} {s : Site} :
    s ∈ allSites rows cols ↔ s ∈ sites rows cols := by
  obtain ⟨r, c⟩ := s
  simp [allSites, mem_sites]

theorem allSites_nodup (rows cols : ℕ) : (allSites rows cols).Nodup := by
  unfold allSites
  rw [List.nodup_flatMap]
  refine ⟨fun r _ => List.nodup_range.map (fun a b h => by simpa using h), ?_⟩
  refine List.Pairwise.imp_of_mem ?_ List.nodup_range
  intro a b _ _ hab x h1 h2
  simp only [List.mem_map, List.mem_range] at h1 h2
  obtain ⟨c, _, rfl⟩ := h1
  obtain ⟨c', _, h⟩ := h2
  simp at h; omega

theorem sum_allSites {M : Type*} [AddCommMonoid M] {rows cols : ℕ} (f : Site → M) :
    ((allSites rows cols).map f).sum = ∑ a : ↥(sites rows cols), f a := by
  rw [← List.sum_toFinset _ (allSites_nodup rows cols), Finset.sum_coe_sort (sites rows cols) f]
  refine Finset.sum_congr ?_ (fun _ _ => rfl)
  ext s; simp [mem_allSites]

/-! ### Torus -/

theorem mem_pbcBondsAt {rows cols : ℕ} {nnn : Bool} {s : Site} {x : Bond} :
    x ∈ pbcBondsAt rows cols nnn s ↔
      x = ⟨s, pbcRight cols s, .h⟩ ∨ x = ⟨s, pbcDown rows s, .v⟩ ∨
      (nnn = true ∧ (x = ⟨s, pbcDR rows cols s, .dr⟩ ∨ x = ⟨s, pbcDL rows cols s, .ur⟩)) := by
  unfold pbcBondsAt
  cases nnn <;> simp

theorem mem_pbcBonds {rows cols : ℕ} {nnn : Bool} {x : Bond} :
    x ∈ pbcBonds rows cols nnn ↔ x.a ∈ sites rows cols ∧
      (x = ⟨x.a, pbcRight cols x.a, .h⟩ ∨ x = ⟨x.a, pbcDown rows x.a, .v⟩ ∨
      (nnn = true ∧ (x = ⟨x.a, pbcDR rows cols x.a, .dr⟩ ∨
        x = ⟨x.a, pbcDL rows cols x.a, .ur⟩))) := by
  unfold pbcBonds
  simp only [List.mem_flatMap, mem_allSites, mem_pbcBondsAt]
  constructor
  · rintro ⟨s, hs, h⟩
    have : x.a = s := by rcases h with h | h | ⟨_, h | h⟩ <;> rw [h]
    rw [this]; exact ⟨hs, h⟩
  · rintro ⟨hs, h⟩
    exact ⟨x.a, hs, h⟩

theorem pbcBonds_nodup (rows cols : ℕ) (nnn : Bool) : (pbcBonds rows cols nnn).Nodup := by
  unfold pbcBonds
  rw [List.nodup_flatMap]
  refine ⟨fun s _ => ?_, ?_⟩
  · unfold pbcBondsAt
    cases nnn <;> simp
  · refine List.Pairwise.imp_of_mem ?_ (allSites_nodup rows cols)
    intro a b _ _ hab x h1 h2
    rw [mem_pbcBondsAt] at h1 h2
    have e1 : x.a = a := by rcases h1 with h | h | ⟨_, h | h⟩ <;> rw [h]
    have e2 : x.a = b := by rcases h2 with h | h | ⟨_, h | h⟩ <;> rw [h]
    exact hab (e1.symm.trans e2)

theorem mem_pbc_h {rows cols : ℕ} {nnn : Bool} (a b : Site) :
    (a, b) ∈ pairsOf .h (pbcBonds rows cols nnn) ↔
      a ∈ sites rows cols ∧ b ∈ sites rows cols ∧ TorusRight rows cols a b := by
  rw [mem_pairsOf, mem_pbcBonds]
  simp only [mem_sites, TorusRight]
  constructor
  · rintro ⟨h, h' | h' | ⟨_, h' | h'⟩⟩
    · injection h' with h1 h2 h3
      refine ⟨h, ?_, h2⟩
      rw [h2]; exact ⟨h.1, Nat.mod_lt _ (by omega)⟩
    all_goals (injection h' with _ _ h3; cases h3)
  · rintro ⟨h, _, rfl⟩
    exact ⟨h, Or.inl rfl⟩

theorem mem_pbc_v {rows cols : ℕ} {nnn : Bool} (a b : Site) :
    (a, b) ∈ pairsOf .v (pbcBonds rows cols nnn) ↔
      a ∈ sites rows cols ∧ b ∈ sites rows cols ∧ TorusBelow rows cols a b := by
  rw [mem_pairsOf, mem_pbcBonds]
  simp only [mem_sites, TorusBelow]
  constructor
  · rintro ⟨h, h' | h' | ⟨_, h' | h'⟩⟩
    · injection h' with _ _ h3; cases h3
    · injection h' with h1 h2 h3
      refine ⟨h, ?_, h2⟩
      rw [h2]; exact ⟨Nat.mod_lt _ (by omega), h.2⟩
    all_goals (injection h' with _ _ h3; cases h3)
  · rintro ⟨h, _, rfl⟩
    exact ⟨h, Or.inr (Or.inl rfl)⟩

theorem mem_pbc_dr {rows cols : ℕ} (a b : Site) :
    (a, b) ∈ pairsOf .dr (pbcBonds rows cols true) ↔
      a ∈ sites rows cols ∧ b ∈ sites rows cols ∧ TorusDownRight rows cols a b := by
  rw [mem_pairsOf, mem_pbcBonds]
  simp only [mem_sites, TorusDownRight]
  constructor
  · rintro ⟨h, h' | h' | ⟨_, h' | h'⟩⟩
    · injection h' with _ _ h3; cases h3
    · injection h' with _ _ h3; cases h3
    · injection h' with h1 h2 h3
      refine ⟨h, ?_, h2⟩
      rw [h2]; exact ⟨Nat.mod_lt _ (by omega), Nat.mod_lt _ (by omega)⟩
    · injection h' with _ _ h3; cases h3
  · rintro ⟨h, _, rfl⟩
    exact ⟨h, Or.inr (Or.inr ⟨trivial, Or.inl rfl⟩)⟩

theorem pred_mod_iff {n x y : ℕ} (hx : x < n) :
    y = (x + n - 1) % n ↔ y < n ∧ x = (y + 1) % n := by
  rcases Nat.eq_zero_or_pos x with rfl | h0
  · have : (0 + n - 1) % n = n - 1 := by rw [zero_add]; exact Nat.mod_eq_of_lt (by omega)
    rw [this]
    constructor
    · rintro rfl
      refine ⟨by omega, ?_⟩
      rw [Nat.sub_add_cancel (by omega), Nat.mod_self]
    · rintro ⟨h1, h2⟩
      by_contra hne
      rw [Nat.mod_eq_of_lt (by omega)] at h2
      omega
  · have : (x + n - 1) % n = x - 1 := by
      rw [show x + n - 1 = (x - 1) + n by omega, Nat.add_mod_right]
      exact Nat.mod_eq_of_lt (by omega)
    rw [this]
    constructor
    · rintro rfl
      refine ⟨by omega, ?_⟩
      rw [Nat.sub_add_cancel (by omega), Nat.mod_eq_of_lt hx]
    · rintro ⟨h1, h2⟩
      rcases Nat.lt_or_ge (y + 1) n with h | h
      · rw [Nat.mod_eq_of_lt h] at h2; omega
      · have : y + 1 = n := by omega
        rw [this, Nat.mod_self] at h2; omega

theorem mem_pbc_ur {rows cols : ℕ} (a b : Site) :
    (a, b) ∈ pairsOf .ur (pbcBonds rows cols true) ↔
      a ∈ sites rows cols ∧ b ∈ sites rows cols ∧ TorusDownLeft rows cols a b := by
  rw [mem_pairsOf, mem_pbcBonds]
  simp only [mem_sites, TorusDownLeft]
  constructor
  · rintro ⟨h, h' | h' | ⟨_, h' | h'⟩⟩
    · injection h' with _ _ h3; cases h3
    · injection h' with _ _ h3; cases h3
    · injection h' with _ _ h3; cases h3
    · injection h' with h1 h2 h3
      have hb : b.2 = (a.2 + cols - 1) % cols := by rw [h2]; rfl
      have hb1 : b.1 = (a.1 + 1) % rows := by rw [h2]; rfl
      have := (pred_mod_iff h.2).1 hb
      refine ⟨h, ⟨?_, this.1⟩, hb1, this⟩
      rw [hb1]; exact Nat.mod_lt _ (by omega)
  · rintro ⟨h, _, h1, h2⟩
    refine ⟨h, Or.inr (Or.inr ⟨trivial, Or.inr ?_⟩)⟩
    have : b = pbcDL rows cols a := Prod.ext h1 ((pred_mod_iff h.2).2 h2)
    rw [this]

theorem pbc_nnn_false {rows cols : ℕ} {k : Kind} (hk : k = .dr ∨ k = .ur) :
    pairsOf k (pbcBonds rows cols false) = [] := by
  rw [List.eq_nil_iff_forall_not_mem]
  rintro ⟨a, b⟩ h
  rw [mem_pairsOf, mem_pbcBonds] at h
  rcases h.2 with h | h | ⟨h, _⟩
  · rcases hk with rfl | rfl <;> injection h with _ _ h <;> cases h
  · rcases hk with rfl | rfl <;> injection h with _ _ h <;> cases h
  · cases h

theorem succ_mod_cases {n x : ℕ} (h : x < n) :
    (x + 1 < n ∧ (x + 1) % n = x + 1) ∨ (x + 1 = n ∧ (x + 1) % n = 0) := by
  rcases Nat.lt_or_ge (x + 1) n with h' | h'
  · exact Or.inl ⟨h', Nat.mod_eq_of_lt h'⟩
  · have : x + 1 = n := by omega
    exact Or.inr ⟨this, by rw [this, Nat.mod_self]⟩

theorem pred_mod_cases {n x : ℕ} (h : x < n) :
    (0 < x ∧ (x + n - 1) % n = x - 1) ∨ (x = 0 ∧ (x + n - 1) % n = n - 1) := by
  rcases Nat.eq_zero_or_pos x with rfl | h0
  · exact Or.inr ⟨rfl, by rw [zero_add]; exact Nat.mod_eq_of_lt (by omega)⟩
  · refine Or.inl ⟨h0, ?_⟩
    rw [show x + n - 1 = (x - 1) + n by omega, Nat.add_mod_right]
    exact Nat.mod_eq_of_lt (by omega)

theorem joins_same {a b : Site} {x y : Bond} (hx : Joins a b x) (hy : Joins a b y) :
    (x.a = y.a ∧ x.b = y.b) ∨ (x.a = y.b ∧ x.b = y.a) := by
  unfold Joins at hx hy
  rcases hx with ⟨rfl, rfl⟩ | ⟨rfl, rfl⟩ <;> rcases hy with ⟨h1, h2⟩ | ⟨h1, h2⟩ <;> simp [h1, h2]

/-- on a torus with sides of at least three, two different bonds never join the same sites -/
theorem pbc_unique {rows cols : ℕ} {nnn : Bool} (hr : 3 ≤ rows) (hc : 3 ≤ cols) {x y : Bond}
    (hx : x ∈ pbcBonds rows cols nnn) (hy : y ∈ pbcBonds rows cols nnn)
    (h : (x.a = y.a ∧ x.b = y.b) ∨ (x.a = y.b ∧ x.b = y.a)) : y = x := by
  obtain ⟨hsx, hx⟩ := mem_pbcBonds.1 hx
  obtain ⟨hsy, hy⟩ := mem_pbcBonds.1 hy
  rw [mem_sites] at hsx hsy
  have m1 := succ_mod_cases hsx.1
  have m2 := succ_mod_cases hsx.2
  have m3 := succ_mod_cases hsy.1
  have m4 := succ_mod_cases hsy.2
  have p1 := pred_mod_cases hsx.2
  have p2 := pred_mod_cases hsy.2
  obtain ⟨⟨x1, x2⟩, xb, xk⟩ := x
  obtain ⟨⟨y1, y2⟩, yb, yk⟩ := y
  simp only [Bond.mk.injEq, true_and] at hx hy h m1 m2 m3 m4 p1 p2 ⊢
  unfold pbcRight pbcDown pbcDR pbcDL at hx hy
  rcases hx with ⟨rfl, rfl⟩ | ⟨rfl, rfl⟩ | ⟨_, ⟨rfl, rfl⟩ | ⟨rfl, rfl⟩⟩ <;>
  rcases hy with ⟨rfl, rfl⟩ | ⟨rfl, rfl⟩ | ⟨_, ⟨rfl, rfl⟩ | ⟨rfl, rfl⟩⟩ <;>
  simp only [Prod.mk.injEq, reduceCtorEq, and_false, and_true] at h ⊢ <;> omega

section est
variable [Field K] [StarRing K] {rows cols : ℕ}

theorem pbcValue_eq [CharZero K] (jz jxy : K) (s : SpinCfg rows cols) {a b : Site}
    (ha : a ∈ sites rows cols) (hb : b ∈ sites rows cols) (inv ex : K) :
    pbcValue jz jxy (toConfig s) a b inv ex = xxzValue jz jxy (toConfig s) a b inv ex := by
  have fin2 : ∀ x : Fin 2, x = 0 ∨ x = 1 := by decide
  have h1 : toConfig s a = (s ⟨a, ha⟩ : ℕ) := toConfig_mem s ⟨a, ha⟩
  have h2 : toConfig s b = (s ⟨b, hb⟩ : ℕ) := toConfig_mem s ⟨b, hb⟩
  unfold pbcValue xxzValue spinZ
  rw [h1, h2]
  rcases fin2 (s ⟨a, ha⟩) with h | h <;> rcases fin2 (s ⟨b, hb⟩) with h' | h' <;>
    rw [h, h'] <;> simp <;> ring

/-! ### Ising terms -/

theorem ising_estimator (R : Site → Site → Prop) [∀ a b, Decidable (R a b)] (ψ : Config → K) :
    ∑ s : SpinCfg rows cols, weight (fun s => ψ (toConfig s)) s *
        (∑ a : ↥(sites rows cols), ∑ b : ↥(sites rows cols),
          if R a b then (if toConfig s a = toConfig s b then (-1 : K) else 1) else 0) =
      braket (ising R) (fun s : SpinCfg rows cols => ψ (toConfig s)) := by
  have fin2 : ∀ x : Fin 2, x = 0 ∨ x = 1 := by decide
  unfold braket ising weight
  refine Finset.sum_congr rfl (fun s _ => ?_)
  simp only [Finset.mul_sum]
  refine Finset.sum_congr rfl (fun a _ => Finset.sum_congr rfl (fun b _ => ?_))
  by_cases h : R a b
  · simp only [h, if_true, toConfig_eq_iff, sigmaZ]
    rcases fin2 (s a) with ha | ha <;> rcases fin2 (s b) with hb | hb <;> simp [ha, hb] <;> ring
  · simp [h]

/-- flipping one spin -/
def flipS {ι : Type*} [DecidableEq ι] (a : ι) (s : ι → Fin 2) : ι → Fin 2 :=
  Function.update s a (1 - s a)

theorem flipS_invol {ι : Type*} [DecidableEq ι] (a : ι) (s : ι → Fin 2) :
    flipS a (flipS a s) = s := by
  have fin2 : ∀ x : Fin 2, (1 : Fin 2) - (1 - x) = x := by decide
  unfold flipS
  simp [fin2]

theorem toConfig_flip (s : SpinCfg rows cols) (a : ↥(sites rows cols)) :
    Function.update (toConfig s) (a : Site) (1 - toConfig s a) = toConfig (flipS a s) := by
  have fin2 : ∀ x : Fin 2, ((1 - x : Fin 2) : ℕ) = 1 - (x : ℕ) := by decide
  unfold flipS
  rw [toConfig_update, toConfig_mem, fin2]

theorem transverse_estimator (h : K) (ψ : Config → K) :
    ∑ s : SpinCfg rows cols, weight (fun s => ψ (toConfig s)) s *
        (∑ a : ↥(sites rows cols),
          tfimFlip h (1 / ψ (toConfig s)) ((exact ψ (toConfig s)).flip a)) =
      braket (transverse h) (fun s : SpinCfg rows cols => ψ (toConfig s)) := by
  set φ : SpinCfg rows cols → K := fun s => ψ (toConfig s) with hφ
  unfold braket transverse
  simp only [Finset.mul_sum]
  rw [Finset.sum_comm]
  conv_rhs => rw [Finset.sum_comm]
  refine Finset.sum_congr rfl (fun a _ => ?_)
  refine Finset.sum_bij' (fun s _ => flipS a s) (fun s _ => flipS a s)
    (fun _ _ => Finset.mem_univ _) (fun _ _ => Finset.mem_univ _)
    (fun s _ => flipS_invol a s) (fun s _ => flipS_invol a s) ?_
  intro s _
  by_cases hz : φ s = 0
  · simp [weight, sigmaX, hz]
    right
    have : φ (Function.update (flipS a s) a (1 - flipS a s a)) = φ s :=
      congrArg φ (flipS_invol a s)
    rw [this, hz]
    exact Or.inr rfl
  have hne : star (φ s) ≠ 0 := by rw [Ne, star_eq_zero]; exact hz
  unfold weight tfimFlip exact sigmaX
  simp only [toConfig_flip]
  change star (φ s) * φ s * (-h * star (φ (flipS a s) * (1 / φ s))) =
    star (φ (flipS a s)) * (-h * φ (flipS a (flipS a s)))
  rw [flipS_invol, star_mul', one_div (φ s), star_inv₀]
  field_simp

end est

/-! ### Sums over rectangles -/

theorem sum_flatMap' {α M : Type*} [AddCommMonoid M] (L : List α) (f : α → List M) :
    (L.flatMap f).sum = (L.map (fun a => (f a).sum)).sum := by
  induction L with
  | nil => rfl
  | cons a L ih => rw [List.flatMap_cons, List.sum_append, ih, List.map_cons, List.sum_cons]

/-- the sum over the pairs of lattice sites in relation `R`, when these pairs are parametrised by
a rectangle -/
theorem sum_rel {M : Type*} [AddCommMonoid M] {rows cols : ℕ} (R : Site → Site → Prop)
    [∀ a b, Decidable (R a b)] (g : Site → Site → M) (m n : ℕ) (A B : ℕ → ℕ → Site)
    (hA : ∀ r c r' c', A r c = A r' c' → r = r' ∧ c = c')
    (hmem : ∀ a b, (a ∈ sites rows cols ∧ b ∈ sites rows cols ∧ R a b) ↔
      ∃ r c, r < m ∧ c < n ∧ a = A r c ∧ b = B r c) :
    (∑ a : ↥(sites rows cols), ∑ b : ↥(sites rows cols), if R a b then g a b else 0) =
      ((List.range m).map (fun r => ((List.range n).map (fun c => g (A r c) (B r c))).sum)).sum := by
  rw [sum_pairs_eq R g ((allSites m n).map (fun p => (A p.1 p.2, B p.1 p.2)))]
  · rw [List.map_map]
    unfold allSites
    rw [List.map_flatMap, sum_flatMap']
    simp only [List.map_map]
    rfl
  · refine (allSites_nodup m n).map ?_
    rintro ⟨r, c⟩ ⟨r', c'⟩ h
    have h1 := (Prod.mk.inj h).1
    obtain ⟨rfl, rfl⟩ := hA _ _ _ _ h1
    rfl
  · intro a b
    rw [hmem]
    simp only [List.mem_map, mem_allSites, mem_sites, Prod.exists, Prod.mk.injEq]
    constructor
    · rintro ⟨r, c, ⟨h1, h2⟩, h3, h4⟩; exact ⟨r, c, h1, h2, h3.symm, h4.symm⟩
    · rintro ⟨r, c, h1, h2, h3, h4⟩; exact ⟨r, c, ⟨h1, h2⟩, h3.symm, h4.symm⟩

/-! ### The triangular J1-J2 energy -/

/-- `Σ_{i < n} f i` as the code accumulates it -/
def sumTo {K : Type*} [AddCommMonoid K] (n : ℕ) (f : ℕ → K) : K := ((List.range n).map f).sum

theorem sumTo_succ {K : Type*} [AddCommMonoid K] (n : ℕ) (f : ℕ → K) :
    sumTo (n + 1) f = sumTo n f + f n := by
  unfold sumTo
  rw [List.range_succ, List.map_append, List.sum_append]
  simp

theorem sumTo_zero {K : Type*} [AddCommMonoid K] (f : ℕ → K) : sumTo 0 f = 0 := rfl

theorem sumTo_add {K : Type*} [AddCommMonoid K] (n : ℕ) (f g : ℕ → K) :
    sumTo n (fun i => f i + g i) = sumTo n f + sumTo n g := by
  induction n with
  | zero => simp [sumTo_zero]
  | succ n ih => rw [sumTo_succ, sumTo_succ, sumTo_succ, ih]; abel

theorem sumTo_congr {K : Type*} [AddCommMonoid K] {n : ℕ} {f g : ℕ → K}
    (h : ∀ i < n, f i = g i) : sumTo n f = sumTo n g := by
  unfold sumTo
  rw [List.map_congr_left (fun i hi => h i (List.mem_range.1 hi))]

theorem loop_append {σ : Type*} (step : σ → ℕ → Out σ) (L L' : List ℕ) (s : σ) :
    loop step (L ++ L') s = (loop step L s).bind (loop step L') := by
  induction L generalizing s with
  | nil => rfl
  | cons i L ih =>
    rw [List.cons_append]
    unfold loop
    cases h : step s i with
    | ok a => simp only [Out.bind]; exact ih a
    | zeroPsi => rfl
    | outOfRange => rfl
    | ub => rfl

theorem loop_range {σ : Type*} (step : σ → ℕ → Out σ) (f : ℕ → σ) (n : ℕ)
    (h : ∀ i < n, step (f i) i = .ok (f (i + 1))) :
    loop step (List.range n) (f 0) = .ok (f n) := by
  induction n with
  | zero => rfl
  | succ n ih =>
    rw [List.range_succ, loop_append, ih (fun i hi => h i (by omega))]
    simp only [Out.bind, loop]
    rw [h n (by omega)]

section tri
variable [Field K] [StarRing K]

theorem triPair_ok (C : Contr K) (cfg : Config) (inv : K) (a b : Site) {height idx : ℕ}
    (h : idx < height) :
    triPair C cfg inv a b height idx = .ok (xxzValue 1 1 cfg a b inv (C.ex a b)) := by
  unfold triPair xxzValue atSlice
  by_cases hc : cfg a = cfg b
  · rw [if_pos hc, if_pos hc]; simp
  · rw [if_neg hc, if_neg hc, if_pos h]; simp [Out.bind]

theorem triRow_ok (C : Contr K) (cfg : Config) (rows cols : ℕ) (hc : 2 ≤ cols) (acc : Acc K)
    (row : ℕ) :
    let V := fun a b => xxzValue 1 1 cfg a b (1 / C.trRow row) (C.ex a b)
    triRow C cfg rows cols acc row = .ok
      (acc.1 + (sumTo (cols - 1) (fun c => V (row, c) (row, c + 1)) +
          if row < rows - 1 then sumTo (cols - 1) (fun c => V (row + 1, c) (row, c + 1)) else 0),
        acc.2 + if row < rows - 1 then
          sumTo (cols - 1) (fun c => V (row, c) (row + 1, c + 1)) +
            sumTo (cols - 2) (fun c => V (row + 1, c) (row, c + 2)) else 0) := by
  intro V
  have he : ∀ e : K, (List.range cols).foldl (fun e col =>
      if col < cols - 1 then e + V (row, col) (row, col + 1) else e) e =
      e + sumTo (cols - 1) (fun c => V (row, c) (row, c + 1)) := by
    have : ∀ n, n ≤ cols - 1 → ∀ e : K, (List.range n).foldl (fun e col =>
        if col < cols - 1 then e + V (row, col) (row, col + 1) else e) e =
        e + sumTo n (fun c => V (row, c) (row, c + 1)) := by
      intro n
      induction n with
      | zero => intro _ e; simp [sumTo_zero]
      | succ n ih =>
        intro hn e
        rw [List.range_succ, List.foldl_append, ih (by omega), sumTo_succ]
        simp only [List.foldl_cons, List.foldl_nil]
        rw [if_pos (by omega), add_assoc]
    intro e
    obtain ⟨n, rfl⟩ : ∃ n, cols = n + 1 := ⟨cols - 1, by omega⟩
    rw [List.range_succ, List.foldl_append, this n (by omega)]
    simp
  unfold triRow
  rw [if_neg (by omega)]
  dsimp only
  rw [he]
  by_cases hr : row < rows - 1
  · rw [if_pos hr, if_pos hr, if_pos hr]
    have hl := loop_range (triPlaquette C cfg (1 / C.trRow row) cols row)
      (fun i => (cols - 1 - i,
        acc.1 + sumTo (cols - 1) (fun c => V (row, c) (row, c + 1)) +
          sumTo i (fun c => V (row + 1, c) (row, c + 1)),
        acc.2 + sumTo i (fun c => V (row, c) (row + 1, c + 1)) +
          sumTo (min i (cols - 2)) (fun c => V (row + 1, c) (row, c + 2)))) (cols - 1) (by
      intro i hi
      unfold triPlaquette
      dsimp only
      rw [triPair_ok _ _ _ _ _ (by omega), triPair_ok _ _ _ _ _ (by omega)]
      simp only [Out.bind]
      by_cases hi2 : i < cols - 2
      · rw [if_pos hi2, triPair_ok _ _ _ _ _ (by omega)]
        simp only []
        rw [if_neg (by omega), sumTo_succ, sumTo_succ, min_eq_left (by omega),
          min_eq_left (by omega), sumTo_succ]
        congr 1
        refine Prod.ext (by dsimp only; omega) (Prod.ext ?_ ?_)
        · dsimp only; rw [← add_assoc]
        · dsimp only; ring
      · rw [if_neg hi2]
        simp only []
        rw [if_neg (by omega), sumTo_succ, sumTo_succ, min_eq_right (by omega),
          min_eq_right (by omega)]
        congr 1
        refine Prod.ext (by dsimp only; omega) (Prod.ext ?_ ?_)
        · dsimp only; rw [← add_assoc]
        · dsimp only; ring)
    simp only [sumTo_zero, Nat.sub_zero, add_zero, Nat.zero_min] at hl
    rw [hl]
    simp only [Out.map, Out.bind]
    rw [min_eq_right (by omega)]
    congr 1
    exact Prod.ext (add_assoc _ _ _) (add_assoc _ _ _)
  · rw [if_neg hr, if_neg hr, if_neg hr]
    simp

theorem triCol_ok (C : Contr K) (cfg : Config) (rows cols : ℕ) (hr : 3 ≤ rows) (acc : Acc K)
    (col : ℕ) :
    let V := fun a b => xxzValue 1 1 cfg a b (1 / C.trCol col) (C.ex a b)
    triCol C cfg rows cols acc col = .ok
      (acc.1 + sumTo (rows - 1) (fun r => V (r, col) (r + 1, col)),
        acc.2 + if col < cols - 1 then
          sumTo (rows - 2) (fun r => V (r + 2, col) (r, col + 1)) else 0) := by
  intro V
  unfold triCol
  rw [if_neg (by omega)]
  dsimp only
  classical
  rw [foldl_add_fun]
  by_cases hc : col < cols - 1
  · rw [if_pos hc, if_pos hc, if_neg (by omega)]
    have hl := loop_range (triSqrt5Col C cfg (1 / C.trCol col) rows col)
      (fun i => (if i + 2 < rows then rows - 2 - i else 1,
        acc.2 + sumTo i (fun r => V (r + 2, col) (r, col + 1)))) (rows - 2) (by
      intro i hi
      unfold triSqrt5Col
      dsimp only
      rw [if_pos (by omega), triPair_ok _ _ _ _ _ (by omega)]
      simp only [Out.bind]
      by_cases h3 : i + 3 < rows
      · rw [if_pos h3, if_neg (by omega), if_pos (by omega), sumTo_succ]
        congr 1
        exact Prod.ext (by dsimp only; omega) (add_assoc _ _ _)
      · rw [if_neg h3, if_neg (by omega), sumTo_succ]
        congr 1
        exact Prod.ext (by dsimp only; omega) (add_assoc _ _ _))
    simp only [sumTo_zero, Nat.sub_zero, add_zero] at hl
    rw [if_pos (by omega)] at hl
    rw [hl]
    rfl
  · rw [if_neg hc, if_neg hc, add_zero]
    rfl

theorem sumTo_lt {K : Type*} [AddCommMonoid K] (n : ℕ) (f : ℕ → K) :
    sumTo n (fun i => if i < n - 1 then f i else 0) = sumTo (n - 1) f := by
  cases n with
  | zero => rfl
  | succ n =>
    rw [sumTo_succ, Nat.add_sub_cancel, if_neg (lt_irrefl n), add_zero]
    exact sumTo_congr (fun i hi => if_pos hi)

/-- the triangular energy for a contractor whose traces all have the value `ψ` -/
theorem triEnergy_ok (j2 : K) (C : Contr K) (cfg : Config) (rows cols : ℕ) (hr : 3 ≤ rows)
    (hc : 2 ≤ cols) (ψ : K) (h1 : ∀ r, C.trRow r = ψ) (h2 : ∀ c, C.trCol c = ψ) :
    let V := fun a b => xxzValue 1 1 cfg a b (1 / ψ) (C.ex a b)
    triEnergy j2 C cfg rows cols = .ok
      (sumTo rows (fun r => sumTo (cols - 1) (fun c => V (r, c) (r, c + 1))) +
        sumTo cols (fun c => sumTo (rows - 1) (fun r => V (r, c) (r + 1, c))) +
        sumTo (rows - 1) (fun r => sumTo (cols - 1) (fun c => V (r + 1, c) (r, c + 1))) +
        j2 * (sumTo (rows - 1) (fun r => sumTo (cols - 1) (fun c => V (r, c) (r + 1, c + 1))) +
          sumTo (rows - 1) (fun r => sumTo (cols - 2) (fun c => V (r + 1, c) (r, c + 2))) +
          sumTo (cols - 1) (fun c => sumTo (rows - 2) (fun r => V (r + 2, c) (r, c + 1))))) := by
  intro V
  have hrow : ∀ acc row, triRow C cfg rows cols acc row = _ :=
    fun acc row => triRow_ok C cfg rows cols hc acc row
  have hcol : ∀ acc col, triCol C cfg rows cols acc col = _ :=
    fun acc col => triCol_ok C cfg rows cols hr acc col
  simp only [h1, h2] at hrow hcol
  have l1 := loop_range (triRow C cfg rows cols)
    (fun i => (sumTo i (fun row => sumTo (cols - 1) (fun c => V (row, c) (row, c + 1)) +
          if row < rows - 1 then sumTo (cols - 1) (fun c => V (row + 1, c) (row, c + 1)) else 0),
      sumTo i (fun row => if row < rows - 1 then
          sumTo (cols - 1) (fun c => V (row, c) (row + 1, c + 1)) +
            sumTo (cols - 2) (fun c => V (row + 1, c) (row, c + 2)) else 0))) rows (by
    intro i _
    rw [hrow, sumTo_succ, sumTo_succ])
  simp only [sumTo_zero] at l1
  unfold triEnergy
  rw [l1]
  simp only [Out.bind]
  have l2 := loop_range (triCol C cfg rows cols)
    (fun i => (sumTo rows (fun row => sumTo (cols - 1) (fun c => V (row, c) (row, c + 1)) +
          if row < rows - 1 then sumTo (cols - 1) (fun c => V (row + 1, c) (row, c + 1)) else 0) +
        sumTo i (fun col => sumTo (rows - 1) (fun r => V (r, col) (r + 1, col))),
      sumTo rows (fun row => if row < rows - 1 then
          sumTo (cols - 1) (fun c => V (row, c) (row + 1, c + 1)) +
            sumTo (cols - 2) (fun c => V (row + 1, c) (row, c + 2)) else 0) +
        sumTo i (fun col => if col < cols - 1 then
          sumTo (rows - 2) (fun r => V (r + 2, col) (r, col + 1)) else 0))) cols (by
    intro i _
    rw [hcol, sumTo_succ, sumTo_succ]
    exact congrArg Out.ok (Prod.ext (add_assoc _ _ _) (add_assoc _ _ _)))
  simp only [sumTo_zero, add_zero] at l2
  rw [l2]
  simp only [Out.map, Out.bind]
  congr 1
  rw [sumTo_add, sumTo_lt, sumTo_lt, sumTo_lt, sumTo_add]
  ring

end tri

section final
variable [Field K] [StarRing K] {rows cols : ℕ}

theorem braket_add (H G : (SpinCfg rows cols → K) → SpinCfg rows cols → K)
    (ψ : SpinCfg rows cols → K) :
    braket (fun f s => H f s + G f s) ψ = braket H ψ + braket G ψ := by
  unfold braket
  rw [← Finset.sum_add_distrib]
  exact Finset.sum_congr rfl (fun s _ => mul_add _ _ _)

/-- only samples of nonzero weight matter -/
theorem weight_congr (ψ : Config → K) (E F : SpinCfg rows cols → K)
    (h : ∀ s : SpinCfg rows cols, ψ (toConfig s) ≠ 0 → E s = F s) :
    ∑ s : SpinCfg rows cols, weight (fun s => ψ (toConfig s)) s * E s =
      ∑ s : SpinCfg rows cols, weight (fun s => ψ (toConfig s)) s * F s := by
  refine Finset.sum_congr rfl (fun s _ => ?_)
  by_cases hz : ψ (toConfig s) = 0
  · simp [weight, hz]
  · rw [h s hz]

/-- the local energy of the pairs in relation `R` -/
def relE (R : Site → Site → Prop) [∀ a b, Decidable (R a b)] (jz jxy : K) (ψ : Config → K)
    (s : SpinCfg rows cols) : K :=
  ∑ a : ↥(sites rows cols), ∑ b : ↥(sites rows cols),
    if R a b then exactValue jz jxy ψ s a b else 0

theorem relE_smul (R : Site → Site → Prop) [∀ a b, Decidable (R a b)] (j : K) (ψ : Config → K)
    (s : SpinCfg rows cols) : relE R j j ψ s = j * relE R 1 1 ψ s := by
  unfold relE
  simp only [Finset.mul_sum]
  refine Finset.sum_congr rfl (fun a _ => Finset.sum_congr rfl (fun b _ => ?_))
  by_cases h : R a b
  · rw [if_pos h, if_pos h]
    unfold exactValue xxzValue
    split_ifs <;> ring
  · rw [if_neg h, if_neg h, mul_zero]

theorem relE_list (R : Site → Site → Prop) [∀ a b, Decidable (R a b)] (jz jxy : K)
    (ψ : Config → K) (s : SpinCfg rows cols) (L : List (Site × Site)) (hL : L.Nodup)
    (hmem : ∀ a b, (a, b) ∈ L ↔ a ∈ sites rows cols ∧ b ∈ sites rows cols ∧ R a b) :
    (L.map (fun p => exactValue jz jxy ψ s p.1 p.2)).sum = relE R jz jxy ψ s := by
  unfold relE
  rw [sum_pairs_eq R (fun a b => exactValue jz jxy ψ s a b) L hL hmem]

theorem xxz_energy [DecidableEq K] (nnn : Bool) (jz jxy jz2 jxy2 pin : K) (ψ : Config → K)
    (hr : 2 ≤ rows) (hc : 2 ≤ cols) (s : SpinCfg rows cols) (hs : ψ (toConfig s) ≠ 0) :
    calEnergy (xxz nnn jz jxy jz2 jxy2 pin) (exact ψ (toConfig s)) (toConfig s) rows cols =
      .ok (relE RightOf jz jxy ψ s + relE Below jz jxy ψ s +
        (if nnn then relE DownRight jz2 jxy2 ψ s else 0) +
        (if nnn then relE UpRight jz2 jxy2 ψ s else 0) + -pin * spinZ (toConfig s (0, 0))) := by
  rw [calEnergy_ok hr hc (fun _ _ => hs) (fun _ _ => hs), sum_by_kind]
  congr 1
  have nd := obcBonds_nodup rows cols nnn
  have e1 := relE_list RightOf jz jxy ψ s _ (pairsOf_nodup (k := .h) nd) mem_obc_h
  have e2 := relE_list Below jz jxy ψ s _ (pairsOf_nodup (k := .v) nd) mem_obc_v
  rw [← e1, ← e2]
  cases nnn with
  | false =>
    have z1 : pairsOf .dr (obcBonds rows cols (xxz false jz jxy jz2 jxy2 pin).nnn) = [] :=
      pairsOf_nnn_false (Or.inl rfl)
    have z2 : pairsOf .ur (obcBonds rows cols (xxz false jz jxy jz2 jxy2 pin).nnn) = [] :=
      pairsOf_nnn_false (Or.inr rfl)
    rw [z1, z2]
    rfl
  | true =>
    have e3 := relE_list DownRight jz2 jxy2 ψ s _ (pairsOf_nodup (k := .dr) nd) mem_obc_dr
    have e4 := relE_list UpRight jz2 jxy2 ψ s _ (pairsOf_nodup (k := .ur) nd) mem_obc_ur
    rw [if_pos rfl, if_pos rfl, ← e3, ← e4]
    rfl

theorem triangle_energy [DecidableEq K] (ψ : Config → K)
    (hr : 2 ≤ rows) (hc : 2 ≤ cols) (s : SpinCfg rows cols) (hs : ψ (toConfig s) ≠ 0) :
    calEnergy (triangle : PairModel K) (exact ψ (toConfig s)) (toConfig s) rows cols =
      .ok (relE RightOf 1 1 ψ s + relE Below 1 1 ψ s + relE UpRight 1 1 ψ s) := by
  rw [calEnergy_ok hr hc (fun _ _ => hs) (fun _ _ => hs), sum_by_kind]
  congr 1
  have nd := obcBonds_nodup rows cols true
  have e1 := relE_list RightOf 1 1 ψ s _ (pairsOf_nodup (k := .h) nd) mem_obc_h
  have e2 := relE_list Below 1 1 ψ s _ (pairsOf_nodup (k := .v) nd) mem_obc_v
  have e4 := relE_list UpRight 1 1 ψ s _ (pairsOf_nodup (k := .ur) nd) mem_obc_ur
  have e3 : ((pairsOf .dr (obcBonds rows cols (triangle : PairModel K).nnn)).map (fun p =>
      (triangle : PairModel K).at' (exact ψ (toConfig s)) (toConfig s)
        (invOf (exact ψ (toConfig s)) ⟨p.1, p.2, .dr⟩) ⟨p.1, p.2, .dr⟩)).sum = 0 := by
    refine List.sum_eq_zero ?_
    intro x hx
    rw [List.mem_map] at hx
    obtain ⟨_, _, rfl⟩ := hx
    rfl
  rw [e3, ← e1, ← e2, ← e4, add_zero]
  exact add_zero _

theorem tri_energy (j2 : K) (ψ : Config → K)
    (hr : 3 ≤ rows) (hc : 2 ≤ cols) (s : SpinCfg rows cols) :
    triEnergy j2 (exact ψ (toConfig s)) (toConfig s) rows cols =
      .ok (relE RightOf 1 1 ψ s + relE Below 1 1 ψ s + relE UpRight 1 1 ψ s +
        j2 * (relE DownRight 1 1 ψ s + relE UpRight2 1 1 ψ s + relE Up2Right 1 1 ψ s)) := by
  rw [triEnergy_ok j2 _ _ rows cols hr hc (ψ (toConfig s)) (fun _ => rfl) (fun _ => rfl)]
  have e1 : relE RightOf 1 1 ψ s = _ := sum_rel RightOf (fun a b => exactValue 1 1 ψ s a b)
    rows (cols - 1) (fun r c => (r, c)) (fun r c => (r, c + 1)) (by simp) (by
      rintro ⟨a1, a2⟩ ⟨b1, b2⟩
      simp only [mem_sites, RightOf, Prod.mk.injEq]
      constructor
      · rintro ⟨h1, h2, h3, h4⟩; exact ⟨a1, a2, h1.1, by omega, ⟨rfl, rfl⟩, h3, h4⟩
      · rintro ⟨r, c, h1, h2, ⟨rfl, rfl⟩, rfl, rfl⟩; omega)
  have e2 : relE Below 1 1 ψ s = _ := sum_rel Below (fun a b => exactValue 1 1 ψ s a b)
    cols (rows - 1) (fun c r => (r, c)) (fun c r => (r + 1, c)) (by simp +contextual) (by
      rintro ⟨a1, a2⟩ ⟨b1, b2⟩
      simp only [mem_sites, Below, Prod.mk.injEq]
      constructor
      · rintro ⟨h1, h2, h3, h4⟩; exact ⟨a2, a1, h1.2, by omega, ⟨rfl, rfl⟩, h3, h4⟩
      · rintro ⟨c, r, h1, h2, ⟨rfl, rfl⟩, rfl, rfl⟩; omega)
  have e3 : relE UpRight 1 1 ψ s = _ := sum_rel UpRight (fun a b => exactValue 1 1 ψ s a b)
    (rows - 1) (cols - 1) (fun r c => (r + 1, c)) (fun r c => (r, c + 1)) (by simp) (by
      rintro ⟨a1, a2⟩ ⟨b1, b2⟩
      simp only [mem_sites, UpRight, Prod.mk.injEq]
      constructor
      · rintro ⟨h1, h2, h3, h4⟩
        exact ⟨b1, a2, by omega, by omega, ⟨by omega, rfl⟩, rfl, by omega⟩
      · rintro ⟨r, c, h1, h2, ⟨rfl, rfl⟩, rfl, rfl⟩; omega)
  have e4 : relE DownRight 1 1 ψ s = _ := sum_rel DownRight (fun a b => exactValue 1 1 ψ s a b)
    (rows - 1) (cols - 1) (fun r c => (r, c)) (fun r c => (r + 1, c + 1)) (by simp) (by
      rintro ⟨a1, a2⟩ ⟨b1, b2⟩
      simp only [mem_sites, DownRight, Prod.mk.injEq]
      constructor
      · rintro ⟨h1, h2, h3, h4⟩
        exact ⟨a1, a2, by omega, by omega, ⟨rfl, rfl⟩, by omega, by omega⟩
      · rintro ⟨r, c, h1, h2, ⟨rfl, rfl⟩, rfl, rfl⟩; omega)
  have e5 : relE UpRight2 1 1 ψ s = _ := sum_rel UpRight2 (fun a b => exactValue 1 1 ψ s a b)
    (rows - 1) (cols - 2) (fun r c => (r + 1, c)) (fun r c => (r, c + 2)) (by simp) (by
      rintro ⟨a1, a2⟩ ⟨b1, b2⟩
      simp only [mem_sites, UpRight2, Prod.mk.injEq]
      constructor
      · rintro ⟨h1, h2, h3, h4⟩
        exact ⟨b1, a2, by omega, by omega, ⟨by omega, rfl⟩, rfl, by omega⟩
      · rintro ⟨r, c, h1, h2, ⟨rfl, rfl⟩, rfl, rfl⟩; omega)
  have e6 : relE Up2Right 1 1 ψ s = _ := sum_rel Up2Right (fun a b => exactValue 1 1 ψ s a b)
    (cols - 1) (rows - 2) (fun c r => (r + 2, c)) (fun c r => (r, c + 1)) (by simp +contextual) (by
      rintro ⟨a1, a2⟩ ⟨b1, b2⟩
      simp only [mem_sites, Up2Right, Prod.mk.injEq]
      constructor
      · rintro ⟨h1, h2, h3, h4⟩
        exact ⟨a2, b1, by omega, by omega, ⟨by omega, rfl⟩, rfl, by omega⟩
      · rintro ⟨r, c, h1, h2, ⟨rfl, rfl⟩, rfl, rfl⟩; omega)
  rw [e1, e2, e3, e4, e5, e6]
  rfl

theorem torus_pinned [DecidableEq K] (jz jxy jz2 jxy2 pin : K) (C : Contr K) (cfg : Config) :
    pbcEnergy jz jxy jz2 jxy2 pin C cfg rows cols =
      ((pbcBonds rows cols (jz2 ≠ 0 || jxy2 ≠ 0)).map
        (pbcBondValue jz jxy jz2 jxy2 C cfg (1 / C.trRow 0))).sum +
      -pin * spinZ (cfg (0, 0)) := by
  unfold pbcEnergy
  dsimp only
  rw [foldl_add_fun, zero_add]
  congr 1
  by_cases hp : pin = 0
  · simp [hp]
  · rw [if_neg hp]

theorem torus_energy [CharZero K] [DecidableEq K] (jz jxy jz2 jxy2 pin : K) (ψ : Config → K)
    (s : SpinCfg rows cols) :
    pbcEnergy jz jxy jz2 jxy2 pin (exact ψ (toConfig s)) (toConfig s) rows cols =
      relE (TorusRight rows cols) jz jxy ψ s + relE (TorusBelow rows cols) jz jxy ψ s +
        relE (TorusDownRight rows cols) jz2 jxy2 ψ s +
        relE (TorusDownLeft rows cols) jz2 jxy2 ψ s + -pin * spinZ (toConfig s (0, 0)) := by
  rw [torus_pinned, sum_by_kind]
  congr 1
  have conv : ∀ (k : Kind) (nnn : Bool) (j j' : K),
      ((pairsOf k (pbcBonds rows cols nnn)).map (fun p =>
        pbcValue j j' (toConfig s) p.1 p.2 (1 / (exact ψ (toConfig s)).trRow 0)
          ((exact ψ (toConfig s)).ex p.1 p.2))).sum =
      ((pairsOf k (pbcBonds rows cols nnn)).map (fun p => exactValue j j' ψ s p.1 p.2)).sum := by
    intro k nnn j j'
    congr 1
    refine List.map_congr_left ?_
    rintro ⟨a, b⟩ hp
    have : a ∈ sites rows cols ∧ b ∈ sites rows cols := by
      cases k with
      | h => exact ⟨((mem_pbc_h a b).1 hp).1, ((mem_pbc_h a b).1 hp).2.1⟩
      | v => exact ⟨((mem_pbc_v a b).1 hp).1, ((mem_pbc_v a b).1 hp).2.1⟩
      | dr =>
        cases nnn with
        | false => rw [pbc_nnn_false (Or.inl rfl)] at hp; cases hp
        | true => exact ⟨((mem_pbc_dr a b).1 hp).1, ((mem_pbc_dr a b).1 hp).2.1⟩
      | ur =>
        cases nnn with
        | false => rw [pbc_nnn_false (Or.inr rfl)] at hp; cases hp
        | true => exact ⟨((mem_pbc_ur a b).1 hp).1, ((mem_pbc_ur a b).1 hp).2.1⟩
    exact pbcValue_eq j j' s this.1 this.2 _ _
  dsimp only [pbcBondValue]
  rw [conv, conv, conv, conv]
  have e1 : ∀ nnn, _ := fun nnn => relE_list (TorusRight rows cols) jz jxy ψ s _
    (pairsOf_nodup (k := .h) (pbcBonds_nodup rows cols nnn)) mem_pbc_h
  have e2 : ∀ nnn, _ := fun nnn => relE_list (TorusBelow rows cols) jz jxy ψ s _
    (pairsOf_nodup (k := .v) (pbcBonds_nodup rows cols nnn)) mem_pbc_v
  rw [e1, e2]
  have nd := pbcBonds_nodup rows cols true
  have e3 := relE_list (TorusDownRight rows cols) jz2 jxy2 ψ s _
    (pairsOf_nodup (k := .dr) nd) mem_pbc_dr
  have e4 := relE_list (TorusDownLeft rows cols) jz2 jxy2 ψ s _
    (pairsOf_nodup (k := .ur) nd) mem_pbc_ur
  by_cases h : jz2 = 0 ∧ jxy2 = 0
  · obtain ⟨rfl, rfl⟩ := h
    have hb : (decide ((0 : K) ≠ 0) || decide ((0 : K) ≠ 0)) = false := by simp
    rw [hb, pbc_nnn_false (Or.inl rfl), pbc_nnn_false (Or.inr rfl)]
    have z : ∀ (R : Site → Site → Prop) [∀ a b, Decidable (R a b)],
        relE (rows := rows) (cols := cols) R 0 0 ψ s = 0 := by
      intro R _
      rw [relE_smul, zero_mul]
    rw [z, z]
    simp
  · have hb : (decide (jz2 ≠ 0) || decide (jxy2 ≠ 0)) = true := by
      by_contra hne
      simp at hne
      exact h hne
    rw [hb, e3, e4]

end final

end QLPeps
