import Verif.Model.Trg
import Mathlib.Data.List.Nodup
import Mathlib.Data.Finset.Card
import Mathlib.Data.Finset.Insert
import Mathlib.Data.List.Range
import Mathlib.Tactic.Ring
import Mathlib.Tactic.Linarith

/-!
# The topology of the TRG scales
-/

namespace QLPeps.Trg

variable {T P I A : Type}

/-! ### Numbering -/

theorem enc_div {n r c : ℕ} (hc : c < n) : (r * n + c) / n = r := by
  rw [mul_comm, Nat.mul_add_div (by omega), Nat.div_eq_of_lt hc, Nat.add_zero]

theorem enc_mod {n r c : ℕ} (hc : c < n) : (r * n + c) % n = c := by
  rw [mul_comm, Nat.mul_add_mod, Nat.mod_eq_of_lt hc]

theorem enc_inj {n r c r' c' : ℕ} (hc : c < n) (hc' : c' < n) :
    r * n + c = r' * n + c' ↔ r = r' ∧ c = c' := by
  constructor
  · intro h
    have h1 := enc_div (r := r) hc
    have h2 := enc_mod (r := r) hc
    rw [h, enc_div hc'] at h1
    rw [h, enc_mod hc'] at h2
    exact ⟨h1.symm, h2.symm⟩
  · rintro ⟨rfl, rfl⟩; rfl

theorem enc_lt {m n r c : ℕ} (hr : r < m) (hc : c < n) : r * n + c < m * n := by
  have : (r + 1) * n ≤ m * n := Nat.mul_le_mul_right _ hr
  rw [Nat.add_mul, Nat.one_mul] at this
  omega

theorem enc_exists {m n f : ℕ} (h : f < m * n) : ∃ r c, r < m ∧ c < n ∧ f = r * n + c := by
  have hn : 0 < n := by
    rcases Nat.eq_zero_or_pos n with rfl | h'
    · simp at h
    · exact h'
  refine ⟨f / n, f % n, (Nat.div_lt_iff_lt_mul hn).2 h, Nat.mod_lt _ hn, ?_⟩
  rw [mul_comm, Nat.div_add_mod]

theorem succ_mod {n c : ℕ} (hc : c < n) : (c + 1) % n = if c + 1 = n then 0 else c + 1 := by
  split_ifs with h
  · rw [h, Nat.mod_self]
  · exact Nat.mod_eq_of_lt (by omega)

theorem pred_mod {n c : ℕ} (hc : c < n) : (c + n - 1) % n = if c = 0 then n - 1 else c - 1 := by
  split_ifs with h
  · subst h; rw [Nat.zero_add]; exact Nat.mod_eq_of_lt (by omega)
  · rw [show c + n - 1 = (c - 1) + n by omega, Nat.add_mod_right]; exact Nat.mod_eq_of_lt (by omega)

/-! ### Parents and children -/

theorem c2fOf_mem {S : Type*} (key : S → ℕ) (kids : S → List ℕ) (sites : List S)
    (hinj : ∀ x ∈ sites, ∀ y ∈ sites, key x = key y → x = y) (x : S) (hx : x ∈ sites) :
    c2fOf (sites.map fun x => (key x, kids x)) (key x) = kids x := by
  unfold c2fOf
  rw [List.foldl_map]
  generalize (fun _ : ℕ => [0, 0, 0, 0]) = g
  suffices H : ∀ (l : List S) (g : ℕ → List ℕ), (∀ y ∈ l, y ∈ sites) → (x ∈ l ∨ g (key x) = kids x) →
      (l.foldl (fun f x => Function.update f (key x) (kids x)) g) (key x) = kids x from
    H sites g (fun _ h => h) (Or.inl hx)
  intro l
  induction l with
  | nil =>
    intro g _ h
    rcases h with h | h
    · cases h
    · exact h
  | cons y l ih =>
    intro g hl h
    rw [List.foldl_cons]
    refine ih _ (fun z hz => hl z (List.mem_cons_of_mem _ hz)) ?_
    by_cases hxy : key x = key y
    · right
      have : x = y := hinj x hx y (hl y (by simp)) hxy
      subst this
      simp
    · rcases h with h | h
      · rcases List.mem_cons.1 h with rfl | h
        · exact absurd rfl hxy
        · exact Or.inl h
      · right; rw [Function.update_of_ne hxy]; exact h

/-- one assignment of `addParent`, at the node itself -/
def addTo (p : Option ℕ × Option ℕ) (w : ℕ) : Option ℕ × Option ℕ :=
  match p with
  | (none, b) => (some w, b)
  | (a, _) => (a, some w)

theorem addParent_apply (g : ℕ → Option ℕ × Option ℕ) (f w f' : ℕ) :
    addParent g f w f' = if f = f' then addTo (g f') w else g f' := by
  unfold addParent addTo
  by_cases h : f = f'
  · subst h
    simp only [Function.update_self, if_true]
    rcases g f with ⟨_ | _, _⟩ <;> rfl
  · rw [Function.update_of_ne (Ne.symm h), if_neg h]

theorem foldl_addParent (l : List (ℕ × ℕ)) (g : ℕ → Option ℕ × Option ℕ) (f : ℕ) :
    (l.foldl (fun g x => addParent g x.1 x.2) g) f =
      ((l.filter fun x => x.1 == f).map Prod.snd).foldl addTo (g f) := by
  induction l generalizing g with
  | nil => rfl
  | cons x l ih =>
    rw [List.foldl_cons, ih, addParent_apply, List.filter_cons]
    by_cases h : x.1 = f
    · simp [h]
    · simp [h]

theorem f2cOf_eq (l : List (ℕ × List ℕ)) (f : ℕ) :
    f2cOf l f = (((l.flatMap fun x => x.2.map fun c => (c, x.1)).filter fun x => x.1 == f).map
      Prod.snd).foldl addTo (none, none) := by
  rw [← foldl_addParent (g := fun _ => (none, none)), List.foldl_flatMap]
  unfold f2cOf
  simp only [List.foldl_map]

theorem two_of_nodup {α : Type*} [DecidableEq α] {l : List α} {a b : α} (hab : a ≠ b) (hl : l.Nodup)
    (h : ∀ x, x ∈ l ↔ x = a ∨ x = b) : l = [a, b] ∨ l = [b, a] := by
  have hc : l.length = 2 := by
    rw [← List.toFinset_card_of_nodup hl]
    have : l.toFinset = {a, b} := by ext x; simp [h]
    rw [this, Finset.card_pair hab]
  obtain ⟨x, y, rfl⟩ := List.length_eq_two.1 hc
  have hx := (h x).1 (by simp)
  have hy := (h y).1 (by simp)
  have hxy : x ≠ y := by
    intro h'; subst h'; simp at hl
  rcases hx with rfl | rfl <;> rcases hy with rfl | rfl
  · exact absurd rfl hxy
  · exact Or.inl rfl
  · exact Or.inr rfl
  · exact absurd rfl hxy

/-- A node with exactly two parents finds both in its slots. -/
theorem f2cOf_two {S : Type*} (key : S → ℕ) (kids : S → List ℕ) (sites : List S) (hn : sites.Nodup)
    (hinj : ∀ x ∈ sites, ∀ y ∈ sites, key x = key y → x = y)
    (hkids : ∀ x ∈ sites, (kids x).Nodup) (f : ℕ) (p1 p2 : S) (h1 : p1 ∈ sites) (h2 : p2 ∈ sites)
    (hne : p1 ≠ p2) (hf : ∀ x ∈ sites, f ∈ kids x ↔ x = p1 ∨ x = p2) :
    f2cOf (sites.map fun x => (key x, kids x)) f = (some (key p1), some (key p2)) ∨
    f2cOf (sites.map fun x => (key x, kids x)) f = (some (key p2), some (key p1)) := by
  rw [f2cOf_eq]
  set M := (sites.map fun x => (key x, kids x)).flatMap fun x => x.2.map fun c => (c, x.1) with hM
  have hmem : ∀ y : ℕ × ℕ, y ∈ M ↔ ∃ x ∈ sites, y.1 ∈ kids x ∧ y.2 = key x := by
    intro y
    rw [hM]
    simp only [List.mem_flatMap, List.mem_map, exists_exists_and_eq_and]
    constructor
    · rintro ⟨x, hx, c, hc, rfl⟩; exact ⟨x, hx, hc, rfl⟩
    · rintro ⟨x, hx, hc, he⟩; exact ⟨x, hx, y.1, hc, by rw [← he]⟩
  have hMn : M.Nodup := by
    rw [hM, List.flatMap_map, List.nodup_flatMap]
    refine ⟨fun x hx => (hkids x hx).map fun a b h => (Prod.ext_iff.1 h).1, ?_⟩
    refine (List.nodup_iff_pairwise_ne.1 hn).imp_of_mem fun {x y} hx hy hxy => ?_
    dsimp only [Function.onFun]
    intro z hz hz'
    simp only [List.mem_map] at hz hz'
    obtain ⟨c, _, rfl⟩ := hz
    obtain ⟨c', _, he⟩ := hz'
    exact hxy (hinj x hx y hy (Prod.ext_iff.1 he).2.symm)
  have hk : key p1 ≠ key p2 := fun h => hne (hinj p1 h1 p2 h2 h)
  have h := two_of_nodup (l := (M.filter fun x => x.1 == f).map Prod.snd) hk ?_ ?_
  · rcases h with h | h
    · left; rw [h]; rfl
    · right; rw [h]; rfl
  · refine (hMn.filter _).map_on ?_
    intro x hx y hy hxy
    rw [List.mem_filter] at hx hy
    refine Prod.ext ?_ hxy
    have e1 := hx.2; have e2 := hy.2
    simp only [beq_iff_eq] at e1 e2
    rw [e1, e2]
  · intro w
    simp only [List.mem_map, List.mem_filter, beq_iff_eq]
    constructor
    · rintro ⟨y, ⟨hy, rfl⟩, rfl⟩
      obtain ⟨x, hx, hc, he⟩ := (hmem y).1 hy
      rcases (hf x hx).1 hc with rfl | rfl
      · exact Or.inl he
      · exact Or.inr he
    · rintro (rfl | rfl)
      · exact ⟨(f, key p1), ⟨(hmem _).2 ⟨p1, h1, (hf p1 h1).2 (Or.inl rfl), rfl⟩, rfl⟩, rfl⟩
      · exact ⟨(f, key p2), ⟨(hmem _).2 ⟨p2, h2, (hf p2 h2).2 (Or.inr rfl), rfl⟩, rfl⟩, rfl⟩

/-! ### Plaquettes -/

def plaqSites (n : ℕ) : List (ℕ × ℕ) :=
  (List.range n).flatMap fun r => ((List.range n).filter fun c => (r + c) % 2 == 0).map fun c => (r, c)

def plaqKey (n : ℕ) (x : ℕ × ℕ) : ℕ := x.1 * (n / 2) + x.2 / 2

def plaqKids (n : ℕ) (x : ℕ × ℕ) : List ℕ :=
  [x.1 * n + x.2, x.1 * n + (x.2 + 1) % n, (x.1 + 1) % n * n + x.2, (x.1 + 1) % n * n + (x.2 + 1) % n]

theorem plaquettes_eq (n : ℕ) : plaquettes n = (plaqSites n).map fun x => (plaqKey n x, plaqKids n x) := by
  unfold plaquettes plaqSites
  rw [List.map_flatMap]
  simp only [List.map_map]
  rfl

theorem mem_plaqSites {n : ℕ} {x : ℕ × ℕ} :
    x ∈ plaqSites n ↔ x.1 < n ∧ x.2 < n ∧ (x.1 + x.2) % 2 = 0 := by
  obtain ⟨r, c⟩ := x
  simp only [plaqSites, List.mem_flatMap, List.mem_range, List.mem_map, List.mem_filter, beq_iff_eq,
    Prod.mk.injEq]
  constructor
  · rintro ⟨r', h1, c', ⟨h2, h3⟩, rfl, rfl⟩; exact ⟨h1, h2, h3⟩
  · rintro ⟨h1, h2, h3⟩; exact ⟨r, h1, c, ⟨h2, h3⟩, rfl, rfl⟩

theorem nodup_grid {q : ℕ → ℕ → Bool} {l l' : List ℕ} (hl : l.Nodup) (hl' : l'.Nodup) :
    (l.flatMap fun r => (l'.filter (q r)).map fun c => (r, c)).Nodup := by
  rw [List.nodup_flatMap]
  refine ⟨fun r _ => (hl'.filter _).map fun a b h => (Prod.ext_iff.1 h).2, ?_⟩
  refine (List.nodup_iff_pairwise_ne.1 hl).imp fun {x y} hxy => ?_
  dsimp only [Function.onFun]
  intro z hz hz'
  simp only [List.mem_map] at hz hz'
  obtain ⟨c, _, rfl⟩ := hz
  obtain ⟨c', _, he⟩ := hz'
  exact hxy (Prod.ext_iff.1 he).1.symm

theorem nodup_plaqSites (n : ℕ) : (plaqSites n).Nodup := nodup_grid List.nodup_range List.nodup_range

theorem plaqKey_inj {m : ℕ} {x y : ℕ × ℕ} (hx : x ∈ plaqSites (2 * m)) (hy : y ∈ plaqSites (2 * m))
    (h : plaqKey (2 * m) x = plaqKey (2 * m) y) : x = y := by
  obtain ⟨r, c⟩ := x
  obtain ⟨r', c'⟩ := y
  rw [mem_plaqSites] at hx hy
  dsimp only [plaqKey] at h hx hy
  rw [show 2 * m / 2 = m by omega, enc_inj (by omega) (by omega)] at h
  rw [Prod.mk.injEq]
  omega

theorem plaqKids_nodup {m : ℕ} (hm : 2 ≤ m) {x : ℕ × ℕ} (hx : x ∈ plaqSites (2 * m)) :
    (plaqKids (2 * m) x).Nodup := by
  obtain ⟨r, c⟩ := x
  rw [mem_plaqSites] at hx
  dsimp only at hx
  obtain ⟨hr, hc, hp⟩ := hx
  have hc' : (c + 1) % (2 * m) < 2 * m := Nat.mod_lt _ (by omega)
  have e1 : (c + 1) % (2 * m) ≠ c := by rw [succ_mod hc]; split_ifs <;> omega
  have e2 : (r + 1) % (2 * m) ≠ r := by rw [succ_mod hr]; split_ifs <;> omega
  simp only [plaqKids, List.nodup_cons, List.mem_cons, List.not_mem_nil, or_false, not_or,
    List.nodup_nil, and_true, not_false_eq_true, enc_inj hc hc', enc_inj hc' hc, enc_inj hc hc, enc_inj hc' hc']
  refine ⟨⟨?_, ?_, ?_⟩, ⟨?_, ?_⟩, ?_⟩ <;> intro h
  · exact e1 h.2.symm
  · exact e2 h.symm
  · exact e1 h.2.symm
  · exact e2 h.1.symm
  · exact e2 h.symm
  · exact e1 h.2.symm

theorem plaq_c2f {m : ℕ} {r c : ℕ} (hr : r < 2 * m) (hc : c < 2 * m) (hp : (r + c) % 2 = 0) :
    c2fOf (plaquettes (2 * m)) (r * m + c / 2) = plaqKids (2 * m) (r, c) := by
  rw [plaquettes_eq]
  have := c2fOf_mem (plaqKey (2 * m)) (plaqKids (2 * m)) (plaqSites (2 * m))
    (fun x hx y hy => plaqKey_inj hx hy) (r, c) (mem_plaqSites.2 ⟨hr, hc, hp⟩)
  rw [← this, plaqKey, show 2 * m / 2 = m by omega]

theorem mem_plaqKids {n r c a b : ℕ} (hc : c < n) (hb : b < n) :
    r * n + c ∈ plaqKids n (a, b) ↔
      (r = a ∧ c = b) ∨ (r = a ∧ c = (b + 1) % n) ∨ (r = (a + 1) % n ∧ c = b) ∨
        (r = (a + 1) % n ∧ c = (b + 1) % n) := by
  have hb' : (b + 1) % n < n := Nat.mod_lt _ (by omega)
  simp only [plaqKids, List.mem_cons, List.not_mem_nil, or_false, enc_inj hc hb, enc_inj hc hb']

theorem plaq_parents_even {m : ℕ} (hm : 2 ≤ m) {r c : ℕ} (hr : r < 2 * m) (hc : c < 2 * m)
    (hp : (r + c) % 2 = 0) (x : ℕ × ℕ) (hx : x ∈ plaqSites (2 * m)) :
    r * (2 * m) + c ∈ plaqKids (2 * m) x ↔
      x = (r, c) ∨ x = ((r + 2 * m - 1) % (2 * m), (c + 2 * m - 1) % (2 * m)) := by
  obtain ⟨a, b⟩ := x
  rw [mem_plaqSites] at hx
  dsimp only at hx
  obtain ⟨ha, hb, hab⟩ := hx
  rw [mem_plaqKids hc hb, succ_mod ha, succ_mod hb, pred_mod hr, pred_mod hc, Prod.mk.injEq, Prod.mk.injEq]
  split_ifs <;> omega

theorem plaq_parents_odd {m : ℕ} (hm : 2 ≤ m) {r c : ℕ} (hr : r < 2 * m) (hc : c < 2 * m)
    (hp : (r + c) % 2 = 1) (x : ℕ × ℕ) (hx : x ∈ plaqSites (2 * m)) :
    r * (2 * m) + c ∈ plaqKids (2 * m) x ↔
      x = (r, (c + 2 * m - 1) % (2 * m)) ∨ x = ((r + 2 * m - 1) % (2 * m), c) := by
  obtain ⟨a, b⟩ := x
  rw [mem_plaqSites] at hx
  dsimp only at hx
  obtain ⟨ha, hb, hab⟩ := hx
  rw [mem_plaqKids hc hb, succ_mod ha, succ_mod hb, pred_mod hr, pred_mod hc, Prod.mk.injEq, Prod.mk.injEq]
  split_ifs <;> omega

/-! ### Diamonds -/

def diamSites (n : ℕ) : List (ℕ × ℕ) :=
  ((List.range n).filter fun i => i % 2 == 0).flatMap fun i =>
    ((List.range n).filter fun j => j % 2 == 1).map fun j => (i, j)

def diamKey (n : ℕ) (x : ℕ × ℕ) : ℕ := x.1 / 2 * (n / 2) + (x.2 - 1) / 2

def diamKids (n : ℕ) (x : ℕ × ℕ) : List ℕ :=
  [(x.1 + n - 1) % n * (n / 2) + x.2 / 2, x.1 * (n / 2) + (x.2 + 1) % n / 2,
    (x.1 + 1) % n * (n / 2) + x.2 / 2, x.1 * (n / 2) + (x.2 + n - 1) % n / 2]

theorem diamonds_eq (n : ℕ) : diamonds n = (diamSites n).map fun x => (diamKey n x, diamKids n x) := by
  unfold diamonds diamSites
  rw [List.map_flatMap]
  simp only [List.map_map]
  rfl

theorem mem_diamSites {n : ℕ} {x : ℕ × ℕ} :
    x ∈ diamSites n ↔ x.1 < n ∧ x.2 < n ∧ x.1 % 2 = 0 ∧ x.2 % 2 = 1 := by
  obtain ⟨r, c⟩ := x
  simp only [diamSites, List.mem_flatMap, List.mem_range, List.mem_map, List.mem_filter, beq_iff_eq,
    Prod.mk.injEq]
  constructor
  · rintro ⟨r', ⟨h1, h4⟩, c', ⟨h2, h3⟩, rfl, rfl⟩; exact ⟨h1, h2, h4, h3⟩
  · rintro ⟨h1, h2, h4, h3⟩; exact ⟨r, ⟨h1, h4⟩, c, ⟨h2, h3⟩, rfl, rfl⟩

theorem nodup_diamSites (n : ℕ) : (diamSites n).Nodup :=
  nodup_grid (List.nodup_range.filter _) List.nodup_range

theorem diamKey_inj {m : ℕ} {x y : ℕ × ℕ} (hx : x ∈ diamSites (2 * m)) (hy : y ∈ diamSites (2 * m))
    (h : diamKey (2 * m) x = diamKey (2 * m) y) : x = y := by
  obtain ⟨r, c⟩ := x
  obtain ⟨r', c'⟩ := y
  rw [mem_diamSites] at hx hy
  dsimp only [diamKey] at h hx hy
  rw [show 2 * m / 2 = m by omega, enc_inj (by omega) (by omega)] at h
  rw [Prod.mk.injEq]
  omega

/-- The odd lattice: node `(r, c)` with `r + c` even has number `r * m + c / 2`. -/
theorem odd_inj {m r c r' c' : ℕ} (hc : c < 2 * m) (hc' : c' < 2 * m) (hp : (r + c) % 2 = 0)
    (hp' : (r' + c') % 2 = 0) : r * m + c / 2 = r' * m + c' / 2 ↔ r = r' ∧ c = c' := by
  rw [enc_inj (by omega) (by omega)]
  omega

theorem mem_diamKids {m r c a b : ℕ} (hc : c < 2 * m) (hp : (r + c) % 2 = 0)
    (hx : (a, b) ∈ diamSites (2 * m)) :
    r * m + c / 2 ∈ diamKids (2 * m) (a, b) ↔
      (r = (a + 2 * m - 1) % (2 * m) ∧ c = b) ∨ (r = a ∧ c = (b + 1) % (2 * m)) ∨
      (r = (a + 1) % (2 * m) ∧ c = b) ∨ (r = a ∧ c = (b + 2 * m - 1) % (2 * m)) := by
  rw [mem_diamSites] at hx
  dsimp only at hx
  obtain ⟨ha, hb, ha2, hb2⟩ := hx
  have h1 := pred_mod ha
  have h2 := pred_mod hb
  have h3 := succ_mod ha
  have h4 := succ_mod hb
  simp only [diamKids, List.mem_cons, List.not_mem_nil, or_false, show 2 * m / 2 = m by omega]
  rw [odd_inj hc hb hp (by rw [h1]; split_ifs <;> omega),
    odd_inj hc (Nat.mod_lt _ (by omega)) hp (by rw [h4]; split_ifs <;> omega),
    odd_inj hc hb hp (by rw [h3]; split_ifs <;> omega),
    odd_inj hc (Nat.mod_lt _ (by omega)) hp (by rw [h2]; split_ifs <;> omega)]

theorem diamKids_nodup {m : ℕ} (hm : 2 ≤ m) {x : ℕ × ℕ} (hx : x ∈ diamSites (2 * m)) :
    (diamKids (2 * m) x).Nodup := by
  obtain ⟨a, b⟩ := x
  rw [mem_diamSites] at hx
  dsimp only at hx
  obtain ⟨ha, hb, ha2, hb2⟩ := hx
  have h1 := pred_mod ha
  have h2 := pred_mod hb
  have h3 := succ_mod ha
  have h4 := succ_mod hb
  have g2 : (b + 2 * m - 1) % (2 * m) < 2 * m := Nat.mod_lt _ (by omega)
  have g4 : (b + 1) % (2 * m) < 2 * m := Nat.mod_lt _ (by omega)
  have p1 : ((a + 2 * m - 1) % (2 * m) + b) % 2 = 0 := by rw [h1]; split_ifs <;> omega
  have p2 : (a + (b + 1) % (2 * m)) % 2 = 0 := by rw [h4]; split_ifs <;> omega
  have p3 : ((a + 1) % (2 * m) + b) % 2 = 0 := by rw [h3]; split_ifs <;> omega
  have p4 : (a + (b + 2 * m - 1) % (2 * m)) % 2 = 0 := by rw [h2]; split_ifs <;> omega
  simp only [diamKids, List.nodup_cons, List.mem_cons, List.not_mem_nil, or_false, not_or,
    List.nodup_nil, and_true, not_false_eq_true, show 2 * m / 2 = m by omega]
  rw [odd_inj hb g4 p1 p2, odd_inj hb hb p1 p3, odd_inj hb g2 p1 p4, odd_inj g4 hb p2 p3,
    odd_inj g4 g2 p2 p4, odd_inj hb g2 p3 p4, h1, h2, h3, h4]
  split_ifs <;> omega

theorem diam_c2f {m : ℕ} {a b : ℕ} (ha : a < m) (hb : b < m) :
    c2fOf (diamonds (2 * m)) (a * m + b) = diamKids (2 * m) (2 * a, 2 * b + 1) := by
  rw [diamonds_eq]
  have := c2fOf_mem (diamKey (2 * m)) (diamKids (2 * m)) (diamSites (2 * m))
    (fun x hx y hy => diamKey_inj hx hy) (2 * a, 2 * b + 1)
    (mem_diamSites.2 ⟨by dsimp only; omega, by dsimp only; omega, by dsimp only; omega, by dsimp only; omega⟩)
  rw [← this, diamKey, show 2 * m / 2 = m by omega]
  dsimp only
  rw [show 2 * a / 2 = a by omega, show (2 * b + 1 - 1) / 2 = b by omega]

/-- a node in an odd row lies between two diamonds of its column -/
theorem diam_parents_odd {m : ℕ} (hm : 2 ≤ m) {r c : ℕ} (hr : r < 2 * m) (hc : c < 2 * m)
    (hp : (r + c) % 2 = 0) (hr2 : r % 2 = 1) (x : ℕ × ℕ) (hx : x ∈ diamSites (2 * m)) :
    r * m + c / 2 ∈ diamKids (2 * m) x ↔ x = ((r + 1) % (2 * m), c) ∨ x = (r - 1, c) := by
  obtain ⟨a, b⟩ := x
  rw [mem_diamKids hc hp hx]
  rw [mem_diamSites] at hx
  dsimp only at hx
  obtain ⟨ha, hb, ha2, hb2⟩ := hx
  rw [succ_mod ha, succ_mod hb, pred_mod ha, pred_mod hb, succ_mod hr, Prod.mk.injEq, Prod.mk.injEq]
  split_ifs <;> omega

/-- a node in an even row lies between two diamonds of its row -/
theorem diam_parents_even {m : ℕ} (hm : 2 ≤ m) {r c : ℕ} (hr : r < 2 * m) (hc : c < 2 * m)
    (hp : (r + c) % 2 = 0) (hr2 : r % 2 = 0) (x : ℕ × ℕ) (hx : x ∈ diamSites (2 * m)) :
    r * m + c / 2 ∈ diamKids (2 * m) x ↔ x = (r, (c + 2 * m - 1) % (2 * m)) ∨ x = (r, c + 1) := by
  obtain ⟨a, b⟩ := x
  rw [mem_diamKids hc hp hx]
  rw [mem_diamSites] at hx
  dsimp only at hx
  obtain ⟨ha, hb, ha2, hb2⟩ := hx
  rw [succ_mod ha, succ_mod hb, pred_mod ha, pred_mod hb, pred_mod hc, Prod.mk.injEq, Prod.mk.injEq]
  split_ifs <;> omega

/-! ### Consecutive scales -/

/-- How two consecutive scales fit together. -/
structure Link (cols s : ℕ) (fine coarse : Scale T P I) : Prop where
  len : ∀ w < coarse.size, (coarse.c2f w).length = 4
  lt : ∀ w < coarse.size, ∀ f ∈ coarse.c2f w, f < fine.size
  parents : ∀ f < fine.size, ∃ p1 p2, p1 < coarse.size ∧ p2 < coarse.size ∧
    fine.f2c f = (some p1, some p2) ∧ ∀ w < coarse.size, f ∈ coarse.c2f w ↔ w = p1 ∨ w = p2
  type : ∃ ty : ℕ → Bool, ∀ w < coarse.size, ∀ k < 4,
    childType1 cols s ((coarse.c2f w).getD k 0) k = ty ((coarse.c2f w).getD k 0)

theorem odd_exists {m w : ℕ} (hw : w < 2 * m * (2 * m) / 2) :
    ∃ r c, r < 2 * m ∧ c < 2 * m ∧ (r + c) % 2 = 0 ∧ w = r * m + c / 2 := by
  rw [show 2 * m * (2 * m) = 2 * (2 * m * m) by ring, Nat.mul_div_cancel_left _ (by omega)] at hw
  obtain ⟨r, k, hr, hk, rfl⟩ := enc_exists hw
  exact ⟨r, 2 * k + r % 2, hr, by omega, by omega, by omega⟩

theorem odd_lt {m r c : ℕ} (hr : r < 2 * m) (hc : c < 2 * m) : r * m + c / 2 < 2 * m * (2 * m) / 2 := by
  rw [show 2 * m * (2 * m) = 2 * (2 * m * m) by ring, Nat.mul_div_cancel_left _ (by omega)]
  exact enc_lt hr (by omega)

theorem link_plaq {m : ℕ} (hm : 2 ≤ m) {cols s : ℕ} (hs : s % 2 = 0) (hcols : s = 0 → cols = 2 * m)
    {fine coarse : Scale T P I} (h1 : fine.size = 2 * m * (2 * m)) (h2 : coarse.size = 2 * m * (2 * m) / 2)
    (h3 : fine.f2c = f2cOf (plaquettes (2 * m))) (h4 : coarse.c2f = c2fOf (plaquettes (2 * m))) :
    Link cols s fine coarse where
  len w hw := by
    obtain ⟨r, c, hr, hc, hp, rfl⟩ := odd_exists (h2 ▸ hw)
    rw [h4, plaq_c2f hr hc hp]; rfl
  lt w hw f hf := by
    obtain ⟨r, c, hr, hc, hp, rfl⟩ := odd_exists (h2 ▸ hw)
    rw [h4, plaq_c2f hr hc hp] at hf
    rw [h1]
    have hc' : (c + 1) % (2 * m) < 2 * m := Nat.mod_lt _ (by omega)
    have hr' : (r + 1) % (2 * m) < 2 * m := Nat.mod_lt _ (by omega)
    simp only [plaqKids, List.mem_cons, List.not_mem_nil, or_false] at hf
    rcases hf with rfl | rfl | rfl | rfl
    · exact enc_lt hr hc
    · exact enc_lt hr hc'
    · exact enc_lt hr' hc
    · exact enc_lt hr' hc'
  parents f hf := by
    obtain ⟨r, c, hr, hc, rfl⟩ := enc_exists (h1 ▸ hf)
    have hrp := pred_mod hr
    have hcp := pred_mod hc
    have gr : (r + 2 * m - 1) % (2 * m) < 2 * m := Nat.mod_lt _ (by omega)
    have gc : (c + 2 * m - 1) % (2 * m) < 2 * m := Nat.mod_lt _ (by omega)
    obtain ⟨p1, p2, m1, m2, hne, H⟩ : ∃ p1 p2 : ℕ × ℕ, p1 ∈ plaqSites (2 * m) ∧ p2 ∈ plaqSites (2 * m) ∧
        p1 ≠ p2 ∧ ∀ x ∈ plaqSites (2 * m), r * (2 * m) + c ∈ plaqKids (2 * m) x ↔ x = p1 ∨ x = p2 := by
      rcases Nat.mod_two_eq_zero_or_one (r + c) with hp | hp
      · refine ⟨_, _, mem_plaqSites.2 ⟨hr, hc, hp⟩, mem_plaqSites.2 ⟨gr, gc, ?_⟩, ?_,
          plaq_parents_even hm hr hc hp⟩
        · dsimp only; rw [hrp, hcp]; split_ifs <;> omega
        · rw [Ne, Prod.mk.injEq, hrp, hcp]; split_ifs <;> omega
      · refine ⟨_, _, mem_plaqSites.2 ⟨hr, gc, ?_⟩, mem_plaqSites.2 ⟨gr, hc, ?_⟩, ?_,
          plaq_parents_odd hm hr hc hp⟩
        · dsimp only; rw [hcp]; split_ifs <;> omega
        · dsimp only; rw [hrp]; split_ifs <;> omega
        · rw [Ne, Prod.mk.injEq, hrp, hcp]; split_ifs <;> omega
    have hk : ∀ x ∈ plaqSites (2 * m), plaqKey (2 * m) x < coarse.size := by
      intro x hx
      rw [mem_plaqSites] at hx
      rw [h2, plaqKey, show 2 * m / 2 = m by omega]
      exact odd_lt hx.1 hx.2.1
    have hw : ∀ w < coarse.size, r * (2 * m) + c ∈ coarse.c2f w ↔
        w = plaqKey (2 * m) p1 ∨ w = plaqKey (2 * m) p2 := by
      intro w hw
      obtain ⟨r', c', hr', hc', hp', rfl⟩ := odd_exists (h2 ▸ hw)
      have hx : (r', c') ∈ plaqSites (2 * m) := mem_plaqSites.2 ⟨hr', hc', hp'⟩
      have hkey : r' * m + c' / 2 = plaqKey (2 * m) (r', c') := by
        rw [plaqKey, show 2 * m / 2 = m by omega]
      rw [h4, plaq_c2f hr' hc' hp', H _ hx, hkey]
      constructor
      · rintro (h | h) <;> rw [h]
        · exact Or.inl rfl
        · exact Or.inr rfl
      · rintro (h | h)
        · exact Or.inl (plaqKey_inj hx m1 h)
        · exact Or.inr (plaqKey_inj hx m2 h)
    rcases f2cOf_two (plaqKey (2 * m)) (plaqKids (2 * m)) (plaqSites (2 * m)) (nodup_plaqSites _)
      (fun x hx y hy => plaqKey_inj hx hy) (fun x hx => plaqKids_nodup hm hx) _ p1 p2 m1 m2 hne H with h | h
    · exact ⟨_, _, hk p1 m1, hk p2 m2, by rw [h3, plaquettes_eq, h], hw⟩
    · exact ⟨_, _, hk p2 m2, hk p1 m1, by rw [h3, plaquettes_eq, h], fun w h' => (hw w h').trans or_comm⟩
  type := by
    refine ⟨fun f => (f / (2 * m) + f % (2 * m)) % 2 != 0, fun w hw k hk => ?_⟩
    unfold childType1
    by_cases h0 : s = 0
    · rw [if_pos h0, hcols h0]
    · rw [if_neg h0, if_pos hs]
      obtain ⟨r, c, hr, hc, hp, rfl⟩ := odd_exists (h2 ▸ hw)
      have hc' : (c + 1) % (2 * m) < 2 * m := Nat.mod_lt _ (by omega)
      rw [h4, plaq_c2f hr hc hp]
      unfold plaqKids
      have hsr := succ_mod hr
      have hsc := succ_mod hc
      obtain rfl | rfl | rfl | rfl : k = 0 ∨ k = 1 ∨ k = 2 ∨ k = 3 := by omega
      · simp [enc_div hc, enc_mod hc, hp]
      · simp only [List.getD_cons_succ, List.getD_cons_zero]
        rw [enc_div hc', enc_mod hc', hsc]
        split_ifs <;> simp <;> omega
      · simp only [List.getD_cons_succ, List.getD_cons_zero]
        rw [enc_div hc, enc_mod hc, hsr]
        split_ifs <;> simp <;> omega
      · simp only [List.getD_cons_succ, List.getD_cons_zero]
        rw [enc_div hc', enc_mod hc', hsr, hsc]
        split_ifs <;> simp <;> omega

theorem link_diam {m : ℕ} (hm : 2 ≤ m) {cols s : ℕ} (hs : s % 2 = 1)
    {fine coarse : Scale T P I} (h1 : fine.size = 2 * m * (2 * m) / 2) (h2 : coarse.size = m * m)
    (h3 : fine.f2c = f2cOf (diamonds (2 * m))) (h4 : coarse.c2f = c2fOf (diamonds (2 * m))) :
    Link cols s fine coarse where
  len w hw := by
    obtain ⟨a, b, ha, hb, rfl⟩ := enc_exists (h2 ▸ hw)
    rw [h4, diam_c2f ha hb]; rfl
  lt w hw f hf := by
    obtain ⟨a, b, ha, hb, rfl⟩ := enc_exists (h2 ▸ hw)
    rw [h4, diam_c2f ha hb] at hf
    rw [h1]
    simp only [diamKids, List.mem_cons, List.not_mem_nil, or_false, show 2 * m / 2 = m by omega] at hf
    rcases hf with rfl | rfl | rfl | rfl
    · exact odd_lt (Nat.mod_lt _ (by omega)) (by omega)
    · exact odd_lt (by omega) (Nat.mod_lt _ (by omega))
    · exact odd_lt (Nat.mod_lt _ (by omega)) (by omega)
    · exact odd_lt (by omega) (Nat.mod_lt _ (by omega))
  parents f hf := by
    obtain ⟨r, c, hr, hc, hp, rfl⟩ := odd_exists (h1 ▸ hf)
    have hrp := succ_mod hr
    have hcp := pred_mod hc
    have gr : (r + 1) % (2 * m) < 2 * m := Nat.mod_lt _ (by omega)
    have gc : (c + 2 * m - 1) % (2 * m) < 2 * m := Nat.mod_lt _ (by omega)
    obtain ⟨p1, p2, m1, m2, hne, H⟩ : ∃ p1 p2 : ℕ × ℕ, p1 ∈ diamSites (2 * m) ∧ p2 ∈ diamSites (2 * m) ∧
        p1 ≠ p2 ∧ ∀ x ∈ diamSites (2 * m), r * m + c / 2 ∈ diamKids (2 * m) x ↔ x = p1 ∨ x = p2 := by
      rcases Nat.mod_two_eq_zero_or_one r with h | h
      · refine ⟨_, _, mem_diamSites.2 ⟨hr, gc, h, ?_⟩, mem_diamSites.2 ⟨hr, ?_, h, ?_⟩, ?_,
          diam_parents_even hm hr hc hp h⟩
        · dsimp only; rw [hcp]; split_ifs <;> omega
        · dsimp only; omega
        · dsimp only; omega
        · rw [Ne, Prod.mk.injEq, hcp]; split_ifs <;> omega
      · refine ⟨_, _, mem_diamSites.2 ⟨gr, hc, ?_, ?_⟩, mem_diamSites.2 ⟨?_, hc, ?_, ?_⟩, ?_,
          diam_parents_odd hm hr hc hp h⟩
        · dsimp only; rw [hrp]; split_ifs <;> omega
        · dsimp only; omega
        · dsimp only; omega
        · dsimp only; omega
        · dsimp only; omega
        · rw [Ne, Prod.mk.injEq, hrp]; split_ifs <;> omega
    have hk : ∀ x ∈ diamSites (2 * m), diamKey (2 * m) x < coarse.size := by
      intro x hx
      rw [mem_diamSites] at hx
      rw [h2, diamKey, show 2 * m / 2 = m by omega]
      exact enc_lt (by omega) (by omega)
    have hw : ∀ w < coarse.size, r * m + c / 2 ∈ coarse.c2f w ↔
        w = diamKey (2 * m) p1 ∨ w = diamKey (2 * m) p2 := by
      intro w hw
      obtain ⟨a, b, ha, hb, rfl⟩ := enc_exists (h2 ▸ hw)
      have hx : (2 * a, 2 * b + 1) ∈ diamSites (2 * m) := mem_diamSites.2
        ⟨by dsimp only; omega, by dsimp only; omega, by dsimp only; omega, by dsimp only; omega⟩
      have hkey : a * m + b = diamKey (2 * m) (2 * a, 2 * b + 1) := by
        rw [diamKey, show 2 * m / 2 = m by omega]
        dsimp only
        rw [show 2 * a / 2 = a by omega, show (2 * b + 1 - 1) / 2 = b by omega]
      rw [h4, diam_c2f ha hb, H _ hx, hkey]
      constructor
      · rintro (h | h) <;> rw [h]
        · exact Or.inl rfl
        · exact Or.inr rfl
      · rintro (h | h)
        · exact Or.inl (diamKey_inj hx m1 h)
        · exact Or.inr (diamKey_inj hx m2 h)
    rcases f2cOf_two (diamKey (2 * m)) (diamKids (2 * m)) (diamSites (2 * m)) (nodup_diamSites _)
      (fun x hx y hy => diamKey_inj hx hy) (fun x hx => diamKids_nodup hm hx) _ p1 p2 m1 m2 hne H with h | h
    · exact ⟨_, _, hk p1 m1, hk p2 m2, by rw [h3, diamonds_eq, h], hw⟩
    · exact ⟨_, _, hk p2 m2, hk p1 m1, by rw [h3, diamonds_eq, h], fun w h' => (hw w h').trans or_comm⟩
  type := by
    refine ⟨fun f => f / m % 2 == 1, fun w hw k hk => ?_⟩
    unfold childType1
    rw [if_neg (by omega), if_neg (by omega)]
    obtain ⟨a, b, ha, hb, rfl⟩ := enc_exists (h2 ▸ hw)
    rw [h4, diam_c2f ha hb]
    unfold diamKids
    have hsr := succ_mod (n := 2 * m) (c := 2 * a) (by omega)
    have hpr := pred_mod (n := 2 * m) (c := 2 * a) (by omega)
    have gc : (2 * b + 1 + 1) % (2 * m) < 2 * m := Nat.mod_lt _ (by omega)
    have gc' : (2 * b + 1 + 2 * m - 1) % (2 * m) < 2 * m := Nat.mod_lt _ (by omega)
    dsimp only
    rw [show 2 * m / 2 = m by omega]
    obtain rfl | rfl | rfl | rfl : k = 0 ∨ k = 1 ∨ k = 2 ∨ k = 3 := by omega
    · simp only [List.getD_cons_zero]
      rw [enc_div (by omega), hpr]
      split_ifs <;> simp <;> omega
    · simp only [List.getD_cons_succ, List.getD_cons_zero]
      rw [enc_div (by omega)]
      simp
    · simp only [List.getD_cons_succ, List.getD_cons_zero]
      rw [enc_div (by omega), hsr]
      split_ifs <;> simp <;> omega
    · simp only [List.getD_cons_succ, List.getD_cons_zero]
      rw [enc_div (by omega)]
      simp

end QLPeps.Trg
