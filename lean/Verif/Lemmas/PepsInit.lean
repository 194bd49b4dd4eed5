import Verif.Model.PepsInit
import Mathlib.Tactic

/-!
# What the loops of the initialisation do
-/

namespace QLPeps.Peps

open QLPeps.State (BC)

variable {Q 𝕜 : Type*} [AddCommGroup Q] [Zero 𝕜] [One 𝕜]

theorem forN_setV (n row : ℕ) (v : QDiag Q) (p : QPeps Q 𝕜) :
    forN n (fun c p => p.setV row c v) p =
      { p with lamV := fun r' c' => if r' = row ∧ c' < n then v else p.lamV r' c' } := by
  induction n with
  | zero => simp [forN]
  | succ n ih =>
    rw [forN, ih, QPeps.setV]
    congr 1
    funext r' c'
    dsimp only
    grind

theorem forN_setV' (n : ℕ) (v : QDiag Q) (p : QPeps Q 𝕜) :
    forN n (fun c p => p.setV p.rows c v) p =
      { p with lamV := fun r' c' => if r' = p.rows ∧ c' < n then v else p.lamV r' c' } := by
  induction n with
  | zero => simp [forN]
  | succ n ih =>
    rw [forN, ih, QPeps.setV]
    congr 1
    funext r' c'
    dsimp only
    grind

theorem forN_setH (n col : ℕ) (v : QDiag Q) (p : QPeps Q 𝕜) :
    forN n (fun r p => p.setH r col v) p =
      { p with lamH := fun r' c' => if r' < n ∧ c' = col then v else p.lamH r' c' } := by
  induction n with
  | zero => simp [forN]
  | succ n ih =>
    rw [forN, ih, QPeps.setH]
    congr 1
    funext r' c'
    dsimp only
    grind

theorem forN_setH' (n : ℕ) (v : QDiag Q) (p : QPeps Q 𝕜) :
    forN n (fun r p => p.setH r p.cols v) p =
      { p with lamH := fun r' c' => if r' < n ∧ c' = p.cols then v else p.lamH r' c' } := by
  induction n with
  | zero => simp [forN]
  | succ n ih =>
    rw [forN, ih, QPeps.setH]
    congr 1
    funext r' c'
    dsimp only
    grind

theorem forN_setH_row (n row : ℕ) (v : QDiag Q) (p : QPeps Q 𝕜) :
    forN n (fun c p => p.setH row c v) p =
      { p with lamH := fun r' c' => if r' = row ∧ c' < n then v else p.lamH r' c' } := by
  induction n with
  | zero => simp [forN]
  | succ n ih =>
    rw [forN, ih, QPeps.setH]
    congr 1
    funext r' c'
    dsimp only
    grind

theorem forN_setH_block (n : ℕ) (v : QDiag Q) (p : QPeps Q 𝕜) :
    forN n (fun r p => forN p.cols (fun c p => p.setH r c v) p) p =
      { p with lamH := fun r' c' => if r' < n ∧ c' < p.cols then v else p.lamH r' c' } := by
  induction n with
  | zero => simp [forN]
  | succ n ih =>
    rw [forN, ih, forN_setH_row]
    congr 1
    funext r' c'
    dsimp only
    grind

/-- the weights around the lattice -/
theorem initFrame_eq (p : QPeps Q 𝕜) : initFrame p =
    { p with
      lamV := fun r c => if c < p.cols ∧ (r = 0 ∨ p.bc = .obc ∧ r = p.rows) then oneDiag 0
        else p.lamV r c
      lamH := fun r c => if r < p.rows ∧ c = 0 ∨ (p.bc = .obc ∧ r < p.rows ∧ c = p.cols) ∨
          r < p.rows - 1 ∧ c < p.cols then oneDiag 0 else p.lamH r c } := by
  unfold initFrame
  dsimp only
  rw [forN_setV]
  cases hb : p.bc
  · simp only [if_true, forN_setV', forN_setH, forN_setH', forN_setH_block]
    congr 1
    · funext r c
      grind
    · funext r c
      grind
  · simp only [reduceCtorEq, if_false, forN_setH, forN_setH_block]
    congr 1
    · funext r c
      grind
    · funext r c
      grind

/-- the tensor written by `initSite` -/
def siteT (act : ℕ → ℕ → ℕ) (p : QPeps Q 𝕜) (row c : ℕ) : QTn Q 𝕜 :=
  oneTn (p.lamH row c).qn ((p.lamH row c).qn + (p.lamV row c).qn +
    (p.gamma row c).phys.flux (act row c)) 0 (p.lamV row c).qn (p.lamH row c).d.dim 1
    (p.lamV row c).d.dim (p.gamma row c).phys (act row c)

theorem forN_initSite (act : ℕ → ℕ → ℕ) (n row : ℕ) (p : QPeps Q 𝕜) :
    forN n (initSite act row) p =
      { p with gamma := fun r' c' => if r' = row ∧ c' < n then siteT act p row c'
        else p.gamma r' c' } := by
  induction n with
  | zero => simp [forN]
  | succ n ih =>
    rw [forN, ih, initSite, QPeps.setGamma]
    dsimp only
    congr 1
    funext r' c'
    by_cases h1 : r' = row
    · subst h1
      by_cases h2 : c' = n
      · subst h2
        simp [siteT]
      · simp only [h2, and_false, if_false, true_and, Nat.lt_succ_iff_lt_or_eq, or_false]
    · simp [h1]

theorem initAbove_eq (row : ℕ) (p : QPeps Q 𝕜) : initAbove row p =
    { p with lamV := fun r' c' => if r' = row ∧ c' < p.cols then
        oneDiag (p.gamma (row - 1) c').south else p.lamV r' c' } := by
  unfold initAbove
  suffices h : ∀ n, forN n (fun c p => p.setV row c (oneDiag (p.gamma (row - 1) c).south)) p =
      { p with lamV := fun r' c' => if r' = row ∧ c' < n then
        oneDiag (p.gamma (row - 1) c').south else p.lamV r' c' } from h _
  intro n
  induction n with
  | zero => simp [forN]
  | succ n ih =>
    rw [forN, ih, QPeps.setV]
    congr 1
    funext r' c'
    dsimp only
    grind

/-- charge that has entered column `c` above row `r` -/
def colFlux (act : ℕ → ℕ → ℕ) (p : QPeps Q 𝕜) (r c : ℕ) : Q :=
  ∑ k ∈ Finset.range r, (p.gamma k c).phys.flux (act k c)

/-- tensor of a row that is not the last -/
def rowT (act : ℕ → ℕ → ℕ) (p : QPeps Q 𝕜) (r c : ℕ) : QTn Q 𝕜 :=
  oneTn 0 (colFlux act p (r + 1) c) 0 (colFlux act p r c) 1 1 1 (p.gamma r c).phys (act r c)

/-- the loop over the middle rows -/
theorem middle_eq (act : ℕ → ℕ → ℕ) (p q : QPeps Q 𝕜) (k : ℕ)
    (hH : ∀ r ≤ k, ∀ c < p.cols, p.lamH r c = oneDiag 0)
    (hV : ∀ c < p.cols, p.lamV 0 c = oneDiag 0)
    (hq : q = forN p.cols (initSite act 0) p) :
    forN k (fun k p =>
      let p := initAbove (k + 1) p
      forN p.cols (initSite act (k + 1)) p) q =
    { p with
      lamV := fun r c => if 1 ≤ r ∧ r ≤ k ∧ c < p.cols then oneDiag (colFlux act p r c)
        else p.lamV r c
      gamma := fun r c => if r ≤ k ∧ c < p.cols then rowT act p r c else p.gamma r c } := by
  induction k with
  | zero =>
    rw [forN, hq, forN_initSite]
    congr 1
    · funext r c
      by_cases h : r = 0 ∧ c < p.cols
      · obtain ⟨rfl, h⟩ := h
        rw [if_pos ⟨rfl, h⟩, if_pos ⟨le_rfl, h⟩]
        unfold siteT rowT
        rw [hH 0 le_rfl c h, hV c h]
        simp [oneDiag, colFlux]
      · rw [if_neg h, if_neg (by omega)]
    · funext r c
      rw [if_neg (by omega)]
  | succ k ih =>
    rw [forN, ih fun r hr => hH r (by omega)]
    dsimp only
    rw [initAbove_eq, forN_initSite]
    dsimp only
    congr 1
    · funext r c
      by_cases hc : c < p.cols
      swap
      · simp [hc]
      by_cases hr : r = k + 1
      · subst hr
        simp only [hc, and_true, if_true, le_refl]
        unfold siteT rowT
        dsimp only
        rw [hH (k + 1) le_rfl c hc]
        simp [oneDiag, hc, rowT, oneTn, colFlux, Finset.sum_range_succ]
      · simp only [hr, hc, and_true, false_and, if_false]
        by_cases h : r ≤ k
        · rw [if_pos h, if_pos (by omega)]
        · rw [if_neg h, if_neg (by omega)]
    · funext r c
      by_cases hc : c < p.cols
      swap
      · simp [hc]
      by_cases hr : r = k + 1
      · subst hr
        simp [hc, rowT, oneTn]
      · simp only [hr, hc, and_true, if_false]
        by_cases h : 1 ≤ r ∧ r ≤ k
        · rw [if_pos h, if_pos (by omega)]
        · rw [if_neg h, if_neg (by omega)]

/-- charge of all columns left of `c` -/
def rowFlux (act : ℕ → ℕ → ℕ) (p : QPeps Q 𝕜) (c : ℕ) : Q :=
  ∑ k ∈ Finset.range c, colFlux act p p.rows k

/-- tensor of the last row -/
def lastT (act : ℕ → ℕ → ℕ) (p : QPeps Q 𝕜) (c : ℕ) : QTn Q 𝕜 :=
  oneTn (rowFlux act p c) 0 (if p.bc = .pbc ∧ c = p.cols - 1 then 0 else rowFlux act p (c + 1))
    (colFlux act p (p.rows - 1) c) 1 1 1 (p.gamma (p.rows - 1) c).phys (act (p.rows - 1) c)

theorem initLast_eq (act : ℕ → ℕ → ℕ) (n row : ℕ) (s : QPeps Q 𝕜) {a b e : Q} {i : Phys Q}
    (hrow : s.rows - 1 = row)
    (hH : s.lamH row n = oneDiag a) (hV : s.lamV row n = oneDiag b) (hS : s.south row n = oneDiag 0)
    (hi : (s.gamma row n).phys = i) (he : a + b + i.flux (act row n) = e) :
    initLast act n s =
      { s with
        gamma := fun r c => if r = row ∧ c = n then
          oneTn a 0 (if s.bc = .pbc ∧ n = s.cols - 1 then 0 else e) b 1 1 1 i (act row n)
          else s.gamma r c
        lamH := fun r c => if r = row ∧ c = n + 1 ∧ (n < s.cols - 1 ∨ s.bc = .obc) then
          oneDiag (if s.bc = .pbc ∧ n = s.cols - 1 then 0 else e) else s.lamH r c } := by
  subst hrow hi he
  unfold initLast
  dsimp only
  rw [hH, hV, hS]
  simp only [oneDiag, sub_zero, QPeps.setGamma, QPeps.setH]
  by_cases h1 : n < s.cols - 1
  · rw [if_pos h1]
    congr 1
    funext r c
    simp [h1]
  · rw [if_neg h1]
    by_cases h2 : s.bc = .obc
    · rw [if_pos h2]
      congr 1
      funext r c
      simp [h2]
    · rw [if_neg h2]
      congr 1
      funext r c
      simp [h1, h2]

theorem last_eq (act : ℕ → ℕ → ℕ) (p q : QPeps Q 𝕜) (hr : 0 < p.rows) (hqr : q.rows = p.rows)
    (hqc : q.cols = p.cols) (hqb : q.bc = p.bc)
    (hph : ∀ c < p.cols, (q.gamma (p.rows - 1) c).phys = (p.gamma (p.rows - 1) c).phys)
    (hV : ∀ c < p.cols, q.lamV (p.rows - 1) c = oneDiag (colFlux act p (p.rows - 1) c))
    (hH : q.lamH (p.rows - 1) 0 = oneDiag 0)
    (hS : ∀ c < p.cols, q.south (p.rows - 1) c = oneDiag 0) (n : ℕ) (hn : n ≤ p.cols) :
    forN n (initLast act) q =
    { q with
      gamma := fun r c => if r = p.rows - 1 ∧ c < n then lastT act p c else q.gamma r c
      lamH := fun r c => if r = p.rows - 1 ∧ 1 ≤ c ∧ c ≤ n ∧ (c < p.cols ∨ p.bc = .obc) then
        oneDiag (rowFlux act p c) else q.lamH r c } := by
  induction n with
  | zero =>
    rw [forN]
    conv_lhs => rw [show q = ⟨q.rows, q.cols, q.bc, q.gamma, q.lamV, q.lamH⟩ from rfl]
    congr 1
    · funext r c
      rw [if_neg (by omega)]
    · funext r c
      rw [if_neg (by omega)]
  | succ n ih =>
    rw [forN, ih (by omega)]
    have hnc : n < p.cols := by omega
    have e1 : (if p.rows - 1 = p.rows - 1 ∧ 1 ≤ n ∧ n ≤ n ∧ (n < p.cols ∨ p.bc = .obc) then
        oneDiag (rowFlux act p n) else q.lamH (p.rows - 1) n) = oneDiag (rowFlux act p n) := by
      by_cases h : 1 ≤ n
      · rw [if_pos ⟨rfl, h, le_rfl, .inl hnc⟩]
      · obtain rfl : n = 0 := by omega
        rw [if_neg (by omega), hH]
        simp [rowFlux]
    have e2 : ∀ (g : ℕ → ℕ → QTn Q 𝕜) h, (QPeps.mk q.rows q.cols q.bc g q.lamV h).south (p.rows - 1) n =
        oneDiag 0 := fun g h => hS n hnc
    have e3 : rowFlux act p n + colFlux act p (p.rows - 1) n +
        (p.gamma (p.rows - 1) n).phys.flux (act (p.rows - 1) n) = rowFlux act p (n + 1) := by
      obtain ⟨m, hm⟩ : ∃ m, p.rows = m + 1 := ⟨p.rows - 1, by omega⟩
      simp only [rowFlux, Finset.sum_range_succ, hm, Nat.add_sub_cancel]
      simp only [colFlux, Finset.sum_range_succ]
      abel
    rw [initLast_eq act n (p.rows - 1) _ ?_ ?_ ?_ ?_ ?_ e3]
    rotate_left
    · exact congrArg (· - 1) hqr
    · exact e1
    · exact hV n hnc
    · exact e2 _ _
    · simpa using hph n hnc
    dsimp only
    congr 1
    · funext r c
      by_cases h : r = p.rows - 1
      · subst h
        by_cases h2 : c = n
        · subst h2
          simp [lastT, hqb, hqc]
        · simp only [h2, and_false, if_false, true_and, Nat.lt_succ_iff_lt_or_eq, or_false]
      · simp [h]
    · funext r c
      rw [hqb, hqc]
      by_cases h : r = p.rows - 1
      swap
      · simp [h]
      simp only [h, true_and]
      by_cases h2 : c = n + 1
      · subst h2
        by_cases h3 : n < p.cols - 1
        · rw [if_pos ⟨rfl, .inl h3⟩, if_neg (by omega), if_pos ⟨by omega, le_rfl, .inl (by omega)⟩]
        · by_cases h4 : p.bc = .obc
          · rw [if_pos ⟨rfl, .inr h4⟩, if_neg (by simp [h4]), if_pos ⟨by omega, le_rfl, .inr h4⟩]
          · rw [if_neg (by simp [h3, h4]), if_neg (by omega), if_neg (by simp [h4]; omega)]
      · rw [if_neg (by simp [h2])]
        by_cases h3 : 1 ≤ c ∧ c ≤ n ∧ (c < p.cols ∨ p.bc = .obc)
        · rw [if_pos h3, if_pos ⟨h3.1, by omega, h3.2.2⟩]
        · rw [if_neg h3, if_neg fun h4 => h3 ⟨h4.1, by omega, h4.2.2⟩]

/-- the state before the last row -/
theorem before_last (act : ℕ → ℕ → ℕ) (p : QPeps Q 𝕜) (hr : 0 < p.rows) :
    ∃ q : QPeps Q 𝕜, initial act p = forN p.cols (initLast act) q ∧ q.rows = p.rows ∧
      q.cols = p.cols ∧ q.bc = p.bc ∧ q.lamH = (initFrame p).lamH ∧
      (∀ c < p.cols, (q.gamma (p.rows - 1) c).phys = (p.gamma (p.rows - 1) c).phys) ∧
      (∀ r < p.rows - 1, ∀ c < p.cols, q.gamma r c = rowT act p r c) ∧
      (∀ r < p.rows, ∀ c < p.cols, q.lamV r c = oneDiag (colFlux act p r c)) ∧
      (p.bc = .obc → ∀ c < p.cols, q.lamV p.rows c = oneDiag 0) := by
  have hf := initFrame_eq p
  have hfr : (initFrame p).rows = p.rows := by rw [hf]
  have hfc : (initFrame p).cols = p.cols := by rw [hf]
  have hfb : (initFrame p).bc = p.bc := by rw [hf]
  have hfg : (initFrame p).gamma = p.gamma := by rw [hf]
  have hfH : ∀ r < p.rows - 1, ∀ c < p.cols, (initFrame p).lamH r c = oneDiag 0 := by
    intro r h c h'
    rw [hf]
    dsimp only
    rw [if_pos (by omega)]
  have hfV : ∀ c < p.cols, (initFrame p).lamV 0 c = oneDiag 0 := by
    intro c h
    rw [hf]
    dsimp only
    rw [if_pos ⟨h, .inl rfl⟩]
  have hfV' : p.bc = .obc → ∀ c < p.cols, (initFrame p).lamV p.rows c = oneDiag 0 := by
    intro hb c h
    rw [hf]
    dsimp only
    rw [if_pos ⟨h, .inr ⟨hb, rfl⟩⟩]
  have hcf : ∀ r c, colFlux act (initFrame p) r c = colFlux act p r c := by
    intro r c
    unfold colFlux
    rw [hfg]
  have hrt : ∀ r c, rowT act (initFrame p) r c = rowT act p r c := by
    intro r c
    unfold rowT
    rw [hfg, hcf, hcf]
  unfold initial
  dsimp only
  generalize initFrame p = p1 at *
  rcases Nat.lt_or_ge 1 p.rows with h | h
  · have hm := middle_eq act p1 (forN p1.cols (initSite act 0) p1) (p.rows - 2)
      (fun r h1 c h2 => hfH r (by omega) c (hfc ▸ h2)) (fun c h2 => hfV c (hfc ▸ h2)) rfl
    have hr2 : (forN p1.cols (initSite act 0) p1).rows = p.rows := by
      rw [forN_initSite]
      exact hfr
    rw [hr2, hm]
    dsimp only
    rw [hfr, if_pos h, initAbove_eq]
    dsimp only
    rw [hfc]
    refine ⟨_, rfl, rfl, rfl, hfb, rfl, fun c hc => ?_, fun r h1 c hc => ?_, fun r h1 c hc => ?_,
      fun hb c hc => ?_⟩
    · dsimp only
      rw [if_neg (by omega), hfg]
    · dsimp only
      rw [if_pos (by omega), hrt]
    · dsimp only
      by_cases h2 : r = p.rows - 1
      · rw [if_pos ⟨h2, hc⟩, if_pos (by omega), hrt, h2, show p.rows - 1 - 1 = p.rows - 2 by omega]
        unfold rowT oneTn
        dsimp only
        rw [show p.rows - 2 + 1 = p.rows - 1 by omega]
      · rw [if_neg (by omega)]
        by_cases h3 : r = 0
        · subst h3
          rw [if_neg (by omega), hfV c hc]
          simp [colFlux]
        · rw [if_pos ⟨by omega, by omega, hc⟩, hcf]
    · dsimp only
      rw [if_neg (by omega), if_neg (by omega), hfV' hb c hc]
  · have h1 : p.rows = 1 := by omega
    have hr2 : (forN p1.cols (initSite act 0) p1).rows = p.rows := by
      rw [forN_initSite]
      exact hfr
    rw [hr2, show p.rows - 2 = 0 by omega, forN, hr2, if_neg (by omega), forN_initSite]
    dsimp only
    rw [hfc]
    refine ⟨_, rfl, hfr, rfl, hfb, rfl, fun c hc => ?_, fun r h2 => by omega, fun r h2 c hc => ?_,
      fun hb c hc => ?_⟩
    · dsimp only
      rw [if_pos ⟨by omega, hc⟩]
      unfold siteT oneTn
      dsimp only
      rw [hfg, h1]
    · obtain rfl : r = 0 := by omega
      dsimp only
      rw [hfV c hc]
      simp [colFlux]
    · exact hfV' hb c hc

/-- `Initial`, entry by entry -/
theorem initial_eq (act : ℕ → ℕ → ℕ) (p : QPeps Q 𝕜) (hr : 0 < p.rows) :
    (initial act p).rows = p.rows ∧ (initial act p).cols = p.cols ∧ (initial act p).bc = p.bc ∧
    (∀ r < p.rows - 1, ∀ c < p.cols, (initial act p).gamma r c = rowT act p r c) ∧
    (∀ c < p.cols, (initial act p).gamma (p.rows - 1) c = lastT act p c) ∧
    (∀ r < p.rows, ∀ c < p.cols, (initial act p).lamV r c = oneDiag (colFlux act p r c)) ∧
    (p.bc = .obc → ∀ c < p.cols, (initial act p).lamV p.rows c = oneDiag 0) ∧
    (∀ r < p.rows - 1, ∀ c, c < p.cols ∨ p.bc = .obc ∧ c = p.cols →
      (initial act p).lamH r c = oneDiag 0) ∧
    (∀ c, c < p.cols ∨ p.bc = .obc ∧ c = p.cols →
      (initial act p).lamH (p.rows - 1) c = oneDiag (rowFlux act p c)) := by
  obtain ⟨q, e, h1, h2, h3, h4, h5, h6, h7, h8⟩ := before_last act p hr
  have hS : ∀ c < p.cols, q.south (p.rows - 1) c = oneDiag 0 := by
    intro c hc
    unfold QPeps.south
    rw [h3, h1, show p.rows - 1 + 1 = p.rows by omega, Nat.mod_self]
    split
    · next hb => exact h8 hb c hc
    · rw [h7 0 hr c hc]
      simp [colFlux]
  have hH : q.lamH (p.rows - 1) 0 = oneDiag 0 := by
    rw [h4, initFrame_eq]
    dsimp only
    rw [if_pos (.inl ⟨by omega, rfl⟩)]
  rw [e, last_eq act p q hr h1 h2 h3 h5 (fun c hc => h7 _ (by omega) c hc) hH hS _ le_rfl]
  refine ⟨h1, h2, h3, fun r hr' c hc => ?_, fun c hc => ?_, h7, h8, fun r hr' c hc => ?_,
    fun c hc => ?_⟩
  · dsimp only
    rw [if_neg (by omega), h6 r hr' c hc]
  · dsimp only
    rw [if_pos ⟨rfl, hc⟩]
  · dsimp only
    rw [if_neg (by omega), h4, initFrame_eq]
    dsimp only
    rcases hc with hc | ⟨hb, hc⟩
    · rw [if_pos (.inr (.inr ⟨hr', hc⟩))]
    · rw [if_pos (.inr (.inl ⟨hb, by omega, hc⟩))]
  · dsimp only
    by_cases h0 : c = 0
    · subst h0
      rw [if_neg (by omega), hH]
      simp [rowFlux]
    · rw [if_pos ⟨rfl, by omega, by omega, by tauto⟩]

end QLPeps.Peps
