import Verif.Lemmas.ContractorSweep
import Mathlib.Algebra.BigOperators.Fin
import Mathlib.Algebra.BigOperators.Intervals

/-! # Cache histories, the full sweep, and the counting contraction -/

namespace QLPeps.Contractor

open QLPeps.Sweep QLPeps.Updaters

variable {T E B C C2 A H : Type*}
variable (o : Ops T E B C C2 A H) (rows cols : ℕ)

theorem current_iff (t : Site → T) (c : Ctr B C C2) :
    Current o rows cols t c ↔ ∀ p, c.bmps p = stack o rows cols t p (c.bmps p).length := by
  constructor
  · intro h p; exact eq_stack o rows cols t p _ (h p)
  · intro h p k b hb
    rw [h p] at hb
    by_cases hk : k < (c.bmps p).length
    · rw [stack_get _ _ _ _ _ _ _ hk] at hb; exact (Option.some.inj hb).symm
    · rw [List.getElem?_eq_none (by simp; omega)] at hb; cases hb

theorem current_of_bmps (t : Site → T) (c c' : Ctr B C C2) (h : Current o rows cols t c)
    (hb : c'.bmps = c.bmps) : Current o rows cols t c' := by
  intro p k b; rw [hb]; exact h p k b

theorem current_setB (t : Site → T) (c : Ctr B C C2) (h : Current o rows cols t c) (p : Pos)
    (n : ℕ) : Current o rows cols t (setB c p (stack o rows cols t p n)) := by
  rw [current_iff] at *
  intro q
  by_cases hq : q = p
  · subst hq; simp
  · rw [setB_ne _ _ _ _ hq]; exact h q

theorem growSlices_nil (t : Site → T) (p : Pos) (c : Ctr B C C2) :
    growSlices o rows cols t p [] c = some c := rfl

/-- growing a side from above or from the left, whatever the bounds of the loop -/
theorem current_up (t : Site → T) (p : Pos) (hp : p = .up ∨ p = .left) (c c' : Ctr B C C2)
    (h : Current o rows cols t c) (k stop : ℕ) (hk : sub? (c.bmps p).length 1 = some k)
    (hg : growSlices o rows cols t p (upTo k stop) c = some c') : Current o rows cols t c' := by
  obtain ⟨h1, rfl⟩ := sub?_eq_some.1 hk
  have hs := (current_iff o rows cols t c).1 h p
  have : c' = setB c p (stack o rows cols t p _) :=
    grow_partial o rows cols t p (stop - ((c.bmps p).length - 1)) c (c.bmps p).length c' hs h1
      (by rw [← hg]; rcases hp with rfl | rfl <;> rfl) (by tauto)
  rw [this]
  exact current_setB o rows cols t c h p _

theorem current_down (t : Site → T) (p : Pos) (hp : p = .down ∨ p = .right) (c c' : Ctr B C C2)
    (h : Current o rows cols t c) (k stop : ℕ)
    (hk : sub? (span rows cols p) (c.bmps p).length = some k)
    (hg : growSlices o rows cols t p (downTo k stop) c = some c') : Current o rows cols t c' := by
  obtain ⟨h1, rfl⟩ := sub?_eq_some.1 hk
  have hs := (current_iff o rows cols t c).1 h p
  rcases Nat.eq_zero_or_pos (c.bmps p).length with h0 | h0
  · by_cases hst : span rows cols p ≤ stop
    · rw [h0, Nat.sub_zero, downTo, Nat.sub_eq_zero_of_le hst] at hg
      rw [← Option.some.inj ((growSlices_nil o rows cols t p c).symm.trans hg)]
      exact h
    · exfalso
      have := growSlices_lt o rows cols t p _ _ _ hg (span rows cols p)
        (List.mem_map.2 ⟨0, List.mem_range.2 (by omega), by omega⟩)
      omega
  · have : c' = setB c p (stack o rows cols t p _) :=
      grow_partial o rows cols t p (span rows cols p - (c.bmps p).length - stop) c
        (c.bmps p).length c' hs h0
        (by
          rw [← hg]
          rcases hp with rfl | rfl
          · exact congrArg (fun l => growSlices o rows cols t _ l c)
              (downTo_eq_down rows cols _ stop h0 h1).symm
          · exact congrArg (fun l => growSlices o rows cols t _ l c)
              (downTo_eq_right rows cols _ stop h0 h1).symm) (by right; right; omega)
    rw [this]
    exact current_setB o rows cols t c h p _

theorem current_growFull (t : Site → T) (p : Pos) (c c' : Ctr B C C2)
    (h : Current o rows cols t c) (hg : growFullBMPS o rows cols t p c = some c') :
    Current o rows cols t c' := by
  cases p <;> simp only [growFullBMPS] at hg
  · cases hk : sub? (c.bmps .left).length 1 with
    | none => rw [hk] at hg; rw [← Option.some.inj hg]; exact h
    | some k => rw [hk] at hg; exact current_up o rows cols t .left (by simp) c c' h k _ hk hg
  · cases hk : sub? rows (c.bmps .down).length with
    | none => rw [hk] at hg; cases hg
    | some k => rw [hk] at hg; exact current_down o rows cols t .down (by simp) c c' h k _ hk hg
  · cases hk : sub? cols (c.bmps .right).length with
    | none => rw [hk] at hg; cases hg
    | some k => rw [hk] at hg; exact current_down o rows cols t .right (by simp) c c' h k _ hk hg
  · cases hk : sub? (c.bmps .up).length 1 with
    | none => rw [hk] at hg; rw [← Option.some.inj hg]; exact h
    | some k => rw [hk] at hg; exact current_up o rows cols t .up (by simp) c c' h k _ hk hg

theorem current_growRow (t : Site → T) (r : ℕ) (c c' : Ctr B C C2)
    (h : Current o rows cols t c) (hg : growForRow o rows cols t r c = some c') :
    Current o rows cols t c' := by
  unfold growForRow at hg
  cases hk : sub? rows (c.bmps .down).length with
  | none => rw [hk] at hg; cases hg
  | some k =>
    rw [hk] at hg
    simp only [Option.bind_some] at hg
    cases h1 : growSlices o rows cols t .down (downTo k r) c with
    | none => rw [h1] at hg; cases hg
    | some c1 =>
      rw [h1] at hg
      simp only [Option.bind_some] at hg
      have hc1 := current_down o rows cols t .down (by simp) c c1 h k _ hk h1
      cases hk : sub? (c1.bmps .up).length 1 with
      | none => rw [hk] at hg; rw [← Option.some.inj hg]; exact hc1
      | some k => rw [hk] at hg; exact current_up o rows cols t .up (by simp) c1 c' hc1 k _ hk hg

theorem current_growCol (t : Site → T) (r : ℕ) (c c' : Ctr B C C2)
    (h : Current o rows cols t c) (hg : growForCol o rows cols t r c = some c') :
    Current o rows cols t c' := by
  unfold growForCol at hg
  cases hk : sub? cols (c.bmps .right).length with
  | none => rw [hk] at hg; cases hg
  | some k =>
    rw [hk] at hg
    simp only [Option.bind_some] at hg
    cases h1 : growSlices o rows cols t .right (downTo k r) c with
    | none => rw [h1] at hg; cases hg
    | some c1 =>
      rw [h1] at hg
      simp only [Option.bind_some] at hg
      have hc1 := current_down o rows cols t .right (by simp) c c1 h k _ hk h1
      cases hk : sub? (c1.bmps .left).length 1 with
      | none => rw [hk] at hg; rw [← Option.some.inj hg]; exact hc1
      | some k =>
        rw [hk] at hg; exact current_up o rows cols t .left (by simp) c1 c' hc1 k _ hk hg

theorem current_growStep (t : Site → T) (p : Pos) (c c' : Ctr B C C2)
    (h : Current o rows cols t c) (hg : growBMPSStep o rows cols t p c = some c') :
    Current o rows cols t c' := by
  have hs := (current_iff o rows cols t c).1 h p
  unfold growBMPSStep at hg
  cases hn : nextSlice rows cols p (c.bmps p).length with
  | none => rw [hn] at hg; cases hg
  | some i =>
    rw [hn] at hg
    simp only [Option.bind_some] at hg
    cases hsl : getSlice rows cols t p i with
    | none => rw [hsl] at hg; cases hg
    | some mpo =>
      have hlt := getSlice_some_lt rows cols t p i mpo hsl
      have h1 : 1 ≤ (c.bmps p).length ∧ (c.bmps p).length ≤ span rows cols p := by
        cases p <;> simp only [nextSlice, span] at * <;> have := sub?_eq_some.1 hn <;> omega
      have := growStep_fresh o rows cols t p c _ hs h1.1 h1.2
      unfold growBMPSStep at this
      rw [hn] at this
      simp only [Option.bind_some] at this
      rw [this] at hg
      rw [← Option.some.inj hg]
      exact current_setB o rows cols t c h p _

theorem current_dropLast (t : Site → T) (p : Pos) (c : Ctr B C C2)
    (h : Current o rows cols t c) : Current o rows cols t (setB c p (c.bmps p).dropLast) := by
  have hs := (current_iff o rows cols t c).1 h p
  rw [hs, stack_dropLast]
  exact current_setB o rows cols t c h p _

theorem current_deleteInner (t : Site → T) (p : Pos) (c : Ctr B C C2)
    (h : Current o rows cols t c) : Current o rows cols t (deleteInner p c) := by
  have hs := (current_iff o rows cols t c).1 h p
  have : deleteInner p c = setB c p (stack o rows cols t p (min 1 (c.bmps p).length)) := by
    unfold deleteInner setB
    rw [← stack_take, ← hs]
  rw [this]
  exact current_setB o rows cols t c h p _

theorem current_erase (t : Site → T) (s : Site) (x : T) (hr : s.1 < rows) (hc : s.2 < cols)
    (c : Ctr B C C2) (h : Current o rows cols t c) :
    Current o rows cols (Function.update t s x) (eraseEnvs rows cols s c) := by
  rw [current_iff] at *
  intro p
  simp only [eraseEnvs]
  rw [h p, stack_take, stack_length]
  apply stack_congr o rows cols t _ p s hr hc (fun q hq => by simp [hq])
  rw [keep_eq rows cols p s hr hc]; omega

theorem bind_bmps {α : Type*} (x : Option α) (f : α → Option (Ctr B C C2)) (P : Ctr B C C2 → Prop)
    (c' : Ctr B C C2) (h : x.bind f = some c') (hf : ∀ a c', f a = some c' → P c') : P c' := by
  cases x with
  | none => cases h
  | some a => exact hf a c' h

theorem initBTen_bmps (p : Pos) (s : ℕ) (c c' : Ctr B C C2)
    (h : initBTen o rows cols p s c = some c') : c'.bmps = c.bmps := by
  unfold initBTen at h
  refine bind_bmps _ _ (fun c' => c'.bmps = c.bmps) _ h fun a c' h => ?_
  refine bind_bmps _ _ (fun c' => c'.bmps = c.bmps) _ h fun a c' h => ?_
  refine bind_bmps _ _ (fun c' => c'.bmps = c.bmps) _ h fun a c' h => ?_
  refine bind_bmps _ _ (fun c' => c'.bmps = c.bmps) _ h fun a c' h => ?_
  rw [← Option.some.inj h]

theorem initBTen2_bmps (p : Pos) (s : ℕ) (c c' : Ctr B C C2)
    (h : initBTen2 o rows cols p s c = some c') : c'.bmps = c.bmps := by
  unfold initBTen2 at h
  refine bind_bmps _ _ (fun c' => c'.bmps = c.bmps) _ h fun a c' h => ?_
  refine bind_bmps _ _ (fun c' => c'.bmps = c.bmps) _ h fun a c' h => ?_
  refine bind_bmps _ _ (fun c' => c'.bmps = c.bmps) _ h fun a c' h => ?_
  refine bind_bmps _ _ (fun c' => c'.bmps = c.bmps) _ h fun a c' h => ?_
  rw [← Option.some.inj h]

theorem btenStep_bmps (t : Site → T) (p : Pos) (s : ℕ) (b1 b2 : B) (c c' : Ctr B C C2) (i : ℕ)
    (h : btenStep o rows cols t p s b1 b2 c i = some c') : c'.bmps = c.bmps := by
  unfold btenStep at h
  refine bind_bmps _ _ (fun c' => c'.bmps = c.bmps) _ h fun a c' h => ?_
  refine bind_bmps _ _ (fun c' => c'.bmps = c.bmps) _ h fun a c' h => ?_
  refine bind_bmps _ _ (fun c' => c'.bmps = c.bmps) _ h fun a c' h => ?_
  refine bind_bmps _ _ (fun c' => c'.bmps = c.bmps) _ h fun a c' h => ?_
  rw [← Option.some.inj h]

theorem bten2Step_bmps (t : Site → T) (p : Pos) (s : ℕ) (b1 b2 : B) (c c' : Ctr B C C2) (i : ℕ)
    (h : bten2Step o rows cols t p s b1 b2 c i = some c') : c'.bmps = c.bmps := by
  unfold bten2Step at h
  refine bind_bmps _ _ (fun c' => c'.bmps = c.bmps) _ h fun a c' h => ?_
  refine bind_bmps _ _ (fun c' => c'.bmps = c.bmps) _ h fun a c' h => ?_
  refine bind_bmps _ _ (fun c' => c'.bmps = c.bmps) _ h fun a c' h => ?_
  refine bind_bmps _ _ (fun c' => c'.bmps = c.bmps) _ h fun a c' h => ?_
  refine bind_bmps _ _ (fun c' => c'.bmps = c.bmps) _ h fun a c' h => ?_
  refine bind_bmps _ _ (fun c' => c'.bmps = c.bmps) _ h fun a c' h => ?_
  rw [← Option.some.inj h]

omit o rows cols in
theorem foldlM_bmps (f : Ctr B C C2 → ℕ → Option (Ctr B C C2))
    (hf : ∀ c i c', f c i = some c' → c'.bmps = c.bmps) (l : List ℕ) :
    ∀ c c', l.foldlM f c = some c' → c'.bmps = c.bmps := by
  induction l with
  | nil => intro c c' h; rw [← Option.some.inj h]
  | cons a l ih =>
    intro c c' h
    rw [List.foldlM_cons] at h
    cases h1 : f c a with
    | none => rw [h1] at h; cases h
    | some c1 => rw [h1] at h; rw [ih c1 c' h, hf c a c1 h1]

theorem growFullBTen_bmps (t : Site → T) (p : Pos) (s n : ℕ) (ini : Bool) (c c' : Ctr B C C2)
    (h : growFullBTen o rows cols t p s n ini c = some c') : c'.bmps = c.bmps := by
  unfold growFullBTen at h
  cases h1 : (if ini then initBTen o rows cols p s c else some c) with
  | none => rw [h1] at h; cases h
  | some c1 =>
    have hc1 : c1.bmps = c.bmps := by
      split_ifs at h1
      · exact initBTen_bmps o rows cols p s c c1 h1
      · rw [← Option.some.inj h1]
    rw [h1] at h
    simp only [Option.bind_some] at h
    rw [← hc1]
    refine bind_bmps _ _ (fun c' => c'.bmps = c1.bmps) _ h fun a c' h => ?_
    refine bind_bmps _ _ (fun c' => c'.bmps = c1.bmps) _ h fun b c' h => ?_
    refine bind_bmps _ _ (fun c' => c'.bmps = c1.bmps) _ h fun e c' h => ?_
    cases hk : sub? (c1.bten p).length 1 with
    | none => rw [hk] at h; rw [← Option.some.inj h]
    | some k =>
      rw [hk] at h
      exact foldlM_bmps _ (fun c i c' => btenStep_bmps o rows cols t p s a b c c' i) _ c1 c' h

theorem growFullBTen2_bmps (t : Site → T) (p : Pos) (s n : ℕ) (ini : Bool) (c c' : Ctr B C C2)
    (h : growFullBTen2 o rows cols t p s n ini c = some c') : c'.bmps = c.bmps := by
  unfold growFullBTen2 at h
  cases h1 : (if ini then initBTen2 o rows cols p s c else some c) with
  | none => rw [h1] at h; cases h
  | some c1 =>
    have hc1 : c1.bmps = c.bmps := by
      split_ifs at h1
      · exact initBTen2_bmps o rows cols p s c c1 h1
      · rw [← Option.some.inj h1]
    rw [h1] at h
    simp only [Option.bind_some] at h
    rw [← hc1]
    refine bind_bmps _ _ (fun c' => c'.bmps = c1.bmps) _ h fun a c' h => ?_
    refine bind_bmps _ _ (fun c' => c'.bmps = c1.bmps) _ h fun b c' h => ?_
    refine bind_bmps _ _ (fun c' => c'.bmps = c1.bmps) _ h fun e c' h => ?_
    cases hk : sub? (c1.bten2 p).length 1 with
    | none => rw [hk] at h; rw [← Option.some.inj h]
    | some k =>
      rw [hk] at h
      exact foldlM_bmps _ (fun c i c' => bten2Step_bmps o rows cols t p s a b c c' i) _ c1 c' h

theorem growBTenStep_bmps (t : Site → T) (p : Pos) (c c' : Ctr B C C2)
    (h : growBTenStep o rows cols t p c = some c') : c'.bmps = c.bmps := by
  unfold growBTenStep at h
  refine bind_bmps _ _ (fun c' => c'.bmps = c.bmps) _ h fun a c' h => ?_
  refine bind_bmps _ _ (fun c' => c'.bmps = c.bmps) _ h fun a c' h => ?_
  refine bind_bmps _ _ (fun c' => c'.bmps = c.bmps) _ h fun a c' h => ?_
  refine bind_bmps _ _ (fun c' => c'.bmps = c.bmps) _ h fun a c' h => ?_
  refine bind_bmps _ _ (fun c' => c'.bmps = c.bmps) _ h fun a c' h => ?_
  refine bind_bmps _ _ (fun c' => c'.bmps = c.bmps) _ h fun a c' h => ?_
  refine bind_bmps _ _ (fun c' => c'.bmps = c.bmps) _ h fun a c' h => ?_
  refine bind_bmps _ _ (fun c' => c'.bmps = c.bmps) _ h fun a c' h => ?_
  rw [← Option.some.inj h]

theorem shiftBTen_bmps (t : Site → T) (p : Pos) (c c' : Ctr B C C2)
    (h : shiftBTenWindow o rows cols t p c = some c') : c'.bmps = c.bmps := by
  unfold shiftBTenWindow at h
  split_ifs at h
  rw [growBTenStep_bmps o rows cols t _ _ c' h]

theorem shiftBTen2_bmps (t : Site → T) (p : Pos) (s : ℕ) (c c' : Ctr B C C2)
    (h : shiftBTen2Window o rows cols t p s c = some c') : c'.bmps = c.bmps := by
  unfold shiftBTen2Window at h
  split_ifs at h
  unfold growBTen2Step at h
  refine bind_bmps _ _ (fun c' => c'.bmps = c.bmps) _ h fun a c' h => ?_
  refine bind_bmps _ _ (fun c' => c'.bmps = c.bmps) _ h fun b c' h => ?_
  refine bind_bmps _ _ (fun c' => c'.bmps = c.bmps) _ h fun e c' h => ?_
  rw [bten2Step_bmps o rows cols t _ _ _ _ _ c' _ h]

/-- every operation keeps the boundary MPS cache current -/
theorem current_step (st st' : (Site → T) × Ctr B C C2) (op : CacheOp T)
    (h : Current o rows cols st.1 st.2) (hs : op.step o rows cols st = some st') :
    Current o rows cols st'.1 st'.2 := by
  obtain ⟨t, c⟩ := st
  obtain ⟨t', c'⟩ := st'
  have hmap : ∀ (x : Option (Ctr B C C2)), x.map (Prod.mk t) = some (t', c') →
      t' = t ∧ x = some c' := by
    intro x hx
    cases x with
    | none => cases hx
    | some y => simp only [Option.map_some, Option.some.injEq, Prod.mk.injEq] at hx
                exact ⟨hx.1.symm, by rw [hx.2]⟩
  cases op <;> simp only [CacheOp.step] at hs
  case init =>
    cases hs
    rw [current_iff]
    intro p
    simp [init, stack, env]
  case growStep p =>
    obtain ⟨rfl, h1⟩ := hmap _ hs; exact current_growStep o rows cols _ p c c' h h1
  case growFull p =>
    obtain ⟨rfl, h1⟩ := hmap _ hs; exact current_growFull o rows cols _ p c c' h h1
  case growRow r =>
    obtain ⟨rfl, h1⟩ := hmap _ hs; exact current_growRow o rows cols _ r c c' h h1
  case growCol r =>
    obtain ⟨rfl, h1⟩ := hmap _ hs; exact current_growCol o rows cols _ r c c' h h1
  case generate p =>
    obtain ⟨rfl, h1⟩ := hmap _ hs
    exact current_growFull o rows cols _ _ _ c' (current_deleteInner o rows cols _ p c h) h1
  case shift p =>
    obtain ⟨rfl, h1⟩ := hmap _ hs
    unfold shiftBMPSWindow at h1
    split_ifs at h1
    exact current_growStep o rows cols _ _ _ c' (current_dropLast o rows cols _ p c h) h1
  case deleteInner p => cases hs; exact current_deleteInner o rows cols _ p c h
  case initBTen p s =>
    obtain ⟨rfl, h1⟩ := hmap _ hs
    exact current_of_bmps o rows cols _ c c' h (initBTen_bmps o rows cols p s c c' h1)
  case growFullBTen p s n i =>
    obtain ⟨rfl, h1⟩ := hmap _ hs
    exact current_of_bmps o rows cols _ c c' h (growFullBTen_bmps o rows cols _ p s n i c c' h1)
  case growBTenStep p =>
    obtain ⟨rfl, h1⟩ := hmap _ hs
    exact current_of_bmps o rows cols _ c c' h (growBTenStep_bmps o rows cols _ p c c' h1)
  case shiftBTen p =>
    obtain ⟨rfl, h1⟩ := hmap _ hs
    exact current_of_bmps o rows cols _ c c' h (shiftBTen_bmps o rows cols _ p c c' h1)
  case truncateBTen p n =>
    cases hs
    exact current_of_bmps o rows cols _ c _ h rfl
  case initBTen2 p s =>
    obtain ⟨rfl, h1⟩ := hmap _ hs
    exact current_of_bmps o rows cols _ c c' h (initBTen2_bmps o rows cols p s c c' h1)
  case growFullBTen2 p s n i =>
    obtain ⟨rfl, h1⟩ := hmap _ hs
    exact current_of_bmps o rows cols _ c c' h (growFullBTen2_bmps o rows cols _ p s n i c c' h1)
  case shiftBTen2 p s =>
    obtain ⟨rfl, h1⟩ := hmap _ hs
    exact current_of_bmps o rows cols _ c c' h (shiftBTen2_bmps o rows cols _ p s c c' h1)
  case update s x =>
    split_ifs at hs with hin
    cases hs
    exact current_erase o rows cols t s x hin.1 hin.2 c h

theorem current_run (ops : List (CacheOp T)) : ∀ (st st' : (Site → T) × Ctr B C C2),
    Current o rows cols st.1 st.2 → runOps o rows cols ops st = some st' →
    Current o rows cols st'.1 st'.2 := by
  induction ops with
  | nil => intro st st' h hs; rw [← Option.some.inj hs]; exact h
  | cons op ops ih =>
    intro st st' h hs
    simp only [runOps, List.foldlM_cons] at hs
    cases h1 : op.step o rows cols st with
    | none => rw [h1] at hs; cases hs
    | some st1 =>
      rw [h1] at hs
      exact ih st1 st' (current_step o rows cols st st1 op h h1) hs

/-! ## the full sweep -/

variable (sitps : Site → ℕ → T)

theorem generate_window (t : Site → T) (p : Pos) (hp : p = .left ∨ p = .up) (c : Ctr B C C2)
    (hg : Good o rows cols t c) (hL : 1 ≤ width rows cols p) :
    ∃ c', generateApproach o rows cols t (opposite (decSide p)) c = some c' ∧
      Good o rows cols t c' ∧ Window o rows cols t c' p 0 := by
  obtain ⟨n, hn, n1, n2⟩ := hg (opposite (decSide p))
  obtain ⟨m, hm, m1, m2⟩ := hg (decSide p)
  have := generate_fresh o rows cols t (opposite (decSide p)) c n m hn n1
    (by rw [opposite_opposite]; exact hm) m1 (by rw [span_opposite]; exact m2)
  refine ⟨_, this, ?_, ?_⟩
  · refine Good.setB o rows cols (Good.setB o rows cols hg _ _ (le_refl 1) (by omega)) _ _ ?_ ?_
    · omega
    · exact le_of_eq (span_opposite rows cols _).symm
  · rcases hp with rfl | rfl <;>
      simp only [Window, decSide, opposite, pre, next, depth, width, span] at *
    · refine ⟨?_, ?_⟩
      · rw [setB_ne _ _ _ _ (by decide), setB_same]
      · rw [setB_same]; congr 1; omega
    · refine ⟨?_, ?_⟩
      · rw [setB_same]; congr 1; omega
      · rw [setB_ne _ _ _ _ (by decide), setB_same]

theorem deleteInner_good (t : Site → T) (p : Pos) (c : Ctr B C C2) (hg : Good o rows cols t c) :
    Good o rows cols t (deleteInner p c) := by
  obtain ⟨n, hn, n1, n2⟩ := hg p
  rw [deleteInner_eq o rows cols t p c n hn n1]
  exact Good.setB o rows cols hg p 1 (le_refl 1) (by omega)

/-- a whole nearest-neighbour sweep -/
theorem Rel.sweep (dec : Decision (Option A)) (hr : 2 ≤ rows) (hc : 2 ≤ cols)
    {x : Option (Walker (Option A) (Option (Ctr B C C2)))} {y : Option (Walker (Option A) Unit)}
    (h : Rel sitps (Good o rows cols) (x, 0) (y, 0)) :
    Rel sitps (Good o rows cols)
      (obcSweep (opsB o rows cols sitps)
        (fun a b d => liftUpd (moveBy dec (bmpsContractor o rows cols sitps) a b d)) rows cols x)
      (obcSweep (opsS o rows cols sitps)
        (fun a b d => liftUpd (moveBy dec (scratchContractor o rows cols sitps) a b d))
        rows cols y) := by
  unfold obcSweep
  simp only [horizontalLoop_eq, verticalLoop_eq]
  have h1 := Rel.op (A := A) sitps
    (Q := fun t c => Good o rows cols t c ∧ Window o rows cols t c .left 0) h
    (fun cfg e => (bmpsContractor o rows cols sitps).generateBMPSApproach cfg .up e)
    ((opsS o rows cols sitps).generateBMPSApproach .up) (fun y => map_id' _ (fun _ => rfl) y)
    (fun cfg c hg => generate_window o rows cols (project sitps cfg) .left (by simp) c hg
      (by simp only [width]; omega))
  have h2 := Rel.phase o rows cols sitps dec .left (by simp) (by simp only [span]; omega)
    (by simp only [width]; omega) h1
  have h3 := Rel.op (A := A) sitps (Q := Good o rows cols) h2
    (fun cfg e => (bmpsContractor o rows cols sitps).deleteInnerBMPS cfg .left e)
    ((opsS o rows cols sitps).deleteInnerBMPS .left) (fun y => map_id' _ (fun _ => rfl) y)
    (fun cfg c hg => ⟨_, rfl, deleteInner_good o rows cols _ .left c hg.1⟩)
  have h4 := Rel.op (A := A) sitps (Q := Good o rows cols) h3
    (fun cfg e => (bmpsContractor o rows cols sitps).deleteInnerBMPS cfg .right e)
    ((opsS o rows cols sitps).deleteInnerBMPS .right) (fun y => map_id' _ (fun _ => rfl) y)
    (fun cfg c hg => ⟨_, rfl, deleteInner_good o rows cols _ .right c hg⟩)
  have h5 := Rel.op (A := A) sitps
    (Q := fun t c => Good o rows cols t c ∧ Window o rows cols t c .up 0) h4
    (fun cfg e => (bmpsContractor o rows cols sitps).generateBMPSApproach cfg .left e)
    ((opsS o rows cols sitps).generateBMPSApproach .left) (fun y => map_id' _ (fun _ => rfl) y)
    (fun cfg c hg => generate_window o rows cols (project sitps cfg) .up (by simp) c hg
      (by simp only [width]; omega))
  have h6 := Rel.phase o rows cols sitps dec .up (by simp) (by simp only [span]; omega)
    (by simp only [width]; omega) h5
  exact Rel.op (A := A) sitps (Q := Good o rows cols) h6
    (fun cfg e => (bmpsContractor o rows cols sitps).deleteInnerBMPS cfg .up e)
    ((opsS o rows cols sitps).deleteInnerBMPS .up) (fun y => map_id' _ (fun _ => rfl) y)
    (fun cfg c hg => ⟨_, rfl, deleteInner_good o rows cols _ .up c hg.1⟩)

end QLPeps.Contractor
