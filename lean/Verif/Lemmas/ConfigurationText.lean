import Verif.Lemmas.Configuration

/-! # Lemmas about the text format of configurations -/

namespace QLPeps.Configuration

open QLPeps.Spec

theorem digitChar_spec (d : ℕ) (h : d < 10) :
    isDig (digitChar d) = true ∧ (digitChar d).toNat - 48 = d := by
  interval_cases d <;> decide

theorem not_ws_of_dig (c : Char) (h : isDig c = true) : isWs c = false := by
  simp only [isDig, isWs, Bool.and_eq_true, decide_eq_true_eq, Bool.or_eq_false_iff,
    beq_eq_false_iff_ne, Bool.and_eq_false_iff, decide_eq_false_iff_not] at *
  omega

theorem not_dig_of_ws (c : Char) (h : isWs c = true) : isDig c = false := by
  by_contra hd
  rw [Bool.not_eq_false] at hd
  rw [not_ws_of_dig c hd] at h
  exact Bool.noConfusion h

theorem natChars_dig (n : ℕ) : ∀ c ∈ natChars n, isDig c = true := by
  intro c hc
  unfold natChars at hc
  split_ifs at hc with h
  · simp at hc; subst hc; decide
  · simp only [List.mem_map, List.mem_reverse] at hc
    obtain ⟨d, hd, rfl⟩ := hc
    exact (digitChar_spec d (Nat.digits_lt_base (by norm_num) hd)).1

theorem natChars_ne_nil (n : ℕ) : natChars n ≠ [] := by
  unfold natChars
  split_ifs with h
  · simp
  · simp only [ne_eq, List.map_eq_nil_iff, List.reverse_eq_nil_iff]
    exact Nat.digits_ne_nil_iff_ne_zero.2 h

theorem digitsValue_natChars (n : ℕ) : digitsValue (natChars n) = n := by
  unfold natChars
  split_ifs with h
  · subst h; decide
  · unfold digitsValue
    rw [List.foldl_map, List.foldl_reverse]
    conv_rhs => rw [← Nat.ofDigits_digits 10 n]
    have hd : ∀ d ∈ Nat.digits 10 n, d < 10 := fun d hd => Nat.digits_lt_base (by norm_num) hd
    generalize Nat.digits 10 n = l at hd
    induction l with
    | nil => rfl
    | cons a l ih =>
      rw [List.foldr_cons, Nat.ofDigits_cons, ih (fun d h => hd d (by simp [h])),
        (digitChar_spec a (hd a (by simp))).2]
      ring

theorem natChars_small (n : ℕ) (h : n < 10) : ∃ c, natChars n = [c] := by
  unfold natChars
  split_ifs with h0
  · exact ⟨_, rfl⟩
  · rw [Nat.digits_of_lt 10 n h0 h]; exact ⟨_, rfl⟩

theorem dropWhile_ws (ws r : List Char) (h : ∀ c ∈ ws, isWs c = true) :
    (ws ++ r).dropWhile isWs = r.dropWhile isWs := by
  induction ws with
  | nil => rfl
  | cons a ws ih =>
    rw [List.cons_append, List.dropWhile_cons_of_pos (h a (by simp)),
      ih (fun c hc => h c (by simp [hc]))]

theorem readNat_ws (ws : List Char) (h : ∀ c ∈ ws, isWs c = true) :
    (readNat ws).1 = none := by
  unfold readNat
  have := dropWhile_ws ws [] h
  rw [List.append_nil] at this
  simp [this]

/-- reading a digit string after white space -/
theorem readNat_digits (ws ds rest : List Char) (h : ∀ c ∈ ws, isWs c = true)
    (hds : ∀ c ∈ ds, isDig c = true) (hne : ds ≠ [])
    (hrest : rest = [] ∨ ∃ c r, rest = c :: r ∧ isDig c = false) :
    readNat (ws ++ ds ++ rest) =
      (if digitsValue ds < 2 ^ 64 then some (digitsValue ds) else none, rest) := by
  have h1 : (ws ++ ds ++ rest).dropWhile isWs = ds ++ rest := by
    rw [List.append_assoc, dropWhile_ws ws _ h]
    cases ds with
    | nil => exact absurd rfl hne
    | cons a ds =>
      rw [List.cons_append, List.dropWhile_cons_of_neg]
      rw [not_ws_of_dig a (hds a (by simp))]
      simp
  have h2 : rest.takeWhile isDig = [] ∧ rest.dropWhile isDig = rest := by
    rcases hrest with rfl | ⟨c, r, rfl, hc⟩
    · simp
    · simp [hc]
  have h3 : (ds ++ rest).takeWhile isDig = ds := by
    rw [List.takeWhile_append_of_pos hds, h2.1, List.append_nil]
  have h4 : (ds ++ rest).dropWhile isDig = rest := by
    rw [List.dropWhile_append_of_pos hds, h2.2]
  unfold readNat
  simp only [h1, h3, h4, hne, if_false]
  split_ifs <;> rfl

/-- token of a site: its value and one separator -/
def tok (f : Site → ℕ) (sep : Site → Char) (p : Site) : List Char := natChars (f p) ++ [sep p]

theorem readStep_false (L : List Site) (st : List Char × Conf) :
    (L.foldl (fun st p => readStep p.1 p.2 st) (false, st)) = (false, st) := by
  induction L with
  | nil => rfl
  | cons p L ih => rw [List.foldl_cons]; exact ih

theorem readStep_some (p : Site) (s rest : List Char) (c : Conf) (f : Site → ℕ)
    (h : readNat s = (some (f p), rest)) :
    readStep p.1 p.2 (true, s, c) = (true, rest, setCells c [p] f) := by
  unfold readStep
  simp only [if_true, h, setCells]
  congr 3
  funext q
  by_cases hq : q = p <;> simp [hq]

theorem readStep_none (p : Site) (s : List Char) (c : Conf) (h : (readNat s).1 = none) :
    (readStep p.1 p.2 (true, s, c)).1 = false := by
  unfold readStep
  simp only [if_true]
  match hh : readNat s, h with
  | (none, rest), _ => rfl

theorem readAll_exact (f : Site → ℕ) (sep : Site → Char) (hsep : ∀ p, isWs (sep p) = true)
    (L : List Site) (hf : ∀ p ∈ L, f p < 2 ^ 64) (ws : List Char) (hws : ∀ c ∈ ws, isWs c = true)
    (c : Conf) :
    ∃ rest, L.foldl (fun st p => readStep p.1 p.2 st) (true, ws ++ L.flatMap (tok f sep), c)
      = (true, rest, setCells c L f) := by
  induction L generalizing ws c with
  | nil => exact ⟨ws, by simp [setCells_nil]⟩
  | cons p L ih =>
    have hr : readNat (ws ++ (p :: L).flatMap (tok f sep))
        = (some (f p), [sep p] ++ L.flatMap (tok f sep)) := by
      have := readNat_digits ws (natChars (f p)) ([sep p] ++ L.flatMap (tok f sep)) hws
        (natChars_dig _) (natChars_ne_nil _) (Or.inr ⟨_, _, rfl, not_dig_of_ws _ (hsep p)⟩)
      rw [digitsValue_natChars, if_pos (hf p (by simp))] at this
      rw [← this]
      simp [tok, List.flatMap_cons]
    obtain ⟨rest, h⟩ := ih (fun q hq => hf q (by simp [hq])) [sep p] (by simp [hsep]) (setCells c [p] f)
    refine ⟨rest, ?_⟩
    rw [List.foldl_cons, readStep_some p _ _ c f hr, h, ← setCells_cons]

theorem prefix_append_cases {α : Type*} {s a b : List α} (h : s <+: a ++ b) :
    s <+: a ∨ ∃ s', s = a ++ s' ∧ s' <+: b := by
  rcases List.prefix_or_prefix_of_prefix h (List.prefix_append a b) with h1 | h1
  · exact Or.inl h1
  · obtain ⟨s', rfl⟩ := h1
    exact Or.inr ⟨s', rfl, (List.prefix_append_right_inj a).1 h⟩

theorem readAll_prefix (f : Site → ℕ) (sep : Site → Char) (hsep : ∀ p, isWs (sep p) = true)
    (L : List Site) (hf : ∀ p ∈ L, f p < 2 ^ 64)
    (hlast : ∀ p, L.getLast? = some p → f p < 10)
    (ws : List Char) (hws : ∀ c ∈ ws, isWs c = true)
    (c : Conf) (s : List Char) (hs : s <+: ws ++ L.flatMap (tok f sep)) (hL : L ≠ []) :
    (L.foldl (fun st p => readStep p.1 p.2 st) (true, s, c)).1 = false ∨
    ∃ rest, L.foldl (fun st p => readStep p.1 p.2 st) (true, s, c)
      = (true, rest, setCells c L f) := by
  induction L generalizing ws c s with
  | nil => exact absurd rfl hL
  | cons p L ih =>
    rw [List.flatMap_cons] at hs
    rw [List.foldl_cons]
    have fails : (readStep p.1 p.2 (true, s, c)).1 = false →
        (L.foldl (fun st p => readStep p.1 p.2 st) (readStep p.1 p.2 (true, s, c))).1 = false := by
      intro h
      generalize readStep p.1 p.2 (true, s, c) = st at h
      obtain ⟨b, st⟩ := st
      simp only at h
      subst h
      rw [readStep_false]
    rcases prefix_append_cases hs with h1 | ⟨s1, rfl, h1⟩
    · -- nothing but white space
      refine Or.inl (fails (readStep_none p s c (readNat_ws s ?_)))
      intro x hx
      exact hws x (h1.subset hx)
    · rw [tok, List.append_assoc] at h1
      rcases prefix_append_cases h1 with h2 | ⟨s2, rfl, h2⟩
      · -- (part of) the token of `p`
        have hdig : ∀ x ∈ s1, isDig x = true := fun x hx => natChars_dig _ x (h2.subset hx)
        by_cases hnil : s1 = []
        · subst hnil
          rw [List.append_nil] at *
          exact Or.inl (fails (readStep_none p ws c (readNat_ws ws hws)))
        · have hr := readNat_digits ws s1 [] hws hdig hnil (Or.inl rfl)
          rw [List.append_nil] at hr
          by_cases hLn : L = []
          · subst hLn
            obtain ⟨x, hx⟩ := natChars_small (f p) (hlast p rfl)
            have hs1 : s1 = natChars (f p) := by
              rw [hx] at h2 ⊢
              rcases List.prefix_cons_iff.1 h2 with h3 | ⟨t, h3, h4⟩
              · exact absurd h3 hnil
              · rw [h3, List.prefix_nil.1 h4]
            rw [hs1, digitsValue_natChars, if_pos (hf p (by simp))] at hr
            right
            refine ⟨[], ?_⟩
            rw [hs1, readStep_some p _ _ c f hr]
            rfl
          · left
            obtain ⟨q, L', rfl⟩ := List.exists_cons_of_ne_nil hLn
            by_cases hv : digitsValue s1 < 2 ^ 64
            · rw [if_pos hv] at hr
              have := readStep_some p (ws ++ s1) [] c (fun _ => digitsValue s1) hr
              rw [this, List.foldl_cons]
              have h5 := readStep_none q [] (setCells c [p] fun _ => digitsValue s1)
                (readNat_ws [] (by simp))
              generalize readStep q.1 q.2 (true, [], setCells c [p] fun _ => digitsValue s1) = st at h5
              obtain ⟨b, st⟩ := st
              simp only at h5
              subst h5
              rw [readStep_false]
            · rw [if_neg hv] at hr
              exact fails (readStep_none p _ c (by rw [hr]))
      · rcases prefix_append_cases h2 with h3 | ⟨s3, rfl, h3⟩
        · -- the complete token, possibly with its separator, is all there is
          have hws2 : ∀ x ∈ s2, isWs x = true := by
            intro x hx
            have := h3.subset hx
            rw [List.mem_singleton] at this
            rw [this]; exact hsep p
          have hr := readNat_digits ws (natChars (f p)) s2 hws (natChars_dig _) (natChars_ne_nil _)
            (by
              cases s2 with
              | nil => exact Or.inl rfl
              | cons a r => exact Or.inr ⟨a, r, rfl, not_dig_of_ws a (hws2 a (by simp))⟩)
          rw [digitsValue_natChars, if_pos (hf p (by simp)), List.append_assoc] at hr
          rw [readStep_some p _ _ c f hr]
          by_cases hLn : L = []
          · subst hLn
            exact Or.inr ⟨s2, rfl⟩
          · left
            obtain ⟨q, L', rfl⟩ := List.exists_cons_of_ne_nil hLn
            rw [List.foldl_cons]
            have h5 := readStep_none q s2 (setCells c [p] f) (readNat_ws s2 hws2)
            generalize readStep q.1 q.2 (true, s2, setCells c [p] f) = st at h5
            obtain ⟨b, st⟩ := st
            simp only at h5
            subst h5
            rw [readStep_false]
        · -- the token, its separator and part of the rest
          have hr := readNat_digits ws (natChars (f p)) ([sep p] ++ s3) hws (natChars_dig _)
            (natChars_ne_nil _) (Or.inr ⟨_, _, rfl, not_dig_of_ws _ (hsep p)⟩)
          rw [digitsValue_natChars, if_pos (hf p (by simp)), List.append_assoc] at hr
          rw [readStep_some p _ _ c f hr]
          by_cases hLn : L = []
          · subst hLn
            exact Or.inr ⟨_, rfl⟩
          · have hlast' : ∀ q, L.getLast? = some q → f q < 10 := by
              intro q hq
              apply hlast q
              rw [List.getLast?_cons, hq]; rfl
            have := ih (fun q hq => hf q (by simp [hq])) hlast' [sep p] (by simp [hsep])
              (setCells c [p] f) ([sep p] ++ s3) ((List.prefix_append_right_inj _).2 h3) hLn
            rw [← setCells_cons] at this
            exact this

/-! ## writing -/

/-- separator written after a site -/
def sepOf (cols : ℕ) (p : Site) : Char := if p.2 + 1 = cols then '\n' else ' '

theorem sepOf_ws (cols : ℕ) (p : Site) : isWs (sepOf cols p) = true := by
  unfold sepOf; split_ifs <;> decide

theorem streamWrite_eq (c : Conf) (hv : Valid c) (hc : 0 < c.cols) :
    streamWrite c = some ((cellList c.rows c.cols).flatMap
      (tok (fun p => (c.cell p).getD 0) (sepOf c.cols))) := by
  have hread : ∀ p, InLattice c.rows c.cols p → read p c = some ((c.cell p).getD 0) := by
    intro p hp
    have hp' : p.1 < c.rows ∧ p.2 < c.cols := hp
    obtain ⟨v, h⟩ := hv p hp
    rw [read, if_pos hp', h]; rfl
  unfold streamWrite
  rw [if_neg (by omega), cellList_eq_flatMap, List.flatMap_assoc]
  have inner : ∀ (ks : List ℕ) (r : ℕ) (t : List Char), r < c.rows → (∀ k ∈ ks, k + 1 < c.cols) →
      ks.foldl (fun o k => match o, read (r, k) c with
        | some t, some v => some (t ++ natChars v ++ [' '])
        | _, _ => none) (some t)
      = some (t ++ ks.flatMap (fun k => tok (fun p => (c.cell p).getD 0) (sepOf c.cols) (r, k))) := by
    intro ks
    induction ks with
    | nil => intro r t _ _; simp
    | cons k ks ih =>
      intro r t hr hk
      have hk0 := hk k (by simp)
      rw [List.foldl_cons, hread (r, k) ⟨hr, by simp only; omega⟩]
      simp only
      rw [ih r _ hr (fun j hj => hk j (by simp [hj]))]
      have : sepOf c.cols (r, k) = ' ' := by unfold sepOf; rw [if_neg (by simp only; omega)]
      simp [List.flatMap_cons, tok, this]
  have hrange : List.range c.cols = List.range (c.cols - 1) ++ [c.cols - 1] := by
    conv_lhs => rw [← Nat.succ_pred_eq_of_pos hc]
    rw [List.range_succ]; rfl
  have outer : ∀ (rs : List ℕ) (t : List Char), (∀ r ∈ rs, r < c.rows) →
      rs.foldl (fun o r =>
        match (List.range (c.cols - 1)).foldl (fun o k => match o, read (r, k) c with
          | some t, some v => some (t ++ natChars v ++ [' '])
          | _, _ => none) o, read (r, c.cols - 1) c with
        | some t, some v => some (t ++ natChars v ++ ['\n'])
        | _, _ => none) (some t)
      = some (t ++ rs.flatMap (fun r => ((List.range c.cols).map (fun k => (r, k))).flatMap
          (tok (fun p => (c.cell p).getD 0) (sepOf c.cols)))) := by
    intro rs
    induction rs with
    | nil => intro t _; simp
    | cons r rs ih =>
      intro t hrs
      have hr := hrs r (by simp)
      rw [List.foldl_cons, inner _ r t hr (fun k hk => by
        have := List.mem_range.1 hk; omega), hread (r, c.cols - 1) ⟨hr, by simp only; omega⟩]
      simp only
      rw [ih _ (fun q hq => hrs q (by simp [hq]))]
      have hsep : sepOf c.cols (r, c.cols - 1) = '\n' := by
        unfold sepOf; rw [if_pos (by simp only; omega)]
      rw [hrange]
      simp [List.flatMap_map, tok, hsep, List.flatMap_append, List.flatMap_cons]
  have := outer (List.range c.rows) [] (fun r hr => List.mem_range.1 hr)
  rw [List.nil_append] at this
  exact this

/-! ## the shape sidecar -/

theorem shapeOk_full (c c' : Conf) (h1 : c.rows < 2 ^ 64) (h2 : c.cols < 2 ^ 64) :
    shapeOk (some (shapeText c)) c' = true ↔ c'.rows = c.rows ∧ c'.cols = c.cols := by
  have hr1 := readNat_digits [] (natChars c.rows) (' ' :: (natChars c.cols ++ ['\n'])) (by simp)
    (natChars_dig _) (natChars_ne_nil _) (Or.inr ⟨_, _, rfl, by decide⟩)
  have hr2 := readNat_digits [' '] (natChars c.cols) ['\n'] (by simp; decide)
    (natChars_dig _) (natChars_ne_nil _) (Or.inr ⟨_, _, rfl, by decide⟩)
  rw [digitsValue_natChars, if_pos h1] at hr1
  rw [digitsValue_natChars, if_pos h2] at hr2
  have e1 : readNat (shapeText c) = (some c.rows, ' ' :: (natChars c.cols ++ ['\n'])) := by
    rw [← hr1]; simp [shapeText]
  have e2 : readNat (' ' :: (natChars c.cols ++ ['\n'])) = (some c.cols, ['\n']) := by
    rw [← hr2]; simp
  unfold shapeOk
  simp only [e1, e2, Bool.and_eq_true, beq_iff_eq]
  constructor <;> rintro ⟨h, h'⟩ <;> exact ⟨h.symm, h'.symm⟩

end QLPeps.Configuration
