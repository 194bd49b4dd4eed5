import Verif.Model.StateIO
import Verif.Spec.State
import Verif.Lemmas.State
import Verif.Lemmas.ConfigurationText

/-! # Lemmas on storing and transferring states -/

namespace QLPeps.State

open QLPeps.Configuration (natChars readNat isDig isWs natChars_dig natChars_ne_nil
  digitsValue_natChars digitsValue readNat_digits readNat_ws natChars_small prefix_append_cases)

variable {Ten : Type*}

/-! ## file names -/

theorem split_dig (a b : ℕ) (x y : Char) (s t : List Char) (hx : isDig x = false)
    (hy : isDig y = false) (h : natChars a ++ x :: s = natChars b ++ y :: t) :
    a = b ∧ x :: s = y :: t := by
  have key : ∀ (n : ℕ) (z : Char) (u : List Char), isDig z = false →
      (natChars n ++ z :: u).takeWhile isDig = natChars n ∧
      (natChars n ++ z :: u).dropWhile isDig = z :: u := by
    intro n z u hz
    constructor
    · rw [List.takeWhile_append_of_pos (natChars_dig n), List.takeWhile_cons_of_neg (by simp [hz]),
        List.append_nil]
    · rw [List.dropWhile_append_of_pos (natChars_dig n), List.dropWhile_cons_of_neg (by simp [hz])]
  obtain ⟨h1, h2⟩ := key a x s hx
  obtain ⟨h3, h4⟩ := key b y t hy
  rw [h, h3] at h1
  rw [h, h4] at h2
  refine ⟨?_, h2.symm⟩
  rw [← digitsValue_natChars a, ← digitsValue_natChars b, h1]

theorem tenName_inj {r c i r' c' i' : ℕ} (h : tenName r c i = tenName r' c' i') :
    r = r' ∧ c = c' ∧ i = i' := by
  unfold tenName at h
  simp only [List.append_assoc, List.append_cancel_left_eq] at h
  obtain ⟨h1, h⟩ := split_dig _ _ _ _ _ _ (by decide) (by decide) h
  rw [List.cons.injEq] at h
  obtain ⟨h2, h⟩ := split_dig _ _ _ _ _ _ (by decide) (by decide) h.2
  rw [List.cons.injEq] at h
  obtain ⟨h3, -⟩ := split_dig i i' '.' '.' _ _ (by decide) (by decide) h.2
  exact ⟨h1, h2, h3⟩

theorem tenName_ne (r c i : ℕ) : tenName r c i ≠ metaName ∧ tenName r c i ≠ oldMetaName := by
  constructor
  · intro h
    have := congrArg (fun l => l[4]?) h
    simp [tenName, metaName] at this
  · intro h
    have := congrArg (fun l => l[0]?) h
    simp [tenName, oldMetaName] at this

/-! ## sequences of writes -/

/-- the file a step touches -/
def Op.name : Op → Option (List Char)
  | .mkdir => none
  | .create n => some n
  | .append n _ => some n

theorem runOps_append (x y : List Op) (d : Disk) : runOps (x ++ y) d = runOps y (runOps x d) :=
  List.foldl_append

theorem runOps_dir (ops : List Op) : ∀ d : Disk, d.dir = true → (runOps ops d).dir = true := by
  induction ops with
  | nil => intro d h; exact h
  | cons o ops ih =>
    intro d h
    apply ih
    cases o <;> simp [Op.run, h]

theorem runOps_untouched (ops : List Op) (m : List Char) : ∀ d : Disk,
    (∀ o ∈ ops, o.name ≠ some m) → (runOps ops d).file m = d.file m := by
  induction ops with
  | nil => intro d _; rfl
  | cons o ops ih =>
    intro d h
    have h1 := h o List.mem_cons_self
    change (runOps ops (o.run d)).file m = _
    rw [ih _ (fun o ho => h o (List.mem_cons_of_mem _ ho))]
    cases o with
    | mkdir => rfl
    | create n =>
      have : m ≠ n := fun e => h1 (by rw [Op.name, e])
      simp [Op.run, this]
    | append n b =>
      have : m ≠ n := fun e => h1 (by rw [Op.name, e])
      simp [Op.run, this]

theorem runOps_appends (n : List Char) (b : Bytes) : ∀ (d : Disk) (x : Bytes),
    d.file n = some x → (runOps (b.map (.append n)) d).file n = some (x ++ b) := by
  induction b with
  | nil => intro d x h; simpa [runOps] using h
  | cons a b ih =>
    intro d x h
    have := ih ((Op.append n a).run d) (x ++ [a]) (by simp [Op.run, h])
    rw [List.append_assoc] at this
    exact this

theorem runOps_write (n : List Char) (b : Bytes) (d : Disk) :
    (runOps (writeOps n b) d).file n = some b := by
  have := runOps_appends n b ((Op.create n).run d) [] (by simp [Op.run])
  exact this

theorem writeOps_name (n : List Char) (b : Bytes) : ∀ o ∈ writeOps n b, o.name = some n := by
  intro o ho
  rcases List.mem_cons.1 ho with rfl | ho
  · rfl
  · obtain ⟨x, -, rfl⟩ := List.mem_map.1 ho
    rfl

theorem runOps_files {K : Type*} [DecidableEq K] (name : K → List Char) (val : K → Bytes) (skip : K → Bool)
    (hinj : Function.Injective name) (L : List K) : ∀ (d : Disk), L.Nodup → ∀ k,
      (runOps (L.flatMap fun t => if skip t then [] else writeOps (name t) (val t)) d).file (name k)
        = if k ∈ L ∧ skip k = false then some (val k) else d.file (name k) := by
  induction L with
  | nil => intro d _ k; simp [runOps]
  | cons t L ih =>
    intro d hnd k
    obtain ⟨ht, hnd⟩ := List.nodup_cons.1 hnd
    rw [List.flatMap_cons, runOps_append, ih _ hnd k]
    by_cases hk : k = t
    · subst hk
      rw [if_neg (by simp [ht])]
      by_cases hs : skip k = true
      · simp [hs, runOps]
      · rw [if_neg hs, runOps_write, if_pos ⟨List.mem_cons_self, by simpa using hs⟩]
    · have : (runOps (if skip t then [] else writeOps (name t) (val t)) d).file (name k)
          = d.file (name k) := by
        apply runOps_untouched
        intro o ho
        split at ho
        · simp at ho
        · rw [writeOps_name _ _ o ho]
          intro e
          exact hk (hinj (Option.some.inj e)).symm
      rw [this]
      simp [hk]

/-! ## the triples -/

theorem mem_triples (rows cols d r c i : ℕ) :
    (r, c, i) ∈ triples rows cols d ↔ r < rows ∧ c < cols ∧ i < d := by
  simp [triples, List.mem_flatMap]

theorem nodup_triples (rows cols d : ℕ) : (triples rows cols d).Nodup := by
  unfold triples
  rw [List.nodup_flatMap]
  refine ⟨fun r _ => ?_, ?_⟩
  · rw [List.nodup_flatMap]
    refine ⟨fun c _ => List.nodup_range.map (by intro a b h; simpa using h), ?_⟩
    refine List.nodup_range.imp_of_mem (fun {c c'} _ _ h => ?_)
    simp only [Function.onFun, List.disjoint_left, List.mem_map]
    rintro p ⟨i, _, rfl⟩ ⟨i', _, e⟩
    exact h (by simpa using (congrArg (fun q => q.2.1) e).symm)
  · refine List.nodup_range.imp_of_mem (fun {r r'} _ _ h => ?_)
    simp only [Function.onFun, List.disjoint_left, List.mem_flatMap, List.mem_map]
    rintro p ⟨c, _, i, _, rfl⟩ ⟨c', _, i', _, e⟩
    exact h (by simpa using (congrArg (fun q => q.1) e).symm)

/-! ## metadata -/

theorem extract_num (ws : List Char) (n : ℕ) (rest : List Char) (h : ∀ c ∈ ws, isWs c = true)
    (hn : n < 2 ^ 64) (hrest : rest = [] ∨ ∃ c r, rest = c :: r ∧ isDig c = false) :
    extract (true, ws ++ natChars n ++ rest) = (n, true, rest) := by
  have := readNat_digits ws (natChars n) rest h (natChars_dig n) (natChars_ne_nil n) hrest
  rw [digitsValue_natChars, if_pos hn] at this
  simp only [extract, if_true, this]

theorem extract_dead (b : Bool) : extract (b, []) = (0, false, []) := by
  cases b <;> rfl

theorem extract_false (s : List Char) : extract (false, s) = (0, false, s) := rfl

theorem extract_prefix (ws s : List Char) (n : ℕ) (h : ∀ c ∈ ws, isWs c = true)
    (hs : s <+: natChars n) : (extract (true, ws ++ s)).2.2 = [] := by
  by_cases h0 : s = []
  · subst h0
    have hd : (ws ++ []).dropWhile isWs = [] := by
      rw [QLPeps.Configuration.dropWhile_ws ws [] h]; rfl
    have : readNat (ws ++ []) = (none, []) := by
      unfold readNat
      simp only [hd, List.takeWhile_nil, if_true]
    simp only [extract, if_true, this]
  · have := readNat_digits ws s [] h
      (fun c hc => natChars_dig n c (hs.subset hc)) h0 (Or.inl rfl)
    rw [List.append_nil] at this
    simp only [extract, if_true, this]
    split_ifs <;> rfl

theorem BC.code_lt (b : BC) : b.code < 10 := by cases b <;> decide

theorem BC.ofCode_code (b : BC) : BC.ofCode b.code = b := by cases b <;> rfl

theorem parseMeta_dead (s : List Char) (n : ℕ) (rest : List Char) (b : Bool)
    (h : extract (true, s) = (n, b, rest)) (h2 : (extract (b, rest)).2.2 = []) :
    (parseMeta s).2.2.1 = 0 := by
  simp only [parseMeta, h]
  have : (extract (extract (b, rest)).2) = extract ((extract (b, rest)).2.1, []) := by
    rw [← h2]
  rw [this, extract_dead]

theorem parseMeta_full (R C d : ℕ) (bc : BC) (hR : R < 2 ^ 64) (hC : C < 2 ^ 64) (hd : d < 2 ^ 64) :
    parseMeta (natChars R ++ [' '] ++ natChars C ++ [' '] ++ natChars d ++ [' ']
      ++ natChars bc.code) = (R, C, d, bc) := by
  have e1 := extract_num [] R ([' '] ++ natChars C ++ [' '] ++ natChars d ++ [' ']
      ++ natChars bc.code) (by simp) hR (Or.inr ⟨' ', _, rfl, by decide⟩)
  have e2 := extract_num [' '] C ([' '] ++ natChars d ++ [' '] ++ natChars bc.code)
    (by simp; decide) hC (Or.inr ⟨' ', _, rfl, by decide⟩)
  have e3 := extract_num [' '] d ([' '] ++ natChars bc.code)
    (by simp; decide) hd (Or.inr ⟨' ', _, rfl, by decide⟩)
  have e4 := extract_num [' '] bc.code [] (by simp; decide)
    (lt_of_lt_of_le bc.code_lt (by norm_num)) (Or.inl rfl)
  simp only [List.nil_append, List.append_assoc, List.append_nil] at e1 e2 e3 e4 ⊢
  simp only [parseMeta, e1, e2, e3, e4, if_true, BC.ofCode_code]

/-- what any prefix of the metadata text is parsed as, for a one-digit physical dimension -/
theorem parseMeta_prefix (R C d : ℕ) (bc : BC) (hR : R < 2 ^ 64) (hC : C < 2 ^ 64) (hd : d < 10)
    (s : List Char) (hs : s <+: natChars R ++ [' '] ++ natChars C ++ [' '] ++ natChars d ++ [' ']
      ++ natChars bc.code) :
    (parseMeta s).2.2.1 = 0 ∨ parseMeta s = (R, C, d, .obc) ∨ parseMeta s = (R, C, d, bc) := by
  have ws1 : ∀ c ∈ ([' '] : List Char), isWs c = true := by simp; decide
  have one : ∀ (t : List Char) (c : Char), t <+: [c] → t = [] ∨ t = [c] := by
    intro t c h
    rcases t with _ | ⟨x, t⟩
    · exact Or.inl rfl
    · right
      rw [List.cons_prefix_cons] at h
      rw [h.1, List.prefix_nil.1 h.2]
  have hs' : s <+: natChars R ++ ([' '] ++ (natChars C ++ ([' '] ++ (natChars d ++ ([' ']
      ++ natChars bc.code))))) := by simpa [List.append_assoc] using hs
  rcases prefix_append_cases hs' with h | ⟨s1, rfl, h1⟩
  · -- inside the rows
    left
    have := extract_prefix [] s R (by simp) h
    rw [List.nil_append] at this
    generalize he : extract (true, s) = e at this
    obtain ⟨e1, e2, e3⟩ := e
    exact parseMeta_dead s _ _ _ he (by rw [show e3 = [] from this, extract_dead])
  have e1 : ∀ rest, rest = [] ∨ (∃ c r, rest = c :: r ∧ isDig c = false) →
      extract (true, natChars R ++ rest) = (R, true, rest) := by
    intro rest hrest
    have := extract_num [] R rest (by simp) hR hrest
    simpa using this
  rcases prefix_append_cases h1 with h | ⟨s2, rfl, h2⟩
  · left
    rcases one _ _ h with rfl | rfl
    · exact parseMeta_dead _ _ _ _ (e1 [] (Or.inl rfl)) (by rw [extract_dead])
    · refine parseMeta_dead _ _ _ _ (e1 [' '] (Or.inr ⟨_, _, rfl, by decide⟩)) ?_
      have := extract_prefix [' '] [] C ws1 (List.nil_prefix)
      simpa using this
  have E1 := e1 ([' '] ++ s2) (Or.inr ⟨_, _, rfl, by decide⟩)
  rcases prefix_append_cases h2 with h | ⟨s3, rfl, h3⟩
  · left
    exact parseMeta_dead _ _ _ _ E1 (extract_prefix [' '] s2 C ws1 h)
  have e2 : ∀ rest, rest = [] ∨ (∃ c r, rest = c :: r ∧ isDig c = false) →
      extract (true, [' '] ++ (natChars C ++ rest)) = (C, true, rest) := by
    intro rest hrest
    have := extract_num [' '] C rest ws1 hC hrest
    rwa [List.append_assoc] at this
  rcases prefix_append_cases h3 with h | ⟨s4, rfl, h4⟩
  · left
    rcases one _ _ h with rfl | rfl
    · have E2 := e2 [] (Or.inl rfl)
      simp only [parseMeta, E1, E2, extract_dead]
    · have E2 := e2 [' '] (Or.inr ⟨_, _, rfl, by decide⟩)
      simp only [parseMeta, E1, E2]
      rfl
  have E2 := e2 ([' '] ++ s4) (Or.inr ⟨_, _, rfl, by decide⟩)
  have e3 : ∀ rest, rest = [] ∨ (∃ c r, rest = c :: r ∧ isDig c = false) →
      extract (true, [' '] ++ (natChars d ++ rest)) = (d, true, rest) := by
    intro rest hrest
    have := extract_num [' '] d rest ws1 (lt_of_lt_of_le hd (by norm_num)) hrest
    rwa [List.append_assoc] at this
  obtain ⟨x, hx⟩ := natChars_small d hd
  rcases prefix_append_cases h4 with h | ⟨s5, rfl, h5⟩
  · rw [hx] at h
    rcases one _ _ h with rfl | rfl
    · left
      simp only [parseMeta, E1, E2]
      rfl
    · right; left
      have E3 := e3 [] (Or.inl rfl)
      rw [hx] at E3
      simp only [List.append_nil] at E3
      simp only [parseMeta, E1, E2, E3, extract_dead]
      rfl
  rcases prefix_append_cases h5 with h | ⟨s6, rfl, h6⟩
  · right; left
    rcases one _ _ h with rfl | rfl
    · have E3 := e3 [] (Or.inl rfl)
      simp only [parseMeta, E1, E2, E3, extract_dead]
      rfl
    · have E3 := e3 [' '] (Or.inr ⟨_, _, rfl, by decide⟩)
      simp only [parseMeta, E1, E2, E3]
      rfl
  obtain ⟨y, hy⟩ := natChars_small bc.code bc.code_lt
  have h' := h6
  rw [hy] at h'
  have E3 := e3 ([' '] ++ s6) (Or.inr ⟨_, _, rfl, by decide⟩)
  rcases one _ _ h' with rfl | rfl
  · right; left
    simp only [parseMeta, E1, E2, E3]
    rfl
  · right; right
    have := parseMeta_full R C d bc hR hC (lt_of_lt_of_le hd (by norm_num))
    rw [hy] at this
    simpa [List.append_assoc] using this

/-! ## loading -/

theorem loadSteps (dec : Bytes → Option (Option Ten)) (dk : Disk) (r c phy : ℕ)
    (x : ℕ → Option Ten)
    (hf : ∀ i < phy, ∃ b, dk.file (tenName r c i) = some b ∧ dec b = some (x i)) (a : Sitps Ten) :
    ∀ n ≤ phy, (List.range n).foldl (loadStep dec dk r c) (true, clearSite a r c phy)
      = (true, { a with comps := fun r' c' => if (r', c') = (r, c) then
          (List.range n).map x ++ List.replicate (phy - n) none else a.comps r' c' }) := by
  intro n
  induction n with
  | zero => intro _; simp [clearSite]
  | succ n ih =>
    intro hn
    rw [List.range_succ, List.foldl_append, ih (by omega)]
    obtain ⟨b, hb, hx⟩ := hf n (by omega)
    simp only [List.foldl_cons, List.foldl_nil, loadStep, if_true, hb, hx, setComp]
    congr 1
    congr 1
    funext r' c'
    by_cases h : (r', c') = (r, c)
    · rw [if_pos h, if_pos h, List.set_append_right _ _ (by simp)]
      simp only [List.length_map, List.length_range, Nat.sub_self]
      rw [show phy - n = (phy - (n + 1)) + 1 by omega, List.replicate_succ, List.set_cons_zero,
        List.map_append]
      simp
    · rw [if_neg h, if_neg h, if_neg h]

theorem loadSites_ok (dec : Bytes → Option (Option Ten)) (dk : Disk) (phy : ℕ)
    (x : ℕ → ℕ → ℕ → Option Ten) (L : List (ℕ × ℕ)) : ∀ (a : Sitps Ten),
    (∀ p ∈ L, ∀ i < phy, ∃ b, dk.file (tenName p.1 p.2 i) = some b ∧ dec b = some (x p.1 p.2 i)) →
    L.foldl (loadSite dec dk phy) (true, a)
      = (true, ⟨a.rows, a.cols, a.bc, fun r c =>
          if (r, c) ∈ L then (List.range phy).map (x r c) else a.comps r c⟩) := by
  induction L with
  | nil => intro a _; simp
  | cons p L ih =>
    intro a h
    have h1 := loadSteps dec dk p.1 p.2 phy (x p.1 p.2) (h p List.mem_cons_self) a phy (le_refl _)
    rw [List.foldl_cons]
    have e : loadSite dec dk phy (true, a) p
        = (true, { a with comps := fun r c => if (r, c) = p then
            (List.range phy).map (x p.1 p.2) else a.comps r c }) := by
      simp only [loadSite, if_true, h1, Nat.sub_self, List.replicate_zero, List.append_nil]
    rw [e, ih _ (fun q hq => h q (List.mem_cons_of_mem _ hq))]
    congr 1
    congr 1
    funext r c
    by_cases hm : (r, c) ∈ L
    · simp [hm]
    · by_cases hp : (r, c) = p
      · subst hp; simp [hm]
      · simp [hm, hp]

theorem comps_eq {d : ℕ} {a : Sitps Ten} (h : Uniform d a) (r c : ℕ) (hr : r < a.rows)
    (hc : c < a.cols) : a.comps r c = (List.range d).map (a.comp r c) := by
  apply List.ext_getElem
  · simp [h.2.2 r hr c hc]
  · intro i h1 h2
    simp [Sitps.comp, List.getD_eq_getElem?_getD, List.getElem?_eq_getElem h1]

/-- loading when all tensor files promised by the metadata are in place -/
theorem load_comps (dec : Bytes → Option (Option Ten)) (dk : Disk) (R C d : ℕ) (bc : BC)
    (b : Sitps Ten) (x : ℕ → ℕ → ℕ → Option Ten) (hd : 0 < d) (s : Bytes) (hdir : dk.dir = true)
    (hm : dk.file metaName = some s) (hp : parseMeta s = (R, C, d, bc))
    (hf : ∀ r < R, ∀ c < C, ∀ i < d, ∃ y, dk.file (tenName r c i) = some y ∧
      dec y = some (x r c i)) :
    (load dec dk b).1 = true ∧ (load dec dk b).2.rows = R ∧ (load dec dk b).2.cols = C ∧
      (load dec dk b).2.bc = bc ∧
      ∀ r < R, ∀ c < C, (load dec dk b).2.comps r c = (List.range d).map (x r c) := by
  have e : load dec dk b = loadTensors dec dk d ⟨R, C, bc, fun _ _ => []⟩ := by
    simp [load, hdir, hm, hp]
  rw [e, loadTensors, if_neg hd.ne',
    loadSites_ok dec dk d x _ _ (by
      intro p hp i hi
      obtain ⟨h1, h2⟩ := (mem_grid R C p.1 p.2).1 hp
      exact hf p.1 h1 p.2 h2 i hi)]
  refine ⟨rfl, rfl, rfl, rfl, fun r hr c hc => ?_⟩
  exact if_pos ((mem_grid _ _ _ _).2 ⟨hr, hc⟩)

/-- the flag never comes back, and a component read with flag true had a readable file -/
theorem loadStep_flag (dec : Bytes → Option (Option Ten)) (dk : Disk) (r c : ℕ) (L : List ℕ) :
    ∀ s : Bool × Sitps Ten, (L.foldl (loadStep dec dk r c) s).1 = true →
      s.1 = true ∧ ∀ i ∈ L, ∃ b x, dk.file (tenName r c i) = some b ∧ dec b = some x := by
  induction L with
  | nil => intro s h; exact ⟨h, by simp⟩
  | cons i L ih =>
    intro s h
    rw [List.foldl_cons] at h
    obtain ⟨h1, h2⟩ := ih _ h
    unfold loadStep at h1
    by_cases hs : s.1 = true
    · rw [if_pos hs] at h1
      refine ⟨hs, fun j hj => ?_⟩
      rcases List.mem_cons.1 hj with rfl | hj
      · rcases hf : dk.file (tenName r c j) with _ | b
        · rw [hf] at h1; cases h1
        · rw [hf] at h1
          rcases hx : dec b with _ | x
          · simp only [hx] at h1; cases h1
          · exact ⟨b, x, rfl, hx⟩
      · exact h2 j hj
    · rw [if_neg hs] at h1; exact absurd h1 hs

theorem loadSites_flag (dec : Bytes → Option (Option Ten)) (dk : Disk) (phy : ℕ)
    (L : List (ℕ × ℕ)) : ∀ s : Bool × Sitps Ten, (L.foldl (loadSite dec dk phy) s).1 = true →
      s.1 = true ∧ ∀ p ∈ L, ∀ i < phy, ∃ b x, dk.file (tenName p.1 p.2 i) = some b ∧
        dec b = some x := by
  induction L with
  | nil => intro s h; exact ⟨h, by simp⟩
  | cons p L ih =>
    intro s h
    rw [List.foldl_cons] at h
    obtain ⟨h1, h2⟩ := ih _ h
    unfold loadSite at h1
    by_cases hs : s.1 = true
    · rw [if_pos hs] at h1
      refine ⟨hs, fun q hq => ?_⟩
      rcases List.mem_cons.1 hq with rfl | hq
      · intro i hi
        exact (loadStep_flag dec dk _ _ _ _ h1).2 i (List.mem_range.2 hi)
      · exact h2 q hq
    · rw [if_neg hs] at h1; exact absurd h1 hs

/-- loading when the metadata says what the state is and all tensor files are in place -/
theorem load_same (dec : Bytes → Option (Option Ten)) (dk : Disk) {d : ℕ} (a b : Sitps Ten)
    (ha : Uniform d a) (hd : 0 < d) (s : Bytes) (hdir : dk.dir = true)
    (hm : dk.file metaName = some s) (hp : parseMeta s = (a.rows, a.cols, d, a.bc))
    (hf : ∀ r < a.rows, ∀ c < a.cols, ∀ i < d, ∃ x, dk.file (tenName r c i) = some x ∧
      dec x = some (a.comp r c i)) :
    (load dec dk b).1 = true ∧ Same (load dec dk b).2 a := by
  obtain ⟨h1, h2, h3, h4, h5⟩ := load_comps dec dk a.rows a.cols d a.bc b a.comp hd s hdir hm hp hf
  refine ⟨h1, h2, h3, h4, fun r hr c hc => ?_⟩
  rw [h2] at hr
  rw [h3] at hc
  rw [h5 r hr c hc, comps_eq ha r c hr hc]

/-- the tensor part of `Dump` -/
def tensorOps (enc : Option Ten → Bytes) (fails : ℕ × ℕ × ℕ → Bool) (a : Sitps Ten) : List Op :=
  .mkdir :: (triples a.rows a.cols a.phys).flatMap fun t =>
      if fails t then [] else writeOps (tenName t.1 t.2.1 t.2.2) (enc (a.comp t.1 t.2.1 t.2.2))

theorem dumpOps_eq (enc : Option Ten → Bytes) (fails : ℕ × ℕ × ℕ → Bool) (a : Sitps Ten) :
    dumpOps enc fails a = tensorOps enc fails a ++ writeOps metaName (metaText a) := rfl

theorem tensorOps_names (enc : Option Ten → Bytes) (fails : ℕ × ℕ × ℕ → Bool) (a : Sitps Ten) :
    ∀ o ∈ tensorOps enc fails a, o.name ≠ some metaName ∧ o.name ≠ some oldMetaName := by
  intro o ho
  rcases List.mem_cons.1 ho with rfl | ho
  · simp [Op.name]
  · obtain ⟨t, -, ho⟩ := List.mem_flatMap.1 ho
    split at ho
    · simp at ho
    · rw [writeOps_name _ _ o ho]
      have := tenName_ne t.1 t.2.1 t.2.2
      exact ⟨fun e => this.1 (Option.some.inj e), fun e => this.2 (Option.some.inj e)⟩

theorem tensorOps_dir (enc : Option Ten → Bytes) (fails : ℕ × ℕ × ℕ → Bool) (a : Sitps Ten)
    (dk : Disk) : (runOps (tensorOps enc fails a) dk).dir = true :=
  runOps_dir _ (Op.mkdir.run dk) rfl

theorem tensorOps_file (enc : Option Ten → Bytes) (fails : ℕ × ℕ × ℕ → Bool) (a : Sitps Ten)
    (dk : Disk) (r c i : ℕ) :
    (runOps (tensorOps enc fails a) dk).file (tenName r c i)
      = if (r < a.rows ∧ c < a.cols ∧ i < a.phys) ∧ fails (r, c, i) = false
        then some (enc (a.comp r c i)) else dk.file (tenName r c i) := by
  have := runOps_files (fun t : ℕ × ℕ × ℕ => tenName t.1 t.2.1 t.2.2)
    (fun t => enc (a.comp t.1 t.2.1 t.2.2)) fails (by
      rintro ⟨r, c, i⟩ ⟨r', c', i'⟩ h
      obtain ⟨h1, h2, h3⟩ := tenName_inj h
      exact Prod.ext h1 (Prod.ext h2 h3)) (triples a.rows a.cols a.phys) (Op.mkdir.run dk) (nodup_triples _ _ _)
      (r, c, i)
  simp only [mem_triples] at this
  exact this

theorem meta_keeps (b : Bytes) (dk : Disk) (m : List Char) (hm : m ≠ metaName) :
    (runOps (writeOps metaName b) dk).file m = dk.file m := by
  apply runOps_untouched
  intro o ho
  rw [writeOps_name _ _ o ho]
  intro e
  exact hm (Option.some.inj e).symm

/-- the metadata text cut before the boundary condition -/
theorem parseMeta_cut (R C d : ℕ) (hR : R < 2 ^ 64) (hC : C < 2 ^ 64) (hd : d < 2 ^ 64) :
    parseMeta (natChars R ++ [' '] ++ natChars C ++ [' '] ++ natChars d) = (R, C, d, .obc) := by
  have e1 := extract_num [] R ([' '] ++ natChars C ++ [' '] ++ natChars d) (by simp) hR
    (Or.inr ⟨' ', _, rfl, by decide⟩)
  have e2 := extract_num [' '] C ([' '] ++ natChars d) (by simp; decide) hC
    (Or.inr ⟨' ', _, rfl, by decide⟩)
  have e3 := extract_num [' '] d [] (by simp; decide) hd (Or.inl rfl)
  simp only [List.nil_append, List.append_assoc, List.append_nil] at e1 e2 e3 ⊢
  simp only [parseMeta, e1, e2, e3, extract_dead]
  rfl

theorem natChars_snoc (n : ℕ) (h : 10 ≤ n) : ∃ c, natChars n = natChars (n / 10) ++ [c] := by
  refine ⟨QLPeps.Configuration.digitChar (n % 10), ?_⟩
  unfold natChars
  rw [if_neg (by omega), if_neg (by omega), Nat.digits_def' (by norm_num) (by omega)]
  simp

theorem triples_take_files (enc : Option Ten → Bytes) (a : Sitps Ten) (j : ℕ) (dk : Disk)
    (r c i : ℕ) :
    (runOps (.mkdir :: ((triples a.rows a.cols a.phys).take j).flatMap fun t =>
      writeOps (tenName t.1 t.2.1 t.2.2) (enc (a.comp t.1 t.2.1 t.2.2))) dk).file (tenName r c i)
      = if (r, c, i) ∈ (triples a.rows a.cols a.phys).take j
        then some (enc (a.comp r c i)) else dk.file (tenName r c i) := by
  have := runOps_files (fun t : ℕ × ℕ × ℕ => tenName t.1 t.2.1 t.2.2)
    (fun t => enc (a.comp t.1 t.2.1 t.2.2)) (fun _ => false) (by
      rintro ⟨r, c, i⟩ ⟨r', c', i'⟩ h
      obtain ⟨h1, h2, h3⟩ := tenName_inj h
      exact Prod.ext h1 (Prod.ext h2 h3)) ((triples a.rows a.cols a.phys).take j)
      (Op.mkdir.run dk) ((nodup_triples _ _ _).sublist (List.take_sublist _ _)) (r, c, i)
  simp only [Bool.false_eq_true, if_false, and_true] at this
  exact this

/-! ## transfer -/

theorem recvTensors_ok (l : List (Option Ten)) (ms : List (Msg Ten)) :
    recvTensors l.length (l.map .tensor ++ ms) = some (l, ms) := by
  induction l with
  | nil => rfl
  | cons x l ih => simp [recvTensors, ih]

/-- a state with the tensors of `a` at the sites of `L` -/
def patch (a b : Sitps Ten) (L : List (ℕ × ℕ)) : Sitps Ten :=
  ⟨b.rows, b.cols, b.bc, fun r c => if (r, c) ∈ L then a.comps r c else b.comps r c⟩

theorem patch_cons (a b : Sitps Ten) (p : ℕ × ℕ) (L : List (ℕ × ℕ)) :
    patch a { b with comps := fun r c => if (r, c) = p then a.comps p.1 p.2 else b.comps r c } L
      = patch a b (p :: L) := by
  unfold patch
  congr 1
  funext r c
  by_cases h : (r, c) ∈ L
  · simp [h]
  · by_cases hp : (r, c) = p
    · subst hp; simp [h]
    · simp [h, hp]

theorem recvSites_ok (d : ℕ) (a : Sitps Ten) (ms : List (Msg Ten)) (L : List (ℕ × ℕ)) :
    ∀ b : Sitps Ten, (∀ p ∈ L, (a.comps p.1 p.2).length = d) →
      recvSites d L b ((L.flatMap fun p => (a.comps p.1 p.2).map .tensor) ++ ms)
        = some (patch a b L, ms) := by
  induction L with
  | nil => intro b _; simp [recvSites, patch]
  | cons p L ih =>
    intro b h
    have h1 := recvTensors_ok (a.comps p.1 p.2)
      ((L.flatMap fun p => (a.comps p.1 p.2).map Msg.tensor) ++ ms)
    rw [h p List.mem_cons_self] at h1
    rw [List.flatMap_cons, List.append_assoc]
    simp only [recvSites, h1]
    rw [ih _ (fun q hq => h q (List.mem_cons_of_mem _ hq)), patch_cons]

theorem siteOrder_mem (R C r c : ℕ) : (r, c) ∈ siteOrder R C ↔ r < R ∧ c < C := mem_grid R C r c

theorem patch_same {d : ℕ} (a : Sitps Ten) (ha : Uniform d a) :
    Same (patch a ⟨a.rows, a.cols, a.bc, fun _ _ => []⟩ (siteOrder a.rows a.cols)) a := by
  refine ⟨rfl, rfl, rfl, fun r hr c hc => ?_⟩
  exact if_pos ((siteOrder_mem _ _ _ _).2 ⟨hr, hc⟩)

/-! ## broadcast -/

theorem bytes_sum (n m : ℕ) :
    ((List.range m).map fun k => n / 256 ^ k % 256 * 256 ^ k).sum = n % 256 ^ m := by
  induction m with
  | zero => simp [Nat.mod_one]
  | succ m ih =>
    rw [List.range_succ, List.map_append, List.sum_append, ih, Nat.mod_pow_succ]
    simp [Nat.mul_comm]

theorem readU64_ok (n : ℕ) (hn : n < 2 ^ 64) (rest : List ℕ) :
    readU64 (u64 n ++ rest) = some (n, rest) := by
  have hl : (u64 n).length = 8 := by simp [u64]
  rw [readU64, if_neg (by rw [List.length_append, hl]; omega)]
  have h1 : (u64 n ++ rest).drop 8 = rest := by
    rw [← hl, List.drop_left]
  have h2 : ((List.range 8).map fun k => (u64 n ++ rest).getD k 0 * 256 ^ k).sum = n := by
    have e : (List.range 8).map (fun k => (u64 n ++ rest).getD k 0 * 256 ^ k)
        = (List.range 8).map fun k => n / 256 ^ k % 256 * 256 ^ k := by
      refine List.map_congr_left fun k hk => ?_
      have hk' := List.mem_range.1 hk
      rw [List.getD_eq_getElem?_getD, List.getElem?_append_left (by rw [hl]; exact hk')]
      simp [u64, hk']
    rw [e, bytes_sum, Nat.mod_eq_of_lt (by simpa using hn)]
  rw [h1, h2]

section Bcast
variable {Shell Raw : Type*}

theorem unpackSite_ok (pack : Option Shell → List ℕ)
    (unpack : List ℕ → Option (Option Shell × List ℕ))
    (hp : ∀ x rest, unpack (pack x ++ rest) = some (x, rest)) (l : List (Option Shell))
    (rest : List ℕ) : unpackSite unpack l.length (l.flatMap pack ++ rest) = some (l, rest) := by
  induction l with
  | nil => rfl
  | cons x l ih => simp [unpackSite, hp, ih]

/-- the shells of a state -/
def shells (a : Sitps (Shell × Raw)) : Sitps Shell :=
  ⟨a.rows, a.cols, a.bc, fun r c => (a.comps r c).map (Option.map Prod.fst)⟩

theorem unpackSites_ok (pack : Option Shell → List ℕ)
    (unpack : List ℕ → Option (Option Shell × List ℕ))
    (hp : ∀ x rest, unpack (pack x ++ rest) = some (x, rest)) (d : ℕ) (a : Sitps (Shell × Raw))
    (rest : List ℕ) (L : List (ℕ × ℕ)) : ∀ b : Sitps Shell,
      (∀ p ∈ L, (a.comps p.1 p.2).length = d) →
      unpackSites unpack d L b ((L.flatMap fun p => (a.comps p.1 p.2).flatMap
        fun x => pack (x.map Prod.fst)) ++ rest) = some (patch (shells a) b L, rest) := by
  induction L with
  | nil => intro b _; simp [unpackSites, patch]
  | cons p L ih =>
    intro b h
    have h1 := unpackSite_ok pack unpack hp ((shells a).comps p.1 p.2)
      ((L.flatMap fun p => (a.comps p.1 p.2).flatMap fun x => pack (x.map Prod.fst)) ++ rest)
    rw [show ((shells a).comps p.1 p.2).length = d by
      simp [shells, h p List.mem_cons_self],
      show ((shells a).comps p.1 p.2).flatMap pack
        = (a.comps p.1 p.2).flatMap fun x => pack (x.map Prod.fst) by
        simp [shells, List.flatMap_map]] at h1
    rw [List.flatMap_cons, List.append_assoc]
    simp only [unpackSites, h1]
    rw [ih _ (fun q hq => h q (List.mem_cons_of_mem _ hq)), patch_cons]

theorem fillSite_ok (l : List (Option (Shell × Raw))) (cs : List (Call Raw)) :
    fillSite (l.map (Option.map Prod.fst))
      ((l.filterMap fun x => x.map fun t => Call.raw t.2) ++ cs) = some (l, cs) := by
  induction l with
  | nil => rfl
  | cons x l ih => cases x <;> simp [fillSite, ih]

theorem fillSites_ok (a : Sitps (Shell × Raw)) (v : Sitps Shell) (cs : List (Call Raw))
    (L : List (ℕ × ℕ)) : ∀ b : Sitps (Shell × Raw),
      (∀ p ∈ L, v.comps p.1 p.2 = (a.comps p.1 p.2).map (Option.map Prod.fst)) →
      fillSites v L b ((L.flatMap fun p => (a.comps p.1 p.2).filterMap
        fun x => x.map fun t => Call.raw t.2) ++ cs) = some (patch a b L, cs) := by
  induction L with
  | nil => intro b _; simp [fillSites, patch]
  | cons p L ih =>
    intro b h
    have h1 := fillSite_ok (a.comps p.1 p.2) ((L.flatMap fun p => (a.comps p.1 p.2).filterMap
      fun x => x.map fun t => Call.raw t.2) ++ cs)
    rw [← h p List.mem_cons_self] at h1
    rw [List.flatMap_cons, List.append_assoc]
    simp only [fillSites, h1]
    rw [ih _ (fun q hq => h q (List.mem_cons_of_mem _ hq)), patch_cons]

theorem unpackShells_ok (pack : Option Shell → List ℕ)
    (unpack : List ℕ → Option (Option Shell × List ℕ))
    (hp : ∀ x rest, unpack (pack x ++ rest) = some (x, rest)) {d : ℕ} (a : Sitps (Shell × Raw))
    (ha : Uniform d a) (hr : a.rows < 2 ^ 64) (hc : a.cols < 2 ^ 64) (hd : d < 2 ^ 64) :
    unpackShells unpack (shellBuffer pack a)
      = some (patch (shells a) ⟨a.rows, a.cols, a.bc, fun _ _ => []⟩
        (siteOrder a.rows a.cols)) := by
  have hl : ∀ n, (u64 n).length = 8 := fun n => by simp [u64]
  have hlen : ¬ (shellBuffer pack a).length < 32 := by
    simp only [shellBuffer, List.length_append, hl]
    omega
  have hs := unpackSites_ok pack unpack hp d a [] (siteOrder a.rows a.cols)
    ⟨a.rows, a.cols, a.bc, fun _ _ => []⟩ (by
      intro p hp
      obtain ⟨h1, h2⟩ := (siteOrder_mem _ _ _ _).1 hp
      exact ha.2.2 p.1 h1 p.2 h2)
  rw [List.append_nil] at hs
  have hbc : ¬ 1 < a.bc.code := by cases a.bc <;> simp [BC.code]
  rw [unpackShells, if_neg hlen]
  simp only [shellBuffer, List.append_assoc]
  rw [readU64_ok _ hr]
  dsimp only
  rw [readU64_ok _ hc]
  dsimp only
  rw [ha.phys, readU64_ok _ hd]
  dsimp only
  rw [readU64_ok _ (lt_of_lt_of_le a.bc.code_lt (by norm_num))]
  dsimp only
  rw [if_neg hbc, BC.ofCode_code, hs]
  simp

theorem recvBcast_step (unpack : List ℕ → Option (Option Shell × List ℕ)) (b : List ℕ)
    (cs : List (Call Raw)) (v : Sitps Shell) (h : unpackShells unpack b = some v) :
    recvBcast unpack (.size b.length :: .buffer b :: cs)
      = fillSites v (siteOrder v.rows v.cols) ⟨v.rows, v.cols, v.bc, fun _ _ => []⟩ cs := by
  simp [recvBcast, h]

end Bcast

end QLPeps.State
