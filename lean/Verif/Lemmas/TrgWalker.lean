import Verif.Model.TrgWalker
import Verif.Lemmas.TrgHoleNet
import Verif.Lemmas.UpdatersPBC
import Verif.Props.Updaters

/-!
# The component on the TRG contractor follows the ideal walker
-/

namespace QLPeps.TrgWalker

open QLPeps.Trg QLPeps.Trg.Spec QLPeps.Updaters QLPeps.Sweep
open QLPeps.Peps (Tn)

noncomputable section

variable {T P I A : Type} (o : Ops T P I A) (n : ℕ) (sitps : Site → ℕ → T)

/-- the amplitude of a configuration -/
def psi (c : Config) : A := ampOf o (projected n n sitps c)

/-- the component is what a new component for its configuration would be -/
structure Good (w : Comp T P I A) : Prop where
  tn : w.env.2 = projected n n sitps w.config
  holds : Holds o w.env.1 w.env.2
  amp : w.amp = psi o n sitps w.config

/-- without the contractor -/
def bare (w : Comp T P I A) : Walker A Unit := ⟨w.config, w.amp, (), w.draws⟩

theorem setParams_eq {g : Trg T P I} (h : g.hasParams = true) : setParams g = g := by
  unfold setParams
  rw [← h]

theorem okNet {n : ℕ} (hn : Supported n) (c : Config) : OkNet (projected n n sitps c) := ⟨rfl, rfl, hn⟩

theorem withParams_eq {w : Comp T P I A} (hg : Good o n sitps w) : withParams w = w := by
  unfold withParams
  rw [setParams_eq hg.holds.params]

theorem create_ok {n : ℕ} (hn : Supported n) (cfg : Config) (draws : ℕ) :
    ∃ w, create o n n sitps cfg draws = .ok w ∧ Good o n sitps w ∧ bare w = ⟨cfg, psi o n sitps cfg, (), draws⟩ := by
  have hok := okNet sitps hn cfg
  obtain ⟨g', e, hg⟩ := trace_ok o hok (⟨n, n, false, false, [], true⟩ : Trg T P I) rfl
  obtain ⟨f, r, -, -, -, hi⟩ := init_ok hok (⟨n, n, false, false, [], true⟩ : Trg T P I)
  obtain ⟨f', r', -, -, -, hi'⟩ := init_ok hok (⟨n, n, false, false, [], false⟩ : Trg T P I)
  have hfr : f' :: r' = f :: r := by
    have h1 := hi
    have h2 := hi'
    unfold init at h1 h2
    dsimp only at h1 h2
    have h3 := congrArg (fun x => x.1.scales) h1
    have h4 := congrArg (fun x => x.1.scales) h2
    dsimp only at h3 h4
    rw [← h3, ← h4]
    split_ifs <;> first | rfl | (split <;> rfl)
  refine ⟨⟨cfg, psi o n sitps cfg, (g', projected n n sitps cfg), draws⟩, ?_, ⟨rfl, hg, rfl⟩, rfl⟩
  unfold create
  dsimp only
  rw [hi']
  rw [hi] at e
  dsimp only at e ⊢
  unfold setParams
  dsimp only
  rw [hfr, e]
  rfl

theorem sets_two (c : Config) (s1 s2 : Site) (a b : ℕ) :
    Net.sets (projected n n sitps c) [(s1, sitps s1 a), (s2, sitps s2 b)] =
      projected n n sitps (setSite (setSite c s1 a) s2 b) := by
  unfold Net.sets projected
  simp only [List.foldl_cons, List.foldl_nil, Net.set]
  congr 1
  funext r' c'
  unfold setSite
  by_cases h2 : (r', c') = s2
  · subst h2; simp
  · have h2' : ¬ (r' = s2.1 ∧ c' = s2.2) := fun h => h2 (Prod.ext h.1 h.2)
    rw [if_neg h2', if_neg h2]
    by_cases h1 : (r', c') = s1
    · subst h1; simp
    · have h1' : ¬ (r' = s1.1 ∧ c' = s1.2) := fun h => h1 (Prod.ext h.1 h.2)
      rw [if_neg h1', if_neg h1]

theorem apply_two (c : Config) (s1 s2 : Site) (a b : ℕ) (g : Trg T P I) (x : A) (m : ℕ) :
    [(s1, a), (s2, b)].foldl (applySite sitps) (⟨c, x, (g, projected n n sitps c), m⟩ : Comp T P I A) =
      ⟨setSite (setSite c s1 a) s2 b, x, (g, projected n n sitps (setSite (setSite c s1 a) s2 b)), m⟩ := by
  unfold projected
  simp only [List.foldl_cons, List.foldl_nil, applySite]
  congr 3
  funext r' c'
  unfold setSite
  by_cases h2 : (r', c') = s2
  · subst h2; simp
  · rw [if_neg h2, if_neg h2]
    by_cases h1 : (r', c') = s1
    · subst h1; simp
    · rw [if_neg h1, if_neg h1]

section
variable {n} (hn : Supported n)
include hn

theorem trial_ok {w : Comp T P I A} (hg : Good o n sitps w) {s1 s2 : Site} (h1 : s1.1 < n ∧ s1.2 < n)
    (h2 : s2.1 < n ∧ s2.2 < n) (a b : ℕ) :
    ∃ t, beginTrial o w [(s1, sitps s1 a), (s2, sitps s2 b)] [(s1, a), (s2, b)] = .ok t ∧
      t.amp = psi o n sitps (setSite (setSite w.config s1 a) s2 b) ∧
      ∀ m, ∃ w', acceptTrial o sitps { w with draws := m } t = .ok w' ∧ Good o n sitps w' ∧
        bare w' = ⟨setSite (setSite w.config s1 a) s2 b, t.amp, (), m⟩ := by
  obtain ⟨c, x, ⟨g, tn⟩, d⟩ := w
  obtain ⟨h0, hh, ha⟩ := hg
  dsimp only at h0 hh ha ⊢
  subst h0
  obtain ⟨t, e, ea, g', ec, hg'⟩ := Holds.beginTrial o (okNet sitps hn c) hh [(s1, sitps s1 a), (s2, sitps s2 b)] (by
    intro y hy
    simp only [List.mem_cons, List.not_mem_nil, or_false] at hy
    rcases hy with rfl | rfl
    · exact h1
    · exact h2)
  rw [sets_two] at ea hg'
  refine ⟨⟨t.amp, [(s1, a), (s2, b)], t⟩, ?_, ea, fun m => ?_⟩
  · unfold beginTrial
    dsimp only
    rw [e]
  · refine ⟨⟨setSite (setSite c s1 a) s2 b, t.amp, (g', projected n n sitps (setSite (setSite c s1 a) s2 b)), m⟩, ?_,
      ⟨rfl, hg', ea⟩, rfl⟩
    unfold acceptTrial
    dsimp only
    rw [ec]
    dsimp only
    rw [apply_two]

variable {K : Type} [Field K] [LinearOrder K] (ab : A → K) (ξ : ℕ → K)

theorem exchange_ok {w : Comp T P I A} (hg : Good o n sitps w) {s1 s2 : Site} (h1 : s1.1 < n ∧ s1.2 < n)
    (h2 : s2.1 < n ∧ s2.2 < n) (d : Orient) :
    ∃ w' b, exchange o sitps ab ξ s1 s2 w = .ok (w', b) ∧ Good o n sitps w' ∧
      nnExchangePBC (exactContractor (psi o n sitps)) ab ξ s1 s2 d (bare w) = (bare w', b) := by
  unfold exchange nnExchangePBC
  by_cases hc : w.config s1 = w.config s2
  · rw [if_pos hc, if_pos (show (bare w).config s1 = (bare w).config s2 from hc)]
    exact ⟨w, false, rfl, hg, rfl⟩
  rw [if_neg hc, if_neg (show ¬ (bare w).config s1 = (bare w).config s2 from hc)]
  dsimp only
  rw [withParams_eq o n sitps hg]
  obtain ⟨t, e, ea, hacc⟩ := trial_ok o sitps hn hg h1 h2 (w.config s2) (w.config s1)
  rw [e]
  dsimp only
  have hB : (exactContractor (psi o n sitps)).nnTrace (bare w).env (bare w).config s1 s2 d ((bare w).config s2) ((bare w).config s1) =
      t.amp := by rw [ea]; rfl
  rw [hB]
  change ∃ w' b, (if metropolisAccept (ab t.amp) (ab w.amp) (ξ w.draws) = true then _ else _) = _ ∧ _ ∧
    (if metropolisAccept (ab t.amp) (ab w.amp) (ξ w.draws) = true then _ else _) = _
  obtain ⟨w', e', hg', hb'⟩ := hacc (w.draws + metropolisDraws (ab t.amp) (ab w.amp))
  by_cases hm : metropolisAccept (ab t.amp) (ab w.amp) (ξ w.draws) = true
  · simp only [if_pos hm, e']
    refine ⟨w', true, rfl, hg', ?_⟩
    rw [hb']
    rfl
  · simp only [if_neg hm]
    exact ⟨_, false, rfl, ⟨hg.tn, hg.holds, hg.amp⟩, rfl⟩

omit hn in
theorem mapM_ok {α β : Type} (f : α → Except Fail β) (g : α → β) (l : List α) (h : ∀ a ∈ l, f a = .ok (g a)) :
    l.mapM f = .ok (l.map g) := by
  induction l with
  | nil => rfl
  | cons a l ih =>
    rw [List.mapM_cons, h a (by simp), ih fun b hb => h b (by simp [hb])]
    rfl

theorem space_ok {w : Comp T P I A} (hg : Good o n sitps w) (dim : ℕ) {s1 s2 : Site} (h1 : s1.1 < n ∧ s1.2 < n)
    (h2 : s2.1 < n ∧ s2.2 < n) (d : Orient) :
    (space o sitps ab ξ dim s1 s2 w = .error .ub ∧
      fullSpacePBC (exactContractor (psi o n sitps)) ab ξ dim s1 s2 d (bare w) = none) ∨
    ∃ w' b, space o sitps ab ξ dim s1 s2 w = .ok (w', b) ∧ Good o n sitps w' ∧
      fullSpacePBC (exactContractor (psi o n sitps)) ab ξ dim s1 s2 d (bare w) = some (bare w', b) := by
  have htr := fun p : ℕ × ℕ => trial_ok o sitps hn hg h1 h2 p.1 p.2
  choose t ht ta hacc using htr
  let F : ℕ × ℕ → A × Option (Trial T P I A) := fun p =>
    if p.1 * dim + p.2 = w.config s1 * dim + w.config s2 then (w.amp, none) else ((t p).amp, some (t p))
  let F' : ℕ × ℕ → A × Option (Updaters.Trial A) := fun p =>
    if p.1 * dim + p.2 = w.config s1 * dim + w.config s2 then (w.amp, none)
    else (psi o n sitps (setSite (setSite w.config s1 p.1) s2 p.2),
      some ⟨psi o n sitps (setSite (setSite w.config s1 p.1) s2 p.2), [(s1, p.1), (s2, p.2)]⟩)
  have hM : (statePairs dim).mapM (spaceTrial o sitps dim s1 s2 w) = .ok ((statePairs dim).map F) := by
    refine mapM_ok _ F _ fun p _ => ?_
    unfold spaceTrial
    by_cases hp : p.1 * dim + p.2 = w.config s1 * dim + w.config s2
    · simp only [F, if_pos hp]
    · simp only [F, if_neg hp, ht p]
  have hM' : fullSpaceTrials (exactContractor (psi o n sitps)) dim s1 s2 d (bare w) = (statePairs dim).map F' := by
    unfold fullSpaceTrials statePairs
    rw [List.map_flatMap]
    simp only [List.map_map]
    rfl
  have hF : ((statePairs dim).map F).map Prod.fst = ((statePairs dim).map F').map Prod.fst := by
    rw [List.map_map, List.map_map]
    refine List.map_congr_left fun p _ => ?_
    simp only [Function.comp, F, F']
    split
    · rfl
    · exact ta p
  unfold space fullSpacePBC
  dsimp only
  rw [withParams_eq o n sitps hg, hM, hM']
  have hb1 : (bare w).config = w.config := rfl
  have hb2 : (bare w).amp = w.amp := rfl
  have hb3 : (bare w).draws = w.draws := rfl
  simp only [hb1, hb2, hb3]
  by_cases hi : w.config s1 * dim + w.config s2 < dim * dim
  swap
  · rw [if_neg hi, if_neg hi]
    exact Or.inl ⟨rfl, rfl⟩
  rw [if_pos hi, if_pos hi]
  rw [hF]
  rcases normWeights ab (((statePairs dim).map F').map Prod.fst) (ab w.amp) with _ | ws
  · exact Or.inl ⟨rfl, rfl⟩
  dsimp only
  rcases SuwaTodo.suwaTodo ws (w.config s1 * dim + w.config s2) (ξ w.draws) with _ | fin
  · exact Or.inl ⟨rfl, rfl⟩
  dsimp only
  by_cases hf : fin = w.config s1 * dim + w.config s2
  · simp only [if_pos hf]
    exact Or.inr ⟨_, false, rfl, ⟨hg.tn, hg.holds, hg.amp⟩, rfl⟩
  simp only [if_neg hf, List.getElem?_map]
  rcases (statePairs dim)[fin]? with _ | p
  · exact Or.inl ⟨rfl, rfl⟩
  simp only [Option.map_some]
  by_cases hp : p.1 * dim + p.2 = w.config s1 * dim + w.config s2
  · refine Or.inl ⟨?_, ?_⟩ <;> simp only [F, F', if_pos hp]
  simp only [F, F', if_neg hp]
  obtain ⟨w', e', hg', hb'⟩ := hacc p (w.draws + 1)
  rw [e']
  refine Or.inr ⟨w', true, rfl, hg', ?_⟩
  rw [hb', ta]
  rfl

/-! ### Sweeps -/

/-- related states of the two simulations -/
def Sim (x : Except Fail (Comp T P I A)) (y : Option (Walker A Unit)) : Prop :=
  (x = .error .ub ∧ y = none) ∨ ∃ w, x = .ok w ∧ Good o n sitps w ∧ y = some (bare w)

omit hn in
theorem lift_sim {f : Comp T P I A → Except Fail (Comp T P I A × Bool)}
    {f' : Walker A Unit → Option (Walker A Unit × Bool)}
    (h : ∀ w, Good o n sitps w → (f w = .error .ub ∧ f' (bare w) = none) ∨
      ∃ w' b, f w = .ok (w', b) ∧ Good o n sitps w' ∧ f' (bare w) = some (bare w', b))
    {x : Except Fail (Comp T P I A)} {y : Option (Walker A Unit)} (hs : Sim o sitps (n := n) x y) :
    Sim o sitps (n := n) (lift f x).1 (liftUpd f' y).1 := by
  rcases hs with ⟨rfl, rfl⟩ | ⟨w, rfl, hg, rfl⟩
  · exact Or.inl ⟨rfl, rfl⟩
  · rcases h w hg with ⟨e, e'⟩ | ⟨w', b, e, hg', e'⟩
    · simp only [lift, liftUpd, e, e']
      exact Or.inl ⟨rfl, rfl⟩
    · simp only [lift, liftUpd, e, e']
      exact Or.inr ⟨w', rfl, hg', rfl⟩

omit hn in
theorem sweep_sim {f : Site → Site → Orient → Comp T P I A → Except Fail (Comp T P I A × Bool)}
    {f' : Site → Site → Orient → Walker A Unit → Option (Walker A Unit × Bool)}
    (h : ∀ s1 s2 d, (s1.1 < n ∧ s1.2 < n) → (s2.1 < n ∧ s2.2 < n) → ∀ w, Good o n sitps w →
      (f s1 s2 d w = .error .ub ∧ f' s1 s2 d (bare w) = none) ∨
      ∃ w' b, f s1 s2 d w = .ok (w', b) ∧ Good o n sitps w' ∧ f' s1 s2 d (bare w) = some (bare w', b))
    (draw : ℕ → ℕ × ℕ × Orient) (hdraw : ∀ i, (draw i).1 < n ∧ (draw i).2.1 < n)
    {x : Except Fail (Comp T P I A)} {y : Option (Walker A Unit)} (hs : Sim o sitps (n := n) x y) :
    Sim o sitps (n := n) (pbcSweep (fun a b d => lift (f a b d)) n n draw x).1
      (pbcSweep (fun a b d => liftUpd (f' a b d)) n n draw y).1 := by
  unfold pbcSweep
  have : ∀ (l : List ℕ) (x : Except Fail (Comp T P I A) × ℕ) (y : Option (Walker A Unit) × ℕ), Sim o sitps (n := n) x.1 y.1 →
      Sim o sitps (n := n)
        (l.foldl (fun sn i =>
          let r := (draw i).1
          let c := (draw i).2.1
          let dir := (draw i).2.2
          let s2 : Site := match dir with
            | .horizontal => (r, (c + 1) % n)
            | .vertical => ((r + 1) % n, c)
          let u := (fun a b d => lift (f a b d)) (r, c) s2 dir sn.1
          (u.1, sn.2 + u.2.toNat)) x).1
        (l.foldl (fun sn i =>
          let r := (draw i).1
          let c := (draw i).2.1
          let dir := (draw i).2.2
          let s2 : Site := match dir with
            | .horizontal => (r, (c + 1) % n)
            | .vertical => ((r + 1) % n, c)
          let u := (fun a b d => liftUpd (f' a b d)) (r, c) s2 dir sn.1
          (u.1, sn.2 + u.2.toNat)) y).1 := by
    intro l
    induction l with
    | nil => intro x y h; exact h
    | cons i l ih =>
      intro x y hs
      rw [List.foldl_cons, List.foldl_cons]
      refine ih _ _ ?_
      refine lift_sim o sitps (h _ _ _ (hdraw i) ?_) hs
      have := hdraw i
      split
      · exact ⟨this.1, Nat.mod_lt _ (by omega)⟩
      · exact ⟨Nat.mod_lt _ (by omega), this.2⟩
  exact this _ (x, 0) (y, 0) hs

end

end

end QLPeps.TrgWalker
