import Verif.Lemmas.TrgTopo

/-!
# The caches of the TRG contractor
-/

namespace QLPeps.Trg

variable {T P I A : Type}

/-! ### Association lists -/

theorem find?_insert {V : Type*} (m : List (ℕ × V)) (k : ℕ) (v : V) (j : ℕ) :
    find? (insert m k v) j = if j = k then some v else find? m j := by
  unfold find? insert
  by_cases h : (m.any fun x => x.1 == k) = true
  · rw [if_pos h]
    have key : ∀ l : List (ℕ × V), (l.map fun x => if x.1 = k then (k, v) else x).lookup j =
        if j = k then (if (l.any fun x => x.1 == k) = true then some v else none) else l.lookup j := by
      intro l
      induction l with
      | nil => simp
      | cons x l ih =>
        obtain ⟨a, b⟩ := x
        rw [List.map_cons, List.any_cons]
        by_cases ha : a = k
        · subst ha
          by_cases hj : j = a
          · subst hj; simp [List.lookup]
          · simp only [if_true, List.lookup_cons, if_neg hj, ih]
            rw [beq_eq_false_iff_ne.2 hj]
        · by_cases hj : j = k
          · subst hj
            have : (j == a) = false := by simpa using Ne.symm ha
            have h' : (a == j) = false := by simpa using ha
            simp only [if_neg ha, List.lookup_cons, this, ih, if_true, h', Bool.false_or]
          · simp only [if_neg ha, List.lookup_cons, ih, if_neg hj]
    rw [key, if_pos h]
  · rw [if_neg h]
    have hk : m.lookup k = none := by
      rw [List.lookup_eq_none_iff]
      intro x hx
      have h' : ∀ v, (k, v) ∉ m := by simpa using h
      have : x.1 ≠ k := by
        rintro rfl
        exact h' _ hx
      simpa using Ne.symm this
    rw [List.lookup_append]
    by_cases hj : j = k
    · subst hj; rw [if_pos rfl, hk]; simp [List.lookup]
    · rw [if_neg hj]
      have : (j == k) = false := by simpa using hj
      cases hm : m.lookup j <;> simp [List.lookup, this]

theorem find?_isSome {V : Type*} (m : List (ℕ × V)) (k : ℕ) :
    (find? m k).isSome ↔ k ∈ m.map Prod.fst := by
  unfold find?
  rw [← Option.ne_none_iff_isSome, Ne, List.lookup_eq_none_iff, List.mem_map]
  constructor
  · intro h
    by_contra hc
    refine h fun p hp => ?_
    by_contra hb
    simp only [Bool.not_eq_true, bne_eq_false_iff_eq, Bool.not_eq_false, beq_iff_eq] at hb
    exact hc ⟨p, hp, hb.symm⟩
  · rintro ⟨p, hp, rfl⟩ h
    have := h p hp
    simp at this

/-! ### Contents of the caches -/

/-- the split type of a fine node -/
def ty (cols s : ℕ) (fine coarse : Scale T P I) (f : ℕ) : Bool := (typeOfNode cols s f fine coarse).getD false

/-- the pieces of a split node -/
def mk (o : Ops T P I A) (iso : Bool) (type1 : Bool) (t : T) : SplitData P I :=
  ⟨type1, (o.split type1 t).1, (o.split type1 t).2, if iso then some (o.iso type1 t) else none⟩

/-- the coarse tensors of fine tensors `t` -/
def up (o : Ops T P I A) (cols s : ℕ) (fine coarse : Scale T P I) (t : ℕ → T) (w : ℕ) : T :=
  let d := fun k => let f := (coarse.c2f w).getD k 0; o.split (ty cols s fine coarse f) (t f)
  if s % 2 = 0 then o.plaq (d 0).2 (d 1).2 (d 2).1 (d 3).1 else o.diam (d 0).1 (d 1).1 (d 2).2 (d 3).2

/-- All links of the scales hold and the last one has 1, 4 or 9 nodes. -/
def Linked (cols : ℕ) : ℕ → Scale T P I → List (Scale T P I) → Prop
  | s, fine, coarse :: rest => Link cols s fine coarse ∧ Linked cols (s + 1) coarse rest
  | _, fine, [] => fine.size = 1 ∨ fine.size = 4 ∨ fine.size = 9

/-- The caches hold what the tensors `t` of the first scale give. -/
def Full (o : Ops T P I A) (cols : ℕ) : ℕ → Scale T P I → List (Scale T P I) → (ℕ → T) → Prop
  | s, fine, coarse :: rest, t => (∀ i < fine.size, fine.tens i = some (t i)) ∧
      (∀ i < fine.size, fine.split i = some (mk o true (ty cols s fine coarse i) (t i))) ∧
      Full o cols (s + 1) coarse rest (up o cols s fine coarse t)
  | _, fine, [], t => ∀ i < fine.size, fine.tens i = some (t i)

/-- The value the tensors `t` of the first scale give. -/
def topAmp (o : Ops T P I A) (cols : ℕ) : ℕ → Scale T P I → List (Scale T P I) → (ℕ → T) → A
  | s, fine, coarse :: rest, t => topAmp o cols (s + 1) coarse rest (up o cols s fine coarse t)
  | _, fine, [], t =>
    if fine.size = 1 then o.fin1 (t 0)
    else if fine.size = 4 then o.fin2 (t 0) (t 1) (t 2) (t 3)
    else o.fin3 (t 0) (t 1) (t 2) (t 3) (t 4) (t 5) (t 6) (t 7) (t 8)

/-- Same sizes, parents and children. -/
structure SameTopo (a b : Scale T P I) : Prop where
  size : a.size = b.size
  f2c : a.f2c = b.f2c
  c2f : a.c2f = b.c2f

theorem SameTopo.refl (a : Scale T P I) : SameTopo a a := ⟨rfl, rfl, rfl⟩

theorem SameTopo.link {cols s : ℕ} {a b a' b' : Scale T P I} (h : SameTopo a a') (h' : SameTopo b b')
    (hl : Link cols s a b) : Link cols s a' b' where
  len w hw := by rw [← h'.c2f]; exact hl.len w (h'.size ▸ hw)
  lt w hw f hf := by rw [← h.size]; exact hl.lt w (h'.size ▸ hw) f (h'.c2f ▸ hf)
  parents f hf := by rw [← h.f2c, ← h'.c2f, ← h'.size]; exact hl.parents f (h.size ▸ hf)
  type := by rw [← h'.c2f, ← h'.size]; exact hl.type

theorem SameTopo.ty {cols s : ℕ} {a b a' b' : Scale T P I} (h : SameTopo a a') (h' : SameTopo b b') :
    ty cols s a b = ty cols s a' b' := by
  funext f
  unfold Trg.ty typeOfNode
  rw [h.f2c, h'.c2f]

theorem SameTopo.up {o : Ops T P I A} {cols s : ℕ} {a b a' b' : Scale T P I} (h : SameTopo a a')
    (h' : SameTopo b b') : up o cols s a b = up o cols s a' b' := by
  funext t w
  unfold Trg.up
  rw [h'.c2f, h.ty h']

theorem SameTopo.linked {cols s : ℕ} {a a' : Scale T P I} {l l' : List (Scale T P I)} (h : SameTopo a a')
    (h' : List.Forall₂ SameTopo l l') (hl : Linked cols s a l) : Linked cols s a' l' := by
  induction h' generalizing s a a' with
  | nil => unfold Linked at hl ⊢; rw [← h.size]; exact hl
  | cons hb _ ih => exact ⟨h.link hb hl.1, ih hb hl.2⟩

theorem SameTopo.topAmp {o : Ops T P I A} {cols s : ℕ} {a a' : Scale T P I} {l l' : List (Scale T P I)}
    (h : SameTopo a a') (h' : List.Forall₂ SameTopo l l') (t : ℕ → T) :
    topAmp o cols s a l t = topAmp o cols s a' l' t := by
  induction h' generalizing s a a' t with
  | nil => unfold Trg.topAmp; rw [h.size]
  | cons hb _ ih => unfold Trg.topAmp; rw [h.up hb]; exact ih hb _

/-! ### What the links give -/

theorem getD_mem {l : List ℕ} {k : ℕ} (hk : k < l.length) : l.getD k 0 ∈ l := by
  rw [List.getD_eq_getElem?_getD, List.getElem?_eq_getElem hk]; exact List.getElem_mem _

theorem mem_getD {l : List ℕ} {f : ℕ} (h : f ∈ l) : ∃ k < l.length, l.getD k 0 = f := by
  obtain ⟨k, hk, rfl⟩ := List.getElem_of_mem h
  exact ⟨k, hk, by rw [List.getD_eq_getElem?_getD, List.getElem?_eq_getElem hk]; rfl⟩

section
variable {cols s : ℕ} {fine coarse : Scale T P I} (hl : Link cols s fine coarse)
include hl

theorem Link.child_lt {w k : ℕ} (hw : w < coarse.size) (hk : k < 4) : (coarse.c2f w).getD k 0 < fine.size :=
  hl.lt w hw _ (getD_mem (by rw [hl.len w hw]; exact hk))

/-- Every node has a type; it is the one both parents give it. -/
theorem Link.typeOfNode {f : ℕ} (hf : f < fine.size) :
    typeOfNode cols s f fine coarse = some (ty cols s fine coarse f) := by
  obtain ⟨p1, p2, h1, h2, hp, hmem⟩ := hl.parents f hf
  unfold ty
  suffices h : (Trg.typeOfNode cols s f fine coarse).isSome by
    obtain ⟨x, hx⟩ := Option.isSome_iff_exists.1 h
    rw [hx]; rfl
  unfold Trg.typeOfNode
  rw [hp]
  obtain ⟨k, hk, hkf⟩ := mem_getD ((hmem p1 h1).2 (Or.inl rfl))
  rw [hl.len p1 h1] at hk
  have : ((List.range 4).find? fun k => (coarse.c2f p1).getD k 0 == f).isSome := by
    rw [List.find?_isSome]
    exact ⟨k, by simpa using hk, by simpa using hkf⟩
  obtain ⟨j, hj⟩ := Option.isSome_iff_exists.1 this
  simp only [List.findSome?_cons, hj, Option.map_some, Option.isSome_some]

theorem Link.childType {w k : ℕ} (hw : w < coarse.size) (hk : k < 4) :
    childType1 cols s ((coarse.c2f w).getD k 0) k = ty cols s fine coarse ((coarse.c2f w).getD k 0) := by
  obtain ⟨τ, hτ⟩ := hl.type
  have hf := hl.child_lt hw hk
  rw [hτ w hw k hk]
  generalize (coarse.c2f w).getD k 0 = f at hf
  obtain ⟨p1, p2, h1, h2, hp, hmem⟩ := hl.parents f hf
  unfold ty Trg.typeOfNode
  rw [hp]
  have key : ∀ p < coarse.size, f ∈ coarse.c2f p →
      (((List.range 4).find? fun k => (coarse.c2f p).getD k 0 == f).map (childType1 cols s f)) = some (τ f) := by
    intro p hp hfp
    obtain ⟨k, hk, hkf⟩ := mem_getD hfp
    rw [hl.len p hp] at hk
    have : ((List.range 4).find? fun k => (coarse.c2f p).getD k 0 == f).isSome := by
      rw [List.find?_isSome]
      exact ⟨k, by simpa using hk, by simpa using hkf⟩
    obtain ⟨j, hj⟩ := Option.isSome_iff_exists.1 this
    have h1 := List.find?_some hj
    have h2 := List.mem_of_find?_eq_some hj
    simp only [beq_iff_eq] at h1
    rw [hj, Option.map_some]
    have := hτ p hp j (by simpa using h2)
    rw [h1] at this
    rw [this]
  simp only [List.findSome?_cons, key p1 h1 ((hmem p1 h1).2 (Or.inl rfl)), Option.getD_some]

theorem Link.validateSlot {f p : ℕ} (hp : p < coarse.size) (hf : f ∈ coarse.c2f p)
    (st : Option Bool) (hst : ∀ b ∈ st, b = ty cols s fine coarse f) :
    validateSlot cols s f coarse st (some p) = .ok (some (ty cols s fine coarse f)) := by
  unfold Trg.validateSlot
  dsimp only
  rw [if_neg (by omega)]
  obtain ⟨k, hk, hkf⟩ := mem_getD hf
  rw [hl.len p hp] at hk
  have : ∃ r < 4, lastRole (coarse.c2f p) f = some r ∧ (coarse.c2f p).getD r 0 = f := by
    unfold lastRole
    simp only [show List.range 4 = [0, 1, 2, 3] from rfl, List.foldl_cons, List.foldl_nil]
    have : k = 0 ∨ k = 1 ∨ k = 2 ∨ k = 3 := by omega
    by_cases h3 : (coarse.c2f p).getD 3 0 = f
    · exact ⟨3, by omega, by rw [if_pos h3], h3⟩
    · rw [if_neg h3]
      by_cases h2 : (coarse.c2f p).getD 2 0 = f
      · exact ⟨2, by omega, by rw [if_pos h2], h2⟩
      · rw [if_neg h2]
        by_cases h1 : (coarse.c2f p).getD 1 0 = f
        · exact ⟨1, by omega, by rw [if_pos h1], h1⟩
        · rw [if_neg h1]
          by_cases h0 : (coarse.c2f p).getD 0 0 = f
          · exact ⟨0, by omega, by rw [if_pos h0], h0⟩
          · rcases this with rfl | rfl | rfl | rfl
            · exact absurd hkf h0
            · exact absurd hkf h1
            · exact absurd hkf h2
            · exact absurd hkf h3
  obtain ⟨r, hr, e, hrf⟩ := this
  have ht := hl.childType hp hr
  rw [hrf] at ht
  rw [e]
  dsimp only
  rw [ht]
  rcases st with _ | b
  · rfl
  · rw [hst b rfl]; dsimp only; rw [if_pos rfl]

theorem Link.validateNode {f : ℕ} (hf : f < fine.size) : validateNode cols s f fine coarse = .ok () := by
  obtain ⟨p1, p2, h1, h2, hp, hmem⟩ := hl.parents f hf
  unfold Trg.validateNode
  rw [hp, hl.validateSlot h1 ((hmem p1 h1).2 (Or.inl rfl)) none (by simp)]
  dsimp only
  rw [hl.validateSlot h2 ((hmem p2 h2).2 (Or.inr rfl)) _ (by simp)]

end

theorem Linked.validate {cols s : ℕ} {fine : Scale T P I} {rest : List (Scale T P I)}
    (hl : Linked cols s fine rest) : validate cols s (fine :: rest) = .ok () := by
  induction rest generalizing s fine with
  | nil => rfl
  | cons coarse rest ih =>
    unfold Trg.validate
    have : ∀ l : List ℕ, (∀ f ∈ l, f < fine.size) →
        l.foldlM (fun _ fid => validateNode cols s fid fine coarse) () = .ok () := by
      intro l
      induction l with
      | nil => intro _; rfl
      | cons f l ih =>
        intro h
        rw [List.foldlM_cons, hl.1.validateNode (h f (by simp))]
        exact ih fun g hg => h g (by simp [hg])
    rw [this _ fun f hf => List.mem_range.1 hf]
    exact ih hl.2

/-! ### Filling the caches -/

theorem ensureNode_ok (o : Ops T P I A) {cols s : ℕ} {fine coarse : Scale T P I} (hl : Link cols s fine coarse)
    {id : ℕ} (hid : id < fine.size) {t : T} (ht : fine.tens id = some t) :
    ensureNode o cols s coarse fine id = .ok { fine with
      split := Function.update fine.split id (some (mk o true (ty cols s fine coarse id) t)) } := by
  unfold ensureNode
  rw [if_neg (by omega), ht]
  dsimp only
  rw [hl.typeOfNode hid]
  rfl

theorem ensureSplit_ok (o : Ops T P I A) {cols s : ℕ} {fine coarse : Scale T P I} (hl : Link cols s fine coarse)
    (t : ℕ → T) (ht : ∀ i < fine.size, fine.tens i = some (t i)) (nodes : List ℕ)
    (hn : ∀ i ∈ nodes, i < fine.size) :
    ensureSplit o cols s (some coarse) nodes fine = .ok { fine with
      split := fun i => if i ∈ nodes then some (mk o true (ty cols s fine coarse i) (t i)) else fine.split i } := by
  unfold ensureSplit
  dsimp only
  induction nodes generalizing fine with
  | nil => simp only [List.foldlM_nil, List.not_mem_nil, if_false]; rfl
  | cons x l ih =>
    rw [List.foldlM_cons, ensureNode_ok o hl (hn x (by simp)) (ht x (hn x (by simp)))]
    set f' : Scale T P I := { fine with
      split := Function.update fine.split x (some (mk o true (ty cols s fine coarse x) (t x))) } with hf'
    have hs : SameTopo fine f' := ⟨rfl, rfl, rfl⟩
    have := ih (hs.link (SameTopo.refl _) hl) ht fun i hi => hn i (by simp [hi])
    change (l.foldlM (ensureNode o cols s coarse) f') = _
    rw [this, ← hs.ty (SameTopo.refl _)]
    congr 1
    rw [hf']
    congr 1
    funext i
    dsimp only
    by_cases hi : i ∈ l
    · rw [if_pos hi, if_pos (by simp [hi])]
    · rw [if_neg hi]
      by_cases hx : i = x
      · subst hx; simp
      · rw [Function.update_of_ne hx, if_neg (by simp [hx, hi])]

theorem coarseTen_ok (o : Ops T P I A) {cols s : ℕ} {fine coarse : Scale T P I} (hl : Link cols s fine coarse)
    (t : ℕ → T)
    (hs : ∀ i < fine.size, fine.split i = some (mk o true (ty cols s fine coarse i) (t i))) {w : ℕ}
    (hw : w < coarse.size) :
    coarseTen o s fine.split (coarse.c2f w) = .ok (up o cols s fine coarse t w) := by
  unfold coarseTen
  rw [hs _ (hl.child_lt hw (k := 0) (by omega)), hs _ (hl.child_lt hw (k := 1) (by omega)),
    hs _ (hl.child_lt hw (k := 2) (by omega)), hs _ (hl.child_lt hw (k := 3) (by omega))]
  dsimp only [mk, up]
  split_ifs <;> rfl

theorem fillCoarse_ok (o : Ops T P I A) {cols s : ℕ} {fine coarse : Scale T P I} (hl : Link cols s fine coarse)
    (t : ℕ → T)
    (hs : ∀ i < fine.size, fine.split i = some (mk o true (ty cols s fine coarse i) (t i))) :
    fillCoarse o s fine coarse = .ok { coarse with
      tens := fun w => if w < coarse.size then some (up o cols s fine coarse t w) else coarse.tens w } := by
  unfold fillCoarse
  have : ∀ (l : List ℕ) (c' : Scale T P I), (∀ w ∈ l, w < coarse.size) → c'.c2f = coarse.c2f →
      l.foldlM (fillNode o s fine) c' =
      (.ok { c' with tens := fun w => if w ∈ l then some (up o cols s fine coarse t w) else c'.tens w } :
        Except Fail (Scale T P I)) := by
    intro l
    induction l with
    | nil => intro c' _ _; simp only [List.foldlM_nil, List.not_mem_nil, if_false]; rfl
    | cons x l ih =>
      intro c' hx hc
      have e : fillNode o s fine c' x = .ok { c' with
          tens := Function.update c'.tens x (some (up o cols s fine coarse t x)) } := by
        unfold fillNode
        rw [hc, coarseTen_ok o hl t hs (hx x (by simp))]
      rw [List.foldlM_cons, e]
      refine (ih _ (fun w hw => hx w (by simp [hw])) (by exact hc)).trans ?_
      congr 2
      funext w
      by_cases hw : w ∈ l
      · simp [hw]
      · by_cases hwx : w = x
        · subst hwx; simp
        · simp [hw, hwx]
  rw [this _ _ (fun w hw => List.mem_range.1 hw) rfl]
  simp only [List.mem_range]

theorem traceUp_ok (o : Ops T P I A) {cols s : ℕ} {fine : Scale T P I} {rest : List (Scale T P I)}
    (hl : Linked cols s fine rest) (t : ℕ → T) (ht : ∀ i < fine.size, fine.tens i = some (t i)) :
    ∃ fine' rest', traceUp o cols s fine rest = .ok (fine' :: rest') ∧ SameTopo fine fine' ∧
      List.Forall₂ SameTopo rest rest' ∧ Full o cols s fine' rest' t := by
  induction rest generalizing s fine t with
  | nil => exact ⟨fine, [], rfl, SameTopo.refl _, .nil, ht⟩
  | cons coarse rest ih =>
    unfold traceUp
    rw [ensureSplit_ok o hl.1 t ht _ fun i hi => List.mem_range.1 hi]
    dsimp only
    set fine1 : Scale T P I := { fine with
      split := fun i => (if i ∈ List.range fine.size then some (mk o true (ty cols s fine coarse i) (t i))
        else fine.split i) } with hf1
    have h1 : SameTopo fine fine1 := ⟨rfl, rfl, rfl⟩
    have hsp : ∀ i < fine1.size, fine1.split i = some (mk o true (ty cols s fine1 coarse i) (t i)) := by
      intro i hi
      rw [← h1.ty (SameTopo.refl _)]
      change (if i ∈ List.range fine.size then _ else _) = _
      rw [if_pos (List.mem_range.2 hi)]
    rw [fillCoarse_ok o (h1.link (SameTopo.refl _) hl.1) t hsp]
    dsimp only
    set coarse1 : Scale T P I := { coarse with
      tens := fun w => (if w < coarse.size then some (up o cols s fine1 coarse t w) else coarse.tens w) } with hc1
    have h2 : SameTopo coarse coarse1 := ⟨rfl, rfl, rfl⟩
    obtain ⟨c', r', e, i1, i2, i3⟩ := ih (fine := coarse1)
      (h2.linked (List.forall₂_same.2 fun x _ => SameTopo.refl x) hl.2)
      (up o cols s fine1 coarse t) (fun w hw => if_pos hw)
    rw [e]
    have h3 : SameTopo coarse c' := ⟨h2.size.trans i1.size, h2.f2c.trans i1.f2c, h2.c2f.trans i1.c2f⟩
    refine ⟨fine1, c' :: r', rfl, h1, .cons h3 i2, ?_, ?_, ?_⟩
    · exact ht
    · rw [← (SameTopo.refl fine1).ty h3]; exact hsp
    · rw [← (SameTopo.refl fine1).up h3]; exact i3

/-- The tensors of the last scale. -/
theorem finalAmp_ok (o : Ops T P I A) {cols s : ℕ} {fine : Scale T P I} {rest : List (Scale T P I)}
    (hl : Linked cols s fine rest) (t : ℕ → T) (hf : Full o cols s fine rest t) :
    finalAmp o (fine :: rest) [] = .ok (topAmp o cols s fine rest t) := by
  induction rest generalizing s fine t with
  | nil =>
    unfold finalAmp topAmp
    simp only [List.getLast?_singleton]
    have hf' : ∀ i < fine.size, fine.tens i = some (t i) := hf
    dsimp only [overlay, find?, List.lookup]
    rcases hl with h | h | h <;> rw [h] at hf' ⊢
    · simp [hf' 0 (by omega)]
    · simp [hf' 0 (by omega), hf' 1 (by omega), hf' 2 (by omega), hf' 3 (by omega)]
    · simp [hf' 0 (by omega), hf' 1 (by omega), hf' 2 (by omega), hf' 3 (by omega), hf' 4 (by omega),
        hf' 5 (by omega), hf' 6 (by omega), hf' 7 (by omega), hf' 8 (by omega)]
  | cons coarse rest ih =>
    have : finalAmp o (fine :: coarse :: rest) [] = finalAmp o (coarse :: rest) [] := by
      unfold finalAmp; rw [List.getLast?_cons_cons]
    rw [this]
    exact ih hl.2 _ hf.2.2

end QLPeps.Trg
