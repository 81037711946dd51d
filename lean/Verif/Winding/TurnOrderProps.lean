import Verif.Winding.TurnPlaceProps

/-!
# The end each layer starts from, with or without real winding geometry

In U order each layer of a winding starts at the end where the one before it finished, with real winding geometry too. With
it, so does a layer of one turn per parallel and the layer after it in any order, and in Z order the layers of a section
start at the same end and the next section of the winding at the other.
-/

namespace Verif.Winding

set_option linter.unusedSimpArgs false

/-! ## Specification -/

/-- The turns of the `k`-th layer are wound from its lower end (`low`) or from its upper end, each in its slot up to an
offset common to the layer. -/
def WoundFrom (env : TurnEnv) (ts : List Turn) (k : Nat) (l : LayerIn) (low : Bool) : Prop :=
  ∃ d : ℚ, |d| ≤ 3 / (2 * 10 ^ 9) ∧ ∀ (m : Nat) (t : Turn), (layerTurns k ts)[m]? = some t →
    t.row l = l.slot (l.count env) (l.bundle env) (if low = true then m else l.count env - 1 - m) + d

/-- A layer that holds the beginning and the end of one turn per parallel, or less. -/
def Few (env : TurnEnv) (l : LayerIn) : Prop := l.count env ≤ 2 * max 1 (env.parallels l.winding)

/-- Two layers of a winding with no other of it between. -/
structure Following (ls : List LayerIn) (k k' : Nat) (l l' : LayerIn) : Prop where
  lt : k < k'
  first : ls[k]? = some l
  second : ls[k']? = some l'
  same : l'.winding = l.winding
  none : ∀ i x, k < i → i < k' → ls[i]? = some x → x.winding ≠ l.winding

/-! ## Lemmas -/

/-- Turns counted in a layer. -/
def turnsIn (env : TurnEnv) (l : LayerIn) : Nat :=
  match sumTurns (env.turns l.winding) (l.props.take (env.parallels l.winding)) with
  | .ok n => n
  | _ => 0

/-- What is remembered after some layers. -/
def orderAfter (env : TurnEnv) (ls : List LayerIn) (s : OrderSt) : OrderSt :=
  ls.foldl (fun s l => (startFromTop env l (turnsIn env l) s).2) s

/-- The end a layer starts from. -/
def topOf (env : TurnEnv) (ls : List LayerIn) (k : Nat) (l : LayerIn) (s : OrderSt) : Bool :=
  (startFromTop env l (turnsIn env l) (orderAfter env (ls.take k) s)).1

theorem windTurnsFrom_tops (env : TurnEnv) : ∀ (ls : List LayerIn) (k : Nat) (s : OrderSt) (count : Nat → Nat → Nat)
    (ts : List Turn), windTurnsFrom env ls k s count = .ok ts →
    ∀ (i : Nat) (l : LayerIn), ls[i]? = some l → ∀ (m : Nat) (t : Turn), (layerTurns (k + i) ts)[m]? = some t →
      (usedPlaces l (turnsIn env l) (topOf env ls i l s)).spot l.orientation m = .ok t.centre
  | [], k, s, count, ts, h => by simp
  | l :: ls, k, s, count, ts, h => by
    have hb := (windTurnsFrom_blocks env (l :: ls) k s count ts h).1
    rw [windTurnsFrom] at h
    split at h
    · simp at h
    obtain ⟨n, hn, h⟩ := bind_ok h
    simp only [] at h
    obtain ⟨o, ho, h⟩ := bind_ok h
    obtain ⟨r, hr, h⟩ := bind_ok h
    obtain ⟨ts', hts', h⟩ := bind_ok h
    simp only [Res.ok.injEq] at h
    subst h
    obtain ⟨p1, p2, _, _, p5⟩ := placeTurns_ok env l k _ o 0 count r hr
    have ih1 := (windTurnsFrom_blocks env ls (k + 1) _ _ ts' hts').1
    have ih2 := windTurnsFrom_tops env ls (k + 1) _ _ ts' hts'
    have hturns : turnsIn env l = n := by simp only [turnsIn, hn]
    intro i x hx
    cases i with
    | zero =>
      simp only [List.getElem?_cons_zero, Option.some.injEq] at hx
      subst hx
      rw [Nat.add_zero, layerTurns_append, layerTurns_all (fun t ht => (p2 t ht).2.1),
        layerTurns_none (fun t ht => by have := (ih1 t ht).1; omega), List.append_nil]
      intro m t ht
      have := p5 m t ht
      rw [Nat.zero_add] at this
      unfold topOf
      simp only [List.take_zero, orderAfter, List.foldl_nil, hturns]
      exact this
    | succ i =>
      simp only [List.getElem?_cons_succ] at hx
      have e : k + (i + 1) = k + 1 + i := by omega
      rw [e, layerTurns_append, layerTurns_none (fun t ht => by have := (p2 t ht).2.1; omega), List.nil_append]
      have := ih2 i x hx
      unfold topOf at this ⊢
      rw [List.take_succ_cons, orderAfter, List.foldl_cons, hturns]
      exact this

/-- Each layer is wound from the end `topOf` gives. -/
theorem woundFrom_top {env : TurnEnv} {ls : List LayerIn} {ts : List Turn} (h : windTurns env ls = .ok ts) {k : Nat}
    {l : LayerIn} (hl : ls[k]? = some l) (hg : GoodLayer env l) (hT : 0 < env.turns l.winding)
    (hb : env.turns l.winding < 10 ^ 9) :
    turnsIn env l = l.count env ∧ WoundFrom env ts k l (risesWith l.orientation
      (topOf env ls k l ⟨fun _ => 0, fun _ => 0, fun _ => none, fun _ => false, fun _ => false⟩)) := by
  obtain ⟨cs, hlen, hps, hev⟩ := goodLayer_counts hg hT
  have hcount := count_counts hT hlen hps
  have hn : turnsIn env l = l.count env := by
    have : sumTurns (env.turns l.winding) (l.props.take (env.parallels l.winding)) = .ok cs.sum := by
      rw [hps]; exact sumTurns_take hT hlen
    simp only [turnsIn, this, hcount]
  refine ⟨hn, ?_⟩
  have hl' := (turns_placed h hl hg hT hb).1
  have ht := windTurnsFrom_tops env ls _ _ _ ts h k l hl
  rw [Nat.zero_add] at ht
  obtain ⟨b1, b2, b3⟩ := bundle_counts hT hb hlen hps hev
  rw [← hcount] at b3
  rw [hn] at ht
  obtain ⟨d, hd1, _, hd3⟩ := used_rows l b1 b2 b3
    (topOf env ls k l ⟨fun _ => 0, fun _ => 0, fun _ => none, fun _ => false, fun _ => false⟩)
  refine ⟨d, hd1, fun m t hm => ?_⟩
  exact (hd3 m t.centre (by rw [← hl']; exact (List.getElem?_eq_some_iff.mp hm).1) (ht m t hm)).1

/-- What is remembered of a winding. -/
def Agree (w : Nat) (s s' : OrderSt) : Prop :=
  s.ordinal w = s'.ordinal w ∧ s.sectionOrdinal w = s'.sectionOrdinal w ∧ s.lastSection w = s'.lastSection w ∧
  s.finishedTop w = s'.finishedTop w ∧ s.lastSingle w = s'.lastSingle w

theorem order_other {env : TurnEnv} {w : Nat} : ∀ {ls : List LayerIn} {s : OrderSt}, (∀ x ∈ ls, x.winding ≠ w) →
    Agree w (orderAfter env ls s) s
  | [], s, _ => ⟨rfl, rfl, rfl, rfl, rfl⟩
  | l :: rest, s, h => by
    have hw : w ≠ l.winding := fun e => h l List.mem_cons_self e.symm
    obtain ⟨h1, h2, h3, h4, h5⟩ := order_other (env := env) (ls := rest)
      (s := (startFromTop env l (turnsIn env l) s).2) fun x hx => h x (List.mem_cons_of_mem _ hx)
    unfold orderAfter at h1 h2 h3 h4 h5 ⊢
    rw [List.foldl_cons]
    refine ⟨h1.trans ?_, h2.trans ?_, h3.trans ?_, h4.trans ?_, h5.trans ?_⟩ <;>
      simp only [startFromTop] <;> exact upd_other _ _ hw

theorem order_append (env : TurnEnv) (a b : List LayerIn) (s : OrderSt) :
    orderAfter env (a ++ b) s = orderAfter env b (orderAfter env a s) := by
  simp [orderAfter, List.foldl_append]

theorem take_following {ls : List LayerIn} {k k' : Nat} {l : LayerIn} (hkk : k < k') (hl : ls[k]? = some l) :
    ls.take k' = ls.take k ++ (l :: (ls.take k').drop (k + 1)) := by
  have hlen : k < ls.length := (List.getElem?_eq_some_iff.mp hl).1
  have h2 : (ls.take k').take k = ls.take k := by rw [List.take_take, Nat.min_eq_left (by omega)]
  have h1 := (List.take_append_drop k (ls.take k')).symm
  rw [h2] at h1
  rw [h1]
  congr 1
  have hk : k < (ls.take k').length := by rw [List.length_take]; omega
  rw [← h1, List.drop_eq_getElem_cons hk]
  congr 1
  have := (List.getElem?_eq_some_iff.mp hl).2
  rw [List.getElem_take]
  exact this

theorem order_following {env : TurnEnv} {ls : List LayerIn} {k k' : Nat} {l l' : LayerIn} (h : Following ls k k' l l')
    (s : OrderSt) : Agree l.winding (orderAfter env (ls.take k') s)
      (startFromTop env l (turnsIn env l) (orderAfter env (ls.take k) s)).2 := by
  rw [take_following h.lt h.first, order_append]
  have : orderAfter env (l :: (ls.take k').drop (k + 1)) (orderAfter env (ls.take k) s) =
      orderAfter env ((ls.take k').drop (k + 1)) (startFromTop env l (turnsIn env l) (orderAfter env (ls.take k) s)).2 := rfl
  rw [this]
  apply order_other
  intro x hx
  obtain ⟨i, hi, hxi⟩ := List.mem_iff_getElem.mp hx
  have hi' : ((ls.take k').drop (k + 1))[i]? = some x := by rw [List.getElem?_eq_getElem hi, hxi]
  rw [List.getElem?_drop, List.getElem?_take] at hi'
  split at hi'
  · exact h.none (k + 1 + i) x (by omega) (by omega) hi'
  · simp at hi'

/-- The end the first layer of a winding starts from. -/
def entranceOf (env : TurnEnv) (o : Orientation) (w : Nat) : Bool :=
  if env.real = true ∧ o = .overlapping then env.entranceTop w else false

theorem parity_succ (a : Nat) : decide ((a + 1) % 2 = 1) = !decide (a % 2 = 1) := by
  by_cases h : a % 2 = 1
  · simp [h]; omega
  · simp [h]; omega

/-- In U order all layers of a winding start from the end their number gives. -/
def Alternates (env : TurnEnv) (o : Orientation) (w : Nat) (s : OrderSt) : Prop :=
  s.ordinal w > 0 → s.finishedTop w = xor (entranceOf env o w) (decide (s.ordinal w % 2 = 1))

theorem top_alternates {env : TurnEnv} {l : LayerIn} {n : Nat} {s : OrderSt} (hu : env.uOrder l.sec = true)
    (h : Alternates env l.orientation l.winding s) :
    (startFromTop env l n s).1 = xor (entranceOf env l.orientation l.winding) (decide (s.ordinal l.winding % 2 = 1)) := by
  simp only [startFromTop]
  split
  · rename_i hc
    exact h hc.2.2.1
  · rfl

theorem alternates_after {env : TurnEnv} {o : Orientation} {w : Nat} : ∀ {ls : List LayerIn} {s : OrderSt},
    (∀ x ∈ ls, x.winding = w → env.uOrder x.sec = true ∧ x.orientation = o) → Alternates env o w s →
    Alternates env o w (orderAfter env ls s)
  | [], s, _, h => h
  | l :: rest, s, hall, h => by
    have hr := fun x hx => hall x (List.mem_cons_of_mem l hx)
    have : orderAfter env (l :: rest) s = orderAfter env rest (startFromTop env l (turnsIn env l) s).2 := rfl
    rw [this]
    apply alternates_after hr
    by_cases hw : l.winding = w
    · obtain ⟨hu, ho⟩ := hall l List.mem_cons_self hw
      subst hw
      subst ho
      intro _
      have ht := top_alternates (n := turnsIn env l) hu h
      have e1 : (startFromTop env l (turnsIn env l) s).2.finishedTop l.winding = !(startFromTop env l (turnsIn env l) s).1 := by
        simp only [startFromTop, upd_self]
      have e2 : (startFromTop env l (turnsIn env l) s).2.ordinal l.winding = s.ordinal l.winding + 1 := by
        simp only [startFromTop, upd_self]
      rw [e1, e2, ht, parity_succ]
      cases entranceOf env l.orientation l.winding <;> cases decide (s.ordinal l.winding % 2 = 1) <;> rfl
    · have e1 : (startFromTop env l (turnsIn env l) s).2.finishedTop w = s.finishedTop w := by
        simp only [startFromTop]; exact upd_other _ _ (Ne.symm hw)
      have e2 : (startFromTop env l (turnsIn env l) s).2.ordinal w = s.ordinal w := by
        simp only [startFromTop]; exact upd_other _ _ (Ne.symm hw)
      unfold Alternates
      rw [e1, e2]
      exact h

/-! ## C74 -/

/-- **C74.** In U order each layer of a winding starts at the end where the layer before it finished: the turns of one go
up and those of the next go down, or the other way round. With or without real winding geometry. -/
theorem turns_back_and_forth_wound {env : TurnEnv} {ls : List LayerIn} {ts : List Turn} (h : windTurns env ls = .ok ts)
    {k k' : Nat} {l l' : LayerIn} (hf : Following ls k k' l l') (hg : GoodLayer env l) (hg' : GoodLayer env l')
    (hT : 0 < env.turns l.winding) (hb : env.turns l.winding < 10 ^ 9)
    (hall : ∀ x ∈ ls.take (k' + 1), x.winding = l.winding → env.uOrder x.sec = true ∧ x.orientation = l.orientation) :
    ∃ low : Bool, WoundFrom env ts k l low ∧ WoundFrom env ts k' l' (!low) := by
  obtain ⟨_, h1⟩ := woundFrom_top h hf.first hg hT hb
  obtain ⟨_, h2⟩ := woundFrom_top h hf.second hg' (by rw [hf.same]; exact hT) (by rw [hf.same]; exact hb)
  refine ⟨_, h1, ?_⟩
  generalize hs0 : (⟨fun _ => 0, fun _ => 0, fun _ => none, fun _ => false, fun _ => false⟩ : OrderSt) = s at h2 ⊢
  have halt : Alternates env l.orientation l.winding s := by subst hs0; intro h; simp at h
  have hle : k + 1 ≤ k' + 1 := by have := hf.lt; omega
  have mem : ∀ {i : Nat} {x : LayerIn}, i ≤ k' → ls[i]? = some x → x ∈ ls.take (k' + 1) := by
    intro i x hi hx
    apply List.mem_of_getElem? (i := i)
    rw [List.getElem?_take, if_pos (by omega)]
    exact hx
  have htake : ∀ {i : Nat} {x : LayerIn}, i ≤ k' → x ∈ ls.take i → x ∈ ls.take (k' + 1) := by
    intro i x hi hx
    obtain ⟨j, hj⟩ := List.mem_iff_getElem?.mp hx
    rw [List.getElem?_take] at hj
    split at hj
    · exact mem (by omega) hj
    · simp at hj
  obtain ⟨u1, _⟩ := hall l (mem (by have := hf.lt; omega) hf.first) rfl
  obtain ⟨u2, o2⟩ := hall l' (mem (le_refl _) hf.second) hf.same
  have a1 := alternates_after (env := env) (ls := ls.take k) (fun x hx hw => hall x (htake (by have := hf.lt; omega) hx) hw) halt
  have a2 := alternates_after (env := env) (ls := ls.take k') (fun x hx hw => hall x (htake (le_refl _) hx) hw) halt
  have t1 := top_alternates (n := turnsIn env l) u1 a1
  rw [← o2, ← hf.same] at a2
  have t2 := top_alternates (n := turnsIn env l') u2 a2
  have e := (order_following (env := env) hf s).1
  have e' : (startFromTop env l (turnsIn env l) (orderAfter env (ls.take k) s)).2.ordinal l.winding =
      (orderAfter env (ls.take k) s).ordinal l.winding + 1 := by simp only [startFromTop, upd_self]
  have hrise : risesWith l'.orientation (topOf env ls k' l' s) = !risesWith l.orientation (topOf env ls k l s) := by
    unfold topOf
    rw [t1, t2, o2, hf.same, e, e', parity_succ]
    unfold risesWith
    cases decide (l.orientation = .overlapping) <;> cases entranceOf env l.orientation l.winding <;>
      cases decide ((orderAfter env (ls.take k) s).ordinal l.winding % 2 = 1) <;> rfl
  rw [← hrise]
  exact h2

/-- **C74.** With real winding geometry, a layer of one turn per parallel and the layer after it also start at the end
where the layer before finished, whatever the order of their sections. -/
theorem single_turn_layers_turn_around {env : TurnEnv} {ls : List LayerIn} {ts : List Turn} (h : windTurns env ls = .ok ts)
    {k k' : Nat} {l l' : LayerIn} (hf : Following ls k k' l l') (hg : GoodLayer env l) (hg' : GoodLayer env l')
    (hT : 0 < env.turns l.winding) (hb : env.turns l.winding < 10 ^ 9) (hreal : env.real = true)
    (ho : l.orientation = .overlapping) (ho' : l'.orientation = .overlapping) (hfew : Few env l ∨ Few env l') :
    ∃ low : Bool, WoundFrom env ts k l low ∧ WoundFrom env ts k' l' (!low) := by
  obtain ⟨n1, h1⟩ := woundFrom_top h hf.first hg hT hb
  obtain ⟨n2, h2⟩ := woundFrom_top h hf.second hg' (by rw [hf.same]; exact hT) (by rw [hf.same]; exact hb)
  refine ⟨_, h1, ?_⟩
  generalize (⟨fun _ => 0, fun _ => 0, fun _ => none, fun _ => false, fun _ => false⟩ : OrderSt) = s at h2 ⊢
  obtain ⟨e1, _, _, e4, e5⟩ := order_following (env := env) hf s
  simp only [startFromTop, upd_self] at e1 e5
  have e4' : (orderAfter env (ls.take k') s).finishedTop l.winding = !topOf env ls k l s := by
    rw [e4]
    unfold topOf
    simp only [startFromTop, upd_self]
  have hrise : risesWith l'.orientation (topOf env ls k' l' s) = !risesWith l.orientation (topOf env ls k l s) := by
    have : topOf env ls k' l' s = !topOf env ls k l s := by
      rw [← e4', ← hf.same]
      conv_lhs => unfold topOf
      simp only [startFromTop]
      rw [if_pos]
      refine ⟨hreal, ?_, by rw [hf.same, e1]; omega, ho'⟩
      rw [hf.same, e5, n1, n2]
      unfold Few at hfew
      rw [hf.same] at hfew
      rcases hfew with hfew | hfew
      · exact Or.inr (by simpa using hfew)
      · exact Or.inl (by simpa using hfew)
    rw [this, ho, ho']
    unfold risesWith
    cases topOf env ls k l s <;> rfl
  rw [← hrise]
  exact h2

/-- **C74.** With real winding geometry, in Z order and without layers of one turn per parallel, the layers of a section
start at the same end, and the next section of the winding starts at the other. -/
theorem sections_turn_around {env : TurnEnv} {ls : List LayerIn} {ts : List Turn} (h : windTurns env ls = .ok ts)
    {k k' : Nat} {l l' : LayerIn} (hf : Following ls k k' l l') (hg : GoodLayer env l) (hg' : GoodLayer env l')
    (hT : 0 < env.turns l.winding) (hb : env.turns l.winding < 10 ^ 9) (hreal : env.real = true)
    (ho : l.orientation = l'.orientation) (hz : env.uOrder l.sec = false) (hz' : env.uOrder l'.sec = false)
    (hfew : ∀ x ∈ ls.take (k' + 1), x.winding = l.winding → GoodLayer env x ∧ ¬ Few env x) :
    ∃ low : Bool, WoundFrom env ts k l low ∧ WoundFrom env ts k' l' (if l.sec = l'.sec then low else !low) := by
  obtain ⟨n1, h1⟩ := woundFrom_top h hf.first hg hT hb
  obtain ⟨n2, h2⟩ := woundFrom_top h hf.second hg' (by rw [hf.same]; exact hT) (by rw [hf.same]; exact hb)
  refine ⟨_, h1, ?_⟩
  generalize hs0 : (⟨fun _ => 0, fun _ => 0, fun _ => none, fun _ => false, fun _ => false⟩ : OrderSt) = s at h2 ⊢
  obtain ⟨_, e2, e3, _, e5⟩ := order_following (env := env) hf s
  simp only [startFromTop, upd_self] at e2 e3 e5
  -- no layer of one turn before
  have single : ∀ {ls : List LayerIn} {s : OrderSt}, (∀ x ∈ ls, x.winding = l.winding → ¬ turnsIn env x ≤ 2 * max 1 (env.parallels x.winding)) →
      s.lastSingle l.winding = false → (orderAfter env ls s).lastSingle l.winding = false := by
    intro ls
    induction ls with
    | nil => intro s _ h; exact h
    | cons x rest ih =>
      intro s hx h
      have : orderAfter env (x :: rest) s = orderAfter env rest (startFromTop env x (turnsIn env x) s).2 := rfl
      rw [this]
      apply ih fun y hy => hx y (List.mem_cons_of_mem _ hy)
      simp only [startFromTop]
      by_cases hw : l.winding = x.winding
      · rw [hw, upd_self]
        simpa using hx x List.mem_cons_self hw.symm
      · rw [upd_other _ _ hw]
        exact h
  have mem : ∀ {i : Nat} {x : LayerIn}, i ≤ k' → ls[i]? = some x → x ∈ ls.take (k' + 1) := by
    intro i x hi hx
    apply List.mem_of_getElem? (i := i)
    rw [List.getElem?_take, if_pos (by omega)]
    exact hx
  have hlt := hf.lt
  have many : ∀ {i : Nat} {x : LayerIn}, i ≤ k' → ls[i]? = some x → x.winding = l.winding →
      ¬ turnsIn env x ≤ 2 * max 1 (env.parallels x.winding) := by
    intro i x hi hx hw
    obtain ⟨g, hfw⟩ := hfew x (mem hi hx) hw
    have := (woundFrom_top h hx g (by rw [hw]; exact hT) (by rw [hw]; exact hb)).1
    rw [this]
    exact hfw
  have single1 : (orderAfter env (ls.take k) s).lastSingle l.winding = false := by
    apply single
    · intro x hx hw
      obtain ⟨j, hj⟩ := List.mem_iff_getElem?.mp hx
      rw [List.getElem?_take] at hj
      split at hj
      · exact many (by omega) hj hw
      · simp at hj
    · subst hs0; rfl
  have few1 := many (by omega) hf.first rfl
  have few2 := many (le_refl _) hf.second hf.same
  have t1 : topOf env ls k l s = xor (entranceOf env l.orientation l.winding) (decide
      ((orderAfter env (ls.take k') s).sectionOrdinal l.winding % 2 = 1)) := by
    rw [e2]
    unfold topOf
    simp only [startFromTop]
    rw [if_neg (by
      rintro ⟨_, hs, _⟩
      rcases hs with hs | hs
      · exact few1 (by simpa using hs)
      · rw [single1] at hs; simp at hs), if_neg (by rw [hz]; simp), if_pos hreal]
    unfold entranceOf
    rfl
  have t2 : topOf env ls k' l' s = xor (entranceOf env l.orientation l.winding) (decide
      (((orderAfter env (ls.take k') s).sectionOrdinal l.winding + if l.sec = l'.sec then 0 else 1) % 2 = 1)) := by
    unfold topOf
    simp only [startFromTop]
    rw [if_neg (by
      rintro ⟨_, hs, _⟩
      rcases hs with hs | hs
      · exact few2 (by simpa using hs)
      · rw [hf.same, e5] at hs
        exact few1 (by simpa using hs)), if_neg (by rw [hz']; simp), if_pos hreal, hf.same, e3, ho]
    unfold entranceOf
    simp only [Option.some.injEq, reduceCtorEq, if_false]
    by_cases hse : l.sec = l'.sec
    · simp [hse]
    · simp [hse]
  have hrise : risesWith l'.orientation (topOf env ls k' l' s) =
      if l.sec = l'.sec then risesWith l.orientation (topOf env ls k l s) else !risesWith l.orientation (topOf env ls k l s) := by
    rw [t1, t2, ho]
    unfold risesWith
    split
    · rw [Nat.add_zero]
    · rw [parity_succ]
      cases decide (l'.orientation = .overlapping) <;> cases entranceOf env l'.orientation l.winding <;>
        cases decide ((orderAfter env (ls.take k') s).sectionOrdinal l.winding % 2 = 1) <;> rfl
  rw [hrise] at h2
  exact h2

/-- The two layers of the first winding follow each other, and hold two turns each. -/
example : Following sampleLayers 0 2 ⟨0, 0, [1/2], some .turns, .centered, .overlapping, (1, 8), (1, 0), (1, 1)⟩
      ⟨0, 2, [1/2], some .turns, .centered, .overlapping, (1, 8), (3, 0), (1, 1)⟩ ∧
    Few sampleTurns ⟨0, 0, [1/2], some .turns, .centered, .overlapping, (1, 8), (1, 0), (1, 1)⟩ := by
  refine ⟨⟨by omega, rfl, rfl, rfl, ?_⟩, by unfold Few; decide +kernel⟩
  intro i x h1 h2 hx
  have : i = 1 := by omega
  subst this
  simp only [sampleLayers, List.getElem?_cons_succ, List.getElem?_cons_zero, Option.some.injEq] at hx
  subst hx
  decide

/-- In Z order with real winding geometry those layers of two turns go up and down; without it both go up. -/
example : (windTurns { sampleTurns with real := true } sampleLayers).returns (fun ts =>
      (layerTurns 0 ts).map (fun t => t.centre.2) = [-1/2, 1/2] ∧
      (layerTurns 2 ts).map (fun t => t.centre.2) = [1/2, -1/2]) ∧
    (windTurns sampleTurns sampleLayers).returns (fun ts =>
      (layerTurns 2 ts).map (fun t => t.centre.2) = [-1/2, 1/2]) := by
  constructor <;> decide +kernel

/-- Three layers of three turns: two of one section and one of the next. -/
def longLayers : List LayerIn :=
  [⟨0, 0, [1/3], some .turns, .centered, .overlapping, (1, 8), (1, 0), (1, 1)⟩,
   ⟨0, 0, [1/3], some .turns, .centered, .overlapping, (1, 8), (2, 0), (1, 1)⟩,
   ⟨0, 1, [1/3], some .turns, .centered, .overlapping, (1, 8), (3, 0), (1, 1)⟩]

/-- Up, up and down in Z order; up, down and up in U order; the other way round when the winding enters from the top. -/
example : (windTurns { sampleTurns with real := true, turns := fun _ => 9 } longLayers).returns (fun ts =>
      (List.range 3).map (fun k => (layerTurns k ts).map fun t => t.centre.2) = [[-1, 0, 1], [-1, 0, 1], [1, 0, -1]]) ∧
    (windTurns { sampleTurns with real := true, turns := fun _ => 9, uOrder := fun _ => true } longLayers).returns (fun ts =>
      (List.range 3).map (fun k => (layerTurns k ts).map fun t => t.centre.2) = [[-1, 0, 1], [1, 0, -1], [-1, 0, 1]]) ∧
    (windTurns { sampleTurns with real := true, turns := fun _ => 9, entranceTop := fun _ => true } longLayers).returns (fun ts =>
      (List.range 3).map (fun k => (layerTurns k ts).map fun t => t.centre.2) = [[1, 0, -1], [1, 0, -1], [-1, 0, 1]]) := by
  refine ⟨?_, ?_, ?_⟩ <;> decide +kernel

/-- The hypotheses of `sections_turn_around` hold of them. -/
example : ∀ x ∈ longLayers, GoodLayer { sampleTurns with real := true, turns := fun _ => 9 } x ∧
    ¬ Few { sampleTurns with real := true, turns := fun _ => 9 } x := by
  intro x hx
  refine ⟨⟨3, ⟨?_, ?_, ?_⟩, ?_⟩, ?_⟩
  all_goals
    simp only [longLayers, List.mem_cons, List.not_mem_nil, or_false] at hx
    rcases hx with rfl | rfl | rfl
  any_goals rfl
  any_goals exact fun p hp => ⟨3, by norm_num, by simp at hp; rw [hp]; norm_num⟩
  any_goals simp
  any_goals unfold Few
  all_goals decide +kernel

end Verif.Winding
