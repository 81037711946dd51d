import Verif.Winding.TurnLemmas

/-! # C73: every turn is wound once -/

namespace Verif.Winding

open Verif.Round

set_option linter.unusedSimpArgs false

/-! ## Specification -/

/-- A layer the turn winder gets right: whole turns of every parallel and, when parallels are wound together, the same
number of turns of those present, and some. -/
def GoodLayer (env : TurnEnv) (l : LayerIn) : Prop :=
  ∃ n, Consistent (env.turns l.winding) (env.parallels l.winding) l.props n ∧
    (l.style = some .parallels → 0 < n ∧ ∃ c : ℤ, ∀ j < env.parallels l.winding,
      share (env.turns l.winding) j l.props = 0 ∨ share (env.turns l.winding) j l.props = c)

/-- The turns of parallel `j` of winding `w` over the layers. -/
def layersShare (env : TurnEnv) (w j : Nat) (ls : List LayerIn) : ℤ :=
  ((ls.filter fun l => decide (l.winding = w)).map fun l => share (env.turns w) j l.props).sum

/-- Two windings of four and two turns, with one and two parallels. -/
def sampleTurns : TurnEnv where
  turns := fun w => if w = 0 then 4 else 2
  parallels := fun w => if w = 0 then 1 else 2
  real := false
  uOrder := fun _ => false
  entranceTop := fun _ => false
  hasLength := fun _ _ => true

/-- Two layers of the first winding and one of the second. -/
def sampleLayers : List LayerIn :=
  [⟨0, 0, [1/2], some .turns, .centered, .overlapping, (1, 8), (1, 0), (1, 1)⟩,
   ⟨1, 1, [1, 1], some .parallels, .spread, .overlapping, (1, 8), (2, 0), (1, 1)⟩,
   ⟨0, 2, [1/2], some .turns, .centered, .overlapping, (1, 8), (3, 0), (1, 1)⟩]

/-! ## Layers -/

theorem goodLayer_counts {env : TurnEnv} {l : LayerIn} (h : GoodLayer env l) (hT : 0 < env.turns l.winding) :
    ∃ cs : List Nat, cs.length = env.parallels l.winding ∧ l.props = props (env.turns l.winding) cs ∧
      (l.style = some .parallels → (∃ c, EvenCounts c cs) ∧ 0 < cs.sum) := by
  obtain ⟨n, hc, he⟩ := h
  obtain ⟨cs, hlen, hps, hsum, _⟩ := consistent_counts hT hc
  refine ⟨cs, hlen, hps, fun hs => ?_⟩
  obtain ⟨hn, c, hcj⟩ := he hs
  refine ⟨?_, by omega⟩
  refine ⟨c.toNat, fun k hk => ?_⟩
  obtain ⟨j, hj, rfl⟩ := List.mem_iff_getElem.mp hk
  have := hcj j (by omega)
  rw [hps, share_props hT, List.getD, List.getElem?_eq_getElem hj, Option.getD_some] at this
  rcases this with h0 | h0
  · left; exact_mod_cast h0
  · right; omega

theorem numbers_other {w : Nat} {l : LayerIn} {ts : List Turn} (h : ∀ t ∈ ts, t.winding = l.winding) (hw : w ≠ l.winding)
    (j : Nat) : numbers w j ts = [] := by
  unfold numbers
  rw [List.map_eq_nil_iff, List.filter_eq_nil_iff]
  intro t ht
  rw [h t ht]
  intro hc
  simp at hc
  exact hw hc.1.symm

theorem layersShare_cons (env : TurnEnv) (w j : Nat) (l : LayerIn) (ls : List LayerIn) :
    layersShare env w j (l :: ls) =
      (if l.winding = w then share (env.turns w) j l.props else 0) + layersShare env w j ls := by
  unfold layersShare
  rw [List.filter_cons]
  by_cases h : l.winding = w <;> simp [h]

theorem layersShare_nonneg {env : TurnEnv} {w j : Nat} : ∀ {ls : List LayerIn}, (∀ l ∈ ls, GoodLayer env l) →
    (∀ l ∈ ls, 0 < env.turns l.winding) → 0 ≤ layersShare env w j ls
  | [], _, _ => by simp [layersShare]
  | l :: ls, hg, hT => by
    rw [layersShare_cons]
    have ih := layersShare_nonneg (w := w) (j := j) (fun x hx => hg x (List.mem_cons_of_mem _ hx))
      (fun x hx => hT x (List.mem_cons_of_mem _ hx))
    by_cases h : l.winding = w
    · rw [if_pos h]
      obtain ⟨cs, _, hps, _⟩ := goodLayer_counts (hg l List.mem_cons_self) (hT l List.mem_cons_self)
      subst h
      rw [hps, share_props (hT l List.mem_cons_self)]
      omega
    · rw [if_neg h]; omega

theorem windTurnsFrom_numbers (env : TurnEnv) : ∀ (ls : List LayerIn) (k : Nat) (s : OrderSt) (count : Nat → Nat → Nat)
    (ts : List Turn), windTurnsFrom env ls k s count = .ok ts → (∀ l ∈ ls, GoodLayer env l) →
    (∀ l ∈ ls, 0 < env.turns l.winding ∧ env.turns l.winding < 10 ^ 9) →
    ∀ w j, numbers w j ts = List.range' (count w j) (layersShare env w j ls).toNat
  | [], k, s, count, ts, h, _, _, w, j => by
    simp only [windTurnsFrom, Res.ok.injEq] at h
    subst h
    simp [numbers, layersShare]
  | l :: ls, k, s, count, ts, h, hg, hT, w, j => by
    rw [windTurnsFrom] at h
    split at h
    · simp at h
    obtain ⟨n, hn, h⟩ := bind_ok h
    simp only [] at h
    obtain ⟨o, ho, h⟩ := bind_ok h
    obtain ⟨r, hr, h⟩ := bind_ok h
    obtain ⟨ts', hts', h⟩ := bind_ok h
    simp only [Res.ok.injEq] at h
    subst h
    obtain ⟨h1, h2⟩ := hT l List.mem_cons_self
    obtain ⟨cs, hlen, hps, hev⟩ := goodLayer_counts (hg l List.mem_cons_self) h1
    obtain ⟨o', ho', hcount, _⟩ := woundOrder_ok (env := env) (l := l) rfl h1 h2 hlen hps hev
    rw [ho, Res.ok.injEq] at ho'
    subst ho'
    obtain ⟨p1, p2, p3, p4, _⟩ := placeTurns_ok env l k _ o 0 count r hr
    have ih := windTurnsFrom_numbers env ls (k + 1) _ _ ts' hts' (fun x hx => hg x (List.mem_cons_of_mem _ hx))
      (fun x hx => hT x (List.mem_cons_of_mem _ hx)) w j
    rw [numbers_append, ih, p3, layersShare_cons]
    have hnn := layersShare_nonneg (w := w) (j := j) (fun x hx => hg x (List.mem_cons_of_mem _ hx))
      (fun x hx => (hT x (List.mem_cons_of_mem _ hx)).1)
    by_cases hw : w = l.winding
    · subst hw
      rw [p4, if_pos rfl, if_pos rfl, hcount, hps, share_props h1]
      have e : ((cs.getD j 0 : ℕ) + layersShare env l.winding j ls).toNat =
          cs.getD j 0 + (layersShare env l.winding j ls).toNat := by omega
      rw [e]
      exact List.range'_append_1
    · rw [numbers_other (fun t ht => (p2 t ht).1) hw, if_neg hw, if_neg (fun hc => hw hc.symm)]
      simp

/-! ## C73 -/

/-- C73: when the turns are wound, each parallel of each winding has exactly the turns its layers hold, numbered from
zero without gaps or repetitions, in the order they are listed. -/
theorem turns_match_layers {env : TurnEnv} {ls : List LayerIn} {ts : List Turn} (h : windTurns env ls = .ok ts)
    (hg : ∀ l ∈ ls, GoodLayer env l) (hT : ∀ l ∈ ls, 0 < env.turns l.winding ∧ env.turns l.winding < 10 ^ 9) (w j : Nat) :
    numbers w j ts = List.range (layersShare env w j ls).toNat := by
  rw [windTurnsFrom_numbers env ls _ _ _ ts h hg hT w j, List.range_eq_range']

theorem windTurnsFrom_total {env : TurnEnv} (hl : ∀ s x, env.hasLength s x = true) :
    ∀ (ls : List LayerIn) (k : Nat) (s : OrderSt) (count : Nat → Nat → Nat), (∀ l ∈ ls, GoodLayer env l) →
    (∀ l ∈ ls, 0 < env.turns l.winding ∧ env.turns l.winding < 10 ^ 9) →
    ∃ ts, windTurnsFrom env ls k s count = .ok ts
  | [], k, s, count, _, _ => ⟨_, rfl⟩
  | l :: ls, k, s, count, hg, hT => by
    rw [windTurnsFrom]
    obtain ⟨h1, h2⟩ := hT l List.mem_cons_self
    obtain ⟨cs, hlen, hps, hev⟩ := goodLayer_counts (hg l List.mem_cons_self) h1
    obtain ⟨o, ho, hcount, hol⟩ := woundOrder_ok (env := env) (l := l) rfl h1 h2 hlen hps hev
    rw [if_neg (by rw [hps]; simp [hlen]), ho]
    have hsum : sumTurns (env.turns l.winding) (l.props.take (env.parallels l.winding)) = .ok cs.sum := by
      rw [hps]; exact sumTurns_take h1 hlen
    rw [hsum, Res.bind_eq_ok]
    simp only [Res.bind_eq_ok]
    have hu : (if (startFromTop env l cs.sum s).1 = true then placesOf l cs.sum else (placesOf l cs.sum).reversed cs.sum) =
        usedPlaces l cs.sum (startFromTop env l cs.sum s).1 := rfl
    rw [hu]
    obtain ⟨r, hr⟩ := placeTurns_total (env := env) (l := l) (k := k)
      (p := usedPlaces l cs.sum (startFromTop env l cs.sum s).1) (hl l.sec) o 0 count (fun m hm => by
        rw [Nat.zero_add]
        exact spot_total (usedPlaces_stations l cs.sum _) (by omega))
    rw [hr, Res.bind_eq_ok]
    obtain ⟨ts, hts⟩ := windTurnsFrom_total hl ls (k + 1) (startFromTop env l cs.sum s).2 r.2
      (fun x hx => hg x (List.mem_cons_of_mem _ hx)) (fun x hx => hT x (List.mem_cons_of_mem _ hx))
    rw [hts, Res.bind_eq_ok]
    exact ⟨_, rfl⟩

/-- C73: winding the turns of such layers never fails as long as every turn has a length. -/
theorem turns_succeed {env : TurnEnv} {ls : List LayerIn} (hl : ∀ s x, env.hasLength s x = true)
    (hg : ∀ l ∈ ls, GoodLayer env l) (hT : ∀ l ∈ ls, 0 < env.turns l.winding ∧ env.turns l.winding < 10 ^ 9) :
    ∃ ts, windTurns env ls = .ok ts :=
  windTurnsFrom_total hl ls _ _ _ hg hT

/-- The sample: four turns, and two of each of two parallels. -/
example : (windTurns sampleTurns sampleLayers).returns fun ts =>
    numbers 0 0 ts = [0, 1, 2, 3] ∧ numbers 1 0 ts = [0, 1] ∧ numbers 1 1 ts = [0, 1] ∧ ts.length = 8 := by
  decide +kernel

/-! ## From sections to turns -/

/-- The sections as the layer winder reads them: with the turns, parallels, proportions and style they were given. -/
def Describes (c : Ctx) (s : Section) (x : Nat × SectionIn) : Prop :=
  s.winding = some x.1 ∧ x.2.turns = c.turns x.1 ∧ x.2.parallels = c.parallels x.1 ∧ x.2.props = s.props ∧
    x.2.style = some s.style ∧ x.2.numberLayers ≠ some 0

theorem styleFor_plain {env : LayerEnv} {s : SectionIn} {room : Room} {n : Nat} {st st' : Style}
    (h : styleFor env s room n = .ok st) (hreal : env.real = false) (hs : s.style = some st') (hp : st = .parallels) :
    st' = .parallels := by
  unfold styleFor at h
  rw [hs, Res.bind_eq_ok] at h
  have hbl : blocked env s room = false := by simp [blocked, hreal]
  simp only [hreal, hbl, Bool.false_eq_true, false_and, if_false, Res.ok.injEq] at h
  subst hp
  split at h
  · simp at h
  · exact h

/-- Layers of a section with the same turns of every parallel, wound together: so are the layers. -/
theorem layers_good {env : LayerEnv} {s : SectionIn} {ls : List Layer} {n : Nat} {st : Style} {te : TurnEnv} {w k : Nat}
    {wire : Nat → ℚ × ℚ} (h : windLayers env s = .ok ls) (hreal : env.real = false) (hT : 0 < s.turns)
    (hsec : Consistent s.turns s.parallels s.props n) (hb : n ≤ 2 * 10 ^ 10) (h0 : s.numberLayers ≠ some 0)
    (hst : s.style = some st)
    (heven : st = .parallels → ∃ c : Nat, ∀ j < s.parallels, share s.turns j s.props = c)
    (ht : te.turns w = s.turns) (hp : te.parallels w = s.parallels) :
    ∀ l ∈ condLayers ls, GoodLayer te (LayerIn.ofLayer wire (w, k, l)) := by
  intro l hl
  have hcons := (layers_hold_every_turn h hT hsec hb h0 (by rw [hreal]; simp)).2.1 l hl
  refine ⟨l.physical, ?_, ?_⟩
  · simp only [LayerIn.ofLayer, ht, hp]
    exact hcons
  · intro hs
    simp only [LayerIn.ofLayer, Option.some.injEq] at hs
    obtain ⟨plan, hplan⟩ := windLayers_plan h
    obtain ⟨cs, rows, hlen, hps, hsum, hle, hrows, hnz, e2, e3, e4, e5⟩ := windLayers_ok h hplan hT hsec hb
    obtain ⟨h1, _, h4, h5⟩ := planLayers_ok hplan hT hlen hps
    have hstyle : plan.style = .parallels := by rw [← e5 l hl]; exact hs
    obtain ⟨c, hc⟩ := heven (styleFor_plain h4 hreal hst hstyle)
    have hbl : blocked env s plan.room = false := by simp [blocked, hreal]
    rw [hbl, if_neg (by simp), hstyle] at hrows
    have hcs : cs = List.replicate s.parallels c := by
      rw [List.eq_replicate_iff]
      refine ⟨hlen, fun k hk => ?_⟩
      obtain ⟨j, hj, rfl⟩ := List.mem_iff_getElem.mp hk
      have := hc j (by omega)
      rw [hps, share_props hT, List.getD, List.getElem?_eq_getElem hj, Option.getD_some] at this
      exact_mod_cast this
    obtain ⟨i, row, hi, hphys, hli⟩ := mem_rows e3 hl
    have hrow := hi
    subst hrows
    have hrow' := runNat_parallels _ _ _ _ hrow
    have hprops : l.props = props s.turns row := by
      have := congrArg (·[i]?) e2
      simp only [List.getElem?_map, hli, hi, Option.map_some, Option.some.injEq] at this
      exact this
    refine ⟨?_, ?_⟩
    · obtain ⟨k', hk', hne⟩ := hnz row (List.mem_of_getElem? hi)
      rw [hphys]
      have := List.single_le_sum (by simp) k' hk'
      omega
    · refine ⟨((c / plan.count + if i < c % plan.count then 1 else 0 : ℕ) : ℤ), ?_⟩
      intro j hj
      right
      simp only [LayerIn.ofLayer, ht]
      rw [hprops, share_props hT, hrow', hcs, List.map_replicate]
      simp only [LayerIn.ofLayer, hp] at hj
      simp [List.getD, List.getElem?_replicate, hj]

theorem windAllLayers_ok (env : LayerEnv) : ∀ (ins : List (Nat × SectionIn)) (k : Nat) (r : List (Nat × Nat × Layer)),
    windAllLayers env ins k = .ok r →
    (∀ (P : Nat × Nat × Layer → Prop), (∀ (i : Nat) x ls, ins[i]? = some x → windLayers env x.2 = .ok ls →
        ∀ l ∈ ls, P (x.1, k + i, l)) → ∀ y ∈ r, P y) ∧
    (∀ (f : Nat × Nat × Layer → ℤ) (g : Nat × SectionIn → ℤ),
      (∀ (i : Nat) x ls, ins[i]? = some x → windLayers env x.2 = .ok ls → (ls.map fun l => f (x.1, k + i, l)).sum = g x) →
      (r.map f).sum = (ins.map g).sum)
  | [], k, r, h => by
    simp only [windAllLayers, Res.ok.injEq] at h
    subst h
    simp
  | x :: ins, k, r, h => by
    rw [windAllLayers] at h
    obtain ⟨ls, hls, h⟩ := bind_ok h
    obtain ⟨r', hr', h⟩ := bind_ok h
    simp only [Res.ok.injEq] at h
    subst h
    obtain ⟨ih1, ih2⟩ := windAllLayers_ok env ins (k + 1) r' hr'
    constructor
    · intro P hP y hy
      rcases List.mem_append.mp hy with hy | hy
      · obtain ⟨l, hl, rfl⟩ := List.mem_map.mp hy
        exact hP 0 x ls rfl hls l hl
      · refine ih1 P (fun i z zs hz hzs l hl => ?_) y hy
        have := hP (i + 1) z zs hz hzs l hl
        rw [Nat.add_assoc, Nat.add_comm 1 i]
        exact this
    · intro f g hfg
      rw [List.map_append, List.sum_append, List.map_cons, List.sum_cons, List.map_map]
      have e := hfg 0 x ls rfl hls
      rw [Nat.add_zero] at e
      have e2 := ih2 f g (fun i z zs hz hzs => by
        have := hfg (i + 1) z zs hz hzs
        rw [Nat.add_assoc, Nat.add_comm 1 i]
        exact this)
      rw [e2]
      congr 1

theorem forall2_sum {α β : Type} {R : α → β → Prop} {f : α → ℤ} {g : β → ℤ} {as : List α} {bs : List β}
    (h : List.Forall₂ R as bs) (hfg : ∀ a ∈ as, ∀ b ∈ bs, R a b → f a = g b) : (as.map f).sum = (bs.map g).sum := by
  induction h with
  | nil => rfl
  | cons hab _ ih =>
    rw [List.map_cons, List.map_cons, List.sum_cons, List.sum_cons, hfg _ List.mem_cons_self _ List.mem_cons_self hab,
      ih fun a ha b hb hr => hfg a (List.mem_cons_of_mem _ ha) b (List.mem_cons_of_mem _ hb) hr]

theorem windEntries_windings (c : Ctx) (g : Group) (plan : Plan) (first : Option Nat) :
    ∀ (es : List Entry) (prev : Option Nat) (k : Nat) (s : St) (x : List Section × St),
      windEntries c g plan first es prev k s = .ok x → x.1.filterMap (·.winding) = condWindings es
  | [], prev, k, s, x, h => by
    simp only [windEntries, Res.ok.injEq] at h
    subst h
    rfl
  | .cond w space :: es, prev, k, s, x, h => by
    unfold windEntries at h
    obtain ⟨y, hy, h⟩ := bind_ok h
    obtain ⟨z, hz, h⟩ := bind_ok h
    simp only [Res.ok.injEq] at h
    subst h
    have ih := windEntries_windings c g plan first es _ _ _ z hz
    have hw : y.1.winding = some w := by
      unfold windSection at hy
      simp only [] at hy
      obtain ⟨r, _, hy⟩ := bind_ok hy
      obtain ⟨_, hy⟩ := ite_ok (by simp) hy
      obtain ⟨_, hy⟩ := ite_ok (by simp) hy
      obtain ⟨_, hy⟩ := ite_ok (by simp) hy
      simp only [Res.ok.injEq] at hy
      rw [← hy]
    rw [List.filterMap_cons, hw, condWindings, ih]
  | .ins :: es, prev, k, s, x, h => by
    unfold windEntries at h
    split at h
    · simp at h
    simp only [] at h
    split at h
    · obtain ⟨z, hz, h⟩ := bind_ok h
      simp only [Res.ok.injEq] at h
      subst h
      have ih := windEntries_windings c g plan first es _ _ _ z hz
      rw [List.filterMap_append, ih, condWindings]
      have : ∀ a b, ((windInsulation c g a b k s).1.filterMap (·.winding)) = [] := by
        intro a b
        unfold windInsulation
        split <;> simp
      rw [this]
      rfl
    · rw [condWindings]
      exact windEntries_windings c g plan first es _ _ _ x h

/-- Sections belong to windings of the pattern. -/
theorem sections_of_pattern {c : Ctx} {g : Group} {prop : Nat → ℚ} {pattern : List Nat} {reps : Nat} {secs : List Section}
    (h : windRectangularSections c (some [g]) prop pattern reps = .ok secs) :
    (∀ w ∈ pattern, w < c.windings) ∧ ∀ s ∈ secs, ∀ w, s.winding = some w → w ∈ pattern := by
  obtain ⟨plan, x, hp, hx, rfl⟩ := rectangular_single h
  obtain ⟨p1, _, p3, _⟩ := planGroup_ok hp
  refine ⟨p3, fun s hs w hw => ?_⟩
  have hm : w ∈ x.1.filterMap (·.winding) := List.mem_filterMap.mpr ⟨s, hs, hw⟩
  rw [windEntries_windings c g plan _ _ _ _ _ x hx, p1] at hm
  obtain ⟨l, hl, hwl⟩ := List.mem_flatten.mp hm
  rw [(List.mem_replicate.mp hl).2] at hwl
  exact hwl

/-- What is known of each section handed to the layer winder. -/
theorem coil_sections {c : Ctx} {g : Group} {prop : Nat → ℚ} {pattern : List Nat} {reps : Nat} {secs : List Section}
    (hsecs : windRectangularSections c (some [g]) prop pattern reps = .ok secs)
    (hb : pattern.length * reps ≤ 2 * 10 ^ 10)
    (hT : ∀ w ∈ pattern, 0 < c.turns w ∧ c.turns w < 10 ^ 9 ∧ c.turns w * c.parallels w ≤ 2 * 10 ^ 10)
    {ins : List (Nat × SectionIn)}
    (hins : List.Forall₂ (Describes c) (secs.filter fun s => s.winding.isSome) ins) :
    ∀ x ∈ ins, x.1 ∈ pattern ∧ ∃ s ∈ secs, Describes c s x ∧
      Consistent (c.turns x.1) (c.parallels x.1) s.props s.physical ∧ s.physical ≤ 2 * 10 ^ 10 ∧
      (s.style = .parallels → ∃ k : Nat, ∀ j < c.parallels x.1, share (c.turns x.1) j s.props = k) := by
  obtain ⟨hpat, hused⟩ := sections_of_pattern hsecs
  intro x hx
  obtain ⟨i, hi, rfl⟩ := List.mem_iff_getElem.mp hx
  have hlen := hins.length_eq
  have hd := List.forall₂_iff_get.mp hins |>.2 i (by omega) hi
  simp only [List.get_eq_getElem] at hd
  set s := (secs.filter fun s => s.winding.isSome)[i]'(by omega) with hs
  have hm : s ∈ secs := List.mem_of_mem_filter (List.getElem_mem (by omega))
  have hwp := hused s hm _ hd.1
  have hcons := (sections_hold_every_turn hsecs hb (hpat _ hwp) (hT _ hwp).1).2 s
    (List.mem_filter.mpr ⟨hm, by simp [hd.1]⟩)
  refine ⟨hwp, s, hm, hd, hcons, ?_, ?_⟩
  · obtain ⟨cs, hl, _, hsum, hle⟩ := consistent_counts (hT _ hwp).1 hcons
    refine le_trans ?_ (hT _ hwp).2.2
    rw [← hsum, ← hl, Nat.mul_comm]
    exact sum_le_mul hle
  · intro hst
    obtain ⟨_, st, _, hev⟩ := sections_even hsecs hb (hT _ hwp).1 hwp
    obtain ⟨e1, e2, _⟩ := hev s (List.mem_filter.mpr ⟨hm, by simp [hd.1]⟩)
    exact ⟨_, e2 (by rw [← e1]; exact hst)⟩

/-- The layers of a coil wound without real winding geometry are the turn winder's kind. -/
theorem coil_layers_good {c : Ctx} {g : Group} {prop : Nat → ℚ} {pattern : List Nat} {reps : Nat} {secs : List Section}
    (hsecs : windRectangularSections c (some [g]) prop pattern reps = .ok secs)
    (hb : pattern.length * reps ≤ 2 * 10 ^ 10)
    (hT : ∀ w ∈ pattern, 0 < c.turns w ∧ c.turns w < 10 ^ 9 ∧ c.turns w * c.parallels w ≤ 2 * 10 ^ 10)
    {lenv : LayerEnv} (hreal : lenv.real = false) {ins : List (Nat × SectionIn)}
    (hins : List.Forall₂ (Describes c) (secs.filter fun s => s.winding.isSome) ins)
    {ls : List (Nat × Nat × Layer)} (hls : windAllLayers lenv ins 0 = .ok ls)
    {tenv : TurnEnv} (ht : tenv.turns = c.turns) (hp : tenv.parallels = c.parallels) {wire : Nat → ℚ × ℚ} :
    ∀ l ∈ (ls.filter fun x => x.2.2.conduction).map (LayerIn.ofLayer wire), l.winding ∈ pattern ∧ GoodLayer tenv l := by
  have hsec := coil_sections hsecs hb hT hins
  obtain ⟨hall, _⟩ := windAllLayers_ok lenv ins 0 ls hls
  have hgood : ∀ y ∈ ls, y.2.2.conduction = true → y.1 ∈ pattern ∧ GoodLayer tenv (LayerIn.ofLayer wire y) := by
    refine hall (fun y => y.2.2.conduction = true → y.1 ∈ pattern ∧ GoodLayer tenv (LayerIn.ofLayer wire y)) ?_
    intro i x l' hx hl' l hl hc
    obtain ⟨hwp, s, hm, ⟨d1, d2, d3, d4, d5, d6⟩, hcons, hphys, hev⟩ := hsec x (List.mem_of_getElem? hx)
    have hpos := (hT _ hwp).1
    refine ⟨hwp, ?_⟩
    have := layers_good (te := tenv) (w := x.1) (k := 0 + i) (wire := wire) hl' hreal (by rw [d2]; exact hpos)
      (by rw [d2, d3, d4]; exact hcons) hphys d6 d5
      (by rw [d2, d3, d4]; exact hev) (by rw [ht, d2]) (by rw [hp, d3])
    exact this l (List.mem_filter.mpr ⟨hl, by simpa using hc⟩)
  intro l hl
  obtain ⟨y, hy, rfl⟩ := List.mem_map.mp hl
  obtain ⟨hy1, hy2⟩ := List.mem_filter.mp hy
  exact hgood y hy1 (by simpa using hy2)

/-- C73: from the functional description to turns. When sections, layers and turns of a coil with one group of
windings are wound in a rectangular window without real winding geometry, every winding of the pattern has in each
parallel turns 0, 1, … up to its number of turns, each exactly once. -/
theorem turns_complete {c : Ctx} {g : Group} {prop : Nat → ℚ} {pattern : List Nat} {reps : Nat} {secs : List Section}
    (hsecs : windRectangularSections c (some [g]) prop pattern reps = .ok secs)
    (hb : pattern.length * reps ≤ 2 * 10 ^ 10)
    (hT : ∀ w ∈ pattern, 0 < c.turns w ∧ c.turns w < 10 ^ 9 ∧ c.turns w * c.parallels w ≤ 2 * 10 ^ 10)
    {lenv : LayerEnv} (hreal : lenv.real = false) {ins : List (Nat × SectionIn)}
    (hins : List.Forall₂ (Describes c) (secs.filter fun s => s.winding.isSome) ins)
    {ls : List (Nat × Nat × Layer)} (hls : windAllLayers lenv ins 0 = .ok ls)
    {tenv : TurnEnv} (ht : tenv.turns = c.turns) (hp : tenv.parallels = c.parallels) {wire : Nat → ℚ × ℚ}
    {ts : List Turn}
    (hts : windTurns tenv ((ls.filter fun x => x.2.2.conduction).map (LayerIn.ofLayer wire)) = .ok ts)
    {w j : Nat} (hw : w ∈ pattern) (hj : j < c.parallels w) :
    numbers w j ts = List.range (c.turns w) := by
  obtain ⟨hpat, hused⟩ := sections_of_pattern hsecs
  have hsec := coil_sections hsecs hb hT hins
  have hadd := (windAllLayers_ok lenv ins 0 ls hls).2
  have hmem := coil_layers_good (wire := wire) hsecs hb hT hreal hins hls ht hp
  rw [turns_match_layers hts (fun l hl => (hmem l hl).2) (fun l hl => by
    rw [ht]; exact ⟨(hT _ (hmem l hl).1).1, (hT _ (hmem l hl).1).2.1⟩)]
  congr 1
  -- the layers hold what the sections hold
  have hsum : layersShare tenv w j ((ls.filter fun x => x.2.2.conduction).map (LayerIn.ofLayer wire)) =
      (ls.map fun y => if y.1 = w ∧ y.2.2.conduction = true then share (c.turns w) j y.2.2.props else 0).sum := by
    unfold layersShare
    rw [ht]
    clear hts hadd hmem hls
    induction ls with
    | nil => rfl
    | cons y ls ih =>
      rw [List.map_cons, List.sum_cons, ← ih, List.filter_cons]
      by_cases h1 : y.2.2.conduction = true
      · rw [if_pos h1, List.map_cons, List.filter_cons]
        by_cases h2 : y.1 = w
        · simp [h1, h2, LayerIn.ofLayer]
        · simp [h1, h2, LayerIn.ofLayer]
      · rw [if_neg h1]
        simp [h1]
  rw [hsum]
  have hlayers := hadd (fun y => if y.1 = w ∧ y.2.2.conduction = true then share (c.turns w) j y.2.2.props else 0)
    (fun x => if x.1 = w then share (c.turns w) j x.2.props else 0) (by
      intro i x l' hx hl'
      obtain ⟨hwp, s, hm, ⟨d1, d2, d3, d4, d5, d6⟩, hcons, hphys, hev⟩ := hsec x (List.mem_of_getElem? hx)
      by_cases hxw : x.1 = w
      · have hpos := (hT _ hwp).1
        have hh := (layers_hold_every_turn hl' (by rw [d2]; exact hpos) (by rw [d2, d3, d4]; exact hcons)
          hphys d6 (by rw [hreal]; simp)).1 j
          (by rw [d3, hxw]; exact hj)
        rw [if_pos hxw, ← hxw, ← d2, ← hh]
        unfold woundLayers condLayers
        clear hh hl'
        induction l' with
        | nil => rfl
        | cons l l' ih =>
          rw [List.map_cons, List.sum_cons, ih, List.filter_cons]
          by_cases h1 : l.conduction = true
          · simp [h1]
          · simp [h1]
      · rw [if_neg hxw]
        simp [hxw])
  rw [hlayers]
  have hsections : (ins.map fun x => if x.1 = w then share (c.turns w) j x.2.props else 0).sum =
      ((secs.filter fun s => s.winding.isSome).map fun s =>
        if s.winding = some w then share (c.turns w) j s.props else 0).sum := by
    symm
    apply forall2_sum hins
    intro s _ x _ hd
    rw [hd.1, hd.2.2.2.1]
    simp
  rw [hsections]
  have hwound : ((secs.filter fun s => s.winding.isSome).map fun s =>
      if s.winding = some w then share (c.turns w) j s.props else 0).sum = wound (c.turns w) w j secs := by
    unfold wound sectionsOf
    clear hins hused hsec hsections hsecs
    induction secs with
    | nil => rfl
    | cons s secs ih =>
      rw [List.filter_cons, List.filter_cons]
      cases hs : s.winding with
      | none => simp [ih]
      | some v =>
        by_cases hv : v = w
        · simp [hs, hv, ih]
        · simp [hs, hv, ih]
  rw [hwound, (sections_hold_every_turn hsecs hb (hpat _ hw) (hT _ hw).1).1 j hj]
  simp

/-- The sections of a coil as the layer winder reads them, for the examples. -/
def readSections (c : Ctx) (secs : List Section) : List (Nat × SectionIn) :=
  secs.filterMap fun s => s.winding.map fun w =>
    (w, { sampleSection with
      turns := c.turns w, parallels := c.parallels w, props := s.props, style := some s.style, dims := s.dims
      centre := s.centre, wire := ⟨.round, some (c.wire w).1, none⟩ })

/-- Sections, layers and turns one after another, for the examples. -/
def windCoil (c : Ctx) (g : Group) (pattern : List Nat) (reps : Nat) (lenv : LayerEnv) (tenv : TurnEnv) :
    Res (List Turn) :=
  (windRectangularSections c (some [g]) (fun _ => 1/2) pattern reps).bind fun secs =>
    (windAllLayers lenv (readSections c secs) 0).bind fun ls =>
      windTurns tenv ((ls.filter fun x => x.2.2.conduction).map (LayerIn.ofLayer c.wire))

/-- The turns of the sample coil. -/
def sampleTurnEnv : TurnEnv :=
  { sampleTurns with turns := sample.turns, parallels := sample.parallels }

example : (windCoil sample sampleGroup [0, 1] 3 plainEnv sampleTurnEnv).returns fun ts =>
    numbers 0 0 ts = List.range 11 ∧ numbers 0 1 ts = List.range 11 ∧ numbers 1 0 ts = List.range 4 := by
  decide +kernel

/-- One winding of four turns and three parallels. -/
def threeParallels : Ctx :=
  { sample with windings := 1, turns := fun _ => 4, parallels := fun _ => 3, insulation := fun _ _ => none }

/-- C73: with real winding geometry turns can be lost without an error: the parallels of a layer are wound together even
when the section has different numbers of turns of them. Four turns of three parallels in five sections end with three
turns of the second parallel. -/
theorem turns_real_loses_turn :
    (windCoil threeParallels { sampleGroup with members := [0] } [0] 5 { plainEnv with real := true }
      { sampleTurnEnv with turns := threeParallels.turns, parallels := threeParallels.parallels, real := true }).returns
      fun ts => numbers 0 0 ts = [0, 1, 2, 3] ∧ numbers 0 1 ts = [0, 1, 2] ∧ numbers 0 2 ts = [0, 1, 2, 3] := by
  decide +kernel

/-- The same coil without real winding geometry keeps them. -/
example :
    (windCoil threeParallels { sampleGroup with members := [0] } [0] 5 plainEnv
      { sampleTurnEnv with turns := threeParallels.turns, parallels := threeParallels.parallels }).returns
      fun ts => ∀ j < 3, numbers 0 j ts = [0, 1, 2, 3] := by
  decide +kernel

end Verif.Winding
