import Verif.StrayCapacitance.WindingProps

/-!
# The capacitances reported for a coil

C146: the table of capacitances among windings and what is reported for each pair of turns.
-/

set_option linter.unusedSectionVars false

namespace Verif.StrayCapacitance

open Finset (range)

variable {K : Type} [Field K] [LinearOrder K] [IsStrictOrderedRing K]

/-! ## The table -/

theorem mapM_ok {α β : Type} {f : α → Except Err β} {l : List α} {r : List β} (h : l.mapM f = .ok r) :
    r.length = l.length ∧ ∀ (i : Nat) (a : α), l[i]? = some a → ∃ b, f a = .ok b ∧ r[i]? = some b := by
  induction l generalizing r with
  | nil =>
    simp only [List.mapM_nil] at h
    cases h
    simp
  | cons x xs ih =>
    rw [List.mapM_cons] at h
    cases h1 : f x with
    | error e => rw [h1] at h; cases h
    | ok b =>
      rw [h1] at h
      cases h2 : xs.mapM f with
      | error e => rw [h2] at h; cases h
      | ok bs =>
        rw [h2] at h
        cases h
        obtain ⟨hl, hi⟩ := ih h2
        refine ⟨by simp [hl], ?_⟩
        intro i a ha
        cases i with
        | zero => simp at ha; subst ha; exact ⟨b, h1, by simp⟩
        | succ i => simpa using hi i a (by simpa using ha)

theorem mapM_exists {α β : Type} {f : α → Except Err β} {l : List α} (h : ∀ a ∈ l, ∃ b, f a = .ok b) :
    ∃ r, l.mapM f = .ok r := by
  induction l with
  | nil => exact ⟨[], rfl⟩
  | cons x xs ih =>
    obtain ⟨b, hb⟩ := h x (by simp)
    obtain ⟨bs, hbs⟩ := ih fun a ha => h a (by simp [ha])
    exact ⟨b :: bs, by rw [List.mapM_cons, hb, hbs]; rfl⟩

theorem mem_pairCaps {c : Coil K} {m : List ((String × String) × K)} (h : pairCaps c = .ok m) (q : (String × String) × K) :
    q ∈ m ↔ ∃ p ∈ windingPairs c.windings, q.1 = (p.1.name, p.2.name) ∧ pairCap c p.1 p.2 = .ok q.2 := by
  unfold pairCaps at h
  obtain ⟨hl, hi⟩ := mapM_ok h
  constructor
  · intro hq
    obtain ⟨i, hlt, hget⟩ := List.mem_iff_getElem.mp hq
    have hlt' : i < (windingPairs c.windings).length := by omega
    obtain ⟨b, hb, hr⟩ := hi i _ (List.getElem?_eq_getElem hlt')
    rw [List.getElem?_eq_getElem hlt, hget] at hr
    injection hr with hr
    refine ⟨_, List.getElem_mem hlt', ?_⟩
    cases hp : pairCap c (windingPairs c.windings)[i].1 (windingPairs c.windings)[i].2 with
    | error e => simp [hp] at hb
    | ok x =>
      simp only [hp, Except.ok.injEq] at hb
      rw [hr, ← hb]
      exact ⟨rfl, rfl⟩
  · rintro ⟨p, hp, hq, hx⟩
    obtain ⟨i, hlt, hget⟩ := List.mem_iff_getElem.mp hp
    obtain ⟨b, hb, hr⟩ := hi i p (by rw [List.getElem?_eq_getElem hlt, hget])
    simp only [hx, Except.ok.injEq] at hb
    have : b = q := by rw [← hb, ← hq]
    rw [← this]
    exact List.mem_of_getElem? hr

theorem pairCaps_unique {c : Coil K} {m : List ((String × String) × K)} (h : pairCaps c = .ok m)
    {q r : (String × String) × K} (hq : q ∈ m) (hr : r ∈ m) (hk : r.1 = q.1 ∨ r.1 = q.1.swap) : q = r := by
  obtain ⟨p1, hp1, e1, v1⟩ := (mem_pairCaps h q).mp hq
  obtain ⟨p2, hp2, e2, v2⟩ := (mem_pairCaps h r).mp hr
  have : p1 = p2 := by
    unfold windingPairs at hp1 hp2
    apply visit_unique hp1 hp2
    rw [← e1, ← e2]
    exact hk
  subst this
  rw [v1] at v2
  injection v2 with v2
  exact Prod.ext (by rw [e1, e2]) v2

theorem staticOf_mem {c : Coil K} {m : List ((String × String) × K)} (h : pairCaps c = .ok m) {q : (String × String) × K}
    (hq : q ∈ m) : staticOf m q.1.1 q.1.2 = some q.2 ∧ staticOf m q.1.2 q.1.1 = some q.2 := by
  have found : ∀ a b, (a, b) = q.1 ∨ (a, b) = q.1.swap → staticOf m a b = some q.2 := by
    intro a b hab
    unfold staticOf
    cases h1 : m.find? (fun r => r.1 = (a, b)) with
    | some r =>
      have hr := List.mem_of_find?_eq_some h1
      have hk := List.find?_some h1
      simp only [decide_eq_true_eq] at hk
      rw [pairCaps_unique h hq hr (by rw [hk]; exact hab)]
    | none =>
      simp only []
      cases h2 : m.find? (fun r => r.1 = (b, a)) with
      | some r =>
        have hr := List.mem_of_find?_eq_some h2
        have hk := List.find?_some h2
        simp only [decide_eq_true_eq] at hk
        have : r.1 = q.1 ∨ r.1 = q.1.swap := by
          rw [hk]
          rcases hab with h | h
          · right; rw [← h]; rfl
          · left; rw [← Prod.swap_swap q.1, ← h]; rfl
        rw [pairCaps_unique h hq hr this]
      | none =>
        exfalso
        rw [List.find?_eq_none] at h1 h2
        rcases hab with h | h
        · exact h1 q hq (by simp [h])
        · apply h2 q hq
          rw [← Prod.swap_swap q.1, ← h]
          simp
  exact ⟨found _ _ (Or.inl rfl), found _ _ (Or.inr rfl)⟩

/-- C146: the table of capacitances is symmetric. -/
theorem among_windings_symmetric {c : Coil K} {st : String → String → Option K} (h : amongWindings c = .ok st) (a b : String) :
    st a b = st b a := by
  unfold amongWindings at h
  cases hm : pairCaps c with
  | error e => rw [hm] at h; cases h
  | ok m =>
    rw [hm] at h
    injection h with h
    rw [← h]
    by_cases hex : ∃ q ∈ m, q.1 = (a, b) ∨ q.1 = (b, a)
    · obtain ⟨q, hq, hk⟩ := hex
      have hs := staticOf_mem hm hq
      rcases hk with hk | hk
      · rw [hk] at hs; rw [hs.1, hs.2]
      · rw [hk] at hs; rw [hs.1, hs.2]
    · push Not at hex
      have n1 : m.find? (fun q => q.1 = (a, b)) = none := by
        rw [List.find?_eq_none]; intro q hq; simp only [decide_eq_true_eq]; exact (hex q hq).1
      have n2 : m.find? (fun q => q.1 = (b, a)) = none := by
        rw [List.find?_eq_none]; intro q hq; simp only [decide_eq_true_eq]; exact (hex q hq).2
      unfold staticOf
      rw [n1, n2]

theorem mem_windingPairs {ws pre post : List Winding} {wi wj : Winding} (hws : ws = pre ++ wi :: post)
    (hnames : (ws.map (·.name)).Nodup) (hj : wj ∈ wi :: post) : (wi, wj) ∈ windingPairs ws := by
  have hj' : wj ∈ ws := by rw [hws]; exact List.mem_append_right _ hj
  have hi' : wi ∈ ws := by rw [hws]; simp
  have inj : ∀ x ∈ ws, ∀ y ∈ ws, x.name = y.name → x = y := fun x hx y hy h => List.inj_on_of_nodup_map hnames hx hy h
  unfold windingPairs
  have hsplit : (ws.flatMap fun a => ws.map fun b => (a, b)) =
      ((pre ++ [wi]).flatMap fun a => ws.map fun b => (a, b)) ++ (post.flatMap fun a => ws.map fun b => (a, b)) := by
    rw [← List.flatMap_append]
    congr 1
    rw [hws]
    simp
  rw [hsplit, visit_append, List.mem_append]
  left
  have hsub := visit_sublist (key := fun p : Winding × Winding => (p.1.name, p.2.name)) []
    ((pre ++ [wi]).flatMap fun a => ws.map fun b => (a, b))
  have hin : (wi, wj) ∈ ((pre ++ [wi]).flatMap fun a => ws.map fun b => (a, b)) := by
    rw [List.mem_flatMap]
    exact ⟨wi, by simp, List.mem_map.mpr ⟨wj, hj', rfl⟩⟩
  have dest : ∀ p ∈ ((pre ++ [wi]).flatMap fun a => ws.map fun b => (a, b)), p.1 ∈ pre ++ [wi] ∧ p.2 ∈ ws := by
    intro p hp
    rw [List.mem_flatMap] at hp
    obtain ⟨a, ha, hp⟩ := hp
    obtain ⟨b, hb, rfl⟩ := List.mem_map.mp hp
    exact ⟨ha, hb⟩
  rcases visit_covers (key := fun p : Winding × Winding => (p.1.name, p.2.name)) [] _ hin with h | ⟨p, hp, h | h⟩
  · simp at h
  · have hd := dest p (hsub.subset hp)
    simp only [Prod.mk.injEq] at h
    have h1 : p.1 = wi := inj _ (by rw [hws]; rcases List.mem_append.mp hd.1 with h | h
                                    · simp [h]
                                    · simp at h; simp [h]) _ hi' h.1
    have h2 : p.2 = wj := inj _ hd.2 _ hj' h.2
    have hpe : p = (wi, wj) := Prod.ext h1 h2
    rw [← hpe]
    exact hp
  · have hd := dest p (hsub.subset hp)
    simp only [Prod.swap_prod_mk, Prod.mk.injEq] at h
    have hin1 : p.1 ∈ ws := by
      rw [hws]
      rcases List.mem_append.mp hd.1 with h | h
      · simp [h]
      · simp at h; simp [h]
    have h1 : p.1 = wj := inj _ hin1 _ hj' h.1
    have h2 : p.2 = wi := inj _ hd.2 _ hi' h.2
    have hji : wj = wi := by
      have hd1 := hd.1
      rw [h1] at hd1
      rcases List.mem_append.mp hd1 with h3 | h3
      · exfalso
        rw [hws, List.map_append, List.nodup_append] at hnames
        exact hnames.2.2 wj.name (List.mem_map_of_mem h3) wj.name (List.mem_map_of_mem hj) rfl
      · simpa using h3
    have : p = (wi, wj) := Prod.ext (by rw [h1, hji]) (by rw [h2, hji])
    rw [← this]
    exact hp

/-- C146: it holds, for each pair of windings, what is computed with the one which is listed first as the first. -/
theorem among_windings_value {c : Coil K} {st : String → String → Option K} (h : amongWindings c = .ok st)
    (hnames : (c.windings.map (·.name)).Nodup) {pre post : List Winding} {wi wj : Winding}
    (hws : c.windings = pre ++ wi :: post) (hj : wj ∈ wi :: post) :
    ∃ x, pairCap c wi wj = .ok x ∧ st wi.name wj.name = some x ∧ st wj.name wi.name = some x := by
  unfold amongWindings at h
  cases hm : pairCaps c with
  | error e => rw [hm] at h; cases h
  | ok m =>
    rw [hm] at h
    injection h with h
    have hp := mem_windingPairs hws hnames hj
    have hm' := hm
    unfold pairCaps at hm'
    obtain ⟨-, hi⟩ := mapM_ok hm'
    obtain ⟨i, hlt, hget⟩ := List.mem_iff_getElem.mp hp
    obtain ⟨b, hb, hr⟩ := hi i _ (by rw [List.getElem?_eq_getElem hlt, hget])
    cases hx : pairCap c wi wj with
    | error e => simp [hx] at hb
    | ok x =>
      refine ⟨x, rfl, ?_⟩
      have := staticOf_mem hm ((mem_pairCaps hm ((wi.name, wj.name), x)).mpr ⟨(wi, wj), hp, rfl, hx⟩)
      rw [← h]
      exact this

/-- C146: with voltages which are not negative, there is always a table. -/
theorem among_windings_never_refused {c : Coil K} (hself : ∀ a, c.cap a a = none) (hv : ∀ i, 0 ≤ c.volt i) :
    ∃ st, amongWindings c = .ok st := by
  have : ∃ m, pairCaps c = .ok m := by
    unfold pairCaps
    apply mapM_exists
    intro p _
    obtain ⟨r, hr⟩ := windings_never_refused hself hv p.1 p.2
    exact ⟨_, by rw [hr]⟩
  obtain ⟨m, hm⟩ := this
  exact ⟨staticOf m, by unfold amongWindings; rw [hm]⟩

/-- The default voltages are not negative when numbers of turns are not, so the hypotheses above are met. -/
theorem volt_nonneg {ws : List Winding} {rms : String → K} (hr : ∀ s, 0 ≤ rms s) (ts : List Turn)
    (hrank : ∀ (i : Nat) (t : Turn), ts[i]? = some t → (Spec.rank ts i t : Int) < numberTurns ws t.winding ∨ numberTurns ws t.winding ≤ 1)
    (near : Nat → List Nat) (fixed : Nat → Nat → K) (core : Option (Nat → K)) (i : Nat) :
    0 ≤ (coilOf ws rms ts near fixed core).volt i := by
  unfold coilOf
  simp only []
  cases h : ts[i]? with
  | none =>
    rw [List.getElem?_eq_none (by rw [voltLoop_length]; exact List.getElem?_eq_none_iff.mp h)]
  | some t =>
    rw [voltLoop_get ws rms ts (fun _ => 0) i t h]
    simp only [Nat.zero_add]
    unfold turnVoltage
    split
    · rename_i hN
      simp only []
      apply mul_nonneg (hr _)
      rcases hrank i t h with hk | hk
      · apply div_nonneg
        · have : ((Spec.rank ts i t : Int) : K) + 1 ≤ ((numberTurns ws t.winding : Int) : K) := by exact_mod_cast hk
          push_cast at this ⊢
          linarith
        · have : (1 : K) ≤ ((numberTurns ws t.winding : Int) : K) := by exact_mod_cast le_of_lt hN
          push_cast
          linarith
      · omega
    · exact mul_nonneg (hr _) (by norm_num)

/-! ## What is reported for pairs of turns -/

theorem lastWritten_mem {α V : Type} [DecidableEq α] {m : List (α × V)} {k : α} {v : V} (h : lastWritten m k = some v) :
    (k, v) ∈ m := by
  unfold lastWritten at h
  cases hf : m.reverse.find? (fun q => q.1 = k) with
  | none => rw [hf] at h; cases h
  | some q =>
    rw [hf] at h
    injection h with h
    have hk := List.find?_some hf
    simp only [decide_eq_true_eq] at hk
    have hq := List.mem_of_find?_eq_some hf
    rw [← hk, ← h]
    exact List.mem_reverse.mp hq

theorem lastWritten_none {α V : Type} [DecidableEq α] {m : List (α × V)} {k : α} (h : lastWritten m k = none) :
    ∀ q ∈ m, q.1 ≠ k := by
  unfold lastWritten at h
  cases hf : m.reverse.find? (fun q => q.1 = k) with
  | some q => rw [hf] at h; cases h
  | none =>
    rw [List.find?_eq_none] at hf
    intro q hq
    simpa using hf q (List.mem_reverse.mpr hq)

theorem mem_turnMaps {c : Coil K} {a b : Nat} {x : K × K} (h : ((a, b), x) ∈ turnMaps c) :
    ∃ p ∈ windingPairs c.windings, ∃ y : K, ((a, b), y) ∈ coupled c p.1.name p.2.name ∧ x.1 = 1 / 2 * y * x.2 ^ 2 := by
  unfold turnMaps at h
  rw [List.mem_flatMap] at h
  obtain ⟨p, hp, h⟩ := h
  simp only [] at h
  obtain ⟨q, hq, he⟩ := List.mem_map.mp h
  injection he with h1 h2
  refine ⟨p, hp, q.2, by rw [← h1]; exact hq, ?_⟩
  rw [← h2]

/-- Both orders of two different turns are never in the maps. -/
theorem turnMaps_one_order {c : Coil K} {a b : Nat} {x y : K × K} (h1 : ((a, b), x) ∈ turnMaps c)
    (h2 : ((b, a), y) ∈ turnMaps c) : a = b := by
  obtain ⟨p, hp, u, hu, -⟩ := mem_turnMaps h1
  obtain ⟨q, hq, v, hv, -⟩ := mem_turnMaps h2
  have m1 := mem_coupled hu
  have m2 := mem_coupled hv
  simp only [] at m1 m2
  have name_eq : ∀ {i : Nat} {s t : String}, i ∈ turnsOf c.turns s → i ∈ turnsOf c.turns t → s = t := by
    intro i s t hs ht
    by_contra hne
    exact turnsOf_disjoint hne i hs ht
  have e1 : p.1.name = q.2.name := name_eq m1.1 m2.2.1
  have e2 : p.2.name = q.1.name := name_eq m1.2.1 m2.1
  have hpq : p = q := by
    unfold windingPairs at hp hq
    apply visit_unique hp hq
    right
    simp only [Prod.swap_prod_mk, Prod.mk.injEq]
    exact ⟨e2.symm, e1.symm⟩
  subst hpq
  unfold coupled at hu hv
  rw [List.mem_filterMap] at hu hv
  obtain ⟨s, hs, hs2⟩ := hu
  obtain ⟨t, ht, ht2⟩ := hv
  have k1 : s = (a, b) := by
    cases hc : c.cap s.1 s.2 with
    | none => simp [hc] at hs2
    | some z => simp only [hc, Option.some.injEq, Prod.mk.injEq] at hs2; exact hs2.1
  have k2 : t = (b, a) := by
    cases hc : c.cap t.1 t.2 with
    | none => simp [hc] at ht2
    | some z => simp only [hc, Option.some.injEq, Prod.mk.injEq] at ht2; exact ht2.1
  subst k1; subst k2
  have := visit_unique hs ht (Or.inr rfl)
  injection this

/-- C146: the energy reported for two turns does not depend on their order. -/
theorem energy_symmetric (c : Coil K) (a b : Nat) : reportedEnergy (turnMaps c) a b = reportedEnergy (turnMaps c) b a := by
  unfold reportedEnergy
  cases h1 : lastWritten (turnMaps c) (a, b) with
  | none => cases h2 : lastWritten (turnMaps c) (b, a) <;> simp
  | some x =>
    cases h2 : lastWritten (turnMaps c) (b, a) with
    | none => simp
    | some y =>
      have := turnMaps_one_order (lastWritten_mem h1) (lastWritten_mem h2)
      subst this
      rw [h1] at h2
      injection h2 with h2
      simp [h2]

/-- C146: the voltage drop reported for two turns changes its sign with their order. -/
theorem drop_antisymmetric {c : Coil K} (hself : ∀ a, c.cap a a = none) (a b : Nat) :
    reportedDrop (turnMaps c) a b = -reportedDrop (turnMaps c) b a := by
  unfold reportedDrop
  cases h1 : lastWritten (turnMaps c) (a, b) with
  | none => cases h2 : lastWritten (turnMaps c) (b, a) <;> simp
  | some x =>
    cases h2 : lastWritten (turnMaps c) (b, a) with
    | none => simp
    | some y =>
      exfalso
      have := turnMaps_one_order (lastWritten_mem h1) (lastWritten_mem h2)
      subst this
      obtain ⟨p, -, u, hu, -⟩ := mem_turnMaps (lastWritten_mem h1)
      have := (mem_coupled hu).2.2
      simp only [] at this
      rw [hself] at this
      cases this

/-- C146: the energy reported is that of the capacitance of both turns at the voltage drop reported. -/
theorem energy_of_drop {c : Coil K} (hsym : ∀ a b, c.cap a b = c.cap b a) (a b : Nat) :
    reportedEnergy (turnMaps c) a b = 1 / 2 * Spec.capacitance c a b * reportedDrop (turnMaps c) a b ^ 2 := by
  have key : ∀ {a b : Nat} {x : K × K}, ((a, b), x) ∈ turnMaps c → x.1 = 1 / 2 * Spec.capacitance c a b * x.2 ^ 2 := by
    intro a b x h
    obtain ⟨p, -, y, hy, he⟩ := mem_turnMaps h
    have := (mem_coupled hy).2.2
    simp only [] at this
    rw [he, Spec.capacitance, this]
    rfl
  unfold reportedEnergy reportedDrop
  cases h1 : lastWritten (turnMaps c) (a, b) with
  | some x => exact key (lastWritten_mem h1)
  | none =>
    cases h2 : lastWritten (turnMaps c) (b, a) with
    | some y =>
      simp only []
      rw [key (lastWritten_mem h2)]
      unfold Spec.capacitance
      rw [hsym a b]
      ring
    | none => simp

/-! ## A winding in one layer -/

/-- C145: a winding of `N` turns of one wire, each of them only next to the one before and the one after, all with the same
capacitance, has that capacitance divided by `N - 1`: they are in series. -/
theorem chain_in_series {N : Nat} (hN : 2 ≤ N) {x v : K} (hv : 0 < v) :
    let c := coilOf [{ name := "a", turns := (N : Int) }] (fun _ => v) (List.replicate N ⟨"a", 0⟩)
      (fun i => if i = 0 then [1] else if i + 1 < N then [i - 1, i + 1] else [i - 1]) (fun _ _ => x) none
    pairCap c ⟨"a", (N : Int)⟩ ⟨"a", (N : Int)⟩ = .ok (x / ((N : K) - 1)) := by
  intro c
  have hturns : c.turns = List.replicate N ⟨"a", 0⟩ := rfl
  have isOf : ∀ i, Spec.IsOf c.turns "a" i ↔ i < N := by
    intro i
    rw [hturns]
    constructor
    · rintro ⟨t, ht, -⟩
      by_contra h
      rw [List.getElem?_eq_none (by simp; omega)] at ht
      cases ht
    · intro h
      exact ⟨⟨"a", 0⟩, by rw [List.getElem?_replicate, if_pos h], rfl⟩
  have rank : ∀ i, i < N → Spec.rank (List.replicate N (⟨"a", 0⟩ : Turn)) i ⟨"a", 0⟩ = i := by
    intro i hi
    unfold Spec.rank
    rw [List.take_replicate, List.filter_replicate]
    simp
    omega
  have hcast : (1 : K) < (N : K) := by exact_mod_cast hN
  have volt : ∀ i, i < N → c.volt i = v * (((N : K) - 1 - (i : K)) / ((N : K) - 1)) := by
    intro i hi
    have h := voltLoop_get [{ name := "a", turns := (N : Int) }] (fun _ => v) (List.replicate N ⟨"a", 0⟩) (fun _ => 0) i
      ⟨"a", 0⟩ (by rw [List.getElem?_replicate, if_pos hi])
    show (match (voltLoop [{ name := "a", turns := (N : Int) }] (fun _ => v) (fun _ => 0) (List.replicate N ⟨"a", 0⟩))[i]? with
      | some v => v.volt
      | none => 0) = _
    rw [h, rank i hi]
    have hn : numberTurns [{ name := "a", turns := (N : Int) }] "a" = (N : Int) := by simp [numberTurns]
    simp only [hn, Nat.zero_add]
    unfold turnVoltage
    rw [if_pos (by omega)]
    push_cast
    rfl
  have cap : ∀ a b, a < N → b < N → (c.cap a b = some x ∧ (b = a + 1 ∨ a = b + 1)) ∨ (c.cap a b = none ∧ b ≠ a + 1 ∧ a ≠ b + 1) := by
    intro a b ha hb
    have hc : c.cap = amongTurns (fun i => if i = 0 then [1] else if i + 1 < N then [i - 1, i + 1] else [i - 1])
      (fun _ _ => x) N := by
      show amongTurns _ _ (List.replicate N (⟨"a", 0⟩ : Turn)).length = _
      rw [List.length_replicate]
    have next : ∀ i, i < N → ∀ j, j < N →
        (j ∈ (if i = 0 then [1] else if i + 1 < N then [i - 1, i + 1] else [i - 1]) ↔ j = i + 1 ∨ i = j + 1) := by
      intro i hi j hj
      by_cases h0 : i = 0
      · rw [if_pos h0]; simp; omega
      · rw [if_neg h0]
        by_cases h1 : i + 1 < N
        · rw [if_pos h1]; simp; omega
        · rw [if_neg h1]; simp; omega
    rw [hc]
    by_cases h : b = a + 1 ∨ a = b + 1
    · left
      refine ⟨?_, h⟩
      rcases h with h | h
      · rw [among_turns_value _ _ (by omega) ha ((next a ha b hb).mpr (Or.inl h))]
      · rw [among_turns_symmetric, among_turns_value _ _ (by omega) hb ((next b hb a ha).mpr (Or.inl h))]
    · right
      refine ⟨?_, by omega, by omega⟩
      cases hcc : amongTurns (fun i => if i = 0 then [1] else if i + 1 < N then [i - 1, i + 1] else [i - 1])
        (fun _ _ => x) N a b with
      | none => rfl
      | some y =>
        exfalso
        rcases (among_turns_iff _ _ _ _ _).mp ⟨y, hcc⟩ with h2 | h2
        · have := (next a ha b hb).mp h2.2; omega
        · have := (next b hb a ha).mp h2.2; omega
  have hself : ∀ a, c.cap a a = none := by
    intro a
    refine among_turns_self (near := fun i => if i = 0 then [1] else if i + 1 < N then [i - 1, i + 1] else [i - 1]) ?_
      (fun _ _ => x) _ a
    intro i hi
    by_cases h0 : i = 0
    · rw [if_pos h0] at hi; simp at hi; omega
    · rw [if_neg h0] at hi
      by_cases h1 : i + 1 < N
      · rw [if_pos h1] at hi; simp at hi; omega
      · rw [if_neg h1] at hi; simp at hi; omega
  have hd : (0 : K) < (N : K) - 1 := by linarith
  have top : Spec.Top c "a" v := by
    refine ⟨⟨0, (isOf 0).mpr (by omega), ?_⟩, ?_⟩
    · rw [volt 0 (by omega)]
      field_simp
      push_cast
      ring
    · intro i hi
      have hi := (isOf i).mp hi
      rw [volt i hi]
      have : ((N : K) - 1 - (i : K)) / ((N : K) - 1) ≤ 1 := by
        rw [div_le_one hd]
        have : (0 : K) ≤ (i : K) := Nat.cast_nonneg i
        linarith
      nlinarith
  have bottom : Spec.Bottom c "a" 0 := by
    refine ⟨⟨N - 1, (isOf _).mpr (by omega), ?_⟩, ?_⟩
    · rw [volt (N - 1) (by omega)]
      have : ((N - 1 : Nat) : K) = (N : K) - 1 := by push_cast [Nat.cast_sub (by omega : 1 ≤ N)]; ring
      rw [this]
      simp
    · intro i hi
      have hi := (isOf i).mp hi
      rw [volt i hi]
      apply mul_nonneg (le_of_lt hv)
      apply div_nonneg _ (le_of_lt hd)
      have : ((i : K)) + 1 ≤ (N : K) := by exact_mod_cast hi
      linarith
  have e := self_value_partial (w := ⟨"a", (N : Int)⟩) hself top bottom hv
    ⟨0, 1, x, (isOf 0).mpr (by omega), (isOf 1).mpr (by omega), by omega, by
      rcases cap 0 1 (by omega) (by omega) with h | h
      · exact h.1
      · exact absurd rfl h.2.1⟩
  rw [e]
  congr 1
  have hcore : Spec.coreEnergy c "a" = 0 := rfl
  have hsum : (Spec.overPairs c "a" fun a b => Spec.capacitance c a b * (c.volt a - c.volt b) ^ 2) =
      ((N : K) - 1) * (x * (v / ((N : K) - 1)) ^ 2) := by
    unfold Spec.overPairs
    have hlen : c.turns.length = N := by rw [hturns]; simp
    rw [hlen]
    have row : ∀ a ∈ range N, (∑ b ∈ range N, if Spec.IsOf c.turns "a" a ∧ Spec.IsOf c.turns "a" b ∧ a < b then
        Spec.capacitance c a b * (c.volt a - c.volt b) ^ 2 else 0) =
        if a + 1 < N then x * (v / ((N : K) - 1)) ^ 2 else 0 := by
      intro a ha
      have ha := Finset.mem_range.mp ha
      by_cases h1 : a + 1 < N
      · rw [if_pos h1, Finset.sum_eq_single (a + 1)]
        · rw [if_pos ⟨(isOf a).mpr ha, (isOf _).mpr h1, by omega⟩]
          rcases cap a (a + 1) ha h1 with h | h
          · rw [Spec.capacitance, h.1, volt a ha, volt (a + 1) h1]
            simp only [Option.getD_some]
            congr 1
            congr 1
            push_cast
            field_simp
            ring
          · exact absurd rfl h.2.1
        · intro b hb hne
          split
          · rename_i hh
            rcases cap a b ha (Finset.mem_range.mp hb) with h | h
            · exfalso; omega
            · rw [Spec.capacitance, h.1]; simp
          · rfl
        · intro h
          exact absurd (Finset.mem_range.mpr h1) h
      · rw [if_neg h1]
        apply Finset.sum_eq_zero
        intro b hb
        rw [if_neg]
        rintro ⟨-, -, h⟩
        have := Finset.mem_range.mp hb
        omega
    rw [Finset.sum_congr rfl row]
    generalize x * (v / ((N : K) - 1)) ^ 2 = y
    have hN' : range N = range ((N - 1) + 1) := by congr 1; omega
    rw [hN', Finset.sum_range_succ]
    rw [if_neg (by omega), add_zero, Finset.sum_congr rfl (g := fun _ => y)]
    · rw [Finset.sum_const, Finset.card_range, nsmul_eq_mul]
      congr 1
      push_cast [Nat.cast_sub (by omega : 1 ≤ N)]
      ring
    · intro a ha
      have := Finset.mem_range.mp ha
      rw [if_pos (by omega)]
  show ((Spec.overPairs c "a" fun a b => Spec.capacitance c a b * (c.volt a - c.volt b) ^ 2) +
    2 * Spec.coreEnergy c "a") / (v - 0) ^ 2 = _
  rw [hsum, hcore]
  field_simp
  ring

/-! ## Findings -/

/-- Turns in the order of the list, each next to the one before and the one after. -/
def row (n : Nat) (i : Nat) : List Nat := (if i = 0 then [] else [i - 1]) ++ (if i + 1 < n then [i + 1] else [])

/-- What is computed for a pair, as a number. -/
def valueOf (r : Except Err ℚ) : Option ℚ :=
  match r with
  | .ok x => some x
  | .error _ => none

/-- The voltages taken when none are given. -/
def defaults (ws : List Winding) : String → ℚ := readMap (defaultRms ws)

/-- C145 does not hold as a user would read it: the capacitance between two windings depends on which is listed first. Two turns of
`a` and one of `b`, in a row, with a capacitance of 1 between neighbours and the voltages taken by default. -/
theorem order_of_windings_matters :
    ∃ (a b : Winding) (ts : List Turn) (x y : ℚ), a.name ≠ b.name ∧
      ts = [⟨a.name, 0⟩, ⟨a.name, 0⟩, ⟨b.name, 0⟩] ∧
      valueOf (pairCap (coilOf [a, b] (defaults [a, b]) ts (row 3) (fun _ _ => 1) none) a b) = some x ∧
      valueOf (pairCap (coilOf [b, a] (defaults [b, a]) ts (row 3) (fun _ _ => 1) none) b a) = some y ∧
      x ≠ y := by
  refine ⟨⟨"a", 2⟩, ⟨"b", 1⟩, _, 121 / 361, 169 / 841, by decide, rfl, ?_, ?_, by norm_num⟩
  · decide +kernel
  · decide +kernel

/-- C145: a winding whose turns have others between them has no capacitance of its own, although the energy stored between its
turns and the core is not zero: it is computed and left out. Turns of two windings one after the other. -/
theorem spread_winding_loses_core :
    ∃ (ws : List Winding) (ts : List Turn) (a : Winding) (toCore : Nat → ℚ),
      ts = [⟨"a", 0⟩, ⟨"b", 0⟩, ⟨"a", 0⟩, ⟨"b", 0⟩] ∧ a ∈ ws ∧ (∀ i, toCore i = 1) ∧
      valueOf (pairCap (coilOf ws (defaults ws) ts (row 4) (fun _ _ => 1) (some toCore)) a a) = some 0 ∧
      0 < selfCoreEnergy toCore (coilOf ws (defaults ws) ts (row 4) (fun _ _ => 1) (some toCore)).volt a.name ts := by
  refine ⟨[⟨"a", 2⟩, ⟨"b", 2⟩], _, ⟨"a", 2⟩, fun _ => 1, rfl, by simp, fun _ => rfl, ?_, ?_⟩
  · decide +kernel
  · decide +kernel

/-- A coil which meets the hypotheses of `between_windings_value` and of `self_value_partial`: two turns of `a` and one of `b`. -/
def small : Coil ℚ := coilOf [⟨"a", 2⟩, ⟨"b", 1⟩] (defaults [⟨"a", 2⟩, ⟨"b", 1⟩]) [⟨"a", 0⟩, ⟨"a", 0⟩, ⟨"b", 0⟩] (row 3) (fun _ _ => 1) none

example : small.volt 0 = 10 ∧ small.volt 1 = 0 ∧ small.volt 2 = 5 / 2 ∧ small.cap 1 2 = some 1 ∧ small.cap 0 1 = some 1 ∧
    Spec.IsOf small.turns "a" 1 ∧ Spec.IsOf small.turns "b" 2 ∧ (0 : ℚ) < small.volt 1 + small.volt 2 ∧
    (dblMin : ℚ) / 1000 < ((2 : ℚ) / 1 * 10 + 5 / 2) / 2 := by
  refine ⟨by decide +kernel, by decide +kernel, by decide +kernel, by decide +kernel, by decide +kernel, by decide +kernel,
    by decide +kernel, by decide +kernel, by decide +kernel⟩

/-- C145: windings which are next to each other only where their voltage is 0 have no capacitance between them, whatever that of
their turns. -/
theorem no_voltage_no_capacitance {c : Coil K} {first second : Winding} (hne : first.name ≠ second.name)
    (hadj : Spec.Adjacent c first.name second.name)
    (hz : ∀ a b x, Spec.IsOf c.turns first.name a → Spec.IsOf c.turns second.name b → c.cap a b = some x →
      c.volt a + c.volt b = 0) : pairCap c first second = .ok 0 := by
  obtain ⟨a, b, x, ha, hb, hx⟩ := hadj
  obtain ⟨m1, h1⟩ := exists_top (c := c) ⟨a, ha⟩
  obtain ⟨m2, h2⟩ := exists_top (c := c) ⟨b, hb⟩
  have hc : coupled c first.name second.name ≠ [] := by
    intro h
    have := coupled_of_ne hne (isOf_iff.mp ha) (isOf_iff.mp hb) hx
    rw [h] at this
    cases this
  have he : energyOf c first.name second.name 0 = 0 := by
    rw [energyOf_between hne]
    have : (Spec.over c first.name second.name fun a b => Spec.capacitance c a b * (0 + c.volt a + c.volt b) ^ 2) = 0 := by
      apply Finset.sum_eq_zero
      intro a _
      apply Finset.sum_eq_zero
      intro b _
      split
      · rename_i hh
        simp only [Spec.capacitance]
        cases hcc : c.cap a b with
        | none => simp
        | some y =>
          have := hz a b y hh.1 hh.2 hcc
          simp only [Option.getD_some, zero_add, this]
          ring
      · rfl
    rw [this]
    ring
  have hr := loop_ends c first second 2 (le_refl _)
  rw [loop, iterate_of_coupled hc (max1_of_top h1) (min2_of_top hne h2), if_pos he] at hr
  simp only [if_pos hne] at hr
  rw [he] at hr
  have ht : thirdNode (multipole 0 (m1 - -m2 + 0) ((first.turns : K) / (second.turns : K))) m1 (-m2) = none := by
    cases h : thirdNode (multipole 0 (m1 - -m2 + 0) ((first.turns : K) / (second.turns : K))) m1 (-m2) with
    | none => rfl
    | some w =>
      exfalso
      unfold thirdNode multipole at h
      by_cases hd : m1 - -m2 + 0 = 0
      · simp only [if_pos hd] at h
        cases h
      · simp only [if_neg hd] at h
        simp at h
  rw [ht] at hr
  simp only [Option.some.injEq] at hr
  exact hr.symm

end Verif.StrayCapacitance
