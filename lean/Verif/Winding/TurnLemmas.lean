import Verif.Winding.Turns
import Verif.Winding.LayerStackProps

/-! # Lemmas about the winding of turns -/

namespace Verif.Winding

open Verif.Round

set_option linter.unusedSimpArgs false

/-! ## The order turns are wound in -/

theorem active_iff {T k : Nat} (hT : 0 < T) (hb : T ≤ 10 ^ 9) : roundFloat ((k : ℚ) / T) 10 > 0 ↔ 0 < k := by
  constructor
  · intro h
    rcases Nat.eq_zero_or_pos k with h0 | h0
    · subst h0
      rw [Nat.cast_zero, zero_div, roundFloat_zero] at h
      exact absurd h (lt_irrefl _)
    · exact h0
  · intro h
    have h1 := roundFloat_near ((k : ℚ) / T) 10
    rw [abs_le] at h1
    have hTq : (0 : ℚ) < T := by exact_mod_cast hT
    have hbq : (T : ℚ) ≤ 10 ^ 9 := by exact_mod_cast hb
    have hk : (1 : ℚ) ≤ k := by exact_mod_cast h
    have h2 : (1 : ℚ) / 10 ^ 9 ≤ (k : ℚ) / T := by
      rw [div_le_div_iff₀ (by norm_num) hTq]
      nlinarith
    norm_num at h1 h2 ⊢
    linarith [h1.1]

theorem nonzero_iff {T k : Nat} (hT : 0 < T) (hb : T ≤ 10 ^ 9) : roundFloat ((k : ℚ) / T) 10 ≠ 0 ↔ 0 < k := by
  rw [← active_iff hT hb]
  constructor
  · intro h
    exact lt_of_le_of_ne (roundFloat_nonneg' (by positivity) 10) (Ne.symm h)
  · intro h; exact h.ne'

theorem props_getD (T : Nat) (cs : List Nat) (j : Nat) : (props T cs).getD j 0 = ((cs.getD j 0 : ℕ) : ℚ) / T := by
  unfold props
  rw [List.getD, List.getD, List.getElem?_map]
  cases cs[j]? <;> simp

/-- The order of a layer with the parallels one after another. -/
def orderTurns (cs : List Nat) : List Nat :=
  ((List.range cs.length).map fun j => List.replicate (cs.getD j 0) j).flatten

/-- The order of a layer with the parallels together. -/
def orderParallels (c : Nat) (cs : List Nat) : List Nat :=
  (List.replicate c ((List.range cs.length).filter fun j => decide (0 < cs.getD j 0))).flatten

theorem sum_single (f : Nat → Nat) (j : Nat) : ∀ n, ((List.range n).map fun i => if i = j then f i else 0).sum =
    if j < n then f j else 0
  | 0 => by simp
  | n + 1 => by
    rw [List.range_succ, List.map_append, List.sum_append, sum_single f j n]
    simp only [List.map_cons, List.map_nil, List.sum_cons, List.sum_nil, Nat.add_zero]
    by_cases h1 : j < n
    · rw [if_pos h1, if_neg (by omega), if_pos (by omega)]
      omega
    · by_cases h2 : n = j
      · subst h2; simp
      · rw [if_neg h1, if_neg h2, if_neg (by omega)]

theorem orderTurns_count (cs : List Nat) (j : Nat) : (orderTurns cs).count j = cs.getD j 0 := by
  unfold orderTurns
  rw [List.count_flatten, List.map_map]
  have : (List.count j ∘ fun i => List.replicate (cs.getD i 0) i) = fun i => if i = j then cs.getD i 0 else 0 := by
    funext i
    simp only [Function.comp_apply, List.count_replicate, beq_iff_eq]
  rw [this, sum_single]
  by_cases h : j < cs.length
  · rw [if_pos h]
  · rw [if_neg h]
    have : cs[j]? = none := List.getElem?_eq_none (by omega)
    simp [List.getD, this]

theorem orderTurns_length (cs : List Nat) : (orderTurns cs).length = cs.sum := by
  unfold orderTurns
  rw [List.length_flatten, List.map_map]
  have : (List.length ∘ fun i => List.replicate (cs.getD i 0) i) = fun i => cs.getD i 0 := by
    funext i; simp
  rw [this]
  have := sum_range_getD cs
  have e : (((List.range cs.length).map fun j => ((cs.getD j 0 : ℕ) : ℤ)).sum) =
      ((((List.range cs.length).map fun j => cs.getD j 0).sum : ℕ) : ℤ) := by
    induction (List.range cs.length) with
    | nil => rfl
    | cons a l ih => simp only [List.map_cons, List.sum_cons, ih]; push_cast; rfl
  rw [e] at this
  exact_mod_cast this

/-- The parallels present have the same number of turns. -/
def EvenCounts (c : Nat) (cs : List Nat) : Prop := ∀ k ∈ cs, k = 0 ∨ k = c

theorem evenCounts_getD {c : Nat} {cs : List Nat} (h : EvenCounts c cs) (j : Nat) : cs.getD j 0 = 0 ∨ cs.getD j 0 = c := by
  rw [List.getD]
  cases hj : cs[j]? with
  | none => left; rfl
  | some k => exact h k (List.mem_of_getElem? hj)

theorem orderParallels_count {c : Nat} {cs : List Nat} (h : EvenCounts c cs) (j : Nat) :
    (orderParallels c cs).count j = cs.getD j 0 := by
  unfold orderParallels
  rw [List.count_flatten, List.map_replicate, List.sum_replicate, smul_eq_mul]
  have hj : List.count j ((List.range cs.length).filter fun j => decide (0 < cs.getD j 0)) =
      if 0 < cs.getD j 0 then 1 else 0 := by
    by_cases hp : 0 < cs.getD j 0
    · rw [if_pos hp, List.count_filter (by simpa using hp)]
      rw [List.count_eq_one_of_mem List.nodup_range]
      rw [List.mem_range]
      by_contra hc
      have : cs[j]? = none := List.getElem?_eq_none (by omega)
      simp [List.getD, this] at hp
    · rw [if_neg hp]
      rw [List.count_eq_zero]
      intro hm
      have := (List.mem_filter.mp hm).2
      simp only [decide_eq_true_eq] at this
      exact hp this
  rw [hj]
  rcases evenCounts_getD h j with h0 | h0
  · rw [h0]; simp
  · by_cases hp : 0 < cs.getD j 0
    · rw [if_pos hp, h0]; omega
    · rw [if_neg hp]; omega

theorem filter_length_range (cs : List Nat) (f : Nat → Bool) :
    ((List.range cs.length).filter fun j => f (cs.getD j 0)).length = (cs.filter f).length := by
  induction cs with
  | nil => rfl
  | cons a cs ih =>
    rw [List.length_cons, List.range_succ_eq_map, List.filter_cons, List.filter_cons, List.filter_map, List.getD_cons_zero]
    have : ((fun j => f ((a :: cs).getD j 0)) ∘ Nat.succ) = fun j => f (cs.getD j 0) := by
      funext j; simp
    rw [this]
    by_cases h : f a = true
    · rw [if_pos h, if_pos h, List.length_cons, List.length_cons, List.length_map, ih]
    · rw [if_neg h, if_neg h, List.length_map, ih]

theorem even_sum {c : Nat} {cs : List Nat} (h : EvenCounts c cs) :
    cs.sum = c * (cs.filter fun k => decide (0 < k)).length := by
  induction cs with
  | nil => simp
  | cons a cs ih =>
    have ih' := ih fun k hk => h k (List.mem_cons_of_mem _ hk)
    rw [List.sum_cons, ih', List.filter_cons]
    rcases h a List.mem_cons_self with h0 | h0
    · subst h0; simp
    · subst h0
      by_cases hp : 0 < a
      · simp only [hp, decide_true, if_true, List.length_cons, Nat.mul_succ]; omega
      · have : a = 0 := by omega
        subst this; simp

theorem orderParallels_length {c : Nat} {cs : List Nat} (h : EvenCounts c cs) : (orderParallels c cs).length = cs.sum := by
  unfold orderParallels
  rw [List.length_flatten, List.map_replicate, List.sum_replicate, smul_eq_mul,
    filter_length_range cs fun k => decide (0 < k), even_sum h]

theorem filter_props {T : Nat} (hT : 0 < T) (hb : T ≤ 10 ^ 9) (cs : List Nat) :
    ((props T cs).filter fun p => decide (roundFloat p 10 > 0)) = props T (cs.filter fun k => decide (0 < k)) := by
  unfold props
  rw [List.filter_map]
  congr 1
  apply List.filter_congr
  intro k _
  simp only [Function.comp_apply, active_iff hT hb]

theorem nfilar_even {T : Nat} (hT : 0 < T) (hb : T < 10 ^ 9) {cs : List Nat} (h : nfilar (props T cs) = true) :
    ∃ c, EvenCounts c cs := by
  unfold nfilar at h
  rw [filter_props hT hb.le] at h
  have hTq : (0 : ℚ) < T := by exact_mod_cast hT
  have hbq : (T : ℚ) < 10 ^ 9 := by exact_mod_cast hb
  cases hf : (cs.filter fun k => decide (0 < k)) with
  | nil => rw [hf] at h; simp [props] at h
  | cons c rest =>
    rw [hf] at h
    simp only [props, List.map_cons, Bool.and_eq_true, decide_eq_true_eq, List.all_eq_true] at h
    refine ⟨c, fun k hk => ?_⟩
    by_cases h0 : k = 0
    · exact .inl h0
    right
    have hm : k ∈ c :: rest := by
      rw [← hf]
      exact List.mem_filter.mpr ⟨hk, by simpa using Nat.pos_of_ne_zero h0⟩
    rcases List.mem_cons.mp hm with rfl | hm
    · rfl
    · have := h.2 ((k : ℚ) / T) (List.mem_map.mpr ⟨k, hm, rfl⟩)
      rw [← sub_div, abs_div, abs_of_pos hTq, div_le_div_iff₀ hTq (by norm_num), one_mul] at this
      have h1 : |(k : ℚ) - c| < 1 := by
        by_contra hc
        push Not at hc
        nlinarith
      have h2 : |(k : ℤ) - c| < 1 := by exact_mod_cast h1
      rw [abs_lt] at h2
      omega

theorem find_first {c : Nat} {cs : List Nat} (h : EvenCounts c cs) (hpos : 0 < cs.sum) :
    cs.find? (fun k => decide (0 < k)) = some c := by
  induction cs with
  | nil => simp at hpos
  | cons a cs ih =>
    rw [List.find?_cons]
    by_cases ha : 0 < a
    · simp only [ha, decide_true]
      rcases h a List.mem_cons_self with h0 | h0
      · omega
      · rw [h0]
    · simp only [ha, decide_false]
      apply ih fun k hk => h k (List.mem_cons_of_mem _ hk)
      simp only [List.sum_cons] at hpos
      omega

/-- A layer of whole turns, even if its parallels are wound together: what is wound. -/
theorem woundOrder_ok {env : TurnEnv} {l : LayerIn} {cs : List Nat} {T : Nat} (hTe : env.turns l.winding = T)
    (hT : 0 < T) (hb : T < 10 ^ 9)
    (hlen : cs.length = env.parallels l.winding) (hps : l.props = props T cs)
    (heven : l.style = some .parallels → (∃ c, EvenCounts c cs) ∧ 0 < cs.sum) :
    ∃ o, woundOrder env l = .ok o ∧ (∀ j, o.count j = cs.getD j 0) ∧ o.length = cs.sum := by
  unfold woundOrder
  simp only [hTe]
  rw [if_neg (by rw [hps]; simp [hlen])]
  have key : (∃ c, EvenCounts c cs) ∧ 0 < cs.sum →
      ∃ o, (match l.props.find? fun p => decide (roundFloat p 10 ≠ 0) with
        | none => Res.ub
        | some p => .ok (List.replicate (Round.round (p * T)).toNat
          ((List.range (env.parallels l.winding)).filter
            fun j => decide (roundFloat (l.props.getD j 0) 10 > 0))).flatten) = .ok o ∧
        (∀ j, o.count j = cs.getD j 0) ∧ o.length = cs.sum := by
    rintro ⟨⟨c, hc⟩, hpos⟩
    have hfind : (props T cs).find? (fun p => decide (roundFloat p 10 ≠ 0)) = some ((c : ℚ) / T) := by
      unfold props
      rw [List.find?_map]
      have : ((fun p => decide (roundFloat p 10 ≠ 0)) ∘ fun k : ℕ => (k : ℚ) / T) = fun k : ℕ => decide (0 < k) := by
        funext k
        simp only [Function.comp_apply, nonzero_iff hT hb.le]
      rw [this, find_first hc hpos]
      rfl
    rw [hps, hfind]
    simp only [round_div_mul hT, Int.toNat_natCast]
    refine ⟨_, rfl, ?_⟩
    have e : ((List.range (env.parallels l.winding)).filter
        fun j => decide (roundFloat ((props T cs).getD j 0) 10 > 0)) =
        (List.range cs.length).filter fun j => decide (0 < cs.getD j 0) := by
      rw [hlen]
      apply List.filter_congr
      intro j _
      rw [props_getD]
      simp only [active_iff hT hb.le]
    rw [e]
    exact ⟨fun j => orderParallels_count hc j, orderParallels_length hc⟩
  by_cases hst : l.style = some .parallels
  · rw [if_neg (by rw [hst]; simp)]
    exact key (heven hst)
  · by_cases hn : env.real = true ∧ nfilar l.props = true
    · rw [if_neg (by intro h; exact h.2 hn)]
      apply key
      have hn2 := hn.2
      rw [hps] at hn2
      refine ⟨nfilar_even hT hb hn2, ?_⟩
      by_contra hz
      have hz0 : cs.sum = 0 := by omega
      have hall := List.sum_eq_zero_iff.mp hz0
      unfold nfilar at hn2
      rw [filter_props hT hb.le] at hn2
      have : (cs.filter fun k => decide (0 < k)) = [] := by
        rw [List.filter_eq_nil_iff]
        intro k hk
        simp [hall k hk]
      rw [this] at hn2
      simp [props] at hn2
    · have hs : l.style.getD .turns = .turns := by
        cases h : l.style with
        | none => rfl
        | some st =>
          cases st with
          | turns => rfl
          | parallels => exact absurd h hst
      rw [if_pos ⟨hs, hn⟩]
      refine ⟨_, rfl, ?_⟩
      have e : ((List.range (env.parallels l.winding)).map fun j =>
          List.replicate (Round.round (l.props.getD j 0 * T)).toNat j).flatten = orderTurns cs := by
        unfold orderTurns
        rw [hlen]
        congr 1
        apply List.map_congr_left
        intro j _
        rw [hps, props_getD, round_div_mul hT, Int.toNat_natCast]
      rw [e]
      exact ⟨fun j => orderTurns_count cs j, orderTurns_length cs⟩

/-! ## Placing turns -/

/-- The numbers of the turns of a parallel of a winding, in the order they are listed. -/
def numbers (w j : Nat) (ts : List Turn) : List Nat :=
  (ts.filter fun t => decide (t.winding = w) && decide (t.parallel = j)).map (·.number)

theorem numbers_append (w j : Nat) (a b : List Turn) : numbers w j (a ++ b) = numbers w j a ++ numbers w j b := by
  simp [numbers]

theorem upd_self {α : Type} (f : Nat → α) (w : Nat) (a : α) : upd f w a w = a := by simp [upd]

theorem placeTurns_ok (env : TurnEnv) (l : LayerIn) (k : Nat) (p : Places) :
    ∀ (order : List Nat) (i : Nat) (count : Nat → Nat → Nat) (r : List Turn × (Nat → Nat → Nat)),
      placeTurns env l k p order i count = .ok r →
      r.1.map (·.parallel) = order ∧
      (∀ t ∈ r.1, t.winding = l.winding ∧ t.layer = k ∧ t.dims = l.wire) ∧
      (∀ w j, r.2 w j = count w j + if w = l.winding then order.count j else 0) ∧
      (∀ j, numbers l.winding j r.1 = List.range' (count l.winding j) (order.count j)) ∧
      (∀ m t, r.1[m]? = some t → p.spot l.orientation (i + m) = .ok t.centre)
  | [], i, count, r, h => by
    simp only [placeTurns, Res.ok.injEq] at h
    subst h
    refine ⟨rfl, by simp, by simp, fun j => by simp [numbers], by simp⟩
  | j₀ :: rest, i, count, r, h => by
    rw [placeTurns] at h
    obtain ⟨c, hc, h⟩ := bind_ok h
    split at h
    · obtain ⟨r', hr', h⟩ := bind_ok h
      simp only [Res.ok.injEq] at h
      subst h
      obtain ⟨h1, h2, h3, h4, h5⟩ := placeTurns_ok env l k p rest (i + 1) _ r' hr'
      refine ⟨by simp [h1], ?_, ?_, ?_, ?_⟩
      · intro t ht
        rcases List.mem_cons.mp ht with rfl | ht
        · exact ⟨rfl, rfl, rfl⟩
        · exact h2 t ht
      · intro w j
        simp only [h3]
        by_cases hw : w = l.winding
        · subst hw
          simp only [upd_self, if_true, List.count_cons]
          by_cases hj : j = j₀
          · subst hj; simp only [upd_self, beq_self_eq_true, if_true]; omega
          · rw [upd_other _ _ hj, if_neg (by simpa using fun h => hj h.symm)]; omega
        · rw [upd_other _ _ hw, if_neg hw, if_neg hw]
      · intro j
        have h4' := h4 j
        simp only [upd_self] at h4'
        unfold numbers at h4' ⊢
        rw [List.filter_cons]
        by_cases hj : j = j₀
        · subst hj
          simp only [decide_true, Bool.and_self, if_true, List.map_cons, List.count_cons, beq_self_eq_true, h4',
            upd_self, List.range'_succ]
        · have hj' : j₀ ≠ j := fun h => hj h.symm
          simp only [hj', decide_true, decide_false, Bool.and_false, Bool.false_eq_true, if_false, h4',
            upd_other _ _ hj, List.count_cons, beq_iff_eq, Nat.add_zero]
      · intro m t hm
        cases m with
        | zero =>
          simp only [List.getElem?_cons_zero, Option.some.injEq] at hm
          subst hm
          exact hc
        | succ m =>
          rw [List.getElem?_cons_succ] at hm
          have := h5 m t hm
          rw [Nat.add_assoc, Nat.add_comm 1 m] at this
          exact this
    · simp at h

theorem placeTurns_total {env : TurnEnv} {l : LayerIn} {k : Nat} {p : Places}
    (hl : ∀ x, env.hasLength l.sec x = true) :
    ∀ (order : List Nat) (i : Nat) (count : Nat → Nat → Nat),
      (∀ m < order.length, ∃ c, p.spot l.orientation (i + m) = .ok c) →
      ∃ r, placeTurns env l k p order i count = .ok r
  | [], i, count, _ => ⟨_, rfl⟩
  | j :: rest, i, count, h => by
    rw [placeTurns]
    obtain ⟨c, hc⟩ := h 0 (by simp)
    rw [Nat.add_zero] at hc
    obtain ⟨r, hr⟩ := placeTurns_total hl rest (i + 1)
      (upd count l.winding (upd (count l.winding) j (count l.winding j + 1))) (fun m hm => by
        obtain ⟨c, hc⟩ := h (m + 1) (by simpa using hm)
        exact ⟨c, by rw [Nat.add_assoc, Nat.add_comm 1 m]; exact hc⟩)
    rw [hc, Res.bind_eq_ok, if_pos (hl _), hr, Res.bind_eq_ok]
    exact ⟨_, rfl⟩

theorem spreadStations_length (centre length wire : ℚ) (n bundle : Nat) :
    (spreadStations centre length wire n bundle).length = n := by
  simp [spreadStations]

theorem placesOf_stations (l : LayerIn) (n : Nat) :
    (placesOf l n).stations = [] ∨ (placesOf l n).stations.length = n := by
  unfold placesOf
  cases l.orientation <;> cases l.alignment <;> simp [spreadStations_length]

/-- The places a layer uses. -/
def usedPlaces (l : LayerIn) (n : Nat) (top : Bool) : Places :=
  if top = true then placesOf l n else (placesOf l n).reversed n

theorem usedPlaces_stations (l : LayerIn) (n : Nat) (top : Bool) :
    (usedPlaces l n top).stations = [] ∨ (usedPlaces l n top).stations.length = n := by
  unfold usedPlaces
  cases top
  · rw [if_neg (by simp)]
    rcases placesOf_stations l n with h | h
    · left; simp [Places.reversed, h]
    · right; simp [Places.reversed, h]
  · rw [if_pos rfl]; exact placesOf_stations l n

theorem spot_total {p : Places} {o : Orientation} {n m : Nat} (h : p.stations = [] ∨ p.stations.length = n) (hm : m < n) :
    ∃ c, p.spot o m = .ok c := by
  unfold Places.spot
  by_cases h0 : p.stations = []
  · rw [if_pos h0]; exact ⟨_, rfl⟩
  · rw [if_neg h0]
    rcases h with h | h
    · exact absurd h h0
    · rw [List.getElem?_eq_getElem (by omega)]
      cases o <;> exact ⟨_, rfl⟩

end Verif.Winding
