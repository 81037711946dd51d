import Verif.Thermal.Flow

/-!
# Temperatures of a network at some resistances

Properties C110 (heat balances), C111 (which networks are refused) and C112 (bounds and comparisons).
-/

set_option linter.unusedSectionVars false
set_option linter.unusedSimpArgs false

namespace Verif.Thermal

open Finset

variable {K : Type} [Field K] [LinearOrder K] [IsStrictOrderedRing K] {n : Nat}

/-! ## C110 -/

/-- C110: when temperatures are found, given temperatures are kept, every other node sheds through its connections the very losses
    it was given, and no other temperatures would. -/
theorem heat_balance {ls : List (Link n K)} {given : Fin n → Option K} {power t : Vec n K} (h : solveOnce ls given power = .ok t) :
    Balanced ls given power t ∧ ∀ u, Balanced ls given power u → u = t := by
  obtain ⟨h1, h2⟩ := solveOnce_ok h
  exact ⟨h1, fun u hu => balanced_unique h2 hu h1⟩

/-- C110: all the losses come out where temperatures are given. -/
theorem losses_come_out {ls : List (Link n K)} {given : Fin n → Option K} {power t : Vec n K} (h : solveOnce ls given power = .ok t) :
    ∑ v with given v = none, power v = ∑ v with given v ≠ none, -outflow ls t v := by
  obtain ⟨h1, _⟩ := solveOnce_ok h
  have htot := outflow_total ls t
  rw [← Finset.sum_filter_add_sum_filter_not _ (fun v => given v = none)] at htot
  have hfree : ∑ v with given v = none, outflow ls t v = ∑ v with given v = none, power v := by
    refine Finset.sum_congr rfl fun v hv => ?_
    have hv := (Finset.mem_filter.mp hv).2
    have := h1 v
    rw [hv] at this
    exact this
  rw [hfree] at htot
  rw [Finset.sum_neg_distrib]
  linarith

/-- A core of two parts, the second open to air at 20 degrees; 5 W in the first one. -/
def twoParts : List (Link 3 ℚ) := [⟨0, 1, 1⟩, ⟨1, 2, 1 / 4⟩]

/-- The temperatures found, if any. -/
def found (r : Res (Vec n K)) : Option (List K) :=
  match r with
  | .ok t => some (List.ofFn t)
  | _ => none

example : found (solveOnce twoParts (fun v => if v = 2 then some 20 else none) (fun v => if v = 0 then 5 else 0)) = some [45, 40, 20] := by
  decide +kernel

/-! ## C111 -/

theorem mapM_links {es : List (Element K)} {ls : List (Link n K)} (h : es.mapM (toLink n) = some ls) :
    ∀ l ∈ ls, ∃ e ∈ es, toLink n e = some l := by
  induction es generalizing ls with
  | nil => simp at h; subst h; simp
  | cons e es ih =>
    rw [List.mapM_cons] at h
    cases he : toLink n e with
    | none => rw [he] at h; simp at h
    | some l =>
      rw [he] at h
      cases hr : es.mapM (toLink n) with
      | none => rw [hr] at h; simp at h
      | some ls' =>
        rw [hr] at h
        simp at h
        subst h
        intro l' hl'
        rcases List.mem_cons.mp hl' with rfl | hl'
        · exact ⟨e, by simp, he⟩
        · obtain ⟨e', he', h'⟩ := ih hr l' hl'
          exact ⟨e', by simp [he'], h'⟩

theorem toLink_g {e : Element K} {l : Link n K} (h : toLink n e = some l) : l.g = conductance e := by
  unfold toLink at h
  split at h
  · simp at h; rw [← h]
  · simp at h

theorem conductance_pos (e : Element K) : 0 < conductance e := by
  unfold conductance
  exact one_div_pos.mpr (lt_of_lt_of_le (by positivity) (le_max_right _ _))

/-- C111: connections always conduct, whatever their resistances are. -/
theorem links_conduct {es : List (Element K)} {ls : List (Link n K)} (h : es.mapM (toLink n) = some ls) : Conducting ls := by
  intro l hl
  obtain ⟨e, _, he⟩ := mapM_links h l hl
  rw [toLink_g he]
  exact conductance_pos e

/-- C111: a network in which every node has a path to a given temperature is solved. Resistances are at most `r`, paths have at
    most `k` connections; the bound leaves room for, say, a thousand nodes and resistances of a hundred million kelvin per watt. -/
theorem connected_solved {es : List (Element K)} {ls : List (Link n K)} {given : Fin n → Option K} {power : Vec n K} {r : K} {k : Nat}
    (hn : n ≠ 0) (hls : es.mapM (toLink n) = some ls) (hr0 : 1 / 10 ^ 9 ≤ r) (hr1 : r ≤ 10 ^ 12) (hr : ∀ e ∈ es, e.resistance ≤ r)
    (hk : 1 + (k : K) * n * r < 10 ^ 15) (hp : ∀ v, ∃ j ≤ k, Reaches ls given j v) : ∃ t, solveOnce ls given power = .ok t := by
  have hr00 : (0 : K) < r := lt_of_lt_of_le (by positivity) hr0
  have hg : ∀ l ∈ ls, 1 / r ≤ l.g := by
    intro l hl
    obtain ⟨e, he, hl'⟩ := mapM_links hls l hl
    rw [toLink_g hl']
    unfold conductance
    exact one_div_le_one_div_of_le (lt_of_lt_of_le (by positivity) (le_max_right _ _)) (max_le (hr e he) hr0)
  have hγ : (0 : K) < 1 / r := one_div_pos.mpr hr00
  unfold solveOnce
  rw [if_neg]
  · cases hs : solve (lhs ls given) (rhs given power) with
    | some t => exact ⟨t, rfl⟩
    | none =>
      exfalso
      obtain ⟨c, x, hx, hsm⟩ := solve_none hn hs
      obtain ⟨j, hj, hreach⟩ := hp c
      have h1 := climb (x := x) (ε := tiny) hγ tiny_pos.le hg
        (fun v hv => by have := hsm v; rw [linked_lhs, hv] at this; exact (lt_of_le_of_lt (le_abs_self _) this).le)
        (fun v hv => by have := hsm v; rw [linked_lhs, if_pos hv] at this; exact lt_of_le_of_lt (le_abs_self _) this) hreach
      rw [hx] at h1
      have h2 : (j : K) * ((n : K) * tiny / (1 / r)) ≤ (k : K) * ((n : K) * tiny / (1 / r)) := by
        have : 0 ≤ (n : K) * tiny / (1 / r) := by have := tiny_pos (K := K); positivity
        exact mul_le_mul_of_nonneg_right (by exact_mod_cast hj) this
      have h3 : tiny + (k : K) * ((n : K) * tiny / (1 / r)) = (1 + (k : K) * n * r) / 10 ^ 15 := by
        unfold tiny; field_simp
      have h4 : (1 + (k : K) * n * r) / 10 ^ 15 < 1 := by rw [div_lt_one (by positivity)]; exact hk
      linarith
  · simp only [List.any_eq_true, not_exists, not_and, Bool.and_eq_true, decide_eq_true_eq, Option.isNone_iff_eq_none]
    rintro v - hv
    obtain ⟨j, _, hreach⟩ := hp v
    obtain ⟨w, hw, hjoin⟩ := neighbour hreach hv
    have h1 := diagonal_ge hγ hg hw hjoin
    have h2 : lhs ls given v v = conductances ls v v := by simp [lhs, hv]
    rw [h2, not_lt]
    refine le_trans ?_ h1
    exact one_div_le_one_div_of_le hr00 hr1

/-- C111: a network with a node that has no path to a given temperature is refused: temperatures of a part that heat cannot leave
    are never made up. -/
theorem cut_off_refused {ls : List (Link n K)} {given : Fin n → Option K} (power : Vec n K) {v : Fin n}
    (hv : ∀ k, ¬ Reaches ls given k v) :
    solveOnce ls given power = .throws .disconnected ∨ solveOnce ls given power = .throws .singular := by
  cases hs : solveOnce ls given power with
  | ok t =>
    exfalso
    obtain ⟨_, hd⟩ := solveOnce_ok hs
    classical
    have := definite_kernel hd (z := fun u => if ∃ k, Reaches ls given k u then 0 else 1) ?_ ?_ v
    · rw [if_neg (by simpa using hv)] at this
      exact one_ne_zero this
    · intro l hl
      have hij : (∃ k, Reaches ls given k l.i) ↔ ∃ k, Reaches ls given k l.j :=
        ⟨fun ⟨k, h⟩ => ⟨k + 1, .step ⟨l, hl, .inr ⟨rfl, rfl⟩⟩ h⟩, fun ⟨k, h⟩ => ⟨k + 1, .step ⟨l, hl, .inl ⟨rfl, rfl⟩⟩ h⟩⟩
      by_cases h : ∃ k, Reaches ls given k l.i
      · rw [if_pos h, if_pos (hij.mp h)]
      · rw [if_neg h, if_neg (fun h' => h (hij.mpr h'))]
    · intro u hu
      rw [if_pos ⟨0, .here hu⟩]
  | throws e =>
    unfold solveOnce at hs
    split at hs
    · simp at hs; subst hs; simp
    · split at hs
      · simp at hs; subst hs; simp
      · simp at hs
  | nan =>
    unfold solveOnce at hs
    split at hs
    · simp at hs
    · split at hs <;> simp at hs
  | ub =>
    unfold solveOnce at hs
    split at hs
    · simp at hs
    · split at hs <;> simp at hs

/-- The nodes of the two parts all have a path of at most two connections. -/
example : ∀ v : Fin 3, ∃ j ≤ 2, Reaches twoParts (fun v => if v = 2 then some (20 : ℚ) else none) j v := by
  intro v
  have h2 : Reaches twoParts (fun v => if v = 2 then some (20 : ℚ) else none) 0 2 := .here (by simp)
  have h1 : Reaches twoParts (fun v => if v = 2 then some (20 : ℚ) else none) 1 1 :=
    .step ⟨⟨1, 2, 1 / 4⟩, by simp [twoParts], .inl ⟨rfl, rfl⟩⟩ h2
  have h0 : Reaches twoParts (fun v => if v = 2 then some (20 : ℚ) else none) 2 0 :=
    .step ⟨⟨0, 1, 1⟩, by simp [twoParts], .inl ⟨rfl, rfl⟩⟩ h1
  match v with
  | 0 => exact ⟨2, le_refl _, h0⟩
  | 1 => exact ⟨1, by omega, h1⟩
  | 2 => exact ⟨0, by omega, h2⟩

/-- Two parts that touch each other and nothing else. -/
example : solveOnce (n := 3) ([⟨0, 1, 1⟩] : List (Link 3 ℚ)) (fun v => if v = 2 then some 20 else none) (fun _ => 1) =
    .throws .singular := by
  decide +kernel

/-- A part that touches nothing. -/
example : solveOnce (n := 3) ([⟨1, 2, 1⟩] : List (Link 3 ℚ)) (fun v => if v = 2 then some 20 else none) (fun _ => 1) =
    .throws .disconnected := by
  decide +kernel

/-! ## C112 -/

/-- C112: where there are losses, nothing is colder than the coldest given temperature. -/
theorem no_colder {ls : List (Link n K)} {given : Fin n → Option K} {power t : Vec n K} (hc : Conducting ls)
    (h : solveOnce ls given power = .ok t) {m : K} (hp : ∀ v, given v = none → 0 ≤ power v) (hm : ∀ v x, given v = some x → m ≤ x)
    (v : Fin n) : m ≤ t v := by
  obtain ⟨hb, hd⟩ := solveOnce_ok h
  refine comparison hc hd (t := fun _ => m) (u := t) (fun v hv => ?_) (fun v hv => ?_) v
  · rw [outflow_const ls v fun _ _ => rfl]
    have := hb v
    rw [hv] at this
    rw [this]
    exact hp v hv
  · obtain ⟨x, hx⟩ := Option.isSome_iff_exists.mp hv
    have := hb v
    rw [hx] at this
    rw [this]
    exact hm v x hx

/-- C112: without losses, nothing is hotter than the hottest given temperature. -/
theorem no_hotter {ls : List (Link n K)} {given : Fin n → Option K} {power t : Vec n K} (hc : Conducting ls)
    (h : solveOnce ls given power = .ok t) {m : K} (hp : ∀ v, given v = none → power v ≤ 0) (hm : ∀ v x, given v = some x → x ≤ m)
    (v : Fin n) : t v ≤ m := by
  obtain ⟨hb, hd⟩ := solveOnce_ok h
  refine comparison hc hd (t := t) (u := fun _ => m) (fun v hv => ?_) (fun v hv => ?_) v
  · rw [outflow_const ls v (z := fun _ => m) fun _ _ => rfl]
    have := hb v
    rw [hv] at this
    rw [this]
    exact hp v hv
  · obtain ⟨x, hx⟩ := Option.isSome_iff_exists.mp hv
    have := hb v
    rw [hx] at this
    rw [this]
    exact hm v x hx

/-- C112: with more losses, or warmer surroundings, nothing gets colder. -/
theorem more_losses {ls : List (Link n K)} {given given' : Fin n → Option K} {power power' t t' : Vec n K} (hc : Conducting ls)
    (h : solveOnce ls given power = .ok t) (h' : solveOnce ls given' power' = .ok t')
    (hsame : ∀ v, (given v = none ∧ given' v = none ∧ power v ≤ power' v) ∨ ∃ x y, given v = some x ∧ given' v = some y ∧ x ≤ y)
    (v : Fin n) : t v ≤ t' v := by
  obtain ⟨hb, hd⟩ := solveOnce_ok h
  obtain ⟨hb', _⟩ := solveOnce_ok h'
  refine comparison hc hd (fun v hv => ?_) (fun v hv => ?_) v
  · have h1 := hb v
    have h2 := hb' v
    rcases hsame v with ⟨_, hv', hp⟩ | ⟨x, y, hx, _⟩
    · rw [hv] at h1
      rw [hv'] at h2
      rw [h1, h2]; exact hp
    · rw [hv] at hx; simp at hx
  · have h1 := hb v
    have h2 := hb' v
    rcases hsame v with ⟨hv', _⟩ | ⟨x, y, hx, hy, hxy⟩
    · rw [hv'] at hv; simp at hv
    · rw [hx] at h1
      rw [hy] at h2
      rw [h1, h2]; exact hxy

/-- A connection among the nodes there were. -/
def raiseLink (l : Link n K) : Link (n + 1) K := ⟨l.i.castSucc, l.j.castSucc, l.g⟩

theorem leaves_raise (t : Vec n K) (x : K) (v : Fin n) (l : Link n K) :
    leaves (Fin.snoc (α := fun _ => K) t x) v.castSucc (raiseLink l) = leaves t v l := by
  unfold leaves raiseLink
  simp only [Fin.snoc_castSucc, Fin.castSucc_inj]

theorem leaves_raise_last (t : Vec (n + 1) K) (l : Link n K) : leaves t (Fin.last n) (raiseLink l) = 0 := by
  unfold leaves raiseLink
  rw [if_neg (Fin.castSucc_lt_last _).ne, if_neg (Fin.castSucc_lt_last _).ne, add_zero]

/-- C112: a heat sink on a node makes no node hotter, if that node is no colder than the air the heat sink stands in. -/
theorem sink_helps {ls : List (Link n K)} {given : Fin n → Option K} {power t : Vec n K} {t' : Vec (n + 1) K} {yoke air : Fin n}
    {g g' ambient : K} (hc : Conducting ls) (hg : 0 < g) (hg' : 0 < g') (ha : given air = some ambient)
    (h : solveOnce ls given power = .ok t)
    (h' : solveOnce (ls.map raiseLink ++ [⟨yoke.castSucc, Fin.last n, g⟩, ⟨Fin.last n, air.castSucc, g'⟩])
      (Fin.snoc (α := fun _ => Option K) given none) (Fin.snoc (α := fun _ => K) power 0) = .ok t')
    (hy : ambient ≤ t yoke) (v : Fin n) : t' v.castSucc ≤ t v := by
  obtain ⟨hb, _⟩ := solveOnce_ok h
  obtain ⟨hb', hd'⟩ := solveOnce_ok h'
  have hair : t air = ambient := by have := hb air; rw [ha] at this; exact this
  set θ : K := (g * t yoke + g' * ambient) / (g + g') with hθ
  have hsum : 0 < g + g' := by linarith
  have hθ1 : θ ≤ t yoke := by
    rw [hθ, div_le_iff₀ hsum]; nlinarith
  have hθ2 : ambient ≤ θ := by
    rw [hθ, le_div_iff₀ hsum]; nlinarith
  have hbal : (θ - t yoke) * g + (θ - ambient) * g' = 0 := by
    rw [hθ]; field_simp; ring
  have hold : ∀ v : Fin n, outflow (ls.map raiseLink ++ [⟨yoke.castSucc, Fin.last n, g⟩, ⟨Fin.last n, air.castSucc, g'⟩])
      (Fin.snoc (α := fun _ => K) t θ) v.castSucc =
      outflow ls t v + (if yoke = v then (t yoke - θ) * g else 0) + if air = v then (ambient - θ) * g' else 0 := by
    intro v
    unfold outflow
    rw [List.map_append, List.sum_append, List.map_map]
    have : (leaves (Fin.snoc (α := fun _ => K) t θ) v.castSucc ∘ raiseLink) = leaves t v := by
      funext l; exact leaves_raise t θ v l
    rw [this]
    simp only [List.map_cons, List.map_nil, List.sum_cons, List.sum_nil, leaves, Fin.snoc_castSucc, Fin.snoc_last, Fin.castSucc_inj,
      (Fin.castSucc_lt_last v).ne', if_false, add_zero, zero_add, hair]
    ring
  have hlast : outflow (ls.map raiseLink ++ [⟨yoke.castSucc, Fin.last n, g⟩, ⟨Fin.last n, air.castSucc, g'⟩])
      (Fin.snoc (α := fun _ => K) t θ) (Fin.last n) = 0 := by
    unfold outflow
    rw [List.map_append, List.sum_append, List.map_map]
    have : (leaves (Fin.snoc (α := fun _ => K) t θ) (Fin.last n) ∘ raiseLink) = fun _ => 0 := by
      funext l; exact leaves_raise_last _ l
    rw [this]
    simp only [List.map_const', List.sum_replicate, smul_zero, List.map_cons, List.map_nil, List.sum_cons, List.sum_nil, leaves,
      Fin.snoc_castSucc, Fin.snoc_last, (Fin.castSucc_lt_last _).ne, if_false, if_true, add_zero, zero_add, hair]
    exact hbal
  have hcond : Conducting (ls.map raiseLink ++ [⟨yoke.castSucc, Fin.last n, g⟩, ⟨Fin.last n, air.castSucc, g'⟩]) := by
    intro l hl
    rcases List.mem_append.mp hl with hl | hl
    · obtain ⟨l', hl', rfl⟩ := List.mem_map.mp hl
      exact hc l' hl'
    · simp only [List.mem_cons, List.not_mem_nil, or_false] at hl
      rcases hl with rfl | rfl
      · exact hg
      · exact hg'
  have key := comparison hcond hd' (t := t') (u := Fin.snoc (α := fun _ => K) t θ) (fun w hw => ?_) (fun w hw => ?_) v.castSucc
  · simpa using key
  · have hb1 := hb' w
    rw [hw] at hb1
    rw [hb1]
    refine Fin.lastCases ?_ (fun u hu => ?_) w (motive := fun w => Fin.snoc (α := fun _ => Option K) given none w = none →
      Fin.snoc (α := fun _ => K) power 0 w ≤ _) hw
    · intro _
      rw [hlast]; simp
    · simp only [Fin.snoc_castSucc] at hu ⊢
      rw [hold u]
      have := hb u
      rw [hu] at this
      have hne : ¬ air = u := fun e => by rw [← e, ha] at hu; simp at hu
      rw [this, if_neg hne, add_zero]
      split
      · have : 0 ≤ (t yoke - θ) * g := mul_nonneg (by linarith) hg.le
        linarith
      · linarith
  · refine Fin.lastCases ?_ (fun u hu => ?_) w (motive := fun w => (Fin.snoc (α := fun _ => Option K) given none w).isSome = true →
      t' w ≤ Fin.snoc (α := fun _ => K) t θ w) hw
    · intro h0; simp at h0
    · have h1 := hb' u.castSucc
      simp only [Fin.snoc_castSucc] at hu h1 ⊢
      obtain ⟨x, hx⟩ := Option.isSome_iff_exists.mp hu
      rw [hx] at h1
      have h2 := hb u
      rw [hx] at h2
      rw [h1, h2]

/-- The two parts with a heat sink on the first. -/
example : found (solveOnce (twoParts.map raiseLink ++ [⟨(0 : Fin 3).castSucc, Fin.last 3, 1⟩, ⟨Fin.last 3, (2 : Fin 3).castSucc, 1⟩])
    (Fin.snoc (α := fun _ => Option ℚ) (fun v => if v = 2 then some 20 else none) none)
    (Fin.snoc (α := fun _ => ℚ) (fun v => if v = 0 then 5 else 0) 0)) = some [190 / 7, 180 / 7, 20, 165 / 7] := by
  decide +kernel

end Verif.Thermal
