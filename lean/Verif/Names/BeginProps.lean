import Verif.Names.Lemmas

/-! # Turns named by their beginning: C93 -/

namespace Verif.Names

set_option linter.unusedSimpArgs false

/-! ## Specification -/

/-- A station ends the last turn of a layer: the one before it, of the same conductor, is in the same layer, and the next
one is not. -/
def isEnding (layers : List (Option Name)) (r : Nat) : Bool :=
  match layers[r]? with
  | some (some l) => decide (1 ≤ r ∧ layers[r - 1]? = some (some l) ∧ layers[r + 1]? ≠ some (some l))
  | _ => false

/-- The turns that begin before a station. -/
def beginnings (layers : List (Option Name)) (r : Nat) : Nat := (List.range r).countP fun q => !isEnding layers q

/-- The number of a station: that of the turn that begins at it, or that of the turn it ends. -/
def numberOf (layers : List (Option Name)) (r : Nat) : Nat :=
  if isEnding layers r then beginnings layers r - 1 else beginnings layers r

/-! ## One station at a time -/

/-- The numbers of stations after one in a given layer. -/
def walk : Option Name → Nat → List (Option Name) → List (Nat × Bool)
  | _, _, [] => []
  | prev, turn, x :: rest =>
    if x ≠ none ∧ prev = x ∧ rest.head? ≠ some x then (turn - 1, true) :: walk x turn rest
    else (turn, false) :: walk x (turn + 1) rest

theorem walk_run (l : Name) (rest : List (Option Name)) (hr : rest.head? ≠ some (some l)) : ∀ (m t : Nat),
    walk (some l) (t + 1) (List.replicate (m + 1) (some l) ++ rest) =
      (List.range m).map (fun k => (t + 1 + k, false)) ++ (t + m, true) :: walk (some l) (t + 1 + m) rest
  | 0, t => by
    simp [walk, hr]
  | m + 1, t => by
    rw [List.replicate_succ, List.cons_append, walk, if_neg (by simp [List.replicate_succ]),
      walk_run l rest hr m (t + 1), List.range_succ_eq_map, List.map_cons, List.map_map, List.cons_append]
    congr 1
    congr 1
    · apply List.map_congr_left
      intro k _
      simp only [Function.comp_apply, Prod.mk.injEq, and_true]
      omega
    · have e1 : t + 1 + m = t + (m + 1) := by omega
      have e2 : t + 1 + 1 + m = t + 1 + (m + 1) := by omega
      rw [e1, e2]

theorem stationNumbers_walk : ∀ (n : Nat) (ls : List (Option Name)), ls.length ≤ n → ∀ (t : Nat) (prev : Option Name),
    (∀ l, ls.head? = some (some l) → prev ≠ some l) → stationNumbers t ls = walk prev t ls := by
  intro n
  induction n with
  | zero =>
    intro ls hl t prev _
    rw [List.length_eq_zero_iff.mp (Nat.le_zero.mp hl)]
    rw [stationNumbers, walk]
  | succ n ih =>
    intro ls hl t prev hp
    match ls with
    | [] => rw [stationNumbers, walk]
    | none :: rest =>
      rw [walk, if_neg (by simp), stationNumbers]
      have h1 : runLength (none :: rest) = 1 := rfl
      simp only [h1]
      have h2 : runNumbers t 1 = [(t, false)] := rfl
      rw [h2, if_neg (by omega), List.singleton_append, List.drop_succ_cons, List.drop_zero]
      rw [ih rest (by simp at hl; omega) (t + 1) none (by simp)]
    | some l :: rest =>
      have hne : prev ≠ some l := hp l rfl
      rw [walk, if_neg (by simp [hne]), stationNumbers]
      -- split off the run
      have hsplit : rest = List.replicate (rest.takeWhile fun x => decide (x = some l)).length (some l) ++
          rest.dropWhile fun x => decide (x = some l) := by
        conv_lhs => rw [← List.takeWhile_append_dropWhile (p := fun x => decide (x = some l)) (l := rest)]
        congr 1
        rw [List.eq_replicate_iff]
        refine ⟨rfl, fun x hx => ?_⟩
        exact of_decide_eq_true (List.all_eq_true.mp (List.all_takeWhile (p := fun x => decide (x = some l)) (l := rest)) x hx)
      have hhead : (rest.dropWhile fun x => decide (x = some l)).head? ≠ some (some l) := by
        intro h
        have := List.head?_dropWhile_not (fun x => decide (x = some l)) rest
        rw [h] at this
        simp at this
      have hlen : (rest.dropWhile fun x => decide (x = some l)).length ≤ rest.length :=
        (List.dropWhile_sublist _).length_le
      generalize hm : (rest.takeWhile fun x => decide (x = some l)).length = m at hsplit
      generalize (rest.dropWhile fun x => decide (x = some l)) = rest' at hsplit hhead hlen
      have hrun : runLength (some l :: rest) = 1 + m := by rw [runLength, hm]
      simp only [hrun]
      have hdrop : (some l :: rest).drop (1 + m) = rest' := by
        rw [Nat.add_comm, List.drop_succ_cons, hsplit, List.drop_left' (by simp)]
      rw [hdrop]
      have ih' := ih rest' (by simp at hl; omega) (t + (if 1 + m ≥ 2 then 1 + m - 1 else 1)) (some l) (by
        intro l' hl' e
        simp only [Option.some.injEq] at e
        subst e
        exact hhead hl')
      rw [ih']
      unfold runNumbers
      cases m with
      | zero =>
        rw [if_neg (by omega), if_neg (by omega)]
        simp at hsplit
        rw [hsplit]
        rfl
      | succ m =>
        rw [if_pos (by omega), if_pos (by omega), hsplit, walk_run l rest' hhead m t]
        have e : 1 + (m + 1) - 1 = m + 1 := by omega
        rw [e, List.range_succ_eq_map, List.map_cons, List.map_map]
        simp only [List.cons_append, Nat.add_zero, List.append_assoc, List.nil_append]
        congr 1
        congr 1
        · apply List.map_congr_left
          intro k _
          simp only [Function.comp_apply, Prod.mk.injEq, and_true]
          omega
        · have e1 : t + (1 + (m + 1)) - 2 = t + m := by omega
          have e2 : t + (m + 1) = t + 1 + m := by omega
          rw [e1, e2]

theorem isEnding_succ (p x : Option Name) (ls : List (Option Name)) (r : Nat) :
    isEnding (p :: x :: ls) (r + 2) = isEnding (x :: ls) (r + 1) := by
  unfold isEnding
  simp only [List.getElem?_cons_succ]
  cases h : ls[r]? with
  | none => rfl
  | some y => cases y <;> simp

theorem isEnding_one (p x : Option Name) (ls : List (Option Name)) :
    isEnding (p :: x :: ls) 1 = decide (x ≠ none ∧ p = x ∧ ls.head? ≠ some x) := by
  unfold isEnding
  cases x with
  | none => simp
  | some l => simp [List.head?_eq_getElem?]

theorem walk_spec : ∀ (ls : List (Option Name)) (prev : Option Name) (t r : Nat), r < ls.length →
    (walk prev t ls)[r]? = some
      (t + (List.range r).countP (fun q => !isEnding (prev :: ls) (q + 1)) - (if isEnding (prev :: ls) (r + 1) then 1 else 0),
        isEnding (prev :: ls) (r + 1))
  | [], prev, t, r, h => by simp at h
  | x :: rest, prev, t, r, h => by
    rw [walk]
    have hone := isEnding_one prev x rest
    cases r with
    | zero =>
      split
      · rename_i hc
        rw [hone, decide_eq_true hc]
        simp
      · rename_i hc
        rw [hone, decide_eq_false hc]
        simp
    | succ r =>
      have hr : r < rest.length := by simpa using h
      have hcount : (List.range (r + 1)).countP (fun q => !isEnding (prev :: x :: rest) (q + 1)) =
          (if isEnding (prev :: x :: rest) 1 then 0 else 1) +
            (List.range r).countP (fun q => !isEnding (x :: rest) (q + 1)) := by
        rw [List.range_succ_eq_map, List.countP_cons, List.countP_map]
        have : ((fun q => !isEnding (prev :: x :: rest) (q + 1)) ∘ Nat.succ) = fun q => !isEnding (x :: rest) (q + 1) := by
          funext q
          simp only [Function.comp_apply]
          rw [show q.succ + 1 = q + 2 from rfl, isEnding_succ]
        rw [this]
        cases isEnding (prev :: x :: rest) (0 + 1) <;> simp [Nat.add_comm]
      rw [show r + 1 + 1 = r + 2 from rfl, isEnding_succ, hcount]
      split
      · rename_i hc
        rw [List.getElem?_cons_succ, walk_spec rest x t r hr, hone, decide_eq_true hc]
        simp
      · rename_i hc
        rw [List.getElem?_cons_succ, walk_spec rest x (t + 1) r hr, hone, decide_eq_false hc]
        simp only [Bool.false_eq_true, if_false, Nat.add_assoc]

theorem walk_length : ∀ (ls : List (Option Name)) (prev : Option Name) (t : Nat), (walk prev t ls).length = ls.length
  | [], _, _ => rfl
  | x :: rest, prev, t => by
    rw [walk]
    split <;> simp [walk_length rest]

theorem isEnding_none (ls : List (Option Name)) (r : Nat) : isEnding (none :: ls) (r + 1) = isEnding ls r := by
  unfold isEnding
  simp only [List.getElem?_cons_succ]
  cases h : ls[r]? with
  | none => rfl
  | some y =>
    cases y with
    | none => rfl
    | some l =>
      cases r <;> simp

/-- The stations of a conductor are numbered as the specification says. -/
theorem stationNumbers_spec (ls : List (Option Name)) :
    (stationNumbers 0 ls).length = ls.length ∧
    ∀ r < ls.length, (stationNumbers 0 ls)[r]? = some (numberOf ls r, isEnding ls r) := by
  have h := stationNumbers_walk ls.length ls le_rfl 0 none (by simp)
  rw [h]
  refine ⟨walk_length ls none 0, fun r hr => ?_⟩
  rw [walk_spec ls none 0 r hr]
  have : (fun q => !isEnding (none :: ls) (q + 1)) = fun q => !isEnding ls q := by
    funext q
    rw [isEnding_none]
  rw [this, isEnding_none]
  unfold numberOf beginnings
  cases isEnding ls r <;> simp

/-! ## Numbers are different -/

theorem beginnings_succ (ls : List (Option Name)) (r : Nat) :
    beginnings ls (r + 1) = beginnings ls r + if isEnding ls r then 0 else 1 := by
  unfold beginnings
  rw [List.range_succ, List.countP_append]
  cases h : isEnding ls r <;> simp [h]

theorem beginnings_mono (ls : List (Option Name)) {r s : Nat} (h : r ≤ s) : beginnings ls r ≤ beginnings ls s := by
  induction h with
  | refl => exact le_rfl
  | step _ ih => rw [beginnings_succ]; omega

theorem ending_after (ls : List (Option Name)) {r : Nat} (h : isEnding ls r = true) :
    1 ≤ r ∧ isEnding ls (r - 1) = false := by
  unfold isEnding at h
  split at h
  · rename_i l hl
    have h := of_decide_eq_true h
    refine ⟨h.1, ?_⟩
    unfold isEnding
    rw [h.2.1]
    simp only [decide_eq_false_iff_not]
    rintro ⟨_, _, h3⟩
    apply h3
    rw [Nat.sub_add_cancel h.1]
    exact hl
  · simp at h

theorem numbers_distinct (ls : List (Option Name)) {r s : Nat} (hrs : r < s) :
    (numberOf ls r, isEnding ls r) ≠ (numberOf ls s, isEnding ls s) := by
  intro e
  simp only [Prod.mk.injEq] at e
  obtain ⟨e1, e2⟩ := e
  unfold numberOf at e1
  cases hr : isEnding ls r with
  | false =>
    rw [hr] at e1 e2
    rw [← e2] at e1
    simp only [Bool.false_eq_true, if_false] at e1
    have h1 := beginnings_succ ls r
    rw [hr] at h1
    have h2 : beginnings ls (r + 1) ≤ beginnings ls s := beginnings_mono ls (Nat.succ_le_of_lt hrs)
    simp at h1
    omega
  | true =>
    rw [hr] at e1 e2
    rw [← e2] at e1
    simp only [if_true] at e1
    obtain ⟨r1, hr1⟩ := ending_after ls hr
    obtain ⟨s1, hs1⟩ := ending_after ls e2.symm
    have h1 := beginnings_succ ls (r - 1)
    have h2 := beginnings_succ ls (s - 1)
    rw [Nat.sub_add_cancel r1, hr1] at h1
    rw [Nat.sub_add_cancel s1, hs1] at h2
    simp at h1 h2
    have hle : r ≤ s - 1 := by omega
    have h3 := beginnings_mono ls hle
    omega

/-! ## All conductors -/

/-- Whether a station is of the conductor of another. -/
def sameConductor (s t : Station) : Bool := decide (t.winding = s.winding ∧ t.parallel = s.parallel)

/-- The layers of the stations of the conductor of a station, in the order they are wound. -/
def conductorLayers (stations : List Station) (s : Station) : List (Option Name) :=
  (stations.filter (sameConductor s)).map fun t => t.layer

/-- The place of a station among those of its conductor. -/
def placeOf (stations : List Station) (s : Station) (i : Nat) : Nat := (stations.take i).countP (sameConductor s)

theorem placeOf_lt (stations : List Station) {s : Station} {i : Nat} (h : stations[i]? = some s) :
    placeOf stations s i < (conductorLayers stations s).length := by
  unfold placeOf conductorLayers
  rw [List.length_map, ← List.countP_eq_length_filter]
  obtain ⟨hi, he⟩ := List.getElem?_eq_some_iff.mp h
  conv_rhs => rw [← List.take_append_drop i stations, List.countP_append]
  have hd : stations.drop i = s :: stations.drop (i + 1) := by
    rw [List.drop_eq_getElem_cons hi, he]
  rw [hd, List.countP_cons]
  simp [sameConductor]

theorem placeOf_inj (stations : List Station) {s t : Station} {i j : Nat} (hi : stations[i]? = some s)
    (hst : sameConductor s t = true) (hij : i < j) : placeOf stations s i < placeOf stations t j := by
  have hsame : sameConductor t = sameConductor s := by
    funext u
    unfold sameConductor at hst ⊢
    have := of_decide_eq_true hst
    rw [this.1, this.2]
  unfold placeOf
  rw [hsame]
  obtain ⟨hi', he⟩ := List.getElem?_eq_some_iff.mp hi
  have : (stations.take j) = stations.take i ++ (stations.drop i).take (j - i) := by
    rw [← List.take_add, Nat.add_sub_cancel' hij.le]
  rw [this, List.countP_append, List.drop_eq_getElem_cons hi', he]
  obtain ⟨d, hd⟩ := Nat.exists_eq_add_of_lt hij
  have e : j - i = d + 1 := by omega
  rw [e, List.take_succ_cons, List.countP_cons]
  simp [sameConductor]

/-- C93: with real winding geometry, each station is named after the winding and parallel of its conductor and the turn that
begins at it, turns being numbered from zero in the order they are wound; the last of two or more stations in a row in a
layer ends a turn and is named after that turn. -/
theorem beginning_names (stations : List Station) {i : Nat} {s : Station} (h : stations[i]? = some s) :
    (nameByBeginning stations)[i]? = some (s.winding ++ " parallel ".toList ++ decimal s.parallel ++ " turn ".toList ++
      decimal (numberOf (conductorLayers stations s) (placeOf stations s i)) ++
      if isEnding (conductorLayers stations s) (placeOf stations s i) then "_ending".toList else []) := by
  unfold nameByBeginning
  rw [List.getElem?_mapIdx, h, Option.map_some]
  obtain ⟨h1, h2⟩ := stationNumbers_spec (conductorLayers stations s)
  have h3 := h2 _ (placeOf_lt stations h)
  simp only
  congr 1
  unfold stationName
  have e : (stationNumbers 0 ((stations.filter fun t : Station => decide (t.winding = s.winding ∧ t.parallel = s.parallel)).map
      fun t => t.layer)).getD ((stations.take i).countP fun t : Station => decide (t.winding = s.winding ∧ t.parallel = s.parallel))
        (0, false) =
      (numberOf (conductorLayers stations s) (placeOf stations s i),
        isEnding (conductorLayers stations s) (placeOf stations s i)) := by
    rw [List.getD_eq_getElem?_getD]
    exact congrArg (fun o => Option.getD o (0, false)) h3
  rw [e]

/-- C93: no two stations have the same name. -/
theorem beginning_names_unique (stations : List Station) : (nameByBeginning stations).Nodup := by
  have hlen : (nameByBeginning stations).length = stations.length := by simp [nameByBeginning]
  have key : ∀ i j : Nat, i < j → ∀ n, (nameByBeginning stations)[i]? = some n → (nameByBeginning stations)[j]? ≠ some n := by
    intro i j hij n hi hj
    have hi' : i < stations.length := by rw [← hlen]; exact (List.getElem?_eq_some_iff.mp hi).1
    have hj' : j < stations.length := by rw [← hlen]; exact (List.getElem?_eq_some_iff.mp hj).1
    have si := List.getElem?_eq_getElem hi'
    have sj := List.getElem?_eq_getElem hj'
    rw [beginning_names stations si] at hi
    rw [beginning_names stations sj] at hj
    have e := (Option.some.inj hi).trans (Option.some.inj hj).symm
    obtain ⟨e1, e2, e3⟩ := station_name_inj (x := (_, _)) (y := (_, _)) e
    have hsame : sameConductor stations[i] stations[j] = true := by
      unfold sameConductor
      exact decide_eq_true ⟨e1.symm, e2.symm⟩
    have hl : conductorLayers stations stations[j] = conductorLayers stations stations[i] := by
      unfold conductorLayers
      congr 2
      funext u
      unfold sameConductor
      rw [e1, e2]
    rw [hl] at e3
    exact numbers_distinct _ (placeOf_inj stations si hsame hij) e3
  rw [List.Nodup, List.pairwise_iff_getElem]
  intro i j hi hj hij e
  exact key i j hij _ (List.getElem?_eq_getElem hi) (by rw [e]; exact List.getElem?_eq_getElem hj)

/-- C93: turns that begin are numbered without gaps: a number is that of a beginning exactly when it is less than the number
of beginnings of the conductor. -/
theorem beginning_numbers (layers : List (Option Name)) (n : Nat) :
    (∃ r < layers.length, isEnding layers r = false ∧ numberOf layers r = n) ↔ n < beginnings layers layers.length := by
  constructor
  · rintro ⟨r, hr, he, rfl⟩
    unfold numberOf
    rw [he]
    have h1 := beginnings_succ layers r
    rw [he] at h1
    have h2 : beginnings layers (r + 1) ≤ _ := beginnings_mono layers (Nat.succ_le_of_lt hr)
    simp at h1 ⊢
    omega
  · intro h
    have : ∀ m, n < beginnings layers m → ∃ r < m, isEnding layers r = false ∧ numberOf layers r = n := by
      intro m
      induction m with
      | zero => intro h; simp [beginnings] at h
      | succ m ih =>
        intro h
        rw [beginnings_succ] at h
        by_cases hm : n < beginnings layers m
        · obtain ⟨r, hr, hh⟩ := ih hm
          exact ⟨r, by omega, hh⟩
        · cases he : isEnding layers m with
          | true => rw [he] at h; simp at h; omega
          | false =>
            rw [he] at h
            simp at h
            refine ⟨m, by omega, he, ?_⟩
            unfold numberOf
            rw [he]
            simp
            omega
    exact this _ h

/-- C93: a station that ends a turn has the number of the station before it of its conductor, where that turn begins. -/
theorem ending_number (layers : List (Option Name)) {r : Nat} (h : isEnding layers r = true) :
    1 ≤ r ∧ isEnding layers (r - 1) = false ∧ numberOf layers r = numberOf layers (r - 1) := by
  obtain ⟨h1, h2⟩ := ending_after layers h
  refine ⟨h1, h2, ?_⟩
  have h3 := beginnings_succ layers (r - 1)
  rw [Nat.sub_add_cancel h1, h2] at h3
  unfold numberOf
  rw [h, h2]
  simp at h3 ⊢
  omega

example : (nameByBeginning [⟨"P".toList, 0, some "a".toList⟩, ⟨"P".toList, 0, some "a".toList⟩,
    ⟨"P".toList, 1, some "a".toList⟩, ⟨"P".toList, 0, some "a".toList⟩, ⟨"P".toList, 0, some "b".toList⟩,
    ⟨"P".toList, 0, none⟩, ⟨"P".toList, 0, some "b".toList⟩, ⟨"P".toList, 0, some "b".toList⟩]).map String.ofList =
    ["P parallel 0 turn 0", "P parallel 0 turn 1", "P parallel 1 turn 0", "P parallel 0 turn 1_ending",
      "P parallel 0 turn 2", "P parallel 0 turn 3", "P parallel 0 turn 4", "P parallel 0 turn 4_ending"] := by
  decide +kernel

end Verif.Names
