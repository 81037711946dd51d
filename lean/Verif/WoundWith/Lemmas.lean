import Verif.WoundWith.Spec
import Mathlib.Data.List.Nodup
import Mathlib.Data.List.GetD

/-! # Lemmas on windings wound together -/

namespace Verif.WoundWith

set_option linter.unusedSimpArgs false

/-! ## Outcomes -/

theorem res_bind_ok {α β : Type} {r : Res α} {f : α → Res β} {b : β} :
    r.bind f = .ok b ↔ ∃ a, r = .ok a ∧ f a = .ok b := by
  cases r <;> simp [Res.bind]

theorem mapM_nil_ok {α β : Type} {f : α → Res β} {l : List β} : Res.mapM f [] = .ok l ↔ l = [] := by
  simp [Res.mapM, eq_comm]

theorem mapM_cons_ok {α β : Type} {f : α → Res β} {a : α} {rest : List α} {l : List β} :
    Res.mapM f (a :: rest) = .ok l ↔ ∃ b l', f a = .ok b ∧ Res.mapM f rest = .ok l' ∧ l = b :: l' := by
  simp only [Res.mapM, res_bind_ok, Res.ok.injEq]
  constructor
  · rintro ⟨b, hb, l', hl', rfl⟩; exact ⟨b, l', hb, hl', rfl⟩
  · rintro ⟨b, l', hb, hl', rfl⟩; exact ⟨b, hb, l', hl', rfl⟩

theorem mapM_length {α β : Type} {f : α → Res β} : ∀ {as : List α} {l : List β}, Res.mapM f as = .ok l →
    l.length = as.length
  | [], l, h => by rw [mapM_nil_ok] at h; subst h; rfl
  | a :: rest, l, h => by
    rw [mapM_cons_ok] at h
    obtain ⟨b, l', _, hl', rfl⟩ := h
    simp [mapM_length hl']

theorem mapM_get {α β : Type} {f : α → Res β} : ∀ {as : List α} {l : List β}, Res.mapM f as = .ok l →
    ∀ {i : Nat} {a : α}, as[i]? = some a → ∃ b, f a = .ok b ∧ l[i]? = some b
  | [], l, _, i, a, h => by simp at h
  | x :: rest, l, h, i, a, hi => by
    rw [mapM_cons_ok] at h
    obtain ⟨b, l', hb, hl', rfl⟩ := h
    cases i with
    | zero => simp at hi; subst hi; exact ⟨b, hb, rfl⟩
    | succ i => exact mapM_get hl' (by simpa using hi)

/-- When every step gives back what it was given. -/
theorem mapM_round {α β : Type} {f : α → Res β} {g : β → Res α} : ∀ {as : List α} {l : List β},
    Res.mapM f as = .ok l → (∀ a ∈ as, ∀ b, f a = .ok b → g b = .ok a) → Res.mapM g l = .ok as
  | [], l, h, _ => by rw [mapM_nil_ok] at h; subst h; rfl
  | a :: rest, l, h, hg => by
    rw [mapM_cons_ok] at h
    obtain ⟨b, l', hb, hl', rfl⟩ := h
    rw [mapM_cons_ok]
    exact ⟨a, rest, hg a List.mem_cons_self b hb, mapM_round hl' fun x hx => hg x (List.mem_cons_of_mem _ hx), rfl⟩

theorem mapM_ok {α β : Type} {f : α → Res β} : ∀ {as : List α}, (∀ a ∈ as, ∃ b, f a = .ok b) →
    ∃ l, Res.mapM f as = .ok l
  | [], _ => ⟨[], rfl⟩
  | a :: rest, h => by
    obtain ⟨b, hb⟩ := h a List.mem_cons_self
    obtain ⟨l, hl⟩ := mapM_ok fun x hx => h x (List.mem_cons_of_mem _ hx)
    exact ⟨b :: l, mapM_cons_ok.mpr ⟨b, l, hb, hl, rfl⟩⟩

/-! ## Names and indexes -/

theorem named_get {ws : List Winding} (h : Named ws) {i j : Nat} {a b : Winding} (hi : ws[i]? = some a)
    (hj : ws[j]? = some b) (hn : a.name = b.name) : i = j := by
  have hi' := List.getElem?_eq_some_iff.mp hi
  have hj' := List.getElem?_eq_some_iff.mp hj
  obtain ⟨hil, hie⟩ := hi'
  obtain ⟨hjl, hje⟩ := hj'
  have := (List.nodup_iff_injective_getElem.mp h)
  have hil2 : i < (ws.map fun w => w.name).length := by simpa using hil
  have hjl2 : j < (ws.map fun w => w.name).length := by simpa using hjl
  have he : (⟨i, hil2⟩ : Fin (ws.map fun w => w.name).length) = ⟨j, hjl2⟩ := by
    apply this
    simp only [List.getElem_map]
    rw [hie, hje, hn]
  simpa using he

theorem indexOf_ok {ws : List Winding} {n : String} {i : Nat} (h : indexOf ws n = .ok i) :
    ∃ w, ws[i]? = some w ∧ w.name = n := by
  unfold indexOf at h
  split at h
  · rename_i hlt
    simp only [Res.ok.injEq] at h
    subst h
    refine ⟨ws[ws.findIdx fun w => w.name == n], List.getElem?_eq_getElem hlt, ?_⟩
    have := List.findIdx_getElem (w := hlt)
    simpa using this
  · simp at h

theorem indexOf_get {ws : List Winding} (hn : Named ws) {i : Nat} {w : Winding} (h : ws[i]? = some w) :
    indexOf ws w.name = .ok i := by
  have hlt : (ws.findIdx fun x => x.name == w.name) < ws.length := by
    rw [List.findIdx_lt_length]
    exact ⟨w, List.mem_of_getElem? h, by simp⟩
  have : indexOf ws w.name = .ok (ws.findIdx fun x => x.name == w.name) := by
    unfold indexOf
    rw [if_pos hlt]
  obtain ⟨w', h1, h2⟩ := indexOf_ok this
  rw [this, named_get hn h1 h h2]

theorem leaderFrom_le {ws : List Winding} : ∀ {l : List String} {m r : Nat}, leaderFrom ws l m = .ok r → r ≤ m
  | [], m, r, h => by simp [leaderFrom] at h; omega
  | n :: rest, m, r, h => by
    unfold leaderFrom at h
    rw [res_bind_ok] at h
    obtain ⟨i, _, h⟩ := h
    have := leaderFrom_le h
    omega

theorem leadersFrom_get {ws : List Winding} : ∀ {l : List Winding} {k : Nat} {ls : List Nat},
    leadersFrom ws l k = .ok ls → ls.length = l.length ∧
      ∀ {i : Nat} {w : Winding}, l[i]? = some w → ∃ m, ls[i]? = some m ∧ leader ws w (k + i) = .ok m
  | [], k, ls, h => by
    simp only [leadersFrom, Res.ok.injEq] at h
    subst h
    exact ⟨rfl, fun h => by simp at h⟩
  | x :: rest, k, ls, h => by
    unfold leadersFrom at h
    rw [res_bind_ok] at h
    obtain ⟨m, hm, h⟩ := h
    rw [res_bind_ok] at h
    obtain ⟨l', hl', h⟩ := h
    simp only [Res.ok.injEq] at h
    subst h
    obtain ⟨h1, h2⟩ := leadersFrom_get hl'
    refine ⟨by simp [h1], ?_⟩
    intro i w hi
    cases i with
    | zero => simp at hi; subst hi; exact ⟨m, rfl, hm⟩
    | succ i =>
      obtain ⟨m', h3, h4⟩ := h2 (by simpa using hi)
      exact ⟨m', by simpa using h3, by rw [← h4]; congr 1; omega⟩

theorem leaders_get {ws : List Winding} {ls : List Nat} (h : leaders ws = .ok ls) {i : Nat} {w : Winding}
    (hi : ws[i]? = some w) : ∃ m, ls[i]? = some m ∧ leader ws w i = .ok m ∧ m ≤ i := by
  obtain ⟨m, h1, h2⟩ := (leadersFrom_get h).2 hi
  rw [Nat.zero_add] at h2
  exact ⟨m, h1, h2, leaderFrom_le h2⟩

theorem leaders_length {ws : List Winding} {ls : List Nat} (h : leaders ws = .ok ls) : ls.length = ws.length :=
  (leadersFrom_get h).1

theorem leaders_le {ws : List Winding} {ls : List Nat} (h : leaders ws = .ok ls) {i m : Nat} (hi : ls[i]? = some m) :
    m ≤ i := by
  have hlt : i < ws.length := by
    rw [← leaders_length h]
    exact (List.getElem?_eq_some_iff.mp hi).1
  obtain ⟨m', h1, _, h3⟩ := leaders_get h (List.getElem?_eq_getElem hlt)
  rw [hi, Option.some.injEq] at h1
  omega

/-! ## Virtual indexes -/

/-- What `assign` keeps: the indexes given are below the next one, and all of those are given. -/
theorem assign_spec : ∀ (rest given : List Nat) (next : Nat), (∀ v, v ∈ given ↔ v < next) →
    (assign rest given next).length = given.length + rest.length ∧
    (∀ i, i < given.length → (assign rest given next)[i]? = given[i]?) ∧
    ∃ n, ∀ v, v ∈ assign rest given next ↔ v < n
  | [], given, next, h => ⟨by simp [assign], fun _ _ => rfl, next, h⟩
  | m :: rest, given, next, h => by
    unfold assign
    split
    · rename_i v hv
      have hv' : v < next := (h v).mp (List.mem_of_getElem? hv)
      obtain ⟨h1, h2, h3⟩ := assign_spec rest (given ++ [v]) next (by
        intro u
        rw [List.mem_append, h u]
        simp only [List.mem_singleton]
        constructor
        · rintro (h | rfl) <;> omega
        · intro h; exact Or.inl h)
      refine ⟨by rw [h1]; simp; omega, fun i hi => ?_, h3⟩
      rw [h2 i (by simp; omega), List.getElem?_append_left hi]
    · obtain ⟨h1, h2, h3⟩ := assign_spec rest (given ++ [next]) (next + 1) (by
        intro u
        rw [List.mem_append, h u]
        simp only [List.mem_singleton]
        omega)
      refine ⟨by rw [h1]; simp; omega, fun i hi => ?_, h3⟩
      rw [h2 i (by simp; omega), List.getElem?_append_left hi]

/-- Each index is the one of its leader, or a new one. -/
theorem assign_leader : ∀ (rest given : List Nat) (next : Nat), (∀ v, v ∈ given ↔ v < next) →
    (∀ j m, rest[j]? = some m → m ≤ given.length + j) →
    ∀ j m, rest[j]? = some m →
      (m < given.length + j → (assign rest given next)[given.length + j]? = (assign rest given next)[m]?) ∧
      (m = given.length + j → ∃ v, (assign rest given next)[given.length + j]? = some v ∧ next ≤ v ∧
        ∀ i, i < given.length + j → (assign rest given next)[i]? ≠ some v)
  | [], _, _, _, _ => by simp
  | m₀ :: rest, given, next, h, hle => by
    intro j m hj
    have hm₀ : m₀ ≤ given.length := by simpa using hle 0 m₀ rfl
    unfold assign
    split
    · rename_i v hv
      have hm₀' : m₀ < given.length := (List.getElem?_eq_some_iff.mp hv).1
      have hg : ∀ u, u ∈ given ++ [v] ↔ u < next := by
        intro u
        have hv' : v < next := (h v).mp (List.mem_of_getElem? hv)
        rw [List.mem_append, h u]
        simp only [List.mem_singleton]
        constructor
        · rintro (h | rfl) <;> omega
        · intro h; exact Or.inl h
      have sp := assign_spec rest (given ++ [v]) next hg
      cases j with
      | zero =>
        simp only [List.getElem?_cons_zero, Option.some.injEq] at hj
        subst hj
        refine ⟨fun _ => ?_, fun hh => by omega⟩
        rw [sp.2.1 (given.length + 0) (by simp), sp.2.1 m₀ (by simp; omega), List.getElem?_append_left hm₀', hv]
        simp
      | succ j =>
        have ih := assign_leader rest (given ++ [v]) next hg (fun j' m' hj' => by
          have := hle (j' + 1) m' (by simpa using hj')
          simp; omega) j m (by simpa using hj)
        have e : given.length + (j + 1) = (given ++ [v]).length + j := by simp; omega
        rw [e]
        exact ih
    · rename_i hv
      have hm₀' : m₀ = given.length := by
        have := List.getElem?_eq_none_iff.mp hv
        omega
      have hg : ∀ u, u ∈ given ++ [next] ↔ u < next + 1 := by
        intro u
        rw [List.mem_append, h u]
        simp only [List.mem_singleton]
        omega
      have sp := assign_spec rest (given ++ [next]) (next + 1) hg
      cases j with
      | zero =>
        simp only [List.getElem?_cons_zero, Option.some.injEq] at hj
        subst hj
        refine ⟨fun hh => by omega, fun _ => ⟨next, ?_, le_refl _, ?_⟩⟩
        · rw [sp.2.1 (given.length + 0) (by simp)]
          simp
        · intro i hi he
          simp only [Nat.add_zero] at hi
          rw [sp.2.1 i (by simp; omega), List.getElem?_append_left hi] at he
          have := (h next).mp (List.mem_of_getElem? he)
          omega
      | succ j =>
        have ih := assign_leader rest (given ++ [next]) (next + 1) hg (fun j' m' hj' => by
          have := hle (j' + 1) m' (by simpa using hj')
          simp; omega) j m (by simpa using hj)
        have e : given.length + (j + 1) = (given ++ [next]).length + j := by simp; omega
        rw [e]
        refine ⟨ih.1, fun hh => ?_⟩
        obtain ⟨v, h1, h2, h3⟩ := ih.2 hh
        exact ⟨v, h1, by omega, h3⟩

theorem virtualIndexes_length (ls : List Nat) : (virtualIndexes ls).length = ls.length := by
  have := (assign_spec ls [] 0 (by simp)).1
  simpa [virtualIndexes] using this

theorem virtualIndexes_leader {ls : List Nat} (hle : ∀ i m : Nat, ls[i]? = some m → m ≤ i) {i m : Nat}
    (hi : ls[i]? = some m) : (virtualIndexes ls)[i]? = (virtualIndexes ls)[m]? := by
  have := (assign_leader ls [] 0 (by simp) (by simpa using hle) i m hi)
  simp only [List.length_nil, Nat.zero_add] at this
  rcases Nat.lt_or_ge m i with h | h
  · exact this.1 h
  · have : m = i := le_antisymm (hle i m hi) h
    rw [this]

theorem virtualIndexes_new {ls : List Nat} (hle : ∀ i m : Nat, ls[i]? = some m → m ≤ i) {i : Nat}
    (hi : ls[i]? = some i) : ∀ j, j < i → (virtualIndexes ls)[j]? ≠ (virtualIndexes ls)[i]? := by
  have := (assign_leader ls [] 0 (by simp) (by simpa using hle) i i hi).2
  simp only [List.length_nil, Nat.zero_add, forall_const] at this
  obtain ⟨v, h1, _, h3⟩ := this
  intro j hj he
  exact h3 j hj (by rw [← h1]; exact he)

theorem virtualCount_aux : ∀ (vs : List Nat) (n : Nat), n ≤ vs.foldl (fun n v => max n (v + 1)) n ∧
    (∀ v ∈ vs, v < vs.foldl (fun n v => max n (v + 1)) n) ∧
    (n < vs.foldl (fun n v => max n (v + 1)) n → ∃ v ∈ vs, v + 1 = vs.foldl (fun n v => max n (v + 1)) n)
  | [], n => ⟨by simp, by simp, by simp⟩
  | v :: rest, n => by
    obtain ⟨h1, h2, h3⟩ := virtualCount_aux rest (max n (v + 1))
    simp only [List.foldl_cons]
    refine ⟨by omega, ?_, ?_⟩
    · intro u hu
      rcases List.mem_cons.mp hu with rfl | hu
      · omega
      · exact h2 u hu
    · intro hlt
      rcases Nat.lt_or_ge (max n (v + 1)) (rest.foldl (fun n v => max n (v + 1)) (max n (v + 1))) with h | h
      · obtain ⟨u, hu, he⟩ := h3 h
        exact ⟨u, List.mem_cons_of_mem _ hu, he⟩
      · have he : rest.foldl (fun n v => max n (v + 1)) (max n (v + 1)) = max n (v + 1) := le_antisymm h h1
        rw [he] at hlt ⊢
        refine ⟨v, List.mem_cons_self, ?_⟩
        rcases le_total n (v + 1) with h | h
        · rw [max_eq_right h]
        · rw [max_eq_left h] at hlt
          exact absurd hlt (lt_irrefl _)

theorem lt_virtualCount (ls : List Nat) (v : Nat) : v ∈ virtualIndexes ls ↔ v < virtualCount (virtualIndexes ls) := by
  obtain ⟨_, h2, h3⟩ := virtualCount_aux (virtualIndexes ls) 0
  obtain ⟨_, _, n, hn⟩ := assign_spec ls [] 0 (by simp)
  change ∀ v, v ∈ virtualIndexes ls ↔ v < n at hn
  constructor
  · exact h2 v
  · intro h
    have hpos : 0 < virtualCount (virtualIndexes ls) := by omega
    obtain ⟨u, hu, he⟩ := h3 hpos
    rw [hn] at hu ⊢
    change u + 1 = virtualCount (virtualIndexes ls) at he
    omega

/-! ## The windings of each virtual winding -/

theorem membersOf_length (vs : List Nat) : (membersOf vs).length = virtualCount vs := by simp [membersOf]

theorem mem_members {vs : List Nat} {v : Nat} {l : List Nat} (h : (membersOf vs)[v]? = some l) (i : Nat) :
    i ∈ l ↔ vs[i]? = some v := by
  unfold membersOf at h
  rw [List.getElem?_map] at h
  simp only [Option.map_eq_some_iff] at h
  obtain ⟨u, hu, rfl⟩ := h
  have hu' : u = v := by
    have := List.getElem?_eq_some_iff.mp hu
    obtain ⟨h1, h2⟩ := this
    simpa using h2.symm
  subst hu'
  rw [List.mem_filter]
  simp only [List.mem_range, beq_iff_eq]
  constructor
  · exact fun h => h.2
  · exact fun h => ⟨(List.getElem?_eq_some_iff.mp h).1, h⟩

theorem members_sorted {vs : List Nat} {l : List Nat} (h : l ∈ membersOf vs) : l.Pairwise (· < ·) := by
  unfold membersOf at h
  rw [List.mem_map] at h
  obtain ⟨v, _, rfl⟩ := h
  exact List.Pairwise.filter _ List.pairwise_lt_range

theorem members_nodup {vs : List Nat} {l : List Nat} (h : l ∈ membersOf vs) : l.Nodup :=
  (members_sorted h).imp fun h => Nat.ne_of_lt h

/-- Each winding is in the group of its index. -/
theorem members_of_index {vs : List Nat} {i v : Nat} (h : vs[i]? = some v) : ∃ l, (membersOf vs)[v]? = some l ∧ i ∈ l := by
  have hv : v < virtualCount vs := (virtualCount_aux vs 0).2.1 v (List.mem_of_getElem? h)
  have hlt : v < (membersOf vs).length := by rw [membersOf_length]; exact hv
  refine ⟨_, List.getElem?_eq_getElem hlt, ?_⟩
  rw [mem_members (List.getElem?_eq_getElem hlt)]
  exact h

theorem virtualOf_members {vs : List Nat} {i v : Nat} (h : vs[i]? = some v) : virtualOf (membersOf vs) i = some v := by
  have hv : v < virtualCount vs := (virtualCount_aux vs 0).2.1 v (List.mem_of_getElem? h)
  unfold virtualOf
  have hf : ((List.range (membersOf vs).length).filter fun u => ((membersOf vs)[u]?.getD []).contains i) = [v] := by
    have hc : ∀ u ∈ List.range (membersOf vs).length,
        ((membersOf vs)[u]?.getD []).contains i = decide (u = v) := by
      intro u hu
      rw [List.mem_range] at hu
      have hg := List.getElem?_eq_getElem hu
      rw [hg, Option.getD_some, Bool.eq_iff_iff, List.contains_iff_mem, mem_members hg, h, decide_eq_true_eq,
        Option.some.injEq]
      exact eq_comm
    rw [List.filter_congr hc]
    have : (List.range (membersOf vs).length).filter (fun u => decide (u = v)) = List.replicate 1 v := by
      rw [show (fun u => decide (u = v)) = fun u => u == v by funext u; rw [beq_eq_decide], List.filter_beq,
        List.count_eq_one_of_mem List.nodup_range (by rw [List.mem_range, membersOf_length]; exact hv)]
    exact this
  rw [hf]
  rfl

end Verif.WoundWith
