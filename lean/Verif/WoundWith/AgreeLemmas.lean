import Verif.WoundWith.TurnLemmas

/-! # Lemmas on windings whose lists agree -/

namespace Verif.WoundWith

set_option linter.unusedSimpArgs false

theorem together_refl {ws : List Winding} {i : Nat} (h : i < ws.length) : Together ws i i :=
  ⟨ws[i], ws[i], List.getElem?_eq_getElem h, List.getElem?_eq_getElem h, Or.inl rfl⟩

theorem together_symm {ws : List Winding} (h : Paired ws) {i j : Nat} (ht : Together ws i j) : Together ws j i := by
  obtain ⟨a, b, ha, hb, ht⟩ := ht
  refine ⟨b, a, hb, ha, ?_⟩
  rcases ht with rfl | ht
  · exact Or.inl rfl
  · exact Or.inr (h.both a (List.mem_of_getElem? ha) b (List.mem_of_getElem? hb) ht)

theorem together_trans {ws : List Winding} (h : Paired ws) {i j k : Nat} (h1 : Together ws i j)
    (h2 : Together ws j k) : Together ws i k := by
  obtain ⟨a, b, ha, hb, h1⟩ := h1
  obtain ⟨b', c, hb', hc, h2⟩ := h2
  rw [hb, Option.some.injEq] at hb'
  subst hb'
  rcases h1 with rfl | h1
  · exact ⟨b, c, hb, hc, h2⟩
  · rcases h2 with rfl | h2
    · rw [hb, Option.some.injEq] at hc
      subst hc
      exact ⟨a, b, ha, hb, Or.inr h1⟩
    · refine ⟨a, c, ha, hc, ?_⟩
      rcases h.complete a (List.mem_of_getElem? ha) b (List.mem_of_getElem? hb) c (List.mem_of_getElem? hc) h1 h2 with he | hl
      · left
        exact named_get h.named ha hc (by rw [he])
      · exact Or.inr hl

theorem together_alike {ws : List Winding} (h : Agreed ws) {i j : Nat} {a b : Winding} (ht : Together ws i j)
    (ha : ws[i]? = some a) (hb : ws[j]? = some b) : a.parallels = b.parallels ∧ a.side = b.side ∧ a.wire = b.wire := by
  obtain ⟨a', b', ha', hb', ht⟩ := ht
  rw [ha, Option.some.injEq] at ha'
  rw [hb, Option.some.injEq] at hb'
  subst ha' hb'
  rcases ht with rfl | ht
  · rw [ha, Option.some.injEq] at hb
    subst hb
    exact ⟨rfl, rfl, rfl⟩
  · exact h.alike a (List.mem_of_getElem? ha) b (List.mem_of_getElem? hb) ht

/-! ## The leader is the first of those wound together -/

theorem indexOf_exists {ws : List Winding} {n : String} (h : ∃ b ∈ ws, b.name = n) : ∃ i, indexOf ws n = .ok i := by
  obtain ⟨b, hb, rfl⟩ := h
  refine ⟨_, by
    unfold indexOf
    rw [if_pos]
    rw [List.findIdx_lt_length]
    exact ⟨b, hb, by simp⟩⟩

theorem leaderFrom_spec {ws : List Winding} : ∀ {l : List String} {m : Nat}, (∀ n ∈ l, ∃ b ∈ ws, b.name = n) →
    ∃ r, leaderFrom ws l m = .ok r ∧ r ≤ m ∧ (∀ n ∈ l, ∀ i, indexOf ws n = .ok i → r ≤ i) ∧
      (r = m ∨ ∃ n ∈ l, indexOf ws n = .ok r)
  | [], m, _ => ⟨m, rfl, le_refl _, by simp, Or.inl rfl⟩
  | n :: rest, m, h => by
    obtain ⟨i, hi⟩ := indexOf_exists (h n List.mem_cons_self)
    obtain ⟨r, h1, h2, h3, h4⟩ := leaderFrom_spec (l := rest) (m := min i m) fun x hx => h x (List.mem_cons_of_mem _ hx)
    have e1 : min i m ≤ i := Nat.min_le_left _ _
    have e2 : min i m ≤ m := Nat.min_le_right _ _
    refine ⟨r, by simp [leaderFrom, hi, Res.bind, h1], le_trans h2 e2, ?_, ?_⟩
    · intro x hx j hj
      rcases List.mem_cons.mp hx with rfl | hx
      · rw [hi, Res.ok.injEq] at hj
        subst hj
        exact le_trans h2 e1
      · exact h3 x hx j hj
    · rcases h4 with h4 | ⟨x, hx, hr⟩
      · rcases le_total i m with hle | hle
        · rw [min_eq_left hle] at h4
          exact Or.inr ⟨n, List.mem_cons_self, by rw [hi, h4]⟩
        · rw [min_eq_right hle] at h4
          exact Or.inl h4
      · exact Or.inr ⟨x, List.mem_cons_of_mem _ hx, hr⟩

theorem leader_spec {ws : List Winding} (h : Paired ws) {i : Nat} {w : Winding} (hi : ws[i]? = some w) :
    ∃ m, leader ws w i = .ok m ∧ Together ws i m ∧ ∀ j, Together ws i j → m ≤ j := by
  obtain ⟨r, h1, h2, h3, h4⟩ := leaderFrom_spec (ws := ws) (l := w.woundWith.getD []) (m := i)
    (h.exist w (List.mem_of_getElem? hi))
  refine ⟨r, h1, ?_, ?_⟩
  · rcases h4 with rfl | ⟨n, hn, hr⟩
    · exact ⟨w, w, hi, hi, Or.inl rfl⟩
    · obtain ⟨u, hu, rfl⟩ := indexOf_ok hr
      exact ⟨w, u, hi, hu, Or.inr hn⟩
  · rintro j ⟨a, b, ha, hb, ht⟩
    rw [hi, Option.some.injEq] at ha
    subst ha
    rcases ht with rfl | ht
    · exact h2
    · exact h3 _ ht j (indexOf_get h.named hb)

theorem leadersFrom_ok {ws : List Winding} : ∀ {l : List Winding} {k : Nat},
    (∀ i w, l[i]? = some w → ∃ m, leader ws w (k + i) = .ok m) → ∃ ls, leadersFrom ws l k = .ok ls
  | [], k, _ => ⟨[], rfl⟩
  | w :: rest, k, h => by
    obtain ⟨m, hm⟩ := h 0 w rfl
    obtain ⟨ls, hls⟩ := leadersFrom_ok (ws := ws) (l := rest) (k := k + 1) fun i u hu => by
      obtain ⟨m, hm⟩ := h (i + 1) u (by simpa using hu)
      exact ⟨m, by rw [← hm]; congr 1; omega⟩
    exact ⟨m :: ls, by simp [leadersFrom, hls, Res.bind]; rw [Nat.add_zero] at hm; rw [hm]⟩

theorem leaders_ok {ws : List Winding} (h : Paired ws) : ∃ ls, leaders ws = .ok ls :=
  leadersFrom_ok fun i w hw => by
    obtain ⟨m, hm, _⟩ := leader_spec h hw
    exact ⟨m, by rw [Nat.zero_add]; exact hm⟩

/-- The leader of each winding is the first of those wound together with it. -/
theorem leaders_spec {ws : List Winding} (h : Paired ws) {ls : List Nat} (hl : leaders ws = .ok ls) {i m : Nat}
    (hi : ls[i]? = some m) : Together ws i m ∧ ∀ j, Together ws i j → m ≤ j := by
  have hlt : i < ws.length := by
    rw [← leaders_length hl]
    exact (List.getElem?_eq_some_iff.mp hi).1
  have hw := List.getElem?_eq_getElem hlt
  obtain ⟨m', h1, h2, _⟩ := leaders_get hl hw
  obtain ⟨m'', h3, h4, h5⟩ := leader_spec h hw
  rw [hi, Option.some.injEq] at h1
  rw [h2, Res.ok.injEq] at h3
  subst h1 h3
  exact ⟨h4, h5⟩

theorem leaders_eq_iff {ws : List Winding} (h : Paired ws) {ls : List Nat} (hl : leaders ws = .ok ls) {i j : Nat}
    (hi : i < ws.length) (hj : j < ws.length) : ls[i]? = ls[j]? ↔ Together ws i j := by
  have hlen := leaders_length hl
  have gi := List.getElem?_eq_getElem (show i < ls.length by omega)
  have gj := List.getElem?_eq_getElem (show j < ls.length by omega)
  obtain ⟨h1, h2⟩ := leaders_spec h hl gi
  obtain ⟨h3, h4⟩ := leaders_spec h hl gj
  constructor
  · intro he
    rw [gi, gj, Option.some.injEq] at he
    rw [← he] at h3
    exact together_trans h h1 (together_symm h h3)
  · intro ht
    rw [gi, gj, Option.some.injEq]
    exact le_antisymm (h2 _ (together_trans h ht h3)) (h4 _ (together_trans h (together_symm h ht) h1))

theorem leaders_idem {ws : List Winding} (h : Paired ws) {ls : List Nat} (hl : leaders ws = .ok ls) {i m : Nat}
    (hi : ls[i]? = some m) : ls[m]? = some m := by
  obtain ⟨h1, _⟩ := leaders_spec h hl hi
  have hil : i < ws.length := by
    rw [← leaders_length hl]
    exact (List.getElem?_eq_some_iff.mp hi).1
  have hml : m < ws.length := by
    obtain ⟨_, b, _, hb, _⟩ := h1
    exact (List.getElem?_eq_some_iff.mp hb).1
  rw [← (leaders_eq_iff h hl hil hml).mpr h1, hi]

/-- Two windings have the same virtual winding exactly when they are wound together. -/
theorem virtualIndexes_iff {ws : List Winding} (h : Paired ws) {ls : List Nat} (hl : leaders ws = .ok ls) {i j : Nat}
    (hi : i < ws.length) (hj : j < ws.length) :
    (virtualIndexes ls)[i]? = (virtualIndexes ls)[j]? ↔ Together ws i j := by
  rw [← leaders_eq_iff h hl hi hj]
  have hlen := leaders_length hl
  have hle : ∀ i m : Nat, ls[i]? = some m → m ≤ i := fun i m hm => leaders_le hl hm
  have gi := List.getElem?_eq_getElem (show i < ls.length by omega)
  have gj := List.getElem?_eq_getElem (show j < ls.length by omega)
  rw [virtualIndexes_leader hle gi, virtualIndexes_leader hle gj, gi, gj, Option.some.injEq]
  have ii := leaders_idem h hl gi
  have ij := leaders_idem h hl gj
  constructor
  · intro he
    rcases Nat.lt_trichotomy ls[i] ls[j] with hlt | heq | hgt
    · exact absurd he (virtualIndexes_new hle ij _ hlt)
    · exact heq
    · exact absurd he.symm (virtualIndexes_new hle ii _ hgt)
  · intro he
    rw [he]

end Verif.WoundWith
