import Verif.WindingLosses.OhmicLemmas
import Verif.Harmonics.Props

/-! # Pruning the harmonics of the currents -/

set_option linter.unusedSimpArgs false

namespace Verif.WindingLosses

/-! ## Specification -/

/-- A harmonic other than the first, with an amplitude times root of frequency of at least the threshold times that of
any other of the same signal. -/
def Significant (rt : ℚ → ℚ) (threshold : ℚ) (h : Harmonics) (k : Nat) : Prop :=
  1 ≤ k ∧ ∃ a f : ℚ, h.amplitudes[k]? = some a ∧ h.frequencies[k]? = some f ∧ 0 ≤ a * rt f ∧
    ∀ (m : Nat) (b g : ℚ), 1 ≤ m → h.amplitudes[m]? = some b → h.frequencies[m]? = some g →
      b * rt g * threshold ≤ a * rt f

/-- The harmonics of the current of a winding. -/
def Has (excitations : List (Option Current)) (h : Harmonics) : Prop :=
  ∃ c : Current, some c ∈ excitations ∧ c.harmonics = some h

/-- At least a first harmonic, and a frequency for every amplitude. -/
def Proper (h : Harmonics) : Prop := 0 < h.amplitudes.length ∧ h.amplitudes.length ≤ h.frequencies.length

/-! ## Lemmas -/

theorem mainIndexes_ok {rt : ℚ → ℚ} {th : ℚ} {h : Harmonics} {l : List Nat} (h0 : 0 ≤ th)
    (hl : mainIndexes rt th h = .ok l) : ∀ k : Nat, k ∈ l ↔ Significant rt th h k := by
  unfold mainIndexes at hl
  generalize hg : (⟨h.amplitudes, h.frequencies⟩ : Verif.Harmonics.Harmonics ℚ) = g at hl
  have ea : g.amplitudes = h.amplitudes := by subst hg; rfl
  have ef : g.frequencies = h.frequencies := by subst hg; rfl
  cases hm : Verif.Harmonics.mainIndexesOfHarmonics rt g th none with
  | throws => simp [hm] at hl
  | ub => simp [hm] at hl
  | ok l' =>
    simp only [hm, Res.ok.injEq] at hl; subst hl
    obtain ⟨m, hr, hs⟩ := Verif.Harmonics.bind_ok.1 hm
    obtain ⟨L1, L2, L3⟩ := Verif.Harmonics.largest_of_reference hr
    obtain ⟨_, s2, _⟩ := Verif.Harmonics.selectLoop_ok (by simpa using Verif.Harmonics.indexes_sorted g) hs
    intro k
    rw [s2]
    simp only [List.not_mem_nil, false_or, Verif.Harmonics.mem_indexes, Verif.Harmonics.weighted_iff,
      Verif.Harmonics.Weighted, Significant, ea, ef]
    constructor
    · rintro ⟨⟨hk1, hk2⟩, w, ⟨a, f, ha, hf, rfl⟩, hw⟩
      refine ⟨hk1, a, f, ha, hf, le_trans (mul_nonneg L1 h0) hw, ?_⟩
      intro j b g' hj hb hg'
      refine le_trans (mul_le_mul_of_nonneg_right ?_ h0) hw
      exact L3 j _ ⟨hj, by rw [ea]; exact (List.getElem?_eq_some_iff.1 hb).1⟩ ⟨b, g', by rw [ea]; exact hb, by rw [ef]; exact hg', rfl⟩
    · rintro ⟨hk1, a, f, ha, hf, hnn, hall⟩
      refine ⟨⟨hk1, (List.getElem?_eq_some_iff.1 ha).1⟩, a * rt f, ⟨a, f, ha, hf, rfl⟩, ?_⟩
      rcases L2 with h2 | ⟨i, hp, b, g', hb, hg', rfl⟩
      · rw [h2, zero_mul]; exact hnn
      · exact hall i b g' hp.1 (by rw [← ea]; exact hb) (by rw [← ef]; exact hg')

theorem mainIndexes_total {rt : ℚ → ℚ} {th : ℚ} {h : Harmonics} (hs : h.amplitudes.length ≤ h.frequencies.length) :
    ∃ l : List Nat, mainIndexes rt th h = .ok l ∧ ∀ k ∈ l, k < h.amplitudes.length := by
  have hc : Verif.Harmonics.Complete (⟨h.amplitudes, h.frequencies⟩ : Verif.Harmonics.Harmonics ℚ) := by
    unfold Verif.Harmonics.Complete; simp only; omega
  have hw := (Verif.Harmonics.complete_iff (rt := rt)).2 hc
  obtain ⟨m, hm⟩ := Verif.Harmonics.maxLoop_total (rt := rt) (acc := 0) hw
  obtain ⟨l, hl⟩ := Verif.Harmonics.selectLoop_total (rt := rt) (limit := m * th) (acc := []) hw
  refine ⟨l, ?_, ?_⟩
  · unfold mainIndexes Verif.Harmonics.mainIndexesOfHarmonics Verif.Harmonics.reference
    simp only [hm, Verif.Harmonics.Res.bind, hl]
  · obtain ⟨_, s2, _⟩ := Verif.Harmonics.selectLoop_ok (by simpa using Verif.Harmonics.indexes_sorted _) hl
    intro k hk
    rcases (s2 k).1 hk with h' | ⟨h', _⟩
    · simp at h'
    · exact (Verif.Harmonics.mem_indexes.1 h').2

theorem collectOne_ok {h : Harmonics} {is : List Nat} {acc l : List (Nat × ℚ)} (hl : collectOne h is acc = .ok l)
    (hn : (acc.map Prod.fst).Nodup) : (l.map Prod.fst).Nodup ∧
      (∀ k : Nat, k ∈ l.map Prod.fst ↔ k ∈ acc.map Prod.fst ∨ k ∈ is) ∧
      ∀ kf ∈ l, kf ∈ acc ∨ h.frequencies[kf.1]? = some kf.2 := by
  induction is generalizing acc with
  | nil => simp only [collectOne, Res.ok.injEq] at hl; subst hl; simp [hn]; intros; tauto
  | cons i is ih =>
    unfold collectOne at hl
    by_cases hi : i ∈ acc.map Prod.fst
    · rw [if_pos hi] at hl
      obtain ⟨h1, h2, h3⟩ := ih hl hn
      refine ⟨h1, fun k => ?_, h3⟩
      rw [h2 k, List.mem_cons]
      constructor
      · tauto
      · rintro (hk | rfl | hk)
        · exact .inl hk
        · exact .inl hi
        · exact .inr hk
    · rw [if_neg hi] at hl
      cases hf : h.frequencies[i]? with
      | none => simp [hf] at hl
      | some f =>
        simp only [hf] at hl
        obtain ⟨h1, h2, h3⟩ := ih hl (by
          rw [List.map_append, List.nodup_append]
          refine ⟨hn, by simp, ?_⟩
          intro a ha b hb e
          simp only [List.map_cons, List.map_nil, List.mem_singleton] at hb
          subst hb; subst e; exact hi ha)
        refine ⟨h1, fun k => ?_, fun kf hkf => ?_⟩
        · rw [h2 k, List.map_append, List.mem_append, List.mem_cons]; simp; tauto
        · rcases h3 kf hkf with h' | h'
          · rcases List.mem_append.1 h' with h' | h'
            · exact .inl h'
            · simp only [List.mem_singleton] at h'; subst h'; exact .inr hf
          · exact .inr h'

theorem collectOne_total {h : Harmonics} {is : List Nat} {acc : List (Nat × ℚ)} (hi : ∀ i ∈ is, i < h.frequencies.length) :
    ∃ l : List (Nat × ℚ), collectOne h is acc = .ok l := by
  induction is generalizing acc with
  | nil => exact ⟨acc, rfl⟩
  | cons i is ih =>
    unfold collectOne
    have hr : ∀ j ∈ is, j < h.frequencies.length := fun j hj => hi j (by simp [hj])
    split
    · exact ih hr
    · rw [List.getElem?_eq_getElem (hi i (by simp))]; exact ih hr

theorem collect_ok {rt : ℚ → ℚ} {th : ℚ} (h0 : 0 ≤ th) {hs : List Harmonics} {acc l : List (Nat × ℚ)}
    (hl : collect rt th hs acc = .ok l) (hn : (acc.map Prod.fst).Nodup) : (l.map Prod.fst).Nodup ∧
      (∀ k : Nat, k ∈ l.map Prod.fst ↔ k ∈ acc.map Prod.fst ∨ ∃ h ∈ hs, Significant rt th h k) ∧
      ∀ kf ∈ l, kf ∈ acc ∨ ∃ h ∈ hs, h.frequencies[kf.1]? = some kf.2 := by
  induction hs generalizing acc with
  | nil => simp only [collect, Res.ok.injEq] at hl; subst hl; simp [hn]
  | cons h hs ih =>
    obtain ⟨is, h1, hl⟩ := Res.bind_ok hl
    obtain ⟨acc', h2, hl⟩ := Res.bind_ok hl
    obtain ⟨a1, a2, a3⟩ := collectOne_ok h2 hn
    obtain ⟨b1, b2, b3⟩ := ih hl a1
    refine ⟨b1, fun k => ?_, fun kf hkf => ?_⟩
    · rw [b2 k, a2 k, mainIndexes_ok h0 h1 k]
      constructor
      · rintro ((hk | hk) | ⟨h', hm, hk⟩)
        · exact .inl hk
        · exact .inr ⟨h, by simp, hk⟩
        · exact .inr ⟨h', by simp [hm], hk⟩
      · rintro (hk | ⟨h', hm, hk⟩)
        · exact .inl (.inl hk)
        · rcases List.mem_cons.1 hm with rfl | hm
          · exact .inl (.inr hk)
          · exact .inr ⟨h', hm, hk⟩
    · rcases b3 kf hkf with h' | ⟨h', hm, hk⟩
      · rcases a3 kf h' with h' | h'
        · exact .inl h'
        · exact .inr ⟨h, by simp, h'⟩
      · exact .inr ⟨h', by simp [hm], hk⟩

theorem collect_total {rt : ℚ → ℚ} {th : ℚ} {hs : List Harmonics} {acc : List (Nat × ℚ)} (h : ∀ x ∈ hs, Proper x) :
    ∃ l : List (Nat × ℚ), collect rt th hs acc = .ok l := by
  induction hs generalizing acc with
  | nil => exact ⟨acc, rfl⟩
  | cons x hs ih =>
    have hx := h x (by simp)
    obtain ⟨is, h1, h2⟩ := mainIndexes_total (rt := rt) (th := th) hx.2
    obtain ⟨acc', h3⟩ := collectOne_total (h := x) (is := is) (acc := acc) fun i hi => by have := h2 i hi; have := hx.2; omega
    obtain ⟨l, h4⟩ := ih (acc := acc') fun y hy => h y (by simp [hy])
    exact ⟨l, by rw [collect, h1]; simp only [Res.bind, h3]; exact h4⟩

theorem Res.mapM_total {α β : Type} {f : α → Res β} : ∀ l : List α, (∀ a ∈ l, ∃ b : β, f a = .ok b) →
    ∃ r : List β, Res.mapM f l = .ok r
  | [], _ => ⟨[], rfl⟩
  | a :: l, h => by
    obtain ⟨b, hb⟩ := h a (by simp)
    obtain ⟨r, hr⟩ := Res.mapM_total l fun x hx => h x (by simp [hx])
    exact ⟨b :: r, by rw [Res.mapM, hb]; simp only [Res.bind, hr]⟩

theorem filterMap_all {α β : Type} {f : α → Option β} : ∀ l : List α, (∀ a ∈ l, (f a).isSome = true) →
    List.Forall₂ (fun a b => f a = some b) l (l.filterMap f)
  | [], _ => .nil
  | a :: l, h => by
    obtain ⟨b, hb⟩ := Option.isSome_iff_exists.1 (h a (by simp))
    rw [List.filterMap_cons, hb]
    exact .cons hb (filterMap_all l fun x hx => h x (by simp [hx]))

theorem withHarmonics_eq {x : Option Current} {c : Current} {h : Harmonics} :
    withHarmonics x = some (c, h) ↔ x = some c ∧ c.harmonics = some h := by
  cases x with
  | none => simp [withHarmonics]
  | some d =>
    simp only [withHarmonics, Option.map_eq_some_iff, Prod.mk.injEq, Option.some.injEq]
    constructor
    · rintro ⟨y, hy, rfl, rfl⟩; exact ⟨rfl, hy⟩
    · rintro ⟨rfl, hy⟩; exact ⟨h, hy, rfl, rfl⟩

theorem mem_harmonics {exc : List (Option Current)} {h : Harmonics} :
    h ∈ (exc.filterMap withHarmonics).map Prod.snd ↔ Has exc h := by
  simp only [List.mem_map, List.mem_filterMap, Has]
  constructor
  · rintro ⟨⟨c, h'⟩, ⟨x, hx, hw⟩, rfl⟩
    obtain ⟨rfl, hh⟩ := withHarmonics_eq.1 hw
    exact ⟨c, hx, hh⟩
  · rintro ⟨c, hx, hh⟩
    exact ⟨(c, h), ⟨some c, hx, withHarmonics_eq.2 ⟨rfl, hh⟩⟩, rfl⟩

theorem kept_ok {h : Harmonics} {keep : List (Nat × ℚ)} {l : List (ℚ × ℚ)}
    (hF : List.Forall₂ (fun a b => keptOf h a = .ok b) keep l) :
    l.map Prod.fst = keep.map (fun k => (h.amplitudes[k.1]?).getD 0) ∧ l.length = keep.length ∧
      ∀ (p : Nat) (k : Nat × ℚ), keep[p]? = some k →
        (l.map Prod.snd)[p]? = if k.1 < h.amplitudes.length then h.frequencies[k.1]? else some k.2 := by
  induction hF with
  | nil => simp
  | @cons k b keep l hab _ ih =>
    obtain ⟨i1, i2, i3⟩ := ih
    have hb : b.1 = (h.amplitudes[k.1]?).getD 0 ∧
        some b.2 = if k.1 < h.amplitudes.length then h.frequencies[k.1]? else some k.2 := by
      unfold keptOf at hab
      cases ha : h.amplitudes[k.1]? with
      | none =>
        simp only [ha, Res.ok.injEq] at hab; subst hab
        rw [if_neg (by rw [List.getElem?_eq_none_iff] at ha; omega)]; simp
      | some a =>
        cases hf : h.frequencies[k.1]? with
        | none => simp [ha, hf] at hab
        | some f =>
          simp only [ha, hf, Res.ok.injEq] at hab; subst hab
          rw [if_pos (List.getElem?_eq_some_iff.1 ha).1]; simp
    refine ⟨by rw [List.map_cons, List.map_cons, i1, hb.1], by simp [i2], ?_⟩
    intro p k' hk'
    cases p with
    | zero => simp only [List.getElem?_cons_zero, Option.some.injEq] at hk'; subst hk'; simpa using hb.2
    | succ p => simp only [List.getElem?_cons_succ] at hk'; simpa using i3 p k' hk'

theorem prune_unfold {rt : ℚ → ℚ} {th : ℚ} {exc out : List (Option Current)}
    (hall : ∀ x ∈ exc, (withHarmonics x).isSome = true) (h : prune rt th exc = .ok out) :
    ∃ keep : List (Nat × ℚ), collect rt th ((exc.filterMap withHarmonics).map Prod.snd) [] = .ok keep ∧
      List.Forall₂ (fun x y => ∃ (c : Current) (h h' : Harmonics), x = some c ∧ c.harmonics = some h ∧
        pruneOne (keep.insertionSort fun a b => a.1 ≤ b.1) h = .ok h' ∧ y = some { c with harmonics := some h' }) exc out := by
  unfold prune at h
  rw [if_pos (List.all_eq_true.2 hall)] at h
  obtain ⟨keep, h1, h2⟩ := Res.bind_ok h
  refine ⟨keep, h1, ?_⟩
  have hF := Res.mapM_ok h2
  have hG := filterMap_all exc hall
  clear h h1 h2
  generalize exc.filterMap withHarmonics = l at hF hG
  clear hall
  induction hG generalizing out with
  | nil => cases hF; exact .nil
  | @cons x b exc l hab _ ih =>
    cases hF with
    | cons hbc hF =>
      obtain ⟨h', e1, e2⟩ := Res.bind_ok hbc
      simp only [Res.ok.injEq] at e2
      obtain ⟨c, hh⟩ := b
      obtain ⟨rfl, hc⟩ := withHarmonics_eq.1 hab
      exact .cons ⟨c, hh, h', rfl, hc, e1, e2.symm⟩ (ih hF)

/-! ## Theorems -/

/-- C90: pruning keeps the same harmonics in every winding: the first, and those that are significant in any of them, in
order. Each is kept with its amplitude and its frequency; where a winding does not have it, with nothing, at the frequency
it has in another. All else of the currents stays. -/
theorem prune_keeps {rt : ℚ → ℚ} {th : ℚ} (h0 : 0 ≤ th) {exc out : List (Option Current)}
    (hall : ∀ x ∈ exc, ∃ (c : Current) (h : Harmonics), x = some c ∧ c.harmonics = some h)
    (h : prune rt th exc = .ok out) :
    ∃ kept : List Nat, kept.Pairwise (· < ·) ∧
      (∀ k : Nat, k ∈ kept ↔ k = 0 ∨ ∃ h : Harmonics, Has exc h ∧ Significant rt th h k) ∧ out.length = exc.length ∧
      ∀ (i : Nat) (c : Current) (h : Harmonics), exc[i]? = some (some c) → c.harmonics = some h →
        ∃ h' : Harmonics, out[i]? = some (some { c with harmonics := some h' }) ∧
          h'.amplitudes = kept.map (fun k => (h.amplitudes[k]?).getD 0) ∧ h'.frequencies.length = kept.length ∧
          ∀ p k : Nat, kept[p]? = some k → ∃ f : ℚ, h'.frequencies[p]? = some f ∧
            (k < h.amplitudes.length → h.frequencies[k]? = some f) ∧
            ∃ g : Harmonics, Has exc g ∧ g.frequencies[k]? = some f := by
  have hall' : ∀ x ∈ exc, (withHarmonics x).isSome = true := by
    intro x hx; obtain ⟨c, hh, rfl, hc⟩ := hall x hx; rw [withHarmonics_eq.2 ⟨rfl, hc⟩]; rfl
  obtain ⟨keep, hk, hF⟩ := prune_unfold hall' h
  obtain ⟨c1, c2, c3⟩ := collect_ok h0 hk (by simp)
  simp only [List.map_nil, List.not_mem_nil, false_or, mem_harmonics] at c2 c3
  have hperm := List.perm_insertionSort (fun a b : Nat × ℚ => a.1 ≤ b.1) keep
  have hsort : (keep.insertionSort fun a b => a.1 ≤ b.1).Pairwise fun a b => a.1 ≤ b.1 :=
    List.pairwise_insertionSort (fun a b : Nat × ℚ => a.1 ≤ b.1) keep
  generalize hs : (keep.insertionSort fun a b => a.1 ≤ b.1) = sorted at hF hperm hsort
  have hnd : (sorted.map Prod.fst).Nodup := (hperm.map Prod.fst).nodup_iff.2 c1
  have hmem : ∀ k : Nat, k ∈ sorted.map Prod.fst ↔ ∃ h : Harmonics, Has exc h ∧ Significant rt th h k := by
    intro k; rw [(hperm.map Prod.fst).mem_iff]; exact c2 k
  have hlt : (sorted.map Prod.fst).Pairwise (· < ·) := by
    have h1 : (sorted.map Prod.fst).Pairwise (· ≤ ·) := List.pairwise_map.2 hsort
    exact (h1.and hnd).imp fun h => lt_of_le_of_ne h.1 h.2
  have hlen := forall₂_length hF
  refine ⟨0 :: sorted.map Prod.fst, ?_, ?_, hlen, ?_⟩
  · refine List.pairwise_cons.2 ⟨?_, hlt⟩
    intro k hk; obtain ⟨_, _, hsig⟩ := (hmem k).1 hk; have := hsig.1; omega
  · intro k; rw [List.mem_cons, hmem k]
  · intro i c hh hi hc
    obtain ⟨y, hy, c', g, h', e1, e2, e3, e4⟩ := forall₂_get hF i hi
    simp only [Option.some.injEq] at e1; subst e1
    rw [hc, Option.some.injEq] at e2; subst e2
    subst e4
    refine ⟨h', hy, ?_⟩
    unfold pruneOne at e3
    cases ha : hh.amplitudes[0]? with
    | none => simp [ha] at e3
    | some a =>
      cases hf : hh.frequencies[0]? with
      | none => simp [ha, hf] at e3
      | some f =>
        simp only [ha, hf] at e3
        obtain ⟨l, e5, e3⟩ := Res.bind_ok e3
        simp only [Res.ok.injEq] at e3; subst e3
        obtain ⟨k1, k2, k3⟩ := kept_ok (Res.mapM_ok e5)
        have hhas : Has exc hh := ⟨c, List.mem_of_getElem? hi, hc⟩
        refine ⟨?_, by simp [k2], ?_⟩
        · simp only [List.map_cons, ha, Option.getD_some, k1, List.map_map]; rfl
        · intro p k hp
          cases p with
          | zero =>
            simp only [List.getElem?_cons_zero, Option.some.injEq] at hp; subst hp
            exact ⟨f, rfl, fun _ => hf, hh, hhas, hf⟩
          | succ p =>
            simp only [List.getElem?_cons_succ, List.getElem?_map, Option.map_eq_some_iff] at hp
            obtain ⟨kf, hkf, rfl⟩ := hp
            have hq := k3 p kf hkf
            have hmk : kf ∈ keep := hperm.mem_iff.1 (List.mem_of_getElem? hkf)
            simp only [List.getElem?_cons_succ]
            have hpl : p < (l.map Prod.snd).length := by
              rw [List.length_map, k2]; exact (List.getElem?_eq_some_iff.1 hkf).1
            refine ⟨(l.map Prod.snd)[p], List.getElem?_eq_getElem hpl, ?_, ?_⟩
            · intro hlt'; rw [if_pos hlt', List.getElem?_eq_getElem hpl] at hq; exact hq.symm
            · by_cases hlt' : kf.1 < hh.amplitudes.length
              · rw [if_pos hlt', List.getElem?_eq_getElem hpl] at hq; exact ⟨hh, hhas, hq.symm⟩
              · rw [if_neg hlt', List.getElem?_eq_getElem hpl] at hq
                obtain ⟨g, hg, hgf⟩ := c3 kf hmk
                exact ⟨g, hg, by rw [hgf, hq]⟩

/-- C90: pruning works for all currents whose harmonics have at least the first and a frequency for every amplitude, and
leaves everything alone when some winding has no current or no harmonics. -/
theorem prune_defined {rt : ℚ → ℚ} {th : ℚ} {exc : List (Option Current)} :
    ((∀ h : Harmonics, Has exc h → Proper h) → ∃ out : List (Option Current), prune rt th exc = .ok out) ∧
      ((∃ x ∈ exc, ∀ (c : Current) (h : Harmonics), x = some c → c.harmonics ≠ some h) → prune rt th exc = .ok exc) := by
  constructor
  · intro hs
    unfold prune
    split
    · rename_i hall
      obtain ⟨keep, hk⟩ := collect_total (rt := rt) (th := th) (hs := (exc.filterMap withHarmonics).map Prod.snd) (acc := [])
        fun x hx => hs x (mem_harmonics.1 hx)
      rw [hk]
      simp only [Res.bind]
      apply Res.mapM_total
      intro ch hch
      have hproper := hs ch.2 (mem_harmonics.1 (List.mem_map.2 ⟨ch, hch, rfl⟩))
      obtain ⟨l, hl⟩ := Res.mapM_total (f := keptOf ch.2) (keep.insertionSort fun a b => a.1 ≤ b.1) (by
        intro k _
        unfold keptOf
        cases ha : ch.2.amplitudes[k.1]? with
        | none => exact ⟨_, rfl⟩
        | some a =>
          have := (List.getElem?_eq_some_iff.1 ha).1
          rw [List.getElem?_eq_getElem (l := ch.2.frequencies) (i := k.1) (by have := hproper.2; omega)]
          exact ⟨_, rfl⟩)
      unfold pruneOne
      rw [List.getElem?_eq_getElem hproper.1, List.getElem?_eq_getElem (Nat.lt_of_lt_of_le hproper.1 hproper.2)]
      simp only [hl, Res.bind]
      exact ⟨_, rfl⟩
    · exact ⟨exc, rfl⟩
  · rintro ⟨x, hx, hn⟩
    unfold prune
    rw [if_neg]
    intro hall
    obtain ⟨⟨c, h⟩, hw⟩ := Option.isSome_iff_exists.1 (List.all_eq_true.1 hall x hx)
    obtain ⟨h1, h2⟩ := withHarmonics_eq.1 hw
    exact hn c h h1 h2

/-- The case of `prune_keeps`: the third harmonic of the first winding is small, but not that of the second, and the
fourth is only in the first. -/
example : prune id (1 / 10) [some ⟨some 5, none, some ⟨[1, 4, 0, 2], [0, 100, 200, 300]⟩⟩,
      some ⟨none, some 1, some ⟨[0, 2, 1], [0, 100, 200]⟩⟩] =
    .ok [some ⟨some 5, none, some ⟨[1, 4, 0, 2], [0, 100, 200, 300]⟩⟩,
      some ⟨none, some 1, some ⟨[0, 2, 1, 0], [0, 100, 200, 300]⟩⟩] ∧
    prune id (1 / 10) [some ⟨some 5, none, some ⟨[1, 4, 0, 2], [0, 100, 200, 300]⟩⟩,
      some ⟨none, some 1, some ⟨[0, 2], [0, 100]⟩⟩] =
    .ok [some ⟨some 5, none, some ⟨[1, 4, 2], [0, 100, 300]⟩⟩,
      some ⟨none, some 1, some ⟨[0, 2, 0], [0, 100, 300]⟩⟩] := by
  decide +kernel

/-- Harmonics without the first are read past the end. -/
theorem prune_empty : ∃ (rt : ℚ → ℚ) (th : ℚ) (exc : List (Option Current)), prune rt th exc = .ub :=
  ⟨id, 1 / 10, [some ⟨some 1, none, some ⟨[], []⟩⟩], by decide +kernel⟩

end Verif.WindingLosses
