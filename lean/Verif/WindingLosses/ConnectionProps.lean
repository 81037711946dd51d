import Verif.WindingLosses.Props

/-! # Properties of connections and crossings -/

set_option linter.unusedSimpArgs false

namespace Verif.WindingLosses

variable {resistance : Wire → ℚ} {real : Bool} {c : Coil} {exc : List (Option Current)} {o : Output}

/-! ## Lengths of connections -/

/-- The markers of a parallel of a winding, terminal or not. -/
def markersOf (spaces : List Space) (name : String) (p : Nat) (terminal : Bool) : List Space :=
  spaces.filter fun s => s.winding == name && s.parallel == (p : Int) && s.terminal == terminal

/-- The length routed over markers. -/
def routedLength (l : List Space) : ℚ := (l.map fun s => s.routed.getD 0).sum

theorem markerOf_ok {ws : List Winding} (hn : (ws.map Winding.name).Nodup) {s : Space}
    {m : Option (Nat × Nat × Bool × ℚ)} (h : markerOf ws s = .ok m) {w : Nat} {x : Winding} (hx : ws[w]? = some x) :
    (s.winding = x.name → 0 ≤ s.parallel → s.parallel < x.parallels →
      ∃ l : ℚ, s.routed = some l ∧ m = some (w, s.parallel.toNat, s.terminal, l)) ∧
    ∀ (p : Nat) (t : Bool) (l : ℚ), m = some (w, p, t, l) →
      s.winding = x.name ∧ s.parallel = p ∧ s.terminal = t ∧ s.routed = some l := by
  obtain ⟨w', hw', h⟩ := Res.bind_ok h
  obtain ⟨x', hx', hnm⟩ := windingIndex_ok hw'
  rw [hx'] at h
  simp only at h
  constructor
  · intro h1 h2 h3
    have hww : w' = w := by rw [h1, windingIndex_of hn hx, Res.ok.injEq] at hw'; exact hw'.symm
    subst hww
    rw [hx, Option.some.injEq] at hx'; subst hx'
    rw [if_neg (by omega)] at h
    cases hr : s.routed with
    | none => simp [hr] at h
    | some l => simp only [hr, Res.ok.injEq] at h; exact ⟨l, rfl, h.symm⟩
  · intro p t l hm
    subst hm
    split at h
    · simp at h
    · rename_i hc
      cases hr : s.routed with
      | none => simp [hr] at h
      | some l' =>
        simp only [hr, Res.ok.injEq, Option.some.injEq, Prod.mk.injEq] at h
        obtain ⟨h1, h2, h3, h4⟩ := h
        subst h1
        rw [hx, Option.some.injEq] at hx'; subst hx'
        exact ⟨hnm.symm, by omega, h3, by rw [h4]⟩

theorem markerSum_none (ms : List (Option (Nat × Nat × Bool × ℚ))) (w p : Nat) (t : Bool) :
    markerSum (none :: ms) w p t = markerSum ms w p t := rfl

theorem markerSum_hit (ms : List (Option (Nat × Nat × Bool × ℚ))) (w p : Nat) (t : Bool) (l : ℚ) :
    markerSum (some (w, p, t, l) :: ms) w p t = l + markerSum ms w p t := by
  unfold markerSum
  rw [List.filterMap_cons_some (b := l) (by simp), List.sum_cons]

theorem markerSum_miss (ms : List (Option (Nat × Nat × Bool × ℚ))) {w p w' p' : Nat} {t t' : Bool} (l : ℚ)
    (h : ¬ (w' = w ∧ p' = p ∧ t' = t)) : markerSum (some (w', p', t', l) :: ms) w p t = markerSum ms w p t := by
  unfold markerSum
  rw [List.filterMap_cons_none (by simp only [if_neg h])]

theorem markerSum_eq {ws : List Winding} (hn : (ws.map Winding.name).Nodup) {w : Nat} {x : Winding}
    (hx : ws[w]? = some x) {p : Nat} (hp : p < x.parallels) (t : Bool) {spaces : List Space}
    {ms : List (Option (Nat × Nat × Bool × ℚ))} (h : List.Forall₂ (fun s m => markerOf ws s = .ok m) spaces ms) :
    markerSum ms w p t = routedLength (markersOf spaces x.name p t) := by
  induction h with
  | nil => rfl
  | @cons s m spaces ms hm _ ih =>
    obtain ⟨h1, h2⟩ := markerOf_ok hn hm hx
    by_cases hs : s.winding = x.name ∧ s.parallel = p ∧ s.terminal = t
    · obtain ⟨e1, e2, e3⟩ := hs
      obtain ⟨l, hr, rfl⟩ := h1 e1 (by omega) (by omega)
      have hpn : s.parallel.toNat = p := by omega
      rw [hpn, e3, markerSum_hit, ih]
      unfold routedLength markersOf
      rw [List.filter_cons, if_pos (by simp [e1, e2, e3]), List.map_cons, List.sum_cons, hr, Option.getD_some]
    · have hf : ¬ (s.winding == x.name && s.parallel == (p : Int) && s.terminal == t) = true := by
        intro hb
        simp only [Bool.and_eq_true, beq_iff_eq] at hb
        exact hs ⟨hb.1.1, hb.1.2, hb.2⟩
      have e : routedLength (markersOf (s :: spaces) x.name p t) = routedLength (markersOf spaces x.name p t) := by
        unfold markersOf
        rw [List.filter_cons, if_neg hf]
      rw [e, ← ih]
      match m, h2 with
      | none, _ => rfl
      | some (w', p', t', l), h2 =>
        apply markerSum_miss
        rintro ⟨rfl, rfl, rfl⟩
        obtain ⟨g1, g2, g3, _⟩ := h2 _ _ _ rfl
        exact hs ⟨g1, g2, g3⟩

theorem forall₂_mem {α β : Type} {R : α → β → Prop} {l : List α} {r : List β} (h : List.Forall₂ R l r) :
    ∀ a ∈ l, ∃ b : β, R a b := by
  induction h with
  | nil => simp
  | cons hab _ ih =>
    intro a ha
    rcases List.mem_cons.1 ha with rfl | ha
    · exact ⟨_, hab⟩
    · exact ih a ha

/-- C87: the copper of the connections of a parallel is what was routed between its sections plus its leads: an even share
of the lengths the user gave, or what was routed for them if the user gave none. No marker of an existing parallel is
without its length. -/
theorem connection_lengths (hn : (c.windings.map Winding.name).Nodup) {lengths : List (List ℚ)}
    (h : connectionLengths true c = .ok lengths) {w : Nat} {x : Winding} (hx : c.windings[w]? = some x) :
    (∀ s ∈ c.spaces, s.winding = x.name → 0 ≤ s.parallel → s.parallel < x.parallels → s.routed.isSome = true) ∧
    ∃ ls : List ℚ, lengths[w]? = some ls ∧ ls.length = x.parallels ∧ ∀ p < x.parallels,
      ls[p]? = some (routedLength (markersOf c.spaces x.name p false) +
        if 0 < x.provided.sum then x.provided.sum / x.parallels
        else routedLength (markersOf c.spaces x.name p true)) := by
  unfold connectionLengths at h
  rw [if_pos rfl] at h
  split at h
  · simp at h
  · obtain ⟨ms, hms, h⟩ := Res.bind_ok h
    simp only [Res.ok.injEq] at h; subst h
    have hF := Res.mapM_ok hms
    constructor
    · intro s hs h1 h2 h3
      obtain ⟨m, hm⟩ := forall₂_mem hF s hs
      obtain ⟨l, hl, _⟩ := (markerOf_ok hn hm hx).1 h1 h2 h3
      rw [hl]; rfl
    · refine ⟨_, by rw [List.getElem?_mapIdx, hx]; rfl, by simp, ?_⟩
      intro p hp
      rw [List.getElem?_map, List.getElem?_range hp, Option.map_some, connectionLength,
        markerSum_eq hn hx hp false hF, markerSum_eq hn hx hp true hF]

theorem Res.mapM_given {α β : Type} {f : α → Res β} {l : List α} (h : ∀ a ∈ l, ∃ b : β, f a = .ok b) :
    ∃ r : List β, Res.mapM f l = .ok r := by
  induction l with
  | nil => exact ⟨[], rfl⟩
  | cons a l ih =>
    obtain ⟨b, hb⟩ := h a (by simp)
    obtain ⟨r, hr⟩ := ih fun a ha => h a (by simp [ha])
    exact ⟨b :: r, by simp only [Res.mapM, hb, hr, Res.bind]⟩

/-- C87: the lengths are given exactly when no wire is planar, each marker is of a winding there is, and each marker of a
parallel that its winding has says its length; a marker of another parallel need not. -/
theorem connection_lengths_given (hn : (c.windings.map Winding.name).Nodup) :
    (∃ lengths : List (List ℚ), connectionLengths true c = .ok lengths) ↔
      (∀ x ∈ c.windings, x.wire.planar = false) ∧ ∀ s ∈ c.spaces, ∃ x ∈ c.windings, s.winding = x.name ∧
        (0 ≤ s.parallel → s.parallel < x.parallels → s.routed.isSome = true) := by
  constructor
  · rintro ⟨lengths, h⟩
    have h' := h
    unfold connectionLengths at h
    rw [if_pos rfl] at h
    split at h
    · simp at h
    · rename_i hp
      refine ⟨by simpa using hp, fun s hs => ?_⟩
      obtain ⟨ms, hms, _⟩ := Res.bind_ok h
      obtain ⟨m, hm⟩ := forall₂_mem (Res.mapM_ok hms) s hs
      obtain ⟨w, hw, _⟩ := Res.bind_ok hm
      obtain ⟨x, hx, hnm⟩ := windingIndex_ok hw
      exact ⟨x, List.mem_of_getElem? hx, hnm.symm, (connection_lengths hn h' hx).1 s hs hnm.symm⟩
  · rintro ⟨hp, hs⟩
    unfold connectionLengths
    rw [if_pos rfl, if_neg (by simpa using hp)]
    obtain ⟨ms, hms⟩ : ∃ ms, Res.mapM (markerOf c.windings) c.spaces = .ok ms := by
      refine Res.mapM_given fun s hmem => ?_
      obtain ⟨x, hx, hnm, hr⟩ := hs s hmem
      obtain ⟨w, hw⟩ := List.getElem?_of_mem hx
      unfold markerOf
      rw [hnm, windingIndex_of hn hw]
      simp only [Res.bind, hw]
      split
      · exact ⟨_, rfl⟩
      · rename_i hc
        obtain ⟨l, hl⟩ := Option.isSome_iff_exists.mp (hr (by omega) (by omega))
        rw [hl]
        exact ⟨_, rfl⟩
    rw [hms]
    exact ⟨_, rfl⟩

/-- The case of `connection_lengths`: a lead the user gave, shared by two parallels, and a link of one of them. -/
example : connectionLengths true { coil with windings := [⟨"p", 2, wire, [3, 1]⟩, ⟨"s", 1, wire, []⟩], spaces := [⟨"p", 0, true, some 1⟩, ⟨"p", 1, false, some 5⟩, ⟨"s", 0, true, some 7⟩, ⟨"s", 4, true, none⟩] } = .ok [[2, 7], [7]] := by
  decide +kernel

/-! ## The total and the turns -/

theorem lengths_nonneg {lengths : List (List ℚ)} (hs : ∀ s ∈ c.spaces, ∀ l : ℚ, s.routed = some l → 0 ≤ l)
    (h : connectionLengths real c = .ok lengths) : ∀ ls ∈ lengths, ∀ l ∈ ls, 0 ≤ l := by
  unfold connectionLengths at h
  split at h
  · split at h
    · simp at h
    · obtain ⟨ms, hms, h⟩ := Res.bind_ok h
      simp only [Res.ok.injEq] at h
      have hm : ∀ (w p : Nat) (t : Bool), 0 ≤ markerSum ms w p t := by
        intro w p t
        have hF := Res.mapM_ok hms
        generalize c.spaces = spaces at hF hs
        clear hms h
        induction hF with
        | nil => simp [markerSum]
        | @cons s m spaces ms hm _ ih =>
          have ih := ih fun s hs' => hs s (by simp [hs'])
          have hl : ∀ (w' p' : Nat) (t' : Bool) (l : ℚ), m = some (w', p', t', l) → 0 ≤ l := by
            intro w' p' t' l e
            subst e
            obtain ⟨w'', _, hm⟩ := Res.bind_ok hm
            split at hm
            · simp at hm
            · split at hm
              · simp at hm
              · cases hr : s.routed with
                | none => simp [hr] at hm
                | some l' =>
                  simp only [hr, Res.ok.injEq, Option.some.injEq, Prod.mk.injEq] at hm
                  rw [← hm.2.2.2]; exact hs s (by simp) l' hr
          match m, hl with
          | none, _ => rw [markerSum_none]; exact ih
          | some (w', p', t', l), hl =>
            have := hl w' p' t' l rfl
            by_cases hc : w' = w ∧ p' = p ∧ t' = t
            · obtain ⟨rfl, rfl, rfl⟩ := hc
              rw [markerSum_hit]; linarith
            · rw [markerSum_miss _ _ hc]; exact ih
      subst h
      intro ls hls l hl
      obtain ⟨w, hw, rfl⟩ := List.mem_mapIdx.1 hls
      obtain ⟨p, _, rfl⟩ := List.mem_map.1 hl
      unfold connectionLength
      split
      · rename_i hpos
        have h1 := hm w p false
        have h2 : 0 ≤ c.windings[w].provided.sum / (c.windings[w].parallels : ℚ) := div_nonneg hpos.le (Nat.cast_nonneg _)
        linarith
      · exact add_nonneg (hm _ _ _) (hm _ _ _)
  · simp only [Res.ok.injEq] at h; subst h
    intro ls hls l hl
    obtain ⟨x, _, rfl⟩ := List.mem_map.1 hls
    obtain ⟨_, _, rfl⟩ := List.mem_map.1 hl
    exact le_refl 0

theorem connectionResistances_nonneg {ws : List Winding} {lengths cs : List (List ℚ)}
    (h : connectionResistances resistance ws lengths = .ok cs) (h0 : ∀ ls ∈ lengths, ∀ l ∈ ls, 0 ≤ l) (w p : Nat) :
    0 ≤ ((cs[w]?.getD [])[p]?).getD 0 := by
  have hall : ∀ l ∈ cs, ∀ y ∈ l, 0 ≤ y := by
    have hF := Res.mapM_ok h
    have hz : ∀ x ∈ ws.zip lengths, ∀ l ∈ x.2, 0 ≤ l := fun x hx => h0 x.2 (List.of_mem_zip hx).2
    clear h h0
    generalize ws.zip lengths = z at hF hz
    induction hF with
    | nil => simp
    | @cons a b z cs hab _ ih =>
      intro l hl
      rcases List.mem_cons.1 hl with rfl | hl
      · split at hab
        · obtain ⟨r, hr, hab⟩ := Res.bind_ok hab
          simp only [Res.ok.injEq] at hab; subst hab
          unfold perMeter at hr
          split at hr
          · simp at hr
          · rename_i hpos
            simp only [Res.ok.injEq] at hr; subst hr
            intro y hy
            obtain ⟨z', hz', rfl⟩ := List.mem_map.1 hy
            exact mul_nonneg (by linarith) (hz a (by simp) z' hz')
        · simp only [Res.ok.injEq] at hab; subst hab
          intro y hy; obtain ⟨_, _, rfl⟩ := List.mem_map.1 hy; exact le_refl 0
      · exact ih (fun x hx => hz x (by simp [hx])) l hl
  cases h1 : cs[w]? with
  | none => exact le_refl 0
  | some l =>
    cases h2 : l[p]? with
    | none => simp [h2]
    | some y => simp [h2, hall l (List.mem_of_getElem? h1) y (List.mem_of_getElem? h2)]

theorem ohmic_total_le (P : Parts resistance real c exc o) (hs : ∀ s ∈ c.spaces, ∀ l : ℚ, s.routed = some l → 0 ≤ l) :
    (P.bs.map fun b => currentAt P.currents b * currentAt P.currents b * b.resistance).sum ≤ o.total := by
  have h0 := connectionResistances_nonneg P.hcs (lengths_nonneg hs P.hlengths)
  rw [P.total_eq, ← sum_by_key Branch.winding _ (List.range c.windings.length) List.nodup_range P.bs
    fun b hb => List.mem_range.2 (P.branch_mem b hb).1]
  apply List.sum_le_sum
  intro w _
  rw [← sum_by_key Branch.parallel _ (List.range (parallelsAt c.windings w)) List.nodup_range
    (P.bs.filter fun b => decide (b.winding = w)) (by
      intro b hb
      obtain ⟨h1, h2⟩ := List.mem_filter.1 hb
      have h2 : b.winding = w := by simpa using h2
      rw [← h2]; exact List.mem_range.2 (P.branch_mem b h1).2)]
  apply List.sum_le_sum
  intro p _
  unfold series
  have hc := mul_nonneg (h0 w p) (mul_self_nonneg (currentAt P.currents ⟨w, p, 0⟩))
  rw [add_mul]
  refine le_trans (le_of_eq ?_) (le_add_of_nonneg_right hc)
  rw [← List.sum_map_mul_right, List.filter_filter]
  have hf : (fun b : Branch => b.winding == w && b.parallel == p) =
      fun b => decide (b.parallel = p) && decide (b.winding = w) := by
    funext b; rw [Bool.and_comm, beq_eq_decide, beq_eq_decide]
  rw [hf]
  congr 1
  apply List.map_congr_left
  intro b hb
  have := (List.mem_filter.1 hb).2
  simp only [Bool.and_eq_true, decide_eq_true_eq] at this
  rw [currentAt_key P.currents b, this.1, this.2]; ring

theorem M.mapM_mem {S α β : Type} {f : α → M S β} {l : List α} {s s' : S} {r : List β}
    (h : M.mapM f l s = (s', .ok r)) : ∀ b ∈ r, ∃ (a : α) (s₁ s₂ : S), a ∈ l ∧ f a s₁ = (s₂, .ok b) := by
  induction l generalizing s s' r with
  | nil => obtain ⟨h, _⟩ := M.pure_ok h; subst h; simp
  | cons a l ih =>
    obtain ⟨b, s₁, hb, h⟩ := M.bind_ok h
    obtain ⟨bs, s₂, hbs, h⟩ := M.bind_ok h
    obtain ⟨h, _⟩ := M.pure_ok h
    subst h
    intro b' hb'
    rcases List.mem_cons.1 hb' with rfl | hb'
    · exact ⟨a, s, s₁, by simp, hb⟩
    · obtain ⟨a', s₃, s₄, h1, h2⟩ := ih hbs b' hb'
      exact ⟨a', s₃, s₄, by simp [h1], h2⟩

/-- A formula whose values are never below zero. -/
def NonNegative {S : Type} (skin : Wire → ℚ → ℚ → ℚ → M S ℚ) : Prop :=
  ∀ (w : Wire) (dc f i : ℚ) (s s' : S) (v : ℚ), skin w dc f i s = (s', .ok v) → 0 ≤ v

theorem skinPerMeter_nonneg {S : Type} {skin : Wire → ℚ → ℚ → ℚ → M S ℚ} (hk : NonNegative skin) {w : Wire}
    {cu : Current} {d : ℚ} {s s' : S} {l : List (ℚ × ℚ)} (h : skinPerMeter resistance skin w cu d s = (s', .ok l)) :
    ∀ y ∈ l, 0 ≤ y.2 := by
  obtain ⟨r, s₁, _, h⟩ := M.bind_ok h
  cases hh : cu.harmonics with
  | none => simp [hh, M.lift] at h
  | some g =>
    simp only [hh] at h
    split at h
    · simp [M.lift] at h
    · intro y hy
      obtain ⟨a, s₂, s₃, _, ha⟩ := M.mapM_mem h y hy
      split at ha
      · simp [M.lift] at ha
      · obtain ⟨v, s₄, hv, ha⟩ := M.bind_ok ha
        obtain ⟨ha, _⟩ := M.pure_ok ha
        subst ha
        exact hk _ _ _ _ _ _ _ hv

theorem sumOf_nonneg {l : List (ℚ × ℚ)} (h : ∀ y ∈ l, 0 ≤ y.2) : 0 ≤ sumOf l := by
  apply List.sum_nonneg
  intro x hx; obtain ⟨y, hy, rfl⟩ := List.mem_map.1 hx; exact h y hy

theorem skinConnections_nonneg {S : Type} {skin : Wire → ℚ → ℚ → ℚ → M S ℚ} (hk : NonNegative skin) {ws : List Winding}
    {tds : List (Turn × ℚ)} {w : Nat} : ∀ (lengths : List ℚ) (p : Nat) (acc : Option (List (ℚ × ℚ))) (s s' : S)
    (a : Option (List (ℚ × ℚ))), 0 ≤ sumOf (acc.getD []) →
    skinConnections resistance skin ws exc tds w p lengths acc s = (s', .ok a) → 0 ≤ sumOf (a.getD [])
  | [], _, _, _, _, _, h0, h => by
    obtain ⟨h, _⟩ := M.pure_ok h; subst h; exact h0
  | l :: ls, p, acc, s, s', a, h0, h => by
    rw [skinConnections] at h
    split at h
    · exact skinConnections_nonneg hk ls _ _ _ _ _ h0 h
    · rename_i hl
      match he : exc[w]?, hd : dividerOf ws tds w p, hw : ws[w]? with
      | none, _, _ => simp [he, M.lift] at h
      | some none, _, _ => simp [he, M.lift] at h
      | some (some cu), none, _ => simp [he, hd, M.lift] at h
      | some (some cu), some d, none => simp [he, hd, hw, M.lift] at h
      | some (some cu), some d, some x =>
        simp only [he, hd, hw] at h
        obtain ⟨per, s₁, hp, h⟩ := M.bind_ok h
        obtain ⟨a', s₂, ha, h⟩ := M.bind_ok h
        obtain ⟨ha, _⟩ := M.lift_ok ha
        refine skinConnections_nonneg hk ls _ _ _ _ _ ?_ h
        have hn := skinPerMeter_nonneg hk hp
        rw [Option.getD_some, addHarmonics_sum ha]
        apply add_nonneg
        · cases acc with
          | some l' => exact h0
          | none =>
            apply sumOf_nonneg
            intro y hy; obtain ⟨z, _, rfl⟩ := List.mem_map.1 hy; exact le_refl 0
        · apply sumOf_nonneg
          intro y hy; obtain ⟨z, hz, rfl⟩ := List.mem_map.1 hy
          exact mul_nonneg (hn z hz) (by linarith)

theorem skinConnectionsFrom_nonneg {S : Type} {skin : Wire → ℚ → ℚ → ℚ → M S ℚ} (hk : NonNegative skin)
    {ws : List Winding} {tds : List (Turn × ℚ)} : ∀ (lengths : List (List ℚ)) (w : Nat) (s s' : S)
    (l : List (Option (List (ℚ × ℚ)))), skinConnectionsFrom resistance skin ws exc tds w lengths s = (s', .ok l) →
    0 ≤ (l.map fun a => sumOf (a.getD [])).sum
  | [], _, _, _, _, h => by obtain ⟨h, _⟩ := M.pure_ok h; subst h; simp
  | ls :: rest, w, s, s', l, h => by
    obtain ⟨a, s₁, ha, h⟩ := M.bind_ok h
    obtain ⟨as, s₂, has, h⟩ := M.bind_ok h
    obtain ⟨h, _⟩ := M.pure_ok h; subst h
    have h1 := skinConnections_nonneg hk ls 0 none s s₁ a (by simp [sumOf]) ha
    have h2 := skinConnectionsFrom_nonneg hk rest _ _ _ _ has
    rw [List.map_cons, List.sum_cons]; linarith

/-- C88: with or without the copper of connections, the total is never less than what the turns lose, if no formula of
skin effect gives less than nothing and no connection was routed with less than no length. -/
theorem total_covers_turns {S : Type} {u : Setup S} {wf : Bool} {s s' : S} (hk : NonNegative u.skin)
    (hs : ∀ m ∈ c.spaces, ∀ l : ℚ, m.routed = some l → 0 ≤ l) (h : losses u c exc wf s = (s', .ok o)) :
    elementsTotal o.perTurn ≤ o.total := by
  obtain ⟨o₁, s₁, ho, h⟩ := M.bind_ok h
  obtain ⟨ho, _⟩ := M.lift_ok ho
  obtain ⟨o₂, s₂, hk2, h⟩ := M.bind_ok h
  obtain ⟨P⟩ := ohmic_ok ho
  have ht := P.hturns
  rw [ht] at h
  obtain ⟨fields, s₅, hf, h⟩ := M.bind_ok (m := M.lift (fieldOf u.fields exc)) h
  obtain ⟨o₃, s₃, hp, h⟩ := M.bind_ok (m := M.lift (proximityLosses u.prox c.windings P.turns fields o₂)) h
  obtain ⟨hp, _⟩ := M.lift_ok hp
  obtain ⟨h, _⟩ := M.lift_ok h
  obtain ⟨a1, a2, a3, a4⟩ := ohmic_turns P
  have b0 : elementsTotal o₁.perTurn ≤ o₁.total := by rw [a4]; exact ohmic_total_le P hs
  have hb : o₂.perTurn.length = P.turns.length ∧ (∀ e ∈ o₂.perTurn, e.proximity = none) ∧
      elementsTotal o₂.perTurn ≤ o₂.total := by
    unfold skinLosses at hk2
    rw [ht] at hk2
    simp only at hk2
    split at hk2
    · simp [M.lift] at hk2
    · obtain ⟨exc', _, _, hk2⟩ := M.bind_ok hk2
      obtain ⟨perTurn, _, hpt, hk2⟩ := M.bind_ok hk2
      obtain ⟨lengths, _, hl, hk2⟩ := M.bind_ok hk2
      obtain ⟨conns, _, hc, hk2⟩ := M.bind_ok hk2
      obtain ⟨hk2, _⟩ := M.pure_ok hk2
      have hplen : perTurn.length = P.turns.length := by
        rw [M.mapM_length hpt, List.length_zip, a2, Nat.min_self]
      have hz := skinConnectionsFrom_nonneg hk _ _ _ _ _ hc
      obtain ⟨e1, e2⟩ := zip_total_skin o₁.perTurn perTurn (by omega) a3
      subst hk2
      refine ⟨by simp [a1, hplen], e2, ?_⟩
      show elementsTotal _ ≤ o₁.total + ((perTurn.map sumOf).sum + _)
      rw [e1]; linarith
  obtain ⟨b1, b2, b3⟩ := hb
  obtain ⟨perTurn, hpt, hp⟩ := Res.bind_ok hp
  have hplen : perTurn.length = P.turns.length := by
    rw [forall₂_length (Res.mapM_ok hpt), List.length_zipIdx]
  simp only [Res.ok.injEq] at hp; subst hp
  unfold combineAll at h
  obtain ⟨_, _, h⟩ := Res.bind_ok h
  obtain ⟨pl, _, h⟩ := Res.bind_ok h
  obtain ⟨_, _, h⟩ := Res.bind_ok h
  obtain ⟨ps, _, h⟩ := Res.bind_ok h
  obtain ⟨pw, _, h⟩ := Res.bind_ok h
  simp only [Res.ok.injEq] at h; subst h
  show elementsTotal _ ≤ o₂.total + _
  rw [zip_total_proximity o₂.perTurn perTurn (by omega) b2]; linarith

/-- The case of `total_covers_turns`. -/
example : ((losses (setup true) coil currents true ()).2.holds fun o => decide (0 < elementsTotal o.perTurn)) = true ∧
    (∀ m ∈ coil.spaces, ∀ l : ℚ, m.routed = some l → 0 ≤ l) := by
  constructor
  · decide +kernel
  · intro m hm l hl
    simp only [coil, List.mem_singleton] at hm
    subst hm
    simp only [Option.some.injEq] at hl; subst hl; decide

/-! ## Crossings -/

/-- The points of a field at a turn. -/
def pointsAt (i : Nat) (f : Field) : List Point := f.points.filter fun p => p.turn == some (i : Int)

/-- Whether a point is nearer to the second place of a turn than to the first. -/
def NearSecond (t : Turn) (p : Point) : Prop :=
  ∃ s q : ℚ × ℚ, t.second = some s ∧ p.place = some q ∧
    (q.1 - s.1) ^ 2 + (q.2 - s.2) ^ 2 < (q.1 - t.place.1) ^ 2 + (q.2 - t.place.2) ^ 2

theorem isSecond_iff (t : Turn) (p : Point) : isSecond t p = true ↔ NearSecond t p := by
  unfold isSecond NearSecond
  cases hs : t.second with
  | none => simp
  | some s => cases hq : p.place with
    | none => simp
    | some q => simp only [apart, ← pow_two, Option.some.injEq, exists_and_left, exists_eq_left', decide_eq_true_iff]

theorem split_ok {t : Turn} {i : Nat} {f : Field} {a : ℚ × List Point × List Point} (h : splitField t i f = .ok a) :
    (∀ p ∈ f.points, p.turn.isSome = true) ∧ a = (f.frequency, (pointsAt i f).filter (fun p => !isSecond t p),
      (pointsAt i f).filter (isSecond t)) := by
  unfold splitField at h
  split at h
  · simp at h
  · rename_i hc
    simp only [List.any_eq_true, not_exists, not_and, Option.isNone_iff_eq_none] at hc
    simp only [Res.ok.injEq] at h
    exact ⟨fun p hp => Option.isSome_iff_ne_none.2 (hc p hp), h.symm⟩

theorem any_second {t : Turn} {i : Nat} {fields : List Field} {parts : List (ℚ × List Point × List Point)}
    (hP : List.Forall₂ (fun f a => splitField t i f = .ok a) fields parts) :
    (parts.any fun a => !a.2.2.isEmpty) = true ↔ ∃ f ∈ fields, ∃ p ∈ pointsAt i f, NearSecond t p := by
  induction hP with
  | nil => simp
  | @cons f a fs as hfa _ ih =>
    obtain ⟨_, ha⟩ := split_ok hfa
    subst ha
    rw [List.any_cons, Bool.or_eq_true, ih]
    simp only [List.mem_cons, exists_eq_or_imp]
    refine or_congr ?_ Iff.rfl
    constructor
    · intro he
      have hne : (pointsAt i f).filter (isSecond t) ≠ [] := by
        intro he'; rw [he'] at he; simp at he
      obtain ⟨p, hp⟩ := List.exists_mem_of_ne_nil _ hne
      obtain ⟨h1, h2⟩ := List.mem_filter.1 hp
      exact ⟨p, h1, (isSecond_iff t p).1 h2⟩
    · rintro ⟨p, h1, h2⟩
      have hp : p ∈ (pointsAt i f).filter (isSecond t) := List.mem_filter.2 ⟨h1, (isSecond_iff t p).2 h2⟩
      cases hl : (pointsAt i f).filter (isSecond t) with
      | nil => rw [hl] at hp; simp at hp
      | cons _ _ => simp

theorem zip_forall₂ {α β γ δ : Type} {R : α → β → Prop} {Q : β → γ → Prop} {T : α → δ → Prop} {g : β × γ → δ}
    {l : List α} {m : List β} (h : List.Forall₂ R l m) : ∀ {r : List γ}, List.Forall₂ Q m r →
    (∀ (a : α) (b : β) (e : γ), a ∈ l → R a b → Q b e → T a (g (b, e))) → List.Forall₂ T l ((m.zip r).map g) := by
  induction h with
  | nil => intro r _ _; exact .nil
  | cons hab _ ih =>
    intro r hr hT
    cases hr with
    | cons hbe hr =>
      exact .cons (hT _ _ _ (by simp) hab hbe) (ih hr fun a b e ha => hT a b e (by simp [ha]))

theorem zip_pair {β γ δ : Type} {Q : β → γ → Prop} {Q' : β → δ → Prop} {m : List β} {r : List γ}
    (h : List.Forall₂ Q m r) : ∀ {r' : List δ}, List.Forall₂ Q' m r' →
    List.Forall₂ (fun b e => Q b e.1 ∧ Q' b e.2) m (r.zip r') := by
  induction h with
  | nil => intro r' h'; cases h'; exact .nil
  | cons hab _ ih => intro r' h'; cases h' with
    | cons h1 h2 => exact .cons ⟨hab, h1⟩ (ih h2)

/-- The losses of a turn at each frequency, from one place of the turn. -/
def OnePlace (prox : Wire → ℚ → List Point → Res ℚ) (wire : Wire) (t : Turn) (i : Nat) (f : Field) (y : ℚ × ℚ) : Prop :=
  y.1 = f.frequency ∧ ∃ v : ℚ, prox wire f.frequency (pointsAt i f) = .ok v ∧ y.2 = v * t.length

/-- The losses of a turn at each frequency, from two places, each with half of the turn. -/
def TwoPlaces (prox : Wire → ℚ → List Point → Res ℚ) (wire : Wire) (t : Turn) (i : Nat) (f : Field) (y : ℚ × ℚ) : Prop :=
  y.1 = f.frequency ∧ ∃ (near far : List Point) (v v' : ℚ), (near ++ far).Perm (pointsAt i f) ∧
    (∀ p ∈ near, ¬ NearSecond t p) ∧ (∀ p ∈ far, NearSecond t p) ∧
    prox wire f.frequency near = .ok v ∧ prox wire f.frequency far = .ok v' ∧ y.2 = (v + v') * (t.length / 2)

/-- C94: the losses of a turn by proximity come from the field at that turn and nowhere else, one value for each frequency
after a first one of nothing. A turn that crosses the window once, or whose points are all at its first crossing, has the
losses of its whole length in its points; another has those of half its length in the points of each crossing, every
point at the nearer one. -/
theorem proximity_from_own_field {prox : Wire → ℚ → List Point → Res ℚ} {ws : List Winding} {fields : List Field}
    {t : Turn} {i : Nat} {l : List (ℚ × ℚ)} (hn : (ws.map Winding.name).Nodup) {w : Nat} {x : Winding}
    (hx : ws[w]? = some x) (hname : t.winding = x.name) (h : proximityOfTurn prox ws fields (t, i) = .ok l) :
    ∃ rest : List (ℚ × ℚ), l = (0, 0) :: rest ∧
      ((∀ f ∈ fields, ∀ p ∈ pointsAt i f, ¬ NearSecond t p) → List.Forall₂ (OnePlace prox x.wire t i) fields rest) ∧
      ((∃ f ∈ fields, ∃ p ∈ pointsAt i f, NearSecond t p) → List.Forall₂ (TwoPlaces prox x.wire t i) fields rest) := by
  obtain ⟨w', hw', h⟩ := Res.bind_ok h
  simp only [hname] at hw'
  rw [windingIndex_of hn hx, Res.ok.injEq] at hw'; subst hw'
  rw [hx] at h
  simp only at h
  obtain ⟨parts, hparts, h⟩ := Res.bind_ok h
  obtain ⟨first, hfirst, h⟩ := Res.bind_ok h
  have hP := Res.mapM_ok hparts
  have hF := Res.mapM_ok hfirst
  have hany := any_second hP
  split at h
  · rename_i hc
    obtain ⟨second, hsecond, h⟩ := Res.bind_ok h
    simp only [Res.ok.injEq] at h; subst h
    refine ⟨_, rfl, ?_, ?_⟩
    · intro hno
      obtain ⟨f, hf, p, hp, hsec⟩ := hany.1 hc
      exact absurd hsec (hno f hf p hp)
    · intro _
      refine zip_forall₂ hP (zip_pair hF (Res.mapM_ok hsecond)) ?_
      intro f a e hf hfa hae
      obtain ⟨_, ha⟩ := split_ok hfa
      subst ha
      refine ⟨rfl, _, _, e.1, e.2, ?_, ?_, ?_, hae.1, hae.2, ?_⟩
      · exact (List.perm_append_comm).trans (List.filter_append_perm (isSecond t) (pointsAt i f))
      · intro p hp hs
        have := (List.mem_filter.1 hp).2
        rw [(isSecond_iff t p).2 hs] at this; simp at this
      · intro p hp; exact (isSecond_iff t p).1 (List.mem_filter.1 hp).2
      · ring
  · rename_i hc
    simp only [Res.ok.injEq] at h; subst h
    refine ⟨_, rfl, ?_, ?_⟩
    · intro hno
      refine zip_forall₂ hP hF ?_
      intro f a v hf hfa hav
      obtain ⟨_, ha⟩ := split_ok hfa
      subst ha
      refine ⟨rfl, v, ?_, rfl⟩
      have he : (pointsAt i f).filter (fun p => !isSecond t p) = pointsAt i f := by
        rw [List.filter_eq_self]
        intro p hp
        have := hno f hf p hp
        rw [← isSecond_iff] at this; simpa using this
      rw [← he]; exact hav
    · intro hsome; exact absurd (hany.2 hsome) hc

/-- The losses of turns, layers and totals do not move the points: the case of `proximity_from_own_field`, a turn of
length 5 with a point at each crossing. -/
example : proximityOfTurn (fun _ _ ps => .ok ps.length) coil.windings
    [⟨100, [⟨some 0, some (0, 0), 0⟩, ⟨some 2, some (2, 0), 0⟩, ⟨some 2, some (-2, 0), 0⟩, ⟨some 2, some (-1, 0), 0⟩]⟩]
    (⟨"s", 0, 5, none, none, (2, 0), some (-2, 0)⟩, 2) = .ok [(0, 0), (100, 15 / 2)] := by
  decide +kernel

end Verif.WindingLosses
