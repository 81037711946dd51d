import Verif.WindingLosses.PruneProps
import Verif.WindingLosses.Props

/-! # Winding losses never read or write past the end -/

set_option linter.unusedSimpArgs false

namespace Verif.WindingLosses

/-! ## Outcomes that are defined -/

/-- Defined, and with a property when there is a value. -/
def Res.Safe {α : Type} (r : Res α) (P : α → Prop) : Prop := r ≠ .ub ∧ ∀ a : α, r = .ok a → P a

/-- The same from any state. -/
def M.Safe {S α : Type} (m : M S α) (P : α → Prop) : Prop := ∀ s : S, (m s).2.Safe P

theorem Res.Safe.ok {α : Type} {a : α} {P : α → Prop} (h : P a) : (Res.ok a).Safe P :=
  ⟨by simp, fun b hb => by simp only [Res.ok.injEq] at hb; subst hb; exact h⟩

theorem Res.Safe.throws {α : Type} {e : Err} {P : α → Prop} : (Res.throws e : Res α).Safe P := ⟨by simp, by simp⟩

theorem Res.Safe.bind {α β : Type} {r : Res α} {f : α → Res β} {P : α → Prop} {Q : β → Prop} (hr : r.Safe P)
    (hf : ∀ a : α, P a → (f a).Safe Q) : (r.bind f).Safe Q := by
  cases r with
  | ok a => exact hf a (hr.2 a rfl)
  | throws e => exact .throws
  | ub => exact absurd rfl hr.1

theorem Res.Safe.mono {α : Type} {r : Res α} {P Q : α → Prop} (h : r.Safe P) (hpq : ∀ a, P a → Q a) : r.Safe Q :=
  ⟨h.1, fun a ha => hpq a (h.2 a ha)⟩

theorem Res.Safe.mapM {α β : Type} {f : α → Res β} {Q : β → Prop} : ∀ l : List α, (∀ a ∈ l, (f a).Safe Q) →
    (Res.mapM f l).Safe fun r => r.length = l.length ∧ ∀ b ∈ r, Q b
  | [], _ => .ok ⟨rfl, by simp⟩
  | a :: l, h => by
    refine .bind (h a (by simp)) fun b hb => .bind (Res.Safe.mapM l fun x hx => h x (by simp [hx])) ?_
    rintro r ⟨h1, h2⟩
    refine .ok ⟨by simp [h1], ?_⟩
    intro c hc
    rcases List.mem_cons.1 hc with rfl | hc
    · exact hb
    · exact h2 c hc

theorem M.Safe.lift {S α : Type} {r : Res α} {P : α → Prop} (h : r.Safe P) : (M.lift r : M S α).Safe P := fun _ => h

theorem M.Safe.pure {S α : Type} {a : α} {P : α → Prop} (h : P a) : (M.pure a : M S α).Safe P := fun _ => .ok h

theorem M.Safe.bind {S α β : Type} {m : M S α} {f : α → M S β} {P : α → Prop} {Q : β → Prop} (hm : m.Safe P)
    (hf : ∀ a : α, P a → (f a).Safe Q) : (M.bind m f).Safe Q := by
  intro s
  have h := hm s
  unfold M.bind
  generalize m s = x at h ⊢
  obtain ⟨s₁, r⟩ := x
  cases r with
  | ok a => exact hf a (h.2 a rfl) s₁
  | throws e => exact .throws
  | ub => exact absurd rfl h.1

theorem M.Safe.mapM {S α β : Type} {f : α → M S β} {Q : β → Prop} : ∀ l : List α, (∀ a ∈ l, (f a).Safe Q) →
    (M.mapM f l).Safe fun r => r.length = l.length ∧ ∀ b ∈ r, Q b
  | [], _ => M.Safe.pure ⟨rfl, by simp⟩
  | a :: l, h => by
    refine M.Safe.bind (h a (by simp)) fun b hb => M.Safe.bind (M.Safe.mapM l fun x hx => h x (by simp [hx])) ?_
    rintro r ⟨h1, h2⟩
    refine M.Safe.pure ⟨by simp [h1], ?_⟩
    intro c hc
    rcases List.mem_cons.1 hc with rfl | hc
    · exact hb
    · exact h2 c hc

/-! ## The stages -/

theorem windingIndex_safe (ws : List Winding) (n : String) :
    (windingIndex ws n).Safe fun w => windingIndex ws n = .ok w ∧ ∃ x : Winding, ws[w]? = some x := by
  unfold windingIndex
  split
  · rename_i hlt; exact .ok ⟨rfl, ⟨_, List.getElem?_eq_getElem hlt⟩⟩
  · exact .throws

/-- Every turn is of a parallel that its winding has. -/
def InRange (ws : List Winding) (turns : List Turn) : Prop :=
  ∀ t ∈ turns, ∀ (w : Nat) (x : Winding), windingIndex ws t.winding = .ok w → ws[w]? = some x → t.parallel < x.parallels

variable {resistance : Wire → ℚ} {real : Bool} {c : Coil} {exc : List (Option Current)} {o : Output}

theorem perMeter_safe (w : Wire) : (perMeter resistance w).Safe fun _ => True := by
  unfold perMeter; split
  · exact .throws
  · exact .ok trivial

theorem ohmic_safe {turns : List Turn} (ht : c.turns = some turns) (hr : InRange c.windings turns) :
    (ohmic resistance real c exc).Safe fun o => o.perTurn.length = turns.length ∧ o.dividers.length = turns.length ∧
      ∀ e ∈ o.perTurn, e.ohmic.isSome = true := by
  unfold ohmic
  rw [ht]
  refine .bind (P := fun _ => True) ?_ fun rms _ => ?_
  · refine (Res.Safe.mapM (Q := fun _ => True) _ fun w _ => ?_).mono fun _ _ => trivial
    unfold rmsOf
    split
    · exact .ok trivial
    · exact .ok trivial
    · split
      · exact .ok trivial
      · split
        · exact .ok trivial
        · exact .throws
  refine .bind (Res.Safe.mapM (Q := fun _ => True) _ fun t htm => ?_) fun bs hbs => ?_
  · refine .bind (windingIndex_safe _ _) fun w hw => ?_
    obtain ⟨hw, x, hx⟩ := hw
    simp only [hx]
    refine .bind (perMeter_safe _) fun r _ => ?_
    rw [if_pos (hr t htm w x hw hx)]
    exact .ok trivial
  refine .bind (P := fun _ => True) ?_ fun lengths _ => ?_
  · unfold connectionLengths
    split
    · split
      · exact .throws
      · refine .bind ((Res.Safe.mapM (Q := fun _ => True) _ fun sp _ => ?_).mono fun _ _ => trivial)
          (P := fun _ => True) fun ms _ => .ok trivial
        refine .bind (windingIndex_safe _ _) fun w hw => ?_
        obtain ⟨_, x, hx⟩ := hw
        simp only [hx]
        split
        · exact .ok trivial
        · split
          · exact .throws
          · exact .ok trivial
    · exact .ok trivial
  refine .bind (P := fun _ => True) ?_ fun cs _ => ?_
  · refine (Res.Safe.mapM (Q := fun _ => True) _ fun xl _ => ?_).mono fun _ _ => trivial
    split
    · exact .bind (perMeter_safe _) fun _ _ => .ok trivial
    · exact .ok trivial
  refine .bind (P := fun _ => True) ?_ fun ss _ => ?_
  · have : ∀ (ws : List Winding) (w : Nat), (seriesFrom bs cs w ws).Safe fun _ => True := by
      intro ws
      induction ws with
      | nil => intro w; exact .ok trivial
      | cons x ws ih =>
        intro w
        refine .bind (P := fun _ => True) ?_ fun _ _ => .bind (ih (w + 1)) fun _ _ => .ok trivial
        refine (Res.Safe.mapM (Q := fun _ => True) _ fun p _ => ?_).mono fun _ _ => trivial
        split
        · exact .ok trivial
        · exact .throws
    exact this _ 0
  refine .ok ⟨by simp [hbs.1], by simp [hbs.1], ?_⟩
  intro e he
  obtain ⟨b, _, rfl⟩ := List.mem_map.1 he
  rfl

/-- Harmonics of a number of amplitudes, in every winding that has them. -/
def Uniform (exc : List (Option Current)) (n : Nat) : Prop := ∀ h : Harmonics, Has exc h → h.amplitudes.length = n

theorem skinPerMeter_safe {S : Type} {skin : Wire → ℚ → ℚ → ℚ → M S ℚ} (hs : ∀ w a b d, (skin w a b d).Safe fun _ => True)
    (wire : Wire) (cur : Current) (d : ℚ) : (skinPerMeter resistance skin wire cur d).Safe fun l =>
      ∃ h : Harmonics, cur.harmonics = some h ∧ l.length = h.amplitudes.length - 1 := by
  unfold skinPerMeter
  refine M.Safe.bind (M.Safe.lift (perMeter_safe _)) fun r _ => ?_
  cases hh : cur.harmonics with
  | none => exact M.Safe.lift .throws
  | some h =>
    simp only
    split
    · exact M.Safe.lift .throws
    · rename_i hlen
      unfold skinHarmonics
      intro s
      refine Res.Safe.mono (M.Safe.mapM (Q := fun _ => True) _ (fun af _ => ?_) s) ?_
      · split
        · exact M.Safe.lift .throws
        · exact M.Safe.bind (hs _ _ _ _) fun _ _ => M.Safe.pure trivial
      · rintro l ⟨h1, _⟩
        refine ⟨h, rfl, ?_⟩
        rw [h1, List.length_drop, List.length_zip]; omega

theorem addHarmonics_safe : ∀ (a b : List (ℚ × ℚ)), b.length ≤ a.length →
    (addHarmonics a b).Safe fun l => l.length = a.length
  | a, [], _ => by rw [addHarmonics]; exact .ok rfl
  | [], _ :: _, h => by simp at h
  | (f, x) :: a, (g, y) :: b, h => by
    rw [addHarmonics]
    exact .bind (addHarmonics_safe a b (by simpa using h)) fun l hl => .ok (by simp [hl])

theorem skinConnections_safe {S : Type} {skin : Wire → ℚ → ℚ → ℚ → M S ℚ}
    (hs : ∀ w a b d, (skin w a b d).Safe fun _ => True) {ws : List Winding} {tds : List (Turn × ℚ)} {w : Nat}
    (hw : w < ws.length) : ∀ (lengths : List ℚ) (p : Nat) (acc : Option (List (ℚ × ℚ))),
      (∀ (cur : Current) (h : Harmonics) (a : List (ℚ × ℚ)), exc[w]? = some (some cur) → cur.harmonics = some h →
        acc = some a → a.length = h.amplitudes.length - 1) →
      (skinConnections resistance skin ws exc tds w p lengths acc).Safe fun _ => True
  | [], _, _, _ => M.Safe.pure trivial
  | l :: ls, p, acc, hacc => by
    unfold skinConnections
    split
    · exact skinConnections_safe hs hw ls (p + 1) acc hacc
    · split
      · rename_i cur hcur
        split
        · exact M.Safe.lift .throws
        · rw [List.getElem?_eq_getElem hw]
          simp only
          refine M.Safe.bind (skinPerMeter_safe hs _ _ _) fun r hr => ?_
          obtain ⟨h, hh, hlen⟩ := hr
          have hal : (acc.getD (r.map fun fl => (fl.1, 0))).length = h.amplitudes.length - 1 := by
            cases ha : acc with
            | none => simp [hlen]
            | some a => exact hacc cur h a hcur hh ha
          refine M.Safe.bind (M.Safe.lift (addHarmonics_safe _ _ (by rw [hal]; simp [hlen]))) fun a ha => ?_
          apply skinConnections_safe hs hw ls (p + 1)
          intro cur' h' a' hcur' hh' ha'
          rw [hcur, Option.some.injEq, Option.some.injEq] at hcur'; subst hcur'
          rw [hh, Option.some.injEq] at hh'; subst hh'
          rw [Option.some.injEq] at ha'; subst ha'
          rw [ha, hal]
      · exact M.Safe.lift .throws

theorem skinConnectionsFrom_safe {S : Type} {skin : Wire → ℚ → ℚ → ℚ → M S ℚ}
    (hs : ∀ w a b d, (skin w a b d).Safe fun _ => True) {ws : List Winding} {tds : List (Turn × ℚ)} :
    ∀ (lengths : List (List ℚ)) (w : Nat), w + lengths.length ≤ ws.length →
      (skinConnectionsFrom resistance skin ws exc tds w lengths).Safe fun _ => True
  | [], _, _ => M.Safe.pure trivial
  | ls :: rest, w, h => by
    unfold skinConnectionsFrom
    rw [List.length_cons] at h
    exact M.Safe.bind (skinConnections_safe hs (by omega) ls 0 none (by simp)) fun a _ =>
      M.Safe.bind (skinConnectionsFrom_safe hs rest (w + 1) (by omega)) fun l _ => M.Safe.pure trivial

theorem connectionLengths_safe : (connectionLengths real c).Safe fun l => l.length = c.windings.length := by
  unfold connectionLengths
  split
  · split
    · exact .throws
    · refine .bind ((Res.Safe.mapM (Q := fun _ => True) _ fun sp _ => ?_).mono fun _ _ => trivial)
        (P := fun _ => True) fun ms _ => .ok (by simp)
      refine .bind (windingIndex_safe _ _) fun w hw => ?_
      obtain ⟨_, x, hx⟩ := hw
      simp only [hx]
      split
      · exact .ok trivial
      · split
        · exact .throws
        · exact .ok trivial
  · exact .ok (by simp)

theorem zip_elements {es : List Element} {ls : List (List (ℚ × ℚ))} {f : Element × List (ℚ × ℚ) → Element}
    {P Q : Element → Prop} {R : List (ℚ × ℚ) → Prop} (he : ∀ e ∈ es, P e) (hl : ∀ l ∈ ls, R l)
    (hf : ∀ e l, P e → R l → Q (f (e, l))) : ∀ e ∈ (es.zip ls).map f, Q e := by
  intro e hm
  obtain ⟨x, hx, rfl⟩ := List.mem_map.1 hm
  have := List.of_mem_zip (a := x.1) (b := x.2) hx
  exact hf x.1 x.2 (he _ this.1) (hl _ this.2)

theorem prune_safe {rt : ℚ → ℚ} {th : ℚ} (h0 : 0 ≤ th) (hproper : ∀ h : Harmonics, Has exc h → Proper h) :
    (prune rt th exc).Safe fun out => (∀ x ∈ exc, ∃ (c : Current) (h : Harmonics), x = some c ∧ c.harmonics = some h) →
      ∃ n : Nat, Uniform out n := by
  obtain ⟨out, hout⟩ := (prune_defined (rt := rt) (th := th)).1 hproper
  rw [hout]
  refine .ok fun hall => ?_
  obtain ⟨kept, _, _, hlen, hk⟩ := prune_keeps h0 hall hout
  refine ⟨kept.length, ?_⟩
  rintro h ⟨cur, hm, hh⟩
  obtain ⟨i, hi, hie⟩ := List.mem_iff_getElem.1 hm
  have hi' : i < exc.length := by omega
  obtain ⟨c0, g, e1, e2⟩ := hall exc[i] (List.getElem_mem hi')
  obtain ⟨h', a1, a2, _⟩ := hk i c0 g (by rw [List.getElem?_eq_getElem hi', e1]) e2
  rw [List.getElem?_eq_getElem hi, hie, Option.some.injEq, Option.some.injEq] at a1
  subst a1
  simp only [Option.some.injEq] at hh; subst hh
  rw [a2, List.length_map]

theorem skinLosses_safe {S : Type} {skin : Wire → ℚ → ℚ → ℚ → M S ℚ} {rt : ℚ → ℚ} {th : ℚ} {wf : Bool}
    (hs : ∀ w a b d, (skin w a b d).Safe fun _ => True) (h0 : 0 ≤ th) (hproper : ∀ h : Harmonics, Has exc h → Proper h)
    {turns : List Turn} (ht : c.turns = some turns) (h1 : o.perTurn.length = turns.length)
    (h2 : o.dividers.length = turns.length) (h3 : ∀ e ∈ o.perTurn, e.ohmic.isSome = true) :
    (skinLosses resistance skin real rt th c exc wf o).Safe fun o' => o'.perTurn.length = turns.length ∧
      (∀ e ∈ o'.perTurn, e.ohmic.isSome = true ∧ ∃ l : List (ℚ × ℚ), e.skin = some l) ∧
      ((∀ x ∈ exc, ∃ (c : Current) (h : Harmonics), x = some c ∧ c.harmonics = some h) →
        ∃ n : Nat, ∀ e ∈ o'.perTurn, ∀ l : List (ℚ × ℚ), e.skin = some l → l.length = n) := by
  unfold skinLosses
  rw [ht]
  simp only
  split
  · exact M.Safe.lift .throws
  refine M.Safe.bind (M.Safe.lift (prune_safe h0 hproper)) fun out hout => ?_
  refine M.Safe.bind (M.Safe.mapM (Q := fun l => ∃ h : Harmonics, Has out h ∧ l.length = h.amplitudes.length - 1 + 1) _
    fun td _ => ?_) fun perTurn hpt => ?_
  · unfold skinOfTurn
    refine M.Safe.bind (M.Safe.lift (windingIndex_safe _ _)) fun w hw => ?_
    obtain ⟨_, x, hx⟩ := hw
    simp only [hx]
    split
    · rename_i cur hcur
      refine M.Safe.bind (skinPerMeter_safe hs _ _ _) fun l hl => M.Safe.pure ?_
      obtain ⟨h, hh, hl⟩ := hl
      exact ⟨h, ⟨cur, List.mem_of_getElem? hcur, hh⟩, by simp [overLength, hl]⟩
    · exact M.Safe.lift .throws
  refine M.Safe.bind (M.Safe.lift connectionLengths_safe) fun lengths hlens => ?_
  refine M.Safe.bind (skinConnectionsFrom_safe hs lengths 0 (by omega)) fun conns _ => M.Safe.pure ?_
  refine ⟨by simp [h1, hpt.1, h2], ?_, ?_⟩
  · exact zip_elements h3 (R := fun _ => True) (by simp) fun e l he _ => ⟨he, l, rfl⟩
  · intro hall
    obtain ⟨n, hn⟩ := hout hall
    refine ⟨n - 1 + 1, ?_⟩
    refine zip_elements (P := fun _ => True) (by simp) hpt.2 fun e l _ hl => ?_
    intro l' hl'
    simp only [Option.some.injEq] at hl'; subst hl'
    obtain ⟨h, hh, hl⟩ := hl
    rw [hl, hn h hh]

theorem proximityLosses_safe {prox : Wire → ℚ → List Point → Res ℚ} (hp : ∀ w f l, (prox w f l).Safe fun _ => True)
    {ws : List Winding} {turns : List Turn} {fields : List Field} {n : Nat} (h1 : o.perTurn.length = turns.length)
    (h2 : ∀ e ∈ o.perTurn, e.ohmic.isSome = true ∧ ∃ l : List (ℚ × ℚ), e.skin = some l ∧ l.length = n) :
    (proximityLosses prox ws turns fields o).Safe fun o' => o'.perTurn.length = turns.length ∧
      ∀ e ∈ o'.perTurn, e.ohmic.isSome = true ∧ (∃ l : List (ℚ × ℚ), e.skin = some l ∧ l.length = n) ∧
        ∃ l : List (ℚ × ℚ), e.proximity = some l ∧ l.length = fields.length + 1 := by
  unfold proximityLosses
  refine .bind (Res.Safe.mapM (Q := fun l => l.length = fields.length + 1) _ fun ti _ => ?_) fun perTurn hpt => ?_
  · unfold proximityOfTurn
    refine .bind (windingIndex_safe _ _) fun w hw => ?_
    obtain ⟨_, x, hx⟩ := hw
    simp only [hx]
    refine .bind (Res.Safe.mapM (Q := fun _ => True) _ fun f _ => ?_) fun parts hparts => ?_
    · unfold splitField; split
      · exact .throws
      · exact .ok trivial
    refine .bind (Res.Safe.mapM (Q := fun _ => True) _ fun a _ => hp _ _ _) fun first hfirst => ?_
    split
    · refine .bind (Res.Safe.mapM (Q := fun _ => True) _ fun a _ => hp _ _ _) fun second hsecond => .ok ?_
      simp [hparts.1, hfirst.1, hsecond.1]
    · exact .ok (by simp [hparts.1, hfirst.1])
  · refine .ok ⟨by simp [h1, hpt.1], ?_⟩
    exact zip_elements h2 hpt.2 fun e l he hl => ⟨he.1, he.2, l, rfl, hl⟩

theorem combineHarmonics_safe {n : Nat} : ∀ ls : List (List (ℚ × ℚ)), (∀ l ∈ ls, l.length = n) →
    (combineHarmonics ls).Safe fun _ => True
  | [], _ => .ok trivial
  | l :: rest, h => by
    rw [combineHarmonics]
    have key : ∀ (xs : List (List (ℚ × ℚ))) (r : Res (List (ℚ × ℚ))), (∀ x ∈ xs, x.length = n) →
        (r.Safe fun a => a.length = n) →
        (xs.foldl (fun acc x => acc.bind fun a => addHarmonics a x) r).Safe fun a => a.length = n := by
      intro xs
      induction xs with
      | nil => intro r _ hr; exact hr
      | cons x xs ih =>
        intro r hx hr
        refine ih _ (fun y hy => hx y (by simp [hy])) (.bind hr fun a ha => ?_)
        exact (addHarmonics_safe a x (by rw [hx x (by simp), ha])).mono fun l hl => by rw [hl, ha]
    exact (key (l :: rest) _ h (.ok (by simp [h l (by simp)]))).mono fun _ _ => trivial

theorem combine_safe {blank : ℚ} {n m : Nat} {es : List Element}
    (h : ∀ e ∈ es, e.ohmic.isSome = true ∧ (∃ l : List (ℚ × ℚ), e.skin = some l ∧ l.length = n) ∧
      ∃ l : List (ℚ × ℚ), e.proximity = some l ∧ l.length = m) : (combine blank es).Safe fun _ => True := by
  unfold combine
  refine .bind (Res.Safe.mapM (Q := fun _ => True) _ fun e he => ?_) fun os _ => ?_
  · obtain ⟨x, hx⟩ := Option.isSome_iff_exists.1 (h e he).1
    simp only [hx]; exact .ok trivial
  refine .bind (Res.Safe.mapM (Q := fun l => l.length = n) _ fun e he => ?_) fun ss hss => ?_
  · obtain ⟨l, hl, hn⟩ := (h e he).2.1
    simp only [hl]; exact .ok hn
  refine .bind (Res.Safe.mapM (Q := fun l => l.length = m) _ fun e he => ?_) fun ps hps => ?_
  · obtain ⟨l, hl, hn⟩ := (h e he).2.2
    simp only [hl]; exact .ok hn
  exact .bind (combineHarmonics_safe ss hss.2) fun _ _ => .bind (combineHarmonics_safe ps hps.2) fun _ _ => .ok trivial

theorem combineAll_safe {blank : ℚ} {n m : Nat} {turns : List Turn}
    (h : ∀ e ∈ o.perTurn, e.ohmic.isSome = true ∧ (∃ l : List (ℚ × ℚ), e.skin = some l ∧ l.length = n) ∧
      ∃ l : List (ℚ × ℚ), e.proximity = some l ∧ l.length = m) : (combineAll blank c turns o).Safe fun _ => True := by
  have hone : ∀ (nameOf : Turn → Option String) (s : String),
      ((named turns o.perTurn nameOf s).bind (combine blank)).Safe fun _ => True := by
    intro nameOf s
    unfold named
    split
    · exact .throws
    · refine combine_safe (n := n) (m := m) fun e he => ?_
      obtain ⟨x, hx, rfl⟩ := List.mem_map.1 he
      exact h _ (List.of_mem_zip (a := x.1) (b := x.2) (List.mem_filter.1 hx).1).2
  have hw : ∀ l : Option (List String), (wound l).Safe fun _ => True := by
    intro l; cases l
    · exact .throws
    · exact .ok trivial
  unfold combineAll
  exact .bind (hw _) fun _ _ => .bind (Res.Safe.mapM (Q := fun _ => True) _ fun _ _ => hone _ _) fun _ _ =>
    .bind (hw _) fun _ _ => .bind (Res.Safe.mapM (Q := fun _ => True) _ fun _ _ => hone _ _) fun _ _ =>
    .bind (Res.Safe.mapM (Q := fun _ => True) _ fun _ _ => hone _ _) fun _ _ => .ok trivial

/-! ## Theorem -/

/-- C89, in part: computing the losses never reads or writes past the end of anything, whatever the coil, the currents,
the formulas and their memory are, if the formulas do not, every turn is of a parallel that its winding has, and the
currents have harmonics with at least the first and a frequency for every amplitude. A winding may lack its current. Both
conditions on the input are needed: `parallel_past_the_end` and `harmonics_empty`. -/
theorem losses_defined_partial {S : Type} {u : Setup S} {wf : Bool} (hskin : ∀ w a b d s, (u.skin w a b d s).2 ≠ .ub)
    (hprox : ∀ w f l, u.prox w f l ≠ .ub) (h0 : 0 ≤ u.threshold)
    (hsome : ∀ c : Current, some c ∈ exc → ∃ h : Harmonics, c.harmonics = some h ∧ Proper h)
    (hr : ∀ turns : List Turn, c.turns = some turns → InRange c.windings turns) (s : S) :
    (losses u c exc wf s).2 ≠ .ub := by
  have hs : ∀ w a b d, (u.skin w a b d).Safe fun _ => True := fun w a b d s => ⟨hskin w a b d s, fun _ _ => trivial⟩
  have hp : ∀ w f l, (u.prox w f l).Safe fun _ => True := fun w f l => ⟨hprox w f l, fun _ _ => trivial⟩
  have hproper : ∀ h : Harmonics, Has exc h → Proper h := by
    rintro h ⟨cur, hm, hh⟩
    obtain ⟨h', e, hs⟩ := hsome cur hm
    rw [hh, Option.some.injEq] at e; subst e; exact hs
  cases ht : c.turns with
  | none => unfold losses; simp [ohmic, ht, M.bind, M.lift]
  | some turns =>
    suffices hsafe : (losses u c exc wf).Safe fun _ => True from (hsafe s).1
    unfold losses
    refine M.Safe.bind (M.Safe.lift (ohmic_safe ht (hr turns ht))) fun o₁ ho₁ => ?_
    refine M.Safe.bind (skinLosses_safe hs h0 hproper ht ho₁.1 ho₁.2.1 ho₁.2.2) fun o₂ ho₂ => ?_
    rw [ht]
    simp only
    by_cases hall : exc.all Option.isSome = true
    · have hall' : ∀ x ∈ exc, ∃ (c : Current) (h : Harmonics), x = some c ∧ c.harmonics = some h := by
        intro x hx
        obtain ⟨cur, rfl⟩ := Option.isSome_iff_exists.1 (List.all_eq_true.1 hall x hx)
        obtain ⟨h, hh, _⟩ := hsome cur hx
        exact ⟨cur, h, rfl, hh⟩
      obtain ⟨n, hn⟩ := ho₂.2.2 hall'
      refine M.Safe.bind (M.Safe.lift (P := fun _ => True) ?_) fun fields _ => ?_
      · unfold fieldOf; rw [if_pos hall]; exact .ok trivial
      refine M.Safe.bind (M.Safe.lift (proximityLosses_safe hp (n := n) ho₂.1 fun e he => ?_)) fun o₃ ho₃ => ?_
      · obtain ⟨h1, l, hl⟩ := ho₂.2.1 e he
        exact ⟨h1, l, hl, hn e he l hl⟩
      · exact M.Safe.lift (combineAll_safe ho₃.2)
    · intro s
      unfold fieldOf
      rw [if_neg hall]
      exact .throws

/-- The case of `losses_defined_partial`, with different harmonics in two windings. -/
example : ((losses (setup true) coil [some ⟨some 5, none, some ⟨[0, 4], [0, 100]⟩⟩,
      some ⟨some 1, none, some ⟨[0, 2, 1], [0, 100, 200]⟩⟩] true ()).2.holds fun o => o.perWinding.length == 2) = true ∧
    coil.turns.isSome = true := by
  decide +kernel

example : InRange coil.windings (coil.turns.getD []) := by
  intro t ht w x hw hx
  have ht : t ∈ ([⟨"p", 0, 2, some "l1", some "s1", (0, 0), none⟩, ⟨"p", 1, 3, some "l1", some "s1", (1, 0), none⟩, ⟨"s", 0, 5, some "l2", some "s2", (2, 0), some (-2, 0)⟩] : List Turn) := ht
  simp only [List.mem_cons, List.not_mem_nil, or_false] at ht
  rcases ht with rfl | rfl | rfl
  all_goals
    simp [windingIndex, coil, List.findIdx_cons] at hw
    subst hw
    simp [coil] at hx
    subst hx
    decide

/-- C89 is false for a turn of a parallel that its winding does not have. -/
theorem parallel_past_the_end : ∃ (S : Type) (u : Setup S) (c : Coil) (exc : List (Option Current)) (s : S),
    (losses u c exc true s).2 = .ub ∧ ∀ c : Current, some c ∈ exc → ∃ h : Harmonics, c.harmonics = some h ∧ Proper h := by
  refine ⟨Unit, setup false, { coil with turns := some [⟨"p", 0, 2, some "l1", some "s1", (0, 0), none⟩, ⟨"p", 2, 3, some "l1", some "s1", (1, 0), none⟩] }, currents, (), by decide +kernel, ?_⟩
  intro c hc
  simp only [currents, List.mem_cons, Option.some.injEq, List.not_mem_nil, or_false] at hc
  rcases hc with rfl | rfl
  · exact ⟨_, rfl, by simp [Proper]⟩
  · exact ⟨_, rfl, by simp [Proper]⟩

/-- C89 is false for harmonics that are there, but empty. -/
theorem harmonics_empty : ∃ (S : Type) (u : Setup S) (exc : List (Option Current)) (s : S),
    (losses u coil exc true s).2 = .ub ∧ ∀ c : Current, some c ∈ exc → c.harmonics = some ⟨[], []⟩ := by
  refine ⟨Unit, setup false, [some ⟨some 1, none, some ⟨[], []⟩⟩, some ⟨some 1, none, some ⟨[], []⟩⟩], (), by decide +kernel, ?_⟩
  intro c hc
  simp only [List.mem_cons, Option.some.injEq, List.not_mem_nil, or_false] at hc
  rcases hc with rfl | rfl <;> rfl

end Verif.WindingLosses
